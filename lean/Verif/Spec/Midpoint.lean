import Verif.Model.Stereo

/-! Vocabulary for the weighted midpoint. -/

namespace Geoopt.Stereo
variable {n : ℕ}

/-- Points of the ball that are not too close to its boundary: `|k| ‖x‖² ≤ 998/999` (conformal factor at
most 1998). -/
def Central (k : ℝ) (x : Vec n) : Prop := -k * (x ⬝ᵥ x) ≤ 998 / 999

/-- `∑ w_j sinh²(√|k| dist(μ, x_j) / 2)`, how far the points with their weights are spread about `μ`. -/
noncomputable def spread {N : ℕ} (k : ℝ) (xs : Fin N → Vec n) (w : Fin N → ℝ) (μ : Vec n) : ℝ :=
  ∑ j, w j * Real.sinh (Real.sqrt (-k) * dist 0 k μ (xs j) / 2) ^ 2

/-- The same for `k = 0`: `∑ w_j dist(μ, x_j)² / 4` (at curvature zero distances are twice the Euclidean
ones). -/
noncomputable def flatSpread {N : ℕ} (η : ℝ) (xs : Fin N → Vec n) (w : Fin N → ℝ) (μ : Vec n) : ℝ :=
  ∑ j, w j * (dist η 0 μ (xs j) / 2) ^ 2

end Geoopt.Stereo
