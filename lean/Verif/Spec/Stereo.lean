import Verif.Model.Stereo

/-!
# Vocabulary for the statements about the stereographic model

Nothing here refers to how the code computes its results.
-/

namespace Geoopt.Stereo
open Geoopt
variable {n : ℕ}

/-- The open ball of radius `1/√(-k)` (everything when `k ≥ 0`): the manifold. -/
def OpenBall (k : ℝ) (x : Vec n) : Prop := -k * (x ⬝ᵥ x) < 1

/-- The points the library accepts without moving them: norm at most
`(1-eps)/√(|k|+η)` where `eps` is 4e-3 for float32 and 1e-5 for float64. -/
def Valid (η : ℝ) (dt : DType) (k : ℝ) (x : Vec n) : Prop :=
  nrm x ≤ (1 - (match dt with | .f32 => 4e-3 | .f64 => 1e-5)) / Real.sqrt (|k| + η)

/-- Radii on which `artan_k` is not clamped (and the curvature is not in the
Taylor zone `0 < |k| ≤ 1e-8`). -/
def RadiusOk (η k r : ℝ) : Prop :=
  0 ≤ r ∧ (k = 0 ∨ 1e-8 < k ∨ (k < -1e-8 ∧ r * Real.sqrt (|k| + η) ≤ 1 - 1e-7))

/-- Half-distances on which `tan_k` followed by `artan_k` is not clamped and does
not pass the cut locus. -/
def HalfLenOk (η k t : ℝ) : Prop :=
  0 ≤ t ∧ (k = 0 ∨ (1e-8 < k ∧ t * Real.sqrt (|k| + η) < Real.pi / 2) ∨
    (k < -1e-8 ∧ Real.tanh (t * Real.sqrt (|k| + η)) ≤ 1 - 1e-7))

end Geoopt.Stereo
