import Verif.Model.Vec
import Mathlib.Analysis.Calculus.FDeriv.Basic
import Mathlib.Data.Real.Sqrt
import Mathlib.Topology.Algebra.Module.FiniteDimension

/-! What `backward()` leaves in `.grad`: the partial derivatives of a differentiable loss. -/

namespace Geoopt
open Matrix

/-- `g` is the Euclidean gradient of `F` at `x`: `F` is differentiable there and its derivative in
the direction `v` is `Σ gᵢ vᵢ`. -/
def HasGrad {n : ℕ} (F : Vec n → ℝ) (g x : Vec n) : Prop :=
  ∃ L : Vec n →L[ℝ] ℝ, HasFDerivAt F L x ∧ ∀ v, L v = ∑ i, g i * v i

/-- `G` is the gradient of `F` at the symmetric matrix `x` in the space of symmetric matrices:
`F z = F x + Σ Gᵢⱼ (zᵢⱼ - xᵢⱼ) + o(‖z - x‖)` for symmetric `z`.  (Autograd returns a matrix with this
property; it need not be symmetric, because `F` may read one triangle only.) -/
def HasSymGrad {n : ℕ} (F : Matrix (Fin n) (Fin n) ℝ → ℝ) (G x : Matrix (Fin n) (Fin n) ℝ) : Prop :=
  ∀ ε > 0, ∃ δ > 0, ∀ z : Matrix (Fin n) (Fin n) ℝ, zᵀ = z →
    Real.sqrt (∑ i, ∑ j, (z i j - x i j) ^ 2) < δ →
    |F z - F x - ∑ i, ∑ j, G i j * (z i j - x i j)| ≤
      ε * Real.sqrt (∑ i, ∑ j, (z i j - x i j) ^ 2)

end Geoopt
