import Mathlib.LinearAlgebra.Matrix.Trace
import Mathlib.Data.Real.Basic

/-! Vocabulary for the Stiefel manifold. -/

namespace Geoopt.Stiefel
open Matrix
variable {n m : ℕ}

/-- Orthonormal columns. -/
def OnStiefel (x : Matrix (Fin n) (Fin m) ℝ) : Prop := xᵀ * x = 1

/-- Tangent vectors: `xᵀu` is skew-symmetric. -/
def Tangent (x u : Matrix (Fin n) (Fin m) ℝ) : Prop := (xᵀ * u)ᵀ = -(xᵀ * u)

/-- The canonical metric `tr(uᵀ (I - ½ x xᵀ) v)`. -/
noncomputable def canonicalMetric (x u v : Matrix (Fin n) (Fin m) ℝ) : ℝ :=
  (uᵀ * (1 - (2⁻¹ : ℝ) • (x * xᵀ)) * v).trace

/-- The Euclidean metric `tr(uᵀ v)`. -/
def euclideanMetric (u v : Matrix (Fin n) (Fin m) ℝ) : ℝ := (uᵀ * v).trace

end Geoopt.Stiefel
