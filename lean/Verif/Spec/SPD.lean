import Mathlib.LinearAlgebra.Matrix.NonsingularInverse
import Mathlib.Data.Matrix.Mul
import Mathlib.Data.Real.Basic

/-! Vocabulary for symmetric positive definite matrices. -/

namespace Geoopt.SPD
open Matrix
variable {n : ℕ}

def Symm (x : Matrix (Fin n) (Fin n) ℝ) : Prop := ∀ i j, x i j = x j i

/-- Symmetric positive definite. -/
def OnSPD (x : Matrix (Fin n) (Fin n) ℝ) : Prop :=
  Symm x ∧ ∀ w : Fin n → ℝ, w ≠ 0 → 0 < w ⬝ᵥ (x *ᵥ w)

/-- Symmetric positive semidefinite. -/
def OnSPSD (x : Matrix (Fin n) (Fin n) ℝ) : Prop :=
  Symm x ∧ ∀ w : Fin n → ℝ, 0 ≤ w ⬝ᵥ (x *ᵥ w)

/-- The four laws of a metric on SPD matrices. -/
structure IsMetric (d : Matrix (Fin n) (Fin n) ℝ → Matrix (Fin n) (Fin n) ℝ → ℝ) : Prop where
  nonneg : ∀ x y, OnSPD x → OnSPD y → 0 ≤ d x y
  symm : ∀ x y, OnSPD x → OnSPD y → d x y = d y x
  eq_iff : ∀ x y, OnSPD x → OnSPD y → (d x y = 0 ↔ x = y)
  triangle : ∀ x y z, OnSPD x → OnSPD y → OnSPD z → d x z ≤ d x y + d y z

end Geoopt.SPD
