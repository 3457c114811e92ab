import Mathlib.Data.Complex.Basic
import Mathlib.Data.Matrix.Mul
import Mathlib.LinearAlgebra.Matrix.NonsingularInverse
import Mathlib.Algebra.BigOperators.Group.Finset.Basic

/-! Vocabulary for the Siegel spaces. -/

namespace Geoopt.Siegel
open Matrix
variable {n : ℕ}

/-- Squared length of a complex vector. -/
def len2 (w : Fin n → ℂ) : ℝ := ∑ i, Complex.normSq (w i)

/-- Squared length of a real vector. -/
def rlen2 (w : Fin n → ℝ) : ℝ := ∑ i, w i ^ 2

/-- A complex symmetric matrix. -/
def CSymm (z : Matrix (Fin n) (Fin n) ℂ) : Prop := ∀ i j, z i j = z j i

/-- The quadratic form of the imaginary part. -/
def imForm (z : Matrix (Fin n) (Fin n) ℂ) (w : Fin n → ℝ) : ℝ := ∑ i, ∑ j, w i * (z i j).im * w j

/-- The Siegel upper half space: symmetric, with positive definite imaginary part. -/
def OnUpperHalf (z : Matrix (Fin n) (Fin n) ℂ) : Prop :=
  CSymm z ∧ ∀ w : Fin n → ℝ, w ≠ 0 → 0 < imForm z w

/-- The bounded domain: symmetric, with `Id - conj(z) z` positive definite.  For symmetric `z` the
value of that Hermitian form at `w` is `‖w‖² - ‖z w‖²`. -/
def OnBounded (z : Matrix (Fin n) (Fin n) ℂ) : Prop :=
  CSymm z ∧ ∀ w : Fin n → ℂ, w ≠ 0 → len2 (z *ᵥ w) < len2 w

/-- The real symplectic group, in blocks: `((A, B), (C, D))` preserves the standard form. -/
structure Symplectic (A B C D : Matrix (Fin n) (Fin n) ℝ) : Prop where
  ac : Aᵀ * C = Cᵀ * A
  bd : Bᵀ * D = Dᵀ * B
  ad : Aᵀ * D - Cᵀ * B = 1

/-- The action of the symplectic group: `z ↦ (A z + B) (C z + D)⁻¹`. -/
noncomputable def act (A B C D : Matrix (Fin n) (Fin n) ℝ) (z : Matrix (Fin n) (Fin n) ℂ) :
    Matrix (Fin n) (Fin n) ℂ :=
  (A.map (fun x => (x : ℂ)) * z + B.map (fun x => (x : ℂ))) *
    (C.map (fun x => (x : ℂ)) * z + D.map (fun x => (x : ℂ)))⁻¹

/-- The Euclidean pairing of a gradient with a direction: real and imaginary parts are independent
real parameters. -/
def pairing (g v : Matrix (Fin n) (Fin n) ℂ) : ℝ :=
  ∑ i, ∑ j, ((g i j).re * (v i j).re + (g i j).im * (v i j).im)

end Geoopt.Siegel
