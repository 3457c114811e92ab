import Mathlib.Data.Complex.Basic
import Mathlib.Data.Matrix.Basic
import Mathlib.Algebra.BigOperators.Group.Finset.Basic

/-! Vocabulary: closest points. -/

namespace Geoopt.SpecNearest

/-- Squared Euclidean distance of two vectors. -/
def sqVec {n : ℕ} (x y : Fin n → ℝ) : ℝ := ∑ i, (x i - y i) ^ 2

/-- Squared Frobenius distance of two matrices. -/
def sqMat {n m : ℕ} (x y : Matrix (Fin n) (Fin m) ℝ) : ℝ := ∑ i, ∑ j, (x i j - y i j) ^ 2

/-- Squared Frobenius distance of two complex matrices. -/
def sqCMat {n : ℕ} (x y : Matrix (Fin n) (Fin n) ℂ) : ℝ := ∑ i, ∑ j, Complex.normSq (x i j - y i j)

/-- `p` is in `S`, and no point of `S` is closer to `x`. -/
def Closest {E : Type} (d : E → E → ℝ) (S : E → Prop) (x p : E) : Prop :=
  S p ∧ ∀ y, S y → d x p ≤ d x y

/-- `p` is in `S`, and every other point of `S` is farther from `x`. -/
def OnlyClosest {E : Type} (d : E → E → ℝ) (S : E → Prop) (x p : E) : Prop :=
  S p ∧ ∀ y, S y → y ≠ p → d x p < d x y

end Geoopt.SpecNearest
