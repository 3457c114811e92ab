import Mathlib.Data.Matrix.Basic
import Mathlib.Data.Real.Basic
import Mathlib.Algebra.BigOperators.Group.Finset.Basic

/-! Vocabulary for doubly stochastic matrices. -/

namespace Geoopt.Birkhoff
variable {n : ℕ}

def rowSum (x : Matrix (Fin n) (Fin n) ℝ) (i : Fin n) : ℝ := ∑ j, x i j
def colSum (x : Matrix (Fin n) (Fin n) ℝ) (j : Fin n) : ℝ := ∑ i, x i j

def Positive (x : Matrix (Fin n) (Fin n) ℝ) : Prop := ∀ i j, 0 < x i j

/-- Entrywise positive with all row and column sums `1`. -/
structure DoublyStochastic (x : Matrix (Fin n) (Fin n) ℝ) : Prop where
  pos : Positive x
  row : ∀ i, rowSum x i = 1
  col : ∀ j, colSum x j = 1

/-- Zero row and column sums. -/
structure Tangent (u : Matrix (Fin n) (Fin n) ℝ) : Prop where
  row : ∀ i, rowSum u i = 0
  col : ∀ j, colSum u j = 0

end Geoopt.Birkhoff
