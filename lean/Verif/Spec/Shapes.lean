import Mathlib.Data.List.Basic
import Mathlib.Data.Int.Basic

/-!
# Specification: NumPy broadcasting, axes, sizes

Independent of `Verif/Model/Shapes.lean`.
-/

namespace Spec.Shapes

/-- Size of the `i`-th axis counted from the right (`0` is the last axis); missing axes count
as size one. -/
def dimR (s : List ℕ) (i : ℕ) : ℕ := s.reverse.getD i 1

/-- The NumPy rule: `r` is the broadcast of `shapes` when it has the largest rank, every axis of
every shape is either one or the axis of `r`, and an axis of `r` other than one comes from one
of the shapes. -/
structure Broadcast (shapes : List (List ℕ)) (r : List ℕ) : Prop where
  rank_le : ∀ s ∈ shapes, s.length ≤ r.length
  rank_mem : r = [] ∨ ∃ s ∈ shapes, s.length = r.length
  fits : ∀ s ∈ shapes, ∀ i < r.length, dimR s i = 1 ∨ dimR s i = dimR r i
  comes : ∀ i < r.length, dimR r i ≠ 1 → ∃ s ∈ shapes, dimR s i = dimR r i

/-- Indices of the same axis of a tensor with `dim` axes. -/
def SameAxis (dim i j : ℤ) : Prop := i = j ∨ i = j + dim ∨ j = i + dim

/-- `i` is a legal axis index. -/
def Legal (dim i : ℤ) : Prop := -dim ≤ i ∧ i < dim

/-- The shape without the axes listed in `ds`. -/
def removeAxes (s : List ℕ) (ds : List ℕ) : List ℕ :=
  (s.zipIdx.filter fun p => !ds.contains p.2).map Prod.fst

end Spec.Shapes
