import Mathlib.Tactic

/-!
# Specification for the tree dataset

Nodes are numbered level by level: the root is `0` and the children of `p` are
`b p + 1, ..., b p + b`.
-/

namespace Spec.Tree

/-- Number of nodes of the complete `b`-ary tree of the given depth. -/
def size (b depth : ℕ) : ℕ := ∑ i ∈ Finset.range (depth + 1), b ^ i

/-- The parent of a node other than the root. -/
def parent (b i : ℕ) : ℕ := (i - 1) / b

/-- The nodes on the way from the root (excluded) to `i` (included). -/
def path (b : ℕ) : ℕ → List ℕ
  | 0 => []
  | j + 1 => path b (j / b) ++ [j + 1]
decreasing_by exact Nat.lt_succ_of_le (Nat.div_le_self j b)

/-- How far `i` is from the root. -/
def depthOf (b i : ℕ) : ℕ := (path b i).length

/-- The ids written into the label of `i`: those of its path; the root carries its own id. -/
def ids (b i : ℕ) : List ℕ := if i = 0 then [0] else path b i

/-- A list of ids in a row of the given width, filled up with `-1`. -/
def row (width : ℕ) (l : List ℕ) : List ℤ :=
  l.map (fun i : ℕ => (i : ℤ)) ++ List.replicate (width - l.length) (-1)

end Spec.Tree
