import Verif.Model.Origin

/-!
# What the caller of `origin` expects

The tensors and their indexing are those of `Verif/Model/Origin.lean`.
-/

namespace Geoopt.Origin

variable {α : Type}

/-- The three ways to ask for the shape `s`: `origin(2, 3)`, `origin((2, 3))`, `origin([2, 3])`. -/
def Requests (args : List PyVal) (s : List ℕ) : Prop :=
  (s ≠ [] ∧ args = s.map .int) ∨ args = [.tuple (s.map .int)] ∨ args = [.list (s.map .int)]

/-- The tensor owns each of its entries: writing one leaves the others alone, and it can be overwritten
as a whole by any values (what an optimiser does with a parameter). -/
structure OwnsEntries (t : Ten α) : Prop where
  write : ∀ idx idx', ValidIdx t.shape idx → ValidIdx t.shape idx' → ∀ v,
    (idx' = idx → (t.set idx v).entry idx' = v) ∧
    (idx' ≠ idx → (t.set idx v).entry idx' = t.entry idx')
  copy : ∀ src : List ℕ → α, ∃ t', t.copy_ src = .ok t' ∧ t'.shape = t.shape ∧
    ∀ idx, ValidIdx t.shape idx → t'.entry idx = src idx

/-- The vector of length `n` at the batch position `b`. -/
def Ten.vec (t : Ten α) (n : ℕ) (b : List ℕ) : Fin n → α := fun i => t.entry (b ++ [i.val])

/-- The `n × m` matrix at the batch position `b`. -/
def Ten.mat (t : Ten α) (n m : ℕ) (b : List ℕ) : Matrix (Fin n) (Fin m) α :=
  fun i j => t.entry (b ++ [i.val, j.val])

/-- The call returned a tensor of exactly the shape `s`. -/
def Returns (r : Except PyErr (Ten α)) (s : List ℕ) (P : Ten α → Prop) : Prop :=
  ∃ t, r = .ok t ∧ t.shape = s ∧ P t

end Geoopt.Origin
