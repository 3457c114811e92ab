import Verif.Model.Axis

/-!
# What the `dim` argument should mean

Independent of the model of any function: a function with a `dim` argument respects it when
calling it with `dim=d` is the same as moving axis `d` to the end of every tensor argument,
calling it with `dim=-1`, and (if the result still has that axis) moving the axis back.
-/

namespace Geoopt.SpecAxis
open Geoopt Geoopt.Axis
variable {m : ℕ}

/-- `t'` is `t` with axis `d` moved to the end: the last axis of `t'` is axis `d` of `t`, the
other axes keep their order, and the entries are those of `t`. -/
structure MovedLast (d : Fin (m + 1)) (t t' : Tensor (m + 1)) : Prop where
  size_last : t'.shape (Fin.last m) = t.shape d
  size_other : ∀ k : Fin m, t'.shape k.castSucc = t.shape (d.succAbove k)
  entry : ∀ (j : ℕ) (b : Fin m → ℕ),
    t'.val (Fin.snoc (α := fun _ => ℕ) b j) = t.val (d.insertNth (α := fun _ => ℕ) j b)

/-- A function of one tensor whose result keeps the axis respects `dim`. -/
def Keeps1 (F : Fin (m + 1) → Tensor (m + 1) → Tensor (m + 1)) : Prop :=
  ∀ d x x', MovedLast d x x' → MovedLast d (F d x) (F (Fin.last m) x')

/-- A function of two tensors whose result keeps the axis respects `dim`. -/
def Keeps2 (F : Fin (m + 1) → Tensor (m + 1) → Tensor (m + 1) → Tensor (m + 1)) : Prop :=
  ∀ d x x' y y', MovedLast d x x' → MovedLast d y y' →
    MovedLast d (F d x y) (F (Fin.last m) x' y')

/-- A function of three tensors whose result keeps the axis respects `dim`. -/
def Keeps3 (F : Fin (m + 1) → Tensor (m + 1) → Tensor (m + 1) → Tensor (m + 1) →
    Tensor (m + 1)) : Prop :=
  ∀ d x x' y y' z z', MovedLast d x x' → MovedLast d y y' → MovedLast d z z' →
    MovedLast d (F d x y z) (F (Fin.last m) x' y' z')

/-- A function of one tensor that removes the axis respects `dim`. -/
def Drops1 {r : ℕ} (F : Fin (m + 1) → Tensor (m + 1) → Tensor r) : Prop :=
  ∀ d x x', MovedLast d x x' → F d x = F (Fin.last m) x'

/-- A function of two tensors that removes the axis respects `dim`. -/
def Drops2 {r : ℕ} (F : Fin (m + 1) → Tensor (m + 1) → Tensor (m + 1) → Tensor r) : Prop :=
  ∀ d x x' y y', MovedLast d x x' → MovedLast d y y' → F d x y = F (Fin.last m) x' y'

/-- A function of three tensors that removes the axis respects `dim`. -/
def Drops3 {r : ℕ}
    (F : Fin (m + 1) → Tensor (m + 1) → Tensor (m + 1) → Tensor (m + 1) → Tensor r) : Prop :=
  ∀ d x x' y y' z z', MovedLast d x x' → MovedLast d y y' → MovedLast d z z' →
    F d x y z = F (Fin.last m) x' y' z'

end Geoopt.SpecAxis
