import Verif.Model.Vec
import Mathlib.Data.Fin.Tuple.Basic
import Mathlib.Logic.Equiv.Fin.Basic
import Mathlib.Algebra.BigOperators.Group.Finset.Basic
import Mathlib.Data.Fintype.Pi

/-!
# Tensors with several axes, and the torch operations that take an axis

The other model files treat one batch element at a time, with the manifold axis already
selected.  This file models whole tensors, so that one can say what the `dim` argument of a
function does.  A tensor of rank `r` has a size for each axis and an entry for each index.
Entries outside the sizes are never read by the operations below, because every read goes
through `Tensor.get`, through a sum over an axis, or through a slice.

`dim` is a `Fin (m + 1)`: Python's `dim` after the usual wrapping of negative values, so
`dim=-1` is `Fin.last m`.  Two tensors that torch cannot broadcast together make torch raise;
the operations here are total and give an arbitrary result in that case, which does not
depend on the order of the axes either.
-/

namespace Geoopt.Axis
open Geoopt

/-- A `torch.Tensor` with `r` axes: `shape` is `t.size()`, `val` the entries. -/
@[ext] structure Tensor (r : ℕ) where
  shape : Fin r → ℕ
  val : (Fin r → ℕ) → ℝ

variable {r m : ℕ}

namespace Tensor

/-- The index that broadcasting reads in a tensor with sizes `s`: `0` along an axis of size
one. -/
def bidx (s i : Fin r → ℕ) : Fin r → ℕ := fun k => if s k = 1 then 0 else i k

/-- Read an entry the way broadcasting does: an axis of size one is read at `0`. -/
def get (t : Tensor r) (i : Fin r → ℕ) : ℝ := t.val (bidx t.shape i)

/-- An elementwise torch function of one tensor (`torch.sqrt(t)`, `t.clamp_min(c)`, `c * t`
with a number or a zero-dimensional tensor `c`, ...). -/
def map (f : ℝ → ℝ) (t : Tensor r) : Tensor r := ⟨t.shape, fun i => f (t.val i)⟩

/-- The size of an axis after torch broadcasting. -/
def bsize (a b : ℕ) : ℕ := if a = 1 then b else a

/-- An elementwise torch function of two tensors of the same rank, with broadcasting. -/
def map2 (f : ℝ → ℝ → ℝ) (a b : Tensor r) : Tensor r :=
  ⟨fun k => bsize (a.shape k) (b.shape k), fun i => f (a.get i) (b.get i)⟩

instance : Add (Tensor r) := ⟨map2 (· + ·)⟩
noncomputable instance : Sub (Tensor r) := ⟨map2 (· - ·)⟩
instance : Mul (Tensor r) := ⟨map2 (· * ·)⟩
noncomputable instance : Div (Tensor r) := ⟨map2 (· / ·)⟩
instance : Neg (Tensor r) := ⟨map (- ·)⟩

/-- `torch.where(cond, a, b)`; a boolean tensor has entries `1` (true) and `0` (false). -/
noncomputable def whr (c a b : Tensor r) : Tensor r :=
  ⟨fun k => bsize (c.shape k) (bsize (a.shape k) (b.shape k)),
   fun i => if c.get i = 0 then b.get i else a.get i⟩

/-- A boolean tensor obtained from a comparison of two tensors. -/
noncomputable def cmp (p : ℝ → ℝ → Prop) (a b : Tensor r) : Tensor r :=
  open Classical in map2 (fun x y => if p x y then 1 else 0) a b

/-- A boolean tensor obtained by testing every entry. -/
noncomputable def test (p : ℝ → Prop) (a : Tensor r) : Tensor r :=
  open Classical in map (fun x => if p x then 1 else 0) a

/-- `t.any()` of a boolean tensor. -/
def Any (t : Tensor r) : Prop := ∃ i : Fin r → ℕ, (∀ k, i k < t.shape k) ∧ t.get i ≠ 0

/-- `t.sum(dim=d, keepdim=True)`. -/
def sumK (d : Fin r) (t : Tensor r) : Tensor r :=
  ⟨Function.update t.shape d 1,
   fun i => ∑ j ∈ Finset.range (t.shape d), t.get (Function.update i d j)⟩

/-- `t.prod(dim=d, keepdim=True)`. -/
def prodK (d : Fin r) (t : Tensor r) : Tensor r :=
  ⟨Function.update t.shape d 1,
   fun i => ∏ j ∈ Finset.range (t.shape d), t.get (Function.update i d j)⟩

/-- `t.norm(p=2, dim=d, keepdim=True)`. -/
noncomputable def normK (d : Fin r) (t : Tensor r) : Tensor r :=
  (sumK d (t.map (· ^ 2))).map Real.sqrt

/-- `t.squeeze(d)` for an axis `d` of size one. -/
def squeeze (d : Fin (m + 1)) (t : Tensor (m + 1)) : Tensor m :=
  ⟨fun k => t.shape (d.succAbove k), fun i => t.val (d.insertNth (α := fun _ => ℕ) 0 i)⟩

/-- `t.unsqueeze(d)`. -/
def unsqueeze (d : Fin (m + 1)) (t : Tensor m) : Tensor (m + 1) :=
  ⟨d.insertNth (α := fun _ => ℕ) 1 t.shape, fun i => t.val fun k => i (d.succAbove k)⟩

/-- `t.sum(dim=d, keepdim=False)`. -/
def sum (d : Fin (m + 1)) (t : Tensor (m + 1)) : Tensor m := squeeze d (sumK d t)

/-- `t.norm(p=2, dim=d, keepdim=False)`. -/
noncomputable def norm (d : Fin (m + 1)) (t : Tensor (m + 1)) : Tensor m := squeeze d (normK d t)

/-- `t.narrow(d, start, len)`. -/
def narrow (d : Fin r) (start len : ℕ) (t : Tensor r) : Tensor r :=
  ⟨Function.update t.shape d len, fun i => t.val (Function.update i d (i d + start))⟩

/-- `torch.cat((a, b), dim=d)` (the other sizes agree, otherwise torch raises). -/
def cat (d : Fin r) (a b : Tensor r) : Tensor r :=
  ⟨Function.update a.shape d (a.shape d + b.shape d),
   fun i => if i d < a.shape d then a.val i
     else b.val (Function.update i d (i d - a.shape d))⟩

/-- `t.sum(reducedim, keepdim=True)` where `reducedim` lists every axis except `d`. -/
def sumOthersK (d : Fin r) (t : Tensor r) : Tensor r :=
  ⟨fun k => if k = d then t.shape d else 1,
   fun i => ∑ J ∈ Fintype.piFinset
      (fun k => if k = d then {i d} else Finset.range (t.shape k)), t.get J⟩

/-- `utils.py:95-102` `drop_dims(t, reducedim)` where `reducedim` lists, in increasing order,
every axis except `d` and these have size one: the entries along `d` are left. -/
def dropOthers (d : Fin r) (t : Tensor r) : Tensor 1 :=
  ⟨fun _ => t.shape d, fun i => t.val (Function.update 0 d (i 0))⟩

/-- `t.numel()`. -/
def numel (t : Tensor r) : ℕ := ∏ k, t.shape k

/-- `t.permute(σ 0, …, σ (r-1))`. -/
def perm (σ : Equiv.Perm (Fin r)) (t : Tensor r) : Tensor r :=
  ⟨fun k => t.shape (σ k), fun i => t.val fun k => i (σ.symm k)⟩

/-- The order of axes in which axis `d` comes last and the others keep their order. -/
def lastPerm (d : Fin (m + 1)) : Equiv.Perm (Fin (m + 1)) :=
  (finSuccEquiv' (Fin.last m)).trans (finSuccEquiv' d).symm

/-- `t.moveaxis(d, -1)`. -/
def moveLast (d : Fin (m + 1)) (t : Tensor (m + 1)) : Tensor (m + 1) := t.perm (lastPerm d)

/-- The manifold vector at the batch position of `i`: the `n` entries along axis `d`. -/
def fib (d : Fin r) (n : ℕ) (t : Tensor r) (i : Fin r → ℕ) : Vec n :=
  fun j => t.get (Function.update i d (j : ℕ))

end Tensor
end Geoopt.Axis
