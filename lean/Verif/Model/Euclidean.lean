import Verif.Model.Shapes
import Mathlib.Analysis.SpecialFunctions.Pow.Real
import Mathlib.Data.Fintype.Pi
import Mathlib.Algebra.BigOperators.Group.Finset.Basic

/-!
# `geoopt/manifolds/euclidean.py` on tensors of any shape

A tensor has a shape (leading axis first, as in Python) and an entry for every index.  An index
is a function `ℕ → ℕ` that counts axes *from the right*, so that broadcasting needs no shift:
`i 0` is the position along the last axis.  Calls that raise in torch or geoopt return
`Except.error`.
-/

namespace Geoopt.Eucl
open Geoopt

/-- Size of the `k`-th axis from the right, `1` when there is none. -/
def dimAt (s : List ℕ) (k : ℕ) : ℕ := s.reverse.getD k 1

/-- A `torch.Tensor`. -/
structure Ten where
  shape : List ℕ
  val : (ℕ → ℕ) → ℝ

/-- The index that broadcasting reads in a tensor of shape `s`. -/
def bidx (s : List ℕ) (i : ℕ → ℕ) : ℕ → ℕ := fun k => if dimAt s k = 1 then 0 else i k

/-- Read an entry the way broadcasting does. -/
def Ten.get (t : Ten) (i : ℕ → ℕ) : ℝ := t.val (bidx t.shape i)

/-- torch's rule for one axis of two operands. -/
def torchDim (a b : ℕ) : Except PyErr ℕ :=
  if a = b then .ok a else if a = 1 then .ok b else if b = 1 then .ok a else .error .runtimeError

/-- The shape of an elementwise operation of torch on two tensors. -/
def torchBroadcast (a b : List ℕ) : Except PyErr (List ℕ) :=
  ((List.range (max a.length b.length)).mapM fun k => torchDim (dimAt a k) (dimAt b k)).map
    List.reverse

/-- An elementwise torch operation on two tensors. -/
def bin (f : ℝ → ℝ → ℝ) (a b : Ten) : Except PyErr Ten :=
  (torchBroadcast a.shape b.shape).map fun r => ⟨r, fun i => f (a.get i) (b.get i)⟩

/-- An elementwise torch operation on one tensor. -/
def Ten.map (f : ℝ → ℝ) (t : Ten) : Ten := ⟨t.shape, fun i => f (t.get i)⟩

/-- `t.expand(target)`: raises unless `target` has at least as many axes and differs from the
shape of `t` only where that has size one. -/
def expand (t : Ten) (target : List ℕ) : Except PyErr Ten :=
  if t.shape.length ≤ target.length ∧
      ∀ k < target.length, dimAt t.shape k = 1 ∨ dimAt t.shape k = dimAt target k then
    .ok ⟨target, fun i => t.get i⟩
  else .error .runtimeError

/-- The shape after reducing the last `nd` axes. -/
def reduced (nd : ℕ) (keepdim : Bool) (s : List ℕ) : List ℕ :=
  s.take (s.length - nd) ++ List.replicate (if keepdim then nd else 0) 1

/-- The index of a term of the sum over the last `nd` axes: position `J` there, `i` elsewhere. -/
def joinIdx (nd : ℕ) (keepdim : Bool) (J : Fin nd → ℕ) (i : ℕ → ℕ) : ℕ → ℕ := fun k =>
  if h : k < nd then J ⟨k, h⟩ else if keepdim then i k else i (k - nd)

/-- `t.sum(dim=tuple(range(-nd, 0)), keepdim=keepdim)` for `nd > 0`: raises when `t` has fewer
axes, except that torch treats a scalar as having one axis. -/
def sumLast (nd : ℕ) (keepdim : Bool) (t : Ten) : Except PyErr Ten :=
  if t.shape = [] ∧ nd = 1 then .ok t
  else if nd ≤ t.shape.length then
    .ok ⟨reduced nd keepdim t.shape, fun i =>
      ∑ J ∈ Fintype.piFinset (fun k : Fin nd => Finset.range (dimAt t.shape k)),
        t.get (joinIdx nd keepdim J i)⟩
  else .error .indexError

/-- `t.norm(dim=tuple(range(-nd, 0)), keepdim=keepdim)`.  `torch.norm` with its default `p="fro"`
accepts at most `maxAxes` axes (two in current versions) and raises `RuntimeError` for more. -/
noncomputable def normLast (maxAxes nd : ℕ) (keepdim : Bool) (t : Ten) : Except PyErr Ten :=
  if maxAxes < nd then .error .runtimeError
  else (sumLast nd keepdim (t.map (· ^ 2))).map (Ten.map Real.sqrt)

/-- `euclidean.py:41-42` `retr`. -/
noncomputable def retr (x u : Ten) : Except PyErr Ten := bin (· + ·) x u

/-- `euclidean.py:103-104` `expmap`. -/
noncomputable def expmap (x u : Ten) : Except PyErr Ten := bin (· + ·) x u

/-- `euclidean.py:84-85` `logmap`. -/
noncomputable def logmap (x y : Ten) : Except PyErr Ten := bin (· - ·) y x

/-- `euclidean.py:81-82` `projx`. -/
def projx (x : Ten) : Ten := x

/-- `euclidean.py:47-50`, `:64-67`: the entrywise product. -/
noncomputable def entrywise (u : Ten) : Option Ten → Except PyErr Ten
  | none => .ok (u.map (· ^ 2))
  | some v => bin (· * ·) u v

/-- `euclidean.py:44-58` `inner`. -/
noncomputable def inner (nd : ℕ) (x u : Ten) (v : Option Ten) (keepdim : Bool) : Except PyErr Ten := do
  let inner ← entrywise u v
  if nd > 0 then
    let inner ← sumLast nd keepdim inner
    let xShape := x.shape.take (x.shape.length - nd) ++ List.replicate (if keepdim then nd else 0) 1
    let target ← broadcastShapes [xShape, inner.shape]
    expand inner target
  else
    let target ← broadcastShapes [x.shape, inner.shape]
    expand inner target

/-- `euclidean.py:60-69` `component_inner`. -/
noncomputable def componentInner (x u : Ten) (v : Option Ten) : Except PyErr Ten := do
  let inner ← entrywise u v
  let target ← broadcastShapes [x.shape, inner.shape]
  expand inner target

/-- `euclidean.py:71-75` `norm`. -/
noncomputable def norm (maxAxes nd : ℕ) (_x u : Ten) (keepdim : Bool) : Except PyErr Ten :=
  if nd > 0 then normLast maxAxes nd keepdim u else .ok (u.map abs)

/-- `euclidean.py:77-79` `proju`. -/
def proju (x u : Ten) : Except PyErr Ten := do
  let target ← broadcastShapes [x.shape, u.shape]
  expand u target

/-- `euclidean.py:99-101` `egrad2rgrad`. -/
def egrad2rgrad (x u : Ten) : Except PyErr Ten := do
  let target ← broadcastShapes [x.shape, u.shape]
  expand u target

/-- `euclidean.py:106-108` `transp`. -/
def transp (x y v : Ten) : Except PyErr Ten := do
  let target ← broadcastShapes [x.shape, y.shape, v.shape]
  expand v target

/-- `euclidean.py:87-91` `dist`. -/
noncomputable def dist (maxAxes nd : ℕ) (x y : Ten) (keepdim : Bool) : Except PyErr Ten := do
  let d ← bin (· - ·) x y
  if nd > 0 then normLast maxAxes nd keepdim d else .ok (d.map abs)

/-- `euclidean.py:93-97` `dist2`. -/
noncomputable def dist2 (nd : ℕ) (x y : Ten) (keepdim : Bool) : Except PyErr Ten := do
  let d ← bin (· - ·) x y
  if nd > 0 then sumLast nd keepdim (d.map (· ^ 2)) else .ok (d.map (· ^ 2))

/-- `base.py:761-768` `_check_shape` and `:789-791`: too few axes raise `ValueError`. -/
def assertCheckShape (nd : ℕ) (shape : List ℕ) : Except PyErr Unit :=
  if nd ≤ shape.length then .ok () else .error .valueError

/-- `euclidean.py:111-139` `random_normal`; `noise` are the values drawn by `normal_()` into a
tensor of the requested shape. -/
noncomputable def randomNormal (nd : ℕ) (shape : List ℕ) (noise : (ℕ → ℕ) → ℝ) (mean std : Ten) :
    Except PyErr Ten := do
  assertCheckShape nd shape
  let t ← bin (· * ·) ⟨shape, noise⟩ std
  bin (· + ·) t mean

/-- `euclidean.py:143-167` `origin`. -/
def origin (nd : ℕ) (shape : List ℕ) : Except PyErr Ten := do
  assertCheckShape nd shape
  .ok ⟨shape, fun _ => 0⟩

end Geoopt.Eucl
