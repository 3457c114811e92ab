import Verif.Model.Shapes
import Verif.Model.Vec
import Verif.Model.Sphere
import Mathlib.Data.Complex.Basic
import Mathlib.Data.Matrix.Basic

/-!
# `origin(*size)` of the manifold classes

The point is the tensor the user gets: its shape, its strides and the storage behind it.  The size
may be spelled `origin(2, 3)`, `origin((2, 3))` or `origin([2, 3])`; the list of arguments is a list of
`PyVal`.  The arguments `dtype` and `device` are left at their default `None`.
-/

namespace Geoopt.Origin

/-! ## Strided tensors -/

/-- A torch tensor: sizes, strides (in entries) and the storage it is a view of. -/
structure Ten (α : Type) where
  shape : List ℕ
  strides : List ℕ
  cells : ℕ → α

/-- `idx` is a multi-index into a tensor of the given shape. -/
def ValidIdx (shape idx : List ℕ) : Prop := List.Forall₂ (· < ·) idx shape

/-- The position in the storage of the entry at `idx`. -/
def addr (strides idx : List ℕ) : ℕ := (List.zipWith (· * ·) idx strides).sum

variable {α : Type}

/-- `t[idx]`. -/
def Ten.entry (t : Ten α) (idx : List ℕ) : α := t.cells (addr t.strides idx)

/-- `t[idx] = v`, a write through the view. -/
def Ten.set (t : Ten α) (idx : List ℕ) (v : α) : Ten α :=
  { t with cells := fun a => if a = addr t.strides idx then v else t.cells a }

/-- The number of cells a contiguous tensor spans; torch counts an empty axis as one here. -/
def span (shape : List ℕ) : ℕ := (shape.map (max 1)).prod

/-- The strides of a freshly allocated (contiguous) tensor. -/
def contiguous : List ℕ → List ℕ
  | [] => []
  | _ :: ds => span ds :: contiguous ds

/-- The multi-index of a position in a contiguous tensor. -/
def unravel : List ℕ → ℕ → List ℕ
  | [], _ => []
  | _ :: ds, a => a / span ds :: unravel ds (a % span ds)

/-- A freshly allocated tensor with given entries. -/
def fresh (shape : List ℕ) (f : List ℕ → α) : Ten α :=
  ⟨shape, contiguous shape, fun a => f (unravel shape a)⟩

open Classical in
/-- `t[where p] = g(t[where p])`, an in-place update of the entries selected by `p` (of the storage cells
they live in). -/
noncomputable def Ten.update (t : Ten α) (p : List ℕ → Prop) (g : α → α) : Ten α :=
  { t with cells := fun a =>
      if ∃ idx, ValidIdx t.shape idx ∧ p idx ∧ addr t.strides idx = a then g (t.cells a) else t.cells a }

/-- torch refuses to write a whole tensor in place when several of its entries share a cell: an axis
of size greater than one with stride zero (`at::has_internal_overlap`; the function has further cases
for strides that cannot arise here). -/
def Ten.overlaps (t : Ten α) : Prop := ∃ p ∈ t.shape.zip t.strides, 1 < p.1 ∧ p.2 = 0

open Classical in
/-- `t.copy_(src)`, how the optimisers write a new point (`geoopt/optim/rsgd.py:111,114,130`,
`geoopt/optim/radam.py:113,135`), for `src` of the same shape. -/
noncomputable def Ten.copy_ (t : Ten α) (src : List ℕ → α) : Except PyErr (Ten α) :=
  if t.overlaps then .error .runtimeError
  else .ok { t with cells := fun a =>
    if h : ∃ idx, ValidIdx t.shape idx ∧ addr t.strides idx = a then src h.choose else t.cells a }

/-- `t.expand(shape)` of a two-dimensional tensor to a shape ending in the same two sizes: the new leading
axes get stride zero.  (Other uses of `expand` do not occur here.) -/
def Ten.expandTo (t : Ten α) (shape : List ℕ) : Ten α :=
  ⟨shape, List.replicate (shape.length - t.shape.length) 0 ++ t.strides, t.cells⟩

/-! ## Sizes -/

/-- A tuple of Python ints. -/
def ints : List PyVal → Option (List ℕ)
  | [] => some []
  | .int n :: l => (ints l).map (n :: ·)
  | _ :: _ => none

/-- How torch factories read `*size`: spread integers, or one tuple or list of integers; no argument at
all or anything else is a `TypeError`. -/
def torchSize : List PyVal → Except PyErr (List ℕ)
  | [] => .error .typeError
  | [.tuple l] => match ints l with | some s => .ok s | none => .error .typeError
  | [.list l] => match ints l with | some s => .ok s | none => .error .typeError
  | l => match ints l with | some s => .ok s | none => .error .typeError

/-- `torch.zeros(*size)`. -/
def zeros [Zero α] (size : List PyVal) : Except PyErr (Ten α) := do
  let s ← torchSize size
  return fresh s fun _ => 0

/-- `torch.ones(*size)`. -/
def ones [One α] (size : List PyVal) : Except PyErr (Ten α) := do
  let s ← torchSize size
  return fresh s fun _ => 1

/-- `torch.eye(*size)`: one or two integers, otherwise a `TypeError`. -/
def eye [Zero α] [One α] : List PyVal → Except PyErr (Ten α)
  | [.int n] => .ok (fresh [n, n] fun idx => if idx.getD 0 0 = idx.getD 1 0 then 1 else 0)
  | [.int n, .int m] => .ok (fresh [n, m] fun idx => if idx.getD 0 0 = idx.getD 1 0 then 1 else 0)
  | _ => .error .typeError

/-- `torch.diag_embed(t)`: a new tensor with the last axis on the diagonal of the last two;
`IndexError` on a 0-dimensional tensor. -/
def diagEmbed [Zero α] (t : Ten α) : Except PyErr (Ten α) :=
  match t.shape.getLast? with
  | none => .error .indexError
  | some n => .ok (fresh (t.shape ++ [n]) fun idx =>
      if idx.getD (t.shape.length - 1) 0 = idx.getD t.shape.length 0
      then t.entry (idx.take t.shape.length) else 0)

/-- `Manifold._check_shape`, `geoopt/manifolds/base.py:761-768`. -/
def baseCheck (ndim : ℕ) (shape : List ℕ) : Bool := decide (ndim ≤ shape.length)

/-- Python `shape[i]` counted from the end (`i = 1` is `shape[-1]`). -/
def fromEnd (shape : List ℕ) (i : ℕ) : ℕ := shape.getD (shape.length - i) 0

/-- `Stiefel._check_shape`, `geoopt/manifolds/stiefel.py:49-63`. -/
def stiefelCheck (shape : List ℕ) : Bool :=
  baseCheck 2 shape && decide (fromEnd shape 1 ≤ fromEnd shape 2)

/-- `BirkhoffPolytope._check_shape`, `geoopt/manifolds/birkhoff_polytope.py:57-73`. -/
def birkhoffCheck (shape : List ℕ) : Bool :=
  baseCheck 2 shape && decide (fromEnd shape 1 = fromEnd shape 2)

/-- `Sphere._check_shape` without a subspace, `geoopt/manifolds/sphere.py:67-89`. -/
def sphereCheck (shape : List ℕ) : Bool :=
  baseCheck 1 shape && decide (fromEnd shape 1 ≠ 1)

/-- `self._assert_check_shape(size2shape(*size), "x")`, `geoopt/manifolds/base.py:771-791`.  A size that
is not made of integers is reported as a `TypeError` (torch raises one a line later; the comparisons
of `_check_shape` may raise one before). -/
def assertShape (check : List ℕ → Bool) (size : List PyVal) : Except PyErr (List ℕ) :=
  match ints (size2shape size) with
  | none => .error .typeError
  | some s => if check s then .ok s else .error .valueError

/-- `ManifoldTensor(t, manifold=self)`, `geoopt/tensor.py:30-45`: shares the storage and checks the
shape. -/
def manifoldTensor (check : List ℕ → Bool) (t : Ten α) : Except PyErr (Ten α) :=
  if check t.shape then .ok t else .error .valueError

/-! ## The methods -/

/-- `Euclidean.origin`, `geoopt/manifolds/euclidean.py:143-167`. -/
def euclidean (ndim : ℕ) (size : List PyVal) : Except PyErr (Ten ℝ) := do
  let _ ← assertShape (baseCheck ndim) size
  let t ← zeros size
  manifoldTensor (baseCheck ndim) t

/-- `Stiefel.origin`, `geoopt/manifolds/stiefel.py:116-138`. -/
noncomputable def stiefel (size : List PyVal) : Except PyErr (Ten ℝ) := do
  let _ ← assertShape stiefelCheck size
  let eye ← zeros size
  let eye := eye.update (fun idx => fromEnd idx 2 = fromEnd idx 1) (· + 1)
  manifoldTensor stiefelCheck eye

/-- `BirkhoffPolytope.origin`, `geoopt/manifolds/birkhoff_polytope.py:175-198`. -/
def birkhoff (size : List PyVal) : Except PyErr (Ten ℝ) := do
  let shape ← assertShape birkhoffCheck size
  let e ← eye ((shape.drop (shape.length - 2)).map .int)
  let e := e.expandTo shape
  manifoldTensor birkhoffCheck e

/-- `Lorentz.origin`, `geoopt/manifolds/lorentz/__init__.py:216-245`; `zero_point[..., 0] = sqrt(k)`
raises `IndexError` when there is no last axis or it is empty. -/
noncomputable def lorentz (k : ℝ) (size : List PyVal) : Except PyErr (Ten ℝ) := do
  let zeroPoint ← zeros size
  if zeroPoint.shape.length = 0 ∨ fromEnd zeroPoint.shape 1 = 0 then throw .indexError
  let zeroPoint := zeroPoint.update (fun idx => fromEnd idx 1 = 0) fun _ => Real.sqrt k
  manifoldTensor (baseCheck 1) zeroPoint

/-- `Stereographic.origin`, `geoopt/manifolds/stereographic/manifold.py:500-524`. -/
def stereographic (size : List PyVal) : Except PyErr (Ten ℝ) := do
  let t ← zeros size
  manifoldTensor (baseCheck 1) t

/-- `BoundedDomain.origin`, `geoopt/manifolds/siegel/bounded_domain.py:184-217`. -/
def bounded (size : List PyVal) : Except PyErr (Ten ℂ) := zeros size

/-- `SymmetricPositiveDefinite.origin`,
`geoopt/manifolds/symmetric_positive_definite.py:271-278`. -/
def spd (size : List PyVal) : Except PyErr (Ten ℝ) := do
  let t ← ones size.dropLast
  diagEmbed t

/-- `torch.complex(torch.zeros_like(imag), imag)`: a new tensor. -/
noncomputable def complexOf (imag : Ten ℝ) : Ten ℂ := fresh imag.shape fun idx => ⟨0, imag.entry idx⟩

/-- `UpperHalf.origin`, `geoopt/manifolds/siegel/upper_half.py:153-185`. -/
noncomputable def upperHalf (size : List PyVal) : Except PyErr (Ten ℂ) := do
  let imag ← eye size.dropLast
  return complexOf imag

/-- The last-axis slice at the multi-index `idx` (of which the last entry is dropped). -/
def Ten.row (t : Ten ℝ) (n : ℕ) (b : List ℕ) : Vec n := fun i => t.entry (b ++ [i.val])

/-- `Sphere.projx` without a subspace, `geoopt/manifolds/sphere.py:126-128`, on every last-axis slice (of
length `n`); the result is a new tensor. -/
noncomputable def projRows (t : Ten ℝ) (n : ℕ) : Ten ℝ := fresh t.shape fun idx =>
  if h : fromEnd idx 1 < n then Sphere.projx none (t.row n idx.dropLast) ⟨fromEnd idx 1, h⟩ else 0

/-- `Manifold.origin` of `Sphere` (without a subspace): `geoopt/manifolds/base.py:943-950` seeds the
generator and calls `random`, `geoopt/manifolds/sphere.py:183-223`.  `noise shape` are the values drawn by
`torch.randn` right after seeding (see C53 for the generator). -/
noncomputable def sphere (noise : List ℕ → List ℕ → ℝ) (size : List PyVal) : Except PyErr (Ten ℝ) := do
  let _ ← assertShape sphereCheck size
  let s ← torchSize size
  let tens := fresh s (noise s)
  manifoldTensor sphereCheck (projRows tens (fromEnd s 1))

end Geoopt.Origin
