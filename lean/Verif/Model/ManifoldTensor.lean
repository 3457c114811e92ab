import Verif.Model.Shapes
import Mathlib.Logic.Function.Basic

/-!
# `geoopt/tensor.py`: `ManifoldTensor` and `ManifoldParameter`

Python objects live in a heap and are named by addresses.  `V` is the type of the value of a
manifold (its class and parameters), `α` that of tensor entries.  `checkShape v s` is the verdict of
`manifold.check_point` for a tensor of shape `s`, which only looks at the shape
(`geoopt/manifolds/base.py:139-186`).
-/

namespace Geoopt.MTensor

/-- A `ManifoldTensor` (or `ManifoldParameter`) object: the storage holding its entries, its shape,
the address of its manifold, `requires_grad`, and whether it is a parameter. -/
structure TObj where
  storage : ℕ
  shape : List ℕ
  manifold : ℕ
  requiresGrad : Bool
  isParam : Bool

/-- The heap: addresses below `next` are in use. -/
structure Heap (V α : Type) where
  next : ℕ
  storages : ℕ → List α
  mans : ℕ → V
  tens : ℕ → TObj

variable {V α : Type} (checkShape : V → List ℕ → Bool)

/-- Allocate a storage. -/
def Heap.newStorage (h : Heap V α) (d : List α) : ℕ × Heap V α :=
  (h.next, { h with next := h.next + 1, storages := Function.update h.storages h.next d })

/-- Allocate a manifold object. -/
def Heap.newMan (h : Heap V α) (v : V) : ℕ × Heap V α :=
  (h.next, { h with next := h.next + 1, mans := Function.update h.mans h.next v })

/-- Allocate a tensor object. -/
def Heap.newTens (h : Heap V α) (t : TObj) : ℕ × Heap V α :=
  (h.next, { h with next := h.next + 1, tens := Function.update h.tens h.next t })

/-- `ManifoldTensor.__new__(cls, data, manifold=m, requires_grad=g)` for a tensor argument,
`geoopt/tensor.py:29-42`, also reached from `ManifoldParameter.__new__`
(`geoopt/tensor.py:166-178`) for data without a manifold; the new object shares the storage
(`args[0].data`, `_make_subclass`).  The `device` argument is not modelled. -/
def new (h : Heap V α) (storage : ℕ) (shape : List ℕ) (m : ℕ) (requiresGrad isParam : Bool) :
    Except PyErr (ℕ × Heap V α) :=
  if checkShape (h.mans m) shape then .ok (h.newTens ⟨storage, shape, m, requiresGrad, isParam⟩)
  else .error .valueError

/-- `ManifoldParameter.__new__(cls, data, manifold, requires_grad)` when `data` is a
`ManifoldTensor`, `geoopt/tensor.py:171-178`.  Manifolds are compared with `!=`, which for
`torch.nn.Module` is identity of objects. -/
def newParameter (h : Heap V α) (t : ℕ) (m : Option ℕ) (requiresGrad : Bool) :
    Except PyErr (ℕ × Heap V α) :=
  let o := h.tens t
  match m with
  | some m => if o.manifold ≠ m then .error .valueError
    else .ok (h.newTens { o with requiresGrad := requiresGrad, isParam := true })
  | none => .ok (h.newTens { o with requiresGrad := requiresGrad, isParam := true })

/-- The state of a `copy.deepcopy` call: heap and memo.  Python keeps one memo keyed by `id`;
addresses of tensors and manifolds never coincide, so it is split by kind. -/
structure CopyState (V α : Type) where
  heap : Heap V α
  memoM : ℕ → Option ℕ
  memoT : ℕ → Option ℕ

/-- `copy.deepcopy(manifold, memo)`: `Manifold` defines no `__deepcopy__`, so Python looks the object
up in the memo and otherwise rebuilds it with a copy of its state. -/
def deepcopyMan (st : CopyState V α) (m : ℕ) : ℕ × CopyState V α :=
  match st.memoM m with
  | some m' => (m', st)
  | none =>
    let (m', h) := st.heap.newMan (st.heap.mans m)
    (m', { st with heap := h, memoM := Function.update st.memoM m (some m') })

/-- `ManifoldTensor.__deepcopy__(memo)`, `geoopt/tensor.py:141-151`. -/
def deepcopyTens (st : CopyState V α) (t : ℕ) : Except PyErr (ℕ × CopyState V α) :=
  match st.memoT t with
  | some t' => .ok (t', st)
  | none =>
    let o := st.heap.tens t
    -- self.data.clone(memory_format=torch.preserve_format)
    let (s', h) := st.heap.newStorage (st.heap.storages o.storage)
    -- copy.deepcopy(self.manifold, memo=memo)
    let (m', st1) := deepcopyMan { st with heap := h } o.manifold
    -- type(self)(..., requires_grad=self.requires_grad)
    match new checkShape st1.heap s' o.shape m' o.requiresGrad o.isParam with
    | .error e => .error e
    | .ok (t', h2) =>
      .ok (t', { st1 with heap := h2, memoT := Function.update st1.memoT t (some t') })

/-- `copy.deepcopy([t1, ..., tn])`: one memo for all. -/
def deepcopyList (st : CopyState V α) : List ℕ → Except PyErr (List ℕ × CopyState V α)
  | [] => .ok ([], st)
  | t :: ts =>
    match deepcopyTens checkShape st t with
    | .error e => .error e
    | .ok (t', st1) =>
      match deepcopyList st1 ts with
      | .error e => .error e
      | .ok (ts', st2) => .ok (t' :: ts', st2)

/-- A value in a pickle. -/
inductive PVal (V α : Type)
  | tensor (data : List α) (shape : List ℕ)
  | dict
  | cls (isParam : Bool)
  | manifold (v : V)
  | bool (b : Bool)
  | other

/-- `__reduce_ex__`, `geoopt/tensor.py:131-135`: the arguments put into the pickle.  `proto` are
torch's own arguments for rebuilding the plain tensor (any number of them). -/
def reduceArgs (proto : List (PVal V α)) (isParam : Bool) (v : V) (requiresGrad : Bool) :
    List (PVal V α) :=
  proto ++ [.dict, .cls isParam, .manifold v, .bool requiresGrad]

/-- A rebuilt tensor. -/
structure Rebuilt (V α : Type) where
  data : List α
  shape : List ℕ
  manifold : V
  requiresGrad : Bool
  isParam : Bool

/-- Python `args[-i]`. -/
def argFromEnd (args : List (PVal V α)) (i : ℕ) : Option (PVal V α) := args[args.length - i]?

/-- `_rebuild_manifold_tensor(*args, build_fn)`, `geoopt/tensor.py:186-188`; `build` is torch's
function rebuilding the plain tensor from its arguments. -/
def rebuild (build : List (PVal V α) → Option (List α × List ℕ)) (args : List (PVal V α)) :
    Except PyErr (Rebuilt V α) :=
  match build (args.take (args.length - 4)) with
  | none => .error .runtimeError
  | some (data, shape) =>
    match argFromEnd args 3, argFromEnd args 2, argFromEnd args 1 with
    | some (.cls p), some (.manifold v), some (.bool g) =>
      if checkShape v shape then .ok ⟨data, shape, v, g, p⟩ else .error .valueError
    | _, _, _ => .error .typeError

end Geoopt.MTensor
