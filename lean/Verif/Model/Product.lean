import Verif.Model.Buffer
import Mathlib.Analysis.SpecialFunctions.Pow.Real

/-!
# `geoopt/manifolds/product.py`

A component manifold is a record of its operations on tensors; the product calls these operations
on parts of its own tensors.  Real entries, see `Verif/Model/Buffer.lean` for the tensors.
-/

namespace Geoopt.Product

open Buf

abbrev T := Tensor ℝ

/-- A device or dtype, `none` for Python `None`. -/
abbrev Tag := Option ℕ

/-- The interface of a manifold that the product uses (`geoopt/manifolds/base.py`). -/
structure Manifold where
  checkShape : List ℕ → Bool
  device : Tag
  dtype : Tag
  reversible : Bool
  /-- `check_point_on_manifold(x, explain=True)` at the given tolerances, the verdict only -/
  checkPoint : T → Except PyErr Bool
  /-- `check_vector_on_tangent(x, u, explain=True)`, the verdict only -/
  checkTangent : T → T → Except PyErr Bool
  projx : T → Except PyErr T
  proju : T → T → Except PyErr T
  egrad2rgrad : T → T → Except PyErr T
  retr : T → T → Except PyErr T
  expmap : T → T → Except PyErr T
  logmap : T → T → Except PyErr T
  transp : T → T → T → Except PyErr T
  transpFollowRetr : T → T → T → Except PyErr T
  transpFollowExpmap : T → T → T → Except PyErr T
  retrTransp : T → T → T → Except PyErr (T × T)
  expmapTransp : T → T → T → Except PyErr (T × T)
  /-- `inner(x, u, v, keepdim=True)`, `v` may be `None` -/
  inner : T → T → Option T → Except PyErr T
  /-- `dist2(x, y, keepdim=True)` -/
  dist2 : T → T → Except PyErr T
  /-- `random(size)`, for one draw of the noise -/
  random : List ℕ → Except PyErr T
  /-- `origin(size, seed=seed)` -/
  origin : List ℕ → Option ℕ → Except PyErr T

/-- One component of a product: the `i`-th entries of `self.manifolds`, `self.shapes` and
`self.slices`, which the constructor appends in the same pass of its loop
(`geoopt/manifolds/product.py:73-76`). -/
structure Part where
  man : Manifold
  shape : List ℕ
  start : ℕ
  stop : ℕ

/-- `_shape2size`, `geoopt/manifolds/product.py:14-15`. -/
def shape2size (shape : List ℕ) : ℕ := shape.foldl (· * ·) 1

/-- `_calculate_target_batch_dim(*dims)`, `geoopt/manifolds/product.py:18-19`, for at least one
argument; `max(dims) - 1` is an `int`, here `ℤ`. -/
def targetBatchDim (dims : List ℕ) : ℤ := (dims.foldl max 0 : ℕ) - 1

/-- Python `s[:k]` of a tuple for an integer `k` (negative `k` counts from the end). -/
def sliceTo (s : List ℕ) (k : ℤ) : List ℕ :=
  if 0 ≤ k then s.take k.toNat else s.take (s.length - (-k).toNat)

/-- A product manifold. -/
structure Prod where
  parts : List Part
  nElements : ℕ

/-- State of the constructor's loop. -/
structure InitState where
  parts : List Part
  device : Tag
  dtype : Tag
  pos0 : ℕ

/-- The consistency check of devices and of dtypes, `geoopt/manifolds/product.py:60-64` and
`66-70`. -/
def tagStep (seen new : Tag) : Except PyErr Tag :=
  match new, seen with
  | some n, some s => if s ≠ n then .error .valueError else .ok (some s)
  | n, none => .ok n
  | none, some s => .ok (some s)

/-- One pass of the loop, `geoopt/manifolds/product.py:53-77`. -/
def initStep (st : InitState) (ms : Manifold × List ℕ) : Except PyErr InitState := do
  let (manifold, shape) := ms
  let ok := manifold.checkShape shape
  if !ok then throw .valueError
  let device ← tagStep st.device manifold.device
  let dtype ← tagStep st.dtype manifold.dtype
  let pos1 := st.pos0 + shape2size shape
  return ⟨st.parts ++ [⟨manifold, shape, st.pos0, pos1⟩], device, dtype, pos1⟩

/-- `ProductManifold.__init__`, `geoopt/manifolds/product.py:37-81`.  Simplifications: a shape given
as an `int` is the one-element shape (`size2shape`, see C51); a component's `_check_shape` gives a
verdict and does not raise; the name is not modelled. -/
def init (ms : List (Manifold × List ℕ)) : Except PyErr Prod := do
  if ms.length < 1 then throw .valueError
  let st ← ms.foldlM initStep ⟨[], none, none, 0⟩
  return ⟨st.parts, st.pos0⟩

/-- `reversible`, `geoopt/manifolds/product.py:83-85`. -/
def reversible (P : Prod) : Bool := P.parts.all fun p => p.man.reversible

/-- `take_submanifold_value(x, i)`, `geoopt/manifolds/product.py:87-110`, given the `i`-th entries
of the three lists. -/
def takePart (p : Part) (x : T) : Except PyErr T := do
  let part ← narrowLast x p.start (p.stop - p.start)
  reshape part (part.shape.dropLast ++ p.shape)

/-- `take_submanifold_value(x, i)`, `geoopt/manifolds/product.py:87-110`. -/
def take (P : Prod) (x : T) (i : ℕ) : Except PyErr T :=
  match P.parts[i]? with
  | none => .error .indexError
  | some p => takePart p x

/-- `unpack_tensor`, `geoopt/manifolds/product.py:354-359`. -/
def unpack (P : Prod) (t : T) : Except PyErr (List T) := P.parts.mapM fun p => takePart p t

/-- The loop body of `pack_point`, `geoopt/manifolds/product.py:367-380`. -/
def flattenPart (p : Part) (part : T) : Except PyErr T :=
  if 0 < p.shape.length then
    if part.shape.drop (part.shape.length - p.shape.length) ≠ p.shape then .error .valueError
    else reshapeInfer part (part.shape.take (part.shape.length - p.shape.length))
  else reshapeInfer part part.shape

/-- `pack_point`, `geoopt/manifolds/product.py:361-381`. -/
def pack (P : Prod) (tensors : List T) : Except PyErr T := do
  if tensors.length ≠ P.parts.length then throw .valueError
  let flattened ← (P.parts.zip tensors).mapM fun (p, t) => flattenPart p t
  catLast flattened

/-- `_check_shape`, `geoopt/manifolds/product.py:112-121`. -/
def checkShape (P : Prod) (shape : List ℕ) : Except PyErr Bool :=
  match shape.getLast? with
  | none => .error .indexError
  | some d => .ok (decide (d = P.nElements))

/-- The loop of `_check_point_on_manifold`, `geoopt/manifolds/product.py:126-134`. -/
def checkPointLoop (x : T) : List Part → Except PyErr Bool
  | [] => .ok true
  | p :: ps => do
    let point ← takePart p x
    let ok ← p.man.checkPoint point
    if !ok then return false
    checkPointLoop x ps

/-- `_check_point_on_manifold`, `geoopt/manifolds/product.py:123-134`, the verdict. -/
def checkPoint (P : Prod) (x : T) : Except PyErr Bool := checkPointLoop x P.parts

/-- The loop of `_check_vector_on_tangent`, `geoopt/manifolds/product.py:139-148`. -/
def checkTangentLoop (x u : T) : List Part → Except PyErr Bool
  | [] => .ok true
  | p :: ps => do
    let point ← takePart p x
    let tangent ← takePart p u
    let ok ← p.man.checkTangent point tangent
    if !ok then return false
    checkTangentLoop x u ps

/-- `_check_vector_on_tangent`, `geoopt/manifolds/product.py:136-148`, the verdict. -/
def checkTangent (P : Prod) (x u : T) : Except PyErr Bool := checkTangentLoop x u P.parts

/-- `t.reshape((*t.shape[:target_batch_dim], -1))`. -/
def flattenTo (k : ℤ) (t : T) : Except PyErr T := reshapeInfer t (sliceTo t.shape k)

/-- `projx`, `geoopt/manifolds/product.py:189-196`. -/
def projx (P : Prod) (x : T) : Except PyErr T := do
  let projected ← P.parts.mapM fun p => do
    let point ← takePart p x
    let proj ← p.man.projx point
    reshapeInfer proj (x.shape.take (x.shape.length - 1))
  catLast projected

/-- The body shared by the methods with two tensor arguments. -/
def binary (f : Manifold → T → T → Except PyErr T) (P : Prod) (x u : T) : Except PyErr T := do
  let k := targetBatchDim [x.shape.length, u.shape.length]
  let mapped ← P.parts.mapM fun p => do
    let point ← takePart p x
    let tangent ← takePart p u
    let m ← f p.man point tangent
    flattenTo k m
  catLast mapped

/-- `proju`, `geoopt/manifolds/product.py:198-207`. -/
def proju := binary Manifold.proju
/-- `expmap`, `geoopt/manifolds/product.py:209-218`. -/
def expmap := binary Manifold.expmap
/-- `retr`, `geoopt/manifolds/product.py:220-229`. -/
def retr := binary Manifold.retr
/-- `logmap`, `geoopt/manifolds/product.py:245-254`. -/
def logmap := binary Manifold.logmap
/-- `egrad2rgrad`, `geoopt/manifolds/product.py:341-352`. -/
def egrad2rgrad := binary Manifold.egrad2rgrad

/-- The body shared by the methods with three tensor arguments. -/
def ternary (f : Manifold → T → T → T → Except PyErr T) (P : Prod) (x u v : T) : Except PyErr T := do
  let k := targetBatchDim [x.shape.length, u.shape.length, v.shape.length]
  let mapped ← P.parts.mapM fun p => do
    let point ← takePart p x
    let direction ← takePart p u
    let vector ← takePart p v
    let m ← f p.man point direction vector
    flattenTo k m
  catLast mapped

/-- `transp`, `geoopt/manifolds/product.py:231-243`. -/
def transp := ternary Manifold.transp
/-- `transp_follow_retr`, `geoopt/manifolds/product.py:256-270`. -/
def transpFollowRetr := ternary Manifold.transpFollowRetr
/-- `transp_follow_expmap`, `geoopt/manifolds/product.py:272-286`. -/
def transpFollowExpmap := ternary Manifold.transpFollowExpmap

/-- The body shared by the methods returning a point and a vector. -/
def ternary2 (f : Manifold → T → T → T → Except PyErr (T × T)) (P : Prod) (x u v : T) :
    Except PyErr (T × T) := do
  let k := targetBatchDim [x.shape.length, u.shape.length, v.shape.length]
  let results ← P.parts.mapM fun p => do
    let point ← takePart p x
    let direction ← takePart p u
    let vector ← takePart p v
    let (newPoint, transported) ← f p.man point direction vector
    let transported ← flattenTo k transported
    let newPoint ← flattenTo k newPoint
    return (newPoint, transported)
  let points ← catLast (results.map _root_.Prod.fst)
  let vectors ← catLast (results.map _root_.Prod.snd)
  return (points, vectors)

/-- `expmap_transp`, `geoopt/manifolds/product.py:288-304`. -/
def expmapTransp := ternary2 Manifold.expmapTransp
/-- `retr_transp`, `geoopt/manifolds/product.py:306-320`. -/
def retrTransp := ternary2 Manifold.retrTransp

/-- The batch rank used by `inner`, `geoopt/manifolds/product.py:153-156`. -/
def innerBatchDim (x u : T) : Option T → ℤ
  | some v => targetBatchDim [x.shape.length, u.shape.length, v.shape.length]
  | none => targetBatchDim [x.shape.length, u.shape.length]

/-- The part of an optional argument, `geoopt/manifolds/product.py:161-164`. -/
def takeOpt (p : Part) : Option T → Except PyErr (Option T)
  | some v => (takePart p v).map some
  | none => .ok none

/-- `inner`, `geoopt/manifolds/product.py:150-171`. -/
def inner (P : Prod) (x u : T) (v : Option T) (keepdim : Bool) : Except PyErr T := do
  let k := innerBatchDim x u v
  let products ← P.parts.mapM fun p => do
    let point ← takePart p x
    let uVec ← takePart p u
    let vVec ← takeOpt p v
    let inner ← p.man.inner point uVec vVec
    let inner ← flattenTo k inner
    sumLast inner
  let result ← pySum products
  return if keepdim then unsqueezeLast result else result

/-- `dist2`, `geoopt/manifolds/product.py:322-336`. -/
def dist2 (P : Prod) (x y : T) (keepdim : Bool) : Except PyErr T := do
  let k := targetBatchDim [x.shape.length, y.shape.length]
  let minis ← P.parts.mapM fun p => do
    let point ← takePart p x
    let point1 ← takePart p y
    let d ← p.man.dist2 point point1
    let d ← flattenTo k d
    sumLast d
  let result ← pySum minis
  return if keepdim then unsqueezeLast result else result

/-- `dist`, `geoopt/manifolds/product.py:338-339`. -/
noncomputable def dist (P : Prod) (x y : T) (keepdim : Bool) : Except PyErr T := do
  let d ← dist2 P x y keepdim
  return Buf.map (fun a => (max a 1e-15) ^ (0.5 : ℝ)) d

/-- `random_combined`, `geoopt/manifolds/product.py:410-424`; wrapping in a `ManifoldTensor` is in
`Verif/Model/ManifoldTensor.lean`. -/
def random (P : Prod) (shape : List ℕ) : Except PyErr T := do
  let ok ← checkShape P shape
  if !ok then throw .valueError
  let points ← P.parts.mapM fun p => p.man.random (shape.dropLast ++ p.shape)
  pack P points

/-- `origin`, `geoopt/manifolds/product.py:426-440`. -/
def origin (P : Prod) (shape : List ℕ) (seed : Option ℕ) : Except PyErr T := do
  let ok ← checkShape P shape
  if !ok then throw .valueError
  let points ← P.parts.mapM fun p => p.man.origin (shape.dropLast ++ p.shape) seed
  pack P points

/-- The loop of `from_point`, `geoopt/manifolds/product.py:401-407`. -/
def fromPointLoop (batchDims : ℕ) :
    List (Manifold × T) → Option (List ℕ) → List (Manifold × List ℕ) →
      Except PyErr (List (Manifold × List ℕ))
  | [], _, acc => .ok acc
  | (m, t) :: rest, none, acc =>
    fromPointLoop batchDims rest (some (t.shape.take batchDims)) (acc ++ [(m, t.shape.drop batchDims)])
  | (m, t) :: rest, some b, acc =>
    if ¬ b = t.shape.take batchDims then .error .valueError
    else fromPointLoop batchDims rest (some b) (acc ++ [(m, t.shape.drop batchDims)])

/-- `from_point(*parts, batch_dims)`, `geoopt/manifolds/product.py:383-408`; a `ManifoldTensor` is a
manifold and a tensor, `batch_dims ≥ 0`. -/
def fromPoint (tensors : List (Manifold × T)) (batchDims : ℕ) : Except PyErr Prod := do
  let ms ← fromPointLoop batchDims tensors none []
  init ms

end Geoopt.Product
