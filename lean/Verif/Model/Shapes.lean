import Mathlib.Data.Int.Basic
import Mathlib.Data.List.Basic

/-!
# `geoopt/utils.py`: the shape and index helpers

A tensor shape is a `List ℕ`, leading axis first.  A Python call that raises is modelled by
`Except.error` with the class of the exception; messages are not modelled.
-/

namespace Geoopt

/-- The exception classes raised by the modelled code. -/
inductive PyErr
  | valueError | typeError | indexError | runtimeError | keyError
  | notImplementedError | zeroDivisionError | attributeError | assertionError | unboundLocalError
  | overflowError
  deriving DecidableEq, Repr

/-- The inner loop of `broadcast_shapes`, `geoopt/utils.py:127-132`: one output axis, starting
from the value `dim` found so far. -/
def broadcastDim (dim : ℕ) : List ℕ → Except PyErr ℕ
  | [] => .ok dim
  | d :: ds =>
    if dim ≠ 1 ∧ d ≠ 1 ∧ d ≠ dim then .error .valueError
    else if d > dim then broadcastDim d ds
    else broadcastDim dim ds

/-- `itertools.zip_longest(*map(reversed, shapes), fillvalue=1)`, `geoopt/utils.py:126`: the
`i`-th tuple holds the `i`-th entry from the right of every shape, `1` when it is missing. -/
def zipLongestRev (shapes : List (List ℕ)) : List (List ℕ) :=
  (List.range ((shapes.map List.length).foldr max 0)).map
    fun i => shapes.map fun s => s.reverse.getD i 1

/-- `geoopt/utils.py:123-134` `broadcast_shapes(*shapes)`. -/
def broadcastShapes (shapes : List (List ℕ)) : Except PyErr (List ℕ) :=
  ((zipLongestRev shapes).mapM (broadcastDim 1)).map List.reverse

/-- Python (and TorchScript) `a % b` on integers: the result has the sign of `b`; division by
zero raises. -/
def pyMod (a b : ℤ) : Except PyErr ℤ := if b = 0 then .error .zeroDivisionError else .ok (a.fmod b)

/-- `geoopt/utils.py:66-90` `idx2sign(idx, dim, neg)`. -/
def idx2sign (idx dim : ℤ) (neg : Bool) : Except PyErr ℤ :=
  if neg then (if idx < 0 then .ok idx else pyMod (idx + 1) (-(dim + 1)))
  else pyMod idx dim

/-- `geoopt/utils.py:111-116` `canonical_dims(dims, maxdim)`. -/
def canonicalDims (dims : List ℤ) (maxdim : ℤ) : Except PyErr (List ℤ) :=
  dims.mapM fun idx => idx2sign idx maxdim false

/-- `geoopt/utils.py:103-108` `list_range(end)`. -/
def listRange (n : ℕ) : List ℕ := (List.range n).foldl (fun res d => res ++ [d]) []

/-- The effect of torch's `tensor.squeeze(d)` on the shape: an index outside `[-rank, rank)`
raises, the axis disappears if its size is one and stays otherwise.  (The row-major data is
unchanged by `squeeze`.) -/
def squeezeShape (s : List ℕ) (d : ℤ) : Except PyErr (List ℕ) :=
  let r : ℤ := max s.length 1
  if d < -r ∨ r ≤ d then .error .indexError
  else
    let i := (if d < 0 then d + r else d).toNat
    .ok (if s.getD i 0 = 1 then s.eraseIdx i else s)

/-- The loop of `drop_dims`, `geoopt/utils.py:97-99`, with its counter `seen`. -/
def dropDimsLoop (s : List ℕ) (seen : ℤ) : List ℤ → Except PyErr (List ℕ)
  | [] => .ok s
  | d :: ds =>
    match squeezeShape s (d - seen) with
    | .error e => .error e
    | .ok s' => dropDimsLoop s' (seen + 1) ds

/-- `geoopt/utils.py:93-100` `drop_dims(tensor, dims)`: effect on the shape. -/
def dropDims (s : List ℕ) (dims : List ℤ) : Except PyErr (List ℕ) := dropDimsLoop s 0 dims

/-- The Python values that occur as size arguments. -/
inductive PyVal
  | int (n : ℕ)
  | tuple (l : List PyVal)
  | list (l : List PyVal)

/-- `geoopt/utils.py:30-34` `strip_tuple(tup)`, where `tup` is the tuple of the arguments. -/
def stripTuple : List PyVal → PyVal
  | [x] => x
  | l => .tuple l

/-- `geoopt/utils.py:37-43` `make_tuple(obj)`. -/
def makeTuple : PyVal → List PyVal
  | .list l => l
  | .tuple l => l
  | .int n => [.int n]

/-- `geoopt/utils.py:119-120` `size2shape(*size)`. -/
def size2shape (size : List PyVal) : List PyVal := makeTuple (stripTuple size)

end Geoopt
