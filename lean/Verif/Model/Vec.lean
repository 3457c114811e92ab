import Mathlib.Analysis.SpecialFunctions.Pow.Real
import Mathlib.Data.Matrix.Mul

/-!
# Vectors

A tensor whose manifold axis has `n` entries is modelled, one batch element at a
time, as a function `Fin n → ℝ` (real numbers instead of floating point).
-/

namespace Geoopt

/-- One manifold vector: the entries of a tensor along its manifold axis
(`dim=-1` in the code).  Batch axes are handled by applying a function to every
batch element. -/
abbrev Vec (n : ℕ) := Fin n → ℝ

/-- `x.norm(dim=dim, p=2)`: Euclidean length along the manifold axis. -/
noncomputable def nrm {n : ℕ} (x : Vec n) : ℝ := Real.sqrt (x ⬝ᵥ x)

/-- The two float types the code distinguishes when it chooses tolerances
(`x.dtype == torch.float32` in `stereographic/math.py:309`, the `EPS` tables in
`sphere.py`, `siegel/csym_math.py`). -/
inductive DType
  | f32
  | f64
  deriving DecidableEq

end Geoopt
