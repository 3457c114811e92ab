import Verif.Model.Linalg
import Mathlib.Analysis.Normed.Algebra.MatrixExponential
import Mathlib.Data.Matrix.Block

/-!
# `geoopt/manifolds/stiefel.py`

One `n × m` matrix per batch element.
-/

namespace Geoopt.Stiefel
open Geoopt Geoopt.Linalg Matrix

variable {n m : ℕ} {κ : Type} [Fintype κ]

/-- `stiefel.py:85-87` `projx`, with `U, _, V` the result of `linalg.svd`. -/
def projx (U : Matrix (Fin n) (Fin m) ℝ) (V : Matrix (Fin m) (Fin m) ℝ) : Matrix (Fin n) (Fin m) ℝ :=
  U * V

/-- `stiefel.py:135-138` `origin`: zeros with ones added at `(i, i)` for `i < m`. -/
def origin : Matrix (Fin n) (Fin m) ℝ := fun i j => 0 + if i.val = j.val then 1 else 0

/-- `stiefel.py:68-71` `_check_point_on_manifold`. -/
def CheckPoint (atol rtol : ℝ) (x : Matrix (Fin n) (Fin m) ℝ) : Prop :=
  ∀ i j, |((xᵀ * x) i j - if i = j then 1 else 0) - 0| ≤ atol + rtol * |(0 : ℝ)|

/-- `stiefel.py:79-80` `_check_vector_on_tangent`. -/
def CheckTangent (atol rtol : ℝ) (x u : Matrix (Fin n) (Fin m) ℝ) : Prop :=
  ∀ i j, |(uᵀ * x + xᵀ * u) i j - 0| ≤ atol + rtol * |(0 : ℝ)|

namespace Canonical

/-- `stiefel.py:153-154` `_amat`. -/
def amat (x u : Matrix (Fin n) (Fin m) ℝ) : Matrix (Fin n) (Fin n) ℝ := u * xᵀ - x * uᵀ

/-- `stiefel.py:156-173` `inner` (the branch `v is None` has `v = u`). -/
noncomputable def inner (x u v : Matrix (Fin n) (Fin m) ℝ) : ℝ :=
  let xtu := xᵀ * u
  let xtv := xᵀ * v
  frob u v - 0.5 * frob xtv xtu

/-- `stiefel.py:180-181`: `-1/2 a` with one added on the diagonal. -/
noncomputable def lhs (x u : Matrix (Fin n) (Fin m) ℝ) : Matrix (Fin n) (Fin n) ℝ :=
  fun i j => -1 / 2 * amat x u i j + if i = j then 1 else 0

/-- `stiefel.py:175-183` `_transp_follow_one`; `torch.linalg.solve` is the product with the
inverse (Mathlib's `⁻¹` is `0` for a singular matrix, where torch raises). -/
noncomputable def transpFollowOne (x : Matrix (Fin n) (Fin m) ℝ) (v : Matrix (Fin n) κ ℝ)
    (u : Matrix (Fin n) (Fin m) ℝ) : Matrix (Fin n) κ ℝ :=
  let a := amat x u
  let rhs := v + (1 / 2 : ℝ) • (a * v)
  (lhs x u)⁻¹ * rhs

/-- `stiefel.py:185-190` `transp_follow_retr = transp_follow_expmap`. -/
noncomputable def transpFollowRetr (x u v : Matrix (Fin n) (Fin m) ℝ) : Matrix (Fin n) (Fin m) ℝ :=
  transpFollowOne x v u

/-- `stiefel.py:192-202` `retr_transp = expmap_transp`: one solve for `[x v]`; `view` and
`unbind` take the first and the last `m` columns. -/
noncomputable def retrTransp (x u v : Matrix (Fin n) (Fin m) ℝ) :
    Matrix (Fin n) (Fin m) ℝ × Matrix (Fin n) (Fin m) ℝ :=
  let xvs := fromCols x v
  let qxvs := transpFollowOne x xvs u
  (qxvs.toCols₁, qxvs.toCols₂)

/-- `stiefel.py:204-205` `proju`; `egrad2rgrad = proju` (line 207). -/
def proju (x u : Matrix (Fin n) (Fin m) ℝ) : Matrix (Fin n) (Fin m) ℝ := u - x * uᵀ * x

/-- `stiefel.py:209-212` `retr = expmap`. -/
noncomputable def retr (x u : Matrix (Fin n) (Fin m) ℝ) : Matrix (Fin n) (Fin m) ℝ :=
  transpFollowOne x x u

end Canonical

namespace Euclidean

/-- `stiefel.py:226-227` `proju`; `egrad2rgrad = proju` (line 229). -/
noncomputable def proju (x u : Matrix (Fin n) (Fin m) ℝ) : Matrix (Fin n) (Fin m) ℝ :=
  u - x * sym (xᵀ * u)

/-- `stiefel.py:231-232` `transp`. -/
noncomputable def transp (_x y v : Matrix (Fin n) (Fin m) ℝ) : Matrix (Fin n) (Fin m) ℝ := proju y v

/-- `stiefel.py:234-239` `inner`. -/
def inner (_x u v : Matrix (Fin n) (Fin m) ℝ) : ℝ := frob u v

/-- `stiefel.py:241-245` `retr`, with `q, r` the result of `linalg.qr(x + u)`. -/
noncomputable def retr (q : Matrix (Fin n) (Fin m) ℝ) (r : Matrix (Fin m) (Fin m) ℝ) :
    Matrix (Fin n) (Fin m) ℝ :=
  let unflip : Fin m → ℝ := fun j => tsign (tsign (extractDiag r j) + 0.5)
  fun i j => q i j * unflip j

/-- `stiefel.py:247-256` `expmap`. -/
noncomputable def expmap (x u : Matrix (Fin n) (Fin m) ℝ) : Matrix (Fin n) (Fin m) ℝ :=
  let xtu := xᵀ * u
  let utu := uᵀ * u
  let eye : Matrix (Fin m) (Fin m) ℝ := Matrix.of fun i j => 0 + if i = j then 1 else 0
  let logw := fromBlocks xtu (-utu) eye xtu
  let w := NormedSpace.exp logw
  let z := fromRows (NormedSpace.exp (-xtu)) (0 : Matrix (Fin m) (Fin m) ℝ)
  fromCols x u * w * z

end Euclidean

/-- `stiefel.py:89-112` `random_naive`: the `Q` factor of the noise. -/
def randomNaive (q : Matrix (Fin n) (Fin m) ℝ) : Matrix (Fin n) (Fin m) ℝ := q

end Geoopt.Stiefel
