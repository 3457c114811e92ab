import Verif.Model.Vec
import Verif.Model.Utils
import Mathlib.Analysis.SpecialFunctions.Trigonometric.Inverse
import Mathlib.Data.Matrix.Mul

/-!
# `geoopt/manifolds/sphere.py`

One vector per batch element.  `P : Option (Matrix ..)` is `self.projector`.
-/

namespace Geoopt.Sphere
open Geoopt Matrix
variable {n : ℕ}

/-- `sphere.py:10` `EPS`. -/
noncomputable def eps : DType → ℝ
  | .f32 => 1e-4
  | .f64 => 1e-7

/-- `sphere.py:177-181` `_project_on_subspace`: `x @ P.T` for a row vector `x`. -/
noncomputable def projectOnSubspace (P : Option (Matrix (Fin n) (Fin n) ℝ)) (x : Vec n) : Vec n :=
  match P with
  | some P => x ᵥ* Pᵀ
  | none => x

/-- `sphere.py:117-124` `inner` on one batch element. -/
noncomputable def inner (_x u v : Vec n) : ℝ := u ⬝ᵥ v

/-- `sphere.py:126-128` `projx`; torch divides `0/0 = NaN` where this gives `0`, so
theorems assume that the divisor is not zero. -/
noncomputable def projx (P : Option (Matrix (Fin n) (Fin n) ℝ)) (x : Vec n) : Vec n :=
  let x := projectOnSubspace P x
  (nrm x)⁻¹ • x

/-- `sphere.py:130-132` `proju`. -/
noncomputable def proju (P : Option (Matrix (Fin n) (Fin n) ℝ)) (x u : Vec n) : Vec n :=
  projectOnSubspace P (u - (x ⬝ᵥ u) • x)

/-- `sphere.py:162` `egrad2rgrad = proju`. -/
noncomputable def egrad2rgrad (P : Option (Matrix (Fin n) (Fin n) ℝ)) (x u : Vec n) : Vec n :=
  proju P x u

/-- `sphere.py:141-142` `retr`. -/
noncomputable def retr (P : Option (Matrix (Fin n) (Fin n) ℝ)) (x u : Vec n) : Vec n :=
  projx P (x + u)

/-- `sphere.py:134-139` `expmap`: `torch.where` on the norm of `u`. -/
noncomputable def expmap (P : Option (Matrix (Fin n) (Fin n) ℝ)) (dt : DType) (x u : Vec n) : Vec n :=
  if nrm u > eps dt then Real.cos (nrm u) • x + (Real.sin (nrm u) / nrm u) • u
  else projx P (x + u)

/-- `sphere.py:144-145` `transp`. -/
noncomputable def transp (P : Option (Matrix (Fin n) (Fin n) ℝ)) (_x y v : Vec n) : Vec n :=
  proju P y v

/-- `sphere.py:156-160` `dist`. -/
noncomputable def dist (dt : DType) (x y : Vec n) : ℝ :=
  Real.arccos (clamp (-1 + eps dt) (1 - eps dt) (inner x x y))

/-- `sphere.py:147-154` `logmap`. -/
noncomputable def logmap (P : Option (Matrix (Fin n) (Fin n) ℝ)) (dt : DType) (x y : Vec n) : Vec n :=
  let u := proju P x (y - x)
  let d := dist dt x y
  if d > eps dt then (d / max (nrm u) (eps dt)) • u else u

/-- `sphere.py:91-106` `_check_point_on_manifold`. -/
def CheckPoint (P : Option (Matrix (Fin n) (Fin n) ℝ)) (atol rtol : ℝ) (x : Vec n) : Prop :=
  |nrm x - 1| ≤ atol + rtol * |(1:ℝ)| ∧
  ∀ i, |projectOnSubspace P x i - x i| ≤ atol + rtol * |x i|

/-- `sphere.py:108-115` `_check_vector_on_tangent`. -/
def CheckTangent (atol rtol : ℝ) (x u : Vec n) : Prop :=
  |inner x x u - 0| ≤ atol + rtol * |(0:ℝ)|

/-- The contract of `linalg.qr(A)` (reduced QR, `linalg/batch_linalg.py:101-128`): `Q` has
orthonormal columns and `A = Q R`. The triangular shape of `R` is not used. -/
def IsQR {m : ℕ} (A Q : Matrix (Fin n) (Fin m) ℝ) (R : Matrix (Fin m) (Fin m) ℝ) : Prop :=
  Qᵀ * Q = 1 ∧ A = Q * R

/-- `sphere.py:170-172` projector of `intersection`, `Q` from `linalg.qr(intersection)`. -/
def intersectionProjector {m : ℕ} (Q : Matrix (Fin n) (Fin m) ℝ) : Matrix (Fin n) (Fin n) ℝ :=
  Q * Qᵀ

/-- `sphere.py:164-168` projector of `complement`: `-Q Qᵀ` plus one on the diagonal. -/
def complementProjector {m : ℕ} (Q : Matrix (Fin n) (Fin m) ℝ) : Matrix (Fin n) (Fin n) ℝ :=
  fun i j => (-(Q * Qᵀ)) i j + if i = j then 1 else 0

/-- `sphere.py:183-221` `random_uniform`: `noise` is the draw of `torch.randn`. -/
noncomputable def randomUniform (P : Option (Matrix (Fin n) (Fin n) ℝ)) (noise : Vec n) : Vec n :=
  projx P noise

namespace Exact

/-- `sphere.py:240-242`: `SphereExact.retr` is `Sphere.expmap`. -/
noncomputable def retr (P : Option (Matrix (Fin n) (Fin n) ℝ)) (dt : DType) (x u : Vec n) : Vec n :=
  expmap P dt x u

end Exact
end Geoopt.Sphere
