import Verif.Model.Linalg

/-!
# `geoopt/manifolds/symmetric_positive_definite.py`

One matrix per batch element.  `E` is any implementation of `torch.linalg.eigh`.
-/

namespace Geoopt.SPD
open Matrix Geoopt.Linalg

variable {n : ℕ}

/-- `symmetric_positive_definite.py:13-18` `SPDMetric`. -/
inductive Metric | AIM | SM | LEM
  deriving DecidableEq

/-- `torch.norm(·, dim=[-1,-2])`: the Frobenius norm. -/
noncomputable def frobNorm (x : Matrix (Fin n) (Fin n) ℝ) : ℝ := Real.sqrt (frob x x)

/-- `symmetric_positive_definite.py:74-92` `_affine_invariant_metric`. -/
noncomputable def affineInvariant (E : Eigh n) (x y : Matrix (Fin n) (Fin n) ℝ) : ℝ :=
  let invSqrtX := symInvSqrtm1 E x
  frobNorm (symLogm E (invSqrtX * y * invSqrtX))

/-- `symmetric_positive_definite.py:94-114` `_stein_metric`. -/
noncomputable def stein (x y : Matrix (Fin n) (Fin n) ℝ) : ℝ :=
  Real.log (((0.5 : ℝ) • (x + y)).det) - 0.5 * Real.log ((x * y).det)

/-- `symmetric_positive_definite.py:116-133` `_log_eucliden_metric`. -/
noncomputable def logEuclidean (E : Eigh n) (x y : Matrix (Fin n) (Fin n) ℝ) : ℝ :=
  frobNorm (symLogm E x - symLogm E y)

/-- `symmetric_positive_definite.py:165-198` `_dist_metric`, `dist`. -/
noncomputable def dist (E : Eigh n) (m : Metric) (x y : Matrix (Fin n) (Fin n) ℝ) : ℝ :=
  match m with
  | .AIM => affineInvariant E x y
  | .SM => stein x y
  | .LEM => logEuclidean E x y

/-- `torch.allclose(a, b, atol, rtol)` on one matrix. -/
def AllClose (atol rtol : ℝ) (a b : Matrix (Fin n) (Fin n) ℝ) : Prop :=
  ∀ i j, |a i j - b i j| ≤ atol + rtol * |b i j|

/-- `symmetric_positive_definite.py:135-145` `_check_point_on_manifold`. -/
def CheckPoint (E : Eigh n) (atol rtol : ℝ) (x : Matrix (Fin n) (Fin n) ℝ) : Prop :=
  AllClose atol rtol x xᵀ ∧ ∀ i, E.e x i > -atol

/-- `symmetric_positive_definite.py:147-153` `_check_vector_on_tangent`. -/
def CheckTangent (atol rtol : ℝ) (u : Matrix (Fin n) (Fin n) ℝ) : Prop := AllClose atol rtol u uᵀ

/-- `symmetric_positive_definite.py:155-157` `projx`. -/
noncomputable def projx (E : Eigh n) (x : Matrix (Fin n) (Fin n) ℝ) : Matrix (Fin n) (Fin n) ℝ :=
  symFuncm E (fun t => |t|) (sym x)

/-- `symmetric_positive_definite.py:159-160` `proju`. -/
noncomputable def proju (_x u : Matrix (Fin n) (Fin n) ℝ) : Matrix (Fin n) (Fin n) ℝ := sym u

/-- `symmetric_positive_definite.py:162-163` `egrad2rgrad`. -/
noncomputable def egrad2rgrad (x u : Matrix (Fin n) (Fin n) ℝ) : Matrix (Fin n) (Fin n) ℝ :=
  x * proju x u * xᵀ

/-- `symmetric_positive_definite.py:200-237` `inner`, without the trailing unsqueezes of
`keepdim`. -/
noncomputable def inner (x u v : Matrix (Fin n) (Fin n) ℝ) : ℝ :=
  let invX := symInvm x
  Linalg.trace (invX * u * invX * v)

/-- `symmetric_positive_definite.py:239-241` `retr`. -/
noncomputable def retr (x u : Matrix (Fin n) (Fin n) ℝ) : Matrix (Fin n) (Fin n) ℝ :=
  let invX := symInvm x
  sym (x + u + (0.5 : ℝ) • u * invX * u)

/-- `symmetric_positive_definite.py:243-245` `expmap`. -/
noncomputable def expmap (E : Eigh n) (x u : Matrix (Fin n) (Fin n) ℝ) :
    Matrix (Fin n) (Fin n) ℝ :=
  let p := symInvSqrtm2 E x
  p.2 * symExpm (p.1 * u * p.1) * p.2

/-- `symmetric_positive_definite.py:247-249` `logmap`. -/
noncomputable def logmap (E : Eigh n) (x u : Matrix (Fin n) (Fin n) ℝ) :
    Matrix (Fin n) (Fin n) ℝ :=
  let p := symInvSqrtm2 E x
  p.2 * symLogm E (p.1 * u * p.1) * p.2

/-- `symmetric_positive_definite.py:254-263` `transp`. -/
noncomputable def transp (E : Eigh n) (x y v : Matrix (Fin n) (Fin n) ℝ) :
    Matrix (Fin n) (Fin n) ℝ :=
  let p := symInvSqrtm2 E x
  let ex := symExpm ((0.5 : ℝ) • symLogm E (p.1 * y * p.1))
  p.2 * ex * sym (p.1 * v * p.1) * ex * p.2

/-- `symmetric_positive_definite.py:265-269` `random`; `z` is the draw of `torch.randn`. -/
noncomputable def random (E : Eigh n) (z : Matrix (Fin n) (Fin n) ℝ) : Matrix (Fin n) (Fin n) ℝ :=
  symFuncm E Real.exp (sym ((0.5 : ℝ) • z))

/-- `symmetric_positive_definite.py:271-278` `origin`: `diag_embed(ones(*size[:-1]))`, one matrix. -/
def origin : Matrix (Fin n) (Fin n) ℝ := diagonal fun _ => 1

end Geoopt.SPD
