import Verif.Model.Stereo

/-!
# `geoopt/manifolds/stereographic/manifold.py`: class `Stereographic`

The methods that add something to the functions of `math.py`.  `dt` is the dtype
of the tensors, `k` is the value of `self.k`.
-/

namespace Geoopt.Stereo
open Geoopt
variable {n : ℕ}

/-- `if project: return math.project(res, ...) else: return res`
(`manifold.py:186-189` and all the methods below). -/
noncomputable def withProject (p : Bool) (η : ℝ) (dt : DType) (k : ℝ) (res : Vec n) : Vec n :=
  if p then project η dt k res else res

namespace M

/-- `manifold.py:157-158` -/
noncomputable def projx (η : ℝ) (dt : DType) (k : ℝ) (x : Vec n) : Vec n := project η dt k x

/-- `manifold.py:123-132`: `torch.allclose(x, project(x))`. -/
def CheckPoint (η : ℝ) (dt : DType) (k atol rtol : ℝ) (x : Vec n) : Prop :=
  ∀ i, |x i - project η dt k x i| ≤ atol + rtol * |project η dt k x i|

/-- `manifold.py:139-142` -/
noncomputable def dist (η k : ℝ) (x y : Vec n) : ℝ := Stereo.dist η k x y

/-- `manifold.py:144-147` -/
noncomputable def dist2 (η k : ℝ) (x y : Vec n) : ℝ := Stereo.dist η k x y ^ 2

/-- `manifold.py:152-155`: first order retraction. -/
noncomputable def retr (η : ℝ) (dt : DType) (k : ℝ) (x u : Vec n) : Vec n :=
  project η dt k (x + u)

/-- `manifold.py:160-162`: the identity on equal shapes. -/
def proju (_x u : Vec n) : Vec n := u

/-- `manifold.py:182-189` -/
noncomputable def expmap (p : Bool) (η : ℝ) (dt : DType) (k : ℝ) (x u : Vec n) : Vec n :=
  withProject p η dt k (Stereo.expmap η k x u)

/-- `manifold.py:191-192` -/
noncomputable def logmap (η k : ℝ) (x y : Vec n) : Vec n := Stereo.logmap η k x y

/-- `manifold.py:197-201` -/
noncomputable def transpFollowRetr (η : ℝ) (dt : DType) (k : ℝ) (x u v : Vec n) : Vec n :=
  transp k x (retr η dt k x u) v

/-- `manifold.py:203-213` -/
noncomputable def transpFollowExpmap (p : Bool) (η : ℝ) (dt : DType) (k : ℝ) (x u v : Vec n) :
    Vec n :=
  transp k x (expmap p η dt k x u) v

/-- `manifold.py:215-226` -/
noncomputable def expmapTransp (p : Bool) (η : ℝ) (dt : DType) (k : ℝ) (x u v : Vec n) :
    Vec n × Vec n :=
  (expmap p η dt k x u, transp k x (expmap p η dt k x u) v)

/-- `manifold.py:228-233` -/
noncomputable def retrTransp (η : ℝ) (dt : DType) (k : ℝ) (x u v : Vec n) : Vec n × Vec n :=
  (retr η dt k x u, transp k x (retr η dt k x u) v)

/-- `manifold.py:235-242` -/
noncomputable def mobiusAdd (p : Bool) (η : ℝ) (dt : DType) (k : ℝ) (x y : Vec n) : Vec n :=
  withProject p η dt k (Stereo.mobiusAdd k x y)

/-- `manifold.py:244-251` -/
noncomputable def mobiusSub (p : Bool) (η : ℝ) (dt : DType) (k : ℝ) (x y : Vec n) : Vec n :=
  withProject p η dt k (Stereo.mobiusSub k x y)

/-- `manifold.py:253-260` -/
noncomputable def mobiusCoadd (p : Bool) (η : ℝ) (dt : DType) (k : ℝ) (x y : Vec n) : Vec n :=
  withProject p η dt k (Stereo.mobiusCoadd k x y)

/-- `manifold.py:262-269` -/
noncomputable def mobiusCosub (p : Bool) (η : ℝ) (dt : DType) (k : ℝ) (x y : Vec n) : Vec n :=
  withProject p η dt k (Stereo.mobiusCosub k x y)

/-- `manifold.py:271-278` -/
noncomputable def mobiusScalarMul (p : Bool) (η : ℝ) (dt : DType) (k r : ℝ) (x : Vec n) : Vec n :=
  withProject p η dt k (Stereo.mobiusScalarMul η k r x)

/-- `manifold.py:280-287` -/
noncomputable def mobiusPointwiseMul (p : Bool) (η : ℝ) (dt : DType) (k : ℝ) (w x : Vec n) :
    Vec n :=
  withProject p η dt k (Stereo.mobiusPointwiseMul η k w x)

/-- `manifold.py:289-296` -/
noncomputable def mobiusMatvec {m : ℕ} (p : Bool) (η : ℝ) (dt : DType) (k : ℝ)
    (A : Matrix (Fin m) (Fin n) ℝ) (x : Vec n) : Vec m :=
  withProject p η dt k (Stereo.mobiusMatvec η k A x)

/-- `manifold.py:303-317` -/
noncomputable def geodesicUnit (p : Bool) (η : ℝ) (dt : DType) (k t : ℝ) (x u : Vec n) : Vec n :=
  withProject p η dt k (Stereo.geodesicUnit η k t x u)

/-- `manifold.py:326-332` -/
noncomputable def expmap0 (p : Bool) (η : ℝ) (dt : DType) (k : ℝ) (u : Vec n) : Vec n :=
  withProject p η dt k (Stereo.expmap0 η k u)

/-- `manifold.py:377-390` -/
noncomputable def mobiusFnApply {m : ℕ} (p : Bool) (η : ℝ) (dt : DType) (k : ℝ)
    (fn : Vec n → Vec m) (x : Vec n) : Vec m :=
  withProject p η dt k (Stereo.mobiusFnApply η k fn x)

/-- `manifold.py:394-401` -/
noncomputable def mobiusFnApplyChain (p : Bool) (η : ℝ) (dt : DType) (k : ℝ) (x : Vec n)
    (fns : List (Vec n → Vec n)) : Vec n :=
  withProject p η dt k (Stereo.mobiusFnApplyChain η k x fns)

/-- `manifold.py:526-551` -/
noncomputable def weightedMidpoint {m : ℕ} (p : Bool) (η : ℝ) (dt : DType) (k : ℝ)
    (xs : Fin m → Vec n) (w : Fin m → ℝ) (lincomb posweight : Bool) : Vec n :=
  withProject p η dt k (Stereo.weightedMidpoint η k xs w lincomb posweight)

/-- `manifold.py:404-448` `random_normal` (and `random`): `noise` is the draw of
`torch.randn`, `size[-1] = n`. -/
noncomputable def randomNormal (η : ℝ) (dt : DType) (k : ℝ) (mean std : ℝ) (noise : Vec n) :
    Vec n :=
  expmap0 true η dt k (fun i => noise i * std / (n : ℝ) ^ (0.5 : ℝ) + mean)

/-- `manifold.py:453-498` `wrapped_normal`. -/
noncomputable def wrappedNormal (η : ℝ) (dt : DType) (k : ℝ) (mean : Vec n) (std : ℝ)
    (noise : Vec n) : Vec n :=
  expmap true η dt k mean ((lambdaX k mean)⁻¹ • (std • noise))

/-- `manifold.py:500-524` `origin`. -/
def origin : Vec n := 0

end M

/-! ### Curvature parametrisation -/

/-- `torch.nn.functional.softplus` with its defaults `beta=1`, `threshold=20`. -/
noncomputable def softplus (x : ℝ) : ℝ := if x > 20 then x else Real.log (1 + Real.exp x)

/-- `manifold.py:607-611` / `650-654`: the stored parameter
`k.exp_().sub_(1).log_()`. -/
noncomputable def ispInit (c : ℝ) : ℝ := Real.log (Real.exp c - 1)

/-- `manifold.py:599-605`: `PoincareBall.c` and `PoincareBall.k` of the stored
parameter. -/
noncomputable def poincareC (isp : ℝ) : ℝ := softplus isp
noncomputable def poincareK (isp : ℝ) : ℝ := -poincareC isp

/-- `manifold.py:646-648`: `SphereProjection.k`. -/
noncomputable def sphereProjK (isp : ℝ) : ℝ := softplus isp

end Geoopt.Stereo
