import Verif.Model.Vec
import Verif.Model.Utils
import Mathlib.Data.Fin.Tuple.Basic
import Mathlib.Analysis.SpecialFunctions.Trigonometric.DerivHyp

/-!
# `geoopt/manifolds/lorentz`

One vector of `n + 1` entries per batch element: entry `0` is `x.narrow(dim, 0, 1)`, the
others are `x.narrow(dim, 1, dn)`.  `dim` is the last axis here; `Verif/Model/Axis.lean`
models what happens for another `dim`.  Division by zero is `0` here and inf/NaN in torch;
no denominator in this file can vanish when `k > 0`, except where stated.
-/

namespace Geoopt.Lorentz
open Geoopt Matrix
variable {n : ℕ}

/-- `lorentz/math.py:5-8` `arcosh`: the square root is floored at `1e-15`. -/
noncomputable def arcosh (x : ℝ) : ℝ := Real.log (x + Real.sqrt (max (x ^ 2 - 1.0) 1e-15))

/-- `lorentz/math.py:38-48` `_inner` (both `keepdim` branches give this number). -/
def inner (u v : Vec (n + 1)) : ℝ := -(u 0 * v 0) + Fin.tail u ⬝ᵥ Fin.tail v

/-- `lorentz/math.py:75-79` `_inner0`. -/
noncomputable def inner0 (k : ℝ) (v : Vec (n + 1)) : ℝ := -v 0 * Real.sqrt k

/-- `lorentz/math.py:112-114` `_dist`. -/
noncomputable def dist (k : ℝ) (x y : Vec (n + 1)) : ℝ :=
  let d := -inner x y
  Real.sqrt k * arcosh (d / k)

/-- `lorentz/math.py:143-145` `_dist0`. -/
noncomputable def dist0 (k : ℝ) (x : Vec (n + 1)) : ℝ :=
  let d := -inner0 k x
  Real.sqrt k * arcosh (d / k)

/-- `lorentz/math.py:174-181` `_project`. -/
noncomputable def project (k : ℝ) (x : Vec (n + 1)) : Vec (n + 1) :=
  Fin.cons (Real.sqrt (k + nrm (Fin.tail x) ^ 2)) (Fin.tail x)

/-- `lorentz/math.py:209-220` `_project_polar`: `d` the direction, `r` the last entry. -/
noncomputable def projectPolar (k : ℝ) (d : Vec n) (r : ℝ) : Vec (n + 1) :=
  Fin.cons (Real.cosh (r / Real.sqrt k)) ((Real.sqrt k * Real.sinh (r / Real.sqrt k)) • d)

/-- `lorentz/math.py:251-252` `_project_u`: `v.addcmul(inner, x / k)`. -/
noncomputable def projectU (k : ℝ) (x v : Vec (n + 1)) : Vec (n + 1) :=
  v + inner x v • (k⁻¹ • x)

/-- `lorentz/math.py:281-282` `_norm`. -/
noncomputable def norm (u : Vec (n + 1)) : ℝ := Real.sqrt (max (inner u u) 1e-8)

/-- `lorentz/math.py:314-320` `_expmap`. -/
noncomputable def expmapRaw (k : ℝ) (x u : Vec (n + 1)) : Vec (n + 1) :=
  let nomin := norm u
  Real.cosh (nomin / Real.sqrt k) • x +
    (Real.sqrt k * Real.sinh (nomin / Real.sqrt k) / nomin) • u

/-- `lorentz/math.py:345-351` `_expmap0`. -/
noncomputable def expmap0Raw (k : ℝ) (u : Vec (n + 1)) : Vec (n + 1) :=
  let nomin := norm u
  let lv := Real.cosh (nomin / Real.sqrt k) * Real.sqrt k
  let rv : Vec (n + 1) := (Real.sqrt k * Real.sinh (nomin / Real.sqrt k) / nomin) • u
  Fin.cons (lv + rv 0) (Fin.tail rv)

/-- `lorentz/math.py:393-397` `_logmap`. -/
noncomputable def logmap (k : ℝ) (x y : Vec (n + 1)) : Vec (n + 1) :=
  let d := dist k x y
  let nomin := y + (1.0 / k * inner x y) • x
  let denom := norm nomin
  (d / denom) • nomin

/-- `lorentz/math.py:422-428` `_logmap0`. -/
noncomputable def logmap0 (k : ℝ) (y : Vec (n + 1)) : Vec (n + 1) :=
  let d := dist0 k y
  let nomin0 := 1.0 / k * inner0 k y * Real.sqrt k
  let nomin : Vec (n + 1) := Fin.cons (nomin0 + y 0) (Fin.tail y)
  let denom := norm nomin
  (d / denom) • nomin

/-- `lorentz/math.py:453-461` `_logmap0back`. -/
noncomputable def logmap0back (k : ℝ) (x : Vec (n + 1)) : Vec (n + 1) :=
  let d := dist0 k x
  let nomin' : Vec (n + 1) := (1.0 / k * inner0 k x) • x
  let nomin : Vec (n + 1) := Fin.cons (nomin' 0 + Real.sqrt k) (Fin.tail nomin')
  let denom := norm nomin
  (d / denom) • nomin

/-- `lorentz/math.py:492-495` `_egrad2rgrad`.  The first statement is in place
(`grad.narrow(-1, 0, 1).mul_(-1)`), so the model returns the result together with the
contents of the caller's `grad` buffer after the call. -/
noncomputable def egrad2rgrad (k : ℝ) (x grad : Vec (n + 1)) : Vec (n + 1) × Vec (n + 1) :=
  let grad' : Vec (n + 1) := Fin.cons (grad 0 * -1) (Fin.tail grad)
  (grad' + inner x grad' • (k⁻¹ • x), grad')

/-- `lorentz/math.py:524-529` `_parallel_transport`. -/
noncomputable def transp (k : ℝ) (x y v : Vec (n + 1)) : Vec (n + 1) :=
  let lmap := logmap k x y
  let nom := inner lmap v
  let denom := dist k x y ^ 2
  v - (nom / denom) • (lmap + logmap k y x)

/-- `lorentz/math.py:556-561` `_parallel_transport0`. -/
noncomputable def transp0 (k : ℝ) (y v : Vec (n + 1)) : Vec (n + 1) :=
  let lmap := logmap0 k y
  let nom := inner lmap v
  let denom := dist0 k y ^ 2
  v - (nom / denom) • (lmap + logmap0back k y)

/-- `lorentz/math.py:590-595` `_parallel_transport0back`. -/
noncomputable def transp0back (k : ℝ) (x v : Vec (n + 1)) : Vec (n + 1) :=
  let lmap := logmap0back k x
  let nom := inner lmap v
  let denom := dist0 k x ^ 2
  v - (nom / denom) • (lmap + logmap0 k x)

/-- `lorentz/math.py:626-630` `_geodesic_unit`. -/
noncomputable def geodesicUnitRaw (k t : ℝ) (x u : Vec (n + 1)) : Vec (n + 1) :=
  Real.cosh (t / Real.sqrt k) • x + (Real.sqrt k * Real.sinh (t / Real.sqrt k)) • u

/-- `lorentz/math.py:633-656` `lorentz_to_poincare` for a tensor of rank two (for other
ranks `narrow(-dim, ..)` selects another axis, see `Verif/Model/Axis.lean`). -/
noncomputable def toPoincare (k : ℝ) (x : Vec (n + 1)) : Vec n :=
  (x 0 + Real.sqrt k)⁻¹ • Fin.tail x

/-- `lorentz/math.py:659-687` `poincare_to_lorentz`. -/
noncomputable def ofPoincare (k eps : ℝ) (x : Vec n) : Vec (n + 1) :=
  let s := x ⬝ᵥ x
  let c : Vec (n + 1) := Fin.cons (1 + s) ((2 : ℝ) • x)
  (Real.sqrt k / (1.0 - s + eps)) • c

/-- the default of the `eps` argument, `lorentz/math.py:659`. -/
noncomputable def ofPoincareEps : ℝ := 1e-6

/-! ## the manifold class, `lorentz/__init__.py` -/

/-- `lorentz/__init__.py:85-86` `Lorentz.projx`. -/
noncomputable def projx (k : ℝ) (x : Vec (n + 1)) : Vec (n + 1) := project k x

/-- `lorentz/__init__.py:88-90` `Lorentz.proju`. -/
noncomputable def proju (k : ℝ) (x v : Vec (n + 1)) : Vec (n + 1) := projectU k x v

/-- `lorentz/__init__.py:92-101` `Lorentz.expmap`; `retr = expmap` (line 247). -/
noncomputable def expmap (k : ℝ) (x u : Vec (n + 1)) (normTan : Bool := true)
    (doProject : Bool := true) : Vec (n + 1) :=
  let u := if normTan then proju k x u else u
  let res := expmapRaw k x u
  if doProject then project k res else res

/-- `lorentz/__init__.py:103-109` `Lorentz.expmap0`. -/
noncomputable def expmap0 (k : ℝ) (u : Vec (n + 1)) (doProject : Bool := true) : Vec (n + 1) :=
  let res := expmap0Raw k u
  if doProject then project k res else res

/-- `lorentz/__init__.py:158-162` `Lorentz.transp_follow_expmap`. -/
noncomputable def transpFollowExpmap (k : ℝ) (x u v : Vec (n + 1)) : Vec (n + 1) :=
  transp k x (expmap k x u) v

/-- `lorentz/__init__.py:164-172` `Lorentz.geodesic_unit`. -/
noncomputable def geodesicUnit (k t : ℝ) (x u : Vec (n + 1)) (doProject : Bool := true) :
    Vec (n + 1) :=
  let res := geodesicUnitRaw k t x u
  if doProject then project k res else res

/-- `lorentz/__init__.py:203-214` `Lorentz.random_normal`; `noise` is the `torch.randn` draw. -/
noncomputable def randomNormal (k mean std : ℝ) (noise : Vec (n + 1)) : Vec (n + 1) :=
  let tens : Vec (n + 1) := fun i => noise i * std + mean
  let tens := (nrm tens)⁻¹ • tens
  expmap0 k tens

/-- `lorentz/__init__.py:238-245` `Lorentz.origin`. -/
noncomputable def origin (k : ℝ) : Vec (n + 1) := Fin.cons (Real.sqrt k) 0

/-- `lorentz/__init__.py:44-57` `_check_point_on_manifold` on one point. -/
def CheckPoint (k atol rtol : ℝ) (x : Vec (n + 1)) : Prop :=
  |(-(x 0 ^ 2) + ∑ i, Fin.tail x i ^ 2) - (-k)| ≤ atol + rtol * |(-k)|

/-- `lorentz/__init__.py:59-68` `_check_vector_on_tangent` on one vector. -/
def CheckTangent (atol rtol : ℝ) (x u : Vec (n + 1)) : Prop :=
  |inner u x - 0| ≤ atol + rtol * |(0 : ℝ)|

end Geoopt.Lorentz
