import Verif.Model.Utils
import Mathlib.Analysis.SpecialFunctions.Trigonometric.Arctan
import Mathlib.Analysis.SpecialFunctions.Trigonometric.DerivHyp
import Mathlib.Analysis.SpecialFunctions.Log.Basic

/-!
# `geoopt/manifolds/stereographic/math.py`

The curvature `k` is one real number (a scalar tensor, as created by
`Stereographic.__init__`).  `η` is the regulariser that the code adds to `|k|`
(`utils.sabs`, default `1e-15`); it is a parameter so that a theorem can say
whether it needs the exact constant.  `codeEta` is the value in the code.
-/

namespace Geoopt.Stereo
open Geoopt

variable {n : ℕ}

/-- `utils.py:56`: default `eps` of `sabs`, used by every `sabs(k)` below. -/
noncomputable def codeEta : ℝ := 1e-15

/-- `math.py:29-31` `tanh`: argument clamped to `[-15, 15]`. -/
noncomputable def tanhC (x : ℝ) : ℝ := Real.tanh (clamp (-15) 15 x)

/-- `math.py:34-37` `artanh`: argument clamped to `[-1+1e-7, 1-1e-7]`. -/
noncomputable def artanhC (x : ℝ) : ℝ :=
  let y := clamp (-1 + 1e-7) (1 - 1e-7) x
  (Real.log (1 + y) - Real.log (1 - y)) * 0.5

/-- `math.py:40-42` `arsinh`. -/
noncomputable def arsinhC (x : ℝ) : ℝ :=
  Real.log (max (x + Real.sqrt (1 + x ^ 2)) 1e-15)

/-- `math.py:45-48` `abs_zero_grad`. -/
noncomputable def absZeroGrad (x : ℝ) : ℝ := x * usign x

/-- `k.isclose(zero)` (`math.py:187` and the like): torch's default tolerances
`|k - 0| ≤ 1e-8 + 1e-5 * |0|`. -/
def KZero (k : ℝ) : Prop := |k| ≤ 1e-8

noncomputable instance (k : ℝ) : Decidable (KZero k) := by unfold KZero; infer_instance

/-- `math.py:192` `k_sqrt = sabs(k).sqrt()`. -/
noncomputable def kSqrt (η k : ℝ) : ℝ := Real.sqrt (sabs η k)

/-- `math.py:51-67` `tan_k_zero_taylor` with `order=1` (the only order its
caller uses). -/
noncomputable def tanKTaylor (k x : ℝ) : ℝ := x + 1 / 3 * absZeroGrad k * x ^ 3

/-- `math.py:84-100` `artan_k_zero_taylor` with `order=1`. -/
noncomputable def artanKTaylor (k x : ℝ) : ℝ := x - 1 / 3 * absZeroGrad k * x ^ 3

/-- `math.py:117-131` `arsin_k_zero_taylor` with `order=-1` (the call at line 239). -/
noncomputable def arsinKTaylor (k x : ℝ) : ℝ :=
  let k := absZeroGrad k
  x + k * x ^ 3 / 6 + 3 / 40 * k ^ 2 * x ^ 5 + 5 / 112 * k ^ 3 * x ^ 7
    + 35 / 1152 * k ^ 4 * x ^ 9 + 63 / 2816 * k ^ 5 * x ^ 11

/-- `math.py:150-164` `sin_k_zero_taylor` with `order=-1` (the call at line 267). -/
noncomputable def sinKTaylor (k x : ℝ) : ℝ :=
  let k := absZeroGrad k
  x - k * x ^ 3 / 6 + k ^ 2 * x ^ 5 / 120 - k ^ 3 * x ^ 7 / 5040
    + k ^ 4 * x ^ 9 / 362880 - k ^ 5 * x ^ 11 / 39916800

/-- `math.py:183-198` `tan_k` for a scalar curvature (the branch at 199-204 is
for tensors of curvatures with mixed signs). -/
noncomputable def tanK (η k x : ℝ) : ℝ :=
  if KZero k then tanKTaylor k x
  else if k < 0 then (kSqrt η k)⁻¹ * tanhC (x * kSqrt η k)
  else (kSqrt η k)⁻¹ * Real.tan (min (x * kSqrt η k) 1e38)

/-- `math.py:207-222` `artan_k` for a scalar curvature. -/
noncomputable def artanK (η k x : ℝ) : ℝ :=
  if KZero k then artanKTaylor k x
  else if k < 0 then (kSqrt η k)⁻¹ * artanhC (x * kSqrt η k)
  else (kSqrt η k)⁻¹ * Real.arctan (x * kSqrt η k)

/-- `math.py:231-246` `arsin_k` for a scalar curvature.  `torch.asin` is NaN
outside `[-1,1]`, where `Real.arcsin` is clamped: theorems that use the positive
branch carry the bound. -/
noncomputable def arsinK (η k x : ℝ) : ℝ :=
  if KZero k then arsinKTaylor k x
  else if k < 0 then (kSqrt η k)⁻¹ * arsinhC (x * kSqrt η k)
  else (kSqrt η k)⁻¹ * Real.arcsin (x * kSqrt η k)

/-- `math.py:259-274` `sin_k` for a scalar curvature. -/
noncomputable def sinK (η k x : ℝ) : ℝ :=
  if KZero k then sinKTaylor k x
  else if k < 0 then (kSqrt η k)⁻¹ * Real.sinh (x * kSqrt η k)
  else (kSqrt η k)⁻¹ * Real.sin (x * kSqrt η k)

/-- `math.py:308-312`: `eps` chosen from the dtype when the caller passes a
negative one (the default `-1`). -/
noncomputable def projEps : DType → ℝ
  | .f32 => 4e-3
  | .f64 => 1e-5

/-- `math.py:313-314` `maxnorm`. -/
noncomputable def maxNorm (η : ℝ) (dt : DType) (k : ℝ) : ℝ :=
  if k < 0 then (1 - projEps dt) / (sabs η k) ^ (0.5 : ℝ) else 1e15

/-- `math.py:306-318` `_project` with the default `eps`. -/
noncomputable def project (η : ℝ) (dt : DType) (k : ℝ) (x : Vec n) : Vec n :=
  let norm := max (nrm x) 1e-15
  if norm > maxNorm η dt k then (maxNorm η dt k) • ((norm)⁻¹ • x) else x

/-- `math.py:347-349` `_lambda_x`. -/
noncomputable def lambdaX (k : ℝ) (x : Vec n) : ℝ := 2 / max (1 + k * (x ⬝ᵥ x)) 1e-15

/-- `math.py:385-396` `_inner` on one batch element. -/
noncomputable def inner (k : ℝ) (x u v : Vec n) : ℝ := lambdaX k x ^ 2 * (u ⬝ᵥ v)

/-- `math.py:428-438` `_norm` on one batch element. -/
noncomputable def norm (k : ℝ) (x u : Vec n) : ℝ := lambdaX k x * nrm u

/-- `math.py:508` the denominator of Möbius addition. -/
noncomputable def mobDenom (k : ℝ) (x y : Vec n) : ℝ :=
  1 - 2 * k * (x ⬝ᵥ y) + k ^ 2 * (x ⬝ᵥ x) * (y ⬝ᵥ y)

/-- `math.py:502-521` `_mobius_add`. -/
noncomputable def mobiusAdd (k : ℝ) (x y : Vec n) : Vec n :=
  (max (mobDenom k x y) 1e-15)⁻¹ •
    ((1 - 2 * k * (x ⬝ᵥ y) - k * (y ⬝ᵥ y)) • x + (1 + k * (x ⬝ᵥ x)) • y)

/-- `math.py:554-555` `_mobius_sub`. -/
noncomputable def mobiusSub (k : ℝ) (x y : Vec n) : Vec n := mobiusAdd k x (-y)

/-- `math.py:622-641` `_gyration`. -/
noncomputable def gyration (k : ℝ) (u v w : Vec n) : Vec n :=
  let a := -k ^ 2 * (u ⬝ᵥ w) * (v ⬝ᵥ v) - k * (v ⬝ᵥ w) + 2 * k ^ 2 * (u ⬝ᵥ v) * (v ⬝ᵥ w)
  let b := -k ^ 2 * (v ⬝ᵥ w) * (u ⬝ᵥ u) + k * (u ⬝ᵥ w)
  let d := 1 - 2 * k * (u ⬝ᵥ v) + k ^ 2 * (u ⬝ᵥ u) * (v ⬝ᵥ v)
  w + (max d 1e-15)⁻¹ • ((2 : ℝ) • (a • u + b • v))

/-- `math.py:696-705` `_mobius_coadd`. -/
noncomputable def mobiusCoadd (k : ℝ) (x y : Vec n) : Vec n :=
  mobiusAdd k x (gyration k x (-y) y)

/-- `math.py:738-740` `_mobius_cosub`. -/
noncomputable def mobiusCosub (k : ℝ) (x y : Vec n) : Vec n := mobiusCoadd k x (-y)

/-- `math.py:813-819` `_mobius_scalar_mul`. -/
noncomputable def mobiusScalarMul (η k r : ℝ) (x : Vec n) : Vec n :=
  let xn := max (nrm x) 1e-15
  tanK η k (r * artanK η k xn) • (xn⁻¹ • x)

/-- `math.py:853-863` `_dist` on one batch element. -/
noncomputable def dist (η k : ℝ) (x y : Vec n) : ℝ :=
  2.0 * artanK η k (nrm (mobiusAdd k (-x) y))

/-- `math.py:889-891` `_dist0`. -/
noncomputable def dist0 (η k : ℝ) (x : Vec n) : ℝ := 2.0 * artanK η k (nrm x)

/-- `math.py:957-965` `_geodesic`. -/
noncomputable def geodesic (η k t : ℝ) (x y : Vec n) : Vec n :=
  mobiusAdd k x (mobiusScalarMul η k t (mobiusAdd k (-x) y))

/-- `math.py:1012-1018` `_expmap`. -/
noncomputable def expmap (η k : ℝ) (x u : Vec n) : Vec n :=
  let un := max (nrm u) 1e-15
  mobiusAdd k x (tanK η k (lambdaX k x / 2.0 * un) • (un⁻¹ • u))

/-- `math.py:1048-1052` `_expmap0`. -/
noncomputable def expmap0 (η k : ℝ) (u : Vec n) : Vec n :=
  let un := max (nrm u) 1e-15
  tanK η k un • (un⁻¹ • u)

/-- `math.py:1090-1101` `_geodesic_unit`. -/
noncomputable def geodesicUnit (η k t : ℝ) (x u : Vec n) : Vec n :=
  let un := max (nrm u) 1e-15
  mobiusAdd k x (tanK η k (t / 2.0) • (un⁻¹ • u))

/-- `math.py:1141-1146` `_logmap`. -/
noncomputable def logmap (η k : ℝ) (x y : Vec n) : Vec n :=
  let sub := mobiusAdd k (-x) y
  let sn := max (nrm sub) 1e-15
  (2.0 * artanK η k sn) • ((lambdaX k x * sn)⁻¹ • sub)

/-- `math.py:1183-1186` `_logmap0`. -/
noncomputable def logmap0 (η k : ℝ) (y : Vec n) : Vec n :=
  let yn := max (nrm y) 1e-15
  artanK η k yn • (yn⁻¹ • y)

/-- `math.py:1223-1239` `_mobius_matvec` for one 2-d matrix and one vector. -/
noncomputable def mobiusMatvec {m : ℕ} (η k : ℝ) (M : Matrix (Fin m) (Fin n) ℝ) (x : Vec n) :
    Vec m :=
  let xn := max (nrm x) 1e-15
  let mx := M.mulVec x
  let mxn := max (nrm mx) 1e-15
  if ∀ i, mx i = 0 then 0 else tanK η k (mxn / xn * artanK η k xn) • (mxn⁻¹ • mx)

/-- `math.py:1276-1287` `_mobius_pointwise_mul`; `isclose(zero)` is `|·| ≤ 1e-8`. -/
noncomputable def mobiusPointwiseMul (η k : ℝ) (w x : Vec n) : Vec n :=
  let xn := max (nrm x) 1e-15
  let wx : Vec n := fun i => w i * x i
  let wxn := max (nrm wx) 1e-15
  if ∀ i, |wx i| ≤ 1e-8 then 0 else tanK η k (wxn / xn * artanK η k xn) • (wxn⁻¹ • wx)

/-- `math.py:1347-1385` `mobius_fn_apply`. -/
noncomputable def mobiusFnApply {m : ℕ} (η k : ℝ) (fn : Vec n → Vec m) (x : Vec n) : Vec m :=
  expmap0 η k (fn (logmap0 η k x))

/-- `math.py:1290-1344` `mobius_fn_apply_chain`. -/
noncomputable def mobiusFnApplyChain (η k : ℝ) (x : Vec n) (fns : List (Vec n → Vec n)) : Vec n :=
  if fns = [] then x
  else expmap0 η k (fns.foldl (fun ex fn => fn ex) (logmap0 η k x))

/-- `math.py:1560-1582` `_dist2plane` on one batch element. -/
noncomputable def dist2plane (η k : ℝ) (x a p : Vec n) (signed scaled : Bool) : ℝ :=
  let diff := mobiusAdd k (-p) x
  let diffNorm2 := max (diff ⬝ᵥ diff) 1e-15
  let sc := if signed then diff ⬝ᵥ a else |diff ⬝ᵥ a|
  let aNorm := nrm a
  let num := 2.0 * sc
  let denom := clampAbs 1e-15 ((1 + k * diffNorm2) * aNorm)
  let distance := arsinK η k (num / denom)
  if scaled then distance * aNorm else distance

/-- `math.py:1654-1662` `_parallel_transport`. -/
noncomputable def transp (k : ℝ) (x y u : Vec n) : Vec n :=
  (lambdaX k x / lambdaX k y) • gyration k y (-x) u

/-- `math.py:1691-1695` `_parallel_transport0`. -/
noncomputable def transp0 (k : ℝ) (y v : Vec n) : Vec n := (max (1 + k * (y ⬝ᵥ y)) 1e-15) • v

/-- `math.py:1725-1729` `_parallel_transport0back`. -/
noncomputable def transp0back (k : ℝ) (x v : Vec n) : Vec n :=
  (max (1 + k * (x ⬝ᵥ x)) 1e-15)⁻¹ • v

/-- `math.py:1759-1761` `_egrad2rgrad`. -/
noncomputable def egrad2rgrad (k : ℝ) (x g : Vec n) : Vec n := (lambdaX k x ^ 2)⁻¹ • g

/-- `math.py:1785-1790` `_sproj`: the last coordinate is `narrow(dim,-1,1)`. -/
noncomputable def sproj (η k : ℝ) (x : Vec (n + 1)) : Vec n :=
  (1.0 / (1.0 + kSqrt η k * x (Fin.last n))) • (fun i : Fin n => x i.castSucc)

/-- `math.py:1814-1821` `_inv_sproj`. -/
noncomputable def invSproj (η k : ℝ) (x : Vec n) : Vec (n + 1) :=
  Fin.snoc (α := fun _ => ℝ) (lambdaX k x • x) (1.0 / kSqrt η k * (lambdaX k x - 1.0))

/-- `math.py:1863` the literal used for π in `_antipode`. -/
noncomputable def piLit : ℝ := 3.141592653589793

/-- `math.py:1855-1866` `_antipode` for a scalar curvature. -/
noncomputable def antipode (η k : ℝ) (x : Vec n) : Vec n :=
  if k ≤ 0 then -x
  else geodesicUnit η k (piLit * (kSqrt η k)⁻¹) x ((max (nrm x) 1e-15)⁻¹ • x)

/-- `math.py:1948-1998` `_weighted_midpoint` of a finite family of points, all
batch axes reduced (`reducedim=None`), `posweight=False` / `True`, `lincomb`. -/
noncomputable def weightedMidpoint {m : ℕ} (η k : ℝ) (xs : Fin m → Vec n) (weights : Fin m → ℝ)
    (lincomb posweight : Bool) : Vec n :=
  let pos := posweight = true ∧ ∃ j, weights j < 0
  -- `gamma` is computed before the antipodes are taken (line 1962)
  let gamma : Fin m → ℝ := fun j => lambdaX k (xs j)
  let xs' : Fin m → Vec n := open Classical in
    if pos then fun j => if weights j < 0 then antipode η k (xs j) else xs j else xs
  let w : Fin m → ℝ := open Classical in if pos then fun j => |weights j| else weights
  let denominator := ∑ j, (gamma j - 1) * w j
  let nominator := ∑ j, (gamma j * w j) • xs' j
  let twoMean := (clampAbs 1e-10 denominator)⁻¹ • nominator
  let aMean := mobiusScalarMul η k 0.5 twoMean
  let aMean := open Classical in
    if 0 < k then
      let bMean := antipode η k aMean
      if ∑ j, dist η k bMean (xs' j) < ∑ j, dist η k aMean (xs' j) then bMean else aMean
    else aMean
  if lincomb then mobiusScalarMul η k (∑ j, w j) aMean else aMean

end Geoopt.Stereo
