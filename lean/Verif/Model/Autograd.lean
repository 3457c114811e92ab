import Verif.Model.StereoManifold
import Verif.Model.Sphere
import Verif.Model.Lorentz
import Verif.Model.SPD

/-!
# What automatic differentiation sees

torch records every operation of a computation and, in the backward pass, multiplies the incoming
gradient by the derivative of each recorded operation.  The gradients are finite if all values and all
these derivatives are finite.  A single infinite one spoils the result even in a branch that
`torch.where` does not select: its incoming gradient is `0`, and `0 * inf = nan`.

The definitions below repeat the computations of the other model files operation by operation, and keep
beside each result the statement that all values and derivatives so far are finite.  Python's `if`
records the branch taken only; `torch.where` records both.

Simplification: real numbers in place of floating point numbers, so there is no overflow.
-/

namespace Geoopt.Grad
open Geoopt Matrix
variable {n : ℕ}

/-- A result, and whether all values and derivatives recorded on the way are finite. -/
structure Tr (α : Type) where
  val : α
  fin : Prop

instance : Monad Tr where
  pure a := ⟨a, True⟩
  bind a f := ⟨(f a.val).val, a.fin ∧ (f a.val).fin⟩

/-! ### The operations of torch whose value or derivative can be infinite

Sums, products, powers with natural exponents, `abs`, `clamp`, `tanh`, `atan`, `sin`, `cos`, `sinh`,
`cosh` have finite derivatives everywhere, and so has `norm` (`norm_backward` returns `0` where the norm
is `0`).  They are written directly. -/

/-- `a / b`: derivatives `1 / b` and `-a / b ** 2`. -/
noncomputable def div (a b : ℝ) : Tr ℝ := ⟨a / b, b ≠ 0⟩

/-- `v / b` for a vector `v`. -/
noncomputable def divV (v : Vec n) (b : ℝ) : Tr (Vec n) := ⟨b⁻¹ • v, b ≠ 0⟩

/-- `b.reciprocal()`: derivative `-1 / b ** 2`. -/
noncomputable def recip (b : ℝ) : Tr ℝ := ⟨b⁻¹, b ≠ 0⟩

/-- `x.sqrt()`: derivative `1 / (2 * x.sqrt())`. -/
noncomputable def sqrt (x : ℝ) : Tr ℝ := ⟨Real.sqrt x, 0 < x⟩

/-- `x ** 0.5`: derivative `0.5 * x ** (-0.5)`. -/
noncomputable def powHalf (x : ℝ) : Tr ℝ := ⟨x ^ (0.5 : ℝ), 0 < x⟩

/-- `x.log()`: derivative `1 / x`. -/
noncomputable def log (x : ℝ) : Tr ℝ := ⟨Real.log x, 0 < x⟩

/-- `x.tan()`: derivative `1 + x.tan() ** 2`. -/
noncomputable def tan (x : ℝ) : Tr ℝ := ⟨Real.tan x, Real.cos x ≠ 0⟩

/-- `x.asin()`: derivative `(1 - x ** 2).rsqrt()`. -/
noncomputable def asin (x : ℝ) : Tr ℝ := ⟨Real.arcsin x, -1 < x ∧ x < 1⟩

/-- `x.acos()`: derivative `-(1 - x ** 2).rsqrt()`. -/
noncomputable def acos (x : ℝ) : Tr ℝ := ⟨Real.arccos x, -1 < x ∧ x < 1⟩

/-- `torch.where(c, a, b)`: both `a` and `b` have been computed. -/
noncomputable def where_ {α : Type} (c : Prop) (a b : Tr α) : Tr α :=
  open Classical in ⟨if c then a.val else b.val, a.fin ∧ b.fin⟩

/-- A sum or a loop over finitely many entries: every term is recorded. -/
def each {m : ℕ} {α : Type} (f : Fin m → Tr α) : Tr (Fin m → α) :=
  ⟨fun j => (f j).val, ∀ j, (f j).fin⟩

/-! ### `geoopt/manifolds/stereographic/math.py` -/

namespace Stereo
open Geoopt.Stereo (KZero tanKTaylor artanKTaylor arsinKTaylor sinKTaylor tanhC projEps piLit)

/-- `math.py:192` `sabs(k).sqrt()`. -/
noncomputable def kSqrt (η k : ℝ) : Tr ℝ := sqrt (sabs η k)

/-- `math.py:34-37` `artanh`. -/
noncomputable def artanhC (x : ℝ) : Tr ℝ := do
  let y := clamp (-1 + 1e-7) (1 - 1e-7) x
  let a ← log (1 + y)
  let b ← log (1 - y)
  pure ((a - b) * 0.5)

/-- `math.py:40-42` `arsinh`. -/
noncomputable def arsinhC (x : ℝ) : Tr ℝ := do
  let s ← sqrt (1 + x ^ 2)
  log (max (x + s) 1e-15)

/-- `math.py:183-198` `tan_k`. -/
noncomputable def tanK (η k x : ℝ) : Tr ℝ :=
  if KZero k then pure (tanKTaylor k x)
  else do
    let s ← kSqrt η k
    let r ← recip s
    if k < 0 then pure (r * tanhC (x * s))
    else do
      let t ← tan (min (x * s) 1e38)
      pure (r * t)

/-- `math.py:207-222` `artan_k`. -/
noncomputable def artanK (η k x : ℝ) : Tr ℝ :=
  if KZero k then pure (artanKTaylor k x)
  else do
    let s ← kSqrt η k
    let r ← recip s
    if k < 0 then do
      let t ← artanhC (x * s)
      pure (r * t)
    else pure (r * Real.arctan (x * s))

/-- `math.py:231-246` `arsin_k`. -/
noncomputable def arsinK (η k x : ℝ) : Tr ℝ :=
  if KZero k then pure (arsinKTaylor k x)
  else do
    let s ← kSqrt η k
    let r ← recip s
    if k < 0 then do
      let t ← arsinhC (x * s)
      pure (r * t)
    else do
      let t ← asin (x * s)
      pure (r * t)

/-- `math.py:259-274` `sin_k`. -/
noncomputable def sinK (η k x : ℝ) : Tr ℝ :=
  if KZero k then pure (sinKTaylor k x)
  else do
    let s ← kSqrt η k
    let r ← recip s
    if k < 0 then pure (r * Real.sinh (x * s)) else pure (r * Real.sin (x * s))

/-- `math.py:306-318` `_project`: the bound, the quotient and both `torch.where`. -/
noncomputable def project (η : ℝ) (dt : DType) (k : ℝ) (x : Vec n) : Tr (Vec n) := do
  let s ← powHalf (sabs η k)
  let maxnorm ← where_ (k < 0) (div (1 - projEps dt) s) (pure 1e15)
  let norm := max (nrm x) 1e-15
  where_ (norm > maxnorm) (do let q ← divV x norm; pure (maxnorm • q)) (pure x)

/-- `math.py:347-349` `_lambda_x`. -/
noncomputable def lambdaX (k : ℝ) (x : Vec n) : Tr ℝ := div 2 (max (1 + k * (x ⬝ᵥ x)) 1e-15)

/-- `math.py:385-396` `_inner`. -/
noncomputable def inner (k : ℝ) (x u v : Vec n) : Tr ℝ := do
  let l ← lambdaX k x
  pure (l ^ 2 * (u ⬝ᵥ v))

/-- `math.py:428-438` `_norm`. -/
noncomputable def norm (k : ℝ) (x u : Vec n) : Tr ℝ := do
  let l ← lambdaX k x
  pure (l * nrm u)

/-- `math.py:502-521` `_mobius_add`. -/
noncomputable def mobiusAdd (k : ℝ) (x y : Vec n) : Tr (Vec n) :=
  divV ((1 - 2 * k * (x ⬝ᵥ y) - k * (y ⬝ᵥ y)) • x + (1 + k * (x ⬝ᵥ x)) • y)
    (max (Geoopt.Stereo.mobDenom k x y) 1e-15)

/-- `math.py:554-555` `_mobius_sub`. -/
noncomputable def mobiusSub (k : ℝ) (x y : Vec n) : Tr (Vec n) := mobiusAdd k x (-y)

/-- `math.py:622-641` `_gyration`. -/
noncomputable def gyration (k : ℝ) (u v w : Vec n) : Tr (Vec n) := do
  let a := -k ^ 2 * (u ⬝ᵥ w) * (v ⬝ᵥ v) - k * (v ⬝ᵥ w) + 2 * k ^ 2 * (u ⬝ᵥ v) * (v ⬝ᵥ w)
  let b := -k ^ 2 * (v ⬝ᵥ w) * (u ⬝ᵥ u) + k * (u ⬝ᵥ w)
  let d := 1 - 2 * k * (u ⬝ᵥ v) + k ^ 2 * (u ⬝ᵥ u) * (v ⬝ᵥ v)
  let q ← divV ((2 : ℝ) • (a • u + b • v)) (max d 1e-15)
  pure (w + q)

/-- `math.py:696-705` `_mobius_coadd`. -/
noncomputable def mobiusCoadd (k : ℝ) (x y : Vec n) : Tr (Vec n) := do
  let g ← gyration k x (-y) y
  mobiusAdd k x g

/-- `math.py:738-740` `_mobius_cosub`. -/
noncomputable def mobiusCosub (k : ℝ) (x y : Vec n) : Tr (Vec n) := mobiusCoadd k x (-y)

/-- `math.py:813-819` `_mobius_scalar_mul`. -/
noncomputable def mobiusScalarMul (η k r : ℝ) (x : Vec n) : Tr (Vec n) := do
  let xn := max (nrm x) 1e-15
  let a ← artanK η k xn
  let t ← tanK η k (r * a)
  let q ← divV x xn
  pure (t • q)

/-- `math.py:853-863` `_dist`. -/
noncomputable def dist (η k : ℝ) (x y : Vec n) : Tr ℝ := do
  let d ← mobiusAdd k (-x) y
  let a ← artanK η k (nrm d)
  pure (2.0 * a)

/-- `math.py:889-891` `_dist0`. -/
noncomputable def dist0 (η k : ℝ) (x : Vec n) : Tr ℝ := do
  let a ← artanK η k (nrm x)
  pure (2.0 * a)

/-- `math.py:957-965` `_geodesic`. -/
noncomputable def geodesic (η k t : ℝ) (x y : Vec n) : Tr (Vec n) := do
  let v ← mobiusAdd k (-x) y
  let tv ← mobiusScalarMul η k t v
  mobiusAdd k x tv

/-- `math.py:1012-1018` `_expmap`. -/
noncomputable def expmap (η k : ℝ) (x u : Vec n) : Tr (Vec n) := do
  let un := max (nrm u) 1e-15
  let l ← lambdaX k x
  let t ← tanK η k (l / 2.0 * un)
  let q ← divV u un
  mobiusAdd k x (t • q)

/-- `math.py:1048-1052` `_expmap0`. -/
noncomputable def expmap0 (η k : ℝ) (u : Vec n) : Tr (Vec n) := do
  let un := max (nrm u) 1e-15
  let t ← tanK η k un
  let q ← divV u un
  pure (t • q)

/-- `math.py:1090-1101` `_geodesic_unit`. -/
noncomputable def geodesicUnit (η k t : ℝ) (x u : Vec n) : Tr (Vec n) := do
  let un := max (nrm u) 1e-15
  let a ← tanK η k (t / 2.0)
  let q ← divV u un
  mobiusAdd k x (a • q)

/-- `math.py:1141-1146` `_logmap`. -/
noncomputable def logmap (η k : ℝ) (x y : Vec n) : Tr (Vec n) := do
  let sub ← mobiusAdd k (-x) y
  let sn := max (nrm sub) 1e-15
  let l ← lambdaX k x
  let a ← artanK η k sn
  let q ← divV sub (l * sn)
  pure ((2.0 * a) • q)

/-- `math.py:1183-1186` `_logmap0`. -/
noncomputable def logmap0 (η k : ℝ) (y : Vec n) : Tr (Vec n) := do
  let yn := max (nrm y) 1e-15
  let q ← divV y yn
  let a ← artanK η k yn
  pure (a • q)

/-- `math.py:1223-1239` `_mobius_matvec`. -/
noncomputable def mobiusMatvec {m : ℕ} (η k : ℝ) (M : Matrix (Fin m) (Fin n) ℝ) (x : Vec n) :
    Tr (Vec m) := do
  let xn := max (nrm x) 1e-15
  let mx := M.mulVec x
  let mxn := max (nrm mx) 1e-15
  let res ← do
    let q ← div mxn xn
    let a ← artanK η k xn
    let t ← tanK η k (q * a)
    let d ← divV mx mxn
    pure (t • d)
  where_ (∀ i, mx i = 0) (pure 0) (pure res)

/-- `math.py:1276-1287` `_mobius_pointwise_mul`. -/
noncomputable def mobiusPointwiseMul (η k : ℝ) (w x : Vec n) : Tr (Vec n) := do
  let xn := max (nrm x) 1e-15
  let wx : Vec n := fun i => w i * x i
  let wxn := max (nrm wx) 1e-15
  let res ← do
    let q ← div wxn xn
    let a ← artanK η k xn
    let t ← tanK η k (q * a)
    let d ← divV wx wxn
    pure (t • d)
  where_ (∀ i, |wx i| ≤ 1e-8) (pure 0) (pure res)

/-- `math.py:1560-1582` `_dist2plane`. -/
noncomputable def dist2plane (η k : ℝ) (x a p : Vec n) (signed scaled : Bool) : Tr ℝ := do
  let diff ← mobiusAdd k (-p) x
  let diffNorm2 := max (diff ⬝ᵥ diff) 1e-15
  let sc := if signed then diff ⬝ᵥ a else |diff ⬝ᵥ a|
  let aNorm := nrm a
  let num := 2.0 * sc
  let denom := clampAbs 1e-15 ((1 + k * diffNorm2) * aNorm)
  let q ← div num denom
  let distance ← arsinK η k q
  pure (if scaled then distance * aNorm else distance)

/-- `math.py:1654-1662` `_parallel_transport`. -/
noncomputable def transp (k : ℝ) (x y u : Vec n) : Tr (Vec n) := do
  let g ← gyration k y (-x) u
  let lx ← lambdaX k x
  let ly ← lambdaX k y
  let q ← div lx ly
  pure (q • g)

/-- `math.py:1691-1695` `_parallel_transport0`. -/
noncomputable def transp0 (k : ℝ) (y v : Vec n) : Tr (Vec n) :=
  pure ((max (1 + k * (y ⬝ᵥ y)) 1e-15) • v)

/-- `math.py:1725-1729` `_parallel_transport0back`. -/
noncomputable def transp0back (k : ℝ) (x v : Vec n) : Tr (Vec n) :=
  divV v (max (1 + k * (x ⬝ᵥ x)) 1e-15)

/-- `math.py:1759-1761` `_egrad2rgrad`. -/
noncomputable def egrad2rgrad (k : ℝ) (x g : Vec n) : Tr (Vec n) := do
  let l ← lambdaX k x
  divV g (l ^ 2)

/-- `math.py:1785-1790` `_sproj`. -/
noncomputable def sproj (η k : ℝ) (x : Vec (n + 1)) : Tr (Vec n) := do
  let s ← kSqrt η k
  let f ← div 1.0 (1.0 + s * x (Fin.last n))
  pure (f • fun i : Fin n => x i.castSucc)

/-- `math.py:1814-1821` `_inv_sproj`. -/
noncomputable def invSproj (η k : ℝ) (x : Vec n) : Tr (Vec (n + 1)) := do
  let s ← kSqrt η k
  let l ← lambdaX k x
  let f ← div 1.0 s
  pure (Fin.snoc (α := fun _ => ℝ) (l • x) (f * (l - 1.0)))

/-- `math.py:1855-1866` `_antipode`. -/
noncomputable def antipode (η k : ℝ) (x : Vec n) : Tr (Vec n) :=
  if k ≤ 0 then pure (-x)
  else do
    let v ← divV x (max (nrm x) 1e-15)
    let s ← kSqrt η k
    let r ← recip s
    let a ← geodesicUnit η k (piLit * r) x v
    where_ (0 < k) (pure a) (pure (-x))

open Classical in
/-- `math.py:1948-1998` `_weighted_midpoint` as in `Geoopt.Stereo.weightedMidpoint`. -/
noncomputable def weightedMidpoint {m : ℕ} (η k : ℝ) (xs : Fin m → Vec n) (weights : Fin m → ℝ)
    (lincomb posweight : Bool) : Tr (Vec n) := do
  let pos := posweight = true ∧ ∃ j, weights j < 0
  let gamma ← each fun j => lambdaX k (xs j)
  let xs' ←
    if pos then each fun j => where_ (weights j < 0) (antipode η k (xs j)) (pure (xs j)) else pure xs
  let w : Fin m → ℝ := if pos then fun j => |weights j| else weights
  let denominator := ∑ j, (gamma j - 1) * w j
  let nominator := ∑ j, (gamma j * w j) • xs' j
  let twoMean ← divV nominator (clampAbs 1e-10 denominator)
  let aMean ← mobiusScalarMul η k 0.5 twoMean
  let aMean ←
    if 0 < k then do
      let bMean ← antipode η k aMean
      let da ← each fun j => dist η k aMean (xs' j)
      let db ← each fun j => dist η k bMean (xs' j)
      where_ (∑ j, db j < ∑ j, da j) (pure bMean) (pure aMean)
    else pure aMean
  if lincomb then mobiusScalarMul η k (∑ j, w j) aMean else pure aMean

end Stereo

/-! ### `geoopt/manifolds/sphere.py` -/

namespace Sphere
open Geoopt.Sphere (eps projectOnSubspace)
variable (P : Option (Matrix (Fin n) (Fin n) ℝ)) (dt : DType)

/-- `sphere.py:126-128` `projx`. -/
noncomputable def projx (x : Vec n) : Tr (Vec n) :=
  divV (projectOnSubspace P x) (nrm (projectOnSubspace P x))

/-- `sphere.py:130-132` `proju`, also `egrad2rgrad` and `transp` (lines 144-145, 162). -/
noncomputable def proju (x u : Vec n) : Tr (Vec n) := pure (Geoopt.Sphere.proju P x u)

/-- `sphere.py:141-142` `retr`. -/
noncomputable def retr (x u : Vec n) : Tr (Vec n) := projx P (x + u)

/-- `sphere.py:134-139` `expmap`: both arguments of `torch.where` are computed. -/
noncomputable def expmap (x u : Vec n) : Tr (Vec n) := do
  let normU := nrm u
  let exp : Tr (Vec n) := do
    let q ← divV (Real.sin normU • u) normU
    pure (Real.cos normU • x + q)
  let retr := projx P (x + u)
  where_ (normU > eps dt) exp retr

/-- `sphere.py:156-160` `dist`. -/
noncomputable def dist (x y : Vec n) : Tr ℝ :=
  acos (clamp (-1 + eps dt) (1 - eps dt) (Geoopt.Sphere.inner x x y))

/-- `sphere.py:147-154` `logmap`. -/
noncomputable def logmap (x y : Vec n) : Tr (Vec n) := do
  let u ← proju P x (y - x)
  let d ← dist dt x y
  where_ (d > eps dt) (divV (d • u) (max (nrm u) (eps dt))) (pure u)

end Sphere

/-! ### `geoopt/manifolds/lorentz` -/

namespace Lorentz
open Geoopt.Lorentz (inner)

/-- `lorentz/math.py:5-8` `arcosh`. -/
noncomputable def arcosh (x : ℝ) : Tr ℝ := do
  let z ← sqrt (max (x ^ 2 - 1.0) 1e-15)
  log (x + z)

/-- `lorentz/math.py:75-79` `_inner0`. -/
noncomputable def inner0 (k : ℝ) (v : Vec (n + 1)) : Tr ℝ := do
  let s ← sqrt k
  pure (-v 0 * s)

/-- `lorentz/math.py:112-114` `_dist`. -/
noncomputable def dist (k : ℝ) (x y : Vec (n + 1)) : Tr ℝ := do
  let s ← sqrt k
  let q ← div (-inner x y) k
  let a ← arcosh q
  pure (s * a)

/-- `lorentz/math.py:143-145` `_dist0`. -/
noncomputable def dist0 (k : ℝ) (x : Vec (n + 1)) : Tr ℝ := do
  let i ← inner0 k x
  let s ← sqrt k
  let q ← div (-i) k
  let a ← arcosh q
  pure (s * a)

/-- `lorentz/math.py:174-181` `_project`. -/
noncomputable def project (k : ℝ) (x : Vec (n + 1)) : Tr (Vec (n + 1)) := do
  let s ← sqrt (k + nrm (Fin.tail x) ^ 2)
  pure (Fin.cons s (Fin.tail x))

/-- `lorentz/math.py:251-252` `_project_u`. -/
noncomputable def projectU (k : ℝ) (x v : Vec (n + 1)) : Tr (Vec (n + 1)) := do
  let q ← divV x k
  pure (v + inner x v • q)

/-- `lorentz/math.py:281-282` `_norm`. -/
noncomputable def norm (u : Vec (n + 1)) : Tr ℝ := sqrt (max (inner u u) 1e-8)

/-- `lorentz/math.py:314-320` `_expmap`. -/
noncomputable def expmapRaw (k : ℝ) (x u : Vec (n + 1)) : Tr (Vec (n + 1)) := do
  let nomin ← norm u
  let s ← sqrt k
  let a ← div nomin s
  let q ← div (s * Real.sinh a) nomin
  pure (Real.cosh a • x + q • u)

/-- `lorentz/math.py:345-351` `_expmap0`. -/
noncomputable def expmap0Raw (k : ℝ) (u : Vec (n + 1)) : Tr (Vec (n + 1)) := do
  let nomin ← norm u
  let s ← sqrt k
  let a ← div nomin s
  let lv := Real.cosh a * s
  let q ← div (s * Real.sinh a) nomin
  let rv : Vec (n + 1) := q • u
  pure (Fin.cons (lv + rv 0) (Fin.tail rv))

/-- `lorentz/math.py:393-397` `_logmap`. -/
noncomputable def logmap (k : ℝ) (x y : Vec (n + 1)) : Tr (Vec (n + 1)) := do
  let d ← dist k x y
  let r ← div 1.0 k
  let nomin := y + (r * inner x y) • x
  let denom ← norm nomin
  let q ← div d denom
  pure (q • nomin)

/-- `lorentz/math.py:422-428` `_logmap0`. -/
noncomputable def logmap0 (k : ℝ) (y : Vec (n + 1)) : Tr (Vec (n + 1)) := do
  let d ← dist0 k y
  let r ← div 1.0 k
  let i ← inner0 k y
  let s ← sqrt k
  let nomin0 := r * i * s
  let nomin : Vec (n + 1) := Fin.cons (nomin0 + y 0) (Fin.tail y)
  let denom ← norm nomin
  let q ← div d denom
  pure (q • nomin)

/-- `lorentz/math.py:453-461` `_logmap0back`. -/
noncomputable def logmap0back (k : ℝ) (x : Vec (n + 1)) : Tr (Vec (n + 1)) := do
  let d ← dist0 k x
  let r ← div 1.0 k
  let i ← inner0 k x
  let s ← sqrt k
  let nomin' : Vec (n + 1) := (r * i) • x
  let nomin : Vec (n + 1) := Fin.cons (nomin' 0 + s) (Fin.tail nomin')
  let denom ← norm nomin
  let q ← div d denom
  pure (q • nomin)

/-- `lorentz/math.py:524-529` `_parallel_transport`. -/
noncomputable def transp (k : ℝ) (x y v : Vec (n + 1)) : Tr (Vec (n + 1)) := do
  let lmap ← logmap k x y
  let nom := inner lmap v
  let d ← dist k x y
  let q ← div nom (d ^ 2)
  let back ← logmap k y x
  pure (v - q • (lmap + back))

/-- `lorentz/math.py:556-561` `_parallel_transport0`. -/
noncomputable def transp0 (k : ℝ) (y v : Vec (n + 1)) : Tr (Vec (n + 1)) := do
  let lmap ← logmap0 k y
  let nom := inner lmap v
  let d ← dist0 k y
  let q ← div nom (d ^ 2)
  let back ← logmap0back k y
  pure (v - q • (lmap + back))

/-- `lorentz/math.py:590-595` `_parallel_transport0back`. -/
noncomputable def transp0back (k : ℝ) (x v : Vec (n + 1)) : Tr (Vec (n + 1)) := do
  let lmap ← logmap0back k x
  let nom := inner lmap v
  let d ← dist0 k x
  let q ← div nom (d ^ 2)
  let back ← logmap0 k x
  pure (v - q • (lmap + back))

/-- `lorentz/math.py:626-630` `_geodesic_unit`. -/
noncomputable def geodesicUnitRaw (k t : ℝ) (x u : Vec (n + 1)) : Tr (Vec (n + 1)) := do
  let s ← sqrt k
  let a ← div t s
  pure (Real.cosh a • x + (s * Real.sinh a) • u)

/-- `lorentz/math.py:633-656` `lorentz_to_poincare`. -/
noncomputable def toPoincare (k : ℝ) (x : Vec (n + 1)) : Tr (Vec n) := do
  let s ← sqrt k
  divV (Fin.tail x) (x 0 + s)

/-- `lorentz/math.py:659-687` `poincare_to_lorentz`. -/
noncomputable def ofPoincare (k eps : ℝ) (x : Vec n) : Tr (Vec (n + 1)) := do
  let s := x ⬝ᵥ x
  let c : Vec (n + 1) := Fin.cons (1 + s) ((2 : ℝ) • x)
  let r ← sqrt k
  let q ← div r (1.0 - s + eps)
  pure (q • c)

/-- `lorentz/__init__.py:92-101` `Lorentz.expmap`, also `retr`. -/
noncomputable def expmap (k : ℝ) (x u : Vec (n + 1)) (normTan : Bool := true)
    (doProject : Bool := true) : Tr (Vec (n + 1)) := do
  let u ← if normTan then projectU k x u else pure u
  let res ← expmapRaw k x u
  if doProject then project k res else pure res

/-- `lorentz/__init__.py:103-109` `Lorentz.expmap0`. -/
noncomputable def expmap0 (k : ℝ) (u : Vec (n + 1)) (doProject : Bool := true) :
    Tr (Vec (n + 1)) := do
  let res ← expmap0Raw k u
  if doProject then project k res else pure res

end Lorentz

/-! ### `geoopt/manifolds/symmetric_positive_definite.py` -/

namespace SPD
open Geoopt.Linalg (Eigh)
open Geoopt.SPD (frobNorm Metric)
variable (E : Eigh n)

/-- `batch_linalg.py:71-98` `sym_funcm`, for the function `f` on the eigenvalues.  The derivative of
`torch.linalg.eigh` divides by the differences of the eigenvalues. -/
noncomputable def symFuncm (f : ℝ → Tr ℝ) (x : Matrix (Fin n) (Fin n) ℝ) :
    Tr (Matrix (Fin n) (Fin n) ℝ) :=
  ⟨E.v x * diagonal (fun i => (f (E.e x i)).val) * (E.v x)ᵀ,
    (∀ i j, i ≠ j → E.e x i - E.e x j ≠ 0) ∧ ∀ i, (f (E.e x i)).fin⟩

/-- `batch_linalg.py:121-134` `sym_logm`. -/
noncomputable def symLogm (x : Matrix (Fin n) (Fin n) ℝ) : Tr (Matrix (Fin n) (Fin n) ℝ) :=
  symFuncm E log x

/-- `t.pow(-0.5)`: derivative `-0.5 * t.pow(-1.5)`. -/
noncomputable def powNegHalf (t : ℝ) : Tr ℝ := ⟨t ^ (-0.5 : ℝ), 0 < t⟩

/-- `batch_linalg.py:173-186` `sym_inv_sqrtm1`. -/
noncomputable def symInvSqrtm1 (x : Matrix (Fin n) (Fin n) ℝ) : Tr (Matrix (Fin n) (Fin n) ℝ) :=
  symFuncm E powNegHalf x

/-- `batch_linalg.py:189-209` `sym_inv_sqrtm2`. -/
noncomputable def symInvSqrtm2 (x : Matrix (Fin n) (Fin n) ℝ) :
    Tr (Matrix (Fin n) (Fin n) ℝ × Matrix (Fin n) (Fin n) ℝ) := do
  let a ← symFuncm E (fun t => do let s ← sqrt t; recip s) x
  let b ← symFuncm E sqrt x
  pure (a, b)

/-- `batch_linalg.py:153-170` `sym_invm`, `torch.matrix_power(x, -1)`: derivative
`-x⁻¹ dx x⁻¹`. -/
noncomputable def symInvm (x : Matrix (Fin n) (Fin n) ℝ) : Tr (Matrix (Fin n) (Fin n) ℝ) :=
  ⟨x⁻¹, x.det ≠ 0⟩

/-- `torch.det(x).log()` (`symmetric_positive_definite.py:107-112`); the derivative of `det` is finite
everywhere. -/
noncomputable def logDet (x : Matrix (Fin n) (Fin n) ℝ) : Tr ℝ := log x.det

/-- `symmetric_positive_definite.py:74-133`, `165-198` `dist`; the norm has derivative `0` at `0`. -/
noncomputable def dist (m : Metric) (x y : Matrix (Fin n) (Fin n) ℝ) : Tr ℝ :=
  match m with
  | .AIM => do
    let s ← symInvSqrtm1 E x
    let l ← symLogm E (s * y * s)
    pure (frobNorm l)
  | .SM => do
    let a ← logDet ((0.5 : ℝ) • (x + y))
    let b ← logDet (x * y)
    pure (a - 0.5 * b)
  | .LEM => do
    let a ← symLogm E x
    let b ← symLogm E y
    pure (frobNorm (a - b))

/-- `symmetric_positive_definite.py:155-157` `projx`. -/
noncomputable def projx (x : Matrix (Fin n) (Fin n) ℝ) : Tr (Matrix (Fin n) (Fin n) ℝ) :=
  symFuncm E (fun t => pure |t|) (Geoopt.Linalg.sym x)

/-- `symmetric_positive_definite.py:200-237` `inner`. -/
noncomputable def inner (x u v : Matrix (Fin n) (Fin n) ℝ) : Tr ℝ := do
  let i ← symInvm x
  pure (Geoopt.Linalg.trace (i * u * i * v))

/-- `symmetric_positive_definite.py:239-241` `retr`. -/
noncomputable def retr (x u : Matrix (Fin n) (Fin n) ℝ) : Tr (Matrix (Fin n) (Fin n) ℝ) := do
  let i ← symInvm x
  pure (Geoopt.Linalg.sym (x + u + (0.5 : ℝ) • u * i * u))

/-- `symmetric_positive_definite.py:243-245` `expmap`; `torch.matrix_exp` has a finite derivative. -/
noncomputable def expmap (x u : Matrix (Fin n) (Fin n) ℝ) : Tr (Matrix (Fin n) (Fin n) ℝ) := do
  let p ← symInvSqrtm2 E x
  pure (p.2 * Geoopt.Linalg.symExpm (p.1 * u * p.1) * p.2)

/-- `symmetric_positive_definite.py:247-249` `logmap`. -/
noncomputable def logmap (x y : Matrix (Fin n) (Fin n) ℝ) : Tr (Matrix (Fin n) (Fin n) ℝ) := do
  let p ← symInvSqrtm2 E x
  let l ← symLogm E (p.1 * y * p.1)
  pure (p.2 * l * p.2)

/-- `symmetric_positive_definite.py:254-263` `transp`. -/
noncomputable def transp (x y v : Matrix (Fin n) (Fin n) ℝ) : Tr (Matrix (Fin n) (Fin n) ℝ) := do
  let p ← symInvSqrtm2 E x
  let l ← symLogm E (p.1 * y * p.1)
  let ex := Geoopt.Linalg.symExpm ((0.5 : ℝ) • l)
  pure (p.2 * ex * Geoopt.Linalg.sym (p.1 * v * p.1) * ex * p.2)

end SPD
end Geoopt.Grad
