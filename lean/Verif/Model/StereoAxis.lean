import Verif.Model.Axis
import Verif.Model.Stereo

/-!
# `geoopt/manifolds/stereographic/math.py` on whole tensors, with its `dim` argument

`k` is a number (a zero-dimensional tensor) and `η` the regulariser of `Verif/Model/Stereo.lean`.
A function with a `keepdim` argument is modelled by two definitions, with suffix `K` for
`keepdim=True`.
-/

namespace Geoopt.StereoAxis
open Geoopt Geoopt.Axis Geoopt.Axis.Tensor
variable {m : ℕ}

/-- `x.norm(dim=dim, keepdim=True, p=2).clamp_min(1e-15)`, used throughout the file. -/
noncomputable def cnorm (d : Fin (m + 1)) (x : Tensor (m + 1)) : Tensor (m + 1) :=
  (x.normK d).map fun a => max a 1e-15

/-- `math.py:306-318` `_project` with the default `eps`. -/
noncomputable def project (d : Fin (m + 1)) (η : ℝ) (dt : DType) (k : ℝ) (x : Tensor (m + 1)) :
    Tensor (m + 1) :=
  let maxnorm := Stereo.maxNorm η dt k
  let norm := cnorm d x
  let cond := norm.test (· > maxnorm)
  let projected := (x / norm).map (· * maxnorm)
  whr cond projected x

/-- `math.py:348-349` `_lambda_x` with `keepdim=True`. -/
noncomputable def lambdaXK (d : Fin (m + 1)) (k : ℝ) (x : Tensor (m + 1)) : Tensor (m + 1) :=
  ((x.map (· ^ 2)).sumK d).map fun a => 2 / max (1 + k * a) 1e-15

/-- `math.py:348-349` `_lambda_x` with `keepdim=False`. -/
noncomputable def lambdaX (d : Fin (m + 1)) (k : ℝ) (x : Tensor (m + 1)) : Tensor m :=
  ((x.map (· ^ 2)).sum d).map fun a => 2 / max (1 + k * a) 1e-15

/-- `math.py:386-396` `_inner` with `keepdim=True`. -/
noncomputable def innerK (d : Fin (m + 1)) (k : ℝ) (x u v : Tensor (m + 1)) : Tensor (m + 1) :=
  (lambdaXK d k x).map (· ^ 2) * (u * v).sumK d

/-- `math.py:386-396` `_inner` with `keepdim=False`.  The conformal factor is computed with
`keepdim=True` all the same, so the product broadcasts a tensor of rank `m + 1` with one of
rank `m`: torch aligns the last axes, that is, it puts an axis of size one in front of the
second factor.  The result has rank `m + 1`. -/
noncomputable def inner (d : Fin (m + 1)) (k : ℝ) (x u v : Tensor (m + 1)) : Tensor (m + 1) :=
  (lambdaXK d k x).map (· ^ 2) * ((u * v).sum d).unsqueeze 0

/-- `math.py:429-438` `_norm` with `keepdim=True`. -/
noncomputable def normK (d : Fin (m + 1)) (k : ℝ) (x u : Tensor (m + 1)) : Tensor (m + 1) :=
  lambdaXK d k x * u.normK d

/-- `math.py:429-438` `_norm` with `keepdim=False`. -/
noncomputable def norm (d : Fin (m + 1)) (k : ℝ) (x u : Tensor (m + 1)) : Tensor m :=
  lambdaX d k x * u.norm d

/-- `math.py:503-521` `_mobius_add`. -/
noncomputable def mobiusAdd (d : Fin (m + 1)) (k : ℝ) (x y : Tensor (m + 1)) : Tensor (m + 1) :=
  let x2 := (x.map (· ^ 2)).sumK d
  let y2 := (y.map (· ^ 2)).sumK d
  let xy := (x * y).sumK d
  let num := (xy.map (fun a => 1 - 2 * k * a) - y2.map (k * ·)) * x + x2.map (fun a => 1 + k * a) * y
  let denom := xy.map (fun a => 1 - 2 * k * a) + x2.map (k ^ 2 * ·) * y2
  num / denom.map fun a => max a 1e-15

/-- `math.py:554-555` `_mobius_sub`. -/
noncomputable def mobiusSub (d : Fin (m + 1)) (k : ℝ) (x y : Tensor (m + 1)) : Tensor (m + 1) :=
  mobiusAdd d k x (-y)

/-- `math.py:623-641` `_gyration`. -/
noncomputable def gyration (d : Fin (m + 1)) (k : ℝ) (u v w : Tensor (m + 1)) :
    Tensor (m + 1) :=
  let u2 := (u.map (· ^ 2)).sumK d
  let v2 := (v.map (· ^ 2)).sumK d
  let uv := (u * v).sumK d
  let uw := (u * w).sumK d
  let vw := (v * w).sumK d
  let K2 := k ^ 2
  let a := uw.map (-K2 * ·) * v2 - vw.map (k * ·) + uv.map (2 * K2 * ·) * vw
  let b := vw.map (-K2 * ·) * u2 + uw.map (k * ·)
  let dd := uv.map (fun a => 1 - 2 * k * a) + u2.map (K2 * ·) * v2
  w + (a * u + b * v).map (2 * ·) / dd.map fun a => max a 1e-15

/-- `math.py:697-705` `_mobius_coadd`. -/
noncomputable def mobiusCoadd (d : Fin (m + 1)) (k : ℝ) (x y : Tensor (m + 1)) :
    Tensor (m + 1) :=
  mobiusAdd d k x (gyration d k x (-y) y)

/-- `math.py:739-740` `_mobius_cosub`. -/
noncomputable def mobiusCosub (d : Fin (m + 1)) (k : ℝ) (x y : Tensor (m + 1)) :
    Tensor (m + 1) :=
  mobiusCoadd d k x (-y)

/-- `math.py:814-819` `_mobius_scalar_mul`; `t` is a tensor of factors. -/
noncomputable def mobiusScalarMul (d : Fin (m + 1)) (η k : ℝ) (t x : Tensor (m + 1)) :
    Tensor (m + 1) :=
  let xn := cnorm d x
  (t * xn.map (Stereo.artanK η k)).map (Stereo.tanK η k) * (x / xn)

/-- `math.py:854-863` `_dist` with `keepdim=True`. -/
noncomputable def distK (d : Fin (m + 1)) (η k : ℝ) (x y : Tensor (m + 1)) : Tensor (m + 1) :=
  ((mobiusAdd d k (-x) y).normK d).map fun a => 2.0 * Stereo.artanK η k a

/-- `math.py:854-863` `_dist` with `keepdim=False`. -/
noncomputable def dist (d : Fin (m + 1)) (η k : ℝ) (x y : Tensor (m + 1)) : Tensor m :=
  ((mobiusAdd d k (-x) y).norm d).map fun a => 2.0 * Stereo.artanK η k a

/-- `math.py:890-891` `_dist0` with `keepdim=True`. -/
noncomputable def dist0K (d : Fin (m + 1)) (η k : ℝ) (x : Tensor (m + 1)) : Tensor (m + 1) :=
  (x.normK d).map fun a => 2.0 * Stereo.artanK η k a

/-- `math.py:890-891` `_dist0` with `keepdim=False`. -/
noncomputable def dist0 (d : Fin (m + 1)) (η k : ℝ) (x : Tensor (m + 1)) : Tensor m :=
  (x.norm d).map fun a => 2.0 * Stereo.artanK η k a

/-- `math.py:958-965` `_geodesic`. -/
noncomputable def geodesic (d : Fin (m + 1)) (η k : ℝ) (t x y : Tensor (m + 1)) :
    Tensor (m + 1) :=
  mobiusAdd d k x (mobiusScalarMul d η k t (mobiusAdd d k (-x) y))

/-- `math.py:1013-1018` `_expmap`. -/
noncomputable def expmap (d : Fin (m + 1)) (η k : ℝ) (x u : Tensor (m + 1)) : Tensor (m + 1) :=
  let un := cnorm d u
  let lam := lambdaXK d k x
  mobiusAdd d k x ((lam.map (· / 2.0) * un).map (Stereo.tanK η k) * (u / un))

/-- `math.py:1049-1052` `_expmap0`. -/
noncomputable def expmap0 (d : Fin (m + 1)) (η k : ℝ) (u : Tensor (m + 1)) : Tensor (m + 1) :=
  let un := cnorm d u
  un.map (Stereo.tanK η k) * (u / un)

/-- `math.py:1091-1101` `_geodesic_unit`; `t` is a tensor of times. -/
noncomputable def geodesicUnit (d : Fin (m + 1)) (η k : ℝ) (t x u : Tensor (m + 1)) :
    Tensor (m + 1) :=
  let un := cnorm d u
  mobiusAdd d k x (t.map (fun a => Stereo.tanK η k (a / 2.0)) * (u / un))

/-- `math.py:1142-1146` `_logmap`. -/
noncomputable def logmap (d : Fin (m + 1)) (η k : ℝ) (x y : Tensor (m + 1)) : Tensor (m + 1) :=
  let sub := mobiusAdd d k (-x) y
  let sn := cnorm d sub
  let lam := lambdaXK d k x
  sn.map (fun a => 2.0 * Stereo.artanK η k a) * (sub / (lam * sn))

/-- `math.py:1184-1186` `_logmap0`. -/
noncomputable def logmap0 (d : Fin (m + 1)) (η k : ℝ) (y : Tensor (m + 1)) : Tensor (m + 1) :=
  let yn := cnorm d y
  (y / yn) * yn.map (Stereo.artanK η k)

/-- `torch.tensordot(x, M, ([dim], [1]))` for a matrix `M` with `p` rows and `n` columns,
`math.py:1231`: the axis `dim` of `x` is contracted, and the new axis comes last. -/
def tensordot {p n : ℕ} (d : Fin (m + 1)) (M : Matrix (Fin p) (Fin n) ℝ) (x : Tensor (m + 1)) :
    Tensor (m + 1) :=
  ⟨Function.update (x.moveLast d).shape (Fin.last m) p,
   fun i => if h : i (Fin.last m) < p then
      ∑ j : Fin n, M ⟨i (Fin.last m), h⟩ j *
        (x.moveLast d).get (Function.update i (Fin.last m) j)
     else 0⟩

/-- `math.py:1224-1239` `_mobius_matvec` for one matrix (`m.dim() == 2`). -/
noncomputable def mobiusMatvec {p n : ℕ} (d : Fin (m + 1)) (η k : ℝ)
    (M : Matrix (Fin p) (Fin n) ℝ) (x : Tensor (m + 1)) : Tensor (m + 1) :=
  let xn := cnorm d x
  let mx := tensordot d M x
  let mxn := cnorm d mx
  let res := (mxn / xn * xn.map (Stereo.artanK η k)).map (Stereo.tanK η k) * (mx / mxn)
  let cond := (mx.test (· = 0)).prodK d
  whr cond (res.map fun _ => 0) res

/-- `math.py:1277-1287` `_mobius_pointwise_mul`; `isclose(zero)` is `|·| ≤ 1e-8`. -/
noncomputable def mobiusPointwiseMul (d : Fin (m + 1)) (η k : ℝ) (w x : Tensor (m + 1)) :
    Tensor (m + 1) :=
  let xn := cnorm d x
  let wx := w * x
  let wxn := cnorm d wx
  let res := (wxn / xn * xn.map (Stereo.artanK η k)).map (Stereo.tanK η k) * (wx / wxn)
  let cond := (wx.test fun a => |a| ≤ 1e-8).prodK d
  whr cond (res.map fun _ => 0) res

/-- `math.py:1571-1582` `_dist2plane` with `keepdim=True`. -/
noncomputable def dist2planeK (d : Fin (m + 1)) (η k : ℝ) (x a p : Tensor (m + 1))
    (signed scaled : Bool) : Tensor (m + 1) :=
  let diff := mobiusAdd d k (-p) x
  let diffNorm2 := ((diff.map (· ^ 2)).sumK d).map fun a => max a 1e-15
  let sc := (diff * a).sumK d
  let sc := if signed then sc else sc.map fun a => |a|
  let aNorm := a.normK d
  let num := sc.map (2.0 * ·)
  let denom := (diffNorm2.map (fun a => 1 + k * a) * aNorm).map (clampAbs 1e-15)
  let distance := (num / denom).map (Stereo.arsinK η k)
  if scaled then distance * aNorm else distance

/-- `math.py:1571-1582` `_dist2plane` with `keepdim=False`. -/
noncomputable def dist2plane (d : Fin (m + 1)) (η k : ℝ) (x a p : Tensor (m + 1))
    (signed scaled : Bool) : Tensor m :=
  let diff := mobiusAdd d k (-p) x
  let diffNorm2 := ((diff.map (· ^ 2)).sum d).map fun a => max a 1e-15
  let sc := (diff * a).sum d
  let sc := if signed then sc else sc.map fun a => |a|
  let aNorm := a.norm d
  let num := sc.map (2.0 * ·)
  let denom := (diffNorm2.map (fun a => 1 + k * a) * aNorm).map (clampAbs 1e-15)
  let distance := (num / denom).map (Stereo.arsinK η k)
  if scaled then distance * aNorm else distance

/-- `math.py:1655-1662` `_parallel_transport`. -/
noncomputable def transp (d : Fin (m + 1)) (k : ℝ) (x y u : Tensor (m + 1)) : Tensor (m + 1) :=
  gyration d k y (-x) u * lambdaXK d k x / lambdaXK d k y

/-- `math.py:1692-1695` `_parallel_transport0`. -/
noncomputable def transp0 (d : Fin (m + 1)) (k : ℝ) (y v : Tensor (m + 1)) : Tensor (m + 1) :=
  v * ((y.map (· ^ 2)).sumK d).map fun a => max (1 + k * a) 1e-15

/-- `math.py:1726-1729` `_parallel_transport0back`. -/
noncomputable def transp0back (d : Fin (m + 1)) (k : ℝ) (x v : Tensor (m + 1)) :
    Tensor (m + 1) :=
  v / ((x.map (· ^ 2)).sumK d).map fun a => max (1 + k * a) 1e-15

/-- `math.py:1760-1761` `_egrad2rgrad`. -/
noncomputable def egrad2rgrad (d : Fin (m + 1)) (k : ℝ) (x g : Tensor (m + 1)) :
    Tensor (m + 1) :=
  g / (lambdaXK d k x).map (· ^ 2)

/-- `math.py:1786-1790` `_sproj`; `narrow(dim, -1, 1)` is the last entry. -/
noncomputable def sproj (d : Fin (m + 1)) (η k : ℝ) (x : Tensor (m + 1)) : Tensor (m + 1) :=
  let invr := Stereo.kSqrt η k
  let factor := (x.narrow d (x.shape d - 1) 1).map fun a => 1.0 / (1.0 + invr * a)
  factor * x.narrow d 0 (x.shape d - 1)

/-- `math.py:1815-1821` `_inv_sproj`. -/
noncomputable def invSproj (d : Fin (m + 1)) (η k : ℝ) (x : Tensor (m + 1)) : Tensor (m + 1) :=
  let invr := Stereo.kSqrt η k
  let lam := lambdaXK d k x
  let A := lam * x
  let B := lam.map fun a => 1.0 / invr * (a - 1.0)
  cat d A B

/-- `math.py:1856-1866` `_antipode`. -/
noncomputable def antipode (d : Fin (m + 1)) (η k : ℝ) (x : Tensor (m + 1)) : Tensor (m + 1) :=
  if k ≤ 0 then -x
  else
    let v := x / cnorm d x
    let un := cnorm d v
    -- `_geodesic_unit(pi * R, x, v, k, dim=dim)` with a number for the time
    mobiusAdd d k x ((v / un).map (Stereo.tanK η k (Stereo.piLit * (Stereo.kSqrt η k)⁻¹ / 2.0) * ·))

/-- `math.py:1967-1969`: is the branch for negative weights taken? -/
def midFlips (posweight : Bool) (w : Tensor (m + 1)) : Prop :=
  posweight = true ∧ (w.test (· < 0)).Any

/-- `math.py:1967-1968`: the points after the branch for negative weights. -/
noncomputable def midPoints (d : Fin (m + 1)) (η k : ℝ) (posweight : Bool)
    (xs w : Tensor (m + 1)) : Tensor (m + 1) :=
  open Classical in
  if midFlips posweight w then whr (w.test (· < 0)) (antipode d η k xs) xs else xs

/-- `math.py:1969`: the weights after the branch for negative weights. -/
noncomputable def midWeights (posweight : Bool) (w : Tensor (m + 1)) : Tensor (m + 1) :=
  open Classical in if midFlips posweight w then w.map (fun a => |a|) else w

/-- `math.py:1970-1975`: the gyromidpoint, from the conformal factors `gamma` of the points
before the branch for negative weights. -/
noncomputable def midMean (d : Fin (m + 1)) (η k : ℝ) (gamma xs w : Tensor (m + 1)) :
    Tensor (m + 1) :=
  let denominator := (gamma.map (· - 1) * w).sumOthersK d
  let nominator := (gamma * w * xs).sumOthersK d
  let twoMean := nominator / denominator.map (clampAbs 1e-10)
  let xn := cnorm d twoMean
  -- `_mobius_scalar_mul(0.5, two_mean, k=k, dim=dim)`
  (xn.map fun a => Stereo.tanK η k (0.5 * Stereo.artanK η k a)) * (twoMean / xn)

/-- `math.py:1976-1986`: choose between the midpoint and its antipode. -/
noncomputable def midChoose (d : Fin (m + 1)) (η k : ℝ) (xs aMean : Tensor (m + 1)) :
    Tensor (m + 1) :=
  open Classical in
  if 0 < k then
    let bMean := antipode d η k aMean
    let aDist := (distK d η k aMean xs).sumOthersK d
    let bDist := (distK d η k bMean xs).sumOthersK d
    whr (cmp (· < ·) bDist aDist) bMean aMean
  else aMean

/-- `math.py:1987-1994`: the total weight. -/
noncomputable def midAlpha (d : Fin (m + 1)) (gamma xs w : Tensor (m + 1)) : Tensor (m + 1) :=
  if w.numel = 1 then w.map (· * ∏ k ∈ Finset.univ.erase d, (xs.shape k : ℝ))
  else
    -- `broadcast_tensors(weights, gamma)[0].sum(reducedim, keepdim=True)`
    (map2 (fun a _ => a) w gamma).sumOthersK d

/-- `math.py:1948-1998` `_weighted_midpoint` with `reducedim=None`, given weights (one for each
batch element, so of rank `m`; line 1966 inserts the manifold axis) and `keepdim=True`. -/
noncomputable def weightedMidpointK (d : Fin (m + 1)) (η k : ℝ) (xs : Tensor (m + 1))
    (weights : Tensor m) (lincomb posweight : Bool) : Tensor (m + 1) :=
  let gamma := lambdaXK d k xs
  let w := weights.unsqueeze d
  let xs' := midPoints d η k posweight xs w
  let w' := midWeights posweight w
  let aMean := midChoose d η k xs' (midMean d η k gamma xs' w')
  if lincomb then mobiusScalarMul d η k (midAlpha d gamma xs' w') aMean else aMean

/-- `math.py:1996-1998`: `_weighted_midpoint` as above with `keepdim=False`. -/
noncomputable def weightedMidpoint (d : Fin (m + 1)) (η k : ℝ) (xs : Tensor (m + 1))
    (weights : Tensor m) (lincomb posweight : Bool) : Tensor 1 :=
  (weightedMidpointK d η k xs weights lincomb posweight).dropOthers d

end Geoopt.StereoAxis
