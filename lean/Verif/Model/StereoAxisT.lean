import Verif.Model.StereoAxis

/-!
# `geoopt/manifolds/stereographic/math.py` with a tensor of curvatures

`Stereographic(k=torch.tensor(...))` accepts a tensor of curvatures, and the functions of the module
broadcast it with the points.  Here `K` is such a tensor, of the rank of the points and of size one
along the manifold axis (`(B, 1)` for `B` points in rows).  The functions `tan_k`, `artan_k`,
`arsin_k`, `sin_k` and `_antipode` decide with `torch.all` over all curvatures which formula to use,
so that the result at one point could depend on the curvatures of the others.
-/

namespace Geoopt.StereoAxisT
open Geoopt Geoopt.Axis Geoopt.Axis.Tensor Geoopt.StereoAxis
variable {m r : ℕ}

/-- `torch.all(t)` of a boolean tensor. -/
def All (t : Tensor r) : Prop := ∀ i : Fin r → ℕ, (∀ k, i k < t.shape k) → t.get i ≠ 0

/-- `k_zero = k.isclose(zero)`, `math.py:187`. -/
noncomputable def kZero (K : Tensor r) : Tensor r := K.test Stereo.KZero

/-- `k_sign = k.sign()`, then `masked_fill(k_sign, k_zero, zero)`, `math.py:185-189`. -/
noncomputable def kSign (K : Tensor r) : Tensor r :=
  open Classical in K.map fun k => if Stereo.KZero k then 0 else (SignType.sign k : ℝ)

/-- `math.py:183-204` `tan_k`. -/
noncomputable def tanK (η : ℝ) (K x : Tensor r) : Tensor r :=
  open Classical in
  if All (kZero K) then map2 Stereo.tanKTaylor K x
  else
    let kSqrt := K.map (Stereo.kSqrt η)
    let scaled := x * kSqrt
    if All ((kSign K).test (· < 0)) then kSqrt.map (·⁻¹) * scaled.map Stereo.tanhC
    else if All ((kSign K).test (0 < ·)) then
      kSqrt.map (·⁻¹) * scaled.map fun a => Real.tan (min a 1e38)
    else
      let nonzero := whr ((kSign K).test (0 < ·)) (scaled.map fun a => Real.tan (min a 1e38))
        (scaled.map Stereo.tanhC) * kSqrt.map (·⁻¹)
      whr (kZero K) (map2 Stereo.tanKTaylor K x) nonzero

/-- `math.py:207-228` `artan_k`. -/
noncomputable def artanK (η : ℝ) (K x : Tensor r) : Tensor r :=
  open Classical in
  if All (kZero K) then map2 Stereo.artanKTaylor K x
  else
    let kSqrt := K.map (Stereo.kSqrt η)
    let scaled := x * kSqrt
    if All ((kSign K).test (· < 0)) then kSqrt.map (·⁻¹) * scaled.map Stereo.artanhC
    else if All ((kSign K).test (0 < ·)) then kSqrt.map (·⁻¹) * scaled.map Real.arctan
    else
      let nonzero := whr ((kSign K).test (0 < ·)) (scaled.map Real.arctan)
        (scaled.map Stereo.artanhC) * kSqrt.map (·⁻¹)
      whr (kZero K) (map2 Stereo.artanKTaylor K x) nonzero

/-- `math.py:117-131` `arsin_k_zero_taylor` with `order=1`, `math.py:256`. -/
noncomputable def arsinKTaylor1 (k x : ℝ) : ℝ := x + Stereo.absZeroGrad k * x ^ 3 / 6

/-- `math.py:150-164` `sin_k_zero_taylor` with `order=1`, `math.py:280`. -/
noncomputable def sinKTaylor1 (k x : ℝ) : ℝ := x - Stereo.absZeroGrad k * x ^ 3 / 6

/-- `math.py:231-256` `arsin_k`.  The branch for mixed signs clamps its argument and uses another
order of the Taylor polynomial than the branch for curvatures that are all zero. -/
noncomputable def arsinK (η : ℝ) (K x : Tensor r) : Tensor r :=
  open Classical in
  if All (kZero K) then map2 Stereo.arsinKTaylor K x
  else
    let kSqrt := K.map (Stereo.kSqrt η)
    let scaled := x * kSqrt
    if All ((kSign K).test (· < 0)) then kSqrt.map (·⁻¹) * scaled.map Stereo.arsinhC
    else if All ((kSign K).test (0 < ·)) then kSqrt.map (·⁻¹) * scaled.map Real.arcsin
    else
      let nonzero := whr ((kSign K).test (0 < ·))
        (scaled.map fun a => Real.arcsin (clamp (-1 + 1e-7) (1 - 1e-7) a))
        (scaled.map Stereo.arsinhC) * kSqrt.map (·⁻¹)
      whr (kZero K) (map2 arsinKTaylor1 K x) nonzero

/-- `math.py:259-280` `sin_k`. -/
noncomputable def sinK (η : ℝ) (K x : Tensor r) : Tensor r :=
  open Classical in
  if All (kZero K) then map2 Stereo.sinKTaylor K x
  else
    let kSqrt := K.map (Stereo.kSqrt η)
    let scaled := x * kSqrt
    if All ((kSign K).test (· < 0)) then kSqrt.map (·⁻¹) * scaled.map Real.sinh
    else if All ((kSign K).test (0 < ·)) then kSqrt.map (·⁻¹) * scaled.map Real.sin
    else
      let nonzero := whr ((kSign K).test (0 < ·)) (scaled.map Real.sin)
        (scaled.map Real.sinh) * kSqrt.map (·⁻¹)
      whr (kZero K) (map2 sinKTaylor1 K x) nonzero

/-- `math.py:306-318` `_project` with the default `eps`. -/
noncomputable def project (d : Fin (m + 1)) (η : ℝ) (dt : DType) (K x : Tensor (m + 1)) :
    Tensor (m + 1) :=
  let maxnorm := K.map fun k => (1 - Stereo.projEps dt) / (sabs η k) ^ (0.5 : ℝ)
  let maxnorm := whr (K.test (· < 0)) maxnorm ⟨fun _ => 1, fun _ => 1e15⟩
  let norm := cnorm d x
  let cond := cmp (· > ·) norm maxnorm
  let projected := x / norm * maxnorm
  whr cond projected x

/-- `math.py:348-349` `_lambda_x` with `keepdim=True`. -/
noncomputable def lambdaXK (d : Fin (m + 1)) (K x : Tensor (m + 1)) : Tensor (m + 1) :=
  (K * (x.map (· ^ 2)).sumK d).map fun a => 2 / max (1 + a) 1e-15

/-- `math.py:348-349` `_lambda_x` with `keepdim=False`: `K` has one axis more than the sum, torch
aligns the last axes. -/
noncomputable def lambdaX (d : Fin (m + 1)) (K x : Tensor (m + 1)) : Tensor (m + 1) :=
  (K * ((x.map (· ^ 2)).sum d).unsqueeze 0).map fun a => 2 / max (1 + a) 1e-15

/-- `math.py:386-396` `_inner` with `keepdim=True`. -/
noncomputable def innerK (d : Fin (m + 1)) (K x u v : Tensor (m + 1)) : Tensor (m + 1) :=
  (lambdaXK d K x).map (· ^ 2) * (u * v).sumK d

/-- `math.py:429-438` `_norm` with `keepdim=True`. -/
noncomputable def normK (d : Fin (m + 1)) (K x u : Tensor (m + 1)) : Tensor (m + 1) :=
  lambdaXK d K x * u.normK d

/-- `math.py:503-521` `_mobius_add`. -/
noncomputable def mobiusAdd (d : Fin (m + 1)) (K x y : Tensor (m + 1)) : Tensor (m + 1) :=
  let x2 := (x.map (· ^ 2)).sumK d
  let y2 := (y.map (· ^ 2)).sumK d
  let xy := (x * y).sumK d
  let num := ((K.map (2 * ·) * xy).map (1 - ·) - K * y2) * x + (K * x2).map (1 + ·) * y
  let denom := (K.map (2 * ·) * xy).map (1 - ·) + K.map (· ^ 2) * x2 * y2
  num / denom.map fun a => max a 1e-15

/-- `math.py:554-555` `_mobius_sub`. -/
noncomputable def mobiusSub (d : Fin (m + 1)) (K x y : Tensor (m + 1)) : Tensor (m + 1) :=
  mobiusAdd d K x (-y)

/-- `math.py:623-641` `_gyration`. -/
noncomputable def gyration (d : Fin (m + 1)) (K u v w : Tensor (m + 1)) : Tensor (m + 1) :=
  let u2 := (u.map (· ^ 2)).sumK d
  let v2 := (v.map (· ^ 2)).sumK d
  let uv := (u * v).sumK d
  let uw := (u * w).sumK d
  let vw := (v * w).sumK d
  let K2 := K.map (· ^ 2)
  let a := -K2 * uw * v2 - K * vw + K2.map (2 * ·) * uv * vw
  let b := -K2 * vw * u2 + K * uw
  let dd := (K.map (2 * ·) * uv).map (1 - ·) + K2 * u2 * v2
  w + (a * u + b * v).map (2 * ·) / dd.map fun a => max a 1e-15

/-- `math.py:697-705` `_mobius_coadd`. -/
noncomputable def mobiusCoadd (d : Fin (m + 1)) (K x y : Tensor (m + 1)) : Tensor (m + 1) :=
  mobiusAdd d K x (gyration d K x (-y) y)

/-- `math.py:739-740` `_mobius_cosub`. -/
noncomputable def mobiusCosub (d : Fin (m + 1)) (K x y : Tensor (m + 1)) : Tensor (m + 1) :=
  mobiusCoadd d K x (-y)

/-- `math.py:814-819` `_mobius_scalar_mul`. -/
noncomputable def mobiusScalarMul (d : Fin (m + 1)) (η : ℝ) (K t x : Tensor (m + 1)) :
    Tensor (m + 1) :=
  let xn := cnorm d x
  tanK η K (t * artanK η K xn) * (x / xn)

/-- `math.py:854-863` `_dist` with `keepdim=True`. -/
noncomputable def distK (d : Fin (m + 1)) (η : ℝ) (K x y : Tensor (m + 1)) : Tensor (m + 1) :=
  (artanK η K ((mobiusAdd d K (-x) y).normK d)).map (2.0 * ·)

/-- `math.py:854-863` `_dist` with `keepdim=False`: the norms have one axis less than `K`. -/
noncomputable def dist (d : Fin (m + 1)) (η : ℝ) (K x y : Tensor (m + 1)) : Tensor (m + 1) :=
  (artanK η K (((mobiusAdd d K (-x) y).norm d).unsqueeze 0)).map (2.0 * ·)

/-- `math.py:890-891` `_dist0` with `keepdim=True`. -/
noncomputable def dist0K (d : Fin (m + 1)) (η : ℝ) (K x : Tensor (m + 1)) : Tensor (m + 1) :=
  (artanK η K (x.normK d)).map (2.0 * ·)

/-- `math.py:890-891` `_dist0` with `keepdim=False`. -/
noncomputable def dist0 (d : Fin (m + 1)) (η : ℝ) (K x : Tensor (m + 1)) : Tensor (m + 1) :=
  (artanK η K ((x.norm d).unsqueeze 0)).map (2.0 * ·)

/-- `math.py:958-965` `_geodesic`. -/
noncomputable def geodesic (d : Fin (m + 1)) (η : ℝ) (K t x y : Tensor (m + 1)) :
    Tensor (m + 1) :=
  mobiusAdd d K x (mobiusScalarMul d η K t (mobiusAdd d K (-x) y))

/-- `math.py:1013-1018` `_expmap`. -/
noncomputable def expmap (d : Fin (m + 1)) (η : ℝ) (K x u : Tensor (m + 1)) : Tensor (m + 1) :=
  let un := cnorm d u
  let lam := lambdaXK d K x
  mobiusAdd d K x (tanK η K (lam.map (· / 2.0) * un) * (u / un))

/-- `math.py:1049-1052` `_expmap0`. -/
noncomputable def expmap0 (d : Fin (m + 1)) (η : ℝ) (K u : Tensor (m + 1)) : Tensor (m + 1) :=
  let un := cnorm d u
  tanK η K un * (u / un)

/-- `math.py:1091-1101` `_geodesic_unit`. -/
noncomputable def geodesicUnit (d : Fin (m + 1)) (η : ℝ) (K t x u : Tensor (m + 1)) :
    Tensor (m + 1) :=
  let un := cnorm d u
  mobiusAdd d K x (tanK η K (t.map (· / 2.0)) * (u / un))

/-- `math.py:1142-1146` `_logmap`. -/
noncomputable def logmap (d : Fin (m + 1)) (η : ℝ) (K x y : Tensor (m + 1)) : Tensor (m + 1) :=
  let sub := mobiusAdd d K (-x) y
  let sn := cnorm d sub
  let lam := lambdaXK d K x
  (artanK η K sn).map (2.0 * ·) * (sub / (lam * sn))

/-- `math.py:1184-1186` `_logmap0`. -/
noncomputable def logmap0 (d : Fin (m + 1)) (η : ℝ) (K y : Tensor (m + 1)) : Tensor (m + 1) :=
  let yn := cnorm d y
  (y / yn) * artanK η K yn

/-- `math.py:1277-1287` `_mobius_pointwise_mul`. -/
noncomputable def mobiusPointwiseMul (d : Fin (m + 1)) (η : ℝ) (K w x : Tensor (m + 1)) :
    Tensor (m + 1) :=
  let xn := cnorm d x
  let wx := w * x
  let wxn := cnorm d wx
  let res := tanK η K (wxn / xn * artanK η K xn) * (wx / wxn)
  let cond := (wx.test fun a => |a| ≤ 1e-8).prodK d
  whr cond (res.map fun _ => 0) res

/-- `math.py:1571-1582` `_dist2plane` with `keepdim=True`. -/
noncomputable def dist2planeK (d : Fin (m + 1)) (η : ℝ) (K x a p : Tensor (m + 1))
    (signed scaled : Bool) : Tensor (m + 1) :=
  let diff := mobiusAdd d K (-p) x
  let diffNorm2 := ((diff.map (· ^ 2)).sumK d).map fun a => max a 1e-15
  let sc := (diff * a).sumK d
  let sc := if signed then sc else sc.map fun a => |a|
  let aNorm := a.normK d
  let num := sc.map (2.0 * ·)
  let denom := ((K * diffNorm2).map (1 + ·) * aNorm).map (clampAbs 1e-15)
  let distance := arsinK η K (num / denom)
  if scaled then distance * aNorm else distance

/-- `math.py:1655-1662` `_parallel_transport`. -/
noncomputable def transp (d : Fin (m + 1)) (K x y u : Tensor (m + 1)) : Tensor (m + 1) :=
  gyration d K y (-x) u * lambdaXK d K x / lambdaXK d K y

/-- `math.py:1692-1695` `_parallel_transport0`. -/
noncomputable def transp0 (d : Fin (m + 1)) (K y v : Tensor (m + 1)) : Tensor (m + 1) :=
  v * (K * (y.map (· ^ 2)).sumK d).map fun a => max (1 + a) 1e-15

/-- `math.py:1726-1729` `_parallel_transport0back`. -/
noncomputable def transp0back (d : Fin (m + 1)) (K x v : Tensor (m + 1)) : Tensor (m + 1) :=
  v / (K * (x.map (· ^ 2)).sumK d).map fun a => max (1 + a) 1e-15

/-- `math.py:1760-1761` `_egrad2rgrad`. -/
noncomputable def egrad2rgrad (d : Fin (m + 1)) (K x g : Tensor (m + 1)) : Tensor (m + 1) :=
  g / (lambdaXK d K x).map (· ^ 2)

/-- `math.py:1856-1866` `_antipode`. -/
noncomputable def antipode (d : Fin (m + 1)) (η : ℝ) (K x : Tensor (m + 1)) : Tensor (m + 1) :=
  open Classical in
  if All (K.test (· ≤ 0)) then -x
  else
    let v := x / cnorm d x
    let R := K.map fun k => (Stereo.kSqrt η k)⁻¹
    let a := geodesicUnit d η K (R.map (Stereo.piLit * ·)) x v
    whr (K.test (0 < ·)) a (-x)

/-- `math.py:1224-1239` `_mobius_matvec` for one matrix (`m.dim() == 2`). -/
noncomputable def mobiusMatvec {p n : ℕ} (d : Fin (m + 1)) (η : ℝ) (K : Tensor (m + 1))
    (M : Matrix (Fin p) (Fin n) ℝ) (x : Tensor (m + 1)) : Tensor (m + 1) :=
  let xn := cnorm d x
  let mx := StereoAxis.tensordot d M x
  let mxn := cnorm d mx
  let res := tanK η K (mxn / xn * artanK η K xn) * (mx / mxn)
  let cond := (mx.test (· = 0)).prodK d
  whr cond (res.map fun _ => 0) res

/-- `math.py:1786-1790` `_sproj`; `narrow(dim, -1, 1)` is the last entry. -/
noncomputable def sproj (d : Fin (m + 1)) (η : ℝ) (K x : Tensor (m + 1)) : Tensor (m + 1) :=
  let invr := K.map (Stereo.kSqrt η)
  let factor := (invr * x.narrow d (x.shape d - 1) 1).map fun a => 1.0 / (1.0 + a)
  factor * x.narrow d 0 (x.shape d - 1)

/-- `math.py:1815-1821` `_inv_sproj`. -/
noncomputable def invSproj (d : Fin (m + 1)) (η : ℝ) (K x : Tensor (m + 1)) : Tensor (m + 1) :=
  let invr := K.map (Stereo.kSqrt η)
  let lam := lambdaXK d K x
  let A := lam * x
  let B := invr.map (fun a => 1.0 / a) * lam.map fun a => a - 1.0
  cat d A B

end Geoopt.StereoAxisT
