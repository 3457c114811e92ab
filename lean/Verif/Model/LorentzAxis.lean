import Verif.Model.Axis
import Verif.Model.Lorentz
import Verif.Model.Shapes

/-!
# `geoopt/manifolds/lorentz/math.py` on whole tensors, with its `dim` argument

Every call in the code that omits `dim` uses the default `dim=-1`, which is `Fin.last m` here.
`k` is a number (a zero-dimensional tensor).  A function with a `keepdim` argument is modelled
by two definitions, with suffix `K` for `keepdim=True`.
-/

namespace Geoopt.LorentzAxis
open Geoopt Geoopt.Axis Geoopt.Axis.Tensor
variable {m : ℕ}

/-- `lorentz/math.py:38-44` `_inner` with `keepdim=False`. -/
def inner (d : Fin (m + 1)) (u v : Tensor (m + 1)) : Tensor m :=
  let dn := u.shape d - 1
  let uv := u * v;
  -(uv.narrow d 0 1).sum d + (uv.narrow d 1 dn).sum d

/-- `lorentz/math.py:38-48` `_inner` with `keepdim=True`. -/
def innerK (d : Fin (m + 1)) (u v : Tensor (m + 1)) : Tensor (m + 1) :=
  let dn := u.shape d - 1
  let uv := u * v
  (cat d (-uv.narrow d 0 1) (uv.narrow d 1 dn)).sumK d

/-- `lorentz/math.py:75-79` `_inner0` with `keepdim=True`. -/
noncomputable def inner0K (d : Fin (m + 1)) (k : ℝ) (v : Tensor (m + 1)) : Tensor (m + 1) :=
  (-v.narrow d 0 1).map (· * Real.sqrt k)

/-- `lorentz/math.py:75-79` `_inner0` with `keepdim=False`. -/
noncomputable def inner0 (d : Fin (m + 1)) (k : ℝ) (v : Tensor (m + 1)) : Tensor m :=
  (inner0K d k v).squeeze d

/-- `lorentz/math.py:112-114` `_dist` with `keepdim=False`. -/
noncomputable def dist (d : Fin (m + 1)) (k : ℝ) (x y : Tensor (m + 1)) : Tensor m :=
  (-inner d x y).map fun a => Real.sqrt k * Lorentz.arcosh (a / k)

/-- `lorentz/math.py:112-114` `_dist` with `keepdim=True`. -/
noncomputable def distK (d : Fin (m + 1)) (k : ℝ) (x y : Tensor (m + 1)) : Tensor (m + 1) :=
  (-innerK d x y).map fun a => Real.sqrt k * Lorentz.arcosh (a / k)

/-- `lorentz/math.py:143-145` `_dist0` with `keepdim=False`. -/
noncomputable def dist0 (d : Fin (m + 1)) (k : ℝ) (x : Tensor (m + 1)) : Tensor m :=
  (-inner0 d k x).map fun a => Real.sqrt k * Lorentz.arcosh (a / k)

/-- `lorentz/math.py:143-145` `_dist0` with `keepdim=True`. -/
noncomputable def dist0K (d : Fin (m + 1)) (k : ℝ) (x : Tensor (m + 1)) : Tensor (m + 1) :=
  (-inner0K d k x).map fun a => Real.sqrt k * Lorentz.arcosh (a / k)

/-- `lorentz/math.py:174-181` `_project`. -/
noncomputable def project (d : Fin (m + 1)) (k : ℝ) (x : Tensor (m + 1)) : Tensor (m + 1) :=
  let dn := x.shape d - 1
  let left := (((x.narrow d 1 dn).norm d).map fun a => Real.sqrt (k + a ^ 2)).unsqueeze d
  let right := x.narrow d 1 dn
  cat d left right

/-- `lorentz/math.py:209-220` `_project_polar`; `narrow(dim, -1, 1)` is the last entry. -/
noncomputable def projectPolar (d : Fin (m + 1)) (k : ℝ) (x : Tensor (m + 1)) :
    Tensor (m + 1) :=
  let dn := x.shape d - 1
  let dir := x.narrow d 0 dn
  let rad := x.narrow d (x.shape d - 1) 1
  cat d (rad.map fun a => Real.cosh (a / Real.sqrt k))
    ((rad.map fun a => Real.sqrt k * Real.sinh (a / Real.sqrt k)) * dir)

/-- `lorentz/math.py:251-252` `_project_u`. -/
noncomputable def projectU (d : Fin (m + 1)) (k : ℝ) (x v : Tensor (m + 1)) : Tensor (m + 1) :=
  v + innerK d x v * x.map (· / k)

/-- `lorentz/math.py:281-282` `_norm` with `keepdim=False`: `dim` is not passed on. -/
noncomputable def norm (_d : Fin (m + 1)) (u : Tensor (m + 1)) : Tensor m :=
  (inner (Fin.last m) u u).map fun a => Real.sqrt (max a 1e-8)

/-- `lorentz/math.py:281-282` `_norm` with `keepdim=True`: `dim` is not passed on. -/
noncomputable def normK (_d : Fin (m + 1)) (u : Tensor (m + 1)) : Tensor (m + 1) :=
  (innerK (Fin.last m) u u).map fun a => Real.sqrt (max a 1e-8)

/-- `lorentz/math.py:314-320` `_expmap`. -/
noncomputable def expmap (d : Fin (m + 1)) (k : ℝ) (x u : Tensor (m + 1)) : Tensor (m + 1) :=
  let nomin := normK d u
  (nomin.map fun a => Real.cosh (a / Real.sqrt k)) * x +
    (nomin.map fun a => Real.sqrt k * Real.sinh (a / Real.sqrt k)) * u / nomin

/-- `lorentz/math.py:345-351` `_expmap0`. -/
noncomputable def expmap0 (d : Fin (m + 1)) (k : ℝ) (u : Tensor (m + 1)) : Tensor (m + 1) :=
  let nomin := normK d u
  let lv := nomin.map fun a => Real.cosh (a / Real.sqrt k) * Real.sqrt k
  let rv := (nomin.map fun a => Real.sqrt k * Real.sinh (a / Real.sqrt k)) * u / nomin
  let dn := rv.shape d - 1
  cat d (lv + rv.narrow d 0 1) (rv.narrow d 1 dn)

/-- `lorentz/math.py:393-397` `_logmap`: lines 395 and 396 do not pass `dim`. -/
noncomputable def logmap (d : Fin (m + 1)) (k : ℝ) (x y : Tensor (m + 1)) : Tensor (m + 1) :=
  let di := distK d k x y
  let nomin := y + (innerK (Fin.last m) x y).map (1.0 / k * ·) * x
  let denom := normK (Fin.last m) nomin
  di * nomin / denom

/-- `lorentz/math.py:422-428` `_logmap0`: lines 424 and 427 do not pass `dim`. -/
noncomputable def logmap0 (d : Fin (m + 1)) (k : ℝ) (y : Tensor (m + 1)) : Tensor (m + 1) :=
  let di := dist0K d k y
  let nomin0 := (inner0K (Fin.last m) k y).map fun a => 1.0 / k * a * Real.sqrt k
  let dn := y.shape d - 1
  let nomin := cat d (nomin0 + y.narrow d 0 1) (y.narrow d 1 dn)
  let denom := normK (Fin.last m) nomin
  di * nomin / denom

/-- `lorentz/math.py:453-461` `_logmap0back`: lines 455 and 460 do not pass `dim`. -/
noncomputable def logmap0back (d : Fin (m + 1)) (k : ℝ) (x : Tensor (m + 1)) :
    Tensor (m + 1) :=
  let di := dist0K d k x
  let nomin' := (inner0K (Fin.last m) k x).map (1.0 / k * ·) * x
  let dn := nomin'.shape d - 1
  let nomin := cat d ((nomin'.narrow d 0 1).map (· + Real.sqrt k)) (nomin'.narrow d 1 dn)
  let denom := normK (Fin.last m) nomin
  di * nomin / denom

/-- `grad.narrow(-1, 0, 1).mul_(-1)`, `lorentz/math.py:493`: the contents of `grad`
afterwards.  The axis is always the last one. -/
def negFirstLast (g : Tensor (m + 1)) : Tensor (m + 1) :=
  ⟨g.shape, fun i => if i (Fin.last m) = 0 then g.val i * -1 else g.val i⟩

/-- `lorentz/math.py:492-495` `_egrad2rgrad` (the value returned). -/
noncomputable def egrad2rgrad (d : Fin (m + 1)) (k : ℝ) (x grad : Tensor (m + 1)) :
    Tensor (m + 1) :=
  let grad := negFirstLast grad
  grad + innerK d x grad * x.map (· / k)

/-- `lorentz/math.py:524-529` `_parallel_transport`: line 526 does not pass `dim`. -/
noncomputable def transp (d : Fin (m + 1)) (k : ℝ) (x y v : Tensor (m + 1)) : Tensor (m + 1) :=
  let lmap := logmap d k x y
  let nom := innerK (Fin.last m) lmap v
  let denom := (distK d k x y).map (· ^ 2)
  v - nom / denom * (lmap + logmap d k y x)

/-- `lorentz/math.py:556-561` `_parallel_transport0`: line 558 does not pass `dim`. -/
noncomputable def transp0 (d : Fin (m + 1)) (k : ℝ) (y v : Tensor (m + 1)) : Tensor (m + 1) :=
  let lmap := logmap0 d k y
  let nom := innerK (Fin.last m) lmap v
  let denom := (dist0K d k y).map (· ^ 2)
  v - nom / denom * (lmap + logmap0back d k y)

/-- `lorentz/math.py:590-595` `_parallel_transport0back`: line 592 does not pass `dim`. -/
noncomputable def transp0back (d : Fin (m + 1)) (k : ℝ) (x v : Tensor (m + 1)) :
    Tensor (m + 1) :=
  let lmap := logmap0back d k x
  let nom := innerK (Fin.last m) lmap v
  let denom := (dist0K d k x).map (· ^ 2)
  v - nom / denom * (lmap + logmap0 d k x)

/-- `lorentz/math.py:626-630` `_geodesic_unit` (it has no `dim`). -/
noncomputable def geodesicUnit (k : ℝ) (t x u : Tensor (m + 1)) : Tensor (m + 1) :=
  (t.map fun a => Real.cosh (a / Real.sqrt k)) * x +
    (t.map fun a => Real.sqrt k * Real.sinh (a / Real.sqrt k)) * u

/-- How torch turns a `dim` argument into an axis of a tensor with `r` axes
(`IndexError: Dimension out of range` otherwise). -/
def wrapDim (r : ℕ) (dim : ℤ) : Except PyErr (Fin r) :=
  if h : 0 ≤ dim ∧ dim < r then .ok ⟨dim.toNat, by omega⟩
  else if h : -(r : ℤ) ≤ dim ∧ dim < 0 then .ok ⟨(r + dim).toNat, by omega⟩
  else .error .indexError

/-- `lorentz/math.py:633-656` `lorentz_to_poincare`.  Here `dim` is Python's integer, because
the code negates it: `x.narrow(-dim, 0, 1)`. -/
noncomputable def toPoincare {r : ℕ} (k : ℝ) (dim : ℤ) (x : Tensor r) :
    Except PyErr (Tensor r) := do
  let d ← wrapDim r dim
  let dn := x.shape d - 1
  let d' ← wrapDim r (-dim)
  return x.narrow d 1 dn / (x.narrow d' 0 1).map (· + Real.sqrt k)

/-- `lorentz/math.py:659-687` `poincare_to_lorentz`. -/
noncomputable def ofPoincare (d : Fin (m + 1)) (k eps : ℝ) (x : Tensor (m + 1)) :
    Tensor (m + 1) :=
  let s := (x * x).sumK d
  (cat d (s.map (1 + ·)) (x.map (2 * ·))).map (Real.sqrt k * ·) / s.map fun a => 1.0 - a + eps

end Geoopt.LorentzAxis
