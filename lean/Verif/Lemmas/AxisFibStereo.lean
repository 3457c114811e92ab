import Verif.Lemmas.AxisFib

/-!
Helper lemmas: the tensor functions of `StereoAxis`, read along the manifold axis, are the
vector functions of `Verif/Model/Stereo.lean`.
-/

namespace Geoopt.AxisFib
open Geoopt Geoopt.Axis Geoopt.Axis.Tensor Matrix
variable {m n : ℕ} (d : Fin (m + 1)) (η k : ℝ)

theorem bsize_one_left (a : ℕ) : bsize 1 a = a := rfl
theorem bsize_one_right (a : ℕ) : bsize a 1 = a := by
  unfold bsize; split_ifs with h
  · exact h.symm
  · rfl

theorem sq_get (x : Tensor (m + 1)) (hx : x.shape d = n) (i : Fin (m + 1) → ℕ) :
    ((x.map (· ^ 2)).sumK d).get i = x.fib d n i ⬝ᵥ x.fib d n i := by
  rw [get_sumK_fib d _ i (show (x.map (· ^ 2)).shape d = n from hx), dotProduct]
  simp only [fib_apply, get_map, pow_two]

theorem dot_get (x y : Tensor (m + 1)) (hx : x.shape d = n) (hy : y.shape d = n)
    (i : Fin (m + 1) → ℕ) :
    ((x * y).sumK d).get i = x.fib d n i ⬝ᵥ y.fib d n i := by
  rw [get_sumK_fib d _ i (show (x * y).shape d = n by rw [shape_mul, hx, hy, bsize_self]),
    dotProduct]
  simp only [fib_apply, get_mul]

theorem nrm_get (x : Tensor (m + 1)) (hx : x.shape d = n) (i : Fin (m + 1) → ℕ) :
    (x.normK d).get i = nrm (x.fib d n i) := by
  rw [normK, get_map, sq_get d x hx]; rfl

theorem nrm_get' (x : Tensor (m + 1)) (hx : x.shape d = n) (i : Fin m → ℕ) :
    (x.norm d).get i = nrm (x.fib d n (d.insertNth (α := fun _ => ℕ) 0 i)) := by
  rw [get_norm, nrm_get d x hx]

theorem sum_get (x : Tensor (m + 1)) (i : Fin m → ℕ) :
    (x.sum d).get i = (x.sumK d).get (d.insertNth (α := fun _ => ℕ) 0 i) := by
  rw [Tensor.sum, get_squeeze]

theorem fib_neg (x : Tensor (m + 1)) (i : Fin (m + 1) → ℕ) :
    (-x).fib d n i = -x.fib d n i := rfl

theorem cnorm_get (x : Tensor (m + 1)) (hx : x.shape d = n) (i : Fin (m + 1) → ℕ) :
    (StereoAxis.cnorm d x).get i = max (nrm (x.fib d n i)) 1e-15 := by
  rw [StereoAxis.cnorm, get_map, nrm_get d x hx]

theorem shape_cnorm (x : Tensor (m + 1)) (j : Fin (m + 1)) :
    (StereoAxis.cnorm d x).shape j = if j = d then 1 else x.shape j := by
  rw [StereoAxis.cnorm, shape_map, shape_normK]

theorem lambdaXK_get (x : Tensor (m + 1)) (hx : x.shape d = n) (i : Fin (m + 1) → ℕ) :
    (StereoAxis.lambdaXK d k x).get i = Stereo.lambdaX k (x.fib d n i) := by
  rw [StereoAxis.lambdaXK, get_map, sq_get d x hx]; rfl

theorem shape_lambdaXK (x : Tensor (m + 1)) (j : Fin (m + 1)) :
    (StereoAxis.lambdaXK d k x).shape j = if j = d then 1 else x.shape j := by
  rw [StereoAxis.lambdaXK, shape_map, shape_sumK, shape_map]

theorem lambdaX_get (x : Tensor (m + 1)) (hx : x.shape d = n) (i : Fin m → ℕ) :
    (StereoAxis.lambdaX d k x).get i =
      Stereo.lambdaX k (x.fib d n (d.insertNth (α := fun _ => ℕ) 0 i)) := by
  rw [StereoAxis.lambdaX, get_map, sum_get, sq_get d x hx]; rfl

theorem innerK_get (x u v : Tensor (m + 1)) (hx : x.shape d = n) (hu : u.shape d = n)
    (hv : v.shape d = n) (i : Fin (m + 1) → ℕ) :
    (StereoAxis.innerK d k x u v).get i =
      Stereo.inner k (x.fib d n i) (u.fib d n i) (v.fib d n i) := by
  rw [StereoAxis.innerK, get_mul, get_map, lambdaXK_get d k x hx, dot_get d u v hu hv]; rfl

theorem normK_get (x u : Tensor (m + 1)) (hx : x.shape d = n) (hu : u.shape d = n)
    (i : Fin (m + 1) → ℕ) :
    (StereoAxis.normK d k x u).get i = Stereo.norm k (x.fib d n i) (u.fib d n i) := by
  rw [StereoAxis.normK, get_mul, lambdaXK_get d k x hx, nrm_get d u hu]; rfl

theorem norm_get (x u : Tensor (m + 1)) (hx : x.shape d = n) (hu : u.shape d = n)
    (i : Fin m → ℕ) :
    (StereoAxis.norm d k x u).get i =
      Stereo.norm k (x.fib d n (d.insertNth (α := fun _ => ℕ) 0 i))
        (u.fib d n (d.insertNth (α := fun _ => ℕ) 0 i)) := by
  rw [StereoAxis.norm, get_mul, lambdaX_get d k x hx, nrm_get' d u hu]; rfl

theorem mobiusAdd_fib (x y : Tensor (m + 1)) (hx : x.shape d = n) (hy : y.shape d = n)
    (i : Fin (m + 1) → ℕ) :
    (StereoAxis.mobiusAdd d k x y).fib d n i =
      Stereo.mobiusAdd k (x.fib d n i) (y.fib d n i) := by
  funext j
  simp only [StereoAxis.mobiusAdd, fib_apply, get_div, get_add, get_sub, get_mul, get_map,
    sq_get d x hx, sq_get d y hy, dot_get d x y hx hy, fib_update]
  simp only [Stereo.mobiusAdd, Stereo.mobDenom, Pi.smul_apply, Pi.add_apply, smul_eq_mul,
    fib_apply]
  ring

theorem shape_mobiusAdd (x y : Tensor (m + 1)) (j : Fin (m + 1)) :
    (StereoAxis.mobiusAdd d k x y).shape j = bsize (x.shape j) (y.shape j) := by
  simp only [StereoAxis.mobiusAdd, shape_div, shape_add, shape_sub, shape_mul, shape_map,
    shape_sumK]
  unfold bsize
  split_ifs <;> first | rfl | omega

theorem shape_mobiusAdd' (x y : Tensor (m + 1)) (hx : x.shape d = n) (hy : y.shape d = n) :
    (StereoAxis.mobiusAdd d k x y).shape d = n := by
  rw [shape_mobiusAdd, hx, hy, bsize_self]

theorem gyration_fib (u v w : Tensor (m + 1)) (hu : u.shape d = n) (hv : v.shape d = n)
    (hw : w.shape d = n) (i : Fin (m + 1) → ℕ) :
    (StereoAxis.gyration d k u v w).fib d n i =
      Stereo.gyration k (u.fib d n i) (v.fib d n i) (w.fib d n i) := by
  funext j
  simp only [StereoAxis.gyration, fib_apply, get_div, get_add, get_sub, get_mul, get_map,
    sq_get d u hu, sq_get d v hv, dot_get d u v hu hv, dot_get d u w hu hw, dot_get d v w hv hw,
    fib_update]
  simp only [Stereo.gyration, Pi.smul_apply, Pi.add_apply, smul_eq_mul, fib_apply]
  ring

theorem shape_gyration (u v w : Tensor (m + 1)) (hu : u.shape d = n) (hv : v.shape d = n)
    (hw : w.shape d = n) : (StereoAxis.gyration d k u v w).shape d = n := by
  simp only [StereoAxis.gyration, shape_div, shape_add, shape_sub, shape_mul, shape_map,
    shape_sumK, if_true, hu, hv, hw]
  unfold bsize
  split_ifs <;> first | rfl | omega

theorem mobiusCoadd_fib (x y : Tensor (m + 1)) (hx : x.shape d = n) (hy : y.shape d = n)
    (i : Fin (m + 1) → ℕ) :
    (StereoAxis.mobiusCoadd d k x y).fib d n i =
      Stereo.mobiusCoadd k (x.fib d n i) (y.fib d n i) := by
  rw [StereoAxis.mobiusCoadd, mobiusAdd_fib d k _ _ hx (shape_gyration d k x (-y) y hx hy hy),
    gyration_fib d k x (-y) y hx hy hy]; rfl

theorem mobiusScalarMul_fib (t x : Tensor (m + 1)) (ht : t.shape d = 1) (hx : x.shape d = n)
    (i : Fin (m + 1) → ℕ) :
    (StereoAxis.mobiusScalarMul d η k t x).fib d n i =
      Stereo.mobiusScalarMul η k (t.get i) (x.fib d n i) := by
  funext j
  simp only [StereoAxis.mobiusScalarMul, fib_apply, get_div, get_mul, get_map,
    cnorm_get d x hx, fib_update, get_update_one d t ht]
  simp only [Stereo.mobiusScalarMul, Pi.smul_apply, smul_eq_mul, fib_apply]
  ring

theorem shape_mobiusScalarMul (t x : Tensor (m + 1)) (ht : t.shape d = 1) (hx : x.shape d = n) :
    (StereoAxis.mobiusScalarMul d η k t x).shape d = n := by
  simp only [StereoAxis.mobiusScalarMul, shape_div, shape_mul, shape_map, shape_cnorm, if_true,
    ht, hx, bsize_one_left, bsize_one_right]

theorem distK_get (x y : Tensor (m + 1)) (hx : x.shape d = n) (hy : y.shape d = n)
    (i : Fin (m + 1) → ℕ) :
    (StereoAxis.distK d η k x y).get i = Stereo.dist η k (x.fib d n i) (y.fib d n i) := by
  rw [StereoAxis.distK, get_map, nrm_get d _ (shape_mobiusAdd' d k (-x) y hx hy),
    mobiusAdd_fib d k (-x) y hx hy]; rfl

theorem dist_get (x y : Tensor (m + 1)) (hx : x.shape d = n) (hy : y.shape d = n)
    (i : Fin m → ℕ) :
    (StereoAxis.dist d η k x y).get i =
      Stereo.dist η k (x.fib d n (d.insertNth (α := fun _ => ℕ) 0 i))
        (y.fib d n (d.insertNth (α := fun _ => ℕ) 0 i)) := by
  rw [StereoAxis.dist, get_map, nrm_get' d _ (shape_mobiusAdd' d k (-x) y hx hy),
    mobiusAdd_fib d k (-x) y hx hy]; rfl

theorem dist0K_get (x : Tensor (m + 1)) (hx : x.shape d = n) (i : Fin (m + 1) → ℕ) :
    (StereoAxis.dist0K d η k x).get i = Stereo.dist0 η k (x.fib d n i) := by
  rw [StereoAxis.dist0K, get_map, nrm_get d x hx]; rfl

theorem dist0_get (x : Tensor (m + 1)) (hx : x.shape d = n) (i : Fin m → ℕ) :
    (StereoAxis.dist0 d η k x).get i =
      Stereo.dist0 η k (x.fib d n (d.insertNth (α := fun _ => ℕ) 0 i)) := by
  rw [StereoAxis.dist0, get_map, nrm_get' d x hx]; rfl

theorem geodesic_fib (t x y : Tensor (m + 1)) (ht : t.shape d = 1) (hx : x.shape d = n)
    (hy : y.shape d = n) (i : Fin (m + 1) → ℕ) :
    (StereoAxis.geodesic d η k t x y).fib d n i =
      Stereo.geodesic η k (t.get i) (x.fib d n i) (y.fib d n i) := by
  have h1 := shape_mobiusAdd' d k (-x) y hx hy
  rw [StereoAxis.geodesic, mobiusAdd_fib d k _ _ hx (shape_mobiusScalarMul d η k t _ ht h1),
    mobiusScalarMul_fib d η k t _ ht h1, mobiusAdd_fib d k (-x) y hx hy]; rfl

theorem expmap_fib (x u : Tensor (m + 1)) (hx : x.shape d = n) (hu : u.shape d = n)
    (i : Fin (m + 1) → ℕ) :
    (StereoAxis.expmap d η k x u).fib d n i =
      Stereo.expmap η k (x.fib d n i) (u.fib d n i) := by
  simp only [StereoAxis.expmap]
  rw [mobiusAdd_fib d k _ _ hx (by
    simp only [shape_div, shape_mul, shape_map, shape_cnorm, shape_lambdaXK, if_true, hu,
      bsize_one_left, bsize_one_right])]
  simp only [Stereo.expmap]
  congr 1
  funext j
  simp only [fib_apply, get_mul, get_div, get_map, cnorm_get d u hu, lambdaXK_get d k x hx,
    fib_update, Pi.smul_apply, smul_eq_mul]
  ring

theorem expmap0_fib (u : Tensor (m + 1)) (hu : u.shape d = n) (i : Fin (m + 1) → ℕ) :
    (StereoAxis.expmap0 d η k u).fib d n i = Stereo.expmap0 η k (u.fib d n i) := by
  funext j
  simp only [StereoAxis.expmap0, Stereo.expmap0, fib_apply, get_mul, get_div, get_map,
    cnorm_get d u hu, fib_update, Pi.smul_apply, smul_eq_mul]
  ring

theorem geodesicUnit_fib (t x u : Tensor (m + 1)) (ht : t.shape d = 1) (hx : x.shape d = n)
    (hu : u.shape d = n) (i : Fin (m + 1) → ℕ) :
    (StereoAxis.geodesicUnit d η k t x u).fib d n i =
      Stereo.geodesicUnit η k (t.get i) (x.fib d n i) (u.fib d n i) := by
  simp only [StereoAxis.geodesicUnit]
  rw [mobiusAdd_fib d k _ _ hx (by
    simp only [shape_div, shape_mul, shape_map, shape_cnorm, if_true, hu, ht,
      bsize_one_left, bsize_one_right])]
  simp only [Stereo.geodesicUnit]
  congr 1
  funext j
  simp only [fib_apply, get_mul, get_div, get_map, cnorm_get d u hu, get_update_one d t ht,
    fib_update, Pi.smul_apply, smul_eq_mul]
  congr 1
  exact div_eq_inv_mul _ _

theorem logmap_fib (x y : Tensor (m + 1)) (hx : x.shape d = n) (hy : y.shape d = n)
    (i : Fin (m + 1) → ℕ) :
    (StereoAxis.logmap d η k x y).fib d n i =
      Stereo.logmap η k (x.fib d n i) (y.fib d n i) := by
  have h1 := shape_mobiusAdd' d k (-x) y hx hy
  funext j
  have h2 := congrFun (mobiusAdd_fib d k (-x) y hx hy i) j
  rw [fib_apply] at h2
  simp only [StereoAxis.logmap, Stereo.logmap, fib_apply, get_mul, get_div, get_map,
    cnorm_get d _ h1, lambdaXK_get d k x hx, fib_update, Pi.smul_apply, smul_eq_mul, h2,
    mobiusAdd_fib d k (-x) y hx hy, fib_neg]
  congr 1
  exact div_eq_inv_mul _ _

theorem logmap0_fib (y : Tensor (m + 1)) (hy : y.shape d = n) (i : Fin (m + 1) → ℕ) :
    (StereoAxis.logmap0 d η k y).fib d n i = Stereo.logmap0 η k (y.fib d n i) := by
  funext j
  simp only [StereoAxis.logmap0, Stereo.logmap0, fib_apply, get_mul, get_div, get_map,
    cnorm_get d y hy, fib_update, Pi.smul_apply, smul_eq_mul]
  ring

theorem project_fib (dt : DType) (x : Tensor (m + 1)) (hx : x.shape d = n)
    (i : Fin (m + 1) → ℕ) :
    (StereoAxis.project d η dt k x).fib d n i = Stereo.project η dt k (x.fib d n i) := by
  funext j
  simp only [StereoAxis.project, Stereo.project, fib_apply, get_whr, get_test, get_div,
    get_map, cnorm_get d x hx, fib_update]
  by_cases h : max (nrm (x.fib d n i)) 1e-15 > Stereo.maxNorm η dt k
  · rw [if_pos h, if_pos h, if_neg one_ne_zero]
    simp only [Pi.smul_apply, smul_eq_mul, fib_apply]
    ring
  · rw [if_neg h, if_neg h, if_pos rfl]
    rfl

theorem transp_fib (x y u : Tensor (m + 1)) (hx : x.shape d = n) (hy : y.shape d = n)
    (hu : u.shape d = n) (i : Fin (m + 1) → ℕ) :
    (StereoAxis.transp d k x y u).fib d n i =
      Stereo.transp k (x.fib d n i) (y.fib d n i) (u.fib d n i) := by
  funext j
  have h2 := congrFun (gyration_fib d k y (-x) u hy hx hu i) j
  rw [fib_apply] at h2
  simp only [StereoAxis.transp, Stereo.transp, fib_apply, get_mul, get_div,
    lambdaXK_get d k x hx, lambdaXK_get d k y hy, fib_update, h2, fib_neg, Pi.smul_apply,
    smul_eq_mul]
  ring

theorem transp0_fib (y v : Tensor (m + 1)) (hy : y.shape d = n) (i : Fin (m + 1) → ℕ) :
    (StereoAxis.transp0 d k y v).fib d n i = Stereo.transp0 k (y.fib d n i) (v.fib d n i) := by
  funext j
  simp only [StereoAxis.transp0, Stereo.transp0, fib_apply, get_mul, get_map, sq_get d y hy,
    fib_update, Pi.smul_apply, smul_eq_mul]
  ring

theorem transp0back_fib (x v : Tensor (m + 1)) (hx : x.shape d = n) (i : Fin (m + 1) → ℕ) :
    (StereoAxis.transp0back d k x v).fib d n i =
      Stereo.transp0back k (x.fib d n i) (v.fib d n i) := by
  funext j
  simp only [StereoAxis.transp0back, Stereo.transp0back, fib_apply, get_div, get_map,
    sq_get d x hx, fib_update, Pi.smul_apply, smul_eq_mul]
  ring

theorem egrad2rgrad_fib (x g : Tensor (m + 1)) (hx : x.shape d = n) (i : Fin (m + 1) → ℕ) :
    (StereoAxis.egrad2rgrad d k x g).fib d n i =
      Stereo.egrad2rgrad k (x.fib d n i) (g.fib d n i) := by
  funext j
  simp only [StereoAxis.egrad2rgrad, Stereo.egrad2rgrad, fib_apply, get_div, get_map,
    lambdaXK_get d k x hx, fib_update, Pi.smul_apply, smul_eq_mul]
  ring

theorem antipode_fib (x : Tensor (m + 1)) (hx : x.shape d = n) (i : Fin (m + 1) → ℕ) :
    (StereoAxis.antipode d η k x).fib d n i = Stereo.antipode η k (x.fib d n i) := by
  simp only [StereoAxis.antipode, Stereo.antipode]
  split_ifs with h
  · rfl
  · have h1 : (x / StereoAxis.cnorm d x).shape d = n := by
      simp only [shape_div, shape_cnorm, if_true, hx, bsize_one_right]
    have h2 : ∀ i, (x / StereoAxis.cnorm d x).fib d n i =
        (max (nrm (x.fib d n i)) 1e-15)⁻¹ • x.fib d n i := by
      intro i; funext j
      simp only [fib_apply, get_div, cnorm_get d x hx, fib_update, Pi.smul_apply, smul_eq_mul]
      ring
    rw [mobiusAdd_fib d k _ _ hx (by
      simp only [shape_map, shape_div, shape_cnorm, if_true, hx, bsize_one_right])]
    simp only [Stereo.geodesicUnit]
    congr 1
    funext j
    have h3 := congrFun (h2 i) j
    rw [fib_apply] at h3
    rw [fib_apply, get_map, get_div, cnorm_get d _ h1, fib_update, h2, h3]
    simp only [Pi.smul_apply, smul_eq_mul]
    ring

theorem prodK_test_get (p : ℝ → Prop) (x : Tensor (m + 1)) (hx : x.shape d = n)
    (i : Fin (m + 1) → ℕ) :
    ((x.test p).prodK d).get i ≠ 0 ↔ ∀ j, p (x.fib d n i j) := by
  rw [get_prodK, show (x.test p).shape d = n from hx, Finset.prod_ne_zero_iff]
  constructor
  · intro h j
    have := h j (Finset.mem_range.2 j.2)
    rw [get_test] at this
    by_contra hp
    exact this (if_neg hp)
  · intro h j hj
    rw [get_test, if_pos]
    · exact one_ne_zero
    · exact h ⟨j, Finset.mem_range.1 hj⟩

theorem mobiusPointwiseMul_fib (w x : Tensor (m + 1)) (hw : w.shape d = n) (hx : x.shape d = n)
    (i : Fin (m + 1) → ℕ) :
    (StereoAxis.mobiusPointwiseMul d η k w x).fib d n i =
      Stereo.mobiusPointwiseMul η k (w.fib d n i) (x.fib d n i) := by
  have h1 : (w * x).shape d = n := by rw [shape_mul, hw, hx, bsize_self]
  have h2 : ∀ i, (w * x).fib d n i = fun j => w.fib d n i j * x.fib d n i j := by
    intro i; funext j; rw [fib_apply, get_mul]; rfl
  funext j
  have h3 := prodK_test_get d (fun a => |a| ≤ 1e-8) (w * x) h1 (Function.update i d (j : ℕ))
  rw [fib_update, h2] at h3
  rw [fib_apply]
  simp only [StereoAxis.mobiusPointwiseMul, Stereo.mobiusPointwiseMul, get_whr]
  by_cases h : ∀ j, |w.fib d n i j * x.fib d n i j| ≤ 1e-8
  · rw [if_neg (h3.2 h), if_pos (by exact h)]; rfl
  · rw [if_pos (by by_contra hc; exact h (h3.1 hc)), if_neg (by exact h)]
    simp only [get_mul, get_div, get_map, cnorm_get d x hx, cnorm_get d _ h1, h2, fib_update,
      Pi.smul_apply, smul_eq_mul]
    simp only [fib_apply]
    ring

theorem dist2planeK_get (x a p : Tensor (m + 1)) (hx : x.shape d = n) (ha : a.shape d = n)
    (hp : p.shape d = n) (signed scaled : Bool) (i : Fin (m + 1) → ℕ) :
    (StereoAxis.dist2planeK d η k x a p signed scaled).get i =
      Stereo.dist2plane η k (x.fib d n i) (a.fib d n i) (p.fib d n i) signed scaled := by
  have h1 := shape_mobiusAdd' d k (-p) x hp hx
  have h2 : ∀ i, (StereoAxis.mobiusAdd d k (-p) x).fib d n i =
      Stereo.mobiusAdd k (-p.fib d n i) (x.fib d n i) := mobiusAdd_fib d k (-p) x hp hx
  cases signed <;> cases scaled <;>
  · simp only [StereoAxis.dist2planeK, Stereo.dist2plane, get_map, get_mul, get_div,
      sq_get d _ h1, dot_get d _ a h1 ha, nrm_get d a ha, h2, if_true, Bool.false_eq_true, if_false]

theorem dist2plane_get (x a p : Tensor (m + 1)) (hx : x.shape d = n) (ha : a.shape d = n)
    (hp : p.shape d = n) (signed scaled : Bool) (i : Fin m → ℕ) :
    (StereoAxis.dist2plane d η k x a p signed scaled).get i =
      Stereo.dist2plane η k (x.fib d n (d.insertNth (α := fun _ => ℕ) 0 i))
        (a.fib d n (d.insertNth (α := fun _ => ℕ) 0 i))
        (p.fib d n (d.insertNth (α := fun _ => ℕ) 0 i)) signed scaled := by
  have h1 := shape_mobiusAdd' d k (-p) x hp hx
  have h2 : ∀ i, (StereoAxis.mobiusAdd d k (-p) x).fib d n i =
      Stereo.mobiusAdd k (-p.fib d n i) (x.fib d n i) := mobiusAdd_fib d k (-p) x hp hx
  cases signed <;> cases scaled <;>
  · simp only [StereoAxis.dist2plane, Stereo.dist2plane, get_map, get_mul, get_div, sum_get,
      sq_get d _ h1, dot_get d _ a h1 ha, nrm_get' d a ha, h2, if_true, Bool.false_eq_true,
      if_false]

theorem sproj_fib (x : Tensor (m + 1)) (hx : x.shape d = n + 1) (i : Fin (m + 1) → ℕ) :
    (StereoAxis.sproj d η k x).fib d n i = Stereo.sproj η k (x.fib d (n + 1) i) := by
  funext j
  have hj := j.2
  simp only [StereoAxis.sproj, Stereo.sproj, fib_apply, get_mul, get_map]
  rw [get_narrow_one _ _ _ (by omega), get_narrow _ _ _ _ _ (by simp [hx]) (by omega), hx]
  simp [fib]

theorem invSproj_fib (x : Tensor (m + 1)) (hx : x.shape d = n) (i : Fin (m + 1) → ℕ) :
    (StereoAxis.invSproj d η k x).fib d (n + 1) i = Stereo.invSproj η k (x.fib d n i) := by
  have hA : ∀ j, (StereoAxis.lambdaXK d k x * x).shape j = x.shape j := by
    intro j
    rw [shape_mul, shape_lambdaXK]
    split_ifs
    · rfl
    · exact bsize_self _
  funext j
  simp only [StereoAxis.invSproj, Stereo.invSproj, fib_apply]
  refine Fin.lastCases ?_ (fun j => ?_) j
  · rw [get_cat_right _ _ _ _ (by simp [hA, hx])
      (by simp [hA, hx, shape_map, shape_lambdaXK])
      (by intro k' hk; simp [hA, shape_map, shape_lambdaXK, hk]), get_map,
      lambdaXK_get d k x hx, Fin.snoc_last]
    simp [fib_update]
  · have hj := j.2
    rw [get_cat_left _ _ _ _ (by simp [hA, hx]), get_mul, lambdaXK_get d k x hx,
      Fin.snoc_castSucc]
    simp [fib_update, fib]

theorem tensordot_last_fib {p : ℕ} (M : Matrix (Fin p) (Fin n) ℝ) (x : Tensor (m + 1))
    (i : Fin (m + 1) → ℕ) :
    (StereoAxis.tensordot (Fin.last m) M x).fib (Fin.last m) p i =
      M.mulVec (x.fib (Fin.last m) n i) := by
  funext j
  have hv : ∀ i' : Fin (m + 1) → ℕ, (∀ k : Fin m, x.shape k.castSucc ≠ 1 →
      i' k.castSucc = i k.castSucc) → (h : i' (Fin.last m) = j) →
      (StereoAxis.tensordot (Fin.last m) M x).val i' = M.mulVec (x.fib (Fin.last m) n i) j := by
    intro i' h1 h2
    have hlt : i' (Fin.last m) < p := by rw [h2]; exact j.2
    simp only [StereoAxis.tensordot, moveLast_last]
    rw [dif_pos hlt, Matrix.mulVec, dotProduct]
    refine Finset.sum_congr rfl fun l _ => ?_
    have : (⟨i' (Fin.last m), hlt⟩ : Fin p) = j := Fin.ext h2
    rw [this]
    congr 1
    rw [fib_apply]
    refine get_congr x fun k hk => ?_
    rcases Fin.eq_castSucc_or_eq_last k with ⟨q, h⟩ | h
    · subst h
      rw [Function.update_of_ne (Fin.castSucc_lt_last q).ne,
        Function.update_of_ne (Fin.castSucc_lt_last q).ne]
      exact h1 q hk
    · subst h; simp
  rw [fib_apply]
  unfold Tensor.get
  refine hv _ ?_ ?_
  · intro k hk
    rw [show (StereoAxis.tensordot (Fin.last m) M x).shape =
      Function.update (x.moveLast (Fin.last m)).shape (Fin.last m) p from rfl, moveLast_last,
      bidx_update_ne _ _ (Fin.castSucc_lt_last k).ne, bidx, if_neg hk,
      Function.update_of_ne (Fin.castSucc_lt_last k).ne]
  · rw [show (StereoAxis.tensordot (Fin.last m) M x).shape =
      Function.update (x.moveLast (Fin.last m)).shape (Fin.last m) p from rfl, bidx_update_self]
    have := j.2
    simp only [Function.update_self]
    split_ifs <;> omega

theorem mobiusMatvec_last_fib {p : ℕ} (M : Matrix (Fin p) (Fin n) ℝ) (x : Tensor (m + 1))
    (hx : x.shape (Fin.last m) = n) (i : Fin (m + 1) → ℕ) :
    (StereoAxis.mobiusMatvec (Fin.last m) η k M x).fib (Fin.last m) p i =
      Stereo.mobiusMatvec η k M (x.fib (Fin.last m) n i) := by
  set L := Fin.last m
  have h1 : (StereoAxis.tensordot L M x).shape L = p := by
    simp [StereoAxis.tensordot, L]
  have h2 : ∀ i, (StereoAxis.tensordot L M x).fib L p i = M.mulVec (x.fib L n i) :=
    fun i => tensordot_last_fib M x i
  funext j
  have h3 := prodK_test_get L (· = 0) _ h1 (Function.update i L (j : ℕ))
  have h4 := congrFun (h2 i) j
  rw [fib_apply] at h4
  rw [fib_update, h2] at h3
  rw [fib_apply]
  simp only [StereoAxis.mobiusMatvec, Stereo.mobiusMatvec, get_whr]
  by_cases h : ∀ j, M.mulVec (x.fib L n i) j = 0
  · rw [if_neg (h3.2 h), if_pos (by exact h)]; rfl
  · rw [if_pos (by by_contra hc; exact h (h3.1 hc)), if_neg (by exact h)]
    simp only [get_mul, get_div, get_map, cnorm_get L x hx, cnorm_get L _ h1, h2, fib_update,
      Pi.smul_apply, smul_eq_mul, h4]
    ring

end Geoopt.AxisFib
