import Verif.Props.C18
import Verif.Lemmas.AxisSimp

/-!
# C78: batched calls act on each batch element separately

For every function of `stereographic/math.py` and `lorentz/math.py` the batched call computes,
at every batch position, the function of single vectors that the other property files are
about, and the result has the broadcast batch sizes.  So what those files prove for vectors
holds for every element of every batch.  `inner` of the stereographic model with
`keepdim=False` is excluded (see C18); functions of `lorentz/math.py` that lose `dim` (see
C40) are stated for `dim=-1`.
-/

namespace Geoopt.C78
open Geoopt Geoopt.Axis Geoopt.Axis.Tensor Geoopt.SpecBatch Geoopt.AxisFib Geoopt.C18
open Geoopt.StereoAxis (tensordot)
variable {m n : ℕ} (d : Fin (m + 1)) (η k : ℝ)

theorem elemAt_neg (x : Tensor (m + 1)) (b : Fin m → ℕ) :
    elemAt d n (-x) b = -elemAt d n x b := rfl

theorem numAt_eq_get (x : Tensor (m + 1)) (b : Fin m → ℕ) :
    numAt d x b = x.get (d.insertNth (α := fun _ => ℕ) 0 b) := rfl

attribute [tshape] bcast_apply shape_mul shape_map shape_add shape_sub shape_div shape_neg
  shape_sumK shape_normK shape_prodK shape_cnorm shape_lambdaXK shape_mobiusAdd shape_sum shape_norm
  shape_narrow shape_cat shape_innerK_last shape_l_normK shape_squeeze Fin.succAbove_ne if_false
  if_true bsize_self bsize_one_left bsize_one_right

theorem shape_whr {r : ℕ} (c a b : Tensor r) (j : Fin r) :
    (whr c a b).shape j = bsize (c.shape j) (bsize (a.shape j) (b.shape j)) := rfl
theorem shape_test {r : ℕ} (p : ℝ → Prop) (a : Tensor r) (j : Fin r) :
    (a.test p).shape j = a.shape j := rfl

attribute [tshape] shape_whr shape_test

theorem b_self_right (a b : ℕ) : bsize (bsize a b) b = bsize a b := by
  unfold bsize; split_ifs <;> rfl
theorem b_self_left (a b : ℕ) : bsize a (bsize a b) = bsize a b := by
  unfold bsize; split_ifs <;> rfl
theorem b_regular (a b : ℕ) : bsize a (bsize b a) = bsize a b := by
  unfold bsize; split_ifs <;> first | rfl | omega
theorem b_regular' (a b : ℕ) : bsize (bsize a b) a = bsize a b := by
  unfold bsize; split_ifs <;> first | rfl | omega
theorem b_comm {a b : ℕ} (h : SizeOk a b) : bsize a b = bsize b a := by
  rcases h with h | h | h <;> subst h
  · exact (bsize_one_right _).symm ▸ rfl
  · exact (bsize_one_right _)
  · rfl

/-- Close an equation between broadcast sizes of two tensors. -/
macro "bs2" h:term : tactic =>
  `(tactic| (have hb2 := $h; unfold SizeOk at hb2; revert hb2
             generalize Tensor.shape _ _ = a
             generalize Tensor.shape _ _ = b
             rintro (h | h | h) <;> subst h <;>
               simp only [bsize_one_left, bsize_one_right, bsize_self]))

/-- Close an equation between broadcast sizes of three tensors. -/
macro "bs3" h1:term "," h2:term "," h3:term : tactic =>
  `(tactic| (have hb1 := $h1; have hb2 := $h2; have hb3 := $h3; unfold SizeOk at hb1 hb2 hb3
             revert hb1 hb2 hb3
             generalize Tensor.shape _ _ = a
             generalize Tensor.shape _ _ = b
             generalize Tensor.shape _ _ = c
             intro h1 h2 h3
             rcases h1 with h1 | h1 | h1 <;> rcases h2 with h2 | h2 | h2 <;>
             rcases h3 with h3 | h3 | h3 <;> subst_vars <;>
               simp only [bsize_one_left, bsize_one_right, bsize_self]))

/-- **C78** (gyro-operations, one or two vectors). -/
theorem C78_stereo_gyro :
    Vec2 d n (StereoAxis.mobiusAdd d k) (Stereo.mobiusAdd k) ∧
    Vec2 d n (StereoAxis.mobiusSub d k) (Stereo.mobiusSub k) ∧
    Vec2 d n (StereoAxis.mobiusCoadd d k) (Stereo.mobiusCoadd k) ∧
    Vec2 d n (StereoAxis.mobiusCosub d k) (Stereo.mobiusCosub k) ∧
    Vec3 d n (StereoAxis.gyration d k) (Stereo.gyration k) ∧
    NumVec d n (StereoAxis.mobiusScalarMul d η k) (Stereo.mobiusScalarMul η k) ∧
    Vec2 d n (StereoAxis.mobiusPointwiseMul d η k) (Stereo.mobiusPointwiseMul η k) := by
  refine ⟨?_, ?_, ?_, ?_, ?_, ?_, ?_⟩
  · intro x y hx hy hb
    refine ⟨shape_mobiusAdd' d k x y hx hy, funext fun j => by simp only [batch, tshape], fun b => ?_⟩
    simp only [elemAt_eq_fib, mobiusAdd_fib d k x y hx hy]
  · intro x y hx hy hb
    refine ⟨shape_mobiusAdd' d k x (-y) hx hy, funext fun j => by simp only [batch, tshape, StereoAxis.mobiusSub], fun b => ?_⟩
    simp only [elemAt_eq_fib, StereoAxis.mobiusSub, mobiusAdd_fib d k x (-y) hx hy]
    rfl
  · intro x y hx hy hb
    refine ⟨?_, ?_, fun b => ?_⟩
    · simp only [tshape, StereoAxis.mobiusCoadd, shape_gyration d k x (-y) y hx hy hy, hx]
    · funext j
      simp only [batch, tshape, StereoAxis.mobiusCoadd, StereoAxis.gyration]
      bs2 hb j
    · simp only [elemAt_eq_fib, mobiusCoadd_fib d k x y hx hy]
  · intro x y hx hy hb
    refine ⟨?_, ?_, fun b => ?_⟩
    · simp only [tshape, StereoAxis.mobiusCosub, StereoAxis.mobiusCoadd, shape_gyration d k x (-(-y)) (-y) hx hy hy, hx]
    · funext j
      simp only [batch, tshape, StereoAxis.mobiusCosub, StereoAxis.mobiusCoadd, StereoAxis.gyration]
      bs2 hb j
    · simp only [elemAt_eq_fib, StereoAxis.mobiusCosub, mobiusCoadd_fib d k x (-y) hx hy]
      rfl
  · intro x y z hx hy hz hxy hxz hyz
    refine ⟨shape_gyration d k x y z hx hy hz, ?_, fun b => ?_⟩
    · funext j
      simp only [batch, tshape, StereoAxis.gyration]
      bs3 hxy j, hxz j, hyz j
    · simp only [elemAt_eq_fib, gyration_fib d k x y z hx hy hz]
  · intro t x ht hx hb
    refine ⟨shape_mobiusScalarMul d η k t x ht hx, ?_, fun b => ?_⟩
    · funext j
      simp only [batch, tshape, StereoAxis.mobiusScalarMul]
      bs2 hb j
    · simp only [elemAt_eq_fib, numAt_eq_get, mobiusScalarMul_fib d η k t x ht hx]
  · intro x y hx hy hb
    refine ⟨?_, ?_, fun b => ?_⟩
    · simp only [tshape, StereoAxis.mobiusPointwiseMul, whr, hx, hy]
    · funext j
      simp only [batch, tshape, StereoAxis.mobiusPointwiseMul, whr]
      bs2 hb j
    · simp only [elemAt_eq_fib, mobiusPointwiseMul_fib d η k x y hx hy]

/-- **C78** (stereographic, conformal factor, norm and distances): one number per batch
element, with both values of `keepdim`. -/
theorem C78_stereo_metric (signed scaled : Bool) :
    Num1 d n (StereoAxis.lambdaXK d k) (StereoAxis.lambdaX d k) (Stereo.lambdaX k) ∧
    Num2 d n (StereoAxis.distK d η k) (StereoAxis.dist d η k) (Stereo.dist η k) ∧
    Num1 d n (StereoAxis.dist0K d η k) (StereoAxis.dist0 d η k) (Stereo.dist0 η k) ∧
    NumK3 d n (fun x a p => StereoAxis.dist2planeK d η k x a p signed scaled)
      (fun x a p => Stereo.dist2plane η k x a p signed scaled) ∧
    Num3 d n (fun x a p => StereoAxis.dist2plane d η k x a p signed scaled)
      (fun x a p => Stereo.dist2plane η k x a p signed scaled) := by
  refine ⟨?_, ?_, ?_, ?_, ?_⟩
  · intro x hx
    refine ⟨by simp only [tshape], funext fun j => by simp only [batch, tshape],
      funext fun j => by simp only [batch, tshape, StereoAxis.lambdaX], fun b => ⟨?_, ?_⟩⟩
    · simp only [elemAt_eq_fib, numAt_eq_get, lambdaXK_get d k x hx]
    · simp only [elemAt_eq_fib, lambdaX_get d k x hx]
  · intro x y hx hy hb
    refine ⟨by simp only [tshape, StereoAxis.distK],
      funext fun j => by simp only [batch, tshape, StereoAxis.distK],
      funext fun j => by simp only [batch, tshape, StereoAxis.dist], fun b => ⟨?_, ?_⟩⟩
    · simp only [elemAt_eq_fib, numAt_eq_get, distK_get d η k x y hx hy]
    · simp only [elemAt_eq_fib, dist_get d η k x y hx hy]
  · intro x hx
    refine ⟨by simp only [tshape, StereoAxis.dist0K],
      funext fun j => by simp only [batch, tshape, StereoAxis.dist0K],
      funext fun j => by simp only [batch, tshape, StereoAxis.dist0], fun b => ⟨?_, ?_⟩⟩
    · simp only [elemAt_eq_fib, numAt_eq_get, dist0K_get d η k x hx]
    · simp only [elemAt_eq_fib, dist0_get d η k x hx]
  · intro x y z hx hy hz hxy hxz hyz
    refine ⟨?_, funext fun j => ?_, fun b => ?_⟩
    · cases signed <;> cases scaled <;>
        simp only [tshape, StereoAxis.dist2planeK, Bool.false_eq_true]
    · cases signed <;> cases scaled <;>
        simp only [batch, tshape, StereoAxis.dist2planeK, Bool.false_eq_true] <;>
        bs3 hxy j, hxz j, hyz j
    · simp only [elemAt_eq_fib, numAt_eq_get,
        dist2planeK_get d η k x y z hx hy hz signed scaled]
  · intro x y z hx hy hz hxy hxz hyz
    refine ⟨funext fun j => ?_, fun b => ?_⟩
    · cases signed <;> cases scaled <;>
        simp only [batch, tshape, StereoAxis.dist2plane, Bool.false_eq_true] <;>
        bs3 hxy j, hxz j, hyz j
    · simp only [elemAt_eq_fib, dist2plane_get d η k x y z hx hy hz signed scaled]

/-- **C78** (stereographic, maps of points and tangent vectors). -/
theorem C78_stereo_maps (dt : DType) :
    Vec1 d n n (StereoAxis.project d η dt k) (Stereo.project η dt k) ∧
    Vec2 d n (StereoAxis.expmap d η k) (Stereo.expmap η k) ∧
    Vec1 d n n (StereoAxis.expmap0 d η k) (Stereo.expmap0 η k) ∧
    Vec2 d n (StereoAxis.logmap d η k) (Stereo.logmap η k) ∧
    Vec1 d n n (StereoAxis.logmap0 d η k) (Stereo.logmap0 η k) ∧
    NumVec2 d n (StereoAxis.geodesic d η k) (Stereo.geodesic η k) ∧
    NumVec2 d n (StereoAxis.geodesicUnit d η k) (Stereo.geodesicUnit η k) ∧
    Vec1 d n n (StereoAxis.antipode d η k) (Stereo.antipode η k) := by
  refine ⟨?_, ?_, ?_, ?_, ?_, ?_, ?_, ?_⟩
  · intro x hx
    refine ⟨by simp only [tshape, StereoAxis.project, hx],
      funext fun j => by simp only [batch, tshape, StereoAxis.project], fun b => ?_⟩
    simp only [elemAt_eq_fib, project_fib d η k dt x hx]
  · intro x u hx hu hb
    refine ⟨by simp only [tshape, StereoAxis.expmap, hx, hu], funext fun j => ?_, fun b => ?_⟩
    · simp only [batch, tshape, StereoAxis.expmap]
      bs2 hb j
    · simp only [elemAt_eq_fib, expmap_fib d η k x u hx hu]
  · intro x hx
    refine ⟨by simp only [tshape, StereoAxis.expmap0, hx],
      funext fun j => by simp only [batch, tshape, StereoAxis.expmap0], fun b => ?_⟩
    simp only [elemAt_eq_fib, expmap0_fib d η k x hx]
  · intro x y hx hy hb
    refine ⟨by simp only [tshape, StereoAxis.logmap, hx, hy], funext fun j => ?_, fun b => ?_⟩
    · simp only [batch, tshape, StereoAxis.logmap]
      bs2 hb j
    · simp only [elemAt_eq_fib, logmap_fib d η k x y hx hy]
  · intro x hx
    refine ⟨by simp only [tshape, StereoAxis.logmap0, hx],
      funext fun j => by simp only [batch, tshape, StereoAxis.logmap0], fun b => ?_⟩
    simp only [elemAt_eq_fib, logmap0_fib d η k x hx]
  · intro t x y ht hx hy htx hty hxy
    refine ⟨by simp only [tshape, StereoAxis.geodesic, StereoAxis.mobiusScalarMul, ht, hx, hy],
      funext fun j => ?_, fun b => ?_⟩
    · simp only [batch, tshape, StereoAxis.geodesic, StereoAxis.mobiusScalarMul]
      bs3 htx j, hty j, hxy j
    · simp only [elemAt_eq_fib, numAt_eq_get, geodesic_fib d η k t x y ht hx hy]
  · intro t x y ht hx hy htx hty hxy
    refine ⟨by simp only [tshape, StereoAxis.geodesicUnit, ht, hx, hy],
      funext fun j => ?_, fun b => ?_⟩
    · simp only [batch, tshape, StereoAxis.geodesicUnit]
      bs3 htx j, hty j, hxy j
    · simp only [elemAt_eq_fib, numAt_eq_get, geodesicUnit_fib d η k t x y ht hx hy]
  · intro x hx
    refine ⟨?_, funext fun j => ?_, fun b => ?_⟩
    · unfold StereoAxis.antipode
      split_ifs <;> simp only [tshape, hx]
    · unfold StereoAxis.antipode
      split_ifs <;> simp only [batch, tshape]
    · simp only [elemAt_eq_fib, antipode_fib d η k x hx]

/-- **C78** (stereographic, transports and gradients). -/
theorem C78_stereo_transp :
    Vec3 d n (StereoAxis.transp d k) (Stereo.transp k) ∧
    Vec2 d n (StereoAxis.transp0 d k) (Stereo.transp0 k) ∧
    Vec2 d n (StereoAxis.transp0back d k) (Stereo.transp0back k) ∧
    Vec2 d n (StereoAxis.egrad2rgrad d k) (Stereo.egrad2rgrad k) := by
  refine ⟨?_, ?_, ?_, ?_⟩
  · intro x y u hx hy hu hxy hxu hyu
    refine ⟨?_, funext fun j => ?_, fun b => ?_⟩
    · simp only [tshape, StereoAxis.transp, StereoAxis.gyration, hx, hy, hu]
    · simp only [batch, tshape, StereoAxis.transp, StereoAxis.gyration]
      bs3 hxy j, hxu j, hyu j
    · simp only [elemAt_eq_fib, transp_fib d k x y u hx hy hu]
  · intro x y hx hy hb
    refine ⟨by simp only [tshape, StereoAxis.transp0, hy], funext fun j => ?_, fun b => ?_⟩
    · simp only [batch, tshape, StereoAxis.transp0]
      bs2 hb j
    · simp only [elemAt_eq_fib, transp0_fib d k x y hx]
  · intro x y hx hy hb
    refine ⟨by simp only [tshape, StereoAxis.transp0back, hy], funext fun j => ?_, fun b => ?_⟩
    · simp only [batch, tshape, StereoAxis.transp0back]
      bs2 hb j
    · simp only [elemAt_eq_fib, transp0back_fib d k x y hx]
  · intro x y hx hy hb
    refine ⟨by simp only [tshape, StereoAxis.egrad2rgrad, hy], funext fun j => ?_, fun b => ?_⟩
    · simp only [batch, tshape, StereoAxis.egrad2rgrad]
      bs2 hb j
    · simp only [elemAt_eq_fib, egrad2rgrad_fib d k x y hx]

/-- **C78** (stereographic, projections to and from the sphere or hyperboloid, which change the
size of the manifold axis). -/
theorem C78_stereo_sproj :
    Vec1 d (n + 1) n (StereoAxis.sproj d η k) (Stereo.sproj η k) ∧
    Vec1 d n (n + 1) (StereoAxis.invSproj d η k) (Stereo.invSproj η k) := by
  constructor
  · intro x hx
    refine ⟨by simp only [tshape, StereoAxis.sproj, hx, Nat.add_sub_cancel],
      funext fun j => by simp only [batch, tshape, StereoAxis.sproj], fun b => ?_⟩
    simp only [elemAt_eq_fib, sproj_fib d η k x hx]
  · intro x hx
    refine ⟨by simp only [tshape, StereoAxis.invSproj, hx],
      funext fun j => by simp only [batch, tshape, StereoAxis.invSproj], fun b => ?_⟩
    simp only [elemAt_eq_fib, invSproj_fib d η k x hx]

/-- **C78** (`mobius_matvec` with `dim=-1`): the matrix is applied to each batch element. -/
theorem C78_stereo_matvec {p : ℕ} (M : Matrix (Fin p) (Fin n) ℝ) :
    Vec1 (Fin.last m) n p (StereoAxis.mobiusMatvec (Fin.last m) η k M)
      (Stereo.mobiusMatvec η k M) := by
  intro x hx
  have h0 : (tensordot (Fin.last m) M x).shape (Fin.last m) = p := by simp [tensordot]
  have h1 : ∀ j, (tensordot (Fin.last m) M x).shape ((Fin.last m).succAbove j) =
      x.shape ((Fin.last m).succAbove j) := by
    intro j
    have e := moveLast_shape_castSucc (Fin.last m) x j
    simp only [tensordot, Function.update_apply, Fin.succAbove_ne, if_false]
    rw [show (Fin.last m).succAbove j = j.castSucc from Fin.succAbove_last_apply j] at e ⊢
    exact e
  refine ⟨by simp only [tshape, StereoAxis.mobiusMatvec, h0],
    funext fun j => by simp only [batch, tshape, StereoAxis.mobiusMatvec, h1], fun b => ?_⟩
  simp only [elemAt_eq_fib, mobiusMatvec_last_fib η k M x hx]

/-- **C78** (Lorentz, functions that use `dim`). -/
theorem C78_lorentz_metric :
    Num2 d (n + 1) (LorentzAxis.innerK d) (LorentzAxis.inner d) Lorentz.inner ∧
    Num1 d (n + 1) (LorentzAxis.inner0K d k) (LorentzAxis.inner0 d k) (Lorentz.inner0 k) ∧
    Num2 d (n + 1) (LorentzAxis.distK d k) (LorentzAxis.dist d k) (Lorentz.dist k) ∧
    Num1 d (n + 1) (LorentzAxis.dist0K d k) (LorentzAxis.dist0 d k) (Lorentz.dist0 k) := by
  refine ⟨?_, ?_, ?_, ?_⟩
  · intro x y hx hy hb
    refine ⟨by simp only [tshape],
      funext fun j => by simp only [batch, tshape],
      funext fun j => by simp only [batch, tshape, LorentzAxis.inner], fun b => ⟨?_, ?_⟩⟩
    · simp only [elemAt_eq_fib, numAt_eq_get, l_innerK_get d x y hx hy]
    · simp only [elemAt_eq_fib, l_inner_get d x y hx hy]
  · intro x hx
    refine ⟨by simp only [tshape, LorentzAxis.inner0K],
      funext fun j => by simp only [batch, tshape, LorentzAxis.inner0K],
      funext fun j => by simp only [batch, tshape, LorentzAxis.inner0, LorentzAxis.inner0K],
      fun b => ⟨?_, ?_⟩⟩
    · simp only [elemAt_eq_fib, numAt_eq_get, l_inner0K_get d k x hx]
    · simp only [elemAt_eq_fib, l_inner0_get d k x hx]
  · intro x y hx hy hb
    refine ⟨by simp only [tshape, LorentzAxis.distK],
      funext fun j => by simp only [batch, tshape, LorentzAxis.distK],
      funext fun j => by simp only [batch, tshape, LorentzAxis.dist, LorentzAxis.inner],
      fun b => ⟨?_, ?_⟩⟩
    · simp only [elemAt_eq_fib, numAt_eq_get, l_distK_get d k x y hx hy]
    · simp only [elemAt_eq_fib, l_dist_get d k x y hx hy]
  · intro x hx
    refine ⟨by simp only [tshape, LorentzAxis.dist0K, LorentzAxis.inner0K],
      funext fun j => by simp only [batch, tshape, LorentzAxis.dist0K, LorentzAxis.inner0K],
      funext fun j => by simp only [batch, tshape, LorentzAxis.dist0, LorentzAxis.inner0,
        LorentzAxis.inner0K], fun b => ⟨?_, ?_⟩⟩
    · simp only [elemAt_eq_fib, numAt_eq_get, l_dist0K_get d k x hx]
    · simp only [elemAt_eq_fib, l_dist0_get d k x hx]

theorem shape_unsqueeze_self (t : Tensor m) : (t.unsqueeze d).shape d = 1 := by
  simp [Tensor.unsqueeze]

theorem shape_unsqueeze (t : Tensor m) (j : Fin m) :
    (t.unsqueeze d).shape (d.succAbove j) = t.shape j := by
  simp [Tensor.unsqueeze]

/-- **C78** (Lorentz, projections and geodesics, any `dim`). -/
theorem C78_lorentz_maps :
    Vec1 d (n + 1) (n + 1) (LorentzAxis.project d k) (Lorentz.project k) ∧
    Vec2 d (n + 1) (LorentzAxis.projectU d k) (Lorentz.projectU k) ∧
    NumVec2 d (n + 1) (LorentzAxis.geodesicUnit k) (Lorentz.geodesicUnitRaw k) := by
  refine ⟨?_, ?_, ?_⟩
  · intro x hx
    refine ⟨?_, funext fun j => ?_, fun b => ?_⟩
    · simp only [tshape, LorentzAxis.project, hx, shape_unsqueeze_self, Nat.add_sub_cancel,
        add_comm]
    · simp only [batch, tshape, LorentzAxis.project, shape_unsqueeze]
    · simp only [elemAt_eq_fib, l_project_fib d k x hx]
  · intro x u hx hu hb
    refine ⟨by simp only [tshape, LorentzAxis.projectU, hx, hu], funext fun j => ?_, fun b => ?_⟩
    · simp only [batch, tshape, LorentzAxis.projectU]
      bs2 hb j
    · simp only [elemAt_eq_fib, l_projectU_fib d k x u hx hu]
  · intro t x y ht hx hy htx hty hxy
    refine ⟨by simp only [tshape, LorentzAxis.geodesicUnit, ht, hx, hy],
      funext fun j => ?_, fun b => ?_⟩
    · simp only [batch, tshape, LorentzAxis.geodesicUnit]
      bs3 htx j, hty j, hxy j
    · simp only [elemAt_eq_fib, numAt_eq_get, l_geodesicUnit_fib d k t x y ht]

theorem shape_negFirst (g : Tensor (m + 1)) (j : Fin (m + 1)) :
    (LorentzAxis.negFirstLast g).shape j = g.shape j := rfl

theorem shape_inner0K (x : Tensor (m + 1)) (j : Fin (m + 1)) :
    (LorentzAxis.inner0K d k x).shape j = if j = d then 1 else x.shape j := by
  simp only [LorentzAxis.inner0K, tshape]

theorem shape_dist0K (x : Tensor (m + 1)) (j : Fin (m + 1)) :
    (LorentzAxis.dist0K d k x).shape j = if j = d then 1 else x.shape j := by
  simp only [LorentzAxis.dist0K, tshape, shape_inner0K]

theorem shape_distK (x y : Tensor (m + 1)) (j : Fin (m + 1)) :
    (LorentzAxis.distK d k x y).shape j =
      if j = d then 1 else bsize (x.shape j) (y.shape j) := by
  simp only [LorentzAxis.distK, tshape]

attribute [tshape] shape_negFirst shape_inner0K shape_dist0K shape_distK

/-- **C78** (Lorentz, functions that lose `dim`, for `dim=-1`). -/
theorem C78_lorentz_last :
    Num1 (Fin.last m) (n + 1) (LorentzAxis.normK (Fin.last m)) (LorentzAxis.norm (Fin.last m))
      Lorentz.norm ∧
    Vec2 (Fin.last m) (n + 1) (LorentzAxis.expmap (Fin.last m) k) (Lorentz.expmapRaw k) ∧
    Vec1 (Fin.last m) (n + 1) (n + 1) (LorentzAxis.expmap0 (Fin.last m) k)
      (Lorentz.expmap0Raw k) ∧
    Vec2 (Fin.last m) (n + 1) (LorentzAxis.logmap (Fin.last m) k) (Lorentz.logmap k) ∧
    Vec1 (Fin.last m) (n + 1) (n + 1) (LorentzAxis.logmap0 (Fin.last m) k)
      (Lorentz.logmap0 k) ∧
    Vec1 (Fin.last m) (n + 1) (n + 1) (LorentzAxis.logmap0back (Fin.last m) k)
      (Lorentz.logmap0back k) ∧
    Vec2 (Fin.last m) (n + 1) (LorentzAxis.egrad2rgrad (Fin.last m) k)
      (fun x g => (Lorentz.egrad2rgrad k x g).1) ∧
    Vec3 (Fin.last m) (n + 1) (LorentzAxis.transp (Fin.last m) k) (Lorentz.transp k) ∧
    Vec2 (Fin.last m) (n + 1) (LorentzAxis.transp0 (Fin.last m) k) (Lorentz.transp0 k) ∧
    Vec2 (Fin.last m) (n + 1) (LorentzAxis.transp0back (Fin.last m) k)
      (Lorentz.transp0back k) := by
  refine ⟨?_, ?_, ?_, ?_, ?_, ?_, ?_, ?_, ?_, ?_⟩
  · intro x hx
    refine ⟨by simp only [tshape], funext fun j => by simp only [batch, tshape],
      funext fun j => by simp only [batch, tshape, LorentzAxis.norm, LorentzAxis.inner],
      fun b => ⟨?_, ?_⟩⟩
    · simp only [elemAt_eq_fib, numAt_eq_get, l_normK_get _ x hx]
    · simp only [elemAt_eq_fib, l_norm_get _ x hx]
  · intro x u hx hu hb
    refine ⟨by simp only [tshape, LorentzAxis.expmap, hx, hu], funext fun j => ?_, fun b => ?_⟩
    · simp only [batch, tshape, LorentzAxis.expmap]
      bs2 hb j
    · simp only [elemAt_eq_fib, l_expmap_fib k x u hu]
  · intro x hx
    refine ⟨?_, funext fun j => ?_, fun b => ?_⟩
    · simp only [tshape, LorentzAxis.expmap0, hx, Nat.add_sub_cancel, add_comm]
    · simp only [batch, tshape, LorentzAxis.expmap0]
    · simp only [elemAt_eq_fib, l_expmap0_fib k x hx]
  · intro x y hx hy hb
    refine ⟨by simp only [tshape, LorentzAxis.logmap, hx, hy], funext fun j => ?_, fun b => ?_⟩
    · simp only [batch, tshape, LorentzAxis.logmap]
      bs2 hb j
    · simp only [elemAt_eq_fib, l_logmap_fib k x y hx hy]
  · intro x hx
    refine ⟨?_, funext fun j => ?_, fun b => ?_⟩
    · simp only [tshape, LorentzAxis.logmap0, hx, Nat.add_sub_cancel, add_comm]
    · simp only [batch, tshape, LorentzAxis.logmap0]
    · simp only [elemAt_eq_fib, l_logmap0_fib k x hx]
  · intro x hx
    refine ⟨?_, funext fun j => ?_, fun b => ?_⟩
    · simp only [tshape, LorentzAxis.logmap0back, hx, Nat.add_sub_cancel, add_comm]
    · simp only [batch, tshape, LorentzAxis.logmap0back]
    · simp only [elemAt_eq_fib, l_logmap0back_fib k x hx]
  · intro x g hx hg hb
    refine ⟨by simp only [tshape, LorentzAxis.egrad2rgrad, hx, hg], funext fun j => ?_,
      fun b => ?_⟩
    · simp only [batch, tshape, LorentzAxis.egrad2rgrad]
      bs2 hb j
    · simp only [elemAt_eq_fib, l_egrad2rgrad_fib k x g hx hg]
  · intro x y v hx hy hv hxy hxv hyv
    refine ⟨?_, funext fun j => ?_, fun b => ?_⟩
    · simp only [tshape, LorentzAxis.transp, LorentzAxis.logmap, hx, hy, hv]
    · simp only [batch, tshape, LorentzAxis.transp, LorentzAxis.logmap]
      bs3 hxy j, hxv j, hyv j
    · simp only [elemAt_eq_fib, l_transp_fib k x y v hx hy hv]
  · intro y v hy hv hb
    refine ⟨?_, funext fun j => ?_, fun b => ?_⟩
    · simp only [tshape, LorentzAxis.transp0, shape_l_logmap0 k y hy,
        shape_l_logmap0back k y hy, hv]
    · simp only [batch, tshape, LorentzAxis.transp0, LorentzAxis.logmap0,
        LorentzAxis.logmap0back]
      bs2 hb j
    · simp only [elemAt_eq_fib, l_transp0_fib k y v hy hv]
  · intro x v hx hv hb
    refine ⟨?_, funext fun j => ?_, fun b => ?_⟩
    · simp only [tshape, LorentzAxis.transp0back, shape_l_logmap0 k x hx,
        shape_l_logmap0back k x hx, hv]
    · simp only [batch, tshape, LorentzAxis.transp0back, LorentzAxis.logmap0,
        LorentzAxis.logmap0back]
      bs2 hb j
    · simp only [elemAt_eq_fib, l_transp0back_fib k x v hx hv]

/-- **C78** (Lorentz and Poincaré models).  `poincare_to_lorentz` works for every `dim`;
`lorentz_to_poincare` is stated for batches with one batch axis and `dim=-1`, the only case in
which it does (see C40). -/
theorem C78_lorentz_poincare (eps : ℝ) :
    Vec1 d n (n + 1) (LorentzAxis.ofPoincare d k eps) (Lorentz.ofPoincare k eps) ∧
    ∃ F : Tensor 2 → Tensor 2, (∀ x, LorentzAxis.toPoincare k (-1) x = .ok (F x)) ∧
      Vec1 (m := 1) 1 (n + 1) n F (Lorentz.toPoincare k) := by
  constructor
  · intro x hx
    refine ⟨?_, funext fun j => ?_, fun b => ?_⟩
    · simp only [tshape, LorentzAxis.ofPoincare, hx, add_comm]
    · simp only [batch, tshape, LorentzAxis.ofPoincare]
    · simp only [elemAt_eq_fib, l_ofPoincare_fib d k eps x hx]
  · refine ⟨fun x => x.narrow 1 1 (x.shape 1 - 1) /
      (x.narrow 1 0 1).map (· + Real.sqrt k), fun x => rfl, ?_⟩
    intro x hx
    refine ⟨?_, funext fun j => ?_, fun b => ?_⟩
    · simp only [tshape, hx, Nat.add_sub_cancel]
    · simp only [batch, tshape]
    · simp only [elemAt_eq_fib]
      funext j
      have hj := j.2
      rw [fib_apply, get_div, get_map, narrow_head_get _ x hx, fib_update, hx,
        Nat.add_sub_cancel, get_narrow _ _ _ _ _ (by simp) (by omega)]
      simp only [Lorentz.toPoincare, Pi.smul_apply, smul_eq_mul, Fin.tail]
      rw [div_eq_inv_mul]
      simp [fib]

/-! ## The hypotheses are met -/

/-- Two batches that broadcast: `(2, 1, n)` against `(3, n)` seen as `(1, 3, n)`. -/
example (f g : (Fin 3 → ℕ) → ℝ) :
    BatchOk (m := 2) 2 ⟨![2, 1, 5], f⟩ ⟨![1, 3, 5], g⟩ ∧
    bcast (batch (m := 2) 2 ⟨![2, 1, 5], f⟩) (batch (m := 2) 2 ⟨![1, 3, 5], g⟩) = ![2, 3] := by
  constructor
  · intro k; fin_cases k
    · exact Or.inr (Or.inl rfl)
    · exact Or.inl rfl
  · funext k; fin_cases k <;> rfl

end Geoopt.C78
