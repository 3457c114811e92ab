import Verif.Spec.Reversible
import Verif.Model.Interface
import Verif.Props.C01
import Verif.Props.C09
import Verif.Props.C66
import Verif.Props.C20
import Verif.Lemmas.NearFlat

/-!
# C105: manifolds that declare their retraction reversible have a reversible retraction
-/

namespace Geoopt.C105
open Geoopt Geoopt.Reversible Geoopt.Optim

/-! ## Manifolds marked as reversible -/

/-- Plain parameters. -/
theorem C105_euclidean {ι : Type} (ε : ℝ) (x r : ι → ℝ) : GoesBack (Optim.euclidean ι) ε x r := by
  simp [GoesBack, move, Optim.euclidean]

/-- The canonical Stiefel manifold, for points with orthonormal columns and the velocities the samplers
draw. -/
theorem C105_canonical_stiefel {n m : ℕ}
    (proj : Matrix (Fin n) (Fin m) ℝ → Matrix (Fin n) (Fin m) ℝ) (ε : ℝ) {x : Fin n × Fin m → ℝ}
    (hx : Stiefel.OnStiefel (toMat x)) (g : Fin n × Fin m → ℝ) :
    GoesBack (canonicalStiefel proj) ε x (((canonicalStiefel proj).egrad2rgrad x g).value) :=
  (C66_stiefel_flow proj ε).back ⟨hx, g, rfl⟩

end Geoopt.C105

namespace Geoopt.Stereo
open Geoopt Geoopt.Reversible Geoopt.Optim
variable {n : ℕ}

lemma C105.gyr_smul (k c : ℝ) (u v w : Vec n) : gyration k u v (c • w) = c • gyration k u v w := by
  have := C04_gyration_linear k c 0 u v w 0
  simpa using this

lemma C105.transp_smul (k c : ℝ) (x y w : Vec n) : transp k x y (c • w) = c • transp k x y w := by
  have := C09_transport_linear k c 0 x y w 0
  simpa using this

/-- Where `expmap` arrives before the Möbius addition. -/
noncomputable def C105.arm (η k : ℝ) (x u : Vec n) : Vec n :=
  tanK η k (lambdaX k x / 2 * nrm u) • ((nrm u)⁻¹ • u)

lemma C105.expmap_arm {η k : ℝ} {x u : Vec n} (hu : 1e-15 ≤ nrm u) :
    expmap η k x u = mobiusAdd k x (C105.arm η k x u) := by
  simp only [expmap, C105.arm, max_eq_left hu]
  norm_num

lemma C105.nrm_transp {k : ℝ} {x y : Vec n} (h : 1e-15 ≤ mobDenom k y (-x)) (u : Vec n) :
    nrm (transp k x y u) = lambdaX k x / lambdaX k y * nrm u := by
  have h0 : mobDenom k y (-x) ≠ 0 := by
    have : (0:ℝ) < 1e-15 := by norm_num
    linarith
  rw [transp, nrm_smul, abs_of_pos (div_pos (lambdaX_pos' k x) (lambdaX_pos' k y)), gyration_eq h]
  congr 1
  unfold nrm
  rw [mGyr_dot_mGyr h0]

/-- The denominator of the way back. -/
lemma C105.denom_back {k : ℝ} {x w : Vec n} (hD : mobDenom k x w ≠ 0) (hx : 1 + k * (x ⬝ᵥ x) ≠ 0) :
    mobDenom k (mAdd k x w) (mAdd k (-mAdd k x w) x) = (1 + k * (w ⬝ᵥ w)) ^ 2 / mobDenom k x w := by
  obtain ⟨y, hy⟩ : ∃ y, y = mAdd k x w := ⟨_, rfl⟩
  have e1 : mobDenom k (-x) y = (1 + k * (x ⬝ᵥ x)) ^ 2 / mobDenom k x w := by
    rw [hy]; exact mobDenom_neg_mAdd hD
  have hyy : 1 + k * (y ⬝ᵥ y) = (1 + k * (x ⬝ᵥ x)) * (1 + k * (w ⬝ᵥ w)) / mobDenom k x w := by
    rw [hy]; exact one_add_mAdd_self hD
  rw [← hy]
  have e3 : mobDenom k (-y) x = mobDenom k (-x) y := by
    rw [mobDenom_comm]; unfold mobDenom; dots; ring
  have e3ne : mobDenom k (-y) x ≠ 0 := by rw [e3, e1]; positivity
  have := mobDenom_neg_mAdd (k := k) (x := -y) (y := x) e3ne
  rw [neg_neg] at this
  rw [this, e3, e1, neg_dotProduct, dotProduct_neg, neg_neg, hyy]
  field_simp

/-- Following `u`, then following back the transported and negated vector. -/
lemma C105.back {η k : ℝ} {x u : Vec n} (hu : 1e-15 ≤ nrm u)
    (h1 : 1e-15 ≤ mobDenom k x (C105.arm η k x u))
    (h2 : 1e-15 * mobDenom k x (C105.arm η k x u) ≤ (1 + k * (x ⬝ᵥ x)) ^ 2)
    (h3 : 1e-15 * mobDenom k x (C105.arm η k x u) ≤
      (1 + k * (C105.arm η k x u ⬝ᵥ C105.arm η k x u)) ^ 2)
    (hu' : 1e-15 ≤ nrm (transp k x (expmap η k x u) u)) :
    expmap η k (expmap η k x u) (-transp k x (expmap η k x u) u) = x ∧
      1e-15 ≤ mobDenom k (expmap η k x u) (-x) := by
  have h15 : (0:ℝ) < 1e-15 := by norm_num
  obtain ⟨w, hw⟩ : ∃ w, w = C105.arm η k x u := ⟨_, rfl⟩
  have hexp : expmap η k x u = mobiusAdd k x w := by rw [C105.expmap_arm hu, hw]
  rw [← hw] at h1 h2 h3
  have hD : 0 < mobDenom k x w := lt_of_lt_of_le h15 h1
  rw [mobiusAdd_eq h1] at hexp
  rw [hexp] at hu' ⊢
  obtain ⟨y, hy⟩ : ∃ y, y = mAdd k x w := ⟨_, rfl⟩
  rw [← hy] at hu' ⊢
  have hxx : (1 + k * (x ⬝ᵥ x)) ≠ 0 := by
    intro h0
    rw [h0] at h2
    nlinarith
  have hww : (1 + k * (w ⬝ᵥ w)) ≠ 0 := by
    intro h0
    rw [h0] at h3
    nlinarith
  have hyy : 1 + k * (y ⬝ᵥ y) = (1 + k * (x ⬝ᵥ x)) * (1 + k * (w ⬝ᵥ w)) / mobDenom k x w := by
    rw [hy]; exact one_add_mAdd_self hD.ne'
  have hyne : 1 + k * (y ⬝ᵥ y) ≠ 0 := by
    rw [hyy]; positivity
  have e1 : mobDenom k (-x) y = (1 + k * (x ⬝ᵥ x)) ^ 2 / mobDenom k x w := by
    rw [hy]; exact mobDenom_neg_mAdd hD.ne'
  have e1' : 1e-15 ≤ mobDenom k (-x) y := by rw [e1, le_div_iff₀ hD]; exact h2
  have e2 : 1e-15 ≤ mobDenom k y (-x) := by rw [mobDenom_comm]; exact e1'
  have e2ne : mobDenom k y (-x) ≠ 0 := by linarith
  have e3 : mobDenom k (-y) x = mobDenom k y (-x) := by unfold mobDenom; dots; ring
  have e3ne : mobDenom k (-y) x ≠ 0 := by rw [e3]; exact e2ne
  refine ⟨?_, e2⟩
  -- the transported vector
  have hcancel : mAdd k (-x) y = w := by rw [hy]; exact mAdd_left_cancel hD.ne' hxx
  have hg : gyration k y (-x) w = mAdd k y (-x) := by
    rw [gyration_eq e2, ← hcancel]; exact mGyr_comm e2ne
  have hneg : mAdd k y (-x) = -mAdd k (-y) x := by
    unfold mAdd; rw [e3]; dots
    funext i
    simp only [Pi.smul_apply, Pi.add_apply, smul_eq_mul, Pi.neg_apply]
    ring
  have hly := lambdaX_pos' k y
  have hlx := lambdaX_pos' k x
  have hup : 0 < nrm u := lt_of_lt_of_le h15 hu
  have hlen := C105.nrm_transp e2 u
  have harm : C105.arm η k y (-transp k x y u) = mAdd k (-y) x := by
    have : C105.arm η k y (-transp k x y u) = -gyration k y (-x) w := by
      rw [hw, C105.arm, C105.arm, C105.gyr_smul, C105.gyr_smul]
      have hn : nrm (-transp k x y u) = lambdaX k x / lambdaX k y * nrm u := by
        rw [← hlen]; simpa using nrm_smul (-1) (transp k x y u)
      rw [hn]
      have ea : lambdaX k y / 2 * (lambdaX k x / lambdaX k y * nrm u) = lambdaX k x / 2 * nrm u := by
        field_simp
      rw [ea, ← smul_neg]
      congr 1
      rw [transp, ← smul_neg, smul_smul, ← smul_neg]
      congr 1
      field_simp
    rw [this, hg, hneg, neg_neg]
  have hu'' : 1e-15 ≤ nrm (-transp k x y u) := by
    rw [show nrm (-transp k x y u) = nrm (transp k x y u) by
      simpa using nrm_smul (-1) (transp k x y u)]
    exact hu'
  have e4 : mobDenom k y (mAdd k (-y) x) = (1 + k * (w ⬝ᵥ w)) ^ 2 / mobDenom k x w := by
    rw [hy]; exact C105.denom_back hD.ne' hxx
  rw [C105.expmap_arm hu'', harm, mobiusAdd_eq (by rw [e4, le_div_iff₀ hD]; exact h3)]
  have := mAdd_left_cancel (k := k) (x := -y) (y := x) e3ne (by
    rw [neg_dotProduct, dotProduct_neg, neg_neg]; exact hyne)
  rwa [neg_neg] at this

/-- The move of the exact classes, when the end point needs no projection. -/
lemma C105.move_exact {η k ε : ℝ} {dt : DType} {x r : Vec n}
    (hy : project η dt k (expmap η k x (ε • r)) = expmap η k x (ε • r)) :
    move (stereographicExact η dt k) ε x r =
      (expmap η k x (ε • r), transp k x (expmap η k x (ε • r)) r) := by
  simp only [move, stereographicExact, M.expmapTransp, M.expmap, withProject, if_true, hy]

lemma C105.goes_back {η k ε : ℝ} {dt : DType} {x r : Vec n} (hε : ε ≠ 0)
    (hx : project η dt k x = x)
    (hy : project η dt k (expmap η k x (ε • r)) = expmap η k x (ε • r))
    (hu : 1e-15 ≤ nrm (ε • r))
    (h1 : 1e-15 ≤ mobDenom k x (C105.arm η k x (ε • r)))
    (h2 : 1e-15 * mobDenom k x (C105.arm η k x (ε • r)) ≤ (1 + k * (x ⬝ᵥ x)) ^ 2)
    (h3 : 1e-15 * mobDenom k x (C105.arm η k x (ε • r)) ≤
      (1 + k * (C105.arm η k x (ε • r) ⬝ᵥ C105.arm η k x (ε • r))) ^ 2)
    (hu' : 1e-15 ≤ nrm (transp k x (expmap η k x (ε • r)) (ε • r))) :
    GoesBack (stereographicExact η dt k) ε x r := by
  obtain ⟨hb, hd⟩ := C105.back hu h1 h2 h3 hu'
  rw [GoesBack, C105.move_exact hy]
  have e : ε • -transp k x (expmap η k x (ε • r)) r = -transp k x (expmap η k x (ε • r)) (ε • r) := by
    rw [C105.transp_smul, smul_neg]
  rw [C105.move_exact (by rw [e, hb]; exact hx), e, hb]
  refine Prod.ext rfl ?_
  have e2 : transp k (expmap η k x (ε • r)) x (-transp k x (expmap η k x (ε • r)) r) =
      -transp k (expmap η k x (ε • r)) x (transp k x (expmap η k x (ε • r)) r) := by
    simpa using C105.transp_smul k (-1) (expmap η k x (ε • r)) x (transp k x (expmap η k x (ε • r)) r)
  dsimp only
  rw [e2, C09_transport_back hd]

lemma C105.goes_back_zero {η k ε : ℝ} {dt : DType} {x r : Vec n} (hx : project η dt k x = x)
    (h0 : ε • r = 0) : GoesBack (stereographicExact η dt k) ε x r := by
  have e0 : expmap η k x (ε • r) = x := by rw [h0]; exact expmap_zero η k x
  have e1 : expmap η k x (ε • -r) = x := by rw [smul_neg, h0, neg_zero]; exact expmap_zero η k x
  have m1 : move (stereographicExact η dt k) ε x r = (x, r) := by
    rw [C105.move_exact (by rw [e0]; exact hx), e0, C09_transport_self]
  have m2 : move (stereographicExact η dt k) ε x (-r) = (x, -r) := by
    rw [C105.move_exact (by rw [e1]; exact hx), e1, C09_transport_self]
  rw [GoesBack, m1]
  exact m2

/-- The arm stays in the ball. -/
lemma C105.arm_ball {η k : ℝ} (hη : 0 ≤ η) (hk : k < -1e-8) (x u : Vec n) :
    OpenBall k (C105.arm η k x u) := by
  have hk0 : k < 0 := by have := e8; linarith
  have hs := kSqrt_pos hη hk0.ne
  rw [C105.arm, tanK_neg_curv hk]
  generalize lambdaX k x / 2 * nrm u = a
  have hv : nrm ((nrm u)⁻¹ • u) ≤ 1 := by
    rw [nrm_smul, abs_of_nonneg (inv_nonneg.2 (nrm_nonneg u))]
    exact inv_mul_le_one
  generalize (nrm u)⁻¹ • u = v at hv
  unfold OpenBall
  dots
  have h1 : (tanhC (a * kSqrt η k)) ^ 2 < 1 := (sq_lt_one_iff_abs_lt_one _).2 (abs_tanhC_lt _)
  have h2 : v ⬝ᵥ v ≤ 1 := by rw [← nrm_sq]; nlinarith [nrm_nonneg v]
  have h0 := dot_self_nonneg v
  have h3 : -k ≤ kSqrt η k ^ 2 := by rw [kSqrt_sq hη, abs_of_neg hk0]; linarith
  have h4 : -k * (((kSqrt η k)⁻¹ * tanhC (a * kSqrt η k)) *
      (((kSqrt η k)⁻¹ * tanhC (a * kSqrt η k)) * (v ⬝ᵥ v))) =
      (-k / kSqrt η k ^ 2) * (tanhC (a * kSqrt η k) ^ 2 * (v ⬝ᵥ v)) := by
    field_simp
  rw [h4]
  have h5 : -k / kSqrt η k ^ 2 ≤ 1 := (div_le_one (by positivity)).2 h3
  have h6 : 0 ≤ -k / kSqrt η k ^ 2 := div_nonneg (by linarith) (by positivity)
  have h7 : tanhC (a * kSqrt η k) ^ 2 * (v ⬝ᵥ v) < 1 := by nlinarith [sq_nonneg (tanhC (a * kSqrt η k))]
  have h8 : 0 ≤ tanhC (a * kSqrt η k) ^ 2 * (v ⬝ᵥ v) := by positivity
  nlinarith

lemma C105.denom_ball {η k : ℝ} (hη : 0 ≤ η) (hk : k < 0) {dt : DType} {x w : Vec n}
    (hx : Valid η dt k x) (hw : OpenBall k w) : 1e-10 ≤ mobDenom k x w ∧ mobDenom k x w ≤ 4 := by
  have h1 := valid_sq hη hk hx
  unfold OpenBall at hw
  have h0 : 0 ≤ -k * (nrm x * nrm w) :=
    mul_nonneg (by linarith) (mul_nonneg (nrm_nonneg x) (nrm_nonneg w))
  have h2 : (-k * (nrm x * nrm w)) ^ 2 ≤ (1 - 1e-5) ^ 2 := by
    have e : (-k * (nrm x * nrm w)) ^ 2 = (-k * (x ⬝ᵥ x)) * (-k * (w ⬝ᵥ w)) := by
      rw [← nrm_sq, ← nrm_sq]; ring
    rw [e]
    have a := dot_self_nonneg x
    have b := dot_self_nonneg w
    have c : 0 ≤ -k * (w ⬝ᵥ w) := mul_nonneg (by linarith) b
    have d : 0 ≤ -k * (x ⬝ᵥ x) := mul_nonneg (by linarith) a
    nlinarith
  have h3 : -k * (nrm x * nrm w) ≤ 1 - 1e-5 := (abs_le_of_sq_le_sq' h2 (by norm_num)).2
  constructor
  · refine le_trans ?_ (mobDenom_ge hk.le x w)
    have : (1e-5 : ℝ) ≤ 1 + k * (nrm x * nrm w) := by linarith
    calc (1e-10 : ℝ) = (1e-5) ^ 2 := by norm_num
      _ ≤ _ := pow_le_pow_left₀ (by norm_num) this 2
  · refine (mobDenom_le x w).trans ?_
    rw [abs_of_neg hk]
    nlinarith

/-- **C105, exact Poincaré ball.**  Every step between accepted points that is not too short can be retraced
exactly, for every curvature and with the regulariser of the code. -/
theorem C105_poincare_exact_partial {η k : ℝ} (hη : 0 ≤ η) (hη1 : η ≤ 1) (hk : k < -1e-8)
    (hbig : |k| ≤ 1e29) (dt : DType) {ε : ℝ} {x r : Vec n} (hx : Valid η dt k x)
    (hy : Valid η dt k (M.expmap false η dt k x (ε • r)))
    (hr : ε • r = 0 ∨ 1e-10 ≤ nrm (ε • r)) :
    GoesBack (stereographicExact η dt k) ε x r := by
  have hk0 : k < 0 := by have := e8; linarith
  have px : project η dt k x = x := (C02_projx_fixes_exactly_valid hη hη1 hk0 hbig dt x).2 hx
  rcases hr with h0 | hr
  · exact C105.goes_back_zero px h0
  have hu : (1e-15:ℝ) ≤ nrm (ε • r) := le_trans (by norm_num) hr
  have hy' : Valid η dt k (expmap η k x (ε • r)) := hy
  have py : project η dt k (expmap η k x (ε • r)) = expmap η k x (ε • r) :=
    (C02_projx_fixes_exactly_valid hη hη1 hk0 hbig dt _).2 hy'
  obtain ⟨d1, d2⟩ := C105.denom_ball hη hk0 hx (C105.arm_ball hη hk x (ε • r))
  have hD : (1e-15:ℝ) ≤ mobDenom k x (C105.arm η k x (ε • r)) := le_trans (by norm_num) d1
  have hDp : (0:ℝ) < mobDenom k x (C105.arm η k x (ε • r)) := lt_of_lt_of_le (by norm_num) d1
  have hxe : (1e-5:ℝ) ≤ 1 + k * (x ⬝ᵥ x) := by
    have := valid_sq hη hk0 hx
    norm_num at this ⊢
    linarith
  have hexp : expmap η k x (ε • r) = mAdd k x (C105.arm η k x (ε • r)) := by
    rw [C105.expmap_arm hu, mobiusAdd_eq hD]
  have h2 : 1e-15 * mobDenom k x (C105.arm η k x (ε • r)) ≤ (1 + k * (x ⬝ᵥ x)) ^ 2 := by
    have : (1e-5:ℝ) ^ 2 ≤ (1 + k * (x ⬝ᵥ x)) ^ 2 := pow_le_pow_left₀ (by norm_num) hxe 2
    norm_num at this ⊢
    linarith
  have h3 : 1e-15 * mobDenom k x (C105.arm η k x (ε • r)) ≤
      (1 + k * (C105.arm η k x (ε • r) ⬝ᵥ C105.arm η k x (ε • r))) ^ 2 := by
    have e := C105.denom_back hDp.ne' (by linarith : 1 + k * (x ⬝ᵥ x) ≠ 0)
    rw [hexp] at hy'
    have hz : OpenBall k (mAdd k (-mAdd k x (C105.arm η k x (ε • r))) x) :=
      openBall_mAdd hk0.le (openBall_neg.2 (valid_openBall hη hk0 hy')) (valid_openBall hη hk0 hx)
    have := (C105.denom_ball hη hk0 hy' hz).1
    rw [e, le_div_iff₀ hDp] at this
    refine le_trans ?_ this
    exact mul_le_mul_of_nonneg_right (by norm_num) hDp.le
  have hne : ε ≠ 0 := by
    rintro rfl
    rw [zero_smul, nrm_zero] at hu
    norm_num at hu
  refine C105.goes_back hne px py hu hD h2 h3 ?_
  have hd : (1e-15:ℝ) ≤ mobDenom k (expmap η k x (ε • r)) (-x) :=
    le_trans (by norm_num) (C105.denom_ball hη hk0 hy'
      (openBall_neg.2 (valid_openBall hη hk0 hx))).1
  rw [C105.nrm_transp hd]
  have hye : (1e-5:ℝ) ≤ 1 + k * (expmap η k x (ε • r) ⬝ᵥ expmap η k x (ε • r)) := by
    have := valid_sq hη hk0 hy'
    norm_num at this ⊢
    linarith
  have l1 : 2 ≤ lambdaX k x := by
    have a := dot_self_nonneg x
    rw [lambdaX, le_div_iff₀ (lt_max_of_lt_right (by norm_num))]
    have : max (1 + k * (x ⬝ᵥ x)) 1e-15 ≤ 1 := max_le (by nlinarith) (by norm_num)
    linarith
  have l2 : lambdaX k (expmap η k x (ε • r)) ≤ 2 / 1e-5 := by
    rw [lambdaX]
    exact div_le_div_of_nonneg_left (by norm_num) (by norm_num) (le_max_of_le_left hye)
  have lp := lambdaX_pos' k (expmap η k x (ε • r))
  have : (1e-5:ℝ) ≤ lambdaX k x / lambdaX k (expmap η k x (ε • r)) := by
    rw [le_div_iff₀ lp]
    norm_num at l2 ⊢
    linarith
  calc (1e-15:ℝ) = 1e-5 * 1e-10 := by norm_num
    _ ≤ _ := mul_le_mul this hr (by norm_num) (le_trans (by norm_num) this)

set_option maxHeartbeats 1000000 in
/-- The exact projected sphere: every step can be retraced whose half length stays below a quarter turn (up
to `1e-7`) and which does not pass close to the point opposite the origin.  `t` is the tangent of half the
angle of the step. -/
theorem C105_sphere_projection_exact_partial {η k : ℝ} (hη : 0 ≤ η) (hk : 1e-8 < k) (dt : DType) {ε t : ℝ}
    {x r : Vec n} (hx : nrm x ≤ 1e15) (hy : nrm (M.expmap false η dt k x (ε • r)) ≤ 1e15)
    (hxk : Real.sqrt k * nrm x ≤ 1e7)
    (ht : t = Real.tan (lambdaX k x / 2 * nrm (ε • r) * Real.sqrt (k + η)))
    (hq : lambdaX k x / 2 * nrm (ε • r) * Real.sqrt (k + η) < Real.pi / 2)
    (ht7 : t ≤ 1e7) (hxt : Real.sqrt k * nrm x * t ≤ 1 - 1e-7)
    (hr : ε • r = 0 ∨ 1e-15 * (1 + k * (x ⬝ᵥ x)) ≤ nrm (ε • r)) :
    GoesBack (stereographicExact η dt k) ε x r := by
  have hk0 : 0 < k := by have := e8; linarith
  have px : project η dt k x = x := C02_projx_nonneg_curvature hk0.le dt x hx
  rcases hr with h0 | hr
  · exact C105.goes_back_zero px h0
  have hxx := dot_self_nonneg x
  have hx1 : 1 ≤ 1 + k * (x ⬝ᵥ x) := by nlinarith
  have hu : (1e-15:ℝ) ≤ nrm (ε • r) := le_trans (by nlinarith) hr
  have hup : 0 < nrm (ε • r) := lt_of_lt_of_le (by norm_num) hu
  have py : project η dt k (expmap η k x (ε • r)) = expmap η k x (ε • r) :=
    C02_projx_nonneg_curvature hk0.le dt _ hy
  have hlp := lambdaX_pos' k x
  have hsk : 0 < Real.sqrt k := Real.sqrt_pos.2 hk0
  have hks : kSqrt η k = Real.sqrt (k + η) := by
    have : kSqrt η k = Real.sqrt (|k| + η) := rfl
    rw [this, abs_of_pos hk0]
  have hsp : 0 < Real.sqrt (k + η) := Real.sqrt_pos.2 (by linarith)
  have hsle : Real.sqrt k ≤ Real.sqrt (k + η) := Real.sqrt_le_sqrt (by linarith)
  have hθ : 0 ≤ lambdaX k x / 2 * nrm (ε • r) * Real.sqrt (k + η) := by positivity
  have ht0 : 0 ≤ t := by
    rw [ht]
    exact Real.tan_nonneg_of_nonneg_of_le_pi_div_two hθ hq.le
  obtain ⟨w, hw⟩ : ∃ w, w = C105.arm η k x (ε • r) := ⟨_, rfl⟩
  have hwn : nrm w = (Real.sqrt (k + η))⁻¹ * t := by
    have hunit : nrm ((nrm (ε • r))⁻¹ • (ε • r)) = 1 := by
      generalize ε • r = u at hup
      rw [nrm_smul, abs_of_pos (inv_pos.2 hup), inv_mul_cancel₀ hup.ne']
    have h38 : lambdaX k x / 2 * nrm (ε • r) * Real.sqrt (k + η) ≤ 1e38 := by
      have := Real.pi_le_four
      norm_num
      linarith
    rw [hw, C105.arm, nrm_smul, hunit, mul_one, tanK_pos_curv hk, hks, min_eq_left h38, ← ht,
      abs_of_nonneg (by positivity)]
  have hwt : Real.sqrt k * nrm w ≤ t := by
    rw [hwn, ← mul_assoc]
    have : Real.sqrt k * (Real.sqrt (k + η))⁻¹ ≤ 1 := by
      rw [← div_eq_mul_inv]; exact (div_le_one hsp).2 hsle
    nlinarith
  have hsq : Real.sqrt k ^ 2 = k := Real.sq_sqrt hk0.le
  have hww := dot_self_nonneg w
  have hn0 := nrm_nonneg x
  have hnw := nrm_nonneg w
  have hxw : k * (nrm x * nrm w) ≤ 1 - 1e-7 := by
    have : k * (nrm x * nrm w) = Real.sqrt k * nrm x * (Real.sqrt k * nrm w) := by
      rw [← hsq, Real.sqrt_sq hsk.le]; ring
    rw [this]
    exact (mul_le_mul_of_nonneg_left hwt (by positivity)).trans hxt
  have hkx : k * (x ⬝ᵥ x) ≤ 1e14 := by
    have : k * (x ⬝ᵥ x) = (Real.sqrt k * nrm x) ^ 2 := by rw [mul_pow, hsq, nrm_sq]
    rw [this]
    calc _ ≤ (1e7:ℝ) ^ 2 := pow_le_pow_left₀ (by positivity) hxk 2
      _ = _ := by norm_num
  have hkw : k * (w ⬝ᵥ w) ≤ 1e14 := by
    have : k * (w ⬝ᵥ w) = (Real.sqrt k * nrm w) ^ 2 := by rw [mul_pow, hsq, nrm_sq]
    rw [this]
    calc _ ≤ (1e7:ℝ) ^ 2 := pow_le_pow_left₀ (by positivity) (hwt.trans ht7) 2
      _ = _ := by norm_num
  have hD : (1e-15:ℝ) ≤ mobDenom k x w := by
    refine le_trans ?_ (mobDenom_ge_pos hk0.le x w)
    have : (1e-7:ℝ) ≤ 1 - k * (nrm x * nrm w) := by linarith
    calc (1e-15:ℝ) ≤ (1e-7) ^ 2 := by norm_num
      _ ≤ _ := pow_le_pow_left₀ (by norm_num) this 2
  have hDle : mobDenom k x w ≤ (1 + k * (x ⬝ᵥ x)) * (1 + k * (w ⬝ᵥ w)) := by
    refine (mobDenom_le x w).trans ?_
    rw [abs_of_pos hk0, ← nrm_sq, ← nrm_sq]
    nlinarith [mul_nonneg hk0.le (sq_nonneg (nrm x - nrm w))]
  have hw1 : 1 ≤ 1 + k * (w ⬝ᵥ w) := by nlinarith
  have hne : ε ≠ 0 := by
    rintro rfl
    rw [zero_smul, nrm_zero] at hup
    exact lt_irrefl _ hup
  have h2 : 1e-15 * mobDenom k x w ≤ (1 + k * (x ⬝ᵥ x)) ^ 2 := by
    have h : 1e-15 * (1 + k * (w ⬝ᵥ w)) ≤ 1 + k * (x ⬝ᵥ x) := by
      norm_num at hkw ⊢
      linarith
    calc _ ≤ 1e-15 * ((1 + k * (x ⬝ᵥ x)) * (1 + k * (w ⬝ᵥ w))) :=
          mul_le_mul_of_nonneg_left hDle (by norm_num)
      _ = (1 + k * (x ⬝ᵥ x)) * (1e-15 * (1 + k * (w ⬝ᵥ w))) := by ring
      _ ≤ (1 + k * (x ⬝ᵥ x)) * (1 + k * (x ⬝ᵥ x)) := mul_le_mul_of_nonneg_left h (by linarith)
      _ = _ := by ring
  have h3 : 1e-15 * mobDenom k x w ≤ (1 + k * (w ⬝ᵥ w)) ^ 2 := by
    have h : 1e-15 * (1 + k * (x ⬝ᵥ x)) ≤ 1 + k * (w ⬝ᵥ w) := by
      norm_num at hkx ⊢
      linarith
    calc _ ≤ 1e-15 * ((1 + k * (x ⬝ᵥ x)) * (1 + k * (w ⬝ᵥ w))) :=
          mul_le_mul_of_nonneg_left hDle (by norm_num)
      _ = (1 + k * (w ⬝ᵥ w)) * (1e-15 * (1 + k * (x ⬝ᵥ x))) := by ring
      _ ≤ (1 + k * (w ⬝ᵥ w)) * (1 + k * (w ⬝ᵥ w)) := mul_le_mul_of_nonneg_left h (by linarith)
      _ = _ := by ring
  have hexp : expmap η k x (ε • r) = mAdd k x w := by
    rw [C105.expmap_arm hu, ← hw, mobiusAdd_eq hD]
  have hDp : 0 < mobDenom k x w := lt_of_lt_of_le (by norm_num) hD
  have hd : (1e-15:ℝ) ≤ mobDenom k (expmap η k x (ε • r)) (-x) := by
    rw [hexp, mobDenom_comm, mobDenom_neg_mAdd hDp.ne', le_div_iff₀ hDp]
    exact h2
  refine C105.goes_back hne px py hu (hw ▸ hD) (hw ▸ h2) (hw ▸ h3) ?_
  rw [C105.nrm_transp hd]
  have hy0 := dot_self_nonneg (expmap η k x (ε • r))
  have l1 : lambdaX k x = 2 / (1 + k * (x ⬝ᵥ x)) := by
    rw [lambdaX, max_eq_left (le_trans (by norm_num) hx1)]
  have l2 : lambdaX k (expmap η k x (ε • r)) ≤ 2 := by
    rw [lambdaX, div_le_iff₀ (lt_max_of_lt_right (by norm_num))]
    have : 1 ≤ max (1 + k * (expmap η k x (ε • r) ⬝ᵥ expmap η k x (ε • r))) 1e-15 :=
      le_max_of_le_left (by nlinarith)
    linarith
  have lp := lambdaX_pos' k (expmap η k x (ε • r))
  have : (1 + k * (x ⬝ᵥ x))⁻¹ ≤ lambdaX k x / lambdaX k (expmap η k x (ε • r)) := by
    rw [le_div_iff₀ lp, l1]
    rw [div_eq_mul_inv, mul_comm]
    exact mul_le_mul_of_nonneg_right l2 (inv_nonneg.2 (by linarith))
  calc (1e-15:ℝ) = (1 + k * (x ⬝ᵥ x))⁻¹ * (1e-15 * (1 + k * (x ⬝ᵥ x))) := by
        field_simp
    _ ≤ _ := mul_le_mul this hr (by positivity) (le_trans (by positivity) this)

/-- Curvature zero. -/
theorem C105_flat_exact {η : ℝ} (dt : DType) {ε : ℝ} {x r : Vec n} (hx : nrm x ≤ 1e15)
    (hy : nrm (x + ε • r) ≤ 1e15) : GoesBack (stereographicExact η dt 0) ε x r := by
  have he : ∀ x u : Vec n, expmap η 0 x u = x + u := fun x u => (C11_flat η 0 0 x 0 u 0).2.2.2.2.2.1
  have htr : ∀ x y u : Vec n, transp 0 x y u = u := fun x y u =>
    (C11_flat η 0 0 x y u 0).2.2.2.2.2.2.2.1
  have m1 : move (stereographicExact η dt 0) ε x r = (x + ε • r, r) := by
    rw [C105.move_exact (by rw [he]; exact C02_projx_nonneg_curvature le_rfl dt _ hy), he, htr]
  have e : x + ε • r + ε • -r = x := by simp
  rw [GoesBack, m1]
  dsimp only
  rw [C105.move_exact (by rw [he, e]; exact C02_projx_nonneg_curvature le_rfl dt _ hx), he, htr, e]

lemma C105.gyr_zero (k : ℝ) (y u : Vec n) : gyration k y (-0) u = u := by
  simp [gyration]

/-- A Möbius sum along a line through the origin. -/
lemma C105.line (k a b : ℝ) {e : Vec n} (he : e ⬝ᵥ e = 1) :
    mobiusAdd k (a • e) (-(b • e)) =
      ((max (mobDenom k (a • e) (-(b • e))) 1e-15)⁻¹ * ((a - b) * (1 + k * (a * b)))) • e := by
  rw [mobiusAdd]
  dots
  rw [he, mul_smul]
  congr 1
  funext i
  simp only [Pi.smul_apply, Pi.add_apply, smul_eq_mul, Pi.neg_apply]
  ring

/-- **C105 is false near the boundary.**  The exact Poincaré ball declares its retraction reversible, but
`retr` projects: from the origin no step (of length at least `1e-9`) that would end beyond the accepted
points can be retraced. -/
theorem C105_counterexample_poincare_exact {η k : ℝ} (hη : 0 ≤ η) (hk : k < -1e-8) (dt : DType) {u : Vec n}
    (hu : 1e-9 ≤ nrm u) (hout : ¬ Valid η dt k (M.expmap false η dt k 0 u)) :
    ¬ GoesBack (stereographicExact η dt k) 1 0 u := by
  have hk0 : k < 0 := by have := e8; linarith
  have hup : 0 < nrm u := lt_of_lt_of_le (by norm_num) hu
  have hu15 : (1e-15:ℝ) ≤ nrm u := le_trans (by norm_num) hu
  have l0 : lambdaX k (0 : Vec n) = 2 := by
    rw [lambdaX, dotProduct_zero, mul_zero, add_zero, max_eq_left (by norm_num)]; norm_num
  obtain ⟨e, he⟩ : ∃ e, e = (nrm u)⁻¹ • u := ⟨_, rfl⟩
  obtain ⟨b, hb⟩ : ∃ b, b = tanK η k (nrm u) := ⟨_, rfl⟩
  obtain ⟨a, ha⟩ : ∃ a, a = maxNorm η dt k := ⟨_, rfl⟩
  have hen : nrm e = 1 := by
    rw [he, nrm_smul, abs_of_pos (inv_pos.2 hup), inv_mul_cancel₀ hup.ne']
  have hee : e ⬝ᵥ e = 1 := by rw [← nrm_sq, hen]; norm_num
  have harm0 : C105.arm η k 0 u = b • e := by
    rw [C105.arm, l0, div_self two_ne_zero, one_mul, ← hb, ← he]
  have hexp : expmap η k 0 u = b • e := by
    rw [C105.expmap_arm hu15, harm0]
    exact C03_zero_add k _
  have hb0 : 0 ≤ b := by
    rw [hb, tanK_neg_curv hk]
    exact mul_nonneg (inv_nonneg.2 (kSqrt_pos hη hk0.ne).le)
      (tanhC_nonneg (mul_nonneg hup.le (kSqrt_pos hη hk0.ne).le))
  have hapos : 0 < a := by rw [ha]; exact maxNorm_pos hη dt
  have hab : a < b := by
    have h : ¬ Valid η dt k (expmap η k 0 u) := hout
    rw [valid_iff hk0, hexp, nrm_smul, hen, mul_one, abs_of_nonneg hb0, ← ha] at h
    exact not_le.1 h
  have hproj : ∃ c, 0 < c ∧ c ≤ a ∧ project η dt k (b • e) = c • e := by
    obtain ⟨c, c0, c1, hc⟩ := C02_projx_rescales (k := k) hη dt (b • e)
    have hn := nrm_project_le (k := k) hη dt (b • e)
    have hc' : project η dt k (b • e) = c • (b • e) := hc
    refine ⟨c * b, mul_pos c0 (hapos.trans hab), ?_, by rw [hc', smul_smul]⟩
    rw [hc', smul_smul, nrm_smul, hen, mul_one, abs_of_nonneg (mul_nonneg c0.le hb0)] at hn
    rw [ha]; exact hn
  obtain ⟨c, hc0, hca, hcp⟩ := hproj
  have hv : Valid η dt k (c • e) := by
    rw [valid_iff hk0, nrm_smul, hen, mul_one, abs_of_pos hc0, ← ha]; exact hca
  have hlp := lambdaX_pos' k (c • e)
  have hye := valid_sq hη hk0 hv
  have l2 : lambdaX k (c • e) ≤ 2e5 := by
    rw [lambdaX, div_le_iff₀ (lt_max_of_lt_right (by norm_num))]
    have : (1e-5:ℝ) ≤ max (1 + k * (c • e ⬝ᵥ c • e)) 1e-15 := le_max_of_le_left (by
      norm_num at hye ⊢
      linarith)
    generalize max (1 + k * (c • e ⬝ᵥ c • e)) 1e-15 = M at this ⊢
    norm_num at this ⊢
    linarith
  have htr : transp k 0 (c • e) u = (2 / lambdaX k (c • e)) • u := by
    rw [transp, l0, C105.gyr_zero]
  have hq : 0 < 2 / lambdaX k (c • e) := div_pos two_pos hlp
  have hnu : nrm (-transp k 0 (c • e) u) = 2 / lambdaX k (c • e) * nrm u := by
    rw [nrm_neg, htr, nrm_smul, abs_of_pos hq]
  have hn15 : (1e-15:ℝ) ≤ nrm (-transp k 0 (c • e) u) := by
    rw [hnu]
    have : (1e-5:ℝ) ≤ 2 / lambdaX k (c • e) := by
      rw [le_div_iff₀ hlp]; norm_num at l2 ⊢; linarith
    calc (1e-15:ℝ) ≤ 1e-5 * 1e-9 := by norm_num
      _ ≤ _ := mul_le_mul this hu (by norm_num) hq.le
  have harm : C105.arm η k (c • e) (-transp k 0 (c • e) u) = -(b • e) := by
    rw [C105.arm, hnu]
    have e1 : lambdaX k (c • e) / 2 * (2 / lambdaX k (c • e) * nrm u) = nrm u := by field_simp
    have e2 : (2 / lambdaX k (c • e) * nrm u)⁻¹ * (2 / lambdaX k (c • e)) = (nrm u)⁻¹ := by
      field_simp
    rw [e1, ← hb, htr, ← smul_neg (2 / lambdaX k (c • e)) u, smul_smul _ _ (-u), e2, smul_neg, smul_neg, ← he]
  have hkb : -k * (b * b) < 1 := by
    have := C105.arm_ball hη hk 0 u
    rw [harm0] at this
    unfold OpenBall at this
    rw [smul_dotProduct, dotProduct_smul, hee] at this
    simpa using this
  have hne : (c - b) * (1 + k * (c * b)) ≠ 0 := by
    apply mul_ne_zero
    · linarith
    · have h1 : c * b ≤ b * b := mul_le_mul_of_nonneg_right (by linarith) hb0
      nlinarith
  have hback : expmap η k (c • e) (-transp k 0 (c • e) u) ≠ 0 := by
    rw [C105.expmap_arm hn15, harm, C105.line k c b hee]
    intro h0
    have h1 := congrArg nrm h0
    rw [nrm_smul, hen, mul_one, nrm_zero, abs_eq_zero] at h1
    rcases mul_eq_zero.1 h1 with h | h
    · exact (inv_pos.2 (lt_max_of_lt_right (by norm_num))).ne' h
    · exact hne h
  intro hG
  have h1 := congrArg Prod.fst hG
  have hm : move (stereographicExact η dt k) 1 0 u = (c • e, transp k 0 (c • e) u) := by
    simp only [move, stereographicExact, M.expmapTransp, M.expmap, withProject, if_true, one_smul, hexp, hcp]
  rw [hm] at h1
  simp only [move, stereographicExact, M.expmapTransp, M.expmap, withProject, if_true, one_smul] at h1
  obtain ⟨d, d0, -, hd⟩ := C02_projx_rescales (k := k) hη dt
    (expmap η k (c • e) (-transp k 0 (c • e) u))
  have hd' : project η dt k (expmap η k (c • e) (-transp k 0 (c • e) u)) =
    d • expmap η k (c • e) (-transp k 0 (c • e) u) := hd
  rw [hd', smul_eq_zero] at h1
  rcases h1 with h | h
  · exact d0.ne' h
  · exact hback h

end Geoopt.Stereo

namespace Geoopt.C105
open Geoopt Geoopt.Reversible Geoopt.Optim

/-! ## Products, scaled manifolds and batches -/

/-- A product retraces a step if every component does. -/
theorem C105_product {J : Type} {ι : J → Type} (Ms : ∀ j, Manifold (ι j)) (ε : ℝ) (x r : (Σ j, ι j) → ℝ) :
    GoesBack (product Ms) ε x r ↔ ∀ j, GoesBack (Ms j) ε (fun i => x ⟨j, i⟩) (fun i => r ⟨j, i⟩) := by
  constructor
  · intro h j
    have h1 := congrArg Prod.fst h
    have h2 := congrArg Prod.snd h
    refine Prod.ext ?_ ?_
    · funext i; exact congrFun h1 ⟨j, i⟩
    · funext i; exact congrFun h2 ⟨j, i⟩
  · intro h
    refine Prod.ext ?_ ?_
    · funext ⟨j, i⟩; exact congrFun (congrArg Prod.fst (h j)) i
    · funext ⟨j, i⟩; exact congrFun (congrArg Prod.snd (h j)) i

/-- `Scaled(M, s)` retraces a step of time `ε` exactly when `M` retraces the step of time `ε / s`. -/
theorem C105_scaled {ι : Type} (M : Manifold ι) (inner : (ι → ℝ) → (ι → ℝ) → ι → ℝ) (s ε : ℝ)
    (x r : ι → ℝ) : GoesBack (scaled M inner s) ε x r ↔ GoesBack M (ε / s) x r := by
  have : ∀ x r, move (scaled M inner s) ε x r = move M (ε / s) x r := by
    intro x r
    simp only [move, scaled, smul_smul]
    rw [div_eq_mul_inv, mul_comm]
  rw [GoesBack, GoesBack, this, this]

/-- A batch retraces a step if every element does. -/
theorem C105_batch {β ι : Type} (M : Manifold ι) (ε : ℝ) (x r : β × ι → ℝ) :
    GoesBack (batch β M) ε x r ↔ ∀ b, GoesBack M ε (fun i => x (b, i)) (fun i => r (b, i)) := by
  constructor
  · intro h b
    have h1 := congrArg Prod.fst h
    have h2 := congrArg Prod.snd h
    refine Prod.ext ?_ ?_
    · funext i; exact congrFun h1 (b, i)
    · funext i; exact congrFun h2 (b, i)
  · intro h
    refine Prod.ext ?_ ?_
    · funext ⟨b, i⟩; exact congrFun (congrArg Prod.fst (h b)) i
    · funext ⟨b, i⟩; exact congrFun (congrArg Prod.snd (h b)) i

/-! ## The declarations -/

/-- The classes that declare a reversible retraction are the five treated above. -/
theorem C105_declared (c : Interface.Cls) : Interface.reversibleAttr c = some true ↔
    c = .euclidean ∨ c = .canonicalStiefel ∨ c = .stereographicExact ∨ c = .poincareBallExact ∨
      c = .sphereProjectionExact := by
  cases c <;> simp [Interface.reversibleAttr]

/-- `SphereExact` is rightly not among them: a quarter turn cannot be retraced, because the velocity is
carried along by an orthogonal projection. -/
theorem C105_sphere_exact_not_reversible (dt : DType) :
    ¬ GoesBack (sphereExact (n := 2) none dt) 1 ![1, 0] ![0, Real.pi / 2] := by
  have hpi := Real.pi_gt_three
  have hpi0 := Real.pi_ne_zero
  have hn : nrm (![0, Real.pi / 2] : Vec 2) = Real.pi / 2 :=
    nrm_eq_of_dot_eq (by positivity) (by simp [dotProduct, Fin.sum_univ_two]; ring)
  have heps : Sphere.eps dt < Real.pi / 2 := by cases dt <;> norm_num [Sphere.eps] <;> linarith
  have he : Sphere.Exact.retr none dt ![1, 0] ![0, Real.pi / 2] = ![0, 1] := by
    simp only [Sphere.Exact.retr, Sphere.expmap, hn, if_pos heps]
    rw [Real.cos_pi_div_two, Real.sin_pi_div_two]
    ext i
    fin_cases i
    · simp
    · simp [hpi0]
  have hm : move (sphereExact (n := 2) none dt) 1 ![1, 0] ![0, Real.pi / 2] = (![0, 1], 0) := by
    simp only [move, sphereExact, one_smul, he, Sphere.transp, Sphere.proju, Sphere.projectOnSubspace]
    refine Prod.ext rfl ?_
    ext i
    fin_cases i <;> simp [dotProduct, Fin.sum_univ_two]
  intro h
  rw [GoesBack, hm] at h
  have h1 := congrArg Prod.fst h
  have hz : Sphere.Exact.retr none dt ![0, 1] (0 : Vec 2) = ![0, 1] := by
    have hn1 : nrm (![0, 1] : Vec 2) = 1 :=
      nrm_eq_of_dot_eq (by norm_num) (by simp [dotProduct, Fin.sum_univ_two])
    have : ¬ (nrm (0 : Vec 2) > Sphere.eps dt) := by
      rw [nrm_zero]
      cases dt <;> norm_num [Sphere.eps]
    simp only [Sphere.Exact.retr, Sphere.expmap, if_neg this, Sphere.projx, Sphere.projectOnSubspace,
      add_zero, hn1, inv_one, one_smul]
  simp only [move, sphereExact, one_smul, neg_zero, hz] at h1
  have := congrFun h1 0
  simp at this

open Stereo in
/-- The end of a step from the origin of the ball of curvature `-1`. -/
theorem step_end {t : ℝ} (ht : 0 < t) (ht15 : 1e-15 ≤ t) (dt : DType) :
    ∃ c, 1 ≤ c ∧ c ≤ 1.1 ∧ c = kSqrt codeEta (-1) ∧
      nrm (M.expmap false codeEta dt (-1) 0 ![t, 0] : Vec 2) = c⁻¹ * tanhC (t * c) := by
  have hn : nrm (![t, 0] : Vec 2) = t := nrm_eq_of_dot_eq ht.le (by simp [dotProduct, sq])
  have h2 := kSqrt_sq codeEta_nonneg (-1)
  have h0 := kSqrt_pos codeEta_nonneg (by norm_num : (-1:ℝ) ≠ 0)
  have he : codeEta = 1e-15 := rfl
  rw [he] at h2
  rw [he] at h0
  norm_num at h2 h0
  refine ⟨kSqrt codeEta (-1), ?_, ?_, rfl, ?_⟩
  · rw [he]; norm_num; nlinarith
  · rw [he]; norm_num; nlinarith
  · have l0 : lambdaX (-1) (0 : Vec 2) = 2 := by
      rw [lambdaX, dotProduct_zero, mul_zero, add_zero, max_eq_left (by norm_num)]; norm_num
    have e1 : M.expmap false codeEta dt (-1) 0 ![t, 0] = Stereo.expmap codeEta (-1) 0 (![t, 0] : Vec 2) := rfl
    rw [e1, Stereo.C105.expmap_arm (by rw [hn]; exact ht15), C03_zero_add, Stereo.C105.arm, nrm_smul, nrm_smul, hn,
      abs_of_pos (inv_pos.2 ht), inv_mul_cancel₀ ht.ne', mul_one, l0, div_self two_ne_zero, one_mul,
      tanK_neg_curv (by norm_num), abs_of_nonneg]
    exact mul_nonneg (inv_nonneg.2 (Real.sqrt_nonneg _)) (tanhC_nonneg (mul_nonneg ht.le (Real.sqrt_nonneg _)))

/-- A step in the exact ball of curvature `-1` that can be retraced, -/
example : GoesBack (stereographicExact Stereo.codeEta .f64 (-1)) 0.5 (0 : Vec 2) ![1, 0] := by
  have hu : (0.5 : ℝ) • (![1, 0] : Vec 2) = ![0.5, 0] := by
    ext i; fin_cases i <;> norm_num
  refine Stereo.C105_poincare_exact_partial Stereo.codeEta_nonneg (by norm_num [Stereo.codeEta])
    (by norm_num) (by norm_num) .f64 ?_ ?_ (Or.inr ?_)
  · rw [Stereo.Valid, nrm_zero]
    positivity
  · obtain ⟨c, c1, c2, hc, h⟩ := step_end (t := 0.5) (by norm_num) (by norm_num) .f64
    rw [hu, Stereo.valid_iff (by norm_num), h, Stereo.maxNorm_neg (by norm_num), ← hc, div_eq_mul_inv, mul_comm]
    refine mul_le_mul_of_nonneg_right ?_ (inv_nonneg.2 (by linarith))
    rw [Stereo.tanhC_eq (by norm_num; linarith) (by norm_num at *; linarith)]
    have := NearFlat.tanh_lt_self (y := 0.5 * c) (by norm_num; linarith)
    norm_num [Stereo.projEps] at *
    linarith
  · rw [nrm_eq_of_dot_eq (a := 0.5) (by norm_num) (by norm_num [dotProduct, Fin.sum_univ_two])]
    norm_num

/-- and one that cannot: it ends beyond the accepted points. -/
example : ¬ GoesBack (stereographicExact Stereo.codeEta .f32 (-1)) 1 (0 : Vec 2) ![10, 0] := by
  have hn : nrm (![10, 0] : Vec 2) = 10 :=
    nrm_eq_of_dot_eq (by norm_num) (by norm_num [dotProduct, Fin.sum_univ_two])
  refine Stereo.C105_counterexample_poincare_exact Stereo.codeEta_nonneg (by norm_num) .f32
    (by rw [hn]; norm_num) ?_
  obtain ⟨c, c1, c2, hc, h⟩ := step_end (t := 10) (by norm_num) (by norm_num) .f32
  rw [Stereo.valid_iff (by norm_num), h, Stereo.maxNorm_neg (by norm_num), ← hc, div_eq_mul_inv, mul_comm, not_le]
  refine mul_lt_mul_of_pos_right ?_ (inv_pos.2 (by linarith))
  rw [Stereo.tanhC_eq (by linarith) (by norm_num at *; linarith), Real.tanh_eq_sinh_div_cosh, lt_div_iff₀ (Real.cosh_pos _),
    Real.sinh_eq, Real.cosh_eq, Real.exp_neg]
  have h1 : 36 ≤ Real.exp (10 * c) := by
    have := Real.add_one_le_exp (5 * c)
    rw [show 10 * c = 5 * c + 5 * c by ring, Real.exp_add]
    nlinarith
  have h2 : (Real.exp (10 * c))⁻¹ ≤ 36⁻¹ := inv_anti₀ (by norm_num) h1
  norm_num [Stereo.projEps] at *
  linarith

end Geoopt.C105
