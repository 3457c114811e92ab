import Verif.Props.C106

/-!
# C106 – a geodesic can be walked in several legs: stereographic projections of spheres
-/

namespace Geoopt.Stereo
open Geoopt Geoopt.Flow
variable {n : ℕ}

lemma C106.tanK_eq_pos {η k a : ℝ} (hk : 1e-8 < k) (h : |a * kSqrt η k| < Real.pi / 2) :
    tanK η k a = (kSqrt η k)⁻¹ * Real.tan (a * kSqrt η k) := by
  rw [tanK_pos_curv hk, min_eq_left]
  exact (abs_lt.1 h).2.le.trans pi_half_lt.le

lemma C106.tanK_neg_pos {η k a : ℝ} (hk : 1e-8 < k) (h : |a * kSqrt η k| < Real.pi / 2) :
    tanK η k (-a) = -tanK η k a := by
  rw [C106.tanK_eq_pos hk h, C106.tanK_eq_pos hk (by rw [neg_mul, abs_neg]; exact h), neg_mul,
    Real.tan_neg, mul_neg]

/-- The exponential map along multiples of a vector, signs included. -/
lemma C106.expmap_line_pos {η k c : ℝ} (hk : 1e-8 < k) {x u : Vec n} (hu : 0 < nrm u)
    (hc : c = 0 ∨ 1e-15 ≤ |c| * nrm u)
    (hb : |c * (lambdaX k x / 2 * nrm u) * kSqrt η k| < Real.pi / 2) :
    expmap η k x (c • u) =
      mobiusAdd k x (tanK η k (c * (lambdaX k x / 2 * nrm u)) • ((nrm u)⁻¹ • u)) := by
  rcases hc with rfl | hc
  · rw [zero_smul, expmap_zero, zero_mul, tanK_zero, zero_smul, C03_add_zero]
  · have hn : nrm (c • u) = |c| * nrm u := nrm_smul c u
    have hc0 : c ≠ 0 := by
      rintro rfl
      norm_num at hc
    rw [C105.expmap_arm (by rw [hn]; exact hc), C105.arm, hn]
    congr 1
    rw [smul_smul, smul_smul, smul_smul]
    congr 1
    rcases abs_cases c with ⟨e, _⟩ | ⟨e, _⟩
    · rw [e, show lambdaX k x / 2 * (c * nrm u) = c * (lambdaX k x / 2 * nrm u) by ring]
      field_simp
    · rw [e, show lambdaX k x / 2 * (-c * nrm u) = -(c * (lambdaX k x / 2 * nrm u)) by ring,
        C106.tanK_neg_pos hk hb]
      field_simp

/-- The tangent of a sum, computed by the code with the regularised curvature `k + η`. -/
lemma C106.tanK_add_pos {η k p q : ℝ} (hη : 0 ≤ η) (hk : 1e-8 < k) (hp : |p * kSqrt η k| < Real.pi / 2)
    (hq : |q * kSqrt η k| < Real.pi / 2) (hpq : |(p + q) * kSqrt η k| < Real.pi / 2) :
    1 - (k + η) * tanK η k p * tanK η k q =
      Real.cos ((p + q) * kSqrt η k) / (Real.cos (p * kSqrt η k) * Real.cos (q * kSqrt η k)) ∧
    1 - (k + η) * tanK η k p * tanK η k q ≠ 0 ∧
    tanK η k (p + q) = (tanK η k p + tanK η k q) / (1 - (k + η) * tanK η k p * tanK η k q) := by
  have hk0 : 0 < k := lt_trans (by norm_num) hk
  have hσ : 0 < kSqrt η k := kSqrt_pos hη hk0.ne'
  have hσ2 : kSqrt η k ^ 2 = k + η := by rw [kSqrt_sq hη, abs_of_pos hk0]
  rw [C106.tanK_eq_pos hk hp, C106.tanK_eq_pos hk hq, C106.tanK_eq_pos hk hpq, ← hσ2]
  replace hp := (Real.cos_pos_of_mem_Ioo ⟨(abs_lt.1 hp).1, (abs_lt.1 hp).2⟩).ne'
  replace hq := (Real.cos_pos_of_mem_Ioo ⟨(abs_lt.1 hq).1, (abs_lt.1 hq).2⟩).ne'
  replace hpq := (Real.cos_pos_of_mem_Ioo ⟨(abs_lt.1 hpq).1, (abs_lt.1 hpq).2⟩).ne'
  generalize kSqrt η k = σ at *
  rw [add_mul, Real.cos_add] at hpq
  simp only [add_mul, Real.tan_eq_sin_div_cos, Real.sin_add, Real.cos_add]
  generalize Real.sin (p * σ) = A at *
  generalize Real.sin (q * σ) = B at *
  generalize Real.cos (p * σ) = C at *
  generalize Real.cos (q * σ) = D at *
  have e1 : 1 - σ ^ 2 * (σ⁻¹ * (A / C)) * (σ⁻¹ * (B / D)) = (C * D - A * B) / (C * D) := by
    field_simp
  rw [e1]
  refine ⟨rfl, div_ne_zero hpq (mul_ne_zero hp hq), ?_⟩
  field_simp

/-- Where two legs lead on the projected sphere: the two half lengths are added with the curvature `k`. -/
lemma C106.two_legs_pos {η k : ℝ} (hk : 1e-8 < k) {x u : Vec n} {s t : ℝ}
    (hs : 1e-15 ≤ |s| * nrm u) {a b : ℝ}
    (ha : a = tanK η k (s * (lambdaX k x / 2 * nrm u)))
    (hb : b = tanK η k (t * (lambdaX k x / 2 * nrm u))) (ha0 : a ≠ 0) (hab : 1 - k * a * b ≠ 0)
    {y : Vec n} (hyd : y = expmap η k x (s • u))
    (h1 : 1e-15 ≤ mobDenom k x (a • ((nrm u)⁻¹ • u))) (h2 : 1e-15 ≤ mobDenom k y (-x))
    (h3 : 1e-15 ≤ mobDenom k x (((a + b) / (1 - k * a * b)) • ((nrm u)⁻¹ • u)))
    (h4 : 1e-15 ≤ mobDenom k y (b • gyration k y (-x) ((nrm u)⁻¹ • u)))
    (ht : 1e-15 ≤ |t| * nrm (transp k x y u))
    (bs : |s * (lambdaX k x / 2 * nrm u) * kSqrt η k| < Real.pi / 2)
    (bt : |t * (lambdaX k x / 2 * nrm u) * kSqrt η k| < Real.pi / 2) :
    expmap η k y (t • transp k x y u) =
      mobiusAdd k x (((a + b) / (1 - k * a * b)) • ((nrm u)⁻¹ • u)) := by
  have hk0 : 0 < k := lt_trans (by norm_num) hk
  have e15 : (0 : ℝ) < 1e-15 := by norm_num
  have hup : 0 < nrm u := by
    rcases (nrm_nonneg u).eq_or_lt with h | h
    · rw [← h, mul_zero] at hs; norm_num at hs
    · exact h
  have hlx := lambdaX_pos' k x
  obtain ⟨e, he⟩ : ∃ e, e = (nrm u)⁻¹ • u := ⟨_, rfl⟩
  have hne : nrm e = 1 := by
    rw [he, nrm_smul, abs_of_pos (inv_pos.2 hup), inv_mul_cancel₀ hup.ne']
  have hee : e ⬝ᵥ e = 1 := by rw [← nrm_sq, hne]; norm_num
  have hexp := C106.expmap_line_pos (η := η) (x := x) hk hup (Or.inr hs) bs
  rw [← ha, ← he] at hexp
  rw [← he] at h1 h3 h4
  have hDp : 0 < mobDenom k x (a • e) := lt_of_lt_of_le e15 h1
  rw [← hyd, mobiusAdd_eq h1] at hexp
  have hxne : 1 + k * (x ⬝ᵥ x) ≠ 0 := by have := dot_self_nonneg x; positivity
  -- the two gyrations agree on the line
  have hdne : mobDenom k y (-x) ≠ 0 := (lt_of_lt_of_le e15 h2).ne'
  have hcancel : mAdd k (-x) y = a • e := by rw [hexp]; exact mAdd_left_cancel hDp.ne' hxne
  have hg1 : mGyr k y (-x) (a • e) = mAdd k y (-x) := by
    have := mGyr_comm hdne
    rwa [hcancel] at this
  have hzero : mAdd k (a • e) (-(a • e)) = 0 := by
    unfold mAdd; dots
    funext i
    simp only [Pi.smul_apply, Pi.add_apply, smul_eq_mul, Pi.neg_apply, Pi.zero_apply]
    ring
  have hDaa : mobDenom k (a • e) (-(a • e)) ≠ 0 := by
    have e2 : mobDenom k (a • e) (-(a • e)) = (1 + k * a ^ 2) ^ 2 := by
      unfold mobDenom; dots; rw [hee]; ring
    rw [e2]; positivity
  have hden0 : den3 k x (a • e) (-(a • e)) ≠ 0 := by
    have h := den3_left (k := k) (u := x) hDaa
    rw [hzero] at h
    intro h0
    rw [h0, zero_div] at h
    unfold mobDenom at h
    simp at h
  have hgn : mGyr k x (a • e) (-(a • e)) = -mGyr k x (a • e) (a • e) := by
    unfold mGyr; dots
    funext i
    simp only [Pi.smul_apply, Pi.add_apply, smul_eq_mul, Pi.neg_apply]
    ring
  have hg2 : mGyr k x (a • e) (a • e) = mAdd k y (-x) := by
    have h := mAdd_assoc (k := k) (u := x) (v := a • e) (w := -(a • e)) hDp.ne' hDaa hden0
    have hx0 : mAdd k x 0 = x := by
      unfold mAdd mobDenom
      funext i
      simp
    rw [hzero, hx0, hgn, ← hexp] at h
    have hgn0 : mobDenom k y (-mGyr k x (a • e) (a • e)) ≠ 0 := by
      rw [← hgn, hexp, den3_right hDp.ne']
      exact div_ne_zero hden0 hDp.ne'
    have hyne : 1 + k * (y ⬝ᵥ y) ≠ 0 := by have := dot_self_nonneg y; positivity
    have h5 := mAdd_left_cancel hgn0 hyne
    rw [← h] at h5
    have hneg : ∀ p q : Vec n, mAdd k p (-q) = -mAdd k (-p) q := by
      intro p q
      have e3 : mobDenom k (-p) q = mobDenom k p (-q) := by
        unfold mobDenom; dots; ring
      unfold mAdd
      rw [e3]; dots
      funext i
      simp only [Pi.smul_apply, Pi.add_apply, smul_eq_mul, Pi.neg_apply]
      ring
    rw [hneg, h5, neg_neg]
  have lin : ∀ (c : ℝ) (p q : Vec n), mGyr k p q (c • e) = c • mGyr k p q e := by
    intro c p q
    unfold mGyr; dots
    funext i
    simp only [Pi.smul_apply, Pi.add_apply, smul_eq_mul]
    ring
  have hge : mGyr k y (-x) e = mGyr k x (a • e) e := by
    have h := hg1.trans hg2.symm
    rw [lin, lin] at h
    have h' := congrArg (fun v => a⁻¹ • v) h
    simpa [smul_smul, inv_mul_cancel₀ ha0] using h'
  -- the second leg
  have hly := lambdaX_pos' k y
  have hnv := C105.nrm_transp h2 u
  have hvp : 0 < nrm (transp k x y u) := by rw [hnv]; positivity
  have el : t * (lambdaX k y / 2 * (lambdaX k x / lambdaX k y * nrm u)) =
      t * (lambdaX k x / 2 * nrm u) := by field_simp
  rw [C106.expmap_line_pos hk hvp (Or.inr ht) (by rw [hnv, el]; exact bt), hnv]
  have ev : (lambdaX k x / lambdaX k y * nrm u)⁻¹ • transp k x y u = gyration k y (-x) e := by
    rw [he, C105.gyr_smul, transp, smul_smul]
    congr 1
    field_simp
  rw [el, ev, ← hb, mobiusAdd_eq h4, gyration_eq h2, hge, ← lin, ← he, mobiusAdd_eq h3]
  rw [gyration_eq h2, hge, ← lin] at h4
  have hDab : mobDenom k (a • e) (b • e) ≠ 0 := by
    have e2 : mobDenom k (a • e) (b • e) = (1 - k * a * b) ^ 2 := by
      unfold mobDenom; dots; rw [hee]; ring
    rw [e2]; exact pow_ne_zero 2 hab
  have h3n : den3 k x (a • e) (b • e) ≠ 0 := by
    intro h0
    rw [hexp, den3_right hDp.ne', h0, zero_div] at h4
    exact absurd h4 (by norm_num)
  rw [← mAdd_collinear hee hab, hexp]
  exact (mAdd_assoc hDp.ne' hDab h3n).symm

/-- The projected sphere without the regulariser of the curvature: the second leg continues the first, as
long as no leg reaches half way round the sphere and no point comes so close to the projection point (at
infinity) that a floor or the projection of the library acts. -/
theorem C106_projected_sphere_partial {k : ℝ} (hk : 1e-8 < k) {dt : DType} {x u : Vec n} {s t : ℝ}
    (hc : ∀ c ∈ [s, t, s + t], |c| * (lambdaX k x / 2 * nrm u) * Real.sqrt k < Real.pi / 2)
    (hs : s = 0 ∨ 1e-15 ≤ |s| * nrm u) (hst : s + t = 0 ∨ 1e-15 ≤ |s + t| * nrm u)
    {y z : Vec n} (hy : y = expmap 0 k x (s • u)) (hz : z = expmap 0 k x ((s + t) • u))
    (ht : t = 0 ∨ 1e-15 ≤ |t| * nrm (transp k x y u))
    (hyn : nrm y ≤ 1e15) (hzn : nrm z ≤ 1e15)
    (h1 : ∀ c ∈ [s, s + t],
      1e-15 ≤ mobDenom k x (tanK 0 k (c * (lambdaX k x / 2 * nrm u)) • ((nrm u)⁻¹ • u)))
    (h2 : 1e-15 ≤ mobDenom k y (-x))
    (h4 : 1e-15 ≤ mobDenom k y
      (tanK 0 k (t * (lambdaX k x / 2 * nrm u)) • gyration k y (-x) ((nrm u)⁻¹ • u))) :
    TwoLegs (M.expmap true 0 dt k) (M.transpFollowExpmap true 0 dt k) x u s t := by
  have hk0 : 0 < k := lt_trans (by norm_num) hk
  have fix : ∀ w : Vec n, nrm w ≤ 1e15 → project 0 dt k w = w := fun w hw => by
    have hm : maxNorm 0 dt k = 1e15 := if_neg hk0.le.not_gt
    unfold project
    rw [hm]
    exact if_neg (not_lt.2 (max_le hw (by norm_num)))
  unfold TwoLegs
  simp only [M.expmap, M.transpFollowExpmap, withProject, if_true]
  rw [← hy, ← hz, fix y hyn, fix z hzn]
  rcases hs with rfl | hs
  · rw [zero_smul, expmap_zero] at hy
    rw [hy, C09_transport_self, hz, zero_add]
    rw [zero_add] at hz
    rw [← hz]
    exact fix z hzn
  rcases ht with rfl | ht
  · rw [zero_smul, expmap_zero, hz, add_zero, ← hy]
    exact fix y hyn
  have hup : 0 < nrm u := by
    rcases (nrm_nonneg u).eq_or_lt with h | h
    · rw [← h, mul_zero] at hs; norm_num at hs
    · exact h
  have hl := lambdaX_pos' k x
  have hℓ : 0 < lambdaX k x / 2 * nrm u := by positivity
  have hσ : 0 < Real.sqrt k := Real.sqrt_pos.2 hk0
  have eσ : kSqrt 0 k = Real.sqrt k := by rw [kSqrt_eq, abs_of_pos hk0, add_zero]
  have hb : ∀ c ∈ [s, t, s + t], |c * (lambdaX k x / 2 * nrm u) * kSqrt 0 k| < Real.pi / 2 := by
    intro c h
    rw [eσ, abs_mul, abs_mul, abs_of_pos hσ, abs_of_pos hℓ]
    exact hc c h
  have hadd := C106.tanK_add_pos le_rfl hk (hb s (by simp)) (hb t (by simp))
    (by rw [← add_mul]; exact hb (s + t) (by simp))
  rw [← add_mul, add_zero] at hadd
  replace hadd := hadd.2
  have ha0 : tanK 0 k (s * (lambdaX k x / 2 * nrm u)) ≠ 0 := by
    have hs0 : s ≠ 0 := by rintro rfl; norm_num at hs
    have h' := hb s (by simp)
    rw [C106.tanK_eq_pos hk h']
    rw [abs_lt] at h'
    have hσ' : kSqrt 0 k ≠ 0 := by rw [eσ]; exact hσ.ne'
    refine mul_ne_zero (inv_ne_zero hσ') ?_
    rw [Real.tan_eq_sin_div_cos]
    refine div_ne_zero (fun h => ?_) (Real.cos_pos_of_mem_Ioo ⟨h'.1, h'.2⟩).ne'
    have := (Real.sin_eq_zero_iff_of_lt_of_lt (by linarith [Real.pi_pos]) (by linarith [Real.pi_pos])).1 h
    exact mul_ne_zero (mul_ne_zero hs0 hℓ.ne') hσ' this
  rw [C106.two_legs_pos hk hs rfl rfl ha0 hadd.1 hy (h1 s (by simp)) h2
    (by rw [← hadd.2]; exact h1 (s + t) (by simp)) h4 ht (hb s (by simp)) (hb t (by simp)), ← hadd.2,
    ← C106.expmap_line_pos hk hup hst (hb (s + t) (by simp)), ← hz]
  exact fix z hzn

/-- With the regulariser of the code (any `η > 0`) it is false: from the origin, two legs in the same
direction always stay behind one. -/
theorem C106_counterexample_projected_sphere {η k : ℝ} (hη : 0 < η) (hk : 1e-8 < k)
    {u : Vec n} {s t : ℝ} (hs0 : 0 < s) (ht0 : 0 < t)
    (hs : 1e-15 ≤ s * nrm u) (ht : 1e-15 ≤ t * nrm u)
    (hr : (s + t) * nrm u * Real.sqrt (k + η) ≤ Real.pi / 4) :
    nrm (expmap η k (expmap η k 0 (s • u)) (t • transp k 0 (expmap η k 0 (s • u)) u)) <
      nrm (expmap η k 0 ((s + t) • u)) := by
  have hk0 : 0 < k := lt_trans (by norm_num) hk
  have hpi := Real.pi_pos
  have hup : 0 < nrm u := by
    rcases (nrm_nonneg u).eq_or_lt with h | h
    · rw [← h, mul_zero] at hs; norm_num at hs
    · exact h
  have hl : lambdaX k (0 : Vec n) = 2 := by
    rw [lambdaX, dotProduct_zero, mul_zero, add_zero, max_eq_left (by norm_num)]; norm_num
  have hσ := kSqrt_pos hη.le hk0.ne'
  have hrange : ∀ c, 0 < c → c ≤ s + t → 0 < c * nrm u * kSqrt η k ∧ c * nrm u * kSqrt η k ≤ Real.pi / 4 := by
    intro c h0 h1
    refine ⟨mul_pos (mul_pos h0 hup) hσ, le_trans ?_ hr⟩
    rw [kSqrt_eq, abs_of_pos hk0]
    exact mul_le_mul_of_nonneg_right (mul_le_mul_of_nonneg_right h1 hup.le) (Real.sqrt_nonneg _)
  have habs : ∀ c, 0 < c → c ≤ s + t → |c * nrm u * kSqrt η k| < Real.pi / 2 := by
    intro c h0 h1
    obtain ⟨h2, h3⟩ := hrange c h0 h1
    rw [abs_of_pos h2]; linarith
  obtain ⟨a, ha⟩ : ∃ a, a = tanK η k (s * nrm u) := ⟨_, rfl⟩
  obtain ⟨b, hb⟩ : ∃ b, b = tanK η k (t * nrm u) := ⟨_, rfl⟩
  have pos : ∀ c, 0 < c → c ≤ s + t → 0 < tanK η k (c * nrm u) := by
    intro c h0 h1
    obtain ⟨h2, h3⟩ := hrange c h0 h1
    rw [C106.tanK_eq_pos hk (habs c h0 h1)]
    exact mul_pos (inv_pos.2 hσ) (Real.tan_pos_of_pos_of_lt_pi_div_two h2 (by linarith))
  have ha0 : 0 < a := by rw [ha]; exact pos s hs0 (by linarith)
  have hb0 : 0 < b := by rw [hb]; exact pos t ht0 (by linarith)
  have hadd := C106.tanK_add_pos hη.le hk (habs s hs0 (by linarith)) (habs t ht0 (by linarith))
    (by rw [← add_mul]; exact habs (s + t) (by linarith) le_rfl)
  rw [← add_mul, ← ha, ← hb] at hadd
  obtain ⟨c1, -, c3⟩ := hadd
  have hab : 0 < a * b := mul_pos ha0 hb0
  have hgap : 1 / 2 ≤ 1 - (k + η) * a * b := by
    rw [c1]
    have cp := hrange s hs0 (by linarith)
    have cq := hrange t ht0 (by linarith)
    have cpq := hrange (s + t) (by linarith) le_rfl
    have p1 : 0 < Real.cos (s * nrm u * kSqrt η k) := Real.cos_pos_of_mem_Ioo ⟨by linarith, by linarith⟩
    have p2 : 0 < Real.cos (t * nrm u * kSqrt η k) := Real.cos_pos_of_mem_Ioo ⟨by linarith, by linarith⟩
    have p3 : 1 / 2 ≤ Real.cos ((s + t) * nrm u * kSqrt η k) := by
      rw [← Real.cos_pi_div_three]
      exact Real.cos_le_cos_of_nonneg_of_le_pi cpq.1.le (by linarith) (by linarith)
    rw [le_div_iff₀ (mul_pos p1 p2)]
    have l1 := Real.cos_le_one (s * nrm u * kSqrt η k)
    have l2 := Real.cos_le_one (t * nrm u * kSqrt η k)
    nlinarith [mul_le_one₀ l1 p2.le l2]
  have hd : 1 - (k + η) * a * b < 1 - k * a * b := by nlinarith [mul_pos hη hab]
  have hden : ∀ w : Vec n, mobDenom k 0 w = 1 := fun w => by simp [mobDenom]
  have hden' : ∀ w : Vec n, mobDenom k w (-0) = 1 := fun w => by simp [mobDenom]
  have hunit : nrm ((nrm u)⁻¹ • u) = 1 := by
    rw [nrm_smul, abs_of_pos (inv_pos.2 hup), inv_mul_cancel₀ hup.ne']
  have hee : ((nrm u)⁻¹ • u) ⬝ᵥ ((nrm u)⁻¹ • u) = 1 := by rw [← nrm_sq, hunit]; norm_num
  have hlen : ∀ c : ℝ, nrm (c • ((nrm u)⁻¹ • u)) = |c| := fun c => by rw [nrm_smul, hunit, mul_one]
  have es : ∀ c : ℝ, c * (lambdaX k (0 : Vec n) / 2 * nrm u) = c * nrm u := fun c => by rw [hl]; ring
  have hy : expmap η k 0 (s • u) = a • ((nrm u)⁻¹ • u) := by
    rw [C106.expmap_line_pos hk hup (Or.inr (by rw [abs_of_pos hs0]; exact hs))
      (by rw [es]; exact habs s hs0 (by linarith)), es, ← ha, C03_zero_add]
  have hg : ∀ y w : Vec n, gyration k y (-0) w = w := fun y w => by
    rw [gyration_eq (by rw [hden']; norm_num)]
    funext i
    simp [mGyr, mobDenom]
  obtain ⟨y, hyd⟩ : ∃ y, y = expmap η k 0 (s • u) := ⟨_, rfl⟩
  rw [← hyd]
  rw [C106.two_legs_pos hk (x := 0) (by rw [abs_of_pos hs0]; exact hs) (a := a) (b := b)
    (by rw [es, ha]) (by rw [es, hb]) ha0.ne' (by linarith) hyd
    (by rw [hden]; norm_num) (by rw [hden']; norm_num) (by rw [hden]; norm_num) ?_ ?_
    (by rw [es]; exact habs s hs0 (by linarith)) (by rw [es]; exact habs t ht0 (by linarith)),
    C106.expmap_line_pos hk hup (Or.inr ?_) (by rw [es]; exact habs (s + t) (by linarith) le_rfl), es, c3,
    C03_zero_add, C03_zero_add, hlen, hlen,
    abs_of_pos (div_pos (by linarith) (by linarith)), abs_of_pos (div_pos (by linarith) (by linarith))]
  · exact div_lt_div_of_pos_left (by linarith) (by linarith) hd
  · rw [abs_of_pos (by linarith)]
    exact hs.trans (mul_le_mul_of_nonneg_right (by linarith) hup.le)
  · rw [hg, hyd, hy]
    have : mobDenom k (a • ((nrm u)⁻¹ • u)) (b • ((nrm u)⁻¹ • u)) = (1 - k * a * b) ^ 2 := by
      generalize (nrm u)⁻¹ • u = e at *
      unfold mobDenom; dots; rw [hee]; ring
    rw [this]
    calc (1e-15 : ℝ) ≤ (1 / 2) ^ 2 := by norm_num
      _ ≤ _ := pow_le_pow_left₀ (by norm_num) (by linarith) 2
  · rw [C105.nrm_transp (by rw [hden']; norm_num), hl, abs_of_pos ht0]
    have h1 : 1 ≤ 2 / lambdaX k y := by
      have := dot_self_nonneg y
      have h2 : 0 ≤ k * (y ⬝ᵥ y) := mul_nonneg hk0.le this
      unfold lambdaX
      rw [max_eq_left (by norm_num; linarith), div_div_eq_mul_div, mul_div_cancel_left₀ _ (by norm_num)]
      linarith
    calc (1e-15 : ℝ) ≤ t * nrm u := ht
      _ = t * (1 * nrm u) := by ring
      _ ≤ _ := by gcongr

/-- Two legs of length one tenth on the unit sphere, with the regulariser `1e-15` of the code. -/
example : (1e-15 : ℝ) ≤ 0.1 * nrm (fun _ => 1 : Vec 1) ∧
    (0.1 + 0.1) * nrm (fun _ => 1 : Vec 1) * Real.sqrt (1 + 1e-15) ≤ Real.pi / 4 := by
  have hn : nrm (fun _ => 1 : Vec 1) = 1 := by simp [nrm, dotProduct]
  have h2 : Real.sqrt (1 + 1e-15) ≤ 2 := Real.sqrt_le_iff.2 ⟨by norm_num, by norm_num⟩
  rw [hn]
  have := Real.pi_gt_three
  constructor
  · norm_num
  · linarith

/-- An eighth of the way round the unit sphere from the origin, and half of it back again. -/
example (dt : DType) : TwoLegs (M.expmap true 0 dt 1) (M.transpFollowExpmap true 0 dt 1)
    (0 : Vec 1) (fun _ => 1) (Real.pi / 4) (-(Real.pi / 8)) := by
  have hk : (1e-8 : ℝ) < 1 := by norm_num
  have hpi := Real.pi_pos
  have hpi3 := Real.pi_gt_three
  have hn : nrm (fun _ => 1 : Vec 1) = 1 := by simp [nrm, dotProduct]
  have hl : lambdaX 1 (0 : Vec 1) = 2 := by
    unfold lambdaX
    rw [dotProduct_zero, max_eq_left (by norm_num)]; norm_num
  have hσ : kSqrt 0 1 = 1 := by rw [kSqrt_eq]; simp
  have T : ∀ c : ℝ, |c| < Real.pi / 2 → tanK 0 1 (c * (lambdaX 1 (0 : Vec 1) / 2 * nrm (fun _ => 1 : Vec 1))) =
      Real.tan c := by
    intro c h
    rw [hl, hn, C106.tanK_eq_pos hk (by rw [hσ]; simpa using h), hσ]
    simp
  have hden : ∀ w : Vec 1, mobDenom 1 0 w = 1 := fun w => by simp [mobDenom]
  have hden' : ∀ w : Vec 1, mobDenom 1 w (-0) = 1 := fun w => by simp [mobDenom]
  have hex : ∀ c : ℝ, |c| < Real.pi / 2 → 1e-15 ≤ |c| →
      expmap 0 1 (0 : Vec 1) (c • (fun _ => 1 : Vec 1)) = fun _ => Real.tan c := by
    intro c h h'
    rw [C106.expmap_line_pos hk (by rw [hn]; norm_num) (Or.inr (by rw [hn, mul_one]; exact h'))
      (by rw [hl, hn, hσ]; simpa using h), T c h, hn, mobiusAdd_eq (by rw [hden]; norm_num)]
    funext i
    simp [mAdd, mobDenom]
  have a1 : |Real.pi / 4| = Real.pi / 4 := abs_of_pos (by positivity)
  have a2 : |-(Real.pi / 8)| = Real.pi / 8 := by rw [abs_neg, abs_of_pos (by positivity)]
  have a3 : |Real.pi / 4 + -(Real.pi / 8)| = Real.pi / 8 := by rw [abs_of_pos] <;> linarith
  have e1 := hex (Real.pi / 4) (by rw [a1]; linarith) (by rw [a1]; norm_num; linarith)
  have e3 := hex (Real.pi / 4 + -(Real.pi / 8)) (by rw [a3]; linarith) (by rw [a3]; norm_num; linarith)
  have hg : ∀ y w : Vec 1, gyration 1 y (-0) w = w := fun y w => by
    rw [gyration_eq (by rw [hden']; norm_num)]
    funext i
    simp [mGyr, mobDenom]
  have ht0 : 0 ≤ Real.tan (Real.pi / 8) :=
    Real.tan_nonneg_of_nonneg_of_le_pi_div_two (by positivity) (by linarith)
  have ht1 : Real.tan (Real.pi / 8) ≤ 1 := by
    rw [← Real.tan_pi_div_four]
    exact (Real.tan_lt_tan_of_nonneg_of_lt_pi_div_two (by positivity) (by linarith) (by linarith)).le
  refine C106_projected_sphere_partial hk ?_ (Or.inr ?_) (Or.inr ?_) rfl rfl (Or.inr ?_) ?_ ?_ ?_ ?_ ?_
  · intro c h
    rw [hl, hn, Real.sqrt_one]
    simp only [List.mem_cons, List.not_mem_nil, or_false] at h
    rcases h with rfl | rfl | rfl
    · rw [a1]; linarith
    · rw [a2]; linarith
    · rw [a3]; linarith
  · rw [a1, hn]; norm_num; linarith
  · rw [a3, hn]; norm_num; linarith
  · rw [e1, Real.tan_pi_div_four, a2]
    have : nrm (transp 1 (0 : Vec 1) (fun _ => 1) (fun _ => 1)) = 2 := by
      rw [C105.nrm_transp (by rw [hden']; norm_num), hl, hn]
      simp [lambdaX, dotProduct]
      norm_num
    rw [this]; norm_num; linarith
  · rw [e1, Real.tan_pi_div_four, hn]; norm_num
  · rw [e3, show Real.pi / 4 + -(Real.pi / 8) = Real.pi / 8 by ring]
    have : nrm (fun _ => Real.tan (Real.pi / 8) : Vec 1) = Real.tan (Real.pi / 8) := by
      simp [nrm, dotProduct, Real.sqrt_mul_self ht0]
    rw [this]; norm_num; linarith
  · intro c _; rw [hden]; norm_num
  · rw [hden']; norm_num
  · rw [hg, e1, Real.tan_pi_div_four, T _ (by rw [a2]; linarith), Real.tan_neg, hn]
    simp [mobDenom, dotProduct]
    norm_num
    nlinarith

end Geoopt.Stereo
