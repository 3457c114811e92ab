import Verif.Props.C05
import Mathlib.Tactic

/-!
# C13, continued: the scalar laws for scalars of either sign and for both signs of the curvature
-/

namespace Geoopt.Stereo
open Geoopt
variable {n : ℕ}

/-- Below the bound `1e38` at which `tan` is cut off (positive curvature only). -/
def BelowCutoff (η k t : ℝ) (x : Vec n) : Prop :=
  0 < k → |t * artanK η k (max (nrm x) 1e-15)| * Real.sqrt (|k| + η) ≤ 1e38

lemma kSqrt_eq {η : ℝ} (k : ℝ) : kSqrt η k = Real.sqrt (|k| + η) := rfl

lemma tanK_odd {η k t : ℝ} (h : 0 < k → |t| * kSqrt η k ≤ 1e38) : tanK η k (-t) = -tanK η k t := by
  unfold tanK
  split_ifs with h1 h2
  · unfold tanKTaylor; ring
  · rw [neg_mul, tanhC_neg, mul_neg]
  · have hk : 0 < k := by
      rcases lt_trichotomy k 0 with h3 | h3 | h3
      · exact absurd h3 h2
      · exact absurd (h3 ▸ kZero_zero) h1
      · exact h3
    have hb := h hk
    have hs := kSqrt_nonneg η k
    have h3 : t * kSqrt η k ≤ 1e38 := (mul_le_mul_of_nonneg_right (le_abs_self t) hs).trans hb
    have h4 : -t * kSqrt η k ≤ 1e38 := (mul_le_mul_of_nonneg_right (neg_le_abs t) hs).trans hb
    rw [min_eq_left h3, min_eq_left h4, neg_mul, Real.tan_neg, mul_neg]

/-- `(-t) ⊗ x = -(t ⊗ x)`, for every curvature, scalar and vector. -/
theorem C13_neg_smul {η k t : ℝ} {x : Vec n} (ht : BelowCutoff η k t x) :
    mobiusScalarMul η k (-t) x = -mobiusScalarMul η k t x := by
  simp only [mobiusScalarMul]
  rw [neg_mul, tanK_odd ht, neg_smul]

/-- `t ⊗ (-x) = -(t ⊗ x)`, all arguments. -/
theorem C13_smul_neg (η k t : ℝ) (x : Vec n) :
    mobiusScalarMul η k t (-x) = -mobiusScalarMul η k t x := by
  have : nrm (-x) = nrm x := by simpa using nrm_smul (-1) x
  simp [mobiusScalarMul, this]

/-- `(r s) ⊗ x = r ⊗ (s ⊗ x)` for scalars of either sign, for every curvature. -/
theorem C13_mul_smul_signed {η k r s : ℝ} (hη : 0 ≤ η) {x : Vec n} (hx : 1e-15 ≤ nrm x)
    (hs : HalfLenOk η k (|s| * artanK η k (nrm x)))
    (hsm : 1e-15 ≤ nrm (mobiusScalarMul η k s x)) (hrs : BelowCutoff η k (r * s) x)
    (hsc : BelowCutoff η k s x) :
    mobiusScalarMul η k (r * s) x = mobiusScalarMul η k r (mobiusScalarMul η k s x) := by
  rcases le_total 0 s with h0 | h0
  · exact C13_mul_smul hη hx (by rwa [abs_of_nonneg h0] at hs) hsm
  · have e := C13_neg_smul hsc
    rw [abs_of_nonpos h0] at hs
    have hsm' : 1e-15 ≤ nrm (mobiusScalarMul η k (-s) x) := by
      have : nrm (-mobiusScalarMul η k s x) = nrm (mobiusScalarMul η k s x) := by
        simpa using nrm_smul (-1) (mobiusScalarMul η k s x)
      rw [e, this]; exact hsm
    have h3 := C13_mul_smul (r := r) hη hx hs hsm'
    rw [e, C13_smul_neg, mul_neg, C13_neg_smul hrs] at h3
    exact neg_injective h3

lemma tan_add_of_cos {a b : ℝ} (c1 : Real.cos a ≠ 0) (c2 : Real.cos b ≠ 0)
    (c3 : Real.cos (a + b) ≠ 0) :
    Real.tan (a + b) = (Real.tan a + Real.tan b) / (1 - Real.tan a * Real.tan b) := by
  rw [Real.cos_add] at c3
  rw [Real.tan_eq_sin_div_cos, Real.sin_add, Real.cos_add, Real.tan_eq_sin_div_cos,
    Real.tan_eq_sin_div_cos]
  have c4 : 1 - Real.sin a / Real.cos a * (Real.sin b / Real.cos b) =
      (Real.cos a * Real.cos b - Real.sin a * Real.sin b) / (Real.cos a * Real.cos b) := by
    field_simp
  rw [c4]
  field_simp

/-- What the two sides of the distributive law are: with `r ⊗ x = a e` and `s ⊗ x = b e` for the unit
vector `e = x / ‖x‖`, the sum is computed with the curvature `k`, the multiple with the regularised
curvature `k ± η`. -/
theorem C13_add_smul_formula {η k r s : ℝ} (hη : 0 ≤ η) {x : Vec n} (hx : 1e-15 ≤ nrm x)
    (hrange : (k < -1e-8 ∧ ∀ t ∈ [r, s, r + s], |t * artanK η k (nrm x)| * Real.sqrt (|k| + η) ≤ 15) ∨
      (1e-8 < k ∧ ∀ t ∈ [r, s, r + s],
        |t * artanK η k (nrm x)| * Real.sqrt (|k| + η) < Real.pi / 2))
    (hD : 1e-15 ≤ mobDenom k (mobiusScalarMul η k r x) (mobiusScalarMul η k s x)) :
    ∃ a b : ℝ, ∃ e : Vec n, e = (nrm x)⁻¹ • x ∧ mobiusScalarMul η k r x = a • e ∧
      mobiusScalarMul η k s x = b • e ∧
      mobiusAdd k (mobiusScalarMul η k r x) (mobiusScalarMul η k s x) =
        ((a + b) / (1 - k * (a * b))) • e ∧
      mobiusScalarMul η k (r + s) x =
        ((a + b) / (1 - (k + SignType.sign k * η) * (a * b))) • e := by
  have hk0 : k ≠ 0 := by
    rintro rfl
    rcases hrange with ⟨h, _⟩ | ⟨h, _⟩ <;> norm_num at h
  have hσ := kSqrt_pos hη hk0
  have hσ2 := kSqrt_sq hη k
  have hxp : 0 < nrm x := lt_of_lt_of_le (by norm_num) hx
  rw [scalarMul_eq hx, scalarMul_eq hx, scalarMul_eq hx] at *
  have hne : nrm ((nrm x)⁻¹ • x) = 1 := nrm_unit hx
  have he : ((nrm x)⁻¹ • x) ⬝ᵥ ((nrm x)⁻¹ • x) = 1 := by
    rw [← nrm_sq, hne]; norm_num
  set A := artanK η k (nrm x) with hA
  refine ⟨tanK η k (r * A), tanK η k (s * A), (nrm x)⁻¹ • x, rfl, rfl, rfl, ?_, ?_⟩
  · rw [mobiusAdd_eq hD]
    have hm : mobDenom k (tanK η k (r * A) • (nrm x)⁻¹ • x) (tanK η k (s * A) • (nrm x)⁻¹ • x) =
        (1 - k * tanK η k (r * A) * tanK η k (s * A)) ^ 2 := by
      generalize (nrm x)⁻¹ • x = e at he
      unfold mobDenom; dots; rw [he]; ring
    rw [hm] at hD
    have h0 : 1 - k * tanK η k (r * A) * tanK η k (s * A) ≠ 0 := by
      intro h; rw [h] at hD; norm_num at hD
    rw [mAdd_collinear he h0, mul_assoc]
  · congr 1
    rcases hrange with ⟨hk, hr⟩ | ⟨hk, hr⟩
    · have hkn : k < 0 := by have := e8; linarith
      have e1 : ∀ t ∈ [r, s, r + s], tanK η k (t * A) = (kSqrt η k)⁻¹ * Real.tanh (t * A * kSqrt η k) := by
        intro t ht
        have h1 := hr t ht
        rw [← kSqrt_eq, ← abs_of_pos hσ, ← abs_mul, abs_le] at h1
        rw [tanK_neg_curv hk, tanhC_eq h1.1 h1.2]
      rw [e1 r (by simp), e1 s (by simp), e1 (r + s) (by simp), sign_neg hkn]
      set p := Real.tanh (r * A * kSqrt η k)
      set q := Real.tanh (s * A * kSqrt η k)
      have hsum : Real.tanh ((r + s) * A * kSqrt η k) = (p + q) / (1 + p * q) := by
        have : (r + s) * A * kSqrt η k = r * A * kSqrt η k + s * A * kSqrt η k := by ring
        rw [this, Real.tanh_eq_sinh_div_cosh, Real.sinh_add, Real.cosh_add]
        simp only [p, q, Real.tanh_eq_sinh_div_cosh]
        have c1 := (Real.cosh_pos (r * A * kSqrt η k)).ne'
        have c2 := (Real.cosh_pos (s * A * kSqrt η k)).ne'
        field_simp
      rw [hsum]
      rw [abs_of_neg hkn] at hσ2
      have : (1 - (k + ((-1 : SignType) : ℝ) * η) * ((kSqrt η k)⁻¹ * p * ((kSqrt η k)⁻¹ * q))) = 1 + p * q := by
        have e2 : k + ((-1 : SignType) : ℝ) * η = -(kSqrt η k ^ 2) := by rw [hσ2]; simp; ring
        rw [e2]; field_simp; ring
      rw [this]; ring
    · have hkp : 0 < k := by have := e8; linarith
      have hpi := pi_half_lt
      have e0 : ∀ t ∈ [r, s, r + s], |t * A * kSqrt η k| < Real.pi / 2 := by
        intro t ht
        have h1 := hr t ht
        rwa [← kSqrt_eq, ← abs_of_pos hσ, ← abs_mul] at h1
      have e1 : ∀ t ∈ [r, s, r + s], tanK η k (t * A) = (kSqrt η k)⁻¹ * Real.tan (t * A * kSqrt η k) := by
        intro t ht
        have h1 := abs_lt.1 (e0 t ht)
        rw [tanK_pos_curv hk, min_eq_left (by linarith [h1.2])]
      have ec : ∀ t ∈ [r, s, r + s], Real.cos (t * A * kSqrt η k) ≠ 0 := fun t ht =>
        (Real.cos_pos_of_mem_Ioo ⟨by linarith [(abs_lt.1 (e0 t ht)).1], (abs_lt.1 (e0 t ht)).2⟩).ne'
      rw [e1 r (by simp), e1 s (by simp), e1 (r + s) (by simp), sign_pos hkp]
      set p := Real.tan (r * A * kSqrt η k) with hp
      set q := Real.tan (s * A * kSqrt η k) with hq
      have hsum : Real.tan ((r + s) * A * kSqrt η k) = (p + q) / (1 - p * q) := by
        have c1 := ec r (by simp)
        have c2 := ec s (by simp)
        have c3 := ec (r + s) (by simp)
        have : (r + s) * A * kSqrt η k = r * A * kSqrt η k + s * A * kSqrt η k := by ring
        rw [this] at c3 ⊢
        exact tan_add_of_cos c1 c2 c3
      rw [hsum]
      rw [abs_of_pos hkp] at hσ2
      have : (1 - (k + ((1 : SignType) : ℝ) * η) * ((kSqrt η k)⁻¹ * p * ((kSqrt η k)⁻¹ * q))) = 1 - p * q := by
        have e2 : k + ((1 : SignType) : ℝ) * η = kSqrt η k ^ 2 := by rw [hσ2]; simp
        rw [e2]; field_simp
      rw [this]; ring

/-- The distributive law is exact without the regulariser, for scalars of either sign and curvatures of
either sign. -/
theorem C13_add_smul_exact {k r s : ℝ} {x : Vec n} (hx : 1e-15 ≤ nrm x)
    (hrange : (k < -1e-8 ∧ ∀ t ∈ [r, s, r + s], |t * artanK 0 k (nrm x)| * Real.sqrt (|k| + 0) ≤ 15) ∨
      (1e-8 < k ∧ ∀ t ∈ [r, s, r + s],
        |t * artanK 0 k (nrm x)| * Real.sqrt (|k| + 0) < Real.pi / 2))
    (hD : 1e-15 ≤ mobDenom k (mobiusScalarMul 0 k r x) (mobiusScalarMul 0 k s x)) :
    mobiusAdd k (mobiusScalarMul 0 k r x) (mobiusScalarMul 0 k s x) = mobiusScalarMul 0 k (r + s) x := by
  obtain ⟨a, b, e, -, -, -, h1, h2⟩ := C13_add_smul_formula le_rfl hx hrange hD
  rw [h1, h2, mul_zero, add_zero]

/-- In flat space the law is exact, all arguments (above the floor). -/
theorem C13_add_smul_flat (η r s : ℝ) (x : Vec n) (hx : x = 0 ∨ 1e-15 ≤ nrm x) :
    mobiusAdd 0 (mobiusScalarMul η 0 r x) (mobiusScalarMul η 0 s x) = mobiusScalarMul η 0 (r + s) x := by
  have e : ∀ t : ℝ, mobiusScalarMul η 0 t x = t • x := by
    intro t
    rcases hx with rfl | hx
    · simp [mobiusScalarMul]
    · have hxp : 0 < nrm x := lt_of_lt_of_le (by norm_num) hx
      rw [scalarMul_eq hx, tanK_zero_curv, artanK_zero_curv, smul_smul]
      congr 1; field_simp
  rw [e, e, e, add_smul]
  simp [mobiusAdd, mobDenom]
  norm_num

/-- With the regulariser of the code (any `η > 0`) the law is false: for positive scalars in range the two
sides always differ, `r ⊗ x + s ⊗ x` being the longer one in the ball. -/
theorem C13_counterexample_regulariser {η k r s : ℝ} (hη : 0 < η) (hk : k < -1e-8) (hr : 0 < r)
    (hs : 0 < s) {x : Vec n} (hx : 1e-15 ≤ nrm x)
    (hlen : (r + s) * artanK η k (nrm x) * Real.sqrt (|k| + η) ≤ 15)
    (hD : 1e-15 ≤ mobDenom k (mobiusScalarMul η k r x) (mobiusScalarMul η k s x)) :
    nrm (mobiusScalarMul η k (r + s) x) <
      nrm (mobiusAdd k (mobiusScalarMul η k r x) (mobiusScalarMul η k s x)) := by
  have hk0 : k < 0 := by have := e8; linarith
  have hxp : 0 < nrm x := lt_of_lt_of_le (by norm_num) hx
  have hσ := kSqrt_pos hη.le hk0.ne
  have hA : 0 < artanK η k (nrm x) := by
    rw [artanK_neg_curv hk]
    exact mul_pos (inv_pos.2 hσ) (artanhC_pos (mul_pos hxp hσ))
  have hr1 : ∀ t ∈ [r, s, r + s], 0 < t ∧ t ≤ r + s := by
    intro t ht
    simp only [List.mem_cons, List.not_mem_nil, or_false] at ht
    rcases ht with rfl | rfl | rfl <;> constructor <;> linarith
  obtain ⟨a, b, e, he, ha, hb, h1, h2⟩ := C13_add_smul_formula hη.le hx (Or.inl ⟨hk, fun t ht => by
    obtain ⟨p1, p2⟩ := hr1 t ht
    rw [abs_of_pos (mul_pos p1 hA)]
    refine le_trans ?_ hlen
    exact mul_le_mul_of_nonneg_right (mul_le_mul_of_nonneg_right p2 hA.le) (Real.sqrt_nonneg _)⟩) hD
  have hne : nrm e = 1 := by rw [he]; exact nrm_unit hx
  have hee : e ⬝ᵥ e = 1 := by rw [← nrm_sq, hne]; norm_num
  have pos : ∀ t ∈ [r, s, r + s], ∀ c : ℝ, mobiusScalarMul η k t x = c • e → 0 < c := by
    intro t ht c hc
    rw [scalarMul_eq hx, ← he] at hc
    have h3 := congrArg (fun v => v ⬝ᵥ e) hc
    simp only [smul_dotProduct, hee, smul_eq_mul, mul_one] at h3
    rw [← h3, tanK_neg_curv hk]
    have h4 := mul_pos (mul_pos (hr1 t ht).1 hA) hσ
    refine mul_pos (inv_pos.2 hσ) ?_
    have h5 : t * artanK η k (nrm x) * kSqrt η k ≤ 15 := by
      refine le_trans ?_ hlen
      exact mul_le_mul_of_nonneg_right (mul_le_mul_of_nonneg_right (hr1 t ht).2 hA.le) hσ.le
    rw [tanhC_eq (by linarith) h5]
    simpa using tanh_strictMono h4
  have ha0 := pos r (by simp) a ha
  have hb0 := pos s (by simp) b hb
  rw [h1, h2, nrm_smul, nrm_smul, hne, mul_one, mul_one, sign_neg hk0]
  have hab : 0 < a * b := mul_pos ha0 hb0
  have d1 : 0 < 1 - k * (a * b) := by nlinarith
  have d2 : 1 - k * (a * b) < 1 - (k + ((-1 : SignType) : ℝ) * η) * (a * b) := by
    simp only [SignType.coe_neg, SignType.coe_one]
    nlinarith [mul_pos hη hab]
  rw [abs_of_pos (div_pos (by linarith) d1), abs_of_pos (div_pos (by linarith) (d1.trans d2))]
  exact div_lt_div_of_pos_left (by linarith) d1 d2

/-- The hypotheses are met by a non-trivial case with scalars of different signs on the sphere. -/
example : ∃ x : Vec 2, 1e-15 ≤ nrm x ∧ ∀ t ∈ [(3 / 2 : ℝ), -1 / 2, 3 / 2 + -1 / 2],
    |t * artanK 0 1 (nrm x)| * Real.sqrt (|1| + 0) < Real.pi / 2 := by
  refine ⟨![1, 0], ?_, ?_⟩
  · have : nrm (![1, 0] : Vec 2) = 1 := by simp [nrm, dotProduct, Fin.sum_univ_two]
    rw [this]; norm_num
  · have : nrm (![1, 0] : Vec 2) = 1 := by simp [nrm, dotProduct, Fin.sum_univ_two]
    have hk : kSqrt 0 1 = 1 := by simp [kSqrt_eq]
    have hA : artanK 0 1 1 = Real.pi / 4 := by
      rw [artanK_pos_curv (by norm_num), hk]; simp
    have hpi := Real.pi_pos
    intro t ht
    rw [this, hA, abs_mul, abs_of_pos (show 0 < Real.pi / 4 by linarith)]
    simp only [List.mem_cons, List.not_mem_nil, or_false] at ht
    rcases ht with rfl | rfl | rfl <;> norm_num [abs_of_pos, abs_of_neg] <;> linarith

end Geoopt.Stereo
