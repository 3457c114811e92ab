import Verif.Props.C101
import Verif.Props.C113
import Verif.Lemmas.Gyro

/-!
# C113 for the Poincaré ball with exact retraction (`PoincareBallExact`)
-/

namespace Geoopt.Stereo
open Matrix Geoopt.Optim
variable {n : ℕ}

lemma C113.tanh_sub_abs (a b : ℝ) :
    |Real.tanh a - Real.tanh b| = Real.tanh |a - b| * (1 - Real.tanh a * Real.tanh b) := by
  have key : ∀ a b : ℝ, Real.tanh a - Real.tanh b = Real.tanh (a - b) * (1 - Real.tanh a * Real.tanh b) := by
    intro a b
    have h1 := Real.cosh_pos a
    have h2 := Real.cosh_pos b
    have h3 := Real.cosh_pos (a - b)
    rw [Real.tanh_eq_sinh_div_cosh, Real.tanh_eq_sinh_div_cosh, Real.tanh_eq_sinh_div_cosh]
    have e1 := Real.sinh_sub a b
    have e2 := Real.cosh_sub a b
    field_simp
    rw [e1, e2]
  have hp : 0 < 1 - Real.tanh a * Real.tanh b := by
    have h1 := tanh_lt_one' a
    have h2 := tanh_lt_one' b
    have h3 := neg_one_lt_tanh' a
    have h4 := neg_one_lt_tanh' b
    nlinarith
  rw [key, abs_mul, abs_of_pos hp]
  congr 1
  rcases le_total 0 (a - b) with h | h
  · rw [abs_of_nonneg h, abs_of_nonneg (tanh_nonneg' h)]
  · rw [abs_of_nonpos h, Real.tanh_neg, abs_of_nonpos]
    have := tanh_nonneg' (neg_nonneg.2 h)
    rw [Real.tanh_neg] at this
    linarith

/-- Two points in the same direction from `x`: the length of their difference. -/
lemma C113.nrm_line {k : ℝ} (hk : k < 0) {x e : Vec n} (hx : OpenBall k x) (he : e ⬝ᵥ e = 1) {a r : ℝ}
    (ha : OpenBall k (a • e)) (hr : OpenBall k (r • e)) :
    nrm (mAdd k (-mAdd k x (a • e)) (mAdd k x (r • e))) = |r - a| / |1 + k * (a * r)| := by
  have hxa := (mobDenom_pos hk.le hx ha).ne'
  have har := (mobDenom_pos hk.le (openBall_neg.2 ha) hr).ne'
  have hu : OpenBall k (mAdd k (-(a • e)) (r • e)) := openBall_mAdd hk.le (openBall_neg.2 ha) hr
  have hl : 1 + k * (a • e ⬝ᵥ a • e) ≠ 0 := by unfold OpenBall at ha; linarith
  have hc := mAdd_neg_cancel har hl
  have hz := openBall_mAdd hk.le hx ha
  have hz' : 1 + k * (mAdd k x (a • e) ⬝ᵥ mAdd k x (a • e)) ≠ 0 := by
    unfold OpenBall at hz; linarith
  have key := mAdd_translate hxa (mobDenom_pos hk.le ha hu).ne'
    (by rw [hc]; exact (mobDenom_pos hk.le hx hr).ne') hz'
  rw [hc] at key
  rw [key, nrm, mGyr_dot_mGyr hxa, mAdd_self har]
  have e1 : (-(a • e) ⬝ᵥ -(a • e)) + 2 * (-(a • e) ⬝ᵥ r • e) + r • e ⬝ᵥ r • e = (r - a) ^ 2 := by
    simp only [neg_dotProduct, dotProduct_neg, smul_dotProduct, dotProduct_smul, smul_eq_mul, he]; ring
  have e2 : mobDenom k (-(a • e)) (r • e) = (1 + k * (a * r)) ^ 2 := by
    unfold mobDenom
    simp only [neg_dotProduct, dotProduct_neg, smul_dotProduct, dotProduct_smul, smul_eq_mul, he]; ring
  rw [e1, e2, Real.sqrt_div (sq_nonneg _), Real.sqrt_sq_eq_abs, Real.sqrt_sq_eq_abs]

/-- Walking the fraction `s` of the way from `x` to `y` (also beyond `y`): what is left of the way is at most
`|1 - s|` of it. -/
theorem C113.toward {η k : ℝ} (hη : 0 ≤ η) (hη1 : η ≤ 1) (hk : k < -1e-8) (hbig : |k| ≤ 1e29) {dt : DType}
    {x y : Vec n} (hx : Valid η dt k x) (hy : Valid η dt k y)
    (hfar : nrm (mobiusAdd k (-x) y) * Real.sqrt (|k| + η) ≤ 1 - 1e-7)
    (hnear : 1e-15 ≤ nrm (mobiusAdd k (-x) y)) {s : ℝ} (hs : 0 ≤ s)
    (hfl : 1e-15 ≤ s * nrm (logmap η k x y)) :
    Valid η dt k (M.expmap true η dt k x (s • logmap η k x y)) ∧
    nrm (mobiusAdd k (-M.expmap true η dt k x (s • logmap η k x y)) y) * kSqrt η k ≤
      Real.tanh (|1 - s| * artanhC (nrm (mobiusAdd k (-x) y) * kSqrt η k)) := by
  have hk0 : k < 0 := by have := e8; linarith
  have hσ := kSqrt_pos hη hk0.ne
  have hσ2 := kSqrt_sq hη k
  rw [abs_of_neg hk0] at hσ2
  change nrm (mobiusAdd k (-x) y) * kSqrt η k ≤ 1 - 1e-7 at hfar
  have hr : RadiusOk η k (nrm (mobiusAdd k (-x) y)) := ⟨nrm_nonneg _, Or.inr (Or.inr ⟨hk, hfar⟩)⟩
  have hr0 : 0 < nrm (mobiusAdd k (-x) y) := lt_of_lt_of_le (by norm_num) hnear
  have hL : 0 < nrm (logmap η k x y) := by
    rcases (nrm_nonneg (logmap η k x y)).eq_or_lt with h | h
    · rw [← h, mul_zero] at hfl; norm_num at hfl
    · exact h
  have hnl := C07_norm_log_eq_dist (η := η) (x := x) (y := y) hr (Or.inr hnear)
  have hcancel : mobiusAdd k x (mobiusAdd k (-x) y) = y := C03_solve hη hk0 hx (valid_openBall hη hk0 hy)
  obtain ⟨w, hw⟩ : ∃ w, w = mobiusAdd k (-x) y := ⟨_, rfl⟩
  obtain ⟨r, hrr⟩ : ∃ r, r = nrm w := ⟨_, rfl⟩
  obtain ⟨A, hA⟩ : ∃ A, A = artanhC (r * kSqrt η k) := ⟨_, rfl⟩
  rw [← hw, ← hrr] at hfar hr0 hnear hr
  have hlen : lambdaX k x / 2 * nrm (logmap η k x y) = A / kSqrt η k := by
    rw [norm, dist, artanK_neg_curv hk, ← hw, ← hrr, ← hA] at hnl
    rw [show (2.0 : ℝ) = 2 by norm_num] at hnl
    rw [show A / kSqrt η k = (kSqrt η k)⁻¹ * A from div_eq_inv_mul _ _]
    linarith
  have hunit : (nrm (logmap η k x y))⁻¹ • logmap η k x y = r⁻¹ • w := by
    have hl := lambdaX_pos k x
    have hap : 0 < artanK η k r := by
      rw [artanK_neg_curv hk]; exact mul_pos (inv_pos.2 hσ) (artanhC_pos (mul_pos hr0 hσ))
    have e : logmap η k x y = (2.0 * artanK η k r * (lambdaX k x * r)⁻¹) • w := by
      simp only [logmap]
      rw [← hw, ← hrr, max_eq_left hnear, smul_smul]
    have hc : 0 < 2.0 * artanK η k r * (lambdaX k x * r)⁻¹ :=
      mul_pos (mul_pos (by norm_num) hap) (inv_pos.2 (mul_pos hl hr0))
    rw [e]
    generalize 2.0 * artanK η k r * (lambdaX k x * r)⁻¹ = c at hc
    rw [nrm_smul, abs_of_pos hc, smul_smul, ← hrr]
    congr 1
    field_simp
  obtain ⟨e, he⟩ : ∃ e, e = r⁻¹ • w := ⟨_, rfl⟩
  have hne : nrm e = 1 := by
    rw [he, nrm_smul, abs_of_pos (inv_pos.2 hr0), ← hrr, inv_mul_cancel₀ hr0.ne']
  have hee : e ⬝ᵥ e = 1 := by rw [← nrm_sq, hne]; norm_num
  have hwe : w = r • e := by rw [he, smul_smul, mul_inv_cancel₀ hr0.ne', one_smul]
  have hexp := C106.expmap_line (η := η) (c := s) (x := x) hk hL (Or.inr (by rwa [abs_of_nonneg hs]))
  rw [hlen, hunit, ← he] at hexp
  obtain ⟨a, ha⟩ : ∃ a, a = tanK η k (s * (A / kSqrt η k)) := ⟨_, rfl⟩
  rw [← ha] at hexp
  have hoa : OpenBall k (a • e) := by rw [ha]; exact openBall_tanK hη hk _ _ hne.le
  have hox := valid_openBall hη hk0 hx
  have hor : OpenBall k (r • e) := by
    rw [← hwe, hw]
    exact openBall_mobiusAdd hk0.le (openBall_neg.2 hox) (valid_openBall hη hk0 hy)
  have hDa : 1e-15 ≤ mobDenom k x (a • e) := le_trans (by norm_num) (C105.denom_ball hη hk0 hx hoa).1
  have hDr : 1e-15 ≤ mobDenom k x (r • e) := le_trans (by norm_num) (C105.denom_ball hη hk0 hx hor).1
  rw [mobiusAdd_eq hDa] at hexp
  rw [← hw, hwe, mobiusAdd_eq hDr] at hcancel
  have hoz := openBall_mAdd hk0.le hox hoa
  have hDz : 1e-15 ≤ mobDenom k (-y) (mAdd k x (a • e)) :=
    le_trans (by norm_num) (C105.denom_ball hη hk0 (valid_neg.2 hy) hoz).1
  refine ⟨(valid_iff hk0).2 ?_, ?_⟩
  · unfold M.expmap withProject
    rw [if_pos rfl]
    exact nrm_project_le hη dt _
  have hproj := nrm_project_shrink (η := η) hη hη1 hk0 hbig hy hoz hDz
  have hDz' : 1e-15 ≤ mobDenom k (-mAdd k x (a • e)) y := by
    have : mobDenom k (-mAdd k x (a • e)) y = mobDenom k (-y) (mAdd k x (a • e)) := by
      unfold mobDenom
      simp only [neg_dotProduct, dotProduct_neg, neg_neg, dotProduct_comm y]
      ring
    rw [this]; exact hDz
  have hleft : nrm (mobiusAdd k (-M.expmap true η dt k x (s • logmap η k x y)) y) ≤
      nrm (mobiusAdd k (-mAdd k x (a • e)) y) := by
    rw [nrm_mobiusSub_comm, nrm_mobiusSub_comm k (mAdd k x (a • e))]
    unfold M.expmap withProject
    rw [if_pos rfl, hexp]
    exact hproj
  rw [← hw, ← hrr, ← hA]
  refine le_trans (mul_le_mul_of_nonneg_right hleft hσ.le) ?_
  rw [mobiusAdd_eq hDz', ← hcancel, C113.nrm_line hk0 hox hee hoa hor]
  -- numbers
  have hA0 : 0 ≤ A := by rw [hA]; exact artanhC_nonneg (by positivity)
  have hA15 : A ≤ 15 := by rw [hA]; exact artanhC_le _
  have hrA : r * kSqrt η k = Real.tanh A := by
    have := tanhC_artanhC (mul_nonneg hr0.le hσ.le) hfar
    rw [← hA, tanhC_eq (by linarith) hA15] at this
    exact this.symm
  obtain ⟨B, hB⟩ : ∃ B, B = min (s * A) 15 := ⟨_, rfl⟩
  have hsA : 0 ≤ s * A := mul_nonneg hs hA0
  have haB : a * kSqrt η k = Real.tanh B := by
    rw [ha, tanK_neg_curv hk, hB, tanhC, clamp]
    have : s * (A / kSqrt η k) * kSqrt η k = s * A := by field_simp
    rw [this, max_eq_left (by linarith), mul_comm, ← mul_assoc, mul_inv_cancel₀ hσ.ne', one_mul]
  have hAB : |A - B| ≤ |1 - s| * A := by
    have e1 : |1 - s| * A = |A - s * A| := by
      rw [← abs_of_nonneg hA0, ← abs_mul, abs_of_nonneg hA0]; congr 1; ring
    rw [e1, hB]
    rcases le_total (s * A) 15 with h | h
    · rw [min_eq_left h]
    · rw [min_eq_right h, abs_of_nonpos (by linarith), abs_of_nonpos (by linarith)]
      linarith
  refine le_trans ?_ (tanh_mono hAB)
  have hB0 : 0 ≤ B := by rw [hB]; exact le_min hsA (by norm_num)
  have ta := tanh_nonneg' hA0
  have tb := tanh_nonneg' hB0
  have ta1 := tanh_lt_one' A
  have tb1 := tanh_lt_one' B
  have hp : 0 < 1 - Real.tanh A * Real.tanh B := by nlinarith
  have ha0 : 0 ≤ a := by
    have : 0 ≤ a * kSqrt η k := by rw [haB]; exact tb
    exact nonneg_of_mul_nonneg_left this hσ
  have hden : 1 - Real.tanh A * Real.tanh B ≤ 1 + k * (a * r) := by
    rw [← hrA, ← haB]
    have : r * kSqrt η k * (a * kSqrt η k) = a * r * (-k + η) := by rw [← hσ2]; ring
    rw [this]
    nlinarith [mul_nonneg hη (mul_nonneg ha0 hr0.le)]
  have hnum : |r - a| * kSqrt η k = |Real.tanh A - Real.tanh B| := by
    rw [← hrA, ← haB, ← sub_mul, abs_mul, abs_of_pos hσ]
  rw [abs_of_pos (lt_of_lt_of_le hp hden), div_mul_eq_mul_div, hnum, C113.tanh_sub_abs,
    div_le_iff₀ (lt_of_lt_of_le hp hden)]
  exact mul_le_mul_of_nonneg_left hden (tanh_nonneg' (abs_nonneg _))

/-- **C113**, one step of `PoincareBallExact`, with the regulariser `η` of the code (for `η = 0`, `ρ = 1`). -/
theorem C113_ball_exact_step {η k : ℝ} (hη : 0 ≤ η) (hη1 : η ≤ 1) (hk : k < -1e-8) (hbig : |k| ≤ 1e29)
    {dt : DType} {x y : Vec n} (hx : Valid η dt k x) (hy : Valid η dt k y)
    (hfar : nrm (mobiusAdd k (-x) y) * Real.sqrt (|k| + η) < 1 - 1e-7)
    (hnear : 1e-15 ≤ nrm (mobiusAdd k (-x) y)) {g : Vec n} (hg : HasGrad (fun z => dist η k z y ^ 2) g x)
    {lr : ℝ} (h0 : 0 < lr) (hρ : 1e7 * η ≤ |k|)
    (hfl : 1e-15 ≤ nrm (-lr • egrad2rgrad k x g)) :
    Valid η dt k (M.expmap true η dt k x (-lr • egrad2rgrad k x g)) ∧
    ∃ ρ, |ρ - 1| ≤ 1e7 * η / |k| ∧
      nrm (mobiusAdd k (-M.expmap true η dt k x (-lr • egrad2rgrad k x g)) y) * kSqrt η k ≤
        Real.tanh (|1 - 2 * lr * ρ| * artanhC (nrm (mobiusAdd k (-x) y) * kSqrt η k)) ∧
      dist η k (M.expmap true η dt k x (-lr • egrad2rgrad k x g)) y ≤ |1 - 2 * lr * ρ| * dist η k x y := by
  have hk0 : k < 0 := by have := e8; linarith
  have hσ := kSqrt_pos hη hk0.ne
  obtain ⟨g', ρ, hg', e, h1⟩ := C112_ball hη hk hx hy hnear hfar
  cases hg.unique hg'
  have e' : -lr • egrad2rgrad k x g = (2 * lr * ρ) • logmap η k x y := by
    rw [e, smul_smul]; congr 1; ring
  have hp : 0 ≤ ρ := by
    have : 1e7 * η / |k| ≤ 1 := (div_le_one (abs_pos.2 hk0.ne)).2 hρ
    linarith [neg_le_of_abs_le h1]
  have hs : 0 ≤ 2 * lr * ρ := by positivity
  rw [e'] at hfl ⊢
  rw [nrm_smul, abs_of_nonneg hs] at hfl
  obtain ⟨t1, t2⟩ := C113.toward hη hη1 hk hbig hx hy hfar.le hnear hs hfl
  refine ⟨t1, ρ, h1, t2, ?_⟩
  have := artanhC_le_of_le_tanh (mul_nonneg (nrm_nonneg _) hσ.le) t2
  rw [dist, dist, artanK_neg_curv hk, artanK_neg_curv hk]
  have := mul_le_mul_of_nonneg_left this (inv_nonneg.2 hσ.le)
  rw [show (2.0 : ℝ) = 2 by norm_num]
  linarith

/-- The distance bounds the length of the Möbius difference from below. -/
lemma C113.near_of_dist {η k : ℝ} (hη : 0 ≤ η) (hη1 : η ≤ 1) (hk : k < -1e-8) (hbig : |k| ≤ 1e29)
    {x y : Vec n} (h : 2e-10 ≤ dist η k x y) : 1e-15 ≤ nrm (mobiusAdd k (-x) y) := by
  have hk0 : k < 0 := by have := e8; linarith
  have hσ := kSqrt_pos hη hk0.ne
  by_contra hc
  rw [not_le] at hc
  have hr := nrm_nonneg (mobiusAdd k (-x) y)
  rw [dist, artanK_neg_curv hk] at h
  generalize nrm (mobiusAdd k (-x) y) = r at *
  have h1 : kSqrt η k ≤ 9e14 := by
    rw [kSqrt, sabs, Real.sqrt_le_left (by norm_num)]
    calc |k| + η ≤ 1e29 + 1 := add_le_add hbig hη1
      _ ≤ 9e14 ^ 2 := by norm_num
  have hz : r * kSqrt η k ≤ 0.9 := by
    calc r * kSqrt η k ≤ 1e-15 * 9e14 := mul_le_mul hc.le h1 hσ.le (by norm_num)
      _ ≤ 0.9 := by norm_num
  have hz0 : 0 ≤ r * kSqrt η k := mul_nonneg hr hσ.le
  have hd : 0 < 1 - r * kSqrt η k := by
    have : (0.9 : ℝ) < 1 := by norm_num
    linarith
  have h2 : artanhC (r * kSqrt η k) ≤ r * kSqrt η k / (1 - r * kSqrt η k) := by
    refine artanhC_le_of_le_tanh hz0 (le_trans (le_of_eq ?_) (tanh_ge (div_nonneg hz0 hd.le)))
    have : (1 : ℝ) + r * kSqrt η k / (1 - r * kSqrt η k) ≠ 0 := by
      have := div_nonneg hz0 hd.le; linarith
    field_simp
    ring
  have h3 : r * kSqrt η k / (1 - r * kSqrt η k) ≤ 10 * (r * kSqrt η k) := by
    rw [div_le_iff₀ hd]
    have : (0.1 : ℝ) ≤ 1 - r * kSqrt η k := by norm_num at hz ⊢; linarith
    calc r * kSqrt η k = 10 * (r * kSqrt η k) * 0.1 := by ring
      _ ≤ _ := mul_le_mul_of_nonneg_left this (by positivity)
  have h4 := mul_le_mul_of_nonneg_left (h2.trans h3) (inv_nonneg.2 hσ.le)
  have h5 : (kSqrt η k)⁻¹ * (10 * (r * kSqrt η k)) = 10 * r := by field_simp
  rw [h5] at h4
  norm_num at h hc h4
  linarith

/-- **C113**, `PoincareBallExact`: the parameter comes within `δ` of the target, and until then the distance is
multiplied by at most `q` in every step.  The number `1e7·η/|k|` is `1e-8` for curvature `-1`. -/
theorem C113_ball_exact {η k : ℝ} (hη : 0 ≤ η) (hη1 : η ≤ 1) (hk : k < -1e-8) (hbig : |k| ≤ 1e29)
    (hρ : 2e7 * η ≤ |k|) {dt : DType} {y : Vec n} (hy : Valid η dt k y) {q δ : ℝ} (hq : q ≤ 1) {lr : ℕ → ℝ}
    (hlr : ∀ t, 0 < lr t ∧ |1 - 2 * lr t| + 2 * lr t * (1e7 * η / |k|) ≤ q ∧ 2e-10 ≤ lr t * δ) {x : ℕ → Vec n}
    (hrun : Descends (stereographicExact η dt k) (HasGrad fun z => dist η k z y ^ 2) lr x)
    (hx : Valid η dt k (x 0))
    (hfar : nrm (mobiusAdd k (-x 0) y) * Real.sqrt (|k| + η) < 1 - 1e-7) (t : ℕ) :
    (∃ s ≤ t, Valid η dt k (x s) ∧ dist η k (x s) y ≤ δ) ∨
      Valid η dt k (x t) ∧ dist η k (x t) y ≤ q ^ t * dist η k (x 0) y := by
  have hk0 : k < 0 := by have := e8; linarith
  have hσ := kSqrt_pos hη hk0.ne
  have hkp : 0 < |k| := abs_pos.2 hk0.ne
  have hε0 : 0 ≤ 1e7 * η / |k| := div_nonneg (by positivity) hkp.le
  have hε : 1e7 * η / |k| ≤ 1 / 2 := by rw [div_le_iff₀ hkp]; norm_num at hρ ⊢; linarith
  have hq0 : 0 ≤ q := by
    obtain ⟨l0, l1, -⟩ := hlr 0
    have := abs_nonneg (1 - 2 * lr 0)
    have := mul_nonneg (mul_nonneg zero_le_two l0.le) hε0
    linarith
  suffices (∃ s ≤ t, Valid η dt k (x s) ∧ dist η k (x s) y ≤ δ) ∨
      Valid η dt k (x t) ∧ dist η k (x t) y ≤ q ^ t * dist η k (x 0) y ∧
        nrm (mobiusAdd k (-x t) y) * Real.sqrt (|k| + η) < 1 - 1e-7 from
    this.imp id fun h => ⟨h.1, h.2.1⟩
  induction t with
  | zero => right; exact ⟨hx, by simp, hfar⟩
  | succ t ih =>
    rcases ih with ⟨s, hs, h⟩ | ⟨hxt, ih, hf⟩
    · exact Or.inl ⟨s, hs.trans (Nat.le_succ t), h⟩
    rcases le_or_gt (dist η k (x t) y) δ with h | h
    · exact Or.inl ⟨t, Nat.le_succ t, hxt, h⟩
    right
    obtain ⟨g, hg, e⟩ := hrun.next t
    obtain ⟨l0, l1, l2⟩ := hlr t
    have hl1 : lr t ≤ 1 := by
      have h1 := neg_abs_le (1 - 2 * lr t)
      have := mul_nonneg (mul_nonneg zero_le_two l0.le) hε0
      linarith
    have hδ : 2e-10 ≤ δ := by
      have hδ0 : 0 ≤ δ := by
        by_contra hc
        have : lr t * δ ≤ 0 := mul_nonpos_of_nonneg_of_nonpos l0.le (not_le.1 hc).le
        norm_num at l2
        linarith
      exact l2.trans (mul_le_of_le_one_left hδ0 hl1)
    have hnear := C113.near_of_dist hη hη1 hk hbig (hδ.trans h.le)
    have hfl : 1e-15 ≤ nrm (-lr t • egrad2rgrad k (x t) g) := by
      obtain ⟨g', ρ, hg', e1, h1⟩ := C112_ball hη hk hxt hy hnear hf
      cases hg.unique hg'
      have hr : RadiusOk η k (nrm (mobiusAdd k (-x t) y)) :=
        ⟨nrm_nonneg _, Or.inr (Or.inr ⟨hk, hf.le⟩)⟩
      have hnl := C07_norm_log_eq_dist (η := η) (x := x t) (y := y) hr (Or.inr hnear)
      have hl5 := lambdaX_valid hη hk0 hxt
      have hl0 := lambdaX_pos k (x t)
      rw [norm] at hnl
      have hN := nrm_nonneg (logmap η k (x t) y)
      have h3 : dist η k (x t) y ≤ 2e5 * nrm (logmap η k (x t) y) := by
        rw [← hnl]; exact mul_le_mul_of_nonneg_right hl5 hN
      have hρ2 : 1 / 2 ≤ ρ := by linarith [neg_le_of_abs_le h1]
      rw [e1, smul_smul, nrm_smul, show -lr t * (-2 * ρ) = 2 * lr t * ρ by ring,
        abs_of_nonneg (mul_nonneg (mul_nonneg zero_le_two l0.le) (by linarith))]
      have h4 : lr t ≤ 2 * lr t * ρ := by nlinarith
      have h5 : lr t * δ ≤ lr t * (2e5 * nrm (logmap η k (x t) y)) :=
        mul_le_mul_of_nonneg_left (h.le.trans h3) l0.le
      have h6 : lr t * nrm (logmap η k (x t) y) ≤ 2 * lr t * ρ * nrm (logmap η k (x t) y) :=
        mul_le_mul_of_nonneg_right h4 hN
      norm_num at l2 h5 ⊢
      linarith
    obtain ⟨v, ρ, r1, r2, r3⟩ := C113_ball_exact_step hη hη1 hk hbig hxt hy hf hnear hg l0
      (by norm_num at hρ ⊢; linarith) hfl
    have hc : |1 - 2 * lr t * ρ| ≤ q := by
      have e1 : 1 - 2 * lr t * ρ = (1 - 2 * lr t) + 2 * lr t * (1 - ρ) := by ring
      rw [e1]
      refine (abs_add_le _ _).trans ?_
      rw [abs_mul, abs_of_nonneg (mul_nonneg zero_le_two l0.le), abs_sub_comm 1 ρ]
      have := mul_le_mul_of_nonneg_left r1 (mul_nonneg zero_le_two l0.le)
      linarith
    have e2 : x (t + 1) = M.expmap true η dt k (x t) (-lr t • egrad2rgrad k (x t) g) := by
      rcases e with e | e
      · exact e
      · exact e.trans ((C02_projx_fixes_exactly_valid hη hη1 hk0 hbig dt _).2 v)
    rw [e2]
    have hd0 : 0 ≤ dist η k (x t) y := C06_nonneg (Or.inr (by rw [abs_of_neg hk0]; linarith)) _ _
    refine ⟨v, ?_, ?_⟩
    · rw [pow_succ', mul_assoc]
      exact r3.trans (mul_le_mul hc ih hd0 hq0)
    · have hA := artanhC_nonneg (mul_nonneg (nrm_nonneg (mobiusAdd k (-x t) y)) hσ.le)
      refine lt_of_le_of_lt (r2.trans (tanh_mono (mul_le_of_le_one_left hA (hc.trans hq)))) ?_
      have h6 := tanhC_artanhC (mul_nonneg (nrm_nonneg (mobiusAdd k (-x t) y)) hσ.le) hf.le
      rw [tanhC_eq (by linarith) (artanhC_le _)] at h6
      rw [h6]
      exact hf

/-- `C113_ball_exact_step` at two points, with learning rate `1/4` -/
example : ∃ g : Vec 2, HasGrad (fun z => dist codeEta (-1) z pB ^ 2) g pA ∧ ∃ ρ, |ρ - 1| ≤ 1e-8 ∧
    dist codeEta (-1) (M.expmap true codeEta .f64 (-1) pA (-(1 / 4 : ℝ) • egrad2rgrad (-1) pA g)) pB ≤
      |1 - 2 * (1 / 4) * ρ| * dist codeEta (-1) pA pB := by
  have hf : nrm (mobiusAdd (-1) (-pA) pB) * Real.sqrt (|(-1 : ℝ)| + codeEta) < 1 - 1e-7 := by
    apply lt_of_abs_lt
    apply abs_lt_of_sq_lt_sq _ (by norm_num)
    rw [mul_pow, nrm_sq, pAB_dot, Real.sq_sqrt (by norm_num [codeEta])]
    norm_num [codeEta]
  have hn : (1e-15 : ℝ) ≤ nrm (mobiusAdd (-1) (-pA) pB) := le_trans (by norm_num) pAB_near
  obtain ⟨g, ρ, hg, e, h1⟩ := C112_ball codeEta_nonneg (by norm_num) (pA_valid .f64) (pB_valid .f64) hn hf
  have hc : 1e7 * codeEta / |(-1 : ℝ)| = 1e-8 := by norm_num [codeEta]
  have hfl : (1e-15 : ℝ) ≤ nrm (-(1 / 4 : ℝ) • egrad2rgrad (-1) pA g) := by
    have hr : RadiusOk codeEta (-1) (nrm (mobiusAdd (-1) (-pA) pB)) :=
      ⟨nrm_nonneg _, Or.inr (Or.inr ⟨by norm_num, hf.le⟩)⟩
    have hnl := C07_norm_log_eq_dist (η := codeEta) (x := pA) (y := pB) hr (Or.inr hn)
    have hl5 := lambdaX_valid codeEta_nonneg (by norm_num) (pA_valid .f64)
    have hh := half_le_artanK codeEta_nonneg (by norm_num) hr
    rw [norm, dist] at hnl
    have h3 := mul_le_mul_of_nonneg_right hl5 (nrm_nonneg (logmap codeEta (-1) pA pB))
    have h4 : (1 / 2 : ℝ) ≤ nrm (mobiusAdd (-1) (-pA) pB) := by
      rw [nrm, pAB_dot]; exact Real.le_sqrt_of_sq_le (by norm_num)
    rw [hc] at h1
    have hρ2 : 1 / 2 ≤ ρ := by have := neg_le_of_abs_le h1; norm_num at this ⊢; linarith
    rw [e, smul_smul, nrm_smul, show -(1 / 4 : ℝ) * (-2 * ρ) = ρ / 2 by ring, abs_of_nonneg (by linarith)]
    have h5 := mul_le_mul_of_nonneg_right (show (1 / 4 : ℝ) ≤ ρ / 2 by linarith)
      (nrm_nonneg (logmap codeEta (-1) pA pB))
    norm_num at *
    linarith
  obtain ⟨-, ρ', r1, -, r3⟩ := C113_ball_exact_step codeEta_nonneg (by norm_num [codeEta]) (by norm_num)
    (by norm_num) (pA_valid .f64) (pB_valid .f64) hf hn hg (lr := 1 / 4) (by norm_num) (by norm_num [codeEta]) hfl
  rw [hc] at r1
  exact ⟨g, hg, ρ', r1, r3⟩

/-- The claim is false of `PoincareBall`, whose retraction is not the exponential map: with the learning rate that
brings `PoincareBallExact` to the target in one step (`C112_ball_one_step`), a step from the origin goes past the
target and ends further away from it. -/
theorem C113_counterexample_ball : ∃ (y g : Vec 1), Valid codeEta .f64 (-1) y ∧
    Valid codeEta .f64 (-1) (0 : Vec 1) ∧ HasGrad (fun z => dist codeEta (-1) z y ^ 2) g 0 ∧
    ∀ (H : SGDHyper) (b : Option (Vec 1)), H.lr = 1 / 2 → H.momentum = 0 → H.weightDecay = 0 →
      dist codeEta (-1) 0 y <
        dist codeEta (-1) (sgdParam (stereographic codeEta .f64 (-1)) H ⟨0, .dense g, b⟩).1.point y := by
  obtain ⟨y, hyd⟩ : ∃ y : Vec 1, y = fun _ => (0.95 : ℝ) := ⟨_, rfl⟩
  have hyy : y ⬝ᵥ y = 0.95 ^ 2 := by simp only [hyd, dotProduct, Fin.sum_univ_one]; ring
  have hyn : nrm y = 0.95 := by rw [nrm, hyy, Real.sqrt_sq (by norm_num)]
  have hσ1 : 1 ≤ kSqrt codeEta (-1) := Real.le_sqrt_of_sq_le (by norm_num [sabs, codeEta])
  have hσ2 : kSqrt codeEta (-1) ≤ 1.00001 := by
    rw [kSqrt, sabs, Real.sqrt_le_left (by norm_num)]; norm_num [codeEta]
  have hσ : 0 < kSqrt codeEta (-1) := by linarith
  have hy : Valid codeEta .f64 (-1) y := by
    apply valid_of_sq codeEta_nonneg (by norm_num)
    rw [hyy]; norm_num [codeEta, projEps]
  have hx : Valid codeEta .f64 (-1) (0 : Vec 1) := by
    apply valid_of_sq codeEta_nonneg (by norm_num)
    rw [dotProduct_zero]; norm_num [codeEta, projEps]
  have hsub : mobiusAdd (-1) (-(0 : Vec 1)) y = y := by rw [neg_zero, C03_zero_add]
  have hfar : nrm (mobiusAdd (-1) (-(0 : Vec 1)) y) * Real.sqrt (|(-1 : ℝ)| + codeEta) < 1 - 1e-7 := by
    rw [hsub, hyn]
    change 0.95 * kSqrt codeEta (-1) < _
    norm_num at hσ2 ⊢
    linarith
  obtain ⟨g, ρ, hg, e, hρ⟩ := C112_ball codeEta_nonneg (by norm_num) hx hy (by rw [hsub, hyn]; norm_num) hfar
  refine ⟨y, g, hy, hx, hg, fun H b hl hm hw => ?_⟩
  have hz : 0.95 ≤ 0.95 * kSqrt codeEta (-1) := by norm_num; linarith
  obtain ⟨A, hA⟩ : ∃ A, A = artanK codeEta (-1) 0.95 := ⟨_, rfl⟩
  have hA1 : 1.4 ≤ A := by
    rw [hA, artanK_neg_curv (by norm_num), inv_mul_eq_div, le_div_iff₀ hσ]
    have h1 : (1.5 : ℝ) ≤ artanhC 0.95 := by
      have h3 : Real.exp (2 * 1.5) ≤ 39 := by
        rw [show (2 * 1.5 : ℝ) = ((3 : ℕ) : ℝ) * 1 by norm_num, Real.exp_nat_mul]
        calc Real.exp 1 ^ 3 ≤ 2.7182818286 ^ 3 :=
              pow_le_pow_left₀ (Real.exp_pos 1).le Real.exp_one_lt_d9.le 3
          _ ≤ 39 := by norm_num
      have h4 : Real.tanh 1.5 ≤ 0.95 := by
        have h0 := Real.exp_pos (2 * 1.5)
        rw [tanh_eq_exp]
        have : (0.05 : ℝ) ≤ 2 / (Real.exp (2 * 1.5) + 1) := by
          rw [le_div_iff₀ (by linarith)]; norm_num at h3 ⊢; linarith
        norm_num at this ⊢; linarith
      rw [artanhC_eq (by norm_num) (by norm_num)]
      have := (Real.artanh_le_artanh_iff ⟨neg_one_lt_tanh' 1.5, tanh_lt_one' 1.5⟩
        (show (0.95 : ℝ) ∈ Set.Ioo (-1) 1 from ⟨by norm_num, by norm_num⟩)).2 h4
      rwa [Real.artanh_tanh] at this
    have h2 := artanhC_mono hz
    norm_num at *
    linarith
  have hlog : logmap codeEta (-1) 0 y = (A / 0.95) • y := by
    have hl : lambdaX (-1) (0 : Vec 1) = 2 := by
      rw [lambdaX, dotProduct_zero, mul_zero, add_zero, max_eq_left (by norm_num)]; norm_num
    simp only [logmap]
    rw [hsub, hyn, max_eq_left (by norm_num), hl, ← hA, smul_smul]
    congr 1
    norm_num
    ring
  have hρ1 : 0.999 ≤ ρ := by
    have := neg_le_of_abs_le hρ
    norm_num [codeEta] at this ⊢
    linarith
  obtain ⟨m, hmm⟩ : ∃ m, m = maxNorm codeEta .f64 (-1) := ⟨_, rfl⟩
  have hm1 : 0.999 ≤ m ∧ m < 1 := by
    rw [hmm, maxNorm_neg (by norm_num), projEps]
    constructor
    · rw [le_div_iff₀ hσ]; norm_num at hσ2 ⊢; linarith
    · rw [div_lt_one hσ]; norm_num; linarith
  have hpt : (sgdParam (stereographic codeEta .f64 (-1)) H ⟨0, .dense g, b⟩).1.point = (m / 0.95) • y := by
    simp only [sgdParam, hm, hw, hl, lt_irrefl, if_false, zero_smul, add_zero, stereographic, M.retr, zero_add]
    rw [e, hlog, smul_smul, smul_smul]
    have hc : 0 < -(1 / 2) * (-2 * ρ) * (A / 0.95) := by
      have : 0 < ρ * A := mul_pos (by linarith [show (0 : ℝ) < 0.999 by norm_num])
        (by linarith [show (0 : ℝ) < 1.4 by norm_num])
      norm_num
      linarith
    have hn : nrm ((-(1 / 2) * (-2 * ρ) * (A / 0.95)) • y) = ρ * A := by
      rw [nrm_smul, abs_of_pos hc, hyn]; ring
    have hbig : 1 < ρ * A := by
      have : (0.999 : ℝ) * 1.4 ≤ ρ * A := mul_le_mul hρ1 hA1 (by norm_num) (by linarith [show (0 : ℝ) < 0.999 by norm_num])
      norm_num at this
      linarith
    have hA0 : ρ * A ≠ 0 := by linarith
    rw [project, hn, max_eq_left (by linarith [show (1e-15 : ℝ) ≤ 1 by norm_num]), ← hmm,
      if_pos (by linarith), smul_smul, smul_smul]
    congr 1
    have : ρ ≠ 0 := left_ne_zero_of_mul hA0
    have : A ≠ 0 := right_ne_zero_of_mul hA0
    field_simp
  rw [hpt]
  have hdist : nrm (mobiusAdd (-1) (-((m / 0.95) • y)) y) = (m - 0.95) / (1 - 0.95 * m) := by
    have h1 : 0 < 1 - 0.95 * m := by linarith [hm1.2]
    have h2 : mobDenom (-1) (-((m / 0.95) • y)) y = (1 - 0.95 * m) ^ 2 := by
      unfold mobDenom
      simp only [neg_dotProduct, dotProduct_neg, smul_dotProduct, dotProduct_smul, smul_eq_mul, hyy]
      ring
    have h3 : (0.05 : ℝ) ^ 2 ≤ (1 - 0.95 * m) ^ 2 :=
      pow_le_pow_left₀ (by norm_num) (by norm_num; linarith [hm1.2]) 2
    have h4 : (1e-15 : ℝ) ≤ mobDenom (-1) (-((m / 0.95) • y)) y := by
      rw [h2]; exact le_trans (by norm_num) h3
    rw [mobiusAdd_eq h4, nrm, mAdd_self (by rw [h2]; positivity), h2]
    have h5 : (-((m / 0.95) • y) ⬝ᵥ -((m / 0.95) • y)) + 2 * (-((m / 0.95) • y) ⬝ᵥ y) + y ⬝ᵥ y =
        (m - 0.95) ^ 2 := by
      simp only [neg_dotProduct, dotProduct_neg, smul_dotProduct, dotProduct_smul, smul_eq_mul, hyy]
      ring
    rw [h5, Real.sqrt_div (sq_nonneg _), Real.sqrt_sq h1.le, Real.sqrt_sq (by norm_num; linarith [hm1.1])]
  rw [dist, dist, hdist, hsub, hyn, artanK_neg_curv (by norm_num), artanK_neg_curv (by norm_num)]
  have hq : 0.96 ≤ (m - 0.95) / (1 - 0.95 * m) := by
    rw [le_div_iff₀ (by linarith [hm1.2])]; norm_num at *; linarith [hm1.1]
  have h1 : 0.96 * kSqrt codeEta (-1) ≤ (m - 0.95) / (1 - 0.95 * m) * kSqrt codeEta (-1) :=
    mul_le_mul_of_nonneg_right hq hσ.le
  have h2 : artanhC (0.95 * kSqrt codeEta (-1)) < artanhC (0.96 * kSqrt codeEta (-1)) := by
    rw [artanhC_eq (by norm_num; linarith) (by norm_num at *; linarith),
      artanhC_eq (by norm_num; linarith) (by norm_num at *; linarith)]
    refine (Real.artanh_lt_artanh_iff ⟨by norm_num; linarith, by norm_num at *; linarith⟩
      ⟨by norm_num; linarith, by norm_num at *; linarith⟩).2 ?_
    exact mul_lt_mul_of_pos_right (by norm_num) hσ
  have h3 := lt_of_lt_of_le h2 (artanhC_mono h1)
  exact mul_lt_mul_of_pos_left (mul_lt_mul_of_pos_left h3 (inv_pos.2 hσ)) (by norm_num)

end Geoopt.Stereo
