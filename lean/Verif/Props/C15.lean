import Verif.Props.C09
import Mathlib.Analysis.Real.Pi.Bounds

/-!
# C15, C16, C17, C75 – antipode, midpoint, hyperplanes, coaddition
-/

namespace Geoopt.Stereo
open Geoopt
variable {n : ℕ}

/-! ### C15 antipode -/

/-- For non-positive curvature the antipode is the negative. -/
theorem C15_nonpos {η k : ℝ} (hk : k ≤ 0) (x : Vec n) : antipode η k x = -x := by
  rw [antipode, if_pos hk]

lemma piLit_lt : piLit < Real.pi := by
  have := Real.pi_gt_d20
  unfold piLit
  linarith [show (3.141592653589793 : ℝ) < 3.14159265358979323846 by norm_num]

lemma pi_sub_piLit : Real.pi - piLit ≤ 2.4e-16 := by
  have := Real.pi_lt_d20
  unfold piLit
  linarith [show (3.14159265358979323847 : ℝ) - 3.141592653589793 ≤ 2.4e-16 by norm_num]

/-- The tangent of the literal half of `π` is finite but huge. -/
lemma tan_piLit_ge : 4e15 ≤ Real.tan (piLit / 2) := by
  set δ := (Real.pi - piLit) / 2 with hδ
  have h0 : 0 < δ := by have := piLit_lt; rw [hδ]; linarith
  have h1 : δ ≤ 1.2e-16 := by have := pi_sub_piLit; rw [hδ]; linarith [show (2.4e-16 : ℝ) / 2 = 1.2e-16 by norm_num]
  have e : piLit / 2 = Real.pi / 2 - δ := by rw [hδ]; ring
  rw [e, Real.tan_pi_div_two_sub]
  have hs : 0 < Real.sin δ := Real.sin_pos_of_pos_of_lt_pi h0 (by
    have := Real.pi_gt_three; linarith [show (1.2e-16 : ℝ) < 3 by norm_num])
  have hs2 : Real.sin δ ≤ δ := Real.sin_le h0.le
  have hc : 1 / 2 ≤ Real.cos δ := by
    have := Real.one_sub_sq_div_two_le_cos (x := δ)
    nlinarith [show (1.2e-16 : ℝ) < 1 by norm_num]
  rw [Real.tan_eq_sin_div_cos, inv_div, le_div_iff₀ hs]
  have : (4e15 : ℝ) * 1.2e-16 ≤ 1 / 2 := by norm_num
  nlinarith

/-- The value of the code's antipode for `k > 0`: along the ray of `x`. -/
lemma antipode_value {η k : ℝ} (hη : 0 ≤ η) (hk : 1e-8 < k) {x : Vec n} (hx : 1e-15 ≤ nrm x) :
    antipode η k x = mobiusAdd k x (((kSqrt η k)⁻¹ * Real.tan (piLit / 2) / nrm x) • x) := by
  have h8 := e8
  have hk0 : 0 < k := by linarith
  have hs := kSqrt_pos hη hk0.ne'
  have h15 : (0:ℝ) < 1e-15 := by norm_num
  have hx0 : 0 < nrm x := by linarith
  rw [antipode, if_neg (not_le.2 hk0)]
  simp only [geodesicUnit]
  have hn : nrm ((max (nrm x) 1e-15)⁻¹ • x) = 1 := by
    rw [max_eq_left hx, nrm_smul, abs_of_pos (inv_pos.2 hx0), inv_mul_cancel₀ hx0.ne']
  rw [hn, max_eq_left (by norm_num : (1e-15 : ℝ) ≤ 1), max_eq_left hx, tanK_pos_curv hk]
  congr 1
  have : piLit * (kSqrt η k)⁻¹ / 2.0 * kSqrt η k = piLit / 2 := by
    rw [show (2.0 : ℝ) = 2 by norm_num]; field_simp
  rw [this, min_eq_left (by have := pi_half_lt; have := piLit_lt; linarith), smul_smul, smul_smul]
  congr 1
  field_simp

/-- Möbius sum along one ray -/
lemma mobiusAdd_ray (k : ℝ) (x : Vec n) (t : ℝ)
    (hD : 1e-15 ≤ (1 - k * (t * (x ⬝ᵥ x))) ^ 2) (h0 : 1 - k * (t * (x ⬝ᵥ x)) ≠ 0) :
    mobiusAdd k x (t • x) = ((1 + t) / (1 - k * (t * (x ⬝ᵥ x)))) • x := by
  have e : mobDenom k x (t • x) = (1 - k * (t * (x ⬝ᵥ x))) ^ 2 := by
    unfold mobDenom; dots; ring
  rw [mobiusAdd_eq (by rw [e]; exact hD), mAdd, e]
  dots
  funext i
  simp only [Pi.smul_apply, Pi.add_apply, smul_eq_mul]
  generalize x ⬝ᵥ x = q at h0
  have h2 : (1 - k * (t * q)) ^ 2 ≠ 0 := pow_ne_zero 2 h0
  generalize hw : 1 - k * (t * q) = w at *
  have hkt : k * (t * q) = 1 - w := by linarith
  rw [inv_mul_eq_div, div_mul_eq_mul_div, div_eq_div_iff h2 h0]
  linear_combination (-(1 + t) * x i * w) * hkt

/-- For positive curvature the computed antipode differs from the antipodal point
`-x/(k‖x‖²)` by a relative error of at most `(1+k‖x‖²)/(β-1)`, where
`β = k‖x‖·tan(π̃/2)/√(k+η)` and `tan(π̃/2) ≥ 4e15`. -/
theorem C15_antipode_error_partial {η k : ℝ} (hη : 0 ≤ η) (hk : 1e-8 < k) {x : Vec n}
    (hx : 1e-15 ≤ nrm x)
    (hβ : 2 ≤ k * nrm x * (Real.tan (piLit / 2) / Real.sqrt (|k| + η))) :
    nrm (antipode η k x - -((k * (x ⬝ᵥ x))⁻¹ • x)) ≤
      nrm (-((k * (x ⬝ᵥ x))⁻¹ • x)) *
        ((1 + k * nrm x ^ 2) / (k * nrm x * (Real.tan (piLit / 2) / Real.sqrt (|k| + η)) - 1)) := by
  have h8 := e8
  have hk0 : 0 < k := by linarith
  have hs := kSqrt_pos hη hk0.ne'
  have h15 : (0:ℝ) < 1e-15 := by norm_num
  have hx0 : 0 < nrm x := by linarith
  have hT : 0 < Real.tan (piLit / 2) := lt_of_lt_of_le (by norm_num) tan_piLit_ge
  have es : Real.sqrt (|k| + η) = kSqrt η k := rfl
  rw [es] at hβ ⊢
  set T := Real.tan (piLit / 2) with hTd
  set s := kSqrt η k with hsd
  set a := nrm x with ha
  have hxx : x ⬝ᵥ x = a ^ 2 := (nrm_sq x).symm
  set β := k * a * (T / s) with hβd
  have ht : k * (s⁻¹ * T / a * (x ⬝ᵥ x)) = β := by
    rw [hxx, hβd]; field_simp
  have h1 : 1 - k * (s⁻¹ * T / a * (x ⬝ᵥ x)) ≠ 0 := by rw [ht]; linarith
  rw [antipode_value hη hk hx, mobiusAdd_ray k x _ (by
    rw [ht]; nlinarith [show (1e-15 : ℝ) < 1 by norm_num]) h1, ht]
  have e : ((1 + s⁻¹ * T / a) / (1 - β)) • x - -((k * (x ⬝ᵥ x))⁻¹ • x) =
      (-((1 + k * a ^ 2) / (k * a ^ 2 * (β - 1)))) • x := by
    rw [sub_neg_eq_add, ← add_smul, hxx]
    congr 1
    have hb1 : β - 1 ≠ 0 := by linarith
    have hb2 : 1 - β ≠ 0 := by linarith
    have hb : s⁻¹ * T / a = β / (k * a ^ 2) := by rw [hβd]; field_simp
    rw [hb]
    field_simp
    ring
  rw [e, nrm_smul, nrm_neg, nrm_smul, abs_neg]
  have hb1 : 0 < β - 1 := by linarith
  rw [abs_of_pos (by positivity), abs_of_pos (by rw [hxx]; positivity), hxx]
  apply le_of_eq
  rw [← ha]
  field_simp

/-- `dist(x, antipode(x))` should be `π`; on the unit sphere, at the unit vector, the
code's formula gives less than `2` (both numerator and denominator of the Möbius
difference are tiny and the denominator is clamped). -/
theorem C15_antipode_distance_collapses {x : Vec n} (hx : x ⬝ᵥ x = 1) :
    dist codeEta 1 x (antipode codeEta 1 x) < 2 := by
  have hk : (1e-8 : ℝ) < 1 := by norm_num
  have hn : nrm x = 1 := nrm_eq_of_dot_eq one_pos.le (by rw [hx]; norm_num)
  have hs := kSqrt_pos codeEta_nonneg (one_ne_zero)
  have hs2 := kSqrt_sq codeEta_nonneg 1
  rw [abs_one] at hs2
  have hce : codeEta = 1e-15 := rfl
  set s := kSqrt codeEta 1 with hsd
  rw [hce] at hs2
  have hs1 : 1 ≤ s := by nlinarith [show (1e-15 : ℝ) > 0 by norm_num]
  have hs3 : s ≤ 1.01 := by nlinarith [show (1e-15 : ℝ) < 1e-3 by norm_num]
  have hT := tan_piLit_ge
  set T := Real.tan (piLit / 2) with hTd
  set b := s⁻¹ * T with hb
  have hb1 : 3.9e15 ≤ b := by
    rw [hb, inv_mul_eq_div, le_div_iff₀ hs]
    nlinarith [show (3.9e15 : ℝ) * 1.01 ≤ 4e15 by norm_num]
  have h1b : 1 - b ≠ 0 := by nlinarith [show (1 : ℝ) < 3.9e15 by norm_num]
  have hval : antipode codeEta 1 x = ((1 + b) / (1 - b)) • x := by
    rw [antipode_value codeEta_nonneg hk (by rw [hn]; norm_num), hn, div_one, ← hsd, ← hTd, ← hb,
      mobiusAdd_ray 1 x b (by
        rw [hx]; nlinarith [show (1 : ℝ) < 3.9e15 by norm_num, show (1e-15 : ℝ) < 1 by norm_num])
        (by rw [hx]; simpa using h1b), hx]
    simp
  rw [hval, dist]
  set c := (1 + b) / (1 - b) with hc
  have hcb : 1 + c = 2 / (1 - b) := by rw [hc]; field_simp; ring
  have hD : mobDenom 1 (-x) (c • x) = (1 + c) ^ 2 := by
    unfold mobDenom; dots; rw [hx]; ring
  have hDle : mobDenom 1 (-x) (c • x) ≤ 1e-15 := by
    rw [hD, hcb, div_pow, div_le_iff₀ (by positivity)]
    nlinarith [show (1 : ℝ) < 3.9e15 by norm_num, show (1e15:ℝ) ≤ 3.9e15 - 1 by norm_num]
  have hnum : nrm (mobiusAdd 1 (-x) (c • x)) ≤ 1.1 := by
    rw [nrm_le_iff (by norm_num), mobiusAdd_self, hD, max_eq_right (by rw [← hD]; exact hDle)]
    have e : -x ⬝ᵥ -x + 2 * (-x ⬝ᵥ c • x) + c • x ⬝ᵥ c • x = (1 - c) ^ 2 := by
      dots; rw [hx]; ring
    rw [e, div_le_iff₀ (by norm_num)]
    have e2 : (1 + c) ^ 2 * (1 - c) ^ 2 = ((1 + c) * (1 - c)) ^ 2 := by ring
    rw [e2]
    have e3 : (1 + c) * (1 - c) = -(4 * b) / (1 - b) ^ 2 := by rw [hc]; field_simp; ring
    rw [e3, div_pow, ← mul_pow]
    rw [div_le_iff₀ (by positivity)]
    have h5 : 4 * b ≤ 1.1 * 1e-15 * (1 - b) ^ 2 := by
      nlinarith [show (1.1 * 1e-15 * 3.9e15 : ℝ) - 1.1*2*1e-15 ≥ 4.2 by norm_num]
    have h6 : 0 ≤ 4 * b := by nlinarith [show (0 : ℝ) < 3.9e15 by norm_num]
    have h7 : (4 * b) ^ 2 ≤ (1.1 * 1e-15 * (1 - b) ^ 2) ^ 2 := pow_le_pow_left₀ h6 h5 2
    calc (-(4 * b)) ^ 2 = (4 * b) ^ 2 := by ring
      _ ≤ _ := h7
      _ = (1.1 * 1e-15) ^ 2 * ((1 - b) ^ 2) ^ 2 := by ring
  rw [artanK_pos_curv hk, ← hsd]
  have hr := nrm_nonneg (mobiusAdd 1 (-x) (c • x))
  have harc : Real.arctan (nrm (mobiusAdd 1 (-x) (c • x)) * s) < 1 := by
    have h1 : nrm (mobiusAdd 1 (-x) (c • x)) * s ≤ 1.15 := by nlinarith
    have h2 : (1.15 : ℝ) < Real.tan 1 := by
      have hcos : 0 < Real.cos 1 := Real.cos_one_pos
      have hcos2 := Real.cos_one_le
      have hsin := Real.sin_gt_sub_cube one_pos
      rw [Real.tan_eq_sin_div_cos, lt_div_iff₀ hcos]
      linarith [show (1.15 : ℝ) * (5 / 9) < 1 - 1 ^ 3 / 6 by norm_num, mul_le_mul_of_nonneg_left hcos2
        (show (0:ℝ) ≤ 1.15 by norm_num)]
    have h3 : Real.arctan (Real.tan 1) = 1 := Real.arctan_tan (by
      have := Real.pi_gt_three; linarith) (by have := Real.pi_gt_three; linarith)
    exact lt_of_lt_of_eq (Real.arctan_strictMono (lt_of_le_of_lt h1 h2)) h3
  have e2 : (2.0 : ℝ) = 2 := by norm_num
  rw [e2]
  have hinv : s⁻¹ ≤ 1 := inv_le_one_of_one_le₀ hs1
  have h0 : 0 ≤ Real.arctan (nrm (mobiusAdd 1 (-x) (c • x)) * s) := Real.arctan_nonneg.2 (by positivity)
  nlinarith

end Geoopt.Stereo
