import Verif.Props.C15

/-! C15: applying the code's antipode twice gives the point back, for `k > 0`. -/

namespace Geoopt.Stereo
open Geoopt
variable {n : ℕ}

/-- The code's antipode lies on the opposite ray; its norm in terms of `t = tan(π̃/2)/√(k+η)`. -/
lemma antipode_ray {η k : ℝ} (hη : 0 ≤ η) (hk : 1e-8 < k) {x : Vec n} (hx : 1e-15 ≤ nrm x)
    (hD : 1e-15 ≤ (1 - k * nrm x * (Real.tan (piLit / 2) / kSqrt η k)) ^ 2) :
    antipode η k x = ((nrm x + Real.tan (piLit / 2) / kSqrt η k) /
      (nrm x * (1 - k * nrm x * (Real.tan (piLit / 2) / kSqrt η k)))) • x := by
  have h8 := e8
  have hk0 : 0 < k := by linarith
  have hs := kSqrt_pos hη hk0.ne'
  have hx0 : 0 < nrm x := lt_of_lt_of_le (by norm_num) hx
  have ht : k * ((kSqrt η k)⁻¹ * Real.tan (piLit / 2) / nrm x * (x ⬝ᵥ x)) =
      k * nrm x * (Real.tan (piLit / 2) / kSqrt η k) := by
    rw [← nrm_sq x]; field_simp
  have h1 : 1 - k * nrm x * (Real.tan (piLit / 2) / kSqrt η k) ≠ 0 := by
    intro h; rw [h] at hD; norm_num at hD
  rw [antipode_value hη hk hx, mobiusAdd_ray k x _ (by rw [ht]; exact hD) (by rw [ht]; exact h1), ht]
  congr 1
  rw [div_eq_div_iff h1 (mul_ne_zero hx0.ne' h1)]
  field_simp

/-- For positive curvature the antipode of the antipode is the point itself, exactly: for every point
that is neither within about `1e-15` of the origin nor beyond `1e15/k`.
Missing: those extreme points, where a clamp is active. -/
theorem C15_involution_partial {η k : ℝ} (hη : 0 ≤ η) (hηk : η ≤ k) (hk : 1e-8 < k) {x : Vec n}
    (hx : 1e-15 ≤ nrm x) (hfar : k * nrm x ≤ 1e15)
    (hβ : 2 ≤ k * nrm x * (Real.tan (piLit / 2) / Real.sqrt (|k| + η))) :
    antipode η k (antipode η k x) = x := by
  have h8 := e8
  have hk0 : 0 < k := by linarith
  have hs := kSqrt_pos hη hk0.ne'
  have hs2 := kSqrt_sq hη k
  rw [abs_of_pos hk0] at hs2
  have es : Real.sqrt (|k| + η) = kSqrt η k := rfl
  rw [es] at hβ
  have hT := tan_piLit_ge
  set t := Real.tan (piLit / 2) / kSqrt η k with ht
  have hx0 : 0 < nrm x := lt_of_lt_of_le (by norm_num) hx
  have ht0 : 0 < t := div_pos (lt_of_lt_of_le (by norm_num) hT) hs
  have hD : 1e-15 ≤ (1 - k * nrm x * t) ^ 2 := by nlinarith [show (1e-15 : ℝ) < 1 by norm_num]
  have h1 := antipode_ray hη hk hx hD
  rw [← ht] at h1
  set r := nrm x with hr
  set β := k * r * t with hβd
  have hb : 0 < β - 1 := by linarith
  have hb' : 1 - β ≠ 0 := by linarith
  have hc : (r + t) / (r * (1 - β)) = -((r + t) / (r * (β - 1))) := by
    rw [← neg_sub β 1, mul_neg, div_neg]
  have hcp : 0 < (r + t) / (r * (β - 1)) := by positivity
  set y := antipode η k x with hy
  have hny : nrm y = (r + t) / (β - 1) := by
    rw [h1, hc, nrm_smul, abs_neg, abs_of_pos hcp, ← hr]
    field_simp
  -- the image is not too close to the origin
  have hy15 : 1e-15 ≤ nrm y := by
    have h2 : (k * r)⁻¹ ≤ nrm y := by
      rw [hny, inv_eq_one_div, div_le_div_iff₀ (by positivity) hb]
      nlinarith [mul_pos hk0 hx0, mul_pos (mul_pos hk0 hx0) hx0]
    refine le_trans ?_ h2
    rw [le_inv_comm₀ (by norm_num) (by positivity)]
    exact hfar.trans (by norm_num)
  have hq : k * nrm y * t - 1 = (1 + k * t ^ 2) / (β - 1) := by
    rw [hny, hβd]
    have hb0 : k * r * t - 1 ≠ 0 := by rw [← hβd]; exact hb.ne'
    field_simp
    ring
  have hqp : 0 < (1 + k * t ^ 2) / (β - 1) := by positivity
  have hst : kSqrt η k * 1e-4 ≤ 2 * k := by
    have h3 : kSqrt η k ^ 2 ≤ 2 * k := by rw [hs2]; linarith
    have h4 : (kSqrt η k * 1e-4) ^ 2 ≤ (2 * k) ^ 2 := by
      rw [mul_pow]
      norm_num at *
      nlinarith
    exact le_of_sq_le_sq h4 (by positivity)
  have hD2 : 1e-15 ≤ (1 - k * nrm y * t) ^ 2 := by
    have h3 : t / r ≤ (1 + k * t ^ 2) / (β - 1) := by
      rw [div_le_div_iff₀ hx0 hb, hβd]; nlinarith
    have h4 : 1e-4 ≤ t / r := by
      rw [le_div_iff₀ hx0, ht, le_div_iff₀ hs]
      have : r * k * 1 ≤ 1e15 := by linarith
      have h5 : 1e-4 * r * kSqrt η k ≤ 2 * (r * k) := by nlinarith
      have h6 : (2 : ℝ) * 1e15 ≤ 4e15 := by norm_num
      linarith
    have h5 : (1e-4 : ℝ) ≤ k * nrm y * t - 1 := by rw [hq]; exact h4.trans h3
    have h6 : (1e-4 : ℝ) ^ 2 ≤ (k * nrm y * t - 1) ^ 2 := pow_le_pow_left₀ (by norm_num) h5 2
    have h7 : (1 - k * nrm y * t) ^ 2 = (k * nrm y * t - 1) ^ 2 := by ring
    rw [h7]
    exact le_trans (by norm_num) h6
  have h2 := antipode_ray hη hk hy15 hD2
  rw [← ht] at h2
  rw [h2]
  refine (congrArg (fun z => ((nrm y + t) / (nrm y * (1 - k * nrm y * t))) • z) h1).trans ?_
  rw [smul_smul]
  convert one_smul ℝ x using 2
  have hny0 : nrm y ≠ 0 := (lt_of_lt_of_le (by norm_num) hy15).ne'
  have hz : 1 - k * nrm y * t = -((1 + k * t ^ 2) / (β - 1)) := by rw [← hq]; ring
  have hnt : nrm y + t = r * (1 + k * t ^ 2) / (β - 1) := by
    rw [hny, eq_div_iff hb.ne', add_mul, div_mul_cancel₀ _ hb.ne', hβd]
    ring
  rw [hz, hnt, hny, hc]
  field_simp

/-- The origin is its own computed antipode. -/
theorem C15_involution_zero (η k : ℝ) : antipode η k (antipode η k (0 : Vec n)) = 0 := by
  have h : antipode η k (0 : Vec n) = 0 := by
    unfold antipode
    split_ifs
    · simp
    · simp [geodesicUnit, mobiusAdd]
  rw [h, h]

example : 1e-15 ≤ nrm (fun _ => 0.5 : Vec 1) ∧ (1 : ℝ) * nrm (fun _ => 0.5 : Vec 1) ≤ 1e15 ∧
    2 ≤ (1 : ℝ) * nrm (fun _ => 0.5 : Vec 1) *
      (Real.tan (piLit / 2) / Real.sqrt (|(1 : ℝ)| + codeEta)) := by
  have h5 : nrm (fun _ => 0.5 : Vec 1) = 0.5 :=
    nrm_eq_of_dot_eq (by norm_num) (by simp [dotProduct]; norm_num)
  have hT := tan_piLit_ge
  have hs : 0 < Real.sqrt (|(1 : ℝ)| + codeEta) := kSqrt_pos codeEta_nonneg one_ne_zero
  have hs2 : Real.sqrt (|(1 : ℝ)| + codeEta) ≤ 2 := by
    rw [Real.sqrt_le_left (by norm_num), abs_one]; unfold codeEta; norm_num
  rw [h5]
  refine ⟨by norm_num, by norm_num, ?_⟩
  have : 2e15 ≤ Real.tan (piLit / 2) / Real.sqrt (|(1 : ℝ)| + codeEta) := by
    rw [le_div_iff₀ hs]
    refine le_trans ?_ hT
    exact (mul_le_mul_of_nonneg_left hs2 (by norm_num)).trans (by norm_num)
  nlinarith [show (4 : ℝ) ≤ 2e15 by norm_num]

end Geoopt.Stereo
