import Verif.Lemmas.NearFlat
import Verif.Lemmas.TanK
import Verif.Lemmas.Vec

/-!
# C96: small curvatures

For `|k| ≤ 1e-8` the code replaces the functions of the curvature by `t ± |k| t³/3`.  A user expects
these to be close to the exact functions, so that the results change continuously when a learnable
curvature passes through zero.
-/

namespace Geoopt.C96
open Geoopt Geoopt.Stereo Geoopt.SpecNearFlat Geoopt.NearFlat
variable {n : ℕ} {η k : ℝ}

theorem tan_small (hk : |k| ≤ 1e-8) (t : ℝ) : tanK η k t = t + |k| * t ^ 3 / 3 := by
  rw [tanK, if_pos (show KZero k from hk), tanKTaylor, absZeroGrad_eq]; ring

theorem artan_small (hk : |k| ≤ 1e-8) (t : ℝ) : artanK η k t = t - |k| * t ^ 3 / 3 := by
  rw [artanK, if_pos (show KZero k from hk), artanKTaylor, absZeroGrad_eq]; ring

theorem exactTan_of_pos (hk : 0 < k) (t : ℝ) : exactTan k t = Real.tan (√k * t) / √k := if_pos hk

theorem exactTan_of_neg (hk : k < 0) (t : ℝ) : exactTan k t = Real.tanh (√(-k) * t) / √(-k) := by
  rw [exactTan, if_neg hk.not_gt, if_pos hk]

theorem exactArtan_of_pos (hk : 0 < k) (t : ℝ) : exactArtan k t = Real.arctan (√k * t) / √k :=
  if_pos hk

theorem exactArtan_of_neg (hk : k < 0) (t : ℝ) :
    exactArtan k t = Real.artanh (√(-k) * t) / √(-k) := by
  rw [exactArtan, if_neg hk.not_gt, if_pos hk]

/-- Scaling: an inequality for `y = √|k| t` becomes one for `t`. -/
theorem scale {s t : ℝ} (hs : 0 < s) :
    t = (s * t) / s ∧ s ^ 2 * t ^ 3 = (s * t) ^ 3 / s ∧ (s ^ 2) ^ 2 * t ^ 5 = (s * t) ^ 5 / s := by
  refine ⟨?_, ?_, ?_⟩ <;> field_simp

theorem tan_error_pos (hk0 : 0 ≤ k) (hk : |k| ≤ 1e-8) {t : ℝ} (ht : 0 ≤ t)
    (h : √k * t ≤ 1 / 2) : |tanK η k t - exactTan k t| ≤ k ^ 2 * t ^ 5 / 4 := by
  rcases hk0.eq_or_lt with h0 | h0
  · subst h0
    rw [tan_small hk, exactTan, if_neg (lt_irrefl _), if_neg (lt_irrefl _)]; simp
  · have hs := Real.sqrt_pos.2 h0
    have e := Real.sq_sqrt hk0
    obtain ⟨a, b⟩ := tan_taylor (mul_nonneg hs.le ht) h
    obtain ⟨e1, e2, e3⟩ := scale (t := t) hs
    rw [e] at e2 e3
    rw [tan_small hk, exactTan_of_pos h0, abs_of_pos h0]
    have : t + k * t ^ 3 / 3 - Real.tan (√k * t) / √k =
        -((Real.tan (√k * t) - (√k * t + (√k * t) ^ 3 / 3)) / √k) := by
      rw [e2]; nth_rewrite 1 [e1]; ring
    rw [this, abs_neg, abs_of_nonneg (div_nonneg a hs.le), e3]
    rw [div_right_comm, div_le_div_iff_of_pos_right hs]
    exact b

theorem artan_error_pos (hk0 : 0 ≤ k) (hk : |k| ≤ 1e-8) {t : ℝ} (ht : 0 ≤ t) :
    |artanK η k t - exactArtan k t| ≤ k ^ 2 * t ^ 5 / 5 := by
  rcases hk0.eq_or_lt with h0 | h0
  · subst h0
    rw [artan_small hk, exactArtan, if_neg (lt_irrefl _), if_neg (lt_irrefl _)]; simp
  · have hs := Real.sqrt_pos.2 h0
    have e := Real.sq_sqrt hk0
    obtain ⟨a, b⟩ := arctan_taylor (mul_nonneg hs.le ht)
    obtain ⟨e1, e2, e3⟩ := scale (t := t) hs
    rw [e] at e2 e3
    rw [artan_small hk, exactArtan_of_pos h0, abs_of_pos h0]
    have : t - k * t ^ 3 / 3 - Real.arctan (√k * t) / √k =
        -((Real.arctan (√k * t) - (√k * t - (√k * t) ^ 3 / 3)) / √k) := by
      rw [e2]; nth_rewrite 1 [e1]; ring
    rw [this, abs_neg, abs_of_nonneg (div_nonneg a hs.le), e3]
    rw [div_right_comm, div_le_div_iff_of_pos_right hs]
    exact b

/-- For negative curvature the value of `tan_k` is on the wrong side of `t`. -/
theorem tan_neg (hk0 : k < 0) (hk : |k| ≤ 1e-8) {t : ℝ} (ht : 0 < t) :
    exactTan k t < t ∧ t - |k| * t ^ 3 / 3 ≤ exactTan k t ∧ tanK η k t = t + |k| * t ^ 3 / 3 := by
  have hs := Real.sqrt_pos.2 (neg_pos.2 hk0)
  have e := Real.sq_sqrt (neg_pos.2 hk0).le
  obtain ⟨e1, e2, e3⟩ := scale (t := t) hs
  rw [e] at e2
  refine ⟨?_, ?_, tan_small hk t⟩
  · rw [exactTan_of_neg hk0, div_lt_iff₀ hs, mul_comm]
    rw [mul_comm t]
    exact tanh_lt_self (mul_pos hs ht)
  · rw [exactTan_of_neg hk0, abs_of_neg hk0, e2]
    have := NearFlat.tanh_ge (mul_pos hs ht).le
    have e4 : t - (√(-k) * t) ^ 3 / √(-k) / 3 = (√(-k) * t - (√(-k) * t) ^ 3 / 3) / √(-k) := by
      nth_rewrite 1 [e1]; ring
    rw [e4, div_le_div_iff_of_pos_right hs]
    exact this

/-- For negative curvature the value of `artan_k` is on the wrong side of `t`. -/
theorem artan_neg (hk0 : k < 0) (hk : |k| ≤ 1e-8) {t : ℝ} (ht : 0 < t) (hb : √(-k) * t < 1) :
    t < exactArtan k t ∧ (√(-k) * t ≤ 1 / 2 → exactArtan k t ≤ t + |k| * t ^ 3 / 2) ∧
      artanK η k t = t - |k| * t ^ 3 / 3 := by
  have hs := Real.sqrt_pos.2 (neg_pos.2 hk0)
  have e := Real.sq_sqrt (neg_pos.2 hk0).le
  obtain ⟨e1, e2, e3⟩ := scale (t := t) hs
  rw [e] at e2
  refine ⟨?_, fun h => ?_, artan_small hk t⟩
  · rw [exactArtan_of_neg hk0, lt_div_iff₀ hs, mul_comm t]
    exact lt_artanh (mul_pos hs ht) hb
  · rw [exactArtan_of_neg hk0, abs_of_neg hk0, e2]
    have := artanh_le (mul_pos hs ht).le h
    have e4 : t + (√(-k) * t) ^ 3 / √(-k) / 2 = (√(-k) * t + (√(-k) * t) ^ 3 / 2) / √(-k) := by
      nth_rewrite 1 [e1]; ring
    rw [e4, div_le_div_iff_of_pos_right hs]
    exact this

theorem nrm_smul' (c : ℝ) (u : Vec n) : nrm (c • u) = |c| * nrm u := nrm_smul c u

/-- **C96** (flat limit): for `|k| ≤ 1e-8` the exponential and logarithmic map at the origin differ
from the identity, and distances from the flat formula, at most by terms linear in `k`.  The floor
`1e-15` of the norms appears in the bounds. -/
theorem C96_flat_limit (hk : |k| ≤ 1e-8) (x y : Vec n) :
    nrm (expmap0 η k x - x) ≤ |k| / 3 * max (nrm x) 1e-15 ^ 2 * nrm x ∧
    nrm (logmap0 η k x - x) ≤ |k| / 3 * max (nrm x) 1e-15 ^ 2 * nrm x ∧
    |dist0 η k x - 2 * nrm x| ≤ 2 / 3 * |k| * nrm x ^ 3 ∧
    |dist η k x y - 2 * nrm (mobiusAdd k (-x) y)| ≤ 2 / 3 * |k| * nrm (mobiusAdd k (-x) y) ^ 3 := by
  have hm : (0 : ℝ) < max (nrm x) 1e-15 := lt_max_of_lt_right (by norm_num)
  have hd : ∀ r : ℝ, 0 ≤ r → |2.0 * artanK η k r - 2 * r| ≤ 2 / 3 * |k| * r ^ 3 := by
    intro r hr
    rw [artan_small hk]
    have : (2.0 : ℝ) * (r - |k| * r ^ 3 / 3) - 2 * r = -(2 / 3 * |k| * r ^ 3) := by norm_num; ring
    rw [this, abs_neg, abs_of_nonneg (by positivity)]
  refine ⟨?_, ?_, hd _ (nrm_nonneg x), hd _ (nrm_nonneg _)⟩
  · have : expmap0 η k x - x = (|k| / 3 * max (nrm x) 1e-15 ^ 2) • x := by
      simp only [expmap0, tan_small hk]
      generalize max (nrm x) 1e-15 = m at hm
      funext j
      simp only [Pi.sub_apply, Pi.smul_apply, smul_eq_mul]
      field_simp; ring
    rw [this, nrm_smul', abs_of_nonneg (by positivity)]
  · have : logmap0 η k x - x = (-(|k| / 3 * max (nrm x) 1e-15 ^ 2)) • x := by
      simp only [logmap0, artan_small hk]
      generalize max (nrm x) 1e-15 = m at hm
      funext j
      simp only [Pi.sub_apply, Pi.smul_apply, smul_eq_mul]
      field_simp; ring
    rw [this, nrm_smul', abs_neg, abs_of_nonneg (by positivity)]

/-- **C96** (partial): for `0 ≤ k ≤ 1e-8` the results are the exact ones up to terms quadratic in `k`.
Missing: negative curvatures, see the counterexamples. -/
theorem C96_positive_partial (hk0 : 0 ≤ k) (hk : k ≤ 1e-8) (x y : Vec n) :
    |dist0 η k x - 2 * exactArtan k (nrm x)| ≤ 2 / 5 * k ^ 2 * nrm x ^ 5 ∧
    |dist η k x y - 2 * exactArtan k (nrm (mobiusAdd k (-x) y))| ≤
      2 / 5 * k ^ 2 * nrm (mobiusAdd k (-x) y) ^ 5 ∧
    (1e-15 ≤ nrm x →
      nrm (logmap0 η k x - (exactArtan k (nrm x) / nrm x) • x) ≤ k ^ 2 * nrm x ^ 5 / 5 ∧
      (√k * nrm x ≤ 1 / 2 →
        nrm (expmap0 η k x - (exactTan k (nrm x) / nrm x) • x) ≤ k ^ 2 * nrm x ^ 5 / 4)) := by
  have hk' : |k| ≤ 1e-8 := by rwa [abs_of_nonneg hk0]
  have hd : ∀ r : ℝ, 0 ≤ r → |2.0 * artanK η k r - 2 * exactArtan k r| ≤ 2 / 5 * k ^ 2 * r ^ 5 := by
    intro r hr
    have h := artan_error_pos (η := η) hk0 hk' hr
    have : (2.0 : ℝ) * artanK η k r - 2 * exactArtan k r = 2 * (artanK η k r - exactArtan k r) := by
      norm_num; ring
    rw [this, abs_mul, abs_two]
    linarith
  refine ⟨hd _ (nrm_nonneg x), hd _ (nrm_nonneg _), fun hx => ?_⟩
  have hm : max (nrm x) 1e-15 = nrm x := max_eq_left hx
  have hx0 : 0 < nrm x := lt_of_lt_of_le (by norm_num) hx
  have key : ∀ a b c : ℝ, |a - b| ≤ c → nrm (a • ((nrm x)⁻¹ • x) - (b / nrm x) • x) ≤ c := by
    intro a b c h
    have : a • ((nrm x)⁻¹ • x) - (b / nrm x) • x = ((a - b) / nrm x) • x := by
      funext j
      simp only [Pi.sub_apply, Pi.smul_apply, smul_eq_mul]
      field_simp
    rw [this, nrm_smul', abs_div, abs_of_pos hx0, div_mul_cancel₀ _ hx0.ne']
    exact h
  refine ⟨?_, fun h => ?_⟩
  · simp only [logmap0, hm]
    exact key _ _ _ (artan_error_pos hk0 hk' hx0.le)
  · simp only [expmap0, hm]
    exact key _ _ _ (tan_error_pos hk0 hk' hx0.le h)

/-- **C96** (partial): for every `|k| ≤ 1e-8`, negative ones included, the distance to the origin is
the exact one up to a term linear in `k`. -/
theorem C96_linear_partial (hk : |k| ≤ 1e-8) (x : Vec n) (hx : √|k| * nrm x ≤ 1 / 2) :
    |dist0 η k x - 2 * exactArtan k (nrm x)| ≤ 5 / 3 * |k| * nrm x ^ 3 := by
  have hn := nrm_nonneg x
  rcases le_or_gt 0 k with h0 | h0
  · have h := (C96_positive_partial (η := η) h0 (by rwa [abs_of_nonneg h0] at hk) x x).1
    rw [abs_of_nonneg h0] at hx ⊢
    refine h.trans ?_
    have h1 : k * nrm x ^ 2 ≤ 1 / 4 := by
      have := mul_self_le_mul_self (by positivity) hx
      have e := Real.mul_self_sqrt h0
      have : √k * nrm x * (√k * nrm x) = k * nrm x ^ 2 := by
        calc _ = √k * √k * nrm x ^ 2 := by ring
          _ = _ := by rw [e]
      linarith
    have h2 : 0 ≤ k * nrm x ^ 3 := by positivity
    have : k ^ 2 * nrm x ^ 5 = (k * nrm x ^ 2) * (k * nrm x ^ 3) := by ring
    nlinarith
  · rw [abs_of_neg h0] at hx
    rcases hn.eq_or_lt with h1 | h1
    · simp [dist0, ← h1, artanK_zero, exactArtan, h0.not_gt, h0]
    · obtain ⟨a, b, c⟩ := artan_neg (η := η) h0 hk h1 (by linarith)
      have b := b hx
      rw [dist0, c, abs_le]
      have : 0 ≤ |k| * nrm x ^ 3 := by positivity
      norm_num
      constructor <;> linarith

/-- **C96** fails for negative curvatures close to zero: the exact distance to the origin is larger
than in flat space, the computed one is smaller, and the error is not quadratic but at least linear
in `k`.  Likewise the exponential map goes further than in flat space instead of less far. -/
theorem C96_counterexample_sign (hk0 : k < 0) (hk : |k| ≤ 1e-8) (x : Vec n) (hx : 1e-15 ≤ nrm x)
    (hb : √(-k) * nrm x < 1) :
    dist0 η k x < 2 * nrm x ∧ 2 * nrm x < 2 * exactArtan k (nrm x) ∧
    2 / 3 * |k| * nrm x ^ 3 < |dist0 η k x - 2 * exactArtan k (nrm x)| ∧
    nrm x < nrm (expmap0 η k x) ∧ exactTan k (nrm x) < nrm x := by
  have hx0 : 0 < nrm x := lt_of_lt_of_le (by norm_num) hx
  have hk1 : 0 < |k| := abs_pos.2 hk0.ne
  obtain ⟨a, -, c⟩ := artan_neg (η := η) hk0 hk hx0 hb
  obtain ⟨a', -, c'⟩ := tan_neg (η := η) hk0 hk hx0
  have hp : 0 < |k| * nrm x ^ 3 := by positivity
  have hd : dist0 η k x = 2 * (nrm x - |k| * nrm x ^ 3 / 3) := by
    rw [dist0, c]; norm_num
  refine ⟨by rw [hd]; linarith, by linarith, ?_, ?_, a'⟩
  · rw [hd]
    refine lt_abs.2 (Or.inr ?_)
    linarith
  · simp only [expmap0, max_eq_left hx, c']
    rw [nrm_smul', nrm_smul', abs_of_pos (by linarith), abs_of_pos (inv_pos.2 hx0),
      inv_mul_cancel₀ hx0.ne', mul_one]
    linarith

/-- **C96** fails for a learnable curvature: between `-1e-8` and `0` the derivative of the computed
distance in `k` is positive, while the exact distance decreases in `k` (towards the flat value). -/
theorem C96_counterexample_derivative (hk0 : k < 0) (hk : -1e-8 < k) (x : Vec n)
    (hx : 0 < nrm x) :
    HasDerivAt (fun k => dist0 η k x) (2 / 3 * nrm x ^ 3) k ∧ 0 < 2 / 3 * nrm x ^ 3 ∧
      ∀ k' < 0, √(-k') * nrm x < 1 → 2 * exactArtan 0 (nrm x) < 2 * exactArtan k' (nrm x) := by
  refine ⟨?_, by positivity, fun k' hk' hb => ?_⟩
  · have he : (fun k => dist0 η k x) =ᶠ[nhds k]
        fun k => 2 * (nrm x + k * nrm x ^ 3 / 3) := by
      filter_upwards [Ioo_mem_nhds hk hk0] with j hj
      rw [dist0, artan_small (by rw [abs_of_neg hj.2]; linarith [hj.1]), abs_of_neg hj.2]
      norm_num; ring
    have : HasDerivAt (fun k : ℝ => 2 * (nrm x + k * nrm x ^ 3 / 3)) (2 / 3 * nrm x ^ 3) k := by
      have h1 : HasDerivAt (fun k : ℝ => k * nrm x ^ 3 / 3) (1 * nrm x ^ 3 / 3) k :=
        ((hasDerivAt_id k).mul_const _).div_const 3
      refine ((h1.const_add (nrm x)).const_mul 2).congr_deriv ?_
      ring
    exact this.congr_of_eventuallyEq he
  · have hs := Real.sqrt_pos.2 (neg_pos.2 hk')
    have : nrm x < exactArtan k' (nrm x) := by
      rw [exactArtan_of_neg hk', lt_div_iff₀ hs, mul_comm (nrm x)]
      exact lt_artanh (mul_pos hs hx) hb
    rw [show exactArtan 0 (nrm x) = nrm x by simp [exactArtan]]
    linarith

/-- **C96** fails far from the origin: for every nonzero `k` with `|k| ≤ 1e-8` points with
`|k| |x|² > 3` have a negative distance from the origin. -/
theorem C96_counterexample_negative (hk : |k| ≤ 1e-8) (x : Vec n) (hx : 3 < |k| * nrm x ^ 2) :
    dist0 η k x < 0 := by
  have hn : 0 < nrm x := by
    rcases (nrm_nonneg x).eq_or_lt with h | h
    · rw [← h] at hx; norm_num at hx
    · exact h
  rw [dist0, artan_small hk]
  have : |k| * nrm x ^ 3 = (|k| * nrm x ^ 2) * nrm x := by ring
  norm_num
  nlinarith

/-- **C96** (round trip): for `|k| ≤ 1e-8` of either sign, the logarithm of the exponential is the
vector up to terms quadratic in `k`. -/
theorem C96_roundtrip (hk : |k| ≤ 1e-8) (u : Vec n) (hu : 1e-15 ≤ nrm u)
    (hb : |k| * nrm u ^ 2 ≤ 3) :
    nrm (logmap0 η k (expmap0 η k u) - u) ≤ 7 / 9 * k ^ 2 * nrm u ^ 5 := by
  have hu0 : 0 < nrm u := lt_of_lt_of_le (by norm_num) hu
  have he : expmap0 η k u = (1 + |k| / 3 * nrm u ^ 2) • u := by
    simp only [expmap0, tan_small hk, max_eq_left hu]
    funext j
    simp only [Pi.smul_apply, smul_eq_mul]
    field_simp
  have hc : (1 : ℝ) ≤ 1 + |k| / 3 * nrm u ^ 2 := by
    have : 0 ≤ |k| / 3 * nrm u ^ 2 := by positivity
    linarith
  have hn : nrm (expmap0 η k u) = (1 + |k| / 3 * nrm u ^ 2) * nrm u := by
    rw [he, nrm_smul', abs_of_pos (by linarith)]
  have hm : max (nrm (expmap0 η k u)) 1e-15 = nrm (expmap0 η k u) := by
    refine max_eq_left (hu.trans ?_)
    rw [hn]; nlinarith
  have hv0 : 0 < nrm (expmap0 η k u) := by rw [hn]; positivity
  have hl : logmap0 η k (expmap0 η k u) =
      (1 - |k| / 3 * nrm (expmap0 η k u) ^ 2) • expmap0 η k u := by
    simp only [logmap0, artan_small hk, hm]
    generalize nrm (expmap0 η k u) = v at hv0
    funext j
    simp only [Pi.smul_apply, smul_eq_mul]
    field_simp
  set c := |k| / 3 * nrm u ^ 2 with hcd
  have hc0 : 0 ≤ c := by positivity
  have hc1 : c ≤ 1 := by rw [hcd]; linarith
  have hd : logmap0 η k (expmap0 η k u) - u = (-(c ^ 2 * (3 + 3 * c + c ^ 2))) • u := by
    rw [hl, hn, he]
    funext j
    simp only [Pi.sub_apply, Pi.smul_apply, smul_eq_mul]
    have : |k| / 3 * ((1 + c) * nrm u) ^ 2 = (1 + c) ^ 2 * c := by rw [hcd]; ring
    rw [this]
    ring
  rw [hd, nrm_smul', abs_neg, abs_of_nonneg (by positivity)]
  have h7 : 3 + 3 * c + c ^ 2 ≤ 7 := by nlinarith
  have e2 : c ^ 2 * nrm u = k ^ 2 * nrm u ^ 5 / 9 := by
    rw [hcd, mul_pow, div_pow, sq_abs]; ring
  calc c ^ 2 * (3 + 3 * c + c ^ 2) * nrm u = (3 + 3 * c + c ^ 2) * (c ^ 2 * nrm u) := by ring
    _ ≤ 7 * (c ^ 2 * nrm u) := by
        apply mul_le_mul_of_nonneg_right h7; positivity
    _ = _ := by rw [e2]; ring

/-- The hypotheses are met by the point `(1, 0)` with `k = -1e-9`. -/
example : dist0 1e-15 (-1e-9) ![1, 0] < 2 := by
  have h : nrm (![1, 0] : Vec 2) = 1 := by simp [nrm, dotProduct]
  have := (C96_counterexample_sign (η := 1e-15) (k := -1e-9) (by norm_num)
    (by rw [abs_of_neg] <;> norm_num) ![1, 0] (by rw [h]; norm_num) (by
      rw [h, mul_one, Real.sqrt_lt' one_pos]; norm_num)).1
  rwa [h, mul_one] at this

end Geoopt.C96
