import Verif.Lemmas.Mobius
import Verif.Spec.Stereo
import Mathlib.Analysis.SpecialFunctions.Artanh
import Mathlib.Analysis.Complex.ExponentialBounds
import Mathlib.Analysis.Real.Pi.Bounds

namespace Geoopt.Stereo
open Geoopt

lemma tanh_eq_exp (x : ℝ) : Real.tanh x = 1 - 2 / (Real.exp (2 * x) + 1) := by
  have h1 : 0 < Real.exp x := Real.exp_pos x
  rw [Real.tanh_eq_sinh_div_cosh, Real.sinh_eq, Real.cosh_eq, Real.exp_neg,
    show (2 : ℝ) * x = x + x by ring, Real.exp_add]
  field_simp
  ring

lemma tanh_strictMono : StrictMono Real.tanh := by
  intro x y h
  rw [tanh_eq_exp, tanh_eq_exp]
  have : Real.exp (2 * x) < Real.exp (2 * y) := Real.exp_lt_exp.2 (by linarith)
  have h2 := Real.exp_pos (2 * x)
  have : 2 / (Real.exp (2 * y) + 1) < 2 / (Real.exp (2 * x) + 1) := by
    apply div_lt_div_of_pos_left <;> linarith
  linarith

lemma tanh_mono : Monotone Real.tanh := tanh_strictMono.monotone

lemma tanh_lt_one' (x : ℝ) : Real.tanh x < 1 := by
  rw [tanh_eq_exp]
  have := Real.exp_pos (2 * x)
  have : 0 < 2 / (Real.exp (2 * x) + 1) := by positivity
  linarith

lemma neg_one_lt_tanh' (x : ℝ) : -1 < Real.tanh x := by
  have := tanh_lt_one' (-x)
  rw [Real.tanh_neg] at this; linarith

lemma tanh_nonneg' {x : ℝ} (h : 0 ≤ x) : 0 ≤ Real.tanh x := by
  have := tanh_mono h
  simpa using this

lemma tanh_eight_le : Real.tanh 8 ≤ 1 - 1e-7 := by
  rw [tanh_eq_exp]
  have h : Real.exp (2 * 8) ≤ 1e7 := by
    rw [show (2 * 8 : ℝ) = ((16 : ℕ) : ℝ) * 1 by norm_num, Real.exp_nat_mul]
    calc Real.exp 1 ^ 16 ≤ 2.7182818286 ^ 16 :=
          pow_le_pow_left₀ (Real.exp_pos 1).le Real.exp_one_lt_d9.le 16
      _ ≤ 1e7 := by norm_num
  have hp := Real.exp_pos (2 * 8)
  have : 2 / ((1e7 : ℝ) + 1) ≤ 2 / (Real.exp (2 * 8) + 1) := by
    apply div_le_div_of_nonneg_left <;> linarith
  have h3 : (1e-7 : ℝ) ≤ 2 / ((1e7 : ℝ) + 1) := by norm_num
  linarith

lemma le_tanh_fifteen : 1 - 1e-7 ≤ Real.tanh 15 := by
  rw [tanh_eq_exp]
  have h : (2 : ℝ) ^ 30 ≤ Real.exp (2 * 15) := by
    rw [show (2 * 15 : ℝ) = ((30 : ℕ) : ℝ) * 1 by norm_num, Real.exp_nat_mul]
    apply pow_le_pow_left₀ (by norm_num)
    have := Real.add_one_le_exp (1 : ℝ)
    linarith
  have : 2 / (Real.exp (2 * 15) + 1) ≤ 2 / ((2 : ℝ) ^ 30 + 1) := by
    apply div_le_div_of_nonneg_left <;> linarith
  have h3 : 2 / ((2 : ℝ) ^ 30 + 1) ≤ 1e-7 := by norm_num
  linarith

/-- `tanh z ≥ z/(1+z)` for `z ≥ 0` -/
lemma tanh_ge {z : ℝ} (h : 0 ≤ z) : z / (1 + z) ≤ Real.tanh z := by
  rw [tanh_eq_exp]
  have h1 := Real.add_one_le_exp (2 * z)
  have : 2 / (Real.exp (2 * z) + 1) ≤ 2 / (2 * z + 2) := by
    apply div_le_div_of_nonneg_left <;> linarith
  have h3 : z / (1 + z) = 1 - 2 / (2 * z + 2) := by field_simp; ring
  linarith

lemma tanhC_eq {x : ℝ} (h1 : -15 ≤ x) (h2 : x ≤ 15) : tanhC x = Real.tanh x := by
  rw [tanhC, clamp_of_mem h1 h2]

lemma tanhC_zero : tanhC 0 = 0 := by rw [tanhC_eq] <;> norm_num

lemma tanhC_neg (x : ℝ) : tanhC (-x) = -tanhC x := by
  unfold tanhC clamp
  rw [← Real.tanh_neg]
  congr 1
  rcases le_total x 15 with h | h <;> rcases le_total (-15) x with h' | h'
  · rw [max_eq_left (by linarith), min_eq_left (by linarith), max_eq_left h', min_eq_left h]
  · rw [max_eq_left (by linarith), min_eq_right (by linarith), max_eq_right h', min_eq_left
      (by norm_num)]; norm_num
  · rw [max_eq_right (by linarith), min_eq_left (by norm_num), max_eq_left h', min_eq_right h]
  · linarith

lemma tanhC_nonneg {x : ℝ} (h : 0 ≤ x) : 0 ≤ tanhC x := by
  unfold tanhC
  apply tanh_nonneg'
  unfold clamp
  exact le_min (le_max_of_le_left h) (by norm_num)

lemma abs_tanhC_lt (x : ℝ) : |tanhC x| < 1 := abs_lt.2 ⟨neg_one_lt_tanh' _, tanh_lt_one' _⟩

lemma artanhC_eq_artanh {y : ℝ} :
    artanhC y = Real.artanh (clamp (-1 + 1e-7) (1 - 1e-7) y) := by
  have h := clamp_mem (lo := -1 + 1e-7) (hi := 1 - 1e-7) (x := y) (by norm_num)
  set z := clamp (-1 + 1e-7) (1 - 1e-7) y with hz
  have hz1 : z < 1 := by linarith [h.2, show (1e-7 : ℝ) > 0 by norm_num]
  have hz2 : -1 < z := by linarith [h.1, show (1e-7 : ℝ) > 0 by norm_num]
  rw [Real.artanh_eq_half_log ⟨hz2.le, hz1.le⟩, Real.log_div (by linarith) (by linarith)]
  simp only [artanhC, ← hz]
  ring

lemma artanhC_eq {y : ℝ} (h1 : -1 + 1e-7 ≤ y) (h2 : y ≤ 1 - 1e-7) :
    artanhC y = Real.artanh y := by
  rw [artanhC_eq_artanh, clamp_of_mem h1 h2]

lemma clampA_mem (y : ℝ) : clamp (-1 + 1e-7) (1 - 1e-7) y ∈ Set.Ioo (-1 : ℝ) 1 := by
  have h := clamp_mem (lo := -1 + 1e-7) (hi := 1 - 1e-7) (x := y) (by norm_num)
  have h7 : (1e-7 : ℝ) > 0 := by norm_num
  exact ⟨by linarith [h.1], by linarith [h.2]⟩

lemma artanhC_mono {x y : ℝ} (h : x ≤ y) : artanhC x ≤ artanhC y := by
  rw [artanhC_eq_artanh, artanhC_eq_artanh,
    Real.artanh_le_artanh_iff (clampA_mem x) (clampA_mem y)]
  exact clamp_mono h

lemma artanhC_zero : artanhC 0 = 0 := by
  rw [artanhC_eq (by norm_num) (by norm_num), Real.artanh_zero]

lemma artanhC_nonneg {x : ℝ} (h : 0 ≤ x) : 0 ≤ artanhC x := by
  rw [← artanhC_zero]; exact artanhC_mono h

lemma artanhC_pos {x : ℝ} (h : 0 < x) : 0 < artanhC x := by
  rw [artanhC_eq_artanh]
  apply Real.artanh_pos
  refine ⟨?_, (clampA_mem x).2⟩
  unfold clamp
  exact lt_min (lt_max_of_lt_left h) (by norm_num)

lemma artanhC_le (x : ℝ) : artanhC x ≤ 15 := by
  have h1 : artanhC x ≤ Real.artanh (1 - 1e-7) := by
    rw [artanhC_eq_artanh, Real.artanh_le_artanh_iff (clampA_mem x)
      ⟨by norm_num, by norm_num⟩]
    exact (clamp_mem (by norm_num)).2
  refine h1.trans ?_
  rw [← Real.artanh_tanh 15, Real.artanh_le_artanh_iff ⟨by norm_num, by norm_num⟩
      ⟨neg_one_lt_tanh' _, tanh_lt_one' _⟩]
  exact le_tanh_fifteen

lemma tanhC_artanhC {y : ℝ} (h1 : 0 ≤ y) (h2 : y ≤ 1 - 1e-7) : tanhC (artanhC y) = y := by
  have e := artanhC_le y
  have h0 := artanhC_nonneg h1
  rw [tanhC_eq (by linarith) e, artanhC_eq (by linarith [show (1e-7:ℝ) < 1 by norm_num]) h2]
  exact Real.tanh_artanh ⟨by linarith, by linarith [show (1e-7:ℝ) > 0 by norm_num]⟩

lemma le_fifteen_of_tanh {t : ℝ} (h : Real.tanh t ≤ 1 - 1e-7) : t ≤ 15 := by
  by_contra h2
  have := tanh_strictMono (not_le.1 h2)
  linarith [le_tanh_fifteen]

lemma artanhC_tanhC {t : ℝ} (h1 : 0 ≤ t) (this : Real.tanh t ≤ 1 - 1e-7) :
    artanhC (tanhC t) = t := by
  rw [tanhC_eq (by linarith) (le_fifteen_of_tanh this)]
  rw [artanhC_eq (by linarith [tanh_nonneg' h1, show (1e-7:ℝ) < 1 by norm_num]) this,
    Real.artanh_tanh]

lemma absZeroGrad_eq (x : ℝ) : absZeroGrad x = |x| := mul_usign x

lemma kSqrt_nonneg (η k : ℝ) : 0 ≤ kSqrt η k := Real.sqrt_nonneg _

lemma kSqrt_pos {η k : ℝ} (hη : 0 ≤ η) (hk : k ≠ 0) : 0 < kSqrt η k := by
  apply Real.sqrt_pos.2
  unfold sabs
  have := abs_pos.2 hk
  linarith

lemma kSqrt_sq {η : ℝ} (hη : 0 ≤ η) (k : ℝ) : kSqrt η k ^ 2 = |k| + η :=
  Real.sq_sqrt (add_nonneg (abs_nonneg k) hη)

lemma not_kZero_of_neg {k : ℝ} (h : k < -1e-8) : ¬ KZero k := by
  unfold KZero; rw [abs_of_neg (by linarith [show (1e-8:ℝ) > 0 by norm_num])]; linarith

lemma not_kZero_of_pos {k : ℝ} (h : 1e-8 < k) : ¬ KZero k := by
  unfold KZero; rw [abs_of_pos (by linarith [show (1e-8:ℝ) > 0 by norm_num])]; linarith

lemma kZero_zero : KZero 0 := by unfold KZero; norm_num

lemma tanK_zero_curv (η x : ℝ) : tanK η 0 x = x := by
  rw [tanK, if_pos kZero_zero, tanKTaylor, absZeroGrad]; simp

lemma artanK_zero_curv (η x : ℝ) : artanK η 0 x = x := by
  rw [artanK, if_pos kZero_zero, artanKTaylor, absZeroGrad]; simp

lemma arsinK_zero_curv (η x : ℝ) : arsinK η 0 x = x := by
  rw [arsinK, if_pos kZero_zero, arsinKTaylor, absZeroGrad]; simp

lemma tanK_neg_curv {η k : ℝ} (h : k < -1e-8) (x : ℝ) :
    tanK η k x = (kSqrt η k)⁻¹ * tanhC (x * kSqrt η k) := by
  rw [tanK, if_neg (not_kZero_of_neg h), if_pos (by linarith [show (1e-8:ℝ) > 0 by norm_num])]

lemma artanK_neg_curv {η k : ℝ} (h : k < -1e-8) (x : ℝ) :
    artanK η k x = (kSqrt η k)⁻¹ * artanhC (x * kSqrt η k) := by
  rw [artanK, if_neg (not_kZero_of_neg h), if_pos (by linarith [show (1e-8:ℝ) > 0 by norm_num])]

lemma tanK_pos_curv {η k : ℝ} (h : 1e-8 < k) (x : ℝ) :
    tanK η k x = (kSqrt η k)⁻¹ * Real.tan (min (x * kSqrt η k) 1e38) := by
  rw [tanK, if_neg (not_kZero_of_pos h),
    if_neg (by linarith [show (1e-8:ℝ) > 0 by norm_num])]

lemma artanK_pos_curv {η k : ℝ} (h : 1e-8 < k) (x : ℝ) :
    artanK η k x = (kSqrt η k)⁻¹ * Real.arctan (x * kSqrt η k) := by
  rw [artanK, if_neg (not_kZero_of_pos h),
    if_neg (by linarith [show (1e-8:ℝ) > 0 by norm_num])]

lemma pi_half_lt : Real.pi / 2 < 1e38 := by
  have := Real.pi_lt_four; linarith [show (4:ℝ) < 1e38 by norm_num]

lemma e8 : (0:ℝ) < 1e-8 := by norm_num

lemma tanK_artanK {η k r : ℝ} (hη : 0 ≤ η) (h : RadiusOk η k r) : tanK η k (artanK η k r) = r := by
  obtain ⟨hr, rfl | hk | ⟨hk, hs⟩⟩ := h
  · rw [artanK_zero_curv, tanK_zero_curv]
  · have hp := kSqrt_pos hη (show k ≠ 0 by have := e8; intro h; linarith)
    rw [artanK_pos_curv hk, tanK_pos_curv hk]
    rw [mul_comm (kSqrt η k)⁻¹ (Real.arctan _), mul_assoc (Real.arctan _),
      inv_mul_cancel₀ hp.ne', mul_one, min_eq_left ((Real.arctan_lt_pi_div_two _).trans pi_half_lt).le, Real.tan_arctan]
    field_simp
  · have hp := kSqrt_pos hη (show k ≠ 0 by have := e8; intro h; linarith)
    rw [artanK_neg_curv hk, tanK_neg_curv hk]
    rw [mul_comm (kSqrt η k)⁻¹ (artanhC _), mul_assoc (artanhC _), inv_mul_cancel₀ hp.ne',
      mul_one, tanhC_artanhC (mul_nonneg hr hp.le) hs]
    field_simp

lemma artanK_tanK {η k t : ℝ} (hη : 0 ≤ η) (h : HalfLenOk η k t) : artanK η k (tanK η k t) = t := by
  obtain ⟨hr, rfl | ⟨hk, hs⟩ | ⟨hk, hs⟩⟩ := h
  · rw [tanK_zero_curv, artanK_zero_curv]
  · have hp := kSqrt_pos hη (show k ≠ 0 by have := e8; intro h; linarith)
    rw [artanK_pos_curv hk, tanK_pos_curv hk]
    change t * kSqrt η k < _ at hs
    rw [min_eq_left (hs.trans pi_half_lt).le, mul_comm (kSqrt η k)⁻¹ (Real.tan _), mul_assoc,
      inv_mul_cancel₀ hp.ne', mul_one, Real.arctan_tan
        (by have := mul_nonneg hr hp.le; have := Real.pi_pos; linarith) hs]
    field_simp
  · have hp := kSqrt_pos hη (show k ≠ 0 by have := e8; intro h; linarith)
    change Real.tanh (t * kSqrt η k) ≤ _ at hs
    rw [artanK_neg_curv hk, tanK_neg_curv hk]
    rw [mul_comm (kSqrt η k)⁻¹ (tanhC _), mul_assoc, inv_mul_cancel₀ hp.ne', mul_one,
      artanhC_tanhC (mul_nonneg hr hp.le) hs]
    field_simp

lemma artanK_zero (η k : ℝ) : artanK η k 0 = 0 := by
  unfold artanK artanKTaylor
  split_ifs <;> simp [artanhC_zero]

lemma tanK_zero (η k : ℝ) : tanK η k 0 = 0 := by
  unfold tanK tanKTaylor
  split_ifs <;> simp [tanhC_zero]
  right
  rw [min_eq_left (by norm_num)]; simp

lemma artanK_nonneg {η k r : ℝ} (h : RadiusOk η k r) : 0 ≤ artanK η k r := by
  obtain ⟨hr, rfl | hk | ⟨hk, hs⟩⟩ := h
  · rwa [artanK_zero_curv]
  · rw [artanK_pos_curv hk]
    have := kSqrt_nonneg η k
    have : 0 ≤ Real.arctan (r * kSqrt η k) := Real.arctan_nonneg.2 (mul_nonneg hr this)
    positivity
  · rw [artanK_neg_curv hk]
    have h1 := kSqrt_nonneg η k
    have : 0 ≤ artanhC (r * kSqrt η k) := artanhC_nonneg (mul_nonneg hr h1)
    positivity

lemma tanK_nonneg {η k t : ℝ} (h : HalfLenOk η k t) : 0 ≤ tanK η k t := by
  obtain ⟨hr, rfl | ⟨hk, hs⟩ | ⟨hk, hs⟩⟩ := h
  · rwa [tanK_zero_curv]
  · rw [tanK_pos_curv hk]
    have h1 := kSqrt_nonneg η k
    change t * kSqrt η k < _ at hs
    rw [min_eq_left (hs.trans pi_half_lt).le]
    have : 0 ≤ Real.tan (t * kSqrt η k) :=
      Real.tan_nonneg_of_nonneg_of_le_pi_div_two (mul_nonneg hr h1) hs.le
    positivity
  · rw [tanK_neg_curv hk]
    have h1 := kSqrt_nonneg η k
    have : 0 ≤ tanhC (t * kSqrt η k) := tanhC_nonneg (mul_nonneg hr h1)
    positivity

/-- a radius at which `artan_k` is unclamped gives a half-distance in range -/
lemma halfLenOk_artanK {η k r c : ℝ} (hη : 0 ≤ η) (h : RadiusOk η k r) (hc : 0 ≤ c)
    (hc1 : c ≤ 1) : HalfLenOk η k (c * artanK η k r) := by
  have h0 := artanK_nonneg h
  refine ⟨mul_nonneg hc h0, ?_⟩
  have hle : c * artanK η k r ≤ artanK η k r := by nlinarith
  obtain ⟨hr, hk | hk | ⟨hk, hs⟩⟩ := h
  · exact Or.inl hk
  · refine Or.inr (Or.inl ⟨hk, ?_⟩)
    change _ * kSqrt η k < _
    have hp := kSqrt_pos hη (show k ≠ 0 by have := e8; intro h; linarith)
    refine (mul_le_mul_of_nonneg_right hle hp.le).trans_lt ?_
    rw [artanK_pos_curv hk, mul_comm (kSqrt η k)⁻¹ (Real.arctan _), mul_assoc,
      inv_mul_cancel₀ hp.ne', mul_one]
    exact Real.arctan_lt_pi_div_two _
  · refine Or.inr (Or.inr ⟨hk, ?_⟩)
    change Real.tanh (_ * kSqrt η k) ≤ _
    have hp := kSqrt_pos hη (show k ≠ 0 by have := e8; intro h; linarith)
    refine (tanh_mono (mul_le_mul_of_nonneg_right hle hp.le)).trans ?_
    change r * kSqrt η k ≤ _ at hs
    have h7 : (1e-7 : ℝ) > 0 := by norm_num
    have h71 : (1e-7 : ℝ) < 1 := by norm_num
    have hr0 := mul_nonneg hr hp.le
    rw [artanK_neg_curv hk, mul_comm (kSqrt η k)⁻¹ (artanhC _), mul_assoc,
      inv_mul_cancel₀ hp.ne', mul_one, artanhC_eq (by linarith) hs,
      Real.tanh_artanh ⟨by linarith, by linarith⟩]
    exact hs

lemma halfLenOk_of_le_eight {η k t : ℝ} (hk : k < -1e-8) (h0 : 0 ≤ t)
    (h : t * Real.sqrt (|k| + η) ≤ 8) : HalfLenOk η k t :=
  ⟨h0, Or.inr (Or.inr ⟨hk, (tanh_mono h).trans tanh_eight_le⟩)⟩

/-- `artanh z ≥ z/2` on the unclamped range -/
lemma half_le_artanhC {z : ℝ} (h0 : 0 ≤ z) (h1 : z ≤ 1 - 1e-7) : z / 2 ≤ artanhC z := by
  have h7 : (1e-7 : ℝ) > 0 := by norm_num
  have h71 : (1e-7 : ℝ) < 1 := by norm_num
  simp only [artanhC]
  rw [clamp_of_mem (by linarith) h1]
  have a1 : 0 ≤ Real.log (1 + z) := Real.log_nonneg (by linarith)
  have a2 := Real.log_le_sub_one_of_pos (show 0 < 1 - z by linarith)
  norm_num
  linarith

lemma half_le_artanK {η k r : ℝ} (hη : 0 ≤ η) (hk : k < -1e-8) (h : RadiusOk η k r) :
    r / 2 ≤ artanK η k r := by
  have h8 := e8
  obtain ⟨hr, hk' | hk' | ⟨hk, hs⟩⟩ := h
  · linarith
  · linarith
  · change r * kSqrt η k ≤ _ at hs
    have hp := kSqrt_pos hη (show k ≠ 0 by intro h; linarith)
    rw [artanK_neg_curv hk]
    have := half_le_artanhC (mul_nonneg hr hp.le) hs
    rw [inv_mul_eq_div, le_div_iff₀ hp]
    linarith

end Geoopt.Stereo
