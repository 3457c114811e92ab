import Verif.Props.C17

/-!
# C17 (positive and near-zero curvature): the sign of the distance to a hyperplane

For `k ≥ 0` the distance goes through `torch.asin`, which returns NaN outside `[-1, 1]`
while `Real.arcsin` saturates there.  So every statement about `k > 1e-8` is made
together with the interval its argument lies in.
-/
open Matrix

namespace Geoopt.Stereo

variable {n : ℕ}

lemma arsinK_neg_nonneg {η k : ℝ} (hk : 0 ≤ k) (z : ℝ) :
    arsinK η k (-z) = -arsinK η k z := by
  unfold arsinK
  by_cases h : KZero k
  · rw [if_pos h, if_pos h]
    unfold arsinKTaylor
    ring
  · rw [if_neg h, if_neg h, if_neg hk.not_gt, if_neg hk.not_gt, neg_mul, Real.arcsin_neg, mul_neg]

lemma arsinK_pos_nonneg {η k : ℝ} (hη : 0 ≤ η) (hk : 0 ≤ k) {z : ℝ} (hz : 0 < z) :
    0 < arsinK η k z := by
  unfold arsinK
  by_cases h : KZero k
  · rw [if_pos h]
    unfold arsinKTaylor
    rw [absZeroGrad_eq, abs_of_nonneg hk]
    positivity
  · have hk0 : k ≠ 0 := by rintro rfl; exact h kZero_zero
    have hs := kSqrt_pos hη hk0
    rw [if_neg h, if_neg hk.not_gt]
    exact mul_pos (inv_pos.2 hs) (Real.arcsin_pos.2 (mul_pos hz hs))

lemma arsinK_pos_iff {η k : ℝ} (hη : 0 ≤ η) (hk : 0 ≤ k) {z : ℝ} :
    0 < arsinK η k z ↔ 0 < z := by
  refine ⟨fun h => ?_, arsinK_pos_nonneg hη hk⟩
  by_contra hz
  push Not at hz
  rcases hz.lt_or_eq with hz | hz
  · have := arsinK_pos_nonneg hη hk (neg_pos.2 hz)
    rw [arsinK_neg_nonneg hk] at this
    linarith
  · rw [(arsinK_eq_zero hη).2 hz] at h; exact lt_irrefl _ h

lemma arsinK_abs_nonneg {η k : ℝ} (hη : 0 ≤ η) (hk : 0 ≤ k) (z : ℝ) :
    arsinK η k |z| = |arsinK η k z| := by
  rcases lt_trichotomy 0 z with h | h | h
  · rw [abs_of_pos h, abs_of_pos (arsinK_pos_nonneg hη hk h)]
  · subst h; simp [(arsinK_eq_zero hη).2 rfl]
  · have := arsinK_pos_nonneg hη hk (neg_pos.2 h)
    rw [abs_of_neg h]
    rw [arsinK_neg_nonneg hk] at this ⊢
    rw [abs_of_neg (by linarith)]

/-- The number handed to `torch.asin` by `dist2plane` for `k > 1e-8`. -/
noncomputable def asinArg (η k : ℝ) (x a p : Vec n) : ℝ :=
  2 * (mobiusAdd k (-p) x ⬝ᵥ a) /
    ((1 + k * max (mobiusAdd k (-p) x ⬝ᵥ mobiusAdd k (-p) x) 1e-15) * nrm a + 1e-15) * kSqrt η k

lemma den_nonneg {k : ℝ} (hk : 0 ≤ k) (d a : Vec n) :
    0 ≤ (1 + k * max (d ⬝ᵥ d) 1e-15) * nrm a := by
  have : 0 ≤ max (d ⬝ᵥ d) (1e-15 : ℝ) := le_max_of_le_right (by norm_num)
  have := nrm_nonneg a
  positivity

lemma clampAbs_den {k : ℝ} (hk : 0 ≤ k) (d a : Vec n) :
    clampAbs 1e-15 ((1 + k * max (d ⬝ᵥ d) 1e-15) * nrm a) =
      (1 + k * max (d ⬝ᵥ d) 1e-15) * nrm a + 1e-15 := by
  rw [clampAbs, usign_of_nonneg (den_nonneg hk d a), sabs, abs_of_nonneg (den_nonneg hk d a),
    one_mul]

/-- For every curvature `k ≥ 0`, inside the near-flat zone or not, and every input:
`signed=False` is the absolute value of `signed=True`, and the signed distance is
positive exactly on the side the normal points to. -/
theorem C17_signed_nonneg {η k : ℝ} (hη : 0 ≤ η) (hk : 0 ≤ k) (x a p : Vec n) :
    dist2plane η k x a p false false = |dist2plane η k x a p true false| ∧
    (0 < dist2plane η k x a p true false ↔ 0 < mobiusAdd k (-p) x ⬝ᵥ a) := by
  have hE : 0 < (1 + k * max (mobiusAdd k (-p) x ⬝ᵥ mobiusAdd k (-p) x) 1e-15) * nrm a + 1e-15 := by
    have := den_nonneg hk (mobiusAdd k (-p) x) a
    linarith [show (0:ℝ) < 1e-15 by norm_num]
  simp only [dist2plane, Bool.false_eq_true, if_false, if_true]
  rw [clampAbs_den hk]
  constructor
  · rw [← arsinK_abs_nonneg hη hk, abs_div, abs_of_pos hE, abs_mul,
      show |(2.0:ℝ)| = 2.0 by norm_num]
  · rw [arsinK_pos_iff hη hk, div_pos_iff_of_pos_right hE, mul_pos_iff_of_pos_left (by norm_num)]

/-- The near-flat negative curvatures `-1e-8 ≤ k < 0`, where a Taylor polynomial replaces
`arsinh`: the same, for accepted points. -/
theorem C17_signed_near_flat {η k : ℝ} (hη : 0 ≤ η) (hz : KZero k) (hk0 : k < 0)
    {dt : DType} {x p : Vec n} (hx : Valid η dt k x) (hp : Valid η dt k p) (a : Vec n) :
    dist2plane η k x a p false false = |dist2plane η k x a p true false| ∧
    (0 < dist2plane η k x a p true false ↔ 0 < mobiusAdd k (-p) x ⬝ᵥ a) := by
  have hD := mobDenom_valid hη hk0 (valid_neg.2 hp) hx
  have hDp : 0 < mobDenom k (-p) x := by linarith [show (0:ℝ) < 1e-10 by norm_num]
  have hdm : mobiusAdd k (-p) x = mAdd k (-p) x := mobiusAdd_eq (le_trans (by norm_num) hD)
  have h1 : 0 ≤ 1 + k * (mobiusAdd k (-p) x ⬝ᵥ mobiusAdd k (-p) x) := by
    rw [hdm, one_add_mAdd_self hDp.ne']
    have a1 := valid_sq hη hk0 (valid_neg.2 hp)
    have a2 := valid_sq hη hk0 hx
    have h5 : (1 - 1e-5 : ℝ) ^ 2 ≤ 1 := by norm_num
    exact div_nonneg (mul_nonneg (by linarith) (by linarith)) hDp.le
  have hk8 : -1e-8 ≤ k := by
    have := hz
    unfold KZero at this
    linarith [(abs_le.1 this).1]
  generalize hd : mobiusAdd k (-p) x = d at h1
  have hT : 0 ≤ (1 + k * max (d ⬝ᵥ d) 1e-15) * nrm a := by
    refine mul_nonneg ?_ (nrm_nonneg a)
    rcases le_total (d ⬝ᵥ d) 1e-15 with h | h
    · rw [max_eq_right h]
      nlinarith [show (1e-8 : ℝ) * 1e-15 ≤ 1 by norm_num, show (1e-15:ℝ) > 0 by norm_num]
    · rw [max_eq_left h]; exact h1
  have hc : clampAbs 1e-15 ((1 + k * max (d ⬝ᵥ d) 1e-15) * nrm a) =
      (1 + k * max (d ⬝ᵥ d) 1e-15) * nrm a + 1e-15 := by
    rw [clampAbs, usign_of_nonneg hT, sabs, abs_of_nonneg hT, one_mul]
  have hE : 0 < (1 + k * max (d ⬝ᵥ d) 1e-15) * nrm a + 1e-15 := by
    linarith [show (0:ℝ) < 1e-15 by norm_num]
  have hzk : ∀ z, arsinK η k z = arsinK η |k| z := by
    intro z
    have hz' : KZero |k| := by unfold KZero at hz ⊢; rwa [abs_abs]
    rw [arsinK, if_pos hz, arsinK, if_pos hz', arsinKTaylor, arsinKTaylor, absZeroGrad_eq,
      absZeroGrad_eq, abs_abs]
  simp only [dist2plane, Bool.false_eq_true, if_false, if_true]
  rw [hd, hc, hzk, hzk]
  constructor
  · rw [← arsinK_abs_nonneg hη (abs_nonneg k), abs_div, abs_of_pos hE, abs_mul,
      show |(2.0:ℝ)| = 2.0 by norm_num]
  · rw [arsinK_pos_iff hη (abs_nonneg k), div_pos_iff_of_pos_right hE,
      mul_pos_iff_of_pos_left (by norm_num)]

/-- For `k > 1e-8` the result is `asin` of `asinArg` over `√k`. -/
theorem C17_sphere_value {η k : ℝ} (hk : 1e-8 < k) (x a p : Vec n) :
    dist2plane η k x a p true false = (kSqrt η k)⁻¹ * Real.arcsin (asinArg η k x a p) := by
  have hk0 : 0 < k := lt_trans (by norm_num) hk
  simp only [dist2plane, Bool.false_eq_true, if_false, if_true]
  rw [clampAbs_den hk0.le, arsinK, if_neg (not_kZero_of_pos hk), if_neg hk0.le.not_gt, asinArg,
    show (2.0:ℝ) = 2 by norm_num]

/-- The argument of `asin` never leaves `[-1, 1]` by more than the regulariser of
`sabs` inside the square root of the curvature allows. -/
theorem C17_sphere_domain {η k : ℝ} (hη : 0 ≤ η) (hk : 1e-8 < k) (x a p : Vec n) :
    |asinArg η k x a p| ≤ Real.sqrt (1 + η / k) := by
  have hk0 : 0 < k := lt_trans (by norm_num) hk
  have hs := kSqrt_pos hη hk0.ne'
  have hs2 := kSqrt_sq hη k
  rw [abs_of_pos hk0] at hs2
  unfold asinArg
  generalize mobiusAdd k (-p) x = d
  have hE : 0 < (1 + k * max (d ⬝ᵥ d) 1e-15) * nrm a + 1e-15 := by
    have := den_nonneg hk0.le d a
    linarith [show (0:ℝ) < 1e-15 by norm_num]
  have hq : d ⬝ᵥ d ≤ max (d ⬝ᵥ d) 1e-15 := le_max_left _ _
  have hne : nrm d ^ 2 = d ⬝ᵥ d := nrm_sq d
  have hsc := abs_dot_le d a
  have ha0 := nrm_nonneg a
  have hd0 := nrm_nonneg d
  have hr0 : 0 ≤ 1 + η / k := by positivity
  have hr : Real.sqrt (1 + η / k) = kSqrt η k / Real.sqrt k := by
    have hsk := Real.sqrt_pos.2 hk0
    rw [eq_div_iff hsk.ne', ← Real.sqrt_mul hr0, show (1 + η / k) * k = kSqrt η k ^ 2 by
      rw [hs2]; field_simp, Real.sqrt_sq hs.le]
  rw [hr, abs_mul, abs_div, abs_mul, abs_of_pos hs, abs_of_pos hE, show |(2:ℝ)| = 2 by norm_num,
    div_eq_mul_inv (kSqrt η k), mul_comm]
  refine mul_le_mul_of_nonneg_left ?_ hs.le
  have hsk := Real.sqrt_pos.2 hk0
  have hsk2 : Real.sqrt k ^ 2 = k := Real.sq_sqrt hk0.le
  rw [div_le_iff₀ hE, inv_mul_eq_div, le_div_iff₀ hsk]
  have key : 2 * nrm d * Real.sqrt k ≤ 1 + k * max (d ⬝ᵥ d) 1e-15 := by
    have h1 : 0 ≤ (1 - Real.sqrt k * nrm d) ^ 2 := sq_nonneg _
    have h2 : (Real.sqrt k * nrm d) ^ 2 = k * (d ⬝ᵥ d) := by rw [mul_pow, hsk2, hne]
    have h3 : k * (d ⬝ᵥ d) ≤ k * max (d ⬝ᵥ d) 1e-15 := mul_le_mul_of_nonneg_left hq hk0.le
    nlinarith
  calc 2 * |d ⬝ᵥ a| * Real.sqrt k ≤ 2 * (nrm d * nrm a) * Real.sqrt k :=
        mul_le_mul_of_nonneg_right (by linarith) hsk.le
    _ = 2 * nrm d * Real.sqrt k * nrm a := by ring
    _ ≤ (1 + k * max (d ⬝ᵥ d) 1e-15) * nrm a := mul_le_mul_of_nonneg_right key ha0
    _ ≤ _ := by linarith [show (0:ℝ) < 1e-15 by norm_num]

/-- Without the regulariser the argument stays in the domain of `asin`. -/
theorem C17_sphere_defined {k : ℝ} (hk : 1e-8 < k) (x a p : Vec n) :
    asinArg 0 k x a p ∈ Set.Icc (-1 : ℝ) 1 := by
  have := C17_sphere_domain le_rfl hk x a p
  rw [zero_div, add_zero, Real.sqrt_one] at this
  exact abs_le.1 this

/-- With the regulariser of the code, it stays there whenever the displacement keeps a
relative distance `1e-7` from the points with `√k·|−p ⊕ x| = 1` or from the direction of
the normal: whenever `2·√k·⟨−p ⊕ x, a⟩ ≤ (1 − 1e-7)·(1 + k·|−p ⊕ x|²)·|a|`. -/
theorem C17_sphere_defined_code {η k : ℝ} (hη : 0 ≤ η) (hη1 : η ≤ 1e-15) (hk : 1e-8 < k)
    (x a p : Vec n)
    (h : 2 * Real.sqrt k * |mobiusAdd k (-p) x ⬝ᵥ a| ≤
      (1 - 1e-7) * ((1 + k * (mobiusAdd k (-p) x ⬝ᵥ mobiusAdd k (-p) x)) * nrm a)) :
    asinArg η k x a p ∈ Set.Icc (-1 : ℝ) 1 := by
  have hk0 : 0 < k := lt_trans (by norm_num) hk
  have hs := kSqrt_pos hη hk0.ne'
  have hs2 := kSqrt_sq hη k
  rw [abs_of_pos hk0] at hs2
  rw [Set.mem_Icc, ← abs_le]
  unfold asinArg
  generalize mobiusAdd k (-p) x = d at h ⊢
  have hE : 0 < (1 + k * max (d ⬝ᵥ d) 1e-15) * nrm a + 1e-15 := by
    have := den_nonneg hk0.le d a
    linarith [show (0:ℝ) < 1e-15 by norm_num]
  have hq : d ⬝ᵥ d ≤ max (d ⬝ᵥ d) 1e-15 := le_max_left _ _
  have ha0 := nrm_nonneg a
  have hsk := Real.sqrt_pos.2 hk0
  have hsk2 : Real.sqrt k ^ 2 = k := Real.sq_sqrt hk0.le
  have hle : kSqrt η k * (1 - 1e-7) ≤ Real.sqrt k := by
    apply Real.le_sqrt_of_sq_le
    rw [mul_pow, hs2]
    have : η ≤ 1e-7 * k := by
      have : (1e-7 : ℝ) * 1e-8 ≤ 1e-7 * k := mul_le_mul_of_nonneg_left hk.le (by norm_num)
      linarith [show (1e-7 : ℝ) * 1e-8 = 1e-15 by norm_num]
    nlinarith [show ((1:ℝ) - 1e-7) ^ 2 * (1 + 1e-7) ≤ 1 by norm_num,
      show (0:ℝ) < (1 - 1e-7) ^ 2 by norm_num]
  rw [abs_mul, abs_div, abs_mul, abs_of_pos hs, abs_of_pos hE, show |(2:ℝ)| = 2 by norm_num,
    div_mul_eq_mul_div, div_le_one hE]
  have hT0 : 0 ≤ (1 + k * (d ⬝ᵥ d)) * nrm a := by
    have := dot_self_nonneg d; positivity
  have hT : (1 + k * (d ⬝ᵥ d)) * nrm a ≤ (1 + k * max (d ⬝ᵥ d) 1e-15) * nrm a := by
    have : k * (d ⬝ᵥ d) ≤ k * max (d ⬝ᵥ d) 1e-15 := mul_le_mul_of_nonneg_left hq hk0.le
    exact mul_le_mul_of_nonneg_right (by linarith) ha0
  have h1 : (2 * |d ⬝ᵥ a| * kSqrt η k) * Real.sqrt k ≤
      (1 + k * (d ⬝ᵥ d)) * nrm a * Real.sqrt k := by
    calc (2 * |d ⬝ᵥ a| * kSqrt η k) * Real.sqrt k
        = kSqrt η k * (2 * Real.sqrt k * |d ⬝ᵥ a|) := by ring
      _ ≤ kSqrt η k * ((1 - 1e-7) * ((1 + k * (d ⬝ᵥ d)) * nrm a)) :=
          mul_le_mul_of_nonneg_left h hs.le
      _ = (kSqrt η k * (1 - 1e-7)) * ((1 + k * (d ⬝ᵥ d)) * nrm a) := by ring
      _ ≤ Real.sqrt k * ((1 + k * (d ⬝ᵥ d)) * nrm a) := mul_le_mul_of_nonneg_right hle hT0
      _ = _ := by ring
  have h2 := le_of_mul_le_mul_right h1 hsk
  linarith [show (0:ℝ) < 1e-15 by norm_num]

/-- In the code the domain is left: on the unit-curvature sphere, with base point the
origin, the point at `√k·|x| = 1` in the direction of a normal of length two makes the
argument of `torch.asin` exceed one, and the distance (which should be a quarter turn)
comes out as NaN. -/
theorem C17_counterexample_nan :
    1 < asinArg codeEta 1 (fun _ => 1 : Vec 1) (fun _ => 2) 0 := by
  have h2 : nrm (fun _ => 2 : Vec 1) = 2 :=
    nrm_eq_of_dot_eq (by norm_num) (by simp [dotProduct]; norm_num)
  have hadd : mobiusAdd 1 (-(0 : Vec 1)) (fun _ => 1) = fun _ => 1 := by
    rw [neg_zero]
    exact C03_zero_add _ _
  have hs := kSqrt_sq (η := codeEta) (by norm_num [codeEta]) 1
  have hsp := kSqrt_pos (η := codeEta) (k := 1) (by norm_num [codeEta]) one_ne_zero
  have hd1 : ((fun _ => 1 : Vec 1) ⬝ᵥ fun _ => 1) = 1 := by simp [dotProduct]
  have hd2 : ((fun _ => 1 : Vec 1) ⬝ᵥ fun _ => 2) = 2 := by simp [dotProduct]
  unfold asinArg
  rw [hadd, h2, hd1, hd2, max_eq_left (by norm_num), div_mul_eq_mul_div, lt_div_iff₀ (by norm_num)]
  have : (1 + 4e-16 : ℝ) < kSqrt codeEta 1 := by
    apply lt_of_pow_lt_pow_left₀ 2 hsp.le
    rw [hs, codeEta]; norm_num
  nlinarith

example : KZero (-1e-9) ∧ (-1e-9 : ℝ) < 0 ∧
    Valid codeEta .f64 (-1e-9) (0 : Vec 2) := by
  refine ⟨?_, by norm_num, ?_⟩
  · unfold KZero; rw [abs_of_neg (by norm_num)]; norm_num
  · unfold Valid
    rw [nrm_zero]
    exact div_nonneg (by norm_num) (Real.sqrt_nonneg _)

example : (0:ℝ) ≤ codeEta ∧ codeEta ≤ 1e-15 ∧ (1e-8 : ℝ) < 1 :=
  ⟨by norm_num [codeEta], le_rfl, by norm_num⟩

end Geoopt.Stereo
