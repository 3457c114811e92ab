import Verif.Props.C15
import Mathlib.Analysis.SpecialFunctions.Arsinh

/-!
# C16 weighted midpoint, C17 distance to a hyperplane, C75 coaddition
-/

namespace Geoopt.Stereo
open Geoopt
variable {n : ℕ}

/-! ### C75 coaddition -/

/-- Closed form of the coaddition on the ball: symmetric in its arguments. -/
theorem C75_coadd_formula {η k : ℝ} (hη : 0 ≤ η) (hk : k < 0) {dt : DType} {x y : Vec n}
    (hx : Valid η dt k x) (hy : Valid η dt k y) :
    mobiusCoadd k x y = (1 - k ^ 2 * (x ⬝ᵥ x) * (y ⬝ᵥ y))⁻¹ •
      ((1 + k * (y ⬝ᵥ y)) • x + (1 + k * (x ⬝ᵥ x)) • y) := by
  have h15 : (0:ℝ) < 1e-15 := by norm_num
  have h10 : (1e-15:ℝ) ≤ 1e-10 := by norm_num
  have hD : 1e-10 ≤ mobDenom k x (-y) := mobDenom_valid hη hk hx (valid_neg.2 hy)
  have hD0 : mobDenom k x (-y) ≠ 0 := by linarith
  have hg : gyration k x (-y) y = mGyr k x (-y) y := gyration_eq (h10.trans hD)
  have hgn : mGyr k x (-y) y ⬝ᵥ mGyr k x (-y) y = y ⬝ᵥ y := mGyr_dot_mGyr hD0
  have hgv : Valid η dt k (mGyr k x (-y) y) := by
    unfold Valid nrm at *; rw [hgn]; exact hy
  have hE : 1e-10 ≤ mobDenom k x (mGyr k x (-y) y) := mobDenom_valid hη hk hx hgv
  have hE0 : mobDenom k x (mGyr k x (-y) y) ≠ 0 := by linarith
  have hq : 0 < 1 - k ^ 2 * (x ⬝ᵥ x) * (y ⬝ᵥ y) := by
    have a := valid_sq hη hk hx
    have b := valid_sq hη hk hy
    have a0 : 0 ≤ -k * (x ⬝ᵥ x) := mul_nonneg (by linarith) (dot_self_nonneg x)
    have b0 : 0 ≤ -k * (y ⬝ᵥ y) := mul_nonneg (by linarith) (dot_self_nonneg y)
    have e1 : (1 - 1e-5 : ℝ) ^ 2 < 1 := by norm_num
    have e : k ^ 2 * (x ⬝ᵥ x) * (y ⬝ᵥ y) = (-k * (x ⬝ᵥ x)) * (-k * (y ⬝ᵥ y)) := by ring
    rw [e]
    nlinarith
  have exw : x ⬝ᵥ mGyr k x (-y) y = mGyr k x (-y) y ⬝ᵥ x := dotProduct_comm _ _
  have exw2 : x ⬝ᵥ mGyr k x (-y) y = x ⬝ᵥ y + 2 *
    ((-k ^ 2 * (x ⬝ᵥ y) * (y ⬝ᵥ y) + k * (y ⬝ᵥ y) + 2 * k ^ 2 * (x ⬝ᵥ y) * (y ⬝ᵥ y)) * (x ⬝ᵥ x)
      - (k ^ 2 * (y ⬝ᵥ y) * (x ⬝ᵥ x) + k * (x ⬝ᵥ y)) * (x ⬝ᵥ y)) / mobDenom k x (-y) := by
    rw [exw, mGyr_dot]
    dots
    rw [dotProduct_comm y x]
    ring
  have hEv : mobDenom k x (mGyr k x (-y) y) =
      (1 - k ^ 2 * (x ⬝ᵥ x) * (y ⬝ᵥ y)) ^ 2 / mobDenom k x (-y) := by
    rw [mobDenom, hgn, exw2]
    field_simp
    unfold mobDenom; dots
    ring
  rw [mobiusCoadd, hg, mobiusAdd_eq (h10.trans hE), mAdd, hEv, hgn, exw2]
  funext i
  simp only [mGyr, Pi.smul_apply, Pi.add_apply, smul_eq_mul, Pi.neg_apply]
  dots
  have hD' : 1 + 2 * k * (x ⬝ᵥ y) + k ^ 2 * (x ⬝ᵥ x) * (y ⬝ᵥ y) ≠ 0 := by
    have : mobDenom k x (-y) = 1 + 2 * k * (x ⬝ᵥ y) + k ^ 2 * (x ⬝ᵥ x) * (y ⬝ᵥ y) := by
      unfold mobDenom; dots; ring
    rwa [← this]
  have hDe : mobDenom k x (-y) = 1 + 2 * k * (x ⬝ᵥ y) + k ^ 2 * (x ⬝ᵥ x) * (y ⬝ᵥ y) := by
    unfold mobDenom; dots; ring
  have hq' := hq.ne'
  generalize x ⬝ᵥ x = A at *
  generalize y ⬝ᵥ y = B at *
  generalize x ⬝ᵥ y = C at *
  generalize mobDenom k x (-y) = D at *
  field_simp
  rw [hDe]
  ring

/-- Coaddition is commutative, unlike addition (`C03_not_commutative`). -/
theorem C75_coadd_comm {η k : ℝ} (hη : 0 ≤ η) (hk : k < 0) {dt : DType} {x y : Vec n}
    (hx : Valid η dt k x) (hy : Valid η dt k y) : mobiusCoadd k x y = mobiusCoadd k y x := by
  rw [C75_coadd_formula hη hk hx hy, C75_coadd_formula hη hk hy hx, add_comm]
  congr 2
  ring

/-- `x ⊟ x = 0` -/
theorem C75_cosub_self {η k : ℝ} (hη : 0 ≤ η) (hk : k < 0) {dt : DType} {x : Vec n}
    (hx : Valid η dt k x) : mobiusCosub k x x = 0 := by
  rw [mobiusCosub, C75_coadd_formula hη hk hx (valid_neg.2 hx)]
  dots
  simp

/-- Right cancellation: `(y ⊟ x) ⊕ x = y`, i.e. `cosub` solves `z ⊕ x = y`. -/
theorem C75_right_cancel {η k : ℝ} (hη : 0 ≤ η) (hk : k < 0) {dt : DType} {x y : Vec n}
    (hx : Valid η dt k x) (hy : Valid η dt k y) (hc : 1e-15 ≤ mobDenom k (mobiusCosub k y x) x) :
    mobiusAdd k (mobiusCosub k y x) x = y := by
  have h15 : (0:ℝ) < 1e-15 := by norm_num
  have hc0 : mobDenom k (mobiusCosub k y x) x ≠ 0 := by linarith
  have hf : mobiusCosub k y x = (1 - k ^ 2 * (x ⬝ᵥ x) * (y ⬝ᵥ y))⁻¹ •
      ((1 + k * (x ⬝ᵥ x)) • y - (1 + k * (y ⬝ᵥ y)) • x) := by
    rw [mobiusCosub, C75_coadd_formula hη hk hy (valid_neg.2 hx)]
    dots
    rw [smul_neg, ← sub_eq_add_neg]
    rw [neg_neg]
    congr 2
    ring
  have hq : 1 - k ^ 2 * (x ⬝ᵥ x) * (y ⬝ᵥ y) ≠ 0 := by
    have a := valid_sq hη hk hx
    have b := valid_sq hη hk hy
    have a0 : 0 ≤ -k * (x ⬝ᵥ x) := mul_nonneg (by linarith) (dot_self_nonneg x)
    have b0 : 0 ≤ -k * (y ⬝ᵥ y) := mul_nonneg (by linarith) (dot_self_nonneg y)
    have e1 : (1 - 1e-5 : ℝ) ^ 2 < 1 := by norm_num
    have e : k ^ 2 * (x ⬝ᵥ x) * (y ⬝ᵥ y) = (-k * (x ⬝ᵥ x)) * (-k * (y ⬝ᵥ y)) := by ring
    rw [e]
    apply ne_of_gt
    nlinarith
  have hxx : 1 + k * (x ⬝ᵥ x) ≠ 0 := by
    have := valid_openBall hη hk hx; unfold OpenBall at this; intro h; linarith
  have hDv : mobDenom k (mobiusCosub k y x) x = (1 + k * (x ⬝ᵥ x)) ^ 2 *
      mobDenom k x y / (1 - k ^ 2 * (x ⬝ᵥ x) * (y ⬝ᵥ y)) ^ 2 := by
    rw [hf]
    unfold mobDenom
    dots
    rw [dotProduct_comm y x]
    field_simp
    ring
  have hD0 : mobDenom k x y ≠ 0 := by
    intro h; rw [h] at hDv; simp at hDv; exact hc0 hDv
  rw [mobiusAdd_eq hc, mAdd, hDv, hf]
  dots
  funext i
  simp only [Pi.smul_apply, Pi.add_apply, Pi.sub_apply, smul_eq_mul]
  rw [dotProduct_comm y x]
  have hDe : mobDenom k x y = 1 - 2 * k * (x ⬝ᵥ y) + k ^ 2 * (x ⬝ᵥ x) * (y ⬝ᵥ y) := rfl
  generalize x ⬝ᵥ x = A at *
  generalize y ⬝ᵥ y = B at *
  generalize x ⬝ᵥ y = C at *
  generalize mobDenom k x y = D at *
  field_simp
  rw [hDe]
  ring

example : Valid codeEta .f64 (-1) pA ∧ Valid codeEta .f64 (-1) pB := ⟨pA_valid _, pB_valid _⟩

/-! ### C17 distance to a hyperplane -/

lemma arsinhC_eq {x : ℝ} (h : -4e14 ≤ x) : arsinhC x = Real.arsinh x := by
  unfold arsinhC Real.arsinh
  rw [max_eq_left]
  have h1 : |x| < Real.sqrt (1 + x ^ 2) := by
    rw [← Real.sqrt_sq_eq_abs]; exact Real.sqrt_lt_sqrt (sq_nonneg x) (by linarith)
  rcases le_or_gt 0 x with h0 | h0
  · have : 1 ≤ Real.sqrt (1 + x ^ 2) := by
      rw [Real.one_le_sqrt]; nlinarith
    linarith [show (1e-15 : ℝ) < 1 by norm_num]
  · have hs : Real.sqrt (1 + x ^ 2) ≤ 1 - x := by
      rw [Real.sqrt_le_left (by linarith)]; nlinarith
    have hsq : Real.sqrt (1 + x ^ 2) ^ 2 = 1 + x ^ 2 := Real.sq_sqrt (by positivity)
    rw [abs_of_neg h0] at h1
    have hprod : (x + Real.sqrt (1 + x ^ 2)) * (Real.sqrt (1 + x ^ 2) - x) = 1 := by nlinarith
    have hb : Real.sqrt (1 + x ^ 2) - x ≤ 1e15 := by
      linarith [show (1:ℝ) + 2 * 4e14 ≤ 1e15 by norm_num]
    have hp : 0 < x + Real.sqrt (1 + x ^ 2) := by linarith
    nlinarith [show (1e-15 : ℝ) * 1e15 = 1 by norm_num]

lemma arsinhC_eq_zero {x : ℝ} : arsinhC x = 0 ↔ x = 0 := by
  constructor
  · intro h
    rcases le_or_gt (-4e14) x with h1 | h1
    · rwa [arsinhC_eq h1, Real.arsinh_eq_zero_iff] at h
    · exfalso
      unfold arsinhC at h
      have hx : x < -1 := by linarith [show (-4e14 : ℝ) < -1 by norm_num]
      have hs : Real.sqrt (1 + x ^ 2) ≤ 1 / 2 - x := by
        rw [Real.sqrt_le_left (by linarith)]; nlinarith
      have hs' : |x| < Real.sqrt (1 + x ^ 2) := by
        rw [← Real.sqrt_sq_eq_abs]; exact Real.sqrt_lt_sqrt (sq_nonneg x) (by linarith)
      have h3 : Real.log (max (x + Real.sqrt (1 + x ^ 2)) 1e-15) < 0 :=
        Real.log_neg (lt_max_of_lt_right (by norm_num))
          (max_lt (by linarith) (by norm_num))
      linarith
  · rintro rfl
    rw [arsinhC_eq (by norm_num), Real.arsinh_zero]

lemma arsinK_eq_zero {η k : ℝ} (hη : 0 ≤ η) {z : ℝ} : arsinK η k z = 0 ↔ z = 0 := by
  unfold arsinK
  split_ifs with h1 h2
  · unfold arsinKTaylor
    rw [absZeroGrad_eq]
    set a := |k|
    have ha : 0 ≤ a := abs_nonneg k
    constructor
    · intro h
      have e : z * (1 + a * z ^ 2 / 6 + 3 / 40 * a ^ 2 * z ^ 4 + 5 / 112 * a ^ 3 * z ^ 6
          + 35 / 1152 * a ^ 4 * z ^ 8 + 63 / 2816 * a ^ 5 * z ^ 10) = 0 := by
        rw [← h]; ring
      have hp : 0 < 1 + a * z ^ 2 / 6 + 3 / 40 * a ^ 2 * z ^ 4 + 5 / 112 * a ^ 3 * z ^ 6
          + 35 / 1152 * a ^ 4 * z ^ 8 + 63 / 2816 * a ^ 5 * z ^ 10 := by positivity
      rcases mul_eq_zero.1 e with h | h
      · exact h
      · exact absurd h hp.ne'
    · rintro rfl; norm_num
  · have hs := kSqrt_pos hη h2.ne
    rw [mul_eq_zero, arsinhC_eq_zero, mul_eq_zero]
    simp [hs.ne']
  · have hk : k ≠ 0 := by rintro rfl; exact h1 kZero_zero
    have hs := kSqrt_pos hη hk
    rw [mul_eq_zero, Real.arcsin_eq_zero_iff, mul_eq_zero]
    simp [hs.ne']

lemma clampAbs_ne_zero {e : ℝ} (he : 0 < e) (x : ℝ) : clampAbs e x ≠ 0 := by
  have h1 := abs_usign x
  unfold clampAbs sabs
  apply mul_ne_zero
  · intro h; rw [h] at h1; simp at h1
  · have := abs_nonneg x; linarith

/-- The (signed or unsigned) distance vanishes exactly when the displacement from `p`
to `x` is orthogonal to the normal `a`: every curvature, every input. -/
theorem C17_zero_iff {η k : ℝ} (hη : 0 ≤ η) (x a p : Vec n) (signed : Bool) :
    dist2plane η k x a p signed false = 0 ↔ mobiusAdd k (-p) x ⬝ᵥ a = 0 := by
  have hd := clampAbs_ne_zero (e := 1e-15) (by norm_num)
    ((1 + k * max (mobiusAdd k (-p) x ⬝ᵥ mobiusAdd k (-p) x) 1e-15) * nrm a)
  simp only [dist2plane, Bool.false_eq_true, if_false]
  rw [arsinK_eq_zero hη, div_eq_zero_iff, or_iff_left hd, mul_eq_zero,
    or_iff_right (by norm_num : ¬ (2.0 : ℝ) = 0)]
  cases signed <;> simp

/-- `p` itself is on the plane. -/
theorem C17_base_point {η k : ℝ} (hη : 0 ≤ η) (a p : Vec n) (signed : Bool) :
    dist2plane η k p a p signed false = 0 := by
  rw [C17_zero_iff hη, C03_neg_add, zero_dotProduct]

/-- `scaled=True` multiplies by the length of the normal. -/
theorem C17_scaled (η k : ℝ) (x a p : Vec n) (signed : Bool) :
    dist2plane η k x a p signed true = dist2plane η k x a p signed false * nrm a := by
  simp [dist2plane]

/-- On the Poincaré ball `signed=False` is the absolute value of `signed=True`, and the
signed distance is positive exactly on the side the normal points to. -/
theorem C17_signed_ball {η k : ℝ} (hη : 0 ≤ η) (hη1 : η ≤ 1e-15) (hk : k < -1e-8) (hk2 : -1e14 ≤ k)
    {dt : DType} {x p : Vec n} (hx : Valid η dt k x) (hp : Valid η dt k p) (a : Vec n) :
    dist2plane η k x a p false false = |dist2plane η k x a p true false| ∧
    (0 < dist2plane η k x a p true false ↔ 0 < mobiusAdd k (-p) x ⬝ᵥ a) := by
  have hk0 : k < 0 := by have := e8; linarith
  have hs := kSqrt_pos hη hk0.ne
  have hs2 := kSqrt_sq hη k
  rw [abs_of_neg hk0] at hs2
  have hD := mobDenom_valid hη hk0 (valid_neg.2 hp) hx
  have hD0 : mobDenom k (-p) x ≠ 0 := by linarith [show (0:ℝ) < 1e-10 by norm_num]
  set d := mobiusAdd k (-p) x with hd
  have hdm : d = mAdd k (-p) x := mobiusAdd_eq (le_trans (by norm_num) hD)
  have hdd0 := dot_self_nonneg d
  have hne : nrm d ^ 2 = d ⬝ᵥ d := nrm_sq d
  -- 1 + k‖d‖² is bounded below
  have h1kd : 9e-11 ≤ 1 + k * (d ⬝ᵥ d) := by
    rw [hdm, one_add_mAdd_self hD0, le_div_iff₀ (by linarith [show (0:ℝ) < 1e-10 by norm_num])]
    have hDle := mobDenom_le (k := k) (-p) x
    have a1 := valid_sq hη hk0 (valid_neg.2 hp)
    have a2 := valid_sq hη hk0 hx
    have hpr := ball_prod hk0.le (by norm_num) a1 a2
    rw [abs_of_neg hk0] at hDle
    have hnn : 0 ≤ -k * (nrm (-p) * nrm x) :=
      mul_nonneg (by linarith) (mul_nonneg (nrm_nonneg _) (nrm_nonneg _))
    have h5 : (1 - 1e-5 : ℝ) ^ 2 ≤ 1 - 1.99e-5 := by norm_num
    have hD4 : mobDenom k (-p) x ≤ 4 := by
      refine hDle.trans ?_
      nlinarith [show (1.99e-5 : ℝ) > 0 by norm_num]
    have b1 : 1.99e-5 ≤ 1 + k * (-p ⬝ᵥ -p) := by linarith
    have b2 : 1.99e-5 ≤ 1 + k * (x ⬝ᵥ x) := by linarith
    have b3 : (1.99e-5 : ℝ) * 1.99e-5 ≤ (1 + k * (-p ⬝ᵥ -p)) * (1 + k * (x ⬝ᵥ x)) :=
      mul_le_mul b1 b2 (by norm_num) (by linarith [show (0:ℝ) < 1.99e-5 by norm_num])
    nlinarith [show (9e-11 : ℝ) * 4 ≤ 1.99e-5 * 1.99e-5 by norm_num]
  set q := max (d ⬝ᵥ d) 1e-15 with hq
  have h1q : 9e-11 ≤ 1 + k * q := by
    rcases le_total (d ⬝ᵥ d) 1e-15 with h | h
    · rw [hq, max_eq_right h]
      nlinarith [show (1e14 : ℝ) * 1e-15 ≤ 1 - 9e-11 by norm_num, show (1e-15:ℝ) > 0 by norm_num]
    · rw [hq, max_eq_left h]; exact h1kd
  have ha0 := nrm_nonneg a
  have h9 : (0:ℝ) < 9e-11 := by norm_num
  have hden : clampAbs 1e-15 ((1 + k * q) * nrm a) = (1 + k * q) * nrm a + 1e-15 := by
    have : 0 ≤ (1 + k * q) * nrm a := mul_nonneg (by linarith) ha0
    rw [clampAbs, usign_of_nonneg this, sabs, abs_of_nonneg this, one_mul]
  set E := (1 + k * q) * nrm a + 1e-15 with hE
  have hEpos : 0 < E := by
    have : 0 ≤ (1 + k * q) * nrm a := mul_nonneg (by linarith) ha0
    rw [hE]; linarith [show (0:ℝ) < 1e-15 by norm_num]
  -- size of the argument of arsinh
  have hnds : nrm d * kSqrt η k ≤ 2 := by
    apply le_of_abs_le
    apply abs_le_of_sq_le_sq _ (by norm_num)
    rw [mul_pow, hne, hs2]
    have h8 : (1e-8 : ℝ) < -k := by linarith
    have : η * (d ⬝ᵥ d) ≤ -k * (d ⬝ᵥ d) :=
      mul_le_mul_of_nonneg_right (by linarith [show (1e-15:ℝ) < 1e-8 by norm_num]) hdd0
    nlinarith
  have hsc := abs_dot_le d a
  have hbound : |2.0 * (d ⬝ᵥ a) / E * kSqrt η k| ≤ 4e14 := by
    rw [abs_mul, abs_div, abs_mul, abs_of_pos hs, abs_of_pos hEpos, div_mul_eq_mul_div,
      div_le_iff₀ hEpos, show |(2.0:ℝ)| = 2 by norm_num]
    have e1 : 2 * |d ⬝ᵥ a| * kSqrt η k ≤ 2 * (nrm d * nrm a) * kSqrt η k :=
      mul_le_mul_of_nonneg_right (by linarith) hs.le
    have e2 : 2 * (nrm d * nrm a) * kSqrt η k = 2 * (nrm d * kSqrt η k) * nrm a := by ring
    have e3 : 2 * (nrm d * kSqrt η k) * nrm a ≤ 4 * nrm a :=
      mul_le_mul_of_nonneg_right (by linarith) ha0
    have e4 : 9e-11 * nrm a ≤ E := by
      rw [hE]
      have : 9e-11 * nrm a ≤ (1 + k * q) * nrm a := mul_le_mul_of_nonneg_right h1q ha0
      linarith [show (0:ℝ) < 1e-15 by norm_num]
    nlinarith [show (4e14 : ℝ) * 9e-11 ≥ 4 by norm_num]
  have habs := abs_le.1 hbound
  have hsv : dist2plane η k x a p true false =
      (kSqrt η k)⁻¹ * Real.arsinh (2.0 * (d ⬝ᵥ a) / E * kSqrt η k) := by
    simp only [dist2plane, Bool.false_eq_true, if_false, if_true]
    rw [← hd, ← hq, hden, arsinK, if_neg (not_kZero_of_neg hk), if_pos hk0, arsinhC_eq habs.1]
  have huv : dist2plane η k x a p false false =
      (kSqrt η k)⁻¹ * Real.arsinh (|2.0 * (d ⬝ᵥ a) / E * kSqrt η k|) := by
    simp only [dist2plane, Bool.false_eq_true, if_false]
    rw [← hd, ← hq, hden, arsinK, if_neg (not_kZero_of_neg hk), if_pos hk0]
    have e : 2.0 * |d ⬝ᵥ a| / E * kSqrt η k = |2.0 * (d ⬝ᵥ a) / E * kSqrt η k| := by
      rw [abs_mul, abs_div, abs_mul, abs_of_pos hs, abs_of_pos hEpos,
        show |(2.0:ℝ)| = 2.0 by norm_num]
    rw [e, arsinhC_eq (by linarith [abs_nonneg (2.0 * (d ⬝ᵥ a) / E * kSqrt η k)])]
  constructor
  · rw [hsv, huv, abs_mul (kSqrt η k)⁻¹, abs_of_pos (inv_pos.2 hs)]
    congr 1
    rcases le_total 0 (2.0 * (d ⬝ᵥ a) / E * kSqrt η k) with h | h
    · rw [abs_of_nonneg h, abs_of_nonneg (Real.arsinh_nonneg_iff.2 h)]
    · rw [abs_of_nonpos h, abs_of_nonpos (Real.arsinh_nonpos_iff.2 h), Real.arsinh_neg]
  · rw [hsv, mul_pos_iff_of_pos_left (inv_pos.2 hs), Real.arsinh_pos_iff,
      mul_pos_iff_of_pos_right hs, div_pos_iff_of_pos_right hEpos,
      mul_pos_iff_of_pos_left (by norm_num)]

/-- The same for the flat case. -/
theorem C17_signed_flat (η : ℝ) (x a p : Vec n) :
    dist2plane η 0 x a p false false = |dist2plane η 0 x a p true false| ∧
    (0 < dist2plane η 0 x a p true false ↔ 0 < (x - p) ⬝ᵥ a) ∧
    dist2plane η 0 x a p true false = 2 * ((x - p) ⬝ᵥ a) / (nrm a + 1e-15) := by
  have hE : (0:ℝ) < nrm a + 1e-15 := by
    have := nrm_nonneg a; linarith [show (0:ℝ) < 1e-15 by norm_num]
  have hadd : mobiusAdd 0 (-p) x = x - p := by
    rw [(C11_flat η 0 0 (-p) x 0 0).1]; abel
  have hden : clampAbs 1e-15 (nrm a) = nrm a + 1e-15 := by
    rw [clampAbs, usign_of_nonneg (nrm_nonneg a), sabs, abs_of_nonneg (nrm_nonneg a), one_mul]
  have hv : dist2plane η 0 x a p true false = 2 * ((x - p) ⬝ᵥ a) / (nrm a + 1e-15) := by
    simp only [dist2plane, Bool.false_eq_true, if_false, if_true, arsinK_zero_curv, hadd]
    rw [zero_mul, add_zero, one_mul, hden, show (2.0 : ℝ) = 2 by norm_num]
  refine ⟨?_, ?_, hv⟩
  · rw [hv, abs_div, abs_of_pos hE, abs_mul, show |(2:ℝ)| = 2 by norm_num]
    simp only [dist2plane, Bool.false_eq_true, if_false, arsinK_zero_curv, hadd]
    rw [zero_mul, add_zero, one_mul, hden, show (2.0 : ℝ) = 2 by norm_num]
  · rw [hv, div_pos_iff_of_pos_right hE, mul_pos_iff_of_pos_left (by norm_num)]

/-- The distance does depend (at rounding level) on the length of the normal, because
`clamp_abs` adds its `eps` to the denominator instead of clamping. -/
theorem C17_depends_on_length :
    dist2plane codeEta 0 (fun _ => 1 : Vec 1) (fun _ => 2) 0 true false ≠
      dist2plane codeEta 0 (fun _ => 1 : Vec 1) (fun _ => 1) 0 true false := by
  rw [(C17_signed_flat _ _ _ _).2.2, (C17_signed_flat _ _ _ _).2.2]
  have h1 : nrm (fun _ => 1 : Vec 1) = 1 := nrm_eq_of_dot_eq (by norm_num) (by simp [dotProduct])
  have h2 : nrm (fun _ => 2 : Vec 1) = 2 :=
    nrm_eq_of_dot_eq (by norm_num) (by simp [dotProduct]; norm_num)
  rw [h1, h2]
  norm_num [dotProduct]

example : Valid codeEta .f64 (-1) pA ∧ Valid codeEta .f64 (-1) pB ∧ codeEta ≤ 1e-15 ∧
    (-1:ℝ) < -1e-8 ∧ (-1e14 : ℝ) ≤ -1 :=
  ⟨pA_valid _, pB_valid _, le_rfl, by norm_num, by norm_num⟩

end Geoopt.Stereo
