import Verif.Props.C138Hyperbolic

/-!
# C138 – logarithms

`logmap` of the class `Stereographic` and `logmap` of the classes `Sphere` and `Lorentz` give corresponding tangent
vectors.
-/

namespace Geoopt.C138
open Geoopt Matrix Geoopt.Stereo
open Geoopt.Lorentz (mink OnHyperboloid)
variable {n : ℕ}

lemma push_smul (k b : ℝ) (x u : Vec n) : push k x (b • u) = b • push k x u := by
  unfold push
  funext i
  refine Fin.lastCases ?_ (fun j => ?_) i
  · simp [dotProduct_smul]; ring
  · simp [dotProduct_smul]; ring

lemma nrm_push {k : ℝ} (hk : 0 < k) (x u : Vec n) : nrm (push k x u) = Real.sqrt k * lambdaX k x * nrm u := by
  have hl : 0 < lambdaX k x := lambdaX_pos' k x
  apply nrm_eq_of_dot_eq (mul_nonneg (mul_nonneg (Real.sqrt_nonneg k) hl.le) (nrm_nonneg u))
  have := (C138_tangent (η := 0) le_rfl hk x u u).2.2
  rw [Sphere.inner, Stereo.inner, ← nrm_sq u] at this
  rw [this]
  linear_combination -(lambdaX k x * nrm u) ^ 2 * Real.sq_sqrt hk.le

set_option maxHeartbeats 1000000 in
/-- **C138, logarithms.** The image of `Stereographic.logmap` is `Sphere.logmap` of the images, up to a factor between `1`
and `1 + η / 2k` for the regulariser, as long as no clamp is active. -/
theorem C138_log {η k : ℝ} (hη : 0 ≤ η) (hk : 1e-8 < k) (dt : DType) (x y : Vec n) (hD : 1e-15 ≤ mobDenom k (-x) y)
    (hr : 1e-15 ≤ nrm (mobiusAdd k (-x) y))
    (h1 : -1 + Sphere.eps dt ≤ toSphere η k x ⬝ᵥ toSphere η k y)
    (h2 : toSphere η k x ⬝ᵥ toSphere η k y ≤ 1 - Sphere.eps dt) :
    ∃ c : ℝ, 1 ≤ c ∧ c ≤ 1 + η / (2 * k) ∧
      Sphere.logmap none dt (toSphere η k x) (toSphere η k y) = c • push k x (Stereo.logmap η k x y) := by
  have hk0 : 0 < k := lt_trans (by norm_num) hk
  have hq : 0 < Real.sqrt k := Real.sqrt_pos.2 hk0
  have hq2 := Real.sq_sqrt hk0.le
  have hs : 0 < Real.sqrt (|k| + η) := Real.sqrt_pos.2 (by rw [abs_of_pos hk0]; linarith)
  have hs2 : Real.sqrt (|k| + η) ^ 2 = k + η := by
    rw [Real.sq_sqrt (by rw [abs_of_pos hk0]; linarith), abs_of_pos hk0]
  have hle : Real.sqrt k ≤ Real.sqrt (|k| + η) := Real.sqrt_le_sqrt (by rw [abs_of_pos hk0]; linarith)
  have hl : 0 < lambdaX k x := lambdaX_pos' k x
  have e : kSqrt η k = Real.sqrt (|k| + η) := rfl
  have hX := mul_nonneg hk0.le (dot_self_nonneg x)
  have hD0 : mobDenom k (-x) y ≠ 0 := (lt_of_lt_of_le (by norm_num) hD).ne'
  have hr0 : 0 < nrm (mobiusAdd k (-x) y) := lt_of_lt_of_le (by norm_num) hr
  have hang := angle_eq hη hk0 x y hD
  have hlog : push k x (Stereo.logmap η k x y) = (2 * ((Real.sqrt (|k| + η))⁻¹ *
      Real.arctan (nrm (mobiusAdd k (-x) y) * Real.sqrt (|k| + η))) * (lambdaX k x * nrm (mobiusAdd k (-x) y))⁻¹) •
        push k x (mobiusAdd k (-x) y) := by
    rw [Stereo.logmap]
    simp only [max_eq_left hr]
    rw [artanK_pos_curv hk, e, smul_smul, push_smul, show (2.0 : ℝ) = 2 by norm_num]
  have hmul : toSphere η k y = ((1 - k * nrm (mobiusAdd k (-x) y) ^ 2) / (1 + k * nrm (mobiusAdd k (-x) y) ^ 2)) •
      toSphere η k x + (2 / ((1 + k * nrm (mobiusAdd k (-x) y) ^ 2) * lambdaX k x)) • push k x (mobiusAdd k (-x) y) := by
    rw [nrm_sq, mobiusAdd_eq hD]
    have hx1 : 1 + k * (-x ⬝ᵥ -x) ≠ 0 := by simp only [neg_dotProduct, dotProduct_neg, neg_neg]; linarith
    have hc := mAdd_left_cancel hD0 hx1
    rw [neg_neg] at hc
    have hd := mobDenom_neg_mAdd hD0 (k := k) (x := -x) (y := y)
    rw [neg_neg] at hd
    have hd0 : mobDenom k x (mAdd k (-x) y) ≠ 0 := by
      rw [hd]
      exact div_ne_zero (pow_ne_zero 2 hx1) hD0
    have := toSphere_mAdd hη hk0 x (mAdd k (-x) y) hd0
    rw [hc] at this
    exact this
  have hnp := nrm_push hk0 x (mobiusAdd k (-x) y)
  have hon := C138_on_sphere hη hk0 x
  have hperp := (C138_tangent hη hk0 x (mobiusAdd k (-x) y) 0).2.1
  generalize push k x (mobiusAdd k (-x) y) = P at *
  generalize lambdaX k x = l at *
  generalize nrm (mobiusAdd k (-x) y) = r at *
  generalize Real.sqrt (|k| + η) = s at *
  generalize toSphere η k x = z at *
  generalize toSphere η k y = z' at *
  have hqr : (r * Real.sqrt k) ^ 2 = k * r ^ 2 := by rw [mul_pow, hq2]; ring
  rw [← hqr] at hmul
  generalize Real.sqrt k = q at *
  obtain ⟨a, ha⟩ : ∃ a, a = r * q := ⟨_, rfl⟩
  have ha0 : 0 < a := by rw [ha]; positivity
  rw [← ha] at hmul hang
  obtain ⟨φ, hφ⟩ : ∃ φ, φ = 2 * Real.arctan a := ⟨_, rfl⟩
  have hc : Real.cos φ = (1 - a ^ 2) / (1 + a ^ 2) := by
    rw [hφ, Real.cos_two_mul, Real.cos_sq_arctan]; field_simp; ring
  have hsn : Real.sin φ = 2 * a / (1 + a ^ 2) := by
    have h1 : 0 < 1 + a ^ 2 := by positivity
    rw [hφ, Real.sin_two_mul, Real.sin_arctan, Real.cos_arctan]
    have h3 := Real.sqrt_pos.2 h1
    field_simp
    rw [Real.sq_sqrt h1.le]
  have hφ0 : 0 < φ := by rw [hφ]; linarith [Real.arctan_pos.2 ha0]
  have hsinle : Real.sin φ ≤ φ := Real.sin_le hφ0.le
  have hzz : z ⬝ᵥ z' = Real.cos φ := by
    rw [hmul, dotProduct_add, dotProduct_smul, dotProduct_smul, hon, hperp, hc]
    simp
  have hu : Sphere.proju none z (z' - z) = (2 / ((1 + a ^ 2) * l)) • P := by
    simp only [Sphere.proju, Sphere.projectOnSubspace]
    rw [dotProduct_sub, hzz, hon]
    have : z' = Real.cos φ • z + (2 / ((1 + a ^ 2) * l)) • P := by rw [hc]; exact hmul
    rw [this]
    module
  have hnu : nrm ((2 / ((1 + a ^ 2) * l)) • P) = Real.sin φ := by
    rw [nrm_smul, hnp, abs_of_pos (by positivity), hsn, ha]
    field_simp
  have he0 : 0 < Sphere.eps dt ∧ Sphere.eps dt < 1 := by cases dt <;> norm_num [Sphere.eps]
  rw [hzz] at h1 h2 hang
  have hsin0 : 0 < Real.sin φ := by rw [hsn]; positivity
  have hes : Sphere.eps dt < Real.sin φ := by
    have h3 := Real.sin_sq_add_cos_sq φ
    have h4 : Sphere.eps dt ^ 2 < Real.sin φ ^ 2 := by
      have h5 : Real.sin φ ^ 2 = (1 - Real.cos φ) * (1 + Real.cos φ) := by linear_combination h3
      have h6 : Sphere.eps dt * (2 - Sphere.eps dt) ≤ (1 - Real.cos φ) * (1 + Real.cos φ) := by nlinarith
      rw [h5]
      nlinarith [he0.1, he0.2]
    exact lt_of_pow_lt_pow_left₀ 2 hsin0.le h4
  have hd : Sphere.dist dt z z' = φ := by
    rw [Sphere.dist, Sphere.inner, hzz, clamp_of_mem h1 h2, hang, hφ]
  have hS : Sphere.logmap none dt z z' = (φ / (q * l * r)) • P := by
    rw [Sphere.logmap]
    simp only [hu, hd, hnu]
    rw [if_pos (by linarith), max_eq_left hes.le, smul_smul, hsn, ha]
    congr 1
    field_simp
  have hat : 0 < Real.arctan (r * s) := Real.arctan_pos.2 (by positivity)
  have haa : 0 < Real.arctan a := Real.arctan_pos.2 ha0
  have hm : a ≤ r * s := by rw [ha]; exact mul_le_mul_of_nonneg_left hle hr0.le
  have hsq : (s - q) / q ≤ η / (2 * k) := by
    rw [div_le_div_iff₀ hq (by positivity)]
    have h3 := mul_nonneg (sq_nonneg (s - q)) hq.le
    have h4 : η * q - (s - q) * (2 * k) = (s - q) ^ 2 * q := by
      linear_combination (2 * (s - q) + q) * hq2 - q * hs2
    linarith
  refine ⟨s / q * (Real.arctan a / Real.arctan (r * s)), ?_, ?_, ?_⟩
  · rw [div_mul_div_comm, one_le_div (by positivity)]
    have h3 := arctan_sub_le ha0.le hm
    have h4 : a / (1 + a ^ 2) ≤ Real.arctan a := by
      rw [hsn] at hsinle
      have : 2 * a / (1 + a ^ 2) = 2 * (a / (1 + a ^ 2)) := by ring
      rw [this, hφ] at hsinle
      linarith
    have h5 : (r * s - a) / (1 + a ^ 2) = (s - q) / q * (a / (1 + a ^ 2)) := by rw [ha]; field_simp
    have h6 : (s - q) / q * (a / (1 + a ^ 2)) ≤ (s - q) / q * Real.arctan a :=
      mul_le_mul_of_nonneg_left h4 (div_nonneg (sub_nonneg.2 hle) hq.le)
    have h7 : q * Real.arctan (r * s) ≤ q * (Real.arctan a + (s - q) / q * Real.arctan a) :=
      mul_le_mul_of_nonneg_left (by linarith) hq.le
    refine h7.trans (le_of_eq ?_)
    field_simp
    ring
  · have h3 : Real.arctan a / Real.arctan (r * s) ≤ 1 := (div_le_one hat).2 (Real.arctan_mono hm)
    have h4 : s / q * (Real.arctan a / Real.arctan (r * s)) ≤ s / q * 1 :=
      mul_le_mul_of_nonneg_left h3 (by positivity)
    have h5 : s / q = 1 + (s - q) / q := by field_simp; ring
    linarith
  · rw [hS, hlog, smul_smul, hφ]
    congr 1
    field_simp

set_option maxHeartbeats 1000000 in
/-- **C138, logarithms of negative curvature.** The image of `Stereographic.logmap` is `Lorentz.logmap` of the images, up to
a factor that differs from one by at most `10⁷ η / |k|` for the regulariser, as long as no clamp is active. -/
theorem C138_lorentz_log {η k : ℝ} (hη : 0 ≤ η) (hk : k < -1e-8) {x y : Vec n} (hx : 1e-15 < 1 + k * (x ⬝ᵥ x))
    (hy : 1e-15 ≤ 1 + k * (y ⬝ᵥ y)) (hD : 1e-15 ≤ mobDenom k (-x) y) (hr : 1e-15 ≤ nrm (mobiusAdd k (-x) y))
    (hfar : Real.sqrt (|k| + η) * nrm (mobiusAdd k (-x) y) ≤ 1 - 1e-7)
    (hnear : 1 + 1e-8 ≤ mink (toLorentz η k x) (toLorentz η k y) ^ 2) :
    ∃ c : ℝ, |c - 1| ≤ 1e7 * η / |k| ∧
      Lorentz.logmap 1 (toLorentz η k x) (toLorentz η k y) = c • pushL k x (Stereo.logmap η k x y) := by
  have hk0 : k < 0 := lt_trans hk (by norm_num)
  have hka := abs_pos.2 hk0.ne
  have hq : 0 < Real.sqrt |k| := Real.sqrt_pos.2 hka
  have hs : 0 < Real.sqrt (|k| + η) := Real.sqrt_pos.2 (by linarith)
  have hle : Real.sqrt |k| ≤ Real.sqrt (|k| + η) := Real.sqrt_le_sqrt (by linarith)
  have hq2 := Real.sq_sqrt (abs_nonneg k)
  have hs2 := Real.sq_sqrt (show 0 ≤ |k| + η by linarith)
  have e : kSqrt η k = Real.sqrt (|k| + η) := rfl
  have e1 : kSqrt 0 (-1) = 1 := by simp [kSqrt, sabs]
  have hr0 : 0 < nrm (mobiusAdd k (-x) y) := lt_of_lt_of_le (by norm_num) hr
  have hl : 0 < lambdaX k x := lambdaX_pos' k x
  have hm := mul_le_mul_of_nonneg_right hle hr0.le
  have h7 : (0 : ℝ) < 1e-7 := by norm_num
  have h71 : (1e-7 : ℝ) < 1 := by norm_num
  have hp := mul_pos hq hr0
  have hp' := mul_pos hs hr0
  have hD0 : mobDenom k (-x) y ≠ 0 := (lt_of_lt_of_le (by norm_num) hD).ne'
  have hx1 : 1 + k * (x ⬝ᵥ x) ≠ 0 := (lt_trans (by norm_num) hx).ne'
  have hn : mobiusAdd (-1) (-(Real.sqrt |k| • x)) (Real.sqrt |k| • y) = Real.sqrt |k| • mobiusAdd k (-x) y := by
    rw [← mobiusAdd_unit hk0, smul_neg]
  have key := Lorentz.C39_distance_partial one_pos (C138_on_hyperboloid hη hk0 hx.le)
    (C138_on_hyperboloid hη hk0 hy)
    (by rw [one_pow, one_mul]; exact le_trans (by norm_num) hnear)
    (by rw [toPoincare_toLorentz hη hk0, toPoincare_toLorentz hη hk0, ← smul_neg, mobDenom_unit hk0]; exact hD)
    (by
      rw [toPoincare_toLorentz hη hk0, toPoincare_toLorentz hη hk0, hn, nrm_smul, abs_of_pos hq]
      exact hm.trans hfar)
  have el : Lorentz.dist 1 (toLorentz η k x) (toLorentz η k y) =
      2 * Real.artanh (Real.sqrt |k| * nrm (mobiusAdd k (-x) y)) := by
    rw [key, toPoincare_toLorentz hη hk0, toPoincare_toLorentz hη hk0, Real.sqrt_one, one_mul, Stereo.dist,
      hn, nrm_smul, abs_of_pos hq, artanK_neg_curv (by norm_num), e1, inv_one, one_mul, mul_one,
      artanhC_eq (by linarith) (by linarith), show (2.0 : ℝ) = 2 by norm_num]
  have hlog : Stereo.logmap η k x y = (2 * ((Real.sqrt (|k| + η))⁻¹ *
      Real.artanh (Real.sqrt (|k| + η) * nrm (mobiusAdd k (-x) y))) * (lambdaX k x * nrm (mobiusAdd k (-x) y))⁻¹) •
        mobiusAdd k (-x) y := by
    rw [Stereo.logmap]
    simp only [max_eq_left hr]
    rw [artanK_neg_curv hk, e, smul_smul, mul_comm (nrm _), artanhC_eq (by linarith) hfar,
      show (2.0 : ℝ) = 2 by norm_num]
  have hkr : k * nrm (mobiusAdd k (-x) y) ^ 2 = -(Real.sqrt |k| * nrm (mobiusAdd k (-x) y)) ^ 2 := by
    rw [mul_pow, hq2, abs_of_neg hk0]; ring
  have ha1 : Real.sqrt |k| * nrm (mobiusAdd k (-x) y) < 1 := by linarith
  have hden : 0 < 1 - (Real.sqrt |k| * nrm (mobiusAdd k (-x) y)) ^ 2 := by
    have : (Real.sqrt |k| * nrm (mobiusAdd k (-x) y)) ^ 2 < 1 := pow_lt_one₀ hp.le ha1 (by norm_num)
    linarith
  have hmul : toLorentz η k y = ((1 + (Real.sqrt |k| * nrm (mobiusAdd k (-x) y)) ^ 2) /
      (1 - (Real.sqrt |k| * nrm (mobiusAdd k (-x) y)) ^ 2)) • toLorentz η k x +
      (2 / ((1 - (Real.sqrt |k| * nrm (mobiusAdd k (-x) y)) ^ 2) * lambdaX k x)) •
        pushL k x (mobiusAdd k (-x) y) := by
    have hc : mAdd k x (mAdd k (-x) y) = y := by
      have := mAdd_left_cancel (k := k) (x := -x) (y := y) hD0 (by simpa using hx1)
      simpa using this
    have hd := mobDenom_neg_mAdd hD0 (k := k) (x := -x) (y := y)
    rw [neg_neg] at hd
    have hd0 : mobDenom k x (mAdd k (-x) y) ≠ 0 := by
      rw [hd]
      refine div_ne_zero (pow_ne_zero 2 ?_) hD0
      simpa using hx1
    have hw : 1 + k * (mAdd k (-x) y ⬝ᵥ mAdd k (-x) y) =
        1 - (Real.sqrt |k| * nrm (mobiusAdd k (-x) y)) ^ 2 := by
      rw [← mobiusAdd_eq hD, ← nrm_sq, hkr]; ring
    have hw' : 1 - k * (mAdd k (-x) y ⬝ᵥ mAdd k (-x) y) =
        1 + (Real.sqrt |k| * nrm (mobiusAdd k (-x) y)) ^ 2 := by
      rw [← mobiusAdd_eq hD, ← nrm_sq, hkr]; ring
    have := toLorentz_mAdd hη hk0 hx.le (w := mAdd k (-x) y) (by rw [hw]; exact hden) hd0 (by rw [hc]; exact hy)
    rw [hc, hw, hw', ← mobiusAdd_eq hD] at this
    exact this
  have hps : ∀ b : ℝ, pushL k x (b • mobiusAdd k (-x) y) = b • pushL k x (mobiusAdd k (-x) y) := by
    intro b
    unfold pushL
    funext i
    refine Fin.cases ?_ (fun j => ?_) i
    · simp [dotProduct_smul]; ring
    · simp [dotProduct_smul]; ring
  obtain ⟨-, hperp, hpp⟩ := C138_lorentz_tangent hη hk0 hx (mobiusAdd k (-x) y) (mobiusAdd k (-x) y)
  have hon := (C138_on_hyperboloid hη hk0 hx.le).1
  have hperp' : mink (toLorentz η k x) (pushL k x (mobiusAdd k (-x) y)) = 0 := hperp
  have hhalf := half_le_artanhC hp'.le hfar
  rw [artanhC_eq (by linarith) hfar] at hhalf
  have hmono := (Real.artanh_le_artanh_iff ⟨by linarith, by linarith⟩ ⟨by linarith, by linarith⟩).2 hm
  have hsub := artanh_sub_le hp.le hm (by linarith)
  rw [Stereo.inner, ← nrm_sq, ← hq2] at hpp
  have hap := Real.artanh_pos (x := Real.sqrt |k| * nrm (mobiusAdd k (-x) y)) ⟨hp, ha1⟩
  rw [hlog, hps]
  clear hlog hps key hperp hn hD hD0 hx hx1 hy e e1
  generalize pushL k x (mobiusAdd k (-x) y) = P at *
  generalize lambdaX k x = l at *
  generalize nrm (mobiusAdd k (-x) y) = r at *
  generalize Real.sqrt (|k| + η) = s at *
  generalize toLorentz η k x = z at *
  generalize toLorentz η k y = z' at *
  generalize Real.sqrt |k| = q at *
  obtain ⟨a, ha⟩ : ∃ a, a = q * r := ⟨_, rfl⟩
  obtain ⟨b, hb⟩ : ∃ b, b = s * r := ⟨_, rfl⟩
  have hpp' : mink P P = (a * l) ^ 2 := by
    have h3 : mink P P = q ^ 2 * (l ^ 2 * r ^ 2) := hpp
    rw [h3, ha]; ring
  have ha' : q * r = a := ha.symm
  have hb' : s * r = b := hb.symm
  simp only [ha', hb'] at hfar hp' hhalf hp ha1 hden hap hm hmono hsub el hmul
  have hzz : mink z z' = -((1 + a ^ 2) / (1 - a ^ 2)) := by
    rw [hmul, Lorentz.mink_add_right, Lorentz.mink_smul_right, Lorentz.mink_smul_right, hon, hperp']; ring
  have hnom : z' + (1.0 / 1 * Lorentz.inner z z') • z = (2 / ((1 - a ^ 2) * l)) • P := by
    rw [show Lorentz.inner z z' = mink z z' from rfl, hzz, hmul, show (1.0 / 1 : ℝ) = 1 by norm_num]
    module
  have hin : Lorentz.inner ((2 / ((1 - a ^ 2) * l)) • P) ((2 / ((1 - a ^ 2) * l)) • P) =
      (2 * a / (1 - a ^ 2)) ^ 2 := by
    rw [Lorentz.inner_eq, Lorentz.mink_smul_left, Lorentz.mink_smul_right, hpp']
    field_simp
  have hnorm : Lorentz.norm ((2 / ((1 - a ^ 2) * l)) • P) = 2 * a / (1 - a ^ 2) := by
    rw [Lorentz.norm, hin, max_eq_left, Real.sqrt_sq (by positivity)]
    rw [hzz] at hnear
    have : (2 * a / (1 - a ^ 2)) ^ 2 = (-((1 + a ^ 2) / (1 - a ^ 2))) ^ 2 - 1 := by field_simp; ring
    rw [this]
    linarith
  have hL : Lorentz.logmap 1 z z' = (2 * Real.artanh a / (a * l)) • P := by
    rw [Lorentz.logmap]
    simp only [hnom, hnorm, el]
    rw [smul_smul]
    congr 1
    field_simp
  have hbp : 0 < Real.artanh b := by linarith
  have hsq : (s - q) / q ≤ η / (2 * |k|) := by
    rw [div_le_div_iff₀ hq (by positivity)]
    have h3 := mul_nonneg (sq_nonneg (s - q)) hq.le
    have h4 : η * q - (s - q) * (2 * |k|) = (s - q) ^ 2 * q := by
      linear_combination (2 * (s - q) + q) * hq2 - q * hs2
    linarith
  have hsq0 : 0 ≤ (s - q) / q := div_nonneg (sub_nonneg.2 hle) hq.le
  have h5 : s / q = 1 + (s - q) / q := by field_simp; ring
  have hhk : 0 ≤ η / (2 * |k|) := by positivity
  have h1e : 1e7 * η / |k| = 2e7 * (η / (2 * |k|)) := by
    rw [show (2e7 : ℝ) = 1e7 * 2 by norm_num]
    generalize (1e7 : ℝ) = M
    field_simp
  have hR1 : Real.artanh a / Real.artanh b ≤ 1 := (div_le_one hbp).2 hmono
  have hR0 : 0 < Real.artanh a / Real.artanh b := div_pos hap hbp
  refine ⟨s / q * (Real.artanh a / Real.artanh b), ?_, ?_⟩
  · rw [abs_le, h1e, h5]
    generalize η / (2 * |k|) = H at *
    constructor
    · have h6 : (b - a) / (1 - b) ≤ 1e7 * (b - a) := by
        rw [div_le_iff₀ (by linarith)]
        have h9 : 1e-7 ≤ 1 - b := by linarith
        calc b - a = 1e7 * (b - a) * 1e-7 := by ring
          _ ≤ 1e7 * (b - a) * (1 - b) := mul_le_mul_of_nonneg_left h9 (by linarith)
      have h8 : b - a ≤ (s - q) / q * b := by
        have : b - a = (s - q) / q * a := by rw [hb, ha]; field_simp
        rw [this]
        exact mul_le_mul_of_nonneg_left hm hsq0
      have h9 : (s - q) / q * b ≤ H * (2 * Real.artanh b) :=
        mul_le_mul hsq (by linarith) hp'.le hhk
      have h10 : 1 - 2e7 * H ≤ Real.artanh a / Real.artanh b := by
        rw [le_div_iff₀ hbp]
        linarith
      have h11 := mul_nonneg hsq0 hR0.le
      linarith
    · have h11 := mul_le_mul_of_nonneg_left hR1 hsq0
      linarith
  · rw [hL, smul_smul, hb', show a * l = q * (l * r) by rw [ha]; ring]
    congr 1
    field_simp

/-- Non-vacuity: from the origin to `(1/2, 0)`, at the code's regulariser. -/
example : ∃ c : ℝ, 1 ≤ c ∧ c ≤ 1 + codeEta / (2 * 1) ∧
    Sphere.logmap none .f64 (toSphere codeEta 1 0) (toSphere codeEta 1 ((1 / 2 : ℝ) • Pi.single 0 1 : Vec 2)) =
      c • push 1 0 (Stereo.logmap codeEta 1 0 ((1 / 2 : ℝ) • Pi.single 0 1)) := by
  have hyy : ((1 / 2 : ℝ) • Pi.single 0 1 : Vec 2) ⬝ᵥ ((1 / 2 : ℝ) • Pi.single 0 1) = 1 / 4 := by
    rw [smul_dotProduct, dotProduct_smul]; simp; norm_num
  have hz : toSphere codeEta 1 0 ⬝ᵥ toSphere codeEta 1 ((1 / 2 : ℝ) • Pi.single 0 1 : Vec 2) = 3 / 5 := by
    rw [toSphere_dot codeEta_nonneg one_pos, zero_sub, neg_dotProduct, dotProduct_neg, neg_neg, hyy]
    norm_num
  apply C138_log codeEta_nonneg (by norm_num)
  · simp [mobDenom]; norm_num
  · rw [neg_zero, C03_zero_add, nrm_eq_of_dot_eq (a := 1 / 2) (by norm_num) (by rw [hyy]; norm_num)]
    norm_num
  · rw [hz]; norm_num [Sphere.eps]
  · rw [hz]; norm_num [Sphere.eps]

/-- Non-vacuity: from the centre of the Poincaré disk to `(1/2, 0)`, at the code's regulariser. -/
example : ∃ c : ℝ, |c - 1| ≤ 1e-8 ∧
    Lorentz.logmap 1 (toLorentz codeEta (-1) 0) (toLorentz codeEta (-1) ((1 / 2 : ℝ) • Pi.single 0 1 : Vec 2)) =
      c • pushL (-1) 0 (Stereo.logmap codeEta (-1) 0 ((1 / 2 : ℝ) • Pi.single 0 1)) := by
  have hyy : ((1 / 2 : ℝ) • Pi.single 0 1 : Vec 2) ⬝ᵥ ((1 / 2 : ℝ) • Pi.single 0 1) = 1 / 4 := by
    rw [smul_dotProduct, dotProduct_smul]; simp; norm_num
  have hx : (1e-15 : ℝ) < 1 + -1 * ((0 : Vec 2) ⬝ᵥ 0) := by simp; norm_num
  have hy : (1e-15 : ℝ) ≤ 1 + -1 * (((1 / 2 : ℝ) • Pi.single 0 1 : Vec 2) ⬝ᵥ ((1 / 2 : ℝ) • Pi.single 0 1)) := by
    rw [hyy]; norm_num
  have hn : nrm (mobiusAdd (-1) (-0) ((1 / 2 : ℝ) • Pi.single 0 1 : Vec 2)) = 1 / 2 := by
    rw [neg_zero, C03_zero_add]
    exact nrm_eq_of_dot_eq (by norm_num) (by rw [hyy]; norm_num)
  have hs : Real.sqrt (|(-1 : ℝ)| + codeEta) ≤ 3 / 2 := by
    refine Real.sqrt_le_iff.2 ⟨by norm_num, ?_⟩
    rw [show codeEta = 1e-15 from rfl]
    norm_num
  obtain ⟨c, h1, h2⟩ := C138_lorentz_log (n := 2) codeEta_nonneg (k := -1) (by norm_num) hx hy
    (by simp [mobDenom]; norm_num) (by rw [hn]; norm_num)
    (by
      rw [hn]
      linarith [show (1e-7 : ℝ) ≤ 1 / 4 by norm_num])
    (by
      rw [toLorentz_mink codeEta_nonneg (by norm_num) hx.le hy, zero_sub, neg_dotProduct, dotProduct_neg, neg_neg, hyy]
      norm_num)
  refine ⟨c, h1.trans ?_, h2⟩
  rw [show codeEta = 1e-15 from rfl]
  norm_num

end Geoopt.C138
