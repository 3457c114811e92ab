import Verif.Props.C138

/-!
# C138 – the stereographic model of negative curvature is the hyperboloid

`inv_sproj` sends points of `Stereographic(k)` with `k < 0` (the Poincaré ball) to the hyperboloid of radius `1/√|k|`,
with the time in the last coordinate. In units of the radius, with the time in front, they are points of the class
`Lorentz` (with its default `k = 1`), and distances, tangent vectors and exponentials of the two classes correspond.
-/

namespace Geoopt.C138
open Geoopt Matrix Geoopt.Stereo
open Geoopt.Lorentz (mink OnHyperboloid toPoincare)
variable {n : ℕ}

/-- The result of `inv_sproj` in units of the radius, time first. (The code takes `√(|k| + η)` for `1/radius` in the
time, with `η = 1e-15`.) -/
noncomputable def toLorentz (η k : ℝ) (x : Vec n) : Vec (n + 1) :=
  Fin.cons (α := fun _ => ℝ) (Real.sqrt (|k| + η) * invSproj η k x (Fin.last n))
    (Real.sqrt |k| • fun i : Fin n => invSproj η k x i.castSucc)

lemma cons_mink (a b : Vec n) (s t : ℝ) :
    mink (Fin.cons (α := fun _ => ℝ) s a) (Fin.cons (α := fun _ => ℝ) t b) = -(s * t) + a ⬝ᵥ b := by
  rw [Lorentz.mink_eq_tail]; simp

lemma lam_eq' {k : ℝ} {x : Vec n} (hx : 1e-15 ≤ 1 + k * (x ⬝ᵥ x)) : lambdaX k x = 2 / (1 + k * (x ⬝ᵥ x)) := by
  rw [lambdaX, max_eq_left hx]

lemma toLorentz_eq {η k : ℝ} (hη : 0 ≤ η) (hk : k < 0) (x : Vec n) :
    toLorentz η k x = Fin.cons (α := fun _ => ℝ) (lambdaX k x - 1) ((Real.sqrt |k| * lambdaX k x) • x) := by
  have hs : 0 < Real.sqrt (|k| + η) := Real.sqrt_pos.2 (by have := abs_pos.2 hk.ne; linarith)
  have e : kSqrt η k = Real.sqrt (|k| + η) := rfl
  unfold toLorentz invSproj
  congr 1
  · rw [Fin.snoc_last, e, show (1.0 : ℝ) = 1 by norm_num]
    field_simp
  · funext i
    simp [mul_assoc]

/-- Minus the hyperbolic cosine of the distance of two images. -/
theorem toLorentz_mink {η k : ℝ} (hη : 0 ≤ η) (hk : k < 0) {x y : Vec n} (hx : 1e-15 ≤ 1 + k * (x ⬝ᵥ x))
    (hy : 1e-15 ≤ 1 + k * (y ⬝ᵥ y)) : mink (toLorentz η k x) (toLorentz η k y) =
      -(1 - 2 * k * ((x - y) ⬝ᵥ (x - y)) / ((1 + k * (x ⬝ᵥ x)) * (1 + k * (y ⬝ᵥ y)))) := by
  have hq : Real.sqrt |k| * Real.sqrt |k| = -k := by rw [Real.mul_self_sqrt (abs_nonneg k), abs_of_neg hk]
  have e : (x - y) ⬝ᵥ (x - y) = x ⬝ᵥ x - 2 * (x ⬝ᵥ y) + y ⬝ᵥ y := by
    simp only [sub_dotProduct, dotProduct_sub, dotProduct_comm y x]; ring
  have h3 : 1 + k * (x ⬝ᵥ x) ≠ 0 := (lt_of_lt_of_le (by norm_num) hx).ne'
  have h4 : 1 + k * (y ⬝ᵥ y) ≠ 0 := (lt_of_lt_of_le (by norm_num) hy).ne'
  rw [toLorentz_eq hη hk, toLorentz_eq hη hk, cons_mink, smul_dotProduct, dotProduct_smul, lam_eq' hx, lam_eq' hy, e]
  simp only [smul_eq_mul]
  have e2 : Real.sqrt |k| * (2 / (1 + k * (x ⬝ᵥ x))) * (Real.sqrt |k| * (2 / (1 + k * (y ⬝ᵥ y))) * (x ⬝ᵥ y)) =
      -k * (2 / (1 + k * (x ⬝ᵥ x))) * (2 / (1 + k * (y ⬝ᵥ y))) * (x ⬝ᵥ y) := by
    linear_combination (2 / (1 + k * (x ⬝ᵥ x))) * (2 / (1 + k * (y ⬝ᵥ y))) * (x ⬝ᵥ y) * hq
  rw [e2]
  field_simp
  ring

/-- **C138, points of negative curvature.** The images lie on the upper sheet. -/
theorem C138_on_hyperboloid {η k : ℝ} (hη : 0 ≤ η) (hk : k < 0) {x : Vec n} (hx : 1e-15 ≤ 1 + k * (x ⬝ᵥ x)) :
    OnHyperboloid 1 (toLorentz η k x) := by
  refine ⟨?_, ?_⟩
  · rw [toLorentz_mink hη hk hx hx, sub_self, zero_dotProduct]
    simp
  · have h0 : 0 < 1 + k * (x ⬝ᵥ x) := lt_of_lt_of_le (by norm_num) hx
    have h1 : k * (x ⬝ᵥ x) ≤ 0 := mul_nonpos_of_nonpos_of_nonneg hk.le (dot_self_nonneg x)
    rw [toLorentz_eq hη hk, Fin.cons_zero, lam_eq' hx, sub_pos, lt_div_iff₀ h0]
    linarith

/-- `lorentz_to_poincare` of the image is the point in units of the radius. -/
theorem toPoincare_toLorentz {η k : ℝ} (hη : 0 ≤ η) (hk : k < 0) (x : Vec n) :
    toPoincare 1 (toLorentz η k x) = Real.sqrt |k| • x := by
  have hl := lambdaX_pos' k x
  rw [toPoincare, toLorentz_eq hη hk, Fin.cons_zero, Fin.tail_cons, Real.sqrt_one, smul_smul]
  congr 1
  rw [sub_add_cancel]
  field_simp

lemma mobDenom_unit {k : ℝ} (hk : k < 0) (x y : Vec n) :
    mobDenom (-1) (Real.sqrt |k| • x) (Real.sqrt |k| • y) = mobDenom k x y := by
  have hq : Real.sqrt |k| * Real.sqrt |k| = -k := by rw [Real.mul_self_sqrt (abs_nonneg k), abs_of_neg hk]
  simp only [mobDenom, smul_dotProduct, dotProduct_smul, smul_eq_mul]
  generalize Real.sqrt |k| = q at *
  obtain rfl : k = -(q * q) := by linarith
  ring

lemma mobiusAdd_unit {k : ℝ} (hk : k < 0) (x y : Vec n) :
    mobiusAdd (-1) (Real.sqrt |k| • x) (Real.sqrt |k| • y) = Real.sqrt |k| • mobiusAdd k x y := by
  have hq : Real.sqrt |k| * Real.sqrt |k| = -k := by rw [Real.mul_self_sqrt (abs_nonneg k), abs_of_neg hk]
  unfold mobiusAdd
  rw [mobDenom_unit hk]
  simp only [smul_dotProduct, dotProduct_smul, smul_eq_mul]
  funext i
  simp only [Pi.smul_apply, Pi.add_apply, smul_eq_mul]
  generalize Real.sqrt |k| = q at *
  obtain rfl : k = -(q * q) := by linarith
  ring

lemma artanh_sub_le {a b : ℝ} (ha : 0 ≤ a) (hab : a ≤ b) (hb : b < 1) :
    Real.artanh b - Real.artanh a ≤ (b - a) / (1 - b) := by
  have h1 : 0 < 1 - b := by linarith
  have h2 : 0 < 1 - a := by linarith
  rw [Real.artanh_eq_half_log ⟨by linarith, hb.le⟩, Real.artanh_eq_half_log ⟨by linarith, by linarith⟩,
    Real.log_div (by linarith) h1.ne', Real.log_div (by linarith) h2.ne']
  have l1 : Real.log (1 + b) - Real.log (1 + a) ≤ (b - a) / (1 - b) := by
    rw [← Real.log_div (by linarith) (by linarith)]
    refine (Real.log_le_sub_one_of_pos (by apply div_pos <;> linarith)).trans ?_
    have : (1 + b) / (1 + a) - 1 = (b - a) / (1 + a) := by
      have : 1 + a ≠ 0 := by linarith
      field_simp; ring
    rw [this]
    exact div_le_div_of_nonneg_left (by linarith) h1 (by linarith)
  have l2 : Real.log (1 - a) - Real.log (1 - b) ≤ (b - a) / (1 - b) := by
    rw [← Real.log_div h2.ne' h1.ne']
    refine (Real.log_le_sub_one_of_pos (by positivity)).trans (le_of_eq ?_)
    field_simp; ring
  linarith

/-- **C138, distances of negative curvature.** In units of the radius the distance of the class `Stereographic` is the
distance of the images in the class `Lorentz`, up to `10⁷ η / |k|` for the regulariser `η = 1e-15` of the former, as long
as no clamp is active: neither that of the Möbius addition, nor those of `artanh` and `arcosh`. -/
theorem C138_lorentz_dist {η k : ℝ} (hη : 0 ≤ η) (hk : k < -1e-8) {x y : Vec n} (hx : 1e-15 ≤ 1 + k * (x ⬝ᵥ x))
    (hy : 1e-15 ≤ 1 + k * (y ⬝ᵥ y)) (hD : 1e-15 ≤ mobDenom k (-x) y)
    (hfar : Real.sqrt (|k| + η) * nrm (mobiusAdd k (-x) y) ≤ 1 - 1e-7)
    (hnear : 1 + 1e-15 ≤ mink (toLorentz η k x) (toLorentz η k y) ^ 2) :
    Lorentz.dist 1 (toLorentz η k x) (toLorentz η k y) ≤ Real.sqrt (|k| + η) * Stereo.dist η k x y ∧
    Real.sqrt (|k| + η) * Stereo.dist η k x y ≤
      Lorentz.dist 1 (toLorentz η k x) (toLorentz η k y) + 1e7 * η / |k| := by
  have hk0 : k < 0 := lt_trans hk (by norm_num)
  have ha := abs_pos.2 hk0.ne
  have hq : 0 < Real.sqrt |k| := Real.sqrt_pos.2 ha
  have hs : 0 < Real.sqrt (|k| + η) := Real.sqrt_pos.2 (by linarith)
  have hle : Real.sqrt |k| ≤ Real.sqrt (|k| + η) := Real.sqrt_le_sqrt (by linarith)
  have hq2 := Real.sq_sqrt (abs_nonneg k)
  have hs2 := Real.sq_sqrt (show 0 ≤ |k| + η by linarith)
  have e : kSqrt η k = Real.sqrt (|k| + η) := rfl
  have e1 : kSqrt 0 (-1) = 1 := by simp [kSqrt, sabs]
  have hr := nrm_nonneg (mobiusAdd k (-x) y)
  have hn : mobiusAdd (-1) (-(Real.sqrt |k| • x)) (Real.sqrt |k| • y) = Real.sqrt |k| • mobiusAdd k (-x) y := by
    rw [← mobiusAdd_unit hk0, smul_neg]
  have hm := mul_le_mul_of_nonneg_right hle hr
  have h7 : (0 : ℝ) < 1e-7 := by norm_num
  have h71 : (1e-7 : ℝ) < 1 := by norm_num
  have key := Lorentz.C39_distance_partial one_pos (C138_on_hyperboloid hη hk0 hx)
    (C138_on_hyperboloid hη hk0 hy) (by rw [one_pow, one_mul]; exact hnear)
    (by rw [toPoincare_toLorentz hη hk0, toPoincare_toLorentz hη hk0, ← smul_neg, mobDenom_unit hk0]; exact hD)
    (by
      rw [toPoincare_toLorentz hη hk0, toPoincare_toLorentz hη hk0, hn, nrm_smul, abs_of_pos hq]
      exact hm.trans hfar)
  have hp := mul_nonneg hq.le hr
  have hp' := mul_nonneg hs.le hr
  have el : Lorentz.dist 1 (toLorentz η k x) (toLorentz η k y) =
      2 * Real.artanh (Real.sqrt |k| * nrm (mobiusAdd k (-x) y)) := by
    rw [key, toPoincare_toLorentz hη hk0, toPoincare_toLorentz hη hk0, Real.sqrt_one, one_mul, Stereo.dist,
      hn, nrm_smul, abs_of_pos hq, artanK_neg_curv (by norm_num), e1, inv_one, one_mul, mul_one,
      artanhC_eq (by linarith) (by linarith), show (2.0 : ℝ) = 2 by norm_num]
  have er : Real.sqrt (|k| + η) * Stereo.dist η k x y =
      2 * Real.artanh (Real.sqrt (|k| + η) * nrm (mobiusAdd k (-x) y)) := by
    rw [Stereo.dist, artanK_neg_curv hk, e, mul_comm (nrm _), artanhC_eq (by linarith) hfar,
      show (2.0 : ℝ) = 2 by norm_num]
    field_simp
  rw [el, er]
  generalize nrm (mobiusAdd k (-x) y) = r at *
  generalize Real.sqrt (|k| + η) = s at *
  generalize Real.sqrt |k| = q at *
  constructor
  · have := (Real.artanh_le_artanh_iff ⟨by linarith, by linarith⟩ ⟨by linarith, by linarith⟩).2 hm
    linarith
  · have h3 := artanh_sub_le hp hm (by linarith)
    have h4 : (s * r - q * r) / (1 - s * r) ≤ 1e7 * η / (2 * |k|) := by
      have h5 : (s - q) * (2 * q) ≤ η := by nlinarith
      have h6 : q * r ≤ 1 := by linarith
      have h8 : (s * r - q * r) * (2 * |k|) ≤ η := by
        rw [← hq2]
        calc (s * r - q * r) * (2 * q ^ 2) = ((s - q) * (2 * q)) * (q * r) := by ring
          _ ≤ η * 1 := mul_le_mul h5 h6 hp hη
          _ = η := mul_one η
      rw [div_le_div_iff₀ (by linarith) (by positivity)]
      refine h8.trans ?_
      have h9 : 1e-7 ≤ 1 - s * r := by linarith
      calc η = 1e7 * η * 1e-7 := by ring
        _ ≤ 1e7 * η * (1 - s * r) := mul_le_mul_of_nonneg_left h9 (by positivity)
    have h8 : 1e7 * η / |k| = 2 * (1e7 * η / (2 * |k|)) := by field_simp
    rw [h8]
    linarith

/-! ### tangent vectors -/

/-- The differential of `toLorentz` at `x`, applied to `u`. -/
noncomputable def pushL (k : ℝ) (x u : Vec n) : Vec (n + 1) :=
  Fin.cons (α := fun _ => ℝ) (-(k * lambdaX k x ^ 2 * (x ⬝ᵥ u)))
    (Real.sqrt |k| • (lambdaX k x • u - (k * lambdaX k x ^ 2 * (x ⬝ᵥ u)) • x))

theorem hasDerivAt_lam' {k : ℝ} {x : Vec n} (hx : 1e-15 < 1 + k * (x ⬝ᵥ x)) (u : Vec n) :
    HasDerivAt (fun t : ℝ => lambdaX k (x + t • u)) (-(k * lambdaX k x ^ 2 * (x ⬝ᵥ u))) 0 := by
  have ex : ∀ t : ℝ, 1 + k * ((x + t • u) ⬝ᵥ (x + t • u)) =
      1 + k * (x ⬝ᵥ x + t * (2 * (x ⬝ᵥ u)) + t ^ 2 * (u ⬝ᵥ u)) := fun t => by
    simp only [add_dotProduct, dotProduct_add, smul_dotProduct, dotProduct_smul, smul_eq_mul, dotProduct_comm u x]
    ring
  have h3 : 1 + k * (x ⬝ᵥ x) ≠ 0 := (lt_trans (by norm_num) hx).ne'
  have hd : HasDerivAt (fun t : ℝ => 1 + k * (x ⬝ᵥ x + t * (2 * (x ⬝ᵥ u)) + t ^ 2 * (u ⬝ᵥ u)))
      (k * (1 * (2 * (x ⬝ᵥ u)) + (2 * 0 ^ (2 - 1) * 1) * (u ⬝ᵥ u))) 0 := by
    have a := (hasDerivAt_id (0 : ℝ)).mul_const (2 * (x ⬝ᵥ u))
    have b := ((hasDerivAt_id (0 : ℝ)).pow 2).mul_const (u ⬝ᵥ u)
    have := (((a.const_add (x ⬝ᵥ x)).add b).const_mul k).const_add 1
    simpa using this
  have hn : 1 + k * (x ⬝ᵥ x + 0 * (2 * (x ⬝ᵥ u)) + 0 ^ 2 * (u ⬝ᵥ u)) ≠ 0 := by
    rw [zero_mul, add_zero, zero_pow (by norm_num), zero_mul, add_zero]; exact h3
  have h0 := (hasDerivAt_const (0 : ℝ) (2 : ℝ)).div hd hn
  have hev : (fun t : ℝ => lambdaX k (x + t • u)) =ᶠ[nhds 0] ((fun _ => 2) / fun t : ℝ =>
      1 + k * (x ⬝ᵥ x + t * (2 * (x ⬝ᵥ u)) + t ^ 2 * (u ⬝ᵥ u))) := by
    have hc := hd.continuousAt
    have : ∀ᶠ t : ℝ in nhds 0, (1e-15 : ℝ) < 1 + k * (x ⬝ᵥ x + t * (2 * (x ⬝ᵥ u)) + t ^ 2 * (u ⬝ᵥ u)) :=
      hc.eventually (lt_mem_nhds (by simpa using hx))
    filter_upwards [this] with t ht
    rw [lam_eq' (by rw [ex]; exact ht.le), ex]
    rfl
  refine HasDerivAt.congr_deriv (h0.congr_of_eventuallyEq hev) ?_
  rw [lam_eq' hx.le]
  simp
  field_simp

/-- **C138, tangent vectors of negative curvature.** `pushL` is the velocity of the image of a line; it is tangent to the
hyperboloid, and inner products in the class `Lorentz` are those of the class `Stereographic`, in units of the radius. -/
theorem C138_lorentz_tangent {η k : ℝ} (hη : 0 ≤ η) (hk : k < 0) {x : Vec n} (hx : 1e-15 < 1 + k * (x ⬝ᵥ x))
    (u v : Vec n) :
    HasDerivAt (fun t : ℝ => toLorentz η k (x + t • u)) (pushL k x u) 0 ∧
    Lorentz.Tangent (toLorentz η k x) (pushL k x u) ∧
    Lorentz.inner (pushL k x u) (pushL k x v) = |k| * Stereo.inner k x u v := by
  have h3 : 1 + k * (x ⬝ᵥ x) ≠ 0 := (lt_trans (by norm_num) hx).ne'
  have hq : Real.sqrt |k| * Real.sqrt |k| = -k := by rw [Real.mul_self_sqrt (abs_nonneg k), abs_of_neg hk]
  refine ⟨?_, ?_, ?_⟩
  · rw [hasDerivAt_pi]
    have hl := hasDerivAt_lam' hx u
    intro i
    simp only [toLorentz_eq hη hk]
    refine Fin.cases ?_ (fun j => ?_) i
    · simp only [Fin.cons_zero, pushL]
      exact hl.sub_const 1
    · simp only [Fin.cons_succ, pushL, Pi.smul_apply, Pi.sub_apply, Pi.add_apply, smul_eq_mul]
      have a : HasDerivAt (fun t : ℝ => x j + t * u j) (1 * u j) 0 :=
        ((hasDerivAt_id (0 : ℝ)).mul_const (u j)).const_add (x j)
      have := (hl.const_mul (Real.sqrt |k|)).mul a
      refine HasDerivAt.congr_deriv this ?_
      simp
      ring
  · change mink _ _ = 0
    rw [toLorentz_eq hη hk, pushL, cons_mink]
    simp only [smul_dotProduct, dotProduct_smul, dotProduct_sub, smul_eq_mul]
    rw [lam_eq' hx.le]
    generalize Real.sqrt |k| = q at *
    field_simp
    linear_combination 4 * (x ⬝ᵥ u) * (1 - k * (x ⬝ᵥ x)) * hq
  · change mink _ _ = _
    rw [pushL, pushL, cons_mink, Stereo.inner]
    simp only [smul_dotProduct, dotProduct_smul, dotProduct_sub, sub_dotProduct, smul_eq_mul, dotProduct_comm u x]
    rw [lam_eq' hx.le]
    generalize Real.sqrt |k| = q at *
    have hq2 : q ^ 2 = -k := by rw [sq]; exact hq
    rw [abs_of_neg hk]
    field_simp
    rw [hq2]
    ring

/-! ### exponentials -/

/-- The image of a Möbius sum. -/
theorem toLorentz_mAdd {η k : ℝ} (hη : 0 ≤ η) (hk : k < 0) {x w : Vec n} (hx : 1e-15 ≤ 1 + k * (x ⬝ᵥ x))
    (hw : 0 < 1 + k * (w ⬝ᵥ w)) (hD : mobDenom k x w ≠ 0) (hy : 1e-15 ≤ 1 + k * (mAdd k x w ⬝ᵥ mAdd k x w)) :
    toLorentz η k (mAdd k x w) = ((1 - k * (w ⬝ᵥ w)) / (1 + k * (w ⬝ᵥ w))) • toLorentz η k x +
      (2 / ((1 + k * (w ⬝ᵥ w)) * lambdaX k x)) • pushL k x w := by
  have h3 : 1 + k * (x ⬝ᵥ x) ≠ 0 := (lt_of_lt_of_le (by norm_num) hx).ne'
  have h4 : 1 + k * (w ⬝ᵥ w) ≠ 0 := hw.ne'
  have hl : lambdaX k (mAdd k x w) = 2 * mobDenom k x w / ((1 + k * (x ⬝ᵥ x)) * (1 + k * (w ⬝ᵥ w))) := by
    rw [lam_eq' hy, mAdd_self hD]
    have e3 : 1 + k * ((x ⬝ᵥ x + 2 * (x ⬝ᵥ w) + w ⬝ᵥ w) / mobDenom k x w) =
        (1 + k * (x ⬝ᵥ x)) * (1 + k * (w ⬝ᵥ w)) / mobDenom k x w := by
      field_simp
      rw [mobDenom]; ring
    rw [e3]
    field_simp
  rw [toLorentz_eq hη hk, toLorentz_eq hη hk, hl, pushL, lam_eq' hx]
  funext i
  refine Fin.cases ?_ (fun j => ?_) i
  · simp only [Fin.cons_zero, Pi.add_apply, Pi.smul_apply, smul_eq_mul]
    field_simp
    rw [mobDenom]
    ring
  · simp only [Fin.cons_succ, Pi.add_apply, Pi.smul_apply, Pi.sub_apply, smul_eq_mul, mAdd]
    field_simp
    ring

/-- **C138, exponentials of negative curvature**, without the regulariser (`η = 0`): the image of the point that
`Stereographic.expmap` reaches is the point that `Lorentz.expmap` reaches from the image of `x` along the image of `u`.
The hypotheses keep all clamps inactive. -/
theorem C138_lorentz_exp_exact {k : ℝ} (hk : k < -1e-8) {x u : Vec n} (hx : 1e-15 < 1 + k * (x ⬝ᵥ x))
    (hu : 1e-15 ≤ nrm u) (hθ : 1e-4 ≤ Real.sqrt |k| * lambdaX k x * nrm u)
    (hmax : Real.sqrt |k| * lambdaX k x * nrm u ≤ 30)
    (hD : 1e-15 ≤ mobDenom k x ((Real.tanh (Real.sqrt |k| * lambdaX k x * nrm u / 2) / (Real.sqrt |k| * nrm u)) • u))
    (hy : 1e-15 ≤ 1 + k * (Stereo.expmap 0 k x u ⬝ᵥ Stereo.expmap 0 k x u)) (normTan doProject : Bool) :
    toLorentz 0 k (Stereo.expmap 0 k x u) = Lorentz.expmap 1 (toLorentz 0 k x) (pushL k x u) normTan doProject := by
  have hk0 : k < 0 := lt_trans hk (by norm_num)
  have hq : 0 < Real.sqrt |k| := Real.sqrt_pos.2 (abs_pos.2 hk0.ne)
  have hq2 : Real.sqrt |k| ^ 2 = -k := by rw [Real.sq_sqrt (abs_nonneg k), abs_of_neg hk0]
  have hu0 : 0 < nrm u := lt_of_lt_of_le (by norm_num) hu
  have hl : 0 < lambdaX k x := lambdaX_pos' k x
  have e : kSqrt 0 k = Real.sqrt |k| := by rw [kSqrt, sabs, add_zero]
  obtain ⟨θ, hθd⟩ : ∃ θ, θ = Real.sqrt |k| * lambdaX k x * nrm u := ⟨_, rfl⟩
  have hθ0 : 0 < θ := by rw [hθd]; positivity
  obtain ⟨w, hw⟩ : ∃ w : Vec n, w = (Real.tanh (θ / 2) / (Real.sqrt |k| * nrm u)) • u := ⟨_, rfl⟩
  rw [← hθd] at hθ hmax hD
  rw [← hw] at hD
  have hexp : Stereo.expmap 0 k x u = mAdd k x w := by
    rw [Stereo.expmap]
    simp only [max_eq_left hu]
    rw [tanK_neg_curv hk, e, show (2.0 : ℝ) = 2 by norm_num]
    have : lambdaX k x / 2 * nrm u * Real.sqrt |k| = θ / 2 := by rw [hθd]; ring
    rw [this, tanhC_eq (by linarith) (by linarith), smul_smul, ← mobiusAdd_eq hD, hw]
    congr 2
    field_simp
  have hC := Real.cosh_pos (θ / 2)
  have hcs := Real.cosh_sq (θ / 2)
  have ht : 1 - Real.tanh (θ / 2) ^ 2 = 1 / Real.cosh (θ / 2) ^ 2 := by
    rw [Real.tanh_eq_sinh_div_cosh]; field_simp; linarith
  have hww : k * (w ⬝ᵥ w) = -Real.tanh (θ / 2) ^ 2 := by
    have : k = -Real.sqrt |k| ^ 2 := by linarith
    rw [hw, smul_dotProduct, dotProduct_smul, ← nrm_sq]
    simp only [smul_eq_mul]
    generalize Real.sqrt |k| = q at *
    rw [this]
    field_simp
  have hnp : Lorentz.norm (pushL k x u) = θ := by
    have := (C138_lorentz_tangent (η := 0) le_rfl hk0 hx u u).2.2
    have h2 : Lorentz.inner (pushL k x u) (pushL k x u) = θ ^ 2 := by
      rw [this, Stereo.inner, ← nrm_sq u, hθd]
      linear_combination -(lambdaX k x * nrm u) ^ 2 * Real.sq_sqrt (abs_nonneg k)
    rw [Lorentz.norm, h2, max_eq_left, Real.sqrt_sq hθ0.le]
    calc (1e-8 : ℝ) = 1e-4 ^ 2 := by norm_num
      _ ≤ θ ^ 2 := pow_le_pow_left₀ (by norm_num) hθ 2
  have hpw : pushL k x w = (Real.tanh (θ / 2) / (Real.sqrt |k| * nrm u)) • pushL k x u := by
    rw [hw]
    unfold pushL
    funext i
    refine Fin.cases ?_ (fun j => ?_) i
    · simp [dotProduct_smul]; ring
    · simp [dotProduct_smul]; ring
  have hraw : toLorentz 0 k (Stereo.expmap 0 k x u) = Lorentz.expmapRaw 1 (toLorentz 0 k x) (pushL k x u) := by
    rw [hexp] at hy
    rw [hexp, toLorentz_mAdd le_rfl hk0 hx.le (by rw [hww, ← sub_eq_add_neg, ht]; positivity)
      (lt_of_lt_of_le (by norm_num) hD).ne' hy, hpw, smul_smul, hww, Lorentz.expmapRaw, hnp, Real.sqrt_one]
    simp only [div_one, one_mul, sub_neg_eq_add, ← sub_eq_add_neg]
    have hc : Real.cosh θ = Real.cosh (θ / 2) ^ 2 + Real.sinh (θ / 2) ^ 2 := by rw [← Real.cosh_two_mul]; ring_nf
    have hsn : Real.sinh θ = 2 * Real.sinh (θ / 2) * Real.cosh (θ / 2) := by rw [← Real.sinh_two_mul]; ring_nf
    have e1 : (1 + Real.tanh (θ / 2) ^ 2) / (1 - Real.tanh (θ / 2) ^ 2) = Real.cosh θ := by
      rw [ht, hc, Real.tanh_eq_sinh_div_cosh]; field_simp
    have e2 : 2 / ((1 - Real.tanh (θ / 2) ^ 2) * lambdaX k x) * (Real.tanh (θ / 2) / (Real.sqrt |k| * nrm u)) =
        Real.sinh θ / θ := by
      rw [ht, hsn, Real.tanh_eq_sinh_div_cosh]
      conv_rhs => rw [show (2 * Real.sinh (θ / 2) * Real.cosh (θ / 2)) / θ =
        (2 * Real.sinh (θ / 2) * Real.cosh (θ / 2)) / (Real.sqrt |k| * lambdaX k x * nrm u) by rw [← hθd]]
      generalize Real.cosh (θ / 2) = c at *
      generalize Real.sinh (θ / 2) = s at *
      field_simp
    rw [e1, e2]
  have hon := C138_on_hyperboloid (η := 0) le_rfl hk0 hy
  have htan := (C138_lorentz_tangent (η := 0) le_rfl hk0 hx u u).2.1
  have hpu : (if normTan = true then Lorentz.proju 1 (toLorentz 0 k x) (pushL k x u) else pushL k x u) = pushL k x u := by
    split_ifs
    · exact Lorentz.C36_proju_fixes htan
    · rfl
  unfold Lorentz.expmap
  simp only [hpu, ← hraw]
  split_ifs
  · exact (Lorentz.project_of_on hon).symm
  · rfl

set_option maxHeartbeats 1000000 in
/-- **C138, exponentials of negative curvature.** With the regulariser `η` the two exponentials follow the same geodesic,
and the arcs differ by at most `η (e^θ + 15) / |k|`, where `θ` is the length of the arc. (`c` is the ratio of the arcs.)
The hypotheses keep all clamps inactive. -/
theorem C138_lorentz_exp {η k : ℝ} (hη : 0 ≤ η) (hk : k < -1e-8) {x u : Vec n} (hx : 1e-15 < 1 + k * (x ⬝ᵥ x))
    (hu : 1e-15 ≤ nrm u)
    (hθ : 1e-4 + η / |k| * (Real.exp (Real.sqrt (|k| + η) * lambdaX k x * nrm u) + 15) ≤
      Real.sqrt |k| * lambdaX k x * nrm u)
    (hmax : Real.sqrt (|k| + η) * lambdaX k x * nrm u ≤ 30)
    (hD : 1e-15 ≤ mobDenom k x ((Real.tanh (Real.sqrt (|k| + η) * lambdaX k x * nrm u / 2) /
      (Real.sqrt (|k| + η) * nrm u)) • u))
    (hy : 1e-15 ≤ 1 + k * (Stereo.expmap η k x u ⬝ᵥ Stereo.expmap η k x u)) (normTan doProject : Bool) :
    ∃ c : ℝ, |c - 1| * (Real.sqrt |k| * lambdaX k x * nrm u) ≤
        η / |k| * (Real.exp (Real.sqrt (|k| + η) * lambdaX k x * nrm u) + 15) ∧
      toLorentz η k (Stereo.expmap η k x u) =
        Lorentz.expmap 1 (toLorentz η k x) (c • pushL k x u) normTan doProject := by
  have hk0 : k < 0 := lt_trans hk (by norm_num)
  have hka := abs_pos.2 hk0.ne
  have hq : 0 < Real.sqrt |k| := Real.sqrt_pos.2 hka
  have hq2 := Real.sq_sqrt (abs_nonneg k)
  have hs : 0 < Real.sqrt (|k| + η) := Real.sqrt_pos.2 (by linarith)
  have hs2 := Real.sq_sqrt (show 0 ≤ |k| + η by linarith)
  have hle : Real.sqrt |k| ≤ Real.sqrt (|k| + η) := Real.sqrt_le_sqrt (by linarith)
  have hkk : k = -Real.sqrt |k| ^ 2 := by rw [hq2, abs_of_neg hk0]; ring
  have hu0 : 0 < nrm u := lt_of_lt_of_le (by norm_num) hu
  have hl : 0 < lambdaX k x := lambdaX_pos' k x
  have e : kSqrt η k = Real.sqrt (|k| + η) := rfl
  have hon := C138_on_hyperboloid hη hk0 hy
  have htan := (C138_lorentz_tangent hη hk0 hx u u).2.1
  have hnp0 : Lorentz.inner (pushL k x u) (pushL k x u) = (Real.sqrt |k| * lambdaX k x * nrm u) ^ 2 := by
    rw [(C138_lorentz_tangent hη hk0 hx u u).2.2, Stereo.inner, ← nrm_sq u]
    linear_combination -(lambdaX k x * nrm u) ^ 2 * hq2
  have hpw0 : ∀ b : ℝ, pushL k x (b • u) = b • pushL k x u := by
    intro b
    unfold pushL
    funext i
    refine Fin.cases ?_ (fun j => ?_) i
    · simp [dotProduct_smul]; ring
    · simp [dotProduct_smul]; ring
  have hexp0 : Stereo.expmap η k x u = mAdd k x ((Real.tanh (Real.sqrt (|k| + η) * lambdaX k x * nrm u / 2) /
      (Real.sqrt (|k| + η) * nrm u)) • u) := by
    rw [Stereo.expmap]
    simp only [max_eq_left hu]
    rw [tanK_neg_curv hk, e, show (2.0 : ℝ) = 2 by norm_num]
    have : lambdaX k x / 2 * nrm u * Real.sqrt (|k| + η) = Real.sqrt (|k| + η) * lambdaX k x * nrm u / 2 := by ring
    have h0 : 0 < Real.sqrt (|k| + η) * lambdaX k x * nrm u := by positivity
    rw [this, tanhC_eq (by linarith) (by linarith), smul_smul, ← mobiusAdd_eq hD]
    congr 2
    field_simp
  have hW0 : u ⬝ᵥ u = nrm u ^ 2 := (nrm_sq u).symm
  -- numbers
  obtain ⟨θ, hθd⟩ : ∃ θ, θ = Real.sqrt |k| * lambdaX k x * nrm u := ⟨_, rfl⟩
  obtain ⟨θs, hθs⟩ : ∃ θs, θs = Real.sqrt (|k| + η) * lambdaX k x * nrm u := ⟨_, rfl⟩
  have hθ0 : 0 < θ := by rw [hθd]; positivity
  have hθs0 : 0 < θs := by rw [hθs]; positivity
  have b3 : θ ≤ θs := by rw [hθd, hθs]; gcongr
  rw [← hθd] at hθ hnp0 ⊢
  rw [← hθs] at hmax hD hexp0 hθ ⊢
  obtain ⟨T, hT⟩ : ∃ T, T = Real.tanh (θs / 2) := ⟨_, rfl⟩
  have hT0 : 0 < T := by
    rw [hT, Real.tanh_eq_sinh_div_cosh]
    exact div_pos (Real.sinh_pos_iff.2 (by linarith)) (Real.cosh_pos _)
  have hT1 : T < 1 := by rw [hT]; exact Real.tanh_lt_one _
  have hat : Real.artanh T = θs / 2 := by rw [hT]; exact Real.artanh_tanh _
  have hTe : 1 / (1 - T) = (Real.exp θs + 1) / 2 := by
    have h1 : Real.exp θs = Real.exp (θs / 2) * Real.exp (θs / 2) := by rw [← Real.exp_add]; ring_nf
    have h2 := Real.exp_pos (θs / 2)
    have h3 : T = (Real.exp θs - 1) / (Real.exp θs + 1) := by
      rw [hT, Real.tanh_eq_sinh_div_cosh, Real.sinh_eq, Real.cosh_eq, Real.exp_neg, h1]
      field_simp
    have h4 := Real.exp_pos θs
    rw [h3]
    have h5 : Real.exp θs + 1 ≠ 0 := by linarith
    have h6 : 1 - (Real.exp θs - 1) / (Real.exp θs + 1) = 2 / (Real.exp θs + 1) := by field_simp; ring
    rw [h6]
    field_simp
  rw [← hT] at hD hexp0
  obtain ⟨s, hsd⟩ : ∃ s, s = Real.sqrt (|k| + η) := ⟨_, rfl⟩
  obtain ⟨q, hqd⟩ : ∃ q, q = Real.sqrt |k| := ⟨_, rfl⟩
  rw [← hsd] at hD hexp0 hs hs2 hle hθs
  rw [← hqd] at hq hq2 hle hkk hθd
  obtain ⟨a, ha⟩ : ∃ a, a = q / s * T := ⟨_, rfl⟩
  have ha0 : 0 < a := by rw [ha]; positivity
  have haT : a ≤ T := by
    rw [ha]
    exact mul_le_of_le_one_left hT0.le ((div_le_one hs).2 hle)
  have ha1 : a < 1 := haT.trans_lt hT1
  have ham : a ∈ Set.Ioo (-1 : ℝ) 1 := ⟨by linarith, ha1⟩
  obtain ⟨φ, hφ⟩ : ∃ φ, φ = 2 * Real.artanh a := ⟨_, rfl⟩
  have hsq : (s - q) / q ≤ η / (2 * |k|) := by
    rw [div_le_div_iff₀ hq (by positivity), ← hq2]
    nlinarith [mul_nonneg (sub_nonneg.2 hle) hq.le, sq_nonneg (s - q)]
  have hsq0 : 0 ≤ (s - q) / q := div_nonneg (sub_nonneg.2 hle) hq.le
  have hηk : 0 ≤ η / |k| := div_nonneg hη hka.le
  have h2k : η / (2 * |k|) = η / |k| / 2 := by field_simp
  have b1 : φ ≤ θs := by
    have := (Real.artanh_le_artanh_iff ham ⟨by linarith, hT1⟩).2 haT
    rw [hφ]; linarith
  have b2 : θs - φ ≤ η / |k| * Real.exp θs := by
    have h1 := artanh_sub_le ha0.le haT hT1
    have h2 : T - a ≤ η / |k| / 2 := by
      have : T - a = (s - q) / q * a := by rw [ha]; field_simp
      rw [this, ← h2k]
      calc (s - q) / q * a ≤ (s - q) / q * 1 := mul_le_mul_of_nonneg_left ha1.le hsq0
        _ ≤ η / (2 * |k|) := by rw [mul_one]; exact hsq
    have h3 : (T - a) / (1 - T) ≤ η / |k| / 2 * ((Real.exp θs + 1) / 2) := by
      rw [← hTe, mul_one_div]
      exact div_le_div_of_nonneg_right h2 (by linarith)
    have h4 := Real.add_one_le_exp θs
    have h5 : η / |k| * ((Real.exp θs + 1) / 2) ≤ η / |k| * Real.exp θs :=
      mul_le_mul_of_nonneg_left (by linarith) hηk
    rw [hφ]
    linarith
  have b4 : θs - θ ≤ η / |k| * 15 := by
    have h1 : θs - θ = (s - q) / q * θ := by rw [hθd, hθs]; field_simp
    rw [h1]
    calc (s - q) / q * θ ≤ η / (2 * |k|) * 30 :=
          mul_le_mul hsq (by linarith) hθ0.le (by positivity)
      _ = η / |k| * 15 := by rw [h2k]; ring
  have hex := mul_nonneg hηk (Real.exp_pos θs).le
  have h15 : 0 ≤ η / |k| * 15 := by positivity
  have hd : |φ - θ| ≤ η / |k| * (Real.exp θs + 15) := by
    rw [abs_le, mul_add]; constructor <;> linarith
  have hφ4 : 1e-4 ≤ φ := by linarith [(abs_le.1 hd).1]
  have hφ0 : 0 < φ := lt_of_lt_of_le (by norm_num) hφ4
  refine ⟨φ / θ, ?_, ?_⟩
  · have : (φ / θ - 1) = (φ - θ) / θ := by field_simp
    rw [this, abs_div, abs_of_pos hθ0, div_mul_cancel₀ _ hθ0.ne']
    exact hd
  have hn : Lorentz.norm ((φ / θ) • pushL k x u) = φ := by
    have h2 : Lorentz.inner ((φ / θ) • pushL k x u) ((φ / θ) • pushL k x u) = φ ^ 2 := by
      rw [Lorentz.inner_eq, Lorentz.mink_smul_left, Lorentz.mink_smul_right, ← Lorentz.inner_eq, hnp0]
      field_simp
    rw [Lorentz.norm, h2, max_eq_left, Real.sqrt_sq hφ0.le]
    calc (1e-8 : ℝ) = 1e-4 ^ 2 := by norm_num
      _ ≤ φ ^ 2 := pow_le_pow_left₀ (by norm_num) hφ4 2
  have hW : k * (((T / (s * nrm u)) • u) ⬝ᵥ ((T / (s * nrm u)) • u)) = -a ^ 2 := by
    rw [smul_dotProduct, dotProduct_smul, hW0, ha]
    simp only [smul_eq_mul]
    generalize nrm u = N at *
    rw [hkk]
    field_simp
  have ha2 : 0 < 1 - a ^ 2 :=
    sub_pos.2 (by rw [sq]; exact mul_lt_one_of_nonneg_of_lt_one_left ha0.le ha1 ha1.le)
  have hc : Real.cosh φ = (1 + a ^ 2) / (1 - a ^ 2) := by
    rw [hφ, Real.cosh_two_mul, Real.cosh_artanh ham, Real.sinh_artanh ham, div_pow, div_pow, Real.sq_sqrt ha2.le]
    field_simp
  have hsn : Real.sinh φ = 2 * a / (1 - a ^ 2) := by
    rw [hφ, Real.sinh_two_mul, Real.cosh_artanh ham, Real.sinh_artanh ham]
    have h3 := Real.sqrt_pos.2 ha2
    field_simp
    rw [Real.sq_sqrt ha2.le]
  have hraw : toLorentz η k (Stereo.expmap η k x u) =
      Lorentz.expmapRaw 1 (toLorentz η k x) ((φ / θ) • pushL k x u) := by
    rw [hexp0] at hy
    rw [hexp0, toLorentz_mAdd hη hk0 hx.le (by rw [hW]; linarith) (lt_of_lt_of_le (by norm_num) hD).ne' hy, hpw0,
      smul_smul, hW, Lorentz.expmapRaw, hn, Real.sqrt_one, smul_smul]
    simp only [div_one, one_mul, sub_neg_eq_add, ← sub_eq_add_neg]
    rw [hc]
    congr 2
    rw [hsn, show 2 * a / (1 - a ^ 2) / φ * (φ / θ) = 2 * a / (1 - a ^ 2) / θ by field_simp, hθd,
      show T = s / q * a by rw [ha]; field_simp]
    generalize lambdaX k x = l at *
    generalize nrm u = N at *
    field_simp
  have htan' : Lorentz.Tangent (toLorentz η k x) ((φ / θ) • pushL k x u) := by
    have h : mink (toLorentz η k x) (pushL k x u) = 0 := htan
    change mink _ _ = 0
    rw [Lorentz.mink_smul_right, h, mul_zero]
  have hpu : (if normTan = true then Lorentz.proju 1 (toLorentz η k x) ((φ / θ) • pushL k x u)
      else (φ / θ) • pushL k x u) = (φ / θ) • pushL k x u := by
    split_ifs
    · exact Lorentz.C36_proju_fixes htan'
    · rfl
  unfold Lorentz.expmap
  simp only [hpu, ← hraw]
  split_ifs
  · exact (Lorentz.project_of_on hon).symm
  · rfl

/-! Concrete cases: curvature -4 with `x = (1/4, 0)` and `y = (0, 1/4)`, and a vector of length 1/2 at the origin of the
Poincaré ball. -/

example : |Real.sqrt (|-4| + codeEta) * Stereo.dist codeEta (-4) ![1 / 4, 0] ![0, 1 / 4] -
    Lorentz.dist 1 (toLorentz codeEta (-4) ![1 / 4, 0]) (toLorentz codeEta (-4) ![0, 1 / 4])| ≤ 1e-8 := by
  have hs : Real.sqrt (|-4| + codeEta) ≤ 2.1 := by
    refine Real.sqrt_le_iff.2 ⟨by norm_num, ?_⟩
    rw [show codeEta = 1e-15 from rfl]
    norm_num
  have hx : (1e-15 : ℝ) ≤ 1 + -4 * ((![1 / 4, 0] : Vec 2) ⬝ᵥ ![1 / 4, 0]) := by
    simp [dotProduct, Fin.sum_univ_succ]; norm_num
  have hy : (1e-15 : ℝ) ≤ 1 + -4 * ((![0, 1 / 4] : Vec 2) ⬝ᵥ ![0, 1 / 4]) := by
    simp [dotProduct, Fin.sum_univ_succ]; norm_num
  have hm : mobDenom (-4) (-(![1 / 4, 0] : Vec 2)) ![0, 1 / 4] = 17 / 16 := by
    simp [mobDenom, dotProduct, Fin.sum_univ_succ]; norm_num
  have key := C138_lorentz_dist codeEta_nonneg (k := -4) (by norm_num) hx hy (by rw [hm]; norm_num) ?_ ?_
  · rw [show codeEta = 1e-15 from rfl] at key ⊢
    rw [abs_le]
    constructor <;> norm_num at key ⊢ <;> linarith [key.1, key.2]
  · have : nrm (mobiusAdd (-4) (-(![1 / 4, 0] : Vec 2)) ![0, 1 / 4]) ≤ 2 / 5 := by
      rw [nrm_le_iff (by norm_num), mobiusAdd_self, hm]
      simp [dotProduct, Fin.sum_univ_succ]
      norm_num
    have h2 := mul_le_mul hs this (nrm_nonneg _) (by norm_num)
    refine h2.trans ?_
    norm_num
  · rw [toLorentz_mink codeEta_nonneg (by norm_num) hx hy]
    simp [dotProduct, Fin.sum_univ_succ]
    norm_num

example : toLorentz 0 (-1) (Stereo.expmap 0 (-1) 0 ((1 / 2 : ℝ) • Pi.single 0 1 : Vec 2)) =
    Lorentz.expmap 1 (toLorentz 0 (-1) 0) (pushL (-1) 0 ((1 / 2 : ℝ) • Pi.single 0 1)) := by
  have hn : nrm ((1 / 2 : ℝ) • Pi.single 0 1 : Vec 2) = 1 / 2 := by
    apply nrm_eq_of_dot_eq (by positivity)
    simp [smul_dotProduct]; norm_num
  have hx : (1e-15 : ℝ) < 1 + -1 * ((0 : Vec 2) ⬝ᵥ 0) := by simp; norm_num
  have hl : lambdaX (-1) (0 : Vec 2) = 2 := by rw [lam_eq' hx.le]; simp
  have hθ : Real.sqrt |(-1 : ℝ)| * lambdaX (-1) (0 : Vec 2) * nrm ((1 / 2 : ℝ) • Pi.single 0 1 : Vec 2) = 1 := by
    rw [hn, hl]; norm_num
  have hth : Real.tanh (1 / 2) ^ 2 ≤ 8 / 9 := by
    have h0 := Real.cosh_pos (1 / 2)
    have h1 : Real.cosh (1 / 2) ≤ 3 := by
      have := Real.exp_one_lt_d9
      have h2 : Real.exp (1 / 2) ≤ Real.exp 1 := Real.exp_le_exp.2 (by norm_num)
      have h3 : Real.exp (-(1 / 2)) ≤ Real.exp 1 := Real.exp_le_exp.2 (by norm_num)
      rw [Real.cosh_eq]
      linarith
    rw [Real.tanh_eq_sinh_div_cosh, div_pow, Real.sinh_sq, div_le_iff₀ (by positivity)]
    nlinarith
  have hexp : Stereo.expmap 0 (-1) 0 ((1 / 2 : ℝ) • Pi.single 0 1 : Vec 2) = Real.tanh (1 / 2) • Pi.single 0 1 := by
    have e : kSqrt 0 (-1) = 1 := by simp [kSqrt, sabs]
    have hm : max (1 / 2 : ℝ) 1e-15 = 1 / 2 := by norm_num
    rw [Stereo.expmap, hn, hm, hl, tanK_neg_curv (by norm_num), e, tanhC_eq (by norm_num) (by norm_num)]
    rw [mobiusAdd]
    simp [mobDenom, smul_smul]
    norm_num
  refine C138_lorentz_exp_exact (by norm_num) hx (by rw [hn]; norm_num) (by rw [hθ]; norm_num)
    (by rw [hθ]; norm_num) ?_ ?_ true true
  · simp [mobDenom]; norm_num
  · rw [hexp]
    simp [smul_dotProduct, ← sq]
    norm_num at hth ⊢
    linarith

/-- The same with the regulariser of the code. -/
example : ∃ c : ℝ, |c - 1| ≤ 1e-13 ∧
    toLorentz codeEta (-1) (Stereo.expmap codeEta (-1) 0 ((1 / 2 : ℝ) • Pi.single 0 1 : Vec 2)) =
    Lorentz.expmap 1 (toLorentz codeEta (-1) 0) (c • pushL (-1) 0 ((1 / 2 : ℝ) • Pi.single 0 1)) := by
  have hce : codeEta = 1e-15 := rfl
  have hn : nrm ((1 / 2 : ℝ) • Pi.single 0 1 : Vec 2) = 1 / 2 := by
    apply nrm_eq_of_dot_eq (by positivity)
    simp [smul_dotProduct]; norm_num
  have hx : (1e-15 : ℝ) < 1 + -1 * ((0 : Vec 2) ⬝ᵥ 0) := by simp; norm_num
  have hl : lambdaX (-1) (0 : Vec 2) = 2 := by rw [lam_eq' hx.le]; simp
  obtain ⟨s, hs⟩ : ∃ s, s = Real.sqrt (|(-1 : ℝ)| + codeEta) := ⟨_, rfl⟩
  have hs1 : 1 ≤ s := by rw [hs, hce]; refine Real.le_sqrt_of_sq_le ?_; norm_num
  have hs2 : s ≤ 2 := by rw [hs, hce]; refine Real.sqrt_le_iff.2 ⟨by norm_num, ?_⟩; norm_num
  have hθ : Real.sqrt |(-1 : ℝ)| * lambdaX (-1) (0 : Vec 2) * nrm ((1 / 2 : ℝ) • Pi.single 0 1 : Vec 2) = 1 := by
    rw [hn, hl]; norm_num
  have hθs : Real.sqrt (|(-1 : ℝ)| + codeEta) * lambdaX (-1) (0 : Vec 2) *
      nrm ((1 / 2 : ℝ) • Pi.single 0 1 : Vec 2) = s := by
    rw [hn, hl, hs]; ring
  have hexp1 : Real.exp s ≤ 9 := by
    have h1 : Real.exp s ≤ Real.exp 1 * Real.exp 1 := by rw [← Real.exp_add]; exact Real.exp_le_exp.2 (by linarith)
    have := Real.exp_one_lt_d9
    have h0 := Real.exp_pos 1
    nlinarith
  have hth : Real.tanh (s / 2) ^ 2 ≤ 8 / 9 := by
    have h0 := Real.cosh_pos (s / 2)
    have h1 : Real.cosh (s / 2) ≤ 3 := by
      have := Real.exp_one_lt_d9
      have h2 : Real.exp (s / 2) ≤ Real.exp 1 := Real.exp_le_exp.2 (by linarith)
      have h3 : Real.exp (-(s / 2)) ≤ Real.exp 1 := Real.exp_le_exp.2 (by linarith)
      rw [Real.cosh_eq]
      linarith
    rw [Real.tanh_eq_sinh_div_cosh, div_pow, Real.sinh_sq, div_le_iff₀ (by positivity)]
    nlinarith
  have hexp : Stereo.expmap codeEta (-1) 0 ((1 / 2 : ℝ) • Pi.single 0 1 : Vec 2) =
      (s⁻¹ * Real.tanh (s / 2)) • Pi.single 0 1 := by
    have e : kSqrt codeEta (-1) = s := hs.symm
    have hm : max (1 / 2 : ℝ) 1e-15 = 1 / 2 := by norm_num
    have h2 : (2 : ℝ) / 2.0 * (1 / 2) * s = s / 2 := by norm_num; ring
    rw [Stereo.expmap, hn, hm, hl, tanK_neg_curv (by norm_num), e, h2, tanhC_eq (by linarith) (by linarith)]
    rw [mobiusAdd]
    simp [mobDenom, smul_smul]
    norm_num
  obtain ⟨c, h1, h2⟩ := C138_lorentz_exp (n := 2) codeEta_nonneg (k := -1) (by norm_num) hx
    (u := (1 / 2 : ℝ) • Pi.single 0 1) (by rw [hn]; norm_num)
    (by
      rw [hθs, hθ, hce, abs_neg, abs_one, div_one]
      have h0 := Real.exp_pos s
      have : (1e-15 : ℝ) * (Real.exp s + 15) ≤ 1e-15 * 24 := mul_le_mul_of_nonneg_left (by linarith) (by norm_num)
      refine (add_le_add_right this _).trans ?_
      norm_num)
    (by rw [hθs]; linarith) (by simp [mobDenom]; norm_num)
    (by
      rw [hexp]
      have h3 : (s⁻¹ * Real.tanh (s / 2)) ^ 2 ≤ 8 / 9 := by
        rw [mul_pow]
        have h4 : s⁻¹ ^ 2 ≤ 1 := pow_le_one₀ (by positivity) (inv_le_one_of_one_le₀ hs1)
        calc s⁻¹ ^ 2 * Real.tanh (s / 2) ^ 2 ≤ 1 * Real.tanh (s / 2) ^ 2 :=
              mul_le_mul_of_nonneg_right h4 (sq_nonneg _)
          _ ≤ 8 / 9 := by rw [one_mul]; exact hth
      have h5 : ((s⁻¹ * Real.tanh (s / 2)) • Pi.single 0 1 : Vec 2) ⬝ᵥ ((s⁻¹ * Real.tanh (s / 2)) • Pi.single 0 1) =
          (s⁻¹ * Real.tanh (s / 2)) ^ 2 := by
        rw [smul_dotProduct, dotProduct_smul]
        simp
        ring
      rw [h5]
      linarith [show (1e-15 : ℝ) < 1 / 9 by norm_num]) true true
  refine ⟨c, ?_, h2⟩
  rw [hθs, hθ, hce, mul_one, abs_neg, abs_one, div_one] at h1
  have : (1e-15 : ℝ) * (Real.exp s + 15) ≤ 1e-15 * 24 := mul_le_mul_of_nonneg_left (by linarith) (by norm_num)
  exact h1.trans (this.trans (by norm_num))

end Geoopt.C138
