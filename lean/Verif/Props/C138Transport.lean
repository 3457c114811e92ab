import Verif.Props.C138Hyperbolic

/-!
# C138 – parallel transport

`transp` of the class `Stereographic` (a gyration) and `transp` of the class `Lorentz` (built from two logarithms) give
corresponding tangent vectors.
-/

namespace Geoopt.C138
open Geoopt Matrix Geoopt.Stereo
open Geoopt.Lorentz (mink OnHyperboloid)
variable {n : ℕ}

/-- `1 + cosh` of the distance of the images. -/
lemma one_add_ch {η k : ℝ} (hη : 0 ≤ η) (hk : k < 0) {x y : Vec n} (hx : 1e-15 ≤ 1 + k * (x ⬝ᵥ x))
    (hy : 1e-15 ≤ 1 + k * (y ⬝ᵥ y)) : 1 + Lorentz.ch 1 (toLorentz η k x) (toLorentz η k y) =
      2 * (1 + 2 * k * (x ⬝ᵥ y) + k ^ 2 * (x ⬝ᵥ x) * (y ⬝ᵥ y)) / ((1 + k * (x ⬝ᵥ x)) * (1 + k * (y ⬝ᵥ y))) := by
  have h3 : 1 + k * (x ⬝ᵥ x) ≠ 0 := (lt_of_lt_of_le (by norm_num) hx).ne'
  have h4 : 1 + k * (y ⬝ᵥ y) ≠ 0 := (lt_of_lt_of_le (by norm_num) hy).ne'
  have e : (x - y) ⬝ᵥ (x - y) = x ⬝ᵥ x - 2 * (x ⬝ᵥ y) + y ⬝ᵥ y := by
    simp only [sub_dotProduct, dotProduct_sub, dotProduct_comm y x]; ring
  rw [Lorentz.ch, toLorentz_mink hη hk hx hy, e]
  field_simp
  ring

lemma mink_pushL {η k : ℝ} (hη : 0 ≤ η) (hk : k < 0) (x y u : Vec n) :
    mink (toLorentz η k y) (pushL k x u) = k * lambdaX k x ^ 2 * (x ⬝ᵥ u) * (lambdaX k y - 1) -
      k * lambdaX k y * (lambdaX k x * (y ⬝ᵥ u) - k * lambdaX k x ^ 2 * (x ⬝ᵥ u) * (x ⬝ᵥ y)) := by
  have hq : Real.sqrt |k| * Real.sqrt |k| = -k := by rw [Real.mul_self_sqrt (abs_nonneg k), abs_of_neg hk]
  rw [toLorentz_eq hη hk, pushL, cons_mink]
  simp only [smul_dotProduct, dotProduct_smul, dotProduct_sub, smul_eq_mul, dotProduct_comm y x]
  linear_combination lambdaX k y * (lambdaX k x * (y ⬝ᵥ u) - k * lambdaX k x ^ 2 * (x ⬝ᵥ u) * (x ⬝ᵥ y)) * hq

/-- The formula of `transp` without the clamps. -/
lemma transp_form {k : ℝ} {x y : Vec n} (hx : lambdaX k x = 2 / (1 + k * (x ⬝ᵥ x)))
    (hy : lambdaX k y = 2 / (1 + k * (y ⬝ᵥ y))) (h3 : 1 + k * (x ⬝ᵥ x) ≠ 0) (h4 : 1 + k * (y ⬝ᵥ y) ≠ 0)
    (hD : 1e-15 ≤ mobDenom k (-x) y) (u : Vec n) :
    Stereo.transp k x y u = ((1 + k * (y ⬝ᵥ y)) / (1 + k * (x ⬝ᵥ x))) • (u +
      (1 + 2 * k * (x ⬝ᵥ y) + k ^ 2 * (x ⬝ᵥ x) * (y ⬝ᵥ y))⁻¹ • ((2 : ℝ) •
        ((-k ^ 2 * (y ⬝ᵥ u) * (x ⬝ᵥ x) + k * (x ⬝ᵥ u) + 2 * k ^ 2 * (x ⬝ᵥ y) * (x ⬝ᵥ u)) • y +
          (k ^ 2 * (x ⬝ᵥ u) * (y ⬝ᵥ y) + k * (y ⬝ᵥ u)) • -x))) := by
  have eD : mobDenom k (-x) y = 1 + 2 * k * (x ⬝ᵥ y) + k ^ 2 * (x ⬝ᵥ x) * (y ⬝ᵥ y) := by
    simp only [mobDenom, neg_dotProduct, dotProduct_neg, neg_neg]; ring
  have hmax : max (1 - 2 * k * (y ⬝ᵥ -x) + k ^ 2 * (y ⬝ᵥ y) * (-x ⬝ᵥ -x)) 1e-15 =
      1 + 2 * k * (x ⬝ᵥ y) + k ^ 2 * (x ⬝ᵥ x) * (y ⬝ᵥ y) := by
    rw [← eD, show 1 - 2 * k * (y ⬝ᵥ -x) + k ^ 2 * (y ⬝ᵥ y) * (-x ⬝ᵥ -x) = mobDenom k (-x) y by
      rw [eD]; simp only [neg_dotProduct, dotProduct_neg, neg_neg, dotProduct_comm y x]; ring, max_eq_left hD]
  rw [Stereo.transp, gyration]
  simp only [hmax]
  rw [hx, hy]
  simp only [neg_dotProduct, dotProduct_neg, neg_neg, dotProduct_comm y x]
  congr 1
  · field_simp
  · congr 5 <;> ring

set_option maxHeartbeats 1000000 in
/-- **C138, transport of negative curvature.** The image of the vector that `Stereographic.transp` moves from `x` to `y` is
the vector that `Lorentz.transp` moves between the images, if no clamp is active; the regulariser plays no part. -/
theorem C138_lorentz_transp {η k : ℝ} (hη : 0 ≤ η) (hk : k < 0) {x y : Vec n} (hx : 1e-15 < 1 + k * (x ⬝ᵥ x))
    (hy : 1e-15 < 1 + k * (y ⬝ᵥ y)) (hD : 1e-15 ≤ mobDenom k (-x) y)
    (h : x = y ∨ 1 + 1e-8 ≤ mink (toLorentz η k x) (toLorentz η k y) ^ 2) (u : Vec n) :
    pushL k y (Stereo.transp k x y u) = Lorentz.transp 1 (toLorentz η k x) (toLorentz η k y) (pushL k x u) := by
  have h3 : 1 + k * (x ⬝ᵥ x) ≠ 0 := (lt_trans (by norm_num) hx).ne'
  have h4 : 1 + k * (y ⬝ᵥ y) ≠ 0 := (lt_trans (by norm_num) hy).ne'
  have eD : mobDenom k (-x) y = 1 + 2 * k * (x ⬝ᵥ y) + k ^ 2 * (x ⬝ᵥ x) * (y ⬝ᵥ y) := by
    simp only [mobDenom, neg_dotProduct, dotProduct_neg, neg_neg]; ring
  have hD0 : 1 + 2 * k * (x ⬝ᵥ y) + k ^ 2 * (x ⬝ᵥ x) * (y ⬝ᵥ y) ≠ 0 := by
    rw [← eD]; exact (lt_of_lt_of_le (by norm_num) hD).ne'
  have hT : Lorentz.Tangent (toLorentz η k x) (pushL k x u) := (C138_lorentz_tangent hη hk hx u u).2.1
  have hg := transp_form (lam_eq' hx.le) (lam_eq' hy.le) h3 h4 hD u
  have hyu : y ⬝ᵥ Stereo.transp k x y u = ((1 + k * (y ⬝ᵥ y)) / (1 + k * (x ⬝ᵥ x))) * (y ⬝ᵥ u +
      (1 + 2 * k * (x ⬝ᵥ y) + k ^ 2 * (x ⬝ᵥ x) * (y ⬝ᵥ y))⁻¹ * (2 *
        ((-k ^ 2 * (y ⬝ᵥ u) * (x ⬝ᵥ x) + k * (x ⬝ᵥ u) + 2 * k ^ 2 * (x ⬝ᵥ y) * (x ⬝ᵥ u)) * (y ⬝ᵥ y) -
          (k ^ 2 * (x ⬝ᵥ u) * (y ⬝ᵥ y) + k * (y ⬝ᵥ u)) * (x ⬝ᵥ y)))) := by
    rw [hg]
    simp only [dotProduct_smul, dotProduct_add, dotProduct_neg, smul_eq_mul, dotProduct_comm y x]
    ring
  have h' : toLorentz η k x = toLorentz η k y ∨
      (1 : ℝ) ^ 2 + 1 * 1e-8 ≤ mink (toLorentz η k x) (toLorentz η k y) ^ 2 := by
    rcases h with rfl | h
    · exact .inl rfl
    · right; rw [one_pow, one_mul]; exact h
  rw [Lorentz.transp_exact one_pos (C138_on_hyperboloid hη hk hx.le) (C138_on_hyperboloid hη hk hy.le) hT h', one_mul,
    one_add_ch hη hk hx.le hy.le, mink_pushL hη hk, toLorentz_eq hη hk, toLorentz_eq hη hk, pushL, hyu, hg, pushL,
    lam_eq' hx.le, lam_eq' hy.le]
  generalize x ⬝ᵥ x = X at *
  generalize y ⬝ᵥ y = Y at *
  generalize x ⬝ᵥ y = m at *
  generalize x ⬝ᵥ u = α at *
  generalize y ⬝ᵥ u = β at *
  clear hg hyu eD hT h h'
  obtain ⟨D, hd⟩ : ∃ D, 1 + 2 * k * m + k ^ 2 * X * Y = D := ⟨_, rfl⟩
  rw [hd] at hD0 ⊢
  funext i
  refine Fin.cases ?_ (fun j => ?_) i
  · simp only [Fin.cons_zero, Pi.add_apply, Pi.smul_apply, smul_eq_mul]
    field_simp
    rw [← hd]
    ring
  · simp only [Fin.cons_succ, Pi.add_apply, Pi.smul_apply, Pi.sub_apply, Pi.neg_apply, smul_eq_mul]
    field_simp
    rw [← hd]
    ring

set_option maxHeartbeats 1000000 in
/-- **C138, transport of positive curvature.** The image of the vector that `Stereographic.transp` moves from `x` to `y` is
the textbook parallel transport of the sphere between the images: the rotation of the plane of the two points that takes
one to the other. (`Sphere.transp` itself projects, so it is another transport.) -/
theorem C138_transp {η k : ℝ} (hη : 0 ≤ η) (hk : 0 < k) (x y : Vec n) (hD : 1e-15 ≤ mobDenom k (-x) y) (u : Vec n) :
    push k y (Stereo.transp k x y u) = push k x u -
      ((toSphere η k y ⬝ᵥ push k x u) / (1 + toSphere η k x ⬝ᵥ toSphere η k y)) •
        (toSphere η k x + toSphere η k y) := by
  have hX := mul_nonneg hk.le (dot_self_nonneg x)
  have hY := mul_nonneg hk.le (dot_self_nonneg y)
  have h3 : 1 + k * (x ⬝ᵥ x) ≠ 0 := by linarith
  have h4 : 1 + k * (y ⬝ᵥ y) ≠ 0 := by linarith
  have hq : Real.sqrt k * Real.sqrt k = k := Real.mul_self_sqrt hk.le
  have eD : mobDenom k (-x) y = 1 + 2 * k * (x ⬝ᵥ y) + k ^ 2 * (x ⬝ᵥ x) * (y ⬝ᵥ y) := by
    simp only [mobDenom, neg_dotProduct, dotProduct_neg, neg_neg]; ring
  have hD0 : 1 + 2 * k * (x ⬝ᵥ y) + k ^ 2 * (x ⬝ᵥ x) * (y ⬝ᵥ y) ≠ 0 := by
    rw [← eD]; exact (lt_of_lt_of_le (by norm_num) hD).ne'
  have hg := transp_form (lam_eq hk x) (lam_eq hk y) h3 h4 hD u
  have hyu : y ⬝ᵥ Stereo.transp k x y u = ((1 + k * (y ⬝ᵥ y)) / (1 + k * (x ⬝ᵥ x))) * (y ⬝ᵥ u +
      (1 + 2 * k * (x ⬝ᵥ y) + k ^ 2 * (x ⬝ᵥ x) * (y ⬝ᵥ y))⁻¹ * (2 *
        ((-k ^ 2 * (y ⬝ᵥ u) * (x ⬝ᵥ x) + k * (x ⬝ᵥ u) + 2 * k ^ 2 * (x ⬝ᵥ y) * (x ⬝ᵥ u)) * (y ⬝ᵥ y) -
          (k ^ 2 * (x ⬝ᵥ u) * (y ⬝ᵥ y) + k * (y ⬝ᵥ u)) * (x ⬝ᵥ y)))) := by
    rw [hg]
    simp only [dotProduct_smul, dotProduct_add, dotProduct_neg, smul_eq_mul, dotProduct_comm y x]
    ring
  have e : (x - y) ⬝ᵥ (x - y) = x ⬝ᵥ x - 2 * (x ⬝ᵥ y) + y ⬝ᵥ y := by
    simp only [sub_dotProduct, dotProduct_sub, dotProduct_comm y x]; ring
  have hch : 1 + toSphere η k x ⬝ᵥ toSphere η k y = 2 * (1 + 2 * k * (x ⬝ᵥ y) + k ^ 2 * (x ⬝ᵥ x) * (y ⬝ᵥ y)) /
      ((1 + k * (x ⬝ᵥ x)) * (1 + k * (y ⬝ᵥ y))) := by
    rw [toSphere_dot hη hk, e]
    field_simp
    ring
  have hmp : toSphere η k y ⬝ᵥ push k x u = -(k * lambdaX k x ^ 2 * (x ⬝ᵥ u) * (lambdaX k y - 1)) +
      k * lambdaX k y * (lambdaX k x * (y ⬝ᵥ u) - k * lambdaX k x ^ 2 * (x ⬝ᵥ u) * (x ⬝ᵥ y)) := by
    rw [toSphere_eq hη hk, push, snoc_dot]
    simp only [smul_dotProduct, dotProduct_smul, dotProduct_sub, smul_eq_mul, dotProduct_comm y x]
    linear_combination lambdaX k y * (lambdaX k x * (y ⬝ᵥ u) - k * lambdaX k x ^ 2 * (x ⬝ᵥ u) * (x ⬝ᵥ y)) * hq
  rw [hmp, hch, toSphere_eq hη hk, toSphere_eq hη hk, push, hyu, hg, push, lam_eq hk, lam_eq hk]
  clear hg hyu eD e hch hmp hX hY
  generalize x ⬝ᵥ x = X at *
  generalize y ⬝ᵥ y = Y at *
  generalize x ⬝ᵥ y = m at *
  generalize x ⬝ᵥ u = α at *
  generalize y ⬝ᵥ u = β at *
  obtain ⟨D, hd⟩ : ∃ D, 1 + 2 * k * m + k ^ 2 * X * Y = D := ⟨_, rfl⟩
  rw [hd] at hD0 ⊢
  funext i
  refine Fin.lastCases ?_ (fun j => ?_) i
  · simp only [Fin.snoc_last, Pi.add_apply, Pi.sub_apply, Pi.smul_apply, smul_eq_mul]
    field_simp
    rw [← hd]
    ring
  · simp only [Fin.snoc_castSucc, Pi.add_apply, Pi.smul_apply, Pi.sub_apply, Pi.neg_apply, smul_eq_mul]
    field_simp
    rw [← hd]
    ring

/-- Non-vacuity: a transport between two points of the Poincaré disk. -/
example (u : Vec 2) : pushL (-1) ((1 / 2 : ℝ) • Pi.single 0 1) (Stereo.transp (-1) 0 ((1 / 2 : ℝ) • Pi.single 0 1) u) =
    Lorentz.transp 1 (toLorentz codeEta (-1) 0) (toLorentz codeEta (-1) ((1 / 2 : ℝ) • Pi.single 0 1 : Vec 2))
      (pushL (-1) 0 u) := by
  have hyy : ((1 / 2 : ℝ) • Pi.single 0 1 : Vec 2) ⬝ᵥ ((1 / 2 : ℝ) • Pi.single 0 1) = 1 / 4 := by
    rw [smul_dotProduct, dotProduct_smul]; simp; norm_num
  have hx : (1e-15 : ℝ) < 1 + -1 * ((0 : Vec 2) ⬝ᵥ 0) := by simp; norm_num
  have hy : (1e-15 : ℝ) < 1 + -1 * (((1 / 2 : ℝ) • Pi.single 0 1 : Vec 2) ⬝ᵥ ((1 / 2 : ℝ) • Pi.single 0 1)) := by
    rw [hyy]; norm_num
  apply C138_lorentz_transp codeEta_nonneg (by norm_num) hx hy
  · simp [mobDenom]; norm_num
  · right
    rw [toLorentz_mink codeEta_nonneg (by norm_num) hx.le hy.le, zero_sub, neg_dotProduct, dotProduct_neg, neg_neg, hyy]
    norm_num

/-- Non-vacuity: `hD` of `C138_transp` for two orthogonal points. -/
example : (1e-15 : ℝ) ≤ mobDenom 4 (-(Pi.single 0 1 : Vec 2)) (Pi.single 1 1) := by
  simp [mobDenom]; norm_num

end Geoopt.C138
