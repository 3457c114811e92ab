import Verif.Props.C09
import Verif.Props.C20
import Verif.Props.C39
import Mathlib.Analysis.Calculus.MeanValue
import Mathlib.Analysis.Calculus.Deriv.Prod
import Mathlib.Analysis.Calculus.Deriv.Inv
import Mathlib.Analysis.SpecialFunctions.Trigonometric.ArctanDeriv

/-!
# C138 – the stereographic model of positive curvature is the sphere

`inv_sproj` sends points of `Stereographic(k)` with `k > 0` to the sphere of radius `1/√k`. Divided by the radius they
are points of the class `Sphere`, and distances, tangent vectors and exponentials of the two classes correspond.
-/

namespace Geoopt.C138
open Geoopt Matrix Geoopt.Stereo
variable {n : ℕ}

/-- The result of `inv_sproj` in units of the radius. (The code takes `√(k + η)` for `1/radius` in the last coordinate,
with `η = 1e-15`.) -/
noncomputable def toSphere (η k : ℝ) (x : Vec n) : Vec (n + 1) :=
  Fin.snoc (α := fun _ => ℝ) (Real.sqrt k • fun i : Fin n => invSproj η k x i.castSucc)
    (Real.sqrt (|k| + η) * invSproj η k x (Fin.last n))

/-- Without the regulariser: the point divided by the radius `1/√k`. -/
theorem toSphere_zero {k : ℝ} (hk : 0 < k) (x : Vec n) : toSphere 0 k x = Real.sqrt k • invSproj 0 k x := by
  funext i
  refine Fin.lastCases ?_ (fun j => ?_) i
  · simp [toSphere, abs_of_pos hk]
  · simp [toSphere]

lemma snoc_dot (a b : Vec n) (s t : ℝ) :
    (Fin.snoc (α := fun _ => ℝ) a s : Vec (n + 1)) ⬝ᵥ (Fin.snoc (α := fun _ => ℝ) b t : Vec (n + 1)) = a ⬝ᵥ b + s * t := by
  simp [dotProduct, Fin.sum_univ_castSucc]

lemma lam_eq {k : ℝ} (hk : 0 < k) (x : Vec n) : lambdaX k x = 2 / (1 + k * (x ⬝ᵥ x)) := by
  have := mul_nonneg hk.le (dot_self_nonneg x)
  rw [lambdaX, max_eq_left]
  have : (1e-15 : ℝ) ≤ 1 := by norm_num
  linarith

lemma toSphere_eq {η k : ℝ} (hη : 0 ≤ η) (hk : 0 < k) (x : Vec n) :
    toSphere η k x = Fin.snoc (α := fun _ => ℝ) ((Real.sqrt k * lambdaX k x) • x) (lambdaX k x - 1) := by
  have hs : 0 < Real.sqrt (|k| + η) := Real.sqrt_pos.2 (by rw [abs_of_pos hk]; linarith)
  have e : kSqrt η k = Real.sqrt (|k| + η) := rfl
  unfold toSphere invSproj
  congr 1
  · funext i
    simp [mul_assoc]
  · rw [Fin.snoc_last, e, show (1.0 : ℝ) = 1 by norm_num]
    field_simp

/-- The cosine of the angle of two images. -/
theorem toSphere_dot {η k : ℝ} (hη : 0 ≤ η) (hk : 0 < k) (x y : Vec n) :
    toSphere η k x ⬝ᵥ toSphere η k y =
      1 - 2 * k * ((x - y) ⬝ᵥ (x - y)) / ((1 + k * (x ⬝ᵥ x)) * (1 + k * (y ⬝ᵥ y))) := by
  have h1 := mul_nonneg hk.le (dot_self_nonneg x)
  have h2 := mul_nonneg hk.le (dot_self_nonneg y)
  have hs := Real.mul_self_sqrt hk.le
  have e : (x - y) ⬝ᵥ (x - y) = x ⬝ᵥ x - 2 * (x ⬝ᵥ y) + y ⬝ᵥ y := by
    simp only [sub_dotProduct, dotProduct_sub, dotProduct_comm y x]; ring
  rw [toSphere_eq hη hk, toSphere_eq hη hk, snoc_dot, smul_dotProduct, dotProduct_smul, lam_eq hk, lam_eq hk, e]
  simp only [smul_eq_mul]
  have e2 : Real.sqrt k * (2 / (1 + k * (x ⬝ᵥ x))) * (Real.sqrt k * (2 / (1 + k * (y ⬝ᵥ y))) * (x ⬝ᵥ y)) =
      k * (2 / (1 + k * (x ⬝ᵥ x))) * (2 / (1 + k * (y ⬝ᵥ y))) * (x ⬝ᵥ y) := by
    linear_combination (2 / (1 + k * (x ⬝ᵥ x))) * (2 / (1 + k * (y ⬝ᵥ y))) * (x ⬝ᵥ y) * hs
  rw [e2]
  have h3 : 1 + k * (x ⬝ᵥ x) ≠ 0 := by linarith
  have h4 : 1 + k * (y ⬝ᵥ y) ≠ 0 := by linarith
  field_simp
  ring

/-- **C138, points.** The images are unit vectors, whatever the point. -/
theorem C138_on_sphere {η k : ℝ} (hη : 0 ≤ η) (hk : 0 < k) (x : Vec n) :
    toSphere η k x ⬝ᵥ toSphere η k x = 1 := by
  rw [toSphere_dot hη hk, sub_self, zero_dotProduct]
  simp

lemma arctan_sub_le {a b : ℝ} (ha : 0 ≤ a) (hab : a ≤ b) : Real.arctan b - Real.arctan a ≤ (b - a) / (1 + a ^ 2) := by
  have := Convex.image_sub_le_mul_sub_of_deriv_le (convex_Icc a b) (f := Real.arctan) (C := 1 / (1 + a ^ 2))
    Real.continuous_arctan.continuousOn Real.differentiable_arctan.differentiableOn
    (fun x hx => by
      rw [interior_Icc] at hx
      rw [Real.deriv_arctan]
      have : a ^ 2 ≤ x ^ 2 := pow_le_pow_left₀ ha hx.1.le 2
      exact one_div_le_one_div_of_le (by positivity) (by linarith)) a ⟨le_rfl, hab⟩ b ⟨hab, le_rfl⟩ hab
  rw [one_div_mul_eq_div] at this
  exact this

/-- The angle of two images is twice the arc tangent of the length of `-x ⊕ y`. -/
theorem angle_eq {η k : ℝ} (hη : 0 ≤ η) (hk : 0 < k) (x y : Vec n) (hD : 1e-15 ≤ mobDenom k (-x) y) :
    Real.arccos (toSphere η k x ⬝ᵥ toSphere η k y) = 2 * Real.arctan (nrm (mobiusAdd k (-x) y) * Real.sqrt k) := by
  have h1 := mul_nonneg hk.le (dot_self_nonneg x)
  have h2 := mul_nonneg hk.le (dot_self_nonneg y)
  have hD0 : mobDenom k (-x) y ≠ 0 := (lt_of_lt_of_le (by norm_num) hD).ne'
  rw [mobiusAdd_eq hD]
  obtain ⟨t, ht⟩ : ∃ t, t = nrm (mAdd k (-x) y) * Real.sqrt k := ⟨_, rfl⟩
  have ht0 : 0 ≤ t := by rw [ht]; exact mul_nonneg (nrm_nonneg _) (Real.sqrt_nonneg _)
  have ht2 : t ^ 2 = k * ((x ⬝ᵥ x - 2 * (x ⬝ᵥ y) + y ⬝ᵥ y) / mobDenom k (-x) y) := by
    rw [ht, mul_pow, Real.sq_sqrt hk.le, nrm_sq, mAdd_self hD0]
    simp only [neg_dotProduct, dotProduct_neg]
    ring
  rw [← ht]
  have hc : toSphere η k x ⬝ᵥ toSphere η k y = Real.cos (2 * Real.arctan t) := by
    rw [Real.cos_two_mul, Real.cos_sq_arctan, ht2, toSphere_dot hη hk]
    have e : (x - y) ⬝ᵥ (x - y) = x ⬝ᵥ x - 2 * (x ⬝ᵥ y) + y ⬝ᵥ y := by
      simp only [sub_dotProduct, dotProduct_sub, dotProduct_comm y x]; ring
    have hDe : mobDenom k (-x) y = 1 + 2 * k * (x ⬝ᵥ y) + k ^ 2 * (x ⬝ᵥ x) * (y ⬝ᵥ y) := by
      simp only [mobDenom, neg_dotProduct, dotProduct_neg]; ring
    rw [e]
    generalize mobDenom k (-x) y = D at *
    generalize x ⬝ᵥ x = P at *
    generalize y ⬝ᵥ y = Q at *
    generalize x ⬝ᵥ y = R at *
    have h3 : 1 + k * P ≠ 0 := by linarith
    have h4 : 1 + k * Q ≠ 0 := by linarith
    have e3 : 1 + k * ((P - 2 * R + Q) / D) = (1 + k * P) * (1 + k * Q) / D := by
      field_simp; rw [hDe]; ring
    rw [e3]
    field_simp
    rw [hDe]; ring
  have h3 := Real.arctan_nonneg.2 ht0
  have h4 := Real.arctan_lt_pi_div_two t
  rw [hc, Real.arccos_cos (by linarith) (by linarith)]

/-- **C138, distances.** In units of the radius the distance of the class `Stereographic` is the distance of the images
in the class `Sphere`, up to `η / 2k` for the regulariser `η = 1e-15` of the former, as long as no clamp is active:
neither that of the Möbius addition, nor that of the cosine. -/
theorem C138_dist {η k : ℝ} (hη : 0 ≤ η) (hk : 1e-8 < k) (dt : DType) (x y : Vec n) (hD : 1e-15 ≤ mobDenom k (-x) y)
    (h1 : -1 + Sphere.eps dt ≤ toSphere η k x ⬝ᵥ toSphere η k y)
    (h2 : toSphere η k x ⬝ᵥ toSphere η k y ≤ 1 - Sphere.eps dt) :
    Sphere.dist dt (toSphere η k x) (toSphere η k y) ≤ Real.sqrt (|k| + η) * Stereo.dist η k x y ∧
    Real.sqrt (|k| + η) * Stereo.dist η k x y ≤ Sphere.dist dt (toSphere η k x) (toSphere η k y) + η / (2 * k) := by
  have hk0 : 0 < k := lt_trans (by norm_num) hk
  have e : kSqrt η k = Real.sqrt (|k| + η) := rfl
  have hs : 0 < Real.sqrt (|k| + η) := Real.sqrt_pos.2 (by rw [abs_of_pos hk0]; linarith)
  have hle : Real.sqrt k ≤ Real.sqrt (|k| + η) := Real.sqrt_le_sqrt (by rw [abs_of_pos hk0]; linarith)
  have hq : 0 < Real.sqrt k := Real.sqrt_pos.2 hk0
  have hq2 := Real.sq_sqrt hk0.le
  have hs2 : Real.sqrt (|k| + η) ^ 2 = k + η := by
    rw [Real.sq_sqrt (by rw [abs_of_pos hk0]; linarith), abs_of_pos hk0]
  have ed : Sphere.dist dt (toSphere η k x) (toSphere η k y) =
      2 * Real.arctan (nrm (mobiusAdd k (-x) y) * Real.sqrt k) := by
    rw [← angle_eq hη hk0 x y hD, Sphere.dist, Sphere.inner, clamp_of_mem h1 h2]
  have er : Real.sqrt (|k| + η) * Stereo.dist η k x y =
      2 * Real.arctan (nrm (mobiusAdd k (-x) y) * Real.sqrt (|k| + η)) := by
    rw [Stereo.dist, artanK_pos_curv hk, e, show (2.0 : ℝ) = 2 by norm_num]
    field_simp
  rw [ed, er]
  have hr := nrm_nonneg (mobiusAdd k (-x) y)
  generalize nrm (mobiusAdd k (-x) y) = r at *
  generalize Real.sqrt (|k| + η) = s at *
  generalize Real.sqrt k = q at *
  have hm : r * q ≤ r * s := mul_le_mul_of_nonneg_left hle hr
  constructor
  · linarith [Real.arctan_mono hm]
  · have h3 := arctan_sub_le (mul_nonneg hr hq.le) hm
    have h4 : (r * s - r * q) / (1 + (r * q) ^ 2) ≤ η / (4 * k) := by
      have h5 : (s - q) * (2 * q) ≤ η := by nlinarith
      have h6 : 2 * (r * q) ≤ 1 + (r * q) ^ 2 := by nlinarith [sq_nonneg (r * q - 1)]
      rw [div_le_div_iff₀ (by positivity) (by positivity), ← hq2]
      have h7 : (r * s - r * q) * (4 * q ^ 2) = ((s - q) * (2 * q)) * (2 * (r * q)) := by ring
      rw [h7]
      exact mul_le_mul h5 h6 (by positivity) hη
    have h8 : η / (2 * k) = 2 * (η / (4 * k)) := by field_simp; norm_num
    rw [h8]
    linarith

/-! ### tangent vectors -/

/-- The differential of `toSphere` at `x`, applied to `u`. -/
noncomputable def push (k : ℝ) (x u : Vec n) : Vec (n + 1) :=
  Fin.snoc (α := fun _ => ℝ) (Real.sqrt k • (lambdaX k x • u - (k * lambdaX k x ^ 2 * (x ⬝ᵥ u)) • x))
    (-(k * lambdaX k x ^ 2 * (x ⬝ᵥ u)))

theorem hasDerivAt_lam {k : ℝ} (hk : 0 < k) (x u : Vec n) :
    HasDerivAt (fun t : ℝ => lambdaX k (x + t • u)) (-(k * lambdaX k x ^ 2 * (x ⬝ᵥ u))) 0 := by
  have e : (fun t : ℝ => lambdaX k (x + t • u)) = fun t : ℝ =>
      2 / (1 + k * (x ⬝ᵥ x + t * (2 * (x ⬝ᵥ u)) + t ^ 2 * (u ⬝ᵥ u))) := by
    funext t
    rw [lam_eq hk]
    simp only [add_dotProduct, dotProduct_add, smul_dotProduct, dotProduct_smul, smul_eq_mul, dotProduct_comm u x]
    ring_nf
  have h1 := mul_nonneg hk.le (dot_self_nonneg x)
  have hn : 1 + k * (x ⬝ᵥ x + 0 * (2 * (x ⬝ᵥ u)) + 0 ^ 2 * (u ⬝ᵥ u)) ≠ 0 := by nlinarith
  have hd : HasDerivAt (fun t : ℝ => 1 + k * (x ⬝ᵥ x + t * (2 * (x ⬝ᵥ u)) + t ^ 2 * (u ⬝ᵥ u)))
      (k * (1 * (2 * (x ⬝ᵥ u)) + (2 * 0 ^ (2 - 1) * 1) * (u ⬝ᵥ u))) 0 := by
    have a := (hasDerivAt_id (0 : ℝ)).mul_const (2 * (x ⬝ᵥ u))
    have b := ((hasDerivAt_id (0 : ℝ)).pow 2).mul_const (u ⬝ᵥ u)
    have := (((a.const_add (x ⬝ᵥ x)).add b).const_mul k).const_add 1
    simpa using this
  have := (hasDerivAt_const (0 : ℝ) (2 : ℝ)).div hd hn
  rw [e]
  refine HasDerivAt.congr_deriv this ?_
  rw [lam_eq hk]
  have h3 : 1 + k * (x ⬝ᵥ x) ≠ 0 := by linarith
  simp
  field_simp

/-- **C138, tangent vectors.** `push` is the velocity of the image of a line; it is tangent to the sphere, and inner
products in the class `Sphere` are those of the class `Stereographic`, in units of the radius. -/
theorem C138_tangent {η k : ℝ} (hη : 0 ≤ η) (hk : 0 < k) (x u v : Vec n) :
    HasDerivAt (fun t : ℝ => toSphere η k (x + t • u)) (push k x u) 0 ∧
    toSphere η k x ⬝ᵥ push k x u = 0 ∧
    Sphere.inner (toSphere η k x) (push k x u) (push k x v) = k * Stereo.inner k x u v := by
  have h1 := mul_nonneg hk.le (dot_self_nonneg x)
  have h3 : 1 + k * (x ⬝ᵥ x) ≠ 0 := by linarith
  have hs := Real.mul_self_sqrt hk.le
  refine ⟨?_, ?_, ?_⟩
  · rw [hasDerivAt_pi]
    have hl := hasDerivAt_lam hk x u
    intro i
    simp only [toSphere_eq hη hk]
    refine Fin.lastCases ?_ (fun j => ?_) i
    · simp only [Fin.snoc_last, push]
      exact hl.sub_const 1
    · simp only [Fin.snoc_castSucc, push, Pi.smul_apply, Pi.sub_apply, Pi.add_apply, smul_eq_mul]
      have a : HasDerivAt (fun t : ℝ => x j + t * u j) (1 * u j) 0 :=
        ((hasDerivAt_id (0 : ℝ)).mul_const (u j)).const_add (x j)
      have := (hl.const_mul (Real.sqrt k)).mul a
      refine HasDerivAt.congr_deriv this ?_
      simp
      ring
  · rw [toSphere_eq hη hk, push, snoc_dot]
    simp only [smul_dotProduct, dotProduct_smul, dotProduct_sub, smul_eq_mul]
    rw [lam_eq hk]
    have e : ∀ a b : ℝ, Real.sqrt k * a * (Real.sqrt k * b) = k * (a * b) := fun a b => by
      linear_combination a * b * hs
    rw [← mul_assoc, ← mul_assoc]
    generalize Real.sqrt k = q at *
    field_simp
    linear_combination 4 * (x ⬝ᵥ u) * (1 - k * (x ⬝ᵥ x)) * hs
  · rw [Sphere.inner, push, push, snoc_dot, Stereo.inner]
    simp only [smul_dotProduct, dotProduct_smul, dotProduct_sub, sub_dotProduct, smul_eq_mul, dotProduct_comm u x]
    rw [lam_eq hk]
    generalize Real.sqrt k = q at *
    have hq : q ^ 2 = k := by rw [sq]; exact hs
    field_simp
    rw [hq]
    ring

/-! ### exponentials -/

/-- The image of a Möbius sum. -/
theorem toSphere_mAdd {η k : ℝ} (hη : 0 ≤ η) (hk : 0 < k) (x w : Vec n) (hD : mobDenom k x w ≠ 0) :
    toSphere η k (mAdd k x w) = ((1 - k * (w ⬝ᵥ w)) / (1 + k * (w ⬝ᵥ w))) • toSphere η k x +
      (2 / ((1 + k * (w ⬝ᵥ w)) * lambdaX k x)) • push k x w := by
  have h1 := mul_nonneg hk.le (dot_self_nonneg x)
  have h2 := mul_nonneg hk.le (dot_self_nonneg w)
  have h3 : 1 + k * (x ⬝ᵥ x) ≠ 0 := by linarith
  have h4 : 1 + k * (w ⬝ᵥ w) ≠ 0 := by linarith
  have hl : lambdaX k (mAdd k x w) = 2 * mobDenom k x w / ((1 + k * (x ⬝ᵥ x)) * (1 + k * (w ⬝ᵥ w))) := by
    rw [lam_eq hk, mAdd_self hD]
    have e3 : 1 + k * ((x ⬝ᵥ x + 2 * (x ⬝ᵥ w) + w ⬝ᵥ w) / mobDenom k x w) =
        (1 + k * (x ⬝ᵥ x)) * (1 + k * (w ⬝ᵥ w)) / mobDenom k x w := by
      field_simp
      rw [mobDenom]; ring
    rw [e3]
    field_simp
  rw [toSphere_eq hη hk, toSphere_eq hη hk, hl, push, lam_eq hk]
  funext i
  refine Fin.lastCases ?_ (fun j => ?_) i
  · simp only [Fin.snoc_last, Pi.add_apply, Pi.smul_apply, smul_eq_mul]
    field_simp
    rw [mobDenom]
    ring
  · simp only [Fin.snoc_castSucc, Pi.add_apply, Pi.smul_apply, Pi.sub_apply, smul_eq_mul, mAdd]
    field_simp
    ring

/-- **C138, exponentials**, without the regulariser (`η = 0`): the image of the point that `Stereographic.expmap`
reaches is the point that `Sphere.expmap` reaches from the image of `x` along the image of `u`. The hypotheses keep all
clamps inactive and exclude vectors that lead to the point at infinity. -/
theorem C138_exp_exact {k : ℝ} (hk : 1e-8 < k) (dt : DType) (x u : Vec n) (hu : 1e-15 ≤ nrm u)
    (hθ : Sphere.eps dt < Real.sqrt k * lambdaX k x * nrm u) (hmax : Real.sqrt k * lambdaX k x * nrm u ≤ 1e38)
    (hcos : Real.cos (Real.sqrt k * lambdaX k x * nrm u / 2) ≠ 0)
    (hD : 1e-15 ≤ mobDenom k x ((Real.tan (Real.sqrt k * lambdaX k x * nrm u / 2) / (Real.sqrt k * nrm u)) • u)) :
    toSphere 0 k (Stereo.expmap 0 k x u) = Sphere.expmap none dt (toSphere 0 k x) (push k x u) := by
  have hk0 : 0 < k := lt_trans (by norm_num) hk
  have hq : 0 < Real.sqrt k := Real.sqrt_pos.2 hk0
  have hq2 := Real.sq_sqrt hk0.le
  have hu0 : 0 < nrm u := lt_of_lt_of_le (by norm_num) hu
  have hl : 0 < lambdaX k x := lambdaX_pos' k x
  have e : kSqrt 0 k = Real.sqrt k := by rw [kSqrt, sabs, abs_of_pos hk0, add_zero]
  obtain ⟨θ, hθd⟩ : ∃ θ, θ = Real.sqrt k * lambdaX k x * nrm u := ⟨_, rfl⟩
  have hθ0 : 0 < θ := by rw [hθd]; positivity
  obtain ⟨w, hw⟩ : ∃ w : Vec n, w = (Real.tan (θ / 2) / (Real.sqrt k * nrm u)) • u := ⟨_, rfl⟩
  rw [← hθd] at hθ hmax hcos hD
  rw [← hw] at hD
  have hexp : Stereo.expmap 0 k x u = mAdd k x w := by
    rw [Stereo.expmap]
    simp only [max_eq_left hu]
    rw [tanK_pos_curv hk, e, show (2.0 : ℝ) = 2 by norm_num]
    have : lambdaX k x / 2 * nrm u * Real.sqrt k = θ / 2 := by rw [hθd]; ring
    rw [this, min_eq_left (by linarith), smul_smul, ← mobiusAdd_eq hD, hw]
    congr 2
    field_simp
  have hww : k * (w ⬝ᵥ w) = Real.tan (θ / 2) ^ 2 := by
    rw [hw, smul_dotProduct, dotProduct_smul, ← nrm_sq]
    simp only [smul_eq_mul]
    field_simp
    rw [hq2]
    ring
  have hnp : nrm (push k x u) = θ := by
    apply nrm_eq_of_dot_eq hθ0.le
    have := (C138_tangent (η := 0) le_rfl hk0 x u u).2.2
    rw [Sphere.inner, Stereo.inner, ← nrm_sq u] at this
    rw [this, hθd]
    linear_combination -(lambdaX k x * nrm u) ^ 2 * hq2
  have hpw : push k x w = (Real.tan (θ / 2) / (Real.sqrt k * nrm u)) • push k x u := by
    rw [hw]
    unfold push
    funext i
    refine Fin.lastCases ?_ (fun j => ?_) i
    · simp [dotProduct_smul]; ring
    · simp [dotProduct_smul]; ring
  rw [hexp, toSphere_mAdd le_rfl hk0 x w (lt_of_lt_of_le (by norm_num) hD).ne', hpw, smul_smul, hww,
    Sphere.expmap, hnp, if_pos hθ]
  have hc : Real.cos θ = 2 * Real.cos (θ / 2) ^ 2 - 1 := by rw [← Real.cos_two_mul]; ring_nf
  have hsn : Real.sin θ = 2 * Real.sin (θ / 2) * Real.cos (θ / 2) := by rw [← Real.sin_two_mul]; ring_nf
  have hsc := Real.sin_sq_add_cos_sq (θ / 2)
  have ht : 1 + Real.tan (θ / 2) ^ 2 = 1 / Real.cos (θ / 2) ^ 2 := by
    rw [Real.tan_eq_sin_div_cos]; field_simp; linarith
  have e1 : (1 - Real.tan (θ / 2) ^ 2) / (1 + Real.tan (θ / 2) ^ 2) = Real.cos θ := by
    rw [ht, hc, Real.tan_eq_sin_div_cos]; field_simp; linarith
  have e2 : 2 / ((1 + Real.tan (θ / 2) ^ 2) * lambdaX k x) * (Real.tan (θ / 2) / (Real.sqrt k * nrm u)) =
      Real.sin θ / θ := by
    rw [ht, hsn, Real.tan_eq_sin_div_cos]
    conv_rhs => rw [show (2 * Real.sin (θ / 2) * Real.cos (θ / 2)) / θ =
      (2 * Real.sin (θ / 2) * Real.cos (θ / 2)) / (Real.sqrt k * lambdaX k x * nrm u) by rw [← hθd]]
    generalize Real.cos (θ / 2) = c at *
    generalize Real.sin (θ / 2) = s at *
    field_simp
  rw [e1, e2]

/-- **C138, exponentials.** With the regulariser `η` the two exponentials follow the same great circle, and the arcs differ
by at most `2 η / k`. (`c` is the ratio of the arcs.) -/
theorem C138_exp {η k : ℝ} (hη : 0 ≤ η) (hk : 1e-8 < k) (dt : DType) (x u : Vec n) (hu : 1e-15 ≤ nrm u)
    (hθ : Sphere.eps dt + 2 * η / k < Real.sqrt k * lambdaX k x * nrm u)
    (hπ : Real.sqrt (|k| + η) * lambdaX k x * nrm u < Real.pi)
    (hD : 1e-15 ≤ mobDenom k x ((Real.tan (Real.sqrt (|k| + η) * lambdaX k x * nrm u / 2) /
      (Real.sqrt (|k| + η) * nrm u)) • u)) :
    ∃ c : ℝ, |c - 1| * (Real.sqrt k * lambdaX k x * nrm u) ≤ 2 * η / k ∧
      toSphere η k (Stereo.expmap η k x u) = Sphere.expmap none dt (toSphere η k x) (c • push k x u) := by
  have hk0 : 0 < k := lt_trans (by norm_num) hk
  have hq : 0 < Real.sqrt k := Real.sqrt_pos.2 hk0
  have hq2 := Real.sq_sqrt hk0.le
  have hs : 0 < Real.sqrt (|k| + η) := Real.sqrt_pos.2 (by rw [abs_of_pos hk0]; linarith)
  have hs2 : Real.sqrt (|k| + η) ^ 2 = k + η := by
    rw [Real.sq_sqrt (by rw [abs_of_pos hk0]; linarith), abs_of_pos hk0]
  have hle : Real.sqrt k ≤ Real.sqrt (|k| + η) := Real.sqrt_le_sqrt (by rw [abs_of_pos hk0]; linarith)
  have hu0 : 0 < nrm u := lt_of_lt_of_le (by norm_num) hu
  have hl : 0 < lambdaX k x := lambdaX_pos' k x
  have e : kSqrt η k = Real.sqrt (|k| + η) := rfl
  have hnp0 : nrm (push k x u) = Real.sqrt k * lambdaX k x * nrm u := by
    apply nrm_eq_of_dot_eq (by positivity)
    have := (C138_tangent (η := 0) le_rfl hk0 x u u).2.2
    rw [Sphere.inner, Stereo.inner, ← nrm_sq u] at this
    rw [this]
    linear_combination -(lambdaX k x * nrm u) ^ 2 * hq2
  have hpw0 : ∀ b : ℝ, push k x (b • u) = b • push k x u := by
    intro b
    unfold push
    funext i
    refine Fin.lastCases ?_ (fun j => ?_) i
    · simp [dotProduct_smul]; ring
    · simp [dotProduct_smul]; ring
  have hexp0 : Stereo.expmap η k x u = mAdd k x ((Real.tan (Real.sqrt (|k| + η) * lambdaX k x * nrm u / 2) /
      (Real.sqrt (|k| + η) * nrm u)) • u) := by
    rw [Stereo.expmap]
    simp only [max_eq_left hu]
    rw [tanK_pos_curv hk, e, show (2.0 : ℝ) = 2 by norm_num]
    have : lambdaX k x / 2 * nrm u * Real.sqrt (|k| + η) = Real.sqrt (|k| + η) * lambdaX k x * nrm u / 2 := by ring
    have h38 : (4 : ℝ) < 1e38 := by norm_num
    rw [this, min_eq_left (by linarith [Real.pi_lt_four]), smul_smul, ← mobiusAdd_eq hD]
    congr 2
    field_simp
  have hW0 : u ⬝ᵥ u = nrm u ^ 2 := (nrm_sq u).symm
  rw [hexp0, toSphere_mAdd hη hk0 x _ (lt_of_lt_of_le (by norm_num) hD).ne', hpw0, smul_smul, smul_dotProduct,
    dotProduct_smul, hW0]
  simp only [smul_eq_mul]
  clear hexp0 hpw0 hW0 hD
  generalize lambdaX k x = l at *
  generalize nrm u = N at *
  generalize Real.sqrt (|k| + η) = s at *
  generalize Real.sqrt k = q at *
  obtain ⟨θ, hθd⟩ : ∃ θ, θ = q * l * N := ⟨_, rfl⟩
  obtain ⟨θs, hθs⟩ : ∃ θs, θs = s * l * N := ⟨_, rfl⟩
  have hθ0 : 0 < θ := by rw [hθd]; positivity
  have hθs0 : 0 < θs := by rw [hθs]; positivity
  rw [← hθd] at hθ hnp0 ⊢
  rw [← hθs] at hπ ⊢
  obtain ⟨T, hT⟩ : ∃ T, T = Real.tan (θs / 2) := ⟨_, rfl⟩
  have hT0 : 0 < T := by rw [hT]; exact Real.tan_pos_of_pos_of_lt_pi_div_two (by linarith) (by linarith)
  have hat : Real.arctan T = θs / 2 := by rw [hT]; exact Real.arctan_tan (by linarith) (by linarith)
  rw [← hT]
  obtain ⟨a, ha⟩ : ∃ a, a = q / s * T := ⟨_, rfl⟩
  have ha0 : 0 < a := by rw [ha]; positivity
  have haT : a ≤ T := by
    rw [ha]
    exact mul_le_of_le_one_left hT0.le ((div_le_one hs).2 hle)
  obtain ⟨φ, hφ⟩ : ∃ φ, φ = 2 * Real.arctan a := ⟨_, rfl⟩
  have hsq : (s - q) / q ≤ η / (2 * k) := by
    rw [div_le_div_iff₀ hq (by positivity), ← hq2]
    nlinarith [mul_nonneg (sub_nonneg.2 hle) hq.le, sq_nonneg (s - q)]
  have b1 : φ ≤ θs := by rw [hφ]; linarith [Real.arctan_mono haT]
  have b2 : θs - φ ≤ η / (2 * k) := by
    have h1 := arctan_sub_le ha0.le haT
    have h2 : (T - a) / (1 + a ^ 2) ≤ (s - q) / q / 2 := by
      have : T = s / q * a := by rw [ha]; field_simp
      rw [this, div_le_div_iff₀ (by positivity) (by norm_num)]
      have h3 : (s / q * a - a) * 2 = (s - q) / q * (2 * a) := by field_simp
      rw [h3]
      refine mul_le_mul_of_nonneg_left ?_ (div_nonneg (sub_nonneg.2 hle) hq.le)
      nlinarith [sq_nonneg (a - 1)]
    rw [hφ]
    linarith
  have b3 : θ ≤ θs := by rw [hθd, hθs]; gcongr
  have b4 : θs - θ ≤ 2 * η / k := by
    have h1 : θs - θ = (s - q) / q * θ := by rw [hθd, hθs]; field_simp
    have h2 : θ ≤ 4 := by linarith [Real.pi_lt_four]
    rw [h1]
    calc (s - q) / q * θ ≤ η / (2 * k) * 4 :=
          mul_le_mul hsq h2 hθ0.le (by positivity)
      _ = 2 * η / k := by field_simp; norm_num
  have b5 : η / (2 * k) ≤ 2 * η / k := by
    rw [div_le_div_iff₀ (by positivity) hk0]
    nlinarith [mul_nonneg hη hk0.le]
  have hd : |φ - θ| ≤ 2 * η / k := by rw [abs_le]; constructor <;> linarith
  have hφe : Sphere.eps dt < φ := by linarith [(abs_le.1 hd).1]
  have hφ0 : 0 < φ := by rw [hφ]; linarith [Real.arctan_pos.2 ha0]
  refine ⟨φ / θ, ?_, ?_⟩
  · have : (φ / θ - 1) = (φ - θ) / θ := by field_simp
    rw [this, abs_div, abs_of_pos hθ0, div_mul_cancel₀ _ hθ0.ne']
    exact hd
  · have hn : nrm ((φ / θ) • push k x u) = φ := by
      rw [nrm_smul, hnp0, abs_of_pos (by positivity)]; field_simp
    rw [Sphere.expmap, hn, if_pos hφe, smul_smul]
    have hW : k * (T / (s * N) * (T / (s * N) * N ^ 2)) = a ^ 2 := by
      rw [ha, ← hq2]; field_simp
    have hc : Real.cos φ = (1 - a ^ 2) / (1 + a ^ 2) := by
      rw [hφ, Real.cos_two_mul, Real.cos_sq_arctan]; field_simp; ring
    have hsn : Real.sin φ = 2 * a / (1 + a ^ 2) := by
      have h1 : 0 < 1 + a ^ 2 := by positivity
      rw [hφ, Real.sin_two_mul, Real.sin_arctan, Real.cos_arctan]
      have h2 := Real.mul_self_sqrt h1.le
      have h3 := Real.sqrt_pos.2 h1
      field_simp
      rw [Real.sq_sqrt h1.le]
    rw [hW, ← hc]
    congr 2
    rw [hsn]
    rw [show T = s / q * a by rw [ha]; field_simp]
    rw [show 2 * a / (1 + a ^ 2) / φ * (φ / θ) = 2 * a / (1 + a ^ 2) / θ by field_simp, hθd]
    field_simp

/-! Concrete case: curvature 4, `x = (1/2, 0)`, `y = (0, 1/2)`: the images are `(1, 0, 0)` and `(0, 1, 0)`. -/

theorem toSphere_e (i : Fin 2) : toSphere codeEta 4 ((1 / 2 : ℝ) • Pi.single i 1 : Vec 2) =
    Fin.snoc (α := fun _ => ℝ) (Pi.single i 1 : Vec 2) 0 := by
  have hd : ((1 / 2 : ℝ) • Pi.single i 1 : Vec 2) ⬝ᵥ ((1 / 2 : ℝ) • Pi.single i 1 : Vec 2) = 1 / 4 := by
    simp [smul_dotProduct]; norm_num
  have hs : Real.sqrt 4 = 2 := by rw [show (4 : ℝ) = 2 ^ 2 by norm_num]; exact Real.sqrt_sq (by norm_num)
  rw [toSphere_eq codeEta_nonneg (by norm_num), lam_eq (by norm_num), hd, hs, smul_smul]
  norm_num

example : Sphere.dist .f64 (toSphere codeEta 4 ((1 / 2 : ℝ) • Pi.single 0 1 : Vec 2))
      (toSphere codeEta 4 ((1 / 2 : ℝ) • Pi.single 1 1)) = Real.pi / 2 ∧
    Real.pi / 2 ≤ Real.sqrt (|4| + codeEta) *
      Stereo.dist codeEta 4 ((1 / 2 : ℝ) • Pi.single 0 1 : Vec 2) ((1 / 2 : ℝ) • Pi.single 1 1) ∧
    Real.sqrt (|4| + codeEta) *
      Stereo.dist codeEta 4 ((1 / 2 : ℝ) • Pi.single 0 1 : Vec 2) ((1 / 2 : ℝ) • Pi.single 1 1) ≤
        Real.pi / 2 + codeEta / (2 * 4) := by
  have hz : (toSphere codeEta 4 ((1 / 2 : ℝ) • Pi.single 0 1 : Vec 2)) ⬝ᵥ
      (toSphere codeEta 4 ((1 / 2 : ℝ) • Pi.single 1 1)) = 0 := by
    rw [toSphere_e, toSphere_e, snoc_dot]; simp
  have he : Sphere.dist .f64 (toSphere codeEta 4 ((1 / 2 : ℝ) • Pi.single 0 1 : Vec 2))
      (toSphere codeEta 4 ((1 / 2 : ℝ) • Pi.single 1 1)) = Real.pi / 2 := by
    rw [Sphere.dist, Sphere.inner, hz, clamp_of_mem (by norm_num [Sphere.eps]) (by norm_num [Sphere.eps]),
      Real.arccos_zero]
  have := C138_dist (n := 2) (k := 4) codeEta_nonneg (by norm_num) .f64 ((1 / 2 : ℝ) • Pi.single 0 1)
    ((1 / 2 : ℝ) • Pi.single 1 1)
    (by simp [mobDenom, smul_dotProduct]; norm_num) (by rw [hz]; norm_num [Sphere.eps])
    (by rw [hz]; norm_num [Sphere.eps])
  rw [he] at this
  exact ⟨he, this⟩

/-- A quarter turn from the origin: `u = (π/4, 0)` with curvature 1 ends on the equator. -/
example : toSphere 0 1 (Stereo.expmap 0 1 0 ((Real.pi / 4) • Pi.single 0 1 : Vec 2)) =
    Sphere.expmap none .f64 (toSphere 0 1 0) (push 1 0 ((Real.pi / 4) • Pi.single 0 1)) := by
  have hπ := Real.pi_gt_three
  have hπ' := Real.pi_lt_four
  have hn : nrm ((Real.pi / 4) • Pi.single 0 1 : Vec 2) = Real.pi / 4 := by
    apply nrm_eq_of_dot_eq (by positivity)
    simp [smul_dotProduct]; ring
  have hl : lambdaX 1 (0 : Vec 2) = 2 := by rw [lam_eq one_pos]; simp
  have hθ : Real.sqrt 1 * lambdaX 1 (0 : Vec 2) * nrm ((Real.pi / 4) • Pi.single 0 1 : Vec 2) = Real.pi / 2 := by
    rw [hn, hl, Real.sqrt_one]; ring
  apply C138_exp_exact (by norm_num)
  · rw [hn]; linarith [show (1e-15 : ℝ) < 1 / 2 by norm_num]
  · rw [hθ]; simp only [Sphere.eps]; linarith [show (1e-7 : ℝ) < 1 / 2 by norm_num]
  · rw [hθ]; linarith [show (1e38 : ℝ) > 4 by norm_num]
  · rw [hθ, show Real.pi / 2 / 2 = Real.pi / 4 by ring, Real.cos_pi_div_four]
    positivity
  · simp [mobDenom]; norm_num

/-- The same with the regulariser of the code. -/
example : ∃ c : ℝ, |c - 1| ≤ 2e-15 ∧
    toSphere codeEta 1 (Stereo.expmap codeEta 1 0 ((Real.pi / 4) • Pi.single 0 1 : Vec 2)) =
      Sphere.expmap none .f64 (toSphere codeEta 1 0) (c • push 1 0 ((Real.pi / 4) • Pi.single 0 1)) := by
  have hπ := Real.pi_gt_three
  have hπ' := Real.pi_lt_four
  have hn : nrm ((Real.pi / 4) • Pi.single 0 1 : Vec 2) = Real.pi / 4 := by
    apply nrm_eq_of_dot_eq (by positivity)
    simp [smul_dotProduct]; ring
  have hl : lambdaX 1 (0 : Vec 2) = 2 := by rw [lam_eq one_pos]; simp
  have hθ : Real.sqrt 1 * lambdaX 1 (0 : Vec 2) * nrm ((Real.pi / 4) • Pi.single 0 1 : Vec 2) = Real.pi / 2 := by
    rw [hn, hl, Real.sqrt_one]; ring
  have hs : Real.sqrt (|1| + codeEta) ≤ 3 / 2 := by
    refine Real.sqrt_le_iff.2 ⟨by norm_num, ?_⟩
    rw [show codeEta = 1e-15 from rfl]
    norm_num
  obtain ⟨c, h1, h2⟩ := C138_exp (n := 2) codeEta_nonneg (k := 1) (by norm_num) .f64 0 ((Real.pi / 4) • Pi.single 0 1)
    (by rw [hn]; linarith [show (1e-15 : ℝ) < 1 / 2 by norm_num])
    (by
      rw [hθ, show codeEta = 1e-15 from rfl]
      simp only [Sphere.eps]
      linarith [show (1e-7 : ℝ) + 2 * 1e-15 / 1 < 1 / 2 by norm_num])
    (by rw [hn, hl]; nlinarith) (by simp [mobDenom]; norm_num)
  refine ⟨c, ?_, h2⟩
  rw [hθ, show codeEta = 1e-15 from rfl] at h1
  have : |c - 1| * 1 ≤ |c - 1| * (Real.pi / 2) := mul_le_mul_of_nonneg_left (by linarith) (abs_nonneg _)
  rw [mul_one] at this
  refine this.trans (h1.trans ?_)
  norm_num

end Geoopt.C138
