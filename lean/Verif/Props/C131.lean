import Verif.Lemmas.Autograd
import Verif.Lemmas.Lorentz
import Verif.Lemmas.Spectral
import Mathlib.Analysis.SpecialFunctions.Trigonometric.InverseDeriv
import Mathlib.Analysis.SpecialFunctions.Trigonometric.ComplexDeriv
import Mathlib.Analysis.SpecialFunctions.Sqrt

/-!
# C131 – gradients through the operations are finite

A user differentiates through the operations with `backward()`.  One infinite derivative anywhere in the
recorded computation makes the gradient `nan`.
-/

namespace Geoopt.C131
open Geoopt Geoopt.Grad Matrix
variable {n : ℕ}

/-- The recorded computation `t` returns `v`, and every value and every derivative recorded on the way is
a finite number. -/
def Differentiable {α : Type} (t : Tr α) (v : α) : Prop := t.val = v ∧ t.fin

/-- The conditions in `Verif/Model/Autograd.lean` are the right ones: under them torch's formula is the
derivative, and where they fail the divisor in that formula is zero or the root is not real. -/
theorem C131_rules :
    (∀ a b : ℝ, (Grad.div a b).fin →
      HasDerivAt (fun s => s / b) (1 / b) a ∧ HasDerivAt (fun s => a / s) (-a / b ^ 2) b) ∧
    (∀ a b : ℝ, ¬ (Grad.div a b).fin → b ^ 2 = 0) ∧
    (∀ x : ℝ, (Grad.sqrt x).fin → HasDerivAt Real.sqrt (1 / (2 * Real.sqrt x)) x) ∧
    (∀ x : ℝ, ¬ (Grad.sqrt x).fin → x < 0 ∨ 2 * Real.sqrt x = 0) ∧
    (∀ x : ℝ, (Grad.log x).fin → HasDerivAt Real.log (1 / x) x) ∧
    (∀ x : ℝ, ¬ (Grad.log x).fin → x < 0 ∨ x = 0) ∧
    (∀ x : ℝ, (Grad.tan x).fin → HasDerivAt Real.tan (1 + Real.tan x ^ 2) x) ∧
    (∀ x : ℝ, ¬ (Grad.tan x).fin → Real.cos x = 0) ∧
    (∀ x : ℝ, (Grad.asin x).fin → HasDerivAt Real.arcsin (1 / Real.sqrt (1 - x ^ 2)) x) ∧
    (∀ x : ℝ, ¬ (Grad.asin x).fin → 1 - x ^ 2 ≤ 0) ∧
    (∀ x : ℝ, (Grad.acos x).fin → HasDerivAt Real.arccos (-(1 / Real.sqrt (1 - x ^ 2))) x) ∧
    (∀ x : ℝ, ¬ (Grad.acos x).fin → 1 - x ^ 2 ≤ 0) := by
  have asq : ∀ x : ℝ, ¬ (-1 < x ∧ x < 1) → 1 - x ^ 2 ≤ 0 := by
    intro x h
    by_cases h1 : -1 < x
    · have : 1 ≤ x := not_lt.1 fun h2 => h ⟨h1, h2⟩
      nlinarith
    · nlinarith [not_lt.1 h1]
  refine ⟨?_, ?_, ?_, ?_, ?_, ?_, ?_, ?_, ?_, ?_, ?_, ?_⟩
  · intro a b (h : b ≠ 0)
    refine ⟨(hasDerivAt_id a).div_const b, ?_⟩
    have := (hasDerivAt_inv h).const_mul a
    simpa [div_eq_mul_inv] using this
  · intro a b h
    have : b = 0 := not_not.1 h
    rw [this]; norm_num
  · intro x (h : 0 < x)
    exact Real.hasDerivAt_sqrt h.ne'
  · intro x h
    have h' : x ≤ 0 := not_lt.1 h
    exact Or.inr (by rw [Real.sqrt_eq_zero'.2 h']; norm_num)
  · intro x (h : 0 < x)
    rw [one_div]; exact Real.hasDerivAt_log h.ne'
  · intro x h
    exact (not_lt.1 h).lt_or_eq
  · intro x (h : Real.cos x ≠ 0)
    have := Real.hasDerivAt_tan h
    rwa [← Real.inv_one_add_tan_sq h, one_div, inv_inv] at this
  · intro x h; exact not_not.1 h
  · intro x (h : -1 < x ∧ x < 1)
    exact Real.hasDerivAt_arcsin h.1.ne' h.2.ne
  · intro x h; exact asq x h
  · intro x (h : -1 < x ∧ x < 1)
    exact Real.hasDerivAt_arccos h.1.ne' h.2.ne
  · intro x h; exact asq x h

/-! ### the stereographic model -/

section stereo
open Geoopt.Stereo (KZero piLit)
variable {η : ℝ}

lemma fl (t : ℝ) : max t 1e-15 ≠ 0 :=
  (lt_of_lt_of_le (by norm_num) (le_max_right t 1e-15)).ne'

lemma sabs_pos (hη : 0 < η) (k : ℝ) : 0 < sabs η k := by
  unfold sabs; positivity

lemma ks_pos (hη : 0 < η) (k : ℝ) : 0 < Geoopt.Stereo.kSqrt η k := Real.sqrt_pos.2 (sabs_pos hη k)

lemma kSqrt_fin (hη : 0 < η) (k : ℝ) : (Grad.Stereo.kSqrt η k).fin := sabs_pos hη k

lemma artanhC_fin (x : ℝ) : (Grad.Stereo.artanhC x).fin := by
  have h1 : clamp (-1 + 1e-7) (1 - 1e-7) x ≤ 1 - 1e-7 := min_le_right _ _
  have h2 : -1 + 1e-7 ≤ clamp (-1 + 1e-7) (1 - 1e-7) x :=
    le_min (le_max_right _ _) (by norm_num)
  have e : (0 : ℝ) < 1e-7 := by norm_num
  refine ⟨?_, ?_, trivial⟩
  · show 0 < 1 + clamp (-1 + 1e-7) (1 - 1e-7) x
    linarith
  · show 0 < 1 - clamp (-1 + 1e-7) (1 - 1e-7) x
    linarith

lemma arsinhC_fin (x : ℝ) : (Grad.Stereo.arsinhC x).fin :=
  ⟨by show 0 < 1 + x ^ 2; positivity, lt_of_lt_of_le (by norm_num) (le_max_right _ _)⟩

lemma artanK_fin (hη : 0 < η) (k x : ℝ) : (Grad.Stereo.artanK η k x).fin := by
  have h := kSqrt_fin hη k
  have h' := (ks_pos hη k).ne'
  have h2 := artanhC_fin
  simp only [Grad.Stereo.artanK, ite_fin, bind_fin, pure_fin, h, recip, Grad.Stereo.kSqrt_val, h2]
  simp [h']

lemma tanK_fin (hη : 0 < η) {k x : ℝ}
    (hx : 0 < k → ¬ KZero k → |x| * Geoopt.Stereo.kSqrt η k < Real.pi / 2) :
    (Grad.Stereo.tanK η k x).fin := by
  have h := kSqrt_fin hη k
  have hp := ks_pos hη k
  by_cases h0 : KZero k
  · simp [Grad.Stereo.tanK, h0]
  by_cases hk : k < 0
  · simp [Grad.Stereo.tanK, h0, hk, h, hp.ne']
  have hk' : 0 < k := lt_of_le_of_ne (not_lt.1 hk) (fun e => h0 (by rw [← e, KZero]; norm_num))
  have hx := hx hk' h0
  have hc : Real.cos (min (x * Geoopt.Stereo.kSqrt η k) 1e38) ≠ 0 := by
    have hb : |x * Geoopt.Stereo.kSqrt η k| < Real.pi / 2 := by rwa [abs_mul, abs_of_pos hp]
    rw [abs_lt] at hb
    rw [min_eq_left (hb.2.trans Geoopt.Stereo.pi_half_lt).le]
    exact (Real.cos_pos_of_mem_Ioo ⟨by linarith [hb.1], hb.2⟩).ne'
  simp [Grad.Stereo.tanK, h0, hk, h, hp.ne', hc]

lemma artanK_bound (hη : 0 < η) {k : ℝ} (hk : 0 < k) (h0 : ¬ KZero k) {r : ℝ} (hr : |r| ≤ 1) (x : ℝ) :
    |r * Geoopt.Stereo.artanK η k x| * Geoopt.Stereo.kSqrt η k < Real.pi / 2 := by
  have hp := ks_pos hη k
  rw [Geoopt.Stereo.artanK, if_neg h0, if_neg hk.not_gt, abs_mul, abs_mul, abs_inv, abs_of_pos hp]
  have h1 : |Real.arctan (x * Geoopt.Stereo.kSqrt η k)| < Real.pi / 2 :=
    abs_lt.2 ⟨Real.neg_pi_div_two_lt_arctan _, Real.arctan_lt_pi_div_two _⟩
  have h2 := abs_nonneg (Real.arctan (x * Geoopt.Stereo.kSqrt η k))
  calc |r| * ((Geoopt.Stereo.kSqrt η k)⁻¹ * |Real.arctan (x * Geoopt.Stereo.kSqrt η k)|)
        * Geoopt.Stereo.kSqrt η k
      = |r| * |Real.arctan (x * Geoopt.Stereo.kSqrt η k)| := by field_simp
    _ ≤ 1 * |Real.arctan (x * Geoopt.Stereo.kSqrt η k)| := mul_le_mul_of_nonneg_right hr h2
    _ < Real.pi / 2 := by rwa [one_mul]

lemma madd_fin (k : ℝ) (x y : Vec n) : (Grad.Stereo.mobiusAdd k x y).fin := fl _
lemma lam_fin (k : ℝ) (x : Vec n) : (Grad.Stereo.lambdaX k x).fin := fl _
lemma lam_ne (k : ℝ) (x : Vec n) : Geoopt.Stereo.lambdaX k x ≠ 0 := div_ne_zero two_ne_zero (fl _)
lemma gyr_fin (k : ℝ) (u v w : Vec n) : (Grad.Stereo.gyration k u v w).fin := ⟨fl _, trivial⟩

/-- Every point, every vector, every curvature: the metric, projection, additions, transports and the
conversion of gradients. -/
theorem C131_stereographic (hη : 0 < η) (dt : DType) (k : ℝ) (x y u v : Vec n) :
    Differentiable (Grad.Stereo.project η dt k x) (Geoopt.Stereo.project η dt k x) ∧
    Differentiable (Grad.Stereo.lambdaX k x) (Geoopt.Stereo.lambdaX k x) ∧
    Differentiable (Grad.Stereo.inner k x u v) (Geoopt.Stereo.inner k x u v) ∧
    Differentiable (Grad.Stereo.norm k x u) (Geoopt.Stereo.norm k x u) ∧
    Differentiable (Grad.Stereo.mobiusAdd k x y) (Geoopt.Stereo.mobiusAdd k x y) ∧
    Differentiable (Grad.Stereo.mobiusSub k x y) (Geoopt.Stereo.mobiusSub k x y) ∧
    Differentiable (Grad.Stereo.mobiusCoadd k x y) (Geoopt.Stereo.mobiusCoadd k x y) ∧
    Differentiable (Grad.Stereo.mobiusCosub k x y) (Geoopt.Stereo.mobiusCosub k x y) ∧
    Differentiable (Grad.Stereo.gyration k x y u) (Geoopt.Stereo.gyration k x y u) ∧
    Differentiable (Grad.Stereo.transp k x y u) (Geoopt.Stereo.transp k x y u) ∧
    Differentiable (Grad.Stereo.transp0 k y u) (Geoopt.Stereo.transp0 k y u) ∧
    Differentiable (Grad.Stereo.transp0back k x u) (Geoopt.Stereo.transp0back k x u) ∧
    Differentiable (Grad.Stereo.egrad2rgrad k x u) (Geoopt.Stereo.egrad2rgrad k x u) ∧
    Differentiable (Grad.Stereo.invSproj η k x) (Geoopt.Stereo.invSproj η k x) := by
  have hs := sabs_pos hη k
  have hs' := (ks_pos hη k).ne'
  refine ⟨⟨by simp, ?_⟩, ⟨by simp, fl _⟩, ⟨by simp, fl _, trivial⟩, ⟨by simp, fl _, trivial⟩,
    ⟨by simp, fl _⟩, ⟨by simp, fl _⟩, ⟨by simp, gyr_fin _ _ _ _, fl _⟩,
    ⟨by simp, gyr_fin _ _ _ _, fl _⟩, ⟨by simp, gyr_fin _ _ _ _⟩,
    ⟨by simp, gyr_fin _ _ _ _, fl _, fl _, lam_ne _ _, trivial⟩, ⟨by simp, trivial⟩, ⟨by simp, fl _⟩,
    ⟨by simp, fl _, pow_ne_zero 2 (lam_ne _ _)⟩, ⟨by simp, hs, fl _, hs', trivial⟩⟩
  have hr : sabs η k ^ (0.5 : ℝ) ≠ 0 := (Real.rpow_pos_of_pos hs _).ne'
  exact ⟨hs, ⟨hr, trivial⟩, ⟨fl _, trivial⟩, trivial⟩

/-- Distances and logarithms: also between equal points, and at the origin. -/
theorem C131_stereographic_dist (hη : 0 < η) (k : ℝ) (x y : Vec n) :
    Differentiable (Grad.Stereo.dist η k x y) (Geoopt.Stereo.dist η k x y) ∧
    Differentiable (Grad.Stereo.dist0 η k x) (Geoopt.Stereo.dist0 η k x) ∧
    Differentiable (Grad.Stereo.logmap η k x y) (Geoopt.Stereo.logmap η k x y) ∧
    Differentiable (Grad.Stereo.logmap0 η k y) (Geoopt.Stereo.logmap0 η k y) :=
  ⟨⟨by simp, fl _, artanK_fin hη _ _, trivial⟩, ⟨by simp, artanK_fin hη _ _, trivial⟩,
    ⟨by simp, fl _, fl _, artanK_fin hη _ _, mul_ne_zero (lam_ne _ _) (fl _), trivial⟩,
    ⟨by simp, fl _, artanK_fin hη _ _, trivial⟩⟩

/-- Exponentials and rays of unit speed: also of the zero vector.  For positive curvature up to, not
including, the point opposite to the origin (for the exponential: before the vector has gone half way
round), where the model has no point to represent it. -/
theorem C131_stereographic_exp (hη : 0 < η) (k t : ℝ) (x u : Vec n) :
    ((0 < k → Geoopt.Stereo.lambdaX k x / 2 * max (nrm u) 1e-15 * Geoopt.Stereo.kSqrt η k < Real.pi / 2) →
      Differentiable (Grad.Stereo.expmap η k x u) (Geoopt.Stereo.expmap η k x u)) ∧
    ((0 < k → max (nrm u) 1e-15 * Geoopt.Stereo.kSqrt η k < Real.pi / 2) →
      Differentiable (Grad.Stereo.expmap0 η k u) (Geoopt.Stereo.expmap0 η k u)) ∧
    ((0 < k → |t| / 2 * Geoopt.Stereo.kSqrt η k < Real.pi / 2) →
      Differentiable (Grad.Stereo.geodesicUnit η k t x u) (Geoopt.Stereo.geodesicUnit η k t x u)) := by
  have e2 : (2.0 : ℝ) = 2 := by norm_num
  have hm : (0 : ℝ) < max (nrm u) 1e-15 := lt_of_lt_of_le (by norm_num) (le_max_right _ _)
  have hl : 0 < Geoopt.Stereo.lambdaX k x :=
    div_pos two_pos (lt_of_lt_of_le (by norm_num) (le_max_right _ _))
  refine ⟨fun h => ⟨by simp, fl _, tanK_fin hη fun hk _ => ?_, fl _, fl _⟩,
    fun h => ⟨by simp, tanK_fin hη fun hk _ => ?_, fl _, trivial⟩,
    fun h => ⟨by simp, tanK_fin hη fun hk _ => ?_, fl _, fl _⟩⟩
  · rw [Grad.Stereo.lambdaX_val, e2, abs_of_pos (by positivity)]; exact h hk
  · rw [abs_of_pos hm]; exact h hk
  · rw [e2, abs_div, abs_of_pos (two_pos : (0 : ℝ) < 2)]; exact h hk

/-- Half of the way to the opposite point, curvature one. -/
example : Geoopt.Stereo.lambdaX 1 (0 : Vec 1) / 2 * max (nrm ![(1 / 2 : ℝ)]) 1e-15 *
    Geoopt.Stereo.kSqrt Geoopt.Stereo.codeEta 1 < Real.pi / 2 := by
  have h1 : nrm ![(1 / 2 : ℝ)] = 1 / 2 := by
    unfold nrm; simp [dotProduct, Real.sqrt_mul_self (show (0 : ℝ) ≤ 2 by norm_num)]
  have h2 : Geoopt.Stereo.kSqrt Geoopt.Stereo.codeEta 1 ≤ 2 := by
    unfold Geoopt.Stereo.kSqrt sabs Geoopt.Stereo.codeEta
    rw [Real.sqrt_le_left two_pos.le]
    norm_num
  have h3 : Geoopt.Stereo.lambdaX 1 (0 : Vec 1) = 2 := by
    unfold Geoopt.Stereo.lambdaX
    rw [dotProduct_zero, mul_zero, add_zero, max_eq_left (by norm_num)]
    norm_num
  rw [h1, h3, max_eq_left (by norm_num)]
  linarith [Real.pi_gt_three]

lemma smul_fin (hη : 0 < η) {k r : ℝ} (hr : 0 < k → |r| ≤ 1) (x : Vec n) :
    (Grad.Stereo.mobiusScalarMul η k r x).fin :=
  ⟨artanK_fin hη _ _, tanK_fin hη fun hk h0 => by
    rw [Grad.Stereo.artanK_val]; exact artanK_bound hη hk h0 (hr hk) _, fl _, trivial⟩

/-- Multiples and geodesics: for positive curvature between the end points. -/
theorem C131_stereographic_geodesic (hη : 0 < η) (k r : ℝ) (hr : 0 < k → |r| ≤ 1) (x y : Vec n) :
    Differentiable (Grad.Stereo.mobiusScalarMul η k r x) (Geoopt.Stereo.mobiusScalarMul η k r x) ∧
    Differentiable (Grad.Stereo.geodesic η k r x y) (Geoopt.Stereo.geodesic η k r x y) :=
  ⟨⟨by simp, smul_fin hη hr _⟩, ⟨by simp, fl _, smul_fin hη hr _, fl _⟩⟩

/-- The quotient of floored norms. -/
lemma quot_le {a b : ℝ} (h : a ≤ b) : |max a 1e-15 / max b 1e-15| ≤ 1 := by
  have ha : (0 : ℝ) < max a 1e-15 := lt_of_lt_of_le (by norm_num) (le_max_right _ _)
  have hb : (0 : ℝ) < max b 1e-15 := lt_of_lt_of_le (by norm_num) (le_max_right _ _)
  rw [abs_of_pos (div_pos ha hb), div_le_one hb]
  exact max_le_max h le_rfl

/-- Matrix and entrywise products: also where the result is `0`, which `torch.where` replaces after
computing it.  For positive curvature if they do not lengthen the vector. -/
theorem C131_stereographic_matvec {m : ℕ} (hη : 0 < η) (k : ℝ) (M : Matrix (Fin m) (Fin n) ℝ)
    (w x : Vec n) :
    ((0 < k → nrm (M *ᵥ x) ≤ nrm x) →
      Differentiable (Grad.Stereo.mobiusMatvec η k M x) (Geoopt.Stereo.mobiusMatvec η k M x)) ∧
    ((0 < k → nrm (fun i => w i * x i) ≤ nrm x) →
      Differentiable (Grad.Stereo.mobiusPointwiseMul η k w x)
        (Geoopt.Stereo.mobiusPointwiseMul η k w x)) := by
  refine ⟨fun h => ⟨by simp, fl _, artanK_fin hη _ _, tanK_fin hη fun hk h0 => ?_, fl _, trivial,
      trivial, trivial⟩,
    fun h => ⟨by simp, fl _, artanK_fin hη _ _, tanK_fin hη fun hk h0 => ?_, fl _, trivial,
      trivial, trivial⟩⟩
  · rw [Grad.Stereo.artanK_val]; exact artanK_bound hη hk h0 (quot_le (h hk)) _
  · rw [Grad.Stereo.artanK_val]; exact artanK_bound hη hk h0 (quot_le (h hk)) _

lemma clampAbs_ne {e : ℝ} (he : 0 < e) (x : ℝ) : clampAbs e x ≠ 0 := by
  have h1 := abs_usign x
  unfold clampAbs sabs
  apply mul_ne_zero
  · intro h; rw [h] at h1; simp at h1
  · have := abs_nonneg x; linarith

/-- The distance to a hyperplane: also from points of the plane and for a zero normal.  For positive
curvature where the argument of the arc sine is inside its domain. -/
theorem C131_dist2plane (hη : 0 < η) (k : ℝ) (x a p : Vec n) (signed scaled : Bool)
    (h : 0 < k → |2 * ((Geoopt.Stereo.mobiusAdd k (-p) x) ⬝ᵥ a) /
        clampAbs 1e-15 ((1 + k * max (Geoopt.Stereo.mobiusAdd k (-p) x ⬝ᵥ Geoopt.Stereo.mobiusAdd k (-p) x)
          1e-15) * nrm a) * Geoopt.Stereo.kSqrt η k| < 1) :
    Differentiable (Grad.Stereo.dist2plane η k x a p signed scaled)
      (Geoopt.Stereo.dist2plane η k x a p signed scaled) := by
  have e2 : (2.0 : ℝ) = 2 := by norm_num
  refine ⟨by simp, fl _, clampAbs_ne (by norm_num) _, ?_, trivial⟩
  have hs := kSqrt_fin hη k
  have hp := ks_pos hη k
  unfold Grad.Stereo.arsinK
  by_cases h0 : KZero k
  · simp [h0]
  by_cases hk : k < 0
  · simp only [if_neg h0, if_pos hk]
    exact ⟨hs, hp.ne', arsinhC_fin _, trivial⟩
  have hk' : 0 < k := lt_of_le_of_ne (not_lt.1 hk) (fun e => h0 (by rw [← e, KZero]; norm_num))
  have h := h hk'
  simp only [if_neg h0, if_neg hk]
  refine ⟨hs, hp.ne', ?_, trivial⟩
  have : ∀ s : ℝ, |s| = |Geoopt.Stereo.mobiusAdd k (-p) x ⬝ᵥ a| →
      |2.0 * s / clampAbs 1e-15 ((1 + k * max (Geoopt.Stereo.mobiusAdd k (-p) x ⬝ᵥ
        Geoopt.Stereo.mobiusAdd k (-p) x) 1e-15) * nrm a) * Geoopt.Stereo.kSqrt η k| < 1 := by
    intro s hs'
    rw [abs_mul, abs_div, abs_mul] at h ⊢
    rwa [hs', e2]
  have := this (if signed then Geoopt.Stereo.mobiusAdd k (-p) x ⬝ᵥ a
    else |Geoopt.Stereo.mobiusAdd k (-p) x ⬝ᵥ a|) (by split_ifs <;> simp)
  exact abs_lt.1 this

lemma antipode_fin (hη : 0 < η) (k : ℝ) (x : Vec n) : (Grad.Stereo.antipode η k x).fin := by
  unfold Grad.Stereo.antipode
  by_cases hk : k ≤ 0
  · simp [hk]
  simp only [if_neg hk]
  have hp := ks_pos hη k
  refine ⟨fl _, kSqrt_fin hη k, hp.ne', ⟨tanK_fin hη fun _ _ => ?_, fl _, fl _⟩, trivial, trivial⟩
  have e2 : (2.0 : ℝ) = 2 := by norm_num
  show |piLit * (Geoopt.Stereo.kSqrt η k)⁻¹ / 2.0| * Geoopt.Stereo.kSqrt η k < Real.pi / 2
  have h1 : 0 < piLit := by norm_num [piLit]
  rw [e2, abs_of_pos (by positivity)]
  have := Geoopt.Stereo.piLit_lt
  calc piLit * (Geoopt.Stereo.kSqrt η k)⁻¹ / 2 * Geoopt.Stereo.kSqrt η k = piLit / 2 := by field_simp
    _ < Real.pi / 2 := by linarith

/-- Antipodes and weighted midpoints: every curvature, all points and weights; with `lincomb` for
positive curvature if the weights sum to at most one. -/
theorem C131_midpoint {m : ℕ} (hη : 0 < η) (k : ℝ) (x : Vec n) (xs : Fin m → Vec n) (w : Fin m → ℝ)
    (lincomb posweight : Bool)
    (hw : lincomb = true → 0 < k → |∑ j, w j| ≤ 1 ∧ ∑ j, |w j| ≤ 1) :
    Differentiable (Grad.Stereo.antipode η k x) (Geoopt.Stereo.antipode η k x) ∧
    Differentiable (Grad.Stereo.weightedMidpoint η k xs w lincomb posweight)
      (Geoopt.Stereo.weightedMidpoint η k xs w lincomb posweight) := by
  refine ⟨⟨by simp, antipode_fin hη _ _⟩, Grad.Stereo.weightedMidpoint_val .., ?_⟩
  have hd : ∀ (a : Vec n) (ys : Fin m → Vec n), (each fun j => Grad.Stereo.dist η k a (ys j)).fin :=
    fun _ _ _ => ⟨fl _, artanK_fin hη _ _, trivial⟩
  have hh : ∀ y : Vec n, (Grad.Stereo.mobiusScalarMul η k 0.5 y).fin :=
    fun y => smul_fin hη (fun _ => by norm_num [abs_le]) y
  have hc : ∀ t, clampAbs 1e-10 t ≠ 0 := clampAbs_ne (by norm_num)
  unfold Grad.Stereo.weightedMidpoint
  refine ⟨fun _ => fl _, ?_⟩
  by_cases hp : posweight = true ∧ ∃ j, w j < 0
  · have hl : lincomb = true → ∀ y : Vec n,
        (Grad.Stereo.mobiusScalarMul η k (∑ j, |w j|) y).fin := fun e y =>
      smul_fin hη (fun hk => by
        rw [abs_of_nonneg (Finset.sum_nonneg fun _ _ => abs_nonneg _)]; exact (hw e hk).2) y
    simp only [if_pos hp]
    refine ⟨fun j => ⟨antipode_fin hη _ _, trivial⟩, hc _, hh _, ?_⟩
    by_cases hk : 0 < k <;> simp only [hk, if_true, if_false] <;> cases lincomb
    · exact ⟨antipode_fin hη _ _, hd _ _, hd _ _, ⟨trivial, trivial⟩, trivial⟩
    · exact ⟨antipode_fin hη _ _, hd _ _, hd _ _, ⟨trivial, trivial⟩, hl rfl _⟩
    · exact ⟨trivial, trivial⟩
    · exact ⟨trivial, hl rfl _⟩
  · have hl : lincomb = true → ∀ y : Vec n,
        (Grad.Stereo.mobiusScalarMul η k (∑ j, w j) y).fin := fun e y =>
      smul_fin hη (fun hk => (hw e hk).1) y
    simp only [if_neg hp]
    refine ⟨trivial, hc _, hh _, ?_⟩
    by_cases hk : 0 < k <;> simp only [hk, if_true, if_false] <;> cases lincomb
    · exact ⟨antipode_fin hη _ _, hd _ _, hd _ _, ⟨trivial, trivial⟩, trivial⟩
    · exact ⟨antipode_fin hη _ _, hd _ _, hd _ _, ⟨trivial, trivial⟩, hl rfl _⟩
    · exact ⟨trivial, trivial⟩
    · exact ⟨trivial, hl rfl _⟩

/-- The stereographic projection: away from the pole it projects from. -/
theorem C131_sproj (hη : 0 < η) (k : ℝ) (x : Vec (n + 1))
    (h : 1 + Geoopt.Stereo.kSqrt η k * x (Fin.last n) ≠ 0) :
    Differentiable (Grad.Stereo.sproj η k x) (Geoopt.Stereo.sproj η k x) :=
  ⟨by simp, sabs_pos hη k, by
    show 1.0 + Geoopt.Stereo.kSqrt η k * x (Fin.last n) ≠ 0
    rwa [show (1.0 : ℝ) = 1 by norm_num], trivial⟩

/-- A vector in the sphere of curvature one that goes half way round: the tangent is infinite. -/
theorem C131_counterexample_expmap (hη : 0 < η) (h1 : η ≤ 1) :
    ∃ u : Vec 1, ¬ (Grad.Stereo.expmap0 η 1 u).fin ∧ ¬ (Grad.Stereo.expmap η 1 0 u).fin := by
  have hp := ks_pos hη 1
  have hle : Geoopt.Stereo.kSqrt η 1 ≤ 2 := by
    unfold Geoopt.Stereo.kSqrt sabs
    rw [show (2 : ℝ) = Real.sqrt 4 by rw [show (4 : ℝ) = 2 ^ 2 by norm_num, Real.sqrt_sq two_pos.le]]
    apply Real.sqrt_le_sqrt
    rw [abs_one]; linarith
  obtain ⟨c, hc⟩ : ∃ c, c = Real.pi / 2 / Geoopt.Stereo.kSqrt η 1 := ⟨_, rfl⟩
  have hpi := Real.pi_gt_three
  have hcs : c * Geoopt.Stereo.kSqrt η 1 = Real.pi / 2 := by rw [hc]; field_simp
  have hc0 : 1e-15 ≤ c := by
    rw [hc, le_div_iff₀ hp]
    linarith [show (1e-15 : ℝ) * 2 ≤ 1 by norm_num,
      mul_le_mul_of_nonneg_left hle (show (0 : ℝ) ≤ 1e-15 by norm_num)]
  have hcp : 0 < c := lt_of_lt_of_le (by norm_num) hc0
  have hn : max (nrm ![c]) 1e-15 = c := by
    have : nrm ![c] = c := by
      unfold nrm; simp [dotProduct, Real.sqrt_mul_self hcp.le]
    rw [this, max_eq_left hc0]
  have ht : ¬ (Grad.Stereo.tanK η 1 c).fin := by
    have h0 : ¬ KZero (1 : ℝ) := by unfold KZero; norm_num
    intro h
    simp only [Grad.Stereo.tanK, if_neg h0, if_neg (show ¬ (1 : ℝ) < 0 by norm_num)] at h
    have h2 : Real.cos (min (c * Geoopt.Stereo.kSqrt η 1) 1e38) ≠ 0 := h.2.2.1
    rw [hcs, min_eq_left Geoopt.Stereo.pi_half_lt.le, Real.cos_pi_div_two] at h2
    exact h2 rfl
  refine ⟨![c], fun h => ht ?_, fun h => ht ?_⟩
  · have h3 := h.1
    rwa [hn] at h3
  · have h3 := h.2.1
    have hl : (Grad.Stereo.lambdaX 1 (0 : Vec 1)).val / 2.0 = 1 := by
      show 2 / max (1 + 1 * ((0 : Vec 1) ⬝ᵥ 0)) 1e-15 / 2.0 = 1
      rw [dotProduct_zero, mul_zero, add_zero, max_eq_left (by norm_num)]
      norm_num
    rwa [hl, hn, one_mul] at h3

/-- The distance to a hyperplane, curvature one, with the constants of the code: at a point at distance
a quarter of the circumference the argument of the arc sine is one. -/
theorem C131_counterexample_dist2plane (signed scaled : Bool) :
    ∃ x a p : Vec 1,
      ¬ (Grad.Stereo.dist2plane Geoopt.Stereo.codeEta 1 x a p signed scaled).fin := by
  obtain ⟨s, hs⟩ : ∃ s, s = Geoopt.Stereo.kSqrt Geoopt.Stereo.codeEta 1 := ⟨_, rfl⟩
  have hη : 0 < Geoopt.Stereo.codeEta := by norm_num [Geoopt.Stereo.codeEta]
  have hp : 0 < s := hs ▸ ks_pos hη 1
  have hs2 : s * s = 1 + 1e-15 := by
    rw [hs, Geoopt.Stereo.kSqrt, Real.mul_self_sqrt (sabs_pos hη 1).le]
    norm_num [sabs, Geoopt.Stereo.codeEta]
  refine ⟨![s], ![1], 0, fun h => ?_⟩
  have hadd : Geoopt.Stereo.mobiusAdd 1 (-(0 : Vec 1)) ![s] = ![s] := by
    unfold Geoopt.Stereo.mobiusAdd Geoopt.Stereo.mobDenom
    simp only [neg_zero, dotProduct_zero, zero_dotProduct, mul_zero, sub_zero, smul_zero, add_zero,
      zero_add, one_smul, zero_mul, pow_two]
    rw [max_eq_left (by norm_num)]
    simp
  have h3 := h.2.2.1
  simp only [Grad.Stereo.mobiusAdd_val, hadd, Grad.div] at h3
  have h0 : ¬ KZero (1 : ℝ) := by unfold KZero; norm_num
  simp only [Grad.Stereo.arsinK, if_neg h0, if_neg (show ¬ (1 : ℝ) < 0 by norm_num)] at h3
  have h4 := h3.2.2.1.2
  have e1 : (![s] : Vec 1) ⬝ᵥ ![1] = s := by simp [dotProduct]
  have e2 : (![s] : Vec 1) ⬝ᵥ ![s] = 1 + 1e-15 := by simp [dotProduct, hs2]
  have e3 : nrm (![1] : Vec 1) = 1 := by simp [nrm, dotProduct]
  have e4 : clampAbs 1e-15 ((1 + 1 * max ((1 : ℝ) + 1e-15) 1e-15) * 1) = 2 * (1 + 1e-15) := by
    rw [max_eq_left (by norm_num), clampAbs, usign_of_nonneg (by norm_num), sabs,
      abs_of_nonneg (by norm_num)]
    norm_num
  have e5 : (if signed = true then s else |s|) = s := by rw [abs_of_pos hp]; simp
  rw [Grad.Stereo.kSqrt_val, ← hs, e1, e2, e3, e4, e5] at h4
  have e6 : (2.0 : ℝ) * s / (2 * (1 + 1e-15)) * s = 1 := by
    rw [show (2.0 : ℝ) = 2 by norm_num, div_mul_eq_mul_div, mul_assoc, hs2,
      div_self (by norm_num)]
  exact absurd h4 (by rw [e6]; exact lt_irrefl _)

end stereo

/-! ### the sphere -/

section sphere
open Geoopt.Sphere (eps projectOnSubspace)
variable (P : Option (Matrix (Fin n) (Fin n) ℝ)) (dt : DType)

/-- Projections of vectors, transports, distances and logarithms: for all points, also equal or
opposite ones. -/
theorem C131_sphere (x y u : Vec n) :
    Differentiable (Grad.Sphere.proju P x u) (Geoopt.Sphere.proju P x u) ∧
    Differentiable (Grad.Sphere.dist dt x y) (Geoopt.Sphere.dist dt x y) ∧
    Differentiable (Grad.Sphere.logmap P dt x y) (Geoopt.Sphere.logmap P dt x y) := by
  have he : 0 < eps dt ∧ eps dt < 1 := by cases dt <;> norm_num [eps]
  have hd : (Grad.Sphere.dist dt x y).fin := by
    constructor
    · exact lt_of_lt_of_le (by linarith : (-1 : ℝ) < -1 + eps dt)
        (le_min (le_max_right _ _) (by linarith))
    · exact lt_of_le_of_lt (min_le_right _ _) (by linarith : (1 : ℝ) - eps dt < 1)
  exact ⟨⟨by simp, trivial⟩, ⟨by simp, hd⟩, ⟨by simp, trivial, hd,
    (lt_of_lt_of_le he.1 (le_max_right _ _)).ne', trivial⟩⟩

lemma nrm_ne_zero {x : Vec n} (h : x ≠ 0) : nrm x ≠ 0 := fun e => h (nrm_eq_zero.1 e)

/-- Projection of points, retractions and exponentials: as long as no zero vector is divided by its
length. -/
theorem C131_sphere_exp_partial (x u : Vec n) (h : projectOnSubspace P (x + u) ≠ 0) :
    Differentiable (Grad.Sphere.projx P (x + u)) (Geoopt.Sphere.projx P (x + u)) ∧
    Differentiable (Grad.Sphere.retr P x u) (Geoopt.Sphere.retr P x u) ∧
    (u ≠ 0 → Differentiable (Grad.Sphere.expmap P dt x u) (Geoopt.Sphere.expmap P dt x u)) :=
  ⟨⟨by simp, nrm_ne_zero h⟩, ⟨by simp, nrm_ne_zero h⟩,
    fun hu => ⟨by simp, ⟨nrm_ne_zero hu, trivial⟩, nrm_ne_zero h⟩⟩

/-- For tangent vectors at points of the whole sphere the first condition holds. -/
theorem C131_sphere_tangent (x u : Vec n) (hx : x ⬝ᵥ x = 1) (hu : x ⬝ᵥ u = 0) :
    Differentiable (Grad.Sphere.retr none x u) (Geoopt.Sphere.retr none x u) ∧
    (u ≠ 0 → Differentiable (Grad.Sphere.expmap none dt x u) (Geoopt.Sphere.expmap none dt x u)) := by
  have h : projectOnSubspace none (x + u) ≠ 0 := by
    intro e
    have e' : x + u = 0 := e
    have : x ⬝ᵥ (x + u) = 0 := by rw [e', dotProduct_zero]
    rw [dotProduct_add, hx, hu] at this
    norm_num at this
  exact (C131_sphere_exp_partial none dt x u h).2

/-- The exponential of the zero vector: `torch.where` selects the retraction, but the other branch has
divided `0` by `0`, and the gradient is `nan`.  This happens at every point, for every subspace and
precision. -/
theorem C131_counterexample_sphere (x : Vec n) : ¬ (Grad.Sphere.expmap P dt x 0).fin := by
  intro h
  have h1 : nrm (0 : Vec n) ≠ 0 := h.1.1
  exact h1 (nrm_eq_zero.2 rfl)

end sphere

/-! ### the hyperboloid -/

section lorentz
open Geoopt.Lorentz

lemma lnorm_fin (u : Vec (n + 1)) : (Grad.Lorentz.norm u).fin :=
  lt_of_lt_of_le (by norm_num) (le_max_right _ _)

lemma lnorm_ne (u : Vec (n + 1)) : Geoopt.Lorentz.norm u ≠ 0 := (Real.sqrt_pos.2 (lnorm_fin u)).ne'

lemma larcosh_fin {c : ℝ} (h : 1 ≤ c) : (Grad.Lorentz.arcosh c).fin := by
  refine ⟨lt_of_lt_of_le (by norm_num) (le_max_right _ _), ?_⟩
  show 0 < c + Real.sqrt _
  have := Real.sqrt_nonneg (max (c ^ 2 - 1.0) 1e-15)
  linarith

lemma ldist_fin {k : ℝ} (hk : 0 < k) {x y : Vec (n + 1)} (hx : OnHyperboloid k x)
    (hy : OnHyperboloid k y) : (Grad.Lorentz.dist k x y).fin :=
  ⟨hk, hk.ne', larcosh_fin (ch_ge_one hk hx hy), trivial⟩

lemma ldist_pos {k : ℝ} (hk : 0 < k) {x y : Vec (n + 1)} (hx : OnHyperboloid k x)
    (hy : OnHyperboloid k y) : 0 < Geoopt.Lorentz.dist k x y :=
  mul_pos (Real.sqrt_pos.2 hk) (arcosh_pos (ch_ge_one hk hx hy))

lemma ch0 {k : ℝ} (hk : 0 < k) {x : Vec (n + 1)} (hx : OnHyperboloid k x) :
    1 ≤ -inner0 k x / k := by
  have hs := Real.sqrt_pos.2 hk
  have hss := Real.mul_self_sqrt hk.le
  obtain ⟨h1, h2⟩ := hx
  have h3 : 0 ≤ ∑ i : Fin n, x i.succ * x i.succ := Finset.sum_nonneg fun _ _ => mul_self_nonneg _
  have h4 : Real.sqrt k ≤ x 0 := by
    apply Real.sqrt_le_iff.2 ⟨h2.le, ?_⟩
    unfold mink at h1
    nlinarith
  rw [le_div_iff₀ hk, inner0]
  nlinarith

lemma ldist0_fin {k : ℝ} (hk : 0 < k) {x : Vec (n + 1)} (hx : OnHyperboloid k x) :
    (Grad.Lorentz.dist0 k x).fin :=
  ⟨⟨hk, trivial⟩, hk, hk.ne', larcosh_fin (ch0 hk hx), trivial⟩

lemma ldist0_pos {k : ℝ} (hk : 0 < k) {x : Vec (n + 1)} (hx : OnHyperboloid k x) :
    0 < Geoopt.Lorentz.dist0 k x :=
  mul_pos (Real.sqrt_pos.2 hk) (arcosh_pos (ch0 hk hx))

lemma lproject_fin {k : ℝ} (hk : 0 < k) (x : Vec (n + 1)) : (Grad.Lorentz.project k x).fin :=
  ⟨by show 0 < k + nrm (Fin.tail x) ^ 2; positivity, trivial⟩

lemma lexpRaw_fin {k : ℝ} (hk : 0 < k) (x u : Vec (n + 1)) : (Grad.Lorentz.expmapRaw k x u).fin :=
  ⟨lnorm_fin u, hk, (Real.sqrt_pos.2 hk).ne', lnorm_ne u, trivial⟩

lemma lexp0Raw_fin {k : ℝ} (hk : 0 < k) (u : Vec (n + 1)) : (Grad.Lorentz.expmap0Raw k u).fin :=
  ⟨lnorm_fin u, hk, (Real.sqrt_pos.2 hk).ne', lnorm_ne u, trivial⟩

/-- Projections, exponentials, rays and the norm: everywhere, also for the zero vector. -/
theorem C131_lorentz {k : ℝ} (hk : 0 < k) (t : ℝ) (x u v : Vec (n + 1)) (a b : Bool) :
    Differentiable (Grad.Lorentz.project k x) (Geoopt.Lorentz.project k x) ∧
    Differentiable (Grad.Lorentz.projectU k x v) (Geoopt.Lorentz.projectU k x v) ∧
    Differentiable (Grad.Lorentz.norm u) (Geoopt.Lorentz.norm u) ∧
    Differentiable (Grad.Lorentz.expmap k x u a b) (Geoopt.Lorentz.expmap k x u a b) ∧
    Differentiable (Grad.Lorentz.expmap0 k u b) (Geoopt.Lorentz.expmap0 k u b) ∧
    Differentiable (Grad.Lorentz.geodesicUnitRaw k t x u) (Geoopt.Lorentz.geodesicUnitRaw k t x u) := by
  have hs := (Real.sqrt_pos.2 hk).ne'
  refine ⟨⟨by simp, lproject_fin hk x⟩, ⟨by simp, hk.ne', trivial⟩, ⟨by simp, lnorm_fin u⟩,
    ⟨by simp, ?_⟩, ⟨by simp, ?_⟩, ⟨by simp, hk, hs, trivial⟩⟩
  · cases a <;> cases b
    · exact ⟨trivial, lexpRaw_fin hk _ _, trivial⟩
    · exact ⟨trivial, lexpRaw_fin hk _ _, lproject_fin hk _⟩
    · exact ⟨⟨hk.ne', trivial⟩, lexpRaw_fin hk _ _, trivial⟩
    · exact ⟨⟨hk.ne', trivial⟩, lexpRaw_fin hk _ _, lproject_fin hk _⟩
  · cases b
    · exact ⟨lexp0Raw_fin hk _, trivial⟩
    · exact ⟨lexp0Raw_fin hk _, lproject_fin hk _⟩

/-- Distances, logarithms, transports and the change to the ball: all pairs of points of the
hyperboloid, also equal ones and the origin. -/
theorem C131_lorentz_points {k : ℝ} (hk : 0 < k) {x y : Vec (n + 1)} (hx : OnHyperboloid k x)
    (hy : OnHyperboloid k y) (v : Vec (n + 1)) :
    Differentiable (Grad.Lorentz.dist k x y) (Geoopt.Lorentz.dist k x y) ∧
    Differentiable (Grad.Lorentz.dist0 k x) (Geoopt.Lorentz.dist0 k x) ∧
    Differentiable (Grad.Lorentz.logmap k x y) (Geoopt.Lorentz.logmap k x y) ∧
    Differentiable (Grad.Lorentz.logmap0 k x) (Geoopt.Lorentz.logmap0 k x) ∧
    Differentiable (Grad.Lorentz.logmap0back k x) (Geoopt.Lorentz.logmap0back k x) ∧
    Differentiable (Grad.Lorentz.transp k x y v) (Geoopt.Lorentz.transp k x y v) ∧
    Differentiable (Grad.Lorentz.transp0 k y v) (Geoopt.Lorentz.transp0 k y v) ∧
    Differentiable (Grad.Lorentz.transp0back k x v) (Geoopt.Lorentz.transp0back k x v) ∧
    Differentiable (Grad.Lorentz.toPoincare k x) (Geoopt.Lorentz.toPoincare k x) := by
  have lf : ∀ {x y : Vec (n + 1)}, OnHyperboloid k x → OnHyperboloid k y →
      (Grad.Lorentz.logmap k x y).fin := fun hx hy =>
    ⟨ldist_fin hk hx hy, hk.ne', lnorm_fin _, lnorm_ne _, trivial⟩
  have l0 : ∀ {x : Vec (n + 1)}, OnHyperboloid k x → (Grad.Lorentz.logmap0 k x).fin := fun hx =>
    ⟨ldist0_fin hk hx, hk.ne', ⟨hk, trivial⟩, hk, lnorm_fin _, lnorm_ne _, trivial⟩
  have lb : ∀ {x : Vec (n + 1)}, OnHyperboloid k x → (Grad.Lorentz.logmap0back k x).fin := fun hx =>
    ⟨ldist0_fin hk hx, hk.ne', ⟨hk, trivial⟩, hk, lnorm_fin _, lnorm_ne _, trivial⟩
  have hs := Real.sqrt_pos.2 hk
  exact ⟨⟨by simp, ldist_fin hk hx hy⟩, ⟨by simp, ldist0_fin hk hx⟩, ⟨by simp, lf hx hy⟩,
    ⟨by simp, l0 hx⟩, ⟨by simp, lb hx⟩,
    ⟨by simp, lf hx hy, ldist_fin hk hx hy, pow_ne_zero 2 (ldist_pos hk hx hy).ne', lf hy hx, trivial⟩,
    ⟨by simp, l0 hy, ldist0_fin hk hy, pow_ne_zero 2 (ldist0_pos hk hy).ne', lb hy, trivial⟩,
    ⟨by simp, lb hx, ldist0_fin hk hx, pow_ne_zero 2 (ldist0_pos hk hx).ne', l0 hx, trivial⟩,
    ⟨by simp, hk, (add_pos hx.2 hs).ne'⟩⟩

/-- From the ball: every point of the open ball. -/
theorem C131_lorentz_of_ball {k e : ℝ} (hk : 0 < k) (he : 0 ≤ e) {x : Vec n} (hx : x ⬝ᵥ x < 1) :
    Differentiable (Grad.Lorentz.ofPoincare k e x) (Geoopt.Lorentz.ofPoincare k e x) :=
  ⟨by simp, hk, by
    show 1.0 - x ⬝ᵥ x + e ≠ 0
    rw [show (1.0 : ℝ) = 1 by norm_num]
    exact (by linarith : 0 < 1 - x ⬝ᵥ x + e).ne', trivial⟩

example : OnHyperboloid 1 ![1, 0] := by
  constructor
  · simp [mink]
  · simp

end lorentz

/-! ### positive definite matrices -/

section spd
open Geoopt.SPD Geoopt.Linalg
variable (E : Eigh n)

/-- The eigenvalues of a positive definite matrix are positive, whatever `eigh` returns. -/
lemma eig_pos {x : Mat n} (hx : OnSPD x) (i : Fin n) : 0 < E.e x i := hx.pos (eigh_dec E hx.tr) i

lemma sep {x : Mat n} : (∀ i j, i ≠ j → E.e x i - E.e x j ≠ 0) ↔ Function.Injective (E.e x) := by
  constructor
  · intro h i j e
    by_contra hij
    exact h i j hij (sub_eq_zero.2 e)
  · intro h i j hij e
    exact hij (h (sub_eq_zero.1 e))

lemma log_fin {x : Mat n} (hx : OnSPD x) :
    (Grad.SPD.symLogm E x).fin ↔ Function.Injective (E.e x) :=
  (and_iff_left fun i => eig_pos E hx i).trans (sep E)

lemma isq1_fin {x : Mat n} (hx : OnSPD x) :
    (Grad.SPD.symInvSqrtm1 E x).fin ↔ Function.Injective (E.e x) :=
  (and_iff_left fun i => eig_pos E hx i).trans (sep E)

lemma isq2_fin {x : Mat n} (hx : OnSPD x) :
    (Grad.SPD.symInvSqrtm2 E x).fin ↔ Function.Injective (E.e x) := by
  have hp := eig_pos E hx
  constructor
  · intro h; exact (sep E).1 h.1.1
  · intro h
    exact ⟨⟨(sep E).2 h, fun i => ⟨hp i, (Real.sqrt_pos.2 (hp i)).ne'⟩⟩,
      ⟨(sep E).2 h, fun i => hp i⟩, trivial⟩

/-- The inner product, the retraction and the Stein distance: all positive definite matrices. -/
theorem C131_spd {x y : Mat n} (hx : OnSPD x) (hy : OnSPD y) (u v : Mat n) :
    Differentiable (Grad.SPD.inner x u v) (Geoopt.SPD.inner x u v) ∧
    Differentiable (Grad.SPD.retr x u) (Geoopt.SPD.retr x u) ∧
    Differentiable (Grad.SPD.dist E .SM x y) (Geoopt.SPD.dist E .SM x y) := by
  have hd : x.det ≠ 0 := (det_ne_of_onSPD hx).ne'
  refine ⟨⟨rfl, hd, trivial⟩, ⟨rfl, hd, trivial⟩, ⟨rfl, ?_, ?_, trivial⟩⟩
  · show 0 < (((0.5 : ℝ) • (x + y))).det
    refine det_ne_of_onSPD ⟨?_, fun w hw => ?_⟩
    · rw [symm_iff, transpose_smul, transpose_add, hx.tr, hy.tr]
    · rw [smul_mulVec, dotProduct_smul, add_mulVec, dotProduct_add]
      exact smul_pos (by norm_num) (add_pos (hx.2 w hw) (hy.2 w hw))
  · show 0 < (x * y).det
    rw [det_mul]
    exact mul_pos (det_ne_of_onSPD hx) (det_ne_of_onSPD hy)

/-- Everything computed from an eigendecomposition: exactly when the eigenvalues are distinct. -/
theorem C131_spd_eigen_partial {x y : Mat n} (hx : OnSPD x) (hy : OnSPD y) (u v : Mat n) :
    (Differentiable (Grad.SPD.dist E .LEM x y) (Geoopt.SPD.dist E .LEM x y) ↔
      Function.Injective (E.e x) ∧ Function.Injective (E.e y)) ∧
    (Differentiable (Grad.SPD.dist E .AIM x y) (Geoopt.SPD.dist E .AIM x y) ↔
      Function.Injective (E.e x) ∧
        Function.Injective (E.e (symInvSqrtm1 E x * y * symInvSqrtm1 E x))) ∧
    (Differentiable (Grad.SPD.expmap E x u) (Geoopt.SPD.expmap E x u) ↔ Function.Injective (E.e x)) ∧
    (Differentiable (Grad.SPD.logmap E x y) (Geoopt.SPD.logmap E x y) ↔
      Function.Injective (E.e x) ∧
        Function.Injective (E.e (symInvSqrtm1 E x * y * symInvSqrtm1 E x))) ∧
    (Differentiable (Grad.SPD.transp E x y v) (Geoopt.SPD.transp E x y v) ↔
      Function.Injective (E.e x) ∧
        Function.Injective (E.e (symInvSqrtm1 E x * y * symInvSqrtm1 E x))) ∧
    (Differentiable (Grad.SPD.projx E u) (Geoopt.SPD.projx E u) ↔
      Function.Injective (E.e (sym u))) := by
  have hr := roots (E := E) hx
  have hm : OnSPD ((symInvSqrtm2 E x).1 * y * (symInvSqrtm2 E x).1) := hr.mid hy
  have h1 := symInvSqrtm1_eq (E := E) hx
  have val : ∀ {α : Type} {t : Tr α} {w : α}, t.val = w → (Differentiable t w ↔ t.fin) :=
    fun h => ⟨fun k => k.2, fun k => ⟨h, k⟩⟩
  rw [h1]
  refine ⟨(val rfl).trans ?_, (val rfl).trans ?_, (val rfl).trans ?_, (val rfl).trans ?_,
    (val rfl).trans ?_, (val rfl).trans ?_⟩
  · exact and_congr (log_fin E hx) ((and_iff_left trivial).trans (log_fin E hy))
  · refine and_congr (isq1_fin E hx) ((and_iff_left trivial).trans ?_)
    have := log_fin E hm
    rw [← h1] at this ⊢
    exact this
  · exact (and_iff_left trivial).trans (isq2_fin E hx)
  · exact and_congr (isq2_fin E hx) ((and_iff_left trivial).trans (log_fin E hm))
  · exact and_congr (isq2_fin E hx) ((and_iff_left trivial).trans (log_fin E hm))
  · exact (and_iff_left fun _ => trivial).trans (sep E)

/-- A matrix with distinct eigenvalues, whatever `eigh` returns for it. -/
example (E : Eigh 2) : Function.Injective (E.e (diagonal ![1, 2])) := by
  have h := eigh_dec E (x := (diagonal ![1, 2] : Mat 2)) (diagonal_transpose _)
  have hne : E.e (diagonal ![1, 2]) 0 ≠ E.e (diagonal ![1, 2]) 1 := by
    intro e
    have hc : diagonal (E.e (diagonal ![1, 2])) = E.e (diagonal ![1, 2]) 0 • (1 : Mat 2) := by
      ext i j
      fin_cases i <;> fin_cases j <;> simp [e]
    have h2 := h.eq
    rw [hc, mul_smul_comm, mul_one, smul_mul_assoc, h.orth'] at h2
    have a := congrFun (congrFun h2 0) 0
    have b := congrFun (congrFun h2 1) 1
    simp at a b
    linarith
  intro i j hij
  fin_cases i <;> fin_cases j <;> simp_all

lemma eig_one (i : Fin n) : E.e (1 : Mat n) i = 1 := by
  have h := eigh_dec E (x := (1 : Mat n)) transpose_one
  have aux : ∀ v d : Mat n, vᵀ * v = 1 → vᵀ * (v * d * vᵀ) * v = d := by
    intro v d hv
    calc vᵀ * (v * d * vᵀ) * v = (vᵀ * v) * d * (vᵀ * v) := by simp only [Matrix.mul_assoc]
      _ = d := by rw [hv, one_mul, mul_one]
  have h1 := aux _ (diagonal (E.e 1)) h.orth
  rw [← h.eq] at h1
  rw [mul_one, h.orth] at h1
  have := congrFun (congrFun h1 i) i
  simpa using this.symm

/-- The distance of a matrix of size at least two from itself (affine invariant metric), its logarithm,
and the exponential and the logarithmic distance at the origin, the identity: division by zero. -/
theorem C131_counterexample_spd (hn : 2 ≤ n) {x : Mat n} (hx : OnSPD x) (u : Mat n) :
    ¬ (Grad.SPD.dist E .AIM x x).fin ∧ ¬ (Grad.SPD.logmap E x x).fin ∧
    ¬ (Grad.SPD.expmap E Geoopt.SPD.origin u).fin ∧
    ¬ (Grad.SPD.dist E .LEM Geoopt.SPD.origin x).fin ∧
    ¬ (Grad.SPD.projx E Geoopt.SPD.origin).fin := by
  have h1 := symInvSqrtm1_eq (E := E) hx
  have hr := roots (E := E) hx
  have no : ¬ Function.Injective (E.e (1 : Mat n)) := by
    intro h
    have := @h ⟨0, by omega⟩ ⟨1, by omega⟩ (by rw [eig_one, eig_one])
    simp at this
  have ho : (Geoopt.SPD.origin : Mat n) = 1 := diagonal_one
  have h1s : OnSPD (1 : Mat n) := ⟨by rw [symm_iff, transpose_one], fun w hw => by
    rw [one_mulVec]; exact lt_of_le_of_ne (Finset.sum_nonneg fun _ _ => mul_self_nonneg _)
      (fun e => hw (dotProduct_self_eq_zero.1 e.symm))⟩
  obtain ⟨-, ha, -, hl, -, -⟩ := C131_spd_eigen_partial E hx hx u u
  obtain ⟨hle, -, he, -, -, hp⟩ := C131_spd_eigen_partial E h1s hx 1 u
  rw [h1, hr.rxr] at ha hl
  rw [ho]
  refine ⟨fun h => no (ha.1 ⟨rfl, h⟩).2, fun h => no (hl.1 ⟨rfl, h⟩).2,
    fun h => no ((C131_spd_eigen_partial E h1s hx u u).2.2.1.1 ⟨rfl, h⟩),
    fun h => no (hle.1 ⟨rfl, h⟩).1, fun h => no ?_⟩
  have := hp.1 ⟨rfl, h⟩
  rwa [sym_of_symm transpose_one] at this

end spd
end Geoopt.C131
