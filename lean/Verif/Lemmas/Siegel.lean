import Verif.Model.Siegel
import Verif.Spec.Siegel
import Mathlib.LinearAlgebra.Matrix.ToLinearEquiv
import Mathlib.Tactic.LinearCombination
import Mathlib.Tactic.Ring
import Mathlib.Tactic.Linarith

namespace Geoopt.Siegel
open Matrix Geoopt

variable {n : ℕ}

theorem csymm_iff {z : CMat n} : CSymm z ↔ zᵀ = z := by
  constructor
  · intro h; ext i j; exact h j i
  · intro h i j; exact (congrFun (congrFun h j) i)

theorem multiplyByI_eq (z : CMat n) : multiplyByI z = Complex.I • z := by
  ext i j
  apply Complex.ext <;> simp [multiplyByI, toComplex, imM, reM]

theorem inverse_ok {z w : CMat n} : inverse z = .ok w ↔ IsUnit z.det ∧ w = z⁻¹ := by
  unfold inverse
  by_cases h : IsUnit z.det
  · rw [if_pos h]; constructor
    · intro e; cases e; exact ⟨h, rfl⟩
    · rintro ⟨-, rfl⟩; rfl
  · rw [if_neg h]; constructor
    · intro e; cases e
    · intro e; exact absurd e.1 h

theorem inverse_of_unit {z : CMat n} (h : IsUnit z.det) : inverse z = .ok z⁻¹ :=
  inverse_ok.2 ⟨h, rfl⟩

theorem inverse_of_not_unit {z : CMat n} (h : ¬ IsUnit z.det) :
    inverse z = .error .runtimeError := by
  unfold inverse; rw [if_neg h]

/-- `I` times the identity matrix. -/
noncomputable abbrev iId (n : ℕ) : CMat n := Complex.I • (1 : CMat n)

theorem cayley_ok {z w : CMat n} : cayleyTransform z = .ok w ↔
    IsUnit (1 - z).det ∧ w = (Complex.I • (1 + z)) * (1 - z)⁻¹ := by
  unfold cayleyTransform identityLike
  by_cases h : IsUnit (1 - z).det
  · simp only [inverse_of_unit h, multiplyByI_eq]
    constructor
    · intro e; cases e; exact ⟨h, rfl⟩
    · rintro ⟨-, rfl⟩; rfl
  · simp only [inverse_of_not_unit h]
    constructor
    · intro e; cases e
    · intro e; exact absurd e.1 h

theorem inverseCayley_ok {z w : CMat n} : inverseCayleyTransform z = .ok w ↔
    IsUnit (z + iId n).det ∧ w = (z - iId n) * (z + iId n)⁻¹ := by
  unfold inverseCayleyTransform identityLike
  simp only [multiplyByI_eq]
  by_cases h : IsUnit (z + iId n).det
  · simp only [inverse_of_unit h]
    constructor
    · intro e; cases e; exact ⟨h, rfl⟩
    · rintro ⟨-, rfl⟩; rfl
  · simp only [inverse_of_not_unit h]
    constructor
    · intro e; cases e
    · intro e; exact absurd e.1 h

theorem inverseCayley_error {z : CMat n} (h : ¬ IsUnit (z + iId n).det) :
    inverseCayleyTransform z = .error .runtimeError := by
  unfold inverseCayleyTransform identityLike
  simp only [multiplyByI_eq]
  simp only [inverse_of_not_unit h]
  rfl

theorem cayley_error {z : CMat n} (h : ¬ IsUnit (1 - z).det) :
    cayleyTransform z = .error .runtimeError := by
  unfold cayleyTransform identityLike
  simp only [inverse_of_not_unit h]
  rfl

theorem isUnit_det_of_mul {a b : CMat n} (h : a * b = 1) : IsUnit a.det := by
  rw [← Matrix.isUnit_iff_isUnit_det]
  exact IsUnit.of_mul_eq_one b h

theorem isUnit_det_iff {a : CMat n} : IsUnit a.det ↔ ∀ v, a *ᵥ v = 0 → v = 0 := by
  constructor
  · intro h v hv
    have : a⁻¹ *ᵥ (a *ᵥ v) = v := by rw [mulVec_mulVec, nonsing_inv_mul _ h, one_mulVec]
    rw [← this, hv, mulVec_zero]
  · intro h
    rw [isUnit_iff_ne_zero]
    intro h0
    obtain ⟨v, hv, he⟩ := Matrix.exists_mulVec_eq_zero_iff.2 h0
    exact hv (h v he)

theorem len2_pos {v : Fin n → ℂ} (h : v ≠ 0) : 0 < len2 v := by
  obtain ⟨i, hi⟩ := Function.ne_iff.1 h
  exact Finset.sum_pos' (fun i _ => Complex.normSq_nonneg _) ⟨i, Finset.mem_univ i,
    Complex.normSq_pos.2 hi⟩

theorem len2_nonneg (v : Fin n → ℂ) : 0 ≤ len2 v :=
  Finset.sum_nonneg fun i _ => Complex.normSq_nonneg _

/-- The imaginary part of `v* p`. -/
def imIp (v p : Fin n → ℂ) : ℝ := ∑ i, ((v i).re * (p i).im - (v i).im * (p i).re)

theorem len2_cayley (p v : Fin n → ℂ) :
    len2 (p + Complex.I • v) - len2 (p - Complex.I • v) = 4 * imIp v p := by
  simp only [len2, imIp, Finset.mul_sum, ← Finset.sum_sub_distrib]
  refine Finset.sum_congr rfl fun i _ => ?_
  simp [Complex.normSq_apply]
  ring

theorem imIp_I_smul (v : Fin n → ℂ) : imIp v (-(Complex.I • v)) = -len2 v := by
  simp only [imIp, len2, ← Finset.sum_neg_distrib]
  refine Finset.sum_congr rfl fun i _ => ?_
  simp [Complex.normSq_apply]
  ring

theorem imIp_diff (v p : Fin n → ℂ) :
    imIp (v - p) (Complex.I • (v + p)) = len2 v - len2 p := by
  simp only [imIp, len2, ← Finset.sum_sub_distrib]
  refine Finset.sum_congr rfl fun i _ => ?_
  simp [Complex.normSq_apply]
  ring

/-- For symmetric `z` the imaginary part of `v* z v` is the form of `Im z` at the real and at the
imaginary part of `v`. -/
theorem imIp_symm {z : CMat n} (hz : CSymm z) (v : Fin n → ℂ) :
    imIp v (z *ᵥ v) = imForm z (fun i => (v i).re) + imForm z (fun i => (v i).im) := by
  have key : ∀ i, ((v i).re * ((z *ᵥ v) i).im - (v i).im * ((z *ᵥ v) i).re) =
      ∑ j, ((v i).re * ((z i j).re * (v j).im + (z i j).im * (v j).re)
        - (v i).im * ((z i j).re * (v j).re - (z i j).im * (v j).im)) := by
    intro i
    simp only [mulVec, dotProduct, Complex.im_sum, Complex.re_sum, Finset.mul_sum,
      ← Finset.sum_sub_distrib]
    refine Finset.sum_congr rfl fun j _ => ?_
    simp [Complex.mul_im, Complex.mul_re]
  simp only [imIp, key, imForm, ← Finset.sum_add_distrib]
  have hs : ∑ i, ∑ j, ((v i).re * (z i j).re * (v j).im - (v i).im * (z i j).re * (v j).re) = 0 := by
    have : ∑ i, ∑ j, (v i).re * (z i j).re * (v j).im =
        ∑ i, ∑ j, (v i).im * (z i j).re * (v j).re := by
      rw [Finset.sum_comm]
      refine Finset.sum_congr rfl fun i _ => Finset.sum_congr rfl fun j _ => ?_
      rw [hz j i]; ring
    simp only [Finset.sum_sub_distrib, this, sub_self]
  rw [← sub_eq_zero, ← hs, ← Finset.sum_sub_distrib]
  refine Finset.sum_congr rfl fun i _ => ?_
  rw [← Finset.sum_sub_distrib]
  refine Finset.sum_congr rfl fun j _ => ?_
  ring

theorem imForm_zero (z : CMat n) : imForm z (fun _ => 0) = 0 := by simp [imForm]

theorem imForm_nonneg {z : CMat n} (hz : OnUpperHalf z) (w : Fin n → ℝ) : 0 ≤ imForm z w := by
  by_cases h : w = 0
  · subst h; exact (imForm_zero z).ge
  · exact (hz.2 w h).le

theorem imIp_pos {z : CMat n} (hz : OnUpperHalf z) {v : Fin n → ℂ} (hv : v ≠ 0) :
    0 < imIp v (z *ᵥ v) := by
  rw [imIp_symm hz.1]
  by_cases h : (fun i => (v i).re) = 0
  · have h' : (fun i => (v i).im) ≠ 0 := by
      intro h'; apply hv; ext i
      exact Complex.ext (congrFun h i) (congrFun h' i)
    exact add_pos_of_nonneg_of_pos (imForm_nonneg hz _) (hz.2 _ h')
  · exact add_pos_of_pos_of_nonneg (hz.2 _ h) (imForm_nonneg hz _)

theorem iId_mulVec (v : Fin n → ℂ) : iId n *ᵥ v = Complex.I • v := by
  simp [smul_mulVec]

theorem unit_add_i {z : CMat n} (hz : OnUpperHalf z) : IsUnit (z + iId n).det := by
  rw [isUnit_det_iff]
  intro v hv
  by_contra h0
  rw [add_mulVec, iId_mulVec] at hv
  have h1 := imIp_pos hz h0
  rw [eq_neg_of_add_eq_zero_left hv, imIp_I_smul] at h1
  linarith [len2_nonneg v]

theorem unit_one_sub {z : CMat n} (hz : OnBounded z) : IsUnit (1 - z).det := by
  rw [isUnit_det_iff]
  intro v hv
  by_contra h0
  rw [sub_mulVec, one_mulVec, sub_eq_zero] at hv
  have := hz.2 v h0
  rw [← hv] at this
  exact lt_irrefl _ this

/-- Matrices that commute with an invertible matrix commute with its inverse. -/
theorem comm_inv {a b : CMat n} (h : a * b = b * a) (hb : IsUnit b.det) : a * b⁻¹ = b⁻¹ * a := by
  calc a * b⁻¹ = b⁻¹ * b * (a * b⁻¹) := by rw [nonsing_inv_mul _ hb, one_mul]
    _ = b⁻¹ * (a * b) * b⁻¹ := by rw [h]; simp only [Matrix.mul_assoc]
    _ = b⁻¹ * a * (b * b⁻¹) := by simp only [Matrix.mul_assoc]
    _ = b⁻¹ * a := by rw [mul_nonsing_inv _ hb, mul_one]

end Geoopt.Siegel
