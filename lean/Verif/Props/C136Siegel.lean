import Verif.Props.C83
import Mathlib.Analysis.Calculus.Deriv.Comp
import Mathlib.Analysis.Calculus.Deriv.Linear
import Mathlib.Analysis.Calculus.Deriv.Add
import Mathlib.Analysis.Calculus.Deriv.Mul
import Mathlib.Analysis.Calculus.Deriv.Prod
import Mathlib.Analysis.Complex.Basic
import Mathlib.Algebra.Order.BigOperators.Ring.Finset

/-!
# C136 on the Siegel spaces

On the upper half space `egrad2rgrad` depends only on the values of the loss on the manifold.  On the bounded
domain it does so when `conj(z) z = z conj(z)`, and not in general: with `A = Id - conj(z) z`, which is Hermitian
and not symmetric, the symmetric part of `A g A` depends on the antisymmetric part of the Euclidean gradient `g`.
`OnUpperHalf`, `OnBounded`, `CSymm` and `pairing` are in `Verif.Spec.Siegel`.
-/

namespace Geoopt.Siegel
open Matrix
variable {n : ℕ}

/-- `g` is what `backward()` leaves in `.grad` for the loss `F` of a complex matrix: `F` is differentiable as a
function of real and imaginary parts, and its derivative in the direction `v` is the Euclidean pairing. -/
def IsGradC (F : CMat n → ℝ) (z g : CMat n) : Prop :=
  ∃ L : (Fin n → Fin n → ℂ) →L[ℝ] ℝ,
    HasFDerivAt (fun w : Fin n → Fin n → ℂ => F (Matrix.of w)) L (fun i j => z i j) ∧
    ∀ v : Fin n → Fin n → ℂ, L v = pairing g (Matrix.of v)

/-- Losses that agree on a set have the same derivative along segments in that set. -/
theorem pairing_along {On : CMat n → Prop} {F F' : CMat n → ℝ} {z g g' u : CMat n}
    (hF : ∀ y, On y → F y = F' y) (hg : IsGradC F z g) (hg' : IsGradC F' z g')
    (h : ∀ s : ℝ, 0 ≤ s → s < 1 → On (z + (s : ℂ) • u)) : pairing g u = pairing g' u := by
  obtain ⟨L, hL, eL⟩ := hg
  obtain ⟨L', hL', eL'⟩ := hg'
  obtain ⟨γ, hγ⟩ : ∃ γ : ℝ → Fin n → Fin n → ℂ, γ = fun (s : ℝ) i j => z i j + (s : ℂ) * u i j := ⟨_, rfl⟩
  have h0 : γ 0 = fun i j => z i j := by subst hγ; funext i j; simp
  have hm : ∀ s, Matrix.of (γ s) = z + (s : ℂ) • u := fun s => by subst hγ; ext i j; simp
  have hd : HasDerivWithinAt γ (fun i j => u i j) (Set.Ici 0) 0 := by
    refine hasDerivWithinAt_pi.2 fun i => hasDerivWithinAt_pi.2 fun j => HasDerivAt.hasDerivWithinAt ?_
    subst hγ
    have := ((Complex.ofRealCLM.hasDerivAt (x := (0 : ℝ))).mul_const (u i j)).const_add (z i j)
    simpa using this
  rw [← h0] at hL hL'
  have h1 : HasDerivWithinAt (fun s => F (Matrix.of (γ s)) - F' (Matrix.of (γ s)))
      (L (fun i j => u i j) - L' (fun i j => u i j)) (Set.Ici 0) 0 :=
    (hL.comp_hasDerivWithinAt 0 hd).sub (hL'.comp_hasDerivWithinAt 0 hd)
  have h2 : HasDerivWithinAt (fun s => F (Matrix.of (γ s)) - F' (Matrix.of (γ s))) 0 (Set.Ici 0) 0 := by
    refine (hasDerivWithinAt_const (0 : ℝ) (Set.Ici (0 : ℝ)) (0 : ℝ)).congr_of_eventuallyEq ?_ ?_
    · filter_upwards [self_mem_nhdsWithin, mem_nhdsWithin_of_mem_nhds (Iio_mem_nhds one_pos)] with s h1 h2
      rw [hm, hF _ (h s h1 h2), sub_self]
    · rw [hm, hF _ (h 0 le_rfl one_pos), sub_self]
  have e := (uniqueDiffOn_Ici (0 : ℝ) 0 Set.self_mem_Ici).eq_deriv _ h1 h2
  rw [eL, eL'] at e
  exact sub_eq_zero.1 e

theorem pairing_sub (g g' v : CMat n) : pairing (g - g') v = pairing g v - pairing g' v := by
  unfold pairing
  simp only [← Finset.sum_sub_distrib, Matrix.sub_apply, Complex.sub_re, Complex.sub_im]
  exact Finset.sum_congr rfl fun i _ => Finset.sum_congr rfl fun j _ => by ring

/-- A matrix that pairs to zero with all symmetric ones has no symmetric part. -/
theorem symC_zero_of {d : CMat n} (h : pairing d (symC d) = 0) : symC d = 0 := by
  rw [← pairing_sym (symC_symm d)] at h
  unfold pairing at h
  have h1 := (Finset.sum_eq_zero_iff_of_nonneg fun i _ => Finset.sum_nonneg fun j _ =>
    add_nonneg (mul_self_nonneg _) (mul_self_nonneg _)).1 h
  ext i j
  have h2 := (Finset.sum_eq_zero_iff_of_nonneg fun j _ =>
    add_nonneg (mul_self_nonneg _) (mul_self_nonneg _)).1 (h1 i (Finset.mem_univ i)) j (Finset.mem_univ j)
  have h3 : (symC d i j).re = 0 := by nlinarith [mul_self_nonneg (symC d i j).re, mul_self_nonneg (symC d i j).im]
  have h4 : (symC d i j).im = 0 := by nlinarith [mul_self_nonneg (symC d i j).re, mul_self_nonneg (symC d i j).im]
  exact Complex.ext h3 h4

theorem symC_sub (g g' : CMat n) : symC (g - g') = symC g - symC g' := by
  unfold symC
  rw [transpose_sub]
  module

/-- The matrix `c w wᵀ`. -/
def rankOne (c : ℂ) (w : Fin n → ℝ) : CMat n := Matrix.of fun i j => c * (w i * w j : ℝ)

/-- A real quadratic form that vanishes has no symmetric part. -/
theorem polar {m : Fin n → Fin n → ℝ} (h : ∀ w : Fin n → ℝ, ∑ i, ∑ j, m i j * (w i * w j) = 0) (a b : Fin n) :
    m a b + m b a = 0 := by
  have q : ∀ w : Fin n → ℝ, w ⬝ᵥ (Matrix.of m *ᵥ w) = 0 := fun w => by
    rw [← h w]
    simp only [dotProduct, mulVec, Finset.mul_sum, Matrix.of_apply]
    exact Finset.sum_congr rfl fun i _ => Finset.sum_congr rfl fun j _ => by ring
  have h1 := q (Pi.single a 1)
  have h2 := q (Pi.single b 1)
  have h3 := q (Pi.single a 1 + Pi.single b 1)
  simp only [Matrix.mulVec_add, add_dotProduct, dotProduct_add, Matrix.mulVec_single_one, single_one_dotProduct,
    Matrix.col_apply, Matrix.of_apply] at h1 h2 h3
  linarith

/-- **C136.** `UpperHalf.egrad2rgrad` turns the gradients of losses that agree on the upper half space into the
same Riemannian gradient. -/
theorem C136_upper_half {F F' : CMat n → ℝ} {z g g' : CMat n} (hz : OnUpperHalf z)
    (hF : ∀ y, OnUpperHalf y → F y = F' y) (hg : IsGradC F z g) (hg' : IsGradC F' z g') :
    upperEgrad2rgrad z g = upperEgrad2rgrad z g' := by
  have key : ∀ (c : ℂ) (w : Fin n → ℝ), 0 ≤ c.im → pairing (g - g') (rankOne c w) = 0 := by
    intro c w hc
    rw [pairing_sub, sub_eq_zero]
    refine pairing_along hF hg hg' fun s hs _ => ⟨fun i j => ?_, fun x hx => ?_⟩
    · simp only [Matrix.add_apply, Matrix.smul_apply, rankOne, Matrix.of_apply, hz.1 i j, mul_comm (w i)]
    · have e : imForm (z + (s : ℂ) • rankOne c w) x = imForm z x + s * c.im * (∑ i, x i * w i) ^ 2 := by
        unfold imForm
        rw [sq, Finset.sum_mul_sum, Finset.mul_sum, ← Finset.sum_add_distrib]
        refine Finset.sum_congr rfl fun i _ => ?_
        rw [Finset.mul_sum, ← Finset.sum_add_distrib]
        refine Finset.sum_congr rfl fun j _ => ?_
        simp only [Matrix.add_apply, Matrix.smul_apply, rankOne, Matrix.of_apply, Complex.add_im, smul_eq_mul,
          Complex.re_ofReal_mul, Complex.im_ofReal_mul, Complex.im_mul_ofReal]
        ring
      rw [e]
      have := hz.2 x hx
      positivity
  have hs : symC (g - g') = 0 := by
    have hr := polar (m := fun i j => ((g - g') i j).re) fun w => by
      rw [← key 1 w (by simp)]
      unfold pairing rankOne
      exact Finset.sum_congr rfl fun i _ => Finset.sum_congr rfl fun j _ => by simp
    have hi := polar (m := fun i j => ((g - g') i j).im) fun w => by
      rw [← key Complex.I w (by simp)]
      unfold pairing rankOne
      exact Finset.sum_congr rfl fun i _ => Finset.sum_congr rfl fun j _ => by
        simp only [Matrix.of_apply, Complex.re_mul_ofReal, Complex.im_mul_ofReal, Complex.I_re, Complex.I_im]
        ring
    ext i j
    rw [symC_apply]
    have h1 := hr i j
    have h2 := hi i j
    apply Complex.ext
    · simp only [Complex.zero_re, Matrix.zero_apply]; simp at h1 ⊢; linarith
    · simp only [Complex.zero_im, Matrix.zero_apply]; simp at h2 ⊢; linarith
  rw [symC_sub, sub_eq_zero] at hs
  rw [upperEgrad2rgrad_eq hz.1, upperEgrad2rgrad_eq hz.1, hs]

theorem len2_le_frob (S : CMat n) (w : Fin n → ℂ) :
    len2 (S *ᵥ w) ≤ (∑ i, ∑ j, Complex.normSq (S i j)) * len2 w := by
  unfold len2
  rw [Finset.sum_mul]
  refine Finset.sum_le_sum fun i _ => ?_
  have h1 : ‖(S *ᵥ w) i‖ ≤ ∑ j, ‖S i j‖ * ‖w j‖ := by
    change ‖∑ j, S i j * w j‖ ≤ _
    refine (norm_sum_le _ _).trans (le_of_eq ?_)
    exact Finset.sum_congr rfl fun j _ => norm_mul _ _
  have h2 := Finset.sum_mul_sq_le_sq_mul_sq Finset.univ (fun j => ‖S i j‖) (fun j => ‖w j‖)
  simp only [Complex.normSq_eq_norm_sq]
  calc ‖(S *ᵥ w) i‖ ^ 2 ≤ (∑ j, ‖S i j‖ * ‖w j‖) ^ 2 := pow_le_pow_left₀ (norm_nonneg _) h1 2
    _ ≤ _ := h2

theorem bounded_of_frob {S : CMat n} (hS : CSymm S) (h : ∑ i, ∑ j, Complex.normSq (S i j) < 1) : OnBounded S :=
  ⟨hS, fun w hw => (len2_le_frob S w).trans_lt (by
    have := mul_lt_mul_of_pos_right h (len2_pos hw)
    rwa [one_mul] at this)⟩

/-- The bounded domain is convex. -/
theorem bounded_convex {z y : CMat n} (hz : OnBounded z) (hy : OnBounded y) {s : ℝ} (h0 : 0 ≤ s) (h1 : s < 1) :
    OnBounded (z + (s : ℂ) • (y - z)) := by
  refine ⟨fun i j => ?_, fun w hw => ?_⟩
  · simp only [Matrix.add_apply, Matrix.smul_apply, Matrix.sub_apply, hz.1 i j, hy.1 i j]
  · have e : ∀ i, ((z + (s : ℂ) • (y - z)) *ᵥ w) i = ((1 - s : ℝ) : ℂ) * (z *ᵥ w) i + (s : ℂ) * (y *ᵥ w) i := by
      intro i
      rw [add_mulVec, smul_mulVec, sub_mulVec]
      simp only [Pi.add_apply, Pi.smul_apply, Pi.sub_apply, smul_eq_mul]
      push_cast
      ring
    have c : ∀ a b : ℂ, Complex.normSq (((1 - s : ℝ) : ℂ) * a + (s : ℂ) * b) ≤
        (1 - s) * Complex.normSq a + s * Complex.normSq b := by
      intro a b
      simp only [Complex.normSq_apply, Complex.add_re, Complex.add_im, Complex.re_ofReal_mul, Complex.im_ofReal_mul]
      nlinarith [mul_nonneg (mul_nonneg h0 (sub_nonneg.2 h1.le)) (add_nonneg (sq_nonneg (a.re - b.re))
        (sq_nonneg (a.im - b.im)))]
    have h2 : len2 ((z + (s : ℂ) • (y - z)) *ᵥ w) ≤ (1 - s) * len2 (z *ᵥ w) + s * len2 (y *ᵥ w) := by
      unfold len2
      rw [Finset.mul_sum, Finset.mul_sum, ← Finset.sum_add_distrib]
      exact Finset.sum_le_sum fun i _ => by rw [e]; exact c _ _
    have h3 := hz.2 w hw
    have h4 := hy.2 w hw
    nlinarith

/-- Losses that agree on the bounded domain have gradients with the same symmetric part. -/
theorem bounded_symC {F F' : CMat n → ℝ} {z g g' : CMat n} (hz : OnBounded z)
    (hF : ∀ y, OnBounded y → F y = F' y) (hg : IsGradC F z g) (hg' : IsGradC F' z g') : symC g = symC g' := by
  have key : ∀ y, OnBounded y → pairing (g - g') y = pairing (g - g') z := by
    intro y hy
    have h1 : pairing (g - g') (y - z) = 0 := by
      rw [pairing_sub, sub_eq_zero]
      exact pairing_along hF hg hg' fun s h0 h1 => bounded_convex hz hy h0 h1
    have h2 : pairing (g - g') (y - z) = pairing (g - g') y - pairing (g - g') z := by
      unfold pairing
      simp only [← Finset.sum_sub_distrib, Matrix.sub_apply, Complex.sub_re, Complex.sub_im]
      exact Finset.sum_congr rfl fun i _ => Finset.sum_congr rfl fun j _ => by ring
    linarith
  obtain ⟨S, hS⟩ : ∃ S, S = symC (g - g') := ⟨_, rfl⟩
  obtain ⟨N, hN⟩ : ∃ N : ℝ, N = ∑ i, ∑ j, Complex.normSq (S i j) := ⟨_, rfl⟩
  have hN0 : 0 ≤ N := hN ▸ Finset.sum_nonneg fun i _ => Finset.sum_nonneg fun j _ => Complex.normSq_nonneg _
  obtain ⟨c, hc⟩ : ∃ c : ℝ, c = 1 / (1 + N) := ⟨_, rfl⟩
  have hc0 : 0 < c := hc ▸ by positivity
  have hsm : ∀ r : ℝ, pairing (g - g') ((r : ℂ) • S) = r * pairing (g - g') S := by
    intro r
    unfold pairing
    simp only [Finset.mul_sum, Matrix.smul_apply, smul_eq_mul, Complex.re_ofReal_mul, Complex.im_ofReal_mul]
    exact Finset.sum_congr rfl fun i _ => Finset.sum_congr rfl fun j _ => by ring
  have hb : OnBounded ((c : ℂ) • S) := by
    refine bounded_of_frob (fun i j => ?_) ?_
    · rw [Matrix.smul_apply, Matrix.smul_apply, hS, symC_symm (g - g') i j]
    · have : ∑ i, ∑ j, Complex.normSq (((c : ℂ) • S) i j) = c ^ 2 * N := by
        rw [hN]
        simp only [Finset.mul_sum, Matrix.smul_apply, smul_eq_mul, Complex.normSq_mul, Complex.normSq_ofReal, sq]
      rw [this, hc, div_pow, one_pow, div_mul_eq_mul_div, one_mul, div_lt_one (by positivity)]
      nlinarith
  have h0 : OnBounded (((0 : ℝ) : ℂ) • S) := by
    refine bounded_of_frob (fun i j => by simp) ?_
    simp
  have h1 := (key _ hb).trans (key _ h0).symm
  rw [hsm, hsm, zero_mul] at h1
  have h2 : pairing (g - g') S = 0 := (mul_eq_zero.1 h1).resolve_left hc0.ne'
  rw [hS] at h2
  have := symC_zero_of h2
  rw [symC_sub, sub_eq_zero] at this
  exact this

/-- **C136, the part that holds on the bounded domain**: when `conj(z) z = z conj(z)` (in particular for one row,
for real `z` and for diagonal `z`) `BoundedDomain.egrad2rgrad` depends only on the values of the loss on the
manifold. -/
theorem C136_bounded_partial {F F' : CMat n → ℝ} {z g g' : CMat n} (hz : OnBounded z)
    (hc : conjM z * z = z * conjM z) (hF : ∀ y, OnBounded y → F y = F' y) (hg : IsGradC F z g)
    (hg' : IsGradC F' z g') : boundedEgrad2rgrad z g = boundedEgrad2rgrad z g' := by
  have hab : idMinusConjZZ (conjM z) = idMinusConjZZ z := by
    unfold idMinusConjZZ identityLike
    rw [conjM_conjM, hc]
  have e : ∀ g, boundedEgrad2rgrad z g = idMinusConjZZ z * symC g * idMinusConjZZ z := by
    intro g
    rw [boundedEgrad2rgrad_eq hz.1, hab]
    unfold symC
    simp only [mul_smul_comm, smul_mul_assoc, mul_add, add_mul, Matrix.mul_assoc]
  rw [e, e, bounded_symC hz hF hg hg']

/-- A real diagonal point meets the hypotheses, and a loss and the same loss with a penalty that vanishes on symmetric
matrices. -/
example : ∃ (z : CMat 2) (F F' : CMat 2 → ℝ), OnBounded z ∧ conjM z * z = z * conjM z ∧
    (∀ y, OnBounded y → F y = F' y) ∧ F ≠ F' := by
  refine ⟨0, fun y => (y 0 0).re, fun y => (y 0 0).re + ((y 0 1).re - (y 1 0).re), ?_, by simp, ?_, ?_⟩
  · exact bounded_of_frob (fun i j => by simp) (by simp)
  · intro y hy
    simp [hy.1 0 1]
  · intro h
    have := congrFun h !![0, 1; 0, 0]
    simp at this

/-- The point `((1/2, i/4), (i/4, 0))`. -/
noncomputable def skewPoint : CMat 2 := !![⟨1 / 2, 0⟩, ⟨0, 1 / 4⟩; ⟨0, 1 / 4⟩, 0]

/-- The linear function `Re (y₀₁ - y₁₀)`, zero on symmetric matrices, and its gradient. -/
def antiLoss (y : CMat 2) : ℝ := (y 0 1).re - (y 1 0).re

theorem antiLoss_grad (z : CMat 2) : IsGradC antiLoss z !![0, 1; -1, 0] := by
  let p : Fin 2 → Fin 2 → (Fin 2 → Fin 2 → ℂ) →L[ℝ] ℂ := fun i j =>
    (ContinuousLinearMap.proj (R := ℝ) (φ := fun _ : Fin 2 => ℂ) j).comp
      (ContinuousLinearMap.proj (R := ℝ) (φ := fun _ : Fin 2 => Fin 2 → ℂ) i)
  refine ⟨Complex.reCLM.comp (p 0 1) - Complex.reCLM.comp (p 1 0),
    (Complex.reCLM.comp (p 0 1) - Complex.reCLM.comp (p 1 0)).hasFDerivAt, fun v => ?_⟩
  simp [p, pairing, Fin.sum_univ_two]
  ring

/-- **C136 fails on the bounded domain.**  At `z = ((1/2, i/4), (i/4, 0))` the losses `0` and `Re (y₀₁ - y₁₀)`
agree on the whole manifold (both vanish on symmetric matrices), and `egrad2rgrad` turns the gradient of the first
into zero and the gradient of the second into a matrix with the entry `11 i / 64`. -/
theorem C136_counterexample_bounded : OnBounded skewPoint ∧ (∀ y, OnBounded y → antiLoss y = 0) ∧
    IsGradC (fun _ => 0) skewPoint 0 ∧ IsGradC antiLoss skewPoint !![0, 1; -1, 0] ∧
    boundedEgrad2rgrad skewPoint 0 = 0 ∧
    boundedEgrad2rgrad skewPoint !![0, 1; -1, 0] 0 0 = 11 / 64 * Complex.I := by
  refine ⟨?_, fun y hy => ?_, ⟨0, hasFDerivAt_const _ _, fun v => by simp [pairing]⟩, antiLoss_grad _, ?_, ?_⟩
  · refine bounded_of_frob (fun i j => ?_) ?_
    · fin_cases i <;> fin_cases j <;> simp [skewPoint]
    · simp [skewPoint, Fin.sum_univ_two, Complex.normSq_apply]
      norm_num
  · simp [antiLoss, hy.1 0 1]
  · unfold boundedEgrad2rgrad symC
    simp
  · have ha : idMinusConjZZ skewPoint = !![11 / 16, -Complex.I / 8; Complex.I / 8, 15 / 16] := by
      ext i j
      fin_cases i <;> fin_cases j <;> apply Complex.ext <;>
        simp [idMinusConjZZ, identityLike, conjM, skewPoint, Matrix.mul_apply, Fin.sum_univ_two] <;> norm_num
    unfold boundedEgrad2rgrad
    rw [ha, symC_apply]
    simp [Matrix.mul_apply, Fin.sum_univ_two]
    apply Complex.ext <;> simp <;> norm_num

end Geoopt.Siegel
