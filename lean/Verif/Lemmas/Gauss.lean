import Verif.Spec.Random
import Mathlib.Probability.Distributions.Gaussian.Multivariate
import Mathlib.MeasureTheory.Integral.Pi
import Mathlib.MeasureTheory.Integral.Layercake
import Mathlib.MeasureTheory.Measure.Lebesgue.EqHaar

/-! The distribution of independent standard normal entries: its density, and its image under
matrices with orthonormal rows. -/

namespace Geoopt.Gauss
open MeasureTheory ProbabilityTheory Geoopt.Random Matrix WithLp Complex
open scoped ENNReal RealInnerProductSpace
variable {ι κ : Type} [Fintype ι] [Fintype κ]

instance : IsProbabilityMeasure (randn ι) := by unfold randn; infer_instance

/-- Images under matrices with orthonormal rows. -/
theorem map_randn [DecidableEq κ] (M : Matrix κ ι ℝ) (hM : M * Mᵀ = 1) :
    (randn ι).map (fun z => M *ᵥ z) = randn κ := by
  have hmeas : Measurable (fun z : ι → ℝ => M *ᵥ z) := by
    refine measurable_pi_iff.2 fun i => ?_
    simp only [Matrix.mulVec, dotProduct]
    fun_prop
  have h1 : ((randn ι).map (fun z => M *ᵥ z)).map (toLp 2) = (randn κ).map (toLp 2) := by
    apply Measure.ext_of_charFun (E := EuclideanSpace ℝ κ)
    ext t
    have e : (randn κ).map (toLp 2) = stdGaussian (EuclideanSpace ℝ κ) := map_pi_eq_stdGaussian
    have e' : (randn ι).map (toLp 2) = stdGaussian (EuclideanSpace ℝ ι) := map_pi_eq_stdGaussian
    rw [e, charFun_stdGaussian]
    have hn : ‖(toLp 2 (Mᵀ *ᵥ ofLp t) : EuclideanSpace ℝ ι)‖ ^ 2 = ‖t‖ ^ 2 := by
      rw [EuclideanSpace.real_norm_sq_eq, EuclideanSpace.real_norm_sq_eq]
      have h : (Mᵀ *ᵥ ofLp t) ⬝ᵥ (Mᵀ *ᵥ ofLp t) = ofLp t ⬝ᵥ ofLp t := by
        rw [Matrix.dotProduct_mulVec, Matrix.vecMul_transpose, Matrix.mulVec_mulVec, hM,
          Matrix.one_mulVec]
      simpa [dotProduct, pow_two] using h
    have hn' : cexp (-(‖t‖ : ℂ) ^ 2 / 2) =
        cexp (-(‖(toLp 2 (Mᵀ *ᵥ ofLp t) : EuclideanSpace ℝ ι)‖ : ℂ) ^ 2 / 2) := by
      rw [← Complex.ofReal_pow, ← Complex.ofReal_pow, hn]
    rw [hn', ← charFun_stdGaussian, ← e', charFun_apply, charFun_apply,
      integral_map (by fun_prop) (by fun_prop), integral_map (by fun_prop) (by fun_prop),
      integral_map (by fun_prop) (by fun_prop)]
    refine integral_congr_ae (Filter.Eventually.of_forall fun z => ?_)
    have hin : (⟪(toLp 2 (M *ᵥ z) : EuclideanSpace ℝ κ), t⟫ : ℝ) =
        ⟪(toLp 2 z : EuclideanSpace ℝ ι), toLp 2 (Mᵀ *ᵥ ofLp t)⟫ := by
      simp only [EuclideanSpace.inner_eq_star_dotProduct, star_trivial]
      rw [Matrix.mulVec_transpose, Matrix.dotProduct_mulVec]
    simp only [hin]
  have hback : ∀ μ : Measure (κ → ℝ),
      (μ.map (toLp 2)).map (ofLp : EuclideanSpace ℝ κ → κ → ℝ) = μ := fun μ => by
    rw [Measure.map_map (by fun_prop) (by fun_prop)]
    exact Measure.map_id
  rw [← hback ((randn ι).map _), h1, hback]

/-- Orthogonal matrices preserve the distribution. -/
theorem orth_randn [DecidableEq ι] (M : Matrix ι ι ℝ) (hM : Mᵀ * M = 1) (A : Set (ι → ℝ)) :
    randn ι {z | M *ᵥ z ∈ A} = randn ι A := by
  have h := map_randn M (mul_eq_one_comm.1 hM)
  have hc : ∀ N : Matrix ι ι ℝ, Measurable (fun z : ι → ℝ => N *ᵥ z) := fun N => by
    refine measurable_pi_iff.2 fun i => ?_
    simp only [Matrix.mulVec, dotProduct]
    fun_prop
  let e : (ι → ℝ) ≃ᵐ (ι → ℝ) :=
    { toFun := fun z => M *ᵥ z
      invFun := fun z => Mᵀ *ᵥ z
      left_inv := fun z => by simp [Matrix.mulVec_mulVec, hM]
      right_inv := fun z => by simp [Matrix.mulVec_mulVec, mul_eq_one_comm.1 hM]
      measurable_toFun := hc M
      measurable_invFun := hc Mᵀ }
  exact (MeasurePreserving.mk (f := e) (hc M) h).measure_preimage_equiv A

/-- The density depends on the length only. -/
theorem randn_density : randn ι = volume.withDensity fun z : ι → ℝ =>
    ENNReal.ofReal (∏ i, gaussianPDFReal 0 1 (z i)) := by
  refine Measure.pi_eq fun s hs => ?_
  rw [withDensity_apply _ (MeasurableSet.univ_pi hs), ← lintegral_indicator (MeasurableSet.univ_pi hs)]
  have h1 : (Set.pi Set.univ s).indicator
      (fun z : ι → ℝ => ENNReal.ofReal (∏ i, gaussianPDFReal 0 1 (z i))) =
      fun z => ENNReal.ofReal (∏ i, (s i).indicator (gaussianPDFReal 0 1) (z i)) := by
    funext z
    by_cases hz : z ∈ Set.pi Set.univ s
    · rw [Set.indicator_of_mem hz]
      congr 1
      exact Finset.prod_congr rfl fun i _ => (Set.indicator_of_mem (hz i trivial) _).symm
    · rw [Set.indicator_of_notMem hz]
      simp only [Set.mem_pi, Set.mem_univ, true_imp_iff, not_forall] at hz
      obtain ⟨i, hi⟩ := hz
      rw [Finset.prod_eq_zero (Finset.mem_univ i) (Set.indicator_of_notMem hi _), ENNReal.ofReal_zero]
  have hint : ∀ i, Integrable ((s i).indicator (gaussianPDFReal 0 1)) :=
    fun i => (integrable_gaussianPDFReal 0 1).indicator (hs i)
  have hnn : ∀ i x, 0 ≤ (s i).indicator (gaussianPDFReal 0 1) x := fun i x =>
    Set.indicator_nonneg (fun _ _ => gaussianPDFReal_nonneg 0 1 _) x
  rw [h1, volume_pi, ← ofReal_integral_eq_lintegral_ofReal (Integrable.fintype_prod hint)
    (Filter.Eventually.of_forall fun z => Finset.prod_nonneg fun i _ => hnn i _),
    integral_fintype_prod_eq_prod (f := fun i => (s i).indicator (gaussianPDFReal 0 1)),
    ENNReal.ofReal_prod_of_nonneg fun i _ => integral_nonneg (hnn i)]
  refine Finset.prod_congr rfl fun i _ => ?_
  rw [integral_indicator (hs i), gaussianReal_apply_eq_integral 0 one_ne_zero]

theorem randn_density' : randn ι = volume.withDensity fun z : ι → ℝ =>
    ENNReal.ofReal ((∏ _i : ι, (Real.sqrt (2 * Real.pi))⁻¹) * Real.exp (-(z ⬝ᵥ z) / 2)) := by
  rw [randn_density]
  congr 1
  funext z
  congr 1
  simp only [gaussianPDFReal, sub_zero, NNReal.coe_one, mul_one]
  rw [Finset.prod_mul_distrib, ← Real.exp_sum]
  congr 2
  rw [dotProduct, neg_div, Finset.sum_div, ← Finset.sum_neg_distrib]
  exact Finset.sum_congr rfl fun i _ => by ring

theorem measurable_dot : Measurable fun z : ι → ℝ => z ⬝ᵥ z := by
  simp only [dotProduct]; fun_prop

theorem ball_finite : (volume : Measure (ι → ℝ)) {z | z ⬝ᵥ z < 1} ≠ ∞ := by
  refine (lt_of_le_of_lt (measure_mono fun z (hz : z ⬝ᵥ z < 1) => ?_)
    (measure_closedBall_lt_top (x := (0 : ι → ℝ)) (r := 1))).ne
  rw [mem_closedBall_zero_iff, pi_norm_le_iff_of_nonneg zero_le_one]
  intro i
  rw [Real.norm_eq_abs, ← sq_le_one_iff_abs_le_one]
  refine le_trans ?_ hz.le
  rw [dotProduct, pow_two]
  exact Finset.single_le_sum (f := fun j => z j * z j) (fun j _ => mul_self_nonneg _)
    (Finset.mem_univ i)

/-- The probability of a cone is the fraction of the unit ball that it fills. -/
theorem randn_cone [Nonempty ι] {C : Set (ι → ℝ)} (hC : MeasurableSet C)
    (hcone : ∀ r : ℝ, 0 < r → ∀ z, r • z ∈ C ↔ z ∈ C) :
    randn ι C = volume {z | z ⬝ᵥ z < 1 ∧ z ∈ C} / volume {z : ι → ℝ | z ⬝ᵥ z < 1} := by
  obtain ⟨K, hK⟩ : ∃ K : ℝ≥0∞, ∀ C : Set (ι → ℝ), MeasurableSet C →
      (∀ r : ℝ, 0 < r → ∀ z, r • z ∈ C ↔ z ∈ C) →
      randn ι C = K * volume {z | z ⬝ᵥ z < 1 ∧ z ∈ C} := by
    refine ⟨ENNReal.ofReal (∏ _i : ι, (Real.sqrt (2 * Real.pi))⁻¹) * ∫⁻ t in Set.Ioi (0 : ℝ),
      ENNReal.ofReal (|Real.sqrt (-2 * Real.log t) ^ Module.finrank ℝ (ι → ℝ)|), ?_⟩
    intro C hC hcone
    have hc : 0 ≤ ∏ _i : ι, (Real.sqrt (2 * Real.pi))⁻¹ :=
      Finset.prod_nonneg fun _ _ => inv_nonneg.2 (Real.sqrt_nonneg _)
    rw [randn_density', withDensity_apply _ hC]
    simp only [ENNReal.ofReal_mul hc]
    have hm : Measurable fun z : ι → ℝ => Real.exp (-(z ⬝ᵥ z) / 2) :=
      Real.measurable_exp.comp (measurable_dot.neg.div_const 2)
    rw [lintegral_const_mul' _ _ ENNReal.ofReal_ne_top,
      lintegral_eq_lintegral_meas_lt _ (Filter.Eventually.of_forall fun z => (Real.exp_pos _).le)
        hm.aemeasurable,
      mul_assoc, ← lintegral_mul_const' _ _
        (ne_top_of_le_ne_top ball_finite (measure_mono fun z hz => hz.1))]
    congr 1
    refine setLIntegral_congr_fun measurableSet_Ioi fun t (ht : 0 < t) => ?_
    have hset : {a : ι → ℝ | t < Real.exp (-(a ⬝ᵥ a) / 2)} = {a | a ⬝ᵥ a < -2 * Real.log t} := by
      ext a
      simp only [Set.mem_setOf_eq]
      rw [← Real.log_lt_iff_lt_exp ht]
      constructor <;> intro h <;> linarith
    simp only [hset]
    have hms : MeasurableSet {a : ι → ℝ | a ⬝ᵥ a < -2 * Real.log t} :=
      measurable_dot measurableSet_Iio
    rw [Measure.restrict_apply hms]
    rcases le_or_gt (-2 * Real.log t) 0 with h0 | h0
    · have he : {a : ι → ℝ | a ⬝ᵥ a < -2 * Real.log t} ∩ C = ∅ := by
        refine Set.eq_empty_of_forall_notMem fun a ha => ?_
        have : 0 ≤ a ⬝ᵥ a := Finset.sum_nonneg fun i _ => mul_self_nonneg _
        exact absurd ha.1 (not_lt.2 (h0.trans this))
      rw [he, measure_empty, Real.sqrt_eq_zero_of_nonpos h0, zero_pow Module.finrank_pos.ne', abs_zero,
        ENNReal.ofReal_zero, zero_mul]
    · rw [← Measure.addHaar_smul]
      congr 1
      have hr := Real.sqrt_pos.2 h0
      have hsq := Real.mul_self_sqrt h0.le
      generalize Real.sqrt (-2 * Real.log t) = r at hr hsq
      rw [← hsq]
      ext a
      rw [Set.mem_smul_set_iff_inv_smul_mem₀ hr.ne']
      simp only [Set.mem_inter_iff, Set.mem_setOf_eq, hcone _ (inv_pos.2 hr), smul_dotProduct,
        dotProduct_smul, smul_eq_mul]
      refine and_congr_left fun _ => ?_
      rw [← mul_assoc, ← mul_inv, inv_mul_lt_iff₀ (mul_pos hr hr), mul_one]
  have h1 := hK Set.univ MeasurableSet.univ fun _ _ _ => by simp
  simp only [measure_univ, Set.mem_univ, and_true] at h1
  rw [hK C hC hcone, ENNReal.eq_inv_of_mul_eq_one_left h1.symm, mul_comm, div_eq_mul_inv]

end Geoopt.Gauss
