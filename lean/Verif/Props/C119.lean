import Verif.Props.C66
import Verif.Spec.Invariant
import Mathlib.MeasureTheory.Integral.Prod
import Mathlib.MeasureTheory.Integral.DominatedConvergence
import Mathlib.MeasureTheory.Measure.OpenPos

/-!
# C119: RHMC samples from the distribution it is given
-/

open Geoopt Geoopt.Samplers MeasureTheory ProbabilityTheory

namespace C119

/-- The logarithm of the standard normal density (up to a constant) and its gradient. -/
noncomputable def normal : Closure Unit (fun _ => Unit) :=
  ⟨fun x => -(x () ()) ^ 2 / 2, fun x _ _ => -(x () ()), fun _ => true⟩

/-- The probability of accepting `r` from `x`. -/
noncomputable def acc (x r : ℝ) : ℝ := min 1 (Real.exp (r * (4 * x - r) / 8))

/-- The new parameter. -/
noncomputable def next (z : ℝ × ℝ × ℝ) : ℝ := if acc z.1 z.2.1 ≤ z.2.2 then z.1 else z.2.1

theorem moves (x r : Unit → Unit → ℝ) (u : ℝ) (hu : u < 1) :
    rhmcMoves (C66.conf 1) normal (x, r, u) () () = next (x () (), r () (), u) := by
  have hx : x = fun _ _ => x () () := rfl
  have hr : r = fun _ _ => r () () := rfl
  generalize x () () = x0 at hx
  generalize r () () = r0 at hr
  subst hx hr
  have hH : -(-x0 ^ 2 / 2) + 0.5 * (r0 * r0) -
      (-(-r0 ^ 2 / 2) + 0.5 * ((r0 + -x0 + -(0.5 * r0)) * (r0 + -x0 + -(0.5 * r0)))) =
      r0 * (4 * x0 - r0) / 8 := by ring
  have hmax : 0 < expMax := by
    unfold expMax
    refine Real.log_pos ?_
    have : (1 : ℝ) ≤ 2 ^ 1023 := one_le_pow₀ (by norm_num)
    calc (1 : ℝ) < (2 - 1 / 2 ^ 52) * 1 := by norm_num
      _ ≤ (2 - 1 / 2 ^ 52) * 2 ^ 1023 := mul_le_mul_of_nonneg_left this (by norm_num)
  unfold rhmcMoves RHMC.step
  simp [contents, propose, refresh, leap, lastKick, backward, leakedEps, C66.conf, normal, at',
    Optim.euclidean, kinetic, next, restore]
  rw [hH]
  unfold acc
  split_ifs with h1 h2 h3 h3 h3
  · exfalso
    rw [min_eq_left (Real.one_le_exp (hmax.trans h1).le)] at h2
    linarith
  · simp
  · rfl
  · exact absurd (min_le_iff.2 (by assumption)) h3
  · exact absurd (min_le_iff.1 h3) (by assumption)
  · simp

/-! ### The acceptance probability -/

theorem acc_nonneg (x r : ℝ) : 0 ≤ acc x r := le_min zero_le_one (Real.exp_pos _).le

theorem acc_le_one (x r : ℝ) : acc x r ≤ 1 := min_le_left _ _

theorem continuous_acc : Continuous fun z : ℝ × ℝ => acc z.1 z.2 := by
  unfold acc; fun_prop

/-- The probability that a proposal `y` is accepted. -/
noncomputable def inn (y : ℝ) : ℝ := ∫ x, acc x y ∂gaussianReal 0 1

/-- The probability that a proposal from `y` is accepted. -/
noncomputable def out (y : ℝ) : ℝ := ∫ r, acc y r ∂gaussianReal 0 1

theorem continuous_inn : Continuous inn := by
  refine continuous_of_dominated (bound := fun _ => 1) ?_ ?_ (integrable_const _) ?_
  · intro y
    exact (continuous_acc.comp (Continuous.prodMk continuous_id continuous_const)).aestronglyMeasurable
  · intro y
    exact Filter.Eventually.of_forall fun x => by
      rw [Real.norm_of_nonneg (acc_nonneg _ _)]; exact acc_le_one _ _
  · exact Filter.Eventually.of_forall fun x =>
      continuous_acc.comp (Continuous.prodMk continuous_const continuous_id)

theorem continuous_out : Continuous out := by
  refine continuous_of_dominated (bound := fun _ => 1) ?_ ?_ (integrable_const _) ?_
  · intro y
    exact (continuous_acc.comp (Continuous.prodMk continuous_const continuous_id)).aestronglyMeasurable
  · intro y
    exact Filter.Eventually.of_forall fun x => by
      rw [Real.norm_of_nonneg (acc_nonneg _ _)]; exact acc_le_one _ _
  · exact Filter.Eventually.of_forall fun x =>
      continuous_acc.comp (Continuous.prodMk continuous_id continuous_const)

instance : (gaussianReal 0 1).IsOpenPosMeasure :=
  (gaussianReal_absolutelyContinuous' 0 one_ne_zero).isOpenPosMeasure

theorem integrable_of {α : Type*} [MeasurableSpace α] {μ : Measure α} [IsFiniteMeasure μ]
    {g : α → ℝ} (hg : AEStronglyMeasurable g μ) (C : ℝ) (h : ∀ x, |g x| ≤ C) : Integrable g μ :=
  Integrable.of_bound hg C (Filter.Eventually.of_forall fun x => by simpa using h x)

theorem out_zero : out 0 < 1 := by
  have h : ∀ r, acc 0 r = Real.exp (-(r ^ 2) / 8) := by
    intro r
    unfold acc
    rw [min_eq_right (Real.exp_le_one_iff.2 (by nlinarith [sq_nonneg r]))]
    congr 1; ring
  have hc : Continuous fun r => acc 0 r :=
    continuous_acc.comp (Continuous.prodMk continuous_const continuous_id)
  have hi : Integrable (fun r => acc 0 r) (gaussianReal 0 1) :=
    integrable_of hc.aestronglyMeasurable 1 fun r => by
      rw [abs_of_nonneg (acc_nonneg _ _)]; exact acc_le_one _ _
  by_contra hcon
  have h1 : out 0 ≤ 1 := by
    refine (integral_mono hi (integrable_const 1) fun r => acc_le_one 0 r).trans ?_
    simp
  have h2 : ∫ r, (1 - acc 0 r) ∂gaussianReal 0 1 = 0 := by
    rw [integral_sub (integrable_const 1) hi]
    have : out 0 = 1 := le_antisymm h1 (not_lt.1 hcon)
    unfold out at this
    rw [this]; simp
  have h3 := (integral_eq_zero_iff_of_nonneg (fun r => sub_nonneg.2 (acc_le_one 0 r))
    ((integrable_const 1).sub hi)).1 h2
  have h4 := (Continuous.ae_eq_iff_eq (gaussianReal 0 1) (continuous_const.sub hc)
    continuous_const).1 h3
  have h5 : 1 - acc 0 1 = 0 := congrFun h4 1
  rw [h, sub_eq_zero, eq_comm, Real.exp_eq_one_iff] at h5
  norm_num at h5

theorem inn_zero : inn 0 = 1 := by
  have : ∀ x, acc x 0 = 1 := fun x => by simp [acc]
  simp [inn, this]

/-! ### The mean of a function of the new parameter -/

theorem mean_u (a p q : ℝ) (h0 : 0 ≤ a) (h1 : a ≤ 1) :
    ∫ u, (if a ≤ u then p else q) ∂uniform01 = p + (q - p) * a := by
  have e : (fun u => if a ≤ u then p else q) =
      fun u => p + (Set.Iio a).indicator (fun _ => q - p) u := by
    funext u
    by_cases h : a ≤ u
    · rw [if_pos h, Set.indicator_of_notMem (by simpa using h), add_zero]
    · rw [if_neg h, Set.indicator_of_mem (by simpa using h)]; ring
  have hp : IsProbabilityMeasure uniform01 := ⟨by simp [uniform01]⟩
  rw [e, integral_add (integrable_const _) ((integrable_const _).indicator measurableSet_Iio),
    integral_const, integral_indicator measurableSet_Iio, setIntegral_const]
  have : uniform01.real (Set.Iio a) = a := by
    rw [uniform01, measureReal_restrict_apply measurableSet_Iio]
    have : Set.Iio a ∩ Set.Ico 0 1 = Set.Ico 0 a := by
      ext u; simp only [Set.mem_inter_iff, Set.mem_Iio, Set.mem_Ico]
      constructor
      · rintro ⟨h, h', _⟩; exact ⟨h', h⟩
      · rintro ⟨h, h'⟩; exact ⟨h', h, h'.trans_le h1⟩
    rw [this, Real.volume_real_Ico_of_le h0, sub_zero]
  rw [this]
  simp
  ring

instance : IsProbabilityMeasure uniform01 := ⟨by simp [uniform01]⟩

theorem measurable_next : Measurable next := by
  unfold next
  refine Measurable.ite (measurableSet_le ?_ ?_) ?_ ?_
  · exact continuous_acc.measurable.comp (measurable_fst.prodMk (measurable_fst.comp measurable_snd))
  · exact measurable_snd.comp measurable_snd
  · exact measurable_fst
  · exact measurable_fst.comp measurable_snd

theorem mean_next {D : ℝ → ℝ} (hD : Continuous D) (C : ℝ) (hC : ∀ x, |D x| ≤ C) :
    ∫ z, D (next z) ∂((gaussianReal 0 1).prod ((gaussianReal 0 1).prod uniform01)) =
      (∫ x, D x ∂gaussianReal 0 1) + ∫ y, D y * (inn y - out y) ∂gaussianReal 0 1 := by
  have hi : Integrable (fun z => D (next z))
      ((gaussianReal 0 1).prod ((gaussianReal 0 1).prod uniform01)) :=
    integrable_of (hD.measurable.comp measurable_next).aestronglyMeasurable C fun z => hC _
  have hacc : ∀ x r, |acc x r| ≤ 1 := fun x r => by
    rw [abs_of_nonneg (acc_nonneg _ _)]; exact acc_le_one _ _
  have hC0 : 0 ≤ C := (abs_nonneg _).trans (hC 0)
  have iD : Integrable D (gaussianReal 0 1) := integrable_of hD.aestronglyMeasurable C hC
  have i1 : Integrable (fun z : ℝ × ℝ => D z.2 * acc z.1 z.2)
      ((gaussianReal 0 1).prod (gaussianReal 0 1)) :=
    integrable_of ((hD.comp continuous_snd).mul continuous_acc).aestronglyMeasurable C fun z => by
      rw [abs_mul]
      exact (mul_le_mul (hC _) (hacc _ _) (abs_nonneg _) hC0).trans (mul_one C).le
  have i2 : Integrable (fun z : ℝ × ℝ => D z.1 * acc z.1 z.2)
      ((gaussianReal 0 1).prod (gaussianReal 0 1)) :=
    integrable_of ((hD.comp continuous_fst).mul continuous_acc).aestronglyMeasurable C fun z => by
      rw [abs_mul]
      exact (mul_le_mul (hC _) (hacc _ _) (abs_nonneg _) hC0).trans (mul_one C).le
  have i0 : Integrable (fun z : ℝ × ℝ => D z.1) ((gaussianReal 0 1).prod (gaussianReal 0 1)) :=
    integrable_of (hD.comp continuous_fst).aestronglyMeasurable C fun z => hC _
  have hinn : ∀ y, |inn y| ≤ 1 := fun y => by
    have := norm_integral_le_of_norm_le_const (μ := gaussianReal 0 1) (f := fun x => acc x y) (C := 1)
      (Filter.Eventually.of_forall fun x => by simpa using hacc x y)
    simpa [inn] using this
  have hout : ∀ y, |out y| ≤ 1 := fun y => by
    have := norm_integral_le_of_norm_le_const (μ := gaussianReal 0 1) (f := fun r => acc y r) (C := 1)
      (Filter.Eventually.of_forall fun x => by simpa using hacc y x)
    simpa [out] using this
  have j1 : Integrable (fun y => D y * inn y) (gaussianReal 0 1) :=
    integrable_of (hD.mul continuous_inn).aestronglyMeasurable C fun z => by
      rw [abs_mul]
      exact (mul_le_mul (hC _) (hinn _) (abs_nonneg _) hC0).trans (mul_one C).le
  have j2 : Integrable (fun y => D y * out y) (gaussianReal 0 1) :=
    integrable_of (hD.mul continuous_out).aestronglyMeasurable C fun z => by
      rw [abs_mul]
      exact (mul_le_mul (hC _) (hout _) (abs_nonneg _) hC0).trans (mul_one C).le
  have i3 : Integrable (fun z : ℝ × ℝ => D z.2 * acc z.1 z.2 - D z.1 * acc z.1 z.2)
      ((gaussianReal 0 1).prod (gaussianReal 0 1)) := i1.sub i2
  have i4 : Integrable (fun z : ℝ × ℝ => D z.1 + (D z.2 * acc z.1 z.2 - D z.1 * acc z.1 z.2))
      ((gaussianReal 0 1).prod (gaussianReal 0 1)) := i0.add i3
  have e1 : ∫ z, D (next z) ∂((gaussianReal 0 1).prod ((gaussianReal 0 1).prod uniform01)) =
      ∫ z, (D z.1 + (D z.2 * acc z.1 z.2 - D z.1 * acc z.1 z.2))
        ∂((gaussianReal 0 1).prod (gaussianReal 0 1)) := by
    rw [integral_prod _ hi, integral_prod _ i4]
    refine integral_congr_ae ?_
    filter_upwards [hi.prod_right_ae] with x hx
    rw [integral_prod _ hx]
    refine integral_congr_ae (Filter.Eventually.of_forall fun r => ?_)
    have := mean_u (acc x r) (D x) (D r) (acc_nonneg _ _) (acc_le_one _ _)
    have e : (fun u => D (next (x, r, u))) = fun u => if acc x r ≤ u then D x else D r := by
      funext u; unfold next; split_ifs <;> rfl
    show ∫ u, D (next (x, r, u)) ∂uniform01 = _
    rw [e, this]
    show _ = D x + (D r * acc x r - D x * acc x r)
    ring
  rw [e1, integral_add i0 i3, integral_sub i1 i2, integral_prod _ i0,
    integral_prod_symm _ i1, integral_prod _ i2]
  have e2 : ∫ y, D y * (inn y - out y) ∂gaussianReal 0 1 =
      (∫ y, D y * inn y ∂gaussianReal 0 1) - ∫ y, D y * out y ∂gaussianReal 0 1 := by
    rw [← integral_sub j1 j2]
    exact integral_congr_ae (Filter.Eventually.of_forall fun y => by ring)
  rw [e2]
  congr 1
  · simp
  · congr 1
    · exact integral_congr_ae (Filter.Eventually.of_forall fun y =>
        integral_const_mul (D y) fun x => acc x y)
    · exact integral_congr_ae (Filter.Eventually.of_forall fun y =>
        integral_const_mul (D y) fun r => acc y r)

/-! ### From the real line to the parameters of the sampler -/

/-- The value of the only entry of the only parameter. -/
def entry (x : Unit → Unit → ℝ) : ℝ := x () ()

theorem measurable_entry : Measurable entry :=
  (measurable_pi_apply ()).comp (measurable_pi_apply ())

theorem entry_volume : MeasurePreserving entry volume volume :=
  (volume_preserving_funUnique Unit ℝ).comp (volume_preserving_funUnique Unit (Unit → ℝ))

theorem entry_normal : MeasurePreserving entry (stdNormal fun _ : Unit => Unit) (gaussianReal 0 1) :=
  (measurePreserving_funUnique (gaussianReal 0 1) Unit).comp
    (measurePreserving_funUnique (Measure.pi fun _ : Unit => gaussianReal 0 1) Unit)

theorem entry_target :
    (target normal).map entry = ENNReal.ofReal (Real.sqrt (2 * Real.pi)) • gaussianReal 0 1 := by
  have hpos : 0 < Real.sqrt (2 * Real.pi) := Real.sqrt_pos.2 (by positivity)
  have h1 : (target normal).map entry =
      volume.withDensity fun x => ENNReal.ofReal (Real.exp (-x ^ 2 / 2)) := by
    ext s hs
    rw [Measure.map_apply measurable_entry hs, target, withDensity_apply _ (measurable_entry hs),
      withDensity_apply _ hs, ← entry_volume.setLIntegral_comp_preimage hs (by fun_prop)]
    rfl
  rw [h1, gaussianReal_of_var_ne_zero 0 one_ne_zero,
    ← withDensity_smul _ (measurable_gaussianPDF 0 1)]
  congr 1
  funext x
  rw [Pi.smul_apply, smul_eq_mul, gaussianPDF, gaussianPDFReal, ← ENNReal.ofReal_mul hpos.le]
  congr 1
  simp only [NNReal.coe_one, mul_one, sub_zero]
  rw [← mul_assoc, mul_inv_cancel₀ hpos.ne', one_mul]

theorem moves_ae (μ : Measure (Unit → Unit → ℝ)) [SFinite μ] :
    rhmcMoves (C66.conf 1) normal =ᵐ[μ.prod ((stdNormal fun _ : Unit => Unit).prod uniform01)]
      fun z _ _ => next (entry z.1, entry z.2.1, z.2.2) := by
  have h : ∀ᵐ u ∂uniform01, u < 1 := by
    unfold uniform01
    exact (ae_restrict_mem measurableSet_Ico).mono fun u hu => hu.2
  have h2 : ∀ᵐ z ∂(μ.prod ((stdNormal fun _ : Unit => Unit).prod uniform01)), z.2.2 < 1 :=
    Measure.quasiMeasurePreserving_snd.ae (Measure.quasiMeasurePreserving_snd.ae h)
  filter_upwards [h2] with z hz
  funext a b
  exact moves z.1 z.2.1 z.2.2 hz

end C119

/-- **C119 is false.**  For the standard normal distribution on the line, step size `1` and one
leapfrog step, `RHMC` does not sample from the distribution it is given: parameters distributed
according to it are not distributed according to it after a step.  (The first update of the momentum
is a full step, see C66, so that the acceptance probability corrects for the wrong proposal.)  The
first clause says that the distribution after the step is meaningful. -/
theorem C119_counterexample_normal :
    AEMeasurable (rhmcMoves (C66.conf 1) C119.normal)
      ((target C119.normal).prod ((stdNormal fun _ : Unit => Unit).prod uniform01)) ∧
    ¬ SamplesTarget (C66.conf 1) C119.normal := by
  have hs : SFinite (target C119.normal) := by unfold target; infer_instance
  have hs' : SFinite (stdNormal fun _ : Unit => Unit) := by unfold stdNormal; infer_instance
  set T := target C119.normal with hT
  set S := stdNormal fun _ : Unit => Unit with hS
  have hae := C119.moves_ae T
  have hm : Measurable fun (z : (Unit → Unit → ℝ) × (Unit → Unit → ℝ) × ℝ) (_ : Unit) (_ : Unit) =>
      C119.next (C119.entry z.1, C119.entry z.2.1, z.2.2) := by
    refine measurable_pi_lambda _ fun _ => measurable_pi_lambda _ fun _ => ?_
    exact C119.measurable_next.comp ((C119.measurable_entry.comp measurable_fst).prodMk
      ((C119.measurable_entry.comp (measurable_fst.comp measurable_snd)).prodMk
        (measurable_snd.comp measurable_snd)))
  have ham : AEMeasurable (rhmcMoves (C66.conf 1) C119.normal) (T.prod (S.prod uniform01)) :=
    hm.aemeasurable.congr hae.symm
  refine ⟨ham, fun ⟨_, hinv⟩ => ?_⟩
  obtain ⟨D, hDdef⟩ : ∃ D : ℝ → ℝ, D = fun y => C119.inn y - C119.out y := ⟨_, rfl⟩
  have hD : Continuous D := by rw [hDdef]; exact C119.continuous_inn.sub C119.continuous_out
  have b01 : ∀ g : ℝ → ℝ, (∀ x, 0 ≤ g x) → (∀ x, g x ≤ 1) →
      0 ≤ ∫ x, g x ∂gaussianReal 0 1 ∧ ∫ x, g x ∂gaussianReal 0 1 ≤ 1 := by
    intro g h0 h1
    refine ⟨integral_nonneg h0, ?_⟩
    have := norm_integral_le_of_norm_le_const (μ := gaussianReal 0 1) (f := g) (C := 1)
      (Filter.Eventually.of_forall fun x => by
        rw [Real.norm_of_nonneg (h0 x)]; exact h1 x)
    simpa using (le_abs_self _).trans this
  have hC : ∀ x, |D x| ≤ 1 := by
    intro y
    have h1 := b01 (fun x => C119.acc x y) (fun _ => C119.acc_nonneg _ _) fun _ => C119.acc_le_one _ _
    have h2 := b01 (fun r => C119.acc y r) (fun _ => C119.acc_nonneg _ _) fun _ => C119.acc_le_one _ _
    have h3 : D y = C119.inn y - C119.out y := by rw [hDdef]
    rw [h3, abs_le]
    unfold C119.inn C119.out
    constructor <;> linarith [h1.1, h1.2, h2.1, h2.2]
  have hE := C119.entry_target
  rw [← hT] at hE
  set K := ENNReal.ofReal (Real.sqrt (2 * Real.pi)) with hK
  have hK0 : K.toReal ≠ 0 := by
    rw [hK, ENNReal.toReal_ofReal (Real.sqrt_nonneg _)]
    exact (Real.sqrt_pos.2 (by positivity)).ne'
  -- the mean of `D` of the new parameter, in two ways
  have w1 : ∫ z, D (C119.entry (rhmcMoves (C66.conf 1) C119.normal z)) ∂(T.prod (S.prod uniform01)) =
      K.toReal * ∫ x, D x ∂gaussianReal 0 1 := by
    have h1 : ∫ y, D (C119.entry y) ∂((T.prod (S.prod uniform01)).map
        (rhmcMoves (C66.conf 1) C119.normal)) = ∫ z, D (C119.entry
          (rhmcMoves (C66.conf 1) C119.normal z)) ∂(T.prod (S.prod uniform01)) :=
      integral_map ham (hD.measurable.comp C119.measurable_entry).aestronglyMeasurable
    rw [← h1, hinv]
    have h2 : ∫ x, D x ∂(T.map C119.entry) = ∫ y, D (C119.entry y) ∂T :=
      integral_map C119.measurable_entry.aemeasurable hD.aestronglyMeasurable
    rw [← h2, hE, integral_smul_measure, smul_eq_mul]
  have w2 : ∫ z, D (C119.entry (rhmcMoves (C66.conf 1) C119.normal z)) ∂(T.prod (S.prod uniform01)) =
      K.toReal * ∫ z, D (C119.next z)
        ∂((gaussianReal 0 1).prod ((gaussianReal 0 1).prod uniform01)) := by
    have h1 : ∫ z, D (C119.entry (rhmcMoves (C66.conf 1) C119.normal z)) ∂(T.prod (S.prod uniform01)) =
        ∫ z, D (C119.next (Prod.map C119.entry (Prod.map C119.entry id) z))
          ∂(T.prod (S.prod uniform01)) := by
      refine integral_congr_ae ?_
      filter_upwards [hae] with z hz
      rw [hz]
      rfl
    have h2 : (T.prod (S.prod uniform01)).map (Prod.map C119.entry (Prod.map C119.entry id)) =
        (K • gaussianReal 0 1).prod ((gaussianReal 0 1).prod uniform01) := by
      rw [← Measure.map_prod_map _ _ C119.measurable_entry
        (C119.measurable_entry.prodMap measurable_id),
        ← Measure.map_prod_map _ _ C119.measurable_entry measurable_id, hE, Measure.map_id,
        C119.entry_normal.map_eq]
    have h3 : ∫ z, D (C119.next z) ∂((T.prod (S.prod uniform01)).map
        (Prod.map C119.entry (Prod.map C119.entry id))) =
        ∫ z, D (C119.next (Prod.map C119.entry (Prod.map C119.entry id) z))
          ∂(T.prod (S.prod uniform01)) :=
      integral_map (C119.measurable_entry.prodMap
        (C119.measurable_entry.prodMap measurable_id)).aemeasurable
        (hD.measurable.comp C119.measurable_next).aestronglyMeasurable
    rw [h1, ← h3, h2, Measure.prod_smul_left, integral_smul_measure, smul_eq_mul]
  have h1 := C119.mean_next hD 1 hC
  have h2 : ∫ y, D y * (C119.inn y - C119.out y) ∂gaussianReal 0 1 = 0 := by
    have := mul_left_cancel₀ hK0 (w1.symm.trans w2)
    linarith
  have h3 : ∫ y, D y ^ 2 ∂gaussianReal 0 1 = 0 := by
    have e : (fun y => D y ^ 2) = fun y => D y * (C119.inn y - C119.out y) := by
      funext y
      simp only [hDdef]; ring
    rw [e]; exact h2
  have hsq : Integrable (fun y => D y ^ 2) (gaussianReal 0 1) :=
    C119.integrable_of (hD.pow 2).aestronglyMeasurable 1 fun y => by
      rw [abs_pow]; exact pow_le_one₀ (abs_nonneg _) (hC y)
  have h4 := (integral_eq_zero_iff_of_nonneg (fun y => sq_nonneg (D y)) hsq).1 h3
  have h5 := congrFun ((Continuous.ae_eq_iff_eq (gaussianReal 0 1) (hD.pow 2)
    continuous_const).1 h4) 0
  have h6 : D 0 = 0 := pow_eq_zero_iff (two_ne_zero) |>.1 h5
  rw [hDdef] at h6
  have := C119.out_zero
  simp only [C119.inn_zero] at h6
  linarith

namespace C119
variable {κ : Type} [Fintype κ] {ι : κ → Type} [∀ a, Fintype (ι a)] {C : Config κ ι} {f : Closure κ ι}

theorem free_euclid {ι : Type} (ε : ℝ) (n : ℕ) (q : (ι → ℝ) × (ι → ℝ)) :
    (C66.free (Optim.euclidean ι) ε)^[n] q = (q.1 + (n * ε) • q.2, q.2) := by
  induction n with
  | zero => simp
  | succ n ih =>
    rw [Function.iterate_succ_apply', ih]
    simp only [C66.free, Optim.euclidean, Prod.mk.injEq, and_true]
    push_cast
    rw [add_assoc, ← add_smul]
    congr 2; ring

theorem kinetic_is {w : ∀ a, Par (ι a)} {q : ∀ a, (ι a → ℝ) × (ι a → ℝ)}
    (h : ∀ a, C66.Is (w a) (q a)) :
    kinetic w = ∑ a, 0.5 * ∑ i, (q a).2 i * (q a).2 i := by
  unfold kinetic
  refine Finset.sum_congr rfl fun a _ => ?_
  obtain ⟨_, h2, m, h3, h4⟩ := h a
  rw [h2, h3, ← h4]

theorem flat_moves (hE : ∀ a, C.man a = Optim.euclidean (ι a)) (hdep : ∀ a, f.dep a = true)
    (hf : ∀ x a, f.grad x a = 0) {c : ℝ} (hc : ∀ x, f.logp x = c)
    (x noise : ∀ a, ι a → ℝ) (u : ℝ) (hu : u < 1) :
    rhmcMoves C f (x, noise, u) =
      x + fun a => ((C.nSteps - 1 + 1 : ℕ) * C.eps a) • noise a := by
  have h0 : ∀ a x, ((C.man a).egrad2rgrad x 0).value = 0 := by
    intro a x; rw [hE a]; rfl
  have hr : ∀ a, ((C.man a).egrad2rgrad (x a) (noise a)).value = noise a := by
    intro a; rw [hE a]; rfl
  have h1 : ∀ a, C66.Is (refresh (C.man a) (noise a) (backward f (at' x) a)) (x a, noise a) := by
    intro a
    unfold backward
    rw [if_pos (hdep a)]
    refine ⟨rfl, ?_, _, rfl, hr a⟩
    simp [refresh, at', hf]
  have h2 : ∀ a, C66.Is ((propose C f noise (backward f (at' x))).2 a)
      (x a + ((C.nSteps - 1 + 1 : ℕ) * C.eps a) • noise a, noise a) := by
    intro a
    have := C66.propose_is (C := C) hdep hf h0 x noise a
    rwa [hr a, hE a, free_euclid] at this
  have hH : -f.logp (contents (at' x)) + kinetic (propose C f noise (backward f (at' x))).1 -
      (-f.logp (contents (propose C f noise (backward f (at' x))).2) +
        kinetic (propose C f noise (backward f (at' x))).2) = 0 := by
    rw [hc, hc, kinetic_is h2, show kinetic (propose C f noise (backward f (at' x))).1 = _ from
      kinetic_is h1]
    ring
  have hmax : ¬ expMax < 0 := by
    unfold expMax
    refine not_lt.2 (Real.log_nonneg ?_)
    have : (1 : ℝ) ≤ 2 ^ 1023 := one_le_pow₀ (by norm_num)
    calc (1 : ℝ) ≤ (2 - 1 / 2 ^ 52) * 1 := by norm_num
      _ ≤ (2 - 1 / 2 ^ 52) * 2 ^ 1023 := mul_le_mul_of_nonneg_left this (by norm_num)
  have hcont : contents (propose C f noise (backward f (at' x))).2 =
      x + fun a => ((C.nSteps - 1 + 1 : ℕ) * C.eps a) • noise a := by
    funext a
    exact (h2 a).1
  unfold rhmcMoves RHMC.step
  simp only [hH, if_neg hmax, Real.exp_zero, min_self, if_neg (not_le.2 hu)]
  exact hcont

end C119

/-- **C119, the part that holds.**  For any number of plain parameters (or parameters on `Euclidean`
manifolds), any step sizes and any number of leapfrog steps: if the log-probability is constant, so
that the momenta are not updated at all, a step keeps the target distribution. -/
theorem C119_flat_partial {κ : Type} [Fintype κ] {ι : κ → Type} [∀ a, Fintype (ι a)]
    (C : Config κ ι) (f : Closure κ ι) (hE : ∀ a, C.man a = Optim.euclidean (ι a))
    (hdep : ∀ a, f.dep a = true) (hf : ∀ x a, f.grad x a = 0) (c : ℝ) (hc : ∀ x, f.logp x = c) :
    SamplesTarget C f := by
  obtain ⟨T, hT⟩ : ∃ T : (∀ a, ι a → ℝ) → ∀ a, ι a → ℝ,
      T = fun n a => ((C.nSteps - 1 + 1 : ℕ) * C.eps a) • n a := ⟨_, rfl⟩
  have hTm : Measurable T := by
    rw [hT]
    exact measurable_pi_lambda _ fun a =>
      (measurable_pi_apply a).const_smul (((C.nSteps - 1 + 1 : ℕ) : ℝ) * C.eps a)
  have ht : target f = ENNReal.ofReal (Real.exp c) • volume := by
    simp only [target, hc, withDensity_const]
  have hs : SFinite (target f) := by unfold target; infer_instance
  have hs' : IsProbabilityMeasure (stdNormal ι) := by unfold stdNormal; infer_instance
  have hu : ∀ᵐ u ∂uniform01, u < 1 := by
    unfold uniform01
    exact (ae_restrict_mem measurableSet_Ico).mono fun u hu => hu.2
  have hae : rhmcMoves C f =ᵐ[(target f).prod ((stdNormal ι).prod uniform01)]
      fun z => z.1 + T z.2.1 := by
    have h2 : ∀ᵐ z ∂((target f).prod ((stdNormal ι).prod uniform01)), z.2.2 < 1 :=
      Measure.quasiMeasurePreserving_snd.ae (Measure.quasiMeasurePreserving_snd.ae hu)
    filter_upwards [h2] with z hz
    rw [hT]
    exact C119.flat_moves hE hdep hf hc z.1 z.2.1 z.2.2 hz
  have hm : Measurable fun z : (∀ a, ι a → ℝ) × (∀ a, ι a → ℝ) × ℝ => z.1 + T z.2.1 :=
    measurable_fst.add (hTm.comp (measurable_fst.comp measurable_snd))
  refine ⟨hm.aemeasurable.congr hae.symm, ?_⟩
  rw [Measure.map_congr hae]
  ext s hsm
  rw [Measure.map_apply hm hsm, Measure.prod_apply_symm (hm hsm)]
  have : ∀ y : (∀ a, ι a → ℝ) × ℝ, (target f) ((fun x => (x, y)) ⁻¹'
      ((fun z : (∀ a, ι a → ℝ) × (∀ a, ι a → ℝ) × ℝ => z.1 + T z.2.1) ⁻¹' s)) = target f s := by
    intro y
    rw [ht, Measure.smul_apply, Measure.smul_apply]
    congr 1
    exact measure_preimage_add_right volume (T y.1) s
  simp only [this, lintegral_const, measure_univ, mul_one]

/-- Two parameters with different step sizes and a constant log-probability. -/
example : SamplesTarget (κ := Bool) (ι := fun _ => Fin 3)
    ⟨fun _ => Optim.euclidean _, fun b => if b then 0.1 else 0.2, [true, false], 5⟩
    ⟨fun _ => 0, fun _ _ _ => 0, fun _ => true⟩ :=
  C119_flat_partial _ _ (fun _ => rfl) (fun _ => rfl) (fun _ _ => rfl) 0 fun _ => rfl

namespace C119
variable {κ : Type} [Fintype κ] {ι : κ → Type} [∀ a, Fintype (ι a)] {C : Config κ ι} {f : Closure κ ι}

/-- Momentum and position update of one leapfrog step. -/
def leapAll (eps : κ → ℝ) (g : (∀ a, ι a → ℝ) → ∀ a, ι a → ℝ)
    (z : (∀ a, ι a → ℝ) × (∀ a, ι a → ℝ)) : (∀ a, ι a → ℝ) × (∀ a, ι a → ℝ) :=
  (z.1 + fun a => eps a • (z.2 a + eps a • g z.1 a), fun a => z.2 a + eps a • g z.1 a)

theorem leap_state {ι : Type} (ε : ℝ) {p : Par ι} {x r g : ι → ℝ} (h1 : p.point = x)
    (h2 : p.grad = some g) (h3 : ∃ m, p.mom = some m ∧ m.r = r) :
    C66.Is (leap (Optim.euclidean ι) ε p) (x + ε • (r + ε • g), r + ε • g) := by
  obtain ⟨m, h3, h4⟩ := h3
  unfold leap
  rw [h2, h3]
  dsimp only [Optim.euclidean]
  rw [h1, h4]
  exact ⟨rfl, rfl, _, rfl, rfl⟩

theorem round_state (hE : ∀ a, C.man a = Optim.euclidean (ι a)) (hdep : ∀ a, f.dep a = true)
    {w : ∀ a, Par (ι a)} {z : (∀ a, ι a → ℝ) × (∀ a, ι a → ℝ)}
    (h : ∀ a, C66.Is (w a) (z.1 a, z.2 a)) (a : κ) :
    C66.Is (roundOf C f w a) ((leapAll C.eps f.grad z).1 a, (leapAll C.eps f.grad z).2 a) := by
  have hx : contents w = z.1 := funext fun a => (h a).1
  unfold roundOf
  rw [hE a]
  refine leap_state (C.eps a) ?_ ?_ ?_
  · unfold backward; rw [if_pos (hdep a)]; exact (h a).1
  · unfold backward; rw [if_pos (hdep a)]; simp [(h a).2.1, hx]
  · unfold backward; rw [if_pos (hdep a)]; exact (h a).2.2

theorem trajectory_eq (hE : ∀ a, C.man a = Optim.euclidean (ι a)) (hdep : ∀ a, f.dep a = true)
    (z : (∀ a, ι a → ℝ) × (∀ a, ι a → ℝ)) :
    trajectory C f z =
      (fun q : (∀ a, ι a → ℝ) × (∀ a, ι a → ℝ) => (q.1, q.2 + fun a =>
        (0.5 * ((C.order.getLast?.map C.eps).getD 0)) • f.grad q.1 a))
        ((leapAll C.eps f.grad)^[C.nSteps - 1 + 1] z) := by
  have hl : leakedEps C (backward f (at' z.1)) = (C.order.getLast?.map C.eps).getD 0 := by
    unfold leakedEps
    rw [List.filter_eq_self.2]
    intro a _
    simp [backward, hdep a]
  have h2 : ∀ a, C66.Is (leap (C.man a) (C.eps a) (refresh (C.man a) (z.2 a)
      (backward f (at' z.1) a))) ((leapAll C.eps f.grad z).1 a, (leapAll C.eps f.grad z).2 a) := by
    intro a
    rw [hE a]
    refine leap_state (C.eps a) ?_ ?_ ?_
    · unfold backward; rw [if_pos (hdep a)]; rfl
    · unfold backward; rw [if_pos (hdep a)]
      simp only [refresh, at', Option.getD_none, zero_add]
      rfl
    · unfold backward; rw [if_pos (hdep a)]; exact ⟨_, rfl, rfl⟩
  have h3 : ∀ n {w : ∀ a, Par (ι a)} {z : (∀ a, ι a → ℝ) × (∀ a, ι a → ℝ)},
      (∀ a, C66.Is (w a) (z.1 a, z.2 a)) → ∀ a, C66.Is ((roundOf C f)^[n] w a)
        (((leapAll C.eps f.grad)^[n] z).1 a, ((leapAll C.eps f.grad)^[n] z).2 a) := by
    intro n
    induction n with
    | zero => intro w z h; exact h
    | succ n ih =>
      intro w z h a
      rw [Function.iterate_succ_apply, Function.iterate_succ_apply]
      exact ih (fun a => round_state hE hdep h a) a
  have h4 := h3 (C.nSteps - 1) h2
  rw [← Function.iterate_succ_apply] at h4
  obtain ⟨q, hq⟩ : ∃ q, q = (leapAll C.eps f.grad)^[C.nSteps - 1 + 1] z := ⟨_, rfl⟩
  obtain ⟨w, hw⟩ : ∃ w, w = (roundOf C f)^[C.nSteps - 1] (fun a => leap (C.man a) (C.eps a)
    (refresh (C.man a) (z.2 a) (backward f (at' z.1) a))) := ⟨_, rfl⟩
  have h5 : ∀ a, C66.Is (w a) (q.1 a, q.2 a) := by rw [hw, hq]; exact h4
  have hp : (propose C f z.2 (backward f (at' z.1))).2 =
      fun a => lastKick (C.man a) ((C.order.getLast?.map C.eps).getD 0) (backward f w a) := by
    rw [← hl, hw]; rfl
  have hx : contents w = q.1 := funext fun a => (h5 a).1
  rw [← hq]
  unfold trajectory
  rw [hp]
  refine Prod.ext ?_ ?_
  · funext a
    obtain ⟨e1, e2, m, e3, e4⟩ := h5 a
    simp only [contents, lastKick, backward, hdep a, if_true, e3]
    exact e1
  · funext a
    obtain ⟨e1, e2, m, e3, e4⟩ := h5 a
    have e4' : m.r = q.2 a := e4
    simp only [momentum, lastKick, backward, hdep a, if_true, e3, e2, hE a, Optim.euclidean,
      Option.getD_some, zero_add, e4', hx]
    rfl

theorem shear_snd {g : (∀ a, ι a → ℝ) → ∀ a, ι a → ℝ} (hg : Measurable g) :
    MeasurePreserving (fun q : (∀ a, ι a → ℝ) × (∀ a, ι a → ℝ) => (q.1, q.2 + g q.1))
      (volume.prod volume) (volume.prod volume) :=
  (MeasurePreserving.id volume).skew_product (g := fun x r => r + g x)
    (measurable_snd.add (hg.comp measurable_fst))
    (Filter.Eventually.of_forall fun x => (measurePreserving_add_right volume (g x)).map_eq)

theorem shear_fst {g : (∀ a, ι a → ℝ) → ∀ a, ι a → ℝ} (hg : Measurable g) :
    MeasurePreserving (fun q : (∀ a, ι a → ℝ) × (∀ a, ι a → ℝ) => (q.1 + g q.2, q.2))
      (volume.prod volume) (volume.prod volume) :=
  (Measure.measurePreserving_swap.comp (shear_snd hg)).comp Measure.measurePreserving_swap

theorem scaled_measurable (c : κ → ℝ) {g : (∀ a, ι a → ℝ) → ∀ a, ι a → ℝ} (hg : Measurable g) :
    Measurable fun x a => c a • g x a :=
  measurable_pi_lambda _ fun a => ((measurable_pi_apply a).comp hg).const_smul (c a)

end C119

/-- **C119** (phase space volume).  For any number of plain parameters, any step sizes, any number of
leapfrog steps and any measurable gradient, the trajectory from parameters and momenta to the
proposal and its momenta preserves volume, so that no Jacobian is missing in the acceptance
probability. -/
theorem C119_volume {κ : Type} [Fintype κ] {ι : κ → Type} [∀ a, Fintype (ι a)]
    (C : Config κ ι) (f : Closure κ ι) (hE : ∀ a, C.man a = Optim.euclidean (ι a))
    (hdep : ∀ a, f.dep a = true) (hf : Measurable f.grad) :
    MeasurePreserving (trajectory C f) (volume.prod volume) (volume.prod volume) := by
  have h1 : MeasurePreserving (C119.leapAll C.eps f.grad) (volume.prod volume)
      (volume.prod volume) :=
    (C119.shear_fst (C119.scaled_measurable C.eps measurable_id)).comp
      (C119.shear_snd (C119.scaled_measurable C.eps hf))
  have h2 := (C119.shear_snd (C119.scaled_measurable
    (fun _ => 0.5 * ((C.order.getLast?.map C.eps).getD 0)) hf)).comp (h1.iterate (C.nSteps - 1 + 1))
  have e : trajectory C f = _ := funext (C119.trajectory_eq hE hdep)
  rw [e]
  exact h2

/-- The hypotheses hold for the standard normal distribution of the counterexample. -/
example : MeasurePreserving (trajectory (C66.conf 1) C119.normal) (volume.prod volume)
    (volume.prod volume) := by
  refine C119_volume _ _ (fun _ => rfl) (fun _ => rfl) ?_
  exact measurable_pi_lambda _ fun _ => measurable_pi_lambda _ fun _ =>
    C119.measurable_entry.neg
