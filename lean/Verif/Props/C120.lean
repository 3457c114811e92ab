import Verif.Spec.Invariant
import Verif.Lemmas.Optim
import Mathlib.Probability.Independence.InfinitePi
import Mathlib.Analysis.SpecificLimits.Basic

/-!
# C120: RSGLD on normal distributions

For a target with independent normal entries, the entries of the samples of `RSGLD` are normal after
every number of steps; the means tend to those of the target, and the variances to those of the
target up to a factor `1 / (1 - epsilon / (4 * variance))`.
-/

open Geoopt Geoopt.Samplers MeasureTheory ProbabilityTheory
open scoped NNReal

namespace C120
variable {κ : Type} [Fintype κ] [DecidableEq κ] {ι : κ → Type} [∀ a, Fintype (ι a)]
  {C : Config κ ι} {f : Closure κ ι} {mean var : ∀ a, ι a → ℝ}

/-- One step on plain parameters. -/
theorem step_eq (hE : ∀ a, C.man a = Optim.euclidean (ι a)) (hn : C.order.Nodup)
    (hall : ∀ a, a ∈ C.order) (hε : ∀ a, 0 ≤ C.eps a) (hf : IsGaussian f mean var)
    (s : RSGLD κ ι) (hs : ∀ a, (s.par a).2.getD 0 = 0) (n : ∀ a, ι a → ℝ) :
    (s.step C f n).2 = none ∧ ∀ a, ((s.step C f n).1.par a).2.getD 0 = 0 ∧
      ∀ i, ((s.step C f n).1.par a).1 i = mean a i + (1 - C.eps a / (2 * var a i)) *
        ((s.par a).1 i - mean a i) + Real.sqrt (C.eps a) * n a i := by
  obtain ⟨w, hw⟩ : ∃ w : ∀ a, (ι a → ℝ) × Option (ι a → ℝ), w = fun a =>
    if f.dep a then ((s.par a).1, some ((s.par a).2.getD 0 + f.grad (fun a => (s.par a).1) a))
    else s.par a := ⟨_, rfl⟩
  have hw' : ∀ a, w a = ((s.par a).1, some (f.grad (fun a => (s.par a).1) a)) := by
    intro a
    rw [hw]
    dsimp only
    rw [if_pos (hf.dep a), hs a, zero_add]
  have hb : ∀ a, rsgldParam (C.man a) (C.eps a) (n a) (w a) =
      (((s.par a).1 + ((0.5 * C.eps a) • f.grad (fun a => (s.par a).1) a +
        Real.sqrt (C.eps a) • n a), some 0), false, none) := by
    intro a
    rw [hw' a, hE a]
    unfold rsgldParam
    rw [if_neg (not_lt.2 (hε a))]
    rfl
  have h1 := Optim.forParams_ok (fun a => rsgldParam (C.man a) (C.eps a) (n a)) C.order hn w
    fun a _ => by rw [hb a]
  obtain ⟨r, hr⟩ : ∃ r, r = Optim.forParams (fun a => rsgldParam (C.man a) (C.eps a) (n a)) C.order w :=
    ⟨_, rfl⟩
  rw [← hr] at h1
  obtain ⟨h2, h3, -⟩ := h1
  have hstep : (s.step C f n).2 = none ∧ (s.step C f n).1.par = r.1 := by
    have hr2 := hr
    rw [hw] at hr2
    unfold RSGLD.step
    dsimp only
    rw [← hr2]
    obtain ⟨r1, r2, r3⟩ := r
    dsimp only at h2
    subst h2
    dsimp only
    split_ifs <;> exact ⟨rfl, rfl⟩
  refine ⟨hstep.1, fun a => ?_⟩
  rw [hstep.2, h3 a (hall a), hb a]
  refine ⟨rfl, fun i => ?_⟩
  simp only [Pi.add_apply, Pi.smul_apply, smul_eq_mul, hf.grad]
  rw [show (0.5 : ℝ) = 1 / 2 by norm_num]
  ring

/-- The weighted sum of independent standard normal numbers is normal. -/
theorem sum_law {Ω : Type} [MeasurableSpace Ω] {P : Measure Ω} [IsProbabilityMeasure P]
    {n : ℕ → Ω → ℝ} (hm : ∀ t, Measurable (n t)) (hl : ∀ t, P.map (n t) = gaussianReal 0 1)
    (hi : iIndepFun n P) (c : ℕ → ℝ) (k : ℕ) :
    P.map (fun ω => ∑ j ∈ Finset.range k, c j * n j ω) =
      gaussianReal 0 (∑ j ∈ Finset.range k, NNReal.mk (c j ^ 2) (sq_nonneg _)) := by
  have hi' : iIndepFun (fun j ω => c j * n j ω) P :=
    hi.comp (fun j x => c j * x) fun j => measurable_const_mul (c j)
  have hm' : ∀ j, Measurable fun ω => c j * n j ω := fun j => (hm j).const_mul (c j)
  have hl' : ∀ j, P.map (fun ω => c j * n j ω) = gaussianReal 0 (NNReal.mk (c j ^ 2) (sq_nonneg _)) := by
    intro j
    have := gaussianReal_map_const_mul (μ := 0) (v := 1) (c j)
    rw [mul_zero, mul_one] at this
    rw [← this, ← hl j, Measure.map_map (measurable_const_mul _) (hm j)]
    rfl
  induction k with
  | zero => simp [gaussianReal_zero_var]
  | succ k ih =>
    have hind := hi'.indepFun_sum_range_succ hm' k
    have e : (fun ω => ∑ j ∈ Finset.range (k + 1), c j * n j ω) =
        (∑ j ∈ Finset.range k, fun ω => c j * n j ω) + fun ω => c k * n k ω := by
      funext ω
      rw [Finset.sum_range_succ, Pi.add_apply, Finset.sum_apply]
    have e' : (fun ω => ∑ j ∈ Finset.range k, c j * n j ω) =
        ∑ j ∈ Finset.range k, fun ω => c j * n j ω := by
      funext ω; rw [Finset.sum_apply]
    rw [e, gaussianReal_add_gaussianReal_of_indepFun hind (by rw [← e']; exact ih) (hl' k),
      Finset.sum_range_succ, add_zero]

theorem run_eq (hE : ∀ a, C.man a = Optim.euclidean (ι a)) (hn : C.order.Nodup)
    (hall : ∀ a, a ∈ C.order) (hε : ∀ a, 0 ≤ C.eps a) (hf : IsGaussian f mean var)
    (x₀ : ∀ a, ι a → ℝ) (noise : ℕ → ∀ a, ι a → ℝ) (t : ℕ) (a : κ) :
    ((RSGLD.run C f x₀ noise t).par a).2.getD 0 = 0 ∧
    ∀ i, ((RSGLD.run C f x₀ noise t).par a).1 i =
      mean a i + (1 - C.eps a / (2 * var a i)) ^ t * (x₀ a i - mean a i) +
      ∑ j ∈ Finset.range t, ((1 - C.eps a / (2 * var a i)) ^ (t - 1 - j) * Real.sqrt (C.eps a)) *
        noise j a i := by
  induction t generalizing a with
  | zero => exact ⟨rfl, fun i => by simp [RSGLD.run]⟩
  | succ t ih =>
    have h := (step_eq hE hn hall hε hf (RSGLD.run C f x₀ noise t) (fun a => (ih a).1) (noise t)).2 a
    refine ⟨h.1, fun i => ?_⟩
    rw [RSGLD.run, h.2 i, (ih a).2 i, Finset.sum_range_succ]
    have e : ∀ j ∈ Finset.range t,
        ((1 - C.eps a / (2 * var a i)) ^ (t + 1 - 1 - j) * Real.sqrt (C.eps a)) * noise j a i =
        (1 - C.eps a / (2 * var a i)) *
          (((1 - C.eps a / (2 * var a i)) ^ (t - 1 - j) * Real.sqrt (C.eps a)) * noise j a i) := by
      intro j hj
      have := Finset.mem_range.1 hj
      rw [show t + 1 - 1 - j = (t - 1 - j) + 1 by omega, pow_succ]
      ring
    rw [Finset.sum_congr rfl e, ← Finset.mul_sum]
    simp
    ring

end C120

/-- The variance of an entry after `t` steps with step size `ε`, if the target has variance `s`. -/
noncomputable def C120.variance (ε s : ℝ) (t : ℕ) : ℝ :=
  ε * ∑ j ∈ Finset.range t, (1 - ε / (2 * s)) ^ (2 * j)

/-- **C120** (the distribution after `t` steps).  Plain parameters, independent normal draws: no step
raises, and every entry is normally distributed after every number of steps, with mean
`m + (1 - ε / (2 s)) ^ t (x₀ - m)` and variance `ε Σ_{j<t} (1 - ε / (2 s)) ^ (2 j)`. -/
theorem C120_law {κ : Type} [Fintype κ] [DecidableEq κ] {ι : κ → Type} [∀ a, Fintype (ι a)]
    (C : Config κ ι) (f : Closure κ ι) (mean var : ∀ a, ι a → ℝ)
    (hE : ∀ a, C.man a = Optim.euclidean (ι a)) (hn : C.order.Nodup) (hall : ∀ a, a ∈ C.order)
    (hε : ∀ a, 0 ≤ C.eps a) (hf : IsGaussian f mean var) (x₀ : ∀ a, ι a → ℝ)
    {Ω : Type} [MeasurableSpace Ω] (P : Measure Ω) [IsProbabilityMeasure P]
    (noise : ℕ → Ω → ∀ a, ι a → ℝ) (hm : ∀ t, Measurable (noise t))
    (hl : ∀ t, P.map (noise t) = stdNormal ι) (hi : iIndepFun noise P) (t : ℕ) :
    (∀ ω, ((RSGLD.run C f x₀ (fun s => noise s ω) t).step C f (noise t ω)).2 = none) ∧
    ∀ a i, P.map (fun ω => ((RSGLD.run C f x₀ (fun s => noise s ω) t).par a).1 i) =
      gaussianReal (mean a i + (1 - C.eps a / (2 * var a i)) ^ t * (x₀ a i - mean a i))
        (C120.variance (C.eps a) (var a i) t).toNNReal := by
  refine ⟨fun ω => (C120.step_eq hE hn hall hε hf _
    (fun a => (C120.run_eq hE hn hall hε hf x₀ (fun s => noise s ω) t a).1) _).1, fun a i => ?_⟩
  have hev : Measurable fun x : ∀ a, ι a → ℝ => x a i :=
    (measurable_pi_apply i).comp (measurable_pi_apply a)
  have hm' : ∀ t, Measurable fun ω => noise t ω a i := fun t => hev.comp (hm t)
  have hl' : ∀ t, P.map (fun ω => noise t ω a i) = gaussianReal 0 1 := by
    intro t
    have h1 : (stdNormal ι).map (fun x => x a) = Measure.pi fun _ : ι a => gaussianReal 0 1 :=
      (measurePreserving_eval (fun a => Measure.pi fun _ : ι a => gaussianReal 0 1) a).map_eq
    have h2 : (Measure.pi fun _ : ι a => gaussianReal 0 1).map (fun x => x i) = gaussianReal 0 1 :=
      (measurePreserving_eval (fun _ : ι a => gaussianReal 0 1) i).map_eq
    rw [← h2, ← h1, ← hl t, Measure.map_map (measurable_pi_apply a) (hm t),
      Measure.map_map (measurable_pi_apply i) ((measurable_pi_apply a).comp (hm t))]
    rfl
  have hi' : iIndepFun (fun t ω => noise t ω a i) P := hi.comp (fun _ x => x a i) fun _ => hev
  obtain ⟨ρ, hρ⟩ : ∃ ρ, ρ = 1 - C.eps a / (2 * var a i) := ⟨_, rfl⟩
  have key := C120.sum_law hm' hl' hi' (fun j => ρ ^ (t - 1 - j) * Real.sqrt (C.eps a)) t
  have e : (fun ω => ((RSGLD.run C f x₀ (fun s => noise s ω) t).par a).1 i) =
      (fun y => (mean a i + ρ ^ t * (x₀ a i - mean a i)) + y) ∘ fun ω => ∑ j ∈ Finset.range t,
        (ρ ^ (t - 1 - j) * Real.sqrt (C.eps a)) * noise j ω a i := by
    funext ω
    rw [(C120.run_eq hE hn hall hε hf x₀ (fun s => noise s ω) t a).2 i, hρ]
    rfl
  rw [e, ← Measure.map_map (measurable_const_add _)
    (Finset.measurable_sum _ fun j _ => (hm' j).const_mul _), key, gaussianReal_map_const_add,
    zero_add, hρ]
  congr 1
  apply NNReal.eq
  unfold C120.variance
  rw [Real.coe_toNNReal _ (mul_nonneg (hε a) (Finset.sum_nonneg fun j _ => by
    rw [pow_mul]; exact pow_nonneg (sq_nonneg _) j))]
  rw [NNReal.coe_sum, ← hρ, Finset.mul_sum, ← Finset.sum_range_reflect]
  refine Finset.sum_congr rfl fun j hj => ?_
  have hj' := Finset.mem_range.1 hj
  show (ρ ^ (t - 1 - (t - 1 - j)) * Real.sqrt (C.eps a)) ^ 2 = C.eps a * ρ ^ (2 * j)
  rw [show t - 1 - (t - 1 - j) = j by omega, mul_pow, Real.sq_sqrt (hε a), ← pow_mul, mul_comm,
    mul_comm j 2]

/-- **C120** (the limit).  For `0 < ε < 4 s` the means tend to the mean of the target and the variances
to `s / (1 - ε / (4 s))`, which is larger than the variance `s` of the target by a relative error of
order `ε / (4 s)`. -/
theorem C120_limit (ε s x m : ℝ) (hε : 0 < ε) (hs : ε < 4 * s) :
    Filter.Tendsto (fun t : ℕ => m + (1 - ε / (2 * s)) ^ t * (x - m)) Filter.atTop (nhds m) ∧
    Filter.Tendsto (C120.variance ε s) Filter.atTop (nhds (s / (1 - ε / (4 * s)))) ∧
    s / (1 - ε / (4 * s)) - s = s * (ε / (4 * s) / (1 - ε / (4 * s))) := by
  have hs0 : 0 < s := by linarith
  have hρ : |1 - ε / (2 * s)| < 1 := by
    rw [abs_lt]
    have h1 : ε / (2 * s) < 2 := by rw [div_lt_iff₀ (by positivity)]; linarith
    have h2 : 0 < ε / (2 * s) := by positivity
    constructor <;> linarith
  have hd : 0 < 1 - ε / (4 * s) := by
    have : ε / (4 * s) < 1 := by rw [div_lt_one (by positivity)]; exact hs
    linarith
  refine ⟨?_, ?_, ?_⟩
  · have := ((tendsto_pow_atTop_nhds_zero_of_abs_lt_one hρ).mul_const (x - m)).const_add m
    simpa using this
  · have h2 : (1 - ε / (2 * s)) ^ 2 < 1 := by rw [sq_lt_one_iff_abs_lt_one]; exact hρ
    have h3 := (hasSum_geometric_of_lt_one (sq_nonneg _) h2).tendsto_sum_nat.const_mul ε
    have e : ε * (1 - (1 - ε / (2 * s)) ^ 2)⁻¹ = s / (1 - ε / (4 * s)) := by
      have e1 : 1 - (1 - ε / (2 * s)) ^ 2 = ε / s * (1 - ε / (4 * s)) := by
        field_simp; ring
      rw [e1, mul_inv, inv_div, ← mul_assoc, mul_div_cancel₀ _ hε.ne', ← div_eq_mul_inv]
    rw [e] at h3
    refine h3.congr fun t => ?_
    unfold C120.variance
    simp only [pow_mul]
  · generalize ε / (4 * s) = q at *
    field_simp
    ring

/-- **C120** (the target is not exactly invariant).  From parameters distributed according to the
target, an entry has the variance `s + ε² / (4 s)` after one step, for every step size. -/
theorem C120_step {κ : Type} [Fintype κ] [DecidableEq κ] {ι : κ → Type} [∀ a, Fintype (ι a)]
    (C : Config κ ι) (f : Closure κ ι) (mean var : ∀ a, ι a → ℝ) (hv : ∀ a i, 0 < var a i)
    (hE : ∀ a, C.man a = Optim.euclidean (ι a)) (hn : C.order.Nodup) (hall : ∀ a, a ∈ C.order)
    (hε : ∀ a, 0 ≤ C.eps a) (hf : IsGaussian f mean var)
    {Ω : Type} [MeasurableSpace Ω] (P : Measure Ω) [IsProbabilityMeasure P]
    (x noise : Ω → ∀ a, ι a → ℝ) (a : κ) (i : ι a)
    (hx : P.map (fun ω => x ω a i) = gaussianReal (mean a i) (var a i).toNNReal)
    (hl : P.map (fun ω => noise ω a i) = gaussianReal 0 1)
    (hi : IndepFun (fun ω => x ω a i) (fun ω => noise ω a i) P) :
    P.map (fun ω => ((RSGLD.run C f (x ω) (fun _ => noise ω) 1).par a).1 i) =
      gaussianReal (mean a i) (var a i + C.eps a ^ 2 / (4 * var a i)).toNNReal := by
  have hxm : AEMeasurable (fun ω => x ω a i) P := by
    by_contra h
    rw [Measure.map_of_not_aemeasurable h] at hx
    exact (IsProbabilityMeasure.ne_zero (gaussianReal (mean a i) (var a i).toNNReal)) hx.symm
  have hnm : AEMeasurable (fun ω => noise ω a i) P := by
    by_contra h
    rw [Measure.map_of_not_aemeasurable h] at hl
    exact (IsProbabilityMeasure.ne_zero (gaussianReal 0 1)) hl.symm
  obtain ⟨ρ, hρ⟩ : ∃ ρ, ρ = 1 - C.eps a / (2 * var a i) := ⟨_, rfl⟩
  have h1 : P.map (fun ω => (1 - ρ) * mean a i + ρ * x ω a i) =
      gaussianReal (mean a i) (NNReal.mk (ρ ^ 2) (sq_nonneg _) * (var a i).toNNReal) := by
    have e : (fun ω => (1 - ρ) * mean a i + ρ * x ω a i) =
        (fun y => (1 - ρ) * mean a i + y) ∘ (fun y => ρ * y) ∘ fun ω => x ω a i := rfl
    rw [e, ← AEMeasurable.map_map_of_aemeasurable (measurable_const_add _).aemeasurable
      ((measurable_const_mul ρ).comp_aemeasurable hxm),
      ← AEMeasurable.map_map_of_aemeasurable (measurable_const_mul ρ).aemeasurable hxm, hx,
      gaussianReal_map_const_mul, gaussianReal_map_const_add]
    congr 1
    ring
  have h2 : P.map (fun ω => Real.sqrt (C.eps a) * noise ω a i) =
      gaussianReal 0 (NNReal.mk (Real.sqrt (C.eps a) ^ 2) (sq_nonneg _) * 1) := by
    have e : (fun ω => Real.sqrt (C.eps a) * noise ω a i) =
        (fun y => Real.sqrt (C.eps a) * y) ∘ fun ω => noise ω a i := rfl
    rw [e, ← AEMeasurable.map_map_of_aemeasurable (measurable_const_mul _).aemeasurable hnm, hl,
      gaussianReal_map_const_mul, mul_zero]
  have h3 := gaussianReal_add_gaussianReal_of_indepFun (hi.comp
    (φ := fun y => (1 - ρ) * mean a i + ρ * y) (ψ := fun y => Real.sqrt (C.eps a) * y)
    ((measurable_const_mul ρ).const_add _) (measurable_const_mul _)) h1 h2
  have e : (fun ω => ((RSGLD.run C f (x ω) (fun _ => noise ω) 1).par a).1 i) =
      ((fun y => (1 - ρ) * mean a i + ρ * y) ∘ fun ω => x ω a i) +
        ((fun y => Real.sqrt (C.eps a) * y) ∘ fun ω => noise ω a i) := by
    funext ω
    rw [(C120.run_eq hE hn hall hε hf (x ω) (fun _ => noise ω) 1 a).2 i, ← hρ]
    simp only [pow_one, Finset.range_one, Finset.sum_singleton, Nat.sub_self, pow_zero, one_mul,
      Pi.add_apply, Function.comp]
    ring
  rw [e, h3, add_zero]
  congr 1
  apply NNReal.eq
  have hva := hv a i
  rw [Real.coe_toNNReal _ (by positivity)]
  simp only [mul_one, NNReal.coe_add, NNReal.coe_mul, NNReal.coe_mk, Real.coe_toNNReal _ hva.le,
    Real.sq_sqrt (hε a)]
  rw [hρ]
  field_simp
  ring

/-- The hypotheses are met: two plain parameters, means `1` and variances `2`. -/
example : IsGaussian (κ := Bool) (ι := fun _ => Fin 3)
    ⟨fun x => -∑ a, ∑ i, (x a i - 1) ^ 2 / (2 * 2), fun x a i => -(x a i - 1) / 2, fun _ => true⟩
    (fun _ _ => 1) (fun _ _ => 2) :=
  ⟨fun _ => rfl, fun _ _ _ => rfl, fun _ => rfl⟩

/-- Such draws exist: the coordinates of an infinite product of standard normal distributions. -/
example (κ : Type) [Fintype κ] (ι : κ → Type) [∀ a, Fintype (ι a)] :
    ∃ (P : Measure (ℕ → ∀ a, ι a → ℝ)) (noise : ℕ → (ℕ → ∀ a, ι a → ℝ) → ∀ a, ι a → ℝ),
      IsProbabilityMeasure P ∧ (∀ t, Measurable (noise t)) ∧
      (∀ t, P.map (noise t) = stdNormal ι) ∧ iIndepFun noise P := by
  have : IsProbabilityMeasure (stdNormal ι) := by unfold stdNormal; infer_instance
  refine ⟨Measure.infinitePi fun _ => stdNormal ι, fun t ω => ω t, inferInstance,
    fun t => measurable_pi_apply t, fun t => ?_, ?_⟩
  · exact (measurePreserving_eval_infinitePi (fun _ => stdNormal ι) t).map_eq
  · exact iIndepFun_infinitePi (P := fun _ : ℕ => stdNormal ι) (X := fun _ x => x)
      fun _ => measurable_id
