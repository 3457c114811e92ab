import Verif.Spec.Samplers
import Mathlib.Tactic.NormNum
import Mathlib.Algebra.BigOperators.Field
import Mathlib.Tactic.Linarith
import Mathlib.Tactic.FieldSimp
import Mathlib.Tactic.Positivity
import Mathlib.Analysis.SpecialFunctions.Log.Basic
import Mathlib.Analysis.Complex.ExponentialBounds

/-!
# C65, C67: the bookkeeping of the samplers
-/

open Geoopt Geoopt.Samplers

namespace C65

variable {κ : Type} {ι : κ → Type} {C : Config κ ι} {f : Closure κ ι}

/-- Along a trajectory a parameter without gradient is left alone, the others remember where they and
their momenta started. -/
def Remembers {ι : Type} (p₀ : Par ι) (r₀ : ι → ℝ) (p : Par ι) : Prop :=
  (p₀.grad = none ∧ p = p₀) ∨
  (p₀.grad ≠ none ∧ p.grad ≠ none ∧ ∃ m, p.mom = some m ∧ m.oldP = p₀.point ∧ m.oldR = r₀)

theorem remembers_refresh {ι : Type} (M : Optim.Manifold ι) (noise : ι → ℝ) (p : Par ι) :
    Remembers p (M.egrad2rgrad p.point noise).value (refresh M noise p) := by
  unfold refresh
  cases hg : p.grad with
  | none => exact Or.inl ⟨hg, rfl⟩
  | some g => exact Or.inr ⟨by simp [hg], by simp [hg], _, rfl, rfl, rfl⟩

theorem remembers_leap {ι : Type} {M : Optim.Manifold ι} {ε : ℝ} {p₀ : Par ι} {r₀ : ι → ℝ} {p : Par ι}
    (h : Remembers p₀ r₀ p) : Remembers p₀ r₀ (leap M ε p) := by
  rcases h with ⟨h1, rfl⟩ | ⟨h1, h2, m, hm, h3, h4⟩
  · refine Or.inl ⟨h1, ?_⟩
    unfold leap; rw [h1]
  · obtain ⟨g, hg⟩ := Option.ne_none_iff_exists'.1 h2
    refine Or.inr ⟨h1, ?_, ?_⟩
    · unfold leap; rw [hg, hm]; simp
    · unfold leap; rw [hg, hm]; exact ⟨_, rfl, h3, h4⟩

theorem remembers_lastKick {ι : Type} {M : Optim.Manifold ι} {ε : ℝ} {p₀ : Par ι} {r₀ : ι → ℝ}
    {p : Par ι} (h : Remembers p₀ r₀ p) : Remembers p₀ r₀ (lastKick M ε p) := by
  rcases h with ⟨h1, rfl⟩ | ⟨h1, h2, m, hm, h3, h4⟩
  · refine Or.inl ⟨h1, ?_⟩
    unfold lastKick; rw [h1]
  · obtain ⟨g, hg⟩ := Option.ne_none_iff_exists'.1 h2
    refine Or.inr ⟨h1, ?_, ?_⟩
    · unfold lastKick; rw [hg, hm]; simp
    · unfold lastKick; rw [hg, hm]; exact ⟨_, rfl, h3, h4⟩

theorem remembers_backward {w₀ w : ∀ a, Par (ι a)} {r₀ : ∀ a, ι a → ℝ}
    (hdep : ∀ a, f.dep a = true → (w₀ a).grad ≠ none)
    (h : ∀ a, Remembers (w₀ a) (r₀ a) (w a)) (a : κ) :
    Remembers (w₀ a) (r₀ a) (backward f w a) := by
  unfold backward
  split_ifs with hd
  · rcases h a with ⟨h1, -⟩ | ⟨h1, h2, m, hm, h3⟩
    · exact absurd h1 (hdep a hd)
    · exact Or.inr ⟨h1, by simp, m, hm, h3⟩
  · exact h a

theorem backward_point (w : ∀ a, Par (ι a)) (a : κ) : (backward f w a).point = (w a).point := by
  unfold backward; split_ifs <;> rfl

theorem backward_dep (w : ∀ a, Par (ι a)) (a : κ) (h : f.dep a = true) :
    (backward f w a).grad ≠ none := by
  unfold backward; rw [if_pos h]; simp

theorem remembers_rounds {w₀ : ∀ a, Par (ι a)} {r₀ : ∀ a, ι a → ℝ}
    (hdep : ∀ a, f.dep a = true → (w₀ a).grad ≠ none) (n : ℕ) : ∀ w : ∀ a, Par (ι a),
    (∀ a, Remembers (w₀ a) (r₀ a) (w a)) →
    ∀ a, Remembers (w₀ a) (r₀ a) ((roundOf C f)^[n] w a) := by
  induction n with
  | zero => intro w h; exact h
  | succ n ih =>
    intro w h
    rw [Function.iterate_succ_apply]
    exact ih _ fun a => remembers_leap (remembers_backward hdep h a)

/-- The proposal remembers the start. -/
theorem remembers_propose (noise : ∀ a, ι a → ℝ) (w : ∀ a, Par (ι a))
    (hdep : ∀ a, f.dep a = true → (w a).grad ≠ none) (a : κ) :
    Remembers (w a) ((C.man a).egrad2rgrad (w a).point (noise a)).value
      ((propose C f noise w).2 a) :=
  remembers_lastKick (remembers_backward hdep (remembers_rounds hdep _ _ fun a =>
    remembers_leap (remembers_refresh _ _ _)) a)

theorem restore_point {ι : Type} {p₀ p : Par ι} {r₀ : ι → ℝ} (h : Remembers p₀ r₀ p) :
    (restore p).point = p₀.point := by
  rcases h with ⟨h1, rfl⟩ | ⟨h1, h2, m, hm, h3, h4⟩
  · unfold restore; rw [h1]
  · obtain ⟨g, hg⟩ := Option.ne_none_iff_exists'.1 h2
    unfold restore; rw [hg, hm]; exact h3

theorem restore_mom {ι : Type} {p₀ p : Par ι} {r₀ : ι → ℝ} (h : Remembers p₀ r₀ p)
    (hg : p₀.grad ≠ none) : ∃ m, (restore p).mom = some m ∧ m.r = r₀ := by
  rcases h with ⟨h1, rfl⟩ | ⟨h1, h2, m, hm, h3, h4⟩
  · exact absurd h1 hg
  · obtain ⟨g, hg⟩ := Option.ne_none_iff_exists'.1 h2
    unfold restore; rw [hg, hm]; exact ⟨_, rfl, h4⟩

/-- The state after drawing the momenta has the old parameters. -/
theorem propose_start (noise : ∀ a, ι a → ℝ) (w : ∀ a, Par (ι a)) :
    contents (propose C f noise (backward f w)).1 = contents w := by
  funext a
  simp only [contents, propose]
  unfold refresh
  split <;> exact backward_point w a

theorem energy_eq [Fintype κ] [∀ a, Fintype (ι a)] (f : Closure κ ι) (w : ∀ a, Par (ι a)) :
    energy f w = -f.logp (contents w) + kinetic w := by
  unfold energy kinetic
  rw [Finset.sum_div]
  congr 1
  refine Finset.sum_congr rfl fun a _ => ?_
  rw [← inv_mul_eq_div, show (2⁻¹ : ℝ) = 0.5 by norm_num]
  rcases hg : (w a).grad with _ | g <;> rcases hm : (w a).mom with _ | m <;>
    simp [momentum, hg, hm, pow_two]

end C65

section
variable {κ : Type} [Fintype κ] {ι : κ → Type} [∀ a, Fintype (ι a)]
variable (C : Config κ ι) (f : Closure κ ι)

/-- One step is a Metropolis step: it compares `u` with `min(1, exp(H_old - H_new))`, which is in (0, 1];
on rejection every parameter gets back exactly its old value, otherwise it gets the proposal; the
log-probability recorded is the one at the values that the parameters now have. -/
theorem C65_step_partial (noise : ∀ a, ι a → ℝ) (u : ℝ) (s s' : RHMC κ ι)
    (h : s.step C f noise u = (s', none)) :
    ∃ rho, 0 < rho ∧ rho ≤ 1 ∧
      rho = min 1 (Real.exp (energy f (propose C f noise (backward f s.par)).1 -
        energy f (propose C f noise (backward f s.par)).2)) ∧
      (rho ≤ u → contents s'.par = contents s.par ∧
        s'.nRejected = if s.burnin then s.nRejected else s.nRejected + 1) ∧
      (u < rho → contents s'.par = contents (propose C f noise (backward f s.par)).2 ∧
        s'.nRejected = s.nRejected) ∧
      s'.logProbs = s.logProbs ++ [f.logp (contents s'.par)] ∧
      s'.burnin = s.burnin ∧
      (s.burnin = true → s'.steps = s.steps ∧ s'.acceptanceProbs = s.acceptanceProbs) ∧
      (s.burnin = false → s'.steps = s.steps + 1 ∧
        s'.acceptanceProbs = s.acceptanceProbs ++ [rho]) := by
  have hen : energy f (propose C f noise (backward f s.par)).1 =
      -f.logp (contents s.par) + kinetic (propose C f noise (backward f s.par)).1 := by
    rw [C65.energy_eq, C65.propose_start]
  have hres : contents (fun a => restore ((propose C f noise (backward f s.par)).2 a)) =
      contents s.par := by
    funext a
    exact (C65.restore_point (C65.remembers_propose noise _ (C65.backward_dep s.par) a)).trans
      (C65.backward_point s.par a)
  refine ⟨_, lt_min one_pos (Real.exp_pos _), min_le_left _ _, rfl, ?_⟩
  rw [hen, C65.energy_eq]
  unfold RHMC.step at h
  dsimp only at h
  change (if expMax < -f.logp (contents s.par) + kinetic (propose C f noise (backward f s.par)).1 -
    (-f.logp (contents (propose C f noise (backward f s.par)).2) +
      kinetic (propose C f noise (backward f s.par)).2) then _ else _) = _ at h
  split_ifs at h with h1 h2 h3 h3
  · simp at h
  all_goals
    simp only [Prod.mk.injEq, and_true] at h
    subst h
  · refine ⟨fun _ => ⟨hres, by simp [h3]⟩, fun hu => absurd h2 (not_le.2 hu), ?_, rfl,
      fun _ => ⟨rfl, rfl⟩, fun hb => absurd (h3.symm.trans hb) (by simp)⟩
    dsimp only; rw [hres]
  · refine ⟨fun _ => ⟨hres, by simp [h3]⟩, fun hu => absurd h2 (not_le.2 hu), ?_, rfl,
      fun hb => absurd hb h3, fun _ => ⟨rfl, rfl⟩⟩
    dsimp only; rw [hres]
  · exact ⟨fun hu => absurd hu h2, fun _ => ⟨rfl, rfl⟩, rfl, rfl, fun _ => ⟨rfl, rfl⟩,
      fun hb => absurd (h3.symm.trans hb) (by simp)⟩
  · exact ⟨fun hu => absurd hu h2, fun _ => ⟨rfl, rfl⟩, rfl, rfl, fun hb => absurd hb h3,
      fun _ => ⟨rfl, rfl⟩⟩

/-- A step raises, with `OverflowError`, exactly when the energy decreases by more than the logarithm of
the largest floating point number. -/
theorem C65_raises (noise : ∀ a, ι a → ℝ) (u : ℝ) (s : RHMC κ ι) :
    ((s.step C f noise u).2 = none ∨ (s.step C f noise u).2 = some .overflowError) ∧
    ((s.step C f noise u).2 = some .overflowError ↔
      expMax < energy f (propose C f noise (backward f s.par)).1 -
        energy f (propose C f noise (backward f s.par)).2) := by
  have hen : energy f (propose C f noise (backward f s.par)).1 =
      -f.logp (contents s.par) + kinetic (propose C f noise (backward f s.par)).1 := by
    rw [C65.energy_eq, C65.propose_start]
  rw [hen, C65.energy_eq]
  unfold RHMC.step
  dsimp only
  by_cases h1 : expMax < -f.logp (contents s.par) + kinetic (propose C f noise (backward f s.par)).1 -
    (-f.logp (contents (propose C f noise (backward f s.par)).2) +
      kinetic (propose C f noise (backward f s.par)).2)
  · rw [if_pos (show expMax < _ - (_ + _) from h1)]
    exact ⟨Or.inr rfl, fun _ => h1, fun _ => rfl⟩
  · rw [if_neg (show ¬ expMax < _ - (_ + _) from h1)]
    split_ifs <;> exact ⟨Or.inl rfl, by simp, fun h => absurd h h1⟩

/-- Over every history: the counters are consistent, the rejection rate and all recorded acceptance
probabilities are between 0 and 1, and there is one recorded log-probability for every step that
returned. -/
theorem C65_history {s : RHMC κ ι} {n : ℕ} (h : RHMC.Reach C s n) :
    s.nRejected ≤ s.steps ∧ s.steps ≤ n ∧ s.logProbs.length = n ∧
    s.acceptanceProbs.length = s.steps ∧ (∀ rho ∈ s.acceptanceProbs, 0 < rho ∧ rho ≤ 1) ∧
    0 ≤ rejectionRate s ∧ rejectionRate s ≤ 1 := by
  have key : s.nRejected ≤ s.steps ∧ s.steps ≤ n ∧ s.logProbs.length = n ∧
      s.acceptanceProbs.length = s.steps ∧ (∀ rho ∈ s.acceptanceProbs, 0 < rho ∧ rho ≤ 1) := by
    induction h with
    | start w => simp
    | user w b _ ih => exact ih
    | @step s n f noise u _ ih =>
      obtain ⟨i1, i2, i3, i4, i5⟩ := ih
      rcases (C65_raises C f noise u s).1 with h0 | h0
      · rw [if_pos h0]
        obtain ⟨rho, p1, p2, -, p3, p4, p5, -, p6, p7⟩ :=
          C65_step_partial C f noise u s (s.step C f noise u).1 (Prod.ext rfl h0)
        rw [p5]
        cases hb : s.burnin with
        | true =>
          obtain ⟨q1, q2⟩ := p6 hb
          have hn : (s.step C f noise u).1.nRejected = s.nRejected := by
            rcases le_or_gt rho u with hu | hu
            · rw [(p3 hu).2, if_pos hb]
            · exact (p4 hu).2
          rw [q1, q2, hn]
          exact ⟨i1, by omega, by simp [i3], i4, i5⟩
        | false =>
          obtain ⟨q1, q2⟩ := p7 hb
          have hn : (s.step C f noise u).1.nRejected ≤ s.nRejected + 1 := by
            rcases le_or_gt rho u with hu | hu
            · rw [(p3 hu).2, if_neg (by simp [hb])]
            · rw [(p4 hu).2]; omega
          rw [q1, q2]
          refine ⟨by omega, by omega, by simp [i3], by simp [i4], ?_⟩
          intro r hr
          rcases List.mem_append.1 hr with hr | hr
          · exact i5 r hr
          · rw [List.mem_singleton.1 hr]; exact ⟨p1, p2⟩
      · rw [if_neg (by rw [h0]; simp)]
        have : (s.step C f noise u).1 =
            { s with par := (propose C f noise (backward f s.par)).2 } := by
          have h1 := (C65_raises C f noise u s).2.1 h0
          rw [C65.energy_eq, C65.energy_eq, C65.propose_start] at h1
          unfold RHMC.step
          dsimp only
          rw [if_pos h1]
        rw [this]
        exact ⟨i1, i2, i3, i4, i5⟩
  refine ⟨key.1, key.2.1, key.2.2.1, key.2.2.2.1, key.2.2.2.2, ?_, ?_⟩
  · unfold rejectionRate
    split_ifs
    · positivity
    · exact le_refl _
  · unfold rejectionRate
    split_ifs with h0
    · rw [div_le_one (by exact_mod_cast h0)]
      exact_mod_cast key.1
    · exact zero_le_one

end

/-! ### The counterexample: a good proposal makes `step` raise -/

namespace C65

/-- `logp(x) = 1000 (3x² - 2x³)`, one real parameter. -/
noncomputable def cubic : Closure Unit (fun _ => Unit) :=
  ⟨fun x => 1000 * (3 * x () () ^ 2 - 2 * x () () ^ 3),
   fun x _ _ => 1000 * (6 * x () () - 6 * x () () ^ 2), fun _ => true⟩

/-- Step size 1, one step. -/
def one : Config Unit (fun _ => Unit) := ⟨fun _ => Optim.euclidean Unit, fun _ => 1, [()], 1⟩

theorem expMax_lt : expMax < 1000 := by
  unfold expMax
  have h1 : Real.log ((2 - 1 / 2 ^ 52) * 2 ^ 1023) < Real.log (2 ^ 1024) := by
    apply Real.log_lt_log
    · norm_num
    · have : (2 : ℝ) ^ 1024 = 2 * 2 ^ 1023 := by rw [← pow_succ']
      rw [this]
      have h2 : (0 : ℝ) < 2 ^ 1023 := by positivity
      exact mul_lt_mul_of_pos_right (by norm_num) h2
  have h2 : Real.log (2 ^ 1024) = 1024 * Real.log 2 := by
    rw [Real.log_pow]; norm_num
  have h3 := Real.log_two_lt_d9
  linarith

end C65

/-- On a flat target a step returns, with acceptance probability 1: from 0 with momentum 3 to 3. -/
example (u : ℝ) (hu : u < 1) :
    let s : RHMC Unit fun _ => Unit := { par := fun _ => { point := 0 }, burnin := false }
    ∃ s', s.step C65.one ⟨fun _ => 7, fun _ _ => 0, fun _ => true⟩ (fun _ _ => 3) u = (s', none) ∧
      contents s'.par = (fun _ _ => 3) ∧ s'.acceptanceProbs = [1] ∧ s'.logProbs = [7] := by
  intro s
  have h1 : ¬ expMax < 0 := not_lt.2 (by
    unfold expMax
    refine Real.log_nonneg ?_
    have : (1 : ℝ) ≤ 2 ^ 1023 := one_le_pow₀ (by norm_num)
    exact this.trans (le_mul_of_one_le_left (by positivity) (by norm_num)))
  refine ⟨_, Prod.ext rfl ?_, ?_, ?_, ?_⟩ <;>
  · unfold RHMC.step
    simp [s, contents, kinetic, propose, refresh, leap, lastKick, backward, leakedEps, C65.one,
      Optim.euclidean, h1, not_le.2 hu]
    try rfl

/-- From `x = 0` with momentum 1 the proposal is `x = 1`, a much more probable point; instead of
accepting it the step raises `OverflowError`, records nothing, and leaves the parameter at the proposal.
This is outside of burn-in. -/
theorem C65_counterexample_overflow (u : ℝ) :
    let s : RHMC Unit fun _ => Unit := { par := fun _ => { point := 0 }, burnin := false }
    (s.step C65.one C65.cubic (fun _ _ => 1) u).2 = some .overflowError ∧
    (s.step C65.one C65.cubic (fun _ _ => 1) u).1.logProbs = [] ∧
    (s.step C65.one C65.cubic (fun _ _ => 1) u).1.steps = 0 ∧
    contents (s.step C65.one C65.cubic (fun _ _ => 1) u).1.par = fun _ _ => 1 := by
  intro s
  have h1 : expMax < 1000 := C65.expMax_lt
  have h : s.step C65.one C65.cubic (fun _ _ => 1) u =
      ({ s with par := (propose C65.one C65.cubic (fun _ _ => 1) (backward C65.cubic s.par)).2 },
        some .overflowError) := by
    unfold RHMC.step
    dsimp only
    rw [if_pos]
    simp [s, contents, kinetic, propose, refresh, leap, lastKick, backward, leakedEps, C65.one,
      C65.cubic, Optim.euclidean]
    norm_num
    linarith
  rw [h]
  refine ⟨rfl, rfl, rfl, ?_⟩
  funext a i
  simp [s, contents, propose, refresh, leap, lastKick, backward, leakedEps, C65.one, C65.cubic,
    Optim.euclidean]
