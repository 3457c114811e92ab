import Verif.Spec.Langevin
import Verif.Props.C120

/-!
# C125: SGRHMC on normal distributions

For a target with independent normal entries, every entry of the parameters is normal after every number
of calls of `SGRHMC.step`, with explicit mean and variance.  With more and more rounds per call the
variance tends to that of the target up to a factor that tends to 1 with the step size, if `epsilon` is
less than `alpha` times the variance of the target; otherwise it grows beyond all bounds.  With a fixed
number of rounds per call, and many calls, the variance is too small: `alpha` times that of the target
for the default `n_steps=1` and small steps.
-/

open Geoopt Geoopt.Samplers MeasureTheory ProbabilityTheory
open scoped NNReal

namespace C125
variable {κ : Type} [DecidableEq κ] {ι : κ → Type}
  {C : Config κ ι} {f : Closure κ ι} {mean var : ∀ a, ι a → ℝ}

theorem drift_succ (α b : ℝ) (t : ℕ) :
    drift α b (t + 1) = decay α b t + (1 - α) * drift α b t := by
  unfold decay; ring

theorem decay_succ (α b : ℝ) (t : ℕ) : decay α b (t + 1) = decay α b t - b * drift α b t := by
  unfold decay
  rw [drift]
  ring

section Rounds
variable [Fintype κ] [∀ a, Fintype (ι a)]

/-- One round on plain parameters. -/
theorem round_eq (hE : ∀ a, C.man a = Optim.euclidean (ι a)) (hn : C.order.Nodup)
    (hall : ∀ a, a ∈ C.order) (α : κ → ℝ) (hε : ∀ a, 0 ≤ 2 * α a * C.eps a)
    (hf : IsGaussian f mean var) (n : ∀ a, ι a → ℝ) (ns : List (∀ a, ι a → ℝ)) (l : Option ℝ)
    (w : ∀ a, VPar (ι a)) (hw : ∀ a, (w a).grad.getD 0 = 0) :
    ∃ w' : ∀ a, VPar (ι a), ∃ l', sgrhmcRounds C α f (n :: ns) l w = sgrhmcRounds C α f ns l' w' ∧
      ∀ a, (w' a).grad.getD 0 = 0 ∧ (∀ i, (w' a).point i = (w a).point i + (w a).v i) ∧
        ∀ i, (w' a).v i = (1 - α a) * (w a).v i - C.eps a / var a i * ((w a).point i - mean a i) +
          Real.sqrt (2 * α a * C.eps a) * n a i := by
  obtain ⟨x, hx⟩ : ∃ x : ∀ a, ι a → ℝ, x = fun a => (w a).point := ⟨_, rfl⟩
  obtain ⟨w1, hw1⟩ : ∃ w1 : ∀ a, VPar (ι a), w1 = fun a =>
    if f.dep a then { w a with grad := some ((w a).grad.getD 0 + f.grad x a) } else w a := ⟨_, rfl⟩
  have hw1' : ∀ a, w1 a = ⟨(w a).point, some (f.grad x a), (w a).v⟩ := by
    intro a
    rw [hw1]
    dsimp only
    rw [if_pos (hf.dep a), hw a, zero_add]
  have hb : ∀ a, sgrhmcParam (C.man a) (C.eps a) (α a) (n a) (w1 a) =
      (⟨(w a).point + (w a).v, some 0, (1 - α a) • (w a).v + C.eps a • f.grad x a +
        Real.sqrt (2 * α a * C.eps a) • n a⟩, false, none) := by
    intro a
    rw [hw1' a, hE a]
    unfold sgrhmcParam
    simp only [Optim.euclidean]
    rw [if_neg (not_lt.2 (hε a))]
  have h1 := Optim.forParams_ok (fun a => sgrhmcParam (C.man a) (C.eps a) (α a) (n a)) C.order hn w1
    fun a _ => by rw [hb a]
  obtain ⟨r, hr⟩ : ∃ r, r = Optim.forParams
    (fun a => sgrhmcParam (C.man a) (C.eps a) (α a) (n a)) C.order w1 := ⟨_, rfl⟩
  rw [← hr] at h1
  obtain ⟨h2, h3, -⟩ := h1
  refine ⟨r.1, some (f.logp x), ?_, fun a => ?_⟩
  · rw [sgrhmcRounds]
    have hr2 := hr
    rw [hw1, hx] at hr2
    dsimp only
    rw [← hr2]
    obtain ⟨r1, r2, r3⟩ := r
    dsimp only at h2
    subst h2
    rw [hx]
  · rw [h3 a (hall a), hb a]
    refine ⟨rfl, fun i => rfl, fun i => ?_⟩
    simp only [Pi.add_apply, Pi.smul_apply, smul_eq_mul, hf.grad, hx]
    ring

/-- All rounds of a call. -/
theorem rounds_eq (hE : ∀ a, C.man a = Optim.euclidean (ι a)) (hn : C.order.Nodup)
    (hall : ∀ a, a ∈ C.order) (α : κ → ℝ) (hε : ∀ a, 0 ≤ 2 * α a * C.eps a)
    (hf : IsGaussian f mean var) (N : ℕ) (n : ℕ → ∀ a, ι a → ℝ) (l : Option ℝ)
    (w : ∀ a, VPar (ι a)) (hw : ∀ a, (w a).grad.getD 0 = 0) :
    (sgrhmcRounds C α f ((List.range N).map n) l w).2.2 = none ∧
    (∀ a, ((sgrhmcRounds C α f ((List.range N).map n) l w).1 a).grad.getD 0 = 0) ∧
    ∀ a i, ((sgrhmcRounds C α f ((List.range N).map n) l w).1 a).point i =
      mean a i + decay (α a) (C.eps a / var a i) N * ((w a).point i - mean a i) +
      drift (α a) (C.eps a / var a i) N * (w a).v i +
      ∑ j ∈ Finset.range N, (drift (α a) (C.eps a / var a i) (N - 1 - j) *
        Real.sqrt (2 * α a * C.eps a)) * n j a i := by
  induction N generalizing n l w with
  | zero =>
    refine ⟨rfl, hw, fun a i => ?_⟩
    simp [sgrhmcRounds, decay, drift]
  | succ N ih =>
    obtain ⟨w', l', h1, h2⟩ := round_eq hE hn hall α hε hf (n 0)
      ((List.range N).map fun j => n (j + 1)) l w hw
    have hl : (List.range (N + 1)).map n = n 0 :: (List.range N).map fun j => n (j + 1) := by
      rw [List.range_succ_eq_map]
      simp
    obtain ⟨h3, h5, h4⟩ := ih (fun j => n (j + 1)) l' w' fun a => (h2 a).1
    rw [hl, h1]
    refine ⟨h3, h5, fun a i => ?_⟩
    rw [h4 a i, (h2 a).2.1 i, (h2 a).2.2 i, Finset.sum_range_succ', decay_succ, drift_succ]
    have e : ∀ j ∈ Finset.range N, (drift (α a) (C.eps a / var a i) (N + 1 - 1 - (j + 1)) *
        Real.sqrt (2 * α a * C.eps a)) * n (j + 1) a i =
        (drift (α a) (C.eps a / var a i) (N - 1 - j) *
        Real.sqrt (2 * α a * C.eps a)) * n (j + 1) a i := by
      intro j _
      rw [show N + 1 - 1 - (j + 1) = N - 1 - j by omega]
    rw [Finset.sum_congr rfl e, show N + 1 - 1 - 0 = N by omega]
    ring

/-- How a random tensor of a call acts on the parameters at its end. -/
noncomputable def coef (ε α b : ℝ) (N j : ℕ) : ℝ :=
  if j = 0 then drift α b N * ε else drift α b (N - j) * Real.sqrt (2 * α * ε)

/-- One call. -/
theorem call_eq (hE : ∀ a, C.man a = Optim.euclidean (ι a)) (hn : C.order.Nodup)
    (hall : ∀ a, a ∈ C.order) (α : κ → ℝ) (hε : ∀ a, 0 ≤ 2 * α a * C.eps a)
    (hf : IsGaussian f mean var) (s : SGRHMC κ ι) (hs : ∀ a, (s.par a).grad.getD 0 = 0) (N : ℕ)
    (draw : ℕ → ∀ a, ι a → ℝ) :
    (SGRHMC.step C α f (draw 0) ((List.range N).map fun j => draw (j + 1)) s).2 = none ∧
    (∀ a, ((SGRHMC.step C α f (draw 0) ((List.range N).map fun j => draw (j + 1)) s).1.par a).grad.getD
      0 = 0) ∧
    ∀ a i, ((SGRHMC.step C α f (draw 0) ((List.range N).map fun j => draw (j + 1)) s).1.par a).point i =
      mean a i + decay (α a) (C.eps a / var a i) N * ((s.par a).point i - mean a i) +
      ∑ j ∈ Finset.range (N + 1), coef (C.eps a) (α a) (C.eps a / var a i) N j * draw j a i := by
  obtain ⟨w, hw⟩ : ∃ w : ∀ a, VPar (ι a), w = fun a => { s.par a with v := C.eps a • draw 0 a } :=
    ⟨_, rfl⟩
  obtain ⟨h1, h5, h2⟩ := rounds_eq hE hn hall α hε hf N (fun j => draw (j + 1)) none w
    (fun a => by rw [hw]; exact hs a)
  have hstep : (SGRHMC.step C α f (draw 0) ((List.range N).map fun j => draw (j + 1)) s).2 = none ∧
      (SGRHMC.step C α f (draw 0) ((List.range N).map fun j => draw (j + 1)) s).1.par =
      (sgrhmcRounds C α f ((List.range N).map fun j => draw (j + 1)) none w).1 := by
    unfold SGRHMC.step
    rw [hw] at h1 ⊢
    dsimp only at h1 ⊢
    rcases hr : sgrhmcRounds C α f ((List.range N).map fun j => draw (j + 1)) none
      (fun a => { s.par a with v := C.eps a • draw 0 a }) with ⟨w', l, e⟩
    rw [hr] at h1
    dsimp only at h1
    subst h1
    dsimp only
    split_ifs <;> exact ⟨rfl, rfl⟩
  refine ⟨hstep.1, by rw [hstep.2]; exact h5, fun a i => ?_⟩
  rw [hstep.2, h2 a i, Finset.sum_range_succ' _ N, hw]
  have e : ∀ j ∈ Finset.range N, coef (C.eps a) (α a) (C.eps a / var a i) N (j + 1) *
      draw (j + 1) a i =
      (drift (α a) (C.eps a / var a i) (N - 1 - j) *
        Real.sqrt (2 * α a * C.eps a)) * draw (j + 1) a i := by
    intro j _
    rw [coef, if_neg (Nat.succ_ne_zero j), show N - (j + 1) = N - 1 - j by omega]
  rw [Finset.sum_congr rfl e, coef, if_pos rfl]
  simp only [Pi.smul_apply, smul_eq_mul]
  ring

/-- Any number of calls. -/
theorem run_eq (hE : ∀ a, C.man a = Optim.euclidean (ι a)) (hn : C.order.Nodup)
    (hall : ∀ a, a ∈ C.order) (α : κ → ℝ) (hε : ∀ a, 0 ≤ 2 * α a * C.eps a)
    (hf : IsGaussian f mean var) (x₀ : ∀ a, ι a → ℝ) (draw : ℕ → ∀ a, ι a → ℝ) (t : ℕ) :
    (SGRHMC.run C α f x₀ draw t).2 = none ∧
    (∀ a, ((SGRHMC.run C α f x₀ draw t).1.par a).grad.getD 0 = 0) ∧
    ∀ a i, ((SGRHMC.run C α f x₀ draw t).1.par a).point i =
      mean a i + decay (α a) (C.eps a / var a i) (C.nSteps + 1) ^ t * (x₀ a i - mean a i) +
      ∑ k ∈ Finset.range (t * (C.nSteps + 2)),
        (decay (α a) (C.eps a / var a i) (C.nSteps + 1) ^ (t - 1 - k / (C.nSteps + 2)) *
          coef (C.eps a) (α a) (C.eps a / var a i) (C.nSteps + 1) (k % (C.nSteps + 2))) *
          draw k a i := by
  induction t with
  | zero => exact ⟨rfl, fun a => rfl, fun a i => by simp [SGRHMC.run]⟩
  | succ t ih =>
    obtain ⟨h1, h2, h3⟩ := call_eq hE hn hall α hε hf (SGRHMC.run C α f x₀ draw t).1 ih.2.1
      (C.nSteps + 1) fun j => draw (t * (C.nSteps + 2) + j)
    refine ⟨h1, h2, fun a i => ?_⟩
    refine (h3 a i).trans ?_
    rw [ih.2.2 a i]
    obtain ⟨p, hp⟩ : ∃ p, p = decay (α a) (C.eps a / var a i) (C.nSteps + 1) := ⟨_, rfl⟩
    rw [← hp, show (t + 1) * (C.nSteps + 2) = t * (C.nSteps + 2) + (C.nSteps + 2) by ring,
      Finset.sum_range_add _ (t * (C.nSteps + 2)) (C.nSteps + 2)]
    have e1 : ∀ k ∈ Finset.range (t * (C.nSteps + 2)),
        (p ^ (t + 1 - 1 - k / (C.nSteps + 2)) *
          coef (C.eps a) (α a) (C.eps a / var a i) (C.nSteps + 1) (k % (C.nSteps + 2))) *
          draw k a i =
        p * ((p ^ (t - 1 - k / (C.nSteps + 2)) *
          coef (C.eps a) (α a) (C.eps a / var a i) (C.nSteps + 1) (k % (C.nSteps + 2))) *
          draw k a i) := by
      intro k hk
      have hk' : k / (C.nSteps + 2) < t :=
        (Nat.div_lt_iff_lt_mul (by omega)).2 (Finset.mem_range.1 hk)
      rw [show t + 1 - 1 - k / (C.nSteps + 2) = (t - 1 - k / (C.nSteps + 2)) + 1 by omega, pow_succ]
      ring
    have e2 : ∀ j ∈ Finset.range (C.nSteps + 2),
        (p ^ (t + 1 - 1 - (t * (C.nSteps + 2) + j) / (C.nSteps + 2)) *
          coef (C.eps a) (α a) (C.eps a / var a i) (C.nSteps + 1)
            ((t * (C.nSteps + 2) + j) % (C.nSteps + 2))) * draw (t * (C.nSteps + 2) + j) a i =
        coef (C.eps a) (α a) (C.eps a / var a i) (C.nSteps + 1) j *
          draw (t * (C.nSteps + 2) + j) a i := by
      intro j hj
      have hj' := Finset.mem_range.1 hj
      have d1 : (t * (C.nSteps + 2) + j) / (C.nSteps + 2) = t := by
        rw [mul_comm, Nat.mul_add_div (by omega), Nat.div_eq_of_lt hj', add_zero]
      have d2 : (t * (C.nSteps + 2) + j) % (C.nSteps + 2) = j := by
        rw [mul_comm, Nat.mul_add_mod, Nat.mod_eq_of_lt hj']
      rw [d1, d2]
      simp
    rw [Finset.sum_congr rfl e1, Finset.sum_congr rfl e2, ← Finset.mul_sum]
    ring

/-- The squares of the coefficients of `t` calls. -/
theorem sum_coef (c : ℕ → ℝ) (p : ℝ) (M t : ℕ) (hM : 0 < M) :
    ∑ k ∈ Finset.range (t * M), (p ^ (t - 1 - k / M) * c (k % M)) ^ 2 =
      (∑ j ∈ Finset.range M, c j ^ 2) * ∑ j ∈ Finset.range t, p ^ (2 * j) := by
  induction t with
  | zero => simp
  | succ t ih =>
    rw [show (t + 1) * M = t * M + M by ring, Finset.sum_range_add]
    have e1 : ∀ k ∈ Finset.range (t * M), (p ^ (t + 1 - 1 - k / M) * c (k % M)) ^ 2 =
        p ^ 2 * (p ^ (t - 1 - k / M) * c (k % M)) ^ 2 := by
      intro k hk
      have hk' : k / M < t := (Nat.div_lt_iff_lt_mul hM).2 (Finset.mem_range.1 hk)
      rw [show t + 1 - 1 - k / M = (t - 1 - k / M) + 1 by omega, pow_succ]
      ring
    have e2 : ∀ j ∈ Finset.range M,
        (p ^ (t + 1 - 1 - (t * M + j) / M) * c ((t * M + j) % M)) ^ 2 = c j ^ 2 := by
      intro j hj
      have hj' := Finset.mem_range.1 hj
      have d1 : (t * M + j) / M = t := by
        rw [mul_comm, Nat.mul_add_div hM, Nat.div_eq_of_lt hj', add_zero]
      have d2 : (t * M + j) % M = j := by
        rw [mul_comm, Nat.mul_add_mod, Nat.mod_eq_of_lt hj']
      rw [d1, d2]
      simp
    rw [Finset.sum_congr rfl e1, Finset.sum_congr rfl e2, ← Finset.mul_sum, ih,
      Finset.sum_range_succ']
    have e3 : ∑ j ∈ Finset.range t, p ^ (2 * (j + 1)) = p ^ 2 * ∑ j ∈ Finset.range t, p ^ (2 * j) := by
      rw [Finset.mul_sum]
      exact Finset.sum_congr rfl fun j _ => by rw [← pow_add]; congr 1; ring
    rw [e3]
    ring

end Rounds

/-! ### The responses -/

/-- What the friction takes out of the system. -/
noncomputable def store (α b q p : ℝ) : ℝ := q ^ 2 - q * p + (2 - α + b) / (2 * b) * p ^ 2

theorem store_step (α b q p : ℝ) (hb : b ≠ 0) :
    store α b (p + (1 - α) * q) (p - b * q) - store α b q p =
      -((α - b) * (4 - 2 * α + b) / 2) * q ^ 2 := by
  unfold store
  field_simp
  ring

theorem store_nonneg (α b q p : ℝ) (hb : 0 < b) (hα : α ≤ 2) : 0 ≤ store α b q p := by
  have h : store α b q p = (q - p / 2) ^ 2 + ((4 - 2 * α + b) / (4 * b)) * p ^ 2 := by
    unfold store
    field_simp
    ring
  rw [h]
  have : 0 ≤ (4 - 2 * α + b) / (4 * b) := by
    apply div_nonneg <;> linarith
  positivity

theorem sum_drift (α b : ℝ) (hb : b ≠ 0) (N : ℕ) :
    (α - b) * (4 - 2 * α + b) / 2 * ∑ j ∈ Finset.range N, drift α b j ^ 2 =
      (2 - α + b) / (2 * b) - store α b (drift α b N) (decay α b N) := by
  induction N with
  | zero => simp [store, drift, decay]
  | succ N ih =>
    rw [Finset.sum_range_succ, mul_add, ih, drift_succ, decay_succ]
    have := store_step α b (drift α b N) (decay α b N) hb
    rw [add_comm (decay α b N)] at *
    linarith

theorem sum_drift_le (α b : ℝ) (hb : 0 < b) (hα : α ≤ 2) (hs : b < α) (N : ℕ) :
    ∑ j ∈ Finset.range N, drift α b j ^ 2 ≤ (2 - α + b) / (b * (α - b) * (4 - 2 * α + b)) := by
  have h := sum_drift α b hb.ne' N
  have h0 := store_nonneg α b (drift α b N) (decay α b N) hb hα
  have hk : 0 < (α - b) * (4 - 2 * α + b) / 2 := by
    have : 0 < α - b := by linarith
    have : 0 < 4 - 2 * α + b := by linarith
    positivity
  have e : (2 - α + b) / (b * (α - b) * (4 - 2 * α + b)) =
      ((2 - α + b) / (2 * b)) / ((α - b) * (4 - 2 * α + b) / 2) := by
    rw [div_div]
    congr 1
    ring
  rw [e, le_div_iff₀ hk, mul_comm]
  linarith

theorem tendsto_drift (α b : ℝ) (hb : 0 < b) (hα : α ≤ 2) (hs : b < α) :
    Filter.Tendsto (drift α b) Filter.atTop (nhds 0) := by
  have hsum : Summable fun j => drift α b j ^ 2 :=
    summable_of_sum_range_le (fun _ => sq_nonneg _) (sum_drift_le α b hb hα hs)
  have := hsum.tendsto_atTop_zero
  have h2 := this.sqrt
  rw [Real.sqrt_zero] at h2
  simp only [Real.sqrt_sq_eq_abs] at h2
  exact (tendsto_zero_iff_abs_tendsto_zero _).2 h2

theorem tendsto_decay (α b : ℝ) (hb : 0 < b) (hα : α ≤ 2) (hs : b < α) :
    Filter.Tendsto (decay α b) Filter.atTop (nhds 0) := by
  have h := tendsto_drift α b hb hα hs
  have h1 := (Filter.tendsto_add_atTop_iff_nat 1).2 h
  have := h1.sub (h.const_mul (1 - α))
  rw [mul_zero, sub_zero] at this
  exact this

theorem tendsto_sum (α b : ℝ) (hb : 0 < b) (hα : α ≤ 2) (hs : b < α) :
    Filter.Tendsto (fun N => ∑ j ∈ Finset.range N, drift α b j ^ 2) Filter.atTop
      (nhds ((2 - α + b) / (b * (α - b) * (4 - 2 * α + b)))) := by
  have hk : 0 < (α - b) * (4 - 2 * α + b) / 2 := by
    have : 0 < α - b := by linarith
    have : 0 < 4 - 2 * α + b := by linarith
    positivity
  have hq := tendsto_drift α b hb hα hs
  have hp := tendsto_decay α b hb hα hs
  have hst : Filter.Tendsto (fun N => store α b (drift α b N) (decay α b N)) Filter.atTop (nhds 0) := by
    have := ((hq.pow 2).sub (hq.mul hp)).add ((hp.pow 2).const_mul ((2 - α + b) / (2 * b)))
    simpa [store] using this
  have h1 := (hst.const_sub ((2 - α + b) / (2 * b))).div_const ((α - b) * (4 - 2 * α + b) / 2)
  have e : ∀ N, ∑ j ∈ Finset.range N, drift α b j ^ 2 =
      ((2 - α + b) / (2 * b) - store α b (drift α b N) (decay α b N)) /
        ((α - b) * (4 - 2 * α + b) / 2) := by
    intro N
    rw [← sum_drift α b hb.ne', mul_comm, mul_div_assoc, div_self hk.ne', mul_one]
  simp only [e]
  convert h1 using 2
  rw [sub_zero, div_div]
  congr 1
  ring

/-- Without enough friction the response does not die out. -/
theorem drift_alive (α b : ℝ) (hs : α ≤ b) (N : ℕ) :
    1 ≤ drift α b (N + 1) ^ 2 - (2 - α) * drift α b (N + 1) * drift α b N +
      (1 - α + b) * drift α b N ^ 2 := by
  induction N with
  | zero => simp [drift]
  | succ N ih =>
    have : drift α b (N + 1 + 1) ^ 2 - (2 - α) * drift α b (N + 1 + 1) * drift α b (N + 1) +
      (1 - α + b) * drift α b (N + 1) ^ 2 = (1 - α + b) * (drift α b (N + 1) ^ 2 -
        (2 - α) * drift α b (N + 1) * drift α b N + (1 - α + b) * drift α b N ^ 2) := by
      rw [drift]
      ring
    rw [this]
    nlinarith

theorem sum_alive (α b : ℝ) (hs : α ≤ b) (hα : α ≤ 2) (hα0 : 0 ≤ α) (N : ℕ) :
    N ≤ (4 + b) * ∑ j ∈ Finset.range (2 * N), drift α b j ^ 2 := by
  induction N with
  | zero => simp
  | succ N ih =>
    rw [show 2 * (N + 1) = 2 * N + 1 + 1 by ring, Finset.sum_range_succ, Finset.sum_range_succ]
    have h := drift_alive α b hs (2 * N)
    push_cast
    have h2 : drift α b (2 * N + 1) ^ 2 - (2 - α) * drift α b (2 * N + 1) * drift α b (2 * N) +
      (1 - α + b) * drift α b (2 * N) ^ 2 ≤
        (4 + b) * (drift α b (2 * N) ^ 2 + drift α b (2 * N + 1) ^ 2) := by
      generalize drift α b (2 * N + 1) = x
      generalize drift α b (2 * N) = y
      have e1 : 0 ≤ (2 - α) * (x + y) ^ 2 := mul_nonneg (by linarith) (sq_nonneg _)
      nlinarith [mul_nonneg hα0 (sq_nonneg x), mul_nonneg hα0 (sq_nonneg y), sq_nonneg x, sq_nonneg y,
        mul_nonneg (hα0.trans hs) (sq_nonneg x), mul_nonneg (hα0.trans hs) (sq_nonneg y)]
    linarith

theorem tendsto_sum_top (α b : ℝ) (hs : α ≤ b) (hα : α ≤ 2) (hα0 : 0 ≤ α) :
    Filter.Tendsto (fun N => ∑ j ∈ Finset.range N, drift α b j ^ 2) Filter.atTop Filter.atTop := by
  refine Filter.tendsto_atTop_atTop.2 fun B => ?_
  obtain ⟨N, hN⟩ := exists_nat_ge ((4 + b) * B)
  refine ⟨2 * N, fun M hM => ?_⟩
  have h1 := sum_alive α b hs hα hα0 N
  have hb : 0 < 4 + b := by linarith
  have h2 : B ≤ ∑ j ∈ Finset.range (2 * N), drift α b j ^ 2 := by
    by_contra hc
    have := mul_lt_mul_of_pos_left (lt_of_not_ge hc) hb
    linarith
  exact h2.trans (Finset.sum_le_sum_of_subset_of_nonneg
    (Finset.range_subset_range.2 hM) fun _ _ _ => sq_nonneg _)

end C125

/-- The variance of an entry after a call with `N` rounds, if the target has variance `s`. -/
noncomputable def C125.variance (ε α s : ℝ) (N : ℕ) : ℝ :=
  ε ^ 2 * drift α (ε / s) N ^ 2 + 2 * α * ε * ∑ j ∈ Finset.range N, drift α (ε / s) j ^ 2

/-- **C125** (the distribution after `t` calls).  Plain parameters, a stream of independent normal draws: no call raises,
and after every number of calls every entry is normal, with mean `m + decay ^ t (x₀ - m)` and variance
`variance Σ_{j<t} decay ^ (2 j)`. -/
theorem C125_law {κ : Type} [Fintype κ] [DecidableEq κ] {ι : κ → Type} [∀ a, Fintype (ι a)]
    (C : Config κ ι) (α : κ → ℝ) (f : Closure κ ι) (mean var : ∀ a, ι a → ℝ)
    (hE : ∀ a, C.man a = Optim.euclidean (ι a)) (hn : C.order.Nodup) (hall : ∀ a, a ∈ C.order)
    (hε : ∀ a, 0 ≤ 2 * α a * C.eps a) (hf : IsGaussian f mean var) (x₀ : ∀ a, ι a → ℝ)
    {Ω : Type} [MeasurableSpace Ω] (P : Measure Ω) [IsProbabilityMeasure P]
    (draw : ℕ → Ω → ∀ a, ι a → ℝ) (hm : ∀ k, Measurable (draw k))
    (hl : ∀ k, P.map (draw k) = stdNormal ι) (hi : iIndepFun draw P) (t : ℕ) :
    (∀ ω, (SGRHMC.run C α f x₀ (fun k => draw k ω) t).2 = none) ∧
    ∀ a i, P.map (fun ω => ((SGRHMC.run C α f x₀ (fun k => draw k ω) t).1.par a).point i) =
      gaussianReal
        (mean a i + decay (α a) (C.eps a / var a i) (C.nSteps + 1) ^ t * (x₀ a i - mean a i))
        (C125.variance (C.eps a) (α a) (var a i) (C.nSteps + 1) *
          ∑ j ∈ Finset.range t, decay (α a) (C.eps a / var a i) (C.nSteps + 1) ^ (2 * j)).toNNReal := by
  refine ⟨fun ω => (C125.run_eq hE hn hall α hε hf x₀ _ t).1, fun a i => ?_⟩
  have hev : Measurable fun x : ∀ a, ι a → ℝ => x a i :=
    (measurable_pi_apply i).comp (measurable_pi_apply a)
  have hm' : ∀ t, Measurable fun ω => draw t ω a i := fun t => hev.comp (hm t)
  have hl' : ∀ t, P.map (fun ω => draw t ω a i) = gaussianReal 0 1 := by
    intro t
    have h1 : (stdNormal ι).map (fun x => x a) = Measure.pi fun _ : ι a => gaussianReal 0 1 :=
      (measurePreserving_eval (fun a => Measure.pi fun _ : ι a => gaussianReal 0 1) a).map_eq
    have h2 : (Measure.pi fun _ : ι a => gaussianReal 0 1).map (fun x => x i) = gaussianReal 0 1 :=
      (measurePreserving_eval (fun _ : ι a => gaussianReal 0 1) i).map_eq
    rw [← h2, ← h1, ← hl t, Measure.map_map (measurable_pi_apply a) (hm t),
      Measure.map_map (measurable_pi_apply i) ((measurable_pi_apply a).comp (hm t))]
    rfl
  have hi' : iIndepFun (fun t ω => draw t ω a i) P := hi.comp (fun _ x => x a i) fun _ => hev
  obtain ⟨p, hp⟩ : ∃ p, p = decay (α a) (C.eps a / var a i) (C.nSteps + 1) := ⟨_, rfl⟩
  obtain ⟨c, hc⟩ : ∃ c : ℕ → ℝ, c = C125.coef (C.eps a) (α a) (C.eps a / var a i) (C.nSteps + 1) :=
    ⟨_, rfl⟩
  have key := C120.sum_law hm' hl' hi' (fun k => p ^ (t - 1 - k / (C.nSteps + 2)) *
    c (k % (C.nSteps + 2))) (t * (C.nSteps + 2))
  obtain ⟨μ, hμ⟩ : ∃ μ, μ = mean a i + p ^ t * (x₀ a i - mean a i) := ⟨_, rfl⟩
  have e : (fun ω => ((SGRHMC.run C α f x₀ (fun k => draw k ω) t).1.par a).point i) =
      (fun y => μ + y) ∘ fun ω => ∑ k ∈ Finset.range (t * (C.nSteps + 2)),
        (p ^ (t - 1 - k / (C.nSteps + 2)) * c (k % (C.nSteps + 2))) * draw k ω a i := by
    funext ω
    rw [(C125.run_eq hE hn hall α hε hf x₀ _ t).2.2 a i, hμ, hp, hc]
    rfl
  have hv : 0 ≤ C125.variance (C.eps a) (α a) (var a i) (C.nSteps + 1) := by
    unfold C125.variance
    exact add_nonneg (mul_nonneg (sq_nonneg _) (sq_nonneg _))
      (mul_nonneg (hε a) (Finset.sum_nonneg fun _ _ => sq_nonneg _))
  rw [e, ← Measure.map_map (measurable_const_add _)
    (Finset.measurable_sum _ fun j _ => (hm' j).const_mul _), key, gaussianReal_map_const_add,
    zero_add, ← hp, ← hμ]
  congr 1
  apply NNReal.eq
  rw [Real.coe_toNNReal _ (mul_nonneg hv (Finset.sum_nonneg fun j _ => by
    rw [pow_mul]; exact pow_nonneg (sq_nonneg _) _)), NNReal.coe_sum]
  simp only [NNReal.coe_mk]
  rw [C125.sum_coef c p (C.nSteps + 2) t (by omega)]
  congr 1
  rw [Finset.sum_range_succ', ← Finset.sum_range_reflect]
  unfold C125.variance
  rw [hc]
  rw [add_comm, Finset.mul_sum]
  congr 1
  · rw [C125.coef, if_pos rfl]; ring
  · refine Finset.sum_congr rfl fun j hj => ?_
    have := Finset.mem_range.1 hj
    rw [C125.coef, if_neg (Nat.succ_ne_zero _), mul_pow, Real.sq_sqrt (hε a),
      show C.nSteps + 1 - (C.nSteps + 1 - 1 - j + 1) = j by omega]
    ring

/-- **C125** (many calls).  Let the influence of the start decay; then the mean tends to that of the target, and the variance
to `variance / (1 - decay²)`. -/
theorem C125_many_calls (ε α s : ℝ) (N : ℕ) (h : |decay α (ε / s) N| < 1) :
    Filter.Tendsto (fun t => decay α (ε / s) N ^ t) Filter.atTop (nhds 0) ∧
    Filter.Tendsto (fun t => C125.variance ε α s N * ∑ j ∈ Finset.range t, decay α (ε / s) N ^ (2 * j))
      Filter.atTop (nhds (C125.variance ε α s N / (1 - decay α (ε / s) N ^ 2))) := by
  refine ⟨tendsto_pow_atTop_nhds_zero_of_abs_lt_one h, ?_⟩
  have h2 : |decay α (ε / s) N ^ 2| < 1 := by
    rw [abs_pow]
    exact pow_lt_one₀ (abs_nonneg _) h two_ne_zero
  have := (hasSum_geometric_of_abs_lt_one h2).tendsto_sum_nat.const_mul (C125.variance ε α s N)
  simp only [← pow_mul] at this
  rw [div_eq_mul_inv]
  exact this

namespace C125

theorem decay_eq (α b : ℝ) (N : ℕ) : decay α b N = 1 - b * ∑ j ∈ Finset.range N, drift α b j := by
  induction N with
  | zero => simp [decay, drift]
  | succ N ih => rw [decay_succ, ih, Finset.sum_range_succ]; ring

theorem continuous_drift (α : ℝ) (N : ℕ) : Continuous fun b => drift α b N := by
  have h : (Continuous fun b => drift α b N) ∧ Continuous fun b => drift α b (N + 1) := by
    induction N with
    | zero => exact ⟨by simp only [drift]; fun_prop, by simp only [drift]; fun_prop⟩
    | succ N ih =>
      obtain ⟨h1, h2⟩ := ih
      refine ⟨h2, ?_⟩
      simp only [drift]
      fun_prop
  exact h.1

theorem drift_zero (α : ℝ) (N : ℕ) : α * drift α 0 N = 1 - (1 - α) ^ N := by
  have h : α * drift α 0 N = 1 - (1 - α) ^ N ∧ α * drift α 0 (N + 1) = 1 - (1 - α) ^ (N + 1) := by
    induction N with
    | zero => simp [drift]
    | succ N ih =>
      refine ⟨ih.2, ?_⟩
      rw [drift, mul_sub, mul_left_comm, ih.2, mul_left_comm, ih.1]
      ring
  exact h.1

end C125

/-- **C125** (the bias).  For every number of rounds per call the variance after many calls tends, with the step size,
to the variance of the target times `Σ_{j<N} (1 - (1-α)^j)² / Σ_{j<N} (1 - (1-α)^j)`. -/
theorem C125_bias (α s : ℝ) (hα0 : 0 < α) (hα : α < 2) (hs : 0 < s) (N : ℕ) (hN : 2 ≤ N) :
    Filter.Tendsto (fun ε => C125.variance ε α s N / (1 - decay α (ε / s) N ^ 2))
      (nhdsWithin 0 (Set.Ioi 0))
      (nhds (s * ((∑ j ∈ Finset.range N, (1 - (1 - α) ^ j) ^ 2) /
        ∑ j ∈ Finset.range N, (1 - (1 - α) ^ j)))) := by
  have hpos : 0 < ∑ j ∈ Finset.range N, (1 - (1 - α) ^ j) := by
    refine Finset.sum_pos' (fun j _ => ?_) ⟨1, Finset.mem_range.2 (by omega), by simpa using hα0⟩
    have : |(1 - α) ^ j| ≤ 1 := by
      rw [abs_pow]
      exact pow_le_one₀ (abs_nonneg _) (abs_le.2 ⟨by linarith, by linarith⟩)
    linarith [le_abs_self ((1 - α) ^ j)]
  have hD0 : ∑ j ∈ Finset.range N, drift α 0 j = (∑ j ∈ Finset.range N, (1 - (1 - α) ^ j)) / α := by
    rw [eq_div_iff hα0.ne', mul_comm, Finset.mul_sum]
    exact Finset.sum_congr rfl fun j _ => C125.drift_zero α j
  have hS0 : ∑ j ∈ Finset.range N, drift α 0 j ^ 2 =
      (∑ j ∈ Finset.range N, (1 - (1 - α) ^ j) ^ 2) / α ^ 2 := by
    rw [eq_div_iff (by positivity), mul_comm, Finset.mul_sum]
    exact Finset.sum_congr rfl fun j _ => by rw [← C125.drift_zero α j]; ring
  obtain ⟨F, hF⟩ : ∃ F : ℝ → ℝ, F = fun ε => s * (ε * drift α (ε / s) N ^ 2 +
      2 * α * ∑ j ∈ Finset.range N, drift α (ε / s) j ^ 2) /
    ((∑ j ∈ Finset.range N, drift α (ε / s) j) *
      (2 - ε / s * ∑ j ∈ Finset.range N, drift α (ε / s) j)) := ⟨_, rfl⟩
  have hcd : ∀ j, Continuous fun ε => drift α (ε / s) j := fun j =>
    (C125.continuous_drift α j).comp (continuous_id.div_const s)
  have hc1 : Continuous fun ε => ∑ j ∈ Finset.range N, drift α (ε / s) j :=
    continuous_finset_sum _ fun j _ => hcd j
  have hc2 : Continuous fun ε => ∑ j ∈ Finset.range N, drift α (ε / s) j ^ 2 :=
    continuous_finset_sum _ fun j _ => (hcd j).pow 2
  have hcF : ContinuousAt F 0 := by
    rw [hF]
    refine ContinuousAt.div ?_ ?_ ?_
    · exact (continuous_const.mul ((continuous_id.mul ((hcd N).pow 2)).add
        (continuous_const.mul hc2))).continuousAt
    · exact (hc1.mul (continuous_const.sub ((continuous_id.div_const s).mul hc1))).continuousAt
    · simp only [zero_div, zero_mul, sub_zero, hD0]
      positivity
  have hF0 : F 0 = s * ((∑ j ∈ Finset.range N, (1 - (1 - α) ^ j) ^ 2) /
        ∑ j ∈ Finset.range N, (1 - (1 - α) ^ j)) := by
    rw [hF]
    simp only [zero_div, zero_mul, sub_zero, zero_add, hD0, hS0]
    field_simp
  rw [← hF0]
  refine (hcF.tendsto.mono_left nhdsWithin_le_nhds).congr' ?_
  filter_upwards [self_mem_nhdsWithin] with ε hε
  have hε' : (0 : ℝ) < ε := hε
  rw [hF, C125.decay_eq]
  unfold C125.variance
  dsimp only
  generalize (∑ j ∈ Finset.range N, drift α (ε / s) j) = D
  generalize (∑ j ∈ Finset.range N, drift α (ε / s) j ^ 2) = E
  generalize drift α (ε / s) N = q
  have e1 : 1 - (1 - ε / s * D) ^ 2 = (ε / s) * (D * (2 - ε / s * D)) := by ring
  have e2 : ε ^ 2 * q ^ 2 + 2 * α * ε * E = (ε / s) * (s * (ε * q ^ 2 + 2 * α * E)) := by
    field_simp
  rw [e1, e2, mul_div_mul_left _ _ (by positivity)]

/-- **C125, counterexample.**  "With small steps the samples have the variance of the target" is false: with the default
`n_steps=1` (two rounds) the variance after many calls tends, with the step size, to `alpha` times that of the target; and
with every number of rounds it is too small, when `alpha < 1`. -/
theorem C125_counterexample (α s : ℝ) (hα0 : 0 < α) (hα : α < 1) (hs : 0 < s) :
    Filter.Tendsto (fun ε => C125.variance ε α s 2 / (1 - decay α (ε / s) 2 ^ 2))
      (nhdsWithin 0 (Set.Ioi 0)) (nhds (α * s)) ∧
    ∀ N, 2 ≤ N → s * ((∑ j ∈ Finset.range N, (1 - (1 - α) ^ j) ^ 2) /
        ∑ j ∈ Finset.range N, (1 - (1 - α) ^ j)) < s := by
  constructor
  · have h := C125_bias α s hα0 (by linarith) hs 2 le_rfl
    convert h using 2
    rw [Finset.sum_range_succ, Finset.sum_range_succ, Finset.sum_range_succ, Finset.sum_range_succ,
      Finset.sum_range_zero, Finset.sum_range_zero, pow_zero, pow_one,
      show 0 + (1 - 1) ^ 2 + (1 - (1 - α)) ^ 2 = α * α by ring,
      show 0 + (1 - 1) + (1 - (1 - α)) = α by ring]
    field_simp
  · intro N hN
    have h0 : ∀ j, 0 ≤ 1 - (1 - α) ^ j ∧ 1 - (1 - α) ^ j ≤ 1 := fun j =>
      ⟨by linarith [pow_le_one₀ (n := j) (show 0 ≤ 1 - α by linarith) (by linarith)],
        by linarith [pow_nonneg (show 0 ≤ 1 - α by linarith) j]⟩
    have hlt : ∑ j ∈ Finset.range N, (1 - (1 - α) ^ j) ^ 2 < ∑ j ∈ Finset.range N, (1 - (1 - α) ^ j) := by
      refine Finset.sum_lt_sum (fun j _ => by nlinarith [h0 j])
        ⟨1, Finset.mem_range.2 (by omega), ?_⟩
      rw [pow_one]
      nlinarith
    have hpos : 0 < ∑ j ∈ Finset.range N, (1 - (1 - α) ^ j) :=
      lt_of_le_of_lt (Finset.sum_nonneg fun j _ => sq_nonneg _) hlt
    have := (div_lt_one hpos).2 hlt
    nlinarith

/-- The variance of an entry after a call with very many rounds, if the target has variance `s`. -/
noncomputable def C125.limit (ε α s : ℝ) : ℝ :=
  s * (2 * α * (2 - α + ε / s) / ((α - ε / s) * (4 - 2 * α + ε / s)))

/-- **C125** (many rounds).  If `epsilon` is less than `alpha` times the variance of the target, then, with the number of
rounds, the influence of the start tends to zero, so that the mean tends to that of the target, and the variance tends to `limit`,
which is larger than that of the target. -/
theorem C125_many_rounds (ε α s : ℝ) (hε : 0 < ε) (hα : α ≤ 2) (hs : 0 < s) (h : ε < α * s) :
    Filter.Tendsto (decay α (ε / s)) Filter.atTop (nhds 0) ∧
    Filter.Tendsto (C125.variance ε α s) Filter.atTop (nhds (C125.limit ε α s)) ∧
    s < C125.limit ε α s := by
  have hb : 0 < ε / s := by positivity
  have hba : ε / s < α := by rw [div_lt_iff₀ hs]; exact h
  refine ⟨C125.tendsto_decay α _ hb hα hba, ?_, ?_⟩
  · have h1 := ((C125.tendsto_drift α _ hb hα hba).pow 2).const_mul (ε ^ 2)
    have h2 := (C125.tendsto_sum α _ hb hα hba).const_mul (2 * α * ε)
    have := h1.add h2
    have e0 : C125.limit ε α s = ε ^ 2 * 0 ^ 2 + 2 * α * ε *
        ((2 - α + ε / s) / (ε / s * (α - ε / s) * (4 - 2 * α + ε / s))) := ?_
    · rw [e0]
      exact this
    unfold C125.limit
    obtain ⟨b, hbb⟩ : ∃ b, b = ε / s := ⟨_, rfl⟩
    rw [← hbb] at hb hba ⊢
    have e : ε = b * s := by rw [hbb]; field_simp
    have h3 : α - b ≠ 0 := by linarith
    have h4 : 4 - 2 * α + b ≠ 0 := by linarith
    rw [e]
    field_simp
    ring
  · unfold C125.limit
    obtain ⟨b, hbb⟩ : ∃ b, b = ε / s := ⟨_, rfl⟩
    rw [← hbb] at hb hba ⊢
    have h3 : 0 < α - b := by linarith
    have h4 : 0 < 4 - 2 * α + b := by linarith
    have : 1 < 2 * α * (2 - α + b) / ((α - b) * (4 - 2 * α + b)) := by
      rw [lt_div_iff₀ (by positivity)]
      nlinarith
    nlinarith

/-- **C125** (small steps).  With the step size tending to zero, the variance after many rounds tends to that
of the target. -/
theorem C125_small_steps (α s : ℝ) (hα0 : 0 < α) (hα : α < 2) (hs : 0 < s) :
    Filter.Tendsto (fun ε => C125.limit ε α s) (nhds 0) (nhds s) := by
  have hc : ContinuousAt (fun ε => C125.limit ε α s) 0 := by
    unfold C125.limit
    refine continuousAt_const.mul (ContinuousAt.div ?_ ?_ ?_)
    · fun_prop
    · fun_prop
    · simp only [zero_div, sub_zero, add_zero]
      have : 4 - 2 * α ≠ 0 := by linarith
      positivity
  have h0 : C125.limit 0 α s = s := by
    unfold C125.limit
    simp only [zero_div, sub_zero, add_zero]
    have : 2 - α ≠ 0 := by linarith
    rw [show (4 - 2 * α) = 2 * (2 - α) by ring]
    field_simp
  have := hc.tendsto
  rw [h0] at this
  exact this

/-- **C125** (too large steps).  If `epsilon` is at least `alpha` times the variance of the target, the variance after a call
grows beyond all bounds with the number of rounds. -/
theorem C125_unbounded (ε α s : ℝ) (hα0 : 0 < α) (hα : α ≤ 2) (hs : 0 < s) (h : α * s ≤ ε) :
    Filter.Tendsto (C125.variance ε α s) Filter.atTop Filter.atTop := by
  have hε : 0 < ε := lt_of_lt_of_le (by positivity) h
  have hba : α ≤ ε / s := by rw [le_div_iff₀ hs]; exact h
  have h1 := (C125.tendsto_sum_top α _ hba hα hα0.le).const_mul_atTop
    (show 0 < 2 * α * ε by positivity)
  refine Filter.tendsto_atTop_mono (fun N => ?_) h1
  unfold C125.variance
  have : 0 ≤ ε ^ 2 * drift α (ε / s) N ^ 2 := by positivity
  linarith

/-- Non-vacuity: one plain parameter with one entry and its standard normal target, with the default options `epsilon=1e-3`,
`alpha=0.1`; the draws are the coordinates of a sequence of independent draws. -/
example : ∃ (C : Config Unit fun _ => Unit) (f : Closure Unit fun _ => Unit)
    (mean var : ∀ _ : Unit, Unit → ℝ), (∀ a, C.man a = Optim.euclidean Unit) ∧ C.order.Nodup ∧
      (∀ a, a ∈ C.order) ∧ (∀ a, 0 ≤ 2 * (0.1 : ℝ) * C.eps a) ∧ IsGaussian f mean var ∧
      (∀ a, C.eps a < 0.1 * var a ()) := by
  refine ⟨⟨fun _ => Optim.euclidean Unit, fun _ => 1e-3, [()], 1⟩,
    ⟨fun x => -∑ a, ∑ i, (x a i - 0) ^ 2 / (2 * 1), fun x a i => -(x a i - 0) / 1, fun _ => true⟩,
    fun _ _ => 0, fun _ _ => 1, fun _ => rfl, by simp, fun _ => by simp, fun _ => by norm_num,
    ⟨fun _ => rfl, fun _ _ _ => rfl, fun _ => rfl⟩, fun _ => by norm_num⟩

/-- The bound of `C125_unbounded` is met by the default options and a target with the variance 0.01, one of
moderate width. -/
example : (0.1 : ℝ) * 0.01 ≤ 1e-3 := by norm_num
