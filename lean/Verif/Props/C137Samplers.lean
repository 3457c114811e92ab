import Verif.Props.C137
import Verif.Model.Samplers
import Verif.Lemmas.OptimStep
import Mathlib.Algebra.BigOperators.Ring.Finset
import Mathlib.Data.Fintype.BigOperators

/-!
# C137 for the samplers

A chain of a stack of points is the chain of the points: with the same draws the two samplers stay in step, with the
same counters, log-probabilities and exceptions.
-/

namespace Geoopt.C137
open Geoopt.Optim Geoopt.Samplers

section One
variable {J ι : Type}

/-- One point of a stack, its gradient and its momentum. -/
def splitPar (p : Par (J × ι)) (j : J) : Par ι :=
  ⟨part p.point j, p.grad.map (part · j), p.mom.map fun m => ⟨part m.oldP j, part m.oldR j, part m.r j⟩⟩

theorem splitPar_refresh (N : Manifold ι) (noise : J × ι → ℝ) (p : Par (J × ι)) (j : J) :
    splitPar (refresh (batch J N) noise p) j = refresh N (part noise j) (splitPar p j) := by
  obtain ⟨x, g, m⟩ := p
  cases g <;> rfl

theorem splitPar_leap (N : Manifold ι) (ε : ℝ) (p : Par (J × ι)) (j : J) :
    splitPar (leap (batch J N) ε p) j = leap N ε (splitPar p j) := by
  obtain ⟨x, g, m⟩ := p
  cases g <;> cases m <;> rfl

theorem splitPar_lastKick (N : Manifold ι) (ε : ℝ) (p : Par (J × ι)) (j : J) :
    splitPar (lastKick (batch J N) ε p) j = lastKick N ε (splitPar p j) := by
  obtain ⟨x, g, m⟩ := p
  cases g <;> cases m <;> rfl

theorem splitPar_restore (p : Par (J × ι)) (j : J) : splitPar (restore p) j = restore (splitPar p j) := by
  obtain ⟨x, g, m⟩ := p
  cases g <;> cases m <;> rfl

end One

section All
variable {κ : Type} {J ι : κ → Type}

/-- The points of all stacks. -/
def splitAll (w : ∀ a, Par (Whole J ι a)) (p : Σ a, J a) : Par (Piece J ι p) := splitPar (w p.1) p.2

/-- `torch.stack` of the points. -/
def stack (x : ∀ p : Σ a, J a, Piece J ι p → ℝ) (a : κ) : Whole J ι a → ℝ := fun q => x ⟨a, q.1⟩ q.2

/-- The log-probability as a function of the separate points. -/
def splitClosure (f : Closure κ (Whole J ι)) : Closure (Σ a, J a) (Piece J ι) where
  logp x := f.logp (stack x)
  grad x p := part (f.grad (stack x) p.1) p.2
  dep p := f.dep p.1

/-- A sampler of stacks. -/
def tables (J : κ → Type) (Ms : ∀ a, Manifold (ι a)) (eps : κ → ℝ) (order : List κ) (n : ℕ) :
    Config κ (Whole J ι) := ⟨fun a => batch (J a) (Ms a), eps, order, n⟩

/-- The sampler of the separate points, in the order of the stacks. -/
def points (J : κ → Type) (Ms : ∀ a, Manifold (ι a)) (eps : κ → ℝ) (order : List κ) (n : ℕ)
    (comps : ∀ a, List (J a)) : Config (Σ a, J a) (Piece J ι) :=
  ⟨fun p => Ms p.1, fun p => eps p.1, order.sigma comps, n⟩

variable (Ms : ∀ a, Manifold (ι a)) (eps : κ → ℝ) (order : List κ) (n : ℕ) (comps : ∀ a, List (J a))
  (f : Closure κ (Whole J ι))

theorem stack_split (w : ∀ a, Par (Whole J ι a)) : stack (contents (splitAll w)) = contents w := rfl

theorem splitAll_backward (w : ∀ a, Par (Whole J ι a)) :
    splitAll (backward f w) = backward (splitClosure f) (splitAll w) := by
  funext p
  by_cases h : f.dep p.1 = true
  · have h' : (splitClosure f).dep p = true := h
    unfold splitAll backward
    rw [if_pos h, if_pos h']
    rcases hg : (w p.1).grad with _ | g <;> simp [splitPar, hg, splitClosure] <;> rfl
  · have h' : ¬ (splitClosure f).dep p = true := h
    unfold splitAll backward
    rw [if_neg h, if_neg h']

theorem splitAll_round (w : ∀ a, Par (Whole J ι a)) :
    splitAll (roundOf (tables J Ms eps order n) f w) =
      roundOf (points J Ms eps order n comps) (splitClosure f) (splitAll w) := by
  funext p
  unfold roundOf
  rw [← splitAll_backward]
  exact splitPar_leap _ _ _ _

theorem splitAll_rounds (k : ℕ) (w : ∀ a, Par (Whole J ι a)) :
    splitAll ((roundOf (tables J Ms eps order n) f)^[k] w) =
      (roundOf (points J Ms eps order n comps) (splitClosure f))^[k] (splitAll w) := by
  induction k generalizing w with
  | zero => rfl
  | succ k ih => rw [Function.iterate_succ_apply, Function.iterate_succ_apply, ih, splitAll_round (comps := comps)]

theorem last_eps (hc : ∀ a, comps a ≠ []) (q : κ → Bool) (l : List κ) :
    (((l.sigma comps).filter fun p => q p.1).getLast?.map fun p => eps p.1) = (l.filter q).getLast?.map eps := by
  induction l using List.reverseRecOn with
  | nil => rfl
  | append_singleton l a ih =>
    have e : (l ++ [a]).sigma comps = l.sigma comps ++ (comps a).map (Sigma.mk a) := by
      simp [List.sigma]
    have ef : ((comps a).map (Sigma.mk a)).filter (fun p : Σ a, J a => q p.1) =
        if q a then (comps a).map (Sigma.mk a) else [] := by
      by_cases h : q a = true
      · rw [if_pos h]
        refine List.filter_eq_self.2 fun p hp => ?_
        obtain ⟨j, _, rfl⟩ := List.mem_map.1 hp
        exact h
      · rw [if_neg h]
        refine List.filter_eq_nil_iff.2 fun p hp => ?_
        obtain ⟨j, _, rfl⟩ := List.mem_map.1 hp
        exact h
    rw [e, List.filter_append, List.filter_append, ef]
    by_cases h : q a = true
    · rw [if_pos h, List.getLast?_append_of_ne_nil _ (by simpa using hc a), List.getLast?_map,
        List.filter_cons_of_pos h]
      obtain ⟨c, hc'⟩ := Option.ne_none_iff_exists'.1 (fun h0 => hc a (List.getLast?_eq_none_iff.1 h0))
      rw [hc']
      simp
    · rw [if_neg h, List.append_nil, ih, List.filter_cons_of_neg h]
      simp

theorem leaked (hc : ∀ a, comps a ≠ []) (w : ∀ a, Par (Whole J ι a)) :
    leakedEps (points J Ms eps order n comps) (splitAll w) = leakedEps (tables J Ms eps order n) w := by
  unfold leakedEps
  have e : (fun p : Σ a, J a => (splitAll w p).grad.isSome) = fun p => (w p.1).grad.isSome := by
    funext p
    simp [splitAll, splitPar]
  have := last_eps eps comps hc (fun a => (w a).grad.isSome) order
  rw [e]
  exact congrArg (Option.getD · 0) this

variable [Fintype κ] [∀ a, Fintype (J a)] [∀ a, Fintype (ι a)]

theorem kinetic_split (w : ∀ a, Par (Whole J ι a)) : kinetic (splitAll w) = kinetic w := by
  unfold kinetic
  rw [Fintype.sum_sigma]
  refine Finset.sum_congr rfl fun a _ => ?_
  rcases hg : (w a).grad with _ | g
  · simp [splitAll, splitPar, hg]
  · rcases hm : (w a).mom with _ | m
    · simp [splitAll, splitPar, hg, hm]
    · simp only [splitAll, splitPar, hg, hm, Option.map]
      rw [← Finset.mul_sum, Fintype.sum_prod_type]
      rfl

/-- The state of the sampler of the points. -/
def splitRHMC (s : RHMC κ (Whole J ι)) : RHMC (Σ a, J a) (Piece J ι) :=
  ⟨splitAll s.par, s.nRejected, s.steps, s.burnin, s.logProbs, s.acceptanceProbs⟩

theorem propose_split (hc : ∀ a, comps a ≠ []) (noise : ∀ a, Whole J ι a → ℝ) (w : ∀ a, Par (Whole J ι a)) :
    propose (points J Ms eps order n comps) (splitClosure f) (fun p => part (noise p.1) p.2) (splitAll w) =
      (splitAll (propose (tables J Ms eps order n) f noise w).1,
        splitAll (propose (tables J Ms eps order n) f noise w).2) := by
  have h1 : (fun p : Σ a, J a => refresh (Ms p.1) (part (noise p.1) p.2) (splitAll w p)) =
      splitAll fun a => refresh (batch (J a) (Ms a)) (noise a) (w a) :=
    funext fun p => (splitPar_refresh _ _ _ _).symm
  have h2 : (fun p : Σ a, J a => leap (Ms p.1) (eps p.1) (refresh (Ms p.1) (part (noise p.1) p.2) (splitAll w p))) =
      splitAll fun a => leap (batch (J a) (Ms a)) (eps a) (refresh (batch (J a) (Ms a)) (noise a) (w a)) :=
    funext fun p => by rw [congrFun h1 p]; exact (splitPar_leap _ _ _ _).symm
  have h3 : ∀ (ε : ℝ) (v : ∀ a, Par (Whole J ι a)), (fun p : Σ a, J a => lastKick (Ms p.1) ε (splitAll v p)) =
      splitAll fun a => lastKick (batch (J a) (Ms a)) ε (v a) :=
    fun ε v => funext fun p => (splitPar_lastKick _ _ _ _).symm
  have h4 := leaked Ms eps order n comps hc w
  unfold propose
  simp only [h4]
  simp only [points, tables] at *
  rw [h1, h2]
  have h5 := splitAll_rounds Ms eps order n comps f (n - 1)
    (fun a => leap (batch (J a) (Ms a)) (eps a) (refresh (batch (J a) (Ms a)) (noise a) (w a)))
  simp only [points, tables] at h5
  rw [← h5, ← splitAll_backward, h3]

/-- **C137, RHMC.** One step with the same draws: the sampler of the points does what the sampler of the stacks
does, including acceptance, counters, and the exception for an overflow. -/
theorem C137_rhmc (hc : ∀ a, comps a ≠ []) (noise : ∀ a, Whole J ι a → ℝ) (u : ℝ) (s : RHMC κ (Whole J ι)) :
    (splitRHMC s).step (points J Ms eps order n comps) (splitClosure f) (fun p => part (noise p.1) p.2) u =
      (splitRHMC (s.step (tables J Ms eps order n) f noise u).1, (s.step (tables J Ms eps order n) f noise u).2) := by
  have hb := splitAll_backward f s.par
  have hp := propose_split Ms eps order n comps f hc noise (backward f s.par)
  rw [hb] at hp
  have hr : ∀ v : ∀ a, Par (Whole J ι a), (fun p : Σ a, J a => restore (splitAll v p)) =
      splitAll fun a => restore (v a) := fun v => funext fun p => (splitPar_restore _ _).symm
  unfold RHMC.step
  simp only [splitRHMC]
  have e : ∀ v : ∀ a, Par (Whole J ι a), (splitClosure f).logp (contents (splitAll v)) = f.logp (contents v) :=
    fun _ => rfl
  simp only [hp, kinetic_split, e]
  split_ifs <;> simp [hr]

end All

section Loops
variable {κ : Type} [DecidableEq κ] {J ι : κ → Type} [∀ a, DecidableEq (J a)]
  (Ms : ∀ a, Manifold (ι a)) (eps : κ → ℝ) {order : List κ} (n : ℕ) {comps : ∀ a, List (J a)}
  (f : Closure κ (Whole J ι))

/-- A loop over the stacks against the loop over the points. -/
theorem forParams_split {S : κ → Type} {S' : (Σ a, J a) → Type} (cut : ∀ a, S a → ∀ j, S' ⟨a, j⟩)
    {g : ∀ a, S a → S a × Bool × Option PyErr} {g' : ∀ p, S' p → S' p × Bool × Option PyErr}
    (hg : ∀ a w, (g a w).2.2 = none → ∀ j, (g' ⟨a, j⟩ (cut a w j)).1 = cut a (g a w).1 j ∧
      (g' ⟨a, j⟩ (cut a w j)).2.2 = none)
    (ho : order.Nodup) (hc : ∀ a, (comps a).Nodup) (hall : ∀ a j, j ∈ comps a) (w : ∀ a, S a)
    (h : (forParams g order w).2.2 = none) :
    (forParams g' (order.sigma comps) fun p : Σ a, J a => cut p.1 (w p.1) p.2).2.2 = none ∧
    (forParams g' (order.sigma comps) fun p : Σ a, J a => cut p.1 (w p.1) p.2).1 =
      fun p : Σ a, J a => cut p.1 ((forParams g order w).1 p.1) p.2 := by
  have h1 := forParams_ok' g order ho w h
  have h2 := forParams_ok g order ho w h1
  have h3 := forParams_ok g' (order.sigma comps) (ho.sigma hc) (fun p : Σ a, J a => cut p.1 (w p.1) p.2) (by
    rintro ⟨a, j⟩ hm
    exact (hg a (w a) (h1 a (List.mem_sigma.1 hm).1) j).2)
  refine ⟨h3.1, funext fun ⟨a, j⟩ => ?_⟩
  by_cases ha : a ∈ order
  · rw [h3.2.1 ⟨a, j⟩ (List.mem_sigma.2 ⟨ha, hall a j⟩), h2.2.1 a ha]
    exact (hg a (w a) (h1 a ha) j).1
  · rw [forParams_of_notMem g' _ ⟨a, j⟩ (fun hm => ha (List.mem_sigma.1 hm).1), forParams_of_notMem g _ a ha]

/-- The state of the sampler of the points. -/
def splitRSGLD (s : RSGLD κ (Whole J ι)) : RSGLD (Σ a, J a) (Piece J ι) :=
  ⟨fun p => (part (s.par p.1).1 p.2, (s.par p.1).2.map (part · p.2)), s.steps, s.burnin, s.logProbs⟩

/-- **C137, RSGLD.** A step that does not raise: the sampler of the points does what the sampler of the stacks does. -/
theorem C137_rsgld (ho : order.Nodup) (hc : ∀ a, (comps a).Nodup) (hall : ∀ a j, j ∈ comps a)
    (noise : ∀ a, Whole J ι a → ℝ) (s : RSGLD κ (Whole J ι))
    (h : (s.step (tables J Ms eps order n) f noise).2 = none) :
    (splitRSGLD s).step (points J Ms eps order n comps) (splitClosure f) (fun p => part (noise p.1) p.2) =
      (splitRSGLD (s.step (tables J Ms eps order n) f noise).1, none) := by
  obtain ⟨w, hw⟩ : ∃ w : ∀ a, (Whole J ι a → ℝ) × Option (Whole J ι a → ℝ), w = fun a =>
      if f.dep a then ((s.par a).1, some ((s.par a).2.getD 0 + f.grad (fun a => (s.par a).1) a)) else s.par a :=
    ⟨_, rfl⟩
  have hcut : (fun p : Σ a, J a => if (splitClosure f).dep p then (((splitRSGLD s).par p).1,
      some (((splitRSGLD s).par p).2.getD 0 + (splitClosure f).grad (fun p => ((splitRSGLD s).par p).1) p))
      else (splitRSGLD s).par p) = fun p : Σ a, J a => (part (w p.1).1 p.2, (w p.1).2.map (part · p.2)) := by
    funext p
    subst hw
    by_cases hd : f.dep p.1 = true
    · have hd' : (splitClosure f).dep p = true := hd
      simp only [hd, hd', if_true]
      rcases hg : (s.par p.1).2 with _ | g <;> simp [splitRSGLD, hg, splitClosure] <;> rfl
    · have hd' : ¬ (splitClosure f).dep p = true := hd
      simp only [hd, hd', if_false]
      rfl
  have key := forParams_split (order := order) (comps := comps)
    (S := fun a => (Whole J ι a → ℝ) × Option (Whole J ι a → ℝ))
    (S' := fun p => (Piece J ι p → ℝ) × Option (Piece J ι p → ℝ))
    (fun a w j => (part w.1 j, w.2.map (part · j)))
    (g := fun a => rsgldParam (batch (J a) (Ms a)) (eps a) (noise a))
    (g' := fun p => rsgldParam (Ms p.1) (eps p.1) (part (noise p.1) p.2))
    (by
      rintro a ⟨x, g⟩ h0 j
      unfold rsgldParam at h0 ⊢
      by_cases he : eps a < 0
      · rw [if_pos he] at h0; cases h0
      · rw [if_neg he] at h0
        rw [if_neg he, if_neg he]
        cases g with
        | none => cases h0
        | some g => exact ⟨rfl, rfl⟩) ho hc hall w
  unfold RSGLD.step at h ⊢
  dsimp only [points, tables] at h ⊢
  rw [hcut]
  rw [← hw] at h ⊢
  rcases hf : forParams (fun a => rsgldParam (batch (J a) (Ms a)) (eps a) (noise a)) order w with ⟨w1, b1, _ | e1⟩
  · rw [hf] at key
    obtain ⟨k1, k2⟩ := key rfl
    rcases hf' : forParams (fun p : Σ a, J a => rsgldParam (Ms p.1) (eps p.1) (part (noise p.1) p.2)) (order.sigma comps)
      (fun p : Σ a, J a => (part (w p.1).1 p.2, (w p.1).2.map (part · p.2))) with ⟨w2, b2, e2⟩
    rw [hf'] at k1 k2
    simp only at k1 k2
    subst k1 k2
    by_cases hb : s.burnin = true
    · simp [splitRSGLD, hb]
    · simp [splitRSGLD, hb]
      rfl
  · rw [hf] at h
    cases h

/-- The state of the sampler of the points. -/
def splitV (w : ∀ a, VPar (Whole J ι a)) (p : Σ a, J a) : VPar (Piece J ι p) :=
  ⟨part (w p.1).point p.2, (w p.1).grad.map (part · p.2), part (w p.1).v p.2⟩

theorem sgrhmcRounds_split (α : κ → ℝ) (ho : order.Nodup) (hc : ∀ a, (comps a).Nodup) (hall : ∀ a j, j ∈ comps a)
    (noises : List (∀ a, Whole J ι a → ℝ)) (l : Option ℝ) (w : ∀ a, VPar (Whole J ι a))
    (h : (sgrhmcRounds (tables J Ms eps order n) α f noises l w).2.2 = none) :
    sgrhmcRounds (points J Ms eps order n comps) (fun p => α p.1) (splitClosure f)
        (noises.map fun z p => part (z p.1) p.2) l (splitV w) =
      (splitV (sgrhmcRounds (tables J Ms eps order n) α f noises l w).1,
        (sgrhmcRounds (tables J Ms eps order n) α f noises l w).2.1, none) := by
  induction noises generalizing l w with
  | nil => rfl
  | cons z zs ih =>
    obtain ⟨w0, hw0⟩ : ∃ w0 : ∀ a, VPar (Whole J ι a), w0 = fun a =>
      if f.dep a then { w a with grad := some ((w a).grad.getD 0 + f.grad (fun a => (w a).point) a) } else w a :=
      ⟨_, rfl⟩
    have hcut : (fun p : Σ a, J a => if (splitClosure f).dep p then { splitV w p with
        grad := some ((splitV w p).grad.getD 0 + (splitClosure f).grad (fun p => (splitV w p).point) p) }
        else splitV w p) = splitV w0 := by
      funext p
      subst hw0
      by_cases hd : f.dep p.1 = true
      · have hd' : (splitClosure f).dep p = true := hd
        simp only [hd', if_true]
        rcases hg : (w p.1).grad with _ | g <;> simp [splitV, hg, hd, splitClosure] <;> rfl
      · have hd' : ¬ (splitClosure f).dep p = true := hd
        simp only [hd', if_false]
        simp [splitV, hd]
    have key := forParams_split (order := order) (comps := comps) (S := fun a => VPar (Whole J ι a))
      (S' := fun p => VPar (Piece J ι p)) (fun a w j => ⟨part w.point j, w.grad.map (part · j), part w.v j⟩)
      (g := fun a => sgrhmcParam (batch (J a) (Ms a)) (eps a) (α a) (z a))
      (g' := fun p => sgrhmcParam (Ms p.1) (eps p.1) (α p.1) (part (z p.1) p.2))
      (by
        rintro a ⟨x, g, v⟩ h0 j
        cases g with
        | none => cases h0
        | some g =>
          unfold sgrhmcParam at h0 ⊢
          dsimp only [Option.map] at h0 ⊢
          by_cases he : 2 * α a * eps a < 0
          · rw [if_pos he] at h0; cases h0
          · rw [if_neg he, if_neg he]
            exact ⟨rfl, rfl⟩) ho hc hall w0
    unfold sgrhmcRounds at h
    rw [List.map_cons]
    unfold sgrhmcRounds
    dsimp only [points, tables] at h ⊢
    rw [hcut]
    rw [← hw0] at h ⊢
    rcases hf : forParams (fun a => sgrhmcParam (batch (J a) (Ms a)) (eps a) (α a) (z a)) order w0 with ⟨w1, b1, _ | e1⟩
    · rw [hf] at key h
      obtain ⟨k1, k2⟩ := key rfl
      rcases hf' : forParams (fun p : Σ a, J a => sgrhmcParam (Ms p.1) (eps p.1) (α p.1) (part (z p.1) p.2))
        (order.sigma comps) (splitV w0) with ⟨w2, b2, e2⟩
      have k1 : e2 = none := by
        have := k1; rw [show (fun p : Σ a, J a => (⟨part (w0 p.1).point p.2, (w0 p.1).grad.map (part · p.2),
          part (w0 p.1).v p.2⟩ : VPar (Piece J ι p))) = splitV w0 from rfl, hf'] at this; exact this
      have k2 : w2 = splitV w1 := by
        have := k2; rw [show (fun p : Σ a, J a => (⟨part (w0 p.1).point p.2, (w0 p.1).grad.map (part · p.2),
          part (w0 p.1).v p.2⟩ : VPar (Piece J ι p))) = splitV w0 from rfl, hf'] at this; exact this
      subst k1 k2
      exact ih _ w1 h
    · rw [hf] at h
      cases h

/-- The state of the sampler of the points. -/
def splitSGRHMC (s : SGRHMC κ (Whole J ι)) : SGRHMC (Σ a, J a) (Piece J ι) :=
  ⟨splitV s.par, s.steps, s.burnin, s.logProbs⟩

/-- **C137, SGRHMC.** A step that does not raise: the sampler of the points does what the sampler of the stacks
does. -/
theorem C137_sgrhmc (α : κ → ℝ) (ho : order.Nodup) (hc : ∀ a, (comps a).Nodup) (hall : ∀ a j, j ∈ comps a)
    (start : ∀ a, Whole J ι a → ℝ) (noises : List (∀ a, Whole J ι a → ℝ)) (s : SGRHMC κ (Whole J ι))
    (h : (s.step (tables J Ms eps order n) α f start noises).2 = none) :
    (splitSGRHMC s).step (points J Ms eps order n comps) (fun p => α p.1) (splitClosure f)
        (fun p => part (start p.1) p.2) (noises.map fun z p => part (z p.1) p.2) =
      (splitSGRHMC (s.step (tables J Ms eps order n) α f start noises).1, none) := by
  have key := sgrhmcRounds_split Ms eps n f α ho hc hall noises none
    (fun a => { s.par a with v := eps a • start a })
  unfold SGRHMC.step at h ⊢
  dsimp only at h ⊢
  have e : (fun p : Σ a, J a => { (splitSGRHMC s).par p with
      v := (points J Ms eps order n comps).eps p • part (start p.1) p.2 }) =
      splitV fun a => { s.par a with v := eps a • start a } := rfl
  rw [e]
  rw [show (tables J Ms eps order n).eps = eps from rfl] at h ⊢
  rcases hf : sgrhmcRounds (tables J Ms eps order n) α f noises none (fun a => { s.par a with v := eps a • start a }) with
    ⟨w1, l1, _ | e1⟩
  · rw [hf] at key
    rw [key rfl]
    dsimp only
    by_cases hb : s.burnin = true <;> simp [splitSGRHMC, hb]
  · rw [hf] at h
    cases h

end Loops

/-! Two stacks, of seven and of four points of the Poincaré disc, with a log-probability that mixes all points. The
Langevin sampler does not raise, so that `C137_rsgld` applies; the chain of the points mirrors it. -/
example (x : Fin 7 × Fin 2 → ℝ) (y : Fin 4 × Fin 2 → ℝ) (noise : ∀ b : Bool, Fin (bif b then 7 else 4) × Fin 2 → ℝ) :
    let J : Bool → Type := fun b => Fin (bif b then 7 else 4)
    let start : ∀ b, Whole J (fun _ => Fin 2) b → ℝ := fun | true => x | false => y
    let f : Closure Bool (Whole J fun _ => Fin 2) :=
      ⟨fun z => -(∑ q, z true q) ^ 2 * ∑ q, z false q ^ 2,
        fun z => fun
          | true => fun _ => -2 * (∑ q, z true q) * ∑ q, z false q ^ 2
          | false => fun q => -2 * (∑ q, z true q) ^ 2 * z false q, fun _ => true⟩
    let Ms : Bool → Manifold (Fin 2) := fun _ => stereographic 1e-15 .f64 (-1)
    let s : RSGLD Bool (Whole J fun _ => Fin 2) := ⟨fun b => (start b, none), 0, false, []⟩
    let c := tables J Ms (fun _ => 1 / 10) [true, false] 3
    (s.step c f noise).2 = none ∧
    (splitRSGLD s).step (points J Ms (fun _ => 1 / 10) [true, false] 3 fun _ => List.finRange _) (splitClosure f)
      (fun p => part (noise p.1) p.2) = (splitRSGLD (s.step c f noise).1, none) ∧
    (s.step c f noise).1.steps = 1 := by
  intro J start f Ms s c
  have h : (s.step c f noise).2 = none := by
    simp only [RSGLD.step, c, tables, s, f, forParams, rsgldParam]
    norm_num
  refine ⟨h, C137_rsgld Ms (fun _ => 1 / 10) 3 f (by simp) (fun b => List.nodup_finRange _)
    (fun b j => List.mem_finRange j) noise s h, ?_⟩
  simp only [RSGLD.step, c, tables, s, f, forParams, rsgldParam]
  norm_num

end Geoopt.C137
