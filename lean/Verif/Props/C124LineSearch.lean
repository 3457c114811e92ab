import Verif.Model.LineSearchCrash
import Verif.Spec.Raises

/-!
# C124: a closure that raises during a line search
-/

namespace Geoopt.C124

open Geoopt.LineSearch

variable {κ : Type} [Fintype κ] {ι : κ → Type} (C : Config κ ι) (f : Closure κ ι)

/-! ### Without an exception of the closure the step is the one of the model -/

theorem phiUntil_ok (α : ℝ) (n : ℕ) (s s' : LS κ ι) (m : ℕ) (r : Except PyErr ℝ)
    (h : phiUntil C f α n s = (s', m, some r)) : phi C f α s = (s', r) := by
  unfold phiUntil at h
  rcases hd : dicGet s.stepSizeDic α with _ | v
  · rw [hd] at h
    by_cases hs : ∃ a, (s.par a).searchDir = none
    · simp only [if_pos hs, Prod.mk.injEq, Option.some.injEq] at h
      unfold phi
      rw [hd]
      simp only [if_pos hs]
      rw [h.1, h.2.2]
    · simp only [if_neg hs] at h
      rcases n with _ | n
      · simp at h
      · simp only [Prod.mk.injEq, Option.some.injEq] at h
        rw [← h.1, ← h.2.2]
  · rw [hd] at h
    simp only [Prod.mk.injEq, Option.some.injEq] at h
    unfold phi
    rw [hd, h.1, ← h.2.2]

theorem derphiUntil_ok (α : ℝ) (n : ℕ) (s s' : LS κ ι) (m : ℕ) (r : Except PyErr ℝ)
    (h : derphiUntil C f α n s = (s', m, some r)) : derphi C f α s = (s', r) := by
  unfold derphiUntil at h
  unfold derphi
  by_cases hc : C.computeDerphi = false
  · simp only [if_pos hc, Prod.mk.injEq, Option.some.injEq] at h ⊢
    exact ⟨h.1, h.2.2⟩
  · simp only [if_neg hc] at h ⊢
    rcases hp : phiUntil C f α n s with ⟨s1, m1, _ | e | v⟩
    · rw [hp] at h; simp at h
    · rw [hp] at h
      rw [phiUntil_ok C f α n s s1 m1 _ hp]
      simp only [Prod.mk.injEq, Option.some.injEq] at h ⊢
      exact ⟨h.1, h.2.2⟩
    · rw [hp] at h
      rw [phiUntil_ok C f α n s s1 m1 _ hp]
      simp only [Prod.mk.injEq, Option.some.injEq] at h ⊢
      exact ⟨h.1, h.2.2⟩

theorem runSearchUntil_ok (S : Search) (n : ℕ) (s s' : LS κ ι) (m : ℕ) (r : Except PyErr (Option ℝ))
    (h : runSearchUntil C f S n s = (s', m, some r)) : runSearch C f S s = (s', r) := by
  induction S generalizing n s with
  | done x =>
    simp only [runSearchUntil, runSearch, Prod.mk.injEq, Option.some.injEq] at h ⊢
    exact ⟨h.1, h.2.2⟩
  | phi α next ih =>
    rw [runSearchUntil] at h
    rw [runSearch]
    rcases hp : phiUntil C f α n s with ⟨s1, m1, _ | e | v⟩
    · rw [hp] at h; simp at h
    · rw [hp] at h
      rw [phiUntil_ok C f α n s s1 m1 _ hp]
      simp only [Prod.mk.injEq, Option.some.injEq] at h ⊢
      exact ⟨h.1, h.2.2⟩
    · rw [hp] at h
      rw [phiUntil_ok C f α n s s1 m1 _ hp]
      exact ih v _ _ h
  | derphi α next ih =>
    rw [runSearchUntil] at h
    rw [runSearch]
    rcases hp : derphiUntil C f α n s with ⟨s1, m1, _ | e | v⟩
    · rw [hp] at h; simp at h
    · rw [hp] at h
      rw [derphiUntil_ok C f α n s s1 m1 _ hp]
      simp only [Prod.mk.injEq, Option.some.injEq] at h ⊢
      exact ⟨h.1, h.2.2⟩
    · rw [hp] at h
      rw [derphiUntil_ok C f α n s s1 m1 _ hp]
      exact ih v _ _ h

theorem initLossUntil_ok (rec : Bool) (n : ℕ) (s s' : LS κ ι) (m : ℕ)
    (r : Except PyErr (Option ℝ × ℝ)) (h : initLossUntil C f rec n s = (s', m, some r)) :
    initLoss C f rec s = (s', r) := by
  unfold initLossUntil at h
  split at h
  · rcases n with _ | n
    · simp at h
    · simp only [Prod.mk.injEq, Option.some.injEq] at h
      rw [← h.1, ← h.2.2]
  · simp only [Prod.mk.injEq, Option.some.injEq] at h
    rw [← h.1, ← h.2.2]

theorem reportUntil_ok (x : Option ℝ) (n : ℕ) (s s' : LS κ ι) (m : ℕ) (r : Except PyErr (Option ℝ))
    (h : reportUntil C f x n s = (s', m, some r)) : report C f x s = (s', r) := by
  unfold reportUntil at h
  unfold report
  rcases x with _ | α
  · simp only [Prod.mk.injEq, Option.some.injEq] at h ⊢
    exact ⟨h.1, h.2.2⟩
  · simp only at h ⊢
    rcases hp : phiUntil C f α n s with ⟨s1, m1, _ | e | v⟩
    · rw [hp] at h; simp at h
    · rw [hp] at h
      rw [phiUntil_ok C f α n s s1 m1 _ hp]
      simp only [Prod.mk.injEq, Option.some.injEq] at h ⊢
      exact ⟨h.1, h.2.2⟩
    · rw [hp] at h
      rw [phiUntil_ok C f α n s s1 m1 _ hp]
      simp only [Prod.mk.injEq, Option.some.injEq] at h ⊢
      exact ⟨h.1, h.2.2⟩

theorem concludeUntil_ok (force noStep : Bool) (p0 : Option ℝ) (d0 : ℝ) (x : Option ℝ) (n : ℕ)
    (s s' : LS κ ι) (m : ℕ) (r : Except PyErr (Option ℝ))
    (h : concludeUntil C f force noStep p0 d0 x n s = (s', m, some r)) :
    conclude C f force noStep p0 d0 x s = (s', r) := by
  unfold concludeUntil at h
  unfold conclude
  rcases ha : afterSearch C force p0 d0 x s with ⟨s1, α, redo⟩
  rw [ha] at h
  simp only at h ⊢
  rcases hc : commit C noStep redo α s1 with e | s2
  · rw [hc] at h
    simp only [Prod.mk.injEq, Option.some.injEq] at h ⊢
    exact ⟨h.1, h.2.2⟩
  · rw [hc] at h
    simp only at h ⊢
    rcases hs : stabilizeAfter C s2 with ⟨s3, _ | e⟩
    · rw [hs] at h
      exact reportUntil_ok C f α n s3 s' m r h
    · rw [hs] at h
      simp only [Prod.mk.injEq, Option.some.injEq] at h ⊢
      exact ⟨h.1, h.2.2⟩

/-- **C124** (the model of an interrupted step agrees with that of a step).  When the closure does not
raise, `step` with a limited number of answers is `step`. -/
theorem C124_linesearch_refines (force rec noStep : Bool) (n : ℕ) (s s' : LS κ ι) (m : ℕ)
    (r : Except PyErr (Option ℝ)) (h : stepUntil C f force rec noStep n s = (s', m, some r)) :
    step C f force rec noStep s = (s', r) := by
  unfold stepUntil at h
  unfold step
  rcases hi : initLossUntil C f rec n s with ⟨s1, m1, _ | e | ⟨p0, d0⟩⟩
  · rw [hi] at h; simp at h
  · rw [hi] at h
    rw [initLossUntil_ok C f rec n s s1 m1 _ hi]
    simp only [Prod.mk.injEq, Option.some.injEq] at h ⊢
    exact ⟨h.1, h.2.2⟩
  · rw [hi] at h
    rw [initLossUntil_ok C f rec n s s1 m1 _ hi]
    simp only at h ⊢
    rcases hr : runSearchUntil C f (C.method ⟨p0, d0, s1.oldPhi0, s1.oldDerphi0, s1.lastStepSize⟩) m1
        { s1 with stepSizeDic := [] } with ⟨s2, m2, _ | e | x⟩
    · rw [hr] at h; simp at h
    · rw [hr] at h
      rw [runSearchUntil_ok C f _ _ _ _ _ _ hr]
      simp only [Prod.mk.injEq, Option.some.injEq] at h ⊢
      exact ⟨h.1, h.2.2⟩
    · rw [hr] at h
      rw [runSearchUntil_ok C f _ _ _ _ _ _ hr]
      exact concludeUntil_ok C f force noStep p0 d0 x m2 s2 s' m r h

/-! ### Where an exception of the closure leaves the parameters -/

theorem phi_points (α : ℝ) (s : LS κ ι) : (phi C f α s).1.points = s.points ∧
    (phi C f α s).1.gradsComputed = (s.gradsComputed || (phi C f α s).1.gradsComputed) := by
  unfold phi
  rcases dicGet s.stepSizeDic α with _ | v
  · by_cases hs : ∃ a, (s.par a).searchDir = none
    · simp [if_pos hs]
    · simp only [if_neg hs]
      refine ⟨rfl, ?_⟩
      cases s.gradsComputed <;> cases C.computeDerphi <;> rfl
  · simp

theorem derphi_points (α : ℝ) (s : LS κ ι) : (derphi C f α s).1.points = s.points ∧
    (derphi C f α s).1.gradsComputed = (s.gradsComputed || (derphi C f α s).1.gradsComputed) := by
  unfold derphi
  by_cases hc : C.computeDerphi = false
  · simp [if_pos hc]
  · simp only [if_neg hc]
    have := phi_points C f α s
    rcases hp : phi C f α s with ⟨s1, e | v⟩ <;> rw [hp] at this <;> exact this

theorem phiUntil_none (α : ℝ) (n : ℕ) (s s' : LS κ ι) (m : ℕ)
    (h : phiUntil C f α n s = (s', m, none)) :
    (∃ d : ∀ a, ι a → ℝ, (∀ a, (s'.par a).searchDir = some (d a)) ∧
      s'.points = trial C d α s.points) ∧ s'.gradsComputed = s.gradsComputed := by
  unfold phiUntil at h
  rcases hd : dicGet s.stepSizeDic α with _ | v
  · rw [hd] at h
    by_cases hs : ∃ a, (s.par a).searchDir = none
    · simp [if_pos hs] at h
    · simp only [if_neg hs] at h
      rcases n with _ | n
      · simp only [Prod.mk.injEq] at h
        obtain ⟨h, -, -⟩ := h
        subst h
        refine ⟨⟨fun a => (s.par a).searchDir.getD 0, fun a => ?_, ?_⟩, rfl⟩
        · have : (s.par a).searchDir ≠ none := fun h => hs ⟨a, h⟩
          obtain ⟨d, hd⟩ := Option.ne_none_iff_exists'.1 this
          unfold moveTrial
          split <;> simp [hd]
        · funext a
          simp only [LS.points, moveTrial, trial]
          split <;> rfl
      · simp at h
  · rw [hd] at h; simp at h

theorem derphiUntil_none (α : ℝ) (n : ℕ) (s s' : LS κ ι) (m : ℕ)
    (h : derphiUntil C f α n s = (s', m, none)) :
    (∃ d : ∀ a, ι a → ℝ, (∀ a, (s'.par a).searchDir = some (d a)) ∧
      s'.points = trial C d α s.points) ∧ s'.gradsComputed = s.gradsComputed := by
  unfold derphiUntil at h
  by_cases hc : C.computeDerphi = false
  · simp [if_pos hc] at h
  · simp only [if_neg hc] at h
    rcases hp : phiUntil C f α n s with ⟨s1, m1, _ | e | v⟩
    · rw [hp] at h
      simp only [Prod.mk.injEq] at h
      rw [← h.1]
      exact phiUntil_none C f α n s s1 m1 hp
    · rw [hp] at h; simp at h
    · rw [hp] at h; simp at h

theorem runSearchUntil_none (S : Search) (n : ℕ) (s s' : LS κ ι) (m : ℕ)
    (hg : s.gradsComputed = true) (h : runSearchUntil C f S n s = (s', m, none)) :
    (∃ (α : ℝ) (d : ∀ a, ι a → ℝ), (∀ a, (s'.par a).searchDir = some (d a)) ∧
      s'.points = trial C d α s.points) ∧ s'.gradsComputed = true := by
  induction S generalizing n s with
  | done x => simp [runSearchUntil] at h
  | phi α next ih =>
    rw [runSearchUntil] at h
    rcases hp : phiUntil C f α n s with ⟨s1, m1, _ | e | v⟩
    · rw [hp] at h
      simp only [Prod.mk.injEq] at h
      rw [← h.1]
      obtain ⟨⟨d, h1, h2⟩, h3⟩ := phiUntil_none C f α n s s1 m1 hp
      exact ⟨⟨α, d, h1, h2⟩, h3.trans hg⟩
    · rw [hp] at h; simp at h
    · rw [hp] at h
      have hk := phiUntil_ok C f α n s s1 m1 _ hp
      have hx := phi_points C f α s
      rw [hk] at hx
      have := ih v m1 s1 (by rw [hx.2, hg]; rfl) h
      rw [hx.1] at this
      exact this
  | derphi α next ih =>
    rw [runSearchUntil] at h
    rcases hp : derphiUntil C f α n s with ⟨s1, m1, _ | e | v⟩
    · rw [hp] at h
      simp only [Prod.mk.injEq] at h
      rw [← h.1]
      obtain ⟨⟨d, h1, h2⟩, h3⟩ := derphiUntil_none C f α n s s1 m1 hp
      exact ⟨⟨α, d, h1, h2⟩, h3.trans hg⟩
    · rw [hp] at h; simp at h
    · rw [hp] at h
      have hk := derphiUntil_ok C f α n s s1 m1 _ hp
      have hx := derphi_points C f α s
      rw [hk] at hx
      have := ih v m1 s1 (by rw [hx.2, hg]; rfl) h
      rw [hx.1] at this
      exact this

theorem initLoss_points (rec : Bool) (s s' : LS κ ι) (r : Option ℝ × ℝ)
    (h : initLoss C f rec s = (s', .ok r)) : s'.points = s.points ∧ s'.gradsComputed = true := by
  unfold initLoss at h
  rcases hs : startGrads C f rec s with e | ⟨l, g⟩
  · rw [hs] at h; simp at h
  · rw [hs] at h
    simp only at h
    generalize hs1 : ({ s with
      stepSizeDic := [],
      par := fun a =>
        { s.par a with
          prevGradNormSq := match (s.par a).grad with
            | some old => some ((C.man a).inner (s.par a).point old old)
            | none => (s.par a).prevGradNormSq
          grad := some (g a) } } : LS κ ι) = s1 at h
    have hp1 : s1.points = s.points := by rw [← hs1]; rfl
    have hc : (computeSearchDirection C s1 g).1.points = s1.points := by
      unfold computeSearchDirection
      rcases proposeDirection C s1 g with e | d
      · rfl
      · simp only
        split <;> rfl
    rcases hd : computeSearchDirection C s1 g with ⟨s2, e | d0⟩
    · rw [hd] at h; simp at h
    · rw [hd] at h hc
      simp only [Prod.mk.injEq] at h
      rw [← h.1]
      exact ⟨hc.trans hp1, rfl⟩

/-- **C124** (line search).  "When the closure raises, the parameters keep their values" is false
(`C124_counterexample_linesearch`).  What holds: when it raises in the first evaluation nothing has changed;
later it leaves the parameters at the trial point of the evaluation: that of the starting point along the search direction, or, in the evaluation that
follows the move, that of the point the step would have ended in.  In the search the optimiser also
takes its gradients for computed.  Missing from the property: the parameters are not rolled back. -/
theorem C124_linesearch_partial (force rec noStep : Bool) (n : ℕ) (s s' : LS κ ι) (m : ℕ)
    (h : stepUntil C f force rec noStep n s = (s', m, none)) :
    s' = s ∨
    (∃ (α : ℝ) (d : ∀ a, ι a → ℝ), (∀ a, (s'.par a).searchDir = some (d a)) ∧
      s'.points = trial C d α s.points ∧ s'.gradsComputed = true) ∨
    (∃ (α : ℝ) (d : ∀ a, ι a → ℝ), (∀ a, (s'.par a).searchDir = some (d a)) ∧
      s'.points = trial C d α (step C f force rec noStep s).1.points) := by
  unfold stepUntil at h
  rcases hi : initLossUntil C f rec n s with ⟨s1, m1, _ | e | ⟨p0, d0⟩⟩
  · rw [hi] at h
    simp only [Prod.mk.injEq] at h
    left
    unfold initLossUntil at hi
    split at hi
    · rcases n with _ | n
      · simp only [Prod.mk.injEq] at hi
        rw [← h.1, hi.1]
      · simp at hi
    · simp at hi
  · rw [hi] at h; simp at h
  · rw [hi] at h
    have hi' := initLossUntil_ok C f rec n s s1 m1 _ hi
    obtain ⟨q1, q2⟩ := initLoss_points C f rec s s1 _ hi'
    simp only at h
    rcases hr : runSearchUntil C f (C.method ⟨p0, d0, s1.oldPhi0, s1.oldDerphi0, s1.lastStepSize⟩) m1
        { s1 with stepSizeDic := [] } with ⟨s2, m2, _ | e | x⟩
    · rw [hr] at h
      simp only [Prod.mk.injEq] at h
      obtain ⟨⟨α, d, k1, k2⟩, k3⟩ := runSearchUntil_none C f _ _
        { s1 with stepSizeDic := [] } _ _ q2 hr
      right; left
      rw [← h.1]
      refine ⟨α, d, k1, ?_, k3⟩
      rw [k2]
      change trial C d α s1.points = _
      rw [q1]
    · rw [hr] at h; simp at h
    · rw [hr] at h
      right; right
      have hr' := runSearchUntil_ok C f _ _ _ _ _ _ hr
      have hstep : step C f force rec noStep s = conclude C f force noStep p0 d0 x s2 := by
        unfold step
        rw [hi']
        simp only
        rw [hr']
      rw [hstep]
      simp only at h
      unfold concludeUntil at h
      unfold conclude
      rcases ha : afterSearch C force p0 d0 x s2 with ⟨s3, α, redo⟩
      rw [ha] at h
      simp only at h ⊢
      rcases hc : commit C noStep redo α s3 with e | s4
      · rw [hc] at h; simp at h
      · rw [hc] at h
        simp only at h ⊢
        rcases hs : stabilizeAfter C s4 with ⟨s5, _ | e⟩
        · rw [hs] at h
          simp only at h ⊢
          unfold reportUntil at h
          unfold report
          rcases α with _ | α
          · simp at h
          · simp only at h ⊢
            rcases hp : phiUntil C f α m2 s5 with ⟨s6, m6, _ | e | v⟩
            · rw [hp] at h
              simp only [Prod.mk.injEq] at h
              obtain ⟨⟨d, k1, k2⟩, -⟩ := phiUntil_none C f α m2 s5 s6 m6 hp
              refine ⟨α, d, by rw [← h.1]; exact k1, ?_⟩
              rw [← h.1, k2]
              have hx := (phi_points C f α s5).1
              rcases hq : phi C f α s5 with ⟨s7, e | v⟩ <;> rw [hq] at hx <;> rw [← hx] <;> rfl
            · rw [hp] at h; simp at h
            · rw [hp] at h; simp at h
        · rw [hs] at h; simp at h

/-- **C124** (the next step).  An optimiser that takes its gradients for computed although a parameter has
none from a trial, as Armijo searches are left by an interrupted trial, raises `KeyError` in every
further `step` without `recompute_gradients=True`, whatever the closure, and stays like that. -/
theorem C124_linesearch_stuck (force noStep : Bool) (s : LS κ ι) (hg : s.gradsComputed = true)
    (hn : ∃ a, (s.par a).newGrad = none) :
    step C f force false noStep s = (s, .error .keyError) := by
  unfold step initLoss startGrads
  simp [hg, hn]

/-! ### The counterexample -/

/-- Minimising `x²` from 1 with an Armijo search that tries the step size 1 and takes it. -/
noncomputable def parabola : Config Unit (fun _ => Unit) where
  man _ := euclidean Unit
  isManifold _ := false
  method _ := .phi 1 fun _ => .done (some 1)
  cg := cgConstant 0
  computeDerphi := false
  transportGrad := false
  transportSearchDirection := false
  fallbackStepsize := 1
  stabilize := none

/-- The loss `x²`. -/
noncomputable def square : Closure Unit (fun _ => Unit) :=
  ⟨fun x => x () () ^ 2, fun x a => 2 • x a⟩

/-- The optimiser as constructed, at 1. -/
noncomputable def fresh : LS Unit (fun _ => Unit) := { par := fun _ => { point := 1 } }

/-- The optimiser after the exception. -/
noncomputable def crashed : LS Unit (fun _ => Unit) :=
  { par := fun _ => { point := fun _ => -1, searchDir := some fun _ => -2, grad := some fun _ => 2 },
    gradsComputed := true }

theorem parabola_init : initLoss parabola square false fresh =
    ({ par := fun _ => { point := 1, searchDir := some fun _ => -2, grad := some fun _ => 2 },
       gradsComputed := true }, .ok (some 1, -4)) := by
  have h2 : (fun _ => 2 : Unit → ℝ) = 2 • (1 : Unit → ℝ) := by funext; simp
  have hd : (fun _ => -2 : Unit → ℝ) = -(2 • (1 : Unit → ℝ)) := by funext; simp
  have hp : proposeDirection parabola
      ({ par := fun _ => { point := 1, grad := some (2 • (1 : Unit → ℝ)) } } : LS Unit (fun _ => Unit))
      (fun _ => 2 • (1 : Unit → ℝ)) = .ok fun _ => -(2 • (1 : Unit → ℝ)) := by
    unfold proposeDirection
    rw [if_pos ⟨(), rfl⟩]
    rfl
  have hsl : slope parabola
      ({ par := fun _ => { point := 1, grad := some (2 • (1 : Unit → ℝ)) } } : LS Unit (fun _ => Unit))
      (fun _ => 2 • (1 : Unit → ℝ)) (fun _ => -(2 • (1 : Unit → ℝ))) = -4 := by
    simp [slope, parabola, euclidean]
    norm_num
  have hc : computeSearchDirection parabola
      ({ par := fun _ => { point := 1, grad := some (2 • (1 : Unit → ℝ)) } } : LS Unit (fun _ => Unit))
      (fun _ => 2 • (1 : Unit → ℝ)) =
      ({ par := fun _ =>
          { point := 1, searchDir := some (-(2 • (1 : Unit → ℝ))), grad := some (2 • (1 : Unit → ℝ)) } },
        .ok (-4)) := by
    unfold computeSearchDirection
    rw [hp]
    simp only
    rw [hsl, if_neg (by norm_num)]
  rw [h2, hd]
  unfold initLoss
  have hs : startGrads parabola square false fresh = .ok (some 1, fun _ => 2 • (1 : Unit → ℝ)) := by
    simp [startGrads, fresh, square, LS.points, parabola, euclidean]
  rw [hs]
  simp only [fresh]
  rw [hc]

/-- **C124, counterexample for the line search.**  The closure raises in the trial evaluation: the
parameter, 1 before, is left at the trial point -1, and the next `step` with an intact closure raises
`KeyError`. -/
theorem C124_counterexample_linesearch :
    fresh.points () () = 1 ∧ ∃ s', stepUntil parabola square false false false 1 fresh = (s', 0, none) ∧
      s'.points () () = -1 ∧
      step parabola square false false false s' = (s', .error .keyError) := by
  refine ⟨rfl, crashed, ?_, rfl, C124_linesearch_stuck _ _ _ _ _ rfl ⟨(), rfl⟩⟩
  have hi : initLossUntil parabola square false 1 fresh =
      ({ par := fun _ => { point := 1, searchDir := some fun _ => -2, grad := some fun _ => 2 },
         gradsComputed := true }, 0, some (.ok (some 1, -4))) := by
    unfold initLossUntil
    rw [if_pos (show (false || !fresh.gradsComputed) = true from rfl)]
    simp only
    rw [parabola_init]
  unfold stepUntil
  rw [hi]
  simp only [parabola]
  rw [runSearchUntil]
  have hm : moveTrial (euclidean Unit) false 1
      { point := 1, searchDir := some fun _ => -2, grad := some fun _ => 2 } (fun _ => -2) =
      { point := fun _ => -1, searchDir := some fun _ => -2, grad := some fun _ => 2 } := by
    simp only [moveTrial, euclidean, Bool.false_eq_true, if_false, Par.mk.injEq, and_true]
    funext
    norm_num
  simp only [phiUntil, dicGet, List.find?_nil, Option.map_none, reduceCtorEq, exists_false, if_false,
    Option.getD_some, hm, crashed]

end Geoopt.C124
