import Verif.Props.C63
import Mathlib.Algebra.BigOperators.Fin
import Mathlib.Analysis.Calculus.Deriv.Basic
import Mathlib.Analysis.Calculus.Deriv.Pow
import Mathlib.Analysis.Calculus.Deriv.Add
import Mathlib.Analysis.Calculus.Deriv.Mul

/-!
# C63: where the line search does not do what it says

All on one real parameter with the Euclidean manifold and the loss `x²/2`.
-/

open Geoopt Geoopt.LineSearch

namespace C63Cx

/-- `f(x) = x²/2`. -/
noncomputable def quad : Closure Unit (fun _ => Unit) :=
  ⟨fun x => x () () ^ 2 / 2, fun x _ _ => x () ()⟩

/-- Steepest descent on one plain parameter. -/
noncomputable def conf (m : Info → Search) (b : Bool) : Config Unit (fun _ => Unit) where
  man _ := euclidean Unit
  isManifold _ := false
  method := m
  cg := cgConstant 0
  computeDerphi := b
  transportGrad := false
  transportSearchDirection := false
  fallbackStepsize := 1
  stabilize := none

/-- The user's method that always takes the step size 1/2. -/
noncomputable def half : Info → Search := fun _ => .done (some (1 / 2))

/-- The user's method that evaluates `phi(1)` and takes the step size 1. -/
noncomputable def tryOne : Info → Search := fun _ => .phi 1 fun _ => .done (some 1)

theorem euclidean_retraction (ι : Type) [Fintype ι] : Retraction (euclidean ι) (fun _ => True) fun _ _ => True :=
  ⟨fun _ _ _ => trivial, fun _ _ => trivial, fun _ _ => trivial, fun _ _ _ => rfl, fun _ _ => trivial,
   fun _ _ _ => trivial, fun _ => rfl⟩

theorem tryOne_honest (i : Info) : (tryOne i).Honest [] := by
  simp [tryOne, Search.Honest]

/-- The state after the first step of `half` from `1`. -/
theorem half_first : ∃ s, step (conf half true) quad false false false (fresh fun _ _ => 1) =
    (s, .ok (some 0)) ∧ (s.points = fun _ _ => 1 / 2) ∧ s.gradsComputed = true ∧
    s.lastStep = some (1 / 2) ∧ (s.par ()).newGrad = some 0 ∧ (s.par ()).newPoint = some 0 ∧
    (s.par ()).searchDir = some (fun _ => -1) := by
  simp [step, initLoss, startGrads, fresh, LS.points, computeSearchDirection, proposeDirection, slope,
    conf, euclidean, quad, runSearch, half, conclude, afterSearch, commit, moveAll, moveParam,
    stabilizeAfter, report, phi, dicGet, moveTrial, storeGrad]
  refine ⟨by norm_num, ?_, ?_, ?_, ?_⟩
  · funext a i; simp [LS.points]; norm_num
  · funext i; simp; norm_num
  · funext i; simp; norm_num
  · funext i; simp

/-- The state after a first step of `tryOne` from `1` with `no_step=True`. -/
theorem noStep_first : ∃ s r, step (conf tryOne true) quad false false true (fresh fun _ _ => 1) =
    (s, .ok r) ∧ (s.points = fun _ _ => 1) ∧ s.gradsComputed = true ∧
    (s.par ()).newGrad = some 0 ∧ (s.par ()).searchDir = some (fun _ => -1) := by
  simp [step, initLoss, startGrads, fresh, LS.points, computeSearchDirection, proposeDirection, slope,
    conf, euclidean, quad, runSearch, tryOne, conclude, afterSearch, commit,
    stabilizeAfter, report, phi, dicGet, moveTrial, storeGrad]
  refine ⟨?_, ?_, ?_⟩ <;> funext a <;> simp [LS.points]

end C63Cx

/-- A method that returns a step size without having tried it: the step moves from 1 to 1/2, where the
loss is 1/8, and returns the loss at the point one step further on. -/
theorem C63_reported_loss_counterexample :
    ∃ (C : Config Unit fun _ => Unit) (f : Closure Unit fun _ => Unit) (x₀ : Unit → Unit → ℝ)
      (s : LS Unit fun _ => Unit) (out : ℝ),
      (∀ a, Retraction (C.man a) (fun _ => True) fun _ _ => True) ∧
      step C f false false false (fresh x₀) = (s, .ok (some out)) ∧ out ≠ f.loss s.points := by
  obtain ⟨s, h, hp, -⟩ := C63Cx.half_first
  refine ⟨_, _, _, s, 0, fun _ => C63Cx.euclidean_retraction _, h, ?_⟩
  rw [hp]; norm_num [C63Cx.quad]

/-- The next step of that method then starts from the gradient at the wrong point, and does not move
along the direction it computed. -/
theorem C63_stale_gradient_counterexample :
    ∃ (C : Config Unit fun _ => Unit) (f : Closure Unit fun _ => Unit) (x₀ : Unit → Unit → ℝ)
      (s s' : LS Unit fun _ => Unit) (out : Option ℝ) (α : ℝ),
      (∀ a, Retraction (C.man a) (fun _ => True) fun _ _ => True) ∧ Reach C f x₀ s ∧
      step C f false false false s = (s', .ok out) ∧ s'.history = s.history ++ [some α] ∧
      (s'.par ()).grad ≠ some ((C.man ()).egrad2rgrad (s.points ()) (f.grad s.points ())) ∧
      ∀ d, (s'.par ()).searchDir = some d →
        s'.points () ≠ (C.man ()).retr (s.points ()) (α • d) := by
  obtain ⟨s, h, hp, hg, hl, hn, hq, hd⟩ := C63Cx.half_first
  have hp' : (s.par ()).point = fun _ => 1 / 2 := congrFun hp ()
  have hr : Reach (C63Cx.conf C63Cx.half true) C63Cx.quad (fun _ _ => 1) s := .step false .start h
  generalize hs' : step (C63Cx.conf C63Cx.half true) C63Cx.quad false false false s = w
  have hw := hs'
  simp [step, initLoss, startGrads, LS.points, computeSearchDirection, proposeDirection, slope,
    C63Cx.conf, euclidean, C63Cx.quad, runSearch, C63Cx.half, conclude, afterSearch, commit, moveAll,
    moveParam, stabilizeAfter, report, phi, dicGet, moveTrial, storeGrad, hg, hl, hn, hq, hd, hp',
    cgConstant, cgDirection] at hw
  obtain ⟨s', r⟩ := w
  simp only [Prod.mk.injEq] at hw
  obtain ⟨hw1, rfl⟩ := hw
  refine ⟨_, _, _, s, s', _, 1 / 2, fun _ => C63Cx.euclidean_retraction _, hr, hs', ?_, ?_, ?_⟩
  · rw [← hw1]; simp
  · rw [← hw1]
    simp only [ne_eq, Option.some.injEq]
    intro h'
    have := congrFun h' ()
    simp [C63Cx.conf, euclidean, C63Cx.quad, hp] at this
  · intro d hd h'
    rw [← hw1] at hd h'
    have := congrFun h' ()
    simp at hd
    subst hd
    simp [LS.points, C63Cx.conf, euclidean, hp'] at this

/-- After `step(no_step=True)`, the next step starts from the gradient at the point where no step was
taken to; the method has tried the step size it returns. -/
theorem C63_no_step_counterexample :
    ∃ (C : Config Unit fun _ => Unit) (f : Closure Unit fun _ => Unit) (x₀ : Unit → Unit → ℝ)
      (s s' : LS Unit fun _ => Unit) (out out' : Option ℝ),
      (∀ a, Retraction (C.man a) (fun _ => True) fun _ _ => True) ∧ (∀ i, (C.method i).Honest []) ∧
      step C f false false true (fresh x₀) = (s, .ok out) ∧ s.points = x₀ ∧
      step C f false false false s = (s', .ok out') ∧
      (s'.par ()).grad ≠ some ((C.man ()).egrad2rgrad (s.points ()) (f.grad s.points ())) := by
  obtain ⟨s, r, h, hp, hg, hn, hd⟩ := C63Cx.noStep_first
  have hp' : (s.par ()).point = fun _ => 1 := congrFun hp ()
  generalize hs' : step (C63Cx.conf C63Cx.tryOne true) C63Cx.quad false false false s = w
  obtain ⟨s', r'⟩ := w
  have hw := hs'
  simp [step, initLoss, startGrads, LS.points, computeSearchDirection, proposeDirection, slope,
    C63Cx.conf, euclidean, C63Cx.quad, runSearch, C63Cx.tryOne, conclude, afterSearch, commit,
    moveAll, moveParam, stabilizeAfter, report, phi, dicGet, moveTrial, storeGrad, cgConstant,
    cgDirection, hp', hg, hn, hd] at hw
  obtain ⟨hw1, rfl⟩ := hw
  refine ⟨_, _, _, s, s', r, _, fun _ => C63Cx.euclidean_retraction _, C63Cx.tryOne_honest, h, hp, hs',
    ?_⟩
  rw [← hw1]
  simp only [ne_eq, Option.some.injEq]
  intro h'
  have := congrFun h' ()
  simp [C63Cx.conf, euclidean, C63Cx.quad, hp] at this

/-- `derphi(α)` returns the derivative at the step size evaluated last: after `phi(1)` and `phi(2)`,
`derphi(1)` is 1, while the derivative of the line objective at 1 is 0. -/
theorem C63_derphi_counterexample :
    ∃ (C : Config Unit fun _ => Unit) (f : Closure Unit fun _ => Unit) (s s' : LS Unit fun _ => Unit)
      (d : Unit → ℝ) (v : ℝ),
      (s.par ()).searchDir = some d ∧ s.stepSizeDic = [] ∧
      runSearch C f (.phi 1 fun _ => .phi 2 fun _ => .derphi 1 fun v => .done (some v)) s =
        (s', .ok (some v)) ∧
      HasDerivAt (fun α : ℝ => f.loss fun _ => (C.man ()).retr (s.points ()) (α • d)) 0 1 ∧ v ≠ 0 := by
  let s : LS Unit fun _ => Unit :=
    { par := fun _ => { point := fun _ => 1, searchDir := some fun _ => -1 } }
  generalize hw : runSearch (C63Cx.conf C63Cx.half true) C63Cx.quad
    (.phi 1 fun _ => .phi 2 fun _ => .derphi 1 fun v => .done (some v)) s = w
  obtain ⟨s', r⟩ := w
  have h := hw
  simp [runSearch, derphi, phi, dicGet, s, C63Cx.conf, moveTrial, storeGrad, euclidean, C63Cx.quad] at h
  obtain ⟨h1, rfl⟩ := h
  refine ⟨_, _, s, s', fun _ => -1, _, rfl, rfl, hw, ?_, ?_⟩
  · have h2 : HasDerivAt (fun α : ℝ => (1 + α * -1) ^ 2 / 2) 0 1 := by
      have := ((((hasDerivAt_id (1 : ℝ)).mul_const (-1)).const_add 1).pow 2).div_const 2
      simpa using this
    simpa [s, LS.points, C63Cx.conf, euclidean, C63Cx.quad] using h2
  · norm_num

/-- With the conjugate gradient rule `"constant"` and a coefficient other than zero, and a method that
does not need derivatives, the second step raises `KeyError`: the old search direction is not
transported for this rule. -/
theorem C63_constant_cg_counterexample :
    ∃ (C : Config Unit fun _ => Unit) (f : Closure Unit fun _ => Unit) (x₀ : Unit → Unit → ℝ)
      (s : LS Unit fun _ => Unit), C.cg = cgConstant 1 ∧ (∀ i, (C.method i).Honest []) ∧
      Reach C f x₀ s ∧ ∀ force rc noStep, (step C f force rc noStep s).2 = .error .keyError := by
  let C : Config Unit fun _ => Unit := { C63Cx.conf C63Cx.tryOne false with cg := cgConstant 1 }
  have h1 : ∃ s r, step C C63Cx.quad false false false (fresh fun _ _ => 1) = (s, .ok r) ∧
      (s.par ()).searchTransported = none ∧ (s.par ()).searchDir = some fun _ => -1 := by
    simp [C, step, initLoss, startGrads, fresh, LS.points, computeSearchDirection, proposeDirection,
      slope, C63Cx.conf, euclidean, C63Cx.quad, runSearch, C63Cx.tryOne, conclude, afterSearch, commit,
      moveAll, moveParam, stabilizeAfter, report, phi, dicGet, moveTrial]
    funext i; simp
  obtain ⟨s, r, h, ht, hd⟩ := h1
  have hg : s.gradsComputed = false := by
    have h' := h
    simp [C, step, initLoss, startGrads, fresh, LS.points, computeSearchDirection, proposeDirection,
      slope, C63Cx.conf, euclidean, C63Cx.quad, runSearch, C63Cx.tryOne, conclude, afterSearch, commit,
      moveAll, moveParam, stabilizeAfter, report, phi, dicGet, moveTrial] at h'
    rw [← h'.1]
  refine ⟨C, C63Cx.quad, _, s, rfl, C63Cx.tryOne_honest, .step false .start h, ?_⟩
  intro force rc noStep
  simp [C, step, initLoss, startGrads, hg, computeSearchDirection, proposeDirection, C63Cx.conf,
    cgConstant, hd, ht]

section
variable {κ : Type} [Fintype κ] {ι : κ → Type}

/-- With `stabilize=1` and at least one parameter on a manifold no call of `step` ever succeeds. -/
theorem C63_stabilize_counterexample (C : Config κ ι) (f : Closure κ ι) (hs : C.stabilize = some 1)
    {a : κ} (ha : C.isManifold a = true) (force rc noStep : Bool) (s : LS κ ι) :
    ∃ e, (step C f force rc noStep s).2 = .error e := by
  have hst : ∀ s : LS κ ι, (stabilizeAfter C s).2 = some .runtimeError := by
    intro s
    unfold stabilizeAfter
    rw [hs]
    simp only [Nat.zero_add, Nat.mod_one, true_and]
    rw [if_pos ⟨a, ha⟩]
  have hc : ∀ p0 δ r (s : LS κ ι), ∃ e, (conclude C f force noStep p0 δ r s).2 = .error e := by
    intro p0 δ r s
    unfold conclude
    obtain ⟨s1, α, redo⟩ := afterSearch C force p0 δ r s
    dsimp only
    cases commit C noStep redo α s1 with
    | error e => exact ⟨e, rfl⟩
    | ok s2 =>
      have := hst s2
      dsimp only
      generalize stabilizeAfter C s2 = w at this
      obtain ⟨s3, o⟩ := w
      dsimp only at this
      subst this
      exact ⟨_, rfl⟩
  unfold step
  obtain ⟨s1, r1⟩ := initLoss C f rc s
  cases r1 with
  | error e => exact ⟨e, rfl⟩
  | ok v =>
    obtain ⟨p0, δ⟩ := v
    dsimp only
    generalize runSearch C f _ _ = w
    obtain ⟨s2, r2⟩ := w
    cases r2 with
    | error e => exact ⟨e, rfl⟩
    | ok v => exact hc _ _ _ _

end

/-- The conditions of the theorems on C63 are met by a run that moves: from 1 to 0 and then no further. -/
example : ∃ s s' r, Reach (C63Cx.conf C63Cx.tryOne true) C63Cx.quad (fun _ _ => 1) s ∧
    (∀ i, ((C63Cx.conf C63Cx.tryOne true).method i).Honest []) ∧
    step (C63Cx.conf C63Cx.tryOne true) C63Cx.quad false false false s = (s', .ok r) ∧
    s'.points ≠ s.points := by
  generalize hw : step (C63Cx.conf C63Cx.tryOne true) C63Cx.quad false false false
    (fresh fun _ _ => 1) = w
  obtain ⟨s', r⟩ := w
  have h := hw
  simp [step, initLoss, startGrads, fresh, LS.points, computeSearchDirection, proposeDirection,
      slope, C63Cx.conf, euclidean, C63Cx.quad, runSearch, C63Cx.tryOne, conclude, afterSearch, commit,
      moveAll, moveParam, stabilizeAfter, report, phi, dicGet, moveTrial, storeGrad] at h
  obtain ⟨h1, rfl⟩ := h
  refine ⟨_, s', _, .start, C63Cx.tryOne_honest, hw, fun h2 => ?_⟩
  have := congrFun (congrFun h2 ()) ()
  rw [← h1] at this
  simp [LS.points, fresh] at this
