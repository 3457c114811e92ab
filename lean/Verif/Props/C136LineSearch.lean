import Verif.Props.C136
import Verif.Props.C63Manifolds

/-!
C136 for the line search: two losses that are the same on the manifolds.
-/

namespace Geoopt.C136
open Geoopt.Extension Geoopt.LineSearch

set_option linter.unusedDecidableInType false

variable {κ : Type} [Fintype κ] {ι : κ → Type} {C : Config κ ι} {f f' : Closure κ ι}
variable {On : ∀ a, (ι a → ℝ) → Prop} {Tan : ∀ a, (ι a → ℝ) → (ι a → ℝ) → Prop}

/-- The losses and Riemannian gradients are the same on the manifolds. -/
def Agree (C : Config κ ι) (On : ∀ a, (ι a → ℝ) → Prop) (f f' : Closure κ ι) : Prop :=
  ∀ x, (∀ a, On a (x a)) → f'.loss x = f.loss x ∧
    ∀ a, (C.man a).egrad2rgrad (x a) (f'.grad x a) = (C.man a).egrad2rgrad (x a) (f.grad x a)

theorem agree_phi (hA : Agree C On f f') (hR : ∀ a, Retraction (C.man a) (On a) (Tan a)) {x d : ∀ a, ι a → ℝ}
    (hx : ∀ a, On a (x a)) (hT : ∀ a, Tan a (x a) (d a)) {s : LS κ ι} (hp : ∀ a, (s.par a).point = x a)
    (hd : ∀ a, (s.par a).searchDir = some (d a)) (α : ℝ) : phi C f' α s = phi C f α s := by
  unfold phi
  cases dicGet s.stepSizeDic α with
  | some v => rfl
  | none =>
    dsimp only
    have hpt : ∀ a, (moveTrial (C.man a) C.computeDerphi α (s.par a) ((s.par a).searchDir.getD 0)).point =
        C63.trialPoint C x d α a := by
      intro a
      rw [C63.moveTrial_point (hR a) _ _ _ _ (by rw [hp a]; exact hx a) (by rw [hp a, hd a]; exact hT a), hp a, hd a]
      rfl
    obtain ⟨e1, e2⟩ := hA (C63.trialPoint C x d α) fun a => (hR a).on (hx a) ((hR a).smul α (hT a))
    have e3 : ∀ a, storeGrad (C.man a) (moveTrial (C.man a) C.computeDerphi α (s.par a) ((s.par a).searchDir.getD 0))
        (f'.grad (C63.trialPoint C x d α) a) = storeGrad (C.man a) (moveTrial (C.man a) C.computeDerphi α (s.par a)
          ((s.par a).searchDir.getD 0)) (f.grad (C63.trialPoint C x d α) a) := by
      intro a
      unfold storeGrad
      rw [hpt a, e2 a]
    have e0 : (fun a => (moveTrial (C.man a) C.computeDerphi α (s.par a) ((s.par a).searchDir.getD 0)).point) =
        C63.trialPoint C x d α := funext hpt
    rw [e0, e1]
    simp only [e3]

theorem agree_derphi (hA : Agree C On f f') (hR : ∀ a, Retraction (C.man a) (On a) (Tan a)) {x d : ∀ a, ι a → ℝ}
    (hx : ∀ a, On a (x a)) (hT : ∀ a, Tan a (x a) (d a)) {s : LS κ ι} (hp : ∀ a, (s.par a).point = x a)
    (hd : ∀ a, (s.par a).searchDir = some (d a)) (α : ℝ) : derphi C f' α s = derphi C f α s := by
  unfold derphi
  rw [agree_phi hA hR hx hT hp hd]

theorem agree_run (hA : Agree C On f f') (hR : ∀ a, Retraction (C.man a) (On a) (Tan a)) {x d : ∀ a, ι a → ℝ}
    (hx : ∀ a, On a (x a)) (hT : ∀ a, Tan a (x a) (d a)) (S : Search) : ∀ {s : LS κ ι},
    (∀ a, (s.par a).point = x a) → (∀ a, (s.par a).searchDir = some (d a)) →
    runSearch C f' S s = runSearch C f S s := by
  induction S with
  | done r => intro s _ _; rfl
  | phi α next ih =>
    intro s hp hd
    rw [runSearch, runSearch, agree_phi hA hR hx hT hp hd]
    have := C63.same_phi (C := C) (f := f) α s
    rcases h : phi C f α s with ⟨s', e | v⟩
    · rfl
    · rw [h] at this
      exact ih v (fun a => (this.point a).trans (hp a)) fun a => (this.dir a).trans (hd a)
  | derphi α next ih =>
    intro s hp hd
    rw [runSearch, runSearch, agree_derphi hA hR hx hT hp hd]
    have := C63.same_derphi (C := C) (f := f) α s
    rcases h : derphi C f α s with ⟨s', e | v⟩
    · rfl
    · rw [h] at this
      exact ih v (fun a => (this.point a).trans (hp a)) fun a => (this.dir a).trans (hd a)

theorem agree_conclude (C : Config κ ι) (f f' : Closure κ ι) (p0 : Option ℝ) (δ : ℝ) (r : Option ℝ) (s : LS κ ι)
    (hr : ∀ α, r = some α → ∃ v, dicGet s.stepSizeDic α = some v) :
    conclude C f' false false p0 δ r s = conclude C f false false p0 δ r s := by
  unfold conclude afterSearch
  cases r with
  | none => rfl
  | some α =>
    obtain ⟨v, hv⟩ := hr α rfl
    simp only [commit, Bool.false_eq_true, if_false]
    split
    · rfl
    · rename_i s1 hs1
      have hd : s1.stepSizeDic = s.stepSizeDic := by
        unfold moveAll at hs1
        dsimp only at hs1
        split_ifs at hs1 <;> (simp only [Except.ok.injEq] at hs1; rw [← hs1])
      split
      · rfl
      · rename_i s2 hs2
        have e := C63.stabilizeAfter_ok hs2
        unfold report phi
        rw [e]
        dsimp only
        rw [hd, hv]

/-- One step from a consistent state. -/
theorem agree_step (hA : Agree C On f f') (hR : ∀ a, Retraction (C.man a) (On a) (Tan a))
    (hm : ∀ i, i.phi0 ≠ none → (C.method i).Honest []) {s s' : LS κ ι} (hs : C63.Consistent C f On Tan s) {rc : Bool} {out : Option ℝ}
    (h : step C f false rc false s = (s', .ok out)) : step C f' false rc false s = (s', .ok out) := by
  have e0 : initLoss C f' rc s = initLoss C f rc s := by
    have e : startGrads C f' rc s = startGrads C f rc s := by
      obtain ⟨q1, q2⟩ := hA s.points hs.on
      unfold startGrads
      rw [q1]
      have q3 : (fun a => (C.man a).egrad2rgrad (s.par a).point (f'.grad s.points a)) =
        fun a => (C.man a).egrad2rgrad (s.par a).point (f.grad s.points a) := funext q2
      rw [q3]
    unfold initLoss
    rw [e]
  unfold step at h ⊢
  rw [e0]
  split at h
  · simp at h
  · rename_i s1 l δ h1
    obtain ⟨rfl, hh, hpl, hg1, hpt, hgr, htr, d, hd, hT, -⟩ := C63.initLoss_state hR hs h1
    rw [agree_run hA hR hs.on hT _ (s := { s1 with stepSizeDic := [] }) hpt hd]
    split at h
    · simp at h
    · rename_i s2 r h2
      have ht0 : C63.Track C f s.points d [] { s1 with stepSizeDic := [] } :=
        ⟨hpt, hd, by simp, by simp, by simp, hg1⟩
      obtain ⟨tried, hne, hr, ht⟩ := C63.track_run hR hs.on hT _ ht0 (hm _ (by simp)) h2
      rw [agree_conclude C f f']
      · exact h
      · intro α hα
        obtain ⟨v, hv⟩ := ht.keys α (hr α hα)
        exact C63.dicGet_of_mem hv

variable [DecidableEq κ] [∀ a, Fintype (ι a)]

theorem agree_of {M : ∀ a, Optim.Manifold (ι a)} {inner : ∀ a, (ι a → ℝ) → (ι a → ℝ) → (ι a → ℝ) → ℝ}
    (hC : ∀ a, C.man a = C63Manifolds.ofOptim (M a) (inner a)) (hs : ∀ a, SeesOnly (M a) (On a))
    (hF : SameOn On f.loss f'.loss)
    (hg : ∀ x, (∀ a, On a (x a)) → ∀ a, IsGrad (fun y => f.loss (Function.update x a y)) (x a) (f.grad x a))
    (hg' : ∀ x, (∀ a, On a (x a)) → ∀ a, IsGrad (fun y => f'.loss (Function.update x a y)) (x a) (f'.grad x a)) :
    Agree C On f f' := by
  intro x hx
  refine ⟨(hF x hx).symm, fun a => ?_⟩
  rw [hC a]
  exact (hs a _ _ (x a) _ _ (hx a) (fun y hy => hF _ fun b => by
    by_cases hb : b = a
    · subst hb; rwa [Function.update_self]
    · rw [Function.update_of_ne hb]; exact hx b) (hg x hx a) (hg' x hx a)).symm

/-- **C136, `RiemannianLineSearch`.**  For two losses that are the same on the manifolds, and the same line search
method (one that returns only step sizes it has tried): every history with one of them is a history with the
other, and a further step does the same and returns the same loss. -/
theorem C136_linesearch {M : ∀ a, Optim.Manifold (ι a)} {inner : ∀ a, (ι a → ℝ) → (ι a → ℝ) → (ι a → ℝ) → ℝ}
    (hC : ∀ a, C.man a = C63Manifolds.ofOptim (M a) (inner a)) (geo : ∀ a, Optim.Geometry (M a))
    (hrt : ∀ a x u v, ((M a).retrTransp x u v).1 = (M a).retr x u)
    (hs : ∀ a, SeesOnly (M a) (geo a).On) (hF : SameOn (fun a => (geo a).On) f.loss f'.loss)
    (hg : ∀ x, (∀ a, (geo a).On (x a)) → ∀ a, IsGrad (fun y => f.loss (Function.update x a y)) (x a) (f.grad x a))
    (hg' : ∀ x, (∀ a, (geo a).On (x a)) → ∀ a, IsGrad (fun y => f'.loss (Function.update x a y)) (x a) (f'.grad x a))
    (hm : ∀ i, i.phi0 ≠ none → (C.method i).Honest []) (hK : KeepsTangent C fun a x u => u ∈ (geo a).Tan x)
    {x₀ : ∀ a, ι a → ℝ} (h₀ : ∀ a, (geo a).On (x₀ a)) {s : LS κ ι} (h : Reach C f x₀ s) :
    Reach C f' x₀ s ∧ ∀ (recompute : Bool) (s' : LS κ ι) (out : Option ℝ),
      step C f false recompute false s = (s', .ok out) → step C f' false recompute false s = (s', .ok out) := by
  have hA := agree_of (f := f) (f' := f') hC hs hF hg hg'
  have hR : ∀ a, Retraction (C.man a) (geo a).On fun x u => u ∈ (geo a).Tan x := fun a => by
    rw [hC a]; exact C63Manifolds.retraction (geo a) (inner a) (hrt a)
  refine ⟨?_, fun rc s' out hst => agree_step hA hR hm
    (C63.reach_consistent hR hm hK h₀ h) hst⟩
  induction h with
  | start => exact .start
  | step rc h hst ih =>
    exact .step rc ih (agree_step hA hR hm (C63.reach_consistent hR hm hK h₀ h) hst)

/-- Steepest descent with Armijo backtracking on the circle: the losses `0` and `|x|² - 1` have the same histories. -/
example {x₀ : Unit → Fin 2 → ℝ} (h₀ : Sphere.OnSphere Set.univ (x₀ ())) {s : LS Unit fun _ => Fin 2} :
    let C : Config Unit fun _ => Fin 2 :=
      { man := fun _ => C63Manifolds.ofOptim (Optim.sphere none) Sphere.inner, isManifold := fun _ => true,
        method := armijoBacktracking C76.twice (1 / 10000) 0 none,
        cg := cgConstant 0, computeDerphi := false, transportGrad := false,
        transportSearchDirection := false, fallbackStepsize := 1, stabilize := none }
    Reach C ⟨fun _ => 0, fun _ _ => 0⟩ x₀ s → Reach C ⟨fun x => ∑ i, x () i ^ 2 - 1, fun x _ => (2 : ℝ) • x ()⟩ x₀ s := by
  intro C h
  have hP : Sphere.Projects (Set.univ : Set (Vec 2)) none := rfl
  obtain ⟨q1, q2, q3⟩ := circle_losses
  refine (C136_linesearch (M := fun _ => Optim.sphere none) (inner := fun _ => Sphere.inner) (fun _ => rfl)
    (fun _ => C55.sphereGeometry hP) (fun _ _ _ _ => rfl) (fun _ => C136_sphere hP) q1 (fun x hx a => ?_)
    (fun x hx a => ?_) (fun i hi => ?_) (.inl fun _ => rfl) (fun _ => h₀) h).1
  · obtain ⟨v, e, hv⟩ := (q2 x hx a).1 rfl
    cases e
    exact hv
  · obtain ⟨v, e, hv⟩ := (q3 x hx a).1 rfl
    cases e
    exact hv
  · change (armijoBacktracking C76.twice (1 / 10000) 0 none i).Honest []
    unfold armijoBacktracking
    cases hq : i.phi0 with
    | none => exact absurd hq hi
    | some p0 =>
      unfold C76.twice
      intro v
      dsimp only
      split_ifs
      · exact ⟨by simp, by simp⟩
      · intro w
        dsimp only
        split_ifs
        · exact ⟨by simp, by simp⟩
        · exact ⟨by simp, by simp⟩

end Geoopt.C136
