import Verif.Spec.LineSearch
import Mathlib.Tactic.NormNum
import Mathlib.Tactic.Ring
import Mathlib.Tactic.Linarith
import Mathlib.Algebra.Order.BigOperators.Group.Finset

/-!
# C63, C64: the line search
-/

open Geoopt Geoopt.LineSearch

namespace C63

variable {κ : Type} [Fintype κ] {ι : κ → Type} {C : Config κ ι} {f : Closure κ ι}

/-! ### Trials -/

/-- What a trial leaves alone. -/
structure Same (s s' : LS κ ι) : Prop where
  point : ∀ a, (s'.par a).point = (s.par a).point
  dir : ∀ a, (s'.par a).searchDir = (s.par a).searchDir
  grad : ∀ a, (s'.par a).grad = (s.par a).grad
  prevLoss : s'.prevLoss = s.prevLoss
  history : s'.history = s.history
  groupStep : s'.groupStep = s.groupStep

theorem Same.refl (s : LS κ ι) : Same s s :=
  ⟨fun _ => rfl, fun _ => rfl, fun _ => rfl, rfl, rfl, rfl⟩

theorem Same.trans {s s' s'' : LS κ ι} (h : Same s s') (h' : Same s' s'') : Same s s'' :=
  ⟨fun a => (h'.point a).trans (h.point a), fun a => (h'.dir a).trans (h.dir a),
   fun a => (h'.grad a).trans (h.grad a), h'.prevLoss.trans h.prevLoss,
   h'.history.trans h.history, h'.groupStep.trans h.groupStep⟩

theorem moveTrial_keep {ι : Type} (M : Manifold ι) (b : Bool) (α : ℝ) (p : Par ι) (d : ι → ℝ) :
    (moveTrial M b α p d).searchDir = p.searchDir ∧ (moveTrial M b α p d).grad = p.grad := by
  unfold moveTrial
  split_ifs <;> exact ⟨rfl, rfl⟩

theorem same_phi (α : ℝ) (s : LS κ ι) : Same s (phi C f α s).1 := by
  unfold phi
  cases dicGet s.stepSizeDic α with
  | some v => exact Same.refl s
  | none =>
    dsimp only
    split_ifs with h1 h2
    · exact Same.refl s
    · exact ⟨fun _ => rfl, fun a => (moveTrial_keep _ _ _ _ _).1,
        fun a => (moveTrial_keep _ _ _ _ _).2, rfl, rfl, rfl⟩
    · exact ⟨fun _ => rfl, fun a => (moveTrial_keep _ _ _ _ _).1,
        fun a => (moveTrial_keep _ _ _ _ _).2, rfl, rfl, rfl⟩

theorem same_derphi (α : ℝ) (s : LS κ ι) : Same s (derphi C f α s).1 := by
  unfold derphi
  split_ifs with h
  · exact Same.refl s
  · have := same_phi (C := C) (f := f) α s
    rcases hp : phi C f α s with ⟨s', e | v⟩ <;> rw [hp] at this <;> exact this

theorem same_run (S : Search) : ∀ s : LS κ ι, Same s (runSearch C f S s).1 := by
  induction S with
  | done r => intro s; exact Same.refl s
  | phi α next ih =>
    intro s
    have := same_phi (C := C) (f := f) α s
    rw [runSearch]
    rcases hp : phi C f α s with ⟨s', e | v⟩ <;> rw [hp] at this
    · exact this
    · exact this.trans (ih v s')
  | derphi α next ih =>
    intro s
    have := same_derphi (C := C) (f := f) α s
    rw [runSearch]
    rcases hp : derphi C f α s with ⟨s', e | v⟩ <;> rw [hp] at this
    · exact this
    · exact this.trans (ih v s')

end C63

section
variable {κ : Type} [Fintype κ] {ι : κ → Type} {C : Config κ ι} {f : Closure κ ι}

/-- Whatever values a line search method asks for, and even if one of them raises, the parameters and
the search direction are afterwards what they were. -/
theorem C63_trials (S : Search) (s : LS κ ι) :
    (runSearch C f S s).1.points = s.points ∧
    ∀ a, ((runSearch C f S s).1.par a).searchDir = (s.par a).searchDir :=
  ⟨funext fun a => (C63.same_run S s).point a, (C63.same_run S s).dir⟩

end

namespace C63

variable {κ : Type} [Fintype κ] {ι : κ → Type} {C : Config κ ι} {f : Closure κ ι}
variable {On : ∀ a, (ι a → ℝ) → Prop} {Tan : ∀ a, (ι a → ℝ) → (ι a → ℝ) → Prop}

/-- The trial point for a step size. -/
def trialPoint (C : Config κ ι) (x d : ∀ a, ι a → ℝ) (α : ℝ) : ∀ a, ι a → ℝ :=
  fun a => (C.man a).retr (x a) (α • d a)

/-- What holds while a line search method runs from `x` in direction `d`. -/
structure Track (C : Config κ ι) (f : Closure κ ι) (x d : ∀ a, ι a → ℝ) (tried : List ℝ)
    (s : LS κ ι) : Prop where
  point : ∀ a, (s.par a).point = x a
  dir : ∀ a, (s.par a).searchDir = some (d a)
  dic : ∀ e ∈ s.stepSizeDic, e.2 = f.loss (trialPoint C x d e.1)
  keys : ∀ α ∈ tried, ∃ v, (α, v) ∈ s.stepSizeDic
  last : s.stepSizeDic ≠ [] → ∃ α v, s.lastStep = some α ∧ (α, v) ∈ s.stepSizeDic ∧ ∀ a,
    (s.par a).newPoint = some (trialPoint C x d α a) ∧ (C.computeDerphi = true →
      (s.par a).newGrad = some ((C.man a).egrad2rgrad (trialPoint C x d α a)
        (f.grad (trialPoint C x d α) a)))
  grads : s.gradsComputed = true

theorem mem_of_dicGet {d : List (ℝ × ℝ)} {α v : ℝ} (h : dicGet d α = some v) : (α, v) ∈ d := by
  classical
  unfold dicGet at h
  rw [Option.map_eq_some_iff] at h
  obtain ⟨e, he, rfl⟩ := h
  have h1 := List.mem_of_find?_eq_some he
  have h2 := List.find?_some he
  simp only [decide_eq_true_eq] at h2
  rwa [← h2]

theorem dicGet_of_mem {d : List (ℝ × ℝ)} {α v : ℝ} (h : (α, v) ∈ d) : ∃ w, dicGet d α = some w := by
  classical
  unfold dicGet
  cases hf : d.find? (fun e => e.1 = α) with
  | some e => exact ⟨_, rfl⟩
  | none =>
    rw [List.find?_eq_none] at hf
    exact absurd (by simp) (hf _ h)

theorem moveTrial_point {ι : Type} {M : Manifold ι} {On : (ι → ℝ) → Prop}
    {Tan : (ι → ℝ) → (ι → ℝ) → Prop} (hR : Retraction M On Tan)
    (b : Bool) (α : ℝ) (p : Par ι) (d : ι → ℝ) (hp : On p.point) (hd : Tan p.point d) :
    (moveTrial M b α p d).point = M.retr p.point (α • d) := by
  unfold moveTrial
  split_ifs
  · dsimp only
    rw [hR.eq _ hp (hR.smul α hd), hR.fix (hR.on hp (hR.smul α hd))]
  · rfl

theorem track_phi (hR : ∀ a, Retraction (C.man a) (On a) (Tan a)) {x d : ∀ a, ι a → ℝ}
    (hx : ∀ a, On a (x a)) (hT : ∀ a, Tan a (x a) (d a)) {tried : List ℝ} {s : LS κ ι} (h : Track C f x d tried s) (α : ℝ) :
    Track C f x d (α :: tried) (phi C f α s).1 ∧
    (phi C f α s).2 = .ok (f.loss (trialPoint C x d α)) := by
  unfold phi
  cases hg : dicGet s.stepSizeDic α with
  | some v =>
    have hm := mem_of_dicGet hg
    refine ⟨⟨h.point, h.dir, h.dic, ?_, h.last, h.grads⟩, ?_⟩
    · intro β hβ
      rcases List.mem_cons.1 hβ with rfl | hβ
      · exact ⟨v, hm⟩
      · exact h.keys β hβ
    · exact congrArg _ (h.dic _ hm)
  | none =>
    dsimp only
    rw [if_neg (by rintro ⟨a, ha⟩; rw [h.dir a] at ha; cases ha)]
    have hpt : (fun a => (moveTrial (C.man a) C.computeDerphi α (s.par a)
        ((s.par a).searchDir.getD 0)).point) = trialPoint C x d α := by
      funext a
      rw [moveTrial_point (hR a) _ _ _ _ (by rw [h.point a]; exact hx a)
        (by rw [h.point a, h.dir a]; exact hT a), h.point a, h.dir a]
      rfl
    rw [hpt]
    refine ⟨⟨h.point, fun a => ?_, ?_, ?_, fun _ => ⟨α, _, rfl, List.mem_cons_self, fun a => ?_⟩,
      by simp [h.grads]⟩, rfl⟩
    · dsimp only
      split_ifs
      · exact (moveTrial_keep _ _ _ _ _).1.trans (h.dir a)
      · exact (moveTrial_keep _ _ _ _ _).1.trans (h.dir a)
    · intro e he
      rcases List.mem_cons.1 he with rfl | he
      · rfl
      · exact h.dic e he
    · intro β hβ
      rcases List.mem_cons.1 hβ with rfl | hβ
      · exact ⟨_, List.mem_cons_self⟩
      · obtain ⟨v, hv⟩ := h.keys β hβ
        exact ⟨v, List.mem_cons_of_mem _ hv⟩
    · have hpa := congrFun hpt a
      dsimp only at hpa ⊢
      constructor
      · split_ifs
        · exact congrArg some hpa
        · exact congrArg some hpa
      · intro hc
        rw [if_pos hc]
        simp only [storeGrad, hpa]

theorem track_derphi (hR : ∀ a, Retraction (C.man a) (On a) (Tan a)) {x d : ∀ a, ι a → ℝ}
    (hx : ∀ a, On a (x a)) (hT : ∀ a, Tan a (x a) (d a)) {tried : List ℝ} {s : LS κ ι} (h : Track C f x d tried s) (α : ℝ)
    {s' : LS κ ι} {v : ℝ} (hd : derphi C f α s = (s', .ok v)) :
    Track C f x d (α :: tried) s' := by
  unfold derphi at hd
  split_ifs at hd with hc
  · simp at hd
  obtain ⟨h1, h2⟩ := track_phi hR hx hT h α
  rcases hp : phi C f α s with ⟨s1, r⟩
  rw [hp] at h1 h2 hd
  dsimp only at h2
  subst h2
  simp only [Prod.mk.injEq] at hd
  rw [← hd.1]
  exact h1

theorem track_run (hR : ∀ a, Retraction (C.man a) (On a) (Tan a)) {x d : ∀ a, ι a → ℝ}
    (hx : ∀ a, On a (x a)) (hT : ∀ a, Tan a (x a) (d a)) (S : Search) : ∀ {tried : List ℝ} {s : LS κ ι},
    Track C f x d tried s → S.Honest tried → ∀ {s' : LS κ ι} {r : Option ℝ},
    runSearch C f S s = (s', .ok r) →
    ∃ tried', tried' ≠ [] ∧ (∀ α, r = some α → α ∈ tried') ∧ Track C f x d tried' s' := by
  induction S with
  | done r =>
    intro tried s h hS s' r' hr
    simp only [runSearch, Prod.mk.injEq, Except.ok.injEq] at hr
    obtain ⟨rfl, rfl⟩ := hr
    exact ⟨tried, hS.1, hS.2, h⟩
  | phi α next ih =>
    intro tried s h hS s' r hr
    rw [runSearch] at hr
    obtain ⟨h1, h2⟩ := track_phi hR hx hT h α
    rcases hp : phi C f α s with ⟨s1, q⟩
    rw [hp] at h1 h2 hr
    dsimp only at h2
    subst h2
    exact ih _ h1 (hS _) hr
  | derphi α next ih =>
    intro tried s h hS s' r hr
    rw [runSearch] at hr
    rcases hp : derphi C f α s with ⟨s1, e | v⟩
    · rw [hp] at hr; simp at hr
    · rw [hp] at hr
      exact ih _ (track_derphi hR hx hT h α hp) (hS _) hr

end C63

namespace C63

variable {κ : Type} [Fintype κ] {ι : κ → Type} {C : Config κ ι} {f : Closure κ ι}
variable {On : ∀ a, (ι a → ℝ) → Prop} {Tan : ∀ a, (ι a → ℝ) → (ι a → ℝ) → Prop}

/-- The Riemannian gradients at given points. -/
def rgrad (C : Config κ ι) (f : Closure κ ι) (x : ∀ a, ι a → ℝ) : ∀ a, ι a → ℝ :=
  fun a => (C.man a).egrad2rgrad (x a) (f.grad x a)

/-- The points are on their manifolds, and what is kept for the next step belongs to them. -/
structure Consistent (C : Config κ ι) (f : Closure κ ι) (On : ∀ a, (ι a → ℝ) → Prop)
    (Tan : ∀ a, (ι a → ℝ) → (ι a → ℝ) → Prop) (s : LS κ ι) : Prop where
  on : ∀ a, On a (s.par a).point
  loss : s.gradsComputed = true → s.prevLoss = some (f.loss s.points)
  grad : s.gradsComputed = true → ∀ a, (s.par a).newGrad = some (rgrad C f s.points a)
  dirs : (∀ a, (s.par a).searchDir = none) ∨ ∀ a, (s.par a).searchDir ≠ none
  tan : (∀ p, C.cg p = .ok 0) ∨ ∀ a t, (s.par a).searchTransported = some t →
    Tan a (s.par a).point t

theorem startGrads_eq {s : LS κ ι} (h : Consistent C f On Tan s) (rc : Bool) :
    startGrads C f rc s = .ok (some (f.loss s.points), rgrad C f s.points) := by
  unfold startGrads
  by_cases hc : (rc || !s.gradsComputed) = true
  · rw [if_pos hc]; rfl
  · rw [if_neg hc]
    have hg : s.gradsComputed = true := by
      revert hc; cases s.gradsComputed <;> simp
    rw [if_neg (by rintro ⟨a, ha⟩; rw [h.grad hg a] at ha; cases ha), h.loss hg]
    congr 2
    funext a
    rw [h.grad hg a]; rfl

/-- The proposed directions are tangent. -/
theorem propose_tan (hR : ∀ a, Retraction (C.man a) (On a) (Tan a)) {s : LS κ ι}
    (hs : Consistent C f On Tan s) {s1 : LS κ ι} (h1 : ∀ a, (s1.par a).searchDir = (s.par a).searchDir)
    (h2 : ∀ a, (s1.par a).searchTransported = (s.par a).searchTransported) {d : ∀ a, ι a → ℝ}
    (h : proposeDirection C s1 (rgrad C f s.points) = .ok d) (a : κ) : Tan a (s.points a) (d a) := by
  have hg : Tan a (s.points a) (-(rgrad C f s.points a)) := by
    have := (hR a).smul (-1) ((hR a).grad (f.grad s.points a) (hs.on a))
    rwa [neg_one_smul] at this
  unfold proposeDirection at h
  by_cases hn : ∃ a, (s1.par a).searchDir = none
  · rw [if_pos hn] at h
    obtain ⟨b, hb⟩ := hn
    rw [h1 b] at hb
    have hall := hs.dirs.resolve_right fun h' => h' b hb
    simp only [Except.ok.injEq] at h
    subst h
    dsimp only
    rw [h1 a, hall a]
    exact hg
  · rw [if_neg hn] at h
    cases hc : C.cg s1.par with
    | error e => rw [hc] at h; simp at h
    | ok beta =>
      rw [hc] at h
      dsimp only at h
      by_cases hb : beta ≠ 0 ∧ ∃ a, (s1.par a).searchTransported = none
      · rw [if_pos hb] at h; simp at h
      · rw [if_neg hb] at h
        simp only [Except.ok.injEq] at h
        subst h
        dsimp only
        unfold cgDirection
        by_cases h0 : beta ≠ 0
        · rw [if_pos h0]
          cases ht : (s1.par a).searchTransported with
          | none => exact absurd ⟨h0, a, ht⟩ hb
          | some t =>
            dsimp only
            rcases hs.tan with hz | hz
            · rw [hz] at hc
              simp only [Except.ok.injEq] at hc
              exact absurd hc.symm h0
            · exact (hR a).lin beta hg (hz a t (by rw [← h2 a]; exact ht))
        · rw [if_neg h0]
          exact hg

/-- What `_compute_search_direction` does to the state. -/
theorem direction_state {s s' : LS κ ι} {g : ∀ a, ι a → ℝ} {δ : ℝ}
    (h : computeSearchDirection C s g = (s', .ok δ)) :
    ∃ d : ∀ a, ι a → ℝ, s' = { s with par := fun a => { s.par a with searchDir := some (d a) } } ∧
      ((proposeDirection C s g = .ok d ∧ δ = slope C s g d ∧ δ < 0) ∨
       (d = (fun a => -(g a)) ∧ δ = -∑ a, (C.man a).inner (s.par a).point (g a) (g a))) := by
  unfold computeSearchDirection at h
  cases hp : proposeDirection C s g with
  | error e => rw [hp] at h; simp at h
  | ok d =>
    rw [hp] at h
    dsimp only at h
    by_cases h0 : 0 ≤ slope C s g d
    · rw [if_pos h0] at h
      simp only [Prod.mk.injEq, Except.ok.injEq] at h
      exact ⟨fun a => -(g a), h.1.symm, Or.inr ⟨rfl, h.2.symm⟩⟩
    · rw [if_neg h0] at h
      simp only [Prod.mk.injEq, Except.ok.injEq] at h
      exact ⟨d, h.1.symm, Or.inl ⟨rfl, h.2.symm, by rw [← h.2]; exact not_le.1 h0⟩⟩

/-- What `_init_loss` does. -/
theorem initLoss_state (hR : ∀ a, Retraction (C.man a) (On a) (Tan a)) {s s1 : LS κ ι} (hs : Consistent C f On Tan s) {rc : Bool} {l : Option ℝ} {δ : ℝ}
    (h : initLoss C f rc s = (s1, .ok (l, δ))) :
    l = some (f.loss s.points) ∧ s1.history = s.history ∧ s1.prevLoss = s.prevLoss ∧
    s1.gradsComputed = true ∧ (∀ a, (s1.par a).point = (s.par a).point) ∧
    (∀ a, (s1.par a).grad = some (rgrad C f s.points a)) ∧
    (∀ a, (s1.par a).searchTransported = (s.par a).searchTransported) ∧
    ∃ d : ∀ a, ι a → ℝ, (∀ a, (s1.par a).searchDir = some (d a)) ∧
      (∀ a, Tan a (s.points a) (d a)) ∧
      ((δ = ∑ a, (C.man a).inner (s.points a) (rgrad C f s.points a) (d a) ∧ δ < 0) ∨
       (d = (fun a => -(rgrad C f s.points a)) ∧
        δ = -∑ a, (C.man a).inner (s.points a) (rgrad C f s.points a) (rgrad C f s.points a))) := by
  unfold initLoss at h
  rw [startGrads_eq hs] at h
  dsimp only at h
  split at h
  · simp at h
  · rename_i s2 δ2 h2
    simp only [Prod.mk.injEq, Except.ok.injEq] at h
    obtain ⟨rfl, rfl, rfl⟩ := h
    obtain ⟨d, rfl, hd⟩ := direction_state h2
    refine ⟨rfl, rfl, rfl, rfl, fun _ => rfl, fun _ => rfl, fun _ => rfl, d, fun _ => rfl, ?_, ?_⟩
    · rcases hd with ⟨hd, -, -⟩ | ⟨rfl, -⟩
      · exact propose_tan hR hs (by exact fun _ => rfl) (by exact fun _ => rfl) hd
      · intro a
        have := (hR a).smul (-1) ((hR a).grad (f.grad s.points a) (hs.on a))
        rwa [neg_one_smul] at this
    · exact hd.imp And.right id

end C63

namespace C63

variable {κ : Type} [Fintype κ] {ι : κ → Type} {C : Config κ ι} {f : Closure κ ι}
variable {On : ∀ a, (ι a → ℝ) → Prop} {Tan : ∀ a, (ι a → ℝ) → (ι a → ℝ) → Prop}

theorem moveParam_ok {ι : Type} {M : Manifold ι} {tS tG redo : Bool} {α : ℝ} {p p' : Par ι}
    {d y : ι → ℝ} (hd : p.searchDir = some d)
    (hy : (if redo then some (M.retr p.point (α • d)) else p.newPoint) = some y)
    (h : moveParam M tS tG redo α p = .ok p') :
    p'.point = y ∧ p'.searchDir = p.searchDir ∧ p'.grad = p.grad ∧ p'.newGrad = p.newGrad ∧
    (tS = true → p'.searchTransported = some (M.transpFollowRetr p.point (α • d) d)) := by
  unfold moveParam at h
  rw [hd] at h
  dsimp only at h
  rw [hy] at h
  dsimp only at h
  cases tG
  · simp only [Bool.false_eq_true, if_false, Except.ok.injEq] at h
    subst h
    cases tS <;> simp [hd]
  · simp only [if_true] at h
    cases hg : p.grad with
    | none => rw [hg] at h; simp at h
    | some g =>
      rw [hg] at h
      simp only [Except.ok.injEq] at h
      subst h
      cases tS <;> simp [hd, hg]

theorem moveAll_ok {redo : Bool} {α : ℝ} {s s' : LS κ ι} {d y : ∀ a, ι a → ℝ}
    (hd : ∀ a, (s.par a).searchDir = some (d a))
    (hy : ∀ a, (if redo then some ((C.man a).retr (s.par a).point (α • d a)) else
      (s.par a).newPoint) = some (y a))
    (h : moveAll C redo α s = .ok s') :
    (∀ a, (s'.par a).point = y a ∧ (s'.par a).searchDir = some (d a) ∧
      (s'.par a).grad = (s.par a).grad ∧ (s'.par a).newGrad = (s.par a).newGrad ∧
      (C.transportSearchDirection = true → (s'.par a).searchTransported =
        some ((C.man a).transpFollowRetr (s.par a).point (α • d a) (d a)))) ∧
    s'.gradsComputed = s.gradsComputed ∧ s'.stepSizeDic = s.stepSizeDic ∧ s'.history = s.history ∧
    s'.oldPhi0 = s.oldPhi0 ∧ s'.prevLoss = s.prevLoss := by
  unfold moveAll at h
  dsimp only at h
  split_ifs at h with he
  simp only [Except.ok.injEq] at h
  subst h
  refine ⟨fun a => ?_, rfl, rfl, rfl, rfl, rfl⟩
  dsimp only
  cases hm : moveParam (C.man a) C.transportSearchDirection C.transportGrad redo α (s.par a) with
  | error e => exact absurd ⟨a, e, hm⟩ he
  | ok p =>
    obtain ⟨h1, h2, h3, h4⟩ := moveParam_ok (hd a) (hy a) hm
    exact ⟨h1, h2.trans (hd a), h3, h4⟩

theorem stabilizeAfter_ok {s s' : LS κ ι} (h : stabilizeAfter C s = (s', none)) :
    s' = { s with groupStep := s.groupStep + 1 } := by
  unfold stabilizeAfter at h
  dsimp only at h
  split at h
  · simp only [Prod.mk.injEq, and_true] at h; exact h.symm
  · simp at h
  · split_ifs at h
    · simp at h
    · simp only [Prod.mk.injEq, and_true] at h; exact h.symm

/-- The second half of a step whose line search was tracked. -/
theorem conclude_ok (hR : ∀ a, Retraction (C.man a) (On a) (Tan a)) {x d : ∀ a, ι a → ℝ}
    (hx : ∀ a, On a (x a)) (hT : ∀ a, Tan a (x a) (d a)) {tried : List ℝ} {s s' : LS κ ι}
    (ht : Track C f x d tried s) (hne : tried ≠ []) {r : Option ℝ} (hr : ∀ α, r = some α → α ∈ tried)
    (hK : (∀ p, C.cg p = .ok 0) ∨ (∀ a x u, Tan a x u) ∨
      (r ≠ none ∧ C.transportSearchDirection = true) ∨
      (r = none ∧ ∀ a t, (s.par a).searchTransported = some t → Tan a (x a) t)) {p0 : Option ℝ} {δ : ℝ}
    {out : Option ℝ} (h : conclude C f false false p0 δ r s = (s', .ok out)) :
    s'.history = s.history ++ [r] ∧ s'.oldPhi0 = p0 ∧ Consistent C f On Tan s' ∧
    (∀ a, (s'.par a).searchDir = some (d a)) ∧ (∀ a, (s'.par a).grad = (s.par a).grad) ∧
    (r = none → s'.points = x ∧ out = s.prevLoss) ∧
    (∀ α, r = some α → s'.points = trialPoint C x d α ∧ out = some (f.loss s'.points)) := by
  classical
  have hdic : s.stepSizeDic ≠ [] := by
    obtain ⟨β, hβ⟩ := List.exists_mem_of_ne_nil _ hne
    obtain ⟨v, hv⟩ := ht.keys β hβ
    exact List.ne_nil_of_mem hv
  obtain ⟨β, v, hl, hv, hb⟩ := ht.last hdic
  unfold conclude afterSearch at h
  cases r with
  | none =>
    simp only [commit, Bool.false_eq_true, if_false] at h
    split at h
    · simp at h
    · rename_i s2 hs2
      have := stabilizeAfter_ok hs2
      subst this
      simp only [report, Prod.mk.injEq, Except.ok.injEq] at h
      obtain ⟨rfl, rfl⟩ := h
      refine ⟨rfl, rfl, ⟨fun a => ?_, ?_, ?_, Or.inr fun a => ?_, ?_⟩, ht.dir, fun _ => rfl,
        fun _ => ⟨?_, rfl⟩, by simp⟩
      · dsimp only; rw [ht.point a]; exact hx a
      · simp [hl]
      · simp [hl]
      · dsimp only; rw [ht.dir a]; simp
      · rcases hK with hK | hK | hK | hK
        · exact Or.inl hK
        · exact Or.inr fun a t _ => hK a _ t
        · exact absurd rfl hK.1
        · exact Or.inr fun a t h => by dsimp only; rw [ht.point a]; exact hK.2 a t h
      · funext a; exact ht.point a
  | some α =>
    simp only [commit, Bool.false_eq_true, if_false] at h
    split at h
    · simp at h
    · rename_i s1 hs1
      have hy : ∀ a, (if (decide (s.lastStep ≠ some α)) = true then
          some ((C.man a).retr (s.par a).point (α • d a)) else (s.par a).newPoint) =
          some (trialPoint C x d α a) := by
        intro a
        by_cases hla : s.lastStep ≠ some α
        · rw [if_pos (by simpa using hla), ht.point a]; rfl
        · rw [if_neg (by simpa using hla)]
          rw [not_not, hl, Option.some.injEq] at hla
          rw [(hb a).1, hla]
      obtain ⟨hp, hgc, hdc, hh, ho, hpl⟩ := moveAll_ok (d := d) (y := trialPoint C x d α)
        (by exact ht.dir) (by exact hy) hs1
      dsimp only at hdc hh ho hpl hp
      split at h
      · simp at h
      · rename_i s2 hs2
        have := stabilizeAfter_ok hs2
        subst this
        obtain ⟨w, hw⟩ := ht.keys α (hr α rfl)
        obtain ⟨w', hw'⟩ := dicGet_of_mem hw
        have hval := ht.dic _ (mem_of_dicGet hw')
        simp only [report, phi, hdc, hw', Prod.mk.injEq, Except.ok.injEq] at h
        obtain ⟨rfl, rfl⟩ := h
        have hpts : (fun a => (s1.par a).point) = trialPoint C x d α := funext fun a => (hp a).1
        dsimp only at hval
        refine ⟨hh, ho, ⟨fun a => ?_, fun _ => ?_, fun hg a => ?_, Or.inr fun a => ?_, ?_⟩, fun a => (hp a).2.1,
          fun a => (hp a).2.2.1, by simp, ?_⟩
        · dsimp only; rw [(hp a).1]; exact (hR a).on (hx a) ((hR a).smul α (hT a))
        · change some w' = some (f.loss fun a => (s1.par a).point)
          rw [hpts, hval]
        · dsimp only at hg ⊢
          rw [hgc] at hg
          dsimp only at hg
          split_ifs at hg with hc
          rw [Bool.or_eq_true, decide_eq_true_eq, Bool.not_eq_true', not_or, not_not, hl,
            Option.some.injEq, Bool.not_eq_false] at hc
          rw [(hp a).2.2.2.1]
          change (s.par a).newGrad = some (rgrad C f (fun a => (s1.par a).point) a)
          rw [hpts, (hb a).2 hc.2, hc.1]
          rfl
        · dsimp only; rw [(hp a).2.1]; simp
        · rcases hK with hK | hK | hK | hK
          · exact Or.inl hK
          · exact Or.inr fun a t _ => hK a _ t
          · refine Or.inr fun a t h => ?_
            dsimp only at h ⊢
            rw [(hp a).2.2.2.2 hK.2, ht.point a, Option.some.injEq] at h
            rw [(hp a).1, ← h]
            exact (hR a).follow (hx a) ((hR a).smul α (hT a)) (hT a)
          · exact absurd hK.1 (by simp)
        · rintro _ ⟨⟩
          refine ⟨hpts, ?_⟩
          change some w' = some (f.loss fun a => (s1.par a).point)
          rw [hpts, hval]

theorem phi_transported (hc : C.computeDerphi = false) (α : ℝ) (s : LS κ ι) (a : κ) :
    ((phi C f α s).1.par a).searchTransported = (s.par a).searchTransported := by
  unfold phi
  split
  · rfl
  · by_cases h : ∃ a, (s.par a).searchDir = none
    · rw [if_pos h]
    · rw [if_neg h]
      simp [hc, moveTrial]

theorem run_transported (hc : C.computeDerphi = false) (S : Search) (a : κ) : ∀ s : LS κ ι,
    ((runSearch C f S s).1.par a).searchTransported = (s.par a).searchTransported := by
  induction S with
  | done r => intro s; rfl
  | phi α next ih =>
    intro s
    have h1 := phi_transported (f := f) hc α s a
    rw [runSearch]
    rcases hp : phi C f α s with ⟨s1, e | v⟩
    · rw [hp] at h1; exact h1
    · rw [hp] at h1; exact (ih v s1).trans h1
  | derphi α next ih =>
    intro s
    rw [runSearch]
    unfold derphi
    rw [if_pos hc]

theorem succeeds_run (S : Search) : ∀ {s s' : LS κ ι} {r : Option ℝ}, S.Succeeds →
    runSearch C f S s = (s', .ok r) → r ≠ none := by
  induction S with
  | done r =>
    intro s s' r' h hr
    simp only [runSearch, Prod.mk.injEq, Except.ok.injEq] at hr
    rw [← hr.2]; exact h
  | phi α next ih =>
    intro s s' r h hr
    rw [runSearch] at hr
    rcases hp : phi C f α s with ⟨s1, e | v⟩
    · rw [hp] at hr; simp at hr
    · rw [hp] at hr; exact ih v (h v) hr
  | derphi α next ih =>
    intro s s' r h hr
    rw [runSearch] at hr
    rcases hp : derphi C f α s with ⟨s1, e | v⟩
    · rw [hp] at hr; simp at hr
    · rw [hp] at hr; exact ih v (h v) hr

theorem keeps {s s1 s2 : LS κ ι} (hs : Consistent C f On Tan s) (hK : KeepsTangent C Tan)
    (hpt : ∀ a, (s1.par a).point = (s.par a).point)
    (htr : ∀ a, (s1.par a).searchTransported = (s.par a).searchTransported) {i : Info}
    {r : Option ℝ} (h2 : runSearch C f (C.method i) { s1 with stepSizeDic := [] } = (s2, .ok r)) :
    (∀ p, C.cg p = .ok 0) ∨ (∀ a x u, Tan a x u) ∨
      (r ≠ none ∧ C.transportSearchDirection = true) ∨
      (r = none ∧ ∀ a t, (s2.par a).searchTransported = some t → Tan a (s.points a) t) := by
  rcases hK with hK | ⟨hK, hc | hc⟩ | hK
  · exact Or.inl hK
  · by_cases hr : r = none
    · rcases hs.tan with ht | ht
      · exact Or.inl ht
      · refine Or.inr (Or.inr (Or.inr ⟨hr, fun a t h => ?_⟩))
        have := run_transported (f := f) hc (C.method i) a { s1 with stepSizeDic := [] }
        rw [h2] at this
        dsimp only at this
        rw [this, htr a] at h
        exact ht a t h
    · exact Or.inr (Or.inr (Or.inl ⟨hr, hK⟩))
  · exact Or.inr (Or.inr (Or.inl ⟨succeeds_run _ (hc i) h2, hK⟩))
  · exact Or.inr (Or.inl hK)

/-- One step from a consistent state. -/
theorem step_ok (hR : ∀ a, Retraction (C.man a) (On a) (Tan a))
    (hm : ∀ i, i.phi0 ≠ none → (C.method i).Honest []) (hK : KeepsTangent C Tan)
    {s s' : LS κ ι} (hs : Consistent C f On Tan s) {rc : Bool} {out : Option ℝ}
    (h : step C f false rc false s = (s', .ok out)) :
    Consistent C f On Tan s' ∧ s'.oldPhi0 = some (f.loss s.points) ∧
    (∀ a, (s'.par a).grad = some (rgrad C f s.points a)) ∧
    ∃ (d : ∀ a, ι a → ℝ) (r : Option ℝ), (∀ a, (s'.par a).searchDir = some (d a)) ∧
      s'.history = s.history ++ [r] ∧
      (r = none → s'.points = s.points ∧ out = s.prevLoss) ∧
      (∀ α, r = some α → s'.points = trialPoint C s.points d α ∧ out = some (f.loss s'.points)) := by
  unfold step at h
  split at h
  · simp at h
  · rename_i s1 l δ h1
    obtain ⟨rfl, hh, hpl, hg1, hpt, hgr, htr, d, hd, hT, -⟩ := initLoss_state hR hs h1
    split at h
    · simp at h
    · rename_i s2 r h2
      have ht0 : Track C f s.points d [] { s1 with stepSizeDic := [] } :=
        ⟨hpt, hd, by simp, by simp, by simp, hg1⟩
      obtain ⟨tried, hne, hr, ht⟩ := track_run hR hs.on hT _ ht0 (hm _ (by simp)) h2
      have hsame := same_run (C := C) (f := f) (C.method ⟨some (f.loss s.points), δ, s1.oldPhi0,
        s1.oldDerphi0, s1.lastStepSize⟩) { s1 with stepSizeDic := [] }
      rw [h2] at hsame
      have hK' := keeps hs hK hpt htr h2
      obtain ⟨c1, c2, c3, c4, c5, c6, c7⟩ := conclude_ok hR hs.on hT ht hne hr hK' h
      refine ⟨c3, c2, fun a => ?_, d, r, c4, ?_, ?_, c7⟩
      · rw [c5 a, hsame.grad a]; exact hgr a
      · rw [c1, hsame.history]; exact congrArg (· ++ [r]) hh
      · intro hn
        refine ⟨(c6 hn).1, (c6 hn).2.trans ?_⟩
        rw [hsame.prevLoss]; exact hpl

theorem reach_consistent (hR : ∀ a, Retraction (C.man a) (On a) (Tan a))
    (hm : ∀ i, i.phi0 ≠ none → (C.method i).Honest []) (hK : KeepsTangent C Tan) {x₀ : ∀ a, ι a → ℝ} (h₀ : ∀ a, On a (x₀ a)) {s : LS κ ι}
    (h : Reach C f x₀ s) : Consistent C f On Tan s := by
  induction h with
  | start => exact ⟨h₀, by simp [fresh], by simp [fresh], Or.inl fun _ => rfl, by simp [fresh]⟩
  | step rc _ hstep ih => exact (step_ok hR hm hK ih hstep).1

end C63

section
variable {κ : Type} [Fintype κ] {ι : κ → Type} {C : Config κ ι} {f : Closure κ ι}
variable {On : ∀ a, (ι a → ℝ) → Prop} {Tan : ∀ a, (ι a → ℝ) → (ι a → ℝ) → Prop}

/-- The derivative that a line search method is given when it asks for a step size it has not evaluated:
the inner product, at the trial point, of the Riemannian gradient there and the transported search
direction.  Missing: step sizes evaluated before, for which it is false (`C63_derphi_counterexample`). -/
theorem C63_derphi_partial (hR : ∀ a, Retraction (C.man a) (On a) (Tan a)) {s : LS κ ι}
    {d : ∀ a, ι a → ℝ} (hx : ∀ a, On a (s.points a)) (hT : ∀ a, Tan a (s.points a) (d a))
    (hd : ∀ a, (s.par a).searchDir = some (d a)) (hc : C.computeDerphi = true) {α : ℝ}
    (hα : ∀ v, (α, v) ∉ s.stepSizeDic) :
    (derphi C f α s).2 = .ok (∑ a, (C.man a).inner ((C.man a).retr (s.points a) (α • d a))
      ((C.man a).egrad2rgrad ((C.man a).retr (s.points a) (α • d a))
        (f.grad (fun a => (C.man a).retr (s.points a) (α • d a)) a))
      ((C.man a).proju ((C.man a).retr (s.points a) (α • d a))
        ((C.man a).retrTransp (s.points a) (α • d a) (d a)).2)) := by
  have hg : dicGet s.stepSizeDic α = none := by
    cases h : dicGet s.stepSizeDic α with
    | none => rfl
    | some v => exact absurd (C63.mem_of_dicGet h) (hα v)
  have hpt : ∀ a, (moveTrial (C.man a) true α (s.par a) (d a)).point =
      (C.man a).retr (s.points a) (α • d a) := fun a =>
    C63.moveTrial_point (hR a) true α (s.par a) (d a) (hx a) (hT a)
  unfold derphi phi
  rw [if_neg (by rw [hc]; simp), hg]
  dsimp only
  rw [if_neg (by rintro ⟨a, ha⟩; rw [hd a] at ha; cases ha)]
  simp only [hc, if_true, hd, Option.getD_some, hpt, storeGrad]
  congr 1
  refine Finset.sum_congr rfl fun a _ => ?_
  have h2 : (C.man a).projx ((C.man a).retrTransp (s.points a) (α • d a) (d a)).1 =
      (C.man a).retr (s.points a) (α • d a) := by
    rw [(hR a).eq _ (hx a) ((hR a).smul α (hT a)), (hR a).fix ((hR a).on (hx a) ((hR a).smul α (hT a)))]
  change Option.getD (Option.map _ (some ((C.man a).proju ((C.man a).projx ((C.man a).retrTransp
    (s.points a) (α • d a) (d a)).1) _))) 0 = _
  rw [h2]
  rfl

/-- For every history of steps with a method that returns only step sizes it has tried: a step moves
every parameter to the retraction along its search direction with the step size that was chosen, and
returns the loss there; if the method gives up, the parameters stay and the previous loss is returned.
Missing from C63: `no_step`, `force_step` and methods that return an untried step size, for which it is
false (below). -/
theorem C63_step_partial (hR : ∀ a, Retraction (C.man a) (On a) (Tan a))
    (hm : ∀ i, (C.method i).Honest []) (hK : KeepsTangent C Tan) {x₀ : ∀ a, ι a → ℝ} (h₀ : ∀ a, On a (x₀ a))
    {s s' : LS κ ι} (hs : Reach C f x₀ s) {rc : Bool} {out : Option ℝ}
    (h : step C f false rc false s = (s', .ok out)) :
    ∃ (d : ∀ a, ι a → ℝ) (r : Option ℝ), (∀ a, (s'.par a).searchDir = some (d a)) ∧
      s'.history = s.history ++ [r] ∧
      (r = none → s'.points = s.points ∧ out = s.prevLoss) ∧
      (∀ α, r = some α → (s'.points = fun a => (C.man a).retr (s.points a) (α • d a)) ∧
        out = some (f.loss s'.points)) :=
  (C63.step_ok hR (fun i _ => hm i) hK (C63.reach_consistent hR (fun i _ => hm i) hK h₀ hs) h).2.2.2

/-- Under the same conditions every step starts from the loss and the Riemannian gradient at the
current parameters, also when it reuses what the previous step computed. -/
theorem C63_start_partial (hR : ∀ a, Retraction (C.man a) (On a) (Tan a))
    (hm : ∀ i, (C.method i).Honest []) (hK : KeepsTangent C Tan) {x₀ : ∀ a, ι a → ℝ} (h₀ : ∀ a, On a (x₀ a))
    {s s' : LS κ ι} (hs : Reach C f x₀ s) {rc : Bool} {out : Option ℝ}
    (h : step C f false rc false s = (s', .ok out)) :
    s'.oldPhi0 = some (f.loss s.points) ∧
    ∀ a, (s'.par a).grad = some ((C.man a).egrad2rgrad (s.points a) (f.grad s.points a)) :=
  ⟨(C63.step_ok hR (fun i _ => hm i) hK (C63.reach_consistent hR (fun i _ => hm i) hK h₀ hs) h).2.1,
   (C63.step_ok hR (fun i _ => hm i) hK (C63.reach_consistent hR (fun i _ => hm i) hK h₀ hs) h).2.2.1⟩

/-- Parameters never leave their manifolds. -/
theorem C63_on_manifold (hR : ∀ a, Retraction (C.man a) (On a) (Tan a))
    (hm : ∀ i, (C.method i).Honest []) (hK : KeepsTangent C Tan) {x₀ : ∀ a, ι a → ℝ} (h₀ : ∀ a, On a (x₀ a))
    {s : LS κ ι} (hs : Reach C f x₀ s) (a : κ) : On a (s.points a) :=
  (C63.reach_consistent hR (fun i _ => hm i) hK h₀ hs).on a

/-- The derivative handed to the line search method is the inner product of gradient and search
direction, it is not positive, and it is zero only where the gradient vanishes.  The inner product has to
be positive on Riemannian gradients and compatible with a sign. -/
theorem C64_descent (hR : ∀ a, Retraction (C.man a) (On a) (Tan a))
    (hm : ∀ i, (C.method i).Honest []) (hK : KeepsTangent C Tan) {x₀ : ∀ a, ι a → ℝ} (h₀ : ∀ a, On a (x₀ a))
    (hneg : ∀ a x g, On a x → (C.man a).inner x ((C.man a).egrad2rgrad x g)
      (-((C.man a).egrad2rgrad x g)) = -(C.man a).inner x ((C.man a).egrad2rgrad x g)
        ((C.man a).egrad2rgrad x g))
    (hpos : ∀ a x g, On a x → (C.man a).egrad2rgrad x g ≠ 0 →
      0 < (C.man a).inner x ((C.man a).egrad2rgrad x g) ((C.man a).egrad2rgrad x g))
    {s s' : LS κ ι} (hs : Reach C f x₀ s) {rc : Bool} {l : Option ℝ} {δ : ℝ}
    (h : initLoss C f rc s = (s', .ok (l, δ))) :
    ∃ d : ∀ a, ι a → ℝ, (∀ a, (s'.par a).searchDir = some (d a)) ∧
      δ = ∑ a, (C.man a).inner (s.points a)
        ((C.man a).egrad2rgrad (s.points a) (f.grad s.points a)) (d a) ∧
      δ ≤ 0 ∧ (δ = 0 → ∀ a, (C.man a).egrad2rgrad (s.points a) (f.grad s.points a) = 0) := by
  have hc := C63.reach_consistent hR (fun i _ => hm i) hK h₀ hs
  obtain ⟨-, -, -, -, -, -, -, d, hd, -, hδ⟩ := C63.initLoss_state hR hc h
  have h0 : ∀ a, 0 ≤ (C.man a).inner (s.points a) (C63.rgrad C f s.points a)
      (C63.rgrad C f s.points a) := by
    intro a
    by_cases hz : C63.rgrad C f s.points a = 0
    · have h1 := hneg a (s.points a) (f.grad s.points a) (hc.on a)
      change (C.man a).inner _ (C63.rgrad C f s.points a) (-(C63.rgrad C f s.points a)) =
        -(C.man a).inner _ (C63.rgrad C f s.points a) (C63.rgrad C f s.points a) at h1
      rw [hz, neg_zero] at h1
      rw [hz]; linarith
    · exact (hpos a _ _ (hc.on a) hz).le
  refine ⟨d, hd, ?_⟩
  rcases hδ with ⟨h1, h2⟩ | ⟨rfl, h2⟩
  · exact ⟨h1, h2.le, fun h3 => absurd h3 h2.ne⟩
  · refine ⟨?_, ?_, ?_⟩
    · rw [h2, ← Finset.sum_neg_distrib]
      exact Finset.sum_congr rfl fun a _ => (hneg a _ _ (hc.on a)).symm
    · rw [h2]; exact neg_nonpos.2 (Finset.sum_nonneg fun a _ => h0 a)
    · intro h3 a
      by_contra hne
      have h4 : ∑ a, (C.man a).inner (s.points a) (C63.rgrad C f s.points a)
          (C63.rgrad C f s.points a) = 0 := by linarith
      have h5 := (Finset.sum_eq_zero_iff_of_nonneg fun a _ => h0 a).1 h4 a (Finset.mem_univ a)
      exact absurd h5 (hpos a _ _ (hc.on a) hne).ne'

end
