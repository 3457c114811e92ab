import Verif.Props.C63Cx

/-!
# C85: conjugate gradient directions; `no_step` and `force_step` (C63)
-/

open Geoopt Geoopt.LineSearch

namespace C85

variable {κ : Type} [Fintype κ] {ι : κ → Type} {C : Config κ ι} {f : Closure κ ι}
variable {On : ∀ a, (ι a → ℝ) → Prop} {Tan : ∀ a, (ι a → ℝ) → (ι a → ℝ) → Prop}

theorem direction_points (s : LS κ ι) (g : ∀ a, ι a → ℝ) :
    (computeSearchDirection C s g).1.points = s.points := by
  unfold computeSearchDirection
  cases proposeDirection C s g with
  | error e => rfl
  | ok d => dsimp only; split_ifs <;> rfl

theorem init_points (rc : Bool) (s : LS κ ι) : (initLoss C f rc s).1.points = s.points := by
  unfold initLoss
  rcases startGrads C f rc s with e | ⟨l, g⟩
  · rfl
  · dsimp only
    split
    · rename_i s2 e h
      exact (congrArg (fun w => LS.points w.1) h).symm.trans (direction_points _ _)
    · rename_i s2 δ h
      exact (congrArg (fun w => LS.points w.1) h).symm.trans (direction_points _ _)

theorem stabilize_par (s : LS κ ι) : (stabilizeAfter C s).1.par = s.par := by
  unfold stabilizeAfter
  dsimp only
  split
  · rfl
  · rfl
  · split_ifs <;> rfl

theorem afterSearch_par (force : Bool) (p0 : Option ℝ) (δ : ℝ) (r : Option ℝ) (s : LS κ ι) :
    (afterSearch C force p0 δ r s).1.par = s.par := by
  unfold afterSearch
  cases r with
  | some α => rfl
  | none => dsimp only; split_ifs <;> rfl

theorem report_points (r : Option ℝ) (s : LS κ ι) : (report C f r s).1.points = s.points := by
  unfold report
  cases r with
  | none => rfl
  | some α =>
    have := C63.same_phi (C := C) (f := f) α s
    dsimp only
    rcases h : phi C f α s with ⟨s1, e | v⟩ <;> rw [h] at this <;>
      exact funext fun a => this.point a

theorem conclude_points (force : Bool) (p0 : Option ℝ) (δ : ℝ) (r : Option ℝ) (s : LS κ ι) :
    (conclude C f force true p0 δ r s).1.points = s.points := by
  unfold conclude
  have h1 := afterSearch_par (C := C) force p0 δ r s
  rcases ha : afterSearch C force p0 δ r s with ⟨s1, α, redo⟩
  rw [ha] at h1
  dsimp only at h1
  have hc : commit C true redo α s1 = .ok s1 := by cases α <;> rfl
  dsimp only
  rw [hc]
  have h2 := stabilize_par (C := C) s1
  dsimp only
  rcases hb : stabilizeAfter C s1 with ⟨s2, o⟩
  rw [hb] at h2
  dsimp only at h2
  have h3 : s2.points = s.points := by
    funext a; exact congrArg Par.point (congrFun (h2.trans h1) a)
  cases o with
  | some e => exact h3
  | none => exact (report_points α s2).trans h3

end C85

section
variable {κ : Type} [Fintype κ] {ι : κ → Type} {C : Config κ ι} {f : Closure κ ι}
variable {On : ∀ a, (ι a → ℝ) → Prop} {Tan : ∀ a, (ι a → ℝ) → (ι a → ℝ) → Prop}

/-- `step(..., no_step=True)` never moves a parameter: for every optimiser, every state, whatever the
method and the conjugate gradient rule do, also if the call raises. -/
theorem C63_no_step_stays (force rc : Bool) (s : LS κ ι) :
    (step C f force rc true s).1.points = s.points := by
  unfold step
  have h1 := C85.init_points (C := C) (f := f) rc s
  rcases hi : initLoss C f rc s with ⟨s1, e | ⟨p0, δ⟩⟩ <;> rw [hi] at h1
  · exact h1
  · dsimp only at h1 ⊢
    have h2 := C63.same_run (C := C) (f := f) (C.method ⟨p0, δ, s1.oldPhi0, s1.oldDerphi0,
      s1.lastStepSize⟩) { s1 with stepSizeDic := [] }
    rcases hr : runSearch C f (C.method ⟨p0, δ, s1.oldPhi0, s1.oldDerphi0, s1.lastStepSize⟩)
      { s1 with stepSizeDic := [] } with ⟨s2, e | r⟩
    · rw [hr] at h2
      exact (funext fun a => h2.point a : s2.points = s1.points).trans h1
    · rw [hr] at h2
      exact (C85.conclude_points force p0 δ r s2).trans
        ((funext fun a => h2.point a : s2.points = s1.points).trans h1)

end

namespace C85

variable {κ : Type} [Fintype κ] {ι : κ → Type} {C : Config κ ι} {f : Closure κ ι}
variable {On : ∀ a, (ι a → ℝ) → Prop} {Tan : ∀ a, (ι a → ℝ) → (ι a → ℝ) → Prop}

theorem moveAll_grad {redo : Bool} {α : ℝ} {s s' : LS κ ι} {d g : ∀ a, ι a → ℝ}
    (hd : ∀ a, (s.par a).searchDir = some (d a)) (hg : ∀ a, (s.par a).grad = some (g a))
    (hG : C.transportGrad = true) (h : moveAll C redo α s = .ok s') (a : κ) :
    (s'.par a).gradTransported = some ((C.man a).transpFollowRetr (s.par a).point (α • d a) (g a)) := by
  unfold moveAll at h
  dsimp only at h
  split_ifs at h with he
  simp only [Except.ok.injEq] at h
  subst h
  dsimp only
  cases hm : moveParam (C.man a) C.transportSearchDirection C.transportGrad redo α (s.par a) with
  | error e => exact absurd ⟨a, e, hm⟩ he
  | ok p =>
    dsimp only
    unfold moveParam at hm
    rw [hd a] at hm
    dsimp only at hm
    split at hm
    · simp at hm
    · rw [if_pos hG, hg a] at hm
      simp only [Except.ok.injEq] at hm
      rw [← hm]

theorem moveAll_dic {redo : Bool} {α : ℝ} {s s' : LS κ ι} (h : moveAll C redo α s = .ok s') :
    s'.stepSizeDic = s.stepSizeDic := by
  unfold moveAll at h
  dsimp only at h
  split_ifs at h with he
  simp only [Except.ok.injEq] at h
  rw [← h]

theorem moveAll_dir {redo : Bool} {α : ℝ} {s s' : LS κ ι} {d g : ∀ a, ι a → ℝ}
    (hd : ∀ a, (s.par a).searchDir = some (d a)) (hg : ∀ a, (s.par a).grad = some (g a))
    (hS : C.transportSearchDirection = true) (h : moveAll C redo α s = .ok s') (a : κ) :
    (s'.par a).searchTransported = some ((C.man a).transpFollowRetr (s.par a).point (α • d a) (d a)) := by
  unfold moveAll at h
  dsimp only at h
  split_ifs at h with he
  simp only [Except.ok.injEq] at h
  subst h
  dsimp only
  cases hm : moveParam (C.man a) C.transportSearchDirection C.transportGrad redo α (s.par a) with
  | error e => exact absurd ⟨a, e, hm⟩ he
  | ok p =>
    dsimp only
    unfold moveParam at hm
    rw [hd a] at hm
    dsimp only at hm
    split at hm
    · simp at hm
    · rw [if_pos hS] at hm
      cases hb : C.transportGrad
      · rw [hb] at hm
        simp only [Bool.false_eq_true, if_false, Except.ok.injEq] at hm
        rw [← hm]
      · rw [hb, hg a] at hm
        simp only [if_true, Except.ok.injEq] at hm
        rw [← hm]

/-- What a successful search leaves behind for the next direction. -/
theorem conclude_cg {x d g : ∀ a, ι a → ℝ} {tried : List ℝ} {s s' : LS κ ι}
    (ht : C63.Track C f x d tried s) {α : ℝ} (hr : α ∈ tried)
    (hg : ∀ a, (s.par a).grad = some (g a)) {p0 : Option ℝ} {δ : ℝ}
    {out : Option ℝ} (h : conclude C f false false p0 δ (some α) s = (s', .ok out)) (a : κ) :
    (C.transportSearchDirection = true → (s'.par a).searchTransported =
      some ((C.man a).transpFollowRetr (x a) (α • d a) (d a))) ∧
    (C.transportGrad = true → (s'.par a).gradTransported =
      some ((C.man a).transpFollowRetr (x a) (α • d a) (g a))) := by
  classical
  unfold conclude afterSearch at h
  simp only [commit, Bool.false_eq_true, if_false] at h
  split at h
  · simp at h
  · rename_i s1 hs1
    have hdc : s1.stepSizeDic = s.stepSizeDic := by
      have := moveAll_dic hs1
      exact this
    have hG := fun hG => moveAll_grad (d := d) (g := g) (by exact ht.dir) (by exact hg) hG hs1 a
    have hS := fun hS => moveAll_dir (d := d) (g := g) (by exact ht.dir) (by exact hg) hS hs1 a
    split at h
    · simp at h
    · rename_i s2 hs2
      have := C63.stabilizeAfter_ok hs2
      subst this
      obtain ⟨w, hw⟩ := ht.keys α hr
      obtain ⟨w', hw'⟩ := C63.dicGet_of_mem hw
      simp only [report, phi, hdc, hw', Prod.mk.injEq, Except.ok.injEq] at h
      obtain ⟨rfl, -⟩ := h
      dsimp only at hG hS
      rw [ht.point a] at hG hS
      exact ⟨hS, hG⟩

/-- One step, with the direction it takes and what it leaves behind. -/
theorem step_full (hR : ∀ a, Retraction (C.man a) (On a) (Tan a))
    (hm : ∀ i, i.phi0 ≠ none → (C.method i).Honest []) (hK : KeepsTangent C Tan)
    {s s' : LS κ ι} (hs : C63.Consistent C f On Tan s) {rc : Bool} {out : Option ℝ}
    (h : step C f false rc false s = (s', .ok out)) :
    ∃ (s1 : LS κ ι) (δ : ℝ) (d : ∀ a, ι a → ℝ) (r : Option ℝ),
      initLoss C f rc s = (s1, .ok (some (f.loss s.points), δ)) ∧
      (∀ a, (s1.par a).searchDir = some (d a)) ∧ (∀ a, (s'.par a).searchDir = some (d a)) ∧
      s'.history = s.history ++ [r] ∧
      (r = none → s'.points = s.points) ∧
      ∀ α, r = some α → s'.points = C63.trialPoint C s.points d α ∧
        ∀ a, (C.transportSearchDirection = true → (s'.par a).searchTransported =
            some ((C.man a).transpFollowRetr (s.points a) (α • d a) (d a))) ∧
          (C.transportGrad = true → (s'.par a).gradTransported =
            some ((C.man a).transpFollowRetr (s.points a) (α • d a) (C63.rgrad C f s.points a))) := by
  unfold step at h
  split at h
  · simp at h
  · rename_i s1 l δ h1
    obtain ⟨rfl, hh, hpl, hg1, hpt, hgr, htr, d, hd, hT, -⟩ := C63.initLoss_state hR hs h1
    split at h
    · simp at h
    · rename_i s2 r h2
      have ht0 : C63.Track C f s.points d [] { s1 with stepSizeDic := [] } :=
        ⟨hpt, hd, by simp, by simp, by simp, hg1⟩
      obtain ⟨tried, hne, hr, ht⟩ := C63.track_run hR hs.on hT _ ht0 (hm _ (by simp)) h2
      have hsame := C63.same_run (C := C) (f := f) (C.method ⟨some (f.loss s.points), δ, s1.oldPhi0,
        s1.oldDerphi0, s1.lastStepSize⟩) { s1 with stepSizeDic := [] }
      rw [h2] at hsame
      have hK' := C63.keeps hs hK hpt htr h2
      obtain ⟨c1, c2, c3, c4, c5, c6, c7⟩ := C63.conclude_ok hR hs.on hT ht hne hr hK' h
      refine ⟨s1, δ, d, r, h1, hd, c4, ?_, fun hn => (c6 hn).1, ?_⟩
      · rw [c1, hsame.history]; exact congrArg (· ++ [r]) hh
      · rintro α rfl
        exact ⟨(c7 α rfl).1, conclude_cg ht (hr α rfl) (fun a => (hsame.grad a).trans (hgr a)) h⟩

open Classical in
/-- The direction with a known coefficient. -/
theorem initLoss_cg {s s1 : LS κ ι} (hs : C63.Consistent C f On Tan s) {rc : Bool}
    {l : Option ℝ} {δ β : ℝ} (h : initLoss C f rc s = (s1, .ok (l, δ))) {d t g0 : ∀ a, ι a → ℝ}
    (hd : ∀ a, (s.par a).searchDir = some (d a))
    (hg : ∀ a, (s.par a).grad = some (g0 a))
    (ht : β ≠ 0 → ∀ a, (s.par a).searchTransported = some (t a))
    (hβ : C.cg (fun a => { s.par a with
      prevGradNormSq := some ((C.man a).inner (s.par a).point (g0 a) (g0 a))
      grad := some (C63.rgrad C f s.points a) }) = .ok β) (a : κ) :
    (s1.par a).searchDir = some ((if ∑ a, (C.man a).inner (s.points a) (C63.rgrad C f s.points a)
        (-(C63.rgrad C f s.points a) + β • t a) < 0 then
      fun a => -(C63.rgrad C f s.points a) + β • t a else fun a => -(C63.rgrad C f s.points a)) a) := by
  unfold initLoss at h
  rw [C63.startGrads_eq hs] at h
  simp only [hg] at h
  have hp : ∀ q : LS κ ι, (q.par = fun a => { s.par a with
      prevGradNormSq := some ((C.man a).inner (s.par a).point (g0 a) (g0 a))
      grad := some (C63.rgrad C f s.points a) }) →
      proposeDirection C q (C63.rgrad C f s.points) =
        .ok fun a => -(C63.rgrad C f s.points a) + β • t a := by
    intro q hq
    unfold proposeDirection
    rw [if_neg (by rintro ⟨b, hb⟩; rw [hq] at hb; dsimp only at hb; rw [hd b] at hb; cases hb), hq, hβ]
    dsimp only
    by_cases h0 : β = 0
    · rw [if_neg (by simp [h0])]
      simp [cgDirection, h0]
    · rw [if_neg (by rintro ⟨-, b, hb⟩; rw [ht h0 b] at hb; cases hb)]
      simp [cgDirection, h0, ht h0]
  unfold computeSearchDirection at h
  rw [hp _ rfl] at h
  dsimp only [slope] at h
  by_cases h0 : ∑ a, (C.man a).inner (s.points a) (C63.rgrad C f s.points a)
      (-(C63.rgrad C f s.points a) + β • t a) < 0
  · rw [if_pos h0]
    have h0' : ¬ 0 ≤ ∑ a, (C.man a).inner (s.par a).point (C63.rgrad C f s.points a)
      (-(C63.rgrad C f s.points a) + β • t a) := not_le.2 h0
    simp only [if_neg h0', Prod.mk.injEq] at h
    rw [← h.1]
  · rw [if_neg h0]
    have h0' : 0 ≤ ∑ a, (C.man a).inner (s.par a).point (C63.rgrad C f s.points a)
      (-(C63.rgrad C f s.points a) + β • t a) := not_lt.1 h0
    simp only [if_pos h0', Prod.mk.injEq] at h
    rw [← h.1]

end C85

section
variable {κ : Type} [Fintype κ] {ι : κ → Type} {C : Config κ ι} {f : Closure κ ι}
variable {On : ∀ a, (ι a → ℝ) → Prop} {Tan : ∀ a, (ι a → ℝ) → (ι a → ℝ) → Prop}

/-- With `cg_method="steepest"` every step of every history goes along the negative Riemannian
gradient. -/
theorem C85_steepest (hR : ∀ a, Retraction (C.man a) (On a) (Tan a))
    (hm : ∀ i, i.phi0 ≠ none → (C.method i).Honest []) (hcg : C.cg = cgConstant 0)
    {x₀ : ∀ a, ι a → ℝ} (h₀ : ∀ a, On a (x₀ a))
    {s s' : LS κ ι} (hs : Reach C f x₀ s) {rc : Bool} {out : Option ℝ}
    (h : step C f false rc false s = (s', .ok out)) (a : κ) :
    (s'.par a).searchDir = some (-((C.man a).egrad2rgrad (s.points a) (f.grad s.points a))) := by
  have hK : KeepsTangent C Tan := Or.inl fun p => by rw [hcg]; rfl
  have hc := C63.reach_consistent hR hm hK h₀ hs
  obtain ⟨s1, δ, d, r, h1, hd, hd', -⟩ := C85.step_full hR hm hK hc h
  have key : (s1.par a).searchDir = some (-(C63.rgrad C f s.points a)) := by
    unfold initLoss at h1
    rw [C63.startGrads_eq hc] at h1
    dsimp only at h1
    split at h1
    · simp at h1
    · rename_i s2 δ2 h2
      simp only [Prod.mk.injEq, Except.ok.injEq] at h1
      obtain ⟨rfl, -⟩ := h1
      obtain ⟨d2, rfl, he⟩ := C63.direction_state h2
      rcases he with ⟨hd, -, -⟩ | ⟨rfl, -⟩
      · dsimp only
        unfold proposeDirection at hd
        dsimp only at hd
        rw [hcg] at hd
        split_ifs at hd with hn
        · obtain ⟨b, hb⟩ := hn
          have hall := hc.dirs.resolve_right fun h' => h' b hb
          simp only [Except.ok.injEq] at hd
          rw [← hd]
          dsimp only
          rw [hall a]
          rfl
        · simp only [cgConstant, ne_eq, not_true_eq_false, false_and, if_false, Except.ok.injEq] at hd
          rw [← hd]
          simp [cgDirection]
      · rfl
  rw [hd' a, ← hd a, key]
  rfl

open Classical in
/-- Fletcher–Reeves, for every history: after a step that found a step size `α`, the next direction is
minus the gradient plus `β` times the old direction transported along the step, or minus the gradient if
that is not a descent direction; `β` is the quotient of the squared lengths of the new and of the old
gradient.  Missing: the documentation measures the old gradient at the old point, the code measures it
at the new one (`C85_fletcher_reeves_counterexample`; for metrics that do not depend on the point it is
the same, `C85_fletcher_reeves`). -/
theorem C85_fletcher_reeves_partial (hR : ∀ a, Retraction (C.man a) (On a) (Tan a))
    (hm : ∀ i, (C.method i).Honest []) (hK : KeepsTangent C Tan)
    (hcg : C.cg = cgFletcherReeves C.man) (hS : C.transportSearchDirection = true)
    {x₀ : ∀ a, ι a → ℝ} (h₀ : ∀ a, On a (x₀ a))
    {s s' s'' : LS κ ι} (hs : Reach C f x₀ s) {rc rc' : Bool} {out out' : Option ℝ}
    (h : step C f false rc false s = (s', .ok out))
    (h' : step C f false rc' false s' = (s'', .ok out'))
    {α : ℝ} (hα : s'.history = s.history ++ [some α]) :
    ∃ d d' : ∀ a, ι a → ℝ, (∀ a, (s'.par a).searchDir = some (d a)) ∧
      (∀ a, (s''.par a).searchDir = some (d' a)) ∧
      let x := s.points
      let y := s'.points
      let g := fun a => (C.man a).egrad2rgrad (x a) (f.grad x a)
      let g' := fun a => (C.man a).egrad2rgrad (y a) (f.grad y a)
      let β := (∑ a, (C.man a).inner (y a) (g' a) (g' a)) / ∑ a, (C.man a).inner (y a) (g a) (g a)
      let p := fun a => -(g' a) + β • (C.man a).transpFollowRetr (x a) (α • d a) (d a)
      (y = fun a => (C.man a).retr (x a) (α • d a)) ∧
      d' = if ∑ a, (C.man a).inner (y a) (g' a) (p a) < 0 then p else fun a => -(g' a) := by
  have hm' : ∀ i : Info, i.phi0 ≠ none → (C.method i).Honest [] := fun i _ => hm i
  have hc := C63.reach_consistent hR hm' hK h₀ hs
  obtain ⟨hc', -, hg, -⟩ := C63.step_ok hR hm' hK hc h
  obtain ⟨s1, δ, d, r, h1, hd1, hd, hh, -, hr⟩ := C85.step_full hR hm' hK hc h
  obtain ⟨s2, δ', d', r', h2, hd2, hd', -, -, -⟩ := C85.step_full hR hm' hK hc' h'
  have hra : r = some α := by
    rw [hh] at hα; simpa using hα
  obtain ⟨hy, ht⟩ := hr α hra
  refine ⟨d, d', hd, hd', hy, ?_⟩
  funext a
  have := C85.initLoss_cg (C := C) (f := f) hc' h2 hd hg (β := (∑ a, (C.man a).inner (s'.points a)
      (C63.rgrad C f s'.points a) (C63.rgrad C f s'.points a)) / ∑ a, (C.man a).inner (s'.points a)
      (C63.rgrad C f s.points a) (C63.rgrad C f s.points a))
    (t := fun a => (C.man a).transpFollowRetr (s.points a) (α • d a) (d a))
    (fun _ a => (ht a).1 hS) (by
      rw [hcg]
      unfold cgFletcherReeves
      simp only [reduceCtorEq, exists_false, if_false, Option.getD_some]
      change (if ∑ a, (C.man a).inner (s'.points a) (C63.rgrad C f s.points a)
        (C63.rgrad C f s.points a) = 0 then _ else _) = _
      split_ifs with hz
      · rw [hz, div_zero]
      · rfl) a
  rw [hd2 a, Option.some.injEq] at this
  exact this

open Classical in
/-- Fletcher–Reeves as documented, when the metric does not depend on the point (Euclidean space, spheres,
the hyperboloid, Stiefel matrices with the Euclidean metric). -/
theorem C85_fletcher_reeves (hR : ∀ a, Retraction (C.man a) (On a) (Tan a))
    (hm : ∀ i, (C.method i).Honest []) (hK : KeepsTangent C Tan)
    (hcg : C.cg = cgFletcherReeves C.man) (hS : C.transportSearchDirection = true)
    (hflat : ∀ a x y u v, (C.man a).inner x u v = (C.man a).inner y u v)
    {x₀ : ∀ a, ι a → ℝ} (h₀ : ∀ a, On a (x₀ a))
    {s s' s'' : LS κ ι} (hs : Reach C f x₀ s) {rc rc' : Bool} {out out' : Option ℝ}
    (h : step C f false rc false s = (s', .ok out))
    (h' : step C f false rc' false s' = (s'', .ok out'))
    {α : ℝ} (hα : s'.history = s.history ++ [some α]) :
    ∃ d d' : ∀ a, ι a → ℝ, (∀ a, (s'.par a).searchDir = some (d a)) ∧
      (∀ a, (s''.par a).searchDir = some (d' a)) ∧
      let x := s.points
      let y := s'.points
      let g := fun a => (C.man a).egrad2rgrad (x a) (f.grad x a)
      let g' := fun a => (C.man a).egrad2rgrad (y a) (f.grad y a)
      let β := (∑ a, (C.man a).inner (y a) (g' a) (g' a)) / ∑ a, (C.man a).inner (x a) (g a) (g a)
      let p := fun a => -(g' a) + β • (C.man a).transpFollowRetr (x a) (α • d a) (d a)
      (y = fun a => (C.man a).retr (x a) (α • d a)) ∧
      d' = if ∑ a, (C.man a).inner (y a) (g' a) (p a) < 0 then p else fun a => -(g' a) := by
  obtain ⟨d, d', hd, hd', hy, he⟩ := C85_fletcher_reeves_partial hR hm hK hcg hS h₀ hs h h' hα
  refine ⟨d, d', hd, hd', hy, ?_⟩
  have : ∀ g : ∀ a, ι a → ℝ, ∑ a, (C.man a).inner (s.points a) (g a) (g a) =
      ∑ a, (C.man a).inner (s'.points a) (g a) (g a) := fun g =>
    Finset.sum_congr rfl fun a _ => hflat a _ _ _ _
  dsimp only
  rw [this]
  exact he

open Classical in
/-- Polak–Ribière, likewise: the coefficient has in the numerator the inner product of the new gradient with its
difference to the old gradient transported along the step.  Missing: as for Fletcher–Reeves, the old gradient
is measured at the new point. -/
theorem C85_polak_ribiere_partial (hR : ∀ a, Retraction (C.man a) (On a) (Tan a))
    (hm : ∀ i, (C.method i).Honest []) (hK : KeepsTangent C Tan)
    (hcg : C.cg = cgPolakRibiere C.man) (hS : C.transportSearchDirection = true)
    (hG : C.transportGrad = true) {x₀ : ∀ a, ι a → ℝ} (h₀ : ∀ a, On a (x₀ a))
    {s s' s'' : LS κ ι} (hs : Reach C f x₀ s) {rc rc' : Bool} {out out' : Option ℝ}
    (h : step C f false rc false s = (s', .ok out))
    (h' : step C f false rc' false s' = (s'', .ok out'))
    {α : ℝ} (hα : s'.history = s.history ++ [some α]) :
    ∃ d d' : ∀ a, ι a → ℝ, (∀ a, (s'.par a).searchDir = some (d a)) ∧
      (∀ a, (s''.par a).searchDir = some (d' a)) ∧
      let x := s.points
      let y := s'.points
      let g := fun a => (C.man a).egrad2rgrad (x a) (f.grad x a)
      let g' := fun a => (C.man a).egrad2rgrad (y a) (f.grad y a)
      let T := fun a v => (C.man a).transpFollowRetr (x a) (α • d a) v
      let β := (∑ a, (C.man a).inner (y a) (g' a) (g' a - T a (g a))) /
        ∑ a, (C.man a).inner (y a) (g a) (g a)
      let p := fun a => -(g' a) + β • T a (d a)
      (y = fun a => (C.man a).retr (x a) (α • d a)) ∧
      d' = if ∑ a, (C.man a).inner (y a) (g' a) (p a) < 0 then p else fun a => -(g' a) := by
  have hm' : ∀ i : Info, i.phi0 ≠ none → (C.method i).Honest [] := fun i _ => hm i
  have hc := C63.reach_consistent hR hm' hK h₀ hs
  obtain ⟨hc', -, hg, -⟩ := C63.step_ok hR hm' hK hc h
  obtain ⟨s1, δ, d, r, h1, hd1, hd, hh, -, hr⟩ := C85.step_full hR hm' hK hc h
  obtain ⟨s2, δ', d', r', h2, hd2, hd', -, -, -⟩ := C85.step_full hR hm' hK hc' h'
  have hra : r = some α := by
    rw [hh] at hα; simpa using hα
  obtain ⟨hy, ht⟩ := hr α hra
  refine ⟨d, d', hd, hd', hy, ?_⟩
  funext a
  have := C85.initLoss_cg (C := C) (f := f) hc' h2 hd hg (β := (∑ a, (C.man a).inner (s'.points a)
      (C63.rgrad C f s'.points a) (C63.rgrad C f s'.points a -
        (C.man a).transpFollowRetr (s.points a) (α • d a) (C63.rgrad C f s.points a))) /
      ∑ a, (C.man a).inner (s'.points a) (C63.rgrad C f s.points a) (C63.rgrad C f s.points a))
    (t := fun a => (C.man a).transpFollowRetr (s.points a) (α • d a) (d a))
    (fun _ a => (ht a).1 hS) (by
      rw [hcg]
      unfold cgPolakRibiere
      have hgt := fun a => (ht a).2 hG
      simp only [hgt, reduceCtorEq, exists_false, if_false, Option.getD_some]
      change (if ∑ a, (C.man a).inner (s'.points a) (C63.rgrad C f s.points a)
        (C63.rgrad C f s.points a) = 0 then _ else _) = _
      split_ifs with hz
      · rw [hz, div_zero]
      · rfl) a
  rw [hd2 a, Option.some.injEq] at this
  exact this

/-- The first step goes along the negative gradient, whatever the rule. -/
theorem C85_first (hR : ∀ a, Retraction (C.man a) (On a) (Tan a))
    (hm : ∀ i, (C.method i).Honest []) (hK : KeepsTangent C Tan)
    {x₀ : ∀ a, ι a → ℝ} (h₀ : ∀ a, On a (x₀ a)) {s : LS κ ι} {rc : Bool} {out : Option ℝ}
    (h : step C f false rc false (fresh x₀) = (s, .ok out)) (a : κ) :
    (s.par a).searchDir = some (-((C.man a).egrad2rgrad (x₀ a) (f.grad x₀ a))) := by
  have hc := C63.reach_consistent hR (fun i _ => hm i) hK h₀ (C := C) (f := f) .start
  obtain ⟨s1, δ, d, r, h1, hd, hd', -⟩ := C85.step_full hR (fun i _ => hm i) hK hc h
  have key : (s1.par a).searchDir = some (-(C63.rgrad C f x₀ a)) := by
    unfold initLoss at h1
    rw [C63.startGrads_eq hc] at h1
    dsimp only at h1
    split at h1
    · simp at h1
    · rename_i s2 δ2 h2
      simp only [Prod.mk.injEq, Except.ok.injEq] at h1
      obtain ⟨rfl, -⟩ := h1
      obtain ⟨d2, rfl, he⟩ := C63.direction_state h2
      rcases he with ⟨hd, -, -⟩ | ⟨rfl, -⟩
      · dsimp only
        unfold proposeDirection at hd
        rw [if_pos ⟨a, rfl⟩, Except.ok.injEq] at hd
        rw [← hd]
        rfl
      · rfl
  rw [hd' a, ← hd a, key]
  rfl

open Classical in
/-- `step(force_step=True)`, from every state that a history of steps reaches: if the method finds a step
size the parameters move by it, and otherwise by `fallback_stepsize`, along the search direction; the
history records the failure.  Missing: what is returned, which can be the loss of another point
(`C63_force_step_counterexample`). -/
theorem C63_force_step_partial (hR : ∀ a, Retraction (C.man a) (On a) (Tan a))
    (hm : ∀ i, (C.method i).Honest []) (hK : KeepsTangent C Tan) {x₀ : ∀ a, ι a → ℝ}
    (h₀ : ∀ a, On a (x₀ a)) {s s' : LS κ ι} (hs : Reach C f x₀ s) {rc : Bool} {out : Option ℝ}
    (h : step C f true rc false s = (s', .ok out)) :
    ∃ (d : ∀ a, ι a → ℝ) (r : Option ℝ), (∀ a, (s'.par a).searchDir = some (d a)) ∧
      s'.history = s.history ++ [r] ∧
      (s'.points = fun a => (C.man a).retr (s.points a) (r.getD C.fallbackStepsize • d a)) ∧
      (r ≠ none → out = some (f.loss s'.points)) := by
  have hm' : ∀ i : Info, i.phi0 ≠ none → (C.method i).Honest [] := fun i _ => hm i
  have hc := C63.reach_consistent hR hm' hK h₀ hs
  unfold step at h
  split at h
  · simp at h
  · rename_i s1 l δ h1
    obtain ⟨rfl, hh, hpl, hg1, hpt, hgr, htr, d, hd, hT, -⟩ := C63.initLoss_state hR hc h1
    split at h
    · simp at h
    · rename_i s2 r h2
      have ht0 : C63.Track C f s.points d [] { s1 with stepSizeDic := [] } :=
        ⟨hpt, hd, by simp, by simp, by simp, hg1⟩
      obtain ⟨tried, hne, hr, ht⟩ := C63.track_run hR hc.on hT _ ht0 (hm' _ (by simp)) h2
      have hsame := C63.same_run (C := C) (f := f) (C.method ⟨some (f.loss s.points), δ, s1.oldPhi0,
        s1.oldDerphi0, s1.lastStepSize⟩) { s1 with stepSizeDic := [] }
      rw [h2] at hsame
      have hK' := C63.keeps hc hK hpt htr h2
      cases r with
      | some α =>
        obtain ⟨c1, c2, c3, c4, c5, c6, c7⟩ := C63.conclude_ok hR hc.on hT ht hne hr hK'
          (show conclude C f false false _ _ _ _ = _ from h)
        refine ⟨d, some α, c4, ?_, (c7 α rfl).1, fun _ => (c7 α rfl).2⟩
        rw [c1, hsame.history]; exact congrArg (· ++ [some α]) hh
      | none =>
        have hdic : s2.stepSizeDic ≠ [] := by
          obtain ⟨β, hβ⟩ := List.exists_mem_of_ne_nil _ hne
          obtain ⟨v, hv⟩ := ht.keys β hβ
          exact List.ne_nil_of_mem hv
        obtain ⟨β, v, hl, -, -⟩ := ht.last hdic
        unfold conclude afterSearch at h
        simp only [commit, Bool.false_eq_true, if_false, if_true] at h
        split at h
        · simp at h
        · rename_i s3 hs3
          obtain ⟨hp, hgc, hdc, hh3, ho, hpl3⟩ := C63.moveAll_ok (d := d)
            (y := C63.trialPoint C s.points d C.fallbackStepsize) (by exact ht.dir)
            (by
              intro a
              rw [if_pos (by simp [hl])]
              dsimp only
              rw [ht.point a]
              rfl) hs3
          dsimp only at hh3 hp
          split at h
          · simp at h
          · rename_i s4 hs4
            have := C63.stabilizeAfter_ok hs4
            subst this
            unfold report at h
            dsimp only at h
            have h5 := C63.same_phi (C := C) (f := f) C.fallbackStepsize
              { s3 with groupStep := s3.groupStep + 1 }
            split at h
            · simp at h
            · rename_i s5 v5 hs5
              rw [hs5] at h5
              simp only [Prod.mk.injEq, Except.ok.injEq] at h
              obtain ⟨rfl, -⟩ := h
              refine ⟨d, none, fun a => (h5.dir a).trans (hp a).2.1, ?_, ?_, by simp⟩
              · change s5.history = _
                rw [h5.history]
                change s3.history = _
                rw [hh3, hsame.history]
                exact congrArg (· ++ [none]) hh
              · funext a
                exact (h5.point a).trans (hp a).1

end

namespace C85

/-- Fletcher–Reeves in one dimension with the method that tries and takes the step size 1. -/
noncomputable def conf : Config Unit fun _ => Unit :=
  { C63Cx.conf C63Cx.tryOne false with cg := cgFletcherReeves fun _ => euclidean Unit,
                                       transportSearchDirection := true }

end C85

/-- The conditions are met by two steps, the first of which moves. -/
example : ∃ s s' out out', Retraction (C85.conf.man ()) (fun _ => True) (fun _ _ => True) ∧
    (∀ i, (C85.conf.method i).Honest []) ∧ KeepsTangent C85.conf (fun _ _ _ => True) ∧
    step C85.conf C63Cx.quad false false false (fresh fun _ _ => 1) = (s, .ok out) ∧
    step C85.conf C63Cx.quad false false false s = (s', .ok out') ∧ s.history = [] ++ [some 1] ∧
    s.points () () = 0 := by
  have h1 : ∃ s r, step C85.conf C63Cx.quad false false false (fresh fun _ _ => 1) = (s, .ok r) ∧
      (s.points = fun _ _ => 0) ∧ (s.par ()).searchDir = some (fun _ => -1) ∧
      (s.par ()).searchTransported = some (fun _ => -1) ∧ (s.par ()).grad = some (fun _ => 1) ∧
      s.gradsComputed = false ∧ s.history = [some 1] := by
    simp [step, initLoss, startGrads, fresh, LS.points, computeSearchDirection, proposeDirection, slope,
      C85.conf, C63Cx.conf, euclidean, C63Cx.quad, runSearch, C63Cx.tryOne, conclude, afterSearch, commit,
      moveAll, moveParam, stabilizeAfter, report, phi, dicGet, moveTrial]
    refine ⟨?_, ?_⟩ <;> funext a <;> simp [LS.points]
    funext i; simp
  obtain ⟨s, r, h, hp, hd, ht, hg, hc, hh⟩ := h1
  have hp' : (s.par ()).point = fun _ => 0 := congrFun hp ()
  have h2 : ∃ s' r', step C85.conf C63Cx.quad false false false s = (s', .ok r') := by
    simp [step, initLoss, startGrads, LS.points, computeSearchDirection, proposeDirection, slope,
      C85.conf, C63Cx.conf, euclidean, C63Cx.quad, runSearch, C63Cx.tryOne, conclude, afterSearch, commit,
      moveAll, moveParam, stabilizeAfter, report, phi, dicGet, moveTrial, cgFletcherReeves, cgDirection,
      hp', hd, ht, hg, hc]
  obtain ⟨s', r', h'⟩ := h2
  exact ⟨s, s', r, r', C63Cx.euclidean_retraction _, C63Cx.tryOne_honest, Or.inr (Or.inr fun _ _ _ => trivial),
    h, h', hh, by rw [hp]⟩
