import Verif.Props.C85

/-!
# C86: the strong Wolfe conditions
-/

open Geoopt Geoopt.LineSearch

namespace C86

variable {κ : Type} [Fintype κ] {ι : κ → Type} {C : Config κ ι} {f : Closure κ ι}
variable {On : ∀ a, (ι a → ℝ) → Prop} {Tan : ∀ a, (ι a → ℝ) → (ι a → ℝ) → Prop}

theorem honest_of_wolfe {p0 c1 c2 : ℝ} (S : Search) : ∀ {keys : List ℝ} {vals ders : List (ℝ × ℝ)}
    {tried : List ℝ}, S.Wolfe p0 c1 c2 keys vals ders → (keys ≠ [] → tried ≠ []) →
    (∀ e ∈ vals, e.1 ∈ tried) → S.Honest tried := by
  induction S with
  | done r =>
    intro keys vals ders tried h h1 h2
    refine ⟨h1 h.1, fun α hα => ?_⟩
    obtain ⟨v, δ₀, δ, hv, -⟩ := h.2 α hα
    exact h2 _ hv
  | phi α next ih =>
    intro keys vals ders tried h h1 h2 v
    refine ih v (h v) (fun _ => by simp) ?_
    intro e he
    rcases List.mem_cons.1 he with rfl | he
    · exact List.mem_cons_self
    · exact List.mem_cons_of_mem _ (h2 e he)
  | derphi α next ih =>
    intro keys vals ders tried h h1 h2 v
    exact ih v (h.2 v) (fun _ => by simp) fun e he => List.mem_cons_of_mem _ (h2 e he)

/-- What holds while a search with derivatives runs: `keys` are the step sizes evaluated, and the
derivative kept is that at the last one. -/
structure Track (C : Config κ ι) (f : Closure κ ι) (x d : ∀ a, ι a → ℝ) (keys : List ℝ)
    (s : LS κ ι) : Prop where
  point : ∀ a, (s.par a).point = x a
  dir : ∀ a, (s.par a).searchDir = some (d a)
  dic : s.stepSizeDic.map Prod.fst = keys
  der : ∀ α, keys.head? = some α → ∑ a, (s.par a).derPhi.getD 0 = lineDeriv C f x d α

theorem track_phi (hR : ∀ a, Retraction (C.man a) (On a) (Tan a)) (hc : C.computeDerphi = true)
    {x d : ∀ a, ι a → ℝ} (hx : ∀ a, On a (x a)) (hT : ∀ a, Tan a (x a) (d a)) {keys : List ℝ}
    {s : LS κ ι} (h : Track C f x d keys s) (α : ℝ) :
    Track C f x d (touch α keys) (phi C f α s).1 := by
  classical
  cases hg : dicGet s.stepSizeDic α with
  | some v =>
    have hm : α ∈ keys := by
      rw [← h.dic]
      exact List.mem_map_of_mem (f := Prod.fst) (C63.mem_of_dicGet hg)
    have he : (phi C f α s).1 = s := by unfold phi; rw [hg]
    rw [he, touch, if_pos hm]
    exact h
  | none =>
    have hm : α ∉ keys := by
      rw [← h.dic, List.mem_map]
      rintro ⟨⟨a, v⟩, hv, rfl⟩
      obtain ⟨w, hw⟩ := C63.dicGet_of_mem hv
      rw [hg] at hw; cases hw
    have hpt : ∀ a, (moveTrial (C.man a) true α (s.par a) (d a)).point =
        (C.man a).retr (x a) (α • d a) := by
      intro a
      rw [C63.moveTrial_point (hR a) true α (s.par a) (d a) (by rw [h.point a]; exact hx a)
        (by rw [h.point a]; exact hT a), h.point a]
    have h2 : ∀ a, (C.man a).projx ((C.man a).retrTransp (x a) (α • d a) (d a)).1 =
        (C.man a).retr (x a) (α • d a) := by
      intro a
      rw [(hR a).eq _ (hx a) ((hR a).smul α (hT a)),
        (hR a).fix ((hR a).on (hx a) ((hR a).smul α (hT a)))]
    rw [touch, if_neg hm]
    unfold phi
    rw [hg]
    dsimp only
    rw [if_neg (by rintro ⟨a, ha⟩; rw [h.dir a] at ha; cases ha)]
    simp only [hc, if_true, h.dir, Option.getD_some, hpt, storeGrad]
    refine ⟨fun a => h.point a, fun a => ?_, ?_, ?_⟩
    · exact (C63.moveTrial_keep _ _ _ _ _).1.trans (h.dir a)
    · simp [h.dic]
    · intro β hβ
      simp only [List.head?_cons, Option.some.injEq] at hβ
      subst hβ
      unfold lineDeriv
      refine Finset.sum_congr rfl fun a _ => ?_
      have h3 : (moveTrial (C.man a) true α (s.par a) (d a)).searchTransported =
          some ((C.man a).proju ((C.man a).retr (x a) (α • d a))
            ((C.man a).retrTransp (x a) (α • d a) (d a)).2) := by
        simp only [moveTrial, if_true, h.point a, h2 a]
      dsimp only
      rw [h3]
      rfl

theorem phi_ok {x d : ∀ a, ι a → ℝ} {keys : List ℝ} {s : LS κ ι} (h : Track C f x d keys s) (α : ℝ) :
    ∃ v, (phi C f α s).2 = .ok v := by
  unfold phi
  cases dicGet s.stepSizeDic α with
  | some v => exact ⟨v, rfl⟩
  | none =>
    dsimp only
    rw [if_neg (by rintro ⟨a, ha⟩; rw [h.dir a] at ha; cases ha)]
    exact ⟨_, rfl⟩

theorem wolfe_run (hR : ∀ a, Retraction (C.man a) (On a) (Tan a)) (hc : C.computeDerphi = true)
    {x d : ∀ a, ι a → ℝ} (hx : ∀ a, On a (x a)) (hT : ∀ a, Tan a (x a) (d a)) {p0 c1 c2 : ℝ}
    (S : Search) : ∀ {keys tried : List ℝ} {vals ders : List (ℝ × ℝ)}
    {s : LS κ ι}, C63.Track C f x d tried s → Track C f x d keys s →
    S.Wolfe p0 c1 c2 keys vals ders →
    (∀ e ∈ vals, e.2 = f.loss (C63.trialPoint C x d e.1)) →
    (∀ e ∈ ders, e.2 = lineDeriv C f x d e.1) → ∀ {s' : LS κ ι} {r : Option ℝ},
    runSearch C f S s = (s', .ok r) → ∀ α, r = some α →
      0 ≤ α ∧ f.loss (C63.trialPoint C x d α) ≤ p0 + c1 * α * lineDeriv C f x d 0 ∧
      |lineDeriv C f x d α| ≤ c2 * |lineDeriv C f x d 0| := by
  induction S with
  | done r =>
    intro keys tried vals ders s ht hw h hv hδ s' r' hr α hα
    simp only [runSearch, Prod.mk.injEq, Except.ok.injEq] at hr
    obtain ⟨rfl, rfl⟩ := hr
    obtain ⟨v, δ₀, δ, hm, h0, hm', hpos, hle, hcu⟩ := h.2 α hα
    have a1 := hv _ hm
    have a2 := hδ _ h0
    have a3 := hδ _ hm'
    dsimp only at a1 a2 a3
    rw [a1, a2] at hle
    rw [a2, a3] at hcu
    exact ⟨hpos, hle, hcu⟩
  | phi α next ih =>
    intro keys tried vals ders s ht hw h hv hδ s' r hr
    rw [runSearch] at hr
    obtain ⟨h1, h2⟩ := C63.track_phi hR hx hT ht α
    have h3 := track_phi hR hc hx hT hw α
    rcases hp : phi C f α s with ⟨s1, q⟩
    rw [hp] at h1 h2 h3 hr
    dsimp only at h2
    subst h2
    refine ih _ h1 h3 (h _) ?_ hδ hr
    intro e he
    rcases List.mem_cons.1 he with rfl | he
    · rfl
    · exact hv e he
  | derphi α next ih =>
    intro keys tried vals ders s ht hw h hv hδ s' r hr
    rw [runSearch] at hr
    rcases hp : derphi C f α s with ⟨s1, e | v⟩
    · rw [hp] at hr; simp at hr
    · rw [hp] at hr
      have h1 := C63.track_derphi hR hx hT ht α hp
      have h3 := track_phi hR hc hx hT hw α
      unfold derphi at hp
      rw [if_neg (by rw [hc]; simp)] at hp
      rcases hq : phi C f α s with ⟨s2, e | w⟩
      · rw [hq] at hp; simp at hp
      · rw [hq] at hp h3
        simp only [Prod.mk.injEq, Except.ok.injEq] at hp
        obtain ⟨rfl, rfl⟩ := hp
        refine ih _ h1 h3 (h.2 _) hv ?_ hr
        intro e he
        rcases List.mem_cons.1 he with rfl | he
        · refine h3.der α ?_
          rcases h.1 with h4 | h4
          · unfold touch; rw [if_neg h4]; rfl
          · unfold touch; rw [if_pos (List.mem_of_mem_head? h4)]; exact h4
        · exact hδ e he

end C86

section
variable {κ : Type} [Fintype κ] {ι : κ → Type} {C : Config κ ι} {f : Closure κ ι}
variable {On : ∀ a, (ι a → ℝ) → Prop} {Tan : ∀ a, (ι a → ℝ) → (ι a → ℝ) → Prop}

/-- For every history of steps with `line_search_method="wolfe"`: a step that finds a step size `α` moves
every parameter to the retraction along its search direction, and the loss and the derivative of the line
objective there satisfy the strong Wolfe conditions.  The scalar search is SciPy's, assumed to keep its
contract. -/
theorem C86_strong_wolfe (hR : ∀ a, Retraction (C.man a) (On a) (Tan a))
    {scalar : Option ℝ → Option ℝ → ℝ → ℝ → Option ℝ → Search} {c1 c2 : ℝ} {amax : Option ℝ}
    (hscalar : ∀ p0 old, (scalar (some p0) old c1 c2 amax).Wolfe p0 c1 c2 [] [] [])
    (hK : KeepsTangent C Tan) (hmeth : C.method = strongWolfeLineSearch scalar c1 c2 amax)
    (hc : C.computeDerphi = true) {x₀ : ∀ a, ι a → ℝ} (h₀ : ∀ a, On a (x₀ a))
    {s s' : LS κ ι} (hs : Reach C f x₀ s) {rc : Bool} {out : Option ℝ}
    (h : step C f false rc false s = (s', .ok out)) :
    ∃ (d : ∀ a, ι a → ℝ) (r : Option ℝ), (∀ a, (s'.par a).searchDir = some (d a)) ∧
      s'.history = s.history ++ [r] ∧ (r = none → s'.points = s.points) ∧
      ∀ α, r = some α → 0 ≤ α ∧ out = some (f.loss s'.points) ∧
        (s'.points = fun a => (C.man a).retr (s.points a) (α • d a)) ∧
        f.loss s'.points ≤ f.loss s.points + c1 * α * lineDeriv C f s.points d 0 ∧
        |lineDeriv C f s.points d α| ≤ c2 * |lineDeriv C f s.points d 0| := by
  have hm' : ∀ i, i.phi0 ≠ none → (C.method i).Honest [] := by
    intro i hi
    rw [hmeth]
    unfold strongWolfeLineSearch
    cases hp : i.phi0 with
    | none => exact absurd hp hi
    | some p0 => exact C86.honest_of_wolfe _ (hscalar p0 _) (by simp) (by simp)
  have hcon := C63.reach_consistent hR hm' hK h₀ hs
  unfold step at h
  split at h
  · simp at h
  · rename_i s1 l δ h1
    obtain ⟨rfl, hh, hpl, hg1, hpt, hgr, htr, d, hd, hT, -⟩ := C63.initLoss_state hR hcon h1
    split at h
    · simp at h
    · rename_i s2 r h2
      have ht0 : C63.Track C f s.points d [] { s1 with stepSizeDic := [] } :=
        ⟨hpt, hd, by simp, by simp, by simp, hg1⟩
      obtain ⟨tried, hne, hr, ht⟩ := C63.track_run hR hcon.on hT _ ht0 (hm' _ (by simp)) h2
      have hsame := C63.same_run (C := C) (f := f) (C.method ⟨some (f.loss s.points), δ, s1.oldPhi0,
        s1.oldDerphi0, s1.lastStepSize⟩) { s1 with stepSizeDic := [] }
      rw [h2] at hsame
      have hK' := C63.keeps hcon hK hpt htr h2
      rw [hmeth] at h2
      have hwol := C86.wolfe_run hR hc hcon.on hT _ ht0
        (⟨hpt, hd, rfl, by simp⟩ : C86.Track C f s.points d [] { s1 with stepSizeDic := [] })
        (hscalar (f.loss s.points) s1.oldPhi0) (by simp) (by simp) h2
      obtain ⟨c1', c2', c3, c4, c5, c6, c7⟩ := C63.conclude_ok hR hcon.on hT ht hne hr hK' h
      refine ⟨d, r, c4, ?_, fun hn => (c6 hn).1, ?_⟩
      · rw [c1', hsame.history]; exact congrArg (· ++ [r]) hh
      · intro α hα
        obtain ⟨e1, e2⟩ := c7 α hα
        obtain ⟨e3, e4, e5⟩ := hwol α hα
        exact ⟨e3, e2, e1, by rw [e1]; exact e4, e5⟩

/-- At step size zero the derivative is the slope along the search direction, if the retraction along zero
is the identity and transports nothing. -/
theorem C86_slope {x d : ∀ a, ι a → ℝ} (hx : ∀ a, (C.man a).retr (x a) 0 = x a)
    (ht : ∀ a, (C.man a).proju (x a) ((C.man a).retrTransp (x a) 0 (d a)).2 = d a) :
    lineDeriv C f x d 0 = ∑ a, (C.man a).inner (x a)
      ((C.man a).egrad2rgrad (x a) (f.grad x a)) (d a) := by
  unfold lineDeriv
  simp only [zero_smul, hx, ht]

end

namespace C86

/-- A search that keeps the contract: it asks for the derivative at 0, tries the step size 1 and takes it if
the conditions hold. -/
noncomputable def once (phi0 _old : Option ℝ) (c1 c2 : ℝ) (_amax : Option ℝ) : Search :=
  .derphi 0 fun δ₀ => .phi 1 fun v => .derphi 1 fun δ =>
    open Classical in
    .done (if v ≤ phi0.getD 0 + c1 * 1 * δ₀ ∧ |δ| ≤ c2 * |δ₀| then some 1 else none)

theorem once_wolfe (p0 : ℝ) (old : Option ℝ) (c1 c2 : ℝ) (amax : Option ℝ) :
    (once (some p0) old c1 c2 amax).Wolfe p0 c1 c2 [] [] [] := by
  classical
  have h1 : touch 1 (touch 0 []) = [1, 0] := by simp [touch]
  refine ⟨Or.inl (by simp), fun δ₀ v => ⟨Or.inr (by rw [h1]; rfl), fun δ => ⟨?_, fun α hα => ?_⟩⟩⟩
  · rw [h1]; simp [touch]
  · split_ifs at hα with h
    simp only [Option.some.injEq] at hα
    subst hα
    exact ⟨v, δ₀, δ, by simp, by simp, by simp, zero_le_one, by simpa using h.1, h.2⟩

end C86

/-- The conditions are met, and the step is taken: from 1 to 0 along `x²/2`. -/
example : ∃ s out, (∀ p0 old, (C86.once (some p0) old (1 / 10000) (9 / 10) none).Wolfe p0 (1 / 10000) (9 / 10)
      [] [] []) ∧
    step (C63Cx.conf (strongWolfeLineSearch C86.once (1 / 10000) (9 / 10) none) true) C63Cx.quad false false
      false (fresh fun _ _ => 1) = (s, .ok out) ∧ s.history = [some 1] := by
  have e1 : (10000⁻¹ : ℝ) ≤ 2⁻¹ := by norm_num
  have e2 : (0 : ℝ) ≤ 9 / 10 := by norm_num
  refine ⟨(step (C63Cx.conf (strongWolfeLineSearch C86.once (1 / 10000) (9 / 10) none) true) C63Cx.quad false
    false false (fresh fun _ _ => 1)).1, some 0, fun p0 old => C86.once_wolfe p0 old _ _ _,
    Prod.ext rfl ?_, ?_⟩
  all_goals
    simp [step, initLoss, startGrads, fresh, LS.points, computeSearchDirection, proposeDirection, slope,
      C63Cx.conf, euclidean, C63Cx.quad, runSearch, conclude, afterSearch, commit, strongWolfeLineSearch, C86.once,
      moveAll, moveParam, stabilizeAfter, report, phi, derphi, dicGet, moveTrial, storeGrad, e1, e2, not_lt.2 e1, not_lt.2 e2]
