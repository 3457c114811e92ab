import Verif.Props.C63Cx

/-!
# C76: Armijo backtracking never increases the loss
-/

open Geoopt Geoopt.LineSearch

namespace C76

variable {κ : Type} [Fintype κ] {ι : κ → Type} {C : Config κ ι} {f : Closure κ ι}
variable {On : ∀ a, (ι a → ℝ) → Prop} {Tan : ∀ a, (ι a → ℝ) → (ι a → ℝ) → Prop}

theorem honest_of_armijo {p0 δ c1 : ℝ} (S : Search) : ∀ {tried : List (ℝ × ℝ)},
    S.Armijo p0 δ c1 tried → S.Honest (tried.map Prod.fst) := by
  induction S with
  | done r =>
    intro tried h
    refine ⟨by simpa using h.1, fun α hα => ?_⟩
    obtain ⟨v, hv, -⟩ := h.2 α hα
    exact List.mem_map_of_mem (f := Prod.fst) hv
  | phi α next ih => intro tried h v; exact ih v (h v)
  | derphi α next _ => intro tried h; exact h.elim

/-- The step size returned by an Armijo search satisfies the condition for the actual loss. -/
theorem armijo_run (hR : ∀ a, Retraction (C.man a) (On a) (Tan a)) {x d : ∀ a, ι a → ℝ}
    (hx : ∀ a, On a (x a)) (hT : ∀ a, Tan a (x a) (d a)) {p0 δ c1 : ℝ} (S : Search) : ∀ {tried : List (ℝ × ℝ)} {keys : List ℝ}
    {s : LS κ ι}, C63.Track C f x d keys s → S.Armijo p0 δ c1 tried →
    (∀ e ∈ tried, e.2 = f.loss (C63.trialPoint C x d e.1)) → ∀ {s' : LS κ ι} {r : Option ℝ},
    runSearch C f S s = (s', .ok r) → ∀ α, r = some α →
      0 ≤ α ∧ f.loss (C63.trialPoint C x d α) ≤ p0 + c1 * α * δ := by
  induction S with
  | done r =>
    intro tried keys s ht h hv s' r' hr α hα
    simp only [runSearch, Prod.mk.injEq, Except.ok.injEq] at hr
    obtain ⟨rfl, rfl⟩ := hr
    obtain ⟨v, hm, h0, hle⟩ := h.2 α hα
    exact ⟨h0, (hv _ hm) ▸ hle⟩
  | phi α next ih =>
    intro tried keys s ht h hv s' r hr
    rw [runSearch] at hr
    obtain ⟨h1, h2⟩ := C63.track_phi hR hx hT ht α
    rcases hp : phi C f α s with ⟨s1, q⟩
    rw [hp] at h1 h2 hr
    dsimp only at h2
    subst h2
    refine ih _ h1 (h _) ?_ hr
    intro e he
    rcases List.mem_cons.1 he with rfl | he
    · rfl
    · exact hv e he
  | derphi α next _ => intro tried keys s ht h; exact h.elim

end C76

section
variable {κ : Type} [Fintype κ] {ι : κ → Type} {C : Config κ ι} {f : Closure κ ι}
variable {On : ∀ a, (ι a → ℝ) → Prop} {Tan : ∀ a, (ι a → ℝ) → (ι a → ℝ) → Prop}

/-- The first step size tried is positive when `amax` is, and at most `amax`. -/
theorem C76_start (p0 δ : ℝ) (old amax : Option ℝ) (hm : ∀ m, amax = some m → 0 < m) :
    0 < armijoStart p0 δ old amax ∧ ∀ m, amax = some m → armijoStart p0 δ old amax ≤ m := by
  have key : ∀ a : ℝ, 0 < (if a ≤ 0 then (1 : ℝ) else a) := by
    intro a
    split_ifs with h
    · exact one_pos
    · exact not_le.1 h
  unfold armijoStart
  dsimp only
  cases amax with
  | none => exact ⟨by convert key _, by simp⟩
  | some m =>
    refine ⟨lt_min (by convert key _) (hm m rfl), ?_⟩
    rintro _ ⟨⟩
    exact min_le_right _ _

/-- For every history of steps with `line_search_method="armijo"`: a step that returns a loss returns the
loss at the new point, which is at most the loss at the point before, by at least `c1` times the step size
times the slope; a step that finds no step size leaves the parameters where they are.  The scalar search
is SciPy's, assumed to keep its contract for a positive first step size and a slope that is not
positive. -/
theorem C76_armijo_descent (hR : ∀ a, Retraction (C.man a) (On a) (Tan a))
    {scalar : ℝ → ℝ → ℝ → ℝ → ℝ → Search} {c1 amin : ℝ} {amax : Option ℝ} (hc1 : 0 ≤ c1)
    (hm : ∀ m, amax = some m → 0 < m)
    (hscalar : ∀ p0 δ α0, 0 < α0 → (scalar p0 δ c1 α0 amin).Armijo p0 δ c1 [])
    (hK : KeepsTangent C Tan) (hmeth : ∀ i, C.method i = armijoBacktracking scalar c1 amin amax i)
    {x₀ : ∀ a, ι a → ℝ} (h₀ : ∀ a, On a (x₀ a))
    (hneg : ∀ a x g, On a x → (C.man a).inner x ((C.man a).egrad2rgrad x g)
      (-((C.man a).egrad2rgrad x g)) = -(C.man a).inner x ((C.man a).egrad2rgrad x g)
        ((C.man a).egrad2rgrad x g))
    (hpos : ∀ a x g, On a x → 0 ≤ (C.man a).inner x ((C.man a).egrad2rgrad x g)
      ((C.man a).egrad2rgrad x g))
    {s s' : LS κ ι} (hs : Reach C f x₀ s) {rc : Bool} {out : Option ℝ}
    (h : step C f false rc false s = (s', .ok out)) :
    f.loss s'.points ≤ f.loss s.points ∧
    ∃ (d : ∀ a, ι a → ℝ) (r : Option ℝ), (∀ a, (s'.par a).searchDir = some (d a)) ∧
      s'.history = s.history ++ [r] ∧ (r = none → s'.points = s.points) ∧
      ∀ α, r = some α → 0 ≤ α ∧ out = some (f.loss s'.points) ∧
        (s'.points = fun a => (C.man a).retr (s.points a) (α • d a)) ∧
        f.loss s'.points ≤ f.loss s.points + c1 * α * ∑ a, (C.man a).inner (s.points a)
          ((C.man a).egrad2rgrad (s.points a) (f.grad s.points a)) (d a) := by
  have hm' : ∀ i, i.phi0 ≠ none → (C.method i).Honest [] := by
    intro i hi
    rw [hmeth]
    unfold armijoBacktracking
    cases hp : i.phi0 with
    | none => exact absurd hp hi
    | some p0 => exact C76.honest_of_armijo _ (hscalar p0 _ _ (C76_start _ _ _ _ hm).1)
  have hc := C63.reach_consistent hR hm' hK h₀ hs
  unfold step at h
  split at h
  · simp at h
  · rename_i s1 l δ h1
    obtain ⟨rfl, hh, hpl, hg1, hpt, hgr, htr, d, hd, hT, hδ⟩ := C63.initLoss_state hR hc h1
    have hδ' : δ = ∑ a, (C.man a).inner (s.points a) (C63.rgrad C f s.points a) (d a) ∧ δ ≤ 0 := by
      rcases hδ with ⟨e, hlt⟩ | ⟨rfl, e⟩
      · exact ⟨e, hlt.le⟩
      · refine ⟨?_, ?_⟩
        · rw [e, ← Finset.sum_neg_distrib]
          exact Finset.sum_congr rfl fun a _ => (hneg a _ _ (hc.on a)).symm
        · rw [e]; exact neg_nonpos.2 (Finset.sum_nonneg fun a _ => hpos a _ _ (hc.on a))
    split at h
    · simp at h
    · rename_i s2 r h2
      have ht0 : C63.Track C f s.points d [] { s1 with stepSizeDic := [] } :=
        ⟨hpt, hd, by simp, by simp, by simp, hg1⟩
      obtain ⟨tried, hne, hr, ht⟩ := C63.track_run hR hc.on hT _ ht0 (hm' _ (by simp)) h2
      have hsame := C63.same_run (C := C) (f := f) (C.method ⟨some (f.loss s.points), δ, s1.oldPhi0,
        s1.oldDerphi0, s1.lastStepSize⟩) { s1 with stepSizeDic := [] }
      rw [h2] at hsame
      have hK' := C63.keeps hc hK hpt htr h2
      rw [hmeth] at h2
      have harm := C76.armijo_run hR hc.on hT _ ht0
        (hscalar (f.loss s.points) δ _ (C76_start _ _ s1.oldPhi0 _ hm).1) (by simp) h2
      obtain ⟨c1', c2, c3, c4, c5, c6, c7⟩ := C63.conclude_ok hR hc.on hT ht hne hr hK' h
      have hfin : ∀ α, r = some α → 0 ≤ α ∧ out = some (f.loss s'.points) ∧
          (s'.points = fun a => (C.man a).retr (s.points a) (α • d a)) ∧
          f.loss s'.points ≤ f.loss s.points + c1 * α * δ := by
        intro α hα
        obtain ⟨e1, e2⟩ := c7 α hα
        obtain ⟨e3, e4⟩ := harm α hα
        exact ⟨e3, e2, e1, by rw [e1]; exact e4⟩
      refine ⟨?_, d, r, c4, ?_, fun hn => (c6 hn).1, ?_⟩
      · cases hrr : r with
        | none => exact le_of_eq (congrArg f.loss (c6 hrr).1)
        | some α =>
          obtain ⟨e1, -, -, e2⟩ := hfin α hrr
          have : c1 * α * δ ≤ 0 := mul_nonpos_of_nonneg_of_nonpos (mul_nonneg hc1 e1) hδ'.2
          linarith
      · rw [c1', hsame.history]; exact congrArg (· ++ [r]) hh
      · intro α hα
        rw [hδ'.1] at hfin
        exact hfin α hα

end

/-- Along every history the losses at the successive points do not increase. -/
theorem C76_monotone {κ : Type} [Fintype κ] {ι : κ → Type} {C : Config κ ι} {f : Closure κ ι}
    {On : ∀ a, (ι a → ℝ) → Prop} {Tan : ∀ a, (ι a → ℝ) → (ι a → ℝ) → Prop}
    (hR : ∀ a, Retraction (C.man a) (On a) (Tan a))
    {scalar : ℝ → ℝ → ℝ → ℝ → ℝ → Search} {c1 amin : ℝ} {amax : Option ℝ} (hc1 : 0 ≤ c1)
    (hm : ∀ m, amax = some m → 0 < m)
    (hscalar : ∀ p0 δ α0, 0 < α0 → (scalar p0 δ c1 α0 amin).Armijo p0 δ c1 [])
    (hK : KeepsTangent C Tan) (hmeth : ∀ i, C.method i = armijoBacktracking scalar c1 amin amax i)
    {x₀ : ∀ a, ι a → ℝ} (h₀ : ∀ a, On a (x₀ a))
    (hneg : ∀ a x g, On a x → (C.man a).inner x ((C.man a).egrad2rgrad x g)
      (-((C.man a).egrad2rgrad x g)) = -(C.man a).inner x ((C.man a).egrad2rgrad x g)
        ((C.man a).egrad2rgrad x g))
    (hpos : ∀ a x g, On a x → 0 ≤ (C.man a).inner x ((C.man a).egrad2rgrad x g)
      ((C.man a).egrad2rgrad x g))
    {s : LS κ ι} (hs : Reach C f x₀ s) : f.loss s.points ≤ f.loss x₀ := by
  induction hs with
  | start => exact le_refl _
  | step rc hs' hstep ih =>
    exact (C76_armijo_descent hR hc1 hm hscalar hK hmeth h₀ hneg hpos hs' hstep).1.trans ih

namespace C76

/-- A scalar search that keeps the contract: it tries the first step size, then half of it. -/
noncomputable def twice : ℝ → ℝ → ℝ → ℝ → ℝ → Search := fun p0 δ c1 α _ =>
  .phi α fun v => open Classical in
    if v ≤ p0 + c1 * α * δ then .done (some α)
    else .phi (α / 2) fun w => if w ≤ p0 + c1 * (α / 2) * δ then .done (some (α / 2)) else .done none

theorem twice_armijo (p0 δ c1 amin α : ℝ) (h : 0 < α) :
    (twice p0 δ c1 α amin).Armijo p0 δ c1 [] := by
  unfold twice
  intro v
  by_cases hv : v ≤ p0 + c1 * α * δ
  · simp only [hv, if_true, Search.Armijo]
    exact ⟨by simp, by rintro _ ⟨⟩; exact ⟨v, by simp, h.le, hv⟩⟩
  · simp only [hv, if_false, Search.Armijo]
    intro w
    by_cases hw : w ≤ p0 + c1 * (α / 2) * δ
    · simp only [hw, if_true, Search.Armijo]
      exact ⟨by simp, by rintro _ ⟨⟩; exact ⟨w, by simp, by linarith, hw⟩⟩
    · simp only [hw, if_false, Search.Armijo]
      exact ⟨by simp, by simp⟩

/-- The conditions are met by the quadratic in one variable. -/
example {s : LS Unit fun _ => Unit} (hs : Reach (C63Cx.conf
    (armijoBacktracking twice (1 / 10000) 0 none) false) C63Cx.quad (fun _ _ => 3) s) :
    (s.points () ()) ^ 2 / 2 ≤ 9 / 2 := by
  have := C76_monotone (On := fun _ _ => True) (Tan := fun _ _ _ => True) (fun _ => C63Cx.euclidean_retraction _)
    (c1 := 1 / 10000) (amin := 0) (amax := none) (by norm_num) (by simp)
    (fun p0 δ α0 h => twice_armijo p0 δ _ _ α0 h) (Or.inl fun _ => rfl) (fun _ => rfl) (fun _ => trivial)
    (by intro a x g _; simp [C63Cx.conf, euclidean])
    (by intro a x g _; simp [C63Cx.conf, euclidean]; exact mul_self_nonneg _) hs
  simp only [C63Cx.quad] at this
  linarith

end C76
