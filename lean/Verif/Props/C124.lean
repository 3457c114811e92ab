import Verif.Spec.Raises
import Verif.Lemmas.OptimStep

/-!
# C124: what a step that raises leaves behind
-/

namespace Geoopt.C124

open Geoopt.Optim

set_option linter.unusedDecidableInType false

section Loops
variable {κ : Type} [DecidableEq κ] {S : κ → Type} {H : Type}

/-- A loop over parameters that raises stops at some parameter. -/
theorem forParams_err (f : ∀ a, S a → S a × Bool × Option PyErr) (as : List κ) (w : ∀ a, S a)
    (e : PyErr) (h : (forParams f as w).2.2 = some e) :
    ∃ pre b post, as = pre ++ b :: post ∧ (forParams f pre w).2.2 = none ∧
      (f b ((forParams f pre w).1 b)).2.2 = some e ∧
      (forParams f as w).1 = Function.update (forParams f pre w).1 b
        (f b ((forParams f pre w).1 b)).1 := by
  induction as generalizing w with
  | nil => simp [forParams] at h
  | cons a as ih =>
    rw [forParams] at h
    rcases hf : f a (w a) with ⟨s, b, _ | e'⟩
    · rw [hf] at h
      obtain ⟨pre, c, post, h1, h2, h3, h4⟩ := ih (Function.update w a s) h
      refine ⟨a :: pre, c, post, by rw [h1]; rfl, ?_, ?_, ?_⟩
      · rw [forParams, hf]; exact h2
      · rw [forParams, hf]; exact h3
      · rw [forParams, forParams, hf]; exact h4
    · rw [hf] at h
      refine ⟨[], a, as, rfl, rfl, ?_, ?_⟩
      · change (f a (w a)).2.2 = _
        rw [hf]; exact h
      · simp only [forParams, hf]

/-- A loop over groups that raises stops at some group. -/
theorem forGroups_err (f : (∀ a, S a) → H → (∀ a, S a) × H × Option PyErr) (Gs : List H)
    (w : ∀ a, S a) (e : PyErr) (h : (forGroups f Gs w).2.2 = some e) :
    ∃ pre G post, Gs = pre ++ G :: post ∧ (forGroups f pre w).2.2 = none ∧
      (f (forGroups f pre w).1 G).2.2 = some e ∧
      (forGroups f Gs w).1 = (f (forGroups f pre w).1 G).1 ∧
      (forGroups f Gs w).2.1 = (forGroups f pre w).2.1 ++ (f (forGroups f pre w).1 G).2.1 :: post := by
  induction Gs generalizing w with
  | nil => simp [forGroups] at h
  | cons G Gs ih =>
    rw [forGroups] at h
    rcases hf : f w G with ⟨w', G', _ | e'⟩
    · rw [hf] at h
      obtain ⟨pre, c, post, h1, h2, h3, h4, h5⟩ := ih w' h
      refine ⟨G :: pre, c, post, by rw [h1]; rfl, ?_, ?_, ?_, ?_⟩
      · rw [forGroups, hf]; exact h2
      · rw [forGroups, hf]; exact h3
      · rw [forGroups, forGroups, hf]; exact h4
      · rw [forGroups, forGroups, hf]
        change G' :: (forGroups f Gs w').2.1 = _
        rw [h5]; rfl
    · rw [hf] at h
      refine ⟨[], G, Gs, rfl, rfl, ?_, ?_, ?_⟩
      · change (f w G).2.2 = _
        rw [hf]; exact h
      · simp only [forGroups, hf]
      · simp only [forGroups, hf, List.nil_append]

/-- Appending one group to a loop that raised nothing. -/
theorem forGroups_snoc (f : (∀ a, S a) → H → (∀ a, S a) × H × Option PyErr) (Gs : List H) (G : H)
    (w : ∀ a, S a) (h : (forGroups f Gs w).2.2 = none) :
    (forGroups f (Gs ++ [G]) w).1 = (f (forGroups f Gs w).1 G).1 ∧
      (forGroups f (Gs ++ [G]) w).2.2 = (f (forGroups f Gs w).1 G).2.2 := by
  induction Gs generalizing w with
  | nil =>
    change (forGroups f [G] w).1 = (f w G).1 ∧ (forGroups f [G] w).2.2 = (f w G).2.2
    rw [forGroups]
    rcases f w G with ⟨w', G', _ | e'⟩ <;> exact ⟨rfl, rfl⟩
  | cons K Gs ih =>
    rw [forGroups] at h
    rw [List.cons_append, forGroups, forGroups]
    rcases hf : f w K with ⟨w', G', _ | e'⟩
    · rw [hf] at h
      exact ih w' h
    · rw [hf] at h
      simp at h

theorem forParams_congr_body (f g : ∀ a, S a → S a × Bool × Option PyErr) (as : List κ)
    (w : ∀ a, S a) (h : (forParams f as w).2.2 = none)
    (hfg : ∀ a s, (f a s).2.2 = none → (g a s).1 = (f a s).1 ∧ (g a s).2.1 = false ∧
      (g a s).2.2 = none) :
    forParams g as w = ((forParams f as w).1, false, none) := by
  induction as generalizing w with
  | nil => rfl
  | cons a as ih =>
    rw [forParams] at h
    rw [forParams, forParams]
    rcases hf : f a (w a) with ⟨s, b, _ | e⟩
    · rw [hf] at h
      have h1 := hfg a (w a) (by rw [hf])
      rcases hg : g a (w a) with ⟨s', b', e'⟩
      rw [hf, hg] at h1
      obtain ⟨h2, h3, h4⟩ := h1
      simp only at h2 h3 h4
      subst h2 h3 h4
      simp only
      rw [ih _ h]
      rfl
    · rw [hf] at h
      simp at h

end Loops

section Steps
variable {κ : Type} [DecidableEq κ] {ι : κ → Type} (P : Params κ ι)

omit [DecidableEq κ] in
theorem sgdParam_err {ι : Type} (M : Optim.Manifold ι) (h : SGDHyper) (s : SGDParam ι) (e : PyErr)
    (he : (sgdParam M h s).2.2 = some e) :
    s.grad = .sparse ∧ e = .runtimeError ∧ (sgdParam M h s).1 = s := by
  unfold sgdParam at he ⊢
  rcases hg : s.grad with _ | g | _
  · rw [hg] at he; simp at he
  · rw [hg] at he
    by_cases hm : 0 < h.momentum
    · rcases hb : s.buf with _ | b <;> rw [hb] at he <;> simp [hm] at he
    · simp [hm] at he
  · rw [hg] at he
    simp at he
    exact ⟨rfl, he.symm, rfl⟩

theorem sgd_groups_of_ok (Gs : List (Group SGDHyper κ)) (w : ∀ a, SGDParam (ι a))
    (h : (forGroups (sgdGroup P) Gs w).2.2 = none) :
    (forGroups (sgdGroup P) Gs w).2.1 = Gs.map fun G => { G with step := G.step + 1 } := by
  induction Gs generalizing w with
  | nil => rfl
  | cons G Gs ih =>
    have h0 : (sgdGroup P w G).2.1 = { G with step := G.step + 1 } := by
      unfold sgdGroup counterGroup
      rcases forParams (fun a => sgdParam (P.manifold a) G.hyper) G.params w with ⟨w', b, _ | e⟩
      · rcases G.hyper.stabilize with _ | k
        · rfl
        · simp only
          rcases isMultiple (G.step + 1) k with e | _ | _ <;> rfl
      · rfl
    rw [forGroups] at h ⊢
    rcases hf : sgdGroup P w G with ⟨w', G', _ | e⟩
    · rw [hf] at h h0
      change G' :: (forGroups (sgdGroup P) Gs w').2.1 = _
      rw [ih w' h]
      simp only at h0
      rw [h0]; rfl
    · rw [hf] at h; simp at h

/-- **C124** (RiemannianSGD).  "If `step()` raises, parameters, momenta and counters are as before the
call" is false (`C124_counterexample`).  What holds: the step stops at one place.  Either this is a
parameter `b` with a sparse gradient: the parameters before it have been treated as in a successful step of
the optimiser without `b` and everything after `b` (without stabilisation of the last group), and all
others, `b` included, are untouched; or it is the end of a group with `stabilize=0`.  The step counters of the
groups up to there have been increased.  Missing from the property: what was done before is not undone. -/
theorem C124_sgd_partial (o : SGD κ ι) (e : PyErr) (h : (sgdStep P o).2 = some e) :
    ∃ Gs G Gs' as rest, o.groups = Gs ++ G :: Gs' ∧ G.params = as ++ rest ∧
      (sgdStep P (o.cut Gs G as)).2 = none ∧
      (sgdStep P o).1.par = (sgdStep P (o.cut Gs G as)).1.par ∧
      (sgdStep P o).1.groups = ((Gs ++ [G]).map fun G => { G with step := G.step + 1 }) ++ Gs' ∧
      ((∃ b bs, rest = b :: bs ∧ ((sgdStep P (o.cut Gs G as)).1.par b).grad = .sparse ∧
          e = .runtimeError) ∨
        (rest = [] ∧ G.hyper.stabilize = some 0 ∧ e = .zeroDivisionError)) := by
  obtain ⟨Gs, G, Gs', h1, h2, h3, h4, h5⟩ :=
    forGroups_err (sgdGroup P) o.groups o.par e h
  set w := (forGroups (sgdGroup P) Gs o.par).1 with hw
  have hG : (sgdGroup P w G).2.1 = { G with step := G.step + 1 } := by
    unfold sgdGroup counterGroup
    rcases forParams (fun a => sgdParam (P.manifold a) G.hyper) G.params w with ⟨w', b, _ | e⟩
    · rcases G.hyper.stabilize with _ | k
      · rfl
      · simp only
        rcases isMultiple (G.step + 1) k with e | _ | _ <;> rfl
    · rfl
  have hgr : (sgdStep P o).1.groups =
      ((Gs ++ [G]).map fun G => { G with step := G.step + 1 }) ++ Gs' := by
    change (forGroups (sgdGroup P) o.groups o.par).2.1 = _
    rw [h5, hG, sgd_groups_of_ok P Gs o.par h2]
    simp
  -- the cut optimiser
  have hcut : ∀ as, (forParams (fun a => sgdParam (P.manifold a) G.hyper) as w).2.2 = none →
      (sgdStep P (o.cut Gs G as)).2 = none ∧ (sgdStep P (o.cut Gs G as)).1.par =
        (forParams (fun a => sgdParam (P.manifold a) G.hyper) as w).1 := by
    intro as has
    obtain ⟨k1, k2⟩ := forGroups_snoc (sgdGroup P) Gs
      ⟨{ G.hyper with stabilize := none }, G.step, as⟩ o.par h2
    rw [← hw] at k1 k2
    have : sgdGroup P w ⟨{ G.hyper with stabilize := none }, G.step, as⟩ =
        ((forParams (fun a => sgdParam (P.manifold a) G.hyper) as w).1,
          ⟨{ G.hyper with stabilize := none }, G.step + 1, as⟩, none) := by
      unfold sgdGroup counterGroup
      rcases hf : forParams (fun a => sgdParam (P.manifold a) G.hyper) as w with ⟨w', b, e'⟩
      rw [hf] at has
      simp only at has
      subst has
      have hf' : forParams (fun a => sgdParam (P.manifold a) { G.hyper with stabilize := none }) as w =
        (w', b, none) := hf
      simp only [hf']
    rw [this] at k1 k2
    exact ⟨k2, k1⟩
  rcases hf : (forParams (fun a => sgdParam (P.manifold a) G.hyper) G.params w).2.2 with _ | e'
  · -- the stabilisation period is zero
    obtain ⟨c1, c2⟩ := hcut G.params hf
    refine ⟨Gs, G, Gs', G.params, [], h1, by simp, c1, ?_, hgr, Or.inr ⟨rfl, ?_⟩⟩
    · change (forGroups (sgdGroup P) o.groups o.par).1 = _
      rw [h4, c2]
      unfold sgdGroup counterGroup at h3 ⊢
      rcases hp : forParams (fun a => sgdParam (P.manifold a) G.hyper) G.params w with ⟨w', b, e'⟩
      rw [hp] at hf h3
      simp only at hf
      subst hf
      rcases hs : G.hyper.stabilize with _ | k
      · rw [hs] at h3
      · rw [hs] at h3
        simp only at h3 ⊢
        rcases hm : isMultiple (G.step + 1) k with e' | _ | _
        · rfl
        · rfl
        · rw [hm] at h3; simp at h3
    · unfold sgdGroup counterGroup at h3
      rcases hp : forParams (fun a => sgdParam (P.manifold a) G.hyper) G.params w with ⟨w', b, e'⟩
      rw [hp] at hf h3
      simp only at hf
      subst hf
      rcases hs : G.hyper.stabilize with _ | k
      · rw [hs] at h3; simp at h3
      · rw [hs] at h3
        rcases k with _ | k
        · simp [isMultiple] at h3
          exact ⟨rfl, h3.symm⟩
        · simp only [isMultiple, if_neg (Nat.succ_ne_zero k)] at h3
          rcases hq : ((G.step + 1) % (k + 1) == 0) with _ | _ <;> rw [hq] at h3 <;> simp at h3
  · obtain ⟨as, b, bs, k1, k2, k3, k4⟩ := forParams_err _ _ _ _ hf
    obtain ⟨m1, m2, m3⟩ := sgdParam_err _ _ _ _ k3
    obtain ⟨c1, c2⟩ := hcut as k2
    have h34 : e = e' ∧ (sgdGroup P w G).1 =
        (forParams (fun a => sgdParam (P.manifold a) G.hyper) G.params w).1 := by
      unfold sgdGroup counterGroup at h3 ⊢
      rcases hp : forParams (fun a => sgdParam (P.manifold a) G.hyper) G.params w with ⟨w', b, e''⟩
      rw [hp] at hf h3
      simp only at hf
      subst hf
      simp at h3
      exact ⟨h3.symm, rfl⟩
    refine ⟨Gs, G, Gs', as, b :: bs, h1, k1, c1, ?_, hgr, Or.inl ⟨b, bs, rfl, ?_, ?_⟩⟩
    · change (forGroups (sgdGroup P) o.groups o.par).1 = _
      rw [h4, h34.2, k4, m3, c2, Function.update_eq_self]
    · rw [c2]; exact m1
    · rw [h34.1, m2]

omit [DecidableEq κ] in
theorem adamParam_err {ι : Type} (M : Optim.Manifold ι) (h : AdamHyper) (s : AdamParam ι) (e : PyErr)
    (he : (adamParam M h s).2.2 = some e) :
    (s.grad = .sparse ∧ e = .runtimeError ∧ (adamParam M h s).1 = s) ∨
    (h.amsgrad = true ∧ e = .keyError ∧ (adamParam M h s).1.point = s.point) ∨
    (h.stabilize = some 0 ∧ e = .zeroDivisionError) := by
  have flag : ∀ t, (adamFlag h.stabilize t).2 = some e →
      h.stabilize = some 0 ∧ e = .zeroDivisionError := by
    intro t ht
    unfold adamFlag at ht
    rcases hs : h.stabilize with _ | k
    · rw [hs] at ht; simp at ht
    · rw [hs] at ht
      rcases k with _ | k
      · simp [isMultiple] at ht
        exact ⟨rfl, ht.symm⟩
      · simp [isMultiple] at ht
  unfold adamParam at he ⊢
  rcases hg : s.grad with _ | g | _
  · rw [hg] at he; simp at he
  · rw [hg] at he
    rcases ha : h.amsgrad with _ | _
    · rw [ha] at he
      simp only at he
      exact Or.inr (Or.inr (flag _ he))
    · rw [ha] at he
      simp only at he ⊢
      rcases hv : (adamInit true s.state).maxExpAvgSq with _ | vm
      · rw [hv] at he
        simp at he
        exact Or.inr (Or.inl ⟨trivial, he.symm, rfl⟩)
      · rw [hv] at he
        simp only at he
        exact Or.inr (Or.inr (flag _ he))
  · rw [hg] at he
    simp at he
    exact Or.inl ⟨rfl, he.symm, rfl⟩

omit [DecidableEq κ] in
theorem adamParam_stab {ι : Type} (M : Optim.Manifold ι) (h : AdamHyper) (s : AdamParam ι)
    (hn : (adamParam M h s).2.2 = none) :
    (adamParam M { h with stabilize := none } s).1 = (adamParam M h s).1 ∧
      (adamParam M { h with stabilize := none } s).2.1 = false ∧
      (adamParam M { h with stabilize := none } s).2.2 = none := by
  unfold adamParam at hn ⊢
  rcases hg : s.grad with _ | g | _
  · exact ⟨rfl, rfl, rfl⟩
  · rw [hg] at hn
    rcases ha : h.amsgrad with _ | _
    · exact ⟨rfl, rfl, rfl⟩
    · rw [ha] at hn
      simp only at hn ⊢
      rcases hv : (adamInit true s.state).maxExpAvgSq with _ | vm
      · rw [hv] at hn; simp at hn
      · exact ⟨rfl, rfl, rfl⟩
  · rw [hg] at hn; simp at hn

/-- **C124** (RiemannianAdam).  The step stops at one parameter `b`, the parameters before it have been
treated as in a successful step of the optimiser without `b` and everything after `b`, and those after it
are untouched.  With a sparse gradient `b` is untouched; when `amsgrad` was switched on later its value is (but its moments have
been updated already); with `stabilize=0` it has been updated.  Missing from the property: what was done before is
not undone. -/
theorem C124_adam_partial (o : Adam κ ι) (e : PyErr) (h : (adamStep P o).2 = some e) :
    ∃ Gs G Gs' as b bs, o.groups = Gs ++ G :: Gs' ∧ G.2 = as ++ b :: bs ∧
      (adamStep P (o.cut Gs G as)).2 = none ∧
      (∀ a, a ≠ b → (adamStep P o).1.par a = (adamStep P (o.cut Gs G as)).1.par a) ∧
      ((((adamStep P (o.cut Gs G as)).1.par b).grad = .sparse ∧ e = .runtimeError ∧
          (adamStep P o).1.par b = (adamStep P (o.cut Gs G as)).1.par b) ∨
        (G.1.amsgrad = true ∧ e = .keyError ∧
          ((adamStep P o).1.par b).point = ((adamStep P (o.cut Gs G as)).1.par b).point) ∨
        (G.1.stabilize = some 0 ∧ e = .zeroDivisionError)) := by
  obtain ⟨Gs, G, Gs', h1, h2, h3, h4, -⟩ :=
    forGroups_err (adamGroup P) o.groups o.par e h
  set w := (forGroups (adamGroup P) Gs o.par).1 with hw
  have hcut : ∀ as, (forParams (fun a => adamParam (P.manifold a) G.1) as w).2.2 = none →
      (adamStep P (o.cut Gs G as)).2 = none ∧ (adamStep P (o.cut Gs G as)).1.par =
        (forParams (fun a => adamParam (P.manifold a) G.1) as w).1 := by
    intro as has
    obtain ⟨k1, k2⟩ := forGroups_snoc (adamGroup P) Gs ({ G.1 with stabilize := none }, as) o.par h2
    rw [← hw] at k1 k2
    have : adamGroup P w ({ G.1 with stabilize := none }, as) =
        ((forParams (fun a => adamParam (P.manifold a) G.1) as w).1,
          ({ G.1 with stabilize := none }, as), none) := by
      unfold adamGroup flagGroup
      have hf' := forParams_congr_body (fun a => adamParam (P.manifold a) G.1)
        (fun a => adamParam (P.manifold a) { G.1 with stabilize := none }) as w has
        fun a s hs => adamParam_stab _ _ _ hs
      simp only [hf']
      rfl
    rw [this] at k1 k2
    exact ⟨k2, k1⟩
  have h34 : (forParams (fun a => adamParam (P.manifold a) G.1) G.2 w).2.2 = some e ∧
      (adamGroup P w G).1 = (forParams (fun a => adamParam (P.manifold a) G.1) G.2 w).1 := by
    unfold adamGroup flagGroup at h3 ⊢
    rcases hp : forParams (fun a => adamParam (P.manifold a) G.1) G.2 w with ⟨w', b, _ | e''⟩
    · rw [hp] at h3
      rcases b with _ | _ <;> simp at h3
    · rw [hp] at h3
      exact ⟨h3, rfl⟩
  obtain ⟨as, b, bs, k1, k2, k3, k4⟩ := forParams_err _ _ _ _ h34.1
  obtain ⟨c1, c2⟩ := hcut as k2
  have hpar : (adamStep P o).1.par = Function.update (adamStep P (o.cut Gs G as)).1.par b
      (adamParam (P.manifold b) G.1 ((adamStep P (o.cut Gs G as)).1.par b)).1 := by
    change (forGroups (adamGroup P) o.groups o.par).1 = _
    rw [h4, h34.2, k4, c2]
  refine ⟨Gs, G, Gs', as, b, bs, h1, k1, c1, fun a ha => ?_, ?_⟩
  · rw [hpar, Function.update_of_ne ha]
  · rw [hpar, Function.update_self]
    rw [← c2] at k3
    exact adamParam_err _ _ _ _ k3

end Steps

/-! ## A step that raises has changed something -/

/-- Two ordinary parameters. -/
def plain : Params Bool (fun _ => Unit) := ⟨fun _ => false, fun _ => euclidean Unit⟩

/-- Both have the value 1; the gradient of the first is 1, that of the second is sparse. -/
noncomputable def mixed : SGD Bool (fun _ => Unit) :=
  ⟨fun a => ⟨1, if a then .dense 1 else .sparse, none⟩, [⟨⟨1, 0, 0, 0, false, none⟩, 0, [true, false]⟩]⟩

/-- The caller replaces the sparse gradient by a dense one. -/
def repair (o : SGD Bool (fun _ => Unit)) : SGD Bool (fun _ => Unit) :=
  { o with par := Function.update o.par false { o.par false with grad := .dense 1 } }

theorem mixed_step : sgdStep plain mixed =
    (⟨fun a => ⟨if a then 0 else 1, if a then .dense 1 else .sparse, none⟩,
      [⟨⟨1, 0, 0, 0, false, none⟩, 1, [true, false]⟩]⟩, some .runtimeError) := by
  have : Function.update mixed.par true ⟨0, .dense 1, none⟩ =
      fun a => (⟨if a then 0 else 1, if a then .dense 1 else .sparse, none⟩ : SGDParam Unit) := by
    funext a
    rcases a with _ | _
    · rw [Function.update_of_ne (by decide)]; rfl
    · rw [Function.update_self]; rfl
  rw [← this]
  simp [sgdStep, mixed, forGroups, sgdGroup, counterGroup, forParams, sgdParam, plain, Params.manifold,
    euclidean]

theorem repaired (x y : Unit → ℝ) (t : ℕ) :
    ((sgdStep plain ⟨Function.update (fun a : Bool =>
      (⟨if a then x else y, if a then .dense 1 else .sparse, none⟩ : SGDParam Unit)) false
      ⟨y, .dense 1, none⟩, [⟨⟨1, 0, 0, 0, false, none⟩, t, [true, false]⟩]⟩).1.par true).point = x - 1 ∧
    (sgdStep plain ⟨Function.update (fun a : Bool =>
      (⟨if a then x else y, if a then .dense 1 else .sparse, none⟩ : SGDParam Unit)) false
      ⟨y, .dense 1, none⟩, [⟨⟨1, 0, 0, 0, false, none⟩, t, [true, false]⟩]⟩).2 = none := by
  constructor
  · simp [sgdStep, forGroups, sgdGroup, counterGroup, forParams, sgdParam, plain, Params.manifold,
      euclidean, sub_eq_add_neg]
  · simp [sgdStep, forGroups, sgdGroup, counterGroup, forParams, sgdParam, plain, Params.manifold,
      euclidean]

/-- **C124, counterexample.**  The second of two parameters has a sparse gradient: `step()` raises and the
first parameter has moved.  Catching the exception, repairing the gradient and calling `step()` again moves
the first parameter a second time: the result is not that of one successful step. -/
theorem C124_counterexample :
    (sgdStep plain mixed).2 = some .runtimeError ∧
    ((sgdStep plain mixed).1.par true).point ≠ (mixed.par true).point ∧
    (sgdStep plain (repair (sgdStep plain mixed).1)).2 = none ∧
    ((sgdStep plain (repair (sgdStep plain mixed).1)).1.par true).point ≠
      ((sgdStep plain (repair mixed)).1.par true).point := by
  have h1 : repair (sgdStep plain mixed).1 = ⟨Function.update (fun a : Bool =>
      (⟨if a then 0 else 1, if a then .dense 1 else .sparse, none⟩ : SGDParam Unit)) false
      ⟨1, .dense 1, none⟩, [⟨⟨1, 0, 0, 0, false, none⟩, 1, [true, false]⟩]⟩ := by
    rw [mixed_step]; rfl
  have h2 : repair mixed = ⟨Function.update (fun a : Bool =>
      (⟨if a then 1 else 1, if a then .dense 1 else .sparse, none⟩ : SGDParam Unit)) false
      ⟨1, .dense 1, none⟩, [⟨⟨1, 0, 0, 0, false, none⟩, 0, [true, false]⟩]⟩ := by
    simp [repair, mixed]
  refine ⟨by rw [mixed_step], ?_, ?_, ?_⟩
  · rw [mixed_step]
    intro h
    have := congrFun h ()
    simp [mixed] at this
  · rw [h1]; exact (repaired 0 1 1).2
  · rw [h1, h2, (repaired 0 1 1).1, (repaired 1 1 0).1]
    intro h
    have := congrFun h ()
    norm_num at this

/-- Non-vacuity of `C124_sgd_partial`. -/
example : ∃ (o : SGD Bool (fun _ => Unit)) (e : PyErr), (sgdStep plain o).2 = some e :=
  ⟨mixed, _, C124_counterexample.1⟩

/-- Non-vacuity of `C124_adam_partial`. -/
example : (adamStep plain ⟨fun a => ⟨1, if a then .dense 1 else .sparse, none⟩,
    [(⟨1, 0, 0, 1, 0, false, none⟩, [true, false])]⟩).2 = some .runtimeError := by
  simp [adamStep, forGroups, adamGroup, flagGroup, forParams, adamParam, adamFlag, plain,
    Params.manifold, euclidean]

end Geoopt.C124
