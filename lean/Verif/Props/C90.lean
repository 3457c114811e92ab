import Verif.Model.Checkpoint
import Verif.Spec.LineSearch
import Mathlib.Data.List.Nodup
import Mathlib.Tactic.NormNum

/-!
# C90: training resumed from a checkpoint continues as if it had not been interrupted

A training run is a sequence of iterations, each with its own function from parameters to gradients
(the batches).  It is interrupted after any number of iterations; the checkpoint is loaded in a new
process into a newly constructed optimiser, with any options, and the remaining iterations follow.
-/

namespace Geoopt.C90

open Geoopt.Optim

/-- Run the iterations `gs` one after another; the result is the final state and what each of them
raised. -/
def run {O G E : Type} (train : G → O → O × E) : List G → O → O × List E
  | [], o => (o, [])
  | g :: gs, o =>
    let r := train g o
    let q := run train gs r.1
    (q.1, r.2 :: q.2)

theorem run_append {O G E : Type} (train : G → O → O × E) (gs hs : List G) (o : O) :
    run train (gs ++ hs) o = ((run train hs (run train gs o).1).1,
      (run train gs o).2 ++ (run train hs (run train gs o).1).2) := by
  induction gs generalizing o with
  | nil => simp [run]
  | cons g gs ih => simp [run, ih]

/-- An invariant of the iterations is one of runs. -/
theorem run_inv {O G E : Type} {train : G → O → O × E} {I : O → Prop}
    (h : ∀ g o, I o → I (train g o).1) (gs : List G) (o : O) (ho : I o) : I (run train gs o).1 := by
  induction gs generalizing o with
  | nil => exact ho
  | cons g gs ih => exact ih _ (h g o ho)

/-- Runs from states that the first iteration cannot tell apart. -/
theorem run_congr {O G E : Type} {train : G → O → O × E} {o o' : O}
    (h : ∀ g, train g o = train g o') {gs : List G} (hne : gs ≠ []) :
    run train gs o = run train gs o' := by
  cases gs with
  | nil => exact absurd rfl hne
  | cons g gs => simp [run, h]

/-- A run continued from a state that the first iteration cannot tell from the one reached. -/
theorem run_resume {O G E : Type} {train : G → O → O × E} {o r : O} {before after : List G}
    (h : ∀ g, train g r = train g (run train before o).1) (hne : after ≠ []) :
    (run train after r).1 = (run train (before ++ after) o).1 ∧
      (run train before o).2 ++ (run train after r).2 = (run train (before ++ after) o).2 := by
  rw [run_append, run_congr h hne]
  exact ⟨rfl, rfl⟩

section Torch
variable {κ H S : Type} [DecidableEq κ]

theorem lookup_zip_map {as : List κ} (f : κ → S) {a : κ} (ha : a ∈ as) :
    (as.zip (as.map f)).lookup a = some (f a) := by
  induction as with
  | nil => simp at ha
  | cons b bs ih =>
    simp only [List.map_cons, List.zip_cons_cons, List.lookup_cons]
    by_cases h : a = b
    · subst h; simp
    · have : (a == b) = false := by simpa using h
      rw [this]
      exact ih (by simpa [h] using ha)

theorem zipWith_groups (gs new : List (H × List κ)) (h : new.map Prod.snd = gs.map Prod.snd) :
    List.zipWith (fun G (g : H × ℕ) => (g.1, G.2)) new (gs.map fun G => (G.1, G.2.length)) = gs := by
  induction gs generalizing new with
  | nil => simp_all
  | cons G gs ih =>
    cases new with
    | nil => simp at h
    | cons N new =>
      simp only [List.map_cons, List.cons.injEq] at h
      simp [ih new h.2, h.1]

/-- Loading what was saved, into an optimiser with the same parameters. -/
theorem load_save (empty : S) (gs new : List (H × List κ)) (st : κ → S)
    (h : new.map Prod.snd = gs.map Prod.snd) (hall : ∀ a, a ∈ gs.flatMap Prod.snd) :
    loadStateDict empty new (stateDict gs st) = .ok (gs, st) := by
  have hl : new.length = gs.length := by simpa using congrArg List.length h
  have hm : new.map (fun G => G.2.length) = gs.map (fun G => G.2.length) := by
    have := congrArg (List.map List.length) h
    simpa [List.map_map, Function.comp_def] using this
  have hf : new.flatMap Prod.snd = gs.flatMap Prod.snd := by
    simp only [List.flatMap, h]
  unfold loadStateDict stateDict
  rw [if_neg (by simpa using hl), if_neg (by simpa [List.map_map, Function.comp_def] using hm)]
  simp only [zipWith_groups gs new h, hf]
  congr 2
  funext a
  rw [lookup_zip_map st (hall a)]
  rfl

end Torch

section Groups
variable {κ : Type} [DecidableEq κ] {S : κ → Type} {H : Type}

theorem forGroups_map {β : Type} (q : H → β)
    (f : (∀ a, S a) → H → (∀ a, S a) × H × Option PyErr) (hf : ∀ w G, q (f w G).2.1 = q G)
    (Gs : List H) (w : ∀ a, S a) : (forGroups f Gs w).2.1.map q = Gs.map q := by
  induction Gs generalizing w with
  | nil => rfl
  | cons G Gs ih =>
    unfold forGroups
    have := hf w G
    rcases hfw : f w G with ⟨w', G', _ | e⟩
    · rw [hfw] at this
      simp only [List.map_cons]
      rw [ih w']
      simp at this
      rw [this]
    · rw [hfw] at this
      simp at this
      simp [this]

theorem counterGroup_params (body : H → ∀ a, S a → S a × Bool × Option PyErr)
    (stab : H → ∀ a, S a → S a) (period : H → Option ℕ) (w : ∀ a, S a) (G : Group H κ) :
    (counterGroup body stab period w G).2.1.params = G.params := by
  unfold counterGroup
  simp only
  split
  · rfl
  · split
    · rfl
    · split <;> rfl

theorem flagGroup_params (body : H → ∀ a, S a → S a × Bool × Option PyErr)
    (stab : H → ∀ a, S a → S a) (w : ∀ a, S a) (G : H × List κ) :
    (flagGroup body stab w G).2.1 = G := by
  unfold flagGroup
  split
  · rfl
  · split <;> rfl

end Groups

/-- `new` is an optimiser constructed with the same lists of parameters. -/
def SameParams {H κ : Type} (new old : List (Group H κ)) : Prop :=
  new.map Group.params = old.map Group.params

section SGD
variable {κ ι : Type} [DecidableEq κ] (P : Params κ fun _ => ι)

theorem sgdTrain_params (g : (κ → ι → ℝ) → κ → Grad ι) (o : SGD κ fun _ => ι) :
    SameParams (sgdTrain P g o).1.groups o.groups := by
  unfold SameParams sgdTrain sgdStep
  exact forGroups_map Group.params _ (fun w G => counterGroup_params _ _ _ w G) _ _

theorem map_group {H : Type} (gs : List (Group H κ)) :
    ((gs.map fun G => ((G.hyper, G.step), G.params)).map fun G : (H × ℕ) × List κ =>
      (⟨G.1.1, G.1.2, G.2⟩ : Group H κ)) = gs := by
  simp [List.map_map, Function.comp_def]

theorem sgd_load_save (o new : SGD κ fun _ => ι) (h : SameParams new.groups o.groups)
    (hall : ∀ a, a ∈ o.groups.flatMap Group.params) :
    sgdLoad new (sgdSave o) =
      .ok ⟨fun a => ⟨(o.par a).point, (new.par a).grad, (o.par a).buf⟩, o.groups⟩ := by
  unfold sgdLoad sgdSave
  rw [load_save none (o.groups.map fun G => ((G.hyper, G.step), G.params)) _ _
    (by simpa [SameParams, List.map_map, Function.comp_def] using h)
    (by simpa [List.flatMap_map] using hall)]
  simp only [map_group]

/-- **C90**, RiemannianSGD: loading a checkpoint taken after the iterations `before` into any newly
constructed optimiser with the same parameters works, and the iterations `after` then have the same
outcome, to the last number and exception, as in the run without the interruption. -/
theorem C90_sgd (before after : List ((κ → ι → ℝ) → κ → Grad ι)) (hne : after ≠ [])
    (o new : SGD κ fun _ => ι) (hnew : SameParams new.groups o.groups)
    (hall : ∀ a, a ∈ o.groups.flatMap Group.params) :
    ∃ r, sgdLoad new (sgdSave (run (sgdTrain P) before o).1) = .ok r ∧
      (run (sgdTrain P) after r).1 = (run (sgdTrain P) (before ++ after) o).1 ∧
      (run (sgdTrain P) before o).2 ++ (run (sgdTrain P) after r).2 =
        (run (sgdTrain P) (before ++ after) o).2 := by
  have hp : SameParams (run (sgdTrain P) before o).1.groups o.groups :=
    run_inv (I := fun o' : SGD κ fun _ => ι => SameParams o'.groups o.groups)
      (fun g o' h => (sgdTrain_params P g o').trans h) before o rfl
  refine ⟨_, sgd_load_save _ new (hnew.trans hp.symm) ?_, ?_⟩
  · intro a
    have : (run (sgdTrain P) before o).1.groups.flatMap Group.params =
        o.groups.flatMap Group.params := by simp only [List.flatMap]; rw [hp]
    rw [this]; exact hall a
  · exact run_resume (fun g => rfl) hne

end SGD

section Adam
variable {κ ι : Type} [DecidableEq κ] (P : Params κ fun _ => ι)

theorem adamTrain_params (g : (κ → ι → ℝ) → κ → Grad ι) (o : Adam κ fun _ => ι) :
    (adamTrain P g o).1.groups = o.groups := by
  unfold adamTrain adamStep
  have := forGroups_map (S := fun _ : κ => AdamParam ι) (fun G : AdamHyper × List κ => G) (adamGroup P)
    (fun w G => flagGroup_params _ _ w G) o.groups
    (fun a => { o.par a with grad := g (fun a => (o.par a).point) a })
  simpa using this

theorem adam_load_save (o new : Adam κ fun _ => ι)
    (h : new.groups.map Prod.snd = o.groups.map Prod.snd)
    (hall : ∀ a, a ∈ o.groups.flatMap Prod.snd) :
    adamLoad new (adamSave o) =
      .ok ⟨fun a => ⟨(o.par a).point, (new.par a).grad, (o.par a).state⟩, o.groups⟩ := by
  unfold adamLoad adamSave
  rw [load_save none o.groups _ _ h hall]

/-- **C90**, RiemannianAdam. -/
theorem C90_adam (before after : List ((κ → ι → ℝ) → κ → Grad ι)) (hne : after ≠ [])
    (o new : Adam κ fun _ => ι) (hnew : new.groups.map Prod.snd = o.groups.map Prod.snd)
    (hall : ∀ a, a ∈ o.groups.flatMap Prod.snd) :
    ∃ r, adamLoad new (adamSave (run (adamTrain P) before o).1) = .ok r ∧
      (run (adamTrain P) after r).1 = (run (adamTrain P) (before ++ after) o).1 ∧
      (run (adamTrain P) before o).2 ++ (run (adamTrain P) after r).2 =
        (run (adamTrain P) (before ++ after) o).2 := by
  have hp : (run (adamTrain P) before o).1.groups = o.groups :=
    run_inv (I := fun o' : Adam κ fun _ => ι => o'.groups = o.groups)
      (fun g o' h => (adamTrain_params P g o').trans h) before o rfl
  refine ⟨_, adam_load_save _ new (by rw [hp]; exact hnew) (by rw [hp]; exact hall), ?_⟩
  exact run_resume (fun g => rfl) hne

end Adam

section Sparse
variable {κ ρ ι : Type} [DecidableEq κ] [DecidableEq ρ] (P : Params κ fun _ => ι)

theorem sparseSgdTrain_params (g : (κ → ρ → ι → ℝ) → κ → SGrad ρ ι)
    (o : SparseSGD κ (fun _ => ρ) fun _ => ι) :
    SameParams (sparseSgdTrain P g o).1.groups o.groups := by
  unfold SameParams sparseSgdTrain sparseSgdStep
  exact forGroups_map Group.params _ (fun w G => counterGroup_params _ _ _ w G) _ _

/-- **C90**, SparseRiemannianSGD. -/
theorem C90_sparse_sgd (before after : List ((κ → ρ → ι → ℝ) → κ → SGrad ρ ι)) (hne : after ≠ [])
    (o new : SparseSGD κ (fun _ => ρ) fun _ => ι) (hnew : SameParams new.groups o.groups)
    (hall : ∀ a, a ∈ o.groups.flatMap Group.params) :
    ∃ r, sparseSgdLoad new (sparseSgdSave (run (sparseSgdTrain P) before o).1) = .ok r ∧
      (run (sparseSgdTrain P) after r).1 = (run (sparseSgdTrain P) (before ++ after) o).1 ∧
      (run (sparseSgdTrain P) before o).2 ++ (run (sparseSgdTrain P) after r).2 =
        (run (sparseSgdTrain P) (before ++ after) o).2 := by
  have hp : SameParams (run (sparseSgdTrain P) before o).1.groups o.groups :=
    run_inv (I := fun o' : SparseSGD κ (fun _ => ρ) fun _ => ι => SameParams o'.groups o.groups)
      (fun g o' h => (sparseSgdTrain_params P g o').trans h) before o rfl
  have hall' : ∀ a, a ∈ (run (sparseSgdTrain P) before o).1.groups.flatMap Group.params := by
    intro a
    have : (run (sparseSgdTrain P) before o).1.groups.flatMap Group.params =
        o.groups.flatMap Group.params := by simp only [List.flatMap]; rw [hp]
    rw [this]; exact hall a
  have hload : sparseSgdLoad new (sparseSgdSave (run (sparseSgdTrain P) before o).1) =
      .ok ⟨fun a => ⟨((run (sparseSgdTrain P) before o).1.par a).point, (new.par a).grad,
        ((run (sparseSgdTrain P) before o).1.par a).buf⟩,
        (run (sparseSgdTrain P) before o).1.groups⟩ := by
    unfold sparseSgdLoad sparseSgdSave
    rw [load_save none ((run (sparseSgdTrain P) before o).1.groups.map
        fun G => ((G.hyper, G.step), G.params)) _ _
      (by simpa [SameParams, List.map_map, Function.comp_def] using hnew.trans hp.symm)
      (by simpa [List.flatMap_map] using hall')]
    simp only [map_group]
  refine ⟨_, hload, ?_⟩
  exact run_resume (fun g => rfl) hne

theorem sparseAdamTrain_params (g : (κ → ρ → ι → ℝ) → κ → SGrad ρ ι)
    (o : SparseAdam κ (fun _ => ρ) fun _ => ι) : (sparseAdamTrain P g o).1.groups = o.groups := by
  unfold sparseAdamTrain sparseAdamStep
  have := forGroups_map (S := fun _ : κ => SparseAdamParam ρ ι) (fun G : AdamHyper × List κ => G)
    (flagGroup (fun h a => sparseAdamParam (P.manifold a) h)
      (fun _ a => sparseAdamStab (P.isManifold a) (P.man a)))
    (fun w G => flagGroup_params _ _ w G) o.groups
    (fun a => { o.par a with grad := g (fun a => (o.par a).point) a })
  simpa using this

/-- **C90**, SparseRiemannianAdam. -/
theorem C90_sparse_adam (before after : List ((κ → ρ → ι → ℝ) → κ → SGrad ρ ι)) (hne : after ≠ [])
    (o new : SparseAdam κ (fun _ => ρ) fun _ => ι)
    (hnew : new.groups.map Prod.snd = o.groups.map Prod.snd)
    (hall : ∀ a, a ∈ o.groups.flatMap Prod.snd) :
    ∃ r, sparseAdamLoad new (sparseAdamSave (run (sparseAdamTrain P) before o).1) = .ok r ∧
      (run (sparseAdamTrain P) after r).1 = (run (sparseAdamTrain P) (before ++ after) o).1 ∧
      (run (sparseAdamTrain P) before o).2 ++ (run (sparseAdamTrain P) after r).2 =
        (run (sparseAdamTrain P) (before ++ after) o).2 := by
  have hp : (run (sparseAdamTrain P) before o).1.groups = o.groups :=
    run_inv (I := fun o' : SparseAdam κ (fun _ => ρ) fun _ => ι => o'.groups = o.groups)
      (fun g o' h => (sparseAdamTrain_params P g o').trans h) before o rfl
  have hload : sparseAdamLoad new (sparseAdamSave (run (sparseAdamTrain P) before o).1) =
      .ok ⟨fun a => ⟨((run (sparseAdamTrain P) before o).1.par a).point, (new.par a).grad,
        ((run (sparseAdamTrain P) before o).1.par a).state⟩,
        (run (sparseAdamTrain P) before o).1.groups⟩ := by
    unfold sparseAdamLoad sparseAdamSave
    rw [load_save none _ _ _ (by rw [hp]; exact hnew) (by rw [hp]; exact hall)]
  refine ⟨_, hload, ?_⟩
  exact run_resume (fun g => rfl) hne

end Sparse

/-- The hypotheses: two parameters in two groups, another learning rate in the new optimiser. -/
example : ∃ o new : SGD Bool fun _ => Unit, SameParams new.groups o.groups ∧
    (∀ a, a ∈ o.groups.flatMap Group.params) ∧ new.groups.map Group.hyper ≠ o.groups.map Group.hyper := by
  refine ⟨⟨fun _ => ⟨0, .none, none⟩, [⟨⟨1, 1, 0, 0, false, none⟩, 3, [true]⟩,
      ⟨⟨1, 1, 0, 0, false, some 2⟩, 3, [false]⟩]⟩,
    ⟨fun _ => ⟨0, .none, none⟩, [⟨⟨2, 1, 0, 0, false, none⟩, 0, [true]⟩,
      ⟨⟨2, 1, 0, 0, false, none⟩, 0, [false]⟩]⟩, rfl, ?_, ?_⟩
  · intro a; cases a <;> simp
  · simp

/-! ### Where it does not hold -/

/-- Plain parameters named by `Bool`. -/
noncomputable def plain : Params Bool fun _ => Unit := ⟨fun _ => false, fun _ => euclidean Unit⟩

/-- SGD with momentum 1 and learning rate 1. -/
noncomputable def heavy : SGDHyper := ⟨1, 1, 0, 0, false, none⟩

/-- Gradient 1 for the parameter `true`, 0 for the other. -/
noncomputable def gr : (Bool → Unit → ℝ) → Bool → Grad Unit :=
  fun _ a => .dense fun _ => if a then 1 else 0

/-- No gradient at all. -/
noncomputable def gr0 : (Bool → Unit → ℝ) → Bool → Grad Unit := fun _ _ => .dense fun _ => 0

/-- The same parameters in another order: the checkpoint is accepted, and the momentum of each
parameter goes to the other one. -/
theorem C90_counterexample_order :
    ∃ (P : Params Bool fun _ => Unit) (g₁ g₂ : (Bool → Unit → ℝ) → Bool → Grad Unit)
      (o new r : SGD Bool fun _ => Unit),
      o.groups.map Group.params = [[true, false]] ∧ new.groups.map Group.params = [[false, true]] ∧
      sgdLoad new (sgdSave (sgdTrain P g₁ o).1) = .ok r ∧
      ((sgdTrain P g₂ r).1.par true).point ≠
        ((sgdTrain P g₂ (sgdTrain P g₁ o).1).1.par true).point := by
  refine ⟨plain, gr, gr0, ⟨fun _ => ⟨0, .none, none⟩, [⟨heavy, 0, [true, false]⟩]⟩,
    ⟨fun _ => ⟨0, .none, none⟩, [⟨heavy, 0, [false, true]⟩]⟩, ?_⟩
  simp [sgdTrain, sgdStep, forGroups, sgdGroup, counterGroup, forParams, sgdParam, gr, gr0, heavy,
    plain, Params.manifold, euclidean, sgdLoad, sgdSave, loadStateDict, stateDict, List.lookup]
  intro h
  have := congrFun h ()
  norm_num at this

/-- An optimiser with another number of parameters refuses the checkpoint. -/
theorem C90_refuses {κ H S : Type} [DecidableEq κ] (empty : S) (gs new : List (H × List κ)) (st : κ → S)
    (h : new.map (fun G => G.2.length) ≠ gs.map (fun G => G.2.length)) :
    loadStateDict empty new (stateDict gs st) = .error .valueError := by
  unfold loadStateDict stateDict
  split_ifs with h1 h2
  · rfl
  · rfl
  · simp only [ne_eq, List.map_map, not_not] at h2
    exact absurd h2 h

open Geoopt.LineSearch in
/-- SciPy's `scalar_search_armijo` as long as the first step size it tries is good enough. -/
noncomputable def firstTry : ℝ → ℝ → ℝ → ℝ → ℝ → Search := fun phi0 derphi0 c1 alpha0 _ =>
  .phi alpha0 fun v => open Classical in
    if v ≤ phi0 + c1 * alpha0 * derphi0 then .done (some alpha0) else .done none

open Geoopt.LineSearch in
/-- `RiemannianLineSearch` with its default method and rule, on one plain parameter. -/
noncomputable def armijoConf : Config Unit (fun _ => Unit) where
  man _ := LineSearch.euclidean Unit
  isManifold _ := false
  method := armijoBacktracking firstTry (1 / 10000) 0 none
  cg := cgConstant 0
  computeDerphi := false
  transportGrad := false
  transportSearchDirection := false
  fallbackStepsize := 1
  stabilize := none

open Geoopt.LineSearch in
/-- The loss `19/20 x²`. -/
noncomputable def bowl : Closure Unit (fun _ => Unit) :=
  ⟨fun x => 19 / 20 * x () () ^ 2, fun x _ _ => 19 / 10 * x () ()⟩

open Geoopt.LineSearch in
/-- RiemannianLineSearch (with its default options): the step after a checkpoint was loaded goes
somewhere else than the one without the interruption, because the loss before the last step is not in
the checkpoint. -/
theorem C90_counterexample_linesearch :
    ∃ (C : Config Unit fun _ => Unit) (f : Closure Unit fun _ => Unit) (s : LS Unit fun _ => Unit)
      (out : Option ℝ), step C f false false false (fresh fun _ _ => 1) = (s, .ok out) ∧
      (step C f false false false (load (save s))).1.points ≠
        (step C f false false false s).1.points := by
  have h1 : ∃ s out, step armijoConf bowl false false false (fresh fun _ _ => 1) = (s, .ok out) ∧
      (s.par () = { point := fun _ => -9 / 10, searchDir := some fun _ => -19 / 10,
                    newPoint := some (fun _ => -9 / 10),
                    grad := some fun _ => 19 / 10 }) ∧ s.gradsComputed = false ∧
      s.oldPhi0 = some (19 / 20) := by
    simp [step, initLoss, startGrads, fresh, LS.points, computeSearchDirection, proposeDirection, slope,
      armijoConf, LineSearch.euclidean, bowl, runSearch, armijoBacktracking, firstTry, armijoStart,
      phi, dicGet, moveTrial]
    rw [if_pos (by norm_num)]
    simp [runSearch, conclude, afterSearch, commit, moveAll, moveParam, stabilizeAfter, report, phi, dicGet]
    refine ⟨?_, ?_, ?_⟩ <;> funext i <;> norm_num
  obtain ⟨s, out, h, hp, hg, ho⟩ := h1
  refine ⟨armijoConf, bowl, s, out, h, fun e => ?_⟩
  have ha : armijoStart (19 / 20 * (-9 / 10) ^ 2) (-(19 / 10 * (-9 / 10) * (19 / 10 * (-9 / 10))))
      (some (19 / 20)) none = 101 / 810 := by
    norm_num [armijoStart]
  have h2 : ((step armijoConf bowl false false false s).1.points () ()) =
      -9 / 10 + 101 / 810 * (171 / 100) := by
    simp [step, initLoss, startGrads, LS.points, computeSearchDirection, proposeDirection, slope,
      armijoConf, LineSearch.euclidean, bowl, runSearch, armijoBacktracking, firstTry, ha,
      phi, dicGet, moveTrial, hp, hg, ho, cgConstant, cgDirection]
    rw [if_pos (by norm_num)]
    simp [runSearch, conclude, afterSearch, commit, moveAll, moveParam, stabilizeAfter, report, phi, dicGet]
    norm_num
  have h3 : ((step armijoConf bowl false false false (load (save s))).1.points () ()) =
      -9 / 10 + 171 / 100 := by
    simp [step, initLoss, startGrads, LS.points, computeSearchDirection, proposeDirection, slope,
      armijoConf, LineSearch.euclidean, bowl, runSearch, armijoBacktracking, firstTry, armijoStart,
      phi, dicGet, moveTrial, hp, load, save, cgConstant, cgDirection]
    rw [if_pos (by norm_num)]
    simp [runSearch, conclude, afterSearch, commit, moveAll, moveParam, stabilizeAfter, report, phi, dicGet]
    norm_num
  rw [e, h2] at h3
  norm_num at h3

end Geoopt.C90
