import Verif.Spec.Regroup
import Verif.Lemmas.OptimSim
import Verif.Model.Checkpoint
import Verif.Model.OptimManifolds
import Verif.Props.C24

/-!
C116: training does not depend on how the parameters are distributed over groups, nor on their order.
-/

namespace Geoopt.C116
open Geoopt.Optim

section
variable {κ : Type} [DecidableEq κ] {S : κ → Type} {H : Type}
variable (body : H → ∀ a, S a → S a × Bool × Option PyErr) (stab : H → ∀ a, S a → S a)

/-- The SGD variants. -/
theorem counter_regroup (period : H → Option ℕ) {Gs Gs' : List (Group H κ)} (hG : SameGroups Gs Gs')
    (w : ∀ a, S a) (h : (forGroups (counterGroup body stab period) Gs w).2.2 = none) :
    (forGroups (counterGroup body stab period) Gs' w).2.2 = none ∧
    (forGroups (counterGroup body stab period) Gs' w).1 = (forGroups (counterGroup body stab period) Gs w).1 ∧
    SameGroups (forGroups (counterGroup body stab period) Gs w).2.1
      (forGroups (counterGroup body stab period) Gs' w).2.1 := by
  have L := counterGroup_local (κ := κ) body stab period
  obtain ⟨k1, k2, k3⟩ := forGroups_ok L Gs hG.once w h
  have nd : ∀ G ∈ Gs, G.params.Nodup := fun G hg => (List.nodup_flatMap.1 hG.once).1 G hg
  have nd' : ∀ G ∈ Gs', G.params.Nodup := fun G hg => (List.nodup_flatMap.1 hG.once').1 G hg
  have c := fun G hg => counterGroup_ok body stab period G (nd G hg) w (k2 G hg)
  have e' : (forGroups (counterGroup body stab period) Gs' w).2.2 = none := by
    refine forGroups_noerr L Gs' hG.once' w fun G' hg' => counter_noerr body stab period G' (nd' G' hg') w ?_ ?_
    · intro a ha
      obtain ⟨G, hg, ha', hh, -⟩ := (hG.same a G'.hyper G'.step).2 ⟨G', hg', ha, rfl, rfl⟩
      rw [← hh]
      exact (c G hg).2.1 a ha'
    · obtain ⟨a, ha⟩ := List.exists_mem_of_ne_nil _ (hG.full' G' hg')
      obtain ⟨G, hg, ha', hh, -⟩ := (hG.same a G'.hyper G'.step).2 ⟨G', hg', ha, rfl, rfl⟩
      rw [← hh]
      exact counter_period body stab period G w (k2 G hg)
  obtain ⟨k1', k2', k3'⟩ := forGroups_ok L Gs' hG.once' w e'
  have c' := fun G hg => counterGroup_ok body stab period G (nd' G hg) w (k2' G hg)
  refine ⟨e', ?_, ?_⟩
  · funext a
    by_cases ha : ∃ G' ∈ Gs', a ∈ G'.params
    · obtain ⟨G', hg', ha'⟩ := ha
      obtain ⟨G, hg, ha, hh, hs⟩ := (hG.same a G'.hyper G'.step).2 ⟨G', hg', ha', rfl, rfl⟩
      rw [k3' G' hg' a ha', k3 G hg a ha, (c G hg).2.2 a ha, (c' G' hg').2.2 a ha', hh, hs]
    · have ha2 : ¬ ∃ G ∈ Gs, a ∈ G.params := fun ⟨G, hg, h⟩ => by
        obtain ⟨G', hg', h', -⟩ := (hG.same a G.hyper G.step).1 ⟨G, hg, h, rfl, rfl⟩
        exact ha ⟨G', hg', h'⟩
      push Not at ha ha2
      rw [forGroups_notMem L Gs' w a ha, forGroups_notMem L Gs w a ha2]
  · have m : (forGroups (counterGroup body stab period) Gs w).2.1 =
        Gs.map fun G => { G with step := G.step + 1 } := by
      rw [k1]; exact List.map_congr_left fun G hg => (c G hg).1
    have m' : (forGroups (counterGroup body stab period) Gs' w).2.1 =
        Gs'.map fun G => { G with step := G.step + 1 } := by
      rw [k1']; exact List.map_congr_left fun G hg => (c' G hg).1
    rw [m, m']
    refine ⟨by simpa [List.flatMap_map] using hG.once, by simpa [List.flatMap_map] using hG.once',
      by simpa using hG.full, by simpa using hG.full', fun a h k => ?_⟩
    constructor
    · rintro ⟨G1, hg1, ha, hh, hk⟩
      obtain ⟨G, hg, rfl⟩ := List.mem_map.1 hg1
      obtain ⟨G', hg', ha', hh', hk'⟩ := (hG.same a h G.step).1 ⟨G, hg, ha, hh, rfl⟩
      exact ⟨_, List.mem_map.2 ⟨G', hg', rfl⟩, ha', hh', by rw [← hk, ← hk']⟩
    · rintro ⟨G1, hg1, ha, hh, hk⟩
      obtain ⟨G, hg, rfl⟩ := List.mem_map.1 hg1
      obtain ⟨G', hg', ha', hh', hk'⟩ := (hG.same a h G.step).2 ⟨G, hg, ha, hh, rfl⟩
      exact ⟨_, List.mem_map.2 ⟨G', hg', rfl⟩, ha', hh', by rw [← hk, ← hk']⟩

/-- The Adam variants, when all parameters with the same options agree on whether it is time to stabilise. -/
theorem flag_regroup {Gs Gs' : List (H × List κ)} (hG : SameOptions Gs Gs') (w : ∀ a, S a)
    {φ : H → Bool} (hf : ∀ G ∈ Gs, ∀ a ∈ G.2, (body G.1 a (w a)).2.1 = φ G.1)
    (h : (forGroups (flagGroup body stab) Gs w).2.2 = none) :
    (forGroups (flagGroup body stab) Gs' w).2.2 = none ∧
    (forGroups (flagGroup body stab) Gs' w).1 = (forGroups (flagGroup body stab) Gs w).1 ∧
    (forGroups (flagGroup body stab) Gs w).2.1 = Gs ∧ (forGroups (flagGroup body stab) Gs' w).2.1 = Gs' := by
  have L := flagGroup_local (κ := κ) body stab
  obtain ⟨k1, k2, k3⟩ := forGroups_ok L Gs hG.once w h
  have nd : ∀ G ∈ Gs, G.2.Nodup := fun G hg => (List.nodup_flatMap.1 hG.once).1 G hg
  have nd' : ∀ G ∈ Gs', G.2.Nodup := fun G hg => (List.nodup_flatMap.1 hG.once').1 G hg
  have c := fun G hg => flagGroup_ok body stab G (nd G hg) w (k2 G hg)
  have hf' : ∀ G ∈ Gs', ∀ a ∈ G.2, (body G.1 a (w a)).2.1 = φ G.1 := by
    intro G' hg' a ha
    obtain ⟨G, hg, ha', hh⟩ := (hG.same a G'.1).2 ⟨G', hg', ha, rfl⟩
    rw [← hh]
    exact hf G hg a ha'
  have e' : (forGroups (flagGroup body stab) Gs' w).2.2 = none := by
    refine forGroups_noerr L Gs' hG.once' w fun G' hg' => flag_noerr body stab G' (nd' G' hg') w ?_
    intro a ha
    obtain ⟨G, hg, ha', hh⟩ := (hG.same a G'.1).2 ⟨G', hg', ha, rfl⟩
    rw [← hh]
    exact (c G hg).2.1 a ha'
  obtain ⟨k1', k2', k3'⟩ := forGroups_ok L Gs' hG.once' w e'
  have c' := fun G hg => flagGroup_ok body stab G (nd' G hg) w (k2' G hg)
  refine ⟨e', ?_, ?_, ?_⟩
  · funext a
    by_cases ha : ∃ G' ∈ Gs', a ∈ G'.2
    · obtain ⟨G', hg', ha'⟩ := ha
      obtain ⟨G, hg, ha, hh⟩ := (hG.same a G'.1).2 ⟨G', hg', ha', rfl⟩
      have q : ∀ K : H × List κ, a ∈ K.2 → (∀ b ∈ K.2, (body K.1 b (w b)).2.1 = φ K.1) →
          (K.2.any fun b => (body K.1 b (w b)).2.1) = φ K.1 := by
        intro K hK hb
        cases hφ : φ K.1 with
        | false => exact List.any_eq_false.2 fun b hb' => by simp [hb b hb', hφ]
        | true => exact List.any_eq_true.2 ⟨a, hK, by rw [hb a hK, hφ]⟩
      rw [k3' G' hg' a ha', k3 G hg a ha, (c G hg).2.2 a ha, (c' G' hg').2.2 a ha', q G ha (hf G hg),
        q G' ha' (hf' G' hg'), hh]
    · have ha2 : ¬ ∃ G ∈ Gs, a ∈ G.2 := fun ⟨G, hg, h⟩ => by
        obtain ⟨G', hg', h', -⟩ := (hG.same a G.1).1 ⟨G, hg, h, rfl⟩
        exact ha ⟨G', hg', h'⟩
      push Not at ha ha2
      rw [forGroups_notMem L Gs' w a ha, forGroups_notMem L Gs w a ha2]
  · rw [k1, List.map_congr_left fun G hg => (c G hg).1, List.map_id']
  · rw [k1', List.map_congr_left fun G hg => (c' G hg).1, List.map_id']

end

/-! ### RiemannianSGD and SparseRiemannianSGD -/

section
variable {κ : Type} [DecidableEq κ] {ι : κ → Type} (P : Params κ ι)

/-- **C116** for `RiemannianSGD`.  Two optimisers for the same parameters, with the same options for every
parameter but with the parameters distributed over groups differently and in another order: if training with
the first one does not raise, training with the second one does not raise either, and all parameters and
momentum buffers are the same after every step. -/
theorem C116_sgd (g : ℕ → (∀ a, ι a → ℝ) → ∀ a, Grad (ι a)) {o o' : ℕ → SGD κ ι}
    (h0 : (o' 0).par = (o 0).par) (hG : SameGroups (o 0).groups (o' 0).groups)
    (h : ∀ t, sgdTrain P (g t) (o t) = (o (t + 1), none))
    (h' : ∀ t, (sgdTrain P (g t) (o' t)).1 = o' (t + 1)) (t : ℕ) :
    (o' t).par = (o t).par ∧ (sgdTrain P (g t) (o' t)).2 = none ∧
      SameGroups (o t).groups (o' t).groups := by
  have step : ∀ t, (o' t).par = (o t).par → SameGroups (o t).groups (o' t).groups →
      (sgdTrain P (g t) (o' t)).2 = none ∧ (o' (t + 1)).par = (o (t + 1)).par ∧
        SameGroups (o (t + 1)).groups (o' (t + 1)).groups := by
    intro t e1 e2
    have k := h t
    unfold sgdTrain sgdStep at k
    simp only [Prod.mk.injEq] at k
    have r := counter_regroup (fun h a => sgdParam (P.manifold a) h)
      (fun h a => sgdStab (P.isManifold a) (P.man a) h) SGDHyper.stabilize e2
      (fun a => { (o t).par a with grad := g t (fun a => ((o t).par a).point) a }) k.2
    have e3 : o' t = ⟨(o t).par, (o' t).groups⟩ := by rw [← e1]
    rw [← h' t, ← k.1, e3]
    exact r
  suffices ∀ t, (o' t).par = (o t).par ∧ SameGroups (o t).groups (o' t).groups from
    ⟨(this t).1, (step t (this t).1 (this t).2).1, (this t).2⟩
  intro t
  induction t with
  | zero => exact ⟨h0, hG⟩
  | succ t ih => exact (step t ih.1 ih.2).2

/-- **C116** for `RiemannianAdam`, in the two situations in which the stabilisation of a parameter does not depend
on the other parameters of its group: it is switched off, or every parameter gets a gradient in every step
from the first one on.  Missing: parameters that get a gradient only in some steps
(`C116_counterexample_adam`). -/
theorem C116_adam_partial (g : ℕ → (∀ a, ι a → ℝ) → ∀ a, Grad (ι a)) {o o' : ℕ → Adam κ ι}
    (h0 : (o' 0).par = (o 0).par) (hG : SameOptions (o 0).groups (o' 0).groups)
    (hs : (∀ G ∈ (o 0).groups, G.1.stabilize = none) ∨
      (∀ a, ((o 0).par a).state = none) ∧ ∀ t x a, ∃ v, g t x a = .dense v)
    (h : ∀ t, adamTrain P (g t) (o t) = (o (t + 1), none))
    (h' : ∀ t, (adamTrain P (g t) (o' t)).1 = o' (t + 1)) (t : ℕ) :
    (o' t).par = (o t).par ∧ (adamTrain P (g t) (o' t)).2 = none := by
  have step : ∀ t, (o' t).par = (o t).par → SameOptions (o t).groups (o' t).groups →
      ((∀ G ∈ (o t).groups, G.1.stabilize = none) ∨
        (∀ G ∈ (o t).groups, ∀ a ∈ G.2, (adamInit G.1.amsgrad ((o t).par a).state).step = t) ∧
          ∀ t x a, ∃ v, g t x a = .dense v) →
      (adamTrain P (g t) (o' t)).2 = none ∧ (o' (t + 1)).par = (o (t + 1)).par ∧
        (o (t + 1)).groups = (o t).groups ∧ (o' (t + 1)).groups = (o' t).groups ∧
        ((∀ G ∈ (o (t + 1)).groups, G.1.stabilize = none) ∨
        (∀ G ∈ (o (t + 1)).groups, ∀ a ∈ G.2,
          (adamInit G.1.amsgrad ((o (t + 1)).par a).state).step = t + 1) ∧
          ∀ t x a, ∃ v, g t x a = .dense v) := by
    intro t e1 e2 e4
    have k := h t
    have k0 := h t
    unfold adamTrain adamStep at k
    simp only [Prod.mk.injEq] at k
    obtain ⟨φ, hφ⟩ : ∃ φ : AdamHyper → Bool, ∀ G ∈ (o t).groups, ∀ a ∈ G.2,
        (adamParam (P.manifold a) G.1
          { (o t).par a with grad := g t (fun a => ((o t).par a).point) a }).2.1 = φ G.1 := by
      rcases e4 with e4 | ⟨e4, e5⟩
      · refine ⟨fun _ => false, fun G hG a _ => ?_⟩
        unfold adamParam
        dsimp only
        split
        · rfl
        · rfl
        · split <;> first | rfl | simp [adamFlag, e4 G hG]
      · have nd := (adamStep_ok P { o t with par := fun a =>
          { (o t).par a with grad := g t (fun a => ((o t).par a).point) a } } e2.once
          (congrArg Prod.snd k0)).2
        refine ⟨fun h => (adamFlag h.stabilize (t + 1)).1, fun G hG a ha => ?_⟩
        have ne := (nd G hG a ha).1
        obtain ⟨v, hv⟩ := e5 t (fun a => ((o t).par a).point) a
        have es := e4 G hG a ha
        unfold adamParam at ne ⊢
        dsimp only at ne ⊢
        rw [hv] at ne ⊢
        dsimp only at ne ⊢
        rw [es] at ne ⊢
        split at ne
        · cases ne
        · simp [*]
        · simp [*]
    have r := flag_regroup (fun (h : AdamHyper) a => adamParam (P.manifold a) h)
      (fun _ a => adamStab (P.isManifold a) (P.man a)) e2
      (fun a => { (o t).par a with grad := g t (fun a => ((o t).par a).point) a }) hφ k.2
    have e3 : o' t = ⟨(o t).par, (o' t).groups⟩ := by rw [← e1]
    have eg : (o (t + 1)).groups = (o t).groups := by rw [← k.1]; exact r.2.2.1
    refine ⟨by rw [e3]; exact r.1, by rw [← h' t, ← k.1, e3]; exact r.2.1, eg,
      by rw [← h' t, e3]; exact r.2.2.2, ?_⟩
    rcases e4 with e4 | ⟨e4, e5⟩
    · left; rw [eg]; exact e4
    · right
      refine ⟨fun G hG a ha => ?_, e5⟩
      rw [eg] at hG
      obtain ⟨ne, ep⟩ := (adamStep_ok P { o t with par := fun a =>
        { (o t).par a with grad := g t (fun a => ((o t).par a).point) a } } e2.once
        (congrArg Prod.snd k0)).2 G hG a ha
      have e6 : (o (t + 1)).par a = _ := (congrArg (fun o : Adam κ ι => o.par a) (congrArg Prod.fst k0)).symm.trans ep
      obtain ⟨v, hv⟩ := e5 t (fun a => ((o t).par a).point) a
      have es := e4 G hG a ha
      obtain ⟨q, hq, eq⟩ : ∃ q, (adamParam (P.manifold a) G.1
          { (o t).par a with grad := g t (fun a => ((o t).par a).point) a }).1.state = some q ∧
          q.step = t + 1 := by
        unfold adamParam
        dsimp only
        rw [hv]
        dsimp only
        rw [es]
        split <;> exact ⟨_, rfl, rfl⟩
      rw [e6]
      split_ifs
      · unfold adamStab
        split
        · rw [hq]; exact eq
        · dsimp only at hq ⊢
          rw [hq]; exact eq
      · rw [hq]; exact eq
  suffices ∀ t, (o' t).par = (o t).par ∧ SameOptions (o t).groups (o' t).groups ∧
      ((∀ G ∈ (o t).groups, G.1.stabilize = none) ∨
        (∀ G ∈ (o t).groups, ∀ a ∈ G.2, (adamInit G.1.amsgrad ((o t).par a).state).step = t) ∧
          ∀ t x a, ∃ v, g t x a = .dense v) from
    ⟨(this t).1, (step t (this t).1 (this t).2.1 (this t).2.2).1⟩
  intro t
  induction t with
  | zero =>
    refine ⟨h0, hG, hs.imp id fun ⟨h1, h2⟩ => ⟨fun G _ a _ => ?_, h2⟩⟩
    rw [h1]; rfl
  | succ t ih =>
    obtain ⟨-, h2, h3, h4, h5⟩ := step t ih.1 ih.2.1 ih.2.2
    exact ⟨h2, by rw [h3, h4]; exact ih.2.1, h5⟩

end

section
variable {κ : Type} [DecidableEq κ] {ρ ι : κ → Type} [∀ a, DecidableEq (ρ a)] (P : Params κ ι)

/-- **C116** for `SparseRiemannianSGD`. -/
theorem C116_sparse_sgd (g : ℕ → (∀ a, ρ a → ι a → ℝ) → ∀ a, SGrad (ρ a) (ι a)) {o o' : ℕ → SparseSGD κ ρ ι}
    (h0 : (o' 0).par = (o 0).par) (hG : SameGroups (o 0).groups (o' 0).groups)
    (h : ∀ t, sparseSgdStep P { o t with par := fun a =>
      { (o t).par a with grad := g t (fun a => ((o t).par a).point) a } } = (o (t + 1), none))
    (h' : ∀ t, (sparseSgdStep P { o' t with par := fun a =>
      { (o' t).par a with grad := g t (fun a => ((o' t).par a).point) a } }).1 = o' (t + 1)) (t : ℕ) :
    (o' t).par = (o t).par ∧
      (sparseSgdStep P { o' t with par := fun a =>
        { (o' t).par a with grad := g t (fun a => ((o' t).par a).point) a } }).2 = none ∧
      SameGroups (o t).groups (o' t).groups := by
  have step : ∀ t, (o' t).par = (o t).par → SameGroups (o t).groups (o' t).groups →
      (sparseSgdStep P { o' t with par := fun a =>
        { (o' t).par a with grad := g t (fun a => ((o' t).par a).point) a } }).2 = none ∧
        (o' (t + 1)).par = (o (t + 1)).par ∧
        SameGroups (o (t + 1)).groups (o' (t + 1)).groups := by
    intro t e1 e2
    have k := h t
    unfold sparseSgdStep at k
    simp only [Prod.mk.injEq] at k
    have r := counter_regroup (fun h a => sparseSgdParam (ρ := ρ a) (P.manifold a) h)
      (fun h a => sparseSgdStab (P.isManifold a) (P.man a) h) SGDHyper.stabilize e2
      (fun a => { (o t).par a with grad := g t (fun a => ((o t).par a).point) a }) k.2
    have e3 : o' t = ⟨(o t).par, (o' t).groups⟩ := by rw [← e1]
    rw [← h' t, ← k.1, e3]
    exact r
  suffices ∀ t, (o' t).par = (o t).par ∧ SameGroups (o t).groups (o' t).groups from
    ⟨(this t).1, (step t (this t).1 (this t).2).1, (this t).2⟩
  intro t
  induction t with
  | zero => exact ⟨h0, hG⟩
  | succ t ih => exact (step t ih.1 ih.2).2

/-- **C116** for `SparseRiemannianAdam`, whose constructor does not accept `stabilize`. -/
theorem C116_sparse_adam (g : ℕ → (∀ a, ρ a → ι a → ℝ) → ∀ a, SGrad (ρ a) (ι a)) {o o' : ℕ → SparseAdam κ ρ ι}
    (h0 : (o' 0).par = (o 0).par) (hG : SameOptions (o 0).groups (o' 0).groups)
    (hs : ∀ G ∈ (o 0).groups, G.1.stabilize = none)
    (h : ∀ t, sparseAdamStep P { o t with par := fun a =>
      { (o t).par a with grad := g t (fun a => ((o t).par a).point) a } } = (o (t + 1), none))
    (h' : ∀ t, (sparseAdamStep P { o' t with par := fun a =>
      { (o' t).par a with grad := g t (fun a => ((o' t).par a).point) a } }).1 = o' (t + 1)) (t : ℕ) :
    (o' t).par = (o t).par ∧
      (sparseAdamStep P { o' t with par := fun a =>
        { (o' t).par a with grad := g t (fun a => ((o' t).par a).point) a } }).2 = none := by
  have step : ∀ t, (o' t).par = (o t).par → SameOptions (o t).groups (o' t).groups →
      (∀ G ∈ (o t).groups, G.1.stabilize = none) →
      (sparseAdamStep P { o' t with par := fun a =>
        { (o' t).par a with grad := g t (fun a => ((o' t).par a).point) a } }).2 = none ∧
        (o' (t + 1)).par = (o (t + 1)).par ∧
        (o (t + 1)).groups = (o t).groups ∧ (o' (t + 1)).groups = (o' t).groups := by
    intro t e1 e2 e4
    have k := h t
    unfold sparseAdamStep at k
    simp only [Prod.mk.injEq] at k
    have r := flag_regroup (fun (h : AdamHyper) a => sparseAdamParam (ρ := ρ a) (P.manifold a) h)
      (fun _ a => sparseAdamStab (P.isManifold a) (P.man a)) e2
      (fun a => { (o t).par a with grad := g t (fun a => ((o t).par a).point) a })
      (φ := fun _ => false) (fun G hG a _ => by
        unfold sparseAdamParam
        dsimp only
        split
        · rfl
        · rfl
        · split <;> first | rfl | simp [adamFlag, e4 G hG]) k.2
    have e3 : o' t = ⟨(o t).par, (o' t).groups⟩ := by rw [← e1]
    exact ⟨by rw [e3]; exact r.1, by rw [← h' t, ← k.1, e3]; exact r.2.1,
      by rw [← k.1]; exact r.2.2.1, by rw [← h' t, e3]; exact r.2.2.2⟩
  suffices ∀ t, (o' t).par = (o t).par ∧ SameOptions (o t).groups (o' t).groups ∧
      (∀ G ∈ (o t).groups, G.1.stabilize = none) from
    ⟨(this t).1, (step t (this t).1 (this t).2.1 (this t).2.2).1⟩
  intro t
  induction t with
  | zero => exact ⟨h0, hG, hs⟩
  | succ t ih =>
    obtain ⟨-, h2, h3, h4⟩ := step t ih.1 ih.2.1 ih.2.2
    exact ⟨h2, by rw [h3, h4]; exact ih.2.1, by rw [h3]; exact ih.2.2⟩

end

/-! ### Where it fails -/

section Counterexample
open Geoopt.Stiefel

theorem stiefel_rest {n m : ℕ} (proj : Matrix (Fin n) (Fin m) ℝ → Matrix (Fin n) (Fin m) ℝ)
    (x : Fin n × Fin m → ℝ) : (canonicalStiefel proj).retrTransp x 0 0 = (x, 0) := by
  have z : toMat (0 : Fin n × Fin m → ℝ) = 0 := rfl
  simp only [canonicalStiefel, C24_retr_transp, Canonical.transpFollowRetr, transpFollowOne_eq, z, C24_retr_zero,
    Matrix.mul_zero]
  rfl

/-- Options with `stabilize=2`. -/
noncomputable def hyp : AdamHyper := ⟨1, 1 / 2, 1 / 2, 1, 0, false, some 2⟩

/-- A parameter at rest, with and without state. -/
theorem adam_rest {n m : ℕ} (proj : Matrix (Fin n) (Fin m) ℝ → Matrix (Fin n) (Fin m) ℝ)
    (x : Fin n × Fin m → ℝ) {st : Option (AdamState (Fin n × Fin m))} (t : ℕ)
    (h : adamInit false st = ⟨t, 0, 0, none⟩) :
    adamParam (canonicalStiefel proj) hyp ⟨x, .dense 0, st⟩ =
      (⟨x, .dense 0, some ⟨t + 1, 0, 0, none⟩⟩, adamFlag (some 2) (t + 1)) := by
  have z : toMat (0 : Fin n × Fin m → ℝ) = 0 := rfl
  have e : ((canonicalStiefel proj).egrad2rgrad x 0) = ⟨0, 0, false⟩ := by
    simp only [canonicalStiefel, z, Canonical.proju]
    simp
    rfl
  have e' : (canonicalStiefel proj).componentInner x 0 = 0 := by
    funext i
    simp [canonicalStiefel, z, Canonical.inner, Linalg.frob]
  have e'' : -(1 : ℝ) • adamDirection hyp (t + 1) (0 : Fin n × Fin m → ℝ) 0 = 0 := by
    funext i
    simp [adamDirection]
  simp only [adamParam, hyp] at e'' ⊢
  rw [h]
  simp only [smul_zero, zero_smul, add_zero, e, e', e'', stiefel_rest]

/-- The property fails for `RiemannianAdam` with `stabilize=2`: a parameter (on the Stiefel manifold, for any
implementation of its projection) that gets no gradient in the first step, but in the second one.  If it shares a
group with a parameter that has a gradient in both steps, it is projected to the manifold after the second step; if
it is in a group of its own, it is not. -/
theorem C116_counterexample_adam
    (proj : Matrix (Fin 1) (Fin 1) ℝ → Matrix (Fin 1) (Fin 1) ℝ) (hp : ∀ x, OnStiefel (proj x)) :
    ∃ (g : ℕ → (Bool → Fin 1 × Fin 1 → ℝ) → Bool → Grad (Fin 1 × Fin 1))
      (o o' : ℕ → Adam Bool fun _ => Fin 1 × Fin 1),
      (o' 0).par = (o 0).par ∧ (∀ a, ((o 0).par a).state = none) ∧ SameOptions (o 0).groups (o' 0).groups ∧
      (∀ t, t < 2 → adamTrain ⟨fun _ => true, fun _ => canonicalStiefel proj⟩ (g t) (o t) = (o (t + 1), none)) ∧
      (∀ t, t < 2 → adamTrain ⟨fun _ => true, fun _ => canonicalStiefel proj⟩ (g t) (o' t) =
        (o' (t + 1), none)) ∧
      OnStiefel (toMat ((o 2).par true).point) ∧ ¬ OnStiefel (toMat ((o' 2).par true).point) := by
  let x : Fin 1 × Fin 1 → ℝ := fun _ => 2
  let g : ℕ → (Bool → Fin 1 × Fin 1 → ℝ) → Bool → Grad (Fin 1 × Fin 1) := fun t _ a =>
    if t = 0 ∧ a = true then .none else .dense 0
  let P : Params Bool fun _ => Fin 1 × Fin 1 := ⟨fun _ => true, fun _ => canonicalStiefel proj⟩
  let p0 : Bool → AdamParam (Fin 1 × Fin 1) := fun _ => ⟨x, .none, none⟩
  let it (o : Adam Bool fun _ => Fin 1 × Fin 1) : ℕ → Adam Bool fun _ => Fin 1 × Fin 1 := fun t =>
    t.rec o fun t o => (adamTrain P (g t) o).1
  have hP : ∀ a, P.manifold a = canonicalStiefel proj := fun _ => rfl
  have r0 := adam_rest proj x (st := none) 0 rfl
  have r1 := adam_rest proj x (st := some ⟨1, 0, 0, none⟩) 1 rfl
  have f1 : adamFlag (some 2) (0 + 1) = (false, none) := by simp [adamFlag, isMultiple]
  have f2 : adamFlag (some 2) (1 + 1) = (true, none) := by simp [adamFlag, isMultiple]
  rw [f1] at r0
  rw [f2] at r1
  -- after the first step
  let p1 : Bool → AdamParam (Fin 1 × Fin 1) := fun a =>
    if a = true then ⟨x, .none, none⟩ else ⟨x, .dense 0, some ⟨1, 0, 0, none⟩⟩
  -- after the second step, without stabilisation
  let p2 : Bool → AdamParam (Fin 1 × Fin 1) := fun a =>
    if a = true then ⟨x, .dense 0, some ⟨1, 0, 0, none⟩⟩ else ⟨x, .dense 0, some ⟨2, 0, 0, none⟩⟩
  have rn : adamParam (canonicalStiefel proj) hyp ⟨x, .none, none⟩ = (⟨x, .none, none⟩, false, none) := rfl
  have iP : ∀ a, P.isManifold a = true := fun _ => rfl
  have mP : ∀ a, P.man a = canonicalStiefel proj := fun _ => rfl
  -- one group
  have a1 : adamTrain P (g 0) ⟨p0, [(hyp, [false, true])]⟩ = (⟨p1, [(hyp, [false, true])]⟩, none) := by
    simp [adamTrain, adamStep, forGroups, adamGroup, flagGroup, forParams, hP, p0, g, r0, rn]
    funext a; cases a <;> simp [p1]
  have a2 : adamTrain P (g 1) ⟨p1, [(hyp, [false, true])]⟩ =
      (⟨fun a => adamStab true (canonicalStiefel proj) (p2 a), [(hyp, [false, true])]⟩, none) := by
    simp [adamTrain, adamStep, forGroups, adamGroup, flagGroup, forParams, hP, p1, g, r0, r1, stabParams, iP, mP]
    funext a; cases a <;> simp [p2]
  -- two groups
  have b1 : adamTrain P (g 0) ⟨p0, [(hyp, [false]), (hyp, [true])]⟩ =
      (⟨p1, [(hyp, [false]), (hyp, [true])]⟩, none) := by
    simp [adamTrain, adamStep, forGroups, adamGroup, flagGroup, forParams, hP, p0, g, r0, rn]
    funext a; cases a <;> simp [p1]
  have b2 : adamTrain P (g 1) ⟨p1, [(hyp, [false]), (hyp, [true])]⟩ =
      (⟨fun a => if a = true then p2 a else adamStab true (canonicalStiefel proj) (p2 a),
        [(hyp, [false]), (hyp, [true])]⟩, none) := by
    simp [adamTrain, adamStep, forGroups, adamGroup, flagGroup, forParams, hP, p1, g, r0, r1, stabParams, iP, mP]
    funext a; cases a <;> simp [p2]
  refine ⟨g, it ⟨p0, [(hyp, [false, true])]⟩, it ⟨p0, [(hyp, [false]), (hyp, [true])]⟩, rfl, fun _ => rfl,
    ⟨by simp [it], by simp [it], fun a h => by cases a <;> simp [it]⟩, ?_, ?_, ?_, ?_⟩
  · intro t ht
    interval_cases t
    · exact Prod.ext rfl (by have := congrArg Prod.snd a1; exact this)
    · exact Prod.ext rfl (by
        change (adamTrain P (g 1) (adamTrain P (g 0) _).1).2 = none
        rw [a1, a2])
  · intro t ht
    interval_cases t
    · exact Prod.ext rfl (by have := congrArg Prod.snd b1; exact this)
    · exact Prod.ext rfl (by
        change (adamTrain P (g 1) (adamTrain P (g 0) _).1).2 = none
        rw [b1, b2])
  · change OnStiefel (toMat ((adamTrain P (g 1) (adamTrain P (g 0) _).1).1.par true).point)
    rw [a1, a2]
    simp only [adamStab, p2, if_true]
    exact hp _
  · change ¬ OnStiefel (toMat ((adamTrain P (g 1) (adamTrain P (g 0) _).1).1.par true).point)
    rw [b1, b2]
    simp only [p2, if_true]
    intro h
    have := congrFun (congrFun h 0) 0
    simp [Matrix.mul_apply, toMat, x] at this
    norm_num at this

/-- The order matters when a step raises: of two parameters, one with a sparse gradient (which
`RiemannianSGD` rejects), the other one has been updated or not. -/
theorem C116_counterexample_error :
    ∃ o o' : SGD Bool fun _ => Fin 1, o'.par = o.par ∧ SameGroups o.groups o'.groups ∧
      (sgdStep ⟨fun _ => false, fun _ => euclidean (Fin 1)⟩ o).2 = some .runtimeError ∧
      (sgdStep ⟨fun _ => false, fun _ => euclidean (Fin 1)⟩ o').2 = some .runtimeError ∧
      ((sgdStep ⟨fun _ => false, fun _ => euclidean (Fin 1)⟩ o).1.par false).point ≠ (o.par false).point ∧
      ((sgdStep ⟨fun _ => false, fun _ => euclidean (Fin 1)⟩ o').1.par false).point = (o.par false).point := by
  let h : SGDHyper := ⟨1, 0, 0, 0, false, none⟩
  let p : Bool → SGDParam (Fin 1) := fun a => ⟨0, if a = true then .sparse else .dense 1, none⟩
  refine ⟨⟨p, [⟨h, 0, [false, true]⟩]⟩, ⟨p, [⟨h, 0, [true, false]⟩]⟩, rfl,
    ⟨by simp, by simp, by simp, by simp, fun a h k => by cases a <;> simp⟩, ?_, ?_, ?_, ?_⟩
  · simp [sgdStep, forGroups, sgdGroup, counterGroup, forParams, p, sgdParam, h]
  · simp [sgdStep, forGroups, sgdGroup, counterGroup, forParams, p, sgdParam, h]
  · simp [sgdStep, forGroups, sgdGroup, counterGroup, forParams, p, sgdParam, h, Params.manifold, euclidean]
  · simp [sgdStep, forGroups, sgdGroup, counterGroup, forParams, p, sgdParam, h]

/-- Non-vacuity: training two parameters that move, once in one group and once in two. -/
example : ∃ (P : Params Bool fun _ => Fin 1) (g : ℕ → (Bool → Fin 1 → ℝ) → Bool → Grad (Fin 1))
    (o o' : ℕ → SGD Bool fun _ => Fin 1),
    (o' 0).par = (o 0).par ∧ SameGroups (o 0).groups (o' 0).groups ∧ (o 0).groups ≠ (o' 0).groups ∧
    (∀ t, sgdTrain P (g t) (o t) = (o (t + 1), none)) ∧ (∀ t, (sgdTrain P (g t) (o' t)).1 = o' (t + 1)) ∧
    ((o 1).par true).point ≠ ((o 0).par true).point := by
  let h : SGDHyper := ⟨1, 0, 0, 0, false, none⟩
  let P : Params Bool fun _ => Fin 1 := ⟨fun _ => false, fun _ => euclidean (Fin 1)⟩
  let g : ℕ → (Bool → Fin 1 → ℝ) → Bool → Grad (Fin 1) := fun _ _ _ => .dense 1
  let p : Bool → SGDParam (Fin 1) := fun _ => ⟨0, .none, none⟩
  let it (o : SGD Bool fun _ => Fin 1) : ℕ → SGD Bool fun _ => Fin 1 := fun t =>
    t.rec o fun t o => (sgdTrain P (g t) o).1
  have k : ∀ t (q : Bool → SGDParam (Fin 1)), (sgdTrain P (g t) ⟨q, [⟨h, t, [false, true]⟩]⟩).2 = none ∧
      (sgdTrain P (g t) ⟨q, [⟨h, t, [false, true]⟩]⟩).1.groups = [⟨h, t + 1, [false, true]⟩] := by
    intro t q
    simp [sgdTrain, sgdStep, forGroups, sgdGroup, counterGroup, forParams, sgdParam, h, g]
  have ig : ∀ t, (it ⟨p, [⟨h, 0, [false, true]⟩]⟩ t).groups = [⟨h, t, [false, true]⟩] := by
    intro t
    induction t with
    | zero => rfl
    | succ t ih =>
      have := (k t (it ⟨p, [⟨h, 0, [false, true]⟩]⟩ t).par).2
      rw [← ih] at this
      exact this
  refine ⟨P, g, it ⟨p, [⟨h, 0, [false, true]⟩]⟩, it ⟨p, [⟨h, 0, [true]⟩, ⟨h, 0, [false]⟩]⟩, rfl,
    ⟨by simp [it], by simp [it], by simp [it], by simp [it], fun a h k => by cases a <;> simp [it]⟩,
    by simp [it], fun t => Prod.ext rfl ?_, fun _ => rfl, ?_⟩
  · have := (k t (it ⟨p, [⟨h, 0, [false, true]⟩]⟩ t).par).1
    rw [← ig t] at this
    exact this
  · simp [it, sgdTrain, sgdStep, forGroups, sgdGroup, counterGroup, forParams, sgdParam, h, g, p, P,
      Params.manifold, euclidean]

end Counterexample

end Geoopt.C116
