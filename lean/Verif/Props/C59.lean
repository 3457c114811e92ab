import Verif.Lemmas.OptimStep
import Verif.Model.OptimSparse

/-!
# C59 (and C58, C60, C62 for the sparse optimisers)
-/

open Geoopt Geoopt.Optim

namespace C59

section Rows
variable {ρ ι : Type} [DecidableEq ρ]

theorem mem_gradRows (es : List (ρ × (ι → ℝ))) (r : ρ) :
    r ∈ gradRows es ↔ ∃ e ∈ es, e.1 = r := by
  unfold gradRows; rw [List.mem_dedup, List.mem_map]

theorem scatter_notMem {α : Type} (x : ρ → α) (rows : List ρ) (f : ρ → α) (r : ρ) (hr : r ∉ rows) :
    scatter x rows (rows.map f) r = x r := by
  unfold scatter
  induction rows generalizing x with
  | nil => rfl
  | cons a rows ih =>
    simp only [List.mem_cons, not_or] at hr
    rw [List.map_cons, List.zip_cons_cons, List.foldl_cons, ih _ hr.2]
    exact Function.update_of_ne hr.1 _ _

theorem scatter_mem {α : Type} (x : ρ → α) (rows : List ρ) (hn : rows.Nodup) (f : ρ → α) (r : ρ)
    (hr : r ∈ rows) : scatter x rows (rows.map f) r = f r := by
  induction rows generalizing x with
  | nil => cases hr
  | cons a rows ih =>
    rw [List.nodup_cons] at hn
    have : scatter x (a :: rows) ((a :: rows).map f) =
        scatter (Function.update x a (f a)) rows (rows.map f) := rfl
    rw [this]
    rcases List.mem_cons.1 hr with h | h
    · subst h
      rw [scatter_notMem _ _ _ _ hn.1, Function.update_self]
    · exact ih _ hn.2 h

theorem nodup_gradRows (es : List (ρ × (ι → ℝ))) : (gradRows es).Nodup := List.nodup_dedup _

theorem toDense_notMem (es : List (ρ × (ι → ℝ))) (r : ρ) (hr : r ∉ gradRows es) :
    toDense es r = 0 := by
  unfold toDense
  have : es.filter (fun e => e.1 = r) = [] := by
    rw [List.filter_eq_nil_iff]
    intro e he h
    exact hr ((mem_gradRows es r).2 ⟨e, he, by simpa using h⟩)
  rw [this]; rfl

end Rows

/-! ## One parameter -/

section One
variable {ρ ι : Type} [DecidableEq ρ] (M : Manifold ι)

/-- Row `r` of a parameter of `SparseRiemannianSGD`, as a parameter of `RiemannianSGD` whose gradient is
the sum of the entries for that row. -/
def sgdRow (s : SparseSGDParam ρ ι) (es : List (ρ × (ι → ℝ))) (r : ρ) : SGDParam ι :=
  ⟨s.point r, .dense (toDense es r), s.buf.map (· r)⟩

theorem sparseSgd_row (h : SGDHyper) (hw : h.weightDecay = 0) (s : SparseSGDParam ρ ι)
    (es : List (ρ × (ι → ℝ))) (hg : s.grad = .sparse es) :
    (∀ r ∈ gradRows es,
      ((sparseSgdParam M h s).1.point r, (sparseSgdParam M h s).1.buf.map (· r)) =
        ((sgdParam M h (sgdRow s es r)).1.point, (sgdParam M h (sgdRow s es r)).1.buf)) ∧
    (∀ r, r ∉ gradRows es → (sparseSgdParam M h s).1.point r = s.point r ∧
      (sparseSgdParam M h s).1.buf.map (· r) =
        if 0 < h.momentum ∧ s.buf = none then some 0 else s.buf.map (· r)) ∧
    (sparseSgdParam M h s).1.grad = s.grad ∧ (sparseSgdParam M h s).2 = (false, none) := by
  have hwd : ∀ (g : ι → ℝ) x, g + h.weightDecay • x = g := by
    intro g x; rw [hw, zero_smul, add_zero]
  obtain ⟨x, gr, b⟩ := s
  dsimp only at hg
  subst hg
  unfold sparseSgdParam
  dsimp only
  by_cases hm : 0 < h.momentum
  · cases b with
    | none =>
      simp only [if_pos hm]
      refine ⟨fun r hr => ?_, fun r hr => ?_, trivial, trivial⟩
      · simp only [sgdParam, sgdRow, hwd, if_pos hm, Option.map_none, Option.map_some,
          scatter_mem _ _ (nodup_gradRows es) _ r hr]
      · simp only [scatter_notMem _ _ _ r hr, hm, Option.map_some, true_and, if_true,
          toDense_notMem es r hr]
    | some b =>
      simp only [if_pos hm]
      refine ⟨fun r hr => ?_, fun r hr => ?_, trivial, trivial⟩
      · simp only [sgdParam, sgdRow, hwd, if_pos hm, Option.map_some,
          scatter_mem _ _ (nodup_gradRows es) _ r hr]
      · simp [scatter_notMem _ _ _ r hr]
  · simp only [if_neg hm]
    refine ⟨fun r hr => ?_, fun r hr => ?_, trivial, trivial⟩
    · cases b <;> simp only [sgdParam, sgdRow, hwd, if_neg hm, Option.map_some, Option.map_none,
          scatter_mem _ _ (nodup_gradRows es) _ r hr]
    · simp only [hm, false_and, if_false, scatter_notMem _ _ _ r hr, true_and]
      cases b <;> rfl

/-- Row `r` of a parameter of `SparseRiemannianAdam`, as a parameter of `RiemannianAdam`. -/
def adamRow (s : SparseAdamParam ρ ι) (es : List (ρ × (ι → ℝ))) (r : ρ) : AdamParam ι :=
  ⟨s.point r, .dense (toDense es r),
    s.state.map fun st => ⟨st.step, st.expAvg r, st.expAvgSq r, st.maxExpAvgSq.map (· r)⟩⟩

theorem adamInit_row (am : Bool) (st : Option (SparseAdamState ρ ι)) (r : ρ) :
    adamInit am (st.map fun st => (⟨st.step, st.expAvg r, st.expAvgSq r, st.maxExpAvgSq.map (· r)⟩ :
      AdamState ι)) = ⟨(sparseAdamInitState am st).step, (sparseAdamInitState am st).expAvg r,
        (sparseAdamInitState am st).expAvgSq r, (sparseAdamInitState am st).maxExpAvgSq.map (· r)⟩ := by
  cases st with
  | some st => rfl
  | none => cases am <;> rfl

theorem sparseAdam_row (h : AdamHyper) (hw : h.weightDecay = 0) (ham : h.amsgrad = false)
    (s : SparseAdamParam ρ ι) (es : List (ρ × (ι → ℝ))) (hg : s.grad = .sparse es) :
    (∀ r ∈ gradRows es,
      (adamRow (sparseAdamParam M h s).1 es r).point = (adamParam M h (adamRow s es r)).1.point ∧
      (adamRow (sparseAdamParam M h s).1 es r).state = (adamParam M h (adamRow s es r)).1.state) ∧
    (∀ r, r ∉ gradRows es → (sparseAdamParam M h s).1.point r = s.point r ∧
      ∃ st', (sparseAdamParam M h s).1.state = some st' ∧
        st'.step = (sparseAdamInitState false s.state).step + 1 ∧
        st'.expAvg r = (sparseAdamInitState false s.state).expAvg r ∧
        st'.expAvgSq r = (sparseAdamInitState false s.state).expAvgSq r ∧
        st'.maxExpAvgSq = (sparseAdamInitState false s.state).maxExpAvgSq) ∧
    (sparseAdamParam M h s).1.grad = s.grad := by
  have hwd : ∀ (g : ι → ℝ) x, g + h.weightDecay • x = g := by
    intro g x; rw [hw, zero_smul, add_zero]
  obtain ⟨x, gr, st⟩ := s
  dsimp only at hg
  subst hg
  unfold sparseAdamParam
  dsimp only
  rw [ham]
  generalize hst : sparseAdamInitState false st = st0
  refine ⟨fun r hr => ?_, fun r hr => ?_, rfl⟩
  · have hi := adamInit_row false st r
    rw [hst] at hi
    dsimp only [adamRow, adamParam]
    rw [ham, hi, hwd]
    simp only [scatter_mem _ _ (nodup_gradRows es) _ r hr, Option.map_some]
    exact ⟨rfl, rfl⟩
  · dsimp only
    refine ⟨scatter_notMem _ _ _ r hr, _, rfl, rfl, scatter_notMem _ _ _ r hr,
      scatter_notMem _ _ _ r hr, rfl⟩

end One

/-! ## Steps -/

variable {κ : Type} [DecidableEq κ] {ρ ι : κ → Type} [∀ a, DecidableEq (ρ a)] (P : Params κ ι)

theorem sparseSgdStep_ok (o : SparseSGD κ ρ ι) (hn : (o.groups.flatMap Group.params).Nodup)
    (h : (sparseSgdStep P o).2 = none) :
    ∀ G ∈ o.groups, ∀ a ∈ G.params,
      (sparseSgdStep P o).1.par a = if due G.hyper.stabilize (G.step + 1) then
        sparseSgdStab (P.isManifold a) (P.man a) G.hyper
          (sparseSgdParam (P.manifold a) G.hyper (o.par a)).1
      else (sparseSgdParam (P.manifold a) G.hyper (o.par a)).1 := by
  have L := counterGroup_local (κ := κ) (S := fun a => SparseSGDParam (ρ a) (ι a))
    (fun h a => sparseSgdParam (P.manifold a) h) (fun h a => sparseSgdStab (P.isManifold a) (P.man a) h)
    SGDHyper.stabilize
  obtain ⟨-, h2, h3⟩ := forGroups_ok L o.groups hn o.par h
  have nd : ∀ G ∈ o.groups, G.params.Nodup := fun G hG => (List.nodup_flatMap.1 hn).1 G hG
  intro G hG a ha
  exact (h3 G hG a ha).trans ((counterGroup_ok (κ := κ) (S := fun a => SparseSGDParam (ρ a) (ι a))
    (fun h a => sparseSgdParam (P.manifold a) h) (fun h a => sparseSgdStab (P.isManifold a) (P.man a) h)
    SGDHyper.stabilize G (nd G hG) o.par (h2 G hG)).2.2 a ha)

theorem sparseAdamStep_ok (o : SparseAdam κ ρ ι) (hn : (o.groups.flatMap Prod.snd).Nodup)
    (h : (sparseAdamStep P o).2 = none) :
    ∀ G ∈ o.groups, ∀ a ∈ G.2,
      (sparseAdamParam (P.manifold a) G.1 (o.par a)).2.2 = none ∧
      (sparseAdamStep P o).1.par a =
        if G.2.any (fun b => (sparseAdamParam (P.manifold b) G.1 (o.par b)).2.1) then
          sparseAdamStab (P.isManifold a) (P.man a) (sparseAdamParam (P.manifold a) G.1 (o.par a)).1
        else (sparseAdamParam (P.manifold a) G.1 (o.par a)).1 := by
  have L := flagGroup_local (κ := κ) (S := fun a => SparseAdamParam (ρ a) (ι a))
    (fun (h : AdamHyper) a => sparseAdamParam (P.manifold a) h)
    (fun _ a => sparseAdamStab (P.isManifold a) (P.man a))
  obtain ⟨-, h2, h3⟩ := forGroups_ok L o.groups hn o.par h
  have nd : ∀ G ∈ o.groups, G.2.Nodup := fun G hG => (List.nodup_flatMap.1 hn).1 G hG
  intro G hG a ha
  have key := flagGroup_ok (κ := κ) (S := fun a => SparseAdamParam (ρ a) (ι a))
    (fun (h : AdamHyper) a => sparseAdamParam (P.manifold a) h)
    (fun _ a => sparseAdamStab (P.isManifold a) (P.man a)) G (nd G hG) o.par (h2 G hG)
  exact ⟨key.2.1 a ha, (h3 G hG a ha).trans (key.2.2 a ha)⟩

omit [DecidableEq κ] in
theorem checkMatrices_iff (ss : List (List ℕ)) :
    checkMatrices ss = if ∀ s ∈ ss, s.length = 2 then .ok () else .error .valueError := by
  induction ss with
  | nil => rfl
  | cons s ss ih =>
    rw [checkMatrices, ih]
    by_cases h : s.length = 2 <;> simp [h]

omit [DecidableEq κ] in
/-- **C59.** The sparse optimisers accept exactly matrices (so that the rows of the statement exist): a
single tensor or a list is accepted iff every tensor has two dimensions, and is handed on unchanged; sets
are refused. -/
theorem C59_accepts (ss : List (List ℕ)) (s : List ℕ) :
    (sparseAddParamGroup (.iterable ss) =
      open Classical in
      if ∀ s ∈ ss, ∃ r c : ℕ, s = [r, c] then .ok ss else .error .valueError) ∧
    (sparseAddParamGroup (.tensor s) = sparseAddParamGroup (.iterable [s])) ∧
    sparseAddParamGroup (.set ss) = .error .typeError := by
  have h2 : ∀ s : List ℕ, s.length = 2 ↔ ∃ r c, s = [r, c] := fun s => List.length_eq_two
  refine ⟨?_, rfl, rfl⟩
  simp only [sparseAddParamGroup, checkMatrices_iff]
  by_cases h : ∀ s ∈ ss, s.length = 2
  · rw [if_pos h, if_pos fun s hs => (h2 s).1 (h s hs)]
  · rw [if_neg h, if_neg fun h' => h fun s hs => (h2 s).2 (h' s hs)]

/-- **C59 (SparseRiemannianSGD).** On a step without stabilization, every row that has an entry in
the gradient gets the update of `RiemannianSGD` for that row alone, with the sum of its entries as gradient
and its row of the momentum buffer as state; every other row of the parameter and of the momentum buffer is
unchanged (a newly created buffer is 0 there). -/
theorem C59_sgd (o : SparseSGD κ ρ ι) (hn : (o.groups.flatMap Group.params).Nodup)
    (hok : (sparseSgdStep P o).2 = none) (G : Group SGDHyper κ) (hG : G ∈ o.groups) (a : κ)
    (ha : a ∈ G.params) (hw : G.hyper.weightDecay = 0) (hs : due G.hyper.stabilize (G.step + 1) = false)
    (es : List (ρ a × (ι a → ℝ))) (hg : (o.par a).grad = .sparse es) (r : ρ a) :
    let s := o.par a
    let s' := (sparseSgdStep P o).1.par a
    let d := (sgdParam (P.manifold a) G.hyper
      ⟨s.point r, .dense ((es.filter fun e => e.1 = r).map Prod.snd).sum, s.buf.map (· r)⟩).1
    ((∃ e ∈ es, e.1 = r) → s'.point r = d.point ∧ s'.buf.map (· r) = d.buf) ∧
    ((¬ ∃ e ∈ es, e.1 = r) → s'.point r = s.point r ∧
      s'.buf.map (· r) = if 0 < G.hyper.momentum ∧ s.buf = none then some 0 else s.buf.map (· r)) := by
  intro s s' d
  have h2 := sparseSgdStep_ok P o hn hok G hG a ha
  rw [hs] at h2
  have e : s' = (sparseSgdParam (P.manifold a) G.hyper (o.par a)).1 := h2
  obtain ⟨h3, h4, -, -⟩ := sparseSgd_row (P.manifold a) G.hyper hw (o.par a) es hg
  rw [e, ← mem_gradRows es r]
  refine ⟨fun hr => ?_, fun hr => h4 r hr⟩
  have := h3 r hr
  rw [Prod.mk.injEq] at this
  exact this

/-- **C59 (SparseRiemannianAdam), without amsgrad.** On a step of a group that is not stabilized,
every row with an entry in the gradient gets the update of `RiemannianAdam` for that row, with the
parameter's step counter; every other row of the parameter and of the moments is unchanged. -/
theorem C59_adam_partial (o : SparseAdam κ ρ ι) (hn : (o.groups.flatMap Prod.snd).Nodup)
    (hok : (sparseAdamStep P o).2 = none) (G : AdamHyper × List κ) (hG : G ∈ o.groups) (a : κ)
    (ha : a ∈ G.2) (hw : G.1.weightDecay = 0) (ham : G.1.amsgrad = false) (hs : G.1.stabilize = none)
    (es : List (ρ a × (ι a → ℝ))) (hg : (o.par a).grad = .sparse es) (r : ρ a) :
    let s := o.par a
    let s' := (sparseAdamStep P o).1.par a
    let row (st : SparseAdamState (ρ a) (ι a)) : AdamState (ι a) :=
      ⟨st.step, st.expAvg r, st.expAvgSq r, st.maxExpAvgSq.map (· r)⟩
    let d := (adamParam (P.manifold a) G.1
      ⟨s.point r, .dense ((es.filter fun e => e.1 = r).map Prod.snd).sum, s.state.map row⟩).1
    ((∃ e ∈ es, e.1 = r) → s'.point r = d.point ∧ s'.state.map row = d.state) ∧
    ((¬ ∃ e ∈ es, e.1 = r) → s'.point r = s.point r ∧
      ∃ st', s'.state = some st' ∧ match s.state with
        | none => st'.expAvg r = (fun _ => 0) ∧ st'.expAvgSq r = fun _ => 0
        | some st => st'.expAvg r = st.expAvg r ∧ st'.expAvgSq r = st.expAvgSq r) := by
  intro s s' row d
  obtain ⟨h3, h4, -⟩ := sparseAdam_row (P.manifold a) G.1 hw ham (o.par a) es hg
  have hflag : ∀ b ∈ G.2, (sparseAdamParam (P.manifold b) G.1 (o.par b)).2.1 = false := by
    intro b hb
    unfold sparseAdamParam
    cases (o.par b).grad with
    | none => rfl
    | dense => rfl
    | sparse es =>
      dsimp only
      rw [ham, hs]
      rfl
  have e : s' = (sparseAdamParam (P.manifold a) G.1 (o.par a)).1 := by
    change (sparseAdamStep P o).1.par a = _
    rw [(sparseAdamStep_ok P o hn hok G hG a ha).2]
    have : ¬ (G.2.any fun b => (sparseAdamParam (P.manifold b) G.1 (o.par b)).2.1) = true := by
      rw [List.any_eq_true]
      rintro ⟨b, hb, hc⟩
      rw [hflag b hb] at hc
      cases hc
    rw [if_neg this]
  rw [e, ← mem_gradRows es r]
  refine ⟨fun hr => h3 r hr, fun hr => ?_⟩
  obtain ⟨i1, st', i2, -, i3, i4, -⟩ := h4 r hr
  refine ⟨i1, st', i2, ?_⟩
  change match (o.par a).state with
    | none => st'.expAvg r = (fun _ => 0) ∧ st'.expAvgSq r = fun _ => 0
    | some st => st'.expAvg r = st.expAvg r ∧ st'.expAvgSq r = st.expAvgSq r
  cases hst : (o.par a).state with
  | none => rw [hst] at i3 i4; exact ⟨i3, i4⟩
  | some st => rw [hst] at i3 i4; exact ⟨i3, i4⟩

/-- Duplicate entries: a gradient with two entries for row 0 acts as their sum, and row 1 of two is not
touched. -/
example (M : Manifold (Fin 3)) (h : SGDHyper) (hw : h.weightDecay = 0) (x : Fin 2 → Fin 3 → ℝ)
    (g g' : Fin 3 → ℝ) :
    let s : SparseSGDParam (Fin 2) (Fin 3) := ⟨x, .sparse [(0, g), (0, g')], none⟩
    (sparseSgdParam M h s).1.point 0 = (sgdParam M h ⟨x 0, .dense (g + g'), none⟩).1.point ∧
    (sparseSgdParam M h s).1.point 1 = x 1 := by
  intro s
  obtain ⟨h1, h2, -, -⟩ := sparseSgd_row M h hw s [(0, g), (0, g')] rfl
  have := h1 0 (by simp [gradRows])
  rw [Prod.mk.injEq] at this
  refine ⟨?_, (h2 1 (by simp [gradRows])).1⟩
  rw [this.1]
  simp [sgdRow, toDense, s]

/-- **C58 and C62 for the sparse optimisers.** A parameter without gradient is skipped, and no gradient
is written (whatever the manifold does to its argument, it is given a copy). -/
theorem C62_sparse {ρ ι : Type} [DecidableEq ρ] (M : Manifold ι) (h : SGDHyper) (h' : AdamHyper)
    (s : SparseSGDParam ρ ι) (s' : SparseAdamParam ρ ι) :
    (sparseSgdParam M h s).1.grad = s.grad ∧ (sparseAdamParam M h' s').1.grad = s'.grad ∧
    (s.grad = .none → (sparseSgdParam M h s).1 = s) ∧
    (s'.grad = .none → (sparseAdamParam M h' s').1 = s') := by
  refine ⟨?_, ?_, fun hg => by unfold sparseSgdParam; rw [hg],
    fun hg => by unfold sparseAdamParam; rw [hg]⟩
  · unfold sparseSgdParam
    cases hg : s.grad with
    | none => exact hg
    | dense => exact hg
    | sparse es =>
      dsimp only
      by_cases hm : 0 < h.momentum
      · rw [if_pos hm, if_pos hm]
        cases s.buf <;> rfl
      · rw [if_neg hm]
  · unfold sparseAdamParam
    cases hg : s'.grad with
    | none => exact hg
    | dense => exact hg
    | sparse es =>
      dsimp only
      cases h'.amsgrad <;> cases (sparseAdamInitState _ s'.state).maxExpAvgSq <;> rfl

/-- `SparseRiemannianAdam` does not accept its documented option `stabilize`. -/
theorem C61_counterexample_sparse_adam (h : AdamHyper) :
    sparseAdamInit h true = .error .typeError := by
  unfold sparseAdamInit; simp

/-- **C60 fails for SparseRiemannianAdam**: a Euclidean parameter with one row and one column, gradient
1 and `betas = (0, 3/4)` on a fresh state.  Then `exp_avg_sq = 1/4` and its running maximum is `1/4`, but
`max_exp_avg_sq` is `1`. -/
theorem C60_counterexample_sparse :
    let h : AdamHyper := ⟨1, 0, 3 / 4, 0, 0, true, none⟩
    let s : SparseAdamParam Unit Unit := ⟨fun _ _ => 0, .sparse [((), fun _ => 1)], none⟩
    let s' := (sparseAdamParam (euclidean Unit) h s).1
    (sparseAdamParam (euclidean Unit) h s).2.2 = none ∧
    ∃ st, s'.state = some st ∧ st.expAvgSq () () = 1 / 4 ∧
      st.maxExpAvgSq = some fun _ _ => 1 := by
  intro h s s'
  have hd : toDense [((), fun _ => (1 : ℝ))] () = fun _ : Unit => (1 : ℝ) := by simp [toDense]
  have hrows : gradRows [((), fun _ : Unit => (1 : ℝ))] = [()] := rfl
  refine ⟨rfl, _, rfl, ?_, ?_⟩
  · simp only [s, hrows]
    rw [scatter_mem _ _ (by simp) _ _ (by simp)]
    simp only [sparseAdamInitState, euclidean, hd, h, Pi.add_apply, Pi.smul_apply, smul_eq_mul]
    norm_num
  · simp only [s, hrows]
    congr 1
    funext i j
    rw [scatter_mem _ _ (by simp) _ _ (by simp)]
    simp only [sparseAdamInitState, euclidean, hd, h, Pi.add_apply, Pi.smul_apply, smul_eq_mul]
    norm_num

theorem sparse_step_max (st : SparseAdamState Unit Unit) (x : Unit → Unit → ℝ) (g c : ℝ)
    (hc : st.maxExpAvgSq = some fun _ _ => c) :
    ∃ st', (sparseAdamParam (euclidean Unit) ⟨1, 0, 0, 0, 0, true, none⟩
      ⟨x, .sparse [((), fun _ => g)], some st⟩).1.state = some st' ∧
      st'.maxExpAvgSq = some (fun _ _ => Real.sqrt (max c (g ^ 2))) := by
  have hd : toDense [((), fun _ => g)] () = fun _ : Unit => g := by simp [toDense]
  have hrows : gradRows [((), fun _ : Unit => g)] = [()] := rfl
  unfold sparseAdamParam
  simp only [sparseAdamInitState, hc, hrows]
  refine ⟨_, rfl, ?_⟩
  simp only
  congr 1
  funext i j
  rw [scatter_mem _ _ (by simp) _ _ (by simp)]
  simp only [euclidean, hd, Pi.add_apply, Pi.smul_apply, smul_eq_mul]
  congr 1
  rw [zero_pow (Nat.succ_ne_zero _)]
  ring_nf

/-- **The stored value even decreases**: gradient 16, then gradient 0, with `betas = (0, 0)`: it is 16
after the first step and 4 after the second. -/
theorem C60_counterexample_sparse_decrease :
    let h : AdamHyper := ⟨1, 0, 0, 0, 0, true, none⟩
    let s : SparseAdamParam Unit Unit := ⟨fun _ _ => 0, .sparse [((), fun _ => 16)], none⟩
    let s1 := (sparseAdamParam (euclidean Unit) h s).1
    let s2 := (sparseAdamParam (euclidean Unit) h ⟨s1.point, .sparse [((), fun _ => 0)], s1.state⟩).1
    (∃ st, s1.state = some st ∧ st.maxExpAvgSq = some fun _ _ => 16) ∧
    (∃ st, s2.state = some st ∧ st.maxExpAvgSq = some fun _ _ => 4) := by
  intro h s s1 s2
  obtain ⟨st1, h1, h2⟩ := sparse_step_max ⟨0, fun _ _ => 0, fun _ _ => 0, some fun _ _ => 0⟩
    (fun _ _ => 0) 16 0 rfl
  have e : Real.sqrt (max 0 ((16 : ℝ) ^ 2)) = 16 := by
    rw [max_eq_right (by positivity)]; exact Real.sqrt_sq (by norm_num)
  rw [e] at h2
  have h1' : s1.state = some st1 := h1
  refine ⟨⟨st1, h1', h2⟩, ?_⟩
  obtain ⟨st2, h3, h4⟩ := sparse_step_max st1 s1.point 0 16 h2
  have e2 : Real.sqrt (max 16 ((0 : ℝ) ^ 2)) = 4 := by
    rw [max_eq_left (by norm_num), show (16 : ℝ) = 4 * 4 by norm_num]
    exact Real.sqrt_mul_self (by norm_num)
  rw [e2] at h4
  refine ⟨st2, ?_, h4⟩
  rw [← h3]
  simp only [s2, h1', h]

end C59
