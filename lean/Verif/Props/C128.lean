import Verif.Model.Groups
import Verif.Model.OptimSparse
import Verif.Lemmas.OptimStep
import Verif.Props.C124LineSearch

/-!
# C128: constructors and parameter groups
-/

namespace Geoopt.C128

open Geoopt.Optim Geoopt.Groups

/-! ## Which options the constructors accept -/

/-- Options that the documentation allows for SGD. -/
def ValidSGD (h : SGDHyper) : Prop :=
  0 ≤ h.lr ∧ 0 ≤ h.momentum ∧ 0 ≤ h.weightDecay ∧
    (h.nesterov = true → 0 < h.momentum ∧ h.dampening = 0)

theorem sgdInit_iff (h : SGDHyper) :
    (sgdInit h = .ok h ↔ ValidSGD h) ∧ (¬ ValidSGD h → sgdInit h = .error .valueError) := by
  unfold sgdInit ValidSGD
  split_ifs with h1 h2 h3 h4
  · exact ⟨⟨fun h => (nomatch h), fun h => absurd h.1 (by linarith)⟩, fun _ => rfl⟩
  · exact ⟨⟨fun h => (nomatch h), fun h => absurd h.2.1 (by linarith)⟩, fun _ => rfl⟩
  · exact ⟨⟨fun h => (nomatch h), fun h => absurd h.2.2.1 (by linarith)⟩, fun _ => rfl⟩
  · refine ⟨⟨fun h => (nomatch h), fun h => ?_⟩, fun _ => rfl⟩
    obtain ⟨ha, hb⟩ := h.2.2.2 h4.1
    rcases h4.2 with hc | hc
    · linarith
    · exact absurd hb hc
  · have hv : 0 ≤ h.lr ∧ 0 ≤ h.momentum ∧ 0 ≤ h.weightDecay ∧
        (h.nesterov = true → 0 < h.momentum ∧ h.dampening = 0) := by
      refine ⟨by linarith, by linarith, by linarith, fun hn => ?_⟩
      by_contra hc
      refine h4 ⟨hn, ?_⟩
      by_contra hd
      push Not at hd
      exact hc ⟨hd.1, hd.2⟩
    exact ⟨⟨fun _ => hv, fun _ => rfl⟩, fun hc => absurd hv hc⟩

/-- `RiemannianSGD` accepts its options exactly when the learning rate, the momentum and the weight decay
are not negative and Nesterov comes with a positive momentum and no dampening; otherwise `ValueError`.
`SparseRiemannianSGD` is the same without weight decay. -/
theorem C128_sgd_accepts (h : SGDHyper) :
    (sgdInit h = .ok h ↔ ValidSGD h) ∧ (¬ ValidSGD h → sgdInit h = .error .valueError) ∧
    (sparseSgdInit h = .ok h ↔ ValidSGD { h with weightDecay := 0 }) ∧
    (¬ ValidSGD { h with weightDecay := 0 } → sparseSgdInit h = .error .valueError) := by
  refine ⟨(sgdInit_iff h).1, (sgdInit_iff h).2, ?_⟩
  have key : sparseSgdInit h = (sgdInit { h with weightDecay := 0 }).map fun _ => h := by
    unfold sparseSgdInit sgdInit
    simp only [lt_irrefl, if_false]
    split_ifs <;> rfl
  have h1 := sgdInit_iff { h with weightDecay := 0 }
  rw [key]
  constructor
  · by_cases hv : ValidSGD { h with weightDecay := 0 }
    · rw [h1.1.2 hv]; exact ⟨fun _ => hv, fun _ => rfl⟩
    · rw [h1.2 hv]; exact ⟨fun h => (nomatch h), fun h => absurd h hv⟩
  · intro hv
    rw [h1.2 hv]; rfl

/-- `SparseRiemannianAdam` accepts its options exactly when the learning rate and `eps` are not negative
and both betas lie in `[0, 1)`. -/
theorem C128_sparse_adam_accepts (h : AdamHyper) :
    (sparseAdamInit h false = .ok h ↔
      0 ≤ h.lr ∧ 0 ≤ h.eps ∧ (0 ≤ h.beta1 ∧ h.beta1 < 1) ∧ (0 ≤ h.beta2 ∧ h.beta2 < 1)) ∧
    (sparseAdamInit h false ≠ .ok h → sparseAdamInit h false = .error .valueError) := by
  unfold sparseAdamInit
  by_cases h1 : 0 ≤ h.lr <;> by_cases h2 : 0 ≤ h.eps <;>
    by_cases h3 : 0 ≤ h.beta1 ∧ h.beta1 < 1 <;> by_cases h4 : 0 ≤ h.beta2 ∧ h.beta2 < 1 <;>
    simp [h1, h2, h3, h4]

example : ValidSGD ⟨1, 1 / 2, 0, 0, true, none⟩ ∧ ¬ ValidSGD ⟨1, 0, 0, 0, true, none⟩ :=
  ⟨⟨by norm_num, by norm_num, le_refl _, fun _ => ⟨by norm_num, rfl⟩⟩,
    fun h => absurd (h.2.2.2 rfl).1 (lt_irrefl _)⟩

/-! ## The groups of an optimiser -/

section
variable {κ : Type} [DecidableEq κ]

/-- The two dictionaries have no parameter in common. -/
def Apart (m : Mem κ) (a b : ℕ) : Prop := ∀ p ∈ (m a).params, p ∉ (m b).params

theorem fill_params (d : SGDHyper) (g : Dict κ) : (fill d g).params = g.params := rfl

theorem fill_fill (d d' : SGDHyper) (g : Dict κ) : fill d' (fill d g) = fill d g := rfl

theorem update_params (d : SGDHyper) (m : Mem κ) (a b : ℕ) :
    (Function.update m a (fill d (m a)) b).params = (m b).params := by
  by_cases h : b = a
  · subst h; simp [fill]
  · simp [Function.update_of_ne h]

theorem apart_update (d : SGDHyper) (m : Mem κ) (a b c : ℕ) :
    Apart (Function.update m a (fill d (m a))) b c ↔ Apart m b c := by
  unfold Apart; rw [update_params, update_params]

theorem clash_iff (m : Mem κ) (a : ℕ) (gs : List ℕ) :
    ((m a).params.any (fun p => gs.any fun b => (m b).params.contains p)) = true ↔
      ¬ ∀ b ∈ gs, Apart m b a := by
  simp only [List.any_eq_true, List.contains_iff_mem, Apart]
  push Not
  constructor
  · rintro ⟨p, hp, b, hb, hpb⟩; exact ⟨b, hb, p, hpb, hp⟩
  · rintro ⟨b, hb, p, hpb, hp⟩; exact ⟨p, hp, b, hb, hpb⟩

theorem addParamGroup_eq (d : SGDHyper) (a : ℕ) (gs : List ℕ) (m : Mem κ) :
    addParamGroup d a gs m = (Function.update m a (fill d (m a)),
      open Classical in if ∀ b ∈ gs, Apart m b a then gs ++ [a] else gs,
      open Classical in if ∀ b ∈ gs, Apart m b a then none else some .valueError) := by
  unfold addParamGroup
  by_cases h : ∀ b ∈ gs, Apart m b a
  · rw [if_neg, if_pos h, if_pos h]
    rw [clash_iff]; exact fun hc => hc h
  · rw [if_pos ((clash_iff m a gs).2 h), if_neg h, if_neg h]

theorem addAll_spec (d : SGDHyper) (as : List ℕ) : ∀ (gs : List ℕ) (m : Mem κ),
    (gs.Pairwise (Apart m)) →
    ((addAll d as gs m).2.2 = none ↔ (gs ++ as).Pairwise (Apart m)) ∧
    ((addAll d as gs m).2.2 = none → (addAll d as gs m).2.1 = gs ++ as ∧
      ∀ b, (addAll d as gs m).1 b = if b ∈ as then fill d (m b) else m b) ∧
    ((addAll d as gs m).2.2 ≠ none → (addAll d as gs m).2.2 = some .valueError) := by
  induction as with
  | nil => intro gs m h; simp [addAll, h]
  | cons a as ih =>
    intro gs m h
    rw [addAll, addParamGroup_eq]
    by_cases hc : ∀ b ∈ gs, Apart m b a
    · simp only [if_pos hc]
      set m' := Function.update m a (fill d (m a)) with hm'
      have hap : ∀ b c, Apart m' b c ↔ Apart m b c := apart_update d m a
      have hpw : ∀ l : List ℕ, l.Pairwise (Apart m') ↔ l.Pairwise (Apart m) := fun l =>
        by rw [show Apart m' = Apart m from funext fun b => funext fun c => propext (hap b c)]
      obtain ⟨h1, h2, h3⟩ := ih (gs ++ [a]) m' (by
        rw [hpw, List.pairwise_append]
        exact ⟨h, by simp, by simpa using hc⟩)
      rw [List.append_assoc, List.singleton_append] at h1 h2
      rw [hpw] at h1
      refine ⟨h1, fun hn => ⟨(h2 hn).1, fun b => ?_⟩, h3⟩
      rw [(h2 hn).2 b]
      by_cases hb : b = a
      · subst hb
        simp [hm', fill_fill]
      · simp [hm', Function.update_of_ne hb, hb]
    · simp only [if_neg hc]
      refine ⟨⟨fun h => (nomatch h), fun hp => absurd ?_ hc⟩, fun h => (nomatch h), fun _ => trivial⟩
      rw [List.pairwise_append] at hp
      exact fun b hb => hp.2.2 b hb a (by simp)

/-- The dictionary `g'` is `g` with the options `d` for the keys that `g` does not have. -/
def Filled (d : SGDHyper) (g g' : Dict κ) : Prop :=
  g'.params = g.params ∧ g'.step = g.step ∧
  hyper g' = ⟨g.lr.getD d.lr, g.momentum.getD d.momentum, g.dampening.getD d.dampening,
    g.weightDecay.getD d.weightDecay, g.nesterov.getD d.nesterov, g.stabilize.getD d.stabilize⟩

theorem filled_fill (d : SGDHyper) (g : Dict κ) : Filled d g (fill d g) := ⟨rfl, rfl, rfl⟩

/-- `RiemannianSGD(groups, ...)` succeeds exactly when the options of the call are valid, there is a
group, and no parameter is in two groups; otherwise it raises `ValueError`.  Then the groups are those
given, each with its own options where it has them and those of the call elsewhere; no other dictionary is
touched. -/
theorem C128_new (d : SGDHyper) (as : List ℕ) (m : Mem κ) :
    ((sgdNew d as m).2 = .ok as ↔ ValidSGD d ∧ as ≠ [] ∧ as.Pairwise (Apart m)) ∧
    ((sgdNew d as m).2 ≠ .ok as → (sgdNew d as m).2 = .error .valueError) ∧
    ((sgdNew d as m).2 = .ok as → ∀ a,
      (a ∈ as → Filled d (m a) ((sgdNew d as m).1 a)) ∧
      (a ∉ as → (sgdNew d as m).1 a = m a)) := by
  unfold sgdNew
  by_cases hv : ValidSGD d
  · rw [(sgdInit_iff d).1.2 hv]
    by_cases he : as = []
    · simp [he]
    · simp only [if_neg he]
      obtain ⟨h1, h2, h3⟩ := addAll_spec d as [] m List.Pairwise.nil
      rcases ha : addAll d as [] m with ⟨m', gs, _ | e⟩
      · rw [ha] at h1 h2
        simp only [List.nil_append, true_iff, forall_true_left] at h1 h2
        obtain ⟨h2, h4⟩ := h2
        subst h2
        refine ⟨⟨fun _ => ⟨hv, he, h1⟩, fun _ => rfl⟩, fun h => absurd rfl h, fun _ a => ⟨?_, ?_⟩⟩
        · intro hm; change Filled d (m a) (m' a); rw [h4 a, if_pos hm]; exact filled_fill d _
        · intro hm; change m' a = m a; rw [h4 a, if_neg hm]
      · rw [ha] at h1 h3
        simp only [List.nil_append, reduceCtorEq, false_iff, ne_eq, not_false_eq_true,
          Option.some.injEq, forall_true_left] at h1 h3
        subst h3
        exact ⟨⟨fun h => (nomatch h), fun h => absurd h.2.2 h1⟩, fun _ => rfl, fun h => (nomatch h)⟩
  · rw [(sgdInit_iff d).2 hv]
    exact ⟨⟨fun h => (nomatch h), fun h => absurd h.1 hv⟩, fun _ => rfl, fun h => (nomatch h)⟩

/-- The states an optimiser can get into: it is constructed, groups are added (successfully or not), and in between
anything may happen to the dictionaries that leaves their entry `params` alone: steps, schedulers, other
optimisers that take the same dictionaries. -/
inductive History (d : SGDHyper) : List ℕ → Mem κ → Prop
  | new (as gs : List ℕ) (m : Mem κ) (h : (sgdNew d as m).2 = .ok gs) : History d gs (sgdNew d as m).1
  | add (gs : List ℕ) (m : Mem κ) (a : ℕ) (h : History d gs m) :
      History d (addParamGroup d a gs m).2.1 (addParamGroup d a gs m).1
  | other (gs : List ℕ) (m m' : Mem κ) (h : History d gs m) (hm : ∀ a, (m' a).params = (m a).params) :
      History d gs m'

/-- After any history no parameter is in two groups of the optimiser, so that, when no group repeats a
parameter, no parameter is stepped twice. -/
theorem C128_disjoint (d : SGDHyper) (gs : List ℕ) (m : Mem κ) (h : History d gs m) :
    gs.Pairwise (Apart m) ∧
    ((∀ a ∈ gs, (m a).params.Nodup) → (gs.flatMap fun a => (m a).params).Nodup) := by
  suffices hp : gs.Pairwise (Apart m) by
    refine ⟨hp, fun hn => List.nodup_flatMap.2 ⟨hn, hp.imp ?_⟩⟩
    intro a b hab p hpa hpb
    exact hab p hpa hpb
  induction h with
  | new as gs m h =>
    have hs := C128_new d as m
    have hok : gs = as := by
      by_contra hne
      by_cases hc : (sgdNew d as m).2 = .ok as
      · rw [hc] at h; exact hne (by injection h with h; exact h.symm)
      · rw [hs.2.1 hc] at h; exact nomatch h
    subst hok
    have := (hs.1.1 h).2.2
    refine this.imp fun {a b} hab => ?_
    have hp : ∀ c, ((sgdNew d gs m).1 c).params = (m c).params := fun c => by
      by_cases hc : c ∈ gs
      · exact ((hs.2.2 h c).1 hc).1
      · rw [(hs.2.2 h c).2 hc]
    unfold Apart; rw [hp, hp]; exact hab
  | add gs m a _ ih =>
    rw [addParamGroup_eq]
    have hap : Apart (Function.update m a (fill d (m a))) = Apart m :=
      funext fun b => funext fun c => propext (apart_update d m a b c)
    simp only [hap]
    split_ifs with hc
    · rw [List.pairwise_append]
      exact ⟨ih, by simp, by simpa using hc⟩
    · exact ih
  | other gs m m' _ hm ih =>
    refine ih.imp fun {a b} hab => ?_
    unfold Apart; rw [hm, hm]; exact hab

/-- `add_param_group` refuses a group exactly when it shares a parameter with a group of the optimiser;
the groups then stay as they were, but the options have been written into the user's dictionary. -/
theorem C128_add (d : SGDHyper) (a : ℕ) (gs : List ℕ) (m : Mem κ) :
    ((addParamGroup d a gs m).2 = (gs ++ [a], none) ↔ ∀ b ∈ gs, Apart m b a) ∧
    ((¬ ∀ b ∈ gs, Apart m b a) → (addParamGroup d a gs m).2 = (gs, some .valueError)) ∧
    Filled d (m a) ((addParamGroup d a gs m).1 a) ∧
    ∀ b, b ≠ a → (addParamGroup d a gs m).1 b = m b := by
  rw [addParamGroup_eq]
  refine ⟨?_, fun h => by simp only [if_neg h], ?_, fun b hb => Function.update_of_ne hb _ _⟩
  · by_cases h : ∀ b ∈ gs, Apart m b a
    · simp only [if_pos h, true_iff]; exact h
    · simp only [if_neg h, Prod.mk.injEq, reduceCtorEq, and_false, false_iff]; exact h
  · simp only [Function.update_self]; exact filled_fill d _

/-- A second optimiser made from the same dictionaries: its options have no effect at all, those of the
first stay. -/
theorem C128_reuse (d d' : SGDHyper) (as : List ℕ) (m : Mem κ) (h : (sgdNew d as m).2 = .ok as)
    (hv : ValidSGD d') : sgdNew d' as (sgdNew d as m).1 = ((sgdNew d as m).1, .ok as) := by
  have hs := C128_new d as m
  obtain ⟨h1, h2, h3⟩ := hs.1.1 h
  have hm := hs.2.2 h
  set m' := (sgdNew d as m).1 with hm'
  have hp : ∀ c, (m' c).params = (m c).params := fun c => by
    by_cases hc : c ∈ as
    · exact ((hm c).1 hc).1
    · rw [(hm c).2 hc]
  have hap : Apart m' = Apart m := by
    funext b c; unfold Apart; rw [hp, hp]
  have hfill : ∀ c ∈ as, m' c = fill d (m c) := by
    intro c hc
    have := addAll_spec d as [] m List.Pairwise.nil
    simp only [List.nil_append] at this
    have hn := this.1.2 h3
    have he : m' = (addAll d as [] m).1 := by
      rw [hm']; unfold sgdNew
      rw [(sgdInit_iff d).1.2 h1]
      simp only [if_neg h2]
      rcases ha : addAll d as [] m with ⟨m2, gs2, _ | e⟩ <;> rfl
    rw [he, (this.2.1 hn).2 c, if_pos hc]
  have hs' := C128_new d' as m'
  have hok : (sgdNew d' as m').2 = .ok as := hs'.1.2 ⟨hv, h2, by rw [hap]; exact h3⟩
  have hmem : (sgdNew d' as m').1 = m' := by
    have := addAll_spec d' as [] m' List.Pairwise.nil
    simp only [List.nil_append] at this
    have hn := this.1.2 (by rw [hap]; exact h3)
    have he : (sgdNew d' as m').1 = (addAll d' as [] m').1 := by
      unfold sgdNew
      rw [(sgdInit_iff d').1.2 hv]
      simp only [if_neg h2]
      rcases ha : addAll d' as [] m' with ⟨m2, gs2, _ | e⟩ <;> rfl
    rw [he]
    funext c
    rw [(this.2.1 hn).2 c]
    split_ifs with hc
    · rw [hfill c hc]; rfl
    · rfl
  exact Prod.ext hmem hok

variable {ι : κ → Type} (P : Params κ ι)

theorem writeSteps_eq (gs : List ℕ) (hn : gs.Nodup) (F : ℕ → Group SGDHyper κ) (m : Mem κ) (b : ℕ) :
    writeSteps gs (gs.map F) m b =
      if b ∈ gs then { m b with step := some (F b).step } else m b := by
  induction gs generalizing m with
  | nil => simp [writeSteps]
  | cons a as ih =>
    rw [List.map_cons, writeSteps, ih (List.nodup_cons.1 hn).2]
    by_cases hb : b = a
    · subst hb
      have := (List.nodup_cons.1 hn).1
      simp [this]
    · simp [Function.update_of_ne hb, hb]

/-- A step without exception adds one to the counter in every dictionary of the optimiser and changes
nothing else in the dictionaries. -/
theorem C128_step_counts (gs : List ℕ) (hg : gs.Nodup) (m : Mem κ) (w : ∀ a, SGDParam (ι a))
    (hn : (gs.flatMap fun a => (m a).params).Nodup) (h : (stepMem P gs m w).2.2 = none) (a : ℕ) :
    (stepMem P gs m w).1 a =
      if a ∈ gs then { m a with step := some ((m a).step.getD 0 + 1) } else m a := by
  unfold stepMem at h ⊢
  have := sgdStep_ok (P := P) ⟨w, gs.map fun a => toGroup (m a)⟩
    (by simpa [List.flatMap_map, toGroup] using hn) h
  have h1 := this.1
  simp only [List.map_map] at h1
  change writeSteps gs (sgdStep P _).1.groups m a = _
  rw [h1, writeSteps_eq gs hg]
  rfl

/-- Optimisers made from the same dictionaries count their steps together: after `n` steps of any of
them, none of which raised, every counter is `n` higher. -/
theorem C128_shared_counter (gs : List ℕ) (hg : gs.Nodup) (n : ℕ) (M : ℕ → Mem κ)
    (W : ℕ → ∀ a, SGDParam (ι a)) (hn : (gs.flatMap fun a => (M 0 a).params).Nodup)
    (hM : ∀ k < n, stepMem P gs (M k) (W k) = (M (k + 1), W (k + 1), none)) (hpos : 0 < n)
    (a : ℕ) (ha : a ∈ gs) : (M n a).step = some ((M 0 a).step.getD 0 + n) := by
  have key : ∀ k ≤ n, (∀ b, (M k b).params = (M 0 b).params) ∧
      (M k a).step.getD 0 = (M 0 a).step.getD 0 + k := by
    intro k
    induction k with
    | zero => intro _; simp
    | succ k ih =>
      intro hk
      obtain ⟨h1, h2⟩ := ih (by omega)
      have hs := C128_step_counts P gs hg (M k) (W k) (by simpa [h1] using hn)
        (by rw [hM k (by omega)])
      rw [hM k (by omega)] at hs
      constructor
      · intro b
        have := hs b
        simp only at this
        rw [this]; split_ifs <;> exact h1 b
      · have := hs a
        simp only [if_pos ha] at this
        rw [this]; simp [h2]; omega
  obtain ⟨n, rfl⟩ : ∃ k, n = k + 1 := ⟨n - 1, by omega⟩
  obtain ⟨h1, h2⟩ := key n (by omega)
  have hs := C128_step_counts P gs hg (M n) (W n) (by simpa [h1] using hn)
    (by rw [hM n (by omega)]) a
  rw [hM n (by omega)] at hs
  simp only [if_pos ha] at hs
  rw [hs, h2, add_assoc]

end

/-! ## Counterexamples -/

/-- One plain parameter with one entry. -/
def plain : Params Unit (fun _ => Unit) := ⟨fun _ => false, fun _ => euclidean Unit⟩

/-- **Counterexample.**  The options inside a group are not checked: `RiemannianSGD([{"params": [x],
"lr": -1}], lr=1)` is accepted, although `lr=-1` is refused, and a step goes up the gradient. -/
theorem C128_counterexample_group_option :
    ∃ (m : Mem Unit) (d : SGDHyper), (m 0).lr = some (-1) ∧ ValidSGD d ∧
      sgdInit { d with lr := -1 } = .error .valueError ∧ (sgdNew d [0] m).2 = .ok [0] ∧
      ((stepMem plain [0] (sgdNew d [0] m).1 (fun _ => ⟨0, .dense 1, none⟩)).2.1 ()).point = 1 := by
  refine ⟨fun _ => { params := [()], lr := some (-1) }, ⟨1, 0, 0, 0, false, none⟩, rfl, ?_, ?_, ?_, ?_⟩
  · exact ⟨by norm_num, le_refl _, le_refl _, fun h => (nomatch h)⟩
  · exact (sgdInit_iff _).2 fun h => absurd h.1 (by norm_num)
  · refine (C128_new _ _ _).1.2 ⟨⟨by norm_num, le_refl _, le_refl _, fun h => (nomatch h)⟩, by simp, by simp⟩
  · have h1 : sgdInit ⟨1, 0, 0, 0, false, none⟩ = .ok ⟨1, 0, 0, 0, false, none⟩ :=
      (sgdInit_iff _).1.2 ⟨by norm_num, le_refl _, le_refl _, fun h => (nomatch h)⟩
    simp [sgdNew, h1, addAll, addParamGroup, stepMem, sgdStep, forGroups, sgdGroup, counterGroup,
      toGroup, hyper, fill, setdefault, forParams, sgdParam, plain, Params.manifold, euclidean]

/-- A manifold on which the projection can be seen: it returns the point 7. -/
def seven : Params Unit (fun _ => Unit) :=
  ⟨fun _ => true, fun _ => { euclidean Unit with projx := fun _ _ => 7 }⟩

theorem seven_step (m : Mem Unit) (h : hyper (m 0) = ⟨1, 0, 0, 0, false, some 2⟩)
    (hp : (m 0).params = [()]) (x : Unit → ℝ) :
    stepMem seven [0] m (fun _ => ⟨x, .dense 0, none⟩) =
      (Function.update m 0 { m 0 with step := some ((m 0).step.getD 0 + 1) },
        fun _ => ⟨if ((m 0).step.getD 0 + 1) % 2 = 0 then fun _ => 7 else x, .dense 0, none⟩, none) := by
  have hs : toGroup (m 0) = ⟨⟨1, 0, 0, 0, false, some 2⟩, (m 0).step.getD 0, [()]⟩ := by
    unfold toGroup; rw [h, hp]
  have hu : ∀ (w : ∀ _ : Unit, SGDParam Unit) (v : SGDParam Unit),
      Function.update w () v = fun _ => v := fun w v => by funext u; simp
  unfold stepMem
  rw [List.map_cons, List.map_nil, hs]
  by_cases hm : ((m 0).step.getD 0 + 1) % 2 = 0
  · have hi : isMultiple ((m 0).step.getD 0 + 1) 2 = .ok true := by
      unfold isMultiple; rw [if_neg (by norm_num), hm]; rfl
    simp [sgdStep, forGroups, sgdGroup, counterGroup, forParams, sgdParam, seven, Params.manifold,
      euclidean, hi, hm, stabParams, sgdStab, writeSteps, hu]
  · have hi : isMultiple ((m 0).step.getD 0 + 1) 2 = .ok false := by
      unfold isMultiple
      rw [if_neg (by norm_num), beq_eq_false_iff_ne.2 hm]
    simp [sgdStep, forGroups, sgdGroup, counterGroup, forParams, sgdParam, seven, Params.manifold,
      euclidean, hi, hm, writeSteps, hu]

/-- **Counterexample.**  Two optimisers with `stabilize=2` made from the same dictionary, the gradient is
zero: the first step of the first does not move the parameter, and then the first step of the second
stabilizes it. -/
theorem C128_counterexample_shared_period :
    ∃ (m : Mem Unit) (w : ∀ _ : Unit, SGDParam Unit) (d : SGDHyper),
      d.stabilize = some 2 ∧ (sgdNew d [0] m).2 = .ok [0] ∧
      sgdNew d [0] (sgdNew d [0] m).1 = ((sgdNew d [0] m).1, .ok [0]) ∧
      (w ()).grad = .dense 0 ∧
      let first := stepMem seven [0] (sgdNew d [0] m).1 w
      let second := stepMem seven [0] first.1 first.2.1
      first.2.2 = none ∧ (first.2.1 ()).point = (w ()).point ∧
      second.2.2 = none ∧ second.2.1 () = sgdStab true (seven.man ()) d (first.2.1 ()) ∧
      (second.2.1 ()).point ≠ (first.2.1 ()).point := by
  have hv : ValidSGD ⟨1, 0, 0, 0, false, some 2⟩ :=
    ⟨by norm_num, le_refl _, le_refl _, fun h => (nomatch h)⟩
  have hn : (sgdNew ⟨1, 0, 0, 0, false, some 2⟩ [0] (fun _ => ({ params := [()] } : Dict Unit))).2 =
      .ok [0] := (C128_new _ _ _).1.2 ⟨hv, by simp, by simp⟩
  obtain ⟨f1, f2, f3⟩ := ((C128_new _ _ _).2.2 hn 0).1 (by simp)
  refine ⟨fun _ => { params := [()] }, fun _ => ⟨0, .dense 0, none⟩,
    ⟨1, 0, 0, 0, false, some 2⟩, rfl, hn, C128_reuse _ _ _ _ hn hv, rfl, ?_⟩
  intro first second
  have e1 := seven_step _ f3 f1 0
  simp only [f2, Option.getD_none, zero_add, Nat.one_mod, one_ne_zero, if_false] at e1
  have hf := e1
  change first = _ at hf
  have e2 := seven_step first.1 (by rw [hf]; simpa [hyper] using f3) (by rw [hf]; simpa using f1) 0
  have hstep : (first.1 0).step = some 1 := by rw [hf]; simp
  have hpar : first.2.1 = fun _ => ⟨0, .dense 0, none⟩ := by rw [hf]
  rw [hstep] at e2
  simp only [Option.getD_some] at e2
  have hs := e2
  rw [← hpar] at hs
  change second = _ at hs
  refine ⟨by rw [hf], by rw [hf], by rw [hs], ?_, ?_⟩
  · rw [hs, hf]; simp [sgdStab, seven]
  · rw [hs, hf]
    intro hc
    have := congrFun hc ()
    norm_num at this

/-! ## The line search -/

section
open Geoopt.LineSearch
variable {κ : Type} [Fintype κ] {ι : κ → Type} (C : Config κ ι) (f : LineSearch.Closure κ ι)

/-- The parameters that a line search moves are those given to the constructor, whatever groups are added
later. -/
theorem C128_linesearch_searched {θ : Type} (gs added : List (LSGroup θ)) :
    (added.foldl LSObj.add (lsNew gs)).searched = gs.flatMap LSGroup.params ∧
    (added.foldl LSObj.add (lsNew gs)).groups.map LSGroup.params =
      (gs ++ added).map LSGroup.params := by
  have key : ∀ o : LSObj θ, (added.foldl LSObj.add o).searched = o.searched ∧
      (added.foldl LSObj.add o).groups = o.groups ++ added := by
    induction added with
    | nil => intro o; simp
    | cons g gs ih => intro o; simp [ih, LSObj.add]
  obtain ⟨h1, h2⟩ := key (lsNew gs)
  rw [h1, h2]
  simp [lsNew, List.flatMap_map, Function.comp_def]

theorem bump_none {θ : Type} (gs : List (LSGroup θ)) :
    ((bump gs).2 = none ↔ ∀ g ∈ gs, g.step ≠ none) ∧
    ((bump gs).2 ≠ none → (bump gs).2 = some .keyError) := by
  induction gs with
  | nil => simp [bump]
  | cons g gs ih =>
    unfold bump
    rcases hg : g.step with _ | k
    · simp [hg]
    · simpa [hg] using ih

/-- A group added after construction has no key `step`.  Then `step` never succeeds: where it would have
returned a loss it raises `KeyError`, after having moved the parameters exactly as the successful step would,
and the loss it reports next is not updated. -/
theorem C128_linesearch_added {θ : Type} (added : List (LSGroup θ)) (hk : ∃ g ∈ added, g.step = none)
    (force rec noStep : Bool) (s : LS κ ι) :
    (∃ e, (stepAdded C f added force rec noStep s).2 = .error e) ∧
    ∀ r, (step C f force rec noStep s).2 = .ok r →
      (stepAdded C f added force rec noStep s).2 = .error .keyError ∧
      (stepAdded C f added force rec noStep s).1.points = (step C f force rec noStep s).1.points := by
  have hb : (bump added).2 = some .keyError := by
    refine (bump_none added).2 fun h => ?_
    obtain ⟨g, hg, hn⟩ := hk
    exact (bump_none added).1.1 h g hg hn
  obtain ⟨gs', hb'⟩ : ∃ gs', bump added = (gs', some .keyError) := ⟨(bump added).1, Prod.ext rfl hb⟩
  unfold stepAdded step
  rcases initLoss C f rec s with ⟨s1, e | ⟨p0, d0⟩⟩
  · exact ⟨⟨e, rfl⟩, fun r h => (nomatch h)⟩
  simp only
  rcases runSearch C f (C.method ⟨p0, d0, s1.oldPhi0, s1.oldDerphi0, s1.lastStepSize⟩)
    { s1 with stepSizeDic := [] } with ⟨s2, e | x⟩
  · exact ⟨⟨e, rfl⟩, fun r h => (nomatch h)⟩
  simp only
  unfold concludeAdded conclude
  rcases afterSearch C force p0 d0 x s2 with ⟨s3, α, redo⟩
  simp only
  rcases commit C noStep redo α s3 with e | s4
  · exact ⟨⟨e, rfl⟩, fun r h => (nomatch h)⟩
  simp only
  rcases stabilizeAfter C s4 with ⟨s5, _ | e⟩
  swap
  · exact ⟨⟨e, rfl⟩, fun r h => (nomatch h)⟩
  simp only [hb']
  refine ⟨⟨_, rfl⟩, fun r h => ⟨trivial, ?_⟩⟩
  unfold report at h ⊢
  rcases α with _ | α
  · rfl
  · have hx := (C124.phi_points C f α s5).1
    simp only
    rcases hq : phi C f α s5 with ⟨s7, e | v⟩ <;> rw [hq] at hx <;> exact hx.symm

/-- Groups that bring their own key `step` do no harm: the step is that of the constructor's groups. -/
theorem C128_linesearch_added_step {θ : Type} (added : List (LSGroup θ))
    (hk : ∀ g ∈ added, g.step ≠ none) (force rec noStep : Bool) (s : LS κ ι) :
    stepAdded C f added force rec noStep s = step C f force rec noStep s := by
  have hb := (bump_none added).1.2 hk
  obtain ⟨gs', hb'⟩ : ∃ gs', bump added = (gs', none) := ⟨(bump added).1, Prod.ext rfl hb⟩
  have hc : ∀ p0 d0 x t, concludeAdded C f added force noStep p0 d0 x t =
      conclude C f force noStep p0 d0 x t := by
    intro p0 d0 x t
    unfold concludeAdded conclude
    rcases afterSearch C force p0 d0 x t with ⟨s3, α, redo⟩
    simp only
    rcases commit C noStep redo α s3 with e | s4
    · rfl
    simp only
    rcases stabilizeAfter C s4 with ⟨s5, _ | e⟩ <;> simp only [hb']
  unfold stepAdded step
  rcases initLoss C f rec s with ⟨s1, e | ⟨p0, d0⟩⟩
  · rfl
  simp only
  rcases runSearch C f (C.method ⟨p0, d0, s1.oldPhi0, s1.oldDerphi0, s1.lastStepSize⟩)
    { s1 with stepSizeDic := [] } with ⟨s2, e | x⟩
  · rfl
  · exact hc _ _ _ _

/-- Minimising `x²` from 1 by a line search that takes the step size 1. -/
noncomputable def unitSteps : Config Unit (fun _ => Unit) :=
  { C124.parabola with method := fun _ => .done (some 1) }

/-- **Counterexample.**  A group is added after construction: `step` moves the parameter from 1 to −1 and
then raises `KeyError`. -/
theorem C128_counterexample_linesearch :
    (stepAdded unitSteps C124.square [(⟨[()], none⟩ : LSGroup Unit)] false false false C124.fresh).2 =
      .error .keyError ∧
    (stepAdded unitSteps C124.square [(⟨[()], none⟩ : LSGroup Unit)] false false false
      C124.fresh).1.points = fun _ _ => -1 := by
  have hi : initLoss unitSteps C124.square false C124.fresh =
    ({ par := fun _ => { point := 1, searchDir := some fun _ => -2, grad := some fun _ => 2 },
       gradsComputed := true }, .ok (some 1, -4)) := C124.parabola_init
  unfold stepAdded
  rw [hi]
  have h1 : (1 : Unit → ℝ) + (fun _ => -2) = fun _ => -1 := by funext; simp; norm_num
  have h2 : (1 : ℝ) • (fun _ => -2 : Unit → ℝ) = fun _ => -2 := by funext; simp
  simp [unitSteps, C124.parabola, runSearch, concludeAdded, afterSearch, commit, moveAll, moveParam,
    LineSearch.euclidean, stabilizeAfter, bump, h1, h2]
  rfl

end

/-! ## Samplers -/

/-- A sampler checks its groups when it is constructed: all manifolds must have a reversible retraction. -/
theorem C128_sampler_new (gs : List (List (Option Bool))) :
    (samplerNew gs = .ok gs ↔ ∀ g ∈ gs, some false ∉ g) ∧
    ((∃ g ∈ gs, some false ∈ g) → samplerNew gs = .error .valueError) := by
  have key : ∀ l : List (Option Bool), (some false ∉ l → Samplers.samplerInit l = .ok ()) ∧
      (some false ∈ l → Samplers.samplerInit l = .error .valueError) := by
    intro l
    induction l with
    | nil => simp [Samplers.samplerInit]
    | cons p ps ih =>
      rcases p with _ | _ | _ <;> simp [Samplers.samplerInit] <;> exact ih
  have h2 : (∃ g ∈ gs, some false ∈ g) → samplerNew gs = .error .valueError := by
    rintro ⟨g, hg, hp⟩
    unfold samplerNew
    rw [(key _).2 (List.mem_flatten.2 ⟨g, hg, hp⟩)]
  refine ⟨⟨fun h => ?_, fun h => ?_⟩, h2⟩
  · by_contra hc
    push Not at hc
    rw [h2 hc] at h
    exact nomatch h
  · unfold samplerNew
    rw [(key _).1]
    intro hm
    obtain ⟨g, hg, hp⟩ := List.mem_flatten.1 hm
    exact h g hg hp

/-- **Counterexample.**  A group added later is not checked: a manifold that the constructor refuses gets into the
sampler. -/
theorem C128_counterexample_sampler :
    samplerNew [[none], [some false]] = .error .valueError ∧
    samplerNew [[none]] = .ok [[none]] ∧ samplerAdd [[none]] [some false] = .ok [[none], [some false]] :=
  ⟨rfl, rfl, rfl⟩

end Geoopt.C128
