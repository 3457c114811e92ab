import Verif.Lemmas.OptimStep
import Verif.Model.OptimManifolds

/-!
# C60, C61, C62: AMSGrad, the stabilization schedule, and the gradients (dense optimisers)
-/

open Geoopt Geoopt.Optim

namespace C60

variable {κ : Type} [DecidableEq κ] {ι : κ → Type} {P : Params κ ι}

/-- **C60 (dense).** With `amsgrad` on, in every history from a fresh state, `max_exp_avg_sq` is
entry by entry the greatest value `exp_avg_sq` has had so far (it starts at 0). -/
theorem C60_dense (o : ℕ → Adam κ ι) (hr : AdamRun P o) (a : κ) (G : ℕ → AdamHyper × List κ)
    (hG : ∀ t, G t ∈ (o t).groups ∧ a ∈ (G t).2) (ham : ∀ t, (G t).1.amsgrad = true)
    (h0 : ((o 0).par a).state = none) (t : ℕ) (st : AdamState (ι a))
    (hst : ((o t).par a).state = some st) :
    ∃ vm, st.maxExpAvgSq = some vm ∧ ∀ i, IsGreatest
      ({0} ∪ {v | ∃ s ≤ t, ∃ st', ((o s).par a).state = some st' ∧ v = st'.expAvgSq i}) (vm i) := by
  induction t generalizing st with
  | zero => rw [h0] at hst; cases hst
  | succ t ih =>
    obtain ⟨h1, h2⟩ := (adamStep_ok P (o t) (hr.nodup t) (hr.ok t)).2 (G t) (hG t).1 a (hG t).2
    -- stabilization leaves the second moments alone
    have hstab : ∀ s : AdamParam (ι a), ∀ st',
        (adamStab (P.isManifold a) (P.man a) s).state = some st' →
        ∃ st'', s.state = some st'' ∧ st'.expAvgSq = st''.expAvgSq ∧
          st'.maxExpAvgSq = st''.maxExpAvgSq := by
      intro s st' h
      unfold adamStab at h
      split_ifs at h
      · exact ⟨st', h, rfl, rfl⟩
      · cases hs : s.state with
        | none => rw [hs] at h; dsimp only at h; rw [hs] at h; cases h
        | some st2 => rw [hs] at h; cases h; exact ⟨st2, rfl, rfl, rfl⟩
    obtain ⟨st1, e1, e2, e3⟩ : ∃ st1, (adamParam (P.manifold a) (G t).1 ((o t).par a)).1.state = some st1 ∧
        st.expAvgSq = st1.expAvgSq ∧ st.maxExpAvgSq = st1.maxExpAvgSq := by
      rw [(hr.next t a).2, h2] at hst
      split_ifs at hst
      · exact hstab _ st hst
      · exact ⟨st, hst, rfl, rfl⟩
    -- the values so far
    have grow : ∀ (vm : ι a → ℝ) (i : ι a), IsGreatest
        ({0} ∪ {v | ∃ s ≤ t, ∃ st', ((o s).par a).state = some st' ∧ v = st'.expAvgSq i}) (vm i) →
        IsGreatest ({0} ∪ {v | ∃ s ≤ t + 1, ∃ st', ((o s).par a).state = some st' ∧
          v = st'.expAvgSq i}) (max (vm i) (st.expAvgSq i)) := by
      intro vm i hg
      constructor
      · rcases max_choice (vm i) (st.expAvgSq i) with h | h
        · rw [h]
          rcases hg.1 with h0 | ⟨s, hs, st', h3, h4⟩
          · exact Or.inl h0
          · exact Or.inr ⟨s, by omega, st', h3, h4⟩
        · rw [h]; exact Or.inr ⟨t + 1, le_refl _, st, hst, rfl⟩
      · rintro v (rfl | ⟨s, hs, st', h3, rfl⟩)
        · exact le_max_of_le_left (hg.2 (Or.inl rfl))
        · rcases Nat.lt_or_ge t s with h | h
          · have : s = t + 1 := by omega
            subst this
            rw [hst] at h3
            cases h3
            exact le_max_right _ _
          · exact le_max_of_le_left (hg.2 (Or.inr ⟨s, h, st', h3, rfl⟩))
    -- the previous maximum
    unfold adamParam at e1 h1
    cases hgr : ((o t).par a).grad with
    | sparse => rw [hgr] at h1; cases h1
    | none =>
      rw [hgr] at e1
      obtain ⟨vm, h5, h6⟩ := ih st1 e1
      refine ⟨vm, by rw [e3, h5], fun i => ?_⟩
      have h7 := grow vm i (h6 i)
      rwa [max_eq_left (by
        rw [e2]; exact (h6 i).2 (Or.inr ⟨t, le_refl _, st1, e1, rfl⟩))] at h7
    | dense g =>
      rw [hgr] at e1 h1
      dsimp only at e1 h1
      obtain ⟨vm, h5, h6⟩ : ∃ vm, (adamInit (G t).1.amsgrad ((o t).par a).state).maxExpAvgSq = some vm ∧
          ∀ i, IsGreatest ({0} ∪ {v | ∃ s ≤ t, ∃ st', ((o s).par a).state = some st' ∧
            v = st'.expAvgSq i}) (vm i) := by
        cases hs : ((o t).par a).state with
        | some st2 => exact ih st2 hs
        | none =>
          refine ⟨0, by simp [adamInit, ham], fun i => ⟨Or.inl rfl, ?_⟩⟩
          rintro v (rfl | ⟨s, hs', st', h3, rfl⟩)
          · exact le_refl _
          · -- the state is never removed
            exfalso
            have keep : ∀ n, s + n ≤ t → ((o (s + n)).par a).state ≠ none := by
              intro n
              induction n with
              | zero => intro _; rw [Nat.add_zero, h3]; simp
              | succ n ihn =>
                intro hle
                have hk := ihn (by omega)
                obtain ⟨k1, k2⟩ := (adamStep_ok P (o (s + n)) (hr.nodup _) (hr.ok _)).2
                  (G (s + n)) (hG _).1 a (hG _).2
                have hk2 : (adamParam (P.manifold a) (G (s + n)).1 ((o (s + n)).par a)).1.state ≠ none := by
                  unfold adamParam
                  cases ((o (s + n)).par a).grad with
                  | none => exact hk
                  | sparse => exact hk
                  | dense g =>
                    dsimp only
                    rw [ham]
                    cases (adamInit true ((o (s + n)).par a).state).maxExpAvgSq <;> simp
                rw [← Nat.add_assoc, (hr.next _ a).2, k2]
                split_ifs
                · intro hc
                  unfold adamStab at hc
                  split_ifs at hc
                  · exact hk2 hc
                  · revert hc
                    cases hq : (adamParam (P.manifold a) (G (s + n)).1 ((o (s + n)).par a)).1.state with
                    | none => exact absurd hq hk2
                    | some _ => simp
                · exact hk2
            have := keep (t - s) (by omega)
            rw [show s + (t - s) = t by omega] at this
            exact this hs
      rw [ham] at e1 h5
      rw [h5] at e1
      dsimp only at e1
      cases e1
      refine ⟨_, e3, fun i => ?_⟩
      have h7 := grow vm i (h6 i)
      rwa [e2] at h7

/-- So the normaliser never decreases. -/
theorem C60_dense_monotone (o : ℕ → Adam κ ι) (hr : AdamRun P o) (a : κ) (G : ℕ → AdamHyper × List κ)
    (hG : ∀ t, G t ∈ (o t).groups ∧ a ∈ (G t).2) (ham : ∀ t, (G t).1.amsgrad = true)
    (h0 : ((o 0).par a).state = none) {s t : ℕ} (hst : s ≤ t) (st st' : AdamState (ι a))
    (h1 : ((o s).par a).state = some st) (h2 : ((o t).par a).state = some st') :
    ∃ vm vm', st.maxExpAvgSq = some vm ∧ st'.maxExpAvgSq = some vm' ∧ ∀ i, vm i ≤ vm' i := by
  obtain ⟨vm, e1, g1⟩ := C60_dense o hr a G hG ham h0 s st h1
  obtain ⟨vm', e2, g2⟩ := C60_dense o hr a G hG ham h0 t st' h2
  refine ⟨vm, vm', e1, e2, fun i => (g2 i).2 ?_⟩
  rcases (g1 i).1 with h | ⟨r, hr', st2, h3, h4⟩
  · exact Or.inl h
  · exact Or.inr ⟨r, by omega, st2, h3, h4⟩

/-! ## C61 -/

/-- **C61 (RiemannianSGD).** In a history in which the user leaves the step counters of the groups
alone and they start at 0, step number `t + 1` stabilizes group number `i` exactly if `t + 1` is a
multiple of its period: then every manifold parameter of the group is replaced by its projection `projx`
after the update (and its momentum by `proju`); on all other steps, and for parameters without a manifold on
all steps, the result is that of the update alone. -/
theorem C61_sgd (o : ℕ → SGD κ ι) (hr : SGDRun P o)
    (hc0 : ∀ G ∈ (o 0).groups, G.step = 0)
    (hc : ∀ t, (o (t + 1)).groups.map Group.step = (sgdStep P (o t)).1.groups.map Group.step)
    (t : ℕ) (G : Group SGDHyper κ) (hG : G ∈ (o t).groups) (a : κ) (ha : a ∈ G.params) :
    let u := (sgdParam (P.manifold a) G.hyper ((o t).par a)).1
    let v := (sgdStep P (o t)).1.par a
    G.step = t ∧
    (P.isManifold a = false → v = u) ∧
    (G.hyper.stabilize = none → v = u) ∧
    (∀ k, G.hyper.stabilize = some k → ¬ k ∣ t + 1 → v = u) ∧
    (∀ k, G.hyper.stabilize = some k → k ∣ t + 1 → P.isManifold a = true →
      v.point = (P.man a).projx u.point ∧
      v.buf = if 0 < G.hyper.momentum then u.buf.map ((P.man a).proju v.point) else u.buf) := by
  intro u v
  have hstep : ∀ t, ∀ G ∈ (o t).groups, G.step = t := by
    intro t
    induction t with
    | zero => exact hc0
    | succ t ih =>
      have h1 := (sgdStep_ok P (o t) (hr.nodup t) (hr.ok t)).1
      have h2 : (o (t + 1)).groups.map Group.step = (o t).groups.map fun G => G.step + 1 := by
        rw [hc, h1, List.map_map]; rfl
      intro G hG
      have : G.step ∈ (o (t + 1)).groups.map Group.step := List.mem_map_of_mem hG
      rw [h2, List.mem_map] at this
      obtain ⟨G', hG', h3⟩ := this
      rw [← h3, ih G' hG']
  have hs := hstep t G hG
  obtain ⟨-, h2⟩ := (sgdStep_ok P (o t) (hr.nodup t) (hr.ok t)).2 G hG a ha
  rw [hs] at h2
  refine ⟨hs, fun h => ?_, fun h => ?_, fun k hk hd => ?_, fun k hk hd hm => ?_⟩
  · change (sgdStep P (o t)).1.par a = u
    rw [h2, h]
    split_ifs
    · rfl
    · rfl
  · change (sgdStep P (o t)).1.par a = u
    rw [h2, h]; rfl
  · change (sgdStep P (o t)).1.par a = u
    have : ¬ (due (some k) (t + 1) = true) := by
      simp only [due, beq_iff_eq]
      exact fun hc => hd (Nat.dvd_of_mod_eq_zero hc)
    rw [h2, hk, if_neg this]
  · have : due (some k) (t + 1) = true := by
      simp only [due, beq_iff_eq]
      exact Nat.mod_eq_zero_of_dvd hd
    have e : v = sgdStab true (P.man a) G.hyper u := by
      change (sgdStep P (o t)).1.par a = _
      rw [h2, hk, if_pos this, hm]
    rw [e]
    unfold sgdStab
    simp only [Bool.true_eq_false, if_false]
    split_ifs <;> exact ⟨rfl, rfl⟩

/-- `stabilize=0` is accepted by the constructor and makes every step raise `ZeroDivisionError` after
updating the group. -/
theorem C61_zero_period (w : ∀ a, SGDParam (ι a)) (G : Group SGDHyper κ) (hn : G.params.Nodup)
    (hz : G.hyper.stabilize = some 0)
    (hok : ∀ a ∈ G.params, (sgdParam (P.manifold a) G.hyper (w a)).2.2 = none) :
    (sgdGroup P w G).2.2 = some .zeroDivisionError := by
  have := (forParams_ok (fun a => sgdParam (P.manifold a) G.hyper) G.params hn w hok).1
  unfold sgdGroup counterGroup
  rcases hf : forParams (fun a => sgdParam (P.manifold a) G.hyper) G.params w with ⟨v, b, e⟩
  rw [hf] at this
  dsimp only at this
  subst this
  dsimp only
  rw [hz]
  rfl

/-- The counter of a parameter: the number of steps it has taken part in. -/
def count {ι : Type} (s : AdamParam ι) : ℕ := (s.state.map AdamState.step).getD 0

theorem count_step {ι : Type} (M : Manifold ι) (h : AdamHyper) (s : AdamParam ι) (g : ι → ℝ)
    (hg : s.grad = .dense g) :
    count (adamParam M h s).1 = count s + 1 ∧
    ((adamParam M h s).2.2 = none → (adamParam M h s).2.1 = due h.stabilize (count s + 1)) := by
  have hi : (adamInit h.amsgrad s.state).step = count s := by
    unfold count adamInit; cases s.state <;> rfl
  have hfl : ∀ t, (adamFlag h.stabilize t).2 = none → (adamFlag h.stabilize t).1 = due h.stabilize t := by
    intro t ht
    cases hs : h.stabilize with
    | none => rfl
    | some k =>
      rw [hs] at ht
      by_cases hk : k = 0
      · subst hk; exact absurd ht (by simp [adamFlag, isMultiple])
      · simp [adamFlag, isMultiple, due, hk]
  unfold adamParam
  rw [hg]
  dsimp only
  rw [← hi]
  cases h.amsgrad <;> cases (adamInit _ s.state).maxExpAvgSq <;>
    first
    | exact ⟨rfl, hfl _⟩
    | exact ⟨rfl, fun h => by cases h⟩

theorem count_skip {ι : Type} (M : Manifold ι) (h : AdamHyper) (s : AdamParam ι)
    (hg : s.grad = .none) :
    count (adamParam M h s).1 = count s ∧ (adamParam M h s).2.1 = false := by
  unfold adamParam; rw [hg]; exact ⟨rfl, rfl⟩

/-- **C61 (RiemannianAdam), what happens.** A group is stabilized in a step exactly if one of its
parameters has a gradient and reaches a multiple of the period in its own counter. -/
theorem C61_adam_partial (o : Adam κ ι) (hn : (o.groups.flatMap Prod.snd).Nodup)
    (hok : (adamStep P o).2 = none) (G : AdamHyper × List κ) (hG : G ∈ o.groups) (a : κ) (ha : a ∈ G.2) :
    let u := (adamParam (P.manifold a) G.1 (o.par a)).1
    let v := (adamStep P o).1.par a
    (P.isManifold a = false → v = u) ∧
    ((∃ b ∈ G.2, (∃ g, (o.par b).grad = .dense g) ∧ ∃ k, G.1.stabilize = some k ∧
        k ∣ count (o.par b) + 1) → P.isManifold a = true →
      (u.state = none → v = u) ∧ (u.state ≠ none → v.point = (P.man a).projx u.point)) ∧
    ((¬ ∃ b ∈ G.2, (∃ g, (o.par b).grad = .dense g) ∧ ∃ k, G.1.stabilize = some k ∧
        k ∣ count (o.par b) + 1) → v = u) := by
  intro u v
  obtain ⟨-, hall⟩ := adamStep_ok P o hn hok
  obtain ⟨h1, h2⟩ := hall G hG a ha
  have hflag : (G.2.any fun b => (adamParam (P.manifold b) G.1 (o.par b)).2.1) = true ↔
      ∃ b ∈ G.2, (∃ g, (o.par b).grad = .dense g) ∧ ∃ k, G.1.stabilize = some k ∧
        k ∣ count (o.par b) + 1 := by
    rw [List.any_eq_true]
    refine exists_congr fun b => and_congr_right fun hb => ?_
    have hbok := (hall G hG b hb).1
    cases hg : (o.par b).grad with
    | none => rw [(count_skip _ _ _ hg).2]; simp
    | sparse =>
      unfold adamParam at hbok ⊢; rw [hg] at hbok; cases hbok
    | dense g =>
      rw [(count_step _ _ _ g hg).2 hbok]
      unfold due
      cases G.1.stabilize with
      | none => simp
      | some k =>
        simp only [beq_iff_eq, Nat.dvd_iff_mod_eq_zero]
        constructor
        · intro h; exact ⟨⟨g, rfl⟩, k, rfl, h⟩
        · rintro ⟨-, k', h3, h4⟩; cases h3; exact h4
  refine ⟨fun h => ?_, fun h hm => ?_, fun h => ?_⟩
  · change (adamStep P o).1.par a = u
    rw [h2, h]; split_ifs <;> rfl
  · have e : v = adamStab true (P.man a) u := by
      change (adamStep P o).1.par a = _
      rw [h2, if_pos (hflag.2 h), hm]
    rw [e]
    unfold adamStab
    simp only [Bool.true_eq_false, if_false]
    cases hs : u.state with
    | none => exact ⟨fun _ => rfl, fun h => absurd rfl h⟩
    | some st => exact ⟨fun h => (by cases h), fun _ => rfl⟩
  · change (adamStep P o).1.par a = u
    rw [h2, if_neg (fun hc => h (hflag.1 hc))]

/-- **C61 (RiemannianAdam), regular case.** If all parameters of a group get a gradient at every step
of a history that starts with fresh state, group stabilization happens exactly on multiples of the period. -/
theorem C61_adam_regular (o : ℕ → Adam κ ι) (hr : AdamRun P o) (ps : List κ)
    (G : ℕ → AdamHyper × List κ) (hG : ∀ t, G t ∈ (o t).groups ∧ (G t).2 = ps)
    (hg : ∀ t, ∀ b ∈ ps, ∃ g, ((o t).par b).grad = .dense g)
    (h0 : ∀ b ∈ ps, ((o 0).par b).state = none) (t : ℕ) (a : κ) (ha : a ∈ ps) :
    let u := (adamParam (P.manifold a) (G t).1 ((o t).par a)).1
    let v := (adamStep P (o t)).1.par a
    (P.isManifold a = false → v = u) ∧
    ((∃ k, (G t).1.stabilize = some k ∧ k ∣ t + 1) → P.isManifold a = true →
      v.point = (P.man a).projx u.point) ∧
    ((¬ ∃ k, (G t).1.stabilize = some k ∧ k ∣ t + 1) → v = u) := by
  intro u v
  have hcount : ∀ t, ∀ b ∈ ps, count ((o t).par b) = t := by
    intro t
    induction t with
    | zero => intro b hb; unfold count; rw [h0 b hb]; rfl
    | succ t ih =>
      intro b hb
      obtain ⟨g, hgb⟩ := hg t b hb
      have h2 := ((adamStep_ok P (o t) (hr.nodup t) (hr.ok t)).2 (G t) (hG t).1 b
        ((hG t).2 ▸ hb)).2
      have hst : ∀ s, count (adamStab (P.isManifold b) (P.man b) s) = count s := by
        intro s
        unfold adamStab
        split_ifs
        · rfl
        · cases hs : s.state with
          | none => rfl
          | some st => unfold count; rw [hs]; rfl
      have h3 : count ((o (t + 1)).par b) = count ((adamStep P (o t)).1.par b) := by
        unfold count; rw [(hr.next t b).2]
      rw [h3, h2]
      have h4 := (count_step (P.manifold b) (G t).1 _ g hgb).1
      split_ifs
      · rw [hst, h4, ih b hb]
      · rw [h4, ih b hb]
  have ha' : a ∈ (G t).2 := (hG t).2 ▸ ha
  obtain ⟨p1, p2, p3⟩ := C61_adam_partial (o t) (hr.nodup t) (hr.ok t) (G t) (hG t).1 a ha'
  have hiff : (∃ b ∈ (G t).2, (∃ g, ((o t).par b).grad = .dense g) ∧ ∃ k, (G t).1.stabilize = some k ∧
        k ∣ count ((o t).par b) + 1) ↔ ∃ k, (G t).1.stabilize = some k ∧ k ∣ t + 1 := by
    constructor
    · rintro ⟨b, hb, -, k, h1, h2⟩
      rw [hcount t b ((hG t).2 ▸ hb)] at h2
      exact ⟨k, h1, h2⟩
    · rintro ⟨k, h1, h2⟩
      exact ⟨a, ha', hg t a ha, k, h1, by rw [hcount t a ha]; exact h2⟩
  rw [hiff] at p2 p3
  refine ⟨p1, fun h hm => (p2 h hm).2 ?_, p3⟩
  obtain ⟨g, hga⟩ := hg t a ha
  intro hc
  have := (count_step (P.manifold a) (G t).1 _ g hga).1
  unfold count at this
  rw [hc] at this
  simp at this

/-- **C61 fails for RiemannianAdam when gradients are missing**: two parameters in a group with period 2,
the second one without gradient in the first step.  Whatever the manifolds and gradients, the third step
stabilizes the group (the second parameter's own counter is 2), although 3 is not a multiple of 2. -/
theorem C61_counterexample_adam {ι : Bool → Type} {P : Params Bool ι} (o : ℕ → Adam Bool ι)
    (hr : AdamRun P o) (h : AdamHyper) (hk : h.stabilize = some 2)
    (hG : ∀ t, (o t).groups = [(h, [true, false])]) (h0 : ∀ a, ((o 0).par a).state = none)
    (g1 : ∀ t, ∃ g, ((o t).par true).grad = .dense g) (g2 : ((o 0).par false).grad = .none)
    (g3 : ∀ t, ∃ g, ((o (t + 1)).par false).grad = .dense g) (hm : P.isManifold true = true) :
    ((adamStep P (o 2)).1.par true).point =
      (P.man true).projx (adamParam (P.manifold true) h ((o 2).par true)).1.point := by
  have hst : ∀ a s, count (adamStab (P.isManifold a) (P.man a) s) = count s := by
    intro a s
    unfold adamStab
    split_ifs
    · rfl
    · cases hs : s.state with
      | none => rfl
      | some st => unfold count; rw [hs]; rfl
  have hnext : ∀ t a, count ((o (t + 1)).par a) =
      count (adamParam (P.manifold a) h ((o t).par a)).1 := by
    intro t a
    have h2 := ((adamStep_ok P (o t) (hr.nodup t) (hr.ok t)).2 (h, [true, false])
      (by rw [hG]; simp) a (by cases a <;> simp)).2
    have h3 : count ((o (t + 1)).par a) = count ((adamStep P (o t)).1.par a) := by
      unfold count; rw [(hr.next t a).2]
    rw [h3, h2]
    split_ifs
    · rw [hst]
    · rfl
  have c0 : count ((o 0).par false) = 0 := by unfold count; rw [h0]; rfl
  have c1 : count ((o 1).par false) = 0 := by
    rw [hnext 0, (count_skip _ _ _ g2).1, c0]
  have c2 : count ((o 2).par false) = 1 := by
    obtain ⟨g, hg⟩ := g3 0
    rw [hnext 1, (count_step _ _ _ g hg).1, c1]
  obtain ⟨-, p2, -⟩ := C61_adam_partial (o 2) (hr.nodup 2) (hr.ok 2) (h, [true, false])
    (by rw [hG]; simp) true (by simp)
  refine (p2 ⟨false, by simp, g3 1, 2, hk, by rw [c2]⟩ hm).2 ?_
  obtain ⟨g, hg⟩ := g1 2
  intro hc
  have := (count_step (P.manifold true) h _ g hg).1
  unfold count at this
  rw [hc] at this
  simp at this

/-! ## C62 -/

/-- **C62 (RiemannianSGD), with its conditions.** Without weight decay, without the combination of
Nesterov momentum and a manifold whose `egrad2rgrad` returns a view, and for manifolds whose `egrad2rgrad`
does not write to its argument, `step()` leaves every gradient as it was. -/
theorem C62_sgd_partial (o : SGD κ ι) (a : κ) (hM : ∀ x g, ((P.manifold a).egrad2rgrad x g).arg = g)
    (hG : ∀ G ∈ o.groups, a ∈ G.params → G.hyper.weightDecay = 0 ∧ (G.hyper.nesterov = true →
      ∀ x g, ((P.manifold a).egrad2rgrad x g).isView = false)) :
    ((sgdStep P o).1.par a).grad = (o.par a).grad := by
  have body : ∀ G ∈ o.groups, a ∈ G.params → ∀ s,
      (sgdParam (P.manifold a) G.hyper s).1.grad = s.grad := by
    intro G h1 h2 s
    obtain ⟨hw, hv⟩ := hG G h1 h2
    unfold sgdParam
    cases hg : s.grad with
    | none => exact hg
    | sparse => exact hg
    | dense g =>
      have e : g + G.hyper.weightDecay • s.point = g := by rw [hw]; simp
      dsimp only
      rw [e, hM]
      have nv : (G.hyper.nesterov && ((P.manifold a).egrad2rgrad s.point g).isView) = false := by
        cases hn : G.hyper.nesterov with
        | false => rfl
        | true => rw [hv hn]; rfl
      rw [nv]
      by_cases hm : 0 < G.hyper.momentum
      · rw [if_pos hm, if_pos hm]
        cases s.buf <;> rfl
      · rw [if_neg hm]
  have stab : ∀ h s, (sgdStab (P.isManifold a) (P.man a) h s).grad = s.grad := by
    intro h s; unfold sgdStab; split_ifs <;> rfl
  suffices ∀ (Gs : List (Group SGDHyper κ)), (∀ G ∈ Gs, G ∈ o.groups) → ∀ w : ∀ a, SGDParam (ι a),
      ((forGroups (sgdGroup P) Gs w).1 a).grad = (w a).grad from this o.groups (fun _ h => h) o.par
  intro Gs
  induction Gs with
  | nil => intro _ w; rfl
  | cons G Gs ih =>
    intro hsub w
    have hl : ∀ (as : List κ), (∀ b ∈ as, b ∈ G.params) → ∀ w : ∀ a, SGDParam (ι a),
        ((forParams (fun a => sgdParam (P.manifold a) G.hyper) as w).1 a).grad = (w a).grad := by
      intro as
      induction as with
      | nil => intro _ w; rfl
      | cons c as ihc =>
        intro hs w
        have h1 : (Function.update w c (sgdParam (P.manifold c) G.hyper (w c)).1 a).grad
            = (w a).grad := by
          by_cases hc : c = a
          · subst hc
            rw [Function.update_self]; exact body G (hsub G (by simp)) (hs c (by simp)) _
          · rw [Function.update_of_ne (Ne.symm hc)]
        rw [forParams]
        rcases hf : sgdParam (P.manifold c) G.hyper (w c) with ⟨s, b, e⟩
        rw [hf] at h1
        cases e with
        | some e => exact h1
        | none => exact (ihc (fun b hb => hs b (by simp [hb])) _).trans h1
    have hst : ∀ (as : List κ) (w : ∀ a, SGDParam (ι a)),
        (stabParams (fun a => sgdStab (P.isManifold a) (P.man a) G.hyper) as w a).grad = (w a).grad := by
      intro as
      induction as with
      | nil => intro w; rfl
      | cons c as ihc =>
        intro w
        refine (ihc (Function.update w c _)).trans ?_
        by_cases hc : c = a
        · subst hc
          rw [Function.update_self]; exact stab _ _
        · rw [Function.update_of_ne (Ne.symm hc)]
    have hgrp : ((sgdGroup P w G).1 a).grad = (w a).grad := by
      have h1 := hl G.params (fun _ h => h) w
      unfold sgdGroup counterGroup
      rcases hf : forParams (fun a => sgdParam (P.manifold a) G.hyper) G.params w with ⟨v, b, e⟩
      rw [hf] at h1
      cases e with
      | some e => exact h1
      | none =>
        dsimp only at h1 ⊢
        cases G.hyper.stabilize with
        | none => exact h1
        | some k =>
          dsimp only
          rcases isMultiple (G.step + 1) k with e | c
          · exact h1
          · cases c with
            | false => exact h1
            | true => exact (hst _ _).trans h1
    rw [forGroups]
    rcases hg : sgdGroup P w G with ⟨v, G', e⟩
    rw [hg] at hgrp
    cases e with
    | some e => exact hgrp
    | none => exact (ih (fun G h => hsub G (by simp [h])) v).trans hgrp

/-- **C62 (RiemannianAdam), with its conditions.** -/
theorem C62_adam_partial (o : Adam κ ι) (hn : (o.groups.flatMap Prod.snd).Nodup)
    (hok : (adamStep P o).2 = none) (a : κ)
    (hM : ∀ x g, ((P.manifold a).egrad2rgrad x g).arg = g)
    (hG : ∀ G ∈ o.groups, a ∈ G.2 → G.1.weightDecay = 0) :
    ((adamStep P o).1.par a).grad = (o.par a).grad := by
  by_cases h : ∃ G ∈ o.groups, a ∈ G.2
  · obtain ⟨G, h1, h2⟩ := h
    have hbody : (adamParam (P.manifold a) G.1 (o.par a)).1.grad = (o.par a).grad := by
      unfold adamParam
      cases hg : (o.par a).grad with
      | none => exact hg
      | sparse => exact hg
      | dense g =>
        have e : g + G.1.weightDecay • (o.par a).point = g := by rw [hG G h1 h2]; simp
        dsimp only
        rw [e, hM]
        cases G.1.amsgrad <;> cases (adamInit _ (o.par a).state).maxExpAvgSq <;> rfl
    rw [((adamStep_ok P o hn hok).2 G h1 a h2).2]
    split_ifs
    · rw [← hbody]
      unfold adamStab
      split_ifs
      · rfl
      · cases (adamParam (P.manifold a) G.1 (o.par a)).1.state <;> rfl
    · exact hbody
  · push Not at h
    rw [adamStep_notMem P o a h]

/-- The modelled manifolds other than Lorentz do not write to the argument of `egrad2rgrad`, and those
other than Euclidean do not return a view of it, so the conditions above are met. -/
example (n m : ℕ) (η k : ℝ) (dt : DType) (proj : Matrix (Fin n) (Fin m) ℝ → Matrix (Fin n) (Fin m) ℝ)
    (E : Linalg.Eigh n) (x g : Fin n → ℝ) (X Y : Fin n × Fin m → ℝ) (S T : Fin n × Fin n → ℝ) :
    ((sphere none).egrad2rgrad x g).arg = g ∧ ((sphere none).egrad2rgrad x g).isView = false ∧
    ((stereographic η dt k).egrad2rgrad x g).arg = g ∧
    ((stereographic η dt k).egrad2rgrad x g).isView = false ∧
    ((canonicalStiefel proj).egrad2rgrad X Y).arg = Y ∧ ((spd E).egrad2rgrad S T).arg = T ∧
    ((euclidean (Fin n)).egrad2rgrad x g).arg = g :=
  ⟨rfl, rfl, rfl, rfl, rfl, rfl, rfl⟩

/-- **C62 fails with weight decay**: on every manifold whose `egrad2rgrad` does not write, the stored
gradient becomes `grad + weight_decay * point`; a second step on the same gradient adds it again. -/
theorem C62_counterexample_weight_decay {ι : Type} (M : Manifold ι)
    (hM : ∀ x g, (M.egrad2rgrad x g).arg = g) (h : SGDHyper) (hm : h.momentum = 0) (x g : ι → ℝ)
    (h' : AdamHyper) (ham : h'.amsgrad = false) :
    (sgdParam M h ⟨x, .dense g, none⟩).1.grad = .dense (g + h.weightDecay • x) ∧
    (adamParam M h' ⟨x, .dense g, none⟩).1.grad = .dense (g + h'.weightDecay • x) := by
  constructor
  · unfold sgdParam
    have : ¬ 0 < h.momentum := by rw [hm]; exact lt_irrefl _
    dsimp only
    rw [if_neg this, hM]
  · unfold adamParam
    dsimp only
    rw [ham, hM]

/-- **C62 fails with Nesterov momentum on a Euclidean parameter**: with `x = 0`, `grad = 1` and momentum
`1/2` the stored gradient is `7/4` after the step. -/
theorem C62_counterexample_nesterov :
    (sgdParam (euclidean Unit) ⟨1, 1 / 2, 0, 0, true, none⟩ ⟨fun _ => 0, .dense fun _ => 1, none⟩).1.grad =
      .dense fun _ => 7 / 4 := by
  have hm : (0 : ℝ) < 1 / 2 := by norm_num
  simp only [sgdParam, euclidean, if_pos hm]
  refine congrArg Grad.dense ?_
  refine Eq.trans (if_pos rfl) ?_
  funext i
  simp only [Pi.add_apply, Pi.smul_apply, smul_eq_mul]
  norm_num

/-- **C62 fails on the hyperboloid**: without weight decay or momentum, the first entry of the stored
gradient changes sign. -/
theorem C62_counterexample_lorentz (n : ℕ) (k : ℝ) (x g : Fin (n + 1) → ℝ) (lr : ℝ) (hg : g 0 ≠ 0) :
    ∃ g', (sgdParam (lorentz k) ⟨lr, 0, 0, 0, false, none⟩ ⟨x, .dense g, none⟩).1.grad = .dense g' ∧
      g' 0 = - g 0 ∧ g' ≠ g := by
  have hm : ¬ (0 : ℝ) < 0 := lt_irrefl _
  simp only [sgdParam, if_neg hm]
  refine ⟨_, rfl, ?_⟩
  have e : (((lorentz k).egrad2rgrad x (g + (0 : ℝ) • x)).arg) 0 = - g 0 := by
    simp [lorentz, Lorentz.egrad2rgrad]
  refine ⟨e, fun hc => hg ?_⟩
  have := congrFun hc 0
  rw [e] at this
  linarith

end C60
