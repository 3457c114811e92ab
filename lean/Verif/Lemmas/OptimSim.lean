import Verif.Lemmas.OptimNoerr
import Verif.Model.OptimSparse
import Verif.Model.Checkpoint

/-! Two optimisers side by side: if the loop bodies keep a relation between their parameters, so do the steps. -/

namespace Geoopt.Optim

set_option linter.unusedDecidableInType false

section
variable {κ : Type} [DecidableEq κ] {S : κ → Type} {H : Type}
variable (body : H → ∀ a, S a → S a × Bool × Option PyErr) (stab : H → ∀ a, S a → S a)

theorem counter_noerr (period : H → Option ℕ) (G : Group H κ) (hn : G.params.Nodup) (w : ∀ a, S a)
    (h1 : ∀ a ∈ G.params, (body G.hyper a (w a)).2.2 = none) (h2 : period G.hyper ≠ some 0) :
    (counterGroup body stab period w G).2.2 = none := by
  have h1 := forParams_noerr (body G.hyper) G.params hn w h1
  unfold counterGroup
  rcases hf : forParams (body G.hyper) G.params w with ⟨w', b, e⟩
  rw [hf] at h1
  simp only at h1
  subst h1
  rcases hp : period G.hyper with _ | k
  · rfl
  · rw [hp] at h2
    have hk : k ≠ 0 := fun h => h2 (by rw [h])
    simp only [isMultiple, if_neg hk]
    cases (G.step + 1) % k == 0 <;> rfl

theorem counter_period (period : H → Option ℕ) (G : Group H κ) (w : ∀ a, S a)
    (h : (counterGroup body stab period w G).2.2 = none) : period G.hyper ≠ some 0 := by
  intro hp
  unfold counterGroup at h
  rcases hf : forParams (body G.hyper) G.params w with ⟨w', b, e⟩
  rw [hf] at h
  cases e with
  | some e => cases h
  | none => simp [hp, isMultiple] at h

theorem flag_noerr (G : H × List κ) (hn : G.2.Nodup) (w : ∀ a, S a)
    (h1 : ∀ a ∈ G.2, (body G.1 a (w a)).2.2 = none) : (flagGroup body stab w G).2.2 = none := by
  have h1 := forParams_noerr (body G.1) G.2 hn w h1
  unfold flagGroup
  rcases hf : forParams (body G.1) G.2 w with ⟨w', b, e⟩
  rw [hf] at h1
  simp only at h1
  subst h1
  cases b <;> rfl

/-- The SGD variants. -/
theorem counter_sim (period : H → Option ℕ) (T : H → H) (hT : ∀ h, period (T h) = period h)
    (Gs : List (Group H κ)) (hn : (Gs.flatMap Group.params).Nodup) (w w' : ∀ a, S a) (R : ∀ a, S a → S a → Prop)
    (hw : ∀ a, R a (w a) (w' a))
    (hb : ∀ G ∈ Gs, ∀ a ∈ G.params, (body G.hyper a (w a)).2.2 = none →
      (body (T G.hyper) a (w' a)).2.2 = none ∧ R a (body G.hyper a (w a)).1 (body (T G.hyper) a (w' a)).1)
    (hs : ∀ G ∈ Gs, ∀ a ∈ G.params, ∀ s s', R a s s' → R a (stab G.hyper a s) (stab (T G.hyper) a s'))
    (h : (forGroups (counterGroup body stab period) Gs w).2.2 = none) :
    (forGroups (counterGroup body stab period) (Gs.map fun G => { G with hyper := T G.hyper }) w').2.2 = none ∧
    (∀ a, R a ((forGroups (counterGroup body stab period) Gs w).1 a)
      ((forGroups (counterGroup body stab period) (Gs.map fun G => { G with hyper := T G.hyper }) w').1 a)) ∧
    (forGroups (counterGroup body stab period) Gs w).2.1 = Gs.map (fun G => { G with step := G.step + 1 }) ∧
    (forGroups (counterGroup body stab period) (Gs.map fun G => { G with hyper := T G.hyper }) w').2.1 =
      Gs.map fun G => { G with hyper := T G.hyper, step := G.step + 1 } := by
  have L := counterGroup_local (κ := κ) body stab period
  obtain ⟨k1, k2, k3⟩ := forGroups_ok L Gs hn w h
  have nd : ∀ G ∈ Gs, G.params.Nodup := fun G hg => (List.nodup_flatMap.1 hn).1 G hg
  have c := fun G hg => counterGroup_ok body stab period G (nd G hg) w (k2 G hg)
  have hn' : ((Gs.map fun G => { G with hyper := T G.hyper }).flatMap Group.params).Nodup := by
    simpa [List.flatMap_map] using hn
  have c0' : ∀ G ∈ Gs, (counterGroup body stab period w' { G with hyper := T G.hyper }).2.2 = none := fun G hg =>
    counter_noerr body stab period { G with hyper := T G.hyper } (nd G hg) w' (fun a ha => (hb G hg a ha ((c G hg).2.1 a ha)).1) (by
      change period (T G.hyper) ≠ _; rw [hT]; exact counter_period body stab period G w (k2 G hg))
  have e' : (forGroups (counterGroup body stab period) (Gs.map fun G => { G with hyper := T G.hyper }) w').2.2 =
      none := by
    refine forGroups_noerr L _ hn' w' fun G' hg' => ?_
    obtain ⟨G, hg, rfl⟩ := List.mem_map.1 hg'
    exact c0' G hg
  obtain ⟨k1', k2', k3'⟩ := forGroups_ok L _ hn' w' e'
  have c' := fun G hg => counterGroup_ok body stab period { G with hyper := T G.hyper } (nd G hg) w' (c0' G hg)
  refine ⟨e', fun a => ?_, ?_, ?_⟩
  · by_cases ha : ∃ G ∈ Gs, a ∈ G.params
    · obtain ⟨G, hg, ha⟩ := ha
      have r := (hb G hg a ha ((c G hg).2.1 a ha)).2
      rw [k3 G hg a ha, k3' _ (List.mem_map.2 ⟨G, hg, rfl⟩) a ha, (c G hg).2.2 a ha, (c' G hg).2.2 a ha, hT]
      split_ifs
      · exact hs G hg a ha _ _ r
      · exact r
    · push Not at ha
      rw [forGroups_notMem L _ w' a (by simpa using ha), forGroups_notMem L Gs w a ha]
      exact hw a
  · rw [k1]; exact List.map_congr_left fun G hg => (c G hg).1
  · rw [k1', List.map_map]; exact List.map_congr_left fun G hg => (c' G hg).1

/-- The Adam variants. -/
theorem flag_sim (T : H → H)
    (Gs : List (H × List κ)) (hn : (Gs.flatMap Prod.snd).Nodup) (w w' : ∀ a, S a) (R : ∀ a, S a → S a → Prop)
    (hw : ∀ a, R a (w a) (w' a))
    (hb : ∀ G ∈ Gs, ∀ a ∈ G.2, (body G.1 a (w a)).2.2 = none →
      (body (T G.1) a (w' a)).2 = (body G.1 a (w a)).2 ∧ R a (body G.1 a (w a)).1 (body (T G.1) a (w' a)).1)
    (hs : ∀ G ∈ Gs, ∀ a ∈ G.2, ∀ s s', R a s s' → R a (stab G.1 a s) (stab (T G.1) a s'))
    (h : (forGroups (flagGroup body stab) Gs w).2.2 = none) :
    (forGroups (flagGroup body stab) (Gs.map fun G => (T G.1, G.2)) w').2.2 = none ∧
    (∀ a, R a ((forGroups (flagGroup body stab) Gs w).1 a)
      ((forGroups (flagGroup body stab) (Gs.map fun G => (T G.1, G.2)) w').1 a)) ∧
    (forGroups (flagGroup body stab) Gs w).2.1 = Gs ∧
    (forGroups (flagGroup body stab) (Gs.map fun G => (T G.1, G.2)) w').2.1 = Gs.map fun G => (T G.1, G.2) := by
  have L := flagGroup_local (κ := κ) body stab
  obtain ⟨k1, k2, k3⟩ := forGroups_ok L Gs hn w h
  have nd : ∀ G ∈ Gs, G.2.Nodup := fun G hg => (List.nodup_flatMap.1 hn).1 G hg
  have c := fun G hg => flagGroup_ok body stab G (nd G hg) w (k2 G hg)
  have hn' : ((Gs.map fun G => (T G.1, G.2)).flatMap Prod.snd).Nodup := by
    simpa [List.flatMap_map] using hn
  have c0' : ∀ G ∈ Gs, (flagGroup body stab w' (T G.1, G.2)).2.2 = none := fun G hg =>
    flag_noerr body stab (T G.1, G.2) (nd G hg) w' (fun a ha => by
      change (body (T G.1) a (w' a)).2.2 = none
      rw [(hb G hg a ha ((c G hg).2.1 a ha)).1]; exact (c G hg).2.1 a ha)
  have e' : (forGroups (flagGroup body stab) (Gs.map fun G => (T G.1, G.2)) w').2.2 = none := by
    refine forGroups_noerr L _ hn' w' fun G' hg' => ?_
    obtain ⟨G, hg, rfl⟩ := List.mem_map.1 hg'
    exact c0' G hg
  obtain ⟨k1', k2', k3'⟩ := forGroups_ok L _ hn' w' e'
  have c' := fun G hg => flagGroup_ok body stab (T G.1, G.2) (nd G hg) w' (c0' G hg)
  refine ⟨e', fun a => ?_, ?_, ?_⟩
  · by_cases ha : ∃ G ∈ Gs, a ∈ G.2
    · obtain ⟨G, hg, ha⟩ := ha
      have r := (hb G hg a ha ((c G hg).2.1 a ha)).2
      have q : (G.2.any fun b => (body (T G.1) b (w' b)).2.1) = G.2.any fun b => (body G.1 b (w b)).2.1 :=
        by
          rw [Bool.eq_iff_iff, List.any_eq_true, List.any_eq_true]
          exact exists_congr fun b => and_congr_right fun hb' => by
            rw [(hb G hg b hb' ((c G hg).2.1 b hb')).1]
      rw [k3 G hg a ha, k3' _ (List.mem_map.2 ⟨G, hg, rfl⟩) a ha, (c G hg).2.2 a ha, (c' G hg).2.2 a ha, q]
      split_ifs
      · exact hs G hg a ha _ _ r
      · exact r
    · push Not at ha
      rw [forGroups_notMem L _ w' a (fun G' hg' => by
        obtain ⟨G, hg, rfl⟩ := List.mem_map.1 hg'
        exact ha G hg), forGroups_notMem L Gs w a ha]
      exact hw a
  · rw [k1, List.map_congr_left fun G hg => (c G hg).1, List.map_id']
  · rw [k1', List.map_map]; exact List.map_congr_left fun G hg => (c' G hg).1

end

end Geoopt.Optim
