import Verif.Lemmas.OptimStep

/-! When a step of an optimiser raises nothing. -/

namespace Geoopt.Optim

set_option linter.unusedDecidableInType false

variable {κ : Type} [DecidableEq κ] {S : κ → Type} {H : Type}

theorem forParams_noerr (f : ∀ a, S a → S a × Bool × Option PyErr) (as : List κ) (hn : as.Nodup)
    (w : ∀ a, S a) (h : ∀ a ∈ as, (f a (w a)).2.2 = none) : (forParams f as w).2.2 = none := by
  induction as generalizing w with
  | nil => rfl
  | cons a as ih =>
    rw [List.nodup_cons] at hn
    rw [forParams]
    have h1 := h a (by simp)
    rcases hf : f a (w a) with ⟨s, b, e⟩
    rw [hf] at h1
    simp only at h1
    subst h1
    refine ih hn.2 _ fun c hc => ?_
    rw [Function.update_of_ne (by rintro rfl; exact hn.1 hc)]
    exact h c (by simp [hc])

theorem forGroups_noerr {params : H → List κ}
    {f : (∀ a, S a) → H → (∀ a, S a) × H × Option PyErr} (hf : Local params f) (Gs : List H)
    (hn : (Gs.flatMap params).Nodup) (w : ∀ a, S a) (h : ∀ G ∈ Gs, (f w G).2.2 = none) :
    (forGroups f Gs w).2.2 = none := by
  induction Gs generalizing w with
  | nil => rfl
  | cons G Gs ih =>
    rw [List.flatMap_cons, List.nodup_append] at hn
    rw [forGroups]
    have h1 := h G (by simp)
    have hw := hf.write w G
    rcases hg : f w G with ⟨w', G', e⟩
    rw [hg] at h1 hw
    simp only at h1 hw
    subst h1
    refine ih hn.2.1 _ fun G'' hG => ?_
    rw [(hf.read w' w G'' fun a ha => hw a fun hc => hn.2.2 a hc a
      (List.mem_flatMap.2 ⟨G'', hG, ha⟩) rfl).1]
    exact h G'' (by simp [hG])

section Dense
variable {ι : κ → Type} (P : Params κ ι)

theorem sgdStep_noerr (o : SGD κ ι) (hn : (o.groups.flatMap Group.params).Nodup)
    (hs : ∀ G ∈ o.groups, G.hyper.stabilize ≠ some 0)
    (h : ∀ G ∈ o.groups, ∀ a ∈ G.params, (sgdParam (P.manifold a) G.hyper (o.par a)).2.2 = none) :
    (sgdStep P o).2 = none := by
  have L := counterGroup_local (κ := κ) (S := fun a => SGDParam (ι a))
    (fun h a => sgdParam (P.manifold a) h) (fun h a => sgdStab (P.isManifold a) (P.man a) h)
    SGDHyper.stabilize
  have := forGroups_noerr L o.groups hn o.par fun G hG => by
    have h1 := forParams_noerr (fun a => sgdParam (P.manifold a) G.hyper) G.params
      (List.nodup_flatMap.1 hn |>.1 G hG) o.par (h G hG)
    unfold counterGroup
    rcases hf : forParams (fun a => sgdParam (P.manifold a) G.hyper) G.params o.par with ⟨w', b, e⟩
    rw [hf] at h1
    simp only at h1
    subst h1
    have h2 := hs G hG
    rcases hp : G.hyper.stabilize with _ | k
    · rfl
    · rw [hp] at h2
      have hk : k ≠ 0 := fun h => h2 (by rw [h])
      simp only [isMultiple, if_neg hk]
      cases (G.step + 1) % k == 0 <;> rfl
  unfold sgdStep sgdGroup
  exact this

theorem adamStep_noerr (o : Adam κ ι) (hn : (o.groups.flatMap Prod.snd).Nodup)
    (h : ∀ G ∈ o.groups, ∀ a ∈ G.2, (adamParam (P.manifold a) G.1 (o.par a)).2.2 = none) :
    (adamStep P o).2 = none := by
  have L := flagGroup_local (κ := κ) (S := fun a => AdamParam (ι a))
    (fun (h : AdamHyper) a => adamParam (P.manifold a) h)
    (fun _ a => adamStab (P.isManifold a) (P.man a))
  have := forGroups_noerr L o.groups hn o.par fun G hG => by
    have h1 := forParams_noerr (fun a => adamParam (P.manifold a) G.1) G.2
      (List.nodup_flatMap.1 hn |>.1 G hG) o.par (h G hG)
    unfold flagGroup
    rcases hf : forParams (fun a => adamParam (P.manifold a) G.1) G.2 o.par with ⟨w', b, e⟩
    rw [hf] at h1
    simp only at h1
    subst h1
    cases b <;> rfl
  unfold adamStep adamGroup
  exact this

end Dense

end Geoopt.Optim
