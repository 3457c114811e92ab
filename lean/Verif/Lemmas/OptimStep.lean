import Verif.Lemmas.Optim

/-! What a step of an optimiser does to one parameter. -/

namespace Geoopt.Optim

set_option linter.unusedDecidableInType false

variable {κ : Type} [DecidableEq κ] {S : κ → Type} {H : Type}

theorem forParams_congr (f : ∀ a, S a → S a × Bool × Option PyErr) (as : List κ) (w w' : ∀ a, S a)
    (h : ∀ a ∈ as, w a = w' a) :
    (forParams f as w).2 = (forParams f as w').2 ∧
    ∀ a ∈ as, (forParams f as w).1 a = (forParams f as w').1 a := by
  suffices ∀ (B : List κ) (w w' : ∀ a, S a), (∀ a ∈ as, w a = w' a) → (∀ a ∈ B, w a = w' a) →
      (forParams f as w).2 = (forParams f as w').2 ∧
      ∀ a ∈ as ++ B, (forParams f as w).1 a = (forParams f as w').1 a by
    obtain ⟨h1, h2⟩ := this [] w w' h (by simp)
    exact ⟨h1, by simpa using h2⟩
  clear h w w'
  induction as with
  | nil => intro B w w' _ hB; exact ⟨rfl, by simpa [forParams] using hB⟩
  | cons a as ih =>
    intro B w w' h hB
    have ha := h a (by simp)
    rw [forParams, forParams, ← ha]
    rcases hf : f a (w a) with ⟨s, b, e⟩
    have upd : ∀ c, (c = a ∨ c ∈ as ∨ c ∈ B) → Function.update w a s c = Function.update w' a s c := by
      intro c hc
      by_cases hca : c = a
      · subst hca; simp
      · rw [Function.update_of_ne hca, Function.update_of_ne hca]
        rcases hc with hc | hc | hc
        · exact absurd hc hca
        · exact h c (by simp [hc])
        · exact hB c hc
    cases e with
    | some e =>
      refine ⟨rfl, fun c hc => upd c ?_⟩
      simpa [or_assoc] using hc
    | none =>
      obtain ⟨h1, h2⟩ := ih (a :: B) (Function.update w a s) (Function.update w' a s)
        (fun c hc => upd c (by simp [hc])) (fun c hc => upd c (by
          rcases List.mem_cons.1 hc with h | h <;> simp [h]))
      dsimp only
      rw [Prod.ext_iff] at h1
      refine ⟨by rw [h1.1, h1.2], fun c hc => h2 c ?_⟩
      simp only [List.cons_append, List.mem_cons, List.mem_append] at hc ⊢
      tauto

/-- Whether a loop without exception went through all parameters. -/
theorem forParams_ok' (f : ∀ a, S a → S a × Bool × Option PyErr) (as : List κ) (hn : as.Nodup)
    (w : ∀ a, S a) (h : (forParams f as w).2.2 = none) : ∀ a ∈ as, (f a (w a)).2.2 = none := by
  induction as generalizing w with
  | nil => intro a ha; cases ha
  | cons a as ih =>
    rw [List.nodup_cons] at hn
    rw [forParams] at h
    rcases hf : f a (w a) with ⟨s, b, e⟩
    rw [hf] at h
    cases e with
    | some e => cases h
    | none =>
      intro c hc
      rcases List.mem_cons.1 hc with rfl | hc'
      · rw [hf]
      · have := ih hn.2 _ h c hc'
        rwa [Function.update_of_ne (by rintro rfl; exact hn.1 hc')] at this

/-- A group body is local: it writes only parameters of its group and reads only those. -/
structure Local (params : H → List κ) (f : (∀ a, S a) → H → (∀ a, S a) × H × Option PyErr) :
    Prop where
  write : ∀ w G a, a ∉ params G → (f w G).1 a = w a
  read : ∀ w w' G, (∀ a ∈ params G, w a = w' a) → (f w G).2 = (f w' G).2 ∧
    ∀ a ∈ params G, (f w G).1 a = (f w' G).1 a

theorem forGroups_notMem {params : H → List κ}
    {f : (∀ a, S a) → H → (∀ a, S a) × H × Option PyErr} (hf : Local params f) (Gs : List H)
    (w : ∀ a, S a) (a : κ) (ha : ∀ G ∈ Gs, a ∉ params G) : (forGroups f Gs w).1 a = w a := by
  induction Gs generalizing w with
  | nil => rfl
  | cons G Gs ih =>
    rw [forGroups]
    have h1 := hf.write w G a (ha G (by simp))
    rcases hg : f w G with ⟨w', G', e⟩
    rw [hg] at h1
    cases e with
    | some e => exact h1
    | none => exact (ih w' fun G hG => ha G (by simp [hG])).trans h1

/-- In a step without exception every group does its work once, independently of the others. -/
theorem forGroups_ok {params : H → List κ}
    {f : (∀ a, S a) → H → (∀ a, S a) × H × Option PyErr} (hf : Local params f) (Gs : List H)
    (hn : (Gs.flatMap params).Nodup) (w : ∀ a, S a) (h : (forGroups f Gs w).2.2 = none) :
    (forGroups f Gs w).2.1 = Gs.map (fun G => (f w G).2.1) ∧
    (∀ G ∈ Gs, (f w G).2.2 = none) ∧
    ∀ G ∈ Gs, ∀ a ∈ params G, (forGroups f Gs w).1 a = (f w G).1 a := by
  induction Gs generalizing w with
  | nil => exact ⟨rfl, by simp, by simp⟩
  | cons G Gs ih =>
    rw [List.flatMap_cons, List.nodup_append] at hn
    obtain ⟨-, hn2, hn3⟩ := hn
    have h1 := hf.write w G
    rw [forGroups] at h ⊢
    rcases hg : f w G with ⟨w', G', e⟩
    rw [hg] at h h1
    cases e with
    | some e => cases h
    | none =>
      dsimp only at h h1 ⊢
      obtain ⟨i1, i2, i3⟩ := ih hn2 w' h
      have agree : ∀ G2 ∈ Gs, ∀ a ∈ params G2, w' a = w a := fun G2 hG2 a ha =>
        h1 a fun hc => hn3 a hc a (List.mem_flatMap.2 ⟨G2, hG2, ha⟩) rfl
      have rd := fun G2 hG2 => hf.read w' w G2 (agree G2 hG2)
      refine ⟨?_, ?_, ?_⟩
      · rw [i1, List.map_cons, hg]
        congr 1
        exact List.map_congr_left fun G2 hG2 => by rw [(rd G2 hG2).1]
      · intro G2 hG2
        rcases List.mem_cons.1 hG2 with rfl | hG2
        · rw [hg]
        · rw [← (rd G2 hG2).1]; exact i2 G2 hG2
      · intro G2 hG2 a ha
        rcases List.mem_cons.1 hG2 with rfl | hG2
        · rw [hg]
          refine forGroups_notMem hf Gs w' a fun G3 hG3 hc => ?_
          exact hn3 a ha a (List.mem_flatMap.2 ⟨G3, hG3, hc⟩) rfl
        · rw [i3 G2 hG2 a ha, (rd G2 hG2).2 a ha]

theorem stabParams_congr (f : ∀ a, S a → S a) (as : List κ) (w w' : ∀ a, S a)
    (h : ∀ a ∈ as, w a = w' a) : ∀ a ∈ as, stabParams f as w a = stabParams f as w' a := by
  suffices ∀ (B : List κ) (w w' : ∀ a, S a), (∀ a ∈ as ++ B, w a = w' a) →
      ∀ a ∈ as ++ B, stabParams f as w a = stabParams f as w' a by
    simpa using this [] w w' (by simpa using h)
  clear h w w'
  induction as with
  | nil => intro B w w' h a ha; exact h a ha
  | cons a as ih =>
    intro B w w' h c hc
    refine ih (a :: B) (Function.update w a (f a (w a))) (Function.update w' a (f a (w' a)))
      (fun d hd => ?_) c (by simp only [List.cons_append, List.mem_cons, List.mem_append] at hc ⊢; tauto)
    rw [h a (by simp)]
    by_cases hda : d = a
    · subst hda; simp
    · rw [Function.update_of_ne hda, Function.update_of_ne hda]
      refine h d ?_
      simp only [List.cons_append, List.mem_cons, List.mem_append] at hd ⊢; tauto

section
variable (body : H → ∀ a, S a → S a × Bool × Option PyErr) (stab : H → ∀ a, S a → S a)

theorem counterGroup_local (period : H → Option ℕ) :
    Local (fun G : Group H κ => G.params) (counterGroup body stab period) := by
  constructor
  · intro w G a ha
    have h1 := forParams_of_notMem (body G.hyper) G.params a ha w
    unfold counterGroup
    rcases hf : forParams (body G.hyper) G.params w with ⟨w', b, e⟩
    rw [hf] at h1
    cases e with
    | some e => exact h1
    | none =>
      dsimp only at h1 ⊢
      cases period G.hyper with
      | none => exact h1
      | some k =>
        dsimp only
        rcases isMultiple (G.step + 1) k with e | b
        · exact h1
        · cases b with
          | false => exact h1
          | true => exact (stabParams_of_notMem _ _ a ha _).trans h1
  · intro w w' G h
    obtain ⟨h1, h2⟩ := forParams_congr (body G.hyper) G.params w w' h
    unfold counterGroup
    rcases hf : forParams (body G.hyper) G.params w with ⟨v, b, e⟩
    rcases hf' : forParams (body G.hyper) G.params w' with ⟨v', b', e'⟩
    rw [hf, hf'] at h1 h2
    simp only [Prod.mk.injEq] at h1
    obtain ⟨rfl, rfl⟩ := h1
    dsimp only at h2
    cases e with
    | some e => exact ⟨rfl, h2⟩
    | none =>
      dsimp only
      cases period G.hyper with
      | none => exact ⟨rfl, h2⟩
      | some k =>
        dsimp only
        rcases isMultiple (G.step + 1) k with e | b
        · exact ⟨rfl, h2⟩
        · cases b with
          | false => exact ⟨rfl, h2⟩
          | true => exact ⟨rfl, stabParams_congr _ _ _ _ h2⟩

theorem flagGroup_local : Local (fun G : H × List κ => G.2) (flagGroup body stab) := by
  constructor
  · intro w G a ha
    have h1 := forParams_of_notMem (body G.1) G.2 a ha w
    unfold flagGroup
    rcases hf : forParams (body G.1) G.2 w with ⟨w', b, e⟩
    rw [hf] at h1
    cases e with
    | some e => exact h1
    | none =>
      dsimp only at h1 ⊢
      cases b with
      | false => exact h1
      | true => exact (stabParams_of_notMem _ _ a ha _).trans h1
  · intro w w' G h
    obtain ⟨h1, h2⟩ := forParams_congr (body G.1) G.2 w w' h
    unfold flagGroup
    rcases hf : forParams (body G.1) G.2 w with ⟨v, b, e⟩
    rcases hf' : forParams (body G.1) G.2 w' with ⟨v', b', e'⟩
    rw [hf, hf'] at h1 h2
    simp only [Prod.mk.injEq] at h1
    obtain ⟨rfl, rfl⟩ := h1
    dsimp only at h2
    cases e with
    | some e => exact ⟨rfl, h2⟩
    | none =>
      cases b with
      | false => exact ⟨rfl, h2⟩
      | true => exact ⟨rfl, stabParams_congr _ _ _ _ h2⟩

/-- Is this a step at which a group with this period and counter is stabilized? -/
def due (period : Option ℕ) (count : ℕ) : Bool :=
  match period with
  | none => false
  | some k => count % k == 0

/-- A group that raises nothing: the counter goes up by one, every parameter gets the loop body once
and, when due, is stabilized once. -/
theorem counterGroup_ok (period : H → Option ℕ) (G : Group H κ) (hn : G.params.Nodup)
    (w : ∀ a, S a) (h : (counterGroup body stab period w G).2.2 = none) :
    (counterGroup body stab period w G).2.1 = { G with step := G.step + 1 } ∧
    (∀ a ∈ G.params, (body G.hyper a (w a)).2.2 = none) ∧
    ∀ a ∈ G.params, (counterGroup body stab period w G).1 a =
      if due (period G.hyper) (G.step + 1) then stab G.hyper a (body G.hyper a (w a)).1
      else (body G.hyper a (w a)).1 := by
  have h1 := forParams_ok' (body G.hyper) G.params hn w
  unfold counterGroup at h ⊢
  rcases hf : forParams (body G.hyper) G.params w with ⟨w', b, e⟩
  rw [hf] at h1 h
  cases e with
  | some e => cases h
  | none =>
    replace h1 := h1 rfl
    have h2 := (forParams_ok (body G.hyper) G.params hn w h1).2.1
    rw [hf] at h2
    dsimp only at h h2 ⊢
    unfold due
    cases hp : period G.hyper with
    | none => exact ⟨rfl, h1, fun a ha => by simp [h2 a ha]⟩
    | some k =>
      rw [hp] at h
      dsimp only at h ⊢
      unfold isMultiple at h
      unfold isMultiple
      by_cases hk : k = 0
      · rw [if_pos hk] at h; cases h
      rw [if_neg hk]
      rcases Bool.eq_false_or_eq_true ((G.step + 1) % k == 0) with hb | hb
      · simp only [hb, if_true]
        refine ⟨trivial, h1, fun a ha => ?_⟩
        rw [stabParams_mem _ _ hn a ha, h2 a ha]
      · simp only [hb]
        exact ⟨trivial, h1, fun a ha => by simp [h2 a ha]⟩

/-- The same for the groups of the Adam variants. -/
theorem flagGroup_ok (G : H × List κ) (hn : G.2.Nodup) (w : ∀ a, S a)
    (h : (flagGroup body stab w G).2.2 = none) :
    (flagGroup body stab w G).2.1 = G ∧
    (∀ a ∈ G.2, (body G.1 a (w a)).2.2 = none) ∧
    ∀ a ∈ G.2, (flagGroup body stab w G).1 a =
      if G.2.any (fun b => (body G.1 b (w b)).2.1) then stab G.1 a (body G.1 a (w a)).1
      else (body G.1 a (w a)).1 := by
  have h1 := forParams_ok' (body G.1) G.2 hn w
  unfold flagGroup at h ⊢
  rcases hf : forParams (body G.1) G.2 w with ⟨w', b, e⟩
  rw [hf] at h1 h
  cases e with
  | some e => cases h
  | none =>
    replace h1 := h1 rfl
    obtain ⟨-, h2, h3⟩ := forParams_ok (body G.1) G.2 hn w h1
    rw [hf] at h2 h3
    dsimp only at h h2 h3 ⊢
    rw [← h3]
    cases b with
    | false => exact ⟨rfl, h1, fun a ha => h2 a ha⟩
    | true =>
      refine ⟨rfl, h1, fun a ha => ?_⟩
      simp only [if_true]
      rw [stabParams_mem _ _ hn a ha, h2 a ha]

end

/-! ## The dense optimisers -/

section Dense
variable {ι : κ → Type} (P : Params κ ι)

theorem sgdStep_ok (o : SGD κ ι) (hn : (o.groups.flatMap Group.params).Nodup)
    (h : (sgdStep P o).2 = none) :
    (sgdStep P o).1.groups = o.groups.map (fun G => { G with step := G.step + 1 }) ∧
    ∀ G ∈ o.groups, ∀ a ∈ G.params,
      (sgdParam (P.manifold a) G.hyper (o.par a)).2.2 = none ∧
      (sgdStep P o).1.par a = if due G.hyper.stabilize (G.step + 1) then
        sgdStab (P.isManifold a) (P.man a) G.hyper (sgdParam (P.manifold a) G.hyper (o.par a)).1
      else (sgdParam (P.manifold a) G.hyper (o.par a)).1 := by
  have L := counterGroup_local (κ := κ) (S := fun a => SGDParam (ι a))
    (fun h a => sgdParam (P.manifold a) h) (fun h a => sgdStab (P.isManifold a) (P.man a) h)
    SGDHyper.stabilize
  obtain ⟨h1, h2, h3⟩ := forGroups_ok L o.groups hn o.par h
  have nd : ∀ G ∈ o.groups, G.params.Nodup := fun G hG => (List.nodup_flatMap.1 hn).1 G hG
  have key := fun G hG => counterGroup_ok (κ := κ) (S := fun a => SGDParam (ι a))
    (fun h a => sgdParam (P.manifold a) h) (fun h a => sgdStab (P.isManifold a) (P.man a) h)
    SGDHyper.stabilize G (nd G hG) o.par (h2 G hG)
  refine ⟨h1.trans (List.map_congr_left fun G hG => (key G hG).1), fun G hG a ha => ?_⟩
  exact ⟨(key G hG).2.1 a ha, (h3 G hG a ha).trans ((key G hG).2.2 a ha)⟩

theorem sgdStep_notMem (o : SGD κ ι) (a : κ) (ha : ∀ G ∈ o.groups, a ∉ G.params) :
    (sgdStep P o).1.par a = o.par a :=
  forGroups_notMem (counterGroup_local (κ := κ) (S := fun a => SGDParam (ι a))
    (fun h a => sgdParam (P.manifold a) h) (fun h a => sgdStab (P.isManifold a) (P.man a) h)
    SGDHyper.stabilize) o.groups o.par a ha

theorem adamStep_ok (o : Adam κ ι) (hn : (o.groups.flatMap Prod.snd).Nodup)
    (h : (adamStep P o).2 = none) :
    (adamStep P o).1.groups = o.groups ∧
    ∀ G ∈ o.groups, ∀ a ∈ G.2,
      (adamParam (P.manifold a) G.1 (o.par a)).2.2 = none ∧
      (adamStep P o).1.par a =
        if G.2.any (fun b => (adamParam (P.manifold b) G.1 (o.par b)).2.1) then
          adamStab (P.isManifold a) (P.man a) (adamParam (P.manifold a) G.1 (o.par a)).1
        else (adamParam (P.manifold a) G.1 (o.par a)).1 := by
  have L := flagGroup_local (κ := κ) (S := fun a => AdamParam (ι a))
    (fun (h : AdamHyper) a => adamParam (P.manifold a) h)
    (fun _ a => adamStab (P.isManifold a) (P.man a))
  obtain ⟨h1, h2, h3⟩ := forGroups_ok L o.groups hn o.par h
  have nd : ∀ G ∈ o.groups, G.2.Nodup := fun G hG => (List.nodup_flatMap.1 hn).1 G hG
  have key := fun G hG => flagGroup_ok (κ := κ) (S := fun a => AdamParam (ι a))
    (fun (h : AdamHyper) a => adamParam (P.manifold a) h)
    (fun _ a => adamStab (P.isManifold a) (P.man a)) G (nd G hG) o.par (h2 G hG)
  refine ⟨(h1.trans (List.map_congr_left fun G hG => (key G hG).1)).trans (List.map_id _),
    fun G hG a ha => ?_⟩
  exact ⟨(key G hG).2.1 a ha, (h3 G hG a ha).trans ((key G hG).2.2 a ha)⟩

theorem adamStep_notMem (o : Adam κ ι) (a : κ) (ha : ∀ G ∈ o.groups, a ∉ G.2) :
    (adamStep P o).1.par a = o.par a :=
  forGroups_notMem (flagGroup_local (κ := κ) (S := fun a => AdamParam (ι a))
    (fun (h : AdamHyper) a => adamParam (P.manifold a) h)
    (fun _ a => adamStab (P.isManifold a) (P.man a))) o.groups o.par a ha

end Dense

end Geoopt.Optim
