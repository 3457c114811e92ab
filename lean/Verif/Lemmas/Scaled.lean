import Verif.Model.Scaled
import Mathlib.Tactic

/-! # Helper lemmas about the `Scaled` model -/

namespace Geoopt.Scaled

theorem mapM_two {α β γ ε : Type} {f : α → Except ε β} {g : β → Except ε γ} {h : α → Except ε γ}
    (l : List α) (hok : ∀ a ∈ l, ∀ b, f a = .ok b → ∃ c, g b = .ok c ∧ h a = .ok c)
    (herr : ∀ a ∈ l, ∀ e, f a = .error e → h a = .error e) :
    ((l.mapM f).bind fun bs => bs.mapM g) = l.mapM h := by
  induction l with
  | nil => rfl
  | cons a l ih =>
    have ih' := ih (fun a' h' => hok a' (List.mem_cons_of_mem _ h'))
      (fun a' h' => herr a' (List.mem_cons_of_mem _ h'))
    rw [List.mapM_cons, List.mapM_cons]
    cases hf : f a with
    | error e => rw [herr a (by simp) e hf]; rfl
    | ok b =>
      obtain ⟨c, hc1, hc2⟩ := hok a (by simp) b hf
      rw [hc2]
      simp only [bind, Except.bind]
      rw [← ih']
      cases l.mapM f with
      | error e => rfl
      | ok bs =>
        simp only [pure, Except.pure]
        rw [List.mapM_cons, hc1]
        rfl

theorem mapM_keys {α β : Type} {ε : Type} {f : α → Except ε β} {k : β → α} (l : List α)
    (hk : ∀ a b, f a = .ok b → k b = a) (bs : List β) (h : l.mapM f = .ok bs) :
    bs.map k = l := by
  induction l generalizing bs with
  | nil => cases h; rfl
  | cons a l ih =>
    rw [List.mapM_cons] at h
    cases hf : f a with
    | error e => rw [hf] at h; cases h
    | ok b =>
      rw [hf] at h
      simp only [bind, Except.bind] at h
      cases hl : l.mapM f with
      | error e => rw [hl] at h; cases h
      | ok cs =>
        rw [hl] at h
        simp only [pure, Except.pure, Except.ok.injEq] at h
        subst h
        rw [List.map_cons, hk a b hf, ih cs hl]

variable {E : Type} [AddCommGroup E] [Module ℝ E]

theorem rescaleValue_two (v : Val E) (a b : ℝ) (p : ℤ) :
    (∀ w, rescaleValue v b p = .ok w → ∃ c, rescaleValue w a p = .ok c ∧
      rescaleValue v (a * b) p = .ok c) ∧
    (∀ e, rescaleValue v b p = .error e → rescaleValue v (a * b) p = .error e) := by
  unfold rescaleValue
  by_cases hp : p = 0
  · simp [hp]
  · simp only [if_neg hp]
    cases v with
    | num r =>
      refine ⟨?_, by simp⟩
      rintro w hw
      cases hw
      exact ⟨_, rfl, by rw [mul_zpow]; congr 2; ring⟩
    | vec x =>
      refine ⟨?_, by simp⟩
      rintro w hw
      cases hw
      exact ⟨_, rfl, by rw [mul_zpow, smul_smul]⟩
    | other n => exact ⟨by simp, by simp⟩

theorem rescaleArgs_keys (kwargs : List (String × ℤ)) (s : ℝ) (named bs : List (String × Val E))
    (h : rescaleArgs kwargs s named = .ok bs) : bs.map Prod.fst = named.map Prod.fst := by
  unfold rescaleArgs at h
  split_ifs at h with hall
  generalize hf : rescaleArg (E := E) kwargs s = f at h
  have hkey : ∀ q r, f q = .ok r → r.1 = q.1 := by
    intro q r hq
    subst hf
    unfold rescaleArg at hq
    cases hl : List.lookup q.1 kwargs with
    | none => rw [hl] at hq; cases hq; rfl
    | some p =>
      rw [hl] at hq
      simp only at hq
      cases hv : rescaleValue q.2 s p with
      | error e => rw [hv] at hq; cases hq
      | ok v => rw [hv] at hq; cases hq; rfl
  clear hf hall
  induction named generalizing bs with
  | nil => cases h; rfl
  | cons a l ih =>
    rw [List.mapM_cons] at h
    cases hfa : f a with
    | error e => rw [hfa] at h; cases h
    | ok b =>
      rw [hfa] at h
      simp only [bind, Except.bind] at h
      cases hl : l.mapM f with
      | error e => rw [hl] at h; cases h
      | ok cs =>
        rw [hl] at h
        simp only [pure, Except.pure, Except.ok.injEq] at h
        subst h
        rw [List.map_cons, List.map_cons, hkey a b hfa, ih cs hl]

/-- Rescaling arguments by `b` and then by `a` is rescaling them by `a * b`. -/
theorem rescaleArgs_two (kwargs : List (String × ℤ)) (a b : ℝ) (named : List (String × Val E)) :
    (match rescaleArgs kwargs b named with
      | .error e => .error e
      | .ok bs => rescaleArgs kwargs a bs) = rescaleArgs kwargs (a * b) named := by
  by_cases hall : (kwargs.all fun q => (named.map Prod.fst).contains q.1) = true
  · have e1 : ∀ s : ℝ, ∀ l : List (String × Val E), l.map Prod.fst = named.map Prod.fst →
        rescaleArgs kwargs s l = l.mapM (rescaleArg kwargs s) := by
      intro s l hl
      unfold rescaleArgs
      rw [hl, if_pos hall]
    rw [e1 (a * b) named rfl]
    trans ((named.mapM (rescaleArg (E := E) kwargs b)).bind fun bs => bs.mapM (rescaleArg kwargs a))
    · rw [← e1 b named rfl]
      cases hq : rescaleArgs kwargs b named with
      | error e => rfl
      | ok bs => exact e1 a bs (rescaleArgs_keys _ _ _ _ hq)
    refine mapM_two named (fun q _ r hr => ?_) (fun q _ e hr => ?_)
    · unfold rescaleArg at hr
      cases hl : List.lookup q.1 kwargs with
      | none =>
        rw [hl] at hr
        cases hr
        exact ⟨q, by simp only [rescaleArg, hl], by simp only [rescaleArg, hl]⟩
      | some p =>
        rw [hl] at hr
        simp only at hr ⊢
        cases hv : rescaleValue q.2 b p with
        | error e => rw [hv] at hr; cases hr
        | ok v =>
          rw [hv] at hr
          cases hr
          obtain ⟨c, h1, h2⟩ := (rescaleValue_two q.2 a b p).1 v hv
          exact ⟨(q.1, c), by simp only [rescaleArg, hl, h1]; rfl,
            by simp only [rescaleArg, hl, h2]; rfl⟩
    · unfold rescaleArg at hr ⊢
      cases hl : List.lookup q.1 kwargs with
      | none => rw [hl] at hr; cases hr
      | some p =>
        rw [hl] at hr
        simp only at hr ⊢
        cases hv : rescaleValue q.2 b p with
        | error e' =>
          rw [hv] at hr
          cases hr
          rw [(rescaleValue_two q.2 a b p).2 _ hv]; rfl
        | ok v => rw [hv] at hr; cases hr
  · unfold rescaleArgs
    rw [if_neg hall, if_neg hall]

theorem rescaleList_two (a b : ℝ) (l : List (Val E)) (ps : List ℤ) :
    (∀ r, rescaleList b l ps = .ok r → ∃ c, rescaleList a r ps = .ok c ∧
      rescaleList (a * b) l ps = .ok c) ∧
    (∀ e, rescaleList b l ps = .error e → rescaleList (a * b) l ps = .error e) := by
  have step : ∀ (v : Val E) (p : ℤ) (vs : List (Val E)) (qs : List ℤ)
      (_ : (∀ r, rescaleList b vs qs = .ok r → ∃ c, rescaleList a r qs = .ok c ∧
        rescaleList (a * b) vs qs = .ok c) ∧
      (∀ e, rescaleList b vs qs = .error e → rescaleList (a * b) vs qs = .error e)),
      (∀ r, (do return (← rescaleValue v b p) :: (← rescaleList b vs qs)) = Except.ok r →
        ∃ w r', r = w :: r' ∧ ∃ c c', rescaleValue w a p = .ok c ∧ rescaleList a r' qs = .ok c' ∧
          (do return (← rescaleValue v (a * b) p) :: (← rescaleList (a * b) vs qs)) =
            Except.ok (c :: c')) ∧
      (∀ e, (do return (← rescaleValue v b p) :: (← rescaleList b vs qs)) = Except.error e →
        (do return (← rescaleValue v (a * b) p) :: (← rescaleList (a * b) vs qs)) =
            Except.error e) := by
    intro v p vs qs ih
    obtain ⟨h1, h2⟩ := rescaleValue_two v a b p
    cases hv : rescaleValue v b p with
    | error e =>
      rw [h2 e hv]
      exact ⟨fun r hr => (by cases hr), fun e' he => he⟩
    | ok w =>
      obtain ⟨c, hc1, hc2⟩ := h1 w hv
      rw [hc2]
      cases hl : rescaleList b vs qs with
      | error e =>
        rw [ih.2 e hl]
        exact ⟨fun r hr => (by cases hr), fun e' he => he⟩
      | ok r' =>
        obtain ⟨c', h3, h4⟩ := ih.1 r' hl
        rw [h4]
        refine ⟨fun r hr => ?_, fun e' he => by cases he⟩
        cases hr
        exact ⟨w, r', rfl, c, c', hc1, h3, rfl⟩
  induction ps generalizing l with
  | nil =>
    induction l with
    | nil =>
      unfold rescaleList
      exact ⟨fun r hr => by cases hr; exact ⟨[], by unfold rescaleList; rfl, rfl⟩,
        fun e he => by cases he⟩
    | cons v vs ih =>
      have := step v 0 vs [] ih
      unfold rescaleList
      refine ⟨fun r hr => ?_, this.2⟩
      obtain ⟨w, r', rfl, c, c', h1, h2, h3⟩ := this.1 r hr
      refine ⟨c :: c', ?_, h3⟩
      simp only [rescaleList, h1, h2]; rfl
  | cons p ps ih =>
    cases l with
    | nil =>
      have := step (.num 0) p [] ps (ih [])
      unfold rescaleList
      refine ⟨fun r hr => ?_, this.2⟩
      obtain ⟨w, r', rfl, c, c', h1, h2, h3⟩ := this.1 r hr
      refine ⟨c :: c', ?_, h3⟩
      simp only [rescaleList, h1, h2]; rfl
    | cons v vs =>
      have := step v p vs ps (ih vs)
      unfold rescaleList
      refine ⟨fun r hr => ?_, this.2⟩
      obtain ⟨w, r', rfl, c, c', h1, h2, h3⟩ := this.1 r hr
      refine ⟨c :: c', ?_, h3⟩
      simp only [rescaleList, h1, h2]; rfl

/-- The first value of `rescaleList` on a single value does not depend on surplus powers. -/
theorem rescaleList_one_nonempty (s : ℝ) (v : Val E) (p : ℤ) (ps : List ℤ) (r : List (Val E))
    (h : rescaleList s [v] (p :: ps) = .ok r) : ∃ w r', r = w :: r' ∧
      rescaleValue v s p = .ok w := by
  unfold rescaleList at h
  cases hv : rescaleValue v s p with
  | error e => rw [hv] at h; cases h
  | ok w =>
    rw [hv] at h
    cases hl : rescaleList s ([] : List (Val E)) ps with
    | error e => rw [hl] at h; cases h
    | ok r' => rw [hl] at h; cases h; exact ⟨w, r', rfl, rfl⟩

theorem rescaleList_nil_ok (s : ℝ) (ps : List ℤ) : ∃ r : List (Val E), rescaleList s [] ps = .ok r := by
  induction ps with
  | nil => exact ⟨[], by unfold rescaleList; rfl⟩
  | cons p ps ih =>
    obtain ⟨r, hr⟩ := ih
    unfold rescaleList
    rw [hr]
    unfold rescaleValue
    split_ifs
    · exact ⟨_, rfl⟩
    · exact ⟨_, rfl⟩

/-- A single result: only the first power matters. -/
theorem rescaleRes_one (s : ℝ) (p : ℤ) (ps : List ℤ) (v : Val E) :
    rescaleRes s (p :: ps) (.one v) = (rescaleValue v s p).map .one := by
  unfold rescaleRes
  rw [if_neg (by simp)]
  simp only
  obtain ⟨r, hr⟩ := rescaleList_nil_ok (E := E) s ps
  unfold rescaleList
  rw [hr]
  cases rescaleValue v s p <;> rfl

theorem rescaleRes_two (a b : ℝ) (ps : List ℤ) (r : Res E) :
    (match rescaleRes a ps r with
      | .error e => .error e
      | .ok r' => rescaleRes b ps r') = rescaleRes (a * b) ps r := by
  cases ps with
  | nil => simp [rescaleRes]
  | cons p ps =>
    cases r with
    | one v =>
      rw [rescaleRes_one, rescaleRes_one]
      obtain ⟨h1, h2⟩ := rescaleValue_two v b a p
      rw [mul_comm a b]
      cases hv : rescaleValue v a p with
      | error e => rw [h2 e hv]; rfl
      | ok w =>
        obtain ⟨c, h3, h4⟩ := h1 w hv
        rw [h4]
        simp only [Except.map]
        rw [rescaleRes_one, h3]; rfl
    | tup l =>
      unfold rescaleRes
      simp only [if_neg (List.cons_ne_nil p ps)]
      obtain ⟨h1, h2⟩ := rescaleList_two b a l (p :: ps)
      rw [mul_comm a b]
      cases hl : rescaleList a l (p :: ps) with
      | error e => rw [h2 e hl]; rfl
      | ok r' =>
        obtain ⟨c, h3, h4⟩ := h1 r' hl
        rw [h4]
        simp only [Except.map]
        rw [h3]

/-- Rescaling a method twice. -/
theorem rescale_two (m : Method E) (rule : Rule) (a b : ℝ) :
    rescale (rescale m rule a) rule b = rescale m rule (a * b) := by
  cases rule with
  | notCompatible => rfl
  | info results kwargs =>
    unfold rescale
    simp only [Method.mk.injEq, true_and]
    funext bd
    have h1 := rescaleArgs_two kwargs a b bd.named
    rw [← h1]
    cases rescaleArgs kwargs b bd.named with
    | error e => rfl
    | ok named =>
      simp only
      cases rescaleArgs kwargs a named with
      | error e => rfl
      | ok named' =>
        simp only
        cases m.run { bd with named := named' } with
        | error e => rfl
        | ok r =>
          simp only
          rw [← rescaleRes_two]
          rfl

end Geoopt.Scaled
