import Verif.Lemmas.OptimStep
import Verif.Model.OptimManifolds

/-!
# C58: parameters without gradient
-/

open Geoopt Geoopt.Optim

namespace C58

section Generic
variable {κ : Type} [DecidableEq κ] {S : κ → Type} {H : Type}

/-- The list without `a`. -/
def drop (a : κ) (as : List κ) : List κ := as.filter (fun b => b ≠ a)

theorem forParams_drop (f : ∀ a, S a → S a × Bool × Option PyErr) (a : κ) (as : List κ)
    (w : ∀ a, S a) (hskip : f a (w a) = (w a, false, none)) :
    forParams f (drop a as) w = forParams f as w ∧ (forParams f as w).1 a = w a := by
  induction as generalizing w with
  | nil => exact ⟨rfl, rfl⟩
  | cons b as ih =>
    by_cases hb : b = a
    · subst hb
      have : drop b (b :: as) = drop b as := by simp [drop]
      rw [this]
      have e : forParams f (b :: as) w = forParams f as w := by
        rw [forParams, hskip]
        simp only [Function.update_eq_self, Bool.false_or]
      rw [e]
      exact ih w hskip
    · have : drop a (b :: as) = b :: drop a as := by simp [drop, hb]
      rw [this, forParams, forParams]
      rcases hf : f b (w b) with ⟨s, c, e⟩
      have hne : ∀ s, Function.update w b s a = w a := fun s => Function.update_of_ne (Ne.symm hb) _ _
      cases e with
      | some e => exact ⟨rfl, hne s⟩
      | none =>
        have := ih (Function.update w b s) (by rw [hne]; exact hskip)
        dsimp only
        rw [this.1, this.2, hne]
        exact ⟨rfl, rfl⟩

theorem forParams_drop' (f : ∀ a, S a → S a × Bool × Option PyErr) (a : κ) (as : List κ)
    (w w' : ∀ a, S a) (hskip : f a (w a) = (w a, false, none)) (hw : ∀ b, b ≠ a → w' b = w b) :
    (forParams f (drop a as) w').2 = (forParams f as w).2 ∧
    (∀ b, b ≠ a → (forParams f (drop a as) w').1 b = (forParams f as w).1 b) ∧
    (forParams f as w).1 a = w a := by
  obtain ⟨h1, h2⟩ := forParams_drop f a as w hskip
  have hm : ∀ b ∈ drop a as, b ≠ a := fun b hb => by simpa using (List.mem_filter.1 hb).2
  obtain ⟨h3, h4⟩ := forParams_congr f (drop a as) w' w fun b hb => hw b (hm b hb)
  rw [h1] at h3 h4
  refine ⟨h3, fun b hb => ?_, h2⟩
  by_cases hmem : b ∈ drop a as
  · exact h4 b hmem
  · rw [forParams_of_notMem _ _ b hmem, hw b hb, ← h1, forParams_of_notMem _ _ b hmem]

theorem stabParams_drop (f : ∀ a, S a → S a) (a : κ) (as : List κ) (w w' : ∀ a, S a)
    (hw : ∀ b, b ≠ a → w' b = w b) :
    ∀ b, b ≠ a → stabParams f (drop a as) w' b = stabParams f as w b := by
  induction as generalizing w w' with
  | nil => exact hw
  | cons c as ih =>
    by_cases hc : c = a
    · subst hc
      have : drop c (c :: as) = drop c as := by simp [drop]
      rw [this]
      refine ih (Function.update w c (f c (w c))) w' fun b hb => ?_
      rw [hw b hb, Function.update_of_ne hb]
    · have : drop a (c :: as) = c :: drop a as := by simp [drop, hc]
      rw [this]
      refine ih (Function.update w c (f c (w c))) (Function.update w' c (f c (w' c))) fun b hb => ?_
      rw [hw c hc]
      by_cases hbc : b = c
      · subst hbc; simp
      · rw [Function.update_of_ne hbc, Function.update_of_ne hbc, hw b hb]

variable (body : H → ∀ a, S a → S a × Bool × Option PyErr) (stab : H → ∀ a, S a → S a)

theorem counterGroup_drop (period : H → Option ℕ) (a : κ) (Q : S a → Prop)
    (hskip : ∀ h s, Q s → body h a s = (s, false, none)) (hstab : ∀ h s, Q s → Q (stab h a s))
    (G : Group H κ) (w w' : ∀ a, S a) (hQ : Q (w a)) (hw : ∀ b, b ≠ a → w' b = w b) :
    let r := counterGroup body stab period w G
    let r' := counterGroup body stab period w' { G with params := drop a G.params }
    r'.2.2 = r.2.2 ∧ r'.2.1 = { r.2.1 with params := drop a r.2.1.params } ∧
    (∀ b, b ≠ a → r'.1 b = r.1 b) ∧ Q (r.1 a) := by
  obtain ⟨h1, h2, h3⟩ := forParams_drop' (body G.hyper) a G.params w w' (hskip _ _ hQ) hw
  intro r r'
  simp only [r, r']
  unfold counterGroup
  dsimp only
  rcases hf : forParams (body G.hyper) G.params w with ⟨v, b, e⟩
  rcases hf' : forParams (body G.hyper) (drop a G.params) w' with ⟨v', b', e'⟩
  rw [hf, hf'] at h1 h2
  rw [hf] at h3
  simp only [Prod.mk.injEq] at h1
  obtain ⟨rfl, rfl⟩ := h1
  dsimp only at h2 h3
  have hQ' : Q (v a) := h3 ▸ hQ
  cases e' with
  | some e => exact ⟨rfl, rfl, h2, hQ'⟩
  | none =>
    dsimp only
    cases period G.hyper with
    | none => exact ⟨rfl, rfl, h2, hQ'⟩
    | some k =>
      dsimp only
      rcases isMultiple (G.step + 1) k with e | c
      · exact ⟨rfl, rfl, h2, hQ'⟩
      · cases c with
        | false => exact ⟨rfl, rfl, h2, hQ'⟩
        | true =>
          refine ⟨rfl, rfl, stabParams_drop _ a _ _ _ h2, ?_⟩
          have : ∀ (as : List κ) (v : ∀ a, S a), Q (v a) → Q (stabParams (stab G.hyper) as v a) := by
            intro as
            induction as with
            | nil => intro v hv; exact hv
            | cons c as ih =>
              intro v hv
              refine ih (Function.update v c (stab G.hyper c (v c))) ?_
              by_cases hc : c = a
              · subst hc; rw [Function.update_self]; exact hstab _ _ hv
              · rw [Function.update_of_ne (Ne.symm hc)]; exact hv
          exact this _ _ hQ'

theorem flagGroup_drop (a : κ) (Q : S a → Prop)
    (hskip : ∀ h s, Q s → body h a s = (s, false, none)) (hstab : ∀ h s, Q s → Q (stab h a s))
    (G : H × List κ) (w w' : ∀ a, S a) (hQ : Q (w a)) (hw : ∀ b, b ≠ a → w' b = w b) :
    let r := flagGroup body stab w G
    let r' := flagGroup body stab w' (G.1, drop a G.2)
    r'.2.2 = r.2.2 ∧ r'.2.1 = (r.2.1.1, drop a r.2.1.2) ∧
    (∀ b, b ≠ a → r'.1 b = r.1 b) ∧ Q (r.1 a) := by
  obtain ⟨h1, h2, h3⟩ := forParams_drop' (body G.1) a G.2 w w' (hskip _ _ hQ) hw
  intro r r'
  simp only [r, r']
  unfold flagGroup
  dsimp only
  rcases hf : forParams (body G.1) G.2 w with ⟨v, b, e⟩
  rcases hf' : forParams (body G.1) (drop a G.2) w' with ⟨v', b', e'⟩
  rw [hf, hf'] at h1 h2
  rw [hf] at h3
  simp only [Prod.mk.injEq] at h1
  obtain ⟨rfl, rfl⟩ := h1
  dsimp only at h2 h3
  have hQ' : Q (v a) := h3 ▸ hQ
  cases e' with
  | some e => exact ⟨rfl, rfl, h2, hQ'⟩
  | none =>
    cases b' with
    | false => exact ⟨rfl, rfl, h2, hQ'⟩
    | true =>
      refine ⟨rfl, rfl, stabParams_drop _ a _ _ _ h2, ?_⟩
      have : ∀ (as : List κ) (v : ∀ a, S a), Q (v a) → Q (stabParams (stab G.1) as v a) := by
        intro as
        induction as with
        | nil => intro v hv; exact hv
        | cons c as ih =>
          intro v hv
          refine ih (Function.update v c (stab G.1 c (v c))) ?_
          by_cases hc : c = a
          · subst hc; rw [Function.update_self]; exact hstab _ _ hv
          · rw [Function.update_of_ne (Ne.symm hc)]; exact hv
      exact this _ _ hQ'

theorem forGroups_drop (f : (∀ a, S a) → H → (∀ a, S a) × H × Option PyErr) (a : κ) (d : H → H)
    (Q : S a → Prop)
    (hf : ∀ G (w w' : ∀ a, S a), Q (w a) → (∀ b, b ≠ a → w' b = w b) →
      (f w' (d G)).2.2 = (f w G).2.2 ∧ (f w' (d G)).2.1 = d (f w G).2.1 ∧
      (∀ b, b ≠ a → (f w' (d G)).1 b = (f w G).1 b) ∧ Q ((f w G).1 a))
    (Gs : List H) (w w' : ∀ a, S a) (hQ : Q (w a)) (hw : ∀ b, b ≠ a → w' b = w b) :
    (forGroups f (Gs.map d) w').2.2 = (forGroups f Gs w).2.2 ∧
    (∀ b, b ≠ a → (forGroups f (Gs.map d) w').1 b = (forGroups f Gs w).1 b) := by
  induction Gs generalizing w w' with
  | nil => exact ⟨rfl, hw⟩
  | cons G Gs ih =>
    obtain ⟨h1, -, h3, h4⟩ := hf G w w' hQ hw
    rw [List.map_cons, forGroups, forGroups]
    rcases hg : f w G with ⟨v, G1, e⟩
    rcases hg' : f w' (d G) with ⟨v', G1', e'⟩
    rw [hg, hg'] at h1 h3
    rw [hg] at h4
    dsimp only at h1 h3 h4
    subst h1
    cases e' with
    | some e => exact ⟨rfl, h3⟩
    | none => exact ih v v' h4 h3

/-- A property of one parameter kept by the loop body and by stabilization (where that happens) is
kept by a step. -/
theorem forGroups_keep (f : (∀ a, S a) → H → (∀ a, S a) × H × Option PyErr) (a : κ) (Q : S a → Prop)
    (Gs : List H) (hf : ∀ G ∈ Gs, ∀ w : ∀ a, S a, Q (w a) → Q ((f w G).1 a)) (w : ∀ a, S a)
    (hQ : Q (w a)) : Q ((forGroups f Gs w).1 a) := by
  induction Gs generalizing w with
  | nil => exact hQ
  | cons G Gs ih =>
    rw [forGroups]
    have h1 := hf G (by simp) w hQ
    rcases hg : f w G with ⟨v, G1, e⟩
    rw [hg] at h1
    cases e with
    | some e => exact h1
    | none => exact ih (fun G hG => hf G (by simp [hG])) v h1

theorem forParams_keep (f : ∀ a, S a → S a × Bool × Option PyErr) (a : κ) (Q : S a → Prop)
    (as : List κ) (hf : a ∈ as → ∀ s, Q s → Q (f a s).1) (w : ∀ a, S a) (hQ : Q (w a)) :
    Q ((forParams f as w).1 a) := by
  induction as generalizing w with
  | nil => exact hQ
  | cons c as ih =>
    have h1 : Q (Function.update w c (f c (w c)).1 a) := by
      by_cases hc : c = a
      · subst hc; rw [Function.update_self]; exact hf (by simp) _ hQ
      · rw [Function.update_of_ne (Ne.symm hc)]; exact hQ
    rw [forParams]
    rcases hg : f c (w c) with ⟨s, b, e⟩
    rw [hg] at h1
    cases e with
    | some e => exact h1
    | none => exact ih (fun h => hf (by simp [h])) _ h1

theorem stabParams_keep (f : ∀ a, S a → S a) (a : κ) (Q : S a → Prop) (as : List κ)
    (hf : a ∈ as → ∀ s, Q s → Q (f a s)) (w : ∀ a, S a) (hQ : Q (w a)) :
    Q (stabParams f as w a) := by
  induction as generalizing w with
  | nil => exact hQ
  | cons c as ih =>
    refine ih (fun h => hf (by simp [h])) (Function.update w c (f c (w c))) ?_
    by_cases hc : c = a
    · subst hc; rw [Function.update_self]; exact hf (by simp) _ hQ
    · rw [Function.update_of_ne (Ne.symm hc)]; exact hQ

theorem counterGroup_keep (period : H → Option ℕ) (a : κ) (Q : S a → Prop) (G : Group H κ)
    (hb : a ∈ G.params → ∀ s, Q s → Q (body G.hyper a s).1)
    (hs : a ∈ G.params → period G.hyper ≠ none → ∀ s, Q s → Q (stab G.hyper a s)) (w : ∀ a, S a)
    (hQ : Q (w a)) : Q ((counterGroup body stab period w G).1 a) := by
  have h1 := forParams_keep (body G.hyper) a Q G.params hb w hQ
  unfold counterGroup
  rcases hf : forParams (body G.hyper) G.params w with ⟨v, b, e⟩
  rw [hf] at h1
  cases e with
  | some e => exact h1
  | none =>
    dsimp only at h1 ⊢
    cases hp : period G.hyper with
    | none => exact h1
    | some k =>
      dsimp only
      rcases isMultiple (G.step + 1) k with e | c
      · exact h1
      · cases c with
        | false => exact h1
        | true => exact stabParams_keep _ a Q G.params (fun h => hs h (by rw [hp]; simp)) _ h1

theorem flagGroup_keep (a : κ) (Q : S a → Prop) (G : H × List κ)
    (hb : a ∈ G.2 → ∀ s, Q s → Q (body G.1 a s).1)
    (hs : a ∈ G.2 → ∀ s, Q s → Q (stab G.1 a s)) (w : ∀ a, S a)
    (hQ : Q (w a)) : Q ((flagGroup body stab w G).1 a) := by
  have h1 := forParams_keep (body G.1) a Q G.2 hb w hQ
  unfold flagGroup
  rcases hf : forParams (body G.1) G.2 w with ⟨v, b, e⟩
  rw [hf] at h1
  cases e with
  | some e => exact h1
  | none =>
    dsimp only at h1 ⊢
    cases b with
    | false => exact h1
    | true => exact stabParams_keep _ a Q G.2 hs _ h1

end Generic

variable {κ : Type} [DecidableEq κ] {ι : κ → Type} (P : Params κ ι)

/-- **C58, RiemannianSGD, other parameters.** Whether a parameter without gradient is in the optimiser
or not, and whatever its contents and state, makes no difference to the other parameters and to whether the
step raises. -/
theorem C58_sgd_others (a : κ) (o o' : SGD κ ι) (ha : (o.par a).grad = .none)
    (hG : o'.groups = o.groups.map fun G => { G with params := drop a G.params })
    (hpar : ∀ b, b ≠ a → o'.par b = o.par b) :
    (sgdStep P o').2 = (sgdStep P o).2 ∧
    ∀ b, b ≠ a → (sgdStep P o').1.par b = (sgdStep P o).1.par b := by
  have := forGroups_drop (sgdGroup P) a (fun G => { G with params := drop a G.params })
    (fun s => s.grad = .none) (fun G w w' hQ hw => by
      exact counterGroup_drop (κ := κ) (S := fun a => SGDParam (ι a)) _ _ _ a (fun s => s.grad = .none)
        (fun h s hs => by simp only [sgdParam, hs])
        (fun h s hs => by dsimp only [sgdStab]; split_ifs <;> exact hs) G w w' hQ hw)
    o.groups o.par o'.par ha hpar
  unfold sgdStep
  rw [hG]
  exact this

/-- **C58, RiemannianSGD, the parameter itself.** A parameter without gradient keeps its value, its
momentum buffer (in particular none is created) and its missing gradient in every step, also in one
that raises, if stabilization is off for its groups or if it has no manifold. -/
theorem C58_sgd_partial (a : κ) (o : SGD κ ι) (ha : (o.par a).grad = .none)
    (hs : P.isManifold a = false ∨ ∀ G ∈ o.groups, a ∈ G.params → G.hyper.stabilize = none) :
    (sgdStep P o).1.par a = o.par a := by
  refine forGroups_keep (sgdGroup P) a (fun s => s = o.par a) o.groups (fun G hG w hw => ?_) o.par rfl
  refine counterGroup_keep (κ := κ) (S := fun a => SGDParam (ι a)) _ _ _ a (fun s => s = o.par a) G
    ?_ ?_ w hw
  · rintro - s rfl
    simp only [sgdParam, ha]
  · rintro hm hp s rfl
    rcases hs with hs | hs
    · simp [sgdStab, hs]
    · exact absurd (hs G hG hm) hp

/-- The momentum buffer of a parameter without gradient is never created, whatever the stabilize
setting; and a parameter on its manifold (`projx` fixes it) keeps its value. -/
theorem C58_sgd_state (a : κ) (o : SGD κ ι) (ha : (o.par a).grad = .none) :
    ((o.par a).buf = none → ((sgdStep P o).1.par a).buf = none) ∧
    ((P.man a).projx (o.par a).point = (o.par a).point →
      ((sgdStep P o).1.par a).point = (o.par a).point) := by
  have key : ∀ Q : SGDParam (ι a) → Prop, Q (o.par a) →
      (∀ s, Q s → s.grad = .none) →
      (∀ h s, Q s → Q (sgdStab (P.isManifold a) (P.man a) h s)) → Q ((sgdStep P o).1.par a) := by
    intro Q hQ h1 h2
    refine forGroups_keep (sgdGroup P) a Q o.groups (fun G hG w hw => ?_) o.par hQ
    refine counterGroup_keep (κ := κ) (S := fun a => SGDParam (ι a)) _ _ _ a Q G
      (fun _ s hs => ?_) (fun _ _ s hs => h2 _ s hs) w hw
    simpa only [sgdParam, h1 s hs] using hs
  constructor
  · intro hb
    refine (key (fun s => s.grad = .none ∧ s.buf = none) ⟨ha, hb⟩ (fun s h => h.1)
      (fun h s hs => ?_)).2
    obtain ⟨x, g, b⟩ := s
    obtain ⟨h1, h2⟩ := hs
    dsimp only at h1 h2
    subst h1 h2
    dsimp only [sgdStab]
    split_ifs <;> exact ⟨rfl, rfl⟩
  · intro hp
    refine (key (fun s => s.grad = .none ∧ s.point = (o.par a).point) ⟨ha, rfl⟩ (fun s h => h.1)
      (fun h s hs => ?_)).2
    obtain ⟨x, g, b⟩ := s
    obtain ⟨h1, h2⟩ := hs
    dsimp only at h1 h2
    subst h1 h2
    dsimp only [sgdStab]
    split_ifs
    · exact ⟨rfl, rfl⟩
    · exact ⟨rfl, hp⟩
    · exact ⟨rfl, hp⟩

/-- **C58, RiemannianAdam, other parameters.** -/
theorem C58_adam_others (a : κ) (o o' : Adam κ ι) (ha : (o.par a).grad = .none)
    (hG : o'.groups = o.groups.map fun G => (G.1, drop a G.2))
    (hpar : ∀ b, b ≠ a → o'.par b = o.par b) :
    (adamStep P o').2 = (adamStep P o).2 ∧
    ∀ b, b ≠ a → (adamStep P o').1.par b = (adamStep P o).1.par b := by
  have := forGroups_drop (adamGroup P) a (fun G => (G.1, drop a G.2))
    (fun s => s.grad = .none) (fun G w w' hQ hw => by
      exact flagGroup_drop (κ := κ) (S := fun a => AdamParam (ι a)) _ _ a (fun s => s.grad = .none)
        (fun h s hs => by simp only [adamParam, hs])
        (fun h s hs => by
          unfold adamStab
          split_ifs
          · exact hs
          · cases s.state <;> exact hs) G w w' hQ hw)
    o.groups o.par o'.par ha hpar
  unfold adamStep
  rw [hG]
  exact this

/-- **C58, RiemannianAdam, the parameter itself.** A parameter without gradient that never had one
(no state) or has no manifold is untouched by every step; one on its manifold keeps its value. -/
theorem C58_adam_partial (a : κ) (o : Adam κ ι) (ha : (o.par a).grad = .none) :
    ((o.par a).state = none ∨ P.isManifold a = false → (adamStep P o).1.par a = o.par a) ∧
    ((P.man a).projx (o.par a).point = (o.par a).point →
      ((adamStep P o).1.par a).point = (o.par a).point) := by
  have key : ∀ Q : AdamParam (ι a) → Prop, Q (o.par a) →
      (∀ s, Q s → s.grad = .none) →
      (∀ s, Q s → Q (adamStab (P.isManifold a) (P.man a) s)) → Q ((adamStep P o).1.par a) := by
    intro Q hQ h1 h2
    refine forGroups_keep (adamGroup P) a Q o.groups (fun G hG w hw => ?_) o.par hQ
    refine flagGroup_keep (κ := κ) (S := fun a => AdamParam (ι a)) _ _ a Q G
      (fun _ s hs => ?_) (fun _ s hs => h2 s hs) w hw
    simpa only [adamParam, h1 s hs] using hs
  constructor
  · intro h
    refine key (fun s => s = o.par a) rfl (by rintro s rfl; exact ha) ?_
    rintro s rfl
    unfold adamStab
    rcases h with h | h
    · rw [h]; simp
    · rw [h]; simp
  · intro hp
    refine (key (fun s => s.grad = .none ∧ s.point = (o.par a).point) ⟨ha, rfl⟩ (fun s h => h.1)
      (fun s hs => ?_)).2
    obtain ⟨x, g, st⟩ := s
    obtain ⟨h1, h2⟩ := hs
    dsimp only at h1 h2
    subst h1 h2
    unfold adamStab
    split_ifs
    · exact ⟨rfl, rfl⟩
    · cases st with
      | none => exact ⟨rfl, rfl⟩
      | some st => exact ⟨rfl, hp⟩

/-- **C58 fails under stabilization**: a parameter on the sphere that has drifted to `(2, 0)` and has
no gradient is changed by a step of `RiemannianSGD` with `stabilize=1`. -/
theorem C58_counterexample_stabilize :
    let P : Params Unit fun _ => Fin 2 := ⟨fun _ => true, fun _ => sphere none⟩
    let o : SGD Unit fun _ => Fin 2 := ⟨fun _ => ⟨![2, 0], .none, none⟩,
      [⟨⟨1, 0, 0, 0, false, some 1⟩, 0, [()]⟩]⟩
    (sgdStep P o).2 = none ∧ ((sgdStep P o).1.par ()).point = ![1, 0] := by
  intro P o
  have h2 : (sphere (none : Option (Matrix (Fin 2) (Fin 2) ℝ))).projx ![2, 0] = ![1, 0] := by
    funext i
    have : Real.sqrt (2 * 2) = 2 := Real.sqrt_mul_self (by norm_num)
    fin_cases i <;> simp [sphere, Sphere.projx, Sphere.projectOnSubspace, nrm,
      this]
  have e : sgdStep P o = (⟨Function.update o.par () ⟨![1, 0], .none, none⟩,
      [⟨⟨1, 0, 0, 0, false, some 1⟩, 1, [()]⟩]⟩, none) := by
    simp [sgdStep, o, forGroups, sgdGroup, counterGroup, forParams, sgdParam, isMultiple, stabParams,
      sgdStab, P, h2]
  rw [e]
  exact ⟨rfl, by simp⟩

end C58
