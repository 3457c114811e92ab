import Verif.Spec.Optim
import Mathlib.Tactic

/-! Lemmas about the loops of the optimisers. -/

namespace Geoopt.Optim

variable {κ : Type} [DecidableEq κ] {S : κ → Type}

theorem forParams_inv (f : ∀ a, S a → S a × Bool × Option PyErr) (Q : ∀ a, S a → Prop)
    (R : ∀ a, S a → Prop) (as : List κ) (hn : as.Nodup)
    (hf : ∀ a ∈ as, ∀ s, Q a s → R a s → Q a (f a s).1) (w : ∀ a, S a) (hQ : ∀ a, Q a (w a))
    (hR : ∀ a ∈ as, R a (w a)) : ∀ a, Q a ((forParams f as w).1 a) := by
  induction as generalizing w with
  | nil => exact hQ
  | cons a as ih =>
    rw [List.nodup_cons] at hn
    have hQ' : ∀ b, Q b (Function.update w a (f a (w a)).1 b) := by
      intro b
      by_cases h : b = a
      · subst h
        rw [Function.update_self]
        exact hf b (by simp) _ (hQ b) (hR b (by simp))
      · rw [Function.update_of_ne h]; exact hQ b
    rw [forParams]
    rcases hfa : f a (w a) with ⟨s, b, e⟩
    rw [hfa] at hQ'
    cases e with
    | some e => exact hQ'
    | none =>
      exact ih hn.2 (fun c hc => hf c (by simp [hc])) _ hQ' fun c hc => by
        rw [Function.update_of_ne (by rintro rfl; exact hn.1 hc)]
        exact hR c (by simp [hc])

theorem forParams_inv' (f : ∀ a, S a → S a × Bool × Option PyErr) (Q : ∀ a, S a → Prop)
    (as : List κ) (hf : ∀ a ∈ as, ∀ s, Q a s → Q a (f a s).1) (w : ∀ a, S a)
    (hQ : ∀ a, Q a (w a)) : ∀ a, Q a ((forParams f as w).1 a) := by
  induction as generalizing w with
  | nil => exact hQ
  | cons a as ih =>
    have hQ' : ∀ b, Q b (Function.update w a (f a (w a)).1 b) := by
      intro b
      by_cases h : b = a
      · subst h
        rw [Function.update_self]
        exact hf b (by simp) _ (hQ b)
      · rw [Function.update_of_ne h]; exact hQ b
    rw [forParams]
    rcases hfa : f a (w a) with ⟨s, b, e⟩
    rw [hfa] at hQ'
    cases e with
    | some e => exact hQ'
    | none => exact ih (fun c hc => hf c (by simp [hc])) _ hQ'

theorem forParams_of_notMem (f : ∀ a, S a → S a × Bool × Option PyErr) (as : List κ) (b : κ)
    (hb : b ∉ as) (w : ∀ a, S a) : (forParams f as w).1 b = w b := by
  induction as generalizing w with
  | nil => rfl
  | cons a as ih =>
    simp only [List.mem_cons, not_or] at hb
    rw [forParams]
    rcases hfa : f a (w a) with ⟨s, c, e⟩
    cases e with
    | some e => exact Function.update_of_ne hb.1 _ _
    | none =>
      simp only
      rw [ih hb.2, Function.update_of_ne hb.1]

/-- A loop that does not raise applies the body once to every parameter. -/
theorem forParams_ok (f : ∀ a, S a → S a × Bool × Option PyErr) (as : List κ) (hn : as.Nodup)
    (w : ∀ a, S a) (h : ∀ a ∈ as, (f a (w a)).2.2 = none) :
    (forParams f as w).2.2 = none ∧
    (∀ a ∈ as, (forParams f as w).1 a = (f a (w a)).1) ∧
    (forParams f as w).2.1 = as.any fun a => (f a (w a)).2.1 := by
  induction as generalizing w with
  | nil => simp [forParams]
  | cons a as ih =>
    rw [List.nodup_cons] at hn
    have ha := h a (by simp)
    have hne : ∀ c ∈ as, c ≠ a := by rintro c hc rfl; exact hn.1 hc
    have hsame : ∀ (s : S a), ∀ c ∈ as, Function.update w a s c = w c := fun s c hc =>
      Function.update_of_ne (hne c hc) _ _
    rw [forParams]
    rcases hfa : f a (w a) with ⟨s, b, e⟩
    rw [hfa] at ha
    simp only at ha
    subst ha
    obtain ⟨h1, h2, h3⟩ := ih hn.2 (Function.update w a s) fun c hc => by
      rw [hsame s c hc]; exact h c (by simp [hc])
    refine ⟨h1, ?_, ?_⟩
    · intro c hc
      simp only
      rcases List.mem_cons.1 hc with rfl | hc
      · rw [forParams_of_notMem f as c hn.1, Function.update_self, hfa]
      · rw [h2 c hc, hsame s c hc]
    · simp only [List.any_cons, hfa]
      rw [h3]
      congr 1
      rw [Bool.eq_iff_iff, List.any_eq_true, List.any_eq_true]
      constructor
      · rintro ⟨c, hc, he⟩; exact ⟨c, hc, by rw [hsame s c hc] at he; exact he⟩
      · rintro ⟨c, hc, he⟩; exact ⟨c, hc, by rw [hsame s c hc]; exact he⟩

theorem stabParams_inv (f : ∀ a, S a → S a) (Q : ∀ a, S a → Prop) (as : List κ)
    (hf : ∀ a ∈ as, ∀ s, Q a s → Q a (f a s)) (w : ∀ a, S a) (hQ : ∀ a, Q a (w a)) :
    ∀ a, Q a (stabParams f as w a) := by
  induction as generalizing w with
  | nil => exact hQ
  | cons a as ih =>
    refine ih (fun c hc => hf c (by simp [hc])) _ fun b => ?_
    change Q b (Function.update w a (f a (w a)) b)
    by_cases h : b = a
    · subst h; rw [Function.update_self]; exact hf b (by simp) _ (hQ b)
    · rw [Function.update_of_ne h]; exact hQ b

theorem stabParams_of_notMem (f : ∀ a, S a → S a) (as : List κ) (b : κ) (hb : b ∉ as)
    (w : ∀ a, S a) : stabParams f as w b = w b := by
  induction as generalizing w with
  | nil => rfl
  | cons a as ih =>
    simp only [List.mem_cons, not_or] at hb
    change stabParams f as (Function.update w a (f a (w a))) b = w b
    rw [ih hb.2, Function.update_of_ne hb.1]

theorem stabParams_mem (f : ∀ a, S a → S a) (as : List κ) (hn : as.Nodup) (b : κ) (hb : b ∈ as)
    (w : ∀ a, S a) : stabParams f as w b = f b (w b) := by
  induction as generalizing w with
  | nil => cases hb
  | cons a as ih =>
    rw [List.nodup_cons] at hn
    change stabParams f as (Function.update w a (f a (w a))) b = f b (w b)
    rcases List.mem_cons.1 hb with rfl | hb'
    · rw [stabParams_of_notMem f as b hn.1, Function.update_self]
    · rw [ih hn.2 hb', Function.update_of_ne (by rintro rfl; exact hn.1 hb')]

end Geoopt.Optim
