import Verif.Model.Tape
import Mathlib.Order.Basic
import Mathlib.Data.Nat.Basic
import Mathlib.Tactic.SplitIfs
import Mathlib.Tactic.Common

/-!
# C135 – in-place steps inside the operations do not invalidate recorded gradients

A user calls the operations in a differentiable computation and then `backward()`.  Some operations change
tensors in place.  `backward()` raises if a tensor that a derivative needs has been changed since.
-/

namespace Geoopt.C135
open Geoopt.Tape

/-- All kept tensors exist. -/
def Exists (s : State) : Prop := ∀ p ∈ s.kept, p.1 < s.next

/-- A tensor is kept by some derivative. -/
def Kept (s : State) (a : ℕ) : Prop := ∃ v, (a, v) ∈ s.kept

/-- All calls but the retraction of `EuclideanStiefel`; the conversion of Lorentz gradients only on a
gradient that nothing keeps. -/
def Harmless (s : State) : Call → Prop
  | .stiefelRetr => False
  | .lorentzEgrad2rgrad _ _ g => ¬ Kept s g
  | _ => True

lemma bind_eq {α β : Type} (p : Rec α) (f : α → Rec β) (s : State) : (p >>= f) s = f (p s).1 (p s).2 := rfl
lemma pure_eq {α : Type} (a : α) (s : State) : (pure a : Rec α) s = (a, s) := rfl

/-- What is kept exists and is unchanged. -/
def Good (s : State) : Prop := ∀ p ∈ s.kept, p.1 < s.next ∧ s.ver p.1 = p.2

lemma good_new {s : State} (h : Good s) : Good (new s).2 := by
  intro p hp
  have h1 := h p hp
  refine ⟨Nat.lt_succ_of_lt h1.1, ?_⟩
  show Function.update s.ver s.next 0 p.1 = p.2
  rw [Function.update_of_ne (by omega), h1.2]

lemma good_keep {s : State} (h : Good s) {a : ℕ} (ha : a < s.next) : Good (keep a s).2 := by
  intro p hp
  rcases List.mem_cons.1 hp with rfl | hp
  · exact ⟨ha, rfl⟩
  · exact h p hp

lemma good_write {s : State} (h : Good s) {a : ℕ} (ha : ∀ p ∈ s.kept, p.1 ≠ a) : Good (write a s).2 := by
  intro p hp
  refine ⟨(h p hp).1, ?_⟩
  show Function.update s.ver a _ p.1 = p.2
  rw [Function.update_of_ne (ha p hp), (h p hp).2]

/-- A new tensor that is changed at once. -/
lemma good_new_write {s : State} (h : Good s) : Good (write s.next (new s).2).2 :=
  good_write (good_new h) fun p hp => by have := (h p hp).1; omega

lemma new_fst (s : State) : (new s).1 = s.next := rfl
lemma new_next (s : State) : (new s).2.next = s.next + 1 := rfl
lemma keep_next (a : ℕ) (s : State) : (keep a s).2.next = s.next := rfl
lemma write_next (a : ℕ) (s : State) : (write a s).2.next = s.next := rfl

lemma good_mul {s : State} (h : Good s) {a b : ℕ} (ha : a < s.next) (hb : b < s.next) :
    Good (mul a b s).2 := good_new (good_keep (good_keep h ha) hb)
lemma good_fn {s : State} (h : Good s) {a : ℕ} (ha : a < s.next) : Good (fn a s).2 :=
  good_new (good_keep h ha)
lemma mul_fst (a b : ℕ) (s : State) : (mul a b s).1 = s.next := rfl
lemma mul_next (a b : ℕ) (s : State) : (mul a b s).2.next = s.next + 1 := rfl
lemma fn_fst (a : ℕ) (s : State) : (fn a s).1 = s.next := rfl
lemma fn_next (a : ℕ) (s : State) : (fn a s).2.next = s.next + 1 := rfl

lemma keepAll_ok (l : List ℕ) : ∀ s : State, Good s → (∀ a ∈ l, a < s.next) →
    Good (keepAll l s).2 ∧ (keepAll l s).2.next = s.next := by
  induction l with
  | nil => intro s h _; exact ⟨h, rfl⟩
  | cons a l ih =>
    intro s h ha
    have h1 := ih (keep a s).2 (good_keep h (ha a (by simp))) fun b hb => ha b (by simp [hb])
    exact h1

lemma good_call {s : State} (h : Good s) (c : Call) (hc : Harmless s c) (ha : ∀ a ∈ c.args, a < s.next) :
    Good (c.run s).2 := by
  cases c with
  | other l b =>
    have h1 := keepAll_ok l s h ha
    have h2 := good_new h1.1
    cases b
    · exact h2
    · exact good_keep h2 (by rw [new_fst, new_next]; omega)
  | sabs x =>
    have hx : x < s.next := ha x (by simp [Call.args])
    exact good_write (good_fn h hx) fun p hp => by
      rcases List.mem_cons.1 hp with rfl | hp
      · rw [fn_fst]; show x ≠ s.next; omega
      · rw [fn_fst]; have := (h p hp).1; omega
  | cayley x u v =>
    have hx : x < s.next := ha x (by simp [Call.args])
    have hu : u < s.next := ha u (by simp [Call.args])
    have hv : v < s.next := ha v (by simp [Call.args])
    have g1 := good_mul h hu hx
    have g2 := good_mul g1 (a := x) (b := u) (by rw [mul_next]; omega) (by rw [mul_next]; omega)
    have g3 := good_new g2
    have g4 := good_new g3
    have g5 := good_mul g4 (a := s.next + 3) (b := v) (by simp only [new_next, mul_next]; omega)
      (by simp only [new_next, mul_next]; omega)
    have g6 := good_new g5
    have g7 := good_new_write g6
    have g8 := good_keep g7 (a := s.next + 6) (by simp only [write_next, new_next, mul_next]; omega)
    have g9 := good_new g8
    exact good_keep g9 (a := s.next + 7)
      (by simp only [write_next, keep_next, new_next, mul_next]; omega)
  | stiefelExpmap x u =>
    have hx : x < s.next := ha x (by simp [Call.args])
    have hu : u < s.next := ha u (by simp [Call.args])
    have g1 := good_mul h hx hu
    have g2 := good_mul g1 (a := u) (b := u) (by rw [mul_next]; omega) (by rw [mul_next]; omega)
    have g3 := good_new_write g2
    have g4 := good_new g3
    have g5 := good_fn g4 (a := s.next + 3) (by simp only [write_next, new_next, mul_next]; omega)
    have g6 := good_new g5
    have g7 := good_fn g6 (a := s.next + 5) (by simp only [fn_next, write_next, new_next, mul_next]; omega)
    have g8 := good_new (good_new (good_new g7))
    have g9 := good_mul g8 (a := s.next + 9) (b := s.next + 4)
      (by simp only [fn_next, write_next, new_next, mul_next]; omega)
      (by simp only [fn_next, write_next, new_next, mul_next]; omega)
    exact good_mul g9 (a := s.next + 10) (b := s.next + 8)
      (by simp only [fn_next, write_next, new_next, mul_next]; omega)
      (by simp only [fn_next, write_next, new_next, mul_next]; omega)
  | productDist =>
    have g1 := good_new (good_new h)
    have g2 := good_keep g1 (a := s.next + 1) (by simp only [new_next]; omega)
    have g3 := good_write g2 (a := s.next) fun p hp => by
      rcases List.mem_cons.1 hp with rfl | hp
      · show s.next + 1 ≠ s.next; omega
      · have := (h p hp).1; omega
    exact good_fn g3 (by simp only [write_next, keep_next, new_next, new_fst]; omega)
  | stiefelRetr => exact hc.elim
  | lorentzEgrad2rgrad x k g =>
    have hx : x < s.next := ha x (by simp [Call.args])
    have hk : k < s.next := ha k (by simp [Call.args])
    have hg : g < s.next := ha g (by simp [Call.args])
    have g1 := good_write h (a := g) fun p hp e => hc ⟨p.2, by rw [← e]; exact hp⟩
    have g2 := good_mul g1 (a := x) (b := g) hx hg
    have g3 := good_new g2
    have g4 := good_mul g3 (a := x) (b := k)
      (by simp only [write_next, new_next, mul_next]; omega)
      (by simp only [write_next, new_next, mul_next]; omega)
    have g5 := good_keep g4 (a := s.next + 1) (by simp only [write_next, new_next, mul_next]; omega)
    have g6 := good_keep g5 (a := s.next + 2)
      (by simp only [keep_next, write_next, new_next, mul_next]; omega)
    exact good_new g6

/-- Any computation made of the operations, in any order, of any length and on any tensors, without the
retraction of `EuclideanStiefel` and without converting Lorentz gradients that something still needs:
`backward()` at the end does not raise. -/
theorem C135_partial {s s' : State} (h : Reached Harmless s s') (he : Exists s) (hs : Ok s) : Ok s' := by
  have : Good s' := by
    induction h with
    | refl => exact fun p hp => ⟨he p hp, hs p hp⟩
    | step c _ hc ha ih => exact good_call ih c hc ha
  exact fun p hp => (this p hp).2

/-! ### once a kept tensor has been changed -/

/-- The bookkeeping only grows. -/
structure Mono (s s' : State) : Prop where
  next : s.next ≤ s'.next
  kept : ∀ p ∈ s.kept, p ∈ s'.kept
  ver : ∀ a < s.next, s.ver a ≤ s'.ver a

lemma Mono.trans {a b c : State} (h : Mono a b) (h' : Mono b c) : Mono a c :=
  ⟨Nat.le_trans h.next h'.next, fun p hp => h'.kept p (h.kept p hp), fun x hx =>
    Nat.le_trans (h.ver x hx) (h'.ver x (Nat.lt_of_lt_of_le hx h.next))⟩

lemma mono_new (s : State) : Mono s (new s).2 :=
  ⟨Nat.le_succ _, fun _ hp => hp, fun a ha => by
    show s.ver a ≤ Function.update s.ver s.next 0 a
    rw [Function.update_of_ne (by omega)]⟩
lemma mono_keep (a : ℕ) (s : State) : Mono s (keep a s).2 :=
  ⟨Nat.le_refl _, fun _ hp => List.mem_cons_of_mem _ hp, fun _ _ => Nat.le_refl _⟩
lemma mono_write (a : ℕ) (s : State) : Mono s (write a s).2 :=
  ⟨Nat.le_refl _, fun _ hp => hp, fun b _ => by
    show s.ver b ≤ Function.update s.ver a (s.ver a + 1) b
    by_cases e : b = a
    · subst e; simp
    · rw [Function.update_of_ne e]⟩
lemma mono_pure {α : Type} (a : α) (s : State) : Mono s ((pure a : Rec α) s).2 :=
  ⟨Nat.le_refl _, fun _ hp => hp, fun _ _ => Nat.le_refl _⟩
lemma mono_bind {α β : Type} {p : Rec α} {f : α → Rec β} (hp : ∀ s, Mono s (p s).2)
    (hf : ∀ a s, Mono s (f a s).2) (s : State) : Mono s ((p >>= f) s).2 := (hp s).trans (hf _ _)

lemma mono_keepAll (l : List ℕ) : ∀ s, Mono s (keepAll l s).2 := by
  induction l with
  | nil => exact mono_pure ()
  | cons a l ih => exact mono_bind (mono_keep a) fun _ => ih

lemma mono_mul (a b : ℕ) : ∀ s, Mono s (mul a b s).2 :=
  mono_bind (mono_keep a) fun _ => mono_bind (mono_keep b) fun _ => mono_new
lemma mono_fn (a : ℕ) : ∀ s, Mono s (fn a s).2 := mono_bind (mono_keep a) fun _ => mono_new

lemma mono_call (c : Call) : ∀ s, Mono s (c.run s).2 := by
  cases c with
  | other l b =>
    refine mono_bind (mono_keepAll l) fun _ => mono_bind mono_new fun r => mono_bind ?_ fun _ => mono_pure r
    cases b
    · exact mono_pure ()
    · exact mono_keep r
  | _ =>
    simp only [Call.run, Tape.sabs, transpFollowOne, Tape.stiefelExpmap, Tape.productDist,
      Tape.stiefelRetr, Tape.lorentzEgrad2rgrad]
    repeat' first
      | exact mono_new | exact mono_keep _ | exact mono_write _ | exact mono_pure _ | exact mono_mul _ _
      | exact mono_fn _ | refine mono_bind ?_ fun _ => ?_

/-- The retraction of `EuclideanStiefel` (QR) in a recorded computation, whatever was computed before and
whatever is computed after it: `backward()` raises. -/
theorem C135_counterexample_stiefel {t s' : State}
    (h : Reached (fun _ _ => True) (Call.stiefelRetr.run t).2 s') : ¬ Ok s' := by
  have hb : ∃ p ∈ s'.kept, p.1 < s'.next ∧ p.2 < s'.ver p.1 := by
    induction h with
    | refl =>
      refine ⟨(t.next + 1, 0), ?_, ?_, ?_⟩
      · simp [Call.run, Tape.stiefelRetr, bind_eq, pure_eq, new, keep, write]
      · simp [Call.run, Tape.stiefelRetr, bind_eq, pure_eq, new, keep, write]
      · simp [Call.run, Tape.stiefelRetr, bind_eq, pure_eq, new, keep, write]
    | @step w c _ _ _ ih =>
      obtain ⟨p, h1, h2, h3⟩ := ih
      have hm := mono_call c w
      exact ⟨p, hm.kept p h1, Nat.lt_of_lt_of_le h2 hm.next, Nat.lt_of_lt_of_le h3 (hm.ver _ h2)⟩
  obtain ⟨p, h1, _, h3⟩ := hb
  exact fun h => by have := h p h1; omega

/-- Converting a Lorentz gradient changes the tensor the caller handed over: if a derivative still needs
it, `backward()` raises from then on. -/
theorem C135_counterexample_lorentz {s s' : State} (he : Exists s) (x k g : ℕ) (hs : Ok s)
    (hg : Kept s g) (h : Reached (fun _ _ => True) ((Call.lorentzEgrad2rgrad x k g).run s).2 s') :
    ¬ Ok s' := by
  obtain ⟨v, hv⟩ := hg
  have hlt : g < s.next := he _ hv
  have hver : s.ver g = v := hs _ hv
  have hb : ∃ p ∈ s'.kept, p.1 < s'.next ∧ p.2 < s'.ver p.1 := by
    induction h with
    | refl =>
      refine ⟨(g, v), ?_, ?_, ?_⟩
      · simp [Call.run, Tape.lorentzEgrad2rgrad, bind_eq, new, keep, write, mul, hv]
      · simp [Call.run, Tape.lorentzEgrad2rgrad, bind_eq, new, keep, write, mul]; omega
      · have e0 : g ≠ s.next := by omega
        have e1 : g ≠ s.next + 1 := by omega
        have e2 : g ≠ s.next + 1 + 1 := by omega
        have e3 : g ≠ s.next + 1 + 1 + 1 := by omega
        simp [Call.run, Tape.lorentzEgrad2rgrad, bind_eq, new, keep, write, mul, Function.update_apply,
          e0, e1, e2, e3, hver]
    | @step w c _ _ _ ih =>
      obtain ⟨p, h1, h2, h3⟩ := ih
      have hm := mono_call c w
      exact ⟨p, hm.kept p h1, Nat.lt_of_lt_of_le h2 hm.next, Nat.lt_of_lt_of_le h3 (hm.ver _ h2)⟩
  obtain ⟨p, h1, _, h3⟩ := hb
  exact fun h => by have := h p h1; omega

/-- Three tensors, nothing kept: a Cayley retraction, the exponential and a product distance can be
called. -/
example : Exists ⟨3, fun _ => 0, []⟩ ∧ Ok ⟨3, fun _ => 0, []⟩ ∧
    ∃ s', Reached Harmless ⟨3, fun _ => 0, []⟩ s' ∧ s'.kept ≠ [] := by
  refine ⟨fun p hp => by simp at hp, fun p hp => by simp at hp, _,
    .step (.stiefelExpmap 0 1) (.step (.cayley 0 1 2) (.refl _) trivial ?_) trivial ?_, ?_⟩
  · intro a ha; simp [Call.args] at ha; rcases ha with rfl | rfl | rfl <;> simp
  · intro a ha
    simp [Call.args] at ha
    rcases ha with rfl | rfl <;> simp [Call.run, transpFollowOne, bind_eq, pure_eq, new, keep, write, mul]
  · simp [Call.run, Tape.stiefelExpmap, bind_eq, new, keep, write, mul]

end Geoopt.C135
