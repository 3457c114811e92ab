import Verif.Spec.Interface
import Mathlib.Tactic.NormNum
import Mathlib.Data.Set.Function

/-!
# C104: manifolds can be used through the common interface
-/

namespace Geoopt.C104
open Geoopt Geoopt.Interface Geoopt.Scaled

variable {E : Type}

/-! ### Binding of arguments -/

theorem mapM_ok {α β ε : Type} {f : α → Except ε (α × β)} {v : α → β} :
    ∀ l : List α, (∀ p ∈ l, f p = .ok (p, v p)) → l.mapM f = .ok (l.map fun p => (p, v p))
  | [], _ => rfl
  | a :: l, h => by
    rw [List.mapM_cons, h a (by simp), mapM_ok l fun p hp => h p (by simp [hp])]
    rfl

theorem mapM_inv {α β ε : Type} {f : α → Except ε (α × β)} (hf : ∀ p q, f p = .ok q → q.1 = p) :
    ∀ (l : List α) (r : List (α × β)), l.mapM f = .ok r → ∀ p ∈ l, ∃ v, f p = .ok (p, v)
  | [], _, _, p, hp => by simp at hp
  | a :: l, r, h, p, hp => by
    rw [List.mapM_cons] at h
    cases e : f a with
    | error x => rw [e] at h; cases h
    | ok q =>
      rw [e] at h
      cases e' : l.mapM f with
      | error x => rw [e'] at h; cases h
      | ok r' =>
        rcases List.mem_cons.1 hp with rfl | hp
        · exact ⟨q.2, by rw [e, ← hf p q e]⟩
        · exact mapM_inv hf l r' e' p hp

theorem lookup_map {β : Type} {v : String → β} {p : String} :
    ∀ l : List String, p ∈ l → (l.map fun p => (p, v p)).lookup p = some (v p)
  | [], h => by simp at h
  | a :: l, h => by
    simp only [List.map_cons, List.lookup_cons]
    by_cases e : p = a
    · subst e; simp
    · rw [beq_eq_false_iff_ne.2 e]
      exact lookup_map l ((List.mem_cons.1 h).resolve_left e)

theorem lookup_none {β : Type} {p : String} :
    ∀ l : List (String × β), (∀ q ∈ l, q.1 ≠ p) → l.lookup p = none
  | [], _ => rfl
  | a :: l, h => by
    rw [List.lookup_cons, beq_eq_false_iff_ne.2 (h a (by simp)).symm]
    exact lookup_none l fun q hq => h q (by simp [hq])

theorem lookup_some {β : Type} {p : String} {v : β} :
    ∀ l : List (String × β), l.lookup p = some v → ∃ q ∈ l, q.1 = p
  | [], h => by simp at h
  | a :: l, h => by
    rw [List.lookup_cons] at h
    by_cases e : p = a.1
    · exact ⟨a, by simp, e.symm⟩
    · rw [beq_eq_false_iff_ne.2 e] at h
      obtain ⟨q, hq, h'⟩ := lookup_some l h
      exact ⟨q, by simp [hq], h'⟩

theorem lookup_zip {β : Type} {σ : String → String} {more : List String} :
    ∀ (l : List String) (pos : List β) (p : String), (∀ q ∈ l, σ q = σ p → q = p) →
      (more = [] ∨ pos.length ≤ l.length) →
      ((l.map σ ++ more).zip pos).lookup (σ p) = (l.zip pos).lookup p
  | [], pos, p, _, h => by
    rcases h with rfl | h
    · simp
    · have : pos = [] := List.length_eq_zero_iff.1 (Nat.le_zero.1 h)
      subst this; simp
  | a :: l, [], p, _, _ => by simp
  | a :: l, x :: pos, p, hi, h => by
    simp only [List.map_cons, List.cons_append, List.zip_cons_cons, List.lookup_cons]
    have ih := lookup_zip (more := more) l pos p (fun q hq => hi q (by simp [hq]))
      (h.imp id fun h => by simpa using h)
    by_cases e : p = a
    · subst e; simp
    · rw [beq_eq_false_iff_ne.2 e, beq_eq_false_iff_ne.2 fun h => e (hi a (by simp) h.symm).symm]
      exact ih

theorem zip_keys {β : Type} {more : List String} : ∀ {l : List String} {pos : List β},
    (more = [] ∨ pos.length ≤ l.length) → ∀ q ∈ (l ++ more).zip pos, q.1 ∈ l
  | [], pos, h, q, hq => by
    rcases h with rfl | h
    · simp at hq
    · have : pos = [] := List.length_eq_zero_iff.1 (Nat.le_zero.1 h)
      subst this; simp at hq
  | a :: l, [], _, q, hq => by simp at hq
  | a :: l, x :: pos, h, q, hq => by
    simp only [List.cons_append, List.zip_cons_cons, List.mem_cons] at hq
    rcases hq with rfl | hq
    · simp
    · exact List.mem_cons_of_mem _ (zip_keys (h.imp id fun h => by simpa using h) q hq)

/-- A sufficient condition that can be read off two signatures. -/
theorem accepts_of {σ : String → String} {base sub : Method E} {more : List String}
    (hp : sub.params = base.params.map σ ++ more) (hv : more = [] ∨ base.varPos = false)
    (hvar : sub.varPos = base.varPos) (hkw : base.varKw = false)
    (hn : ∀ p ∈ names base, σ p ∈ names sub ∧ sub.defaults.lookup (σ p) = base.defaults.lookup p)
    (hd : ∀ p ∈ names sub, p ∉ (names base).map σ → (sub.defaults.lookup p).isSome)
    (hi : ∀ p ∈ names base, ∀ q ∈ names base, σ p = σ q → p = q) : Accepts σ base sub := by
  intro pos kw b hσ hb
  unfold Method.bind at hb
  by_cases h1 : base.params.length < pos.length ∧ base.varPos = false
  · rw [if_pos h1] at hb; cases hb
  rw [if_neg h1] at hb
  by_cases h2 : (kw.filter fun q => !(base.params ++ base.kwonly).contains q.1) ≠ [] ∧ base.varKw = false
  · rw [if_pos h2] at hb; cases hb
  rw [if_neg h2] at hb
  have hex : (kw.filter fun q => !(base.params ++ base.kwonly).contains q.1) = [] := by
    by_contra h; exact h2 ⟨h, hkw⟩
  have hkeys : ∀ q ∈ kw, q.1 ∈ names base := by
    intro q hq
    have := List.filter_eq_nil_iff.1 hex q hq
    simpa [names, or_iff_not_imp_left] using this
  cases hm : (base.params ++ base.kwonly).mapM (bindOne base (base.params.zip pos) kw) with
  | error e => rw [hm] at hb; cases hb
  | ok r =>
    rw [hm] at hb
    injection hb with hb
    have hf : ∀ p q, bindOne base (base.params.zip pos) kw p = .ok q → q.1 = p := by
      intro p q h
      unfold bindOne at h
      split at h <;> first | (injection h with h; rw [← h]) | cases h
    have hlen : more = [] ∨ pos.length ≤ base.params.length := by
      rcases hv with h | h
      · exact .inl h
      · right; by_contra h'; exact h1 ⟨by omega, h⟩
    have hval := mapM_inv hf _ _ hm
    classical
    haveI : Nonempty (Val E) := ⟨.other 0⟩
    choose! v hv' using hval
    have hr : r = (base.params ++ base.kwonly).map fun p => (p, v p) := by
      have := mapM_ok _ hv'
      rw [this] at hm; injection hm with hm; exact hm.symm
    have hkl : ∀ p ∈ names base, kw.lookup (σ p) = kw.lookup p := by
      intro p hp
      by_cases e : σ p = p
      · rw [e]
      · rw [lookup_none kw fun q hq h => e ?_, lookup_none kw fun q hq h => e ?_]
        · rw [← h]; exact hσ q hq
        · have h3 := hσ q hq
          have : σ q.1 = σ p := by rw [h3, h]
          rw [← hi _ (hkeys q hq) _ hp this]; exact h3
    have hsame : ∀ p ∈ names base, bindOne sub (sub.params.zip pos) kw (σ p) = .ok (σ p, v p) := by
      intro p hpn
      have hb := hv' p hpn
      unfold bindOne at hb ⊢
      rw [hp, lookup_zip base.params pos p (fun q hq h => hi q (by simp [names, hq]) p hpn h) hlen,
        hkl p hpn, (hn p hpn).2]
      split at hb <;> simp_all
    have hrest : ∀ p ∈ names sub, p ∉ (names base).map σ →
        bindOne sub (sub.params.zip pos) kw p = .ok (p, ((sub.defaults.lookup p).getD (.other 0))) := by
      intro p hps hpn
      have e1 : (sub.params.zip pos).lookup p = none := by
        rw [hp]
        refine lookup_none _ fun q hq h => hpn ?_
        have h4 := zip_keys (l := base.params.map σ) (by simpa using hlen) q hq
        rw [h] at h4
        exact List.map_subset σ (by simp [names]) h4
      have e2 : kw.lookup p = none := lookup_none _ fun q hq h => hpn (by
        rw [← h]; exact List.mem_map.2 ⟨q.1, hkeys q hq, hσ q hq⟩)
      obtain ⟨w, hw⟩ := Option.isSome_iff_exists.1 (hd p hps hpn)
      unfold bindOne
      rw [e1, e2, hw]; rfl
    let w : String → Val E := fun p =>
      if h : ∃ q ∈ names base, σ q = p then v h.choose else (sub.defaults.lookup p).getD (.other 0)
    have hwσ : ∀ p ∈ names base, w (σ p) = v p := by
      intro p hpn
      have h : ∃ q ∈ names base, σ q = σ p := ⟨p, hpn, rfl⟩
      simp only [w, dif_pos h]
      rw [hi _ h.choose_spec.1 _ hpn h.choose_spec.2]
    have hwr : ∀ p, p ∉ (names base).map σ → w p = (sub.defaults.lookup p).getD (.other 0) := by
      intro p hpn
      simp only [w]
      rw [dif_neg fun h => hpn (List.mem_map.2 ?_)]
      obtain ⟨q, h1, h2⟩ := h; exact ⟨q, h1, h2⟩
    have hall : ∀ p ∈ names sub, bindOne sub (sub.params.zip pos) kw p = .ok (p, w p) := by
      intro p hps
      by_cases h : p ∈ (names base).map σ
      · obtain ⟨q, hq, rfl⟩ := List.mem_map.1 h
        rw [hsame q hq, hwσ q hq]
      · rw [hrest p hps h, hwr p h]
    have hex' : (kw.filter fun q => !(sub.params ++ sub.kwonly).contains q.1) = [] := by
      refine List.filter_eq_nil_iff.2 fun q hq => ?_
      have := (hn q.1 (hkeys q hq)).1
      rw [hσ q hq] at this
      simpa [names, or_iff_not_imp_left] using this
    refine ⟨⟨(names sub).map fun p => (p, w p), pos.drop sub.params.length, []⟩, ?_, ?_, ?_, ?_, ?_⟩
    · unfold Method.bind
      rw [if_neg, if_neg]
      · rw [show (sub.params ++ sub.kwonly).mapM (bindOne sub (sub.params.zip pos) kw) = _ from
          mapM_ok (names sub) hall, hex']
      · rw [hex']; simp
      · rw [hvar, hp]
        rintro ⟨h3, h4⟩
        refine h1 ⟨lt_of_le_of_lt ?_ h3, h4⟩
        simp
    · intro p hpn
      rw [lookup_map _ (hn p hpn).1, hwσ p hpn, ← hb, hr]
      exact (lookup_map _ hpn).symm
    · intro p hps hpn
      rw [lookup_map _ hps, hwr p hpn]
      obtain ⟨x, hx⟩ := Option.isSome_iff_exists.1 (hd p hps hpn)
      rw [hx]; rfl
    · rw [← hb]
      simp only
      rcases hlen with h | h
      · rw [hp, h]; simp
      · rw [List.drop_eq_nil_of_le (by rw [hp]; simp; omega), List.drop_eq_nil_of_le h]
    · rw [← hb, hex]

theorem accepts_self (m : Method E) (h : m.varKw = false) : Accepts id m m :=
  accepts_of (more := []) (by simp) (.inl rfl) rfl h (fun p hp => ⟨hp, rfl⟩)
    (fun p hp h => absurd (by simpa using hp) h) (fun _ _ _ _ h => h)

/-! ### The classes of the library -/

theorem accepts_stereographic (op : Op) :
    Accepts (E := E) id (baseSig op) ((stereographicSig op).getD (baseSig op)) := by
  have hbase : (baseSig op : Method E).varKw = false := by cases op <;> rfl
  cases op <;> first
    | exact accepts_self _ hbase
    | exact accepts_of (more := []) rfl (.inl rfl) rfl rfl
        (by simp [names, baseSig, stereographicSig, sg, List.lookup_cons])
        (by simp [names, baseSig, stereographicSig, sg, List.lookup_cons])
        (by simp [names, baseSig, sg])

theorem accepts_stereographic_exact (op : Op) :
    Accepts (E := E) id (baseSig op) ((stereographicExactSig op).getD (baseSig op)) := by
  have hbase : (baseSig op : Method E).varKw = false := by cases op <;> rfl
  cases op <;> first
    | exact accepts_self _ hbase
    | exact accepts_of (more := []) rfl (.inl rfl) rfl rfl
        (by simp [names, baseSig, stereographicExactSig, stereographicSig, sg, List.lookup_cons])
        (by simp [names, baseSig, stereographicExactSig, stereographicSig, sg, List.lookup_cons])
        (by simp [names, baseSig, sg])

/-- **C104.** Every call accepted by the signature in the base class is accepted by every manifold class,
and its arguments end up in the corresponding parameters, except for `Lorentz.norm` and for keyword arguments
that the class has renamed. -/
theorem C104_interface_partial (c : Cls) (op : Op) (h : ¬(c = .lorentz ∧ op = .norm)) :
    Accepts (E := E) (rename c op) (baseSig op) (sigOf c op) := by
  have hbase : (baseSig op : Method E).varKw = false := by cases op <;> rfl
  cases c with
  | lorentz =>
    cases op <;> first
      | exact absurd ⟨rfl, rfl⟩ h
      | exact accepts_self _ hbase
      | exact accepts_of (more := []) rfl (.inl rfl) rfl rfl
          (by simp [names, baseSig, sigOf, override, lorentzSig, sg, rename, List.lookup_cons])
          (by simp [names, baseSig, sigOf, override, lorentzSig, sg, rename, List.lookup_cons])
          (by simp [names, baseSig, rename, sg])
  | boundedDomain =>
    cases op <;> first
      | exact accepts_self _ hbase
      | exact accepts_of (more := []) rfl (.inl rfl) rfl rfl
          (by simp [names, baseSig, sigOf, override, boundedDomainSig, sg, rename, List.lookup_cons])
          (by simp [names, baseSig, sigOf, override, boundedDomainSig, sg, rename, List.lookup_cons])
          (by simp [names, baseSig, rename, sg])
  | upperHalf =>
    cases op <;> first
      | exact accepts_self _ hbase
      | exact accepts_of (more := []) rfl (.inl rfl) rfl rfl
          (by simp [names, baseSig, sigOf, override, upperHalfSig, sg, rename, List.lookup_cons])
          (by simp [names, baseSig, sigOf, override, upperHalfSig, sg, rename, List.lookup_cons])
          (by simp [names, baseSig, rename, sg])
  | symmetricPositiveDefinite =>
    cases op <;> first
      | exact accepts_self _ hbase
      | exact accepts_of (more := []) rfl (.inl rfl) rfl rfl
          (by simp [names, baseSig, sigOf, override, spdSig, sg, rename, List.lookup_cons])
          (by simp [names, baseSig, sigOf, override, spdSig, sg, rename, List.lookup_cons])
          (by simp [names, baseSig, rename, sg])
      | exact accepts_of (more := ["keepdim"]) rfl (.inr rfl) rfl rfl
          (by simp [names, baseSig, sigOf, override, spdSig, sg, rename, List.lookup_cons])
          (by simp [names, baseSig, sigOf, override, spdSig, sg, rename, List.lookup_cons])
          (by simp [names, baseSig, rename, sg])
  | stereographic => exact accepts_stereographic op
  | poincareBall => exact accepts_stereographic op
  | sphereProjection => exact accepts_stereographic op
  | stereographicExact => exact accepts_stereographic_exact op
  | poincareBallExact => exact accepts_stereographic_exact op
  | sphereProjectionExact => exact accepts_stereographic_exact op
  | _ => exact accepts_self _ hbase

/-- Only the operations listed in `Renames` rename a parameter: everywhere else calls by keyword work too. -/
theorem C104_keywords (c : Cls) (op : Op) (h : ¬Renames c op) : rename c op = id := by
  funext p
  unfold rename
  split <;> first | rfl | exact absurd (by simp [Renames]) h

/-- `Lorentz.norm` has no parameter for the point: **every** call `norm(x, u, ...)` raises `TypeError`,
although the base class accepts `norm(x, u)`. -/
theorem C104_counterexample_lorentz_norm (x u : Val E) :
    (∃ b, (baseSig .norm : Method E).bind [x, u] [] = .ok b) ∧
    ∀ kw, (sigOf .lorentz .norm : Method E).bind [x, u] kw = .error .typeError := by
  refine ⟨⟨⟨[("x", x), ("u", u), ("keepdim", pyFalse)], [], []⟩, rfl⟩, fun kw => ?_⟩
  simp [Method.bind, sigOf, override, lorentzSig, sg]

/-- The same through `Scaled(Lorentz())`, whatever the scale and the body of `norm` are. -/
theorem C104_counterexample_scaled_lorentz [AddCommGroup E] [Module ℝ E] (c : Scaled.Cls E) (m : Method E)
    (hm : c.methods "norm" = some m)
    (hsig : m.params = (sigOf .lorentz .norm : Method E).params ∧ m.varPos = false)
    (hs : c.scaling = manifoldScaling) (scale : ℝ) (x u : Val E) :
    (Man.scaled (.base c) scale).call "norm" [x, u] [] = .error .typeError := by
  have h1 : m.params = ["u"] := hsig.1
  have h2 : (Man.scaled (.base c) scale : Man E).getattr "norm" =
      .ok (forwarder ⟨["x", "u"], ["keepdim"], [("keepdim", pyFalse)], false⟩ (.ok m)) := by
    simp [Man.getattr, Man.getattr', Man.scaling, hs, manifoldScaling, List.lookup_cons, manifoldDefault,
      forwardSig, hm]
  unfold Man.call
  rw [h2]
  have h3 : (forwarder ⟨["x", "u"], ["keepdim"], [("keepdim", pyFalse)], false⟩ (.ok m) : Method E).bind
      [x, u] [] = .ok ⟨[("x", x), ("u", u), ("keepdim", pyFalse)], [], []⟩ := rfl
  simp only [Method.call]
  rw [h3]
  simp [forwarder, Method.call, Method.bind, Bound.get, List.lookup_cons, h1, hsig.2]

/-- Each of the renamed parameters is a call by keyword that the base class accepts and the class does
not. -/
theorem C104_counterexample_keywords (c : Cls) (op : Op) (h : Renames c op) (x y : Val E) :
    ∃ kw b, (baseSig op : Method E).bind [] kw = .ok b ∧
      (sigOf c op : Method E).bind [] kw = .error .typeError := by
  cases c <;> cases op <;> simp only [Renames, reduceCtorEq, or_self, or_true, true_or, or_false] at h
  · exact ⟨[("x", x), ("u", y)], _, rfl, rfl⟩
  · exact ⟨[("x", x), ("y", y)], _, rfl, rfl⟩
  · exact ⟨[("x", x), ("u", y)], _, rfl, rfl⟩
  · exact ⟨[("x", x), ("u", y)], _, rfl, rfl⟩
  · exact ⟨[("x", x)], _, rfl, rfl⟩
  · exact ⟨[("x", x), ("y", y)], _, rfl, rfl⟩
  · exact ⟨[("x", x), ("u", y)], _, rfl, rfl⟩
  · exact ⟨[("x", x), ("u", y)], _, rfl, rfl⟩
  · exact ⟨[("x", x)], _, rfl, rfl⟩
  · exact ⟨[("x", x), ("y", y)], _, rfl, rfl⟩

/-- A concrete case: `inner(x, u, keepdim=True)` on the Poincaré ball. -/
example (x u : Val E) : ∃ b, (sigOf .poincareBall .inner : Method E).bind [x, u] [("keepdim", pyTrue)] = .ok b ∧
    b.named = [("x", x), ("u", u), ("v", pyNone), ("keepdim", pyTrue), ("dim", .num (-1))] :=
  ⟨_, rfl, rfl⟩

end Geoopt.C104
