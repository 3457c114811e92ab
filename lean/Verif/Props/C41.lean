import Verif.Lemmas.Product

/-!
# C41, C42, C44: packing, componentwise operations and layout of `ProductManifold`

Statements are about a product `P` returned by the constructor, `init ms = .ok P`, where `ms` lists
the components with their shapes.  `size` is the number of entries of a component; a tensor with
batch shape `B` has shape `B ++ [n]` as a point of the product and `B ++ shape` as a part.
-/

open Geoopt Geoopt.Product Geoopt.Buf

namespace C41

/-- Number of entries of a tensor of the given shape. -/
def size (shape : List ℕ) : ℕ := shape.prod

variable {ms : List (Manifold × List ℕ)} {P : Prod}

theorem parts_forall₂ {R : Part → T → Prop} {S : Manifold × List ℕ → T → Prop}
    (h : init ms = .ok P) (ts : List T)
    (hRS : ∀ p t, S (p.man, p.shape) t → R p t) (hS : List.Forall₂ S ms ts) :
    List.Forall₂ R P.parts ts := by
  have e := (init_ok ms P h).2
  rw [← e, List.forall₂_map_left_iff] at hS
  exact hS.imp fun p t => hRS p t

/-- **C41 (partial).** Packing parts of matching shapes gives a tensor of the product, and unpacking it
gives the parts back.  Missing: an empty batch (`B.prod = 0`), where packing raises. -/
theorem C41_unpack_pack_partial (h : init ms = .ok P) (B : List ℕ) (hB : size B ≠ 0) (ts : List T)
    (hts : List.Forall₂ (fun m t => t.shape = B ++ m.2) ms ts) :
    ∃ t, pack P ts = .ok t ∧ t.shape = B ++ [(ms.map fun m => size m.2).sum] ∧
      unpack P t = .ok ts := by
  obtain ⟨hP, e⟩ := init_ok ms P h
  obtain ⟨t, h1, h2, h3⟩ := pack_ok P hP B hB ts
    (parts_forall₂ h ts (fun p t ht => ht) hts)
  refine ⟨t, h1, ?_, ?_⟩
  · rw [h2, hP.size, total, ← e, List.map_map]
    rfl
  · exact (mapM_ok_iff _ _ _).2 h3

/-- **C41 (partial).** Unpacking a tensor of the product and packing the parts gives it back. -/
theorem C41_pack_unpack_partial (h : init ms = .ok P) (B : List ℕ) (hB : size B ≠ 0) (t : T)
    (ht : t.shape = B ++ [P.nElements]) :
    ∃ ts, unpack P t = .ok ts ∧ pack P ts = .ok t ∧
      List.Forall₂ (fun m s => s.shape = B ++ m.2) ms ts := by
  obtain ⟨hP, e⟩ := init_ok ms P h
  have hex : ∀ ps : List Part, (∀ p ∈ ps, p ∈ P.parts) → ∃ ts, ps.mapM (fun p => takePart p t) = .ok ts ∧
      List.Forall₂ (fun p s => s.shape = B ++ p.shape) ps ts := by
    intro ps hps
    induction ps with
    | nil => exact ⟨[], rfl, .nil⟩
    | cons p ps ih =>
      obtain ⟨a, ea, ha⟩ := takePart_ok P hP p (hps p (by simp)) t B ht
      obtain ⟨ts, e1, e2⟩ := ih fun q hq => hps q (by simp [hq])
      refine ⟨a :: ts, ?_, .cons ha e2⟩
      rw [List.mapM_cons, ea, e1]
      rfl
  obtain ⟨ts, h1, h2⟩ := hex P.parts fun p hp => hp
  obtain ⟨t', p1, p2, p3⟩ := pack_ok P hP B hB ts h2
  refine ⟨ts, h1, ?_, ?_⟩
  · rw [p1]
    congr 1
    apply ext_parts P hP B t' t p2 ht
    have q3 := (mapM_ok_iff _ _ _).1 h1
    intro p hp
    obtain ⟨i, hi, rfl⟩ := List.mem_iff_getElem.1 hp
    have l := q3.length_eq
    have a1 := (List.forall₂_iff_get.1 p3).2 i hi (by omega)
    have a2 := (List.forall₂_iff_get.1 q3).2 i hi (by omega)
    simp only [List.get_eq_getElem] at a1 a2
    rw [a1, a2]
  · rw [← e, List.forall₂_map_left_iff]
    exact h2

/-- **C41.** A wrong number of parts is refused with `ValueError`. -/
theorem C41_wrong_count (h : init ms = .ok P) (ts : List T) (hlen : ts.length ≠ ms.length) :
    pack P ts = .error .valueError := by
  have e := (init_ok ms P h).2
  have : ts.length ≠ P.parts.length := by rw [← e] at hlen; simpa using hlen
  unfold pack
  simp [this, bind, Except.bind, throw, throwThe, MonadExceptOf.throw]

/-- The trailing axes of a tensor of shape `s` are `c`. -/
def EndsWith (s c : List ℕ) : Prop := ∃ b, s = b ++ c

theorem flattenPart_bad (p : Part) (t : T) (h : ¬ EndsWith t.shape p.shape) :
    flattenPart p t = .error .valueError := by
  unfold flattenPart
  have hne : 0 < p.shape.length := by
    rcases hp : p.shape with _ | ⟨a, l⟩
    · exact absurd ⟨t.shape, by rw [hp, List.append_nil]⟩ h
    · simp
  rw [if_pos hne, if_pos]
  intro e
  apply h
  refine ⟨t.shape.take (t.shape.length - p.shape.length), ?_⟩
  conv_lhs => rw [← List.take_append_drop (t.shape.length - p.shape.length) t.shape]
  rw [e]

theorem flattenPart_good (p : Part) (t : T) (h : EndsWith t.shape p.shape)
    (hne : size t.shape ≠ 0) : ∃ f, flattenPart p t = .ok f := by
  obtain ⟨b, hb⟩ := h
  rw [flattenPart_ok p t b hb]
  have : b.prod ≠ 0 := by
    intro e; apply hne; rw [size, hb, List.prod_append, e, Nat.zero_mul]
  obtain ⟨f, e, -⟩ := reshapeInfer_ok t b p.shape hb this
  exact ⟨f, e⟩

/-- **C41.** A part whose trailing axes are not the component's shape is refused with `ValueError`
(parts without entries aside, which may fail earlier). -/
theorem C41_wrong_shape (h : init ms = .ok P) (ts : List T) (hne : ∀ t ∈ ts, size t.shape ≠ 0)
    (i : ℕ) (m : Manifold × List ℕ) (t : T) (hi : ms[i]? = some m) (ht : ts[i]? = some t)
    (hbad : ¬ EndsWith t.shape m.2) : pack P ts = .error .valueError := by
  by_cases hlen : ts.length = ms.length
  swap
  · exact C41_wrong_count h ts hlen
  have e := (init_ok ms P h).2
  have hlen' : ts.length = P.parts.length := by rw [hlen, ← e]; simp
  rw [← e, List.getElem?_map] at hi
  obtain ⟨p, hp, rfl⟩ : ∃ p, P.parts[i]? = some p ∧ (p.man, p.shape) = m := by
    cases hq : P.parts[i]? with
    | none => rw [hq] at hi; cases hi
    | some p => rw [hq] at hi; exact ⟨p, rfl, Option.some.inj hi⟩
  have key : ∀ (l : List (Part × T)), (∀ q ∈ l, size q.2.shape ≠ 0) → (p, t) ∈ l →
      l.mapM (fun (p, t) => flattenPart p t) = .error .valueError := by
    intro l hl hm
    induction l with
    | nil => simp at hm
    | cons q l ih =>
      rw [List.mapM_cons]
      by_cases hq : EndsWith q.2.shape q.1.shape
      · obtain ⟨f, ef⟩ := flattenPart_good q.1 q.2 hq (hl q (by simp))
        have hm' : (p, t) ∈ l := by
          rcases List.mem_cons.1 hm with e | e
          · subst e; exact absurd hq hbad
          · exact e
        simp only [ef]
        rw [ih (fun r hr => hl r (by simp [hr])) hm']
        rfl
      · simp only [flattenPart_bad q.1 q.2 hq]
        rfl
  have hz : (p, t) ∈ P.parts.zip ts := by
    rw [List.mem_iff_getElem?]
    exact ⟨i, by rw [List.getElem?_zip_eq_some]; exact ⟨hp, ht⟩⟩
  unfold pack
  simp only [bind, Except.bind, hlen', ne_eq, not_true_eq_false, if_false, pure, Except.pure]
  rw [key _ (fun q hq => hne _ (List.of_mem_zip hq).2) hz]

/-- **C41 fails for an empty batch.** Packing parts with an empty batch axis raises `RuntimeError`,
although unpacking a tensor with an empty batch works. -/
theorem C41_counterexample_empty_batch (h : init ms = .ok P) (B : List ℕ) (hB : size B = 0)
    (ts : List T) (hts : List.Forall₂ (fun m t => t.shape = B ++ m.2) ms ts) :
    pack P ts = .error .runtimeError := by
  obtain ⟨hP, e⟩ := init_ok ms P h
  have hts' := parts_forall₂ (R := fun p t => t.shape = B ++ p.shape) h ts (fun p t ht => ht) hts
  have hlen := hts'.length_eq
  unfold pack
  simp only [bind, Except.bind, hlen, ne_eq, not_true_eq_false, if_false, pure, Except.pure]
  cases hp : P.parts with
  | nil => exact absurd hp hP.ne
  | cons p ps =>
    rw [hp] at hts'
    cases hts' with
    | @cons _ t _ ts h1 h2 =>
      rw [List.zip_cons_cons, List.mapM_cons]
      simp only [flattenPart_ok p t B h1, reshapeInfer_empty t B hB]
      rfl

/-- **C41 fails for too many columns.** Unpacking ignores surplus columns instead of refusing the
tensor. -/
theorem C41_counterexample_surplus (h : init ms = .ok P) (B : List ℕ) (extra : ℕ) (t : T)
    (ht : t.shape = B ++ [P.nElements + extra]) : ∃ ts, unpack P t = .ok ts := by
  obtain ⟨hP, e⟩ := init_ok ms P h
  have hex : ∀ ps : List Part, (∀ p ∈ ps, p ∈ P.parts) →
      ∃ ts, ps.mapM (fun p => takePart p t) = .ok ts := by
    intro ps hps
    induction ps with
    | nil => exact ⟨[], rfl⟩
    | cons p ps ih =>
      obtain ⟨ts, e1⟩ := ih fun q hq => hps q (by simp [hq])
      obtain ⟨pre, post, e⟩ := List.append_of_mem (hps p (by simp))
      have hc := hP.consec
      rw [e, consec_append] at hc
      obtain ⟨-, h1, h2, -⟩ := hc
      have hsz : P.nElements = total pre + p.shape.prod + total post := by
        rw [hP.size, e]; simp [total, List.sum_append]; ring
      have : ∃ a, takePart p t = .ok a := by
        unfold takePart narrowLast
        rw [dif_pos ⟨by rw [ht]; simp, by rw [t.last_append _ _ ht]; omega⟩]
        simp only [bind, Except.bind, reshape]
        rw [dif_pos (by simp [ht, List.prod_append]; left; omega)]
        exact ⟨_, rfl⟩
      obtain ⟨a, ea⟩ := this
      exact ⟨a :: ts, by rw [List.mapM_cons, ea, e1]; rfl⟩
  exact hex P.parts fun p hp => hp

/-! ## C44: the layout -/

/-- The device (dtype) tags of the components that have one all agree. -/
def Agree (tags : List Tag) : Prop := ∀ a ∈ tags, ∀ b ∈ tags, a ≠ none → b ≠ none → a = b

theorem foldlM_initStep_iff (ms : List (Manifold × List ℕ)) (st : InitState) :
    ((∃ st', ms.foldlM initStep st = .ok st') ↔
      (∀ m ∈ ms, m.1.checkShape m.2 = true) ∧ Agree (st.device :: ms.map fun m => m.1.device) ∧
        Agree (st.dtype :: ms.map fun m => m.1.dtype)) ∧
    (∀ e, ms.foldlM initStep st = .error e → e = .valueError) := by
  have tagEq : ∀ s n : Tag, (∃ r, tagStep s n = .ok r) ↔ Agree [s, n] := by
    rintro (_ | s) (_ | n) <;> simp [tagStep, Agree]
    by_cases h : s = n
    · simp [h]
    · simp [h]
  have tagErr : ∀ s n e, tagStep s n = .error e → e = .valueError := by
    rintro (_ | s) (_ | n) e h <;> simp only [tagStep] at h
    · cases h
    · cases h
    · cases h
    · split_ifs at h; cases h; rfl
  have tagRest : ∀ (s n r : Tag) (l : List Tag), tagStep s n = .ok r →
      (Agree (s :: n :: l) ↔ Agree (r :: l)) := by
    intro s n r l h
    rcases s with _ | s <;> rcases n with _ | n <;> simp only [tagStep] at h
    · cases h
      constructor
      · intro H a ha b hb; exact H a (by simp at ha ⊢; tauto) b (by simp at hb ⊢; tauto)
      · intro H a ha b hb; exact H a (by simp at ha ⊢; tauto) b (by simp at hb ⊢; tauto)
    · cases h
      constructor
      · intro H a ha b hb; exact H a (by simp at ha ⊢; tauto) b (by simp at hb ⊢; tauto)
      · intro H a ha b hb na nb
        exact H a (by simp at ha ⊢; tauto) b (by simp at hb ⊢; tauto) na nb
    · cases h
      constructor
      · intro H a ha b hb; exact H a (by simp at ha ⊢; tauto) b (by simp at hb ⊢; tauto)
      · intro H a ha b hb na nb
        exact H a (by simp at ha ⊢; tauto) b (by simp at hb ⊢; tauto) na nb
    · split_ifs at h with hh
      cases h
      have : s = n := not_not.1 hh
      subst this
      constructor
      · intro H a ha b hb; exact H a (by simp at ha ⊢; tauto) b (by simp at hb ⊢; tauto)
      · intro H a ha b hb; exact H a (by simp at ha ⊢; tauto) b (by simp at hb ⊢; tauto)
  have sub : ∀ (s n : Tag) (l : List Tag), Agree (s :: n :: l) → Agree [s, n] := by
    intro s n l H a ha b hb; exact H a (by simp at ha ⊢; tauto) b (by simp at hb ⊢; tauto)
  induction ms generalizing st with
  | nil =>
    refine ⟨⟨fun _ => ⟨by simp, ?_, ?_⟩, fun _ => ⟨st, rfl⟩⟩, fun e h => by cases h⟩ <;>
    · intro a ha b hb _ _
      simp at ha hb
      rw [ha, hb]
  | cons m ms ih =>
    rw [List.foldlM_cons]
    have step : initStep st m = (if m.1.checkShape m.2 = true then
        (tagStep st.device m.1.device).bind fun d => (tagStep st.dtype m.1.dtype).bind fun t =>
          .ok ⟨st.parts ++ [⟨m.1, m.2, st.pos0, st.pos0 + shape2size m.2⟩], d, t,
            st.pos0 + shape2size m.2⟩
        else .error .valueError) := by
      obtain ⟨man, s⟩ := m
      simp only [initStep, bind, Except.bind, pure, Except.pure, throw, throwThe,
        MonadExceptOf.throw]
      cases man.checkShape s <;> rfl
    rw [step]
    by_cases hs : m.1.checkShape m.2 = true
    swap
    · rw [if_neg hs]
      refine ⟨⟨fun ⟨st', h⟩ => (by cases h), fun h => absurd (h.1 m (by simp)) hs⟩, fun e h => ?_⟩
      cases h; rfl
    rw [if_pos hs]
    cases hd : tagStep st.device m.1.device with
    | error e =>
      refine ⟨⟨fun ⟨st', h⟩ => (by cases h), fun h => ?_⟩, fun e' h => ?_⟩
      · obtain ⟨r, hr⟩ := (tagEq _ _).2 (sub _ _ _ h.2.1)
        rw [hd] at hr; cases hr
      · cases h; exact tagErr _ _ _ hd
    | ok d =>
      cases ht : tagStep st.dtype m.1.dtype with
      | error e =>
        refine ⟨⟨fun ⟨st', h⟩ => (by cases h), fun h => ?_⟩, fun e' h => ?_⟩
        · obtain ⟨r, hr⟩ := (tagEq _ _).2 (sub _ _ _ h.2.2)
          rw [ht] at hr; cases hr
        · cases h; exact tagErr _ _ _ ht
      | ok t =>
        have := ih ⟨st.parts ++ [⟨m.1, m.2, st.pos0, st.pos0 + shape2size m.2⟩], d, t,
            st.pos0 + shape2size m.2⟩
        refine ⟨?_, this.2⟩
        refine Iff.trans this.1 ?_
        simp only [List.map_cons, List.forall_mem_cons, hs, true_and]
        rw [← tagRest _ _ _ _ hd, ← tagRest _ _ _ _ ht]

/-- **C44.** Construction succeeds exactly when there is a component, every component accepts its
shape, and all devices and dtypes that are known agree; otherwise it raises `ValueError`. -/
theorem C44_construction (ms : List (Manifold × List ℕ)) :
    ((∃ P, init ms = .ok P) ↔ ms ≠ [] ∧ (∀ m ∈ ms, m.1.checkShape m.2 = true) ∧
      Agree (ms.map fun m => m.1.device) ∧ Agree (ms.map fun m => m.1.dtype)) ∧
    (∀ e, init ms = .error e → e = .valueError) := by
  have base := foldlM_initStep_iff ms ⟨[], none, none, 0⟩
  have hA : ∀ l : List Tag, Agree (none :: l) ↔ Agree l := by
    intro l
    constructor
    · intro H a ha b hb; exact H a (by simp [ha]) b (by simp [hb])
    · intro H a ha b hb na nb
      exact H a (by simp at ha; tauto) b (by simp at hb; tauto) na nb
  rw [hA, hA] at base
  cases ms with
  | nil =>
    refine ⟨⟨fun ⟨P, h⟩ => (by cases h), fun h => absurd rfl h.1⟩, fun e h => by cases h; rfl⟩
  | cons m ms =>
    have e : init (m :: ms) = ((m :: ms).foldlM initStep ⟨[], none, none, 0⟩).map
        fun st => ⟨st.parts, st.pos0⟩ := by
      simp only [init, List.length_cons, bind, Except.bind, pure, Except.pure]
      rw [if_neg (by omega)]
      cases (m :: ms).foldlM initStep ⟨[], none, none, 0⟩ <;> rfl
    rw [e]
    refine ⟨?_, ?_⟩
    · rw [← base.1]
      simp only [ne_eq, reduceCtorEq, not_false_eq_true, true_and]
      constructor
      · rintro ⟨P, h⟩
        cases hf : (m :: ms).foldlM initStep ⟨[], none, none, 0⟩ with
        | error e => rw [hf] at h; cases h
        | ok st => exact ⟨st, rfl⟩
      · rintro ⟨st, h⟩; rw [h]; exact ⟨_, rfl⟩
    · intro e' h
      cases hf : (m :: ms).foldlM initStep ⟨[], none, none, 0⟩ with
      | error e => rw [hf] at h; cases h; exact base.2 _ hf
      | ok st => rw [hf] at h; cases h

theorem consec_getElem (pos : ℕ) (ps : List Part) (h : Consec pos ps) (i : ℕ) (p : Part)
    (hp : ps[i]? = some p) :
    p.start = pos + ((ps.take i).map fun q => q.shape.prod).sum ∧
      p.stop = p.start + p.shape.prod := by
  induction ps generalizing pos i with
  | nil => simp at hp
  | cons q ps ih =>
    obtain ⟨h1, h2, h3⟩ := h
    cases i with
    | zero =>
      simp at hp; subst hp
      simp [h1, h2]
    | succ i =>
      simp only [List.getElem?_cons_succ] at hp
      obtain ⟨a, b⟩ := ih _ h3 i hp
      refine ⟨?_, b⟩
      rw [a, h2]
      simp [Nat.add_assoc]

/-- **C44.** The components keep their order, manifolds and shapes; the `i`-th slice starts where the
sizes of the previous components end and is as long as the `i`-th component is large; together they
cover `0 .. n_elements`. -/
theorem C44_layout (h : init ms = .ok P) :
    P.parts.map (fun p => (p.man, p.shape)) = ms ∧
    (∀ (i : ℕ) (p : Part), P.parts[i]? = some p →
      p.start = ((ms.take i).map fun m => size m.2).sum ∧ p.stop = p.start + size p.shape) ∧
    P.nElements = (ms.map fun m => size m.2).sum := by
  obtain ⟨hP, e⟩ := init_ok ms P h
  refine ⟨e, fun i p hp => ?_, ?_⟩
  · obtain ⟨a, b⟩ := consec_getElem 0 P.parts hP.consec i p hp
    refine ⟨?_, b⟩
    rw [a, ← e, ← List.map_take, List.map_map]
    simp [Function.comp_def, size]
  · rw [hP.size, total, ← e, List.map_map]; rfl

theorem fromPointLoop_eq (k : ℕ) (l : List (Manifold × T)) (b : Option (List ℕ))
    (acc : List (Manifold × List ℕ))
    (hb : ∀ c, b = some c → ∀ m ∈ l, m.2.shape.take k = c)
    (hl : ∀ m ∈ l, ∀ m' ∈ l, m.2.shape.take k = m'.2.shape.take k) :
    fromPointLoop k l b acc = .ok (acc ++ l.map fun m => (m.1, m.2.shape.drop k)) := by
  induction l generalizing b acc with
  | nil => simp [fromPointLoop]
  | cons m l ih =>
    obtain ⟨m, t⟩ := m
    have hl' : ∀ a ∈ l, ∀ c ∈ l, a.2.shape.take k = c.2.shape.take k :=
      fun a ha c hc => hl a (by simp [ha]) c (by simp [hc])
    cases b with
    | none =>
      rw [fromPointLoop, ih _ _ ?_ hl']
      · simp
      · rintro c ⟨⟩ a ha
        exact hl a (by simp [ha]) (m, t) (by simp)
    | some c =>
      have hc := hb c rfl (m, t) (by simp)
      rw [fromPointLoop, if_neg (by simpa using hc.symm), ih _ _ ?_ hl']
      · simp
      · rintro c' ⟨⟩ a ha
        exact hb c rfl a (by simp [ha])

/-- **C44.** `from_point` builds the product of the tensors' manifolds on their trailing shapes when
the batch shapes agree (the points themselves can then be packed), and refuses them otherwise. -/
theorem C44_from_point (l : List (Manifold × T)) (k : ℕ) :
    ((∀ m ∈ l, ∀ m' ∈ l, m.2.shape.take k = m'.2.shape.take k) →
      fromPoint l k = init (l.map fun m => (m.1, m.2.shape.drop k))) ∧
    ((∃ m ∈ l, ∃ m' ∈ l, m.2.shape.take k ≠ m'.2.shape.take k) →
      fromPoint l k = .error .valueError) := by
  constructor
  · intro h
    unfold fromPoint
    rw [fromPointLoop_eq k l none [] (by simp) h]
    rfl
  · rintro ⟨m, hm, m', hm', hne⟩
    have key : ∀ (l : List (Manifold × T)) (c : List ℕ) acc,
        (∃ m ∈ l, m.2.shape.take k ≠ c) → fromPointLoop k l (some c) acc = .error .valueError := by
      intro l c
      induction l with
      | nil => rintro acc ⟨m, hm, _⟩; simp at hm
      | cons a l ih =>
        rintro acc ⟨m, hm, hne⟩
        obtain ⟨a, t⟩ := a
        rw [fromPointLoop]
        split_ifs with hc
        · apply ih
          rcases List.mem_cons.1 hm with e | e
          · subst e
            exact absurd hc.symm hne
          · exact ⟨m, e, hne⟩
        · rfl
    unfold fromPoint
    cases l with
    | nil => simp at hm
    | cons a l =>
      obtain ⟨a, t⟩ := a
      rw [fromPointLoop, key]
      · rfl
      · by_cases h1 : m.2.shape.take k = t.shape.take k
        · refine ⟨m', ?_, fun e => hne (h1.trans e.symm)⟩
          rcases List.mem_cons.1 hm' with e | e
          · subst e; exact absurd h1 hne
          · exact e
        · refine ⟨m, ?_, h1⟩
          rcases List.mem_cons.1 hm with e | e
          · subst e; exact absurd rfl h1
          · exact e

/-- Entrywise operation on tensors of equal shape, for the examples. -/
noncomputable def zip2 (f : ℝ → ℝ → ℝ) (a b : T) : Except PyErr T :=
  if h : a.shape = b.shape then
    .ok ⟨a.shape, List.zipWith f a.data b.data, by
      rw [List.length_zipWith, a.wf, b.wf, h, Nat.min_self]⟩
  else .error .runtimeError

/-- A component for the examples: flat space, all shapes accepted (`Euclidean(ndim=0)`). -/
noncomputable def flat : Manifold where
  checkShape _ := true
  device := none
  dtype := some 0
  reversible := true
  checkPoint _ := .ok true
  checkTangent _ _ := .ok true
  projx := .ok
  proju _ u := .ok u
  egrad2rgrad _ u := .ok u
  retr := add
  expmap := add
  logmap x y := add y (Buf.map (fun a => -a) x)
  transp _ _ v := .ok v
  transpFollowRetr _ _ v := .ok v
  transpFollowExpmap _ _ v := .ok v
  retrTransp x u v := (add x u).map fun y => (y, v)
  expmapTransp x u v := (add x u).map fun y => (y, v)
  inner _ u v := zip2 (· * ·) u (v.getD u)
  dist2 := zip2 fun a b => (a - b) ^ 2
  random s := .ok ⟨s, List.replicate s.prod 0, by simp⟩
  origin s _ := .ok ⟨s, List.replicate s.prod 0, by simp⟩

/-- The hypotheses are met: a vector, a scalar and a matrix component, seven entries. -/
example : ∃ P, init [(flat, [2]), (flat, []), (flat, [2, 2])] = .ok P ∧ P.nElements = 7 ∧
    P.parts.map (fun p => (p.start, p.stop)) = [(0, 2), (2, 3), (3, 7)] := ⟨_, rfl, rfl, rfl⟩

/-- Two devices that differ. -/
example : init [({ flat with device := some 0 }, [2]), ({ flat with device := some 1 }, [2])]
    = .error .valueError := rfl

/-- **C67.** A product is reversible exactly when all components are. -/
theorem C67_product_reversible (h : init ms = .ok P) :
    reversible P = true ↔ ∀ m ∈ ms, m.1.reversible = true := by
  rw [← (init_ok ms P h).2]
  simp [reversible]

end C41
