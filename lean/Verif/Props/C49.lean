import Verif.Model.Shapes
import Verif.Spec.Shapes
import Mathlib.Tactic

/-!
# C49, C50, C51: shape and index helpers
-/

open Geoopt Spec.Shapes

namespace C49

/-- One output axis, for positive sizes. -/
theorem broadcastDim_ok (ds : List ℕ) : ∀ (dim m : ℕ), 0 < dim → (∀ d ∈ ds, 0 < d) →
    (broadcastDim dim ds = .ok m ↔
      ((∀ d ∈ dim :: ds, d = 1 ∨ d = m) ∧ (m ≠ 1 → m ∈ dim :: ds))) := by
  induction ds with
  | nil =>
    intro dim m hd _
    simp only [broadcastDim, List.mem_singleton, Except.ok.injEq, forall_eq]
    constructor
    · rintro rfl; exact ⟨Or.inr rfl, fun _ => rfl⟩
    · rintro ⟨h | h, h2⟩
      · by_contra hne
        exact hne (h2 (fun hm => hne (by omega))).symm
      · exact h
  | cons d ds ih =>
    intro dim m hdim hpos
    have hd : 0 < d := hpos d (by simp)
    have hds : ∀ e ∈ ds, 0 < e := fun e he => hpos e (by simp [he])
    unfold broadcastDim
    split_ifs with h1 h2
    · constructor
      · intro h; cases h
      · rintro ⟨h, -⟩
        have a := h dim (by simp)
        have b := h d (by simp)
        omega
    · rw [ih d m hd hds]
      have : dim = 1 := by omega
      subst this
      simp only [List.mem_cons, forall_eq_or_imp]
      constructor
      · rintro ⟨⟨a, b⟩, c⟩
        exact ⟨⟨Or.inl trivial, a, b⟩, fun hm => Or.inr (c hm)⟩
      · rintro ⟨⟨-, a, b⟩, c⟩
        refine ⟨⟨a, b⟩, fun hm => ?_⟩
        rcases c hm with c | c
        · omega
        · exact c
    · rw [ih dim m hdim hds]
      simp only [List.mem_cons, forall_eq_or_imp]
      have hcase : d = 1 ∨ d = dim := by omega
      constructor
      · rintro ⟨⟨a, b⟩, c⟩
        refine ⟨⟨a, ?_, b⟩, fun hm => ?_⟩
        · rcases hcase with h | h
          · exact Or.inl h
          · rw [h]; exact a
        · rcases c hm with c | c
          · exact Or.inl c
          · exact Or.inr (Or.inr c)
      · rintro ⟨⟨a, -, b⟩, c⟩
        refine ⟨⟨a, b⟩, fun hm => ?_⟩
        rcases c hm with c | c | c
        · exact Or.inl c
        · left
          rcases hcase with h | h
          · omega
          · omega
        · exact Or.inr c

theorem mapM_ok {α β ε : Type} (f : α → Except ε β) : ∀ (l : List α) (r : List β),
    l.mapM f = .ok r ↔ List.Forall₂ (fun a b => f a = .ok b) l r := by
  intro l
  induction l with
  | nil =>
    intro r
    simp only [List.mapM_nil, pure, Except.pure, Except.ok.injEq]
    constructor
    · rintro rfl; exact .nil
    · intro h; cases h; rfl
  | cons a l ih =>
    intro r
    rw [List.mapM_cons]
    simp only [bind, Except.bind, pure, Except.pure]
    cases hfa : f a with
    | error e =>
      simp only [reduceCtorEq, false_iff]
      intro h; cases h with | cons h1 _ => rw [hfa] at h1; cases h1
    | ok b =>
      simp only
      cases hl : l.mapM f with
      | error e =>
        simp only [reduceCtorEq, false_iff]
        intro h
        cases h with
        | cons h1 h2 => rw [(ih _).2 h2] at hl; cases hl
      | ok bs =>
        simp only [Except.ok.injEq]
        constructor
        · rintro rfl; exact .cons hfa ((ih _).1 hl)
        · intro h
          cases h with
          | cons h1 h2 =>
            rw [hfa] at h1; rw [(ih _).2 h2] at hl
            cases h1; cases hl; rfl

theorem le_foldr_max (l : List ℕ) (a : ℕ) (h : a ∈ l) : a ≤ l.foldr max 0 := by
  induction l with
  | nil => cases h
  | cons b l ih =>
    rcases List.mem_cons.1 h with rfl | h
    · exact le_max_left _ _
    · exact (ih h).trans (le_max_right _ _)

theorem foldr_max_mem (l : List ℕ) : l.foldr max 0 = 0 ∨ l.foldr max 0 ∈ l := by
  induction l with
  | nil => left; rfl
  | cons b l ih =>
    right
    simp only [List.foldr_cons, List.mem_cons]
    rcases le_total b (l.foldr max 0) with h | h
    · rw [max_eq_right h]
      rcases ih with h0 | h0
      · left; omega
      · exact Or.inr h0
    · left; exact max_eq_left h

/-- A reversed list of axes read from the right. -/
theorem dimR_reverse (l : List ℕ) (i : ℕ) (hi : i < l.length) : dimR l.reverse i = l[i] := by
  simp [dimR, hi]

/-- **C49.** For shapes with positive axes `broadcast_shapes` returns a shape exactly when NumPy
broadcasts, and the same one. -/
theorem C49_broadcast_shapes_partial (shapes : List (List ℕ)) (r : List ℕ)
    (hpos : ∀ s ∈ shapes, ∀ d ∈ s, 0 < d) :
    broadcastShapes shapes = .ok r ↔ Broadcast shapes r := by
  set n := (shapes.map List.length).foldr max 0 with hn
  have key : ∀ q : List ℕ, (zipLongestRev shapes).mapM (broadcastDim 1) = .ok q ↔
      q.length = n ∧ ∀ i (hi : i < q.length),
        (∀ s ∈ shapes, dimR s i = 1 ∨ dimR s i = q[i]) ∧ (q[i] ≠ 1 → ∃ s ∈ shapes, dimR s i = q[i]) := by
    intro q
    rw [mapM_ok, List.forall₂_iff_get]
    simp only [zipLongestRev, List.length_map, List.length_range, ← hn]
    refine ⟨fun ⟨h1, h2⟩ => ⟨h1.symm, fun i hi => ?_⟩, fun ⟨h1, h2⟩ => ⟨h1.symm, fun i hi hi' => ?_⟩⟩
    · have h := h2 i (by omega) hi
      simp only [List.get_eq_getElem, List.getElem_map, List.getElem_range] at h
      rw [broadcastDim_ok _ _ _ one_pos] at h
      · obtain ⟨a, b⟩ := h
        refine ⟨fun s hs => a _ (List.mem_cons_of_mem _ (List.mem_map.2 ⟨s, hs, rfl⟩)), fun hm => ?_⟩
        rcases List.mem_cons.1 (b hm) with c | c
        · exact absurd c hm
        · obtain ⟨s, hs, e⟩ := List.mem_map.1 c
          exact ⟨s, hs, e⟩
      · intro d hd
        obtain ⟨s, hs, e⟩ := List.mem_map.1 hd
        rw [← e, List.getD_eq_getElem?_getD]
        cases hq : s.reverse[i]? with
        | none => simp
        | some v =>
          have : v ∈ s.reverse := List.mem_of_getElem? hq
          simpa using hpos s hs v (by simpa using this)
    · have h := h2 i hi'
      simp only [List.get_eq_getElem, List.getElem_map, List.getElem_range]
      rw [broadcastDim_ok _ _ _ one_pos]
      · obtain ⟨a, b⟩ := h
        refine ⟨?_, fun hm => ?_⟩
        · intro d hd
          rcases List.mem_cons.1 hd with c | c
          · exact Or.inl c
          · obtain ⟨s, hs, e⟩ := List.mem_map.1 c
            rw [← e]; exact a s hs
        · obtain ⟨s, hs, e⟩ := b hm
          exact List.mem_cons_of_mem _ (List.mem_map.2 ⟨s, hs, e⟩)
      · intro d hd
        obtain ⟨s, hs, e⟩ := List.mem_map.1 hd
        rw [← e, List.getD_eq_getElem?_getD]
        cases hq : s.reverse[i]? with
        | none => simp
        | some v =>
          have : v ∈ s.reverse := List.mem_of_getElem? hq
          simpa using hpos s hs v (by simpa using this)
  have hmap : broadcastShapes shapes = .ok r ↔
      (zipLongestRev shapes).mapM (broadcastDim 1) = .ok r.reverse := by
    unfold broadcastShapes
    cases (zipLongestRev shapes).mapM (broadcastDim 1) with
    | error e => simp [Except.map]
    | ok q =>
      simp only [Except.map, Except.ok.injEq]
      exact List.reverse_eq_iff
  rw [hmap, key]
  have hd : ∀ i (hi : i < r.reverse.length), r.reverse[i] = dimR r i := by
    intro i hi; simp [dimR, List.getD_eq_getElem?_getD, List.getElem?_eq_getElem hi]
  constructor
  · rintro ⟨h1, h2⟩
    rw [List.length_reverse] at h1
    refine ⟨fun s hs => ?_, ?_, fun s hs i hi => ?_, fun i hi hne => ?_⟩
    · rw [h1]; exact le_foldr_max _ _ (List.mem_map.2 ⟨s, hs, rfl⟩)
    · rcases foldr_max_mem (shapes.map List.length) with h | h
      · left; exact List.eq_nil_of_length_eq_zero (by omega)
      · right
        obtain ⟨s, hs, e⟩ := List.mem_map.1 h
        exact ⟨s, hs, by omega⟩
    · have hi' : i < r.reverse.length := by simpa using hi
      rw [← hd i hi']; exact (h2 i hi').1 s hs
    · have hi' : i < r.reverse.length := by simpa using hi
      have := (h2 i hi').2 (by rw [hd i hi']; exact hne)
      rwa [hd i hi'] at this
  · intro h
    have hl : r.length = n := by
      apply le_antisymm
      · rcases h.rank_mem with e | ⟨s, hs, e⟩
        · rw [e]; exact Nat.zero_le _
        · rw [← e]; exact le_foldr_max _ _ (List.mem_map.2 ⟨s, hs, rfl⟩)
      · rcases foldr_max_mem (shapes.map List.length) with e | e
        · omega
        · obtain ⟨s, hs, e⟩ := List.mem_map.1 e
          rw [hn, ← e]; exact h.rank_le s hs
    refine ⟨by simpa using hl, fun i hi => ?_⟩
    have hi' : i < r.length := by simpa using hi
    rw [hd i hi]
    exact ⟨fun s hs => h.fits s hs i hi', h.comes i hi'⟩

/-- A shape is determined by its rank and its axes from the right. -/
theorem shape_ext {a b : List ℕ} (hl : a.length = b.length)
    (h : ∀ i < a.length, dimR a i = dimR b i) : a = b := by
  have : a.reverse = b.reverse := by
    apply List.ext_getElem (by simpa using hl)
    intro i h1 h2
    have := h i (by simpa using h1)
    simpa [dimR, List.getD_eq_getElem?_getD, List.getElem?_eq_getElem h1,
      List.getElem?_eq_getElem h2] using this
  simpa using congrArg List.reverse this

/-- The NumPy broadcast shape is unique, so the specification determines the result. -/
theorem C49_spec_unique (shapes : List (List ℕ)) (a b : List ℕ)
    (ha : Broadcast shapes a) (hb : Broadcast shapes b) : a = b := by
  have hl : a.length = b.length := by
    apply le_antisymm
    · rcases ha.rank_mem with e | ⟨s, hs, e⟩
      · simp [e]
      · rw [← e]; exact hb.rank_le s hs
    · rcases hb.rank_mem with e | ⟨s, hs, e⟩
      · simp [e]
      · rw [← e]; exact ha.rank_le s hs
  refine shape_ext hl fun i hi => ?_
  by_cases h1 : dimR a i = 1
  · by_cases h2 : dimR b i = 1
    · rw [h1, h2]
    · obtain ⟨s, hs, e⟩ := hb.comes i (hl ▸ hi) h2
      rcases ha.fits s hs i hi with f | f
      · exact absurd (e ▸ f) h2
      · rw [← f, e]
  · obtain ⟨s, hs, e⟩ := ha.comes i hi h1
    rcases hb.fits s hs i (hl ▸ hi) with f | f
    · exact absurd (e ▸ f) h1
    · rw [← e, f]

/-- **C49.** The order of the shapes and repetitions do not matter (positive axes): only the set
of shapes does. -/
theorem C49_order_independent_partial (a b : List (List ℕ)) (r : List ℕ)
    (hpos : ∀ s ∈ a, ∀ d ∈ s, 0 < d) (hab : ∀ s, s ∈ a ↔ s ∈ b) :
    broadcastShapes a = .ok r ↔ broadcastShapes b = .ok r := by
  rw [C49_broadcast_shapes_partial a r hpos,
    C49_broadcast_shapes_partial b r fun s hs => hpos s ((hab s).2 hs)]
  constructor <;> intro h
  · exact ⟨fun s hs => h.rank_le s ((hab s).2 hs),
      h.rank_mem.imp id fun ⟨s, hs, e⟩ => ⟨s, (hab s).1 hs, e⟩,
      fun s hs => h.fits s ((hab s).2 hs),
      fun i hi hn => let ⟨s, hs, e⟩ := h.comes i hi hn; ⟨s, (hab s).1 hs, e⟩⟩
  · exact ⟨fun s hs => h.rank_le s ((hab s).1 hs),
      h.rank_mem.imp id fun ⟨s, hs, e⟩ => ⟨s, (hab s).2 hs, e⟩,
      fun s hs => h.fits s ((hab s).1 hs),
      fun i hi hn => let ⟨s, hs, e⟩ := h.comes i hi hn; ⟨s, (hab s).2 hs, e⟩⟩

/-- **C49.** A single shape broadcasts to itself. -/
theorem C49_single (s : List ℕ) (hpos : ∀ d ∈ s, 0 < d) : broadcastShapes [s] = .ok s := by
  rw [C49_broadcast_shapes_partial [s] s (by simpa using hpos)]
  exact ⟨by simp, Or.inr ⟨s, by simp, rfl⟩, by simp, fun i _ _ => ⟨s, by simp, rfl⟩⟩

/-- **C49.** Broadcasting again with the result changes nothing. -/
theorem C49_idempotent (shapes : List (List ℕ)) (r : List ℕ)
    (hpos : ∀ s ∈ shapes, ∀ d ∈ s, 0 < d) (h : broadcastShapes shapes = .ok r) :
    broadcastShapes (r :: shapes) = .ok r := by
  have hb := (C49_broadcast_shapes_partial shapes r hpos).1 h
  have hr : ∀ d ∈ r, 0 < d := by
    intro d hd
    obtain ⟨i, hi, e⟩ := List.getElem_of_mem (List.mem_reverse.2 hd)
    have e2 : dimR r i = d := by
      simp [dimR, List.getD_eq_getElem?_getD, List.getElem?_eq_getElem hi, e]
    by_cases h1 : d = 1
    · omega
    · obtain ⟨s, hs, e3⟩ := hb.comes i (by simpa using hi) (by omega)
      rw [← e2, ← e3, dimR, List.getD_eq_getElem?_getD]
      cases hq : s.reverse[i]? with
      | none => simp
      | some v =>
        have : v ∈ s.reverse := List.mem_of_getElem? hq
        simpa using hpos s hs v (by simpa using this)
  rw [C49_broadcast_shapes_partial _ _ (by
    intro s hs d hd
    rcases List.mem_cons.1 hs with rfl | hs
    · exact hr d hd
    · exact hpos s hs d hd)]
  refine ⟨?_, ?_, ?_, ?_⟩
  · intro s hs
    rcases List.mem_cons.1 hs with rfl | hs
    · exact le_refl _
    · exact hb.rank_le s hs
  · exact Or.inr ⟨r, by simp, rfl⟩
  · intro s hs i hi
    rcases List.mem_cons.1 hs with rfl | hs
    · exact Or.inr rfl
    · exact hb.fits s hs i hi
  · intro i hi hne
    exact ⟨r, by simp, rfl⟩

/-- **C49 fails for empty axes.** `(0,)` and `(1,)` broadcast to `(0,)`, the code says `(1,)`. -/
theorem C49_counterexample_zero :
    broadcastShapes [[0], [1]] = .ok [1] ∧ Broadcast [[0], [1]] [0] := by
  refine ⟨by rfl, by simp, Or.inr ⟨[0], by simp, rfl⟩, ?_, ?_⟩
  · intro s hs i hi
    have : i = 0 := by simpa using hi
    subst this
    simp only [List.mem_cons, List.not_mem_nil, or_false] at hs
    rcases hs with rfl | rfl <;> decide
  · intro i hi _
    have : i = 0 := by simpa using hi
    subst this
    exact ⟨[0], by simp, rfl⟩

/-- **C49 fails for empty axes.** `(0,)` and `(3,)` do not broadcast; the code accepts them in
this order and refuses them in the other. -/
theorem C49_counterexample_order :
    broadcastShapes [[0], [3]] = .ok [3] ∧ broadcastShapes [[3], [0]] = .error .valueError ∧
      ¬ ∃ r, Broadcast [[0], [3]] r := by
  refine ⟨by rfl, by rfl, ?_⟩
  rintro ⟨r, h⟩
  have h1 : 1 ≤ r.length := h.rank_le [0] (by simp)
  have a := h.fits [0] (by simp) 0 h1
  have b := h.fits [3] (by simp) 0 h1
  simp only [dimR, List.reverse_cons, List.reverse_nil, List.nil_append, List.getD_cons_zero] at a b
  omega

example : broadcastShapes [[2, 1, 3], [4, 1], []] = .ok [2, 4, 3] := by rfl
example : broadcastShapes [[2, 1, 3], [4, 2]] = .error .valueError := by rfl

/-! ## C50 -/

/-- **C50.** For a legal index `idx2sign(neg=True)` returns the negative index of the same axis. -/
theorem C50_idx2sign_neg (idx dim : ℤ) (h : Legal dim idx) :
    ∃ j, idx2sign idx dim true = .ok j ∧ -dim ≤ j ∧ j < 0 ∧ SameAxis dim idx j := by
  obtain ⟨h1, h2⟩ := h
  unfold idx2sign pyMod
  by_cases hi : idx < 0
  · exact ⟨idx, by simp [hi], h1, hi, Or.inl rfl⟩
  · refine ⟨idx - dim, ?_, by omega, by omega, Or.inr (Or.inl (by ring))⟩
    have hne : -(dim + 1) ≠ 0 := by omega
    simp only [if_true, if_neg hi, if_neg hne, Except.ok.injEq]
    rw [Int.fmod_eq_emod]
    have h3 : ¬ (0 ≤ -(dim + 1) ∨ -(dim + 1) ∣ idx + 1) := by
      rintro (h | h)
      · omega
      · rw [neg_dvd] at h
        have := Int.le_of_dvd (by omega) h
        omega
    rw [if_neg h3, Int.emod_neg, Int.emod_eq_of_lt (by omega) (by omega)]
    ring

/-- **C50.** For a legal index `idx2sign(neg=False)` returns the non-negative index of the same
axis. -/
theorem C50_idx2sign_pos (idx dim : ℤ) (h : Legal dim idx) :
    ∃ j, idx2sign idx dim false = .ok j ∧ 0 ≤ j ∧ j < dim ∧ SameAxis dim idx j := by
  obtain ⟨h1, h2⟩ := h
  unfold idx2sign pyMod
  have hd : dim ≠ 0 := by omega
  simp only [Bool.false_eq_true, if_false, if_neg hd, Except.ok.injEq, exists_eq_left']
  rw [Int.fmod_eq_emod_of_nonneg _ (by omega)]
  by_cases hi : idx < 0
  · have : idx % dim = idx + dim := by
      rw [← Int.add_emod_right, Int.emod_eq_of_lt (by omega) (by omega)]
    exact ⟨by omega, by omega, Or.inr (Or.inr (by omega))⟩
  · rw [Int.emod_eq_of_lt (by omega) (by omega)]
    exact ⟨by omega, by omega, Or.inl rfl⟩

/-- **C50.** The two signs are inverse to each other on legal indices. -/
theorem C50_idx2sign_roundtrip (idx dim j : ℤ) (h : Legal dim idx)
    (hj : idx2sign idx dim true = .ok j) :
    idx2sign j dim false = idx2sign idx dim false := by
  obtain ⟨j', e, a, b, c⟩ := C50_idx2sign_neg idx dim h
  rw [hj] at e; cases e
  obtain ⟨p, e1, a1, b1, c1⟩ := C50_idx2sign_pos idx dim h
  obtain ⟨q, e2, a2, b2, c2⟩ := C50_idx2sign_pos j dim ⟨a, by omega⟩
  rw [e1, e2]
  unfold SameAxis at *
  congr 1
  omega

/-- **C50.** `canonical_dims` maps every index, legal or not, into `[0, maxdim)`, entry by entry,
and a legal one to the same axis. -/
theorem C50_canonical_dims (dims : List ℤ) (maxdim : ℤ) (hm : 0 < maxdim) :
    ∃ r, canonicalDims dims maxdim = .ok r ∧ List.Forall₂ (fun d j => 0 ≤ j ∧ j < maxdim ∧
      (Legal maxdim d → SameAxis maxdim d j)) dims r := by
  have hall : ∀ d : ℤ, idx2sign d maxdim false = .ok (d % maxdim) := by
    intro d
    unfold idx2sign pyMod
    simp only [Bool.false_eq_true, if_false, if_neg hm.ne']
    rw [Int.fmod_eq_emod_of_nonneg _ hm.le]
  refine ⟨dims.map (· % maxdim), ?_, ?_⟩
  · unfold canonicalDims
    rw [mapM_ok, List.forall₂_map_right_iff]
    exact List.forall₂_same.2 fun d _ => hall d
  · rw [List.forall₂_map_right_iff]
    refine List.forall₂_same.2 fun d _ => ⟨Int.emod_nonneg _ hm.ne', Int.emod_lt_of_pos _ hm, ?_⟩
    intro hl
    obtain ⟨j, e, -, -, s⟩ := C50_idx2sign_pos d maxdim hl
    rw [hall d] at e; cases e; exact s

theorem listRange_eq (n : ℕ) : listRange n = List.range n := by
  unfold listRange
  have : ∀ (l acc : List ℕ), l.foldl (fun res d => res ++ [d]) acc = acc ++ l := by
    intro l
    induction l with
    | nil => intro acc; simp
    | cons a l ih => intro acc; rw [List.foldl_cons, ih]; simp
  simpa using this (List.range n) []

/-- **C50.** `list_range(n)` is `[0, ..., n-1]`. -/
theorem C50_list_range (n : ℕ) : (listRange n).length = n ∧ ∀ i (h : i < (listRange n).length),
    (listRange n)[i] = i := by
  rw [listRange_eq]; simp

theorem squeeze_mid (P t : List ℕ) :
    squeezeShape (P ++ 1 :: t) (P.length : ℤ) = .ok (P ++ t) := by
  have hr : (max ((P ++ 1 :: t).length : ℕ) 1 : ℤ) = P.length + t.length + 1 := by
    simp only [List.length_append, List.length_cons]; omega
  simp only [squeezeShape]
  rw [if_neg (by omega), if_neg (by omega : ¬ ((P.length : ℤ) < 0))]
  have e1 : (P ++ 1 :: t).getD ((P.length : ℤ)).toNat 0 = 1 := by
    simp [List.getD_eq_getElem?_getD]
  rw [if_pos e1]
  congr 1
  rw [Int.toNat_natCast, List.eraseIdx_append_of_length_le (le_refl _)]
  simp

theorem dropLoop (ds : List ℕ) : ∀ (P t : List ℕ) (a seen : ℕ), P.length + seen = a →
    ds.Pairwise (· < ·) → (∀ d ∈ ds, a ≤ d ∧ d < a + t.length ∧ t.getD (d - a) 0 = 1) →
    dropDimsLoop (P ++ t) seen (ds.map (Nat.cast : ℕ → ℤ)) =
      .ok (P ++ ((t.zipIdx a).filter fun p => !ds.contains p.2).map Prod.fst) := by
  induction ds with
  | nil =>
    intro P t a seen _ _ _
    simp [dropDimsLoop]
  | cons d ds ih =>
    intro P t a seen hP hs hd
    obtain ⟨h1, h2, h3⟩ := hd d (by simp)
    have hlt : d - a < t.length := by omega
    have ht : t = t.take (d - a) ++ 1 :: t.drop (d - a + 1) := by
      have e : t[d - a] = 1 := by
        simpa [List.getD_eq_getElem?_getD, List.getElem?_eq_getElem hlt] using h3
      have e3 : t[d - a] :: t.drop (d - a + 1) = t.drop (d - a) := List.getElem_cons_drop hlt
      rw [e] at e3
      rw [e3, List.take_append_drop]
    set t1 := t.take (d - a) with ht1
    set t2 := t.drop (d - a + 1) with ht2
    have hl1 : t1.length = d - a := by rw [ht1, List.length_take]; omega
    rw [List.map_cons, dropDimsLoop]
    have e1 : P ++ t = (P ++ t1) ++ 1 :: t2 := by rw [ht, List.append_assoc]
    have e2 : (d : ℤ) - seen = ((P ++ t1).length : ℕ) := by
      rw [List.length_append, hl1]; omega
    rw [e1, e2, squeeze_mid]
    simp only
    have hs' := List.pairwise_cons.1 hs
    have := ih (P ++ t1) t2 (d + 1) (seen + 1) (by rw [List.length_append, hl1]; omega) hs'.2 (by
      intro e he
      obtain ⟨a1, a2, a3⟩ := hd e (by simp [he])
      have hde := hs'.1 e he
      refine ⟨by omega, ?_, ?_⟩
      · rw [ht2, List.length_drop]; omega
      · rw [List.getD_eq_getElem?_getD, ht2, List.getElem?_drop]
        rw [List.getD_eq_getElem?_getD] at a3
        have : d - a + 1 + (e - (d + 1)) = e - a := by omega
        rw [this]; exact a3)
    have hc : ((seen : ℤ) + 1) = ((seen + 1 : ℕ) : ℤ) := by push_cast; ring
    rw [hc, this, List.append_assoc]
    congr 2
    conv_rhs => rw [ht]
    rw [List.zipIdx_append, List.zipIdx_cons, List.filter_append, List.map_append]
    have f1 : ((t1.zipIdx a).filter fun p => !(d :: ds).contains p.2) = t1.zipIdx a := by
      rw [List.filter_eq_self]
      intro p hp
      have hp2 := List.snd_lt_add_of_mem_zipIdx hp
      simp only [Bool.not_eq_true', List.contains_eq_mem, decide_eq_false_iff_not, List.mem_cons,
        not_or]
      refine ⟨by omega, fun hm => ?_⟩
      have := hs'.1 _ hm
      omega
    rw [f1]
    have f2 : (t1.zipIdx a).map Prod.fst = t1 := by simp
    rw [f2]
    congr 1
    have hda : a + t1.length = d := by omega
    rw [List.filter_cons_of_neg (by simp [hda]), hda]
    congr 1
    apply List.filter_congr
    intro p hp
    have hp1 := List.le_snd_of_mem_zipIdx hp
    have : p.2 ≠ d := by omega
    simp [this]

/-- **C50.** For strictly increasing non-negative axes of size one `drop_dims` removes exactly the
listed axes. -/
theorem C50_drop_dims_partial (s : List ℕ) (ds : List ℕ) (hinc : ds.Pairwise (· < ·))
    (h1 : ∀ d ∈ ds, d < s.length ∧ s.getD d 0 = 1) :
    dropDims s (ds.map (Nat.cast : ℕ → ℤ)) = .ok (removeAxes s ds) := by
  have := dropLoop ds [] s 0 0 rfl hinc (by simpa using h1)
  simpa [dropDims, removeAxes] using this

/-- **C50 fails for unsorted axes.** `drop_dims` on shape `(3, 1, 1)` with `dims = [2, 1]` keeps an
axis it was asked to drop. -/
theorem C50_counterexample_unsorted :
    dropDims [3, 1, 1] [2, 1] = .ok [3, 1] ∧ removeAxes [3, 1, 1] [2, 1] = [3] := ⟨rfl, rfl⟩

/-- **C50 fails for negative axes.** On shape `(1, 1, 5)` with `dims = [-3, -2]` (both legal, in
increasing order, of size one) `drop_dims` raises; on `(1, 4, 1, 1)` with `[-2, -1]` it keeps an
axis. -/
theorem C50_counterexample_negative :
    dropDims [1, 1, 5] [-3, -2] = .error .indexError ∧
      dropDims [1, 4, 1, 1] [-2, -1] = .ok [1, 4, 1] ∧
      removeAxes [1, 4, 1, 1] [2, 3] = [1, 4] := ⟨rfl, rfl, rfl⟩

example : dropDims [1, 4, 1, 1] [0, 3] = .ok [4, 1] := rfl

/-! ## C51 -/

/-- **C51.** Two or more sizes, a tuple of sizes and a list of sizes give the same shape. -/
theorem C51_size2shape (l : List PyVal) (h : 2 ≤ l.length) :
    size2shape l = l ∧ size2shape [.tuple l] = l ∧ size2shape [.list l] = l := by
  refine ⟨?_, rfl, rfl⟩
  match l, h with
  | _ :: _ :: _, _ => rfl

/-- **C51.** A single integer gives a one-element shape, however it is passed. -/
theorem C51_size2shape_int (n : ℕ) : size2shape [.int n] = [.int n] ∧
    size2shape [.tuple [.int n]] = [.int n] ∧ size2shape [.list [.int n]] = [.int n] ∧
    size2shape [] = [] := ⟨rfl, rfl, rfl, rfl⟩

/-- **C51.** `size2shape` is idempotent: on its own result, passed as a tuple always, and spread
into arguments when the sizes are integers. -/
theorem C51_idempotent (args : List PyVal) :
    size2shape [.tuple (size2shape args)] = size2shape args ∧
      ((∀ v ∈ size2shape args, ∃ n, v = .int n) →
        size2shape (size2shape args) = size2shape args) := by
  refine ⟨rfl, fun h => ?_⟩
  match hq : size2shape args with
  | [] => rfl
  | [v] =>
    obtain ⟨n, rfl⟩ := h v (by rw [hq]; simp)
    rfl
  | _ :: _ :: _ => rfl

/-- **C51.** `strip_tuple` after `make_tuple` returns a scalar unchanged, and `make_tuple` after
`strip_tuple` returns a tuple of scalars unchanged. -/
theorem C51_strip_make (n : ℕ) (l : List ℕ) :
    stripTuple (makeTuple (.int n)) = .int n ∧
      makeTuple (stripTuple (l.map .int)) = l.map .int := by
  refine ⟨rfl, ?_⟩
  match l with
  | [] => rfl
  | [_] => rfl
  | _ :: _ :: _ => rfl

end C49
