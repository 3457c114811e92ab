import Verif.Model.ManifoldTensor
import Mathlib.Tactic

/-!
# C54: construction, copying and pickling of manifold tensors
-/

open Geoopt Geoopt.MTensor

namespace C54

variable {V α : Type} (checkShape : V → List ℕ → Bool)

/-- The entries of a tensor object. -/
def dataOf (h : Heap V α) (t : ℕ) : List α := h.storages (h.tens t).storage

/-- The manifold (value) of a tensor object. -/
def manOf (h : Heap V α) (t : ℕ) : V := h.mans (h.tens t).manifold

/-- **C54.** Construction succeeds exactly when the manifold accepts the shape; the object has the given
manifold, data and flag, and shares the storage. -/
theorem C54_new (h : Heap V α) (s : ℕ) (shape : List ℕ) (m : ℕ) (g p : Bool) :
    (checkShape (h.mans m) shape = true → ∃ t h', new checkShape h s shape m g p = .ok (t, h') ∧
      (h'.tens t).storage = s ∧ (h'.tens t).shape = shape ∧ (h'.tens t).manifold = m ∧
      (h'.tens t).requiresGrad = g ∧ dataOf h' t = h.storages s ∧ manOf h' t = h.mans m ∧
      ∀ a < h.next, h'.tens a = h.tens a) ∧
    (checkShape (h.mans m) shape = false → new checkShape h s shape m g p = .error .valueError) := by
  constructor
  · intro hc
    refine ⟨h.next, _, by unfold new; rw [if_pos hc]; rfl, ?_⟩
    simp only [Function.update_self, dataOf, manOf, true_and]
    intro a ha
    exact Function.update_of_ne (by omega) _ _
  · intro hc
    unfold new
    rw [if_neg (by simp [hc])]

/-- **C54.** `ManifoldParameter(t, manifold=m)` refuses a manifold other than that of `t`, and otherwise
keeps the data and the manifold of `t`. -/
theorem C54_parameter (h : Heap V α) (t : ℕ) (m : Option ℕ) (g : Bool) :
    ((∃ m', m = some m' ∧ (h.tens t).manifold ≠ m') → newParameter h t m g = .error .valueError) ∧
    ((∀ m', m = some m' → (h.tens t).manifold = m') → ∃ r h', newParameter h t m g = .ok (r, h') ∧
      (h'.tens r).manifold = (h.tens t).manifold ∧ dataOf h' r = dataOf h t ∧
      (h'.tens r).requiresGrad = g ∧ (h'.tens r).isParam = true) := by
  constructor
  · rintro ⟨m', rfl, hne⟩
    simp [newParameter, hne]
  · intro hm
    refine ⟨h.next, (h.newTens { h.tens t with requiresGrad := g, isParam := true }).2, ?_, ?_⟩
    · cases m with
      | none => rfl
      | some m' => simp [newParameter, hm m' rfl]; rfl
    · simp [Heap.newTens, dataOf]

/-- What a copy in progress guarantees relative to the heap `h0` at its start. -/
structure Inv (h0 : Heap V α) (st : CopyState V α) : Prop where
  next_le : h0.next ≤ st.heap.next
  storages : ∀ a < h0.next, st.heap.storages a = h0.storages a
  mans : ∀ a < h0.next, st.heap.mans a = h0.mans a
  tens : ∀ a < h0.next, st.heap.tens a = h0.tens a
  memoM : ∀ m m', st.memoM m = some m' → h0.next ≤ m' ∧ m' < st.heap.next ∧
    st.heap.mans m' = h0.mans m
  memoM_inj : ∀ m n m', st.memoM m = some m' → st.memoM n = some m' → m = n
  memoT : ∀ t t', st.memoT t = some t' → h0.next ≤ t' ∧ t' < st.heap.next ∧
    st.memoM (h0.tens t).manifold = some (st.heap.tens t').manifold ∧
    h0.next ≤ (st.heap.tens t').storage ∧ (st.heap.tens t').storage < st.heap.next ∧
    st.heap.storages (st.heap.tens t').storage = h0.storages (h0.tens t).storage ∧
    (st.heap.tens t').shape = (h0.tens t).shape ∧
    (st.heap.tens t').requiresGrad = (h0.tens t).requiresGrad ∧
    (st.heap.tens t').isParam = (h0.tens t).isParam
  memoT_inj : ∀ t u t', st.memoT t = some t' → st.memoT u = some t' → t = u
  storage_inj : ∀ t u t' u', st.memoT t = some t' → st.memoT u = some u' →
    (st.heap.tens t').storage = (st.heap.tens u').storage → t = u

/-- A live tensor object of a heap. -/
structure Live (h : Heap V α) (t : ℕ) : Prop where
  tens : t < h.next
  storage : (h.tens t).storage < h.next
  man : (h.tens t).manifold < h.next

theorem inv_newStorage {h0 : Heap V α} {st : CopyState V α} (hI : Inv h0 st) (d : List α) :
    Inv h0 { st with heap := (st.heap.newStorage d).2 } := by
  have hne : ∀ a, a < st.heap.next → a ≠ st.heap.next := fun a h => by omega
  have hn := hI.next_le
  refine ⟨?_, ?_, ?_, ?_, ?_, hI.memoM_inj, ?_, hI.memoT_inj, ?_⟩
  · simp only [Heap.newStorage]; omega
  · intro a ha
    simp only [Heap.newStorage]
    rw [Function.update_of_ne (by omega)]
    exact hI.storages a ha
  · exact hI.mans
  · exact hI.tens
  · intro m m' hm
    obtain ⟨a, b, c⟩ := hI.memoM m m' hm
    exact ⟨a, by simp only [Heap.newStorage]; omega, c⟩
  · intro t t' ht
    obtain ⟨a, b, c, d, e, f, g⟩ := hI.memoT t t' ht
    simp only [Heap.newStorage] at *
    refine ⟨a, by omega, c, d, by omega, ?_, g⟩
    rw [Function.update_of_ne (by omega)]
    exact f
  · exact hI.storage_inj

theorem inv_deepcopyMan {h0 : Heap V α} {st : CopyState V α} (hI : Inv h0 st) (m : ℕ)
    (hm : m < h0.next) :
    Inv h0 (deepcopyMan st m).2 ∧ (deepcopyMan st m).2.memoM m = some (deepcopyMan st m).1 ∧
    (deepcopyMan st m).2.memoT = st.memoT ∧ st.heap.next ≤ (deepcopyMan st m).2.heap.next ∧
    (deepcopyMan st m).2.heap.storages = st.heap.storages ∧
    (deepcopyMan st m).2.heap.tens = st.heap.tens := by
  have hn := hI.next_le
  unfold deepcopyMan
  cases hmm : st.memoM m with
  | some m' => exact ⟨hI, hmm, rfl, le_refl _, rfl, rfl⟩
  | none =>
    simp only [Heap.newMan]
    refine ⟨⟨?_, ?_, ?_, ?_, ?_, ?_, ?_, ?_, ?_⟩, ?_, by trivial, by omega, by trivial, by trivial⟩
    · dsimp only; omega
    · exact hI.storages
    · intro a ha
      dsimp only
      rw [Function.update_of_ne (by omega)]
      exact hI.mans a ha
    · exact hI.tens
    · intro k k' hk
      dsimp only at hk ⊢
      by_cases e : k = m
      · subst e
        rw [Function.update_self] at hk
        cases hk
        rw [Function.update_self]
        exact ⟨by omega, by omega, hI.mans k hm⟩
      · rw [Function.update_of_ne e] at hk
        obtain ⟨a, b, c⟩ := hI.memoM k k' hk
        rw [Function.update_of_ne (by omega)]
        exact ⟨a, by omega, c⟩
    · intro k l k' hk hl
      dsimp only at hk hl
      by_cases e : k = m
      · subst e
        rw [Function.update_self] at hk
        cases hk
        by_cases e2 : l = k
        · exact e2.symm
        · rw [Function.update_of_ne e2] at hl
          have := (hI.memoM l _ hl).2.1
          omega
      · rw [Function.update_of_ne e] at hk
        by_cases e2 : l = m
        · subst e2
          rw [Function.update_self] at hl
          cases hl
          have := (hI.memoM k _ hk).2.1
          omega
        · rw [Function.update_of_ne e2] at hl
          exact hI.memoM_inj k l k' hk hl
    · intro t t' ht
      obtain ⟨a, b, c, d, e, f, g⟩ := hI.memoT t t' ht
      dsimp only at *
      refine ⟨a, by omega, ?_, d, by omega, f, g⟩
      rw [Function.update_of_ne]
      · exact c
      · rintro e3
        rw [e3, hmm] at c
        cases c
    · exact hI.memoT_inj
    · exact hI.storage_inj
    · rw [Function.update_self]

theorem inv_deepcopyTens {h0 : Heap V α} {st st' : CopyState V α} (hI : Inv h0 st) (t t' : ℕ)
    (hl : Live h0 t) (h : deepcopyTens checkShape st t = .ok (t', st')) :
    Inv h0 st' ∧ st'.memoT t = some t' ∧
      (∀ u u', st.memoT u = some u' → st'.memoT u = some u') := by
  unfold deepcopyTens at h
  cases hmt : st.memoT t with
  | some s =>
    rw [hmt] at h
    cases h
    exact ⟨hI, hmt, fun _ _ h => h⟩
  | none =>
    rw [hmt] at h
    have ho : st.heap.tens t = h0.tens t := hI.tens t hl.tens
    have hs : st.heap.storages (h0.tens t).storage = h0.storages (h0.tens t).storage :=
      hI.storages _ hl.storage
    simp only [ho] at h
    have hI1 := inv_newStorage hI (st.heap.storages (h0.tens t).storage)
    set st0 : CopyState V α :=
      { st with heap := (st.heap.newStorage (st.heap.storages (h0.tens t).storage)).2 } with hst0
    obtain ⟨hI2, hmem, hT, hnext, hst, hte⟩ := inv_deepcopyMan hI1 (h0.tens t).manifold hl.man
    have hpair : deepcopyMan st0 (h0.tens t).manifold =
      ((deepcopyMan st0 (h0.tens t).manifold).1, (deepcopyMan st0 (h0.tens t).manifold).2) := rfl
    set m' := (deepcopyMan st0 (h0.tens t).manifold).1 with hm'
    set st1 := (deepcopyMan st0 (h0.tens t).manifold).2 with hst1
    have hs' : (st.heap.newStorage (st.heap.storages (h0.tens t).storage)).1 = st.heap.next := rfl
    have h' : (match new checkShape st1.heap st.heap.next (h0.tens t).shape m'
        (h0.tens t).requiresGrad (h0.tens t).isParam with
      | .error e => (.error e : Except PyErr (ℕ × CopyState V α))
      | .ok (t', h2) =>
        .ok (t', { st1 with heap := h2, memoT := Function.update st1.memoT t (some t') }))
        = .ok (t', st') := h
    unfold new at h'
    by_cases hc : checkShape (st1.heap.mans m') (h0.tens t).shape = true
    swap
    · rw [if_neg hc] at h'; cases h'
    rw [if_pos hc] at h'
    simp only [Heap.newTens] at h'
    cases h'
    have hn0 : st.heap.next < st1.heap.next := by
      have : st0.heap.next = st.heap.next + 1 := rfl
      omega
    have hge := hI.next_le
    have hge1 := hI2.next_le
    have hstor : st1.heap.storages st.heap.next = h0.storages (h0.tens t).storage := by
      rw [hst]
      simp only [hst0, Heap.newStorage, Function.update_self]
      exact hs
    have hTeq : st1.memoT = st.memoT := hT
    refine ⟨⟨?_, ?_, ?_, ?_, ?_, ?_, ?_, ?_, ?_⟩, ?_, ?_⟩
    · dsimp only; omega
    · exact hI2.storages
    · exact hI2.mans
    · intro a ha
      dsimp only
      rw [Function.update_of_ne (by omega)]
      exact hI2.tens a ha
    · intro k k' hk
      obtain ⟨a, b, c⟩ := hI2.memoM k k' hk
      exact ⟨a, by dsimp only; omega, c⟩
    · exact hI2.memoM_inj
    · intro u u' hu
      dsimp only at hu ⊢
      by_cases e : u = t
      · subst e
        rw [Function.update_self] at hu
        cases hu
        rw [Function.update_self]
        exact ⟨by omega, by omega, hmem, by dsimp only; omega, by dsimp only; omega, hstor, rfl, rfl, rfl⟩
      · rw [Function.update_of_ne e] at hu
        obtain ⟨a, b, c⟩ := hI2.memoT u u' hu
        rw [Function.update_of_ne (by omega)]
        refine ⟨a, by omega, c.1, c.2.1, by have := c.2.2.1; omega, c.2.2.2⟩
    · intro u w u' hu hw
      dsimp only at hu hw
      by_cases e : u = t
      · subst e
        rw [Function.update_self] at hu
        cases hu
        by_cases e2 : w = u
        · exact e2.symm
        · rw [Function.update_of_ne e2] at hw
          have := (hI2.memoT w _ hw).2.1
          omega
      · rw [Function.update_of_ne e] at hu
        by_cases e2 : w = t
        · subst e2
          rw [Function.update_self] at hw
          cases hw
          have := (hI2.memoT u _ hu).2.1
          omega
        · rw [Function.update_of_ne e2] at hw
          exact hI2.memoT_inj u w u' hu hw
    · -- distinct copies have distinct storages
      have old : ∀ w w', st1.memoT w = some w' → (st1.heap.tens w').storage ≠ st.heap.next := by
        intro w w' hw
        rw [hTeq] at hw
        have h1 := (hI.memoT w w' hw).2.2.2.2.1
        rw [hte]
        have : st0.heap.tens = st.heap.tens := rfl
        rw [this]
        omega
      intro u w u' w' hu hw hs
      dsimp only at hu hw hs
      by_cases e : u = t
      · subst e
        rw [Function.update_self] at hu
        cases hu
        by_cases e2 : w = u
        · exact e2.symm
        · rw [Function.update_of_ne e2] at hw
          have hlt := (hI2.memoT w _ hw).2.1
          rw [Function.update_self, Function.update_of_ne (by omega)] at hs
          exact absurd hs.symm (old w w' hw)
      · rw [Function.update_of_ne e] at hu
        have hlt := (hI2.memoT u _ hu).2.1
        by_cases e2 : w = t
        · subst e2
          rw [Function.update_self] at hw
          cases hw
          rw [Function.update_self, Function.update_of_ne (by omega)] at hs
          exact absurd hs (old u u' hu)
        · rw [Function.update_of_ne e2] at hw
          have hlt2 := (hI2.memoT w _ hw).2.1
          rw [Function.update_of_ne (by omega), Function.update_of_ne (by omega)] at hs
          exact hI2.storage_inj u w u' w' hu hw hs
    · dsimp only
      rw [Function.update_self]
    · intro u u' hu
      dsimp only
      by_cases e : u = t
      · subst e; rw [hmt] at hu; cases hu
      · rw [Function.update_of_ne e, hTeq]; exact hu

theorem inv_deepcopyList {h0 : Heap V α} (ts : List ℕ) (hl : ∀ t ∈ ts, Live h0 t)
    {st st' : CopyState V α} (hI : Inv h0 st) (rs : List ℕ)
    (h : deepcopyList checkShape st ts = .ok (rs, st')) :
    Inv h0 st' ∧ List.Forall₂ (fun t r => st'.memoT t = some r) ts rs ∧
      (∀ u u', st.memoT u = some u' → st'.memoT u = some u') := by
  induction ts generalizing st rs with
  | nil =>
    cases h
    exact ⟨hI, .nil, fun _ _ h => h⟩
  | cons t ts ih =>
    rw [deepcopyList] at h
    cases h1 : deepcopyTens checkShape st t with
    | error e => rw [h1] at h; cases h
    | ok p =>
      obtain ⟨t', st1⟩ := p
      rw [h1] at h
      simp only at h
      cases h2 : deepcopyList checkShape st1 ts with
      | error e => rw [h2] at h; cases h
      | ok q =>
        obtain ⟨ts', st2⟩ := q
        rw [h2] at h
        cases h
        obtain ⟨a1, a2, a3⟩ := inv_deepcopyTens checkShape hI t t' (hl t (by simp)) h1
        obtain ⟨b1, b2, b3⟩ := ih (fun u hu => hl u (by simp [hu])) a1 ts' h2
        exact ⟨b1, .cons (b3 _ _ a2) b2, fun u u' hu => b3 u u' (a3 u u' hu)⟩

/-- The state at the start of `copy.deepcopy`: an empty memo. -/
def start (h : Heap V α) : CopyState V α := ⟨h, fun _ => none, fun _ => none⟩

theorem inv_start (h : Heap V α) : Inv h (start h) where
  next_le := le_refl _
  storages _ _ := rfl
  mans _ _ := rfl
  tens _ _ := rfl
  memoM := by intro m m' h; cases h
  memoM_inj := by intro m n m' h; cases h
  memoT := by intro m m' h; cases h
  memoT_inj := by intro m n m' h; cases h
  storage_inj := by intro m n m' n' h; cases h

/-- **C54.** A joint `copy.deepcopy` of any tensors, any of which may be the same object or share a
manifold: every copy has the entries, shape, flags and manifold value of its original, in new objects
and a new storage; two copies are the same object exactly when their originals are; two copies share a
manifold object exactly when their originals do; and nothing that existed before changes. -/
theorem C54_deepcopy (h : Heap V α) (ts : List ℕ) (hl : ∀ t ∈ ts, Live h t) (rs : List ℕ)
    (st' : CopyState V α) (hok : deepcopyList checkShape (start h) ts = .ok (rs, st')) :
    rs.length = ts.length ∧
    (∀ (i t r : ℕ), ts[i]? = some t → rs[i]? = some r →
      h.next ≤ r ∧ h.next ≤ (st'.heap.tens r).storage ∧ h.next ≤ (st'.heap.tens r).manifold ∧
      dataOf st'.heap r = dataOf h t ∧ manOf st'.heap r = manOf h t ∧
      (st'.heap.tens r).shape = (h.tens t).shape ∧
      (st'.heap.tens r).requiresGrad = (h.tens t).requiresGrad ∧
      (st'.heap.tens r).isParam = (h.tens t).isParam) ∧
    (∀ (i j t u r s : ℕ), ts[i]? = some t → rs[i]? = some r → ts[j]? = some u → rs[j]? = some s →
      (r = s ↔ t = u) ∧
      ((st'.heap.tens r).manifold = (st'.heap.tens s).manifold ↔
        (h.tens t).manifold = (h.tens u).manifold)) ∧
    (∀ a < h.next, st'.heap.storages a = h.storages a ∧ st'.heap.mans a = h.mans a ∧
      st'.heap.tens a = h.tens a) := by
  obtain ⟨hI, hf, -⟩ := inv_deepcopyList checkShape ts hl (inv_start h) rs hok
  have hlen := hf.length_eq
  have memo : ∀ (i t r : ℕ), ts[i]? = some t → rs[i]? = some r → st'.memoT t = some r := by
    intro i t r ht hr
    obtain ⟨h1, rfl⟩ := List.getElem?_eq_some_iff.1 ht
    obtain ⟨h2, rfl⟩ := List.getElem?_eq_some_iff.1 hr
    exact (List.forall₂_iff_get.1 hf).2 i h1 h2
  refine ⟨hlen.symm, ?_, ?_, ?_⟩
  · intro i t r ht hr
    obtain ⟨a, b, c, d, e, f, g1, g2, g3⟩ := hI.memoT t r (memo i t r ht hr)
    obtain ⟨m1, m2, m3⟩ := hI.memoM _ _ c
    exact ⟨a, d, m1, f, m3, g1, g2, g3⟩
  · intro i j t u r s ht hr hu hs
    have m1 := memo i t r ht hr
    have m2 := memo j u s hu hs
    constructor
    · constructor
      · rintro rfl; exact hI.memoT_inj t u r m1 m2
      · rintro rfl; rw [m1] at m2; exact Option.some.inj m2
    · have c1 := (hI.memoT t r m1).2.2.1
      have c2 := (hI.memoT u s m2).2.2.1
      constructor
      · intro e; rw [e] at c1; exact hI.memoM_inj _ _ _ c1 c2
      · intro e; rw [e] at c1; rw [c1] at c2; exact Option.some.inj c2
  · intro a ha
    exact ⟨hI.storages a ha, hI.mans a ha, hI.tens a ha⟩

/-- **C54.** The copy succeeds whenever the manifolds accept the shapes, as they did when the tensors were
constructed. -/
theorem C54_deepcopy_succeeds (h : Heap V α) (ts : List ℕ) (hl : ∀ t ∈ ts, Live h t)
    (hc : ∀ t ∈ ts, checkShape (manOf h t) (h.tens t).shape = true) :
    ∃ rs st', deepcopyList checkShape (start h) ts = .ok (rs, st') := by
  have key : ∀ (ts : List ℕ) (st : CopyState V α), (∀ t ∈ ts, Live h t) →
      (∀ t ∈ ts, checkShape (manOf h t) (h.tens t).shape = true) → Inv h st →
      ∃ rs st', deepcopyList checkShape st ts = .ok (rs, st') := by
    intro ts
    induction ts with
    | nil => intro st _ _ _; exact ⟨[], st, rfl⟩
    | cons t ts ih =>
      intro st hl hc hI
      have step : ∃ p, deepcopyTens checkShape st t = .ok p := by
        unfold deepcopyTens
        cases hmt : st.memoT t with
        | some s => exact ⟨_, rfl⟩
        | none =>
          have hlt := hl t (by simp)
          have ho : st.heap.tens t = h.tens t := hI.tens t hlt.tens
          simp only [ho]
          have hI1 := inv_newStorage hI (st.heap.storages (h.tens t).storage)
          obtain ⟨hI2, hmem, -⟩ := inv_deepcopyMan hI1 (h.tens t).manifold hlt.man
          have hv := (hI2.memoM _ _ hmem).2.2
          have hcs := hc t (by simp)
          unfold manOf at hcs
          have hq : checkShape ((deepcopyMan { st with heap :=
              (st.heap.newStorage (st.heap.storages (h.tens t).storage)).2 }
              (h.tens t).manifold).2.heap.mans (deepcopyMan { st with heap :=
              (st.heap.newStorage (st.heap.storages (h.tens t).storage)).2 }
              (h.tens t).manifold).1) (h.tens t).shape = true := by rw [hv]; exact hcs
          unfold new
          simp only [hq, if_true]
          exact ⟨_, rfl⟩
      obtain ⟨⟨t', st1⟩, e⟩ := step
      obtain ⟨a1, -, -⟩ := inv_deepcopyTens checkShape hI t t' (hl t (by simp)) e
      obtain ⟨rs, st2, e2⟩ := ih st1 (fun u hu => hl u (by simp [hu]))
        (fun u hu => hc u (by simp [hu])) a1
      exact ⟨t' :: rs, st2, by rw [deepcopyList, e]; simp only [e2]⟩
  exact key ts (start h) hl hc (inv_start h)

/-- **C54 fails for aliased data.** Two different tensor objects on one storage (for instance a parameter
and a `ManifoldTensor` made from it) no longer share it after a joint deepcopy: an in-place update of
one copy is not seen by the other. -/
theorem C54_counterexample_storage (h : Heap V α) (t u : ℕ) (hne : t ≠ u) (ht : Live h t)
    (hu : Live h u) (_hs : (h.tens t).storage = (h.tens u).storage) (rs : List ℕ)
    (st' : CopyState V α) (hok : deepcopyList checkShape (start h) [t, u] = .ok (rs, st')) :
    ∃ a b, rs = [a, b] ∧ (st'.heap.tens a).storage ≠ (st'.heap.tens b).storage := by
  obtain ⟨hI, hf, -⟩ := inv_deepcopyList checkShape [t, u]
    (by intro w hw; simp at hw; rcases hw with rfl | rfl <;> assumption) (inv_start h) rs hok
  cases hf with
  | cons h1 h2 =>
    cases h2 with
    | cons h2 h3 =>
      cases h3
      exact ⟨_, _, rfl, fun e => hne (hI.storage_inj _ _ _ _ h1 h2 e)⟩

/-- **C54.** Pickling round trip: whatever arguments torch stores for the plain tensor, rebuilding gives
its data back with the class, the manifold and the `requires_grad` flag; it fails only if the manifold
does not accept the shape. -/
theorem C54_pickle (build : List (PVal V α) → Option (List α × List ℕ)) (proto : List (PVal V α))
    (data : List α) (shape : List ℕ) (hb : build proto = some (data, shape)) (isParam : Bool) (v : V)
    (g : Bool) :
    rebuild checkShape build (reduceArgs proto isParam v g) =
      if checkShape v shape then .ok ⟨data, shape, v, g, isParam⟩ else .error .valueError := by
  have h4 : (reduceArgs proto isParam v g).take ((reduceArgs proto isParam v g).length - 4)
      = proto := by
    simp [reduceArgs]
  have h3 : argFromEnd (reduceArgs proto isParam v g) 3 = some (.cls isParam) := by
    simp [reduceArgs, argFromEnd]
  have h2 : argFromEnd (reduceArgs proto isParam v g) 2 = some (.manifold v) := by
    simp [reduceArgs, argFromEnd]
  have h1 : argFromEnd (reduceArgs proto isParam v g) 1 = some (.bool g) := by
    simp [reduceArgs, argFromEnd]
  unfold rebuild
  rw [h4, hb]
  simp only [h3, h2, h1]

/-- A heap with two parameters (addresses 2 and 4) on one manifold (address 0), and a third
(address 6) on another. -/
def exampleHeap : Heap ℕ ℕ where
  next := 7
  storages a := [a, a]
  mans a := a
  tens a := ⟨if a = 2 then 1 else if a = 4 then 3 else 1, [2], if a = 6 then 5 else 0, true, true⟩

/-- The hypotheses are met, and the copy of the list `[p, q, p, r]` has the same sharing. -/
example : ∃ rs st', deepcopyList (fun _ s => decide (s = [2])) (start exampleHeap) [2, 4, 2, 6] =
    .ok (rs, st') ∧ rs = [9, 11, 9, 14] ∧
    (∀ t ∈ [2, 4, 2, 6], Live exampleHeap t) := by
  refine ⟨_, _, rfl, rfl, ?_⟩
  intro t ht
  simp only [List.mem_cons, List.not_mem_nil, or_false] at ht
  rcases ht with rfl | rfl | rfl | rfl <;> constructor <;> decide

end C54
