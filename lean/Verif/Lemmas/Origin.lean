import Verif.Spec.Origin
import Mathlib.Tactic.Linarith

/-! # Strided tensors and sizes: helper lemmas -/

namespace Geoopt.Origin

variable {α : Type}

theorem span_pos (s : List ℕ) : 0 < span s := by
  induction s with
  | nil => simp [span]
  | cons d ds ih =>
    simp only [span, List.map_cons, List.prod_cons] at ih ⊢
    exact Nat.mul_pos (by omega) ih

theorem addr_lt {s idx : List ℕ} (h : ValidIdx s idx) : addr (contiguous s) idx < span s := by
  unfold ValidIdx at h
  induction h with
  | nil => simp [addr, span]
  | @cons i d is ds hid _ ih =>
    simp only [addr, contiguous, List.zipWith_cons_cons, List.sum_cons] at ih ⊢
    have e : span (d :: ds) = max 1 d * span ds := by simp [span]
    have h1 : (i + 1) * span ds ≤ max 1 d * span ds := Nat.mul_le_mul_right _ (by omega)
    rw [e]
    have : (i + 1) * span ds = i * span ds + span ds := by ring
    omega

theorem unravel_addr {s idx : List ℕ} (h : ValidIdx s idx) :
    unravel s (addr (contiguous s) idx) = idx := by
  have h' := h
  unfold ValidIdx at h
  induction h with
  | nil => rfl
  | @cons i d is ds hid hr ih =>
    have hlt : addr (contiguous ds) is < span ds := addr_lt hr
    have e : addr (contiguous (d :: ds)) (i :: is) = i * span ds + addr (contiguous ds) is := by
      simp [addr, contiguous]
    rw [e, unravel, ]
    have h1 : (i * span ds + addr (contiguous ds) is) / span ds = i := by
      rw [Nat.mul_comm, Nat.mul_add_div (span_pos ds), Nat.div_eq_of_lt hlt, Nat.add_zero]
    have h2 : (i * span ds + addr (contiguous ds) is) % span ds = addr (contiguous ds) is := by
      rw [Nat.mul_comm, Nat.mul_add_mod, Nat.mod_eq_of_lt hlt]
    rw [h1, h2, ih hr]

theorem addr_inj {s idx idx' : List ℕ} (h : ValidIdx s idx) (h' : ValidIdx s idx')
    (e : addr (contiguous s) idx = addr (contiguous s) idx') : idx = idx' := by
  rw [← unravel_addr h, e, unravel_addr h']

theorem fresh_entry {s idx : List ℕ} (f : List ℕ → α) (h : ValidIdx s idx) :
    (fresh s f).entry idx = f idx := by
  simp only [fresh, Ten.entry, unravel_addr h]

theorem no_overlap {t : Ten α} (h : t.strides = contiguous t.shape) : ¬ t.overlaps := by
  rintro ⟨p, hp, h1, h2⟩
  rw [h] at hp
  have : ∀ s : List ℕ, ∀ p ∈ s.zip (contiguous s), 0 < p.2 := by
    intro s
    induction s with
    | nil => simp
    | cons d ds ih =>
      intro p hp
      simp only [contiguous, List.zip_cons_cons, List.mem_cons] at hp
      rcases hp with rfl | hp
      · exact span_pos ds
      · exact ih p hp
  have := this _ p hp
  omega

/-- Distinct entries in distinct cells, and no axis of stride zero. -/
theorem owns_of {t : Ten α} (hinj : ∀ i j, ValidIdx t.shape i → ValidIdx t.shape j →
    addr t.strides i = addr t.strides j → i = j) (hno : ¬ t.overlaps) : OwnsEntries t := by
  constructor
  · intro idx idx' h1 h2 v
    constructor
    · rintro rfl; simp [Ten.set, Ten.entry]
    · intro hne
      have : addr t.strides idx' ≠ addr t.strides idx := fun e => hne (hinj _ _ h2 h1 e)
      simp [Ten.set, Ten.entry, this]
  · intro src
    rw [Ten.copy_, if_neg hno]
    refine ⟨_, rfl, rfl, fun idx hi => ?_⟩
    have hex : ∃ j, ValidIdx t.shape j ∧ addr t.strides j = addr t.strides idx := ⟨idx, hi, rfl⟩
    simp only [Ten.entry]
    rw [dif_pos hex]
    have hc := hex.choose_spec
    congr 1
    exact hinj _ _ hc.1 hi hc.2

theorem owns {t : Ten α} (h : t.strides = contiguous t.shape) : OwnsEntries t := by
  refine owns_of (fun i j hi hj e => ?_) (no_overlap h)
  rw [h] at e
  exact addr_inj hi hj e

theorem valid_split {B : List ℕ} {n m : ℕ} {idx : List ℕ} (h : ValidIdx (B ++ [n, m]) idx) :
    ∃ b i j, idx = b ++ [i, j] ∧ ValidIdx B b ∧ i < n ∧ j < m := by
  induction B generalizing idx with
  | nil =>
    simp only [ValidIdx, List.nil_append] at h
    rcases h with _ | ⟨h1, h⟩
    rcases h with _ | ⟨h2, h⟩
    cases h
    exact ⟨[], _, _, rfl, .nil, h1, h2⟩
  | cons d ds ih =>
    rcases h with _ | ⟨h1, h⟩
    obtain ⟨b, i, j, rfl, hb, hi, hj⟩ := ih h
    exact ⟨_ :: b, i, j, rfl, .cons h1 hb, hi, hj⟩

theorem update_entry {t : Ten α} (h : t.strides = contiguous t.shape) (p : List ℕ → Prop) (g : α → α)
    {idx : List ℕ} (hi : ValidIdx t.shape idx) :
    (p idx → (t.update p g).entry idx = g (t.entry idx)) ∧
    (¬ p idx → (t.update p g).entry idx = t.entry idx) := by
  have key : (∃ j, ValidIdx t.shape j ∧ p j ∧ addr t.strides j = addr t.strides idx) ↔ p idx := by
    constructor
    · rintro ⟨j, hj, hp, e⟩
      rw [h] at e
      rwa [← addr_inj hj hi e]
    · exact fun hp => ⟨idx, hi, hp, rfl⟩
  constructor <;> intro hp
  · exact if_pos (key.2 hp)
  · exact if_neg (fun hc => hp (key.1 hc))

theorem valid_append {B S b i : List ℕ} (hb : ValidIdx B b) (hi : ValidIdx S i) :
    ValidIdx (B ++ S) (b ++ i) := List.rel_append hb hi

theorem valid_one {n : ℕ} (i : Fin n) : ValidIdx [n] [i.val] := .cons i.2 .nil

theorem valid_two {n m : ℕ} (i : Fin n) (j : Fin m) : ValidIdx [n, m] [i.val, j.val] :=
  .cons i.2 (.cons j.2 .nil)

@[simp] theorem fromEnd_one (b : List ℕ) (i : ℕ) : fromEnd (b ++ [i]) 1 = i := by simp [fromEnd]

@[simp] theorem fromEnd_two1 (b : List ℕ) (i j : ℕ) : fromEnd (b ++ [i, j]) 1 = j := by
  simp [fromEnd]

@[simp] theorem fromEnd_two2 (b : List ℕ) (i j : ℕ) : fromEnd (b ++ [i, j]) 2 = i := by
  simp [fromEnd]

@[simp] theorem ints_map (s : List ℕ) : ints (s.map .int) = some s := by
  induction s with
  | nil => rfl
  | cons d ds ih => simp [ints, ih]

theorem torchSize_of {args : List PyVal} {s : List ℕ} (h : Requests args s) :
    torchSize args = .ok s := by
  rcases h with ⟨h, rfl⟩ | rfl | rfl
  · match s, h with
    | [n], _ => rfl
    | n :: m :: ds, _ =>
      show (match ints ((n :: m :: ds).map PyVal.int) with | some s => _ | none => _) = _
      rw [ints_map]
  · simp [torchSize]
  · simp [torchSize]

theorem size2shape_of {args : List PyVal} {s : List ℕ} (h : Requests args s) :
    ints (size2shape args) = some s := by
  rcases h with ⟨h, rfl⟩ | rfl | rfl
  · match s, h with
    | [n], _ => rfl
    | n :: m :: ds, _ =>
      show ints ((n :: m :: ds).map PyVal.int) = _
      rw [ints_map]
  · simp [size2shape, stripTuple, makeTuple]
  · simp [size2shape, stripTuple, makeTuple]

theorem assertShape_of {args : List PyVal} {s : List ℕ} (h : Requests args s) (c : List ℕ → Bool) :
    assertShape c args = if c s then .ok s else .error .valueError := by
  simp [assertShape, size2shape_of h]

theorem zeros_of [Zero α] {args : List PyVal} {s : List ℕ} (h : Requests args s) :
    (zeros args : Except PyErr (Ten α)) = .ok (fresh s fun _ => 0) := by
  simp [zeros, torchSize_of h, bind, Except.bind, pure, Except.pure]

end Geoopt.Origin
