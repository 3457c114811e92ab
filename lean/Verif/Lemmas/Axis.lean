import Verif.Model.Axis
import Mathlib.Tactic.Linarith
import Mathlib.Algebra.BigOperators.Fin
import Mathlib.Algebra.BigOperators.Ring.Finset
import Mathlib.Algebra.BigOperators.Pi

/-!
Helper lemmas about tensors: every operation commutes with a reordering of the axes, and how
`get` reads the result of an operation.
-/

namespace Geoopt.Axis.Tensor
open Geoopt
variable {r m : ℕ}

theorem add_def (a b : Tensor r) : a + b = map2 (· + ·) a b := rfl
theorem sub_def (a b : Tensor r) : a - b = map2 (· - ·) a b := rfl
theorem mul_def (a b : Tensor r) : a * b = map2 (· * ·) a b := rfl
theorem div_def (a b : Tensor r) : a / b = map2 (· / ·) a b := rfl
theorem neg_def (a : Tensor r) : -a = map (- ·) a := rfl

/-! ### reordering the axes -/

theorem perm_get (σ : Equiv.Perm (Fin r)) (t : Tensor r) (i : Fin r → ℕ) :
    (t.perm σ).get i = t.get fun k => i (σ.symm k) := by
  simp [get, perm, bidx]; rfl

theorem perm_map (σ : Equiv.Perm (Fin r)) (f : ℝ → ℝ) (t : Tensor r) :
    (t.map f).perm σ = (t.perm σ).map f := rfl

theorem perm_map2 (σ : Equiv.Perm (Fin r)) (f : ℝ → ℝ → ℝ) (a b : Tensor r) :
    (map2 f a b).perm σ = map2 f (a.perm σ) (b.perm σ) := by
  simp only [map2, perm_get]; rfl

theorem perm_whr (σ : Equiv.Perm (Fin r)) (c a b : Tensor r) :
    (whr c a b).perm σ = whr (c.perm σ) (a.perm σ) (b.perm σ) := by
  simp only [whr, perm_get]; rfl

theorem update_symm (σ : Equiv.Perm (Fin r)) (i : Fin r → ℕ) (d : Fin r) (j : ℕ) :
    (fun k => Function.update i (σ.symm d) j (σ.symm k)) =
      Function.update (fun k => i (σ.symm k)) d j := by
  funext k
  by_cases h : k = d
  · subst h; simp
  · rw [Function.update_of_ne h, Function.update_of_ne (fun e => h (σ.symm.injective e))]

theorem update_fwd (σ : Equiv.Perm (Fin r)) (s : Fin r → ℕ) (d : Fin r) (j : ℕ) :
    (fun k => Function.update s d j (σ k)) =
      Function.update (fun k => s (σ k)) (σ.symm d) j := by
  have := update_symm σ.symm s (σ.symm d) j
  simpa using this

theorem perm_sumK (σ : Equiv.Perm (Fin r)) (d : Fin r) (t : Tensor r) :
    (t.sumK d).perm σ = (t.perm σ).sumK (σ.symm d) := by
  refine Tensor.ext ?_ ?_
  · exact update_fwd σ t.shape d 1
  · funext i
    simp only [sumK, perm_get, update_symm]
    simp [perm]

theorem perm_prodK (σ : Equiv.Perm (Fin r)) (d : Fin r) (t : Tensor r) :
    (t.prodK d).perm σ = (t.perm σ).prodK (σ.symm d) := by
  refine Tensor.ext ?_ ?_
  · exact update_fwd σ t.shape d 1
  · funext i
    simp only [prodK, perm_get, update_symm]
    simp [perm]

theorem perm_narrow (σ : Equiv.Perm (Fin r)) (d : Fin r) (s l : ℕ) (t : Tensor r) :
    (t.narrow d s l).perm σ = (t.perm σ).narrow (σ.symm d) s l := by
  refine Tensor.ext ?_ ?_
  · exact update_fwd σ t.shape d l
  · funext i
    simp only [narrow, perm, update_symm]

theorem perm_cat (σ : Equiv.Perm (Fin r)) (d : Fin r) (a b : Tensor r) :
    (cat d a b).perm σ = cat (σ.symm d) (a.perm σ) (b.perm σ) := by
  refine Tensor.ext ?_ ?_
  · have := update_fwd σ a.shape d (a.shape d + b.shape d)
    simpa [cat, perm] using this
  · funext i
    simp only [cat, perm, update_symm]
    simp

theorem perm_sumOthersK (σ : Equiv.Perm (Fin r)) (d : Fin r) (t : Tensor r) :
    (t.sumOthersK d).perm σ = (t.perm σ).sumOthersK (σ.symm d) := by
  refine Tensor.ext ?_ ?_
  · funext k
    simp only [sumOthersK, perm, Equiv.apply_symm_apply]
    by_cases h : σ k = d
    · subst h; simp
    · rw [if_neg h, if_neg]
      intro e; exact h (by rw [e]; simp)
  · funext i
    simp only [sumOthersK, perm]
    refine Finset.sum_equiv (Equiv.arrowCongr σ.symm (Equiv.refl ℕ)) ?_ ?_
    · intro J
      simp only [Fintype.mem_piFinset, Equiv.arrowCongr_apply, Function.comp, Equiv.refl_apply,
        Equiv.symm_symm]
      constructor
      · intro h k
        have := h (σ k)
        by_cases e : σ k = d
        · subst e; simpa using this
        · rw [if_neg e] at this
          rw [if_neg (fun e' => e (by rw [e']; simp))]
          exact this
      · intro h k
        have := h (σ.symm k)
        by_cases e : k = d
        · subst e; simpa using this
        · rw [if_neg (fun e' => e (σ.symm.injective e'))] at this
          rw [if_neg e]
          simpa using this
    · intro J _
      have := perm_get σ t (Equiv.arrowCongr σ.symm (Equiv.refl ℕ) J)
      simp only [Equiv.arrowCongr_apply, Function.comp, Equiv.refl_apply, Equiv.symm_symm,
        Equiv.apply_symm_apply] at this
      exact this.symm

theorem perm_any (σ : Equiv.Perm (Fin r)) (t : Tensor r) : (t.perm σ).Any ↔ t.Any := by
  constructor
  · rintro ⟨i, hi, h⟩
    refine ⟨fun k => i (σ.symm k), fun k => ?_, by rwa [perm_get] at h⟩
    simpa [perm] using hi (σ.symm k)
  · rintro ⟨i, hi, h⟩
    refine ⟨fun k => i (σ k), fun k => hi (σ k), ?_⟩
    rw [perm_get]; simpa using h

theorem perm_numel (σ : Equiv.Perm (Fin r)) (t : Tensor r) : (t.perm σ).numel = t.numel := by
  simp only [numel, perm]
  exact Equiv.prod_comp σ t.shape

theorem perm_cmp (σ : Equiv.Perm (Fin r)) (p : ℝ → ℝ → Prop) (a b : Tensor r) :
    (cmp p a b).perm σ = cmp p (a.perm σ) (b.perm σ) := perm_map2 σ _ a b

/-! ### moving one axis to the end -/

@[simp] theorem lastPerm_last (d : Fin (m + 1)) : lastPerm d (Fin.last m) = d := by
  simp [lastPerm, finSuccEquiv'_at, finSuccEquiv'_symm_none]

@[simp] theorem lastPerm_castSucc (d : Fin (m + 1)) (k : Fin m) :
    lastPerm d k.castSucc = d.succAbove k := by
  have : finSuccEquiv' (Fin.last m) k.castSucc = some k := by
    rw [← Fin.succAbove_last]; exact finSuccEquiv'_succAbove _ _
  simp [lastPerm, this, finSuccEquiv'_symm_some]

@[simp] theorem lastPerm_symm (d : Fin (m + 1)) : (lastPerm d).symm d = Fin.last m := by
  rw [Equiv.symm_apply_eq]; simp

@[simp] theorem lastPerm_symm_succAbove (d : Fin (m + 1)) (k : Fin m) :
    (lastPerm d).symm (d.succAbove k) = k.castSucc := by
  rw [Equiv.symm_apply_eq]; simp

theorem moveLast_last (t : Tensor (m + 1)) : t.moveLast (Fin.last m) = t := by
  have h : lastPerm (Fin.last m) = Equiv.refl _ := by
    ext k; simp [lastPerm]
  rw [moveLast, h]; rfl

theorem moveLast_map (d : Fin (m + 1)) (f : ℝ → ℝ) (t : Tensor (m + 1)) :
    (t.map f).moveLast d = (t.moveLast d).map f := rfl

theorem moveLast_map2 (d : Fin (m + 1)) (f : ℝ → ℝ → ℝ) (a b : Tensor (m + 1)) :
    (map2 f a b).moveLast d = map2 f (a.moveLast d) (b.moveLast d) := perm_map2 _ f a b

theorem moveLast_add (d : Fin (m + 1)) (a b : Tensor (m + 1)) :
    (a + b).moveLast d = a.moveLast d + b.moveLast d := perm_map2 _ _ a b
theorem moveLast_sub (d : Fin (m + 1)) (a b : Tensor (m + 1)) :
    (a - b).moveLast d = a.moveLast d - b.moveLast d := perm_map2 _ _ a b
theorem moveLast_mul (d : Fin (m + 1)) (a b : Tensor (m + 1)) :
    (a * b).moveLast d = a.moveLast d * b.moveLast d := perm_map2 _ _ a b
theorem moveLast_div (d : Fin (m + 1)) (a b : Tensor (m + 1)) :
    (a / b).moveLast d = a.moveLast d / b.moveLast d := perm_map2 _ _ a b
theorem moveLast_neg (d : Fin (m + 1)) (a : Tensor (m + 1)) :
    (-a).moveLast d = -a.moveLast d := rfl

theorem moveLast_whr (d : Fin (m + 1)) (c a b : Tensor (m + 1)) :
    (whr c a b).moveLast d = whr (c.moveLast d) (a.moveLast d) (b.moveLast d) := perm_whr _ c a b

theorem moveLast_test (d : Fin (m + 1)) (p : ℝ → Prop) (a : Tensor (m + 1)) :
    (a.test p).moveLast d = (a.moveLast d).test p := rfl

theorem moveLast_cmp (d : Fin (m + 1)) (p : ℝ → ℝ → Prop) (a b : Tensor (m + 1)) :
    (cmp p a b).moveLast d = cmp p (a.moveLast d) (b.moveLast d) := perm_cmp _ p a b

theorem moveLast_sumK (d : Fin (m + 1)) (t : Tensor (m + 1)) :
    (t.sumK d).moveLast d = (t.moveLast d).sumK (Fin.last m) := by
  rw [moveLast, perm_sumK, lastPerm_symm]; rfl

theorem moveLast_prodK (d : Fin (m + 1)) (t : Tensor (m + 1)) :
    (t.prodK d).moveLast d = (t.moveLast d).prodK (Fin.last m) := by
  rw [moveLast, perm_prodK, lastPerm_symm]; rfl

theorem moveLast_normK (d : Fin (m + 1)) (t : Tensor (m + 1)) :
    (t.normK d).moveLast d = (t.moveLast d).normK (Fin.last m) := by
  simp only [normK, moveLast_map, moveLast_sumK]

theorem moveLast_narrow (d : Fin (m + 1)) (s l : ℕ) (t : Tensor (m + 1)) :
    (t.narrow d s l).moveLast d = (t.moveLast d).narrow (Fin.last m) s l := by
  rw [moveLast, perm_narrow, lastPerm_symm]; rfl

theorem moveLast_cat (d : Fin (m + 1)) (a b : Tensor (m + 1)) :
    (cat d a b).moveLast d = cat (Fin.last m) (a.moveLast d) (b.moveLast d) := by
  rw [moveLast, perm_cat, lastPerm_symm]; rfl

theorem moveLast_sumOthersK (d : Fin (m + 1)) (t : Tensor (m + 1)) :
    (t.sumOthersK d).moveLast d = (t.moveLast d).sumOthersK (Fin.last m) := by
  rw [moveLast, perm_sumOthersK, lastPerm_symm]; rfl

theorem moveLast_any (d : Fin (m + 1)) (t : Tensor (m + 1)) : (t.moveLast d).Any ↔ t.Any :=
  perm_any _ t

theorem moveLast_numel (d : Fin (m + 1)) (t : Tensor (m + 1)) :
    (t.moveLast d).numel = t.numel := perm_numel _ t

theorem moveLast_shape_last (d : Fin (m + 1)) (t : Tensor (m + 1)) :
    (t.moveLast d).shape (Fin.last m) = t.shape d := by simp [moveLast, perm]

theorem moveLast_shape_castSucc (d : Fin (m + 1)) (t : Tensor (m + 1)) (k : Fin m) :
    (t.moveLast d).shape k.castSucc = t.shape (d.succAbove k) := by simp [moveLast, perm]

theorem squeeze_moveLast (d : Fin (m + 1)) (t : Tensor (m + 1)) :
    (t.moveLast d).squeeze (Fin.last m) = t.squeeze d := by
  refine Tensor.ext ?_ ?_
  · funext k
    simp [squeeze, moveLast, perm]
  · funext i
    simp only [squeeze, moveLast, perm]
    congr 1
    funext k
    rcases Fin.eq_self_or_eq_succAbove d k with h | ⟨j, h⟩
    · subst h; simp
    · subst h; simp

theorem moveLast_unsqueeze (d : Fin (m + 1)) (t : Tensor m) :
    (t.unsqueeze d).moveLast d = t.unsqueeze (Fin.last m) := by
  refine Tensor.ext ?_ ?_
  · funext k
    rcases Fin.eq_castSucc_or_eq_last k with ⟨j, h⟩ | h
    · subst h
      rw [moveLast_shape_castSucc]
      simp [unsqueeze]
    · subst h
      rw [moveLast_shape_last]
      simp [unsqueeze]
  · funext i
    simp [unsqueeze, moveLast, perm]

theorem sum_moveLast (d : Fin (m + 1)) (t : Tensor (m + 1)) :
    (t.moveLast d).sum (Fin.last m) = t.sum d := by
  rw [sum, ← moveLast_sumK, squeeze_moveLast]; rfl

theorem norm_moveLast (d : Fin (m + 1)) (t : Tensor (m + 1)) :
    (t.moveLast d).norm (Fin.last m) = t.norm d := by
  rw [norm, ← moveLast_normK, squeeze_moveLast]; rfl

theorem dropOthers_moveLast (d : Fin (m + 1)) (t : Tensor (m + 1)) :
    (t.moveLast d).dropOthers (Fin.last m) = t.dropOthers d := by
  refine Tensor.ext ?_ ?_
  · funext k; simp [dropOthers, moveLast, perm]
  · funext i
    simp only [dropOthers, moveLast, perm]
    congr 1
    funext k
    rcases Fin.eq_self_or_eq_succAbove d k with h | ⟨j, h⟩
    · subst h; simp
    · subst h
      rw [lastPerm_symm_succAbove, Function.update_of_ne (Fin.castSucc_lt_last j).ne,
        Function.update_of_ne (Fin.succAbove_ne d j)]
      rfl

/-! ### reading the result of an operation -/

theorem bsize_eq_one {a b : ℕ} : bsize a b = 1 ↔ a = 1 ∧ b = 1 := by
  unfold bsize; split_ifs with h <;> simp [h]

/-- Reading at the normalised index is reading at the index, when the axes that the
normalisation sends to `0` have size one. -/
theorem get_congr (t : Tensor r) {i j : Fin r → ℕ} (h : ∀ k, t.shape k ≠ 1 → i k = j k) :
    t.get i = t.get j := by
  unfold get bidx; congr 1; funext k
  split_ifs with h1
  · rfl
  · exact h k h1

theorem get_map (f : ℝ → ℝ) (t : Tensor r) (i : Fin r → ℕ) : (t.map f).get i = f (t.get i) := rfl

theorem get_map2 (f : ℝ → ℝ → ℝ) (a b : Tensor r) (i : Fin r → ℕ) :
    (map2 f a b).get i = f (a.get i) (b.get i) := by
  show f (a.get _) (b.get _) = _
  rw [get_congr a (j := i), get_congr b (j := i)]
  · intro k hk
    have : bsize (a.shape k) (b.shape k) ≠ 1 := fun h => hk (bsize_eq_one.1 h).2
    simp [map2, bidx, this]
  · intro k hk
    have : bsize (a.shape k) (b.shape k) ≠ 1 := fun h => hk (bsize_eq_one.1 h).1
    simp [map2, bidx, this]

theorem get_add (a b : Tensor r) (i : Fin r → ℕ) : (a + b).get i = a.get i + b.get i :=
  get_map2 _ a b i
theorem get_sub (a b : Tensor r) (i : Fin r → ℕ) : (a - b).get i = a.get i - b.get i :=
  get_map2 _ a b i
theorem get_mul (a b : Tensor r) (i : Fin r → ℕ) : (a * b).get i = a.get i * b.get i :=
  get_map2 _ a b i
theorem get_div (a b : Tensor r) (i : Fin r → ℕ) : (a / b).get i = a.get i / b.get i :=
  get_map2 _ a b i
theorem get_neg (a : Tensor r) (i : Fin r → ℕ) : (-a).get i = -a.get i := rfl

theorem get_whr (c a b : Tensor r) (i : Fin r → ℕ) :
    (whr c a b).get i = if c.get i = 0 then b.get i else a.get i := by
  show (if c.get _ = 0 then b.get _ else a.get _) = _
  rw [get_congr c (j := i), get_congr b (j := i), get_congr a (j := i)]
  · intro k hk
    have : bsize (c.shape k) (bsize (a.shape k) (b.shape k)) ≠ 1 :=
      fun h => hk (bsize_eq_one.1 (bsize_eq_one.1 h).2).1
    simp [whr, bidx, this]
  · intro k hk
    have : bsize (c.shape k) (bsize (a.shape k) (b.shape k)) ≠ 1 :=
      fun h => hk (bsize_eq_one.1 (bsize_eq_one.1 h).2).2
    simp [whr, bidx, this]
  · intro k hk
    have : bsize (c.shape k) (bsize (a.shape k) (b.shape k)) ≠ 1 :=
      fun h => hk (bsize_eq_one.1 h).1
    simp [whr, bidx, this]

open Classical in
theorem get_test (p : ℝ → Prop) (a : Tensor r) (i : Fin r → ℕ) :
    (a.test p).get i = if p (a.get i) then 1 else 0 := rfl

open Classical in
theorem get_cmp (p : ℝ → ℝ → Prop) (a b : Tensor r) (i : Fin r → ℕ) :
    (cmp p a b).get i = if p (a.get i) (b.get i) then 1 else 0 := get_map2 _ a b i

theorem get_sumK (d : Fin r) (t : Tensor r) (i : Fin r → ℕ) :
    (t.sumK d).get i = ∑ j ∈ Finset.range (t.shape d), t.get (Function.update i d j) := by
  show ∑ j ∈ Finset.range (t.shape d), t.get _ = _
  refine Finset.sum_congr rfl fun j _ => get_congr t fun k hk => ?_
  by_cases h : k = d
  · subst h; simp
  · simp [Function.update_of_ne h, sumK, bidx, hk]

theorem get_prodK (d : Fin r) (t : Tensor r) (i : Fin r → ℕ) :
    (t.prodK d).get i = ∏ j ∈ Finset.range (t.shape d), t.get (Function.update i d j) := by
  show ∏ j ∈ Finset.range (t.shape d), t.get _ = _
  refine Finset.prod_congr rfl fun j _ => get_congr t fun k hk => ?_
  by_cases h : k = d
  · subst h; simp
  · simp [Function.update_of_ne h, prodK, bidx, hk]

theorem get_normK (d : Fin r) (t : Tensor r) (i : Fin r → ℕ) :
    (t.normK d).get i =
      Real.sqrt (∑ j ∈ Finset.range (t.shape d), t.get (Function.update i d j) ^ 2) := by
  simp only [normK, get_map, get_sumK]; rfl

theorem get_squeeze (d : Fin (m + 1)) (t : Tensor (m + 1)) (i : Fin m → ℕ) :
    (t.squeeze d).get i = t.get (d.insertNth (α := fun _ => ℕ) 0 i) := by
  simp only [get, squeeze]
  congr 1
  funext k
  rcases Fin.eq_self_or_eq_succAbove d k with h | ⟨j, h⟩
  · subst h; simp [bidx]
  · subst h; simp [bidx]

theorem get_unsqueeze (d : Fin (m + 1)) (t : Tensor m) (i : Fin (m + 1) → ℕ) :
    (t.unsqueeze d).get i = t.get fun k => i (d.succAbove k) := by
  simp [get, unsqueeze, bidx]; rfl

theorem bidx_update_self (s i : Fin r → ℕ) (d : Fin r) (l : ℕ) :
    bidx (Function.update s d l) i d = if l = 1 then 0 else i d := by
  simp only [bidx, Function.update_self]

theorem bidx_update_ne (s i : Fin r → ℕ) {d k : Fin r} (h : k ≠ d) (l : ℕ) :
    bidx (Function.update s d l) i k = bidx s i k := by
  simp only [bidx, Function.update_of_ne h]

theorem bidx_ne (s i : Fin r → ℕ) {d k : Fin r} (h : k ≠ d) (l : ℕ) :
    bidx s (Function.update i d l) k = bidx s i k := by
  simp only [bidx, Function.update_of_ne h]

theorem bidx_self (s i : Fin r → ℕ) (d : Fin r) (l : ℕ) :
    bidx s (Function.update i d l) d = if s d = 1 then 0 else l := by
  simp only [bidx, Function.update_self]

/-- `narrow(d, s, 1)` reads entry `s`. -/
theorem get_narrow_one (d : Fin r) (s : ℕ) (t : Tensor r) (h : s < t.shape d)
    (i : Fin r → ℕ) : (t.narrow d s 1).get i = t.get (Function.update i d s) := by
  simp only [get, narrow]
  congr 1
  funext k
  by_cases e : k = d
  · subst e
    rw [Function.update_self, bidx_update_self, bidx_self]
    split_ifs <;> omega
  · rw [Function.update_of_ne e, bidx_update_ne _ _ e, bidx_ne _ _ e]

/-- `narrow(d, s, l)` shifts the index. -/
theorem get_narrow (d : Fin r) (s l : ℕ) (t : Tensor r) (i : Fin r → ℕ) (hi : i d < l)
    (h : s + l ≤ t.shape d) : (t.narrow d s l).get i = t.get (Function.update i d (i d + s)) := by
  simp only [get, narrow]
  congr 1
  funext k
  by_cases e : k = d
  · subst e
    rw [Function.update_self, bidx_update_self, bidx_self]
    split_ifs <;> omega
  · rw [Function.update_of_ne e, bidx_update_ne _ _ e, bidx_ne _ _ e]

/-- Reading a concatenation below the boundary. -/
theorem get_cat_left (d : Fin r) (a b : Tensor r) (i : Fin r → ℕ) (hi : i d < a.shape d) :
    (cat d a b).get i = a.get i := by
  simp only [get, cat]
  have h0 : bidx (Function.update a.shape d (a.shape d + b.shape d)) i d < a.shape d := by
    rw [bidx_update_self]; split_ifs <;> omega
  rw [if_pos h0]
  congr 1
  funext k
  by_cases e : k = d
  · subst e
    rw [bidx_update_self, bidx]
    split_ifs <;> omega
  · rw [bidx_update_ne _ _ e]

/-- Reading a concatenation above the boundary; the other sizes agree. -/
theorem get_cat_right (d : Fin r) (a b : Tensor r) (i : Fin r → ℕ)
    (hi : a.shape d ≤ i d) (hb : i d < a.shape d + b.shape d)
    (hs : ∀ k, k ≠ d → a.shape k = b.shape k) :
    (cat d a b).get i = b.get (Function.update i d (i d - a.shape d)) := by
  simp only [get, cat]
  have h0 : ¬ bidx (Function.update a.shape d (a.shape d + b.shape d)) i d < a.shape d := by
    rw [bidx_update_self]; split_ifs <;> omega
  rw [if_neg h0]
  congr 1
  funext k
  by_cases e : k = d
  · subst e
    rw [Function.update_self, bidx_self, bidx_update_self]
    split_ifs <;> omega
  · rw [Function.update_of_ne e, bidx_update_ne _ _ e, bidx_ne _ _ e, bidx, bidx, hs k e]

theorem insertNth_update (d : Fin (m + 1)) (i : Fin m → ℕ) (a b : ℕ) :
    Function.update (d.insertNth (α := fun _ => ℕ) a i) d b = d.insertNth (α := fun _ => ℕ) b i := by
  simp

theorem get_sum (d : Fin (m + 1)) (t : Tensor (m + 1)) (i : Fin m → ℕ) :
    (t.sum d).get i =
      ∑ j ∈ Finset.range (t.shape d), t.get (d.insertNth (α := fun _ => ℕ) j i) := by
  rw [sum, get_squeeze, get_sumK]
  simp only [insertNth_update]

theorem get_norm (d : Fin (m + 1)) (t : Tensor (m + 1)) (i : Fin m → ℕ) :
    (t.norm d).get i = (t.normK d).get (d.insertNth (α := fun _ => ℕ) 0 i) := by
  rw [norm, get_squeeze]

/-! ### fibres -/

theorem fib_apply (d : Fin r) (n : ℕ) (t : Tensor r) (i : Fin r → ℕ) (j : Fin n) :
    t.fib d n i j = t.get (Function.update i d (j : ℕ)) := rfl

/-- A sum along the axis is a sum over the fibre. -/
theorem get_sumK_fib (d : Fin r) (t : Tensor r) (i : Fin r → ℕ) {n : ℕ} (h : t.shape d = n) :
    (t.sumK d).get i = ∑ j : Fin n, t.fib d n i j := by
  rw [get_sumK, h, Finset.sum_range]; rfl

theorem fib_update (d : Fin r) (n : ℕ) (t : Tensor r) (i : Fin r → ℕ) (a : ℕ) :
    t.fib d n (Function.update i d a) = t.fib d n i := by
  funext j; simp [fib]

theorem get_update_sumK (d : Fin r) (t : Tensor r) (i : Fin r → ℕ) (a : ℕ) :
    (t.sumK d).get (Function.update i d a) = (t.sumK d).get i :=
  get_congr _ fun k hk => by
    rw [Function.update_of_ne]
    rintro rfl; exact hk (by simp [sumK])

end Geoopt.Axis.Tensor
