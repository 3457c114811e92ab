import Verif.Props.C78

/-!
# C78: the weighted midpoint of a batch

`weighted_midpoint` reduces the batch: on a tensor it is the weighted midpoint of the vectors found at
the batch positions, with the weights found there, so that what C16 proves for families of vectors holds
for tensors of points.
-/

namespace Geoopt.C78
open Geoopt Geoopt.Axis Geoopt.Axis.Tensor Geoopt.SpecBatch Geoopt.AxisFib Geoopt.C18
open Geoopt.StereoAxis (midFlips midPoints midWeights midMean midChoose midAlpha weightedMidpointK
  weightedMidpoint)
variable {m n : ℕ} (d : Fin (m + 1)) (η k : ℝ)

/-- The positions of a batch with the sizes `s`. -/
abbrev Pos (s : Fin m → ℕ) := {b : Fin m → ℕ // ∀ j, b j < s j}

theorem get_sumOthersK {s : Fin m → ℕ} {M : ℕ} (e : Fin M ≃ Pos s) (t : Tensor (m + 1))
    (ht : ∀ j, t.shape (d.succAbove j) = s j) (i : Fin (m + 1) → ℕ) :
    (t.sumOthersK d).get i = ∑ l, t.get (d.insertNth (α := fun _ => ℕ) (i d) (e l).1) := by
  show ∑ J ∈ Fintype.piFinset _, t.get J = _
  symm
  refine Finset.sum_bij' (fun l _ => d.insertNth (α := fun _ => ℕ)
      (bidx (t.sumOthersK d).shape i d) (e l).1)
    (fun J hJ => e.symm ⟨fun j => J (d.succAbove j), fun j => by
      have := Fintype.mem_piFinset.1 hJ (d.succAbove j)
      rw [if_neg (Fin.succAbove_ne d j), Finset.mem_range, ht] at this
      exact this⟩) ?_ ?_ ?_ ?_ ?_
  · intro l _
    refine Fintype.mem_piFinset.2 fun j => ?_
    rcases Fin.eq_self_or_eq_succAbove d j with h | ⟨p, h⟩
    · subst h; simp
    · subst h
      rw [if_neg (Fin.succAbove_ne d p), Finset.mem_range, ht, Fin.insertNth_apply_succAbove]
      exact (e l).2 p
  · intro J hJ; exact Finset.mem_univ _
  · intro l _
    rw [Equiv.symm_apply_eq]
    refine Subtype.ext (funext fun j => ?_)
    simp
  · intro J hJ
    funext j
    rcases Fin.eq_self_or_eq_succAbove d j with h | ⟨p, h⟩
    · subst h
      have := Fintype.mem_piFinset.1 hJ j
      rw [if_pos rfl, Finset.mem_singleton] at this
      simp [this]
    · subst h; simp
  · intro l _
    refine get_congr t fun j hj => ?_
    rcases Fin.eq_self_or_eq_succAbove d j with h | ⟨p, h⟩
    · subst h
      have : (t.sumOthersK j).shape j = t.shape j := by simp [sumOthersK]
      simp only [Fin.insertNth_apply_same, bidx, this]
      rw [if_neg hj]
    · subst h; simp

theorem shape_sumOthersK (t : Tensor (m + 1)) (j : Fin (m + 1)) :
    (t.sumOthersK d).shape j = if j = d then t.shape d else 1 := by
  unfold sumOthersK; dsimp only

theorem fib_sumOthersK {s : Fin m → ℕ} {M : ℕ} (e : Fin M ≃ Pos s) (t : Tensor (m + 1))
    (ht : ∀ j, t.shape (d.succAbove j) = s j) (i : Fin (m + 1) → ℕ) :
    (t.sumOthersK d).fib d n i = ∑ l, elemAt d n t (e l).1 := by
  funext j
  rw [fib_apply, get_sumOthersK d e t ht, Finset.sum_apply]
  simp only [Function.update_self, elemAt]

theorem num_sumOthersK {s : Fin m → ℕ} {M : ℕ} (e : Fin M ≃ Pos s) (t : Tensor (m + 1))
    (ht : ∀ j, t.shape (d.succAbove j) = s j) (hd : t.shape d = 1) (i : Fin (m + 1) → ℕ) :
    (t.sumOthersK d).get i = ∑ l, numAt d t (e l).1 := by
  rw [get_sumOthersK d e t ht]
  refine Finset.sum_congr rfl fun l _ => get_congr t fun j hj => ?_
  rcases Fin.eq_self_or_eq_succAbove d j with h | ⟨p, h⟩
  · subst h; exact absurd hd hj
  · subst h; simp

/-- The vector at a batch position is the fibre there. -/
theorem elemAt_fib (t : Tensor (m + 1)) (b : Fin m → ℕ) (a : ℕ) :
    t.fib d n (d.insertNth (α := fun _ => ℕ) a b) = elemAt d n t b := by
  funext j
  rw [fib_apply, elemAt]
  congr 1
  funext p
  rcases Fin.eq_self_or_eq_succAbove d p with h | ⟨q, h⟩
  · subst h; simp
  · subst h; simp [Fin.succAbove_ne]

section
variable {s : Fin m → ℕ} {xs : Tensor (m + 1)} {w : Tensor m}

theorem num_unsqueeze (w : Tensor m) (b : Fin m → ℕ) : numAt d (w.unsqueeze d) b = w.get b := by
  rw [numAt, get_unsqueeze]; simp

/-- Some weight is negative exactly when one at a batch position is. -/
theorem flips_iff (hs : ∀ j, 0 < s j) (hw : ∀ j, w.shape j = 1 ∨ w.shape j = s j) {M : ℕ}
    (e : Fin M ≃ Pos s) (pw : Bool) :
    midFlips pw (w.unsqueeze d) ↔ pw = true ∧ ∃ l, w.get (e l).1 < 0 := by
  unfold midFlips
  refine and_congr_right fun _ => ⟨?_, ?_⟩
  · rintro ⟨i, hi, h⟩
    rw [get_test, get_unsqueeze] at h
    have h1 : w.get (fun j => i (d.succAbove j)) < 0 := by
      by_contra hc; exact h (if_neg hc)
    refine ⟨e.symm ⟨fun j => if w.shape j = 1 then 0 else i (d.succAbove j), fun j => ?_⟩, ?_⟩
    · dsimp only
      split_ifs with hj
      · exact hs j
      · have := hi (d.succAbove j)
        rw [shape_test, shape_unsqueeze] at this
        rcases hw j with h | h
        · exact absurd h hj
        · rwa [← h]
    · rw [Equiv.apply_symm_apply]
      refine lt_of_eq_of_lt (get_congr w fun j hj => ?_) h1
      dsimp only
      rw [if_neg hj]
  · rintro ⟨l, hl⟩
    refine ⟨d.insertNth (α := fun _ => ℕ) 0 fun j => if w.shape j = 1 then 0 else (e l).1 j,
      fun j => ?_, ?_⟩
    · rcases Fin.eq_self_or_eq_succAbove d j with h | ⟨p, h⟩
      · subst h; rw [shape_test, shape_unsqueeze_self]; simp
      · subst h
        rw [shape_test, shape_unsqueeze, Fin.insertNth_apply_succAbove]
        split_ifs with h1
        · omega
        · rcases hw p with h | h
          · exact absurd h h1
          · rw [h]; exact (e l).2 p
    · rw [get_test, get_unsqueeze, if_pos]
      · exact one_ne_zero
      · refine lt_of_eq_of_lt (get_congr w fun j hj => ?_) hl
        rw [Fin.insertNth_apply_succAbove, if_neg hj]

theorem b_left {a s : ℕ} (h : a = 1 ∨ a = s) : bsize a s = s := by
  rcases h with rfl | rfl
  · rfl
  · exact bsize_self _

theorem b_right {a s : ℕ} (h : a = 1 ∨ a = s) : bsize s a = s := by
  rcases h with rfl | rfl
  · exact bsize_one_right _
  · exact bsize_self _

variable {W : Tensor (m + 1)}

theorem shape_midWeights (pw : Bool) (W : Tensor (m + 1)) : (midWeights pw W).shape = W.shape := by
  unfold midWeights; split_ifs <;> rfl

open Classical in
theorem num_midWeights (pw : Bool) (W : Tensor (m + 1)) (b : Fin m → ℕ) :
    numAt d (midWeights pw W) b = if midFlips pw W then |numAt d W b| else numAt d W b := by
  unfold midWeights; split_ifs <;> rfl

theorem shape_midPoints (pw : Bool) (hx : xs.shape d = n) (hb : ∀ j, xs.shape (d.succAbove j) = s j)
    (hW : W.shape d = 1) (hw : ∀ j, W.shape (d.succAbove j) = 1 ∨ W.shape (d.succAbove j) = s j) :
    (midPoints d η k pw xs W).shape d = n ∧
    ∀ j, (midPoints d η k pw xs W).shape (d.succAbove j) = s j := by
  obtain ⟨a1, a2, -⟩ := (C78_stereo_maps (n := n) d η k .f64).2.2.2.2.2.2.2 xs hx
  unfold midPoints
  split_ifs
  · refine ⟨by rw [shape_whr, shape_test, hW, a1, hx, bsize_self, bsize_one_left], fun j => ?_⟩
    have := congrFun a2 j
    simp only [batch] at this
    rw [shape_whr, shape_test, this, bsize_self, hb, b_left (hw j)]
  · exact ⟨hx, hb⟩

open Classical in
theorem elem_midPoints (pw : Bool) (hx : xs.shape d = n) (hW : W.shape d = 1) (b : Fin m → ℕ) :
    elemAt d n (midPoints d η k pw xs W) b =
      if midFlips pw W then
        (if numAt d W b < 0 then Stereo.antipode η k (elemAt d n xs b) else elemAt d n xs b)
      else elemAt d n xs b := by
  obtain ⟨-, -, a3⟩ := (C78_stereo_maps (n := n) d η k .f64).2.2.2.2.2.2.2 xs hx
  unfold midPoints
  by_cases hf : midFlips pw W
  · rw [if_pos hf, if_pos hf, ← a3 b]
    funext j
    have hWj : W.get (d.insertNth (α := fun _ => ℕ) (j : ℕ) b) = numAt d W b := by
      refine get_congr W fun p hp => ?_
      rcases Fin.eq_self_or_eq_succAbove d p with h | ⟨q, h⟩
      · subst h; exact absurd hW hp
      · subst h; simp
    rw [elemAt, get_whr, get_test, hWj]
    by_cases hn : numAt d W b < 0
    · rw [if_pos hn, if_pos hn, if_neg one_ne_zero]; rfl
    · rw [if_neg hn, if_neg hn, if_pos rfl]; rfl
  · rw [if_neg hf, if_neg hf]

theorem num_map (f : ℝ → ℝ) (t : Tensor (m + 1)) (b : Fin m → ℕ) :
    numAt d (t.map f) b = f (numAt d t b) := rfl
theorem num_mul (t u : Tensor (m + 1)) (b : Fin m → ℕ) :
    numAt d (t * u) b = numAt d t b * numAt d u b := get_mul _ _ _

theorem elem_mul {g : Tensor (m + 1)} (hg : g.shape d = 1) (x : Tensor (m + 1)) (b : Fin m → ℕ) :
    elemAt d n (g * x) b = numAt d g b • elemAt d n x b := by
  funext j
  rw [elemAt, get_mul, Pi.smul_apply, smul_eq_mul]
  congr 1
  refine get_congr g fun p hp => ?_
  rcases Fin.eq_self_or_eq_succAbove d p with h | ⟨q, h⟩
  · subst h; exact absurd hg hp
  · subst h; simp

/-- The gyromidpoint of a batch. -/
theorem fib_midMean {M : ℕ} (e : Fin M ≃ Pos s) {g : Tensor (m + 1)}
    (hx : xs.shape d = n) (hb : ∀ j, xs.shape (d.succAbove j) = s j)
    (hg : g.shape d = 1) (hgb : ∀ j, g.shape (d.succAbove j) = s j)
    (hW : W.shape d = 1) (hw : ∀ j, W.shape (d.succAbove j) = 1 ∨ W.shape (d.succAbove j) = s j)
    (i : Fin (m + 1) → ℕ) :
    (midMean d η k g xs W).fib d n i = Stereo.mobiusScalarMul η k 0.5
      ((clampAbs 1e-10 (∑ l, (numAt d g (e l).1 - 1) * numAt d W (e l).1))⁻¹ •
        ∑ l, (numAt d g (e l).1 * numAt d W (e l).1) • elemAt d n xs (e l).1) ∧
    (midMean d η k g xs W).shape d = n ∧
    ∀ j, (midMean d η k g xs W).shape (d.succAbove j) = 1 := by
  have hden : ∀ i, ((g.map (· - 1) * W).sumOthersK d).get i =
      ∑ l, (numAt d g (e l).1 - 1) * numAt d W (e l).1 := by
    intro i
    rw [num_sumOthersK d e _ (fun j => ?_) ?_]
    · simp only [num_mul, num_map]
    · rw [shape_mul, shape_map, hg, hW]; rfl
    · rw [shape_mul, shape_map, hgb, b_right (hw j)]
  have hgW : (g * W).shape d = 1 := by rw [shape_mul, hg, hW]; rfl
  have hs1 : (g * W * xs).shape d = n := by rw [shape_mul, hgW, hx]; rfl
  have hnom : ∀ i, ((g * W * xs).sumOthersK d).fib d n i =
      ∑ l, (numAt d g (e l).1 * numAt d W (e l).1) • elemAt d n xs (e l).1 := by
    intro i
    rw [fib_sumOthersK d e _ (fun j => ?_)]
    · simp only [elem_mul d hgW, num_mul]
    · rw [shape_mul, shape_mul, hgb, b_right (hw j), hb, bsize_self]
  set two : Tensor (m + 1) := (g * W * xs).sumOthersK d /
    ((g.map (· - 1) * W).sumOthersK d).map (clampAbs 1e-10) with h2
  have hsh : two.shape d = n := by
    rw [h2, shape_div, shape_sumOthersK, if_pos rfl, hs1, shape_map, shape_sumOthersK, if_pos rfl,
      shape_mul, shape_map, hg, hW]
    exact bsize_one_right _
  have htwo : ∀ i, two.fib d n i =
      (clampAbs 1e-10 (∑ l, (numAt d g (e l).1 - 1) * numAt d W (e l).1))⁻¹ •
        ∑ l, (numAt d g (e l).1 * numAt d W (e l).1) • elemAt d n xs (e l).1 := by
    intro i
    funext j
    rw [fib_apply, h2, get_div, get_map, hden, ← fib_apply, hnom, Pi.smul_apply, smul_eq_mul,
      div_eq_inv_mul]
  refine ⟨?_, ?_, fun j => ?_⟩
  · rw [← htwo i]
    funext j
    simp only [midMean, ← h2, fib_apply, get_mul, get_map, get_div, cnorm_get d two hsh, fib_update]
    simp only [Stereo.mobiusScalarMul, Pi.smul_apply, smul_eq_mul, fib_apply]
    ring
  rotate_left
  · have : two.shape (d.succAbove j) = 1 := by
      rw [h2, shape_div, shape_map, shape_sumOthersK, shape_sumOthersK,
        if_neg (Fin.succAbove_ne d j), if_neg (Fin.succAbove_ne d j)]; rfl
    simp only [midMean, ← h2, shape_mul, shape_map, shape_cnorm, shape_div, this,
      if_neg (Fin.succAbove_ne d j), bsize_self]
  · simp only [midMean, ← h2, shape_mul, shape_map, shape_cnorm, shape_div, if_true, hsh,
      bsize_one_left, bsize_one_right]

open Classical in
/-- The choice between the midpoint and its antipode. -/
theorem fib_midChoose {M : ℕ} (e : Fin M ≃ Pos s) {a : Tensor (m + 1)} {A : Vec n}
    (hx : xs.shape d = n) (hb : ∀ j, xs.shape (d.succAbove j) = s j)
    (ha : a.shape d = n) (hab : ∀ j, a.shape (d.succAbove j) = 1) (hA : ∀ i, a.fib d n i = A) :
    (∀ i, (midChoose d η k xs a).fib d n i =
      if 0 < k then
        if ∑ l, Stereo.dist η k (Stereo.antipode η k A) (elemAt d n xs (e l).1) <
            ∑ l, Stereo.dist η k A (elemAt d n xs (e l).1) then Stereo.antipode η k A else A
      else A) ∧
    (midChoose d η k xs a).shape d = n ∧ ∀ j, (midChoose d η k xs a).shape (d.succAbove j) = 1 := by
  obtain ⟨a1, a2, -⟩ := (C78_stereo_maps (n := n) d η k .f64).2.2.2.2.2.2.2 a ha
  have hbm : ∀ i, (StereoAxis.antipode d η k a).fib d n i = Stereo.antipode η k A := fun i => by
    rw [antipode_fib d η k a ha, hA]
  have hab' : ∀ j, (StereoAxis.antipode d η k a).shape (d.succAbove j) = 1 := fun j => by
    have := congrFun a2 j
    simp only [batch] at this
    rw [this, hab]
  have hsum : ∀ (c : Tensor (m + 1)) (D : Vec n), c.shape d = n → (∀ j, c.shape (d.succAbove j) = 1) →
      (∀ i, c.fib d n i = D) →
      (∀ i, ((StereoAxis.distK d η k c xs).sumOthersK d).get i =
        ∑ l, Stereo.dist η k D (elemAt d n xs (e l).1)) ∧
      ∀ j, ((StereoAxis.distK d η k c xs).sumOthersK d).shape j = 1 := by
    intro c D hc hcb hD
    obtain ⟨q1, q2, -, q4⟩ := (C78_stereo_metric (n := n) d η k true true).2.1 c xs hc hx
      (fun j => Or.inl (hcb j))
    constructor
    · intro i
      rw [num_sumOthersK d e _ (fun j => ?_) q1]
      · refine Finset.sum_congr rfl fun l _ => ?_
        rw [(q4 _).1, ← elemAt_fib d c _ 0, hD]
      · have := congrFun q2 j
        simp only [batch, bcast_apply] at this
        rw [this, hcb, hb]; rfl
    · intro j
      rw [shape_sumOthersK]
      split_ifs with h
      · exact q1
      · rfl
  obtain ⟨s1, s2⟩ := hsum a A ha hab hA
  obtain ⟨t1, t2⟩ := hsum _ _ a1 hab' hbm
  unfold midChoose
  by_cases hk : 0 < k
  · simp only [if_pos hk]
    have hcs : ∀ j, (cmp (· < ·) ((StereoAxis.distK d η k (StereoAxis.antipode d η k a) xs).sumOthersK d)
        ((StereoAxis.distK d η k a xs).sumOthersK d)).shape j = 1 := fun j => by
      show bsize _ _ = 1
      rw [s2, t2]; rfl
    refine ⟨fun i => ?_, ?_, fun j => ?_⟩
    · funext j
      rw [fib_apply, get_whr, get_cmp, s1, t1, ← fib_apply, ← fib_apply, hA, hbm]
      split_ifs <;> first | rfl | simp_all
    · rw [shape_whr, hcs, a1, ha, bsize_self]; rfl
    · rw [shape_whr, hcs, hab, hab']; rfl
  · simp only [if_neg hk]
    exact ⟨hA, ha, hab⟩

/-- The total weight of a batch. -/
theorem get_midAlpha {M : ℕ} (e : Fin M ≃ Pos s) {g : Tensor (m + 1)}
    (hb : ∀ j, xs.shape (d.succAbove j) = s j)
    (hg : g.shape d = 1) (hgb : ∀ j, g.shape (d.succAbove j) = s j)
    (hW : W.shape d = 1) (hw : ∀ j, W.shape (d.succAbove j) = 1 ∨ W.shape (d.succAbove j) = s j)
    (i : Fin (m + 1) → ℕ) :
    (midAlpha d g xs W).get i = ∑ l, numAt d W (e l).1 ∧ (midAlpha d g xs W).shape d = 1 ∧
    ∀ j, (midAlpha d g xs W).shape (d.succAbove j) = 1 := by
  unfold midAlpha
  split_ifs with h1
  · have hone : ∀ p, W.shape p = 1 := fun p => by
      have := Finset.prod_eq_one_iff.1 (show ∏ p, W.shape p = 1 from h1) p (Finset.mem_univ p)
      exact this
    refine ⟨?_, hW, fun j => hone _⟩
    have hc : (∏ p ∈ Finset.univ.erase d, (xs.shape p : ℝ)) = M := by
      have h2 : M = ∏ j, s j := by
        rw [← Fintype.card_fin M, Fintype.card_congr (e.trans ⟨fun b => fun j => (⟨b.1 j, b.2 j⟩ : Fin (s j)),
          fun b => ⟨fun j => (b j).1, fun j => (b j).2⟩, fun b => rfl, fun b => rfl⟩)]
        simp
      rw [h2]
      push_cast
      simp only [← hb]
      rw [← Finset.prod_image (s := Finset.univ) (g := d.succAbove) (f := fun p => (xs.shape p : ℝ))
        (fun a _ b _ h => Fin.succAbove_right_injective h)]
      congr 1
      ext p
      simp only [Finset.mem_erase, Finset.mem_univ, and_true, Finset.mem_image, true_and]
      exact Fin.exists_succAbove_eq_iff.symm
    rw [get_map, hc]
    have : ∀ l, numAt d W (e l).1 = W.get i := fun l =>
      get_congr W fun p hp => absurd (hone p) hp
    simp only [this, Finset.sum_const, Finset.card_univ, Fintype.card_fin, nsmul_eq_mul]
    ring
  · refine ⟨?_, ?_, fun j => ?_⟩
    · rw [num_sumOthersK d e _ (fun j => ?_) ?_]
      · refine Finset.sum_congr rfl fun l _ => ?_
        rw [numAt, get_map2]; rfl
      · rw [shape_map2, hW, hg]; rfl
      · rw [shape_map2, hgb, b_left (hw j)]
    · rw [shape_sumOthersK, if_pos rfl, shape_map2, hW, hg]; rfl
    · rw [shape_sumOthersK, if_neg (Fin.succAbove_ne d j)]

/-- **C78** (stereographic, `weighted_midpoint` over all batch axes).  The points fill a batch of the
sizes `s`, none of them zero, the weights have these sizes or broadcast to them, and `e` lists the batch
positions in any order: both with `keepdim=True` and `keepdim=False` the result is the weighted midpoint
of the points at the positions, with the weights there. -/
theorem C78_stereo_midpoint {M : ℕ} (e : Fin M ≃ Pos s) (hx : xs.shape d = n)
    (hb : ∀ j, xs.shape (d.succAbove j) = s j) (hs : ∀ j, 0 < s j)
    (hw : ∀ j, w.shape j = 1 ∨ w.shape j = s j) (lincomb posweight : Bool) :
    let F := Stereo.weightedMidpoint η k (fun l => elemAt d n xs (e l).1) (fun l => w.get (e l).1)
      lincomb posweight
    ((weightedMidpointK d η k xs w lincomb posweight).shape d = n ∧
      (∀ j, (weightedMidpointK d η k xs w lincomb posweight).shape (d.succAbove j) = 1) ∧
      ∀ b, elemAt d n (weightedMidpointK d η k xs w lincomb posweight) b = F) ∧
    (weightedMidpoint d η k xs w lincomb posweight).shape 0 = n ∧
    ∀ j : Fin n, (weightedMidpoint d η k xs w lincomb posweight).get (fun _ => (j : ℕ)) = F j := by
  have hW := shape_unsqueeze_self d w
  have hw' : ∀ j, (w.unsqueeze d).shape (d.succAbove j) = 1 ∨
      (w.unsqueeze d).shape (d.succAbove j) = s j := fun j => by rw [shape_unsqueeze]; exact hw j
  set W := w.unsqueeze d with hWdef
  obtain ⟨x1, x2⟩ := shape_midPoints d η k posweight hx hb hW hw'
  have hV : (midWeights posweight W).shape d = 1 := by rw [shape_midWeights]; exact hW
  have hv' : ∀ j, (midWeights posweight W).shape (d.succAbove j) = 1 ∨
      (midWeights posweight W).shape (d.succAbove j) = s j := fun j => by
    rw [shape_midWeights]; exact hw' j
  have hg : (StereoAxis.lambdaXK d k xs).shape d = 1 := by rw [shape_lambdaXK, if_pos rfl]
  have hgb : ∀ j, (StereoAxis.lambdaXK d k xs).shape (d.succAbove j) = s j := fun j => by
    rw [shape_lambdaXK, if_neg (Fin.succAbove_ne d j), hb]
  have hgn : ∀ b, numAt d (StereoAxis.lambdaXK d k xs) b = Stereo.lambdaX k (elemAt d n xs b) := by
    intro b
    rw [numAt, lambdaXK_get d k xs hx, elemAt_fib]
  have hm := fun i => fib_midMean d η k e x1 x2 hg hgb hV hv' i
  obtain ⟨c1, c2, c3⟩ := fib_midChoose d η k e x1 x2 (hm 0).2.1 (hm 0).2.2 (fun i => (hm i).1)
  have hal := fun i => get_midAlpha (xs := midPoints d η k posweight xs W) d e x2 hg hgb hV hv' i
  have hK : (weightedMidpointK d η k xs w lincomb posweight).shape d = n ∧
      (∀ j, (weightedMidpointK d η k xs w lincomb posweight).shape (d.succAbove j) = 1) ∧
      ∀ i, (weightedMidpointK d η k xs w lincomb posweight).fib d n i =
        Stereo.weightedMidpoint η k (fun l => elemAt d n xs (e l).1) (fun l => w.get (e l).1)
          lincomb posweight := by
    have hpos := flips_iff d hs hw e posweight
    have hnW : ∀ b, numAt d W b = w.get b := fun b => num_unsqueeze d w b
    have hvec : ∀ i, (midChoose d η k (midPoints d η k posweight xs W)
        (midMean d η k (StereoAxis.lambdaXK d k xs) (midPoints d η k posweight xs W)
          (midWeights posweight W))).fib d n i =
        Stereo.weightedMidpoint η k (fun l => elemAt d n xs (e l).1) (fun l => w.get (e l).1)
          false posweight ∧
        ∀ A, Stereo.mobiusScalarMul η k (∑ l, numAt d (midWeights posweight W) (e l).1)
          (Stereo.weightedMidpoint η k (fun l => elemAt d n xs (e l).1) (fun l => w.get (e l).1)
          false posweight) = A → A =
        Stereo.weightedMidpoint η k (fun l => elemAt d n xs (e l).1) (fun l => w.get (e l).1)
          true posweight := by
      intro i
      rw [c1 i]
      by_cases hf : midFlips posweight W
      · have hf' := hpos.1 hf
        simp only [elem_midPoints d η k posweight hx hW, num_midWeights, if_pos hf, hgn, hnW]
        simp only [Stereo.weightedMidpoint, if_pos hf', if_true, Bool.false_eq_true, if_false]
        exact ⟨trivial, fun A h => h.symm⟩
      · have hf' : ¬ (posweight = true ∧ ∃ l, w.get (e l).1 < 0) := fun h => hf (hpos.2 h)
        simp only [elem_midPoints d η k posweight hx hW, num_midWeights, if_neg hf, hgn, hnW]
        simp only [Stereo.weightedMidpoint, if_neg hf', if_true, Bool.false_eq_true, if_false]
        exact ⟨trivial, fun A h => h.symm⟩
    cases lincomb
    · exact ⟨c2, c3, fun i => (hvec i).1⟩
    · obtain ⟨g1, g2, g3⟩ := (C78_stereo_gyro (n := n) d η k).2.2.2.2.2.1 _ _ (hal 0).2.1 c2
        (fun j => Or.inl ((hal 0).2.2 j))
      refine ⟨g1, fun j => ?_, fun i => ?_⟩
      · refine (congrFun g2 j).trans ?_
        simp only [bcast_apply, batch, (hal 0).2.2, c3]; rfl
      · refine (hvec i).2 _ ?_
        rw [← (hvec i).1, ← (hal i).1]
        exact (mobiusScalarMul_fib d η k _ _ (hal 0).2.1 c2 i).symm
  refine ⟨⟨hK.1, hK.2.1, fun b => ?_⟩, hK.1, fun j => ?_⟩
  · rw [← elemAt_fib d _ _ 0]; exact hK.2.2 _
  · rw [← hK.2.2 0, fib_apply]
    show (Tensor.dropOthers d _).val _ = _
    unfold Tensor.dropOthers
    dsimp only
    refine congrArg _ (funext fun p => ?_)
    rcases Fin.eq_self_or_eq_succAbove d p with h | ⟨q, h⟩
    · subst h
      simp only [Function.update_self, bidx, weightedMidpoint, Tensor.dropOthers, hK.1]
    · subst h
      rw [Function.update_of_ne (Fin.succAbove_ne d q), bidx, if_pos (hK.2.1 q)]; rfl

end

/-- Three points of the plane as the rows of a tensor, one weight for all: the hypotheses hold. -/
example (v : (Fin 2 → ℕ) → ℝ) (c : ℝ) (j : Fin 2) :
    (weightedMidpoint (m := 1) 1 η k ⟨![3, 2], v⟩ ⟨fun _ => 1, fun _ => c⟩ false true).get
      (fun _ => (j : ℕ)) =
    Stereo.weightedMidpoint η k (fun l : Fin 3 => elemAt 1 2 ⟨![3, 2], v⟩ fun _ => (l : ℕ))
      (fun _ => c) false true j :=
  (C78_stereo_midpoint (m := 1) (n := 2) 1 η k (s := fun _ => 3)
    ⟨fun l => ⟨fun _ => (l : ℕ), fun _ => l.2⟩, fun b => ⟨b.1 0, b.2 0⟩, fun _ => rfl,
      fun b => Subtype.ext (funext fun j => by rw [Subsingleton.elim j 0])⟩
    rfl (fun j => by fin_cases j; rfl) (fun _ => by norm_num) (fun _ => Or.inl rfl) false true).2.2 j

end Geoopt.C78
