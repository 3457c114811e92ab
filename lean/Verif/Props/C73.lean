import Verif.Spec.Euclidean
import Verif.Props.C49

/-!
# C73: the Euclidean manifold is flat space, for every `ndim` and every shape
-/

namespace Geoopt.Eucl
open Geoopt Spec.Shapes

/-! ## Reading entries -/

theorem dimAt_eq : dimAt = dimR := rfl

/-- `s` broadcasts to `r`. -/
def Covers (s r : List ℕ) : Prop := ∀ k, dimR s k = 1 ∨ dimR s k = dimR r k

theorem dimR_of_le {s : List ℕ} {k : ℕ} (h : s.length ≤ k) : dimR s k = 1 := by
  unfold dimR
  rw [List.getD_eq_getElem?_getD, List.getElem?_eq_none (by simpa using h)]; rfl

theorem covers_of_broadcast {l : List (List ℕ)} {r s : List ℕ} (h : Broadcast l r) (hs : s ∈ l) :
    Covers s r := fun k => by
  rcases Nat.lt_or_ge k r.length with hk | hk
  · exact h.fits s hs k hk
  · exact Or.inl (dimR_of_le ((h.rank_le s hs).trans hk))

theorem bidx_bidx {s r : List ℕ} (h : Covers s r) (i : ℕ → ℕ) : bidx s (bidx r i) = bidx s i := by
  funext k
  unfold bidx
  rw [dimAt_eq]
  rcases h k with h | h
  · rw [if_pos h, if_pos h]
  · by_cases h1 : dimR s k = 1
    · rw [if_pos h1, if_pos h1]
    · rw [if_neg h1, if_neg h1, if_neg (h ▸ h1)]

theorem get_of_covers (a : Ten) {r : List ℕ} (h : Covers a.shape r) (i : ℕ → ℕ) :
    a.get (bidx r i) = a.get i := by
  unfold Ten.get; rw [bidx_bidx h]

theorem Covers.refl (s : List ℕ) : Covers s s := fun _ => Or.inr rfl

theorem get_map (f : ℝ → ℝ) (t : Ten) (i : ℕ → ℕ) : (t.map f).get i = f (t.get i) := by
  change f (t.get (bidx t.shape i)) = _
  rw [get_of_covers t (Covers.refl _)]

theorem torchBroadcast_ok (a b r : List ℕ) : torchBroadcast a b = .ok r ↔ Broadcast [a, b] r := by
  have hdim : ∀ x y z : ℕ, torchDim x y = .ok z ↔
      ((x = 1 ∨ x = z) ∧ (y = 1 ∨ y = z)) ∧ (z ≠ 1 → x = z ∨ y = z) := by
    intro x y z
    unfold torchDim
    split_ifs <;> simp <;> omega
  have key : ∀ q : List ℕ, (List.range (max a.length b.length)).mapM
      (fun k => torchDim (dimAt a k) (dimAt b k)) = .ok q ↔
      q.length = max a.length b.length ∧
        ∀ k (hk : k < q.length), torchDim (dimR a k) (dimR b k) = .ok q[k] := by
    intro q
    rw [C49.mapM_ok, List.forall₂_iff_get]
    simp only [List.length_range, List.get_eq_getElem, List.getElem_range, dimAt_eq]
    constructor
    · rintro ⟨h1, h2⟩
      exact ⟨h1.symm, fun k hk => h2 k (h1 ▸ hk) hk⟩
    · rintro ⟨h1, h2⟩
      exact ⟨h1.symm, fun k _ hk => h2 k hk⟩
  have hrev : torchBroadcast a b = .ok r ↔ (List.range (max a.length b.length)).mapM
      (fun k => torchDim (dimAt a k) (dimAt b k)) = .ok r.reverse := by
    unfold torchBroadcast
    cases h : (List.range (max a.length b.length)).mapM
      (fun k => torchDim (dimAt a k) (dimAt b k)) with
    | error e => simp [Except.map]
    | ok q =>
      simp only [Except.map, Except.ok.injEq]
      constructor
      · rintro rfl; simp
      · rintro rfl; simp
  rw [hrev, key]
  have hr : ∀ k (hk : k < r.reverse.length), r.reverse[k] = dimR r k := by
    intro k hk
    simp [dimR, List.getD_eq_getElem?_getD, List.getElem?_eq_getElem hk]
  constructor
  · rintro ⟨h1, h2⟩
    simp only [List.length_reverse] at h1 h2
    refine ⟨?_, ?_, ?_, ?_⟩
    · intro s hs
      simp only [List.mem_cons, List.not_mem_nil, or_false] at hs
      rcases hs with rfl | rfl <;> omega
    · right
      rcases le_total a.length b.length with h | h
      · exact ⟨b, by simp, by omega⟩
      · exact ⟨a, by simp, by omega⟩
    · intro s hs i hi
      have := h2 i hi
      rw [hr i (by simpa using hi), hdim] at this
      simp only [List.mem_cons, List.not_mem_nil, or_false] at hs
      rcases hs with rfl | rfl
      · exact this.1.1
      · exact this.1.2
    · intro i hi h3
      have := h2 i hi
      rw [hr i (by simpa using hi), hdim] at this
      rcases this.2 h3 with h4 | h4
      · exact ⟨a, by simp, h4⟩
      · exact ⟨b, by simp, h4⟩
  · intro h
    have ha := h.rank_le a (by simp)
    have hb := h.rank_le b (by simp)
    refine ⟨?_, ?_⟩
    · rw [List.length_reverse]
      rcases h.rank_mem with h1 | ⟨s, hs, h1⟩
      · rw [h1] at ha hb ⊢; simp at ha hb ⊢; simp [ha, hb]
      · simp only [List.mem_cons, List.not_mem_nil, or_false] at hs
        rcases hs with rfl | rfl <;> omega
    · intro k hk
      rw [hr k hk, hdim]
      have hk' : k < r.length := by simpa using hk
      refine ⟨⟨h.fits a (by simp) k hk', h.fits b (by simp) k hk'⟩, fun h3 => ?_⟩
      obtain ⟨s, hs, h4⟩ := h.comes k hk' h3
      simp only [List.mem_cons, List.not_mem_nil, or_false] at hs
      rcases hs with rfl | rfl
      · exact Or.inl h4
      · exact Or.inr h4

theorem bin_returns (f : ℝ → ℝ → ℝ) {a b : Ten} {r : List ℕ} (h : Broadcast [a.shape, b.shape] r) :
    Returns (bin f a b) r fun i => f (a.get i) (b.get i) := by
  have h1 := (torchBroadcast_ok _ _ _).2 h
  refine ⟨⟨r, fun i => f (a.get i) (b.get i)⟩, by simp [bin, h1, Except.map], rfl, fun i => ?_⟩
  change f (a.get (bidx r i)) (b.get (bidx r i)) = _
  rw [get_of_covers a (covers_of_broadcast h (by simp)), get_of_covers b (covers_of_broadcast h (by simp))]

theorem expand_returns {t : Ten} {l : List (List ℕ)} {r : List ℕ} (h : Broadcast l r)
    (ht : t.shape ∈ l) : Returns (expand t r) r t.get := by
  refine ⟨⟨r, fun i => t.get i⟩, ?_, rfl, fun i => get_of_covers t (covers_of_broadcast h ht) i⟩
  unfold expand
  rw [if_pos ⟨h.rank_le _ ht, fun k hk => h.fits _ ht k hk⟩]

theorem reduced_eq (nd : ℕ) (kd : Bool) (s : List ℕ) : reduced nd kd s = batchShape nd kd s := by
  unfold reduced batchShape; cases kd <;> rfl

theorem joinIdx_eq (nd : ℕ) (kd : Bool) (J : Fin nd → ℕ) (i : ℕ → ℕ) :
    joinIdx nd kd J i = place nd kd J i := by
  funext k; unfold joinIdx place; cases kd <;> rfl

theorem dimR_take {s : List ℕ} {nd : ℕ} (h : nd ≤ s.length) (k : ℕ) :
    dimR (s.take (s.length - nd)) k = dimR s (k + nd) := by
  unfold dimR
  rw [List.reverse_take, show s.length - (s.length - nd) = nd by omega]
  simp [List.getD_eq_getElem?_getD, List.getElem?_drop, add_comm]

theorem dimR_batch {s : List ℕ} {nd : ℕ} (h : nd ≤ s.length) (kd : Bool) (k : ℕ) (hk : nd ≤ k) :
    dimR (batchShape nd kd s) (if kd then k else k - nd) = dimR s k := by
  unfold batchShape
  cases kd with
  | false =>
    simp only [Bool.false_eq_true, if_false, List.append_nil]
    rw [dimR_take h]; congr 1; omega
  | true =>
    simp only [if_true]
    have : dimR (s.take (s.length - nd) ++ List.replicate nd 1) k = dimR (s.take (s.length - nd)) (k - nd) := by
      unfold dimR
      rw [List.reverse_append, List.reverse_replicate, List.getD_eq_getElem?_getD,
        List.getElem?_append_right (by simpa using hk)]
      simp [List.getD_eq_getElem?_getD]
    rw [this, dimR_take h]; congr 1; omega

theorem sumLast_returns (nd : ℕ) (hnd : 0 < nd) (kd : Bool) {t : Ten} (h : nd ≤ t.shape.length) :
    Returns (sumLast nd kd t) (batchShape nd kd t.shape) (blockSum nd kd t.shape t.get) := by
  have hne : ¬ (t.shape = [] ∧ nd = 1) := by
    rintro ⟨h1, h2⟩; rw [h1] at h; simp at h; omega
  refine ⟨_, by unfold sumLast; rw [if_neg hne, if_pos h], reduced_eq nd kd _, fun i => ?_⟩
  unfold Ten.get blockSum
  simp only
  refine Finset.sum_congr rfl fun J _ => ?_
  congr 1
  funext k
  unfold bidx
  rw [dimAt_eq]
  by_cases h1 : dimR t.shape k = 1
  · rw [if_pos h1, if_pos h1]
  · rw [if_neg h1, if_neg h1, joinIdx_eq, reduced_eq]
    unfold place
    by_cases hk : k < nd
    · rw [dif_pos hk, dif_pos hk]
    · rw [dif_neg hk, dif_neg hk]
      have := dimR_batch h kd k (not_lt.1 hk)
      simp only [this, if_neg h1]

theorem batchShape_zero (kd : Bool) (s : List ℕ) : batchShape 0 kd s = s := by
  cases kd <;> simp [batchShape]

theorem blockSum_zero (kd : Bool) (s : List ℕ) (f : (ℕ → ℕ) → ℝ) (i : ℕ → ℕ) :
    blockSum 0 kd s f i = f i := by
  unfold blockSum
  have : ∀ J : Fin 0 → ℕ, place 0 kd J i = i := fun J => by funext k; cases kd <;> simp [place]
  simp [this]

theorem blockNorm_zero (kd : Bool) (s : List ℕ) (f : (ℕ → ℕ) → ℝ) (i : ℕ → ℕ) :
    blockNorm 0 kd s f i = |f i| := by
  rw [blockNorm, blockSum_zero, Real.sqrt_sq_eq_abs]

theorem map_returns (g : ℝ → ℝ) {r : Except PyErr Ten} {s : List ℕ} {f : (ℕ → ℕ) → ℝ}
    (h : Returns r s f) : Returns (r.map (Ten.map g)) s fun i => g (f i) := by
  obtain ⟨t, rfl, h2, h3⟩ := h
  exact ⟨t.map g, rfl, h2, fun i => by rw [get_map, h3]⟩

theorem Returns.congr {r : Except PyErr Ten} {s : List ℕ} {f g : (ℕ → ℕ) → ℝ} (h : Returns r s f)
    (hg : ∀ i, f i = g i) : Returns r s g := by
  obtain ⟨t, h1, h2, h3⟩ := h
  exact ⟨t, h1, h2, fun i => (h3 i).trans (hg i)⟩

/-! ## Moving -/

/-- **C73.** `retr(x,u)` and `expmap(x,u)` are `x + u`, with torch's broadcasting. -/
theorem C73_retr_expmap {x u : Ten} {r : List ℕ} (h : Broadcast [x.shape, u.shape] r) :
    Returns (retr x u) r (fun i => x.get i + u.get i) ∧
    Returns (expmap x u) r (fun i => x.get i + u.get i) :=
  ⟨bin_returns _ h, bin_returns _ h⟩

theorem C73_logmap {x y : Ten} {r : List ℕ} (h : Broadcast [y.shape, x.shape] r) :
    Returns (logmap x y) r (fun i => y.get i - x.get i) := bin_returns _ h

theorem broadcast_self_left {a b r : List ℕ} (h : Broadcast [b, a] r) : Broadcast [a, r] r := by
  refine ⟨?_, ?_, ?_, ?_⟩
  · intro s hs
    simp only [List.mem_cons, List.not_mem_nil, or_false] at hs
    rcases hs with rfl | rfl
    · exact h.rank_le _ (by simp)
    · exact le_rfl
  · exact Or.inr ⟨r, by simp, rfl⟩
  · intro s hs i hi
    simp only [List.mem_cons, List.not_mem_nil, or_false] at hs
    rcases hs with rfl | rfl
    · exact h.fits _ (by simp) i hi
    · exact Or.inr rfl
  · intro i _ _
    exact ⟨r, by simp, rfl⟩

theorem broadcast_comm {a b r : List ℕ} (h : Broadcast [a, b] r) : Broadcast [b, a] r := by
  obtain ⟨h1, h2, h3, h4⟩ := h
  have hm : ∀ s, s ∈ [b, a] ↔ s ∈ [a, b] := fun s => by simp [or_comm]
  simp only [← hm] at h1 h2 h3 h4
  exact ⟨h1, h2, h3, h4⟩

/-- `expmap` and `logmap` are inverse to each other, entry by entry, for all broadcastable
shapes. -/
theorem C73_exp_log {x y : Ten} {r : List ℕ} (h : Broadcast [y.shape, x.shape] r) :
    ∃ v, logmap x y = .ok v ∧ v.shape = r ∧ Returns (expmap x v) r y.get := by
  obtain ⟨v, h1, h2, h3⟩ := C73_logmap h
  refine ⟨v, h1, h2, ?_⟩
  have hb : Broadcast [x.shape, v.shape] r := by rw [h2]; exact broadcast_self_left h
  exact (C73_retr_expmap hb).2.congr fun i => by rw [h3]; ring

theorem C73_log_exp {x u : Ten} {r : List ℕ} (h : Broadcast [u.shape, x.shape] r) :
    ∃ y, expmap x u = .ok y ∧ y.shape = r ∧ Returns (logmap x y) r u.get := by
  obtain ⟨y, h1, h2, h3⟩ := (C73_retr_expmap (broadcast_comm h)).2
  refine ⟨y, h1, h2, ?_⟩
  have hb : Broadcast [y.shape, x.shape] r := by
    rw [h2]; exact broadcast_comm (broadcast_self_left h)
  exact (C73_logmap hb).congr fun i => by rw [h3]; ring

/-- Shapes torch cannot broadcast raise `RuntimeError` in all three. -/
theorem C73_raises {x u : Ten} (h : ¬ ∃ r, Broadcast [x.shape, u.shape] r) :
    retr x u = .error .runtimeError ∧ expmap x u = .error .runtimeError ∧
    logmap u x = .error .runtimeError := by
  have hm : ∀ (l : List ℕ) (e : PyErr), l.mapM (fun k => torchDim (dimAt x.shape k) (dimAt u.shape k))
      = .error e → e = .runtimeError := by
    intro l
    induction l with
    | nil => intro e h; simp [pure, Except.pure] at h
    | cons a l ih =>
      intro e h
      rw [List.mapM_cons] at h
      cases h1 : torchDim (dimAt x.shape a) (dimAt u.shape a) with
      | error e' =>
        rw [h1] at h
        simp only [bind, Except.bind, Except.error.injEq] at h
        subst h
        unfold torchDim at h1
        split_ifs at h1
        exact (Except.error.inj h1).symm
      | ok v =>
        rw [h1] at h
        cases h2 : l.mapM (fun k => torchDim (dimAt x.shape k) (dimAt u.shape k)) with
        | error e' =>
          rw [h2] at h
          simp only [bind, Except.bind, Except.error.injEq] at h
          subst h
          exact ih _ h2
        | ok q => rw [h2] at h; simp [bind, Except.bind, pure, Except.pure] at h
  have hb : torchBroadcast x.shape u.shape = .error .runtimeError := by
    cases h1 : torchBroadcast x.shape u.shape with
    | ok r => exact absurd ⟨r, (torchBroadcast_ok _ _ _).1 h1⟩ h
    | error e =>
      unfold torchBroadcast at h1
      cases h2 : (List.range (max x.shape.length u.shape.length)).mapM
          (fun k => torchDim (dimAt x.shape k) (dimAt u.shape k)) with
      | error e' =>
        rw [h2] at h1
        simp only [Except.map, Except.error.injEq] at h1
        rw [← h1, hm _ _ h2]
      | ok q => rw [h2] at h1; simp [Except.map] at h1
  simp [retr, expmap, logmap, bin, hb, Except.map]

/-! ## Lengths -/

/-- **C73.** `dist` is the Frobenius distance over the last `ndim` axes, for any `ndim` that
torch's norm accepts, with and without `keepdim`. -/
theorem C73_dist {maxAxes nd : ℕ} (hm : nd ≤ maxAxes) (kd : Bool) {x y : Ten} {r : List ℕ}
    (h : Broadcast [x.shape, y.shape] r) (hnd : nd ≤ r.length) :
    Returns (dist maxAxes nd x y kd) (batchShape nd kd r)
      (blockNorm nd kd r fun i => x.get i - y.get i) := by
  obtain ⟨d, h1, h2, h3⟩ := bin_returns (· - ·) h
  unfold dist
  rw [h1]
  simp only [bind, Except.bind]
  rcases Nat.eq_zero_or_pos nd with rfl | hpos
  · simp only [gt_iff_lt, lt_irrefl, if_false, batchShape_zero]
    exact ⟨_, rfl, h2, fun i => by rw [get_map, h3, blockNorm_zero]⟩
  · rw [if_pos hpos, normLast, if_neg (not_lt.2 hm)]
    have hs : nd ≤ (d.map (· ^ 2)).shape.length := by change nd ≤ d.shape.length; rw [h2]; exact hnd
    have := map_returns Real.sqrt (sumLast_returns nd hpos kd hs)
    change Returns _ (batchShape nd kd d.shape) _ at this
    rw [h2] at this
    refine this.congr fun i => ?_
    rw [blockNorm]
    congr 1
    change blockSum nd kd d.shape _ i = _
    rw [h2]
    unfold blockSum
    exact Finset.sum_congr rfl fun J _ => by rw [get_map, h3]

/-- **C73.** `dist2` is its square (for every `ndim`, also those torch's norm refuses). -/
theorem C73_dist2 {nd : ℕ} (kd : Bool) {x y : Ten} {r : List ℕ}
    (h : Broadcast [x.shape, y.shape] r) (hnd : nd ≤ r.length) :
    Returns (dist2 nd x y kd) (batchShape nd kd r)
      (fun i => blockNorm nd kd r (fun i => x.get i - y.get i) i ^ 2) := by
  have hsq : ∀ (s : List ℕ) (f : (ℕ → ℕ) → ℝ) (i : ℕ → ℕ),
      blockNorm nd kd s f i ^ 2 = blockSum nd kd s (fun k => f k ^ 2) i := fun s f i =>
    Real.sq_sqrt (Finset.sum_nonneg fun J _ => sq_nonneg _)
  simp only [hsq]
  obtain ⟨d, h1, h2, h3⟩ := bin_returns (· - ·) h
  unfold dist2
  rw [h1]
  simp only [bind, Except.bind]
  rcases Nat.eq_zero_or_pos nd with rfl | hpos
  · simp only [gt_iff_lt, lt_irrefl, if_false, batchShape_zero]
    exact ⟨_, rfl, h2, fun i => by simp only [get_map, h3, blockSum_zero]⟩
  · rw [if_pos hpos]
    have hs : nd ≤ (d.map (· ^ 2)).shape.length := by change nd ≤ d.shape.length; rw [h2]; exact hnd
    have := sumLast_returns nd hpos kd hs
    change Returns _ (batchShape nd kd d.shape) _ at this
    rw [h2] at this
    refine this.congr fun i => ?_
    change blockSum nd kd d.shape _ i = _
    rw [h2]
    unfold blockSum
    exact Finset.sum_congr rfl fun J _ => by rw [get_map, h3]

/-- **C73.** `norm(x,u)` is the Frobenius length of `u`. -/
theorem C73_norm {maxAxes nd : ℕ} (hm : nd ≤ maxAxes) (kd : Bool) (x u : Ten)
    (hnd : nd ≤ u.shape.length) :
    Returns (norm maxAxes nd x u kd) (batchShape nd kd u.shape) (blockNorm nd kd u.shape u.get) := by
  unfold norm
  rcases Nat.eq_zero_or_pos nd with rfl | hpos
  · simp only [gt_iff_lt, lt_irrefl, if_false, batchShape_zero]
    exact ⟨_, rfl, rfl, fun i => by rw [get_map, blockNorm_zero]⟩
  · rw [if_pos hpos, normLast, if_neg (not_lt.2 hm)]
    have hs : nd ≤ (u.map (· ^ 2)).shape.length := hnd
    have := map_returns Real.sqrt (sumLast_returns nd hpos kd hs)
    change Returns _ (batchShape nd kd u.shape) _ at this
    refine this.congr fun i => ?_
    rw [blockNorm]
    congr 1
    change blockSum nd kd u.shape _ i = _
    unfold blockSum
    exact Finset.sum_congr rfl fun J _ => by rw [get_map]

theorem entrywise_returns (u : Ten) (v : Option Ten) {r : List ℕ}
    (h : Broadcast [u.shape, (v.getD u).shape] r) :
    Returns (entrywise u v) r fun i => u.get i * (v.getD u).get i := by
  cases v with
  | none =>
    have : r = u.shape := C49.C49_spec_unique _ _ _ h
      ⟨by simp, Or.inr ⟨u.shape, by simp, rfl⟩, by simp, fun i _ _ => ⟨u.shape, by simp, rfl⟩⟩
    exact ⟨_, rfl, this.symm, fun i => by rw [get_map, sq]; rfl⟩
  | some v => exact bin_returns _ h

theorem pos_of_broadcast {l : List (List ℕ)} {r : List ℕ} (h : Broadcast l r)
    (hp : ∀ s ∈ l, ∀ d ∈ s, 0 < d) : ∀ d ∈ r, 0 < d := by
  intro d hd
  have hd' : d ∈ r.reverse := List.mem_reverse.2 hd
  obtain ⟨k, hk, e⟩ := List.getElem_of_mem hd'
  have hdim : dimR r k = d := by
    rw [← e]; simp [dimR, List.getD_eq_getElem?_getD, List.getElem?_eq_getElem hk]
  by_cases h1 : d = 1
  · omega
  · obtain ⟨s, hs, h2⟩ := h.comes k (by simpa using hk) (by rw [hdim]; exact h1)
    rw [hdim] at h2
    unfold dimR at h2
    rcases Nat.lt_or_ge k s.reverse.length with h3 | h3
    · rw [List.getD_eq_getElem?_getD, List.getElem?_eq_getElem h3, Option.getD_some] at h2
      rw [← h2]
      exact hp s hs _ (List.mem_reverse.1 (List.getElem_mem h3))
    · rw [List.getD_eq_getElem?_getD, List.getElem?_eq_none h3] at h2; simp at h2; omega

theorem pos_batch {nd : ℕ} {kd : Bool} {s : List ℕ} (h : ∀ d ∈ s, 0 < d) :
    ∀ d ∈ batchShape nd kd s, 0 < d := by
  intro d hd
  unfold batchShape at hd
  rcases List.mem_append.1 hd with h1 | h1
  · exact h d (List.mem_of_mem_take h1)
  · cases kd
    · simp at h1
    · simp only [if_true] at h1
      rw [List.eq_of_mem_replicate h1]; exact one_pos

/-- **C73.** `inner(x,u,v)` sums the entrywise products over the last `ndim` axes, and is as large
as the batches of `x`, `u` and `v` together.  All sizes are positive. -/
theorem C73_inner {nd : ℕ} (kd : Bool) (x u : Ten) (v : Option Ten) {r s : List ℕ}
    (hr : Broadcast [u.shape, (v.getD u).shape] r) (hnd : nd ≤ r.length)
    (hs : Broadcast [batchShape nd kd x.shape, batchShape nd kd r] s)
    (hpx : ∀ d ∈ x.shape, 0 < d) (hpr : ∀ d ∈ r, 0 < d) :
    Returns (inner nd x u v kd) s
      (blockSum nd kd r fun i => u.get i * (v.getD u).get i) := by
  obtain ⟨p, h1, h2, h3⟩ := entrywise_returns u v hr
  unfold inner
  rw [h1]
  simp only [bind, Except.bind]
  have hpos : ∀ q ∈ [batchShape nd kd x.shape, batchShape nd kd r], ∀ d ∈ q, 0 < d := by
    intro q hq
    simp only [List.mem_cons, List.not_mem_nil, or_false] at hq
    rcases hq with rfl | rfl
    · exact pos_batch hpx
    · exact pos_batch hpr
  rcases Nat.eq_zero_or_pos nd with rfl | hpn
  · simp only [batchShape_zero] at hs hpos
    simp only [gt_iff_lt, lt_irrefl, if_false, h2]
    rw [(C49.C49_broadcast_shapes_partial _ _ hpos).2 hs]
    refine (expand_returns hs (t := p) (by rw [h2]; simp)).congr fun i => ?_
    rw [h3, blockSum_zero]
  · rw [if_pos hpn]
    obtain ⟨q, h4, h5, h6⟩ := sumLast_returns nd hpn kd (t := p) (by rw [h2]; exact hnd)
    rw [h4]
    simp only
    have e : x.shape.take (x.shape.length - nd) ++ List.replicate (if kd = true then nd else 0) 1
        = batchShape nd kd x.shape := reduced_eq nd kd _
    rw [e, h5, h2, (C49.C49_broadcast_shapes_partial _ _ hpos).2 hs]
    refine (expand_returns hs (t := q) (by rw [h5, h2]; simp)).congr fun i => ?_
    rw [h6, h2]
    unfold blockSum
    exact Finset.sum_congr rfl fun J _ => h3 _

/-- The square of `norm` is `inner`, entry by entry ... -/
theorem C73_norm_sq_inner {maxAxes nd : ℕ} (hm : nd ≤ maxAxes) (kd : Bool) (x u : Ten)
    {s : List ℕ} (hnd : nd ≤ u.shape.length)
    (hs : Broadcast [batchShape nd kd x.shape, batchShape nd kd u.shape] s)
    (hpx : ∀ d ∈ x.shape, 0 < d) (hpu : ∀ d ∈ u.shape, 0 < d) :
    ∃ a b, norm maxAxes nd x u kd = .ok a ∧ inner nd x u none kd = .ok b ∧
      ∀ i, a.get i ^ 2 = b.get i := by
  obtain ⟨a, h1, h2, h3⟩ := C73_norm hm kd x u hnd
  have hr : Broadcast [u.shape, ((none : Option Ten).getD u).shape] u.shape :=
    ⟨by simp, Or.inr ⟨u.shape, by simp, rfl⟩, by simp, fun i _ _ => ⟨u.shape, by simp, rfl⟩⟩
  obtain ⟨b, h4, h5, h6⟩ := C73_inner kd x u none hr hnd hs hpx hpu
  refine ⟨a, b, h1, h4, fun i => ?_⟩
  rw [h3, h6, blockNorm, Real.sq_sqrt (by
    unfold blockSum; exact Finset.sum_nonneg fun J _ => sq_nonneg _)]
  unfold blockSum
  exact Finset.sum_congr rfl fun J _ => by simp [sq]

/-- ... but not in shape: `norm` ignores the batch of `x`, `inner` expands to it. -/
theorem C73_counterexample_norm_shape :
    ∃ (x u a b : Ten), norm 2 1 x u false = .ok a ∧ inner 1 x u none false = .ok b ∧
      a.shape = [] ∧ b.shape = [5] := by
  let x : Ten := ⟨[5, 3], fun _ => 0⟩
  let u : Ten := ⟨[3], fun _ => 1⟩
  obtain ⟨a, h1, h2, -⟩ := C73_norm (maxAxes := 2) (nd := 1) (by norm_num) false x u (by simp [u])
  have hr : Broadcast [u.shape, ((none : Option Ten).getD u).shape] u.shape :=
    ⟨by simp, Or.inr ⟨u.shape, by simp, rfl⟩, by simp, fun i _ _ => ⟨u.shape, by simp, rfl⟩⟩
  have hs : Broadcast [batchShape 1 false x.shape, batchShape 1 false u.shape] [5] := by
    have e1 : batchShape 1 false x.shape = [5] := by simp [batchShape, x]
    have e2 : batchShape 1 false u.shape = [] := by simp [batchShape, u]
    rw [e1, e2]
    exact (torchBroadcast_ok _ _ _).1 (by decide)
  obtain ⟨b, h4, h5, -⟩ := C73_inner false x u none hr (by simp [u]) hs (by simp [x]) (by simp [u])
  exact ⟨x, u, a, b, h1, h4, by rw [h2]; simp [batchShape, u], h5⟩

/-- More axes than torch's norm accepts make `dist` and `norm` raise, where `dist2` works. -/
theorem C73_too_many_axes {maxAxes nd : ℕ} (hm : maxAxes < nd) (kd : Bool) {x y : Ten} {r : List ℕ}
    (h : Broadcast [x.shape, y.shape] r) :
    dist maxAxes nd x y kd = .error .runtimeError ∧
    norm maxAxes nd x y kd = .error .runtimeError := by
  obtain ⟨d, h1, h2, h3⟩ := bin_returns (· - ·) h
  have hp : nd > 0 := by omega
  constructor
  · unfold dist; rw [h1]
    simp only [bind, Except.bind, if_pos hp, normLast, if_pos hm]
  · simp only [norm, if_pos hp, normLast, if_pos hm]

/-- **C73.** `component_inner` is the entrywise product, expanded to the shape of `x`. -/
theorem C73_component_inner (x u : Ten) (v : Option Ten) {r s : List ℕ}
    (hr : Broadcast [u.shape, (v.getD u).shape] r) (hs : Broadcast [x.shape, r] s)
    (hpx : ∀ d ∈ x.shape, 0 < d) (hpr : ∀ d ∈ r, 0 < d) :
    Returns (componentInner x u v) s fun i => u.get i * (v.getD u).get i := by
  obtain ⟨p, h1, h2, h3⟩ := entrywise_returns u v hr
  unfold componentInner
  rw [h1]
  simp only [bind, Except.bind, h2]
  have hpos : ∀ q ∈ [x.shape, r], ∀ d ∈ q, 0 < d := by
    intro q hq
    simp only [List.mem_cons, List.not_mem_nil, or_false] at hq
    rcases hq with rfl | rfl
    · exact hpx
    · exact hpr
  rw [(C49.C49_broadcast_shapes_partial _ _ hpos).2 hs]
  exact (expand_returns hs (t := p) (by rw [h2]; simp)).congr h3

/-! ## Projections and transport -/

/-- **C73.** `proju`, `egrad2rgrad` and `transp` return the vector itself, expanded to the common
shape.  All sizes are positive. -/
theorem C73_identity {x y v : Ten} {s s' : List ℕ} (hs : Broadcast [x.shape, v.shape] s)
    (hs' : Broadcast [x.shape, y.shape, v.shape] s')
    (hpx : ∀ d ∈ x.shape, 0 < d) (hpy : ∀ d ∈ y.shape, 0 < d) (hpv : ∀ d ∈ v.shape, 0 < d) :
    Returns (proju x v) s v.get ∧ Returns (egrad2rgrad x v) s v.get ∧
    Returns (transp x y v) s' v.get ∧ projx x = x := by
  have h2 : ∀ q ∈ [x.shape, v.shape], ∀ d ∈ q, 0 < d := by
    intro q hq
    simp only [List.mem_cons, List.not_mem_nil, or_false] at hq
    rcases hq with rfl | rfl <;> assumption
  have h3 : ∀ q ∈ [x.shape, y.shape, v.shape], ∀ d ∈ q, 0 < d := by
    intro q hq
    simp only [List.mem_cons, List.not_mem_nil, or_false] at hq
    rcases hq with rfl | rfl | rfl <;> assumption
  unfold proju egrad2rgrad transp
  rw [(C49.C49_broadcast_shapes_partial _ _ h2).2 hs, (C49.C49_broadcast_shapes_partial _ _ h3).2 hs']
  simp only [bind, Except.bind]
  exact ⟨expand_returns hs (by simp), expand_returns hs (by simp), expand_returns hs' (by simp), rfl⟩

/-- On an empty tensor they raise: `broadcast_shapes` turns the size `0` into `1`. -/
theorem C73_counterexample_empty (x : Ten) (hx : x.shape = [0]) :
    proju x x = .error .runtimeError ∧ egrad2rgrad x x = .error .runtimeError ∧
    transp x x x = .error .runtimeError ∧ componentInner x x none = .error .runtimeError := by
  have h2 : broadcastShapes [[0], [0]] = .ok [1] := by decide
  have h3 : broadcastShapes [[0], [0], [0]] = .ok [1] := by decide
  have he : ∀ t : Ten, t.shape = [0] → expand t [1] = .error .runtimeError := by
    intro t ht
    unfold expand
    rw [if_neg]
    rw [ht]
    rintro ⟨-, h⟩
    have := h 0 (by simp)
    simp [dimAt] at this
  refine ⟨?_, ?_, ?_, ?_⟩
  · unfold proju; rw [hx, h2]; exact he x hx
  · unfold egrad2rgrad; rw [hx, h2]; exact he x hx
  · unfold transp; rw [hx, h3]; exact he x hx
  · unfold componentInner entrywise
    simp only [bind, Except.bind]
    have e : (x.map (· ^ 2)).shape = [0] := hx
    rw [e, hx, h2]; exact he _ e

/-! ## `dist` is a metric -/

theorem sqrt_sum_add_le {ι : Type*} (S : Finset ι) (f g : ι → ℝ) :
    Real.sqrt (∑ i ∈ S, (f i + g i) ^ 2) ≤
      Real.sqrt (∑ i ∈ S, f i ^ 2) + Real.sqrt (∑ i ∈ S, g i ^ 2) := by
  have hA : 0 ≤ ∑ i ∈ S, f i ^ 2 := Finset.sum_nonneg fun i _ => sq_nonneg _
  have hB : 0 ≤ ∑ i ∈ S, g i ^ 2 := Finset.sum_nonneg fun i _ => sq_nonneg _
  rw [Real.sqrt_le_left (by positivity)]
  have hc : ∑ i ∈ S, f i * g i ≤ Real.sqrt (∑ i ∈ S, f i ^ 2) * Real.sqrt (∑ i ∈ S, g i ^ 2) := by
    rw [← Real.sqrt_mul hA]
    refine Real.le_sqrt_of_sq_le ?_
    exact Finset.sum_mul_sq_le_sq_mul_sq S f g
  have e : ∑ i ∈ S, (f i + g i) ^ 2 = (∑ i ∈ S, f i ^ 2) + 2 * (∑ i ∈ S, f i * g i) + ∑ i ∈ S, g i ^ 2 := by
    rw [Finset.mul_sum, ← Finset.sum_add_distrib, ← Finset.sum_add_distrib]
    exact Finset.sum_congr rfl fun i _ => by ring
  rw [e, add_sq, Real.sq_sqrt hA, Real.sq_sqrt hB]
  linarith

/-- **C73.** For tensors of one shape `dist` is symmetric, satisfies the triangle inequality, and
vanishes at a batch position exactly where all the entries agree. -/
theorem C73_dist_metric {maxAxes nd : ℕ} (hm : nd ≤ maxAxes) (kd : Bool) {x y z : Ten} {r : List ℕ}
    (hx : x.shape = r) (hy : y.shape = r) (hz : z.shape = r) (hnd : nd ≤ r.length) :
    ∃ dxy dyx dyz dxz, dist maxAxes nd x y kd = .ok dxy ∧ dist maxAxes nd y x kd = .ok dyx ∧
      dist maxAxes nd y z kd = .ok dyz ∧ dist maxAxes nd x z kd = .ok dxz ∧ ∀ i,
      0 ≤ dxy.get i ∧ dxy.get i = dyx.get i ∧ dxz.get i ≤ dxy.get i + dyz.get i ∧
      (dxy.get i = 0 ↔ ∀ J : Fin nd → ℕ, (∀ k, J k < dimR r k) →
        x.get (place nd kd J i) = y.get (place nd kd J i)) := by
  have hb : ∀ a b : Ten, a.shape = r → b.shape = r → Broadcast [a.shape, b.shape] r := by
    intro a b ha hb
    rw [ha, hb]
    exact ⟨by simp, Or.inr ⟨r, by simp, rfl⟩, by simp, fun i _ _ => ⟨r, by simp, rfl⟩⟩
  obtain ⟨d1, a1, -, c1⟩ := C73_dist hm kd (hb x y hx hy) hnd
  obtain ⟨d2, a2, -, c2⟩ := C73_dist hm kd (hb y x hy hx) hnd
  obtain ⟨d3, a3, -, c3⟩ := C73_dist hm kd (hb y z hy hz) hnd
  obtain ⟨d4, a4, -, c4⟩ := C73_dist hm kd (hb x z hx hz) hnd
  refine ⟨d1, d2, d3, d4, a1, a2, a3, a4, fun i => ⟨?_, ?_, ?_, ?_⟩⟩
  · rw [c1]; exact Real.sqrt_nonneg _
  · rw [c1, c2]
    unfold blockNorm blockSum
    congr 1
    exact Finset.sum_congr rfl fun J _ => by ring
  · rw [c1, c3, c4]
    unfold blockNorm blockSum
    have := sqrt_sum_add_le (Fintype.piFinset (fun k : Fin nd => Finset.range (dimR r k)))
      (fun J => x.get (place nd kd J i) - y.get (place nd kd J i))
      (fun J => y.get (place nd kd J i) - z.get (place nd kd J i))
    simpa only [sub_add_sub_cancel] using this
  · rw [c1]
    unfold blockNorm blockSum
    rw [Real.sqrt_eq_zero (Finset.sum_nonneg fun J _ => sq_nonneg _),
      Finset.sum_eq_zero_iff_of_nonneg (fun J _ => sq_nonneg _)]
    simp only [Fintype.mem_piFinset, Finset.mem_range]
    constructor
    · intro h J hJ
      have := h J hJ
      have := pow_eq_zero_iff (two_ne_zero) |>.1 this
      linarith
    · intro h J hJ
      rw [h J hJ]; ring

/-! ## Random points and the origin -/

/-- The Euclidean part of C74: `random_normal` returns `noise * std + mean`, of the requested shape
when `mean` and `std` fit into it, and refuses shapes with fewer than `ndim` axes. -/
theorem C74_euclidean_random_normal (nd : ℕ) (shape : List ℕ) (noise : (ℕ → ℕ) → ℝ) (mean std : Ten)
    (hs : Broadcast [shape, std.shape] shape) (hm : Broadcast [shape, mean.shape] shape) :
    (nd ≤ shape.length → Returns (randomNormal nd shape noise mean std) shape
      fun i => (⟨shape, noise⟩ : Ten).get i * std.get i + mean.get i) ∧
    (shape.length < nd → randomNormal nd shape noise mean std = .error .valueError) := by
  constructor
  · intro h
    unfold randomNormal assertCheckShape
    rw [if_pos h]
    obtain ⟨t, h1, h2, h3⟩ := bin_returns (· * ·) (a := ⟨shape, noise⟩) (b := std) hs
    simp only [bind, Except.bind, h1]
    have hb : Broadcast [t.shape, mean.shape] shape := by rw [h2]; exact hm
    exact (bin_returns (· + ·) hb).congr fun i => by rw [h3]
  · intro h
    unfold randomNormal assertCheckShape
    rw [if_neg (not_le.2 h)]
    rfl

/-- `origin` is the zero tensor of the requested shape, with the same refusal. -/
theorem C73_origin (nd : ℕ) (shape : List ℕ) :
    (nd ≤ shape.length → Returns (origin nd shape) shape fun _ => 0) ∧
    (shape.length < nd → origin nd shape = .error .valueError) := by
  constructor
  · intro h
    unfold origin assertCheckShape
    rw [if_pos h]
    exact ⟨⟨shape, fun _ => 0⟩, rfl, rfl, fun _ => rfl⟩
  · intro h
    unfold origin assertCheckShape
    rw [if_neg (not_le.2 h)]
    rfl

/-! ## The hypotheses are met -/

/-- A batch of two matrices against one matrix, `ndim = 2`. -/
example : Broadcast [[2, 3, 4], [3, 4]] [2, 3, 4] ∧
    Broadcast [batchShape 2 true [3, 4], batchShape 2 true [2, 3, 4]] [2, 1, 1] := by
  constructor
  · exact (torchBroadcast_ok _ _ _).1 (by decide)
  · have e : batchShape 2 true [3, 4] = [1, 1] := by simp [batchShape]
    have e' : batchShape 2 true [2, 3, 4] = [2, 1, 1] := by simp [batchShape]
    rw [e, e']
    exact (torchBroadcast_ok _ _ _).1 (by decide)

example : ¬ ∃ r, Broadcast [[2], [3]] r := by
  rintro ⟨r, h⟩
  have := (torchBroadcast_ok _ _ _).2 h
  have h2 : torchBroadcast [2] [3] = .error .runtimeError := by decide
  rw [h2] at this; cases this

end Geoopt.Eucl
