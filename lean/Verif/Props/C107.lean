import Verif.Lemmas.Origin
import Verif.Props.C20
import Verif.Props.C24
import Verif.Props.C28
import Verif.Props.C35
import Verif.Spec.Siegel
import Verif.Spec.Birkhoff
import Verif.Props.C42
import Mathlib.Tactic.FinCases

/-!
# C107: `origin` returns a point of the requested shape

The size may be given as separate integers, as one tuple or as one list.
-/

namespace Geoopt.Origin

open Matrix

variable {B : List ℕ} {n m : ℕ} {args : List PyVal}

/-- **C107, Euclidean.** Every request with enough axes is met by a tensor of zeros, and one with too few is
refused. -/
theorem C107_euclidean {s : List ℕ} (nd : ℕ) (h : Requests args s) :
    (nd ≤ s.length → Returns (euclidean nd args) s fun t =>
      OwnsEntries t ∧ ∀ idx, ValidIdx s idx → t.entry idx = 0) ∧
    (s.length < nd → euclidean nd args = .error .valueError) := by
  constructor
  · intro hs
    refine ⟨fresh s fun _ => 0, ?_, rfl, owns rfl, fun idx hi => fresh_entry _ hi⟩
    simp [euclidean, assertShape_of h, zeros_of h, baseCheck, hs, manifoldTensor, bind, Except.bind, fresh]
  · intro hs
    have : ¬ nd ≤ s.length := by omega
    simp [euclidean, assertShape_of h, baseCheck, this, bind, Except.bind]

/-- **C107, Stiefel** (all four classes share the method). -/
theorem C107_stiefel (h : Requests args (B ++ [n, m])) :
    (m ≤ n → Returns (stiefel args) (B ++ [n, m]) fun t =>
      OwnsEntries t ∧ ∀ b, ValidIdx B b → Stiefel.OnStiefel (t.mat n m b)) ∧
    (n < m → stiefel args = .error .valueError) := by
  constructor
  · intro hmn
    have hc : stiefelCheck (B ++ [n, m]) = true := by simp [stiefelCheck, baseCheck, hmn]
    refine ⟨(fresh (B ++ [n, m]) fun _ => 0).update (fun idx => fromEnd idx 2 = fromEnd idx 1) (· + 1),
      ?_, rfl, owns rfl, fun b hb => ?_⟩
    · simp only [stiefel, assertShape_of h, zeros_of h, hc, if_true, bind, Except.bind]
      exact if_pos hc
    · have e : ((fresh (B ++ [n, m]) fun _ => (0 : ℝ)).update
          (fun idx => fromEnd idx 2 = fromEnd idx 1) (· + 1)).mat n m b = Stiefel.origin := by
        funext i j
        have hv : ValidIdx (B ++ [n, m]) (b ++ [i.val, j.val]) := valid_append hb (valid_two i j)
        have hu := update_entry (t := fresh (B ++ [n, m]) fun _ => (0 : ℝ)) rfl
          (fun idx => fromEnd idx 2 = fromEnd idx 1) (· + 1) hv
        simp only [Ten.mat, Stiefel.origin]
        by_cases hij : i.val = j.val
        · rw [hu.1 (by simpa using hij), fresh_entry _ hv]; simp [hij]
        · rw [hu.2 (by simpa using hij), fresh_entry _ hv]; simp [hij]
      rw [e]
      exact Stiefel.C26_origin_on_stiefel hmn
  · intro hnm
    have hc : stiefelCheck (B ++ [n, m]) = false := by simp [stiefelCheck, baseCheck, hnm]
    simp [stiefel, assertShape_of h, hc, bind, Except.bind]

/-- **C107, hyperboloid.** -/
theorem C107_lorentz {k : ℝ} (hk : 0 < k) (h : Requests args (B ++ [n + 1])) :
    Returns (lorentz k args) (B ++ [n + 1]) fun t =>
      OwnsEntries t ∧ ∀ b, ValidIdx B b → Lorentz.OnHyperboloid k (t.vec (n + 1) b) := by
  refine ⟨(fresh (B ++ [n + 1]) fun _ => 0).update (fun idx => fromEnd idx 1 = 0) fun _ => Real.sqrt k,
    ?_, rfl, owns rfl, fun b hb => ?_⟩
  · have hc : baseCheck 1 (B ++ [n + 1]) = true := by simp [baseCheck]
    simp only [lorentz, zeros_of h, bind, Except.bind, pure, Except.pure, fresh]
    rw [if_neg (by simp)]
    exact if_pos hc
  · have e : ((fresh (B ++ [n + 1]) fun _ => (0 : ℝ)).update
        (fun idx => fromEnd idx 1 = 0) fun _ => Real.sqrt k).vec (n + 1) b = Lorentz.origin k := by
      funext i
      have hv : ValidIdx (B ++ [n + 1]) (b ++ [i.val]) := valid_append hb (valid_one i)
      have hu := update_entry (t := fresh (B ++ [n + 1]) fun _ => (0 : ℝ)) rfl
        (fun idx => fromEnd idx 1 = 0) (fun _ => Real.sqrt k) hv
      simp only [Ten.vec, Lorentz.origin]
      induction i using Fin.cases with
      | zero => rw [hu.1 (by simp)]; rfl
      | succ i => rw [hu.2 (by simp), fresh_entry _ hv]; rfl
    rw [e]
    exact Lorentz.C35_origin_on hk

/-- **C107, stereographic models.** Every curvature: the zero vector; a request without axes is refused. -/
theorem C107_stereographic {s : List ℕ} (h : Requests args s) :
    (s ≠ [] → Returns (stereographic args) s fun t =>
      OwnsEntries t ∧ ∀ idx, ValidIdx s idx → t.entry idx = 0) ∧
    (s = [] → stereographic args = .error .valueError) := by
  constructor
  · intro hs
    have hc : baseCheck 1 s = true := by
      simp [baseCheck, Nat.one_le_iff_ne_zero, hs]
    refine ⟨fresh s fun _ => 0, ?_, rfl, owns rfl, fun idx hi => fresh_entry _ hi⟩
    simp only [stereographic, zeros_of h, bind, Except.bind]
    exact if_pos hc
  · rintro rfl
    simp [stereographic, zeros_of h, bind, Except.bind, manifoldTensor, baseCheck, fresh]

/-- **C107, bounded domain**, for a square request. -/
theorem C107_bounded (h : Requests args (B ++ [n, n])) :
    Returns (bounded args) (B ++ [n, n]) fun t =>
      OwnsEntries t ∧ ∀ b, ValidIdx B b → Siegel.OnBounded (t.mat n n b) := by
  refine ⟨fresh (B ++ [n, n]) fun _ => 0, zeros_of h, rfl, owns rfl, fun b hb => ?_⟩
  have e : (fresh (B ++ [n, n]) fun _ => (0 : ℂ)).mat n n b = 0 := by
    funext i j
    exact fresh_entry _ (valid_append hb (valid_two i j))
  rw [e]
  refine ⟨by simp [Siegel.CSymm], fun w hw => ?_⟩
  have : ∃ i, w i ≠ 0 := by
    by_contra hc
    push Not at hc
    exact hw (funext hc)
  obtain ⟨i, hi⟩ := this
  simp only [Matrix.zero_mulVec, Siegel.len2, Pi.zero_apply, map_zero, Finset.sum_const_zero]
  exact Finset.sum_pos' (fun j _ => Complex.normSq_nonneg _)
    ⟨i, Finset.mem_univ i, Complex.normSq_pos.2 hi⟩

/-- **C107, sphere.** Whatever the generator draws after being seeded, as long as no slice of the draw is zero. -/
theorem C107_sphere (noise : List ℕ → List ℕ → ℝ) (h : Requests args (B ++ [n]))
    (hz : ∀ b, ValidIdx B b → ∃ i < n, noise (B ++ [n]) (b ++ [i]) ≠ 0) :
    (n ≠ 1 → Returns (sphere noise args) (B ++ [n]) fun t =>
      OwnsEntries t ∧ ∀ b, ValidIdx B b → Sphere.OnSphere Set.univ (t.vec n b)) ∧
    (n = 1 → sphere noise args = .error .valueError) := by
  constructor
  · intro hn
    have hc : sphereCheck (B ++ [n]) = true := by simp [sphereCheck, baseCheck, hn]
    refine ⟨projRows (fresh (B ++ [n]) (noise (B ++ [n]))) n, ?_, rfl, owns rfl, fun b hb => ?_⟩
    · simp only [sphere, assertShape_of h, torchSize_of h, hc, if_true, bind, Except.bind, fromEnd_one]
      exact if_pos hc
    · have hrow : (fresh (B ++ [n]) (noise (B ++ [n]))).row n b = fun i => noise (B ++ [n]) (b ++ [i.val]) := by
        funext i
        exact fresh_entry _ (valid_append hb (valid_one i))
      have e : (projRows (fresh (B ++ [n]) (noise (B ++ [n]))) n).vec n b =
          Sphere.projx none (fun i => noise (B ++ [n]) (b ++ [i.val])) := by
        funext i
        have hv : ValidIdx (B ++ [n]) (b ++ [i.val]) := valid_append hb (valid_one i)
        refine (fresh_entry _ hv).trans ?_
        rw [dif_pos (by simp), List.dropLast_concat, hrow]
        congr 1
        exact Fin.ext (by simp)
      rw [e]
      refine Sphere.C20_projx_on_sphere (P := none) rfl ?_
      obtain ⟨i, hi, hne⟩ := hz b hb
      intro h0
      exact hne (congrFun h0 ⟨i, hi⟩)
  · rintro rfl
    have hc : sphereCheck (B ++ [1]) = false := by simp [sphereCheck, baseCheck]
    simp [sphere, assertShape_of h, hc, bind, Except.bind]

/-! ## Birkhoff polytope -/

/-- The tensor returned for a batch of `n × n` matrices. -/
def eyes (B : List ℕ) (n : ℕ) : Ten ℝ :=
  (fresh [n, n] fun idx => if idx.getD 0 0 = idx.getD 1 0 then 1 else 0).expandTo (B ++ [n, n])

theorem birkhoff_eq (h : Requests args (B ++ [n, n])) : birkhoff args = .ok (eyes B n) := by
  have hc : birkhoffCheck (B ++ [n, n]) = true := by simp [birkhoffCheck, baseCheck]
  have hd : (B ++ [n, n]).drop ((B ++ [n, n]).length - 2) = [n, n] := by simp
  simp only [birkhoff, assertShape_of h, hc, if_true, bind, Except.bind, hd, List.map_cons, List.map_nil, eye]
  exact if_pos hc

theorem addr_eyes (b : List ℕ) (hb : ValidIdx B b) (i j : ℕ) :
    addr (eyes B n).strides (b ++ [i, j]) = addr (contiguous [n, n]) [i, j] := by
  have : ∀ (l : List ℕ) (x : List ℕ), List.zipWith (· * ·) (l ++ x)
      (List.replicate l.length 0 ++ contiguous [n, n]) =
      List.replicate l.length 0 ++ List.zipWith (· * ·) x (contiguous [n, n]) := by
    intro l x
    induction l with
    | nil => rfl
    | cons a l ih => simp [List.replicate_succ, ih]
  have hl : (B ++ [n, n]).length - 2 = b.length := by
    have := hb.length_eq
    simp [this]
  simp only [addr, eyes, Ten.expandTo, fresh, List.length_cons, List.length_nil]
  rw [hl, this]
  simp

theorem birkhoff_entry {b : List ℕ} (hb : ValidIdx B b) (i j : Fin n) :
    (eyes B n).entry (b ++ [i.val, j.val]) = if i = j then 1 else 0 := by
  rw [Ten.entry, addr_eyes b hb]
  have := fresh_entry (fun idx : List ℕ => if idx.getD 0 0 = idx.getD 1 0 then (1 : ℝ) else 0) (valid_two i j)
  rw [Ten.entry] at this
  refine this.trans ?_
  simp [Fin.ext_iff]

/-- **C107, Birkhoff polytope, the part that holds.** The request is met, in every spelling, by identity
matrices; a request that is not square is refused.  The result owns its entries when no batch axis is longer than
one.  Missing: longer batches, see `C107_counterexample_birkhoff`. -/
theorem C107_birkhoff_partial (h : Requests args (B ++ [n, m])) :
    (n = m → Returns (birkhoff args) (B ++ [n, m]) fun t =>
      (∀ b, ValidIdx B b → t.mat n n b = 1) ∧ ((∀ d ∈ B, d = 1) → OwnsEntries t)) ∧
    (n ≠ m → birkhoff args = .error .valueError) := by
  constructor
  · rintro rfl
    refine ⟨_, birkhoff_eq h, rfl, fun b hb => ?_, fun hB => ?_⟩
    · funext i j
      rw [Ten.mat, birkhoff_entry hb i j]
      simp [Matrix.one_apply, Fin.ext_iff]
    · have hone : ∀ (B b b' : List ℕ), (∀ d ∈ B, d = 1) → ValidIdx B b → ValidIdx B b' → b = b' := by
        intro B b b' hB hb hb'
        unfold ValidIdx at hb
        induction hb generalizing b' with
        | nil => cases hb'; rfl
        | @cons i d is ds hid hr ih =>
          rcases hb' with _ | ⟨h1, h2⟩
          have hd := hB d (by simp)
          rw [ih _ (fun e he => hB e (by simp [he])) h2]
          congr 1
          omega
      refine owns_of (fun i j hi hj e => ?_) ?_
      · obtain ⟨b, i1, i2, rfl, hb, hi1, hi2⟩ := valid_split hi
        obtain ⟨b', j1, j2, rfl, hb', hj1, hj2⟩ := valid_split hj
        rw [addr_eyes b hb, addr_eyes b' hb'] at e
        have := addr_inj (valid_two ⟨i1, hi1⟩ ⟨i2, hi2⟩) (valid_two ⟨j1, hj1⟩ ⟨j2, hj2⟩) e
        rw [hone B b b' hB hb hb', this]
      · rintro ⟨p, hp, h1, h2⟩
        have hz : (B ++ [n, n]).zip (List.replicate B.length 0 ++ contiguous [n, n]) =
            B.zip (List.replicate B.length 0) ++ [n, n].zip (contiguous [n, n]) :=
          List.zip_append (by simp)
        have hp' : p ∈ (B ++ [n, n]).zip (List.replicate B.length 0 ++ contiguous [n, n]) := by
          simpa [eyes, Ten.expandTo, fresh] using hp
        rw [hz, List.mem_append] at hp'
        rcases hp' with hp' | hp'
        · have := hB _ (List.of_mem_zip hp').1
          omega
        · exact no_overlap (t := (fresh [n, n] fun _ => (0 : ℝ))) rfl ⟨p, hp', h1, h2⟩
  · intro hn
    have hc : birkhoffCheck (B ++ [n, m]) = false := by
      simp [birkhoffCheck, baseCheck]; exact fun e => hn e.symm
    simp [birkhoff, assertShape_of h, hc, bind, Except.bind]

/-- **C107, Birkhoff polytope: a batch of origins is one matrix.** All the matrices of the result share their
storage (`expand`): writing an entry of one writes it in all, and as soon as a batch axis is longer than one
no optimiser can write the tensor: `copy_` raises. -/
theorem C107_counterexample_birkhoff (h : Requests args (B ++ [n, n])) :
    ∃ t, birkhoff args = .ok t ∧
      (∀ b b', ValidIdx B b → ValidIdx B b' → ∀ (i j : Fin n) (v : ℝ),
        (t.set (b ++ [i.val, j.val]) v).entry (b' ++ [i.val, j.val]) = v) ∧
      ((∃ d ∈ B, 1 < d) → (∀ src, t.copy_ src = .error .runtimeError) ∧ ¬ OwnsEntries t) := by
  refine ⟨_, birkhoff_eq h, fun b b' hb hb' i j v => ?_, fun ⟨d, hd, h1⟩ => ?_⟩
  · have e : (eyes B n).strides = ((eyes B n).set (b ++ [i.val, j.val]) v).strides := rfl
    rw [Ten.entry, ← e, addr_eyes b' hb']
    simp only [Ten.set]
    rw [addr_eyes b hb, if_pos rfl]
  · have hov : (eyes B n).overlaps := by
      have hz : (B ++ [n, n]).zip (List.replicate B.length 0 ++ contiguous [n, n]) =
          B.zip (List.replicate B.length 0) ++ [n, n].zip (contiguous [n, n]) :=
        List.zip_append (by simp)
      refine ⟨(d, 0), ?_, h1, rfl⟩
      have : (d, 0) ∈ (B ++ [n, n]).zip (List.replicate B.length 0 ++ contiguous [n, n]) := by
        rw [hz, List.mem_append]
        left
        obtain ⟨k, hk, rfl⟩ := List.mem_iff_getElem.1 hd
        refine List.mem_iff_getElem.2 ⟨k, by simpa using hk, by simp⟩
      simpa [eyes, Ten.expandTo, fresh] using this
    have hcopy : ∀ src, (eyes B n).copy_ src = .error .runtimeError := fun src => if_pos hov
    refine ⟨hcopy, fun ho => ?_⟩
    obtain ⟨t', e, _⟩ := ho.copy fun _ => 0
    rw [hcopy] at e
    cases e

/-! ## SPD matrices and the upper half space -/

/-- **C107, SPD matrices, the part that holds**: the size given as separate integers, and square. -/
theorem C107_spd_partial :
    Returns (spd ((B ++ [n, n]).map .int)) (B ++ [n, n]) fun t =>
      OwnsEntries t ∧ ∀ b, ValidIdx B b → SPD.OnSPD (t.mat n n b) := by
  have hr : Requests ((B ++ [n]).map .int) (B ++ [n]) := .inl ⟨by simp, rfl⟩
  have hd : ((B ++ [n, n]).map PyVal.int).dropLast = (B ++ [n]).map .int := by
    have : B ++ [n, n] = (B ++ [n]) ++ [n] := by simp
    rw [this, List.map_append, List.map_singleton, List.dropLast_concat]
  have e : spd ((B ++ [n, n]).map .int) = .ok (fresh (B ++ [n] ++ [n]) fun idx =>
      if idx.getD ((B ++ [n]).length - 1) 0 = idx.getD (B ++ [n]).length 0
      then (fresh (B ++ [n]) fun _ => (1 : ℝ)).entry (idx.take (B ++ [n]).length) else 0) := by
    simp only [spd, hd, ones, torchSize_of hr, bind, Except.bind, pure, Except.pure, diagEmbed]
    simp [fresh]
  refine ⟨_, e, by simp [fresh], owns rfl, fun b hb => ?_⟩
  have hm : (fresh (B ++ [n] ++ [n]) fun idx =>
      if idx.getD ((B ++ [n]).length - 1) 0 = idx.getD (B ++ [n]).length 0
      then (fresh (B ++ [n]) fun _ => (1 : ℝ)).entry (idx.take (B ++ [n]).length) else 0).mat n n b =
      SPD.origin := by
    funext i j
    have hv : ValidIdx (B ++ [n] ++ [n]) (b ++ [i.val, j.val]) := by
      have := valid_append (valid_append hb (valid_one i)) (valid_one j)
      simpa using this
    have hl : B.length = b.length := hb.length_eq.symm
    rw [Ten.mat, fresh_entry _ hv]
    have ht : (b ++ [i.val, j.val]).take (B ++ [n]).length = b ++ [i.val] := by
      have : b ++ [i.val, j.val] = (b ++ [i.val]) ++ [j.val] := by simp
      rw [this, List.take_append_of_le_length (by simp [hl])]
      exact List.take_of_length_le (by simp [hl])
    rw [ht, fresh_entry _ (valid_append hb (valid_one i))]
    simp [SPD.origin, Matrix.diagonal_apply, hl, Fin.ext_iff]
  rw [hm]
  exact SPD.C74_spd_origin

/-- **C107, SPD matrices: no size given as a tuple or a list is accepted**, nor a single integer, whatever the
sizes. -/
theorem C107_counterexample_spd_tuple (l : List PyVal) (k : ℕ) :
    spd [.tuple l] = .error .typeError ∧ spd [.list l] = .error .typeError ∧
      spd [.int k] = .error .typeError := ⟨rfl, rfl, rfl⟩

/-- **C107, SPD matrices: a size that is not square gives a tensor of another shape**, without complaint. -/
theorem C107_counterexample_spd_shape (hnm : n ≠ m) :
    ∃ t, spd ((B ++ [n, m]).map .int) = .ok t ∧ t.shape ≠ B ++ [n, m] := by
  have hr : Requests ((B ++ [n]).map .int) (B ++ [n]) := .inl ⟨by simp, rfl⟩
  have hd : ((B ++ [n, m]).map PyVal.int).dropLast = (B ++ [n]).map .int := by
    have : B ++ [n, m] = (B ++ [n]) ++ [m] := by simp
    rw [this, List.map_append, List.map_singleton, List.dropLast_concat]
  refine ⟨fresh (B ++ [n] ++ [n]) fun idx =>
      if idx.getD ((B ++ [n]).length - 1) 0 = idx.getD (B ++ [n]).length 0
      then (fresh (B ++ [n]) fun _ => (1 : ℝ)).entry (idx.take (B ++ [n]).length) else 0, ?_, ?_⟩
  · simp only [spd, hd, ones, torchSize_of hr, bind, Except.bind, pure, Except.pure, diagEmbed]
    simp [fresh]
  · simp [fresh, hnm]

/-- **C107, upper half space, the part that holds**: a single matrix, the size given as two integers. -/
theorem C107_upper_partial :
    Returns (upperHalf [.int n, .int n]) [n, n] fun t =>
      OwnsEntries t ∧ Siegel.OnUpperHalf (t.mat n n []) := by
  refine ⟨_, rfl, rfl, owns rfl, ?_⟩
  have hm : (complexOf (fresh [n, n] fun idx => if idx.getD 0 0 = idx.getD 1 0 then 1 else 0)).mat n n [] =
      fun i j => ⟨0, if i = j then 1 else 0⟩ := by
    funext i j
    have hv := valid_two i j
    refine (fresh_entry _ hv).trans ?_
    rw [fresh_entry _ hv]
    simp [Fin.ext_iff]
  rw [hm]
  constructor
  · intro i j
    simp [eq_comm]
  · intro w hw
    have : ∃ i, w i ≠ 0 := by
      by_contra hc
      push Not at hc
      exact hw (funext hc)
    obtain ⟨i, hi⟩ := this
    have e : Siegel.imForm (fun i j : Fin n => (⟨0, if i = j then 1 else 0⟩ : ℂ)) w = ∑ i, w i * w i := by
      simp [Siegel.imForm]
    rw [e]
    exact Finset.sum_pos' (fun j _ => mul_self_nonneg _) ⟨i, Finset.mem_univ i, mul_self_pos.2 hi⟩

/-- **C107, upper half space: nothing else works.**  A tuple or a list is refused; a batch of `k` matrices
comes out as one `k × n` matrix; more batch axes are refused. -/
theorem C107_counterexample_upper (l : List PyVal) (k k' : ℕ) :
    upperHalf [.tuple l] = .error .typeError ∧ upperHalf [.list l] = .error .typeError ∧
    (∃ t, upperHalf [.int k, .int n, .int n] = .ok t ∧ t.shape = [k, n]) ∧
    upperHalf ((B ++ [k, k', n, n]).map .int) = .error .typeError := by
  refine ⟨rfl, rfl, ⟨_, rfl, rfl⟩, ?_⟩
  have hd : ((B ++ [k, k', n, n]).map PyVal.int).dropLast = (B ++ [k, k', n]).map .int := by
    have : B ++ [k, k', n, n] = (B ++ [k, k', n]) ++ [n] := by simp
    rw [this, List.map_append, List.map_singleton, List.dropLast_concat]
  have : ∀ l : List PyVal, 3 ≤ l.length → (eye l : Except PyErr (Ten ℝ)) = .error .typeError := by
    intro l hl
    match l, hl with
    | [_, _, _], _ => simp [eye]
    | _ :: _ :: _ :: _ :: _, _ => simp [eye]
  rw [upperHalf, hd, this _ (by simp)]
  rfl

/-- **C107, bounded domain: a size that is not square is not refused**; the result has the requested shape but is
no point. -/
theorem C107_counterexample_bounded (h : Requests args (B ++ [n, m])) :
    Returns (bounded args) (B ++ [n, m]) fun _ => True := ⟨_, zeros_of h, rfl, trivial⟩

/-! ## Products -/

/-- The row-major buffer of a tensor (what the product sees, `Verif/Model/Buffer.lean`). -/
def toBuf (t : Ten ℝ) : Buf.Tensor ℝ :=
  ⟨t.shape, (List.range t.shape.prod).map fun a => t.entry (unravel t.shape a), by simp⟩

/-- `m` is a manifold whose `origin` is the function `o`; the product passes the size as one tuple
(`geoopt/manifolds/product.py:434-437`). -/
def HasOrigin (m : Product.Manifold) (o : List PyVal → Except PyErr (Ten ℝ)) : Prop :=
  ∀ s seed, m.origin s seed = (o [.tuple (s.map .int)]).map toBuf

/-- **C107, products.** If every component's `origin` meets a request spelled as a tuple, so does that of the
product, and the components of the result are the components' origins. -/
theorem C107_product {ms : List (Product.Manifold × List ℕ)} {P : Product.Prod}
    (h : Product.init ms = .ok P) (hB : B.prod ≠ 0) (seed : Option ℕ)
    (o : Product.Manifold × List ℕ → List PyVal → Except PyErr (Ten ℝ))
    (ho : ∀ m ∈ ms, HasOrigin m.1 (o m) ∧
      Returns (o m [.tuple ((B ++ m.2).map .int)]) (B ++ m.2) fun _ => True) :
    ∃ x, Product.origin P (B ++ [P.nElements]) seed = .ok x ∧ x.shape = B ++ [P.nElements] ∧
      ∀ i m, ms[i]? = some m →
        ∃ t, o m [.tuple ((B ++ m.2).map .int)] = .ok t ∧ Product.take P x i = .ok (toBuf t) := by
  have hs : ∀ m ∈ ms, ∃ r, m.1.origin (B ++ m.2) seed = .ok r ∧ r.shape = B ++ m.2 := by
    intro m hm
    obtain ⟨h1, t, e, hsh, -⟩ := ho m hm
    exact ⟨toBuf t, by rw [h1, e]; rfl, hsh⟩
  obtain ⟨x, e, h1, h2⟩ := C42.sample_spec h B hB (fun m s => m.origin s seed) hs
  refine ⟨x, ?_, h1, fun i m hi => ?_⟩
  · rw [← e]
    simp [Product.origin, Product.checkShape, bind, Except.bind, pure, Except.pure]
  · obtain ⟨g1, t, et, -⟩ := ho m (List.mem_of_getElem? hi)
    refine ⟨t, et, ?_⟩
    rw [h2 i m hi, g1, et]
    rfl

/-- **C107, products with an SPD component have no origin**, whatever the other components, the batch and
the seed. -/
theorem C107_counterexample_product {ms : List (Product.Manifold × List ℕ)} {P : Product.Prod}
    (h : Product.init ms = .ok P) {m : Product.Manifold × List ℕ} (hm : m ∈ ms) (ho : HasOrigin m.1 spd)
    (shape : List ℕ) (seed : Option ℕ) : ∃ e, Product.origin P shape seed = .error e := by
  have hmap : ∀ (ps : List Product.Part) (f : Product.Part → Except PyErr Product.T),
      (∃ p ∈ ps, ∃ e, f p = .error e) → ∃ e, ps.mapM f = .error e := by
    intro ps f
    induction ps with
    | nil => simp
    | cons p ps ih =>
      rintro ⟨q, hq, e, he⟩
      rw [List.mapM_cons]
      rcases List.mem_cons.1 hq with rfl | hq
      · exact ⟨e, by rw [he]; rfl⟩
      · obtain ⟨e', he'⟩ := ih ⟨q, hq, e, he⟩
        cases hp : f p with
        | error e2 => exact ⟨e2, rfl⟩
        | ok r => exact ⟨e', by rw [he']; rfl⟩
  obtain ⟨i, hi⟩ := List.mem_iff_getElem?.1 hm
  obtain ⟨p, hp, hp1, hp2⟩ := C42.part_of h i m hi
  have hpm : p ∈ P.parts := List.mem_of_getElem? hp
  obtain ⟨e, he⟩ := hmap P.parts (fun p => p.man.origin (shape.dropLast ++ p.shape) seed)
    ⟨p, hpm, .typeError, by
      rw [hp1, ho]
      rfl⟩
  cases hc : Product.checkShape P shape with
  | error e' => exact ⟨e', by simp [Product.origin, hc, bind, Except.bind]⟩
  | ok b =>
    cases b with
    | false => exact ⟨.valueError, by
        simp [Product.origin, hc, bind, Except.bind, throw, throwThe, MonadExceptOf.throw]⟩
    | true => exact ⟨e, by simp [Product.origin, hc, bind, Except.bind, pure, Except.pure, he]⟩

/-! ## Concrete requests -/

/-- Five `4 × 2` orthonormal frames, asked for by a tuple. -/
example : Returns (stiefel [.tuple [.int 5, .int 4, .int 2]]) [5, 4, 2] fun t =>
    OwnsEntries t ∧ ∀ b, ValidIdx [5] b → Stiefel.OnStiefel (t.mat 4 2 b) :=
  (C107_stiefel (B := [5]) (n := 4) (m := 2) (.inr (.inl rfl))).1 (by norm_num)

/-- Five points on the hyperboloid in three dimensions, asked for by integers. -/
example : Returns (lorentz 1 [.int 5, .int 3]) [5, 3] fun t =>
    OwnsEntries t ∧ ∀ b, ValidIdx [5] b → Lorentz.OnHyperboloid 1 (t.vec 3 b) :=
  C107_lorentz (B := [5]) (n := 2) one_pos (.inl ⟨by simp, rfl⟩)

/-- Setting an entry of the first of two Birkhoff origins sets it in the second. -/
example : ∃ t, birkhoff [.int 2, .int 3, .int 3] = .ok t ∧ t.entry [1, 0, 1] = 0 ∧
    (t.set [0, 0, 1] 7).entry [1, 0, 1] = 7 ∧ ∀ src, t.copy_ src = .error .runtimeError := by
  have hr : Requests [.int 2, .int 3, .int 3] ([2] ++ [3, 3]) := .inl ⟨by simp, rfl⟩
  obtain ⟨t, e, h1, h2⟩ := C107_counterexample_birkhoff hr
  have v0 : ValidIdx [2] [0] := .cons (by norm_num) .nil
  have v1 : ValidIdx [2] [1] := .cons (by norm_num) .nil
  refine ⟨t, e, ?_, h1 [0] [1] v0 v1 0 1 7, (h2 ⟨2, by simp, by norm_num⟩).1⟩
  obtain ⟨t', e', -, h3, -⟩ := (C107_birkhoff_partial hr).1 rfl
  rw [e] at e'
  cases e'
  have := congrFun (congrFun (h3 [1] v1) 0) 1
  simpa [Ten.mat] using this

end Geoopt.Origin
