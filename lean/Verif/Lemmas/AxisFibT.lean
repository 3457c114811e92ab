import Verif.Lemmas.AxisFibStereo
import Verif.Model.StereoAxisT

/-!
Helper lemmas: the functions of `StereoAxisT`, which take a tensor of curvatures, read along the
manifold axis at one batch position, are the vector functions of `Verif/Model/Stereo.lean` with the
curvature at that position.
-/

namespace Geoopt.AxisFibT
open Geoopt Geoopt.Axis Geoopt.Axis.Tensor Geoopt.AxisFib Matrix
variable {m n r : ℕ}

/-- `i` is an index of `t`, after broadcasting. -/
def InRange (t : Tensor r) (i : Fin r → ℕ) : Prop := ∀ k, t.shape k ≠ 1 → i k < t.shape k

theorem InRange.update {t : Tensor r} {i : Fin r → ℕ} (h : InRange t i) {d : Fin r}
    (hd : t.shape d = 1) (j : ℕ) : InRange t (Function.update i d j) := by
  intro k hk
  have : k ≠ d := fun e => hk (e ▸ hd)
  rw [Function.update_of_ne this]
  exact h k hk

theorem all_get {t : Tensor r} {i : Fin r → ℕ} (h : InRange t i) {p : ℝ → Prop}
    (ha : StereoAxisT.All (t.test p)) : p (t.get i) := by
  have := ha (bidx t.shape i) (fun k => by
    show bidx t.shape i k < t.shape k
    unfold bidx
    split_ifs with h1
    · omega
    · exact h k h1)
  rw [get_test] at this
  have h2 : t.get (bidx t.shape i) = t.get i := by
    unfold Tensor.get
    congr 1
    funext k
    unfold bidx
    split_ifs <;> rfl
  rw [h2] at this
  by_contra hp
  exact this (if_neg hp)

theorem kZero_get (K : Tensor r) (i : Fin r → ℕ) :
    (StereoAxisT.kZero K).get i = 0 ↔ ¬ Stereo.KZero (K.get i) := by
  rw [StereoAxisT.kZero, get_test]
  split_ifs with h <;> simp [h]

theorem kSign_get (K : Tensor r) (i : Fin r → ℕ) :
    (StereoAxisT.kSign K).get i =
      open Classical in if Stereo.KZero (K.get i) then 0 else (SignType.sign (K.get i) : ℝ) := by
  rw [StereoAxisT.kSign, get_map]

theorem inRange_kSign {K : Tensor r} {i : Fin r → ℕ} (h : InRange K i) :
    InRange (StereoAxisT.kSign K) i := h

theorem kSign_neg {K : Tensor r} {i : Fin r → ℕ} (h : (StereoAxisT.kSign K).get i < 0) :
    ¬ Stereo.KZero (K.get i) ∧ K.get i < 0 := by
  rw [kSign_get] at h
  split_ifs at h with hz
  · exact absurd h (lt_irrefl _)
  · refine ⟨hz, ?_⟩
    rcases lt_trichotomy (K.get i) 0 with h1 | h1 | h1
    · exact h1
    · rw [h1, sign_zero] at h; simp at h
    · rw [sign_pos h1] at h; norm_num at h

theorem kSign_pos {K : Tensor r} {i : Fin r → ℕ} :
    0 < (StereoAxisT.kSign K).get i ↔ ¬ Stereo.KZero (K.get i) ∧ ¬ K.get i < 0 := by
  rw [kSign_get]
  split_ifs with hz
  · simp [hz]
  · rcases lt_trichotomy (K.get i) 0 with h1 | h1 | h1
    · rw [sign_neg h1]; simp [h1]
    · exact absurd (by rw [h1]; unfold Stereo.KZero; norm_num) hz
    · rw [sign_pos h1]; simp [hz, h1.le]

/-- The shape of the four trigonometric functions. -/
theorem branch_get (η : ℝ) (K x : Tensor r) (i : Fin r → ℕ) (hi : InRange K i)
    (T T' : ℝ → ℝ → ℝ) (f g g' : ℝ → ℝ)
    (hT : Stereo.KZero (K.get i) → T' (K.get i) (x.get i) = T (K.get i) (x.get i))
    (hg : ¬ Stereo.KZero (K.get i) → ¬ K.get i < 0 →
      g' (x.get i * Stereo.kSqrt η (K.get i)) = g (x.get i * Stereo.kSqrt η (K.get i))) :
    (open Classical in
      if StereoAxisT.All (StereoAxisT.kZero K) then map2 T K x
      else
        if StereoAxisT.All ((StereoAxisT.kSign K).test (· < 0)) then
          (K.map (Stereo.kSqrt η)).map (·⁻¹) * (x * K.map (Stereo.kSqrt η)).map f
        else if StereoAxisT.All ((StereoAxisT.kSign K).test (0 < ·)) then
          (K.map (Stereo.kSqrt η)).map (·⁻¹) * (x * K.map (Stereo.kSqrt η)).map g
        else
          whr (StereoAxisT.kZero K) (map2 T' K x)
            (whr ((StereoAxisT.kSign K).test (0 < ·)) ((x * K.map (Stereo.kSqrt η)).map g')
              ((x * K.map (Stereo.kSqrt η)).map f) * (K.map (Stereo.kSqrt η)).map (·⁻¹))).get i =
      if Stereo.KZero (K.get i) then T (K.get i) (x.get i)
      else if K.get i < 0 then
        (Stereo.kSqrt η (K.get i))⁻¹ * f (x.get i * Stereo.kSqrt η (K.get i))
      else (Stereo.kSqrt η (K.get i))⁻¹ * g (x.get i * Stereo.kSqrt η (K.get i)) := by
  by_cases h1 : StereoAxisT.All (StereoAxisT.kZero K)
  · rw [if_pos h1, if_pos (all_get hi h1), get_map2]
  rw [if_neg h1]
  by_cases h2 : StereoAxisT.All ((StereoAxisT.kSign K).test (· < 0))
  · have h3 := kSign_neg (all_get (inRange_kSign hi) h2)
    rw [if_pos h2, if_neg h3.1, if_pos h3.2]
    simp only [get_mul, get_map]
  rw [if_neg h2]
  by_cases h3 : StereoAxisT.All ((StereoAxisT.kSign K).test (0 < ·))
  · have h4 := kSign_pos.1 (all_get (inRange_kSign hi) h3)
    rw [if_pos h3, if_neg h4.1, if_neg h4.2]
    simp only [get_mul, get_map]
  rw [if_neg h3, get_whr]
  by_cases h4 : Stereo.KZero (K.get i)
  · rw [if_pos h4, if_neg (fun h => (kZero_get K i).1 h h4), get_map2, hT h4]
  rw [if_neg h4, if_pos ((kZero_get K i).2 h4), get_mul, get_whr, get_test]
  by_cases h5 : K.get i < 0
  · rw [if_pos h5, if_neg (fun h => (kSign_pos.1 h).2 h5), if_pos rfl]
    simp only [get_mul, get_map]
    ring
  · rw [if_neg h5, if_pos (kSign_pos.2 ⟨h4, h5⟩), if_neg one_ne_zero]
    simp only [get_mul, get_map, hg h4 h5]
    ring

theorem tanK_get (η : ℝ) (K x : Tensor r) (i : Fin r → ℕ) (hi : InRange K i) :
    (StereoAxisT.tanK η K x).get i = Stereo.tanK η (K.get i) (x.get i) :=
  branch_get η K x i hi _ _ _ _ _ (fun _ => rfl) (fun _ _ => rfl)

theorem artanK_get (η : ℝ) (K x : Tensor r) (i : Fin r → ℕ) (hi : InRange K i) :
    (StereoAxisT.artanK η K x).get i = Stereo.artanK η (K.get i) (x.get i) :=
  branch_get η K x i hi _ _ _ _ _ (fun _ => rfl) (fun _ _ => rfl)

theorem arsinK_get (η : ℝ) (K x : Tensor r) (i : Fin r → ℕ) (hi : InRange K i)
    (h0 : Stereo.KZero (K.get i) → K.get i = 0)
    (h1 : 0 < K.get i → |x.get i * Stereo.kSqrt η (K.get i)| ≤ 1 - 1e-7) :
    (StereoAxisT.arsinK η K x).get i = Stereo.arsinK η (K.get i) (x.get i) := by
  refine branch_get η K x i hi _ _ _ _ _ (fun h => ?_) (fun hz hn => ?_)
  · simp [StereoAxisT.arsinKTaylor1, Stereo.arsinKTaylor, h0 h, Stereo.absZeroGrad]
  · have hp : 0 < K.get i := lt_of_le_of_ne (not_lt.1 hn) (fun e => hz (by
      rw [← e]; unfold Stereo.KZero; norm_num))
    have h2 := abs_le.1 (h1 hp)
    have : clamp (-1 + 1e-7) (1 - 1e-7) (x.get i * Stereo.kSqrt η (K.get i)) =
        x.get i * Stereo.kSqrt η (K.get i) := by
      unfold clamp
      rw [max_eq_left (by linarith [h2.1]), min_eq_left (by linarith [h2.2])]
    show Real.arcsin _ = _
    rw [this]

/-- The curvatures are all close to zero, all negative, or all positive. -/
def OneSign (K : Tensor r) : Prop :=
  (∀ i, InRange K i → Stereo.KZero (K.get i)) ∨
  (∀ i, InRange K i → ¬ Stereo.KZero (K.get i) ∧ K.get i < 0) ∨
  (∀ i, InRange K i → ¬ Stereo.KZero (K.get i) ∧ 0 < K.get i)

theorem inRange_of_lt {t : Tensor r} {i : Fin r → ℕ} (h : ∀ k, i k < t.shape k) : InRange t i :=
  fun k _ => h k

theorem arsinK_get_oneSign (η : ℝ) (K x : Tensor r) (i : Fin r → ℕ) (hi : InRange K i)
    (hK : OneSign K) :
    (StereoAxisT.arsinK η K x).get i = Stereo.arsinK η (K.get i) (x.get i) := by
  rcases hK with h | h | h
  · have h1 : StereoAxisT.All (StereoAxisT.kZero K) := by
      intro j hj e
      exact (kZero_get K j).1 e (h j (inRange_of_lt hj))
    simp only [StereoAxisT.arsinK, Stereo.arsinK]
    rw [if_pos h1, if_pos (h i hi), get_map2]
  · have h1 : ¬ StereoAxisT.All (StereoAxisT.kZero K) := fun ha => (h i hi).1 (all_get hi ha)
    have h2 : StereoAxisT.All ((StereoAxisT.kSign K).test (· < 0)) := by
      intro j hj
      have := h j (inRange_of_lt hj)
      rw [get_test, kSign_get, if_neg this.1, sign_neg this.2, if_pos (by norm_num)]
      exact one_ne_zero
    simp only [StereoAxisT.arsinK, Stereo.arsinK]
    rw [if_neg h1, if_pos h2, if_neg (h i hi).1, if_pos (h i hi).2]
    simp only [get_mul, get_map]
  · have h1 : ¬ StereoAxisT.All (StereoAxisT.kZero K) := fun ha => (h i hi).1 (all_get hi ha)
    have h2 : ¬ StereoAxisT.All ((StereoAxisT.kSign K).test (· < 0)) := fun ha =>
      absurd (kSign_neg (all_get (inRange_kSign hi) ha)).2 (h i hi).2.not_gt
    have h3 : StereoAxisT.All ((StereoAxisT.kSign K).test (0 < ·)) := by
      intro j hj
      have := h j (inRange_of_lt hj)
      rw [get_test, kSign_get, if_neg this.1, sign_pos this.2, if_pos (by norm_num)]
      exact one_ne_zero
    simp only [StereoAxisT.arsinK, Stereo.arsinK]
    rw [if_neg h1, if_neg h2, if_pos h3, if_neg (h i hi).1, if_neg (h i hi).2.not_gt]
    simp only [get_mul, get_map]

theorem shape_whr (c a b : Tensor r) (j : Fin r) :
    (whr c a b).shape j = bsize (c.shape j) (bsize (a.shape j) (b.shape j)) := rfl

theorem shape_test (p : ℝ → Prop) (a : Tensor r) (j : Fin r) :
    (a.test p).shape j = a.shape j := rfl

theorem branch_shape (η : ℝ) (K x : Tensor r) (T T' : ℝ → ℝ → ℝ) (f g g' : ℝ → ℝ) (j : Fin r) :
    (open Classical in
      if StereoAxisT.All (StereoAxisT.kZero K) then map2 T K x
      else
        if StereoAxisT.All ((StereoAxisT.kSign K).test (· < 0)) then
          (K.map (Stereo.kSqrt η)).map (·⁻¹) * (x * K.map (Stereo.kSqrt η)).map f
        else if StereoAxisT.All ((StereoAxisT.kSign K).test (0 < ·)) then
          (K.map (Stereo.kSqrt η)).map (·⁻¹) * (x * K.map (Stereo.kSqrt η)).map g
        else
          whr (StereoAxisT.kZero K) (map2 T' K x)
            (whr ((StereoAxisT.kSign K).test (0 < ·)) ((x * K.map (Stereo.kSqrt η)).map g')
              ((x * K.map (Stereo.kSqrt η)).map f) *
                (K.map (Stereo.kSqrt η)).map (·⁻¹))).shape j =
      bsize (K.shape j) (x.shape j) := by
  have e1 : (StereoAxisT.kZero K).shape = K.shape := rfl
  have e2 : (StereoAxisT.kSign K).shape = K.shape := rfl
  split_ifs
  · rfl
  all_goals
    simp only [shape_mul, shape_map, shape_map2, shape_whr, shape_test, e1, e2]
    try (unfold bsize; split_ifs <;> first | rfl | omega)

theorem shape_tanK (η : ℝ) (K x : Tensor r) (j : Fin r) :
    (StereoAxisT.tanK η K x).shape j = bsize (K.shape j) (x.shape j) :=
  branch_shape η K x _ _ _ _ _ j

theorem shape_artanK (η : ℝ) (K x : Tensor r) (j : Fin r) :
    (StereoAxisT.artanK η K x).shape j = bsize (K.shape j) (x.shape j) :=
  branch_shape η K x _ _ _ _ _ j


theorem cmp_shape (p : ℝ → ℝ → Prop) (a b : Tensor (m + 1)) (j : Fin (m + 1)) :
    (cmp p a b).shape j = bsize (a.shape j) (b.shape j) := rfl

/-- `arsin_k` when the curvatures are neither all close to zero, nor all negative, nor all
positive. -/
theorem arsinK_get_mixed (η : ℝ) (K x : Tensor r) (i : Fin r → ℕ)
    (h1 : ∃ j, InRange K j ∧ ¬ Stereo.KZero (K.get j))
    (h2 : ∃ j, InRange K j ∧ (Stereo.KZero (K.get j) ∨ 0 ≤ K.get j))
    (h3 : ∃ j, InRange K j ∧ (Stereo.KZero (K.get j) ∨ K.get j ≤ 0)) :
    (StereoAxisT.arsinK η K x).get i =
      if Stereo.KZero (K.get i) then StereoAxisT.arsinKTaylor1 (K.get i) (x.get i)
      else if K.get i < 0 then
        (Stereo.kSqrt η (K.get i))⁻¹ * Stereo.arsinhC (x.get i * Stereo.kSqrt η (K.get i))
      else (Stereo.kSqrt η (K.get i))⁻¹ *
        Real.arcsin (clamp (-1 + 1e-7) (1 - 1e-7) (x.get i * Stereo.kSqrt η (K.get i))) := by
  obtain ⟨j1, r1, h1⟩ := h1
  obtain ⟨j2, r2, h2⟩ := h2
  obtain ⟨j3, r3, h3⟩ := h3
  have e1 : ¬ StereoAxisT.All (StereoAxisT.kZero K) := fun ha => h1 (all_get r1 ha)
  have e2 : ¬ StereoAxisT.All ((StereoAxisT.kSign K).test (· < 0)) := fun ha => by
    have := kSign_neg (all_get (inRange_kSign r2) ha)
    rcases h2 with h2 | h2
    · exact this.1 h2
    · linarith [this.2]
  have e3 : ¬ StereoAxisT.All ((StereoAxisT.kSign K).test (0 < ·)) := fun ha => by
    have := kSign_pos.1 (all_get (inRange_kSign r3) ha)
    rcases h3 with h3 | h3
    · exact this.1 h3
    · refine this.1 ?_
      rw [le_antisymm h3 (not_lt.1 this.2)]; unfold Stereo.KZero; norm_num
  simp only [StereoAxisT.arsinK]
  rw [if_neg e1, if_neg e2, if_neg e3, get_whr]
  by_cases h4 : Stereo.KZero (K.get i)
  · rw [if_pos h4, if_neg (fun h => (kZero_get K i).1 h h4), get_map2]
  rw [if_neg h4, if_pos ((kZero_get K i).2 h4), get_mul, get_whr, get_test]
  by_cases h5 : K.get i < 0
  · rw [if_pos h5, if_neg (fun h => (kSign_pos.1 h).2 h5), if_pos rfl]
    simp only [get_mul, get_map]
    ring
  · rw [if_neg h5, if_pos (kSign_pos.2 ⟨h4, h5⟩), if_neg one_ne_zero]
    simp only [get_mul, get_map]
    ring

theorem shape_arsinK (η : ℝ) (K x : Tensor r) (j : Fin r) :
    (StereoAxisT.arsinK η K x).shape j = bsize (K.shape j) (x.shape j) :=
  branch_shape η K x _ _ _ _ _ j

section ops
variable (d : Fin (m + 1)) (η : ℝ) (K : Tensor (m + 1)) (hK : K.shape d = 1)
include hK

theorem lambdaXK_get (x : Tensor (m + 1)) (hx : x.shape d = n) (i : Fin (m + 1) → ℕ) :
    (StereoAxisT.lambdaXK d K x).get i = Stereo.lambdaX (K.get i) (x.fib d n i) := by
  rw [StereoAxisT.lambdaXK, get_map, get_mul, sq_get d x hx]; rfl

theorem shape_lambdaXK (x : Tensor (m + 1)) :
    (StereoAxisT.lambdaXK d K x).shape d = 1 := by
  rw [StereoAxisT.lambdaXK, shape_map, shape_mul, hK, bsize_one_left, shape_sumK, if_pos rfl]

theorem innerK_get (x u v : Tensor (m + 1)) (hx : x.shape d = n) (hu : u.shape d = n)
    (hv : v.shape d = n) (i : Fin (m + 1) → ℕ) :
    (StereoAxisT.innerK d K x u v).get i =
      Stereo.inner (K.get i) (x.fib d n i) (u.fib d n i) (v.fib d n i) := by
  rw [StereoAxisT.innerK, get_mul, get_map, lambdaXK_get d K hK x hx, dot_get d u v hu hv]; rfl

theorem normK_get (x u : Tensor (m + 1)) (hx : x.shape d = n) (hu : u.shape d = n)
    (i : Fin (m + 1) → ℕ) :
    (StereoAxisT.normK d K x u).get i = Stereo.norm (K.get i) (x.fib d n i) (u.fib d n i) := by
  rw [StereoAxisT.normK, get_mul, lambdaXK_get d K hK x hx, nrm_get d u hu]; rfl

theorem mobiusAdd_fib (x y : Tensor (m + 1)) (hx : x.shape d = n) (hy : y.shape d = n)
    (i : Fin (m + 1) → ℕ) :
    (StereoAxisT.mobiusAdd d K x y).fib d n i =
      Stereo.mobiusAdd (K.get i) (x.fib d n i) (y.fib d n i) := by
  funext j
  simp only [StereoAxisT.mobiusAdd, fib_apply, get_div, get_add, get_sub, get_mul, get_map,
    sq_get d x hx, sq_get d y hy, dot_get d x y hx hy, fib_update, get_update_one d K hK]
  simp only [Stereo.mobiusAdd, Stereo.mobDenom, Pi.smul_apply, Pi.add_apply, smul_eq_mul,
    fib_apply]
  ring

theorem shape_mobiusAdd (x y : Tensor (m + 1)) (hx : x.shape d = n) (hy : y.shape d = n) :
    (StereoAxisT.mobiusAdd d K x y).shape d = n := by
  simp only [StereoAxisT.mobiusAdd, shape_div, shape_add, shape_sub, shape_mul, shape_map,
    shape_sumK, hK, hx, hy, if_true]
  unfold bsize
  split_ifs <;> first | rfl | omega

theorem gyration_fib (u v w : Tensor (m + 1)) (hu : u.shape d = n) (hv : v.shape d = n)
    (hw : w.shape d = n) (i : Fin (m + 1) → ℕ) :
    (StereoAxisT.gyration d K u v w).fib d n i =
      Stereo.gyration (K.get i) (u.fib d n i) (v.fib d n i) (w.fib d n i) := by
  funext j
  simp only [StereoAxisT.gyration, fib_apply, get_div, get_add, get_sub, get_mul, get_map,
    get_neg, sq_get d u hu, sq_get d v hv, dot_get d u v hu hv, dot_get d u w hu hw,
    dot_get d v w hv hw, fib_update, get_update_one d K hK]
  simp only [Stereo.gyration, Pi.smul_apply, Pi.add_apply, smul_eq_mul, fib_apply]
  ring

theorem shape_gyration (u v w : Tensor (m + 1)) (hu : u.shape d = n) (hv : v.shape d = n)
    (hw : w.shape d = n) : (StereoAxisT.gyration d K u v w).shape d = n := by
  simp only [StereoAxisT.gyration, shape_div, shape_add, shape_sub, shape_mul, shape_map,
    shape_neg, shape_sumK, if_true, hu, hv, hw, hK]
  unfold bsize
  split_ifs <;> first | rfl | omega

theorem mobiusCoadd_fib (x y : Tensor (m + 1)) (hx : x.shape d = n) (hy : y.shape d = n)
    (i : Fin (m + 1) → ℕ) :
    (StereoAxisT.mobiusCoadd d K x y).fib d n i =
      Stereo.mobiusCoadd (K.get i) (x.fib d n i) (y.fib d n i) := by
  rw [StereoAxisT.mobiusCoadd,
    mobiusAdd_fib d K hK _ _ hx (shape_gyration d K hK x (-y) y hx hy hy),
    gyration_fib d K hK x (-y) y hx hy hy]; rfl

theorem mobiusScalarMul_fib (t x : Tensor (m + 1)) (ht : t.shape d = 1) (hx : x.shape d = n)
    (i : Fin (m + 1) → ℕ) (hi : InRange K i) :
    (StereoAxisT.mobiusScalarMul d η K t x).fib d n i =
      Stereo.mobiusScalarMul η (K.get i) (t.get i) (x.fib d n i) := by
  funext j
  have hi' := hi.update hK (j : ℕ)
  simp only [StereoAxisT.mobiusScalarMul, fib_apply, get_div, get_mul, tanK_get η K _ _ hi',
    artanK_get η K _ _ hi', cnorm_get d x hx, fib_update, get_update_one d t ht,
    get_update_one d K hK]
  simp only [Stereo.mobiusScalarMul, Pi.smul_apply, smul_eq_mul, fib_apply]
  ring

theorem shape_mobiusScalarMul (t x : Tensor (m + 1)) (ht : t.shape d = 1) (hx : x.shape d = n) :
    (StereoAxisT.mobiusScalarMul d η K t x).shape d = n := by
  simp only [StereoAxisT.mobiusScalarMul, shape_div, shape_mul, shape_tanK, shape_artanK,
    shape_cnorm, if_true, ht, hx, hK, bsize_one_left, bsize_one_right]

theorem distK_get (x y : Tensor (m + 1)) (hx : x.shape d = n) (hy : y.shape d = n)
    (i : Fin (m + 1) → ℕ) (hi : InRange K i) :
    (StereoAxisT.distK d η K x y).get i =
      Stereo.dist η (K.get i) (x.fib d n i) (y.fib d n i) := by
  rw [StereoAxisT.distK, get_map, artanK_get η K _ _ hi,
    nrm_get d _ (shape_mobiusAdd d K hK (-x) y hx hy), mobiusAdd_fib d K hK (-x) y hx hy]; rfl

theorem dist0K_get (x : Tensor (m + 1)) (hx : x.shape d = n) (i : Fin (m + 1) → ℕ)
    (hi : InRange K i) :
    (StereoAxisT.dist0K d η K x).get i = Stereo.dist0 η (K.get i) (x.fib d n i) := by
  rw [StereoAxisT.dist0K, get_map, artanK_get η K _ _ hi, nrm_get d x hx]; rfl

theorem geodesic_fib (t x y : Tensor (m + 1)) (ht : t.shape d = 1) (hx : x.shape d = n)
    (hy : y.shape d = n) (i : Fin (m + 1) → ℕ) (hi : InRange K i) :
    (StereoAxisT.geodesic d η K t x y).fib d n i =
      Stereo.geodesic η (K.get i) (t.get i) (x.fib d n i) (y.fib d n i) := by
  have h1 := shape_mobiusAdd d K hK (-x) y hx hy
  rw [StereoAxisT.geodesic,
    mobiusAdd_fib d K hK _ _ hx (shape_mobiusScalarMul d η K hK t _ ht h1),
    mobiusScalarMul_fib d η K hK t _ ht h1 i hi, mobiusAdd_fib d K hK (-x) y hx hy]; rfl

theorem expmap_fib (x u : Tensor (m + 1)) (hx : x.shape d = n) (hu : u.shape d = n)
    (i : Fin (m + 1) → ℕ) (hi : InRange K i) :
    (StereoAxisT.expmap d η K x u).fib d n i =
      Stereo.expmap η (K.get i) (x.fib d n i) (u.fib d n i) := by
  simp only [StereoAxisT.expmap]
  rw [mobiusAdd_fib d K hK _ _ hx (by
    simp only [shape_div, shape_mul, shape_map, shape_cnorm, shape_tanK,
      shape_lambdaXK d K hK, if_true, hu, hK, bsize_one_left, bsize_one_right])]
  simp only [Stereo.expmap]
  congr 1
  funext j
  have hi' := hi.update hK (j : ℕ)
  simp only [fib_apply, get_mul, get_div, get_map, tanK_get η K _ _ hi', cnorm_get d u hu,
    lambdaXK_get d K hK x hx, fib_update, get_update_one d K hK, Pi.smul_apply, smul_eq_mul]
  ring

theorem expmap0_fib (u : Tensor (m + 1)) (hu : u.shape d = n) (i : Fin (m + 1) → ℕ)
    (hi : InRange K i) :
    (StereoAxisT.expmap0 d η K u).fib d n i = Stereo.expmap0 η (K.get i) (u.fib d n i) := by
  funext j
  have hi' := hi.update hK (j : ℕ)
  simp only [StereoAxisT.expmap0, Stereo.expmap0, fib_apply, get_mul, get_div,
    tanK_get η K _ _ hi', cnorm_get d u hu, fib_update, get_update_one d K hK, Pi.smul_apply,
    smul_eq_mul]
  ring

theorem geodesicUnit_fib (t x u : Tensor (m + 1)) (ht : t.shape d = 1) (hx : x.shape d = n)
    (hu : u.shape d = n) (i : Fin (m + 1) → ℕ) (hi : InRange K i) :
    (StereoAxisT.geodesicUnit d η K t x u).fib d n i =
      Stereo.geodesicUnit η (K.get i) (t.get i) (x.fib d n i) (u.fib d n i) := by
  simp only [StereoAxisT.geodesicUnit]
  rw [mobiusAdd_fib d K hK _ _ hx (by
    simp only [shape_div, shape_mul, shape_map, shape_tanK, shape_cnorm, if_true, hu, ht, hK,
      bsize_one_left, bsize_one_right])]
  simp only [Stereo.geodesicUnit]
  congr 1
  funext j
  have hi' := hi.update hK (j : ℕ)
  simp only [fib_apply, get_mul, get_div, get_map, tanK_get η K _ _ hi', cnorm_get d u hu,
    get_update_one d t ht, get_update_one d K hK, fib_update, Pi.smul_apply, smul_eq_mul]
  congr 1
  exact div_eq_inv_mul _ _

theorem logmap_fib (x y : Tensor (m + 1)) (hx : x.shape d = n) (hy : y.shape d = n)
    (i : Fin (m + 1) → ℕ) (hi : InRange K i) :
    (StereoAxisT.logmap d η K x y).fib d n i =
      Stereo.logmap η (K.get i) (x.fib d n i) (y.fib d n i) := by
  have h1 := shape_mobiusAdd d K hK (-x) y hx hy
  funext j
  have hi' := hi.update hK (j : ℕ)
  have h2 := congrFun (mobiusAdd_fib d K hK (-x) y hx hy i) j
  rw [fib_apply] at h2
  simp only [StereoAxisT.logmap, Stereo.logmap, fib_apply, get_mul, get_div, get_map,
    artanK_get η K _ _ hi', cnorm_get d _ h1, lambdaXK_get d K hK x hx, fib_update,
    get_update_one d K hK, Pi.smul_apply, smul_eq_mul, h2, mobiusAdd_fib d K hK (-x) y hx hy,
    fib_neg]
  congr 1
  exact div_eq_inv_mul _ _

theorem logmap0_fib (y : Tensor (m + 1)) (hy : y.shape d = n) (i : Fin (m + 1) → ℕ)
    (hi : InRange K i) :
    (StereoAxisT.logmap0 d η K y).fib d n i = Stereo.logmap0 η (K.get i) (y.fib d n i) := by
  funext j
  have hi' := hi.update hK (j : ℕ)
  simp only [StereoAxisT.logmap0, Stereo.logmap0, fib_apply, get_mul, get_div,
    artanK_get η K _ _ hi', cnorm_get d y hy, fib_update, get_update_one d K hK, Pi.smul_apply,
    smul_eq_mul]
  ring

theorem project_fib (dt : DType) (x : Tensor (m + 1)) (hx : x.shape d = n)
    (i : Fin (m + 1) → ℕ) :
    (StereoAxisT.project d η dt K x).fib d n i =
      Stereo.project η dt (K.get i) (x.fib d n i) := by
  funext j
  have hc : ∀ i, (⟨fun _ => 1, fun _ => 1e15⟩ : Tensor (m + 1)).get i = 1e15 := fun _ => rfl
  have hm : ∀ i, (whr (K.test (· < 0))
      (K.map fun k => (1 - Stereo.projEps dt) / (sabs η k) ^ (0.5 : ℝ))
      ⟨fun _ => 1, fun _ => 1e15⟩).get i = Stereo.maxNorm η dt (K.get i) := by
    intro i
    rw [get_whr, get_test, hc, get_map, Stereo.maxNorm]
    by_cases h : K.get i < 0
    · rw [if_pos h, if_pos h, if_neg one_ne_zero]
    · rw [if_neg h, if_neg h, if_pos rfl]
  simp only [StereoAxisT.project, Stereo.project, fib_apply]
  rw [get_whr, get_cmp, get_mul, get_div, hm, cnorm_get d x hx, fib_update,
    get_update_one d K hK]
  by_cases h : max (nrm (x.fib d n i)) 1e-15 > Stereo.maxNorm η dt (K.get i)
  · rw [if_pos h, if_pos h, if_neg one_ne_zero]
    simp only [Pi.smul_apply, smul_eq_mul, fib_apply]
    ring
  · rw [if_neg h, if_neg h, if_pos rfl]
    rfl

theorem transp_fib (x y u : Tensor (m + 1)) (hx : x.shape d = n) (hy : y.shape d = n)
    (hu : u.shape d = n) (i : Fin (m + 1) → ℕ) :
    (StereoAxisT.transp d K x y u).fib d n i =
      Stereo.transp (K.get i) (x.fib d n i) (y.fib d n i) (u.fib d n i) := by
  funext j
  have h2 := congrFun (gyration_fib d K hK y (-x) u hy hx hu i) j
  rw [fib_apply] at h2
  simp only [StereoAxisT.transp, Stereo.transp, fib_apply, get_mul, get_div,
    lambdaXK_get d K hK x hx, lambdaXK_get d K hK y hy, fib_update, get_update_one d K hK, h2,
    fib_neg, Pi.smul_apply, smul_eq_mul]
  ring

theorem transp0_fib (y v : Tensor (m + 1)) (hy : y.shape d = n) (i : Fin (m + 1) → ℕ) :
    (StereoAxisT.transp0 d K y v).fib d n i =
      Stereo.transp0 (K.get i) (y.fib d n i) (v.fib d n i) := by
  funext j
  simp only [StereoAxisT.transp0, Stereo.transp0, fib_apply, get_mul, get_map, sq_get d y hy,
    fib_update, get_update_one d K hK, Pi.smul_apply, smul_eq_mul]
  ring

theorem transp0back_fib (x v : Tensor (m + 1)) (hx : x.shape d = n) (i : Fin (m + 1) → ℕ) :
    (StereoAxisT.transp0back d K x v).fib d n i =
      Stereo.transp0back (K.get i) (x.fib d n i) (v.fib d n i) := by
  funext j
  simp only [StereoAxisT.transp0back, Stereo.transp0back, fib_apply, get_div, get_mul, get_map,
    sq_get d x hx, fib_update, get_update_one d K hK, Pi.smul_apply, smul_eq_mul]
  ring

theorem egrad2rgrad_fib (x g : Tensor (m + 1)) (hx : x.shape d = n) (i : Fin (m + 1) → ℕ) :
    (StereoAxisT.egrad2rgrad d K x g).fib d n i =
      Stereo.egrad2rgrad (K.get i) (x.fib d n i) (g.fib d n i) := by
  funext j
  simp only [StereoAxisT.egrad2rgrad, Stereo.egrad2rgrad, fib_apply, get_div, get_map,
    lambdaXK_get d K hK x hx, fib_update, get_update_one d K hK, Pi.smul_apply, smul_eq_mul]
  ring

theorem antipode_fib (x : Tensor (m + 1)) (hx : x.shape d = n) (i : Fin (m + 1) → ℕ)
    (hi : InRange K i) :
    (StereoAxisT.antipode d η K x).fib d n i = Stereo.antipode η (K.get i) (x.fib d n i) := by
  simp only [StereoAxisT.antipode, Stereo.antipode]
  by_cases h : StereoAxisT.All (K.test (· ≤ 0))
  · rw [if_pos h, if_pos (all_get hi h)]; rfl
  rw [if_neg h]
  funext j
  rw [fib_apply, get_whr, get_test, get_update_one d K hK]
  by_cases h0 : K.get i ≤ 0
  · rw [if_pos h0, if_neg (not_lt.2 h0), if_pos rfl]; rfl
  · rw [if_neg h0, if_pos (not_le.1 h0), if_neg one_ne_zero]
    have h1 : (x / StereoAxis.cnorm d x).shape d = n := by
      simp only [shape_div, shape_cnorm, if_true, hx, bsize_one_right]
    have h2 : (x / StereoAxis.cnorm d x).fib d n i =
        (max (nrm (x.fib d n i)) 1e-15)⁻¹ • x.fib d n i := by
      funext j
      simp only [fib_apply, get_div, cnorm_get d x hx, fib_update, Pi.smul_apply, smul_eq_mul]
      ring
    have h3 := congrFun (geodesicUnit_fib d η K hK
      ((K.map fun k => (Stereo.kSqrt η k)⁻¹).map (Stereo.piLit * ·)) x _ hK hx h1 i hi) j
    rw [fib_apply] at h3
    rw [h3, h2]; rfl

theorem mobiusPointwiseMul_fib (w x : Tensor (m + 1)) (hw : w.shape d = n) (hx : x.shape d = n)
    (i : Fin (m + 1) → ℕ) (hi : InRange K i) :
    (StereoAxisT.mobiusPointwiseMul d η K w x).fib d n i =
      Stereo.mobiusPointwiseMul η (K.get i) (w.fib d n i) (x.fib d n i) := by
  have h1 : (w * x).shape d = n := by rw [shape_mul, hw, hx, bsize_self]
  have h2 : ∀ i, (w * x).fib d n i = fun j => w.fib d n i j * x.fib d n i j := by
    intro i; funext j; rw [fib_apply, get_mul]; rfl
  funext j
  have hi' := hi.update hK (j : ℕ)
  have h3 := prodK_test_get d (fun a => |a| ≤ 1e-8) (w * x) h1 (Function.update i d (j : ℕ))
  rw [fib_update, h2] at h3
  rw [fib_apply]
  simp only [StereoAxisT.mobiusPointwiseMul, Stereo.mobiusPointwiseMul, get_whr]
  by_cases h : ∀ j, |w.fib d n i j * x.fib d n i j| ≤ 1e-8
  · rw [if_neg (h3.2 h), if_pos (by exact h)]; rfl
  · rw [if_pos (by by_contra hc; exact h (h3.1 hc)), if_neg (by exact h)]
    simp only [get_mul, get_div, tanK_get η K _ _ hi', artanK_get η K _ _ hi', cnorm_get d x hx,
      cnorm_get d _ h1, h2, fib_update, get_update_one d K hK, Pi.smul_apply, smul_eq_mul]
    simp only [fib_apply]
    ring

/-- The argument of `arsin_k` in `dist2plane` for one curvature. -/
noncomputable def planeArg {n : ℕ} (k : ℝ) (x a p : Vec n) (signed : Bool) : ℝ :=
  2.0 * (if signed then Stereo.mobiusAdd k (-p) x ⬝ᵥ a else |Stereo.mobiusAdd k (-p) x ⬝ᵥ a|) /
    clampAbs 1e-15 ((1 + k * max (Stereo.mobiusAdd k (-p) x ⬝ᵥ Stereo.mobiusAdd k (-p) x) 1e-15) *
      nrm a)

theorem dist2planeK_arg (x a p : Tensor (m + 1)) (hx : x.shape d = n) (ha : a.shape d = n)
    (hp : p.shape d = n) (signed scaled : Bool) :
    ∃ t : Tensor (m + 1), t.shape d = 1 ∧
      (∀ i, t.get i = planeArg (K.get i) (x.fib d n i) (a.fib d n i) (p.fib d n i) signed) ∧
      (StereoAxisT.dist2planeK d η K x a p signed scaled).shape d = 1 ∧
      ∀ i, (StereoAxisT.dist2planeK d η K x a p signed scaled).get i =
        (StereoAxisT.arsinK η K t).get i * (if scaled then nrm (a.fib d n i) else 1) := by
  have h1 := shape_mobiusAdd d K hK (-p) x hp hx
  have h2 : ∀ i, (StereoAxisT.mobiusAdd d K (-p) x).fib d n i =
      Stereo.mobiusAdd (K.get i) (-p.fib d n i) (x.fib d n i) := mobiusAdd_fib d K hK (-p) x hp hx
  refine ⟨((if signed then (StereoAxisT.mobiusAdd d K (-p) x * a).sumK d
      else ((StereoAxisT.mobiusAdd d K (-p) x * a).sumK d).map fun a => |a|).map (2.0 * ·)) /
      ((K * ((((StereoAxisT.mobiusAdd d K (-p) x).map (· ^ 2)).sumK d).map
        fun a => max a 1e-15)).map (1 + ·) * a.normK d).map (clampAbs 1e-15), ?_, ?_, ?_, ?_⟩
  · cases signed <;> simp only [shape_div, shape_map, shape_mul, shape_sumK, shape_normK, hK,
      if_true, bsize_self, Bool.false_eq_true, if_false]
  · intro i
    cases signed <;>
    simp only [planeArg, get_map, get_mul, get_div, sq_get d _ h1, dot_get d _ a h1 ha,
      nrm_get d a ha, h2, if_true, Bool.false_eq_true, if_false]
  · cases signed <;> cases scaled <;>
    simp only [StereoAxisT.dist2planeK, shape_arsinK, shape_div, shape_map, shape_mul,
      shape_sumK, shape_normK, hK, if_true, bsize_self, Bool.false_eq_true, if_false]
  · intro i
    cases scaled
    · simp only [StereoAxisT.dist2planeK, Bool.false_eq_true, if_false, mul_one]
    · simp only [StereoAxisT.dist2planeK, if_true, get_mul, nrm_get d a ha]

omit hK in
theorem dist2plane_eq (k : ℝ) (x a p : Vec n) (signed scaled : Bool) :
    Stereo.dist2plane η k x a p signed scaled =
      Stereo.arsinK η k (planeArg k x a p signed) * (if scaled then nrm a else 1) := by
  cases signed <;> cases scaled <;>
    simp only [Stereo.dist2plane, planeArg, if_true, Bool.false_eq_true, if_false, mul_one]

theorem sproj_fib (x : Tensor (m + 1)) (hx : x.shape d = n + 1) (i : Fin (m + 1) → ℕ) :
    (StereoAxisT.sproj d η K x).fib d n i =
      Stereo.sproj η (K.get i) (x.fib d (n + 1) i) := by
  funext j
  have hj := j.2
  simp only [StereoAxisT.sproj, Stereo.sproj, fib_apply, get_mul, get_map,
    get_update_one d K hK]
  rw [get_narrow_one _ _ _ (by omega), get_narrow _ _ _ _ _ (by simp [hx]) (by omega), hx]
  simp [fib]

theorem shape_sproj (x : Tensor (m + 1)) (hx : x.shape d = n + 1) :
    (StereoAxisT.sproj d η K x).shape d = n := by
  simp [StereoAxisT.sproj, shape_mul, shape_map, shape_narrow, hK, hx, bsize_one_left]

theorem shape_invSproj (x : Tensor (m + 1)) (hx : x.shape d = n) :
    (StereoAxisT.invSproj d η K x).shape d = n + 1 := by
  simp [StereoAxisT.invSproj, cat, shape_mul, shape_map, shape_lambdaXK d K hK, hK, hx,
    bsize_one_left]

theorem invSproj_fib (x : Tensor (m + 1)) (hx : x.shape d = n) (i : Fin (m + 1) → ℕ) :
    (StereoAxisT.invSproj d η K x).fib d (n + 1) i =
      Stereo.invSproj η (K.get i) (x.fib d n i) := by
  have hl := shape_lambdaXK d K hK x
  have hA : (StereoAxisT.lambdaXK d K x * x).shape d = n := by
    rw [shape_mul, hl, bsize_one_left, hx]
  have hB : ((K.map (Stereo.kSqrt η)).map (fun a => 1.0 / a) *
      (StereoAxisT.lambdaXK d K x).map fun a => a - 1.0).shape d = 1 := by
    rw [shape_mul, shape_map, shape_map, shape_map, hK, bsize_one_left, hl]
  have hAB : ∀ k', k' ≠ d → (StereoAxisT.lambdaXK d K x * x).shape k' =
      ((K.map (Stereo.kSqrt η)).map (fun a => 1.0 / a) *
      (StereoAxisT.lambdaXK d K x).map fun a => a - 1.0).shape k' := by
    intro k' hk
    simp only [shape_mul, shape_map, StereoAxisT.lambdaXK, shape_sumK, if_neg hk]
    simp only [bsize]
    split_ifs <;> simp_all
  funext j
  simp only [StereoAxisT.invSproj, Stereo.invSproj, fib_apply]
  refine Fin.lastCases ?_ (fun j => ?_) j
  · rw [get_cat_right _ _ _ _ (by simp [hA]) (by simp [hA, hB]) hAB, get_mul, get_map, get_map,
      get_map, lambdaXK_get d K hK x hx, Fin.snoc_last]
    simp [fib_update, get_update_one d K hK]
  · have hj := j.2
    rw [get_cat_left _ _ _ _ (by simp [hA]), get_mul, lambdaXK_get d K hK x hx,
      Fin.snoc_castSucc]
    simp [fib_update, fib, get_update_one d K hK]

end ops

theorem mobiusMatvec_last_fib (η : ℝ) (K : Tensor (m + 1)) (hK : K.shape (Fin.last m) = 1) {p : ℕ}
    (M : Matrix (Fin p) (Fin n) ℝ) (x : Tensor (m + 1))
    (hx : x.shape (Fin.last m) = n) (i : Fin (m + 1) → ℕ) (hi : InRange K i) :
    (StereoAxisT.mobiusMatvec (Fin.last m) η K M x).fib (Fin.last m) p i =
      Stereo.mobiusMatvec η (K.get i) M (x.fib (Fin.last m) n i) := by
  set L := Fin.last m
  have h1 : (StereoAxis.tensordot L M x).shape L = p := by
    simp [StereoAxis.tensordot, L]
  have h2 : ∀ i, (StereoAxis.tensordot L M x).fib L p i = M.mulVec (x.fib L n i) :=
    fun i => tensordot_last_fib M x i
  funext j
  have hi' := hi.update hK (j : ℕ)
  have h3 := prodK_test_get L (· = 0) _ h1 (Function.update i L (j : ℕ))
  have h4 := congrFun (h2 i) j
  rw [fib_apply] at h4
  rw [fib_update, h2] at h3
  rw [fib_apply]
  simp only [StereoAxisT.mobiusMatvec, Stereo.mobiusMatvec, get_whr]
  by_cases h : ∀ j, M.mulVec (x.fib L n i) j = 0
  · rw [if_neg (h3.2 h), if_pos (by exact h)]; rfl
  · rw [if_pos (by by_contra hc; exact h (h3.1 hc)), if_neg (by exact h)]
    simp only [get_mul, get_div, tanK_get η K _ _ hi', artanK_get η K _ _ hi', cnorm_get L x hx,
      cnorm_get L _ h1, h2, fib_update, get_update_one L K hK, Pi.smul_apply, smul_eq_mul, h4]
    ring

theorem shape_mobiusMatvec (η : ℝ) (K : Tensor (m + 1)) (hK : K.shape (Fin.last m) = 1) {p : ℕ}
    (M : Matrix (Fin p) (Fin n) ℝ) (x : Tensor (m + 1)) :
    (StereoAxisT.mobiusMatvec (Fin.last m) η K M x).shape (Fin.last m) = p := by
  have h1 : (StereoAxis.tensordot (Fin.last m) M x).shape (Fin.last m) = p := by
    simp [StereoAxis.tensordot]
  simp only [StereoAxisT.mobiusMatvec, shape_whr, shape_test, shape_prodK, shape_map,
    shape_mul, shape_div, shape_tanK, shape_artanK, shape_cnorm, hK, h1, if_true,
    bsize_self, bsize_one_left, bsize_one_right]

end Geoopt.AxisFibT
