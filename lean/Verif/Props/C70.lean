import Verif.Lemmas.Takagi
import Mathlib.Tactic.NormNum
import Mathlib.Tactic.FieldSimp

/-!
# C70: the projections of the Siegel spaces

`OnUpperHalf`, `OnBounded`, `imForm`, `len2`, `rlen2` are in `Verif.Spec.Siegel`.
-/

namespace Geoopt.Siegel
open Matrix Geoopt Geoopt.Linalg Geoopt.SPD

variable {n : ℕ}

theorem EPS_pos (d : RealDtype) : 0 < EPS d := by cases d <;> norm_num [EPS]
theorem EPS_lt_one (d : RealDtype) : EPS d < 1 := by cases d <;> norm_num [EPS]

theorem symC_apply (z : CMat n) (i j : Fin n) : symC z i j = (z i j + z j i) / 2 := by
  simp [symC]; ring

theorem symC_symm (z : CMat n) : CSymm (symC z) := by
  intro i j; rw [symC_apply, symC_apply]; ring

theorem symC_of_symm {z : CMat n} (h : CSymm z) : symC z = z := by
  ext i j; rw [symC_apply, h j i]; ring

theorem imM_tr {z : CMat n} (h : CSymm z) : (imM z)ᵀ = imM z := by
  ext i j; simp [imM, h j i]

theorem imForm_eq (z : CMat n) (w : Fin n → ℝ) : imForm z w = w ⬝ᵥ (imM z *ᵥ w) := by
  simp only [imForm, dotProduct, mulVec, imM, of_apply, Finset.mul_sum]
  refine Finset.sum_congr rfl fun i _ => Finset.sum_congr rfl fun j _ => ?_
  ring

theorem re_toComplex (a b : RMat n) : reM (toComplex a b) = a := by ext i j; simp [reM, toComplex]
theorem im_toComplex (a b : RMat n) : imM (toComplex a b) = b := by ext i j; simp [imM, toComplex]
theorem toComplex_re_im (z : CMat n) : toComplex (reM z) (imM z) = z := by
  ext i j; apply Complex.ext <;> simp [reM, imM, toComplex]

/-! ## The upper half space -/

theorem pcp_eq (d : RealDtype) (E : EighL n) {y : RMat n} (h : yᵀ = y) :
    positiveConjugateProjection d E y = fn (fun t => max t (EPS d)) (E.e y) (E.v y) := by
  unfold positiveConjugateProjection
  simp only
  split_ifs with hm
  · have hd := eighL_dec E h
    conv_lhs => rw [← fn_id hd]
    refine fn_congr _ fun i => ?_
    have := hm i
    rcases lt_max_iff.1 this with h1 | h1
    · exact (max_eq_left h1.le).symm
    · exact absurd h1 (lt_irrefl _)
  · rfl

/-- **C70.** `UpperHalf.projx(z)` is symmetric and the smallest eigenvalue of its imaginary part is
at least `EPS`; in particular it is on the manifold. -/
theorem C70_upper_projx (d : RealDtype) (E : EighL n) (z : CMat n) :
    CSymm (upperProjx d E z) ∧
    (∀ w, EPS d * rlen2 w ≤ imForm (upperProjx d E z) w) ∧
    OnUpperHalf (upperProjx d E z) := by
  have hs := imM_tr (symC_symm z)
  have hd := eighL_dec E hs
  have h1 : CSymm (upperProjx d E z) := by
    intro i j
    have hy : (positiveConjugateProjection d E (imM (symC z)))ᵀ =
        positiveConjugateProjection d E (imM (symC z)) := by rw [pcp_eq d E hs, fn_symm]
    apply Complex.ext
    · show (symC z i j).re = (symC z j i).re
      rw [symC_symm z i j]
    · exact congrFun (congrFun hy j) i
  have h2 : ∀ w, EPS d * rlen2 w ≤ imForm (upperProjx d E z) w := by
    intro w
    rw [imForm_eq]
    show _ ≤ w ⬝ᵥ (imM (toComplex _ (positiveConjugateProjection d E (imM (symC z)))) *ᵥ w)
    rw [im_toComplex, pcp_eq d E hs, quad_fn, ← rlen2_orth hd.orth' w]
    unfold rlen2
    rw [Finset.mul_sum]
    refine Finset.sum_le_sum fun i _ => ?_
    exact mul_le_mul_of_nonneg_right (le_max_right _ _) (sq_nonneg _)
  refine ⟨h1, h2, h1, fun w hw => lt_of_lt_of_le ?_ (h2 w)⟩
  apply mul_pos (EPS_pos d)
  obtain ⟨i, hi⟩ := Function.ne_iff.1 hw
  exact Finset.sum_pos' (fun i _ => sq_nonneg _) ⟨i, Finset.mem_univ _,
    lt_of_le_of_ne (sq_nonneg _) (Ne.symm (pow_ne_zero 2 hi))⟩

/-- **C70.** Points that already satisfy the bound are returned unchanged. -/
theorem C70_upper_projx_fixed (d : RealDtype) (E : EighL n) {z : CMat n} (hz : CSymm z)
    (hy : ∀ w, EPS d * rlen2 w ≤ imForm z w) : upperProjx d E z = z := by
  have hs := imM_tr hz
  have hd := eighL_dec E hs
  have he : ∀ i, EPS d ≤ E.e (imM z) i := by
    intro i
    have h1 := hy (E.v (imM z) *ᵥ Pi.single i 1)
    have h2 : (E.v (imM z))ᵀ *ᵥ (E.v (imM z) *ᵥ Pi.single i 1) = (Pi.single i 1 : Fin n → ℝ) := by
      rw [Matrix.mulVec_mulVec, hd.orth, Matrix.one_mulVec]
    have h3 : rlen2 (E.v (imM z) *ᵥ Pi.single i 1) = 1 := by
      rw [← rlen2_orth hd.orth', h2]
      simp [rlen2, Pi.single_apply]
    have h4 : imForm z (E.v (imM z) *ᵥ Pi.single i 1) = E.e (imM z) i := by
      rw [imForm_eq]
      conv_lhs => rw [← fn_id hd]
      rw [quad_fn]
      have h5 : E.v (fn (fun t => t) (E.e (imM z)) (E.v (imM z))) = E.v (imM z) := by
        rw [fn_id hd]
      rw [h5, h2]
      simp [Pi.single_apply]
    rw [h3, h4, mul_one] at h1
    exact h1
  unfold upperProjx baseProjx
  simp only
  rw [symC_of_symm hz, pcp_eq d E hs]
  have : fn (fun t => max t (EPS d)) (E.e (imM z)) (E.v (imM z)) = imM z := by
    conv_rhs => rw [← fn_id hd]
    exact fn_congr _ fun i => max_eq_left (he i)
  rw [this, toComplex_re_im]

/-- **C70.** Projecting twice is projecting once. -/
theorem C70_upper_projx_idempotent (d : RealDtype) (E E' : EighL n) (z : CMat n) :
    upperProjx d E' (upperProjx d E z) = upperProjx d E z :=
  C70_upper_projx_fixed d E' (C70_upper_projx d E z).1 (C70_upper_projx d E z).2.1

/-- **C70.** The real part is only symmetrised. -/
theorem C70_upper_projx_re (d : RealDtype) (E : EighL n) (z : CMat n) (i j : Fin n) :
    (upperProjx d E z i j).re = ((z i j).re + (z j i).re) / 2 := by
  show (symC z i j).re = _
  rw [symC_apply]
  simp

/-- **C70.** The result does not depend on the choices `eigh` makes. -/
theorem C70_upper_projx_unique (d : RealDtype) (E E' : EighL n) (z : CMat n) :
    upperProjx d E z = upperProjx d E' z := by
  have hs := imM_tr (symC_symm z)
  unfold upperProjx baseProjx
  simp only
  rw [pcp_eq d E hs, pcp_eq d E' hs, fn_unique (eighL_dec E hs) (eighL_dec E' hs)]

/-! ## The bounded domain -/

/-- Clamp to `[-c, c]`. -/
noncomputable def clampAbs (c t : ℝ) : ℝ := max (-c) (min t c)

theorem clampAbs_odd {c : ℝ} (hc : 0 ≤ c) (t : ℝ) : clampAbs c (-t) = -clampAbs c t := by
  unfold clampAbs
  rcases le_total t c with h1 | h1 <;> rcases le_total (-c) t with h2 | h2
  · rw [min_eq_left h1, max_eq_right h2, min_eq_left (by linarith), max_eq_right (by linarith)]
  · rw [min_eq_left h1, max_eq_left h2, min_eq_right (by linarith), max_eq_right (by linarith)]
    ring
  · rw [min_eq_right h1, max_eq_right (show -c ≤ c by linarith),
      min_eq_left (show -t ≤ c by linarith), max_eq_left (show -t ≤ -c by linarith)]
  · rw [min_eq_right h1, max_eq_right (show -c ≤ c by linarith),
      min_eq_left (show -t ≤ c by linarith), max_eq_left (show -t ≤ -c by linarith)]

theorem abs_clampAbs {c : ℝ} (hc : 0 ≤ c) (t : ℝ) : |clampAbs c t| ≤ c := by
  unfold clampAbs
  rw [abs_le]
  exact ⟨le_max_left _ _, max_le (by linarith) (min_le_right _ _)⟩

theorem clampAbs_of_abs {c t : ℝ} (h : |t| ≤ c) : clampAbs c t = t := by
  obtain ⟨h1, h2⟩ := abs_le.1 h
  unfold clampAbs
  rw [min_eq_left h2, max_eq_right h1]

theorem clampAbs_nonneg {c t : ℝ} (hc : 0 ≤ c) (h : 0 ≤ t) : clampAbs c t = min t c := by
  unfold clampAbs
  exact max_eq_right (le_trans (by linarith) (le_min h hc))

/-- `BoundedDomain.projx` clamps the spectrum of the compound matrix. -/
theorem compound_projx (d : RealDtype) (E : EighL (n + n)) (z : CMat n) :
    toCompoundSymmetric (boundedProjx d E z) =
      fn (clampAbs (1 - EPS d)) (E.e (toCompoundSymmetric (symC z)))
        (E.v (toCompoundSymmetric (symC z))) := by
  have hc : 0 ≤ 1 - EPS d := by linarith [EPS_lt_one d]
  have hd := eighL_dec E (compound_symm (symC_symm z))
  have hm := E.mono (toCompoundSymmetric (symC z))
  unfold boundedProjx baseProjx
  simp only
  split_ifs with h
  · conv_lhs => rw [← fn_id hd]
    refine fn_congr _ fun i => (clampAbs_of_abs ?_).symm
    obtain ⟨j, hj⟩ := compound_abs hd hm i
    rw [hj]
    exact (h j).le
  · rw [← takagi_fn hd hm _ (clampAbs_odd hc)]
    congr 4
    show (diagonal fun j => min (E.e (toCompoundSymmetric (symC z)) (Fin.natAdd n j)) (1 - EPS d)) =
      diagonal fun j => clampAbs (1 - EPS d) (E.e (toCompoundSymmetric (symC z)) (Fin.natAdd n j))
    congr 1
    ext j
    rw [clampAbs_nonneg hc (compound_top hd hm j)]

/-- **C70.** `BoundedDomain.projx(z)` is symmetric, its singular values are at most `1 - EPS`, and
`Id - conj(z) z` is positive definite there. -/
theorem C70_bounded_projx (d : RealDtype) (E : EighL (n + n)) (z : CMat n) :
    CSymm (boundedProjx d E z) ∧
    (∀ w, len2 (boundedProjx d E z *ᵥ w) ≤ (1 - EPS d) ^ 2 * len2 w) ∧
    OnBounded (boundedProjx d E z) := by
  have hc : 0 ≤ 1 - EPS d := by linarith [EPS_lt_one d]
  have hd := eighL_dec E (compound_symm (symC_symm z))
  have h1 : CSymm (boundedProjx d E z) := by
    apply csymm_of_compound
    rw [compound_projx, fn_symm]
  have h2 := len_le_of_fn hd.orth (compound_projx d E z) (fun i => abs_clampAbs hc _)
  refine ⟨h1, h2, h1, fun w hw => lt_of_le_of_lt (h2 w) ?_⟩
  have := len2_pos hw
  have hp := EPS_pos d
  nlinarith [mul_pos hp this, mul_nonneg hc this.le]

/-- **C70.** Points that already satisfy the bound are returned unchanged. -/
theorem C70_bounded_projx_fixed (d : RealDtype) (E : EighL (n + n)) {z : CMat n} (hz : CSymm z)
    (hb : ∀ w, len2 (z *ᵥ w) ≤ (1 - EPS d) ^ 2 * len2 w) : boundedProjx d E z = z := by
  have hc : 0 ≤ 1 - EPS d := by linarith [EPS_lt_one d]
  have hd := eighL_dec E (compound_symm hz)
  apply compound_inj
  rw [compound_projx, symC_of_symm hz]
  conv_rhs => rw [← fn_id hd]
  exact fn_congr _ fun i => clampAbs_of_abs (abs_le_of_len hd hc hb i)

/-- **C70.** Projecting twice is projecting once. -/
theorem C70_bounded_projx_idempotent (d : RealDtype) (E E' : EighL (n + n)) (z : CMat n) :
    boundedProjx d E' (boundedProjx d E z) = boundedProjx d E z :=
  C70_bounded_projx_fixed d E' (C70_bounded_projx d E z).1 (C70_bounded_projx d E z).2.1

/-- **C70.** The result does not depend on the choices `eigh` makes, although the Takagi vectors
do. -/
theorem C70_bounded_projx_unique (d : RealDtype) (E E' : EighL (n + n)) (z : CMat n) :
    boundedProjx d E z = boundedProjx d E' z := by
  have hs := compound_symm (symC_symm z)
  apply compound_inj
  rw [compound_projx, compound_projx, fn_unique (eighL_dec E hs) (eighL_dec E' hs)]

/-- **C70.** `takagi_eig` of a symmetric matrix returns ascending non-negative values `σ` and a
matrix `u` with `z = conj(u) diag(σ) conj(u)ᵀ`; the values are those of `takagi_eigvals`. -/
theorem C70_takagi (E : EighL (n + n)) (Ev : EigvalsL (n + n)) {z : CMat n} (hz : CSymm z) :
    Monotone (takagiEig E z).1 ∧ (∀ j, 0 ≤ (takagiEig E z).1 j) ∧
    takagiEigvals Ev z = (takagiEig E z).1 ∧
    z = conjM (takagiEig E z).2 * asComplex (diagonal (takagiEig E z).1) *
      (conjM (takagiEig E z).2)ᵀ := by
  have hs := compound_symm hz
  have hd := eighL_dec E hs
  have hm := E.mono (toCompoundSymmetric z)
  refine ⟨?_, compound_top hd hm, ?_, ?_⟩
  · intro a b hab
    apply hm
    show n + a.val ≤ n + b.val
    have : a.val ≤ b.val := hab
    omega
  · obtain ⟨v, hv⟩ := eigvalsL_dec Ev hs
    have := mono_unique (Ev.mono _) hm (multiset_of_charpoly hv hd rfl)
    ext j
    exact congrFun this _
  · apply compound_inj
    have := takagi_fn hd hm (fun t => t) (fun t => rfl)
    rw [fn_id hd] at this
    exact this.symm

/-- The columns of `u` that belong to non-zero singular values are orthonormal. -/
theorem takagi_columns (E : EighL (n + n)) {z : CMat n} (hz : CSymm z) (j k : Fin n)
    (hjk : 0 < (takagiEig E z).1 j + (takagiEig E z).1 k) :
    ((takagiEig E z).2ᴴ * (takagiEig E z).2) j k = if j = k then 1 else 0 := by
  have hs := compound_symm hz
  have hd := eighL_dec E hs
  have hm := E.mono (toCompoundSymmetric z)
  set C := toCompoundSymmetric z with hC
  set v := E.v C with hv
  set e := E.e C with he
  -- real part
  have h1 : ∑ i : Fin n, (v (Fin.castAdd n i) (Fin.natAdd n j) * v (Fin.castAdd n i) (Fin.natAdd n k)
      + v (Fin.natAdd n i) (Fin.natAdd n j) * v (Fin.natAdd n i) (Fin.natAdd n k)) =
      if j = k then 1 else 0 := by
    have := congrFun (congrFun hd.orth (Fin.natAdd n j)) (Fin.natAdd n k)
    rw [Matrix.mul_apply, Fin.sum_univ_add, ← Finset.sum_add_distrib] at this
    simp only [transpose_apply] at this
    rw [this, Matrix.one_apply]
    simp [-Fin.natAdd_eq_addNat]
  -- imaginary part: a column and the quarter turn of another one
  have h2 : ∑ i : Fin n, (v (Fin.castAdd n i) (Fin.natAdd n j) * v (Fin.natAdd n i) (Fin.natAdd n k)
      - v (Fin.natAdd n i) (Fin.natAdd n j) * v (Fin.castAdd n i) (Fin.natAdd n k)) = 0 := by
    have ha : C * v = v * diagonal e := by
      conv_lhs => rw [hd.eq]
      rw [Matrix.mul_assoc, hd.orth, mul_one]
    have hb : vᵀ * C = diagonal e * vᵀ := by
      have := congrArg transpose ha
      rwa [transpose_mul, transpose_mul, diagonal_transpose, hs] at this
    have hq : C * (quarter n)ᵀ = -((quarter n)ᵀ * C) := by
      have h0 := compound_quarter z
      rw [← hC] at h0
      calc C * (quarter n)ᵀ = -(-C * (quarter n)ᵀ) := by rw [neg_mul, neg_neg]
        _ = -((quarter n)ᵀ * C * (quarter n * (quarter n)ᵀ)) := by
            rw [← h0]; simp only [Matrix.mul_assoc]
        _ = _ := by rw [mul_eq_one_comm.1 quarter_orth, mul_one]
    have hx : diagonal e * (vᵀ * (quarter n)ᵀ * v) = -((vᵀ * (quarter n)ᵀ * v) * diagonal e) := by
      calc diagonal e * (vᵀ * (quarter n)ᵀ * v) = vᵀ * C * (quarter n)ᵀ * v := by
            rw [hb]; simp only [Matrix.mul_assoc]
        _ = vᵀ * (C * (quarter n)ᵀ) * v := by simp only [Matrix.mul_assoc]
        _ = -(vᵀ * (quarter n)ᵀ * (C * v)) := by
            rw [hq]; simp only [Matrix.mul_assoc, Matrix.mul_neg, Matrix.neg_mul]
        _ = _ := by rw [ha]; simp only [Matrix.mul_assoc]
    have hy := congrFun (congrFun hx (Fin.natAdd n j)) (Fin.natAdd n k)
    rw [Matrix.diagonal_mul, Matrix.neg_apply, Matrix.mul_diagonal] at hy
    have hw : (vᵀ * (quarter n)ᵀ * v) (Fin.natAdd n j) (Fin.natAdd n k) = 0 := by
      have hjk' : 0 < e (Fin.natAdd n j) + e (Fin.natAdd n k) := hjk
      have : (e (Fin.natAdd n j) + e (Fin.natAdd n k)) *
          (vᵀ * (quarter n)ᵀ * v) (Fin.natAdd n j) (Fin.natAdd n k) = 0 := by linarith
      exact (mul_eq_zero.1 this).resolve_left hjk'.ne'
    have hqe : ∀ i : Fin (n + n), (vᵀ * (quarter n)ᵀ) (Fin.natAdd n j) i =
        Fin.append (fun i : Fin n => v (Fin.natAdd n i) (Fin.natAdd n j))
          (fun i : Fin n => -v (Fin.castAdd n i) (Fin.natAdd n j)) i := by
      intro i
      rw [quarter_tr, Matrix.mul_apply, Fin.sum_univ_add]
      refine Fin.addCases (fun i => ?_) (fun i => ?_) i <;>
        simp [blockMatrix, catRows, catCols, -Fin.natAdd_eq_addNat, Matrix.one_apply]
    rw [Matrix.mul_apply, Fin.sum_univ_add, ← Finset.sum_add_distrib] at hw
    rw [← neg_eq_zero, ← Finset.sum_neg_distrib, ← hw]
    refine Finset.sum_congr rfl fun i _ => ?_
    rw [hqe, hqe, Fin.append_left, Fin.append_right]
    ring
  have hent : ((takagiEig E z).2ᴴ * (takagiEig E z).2) j k =
      ⟨∑ i : Fin n, (v (Fin.castAdd n i) (Fin.natAdd n j) * v (Fin.castAdd n i) (Fin.natAdd n k)
      + v (Fin.natAdd n i) (Fin.natAdd n j) * v (Fin.natAdd n i) (Fin.natAdd n k)),
      -∑ i : Fin n, (v (Fin.castAdd n i) (Fin.natAdd n j) * v (Fin.natAdd n i) (Fin.natAdd n k)
      - v (Fin.natAdd n i) (Fin.natAdd n j) * v (Fin.castAdd n i) (Fin.natAdd n k))⟩ := by
    rw [Matrix.mul_apply]
    apply Complex.ext
    · simp only [Complex.re_sum]
      refine Finset.sum_congr rfl fun i _ => ?_
      simp [takagiEig, toComplex, chunkRows, chunkLastCols, -Fin.natAdd_eq_addNat, ← hv, ← hC]
    · simp only [Complex.im_sum, ← Finset.sum_neg_distrib]
      refine Finset.sum_congr rfl fun i _ => ?_
      simp [takagiEig, toComplex, chunkRows, chunkLastCols, -Fin.natAdd_eq_addNat, ← hv, ← hC]
      ring
  rw [hent, h1, h2]
  apply Complex.ext <;> split_ifs <;> simp

/-- **C70.** When at most one singular value is zero (in particular for invertible `z`), the matrix
`u` of `takagi_eig` is unitary. -/
theorem C70_takagi_unitary (E : EighL (n + n)) {z : CMat n} (hz : CSymm z)
    (h : ∀ j k, (takagiEig E z).1 j = 0 → (takagiEig E z).1 k = 0 → j = k) :
    (takagiEig E z).2ᴴ * (takagiEig E z).2 = 1 := by
  have hn := (C70_takagi E (someEigvalsL _) hz).2.1
  have hs := compound_symm hz
  have hd := eighL_dec E hs
  ext j k
  rw [Matrix.one_apply]
  by_cases hp : 0 < (takagiEig E z).1 j + (takagiEig E z).1 k
  · exact takagi_columns E hz j k hp
  · have hj : (takagiEig E z).1 j = 0 := by linarith [hn j, hn k]
    have hk : (takagiEig E z).1 k = 0 := by linarith [hn j, hn k]
    have hjk := h j k hj hk
    subst hjk
    rw [if_pos rfl, Matrix.mul_apply]
    have := congrFun (congrFun hd.orth (Fin.natAdd n j)) (Fin.natAdd n j)
    rw [Matrix.mul_apply, Fin.sum_univ_add, ← Finset.sum_add_distrib, Matrix.one_apply_eq] at this
    have hone : (1 : ℂ) = ((1 : ℝ) : ℂ) := by simp
    rw [hone, ← this]
    apply Complex.ext
    · simp only [Complex.re_sum, Complex.ofReal_re]
      refine Finset.sum_congr rfl fun i _ => ?_
      simp [takagiEig, toComplex, chunkRows, chunkLastCols, -Fin.natAdd_eq_addNat]
    · simp only [Complex.im_sum, Complex.ofReal_im]
      refine Finset.sum_eq_zero fun i _ => ?_
      simp [takagiEig, toComplex, chunkRows, chunkLastCols, -Fin.natAdd_eq_addNat]
      ring

/-- **C70.** The projections keep a margin, so they do move points of the manifold that are closer
to its boundary than `EPS`: here `n = 1`, imaginary part `EPS / 2`, and modulus `1 - EPS / 2`. -/
theorem C70_margin (d : RealDtype) (E : EighL 1) (E' : EighL (1 + 1)) :
    (∃ z : CMat 1, OnUpperHalf z ∧ upperProjx d E z ≠ z) ∧
    (∃ z : CMat 1, OnBounded z ∧ boundedProjx d E' z ≠ z) := by
  have hp := EPS_pos d
  have h1 := EPS_lt_one d
  have hone : rlen2 (fun _ : Fin 1 => (1 : ℝ)) = 1 := by simp [rlen2]
  have hlen : len2 (fun _ : Fin 1 => (1 : ℂ)) = 1 := by simp [len2]
  constructor
  · refine ⟨Matrix.of fun _ _ => ⟨0, EPS d / 2⟩, ⟨fun i j => rfl, fun w hw => ?_⟩, fun h => ?_⟩
    · obtain ⟨i, hi⟩ := Function.ne_iff.1 hw
      fin_cases i
      have : 0 < w 0 * w 0 := mul_self_pos.2 hi
      simp [imForm]
      nlinarith
    · have := (C70_upper_projx d E (Matrix.of fun _ _ => ⟨0, EPS d / 2⟩)).2.1 fun _ => 1
      rw [h, hone] at this
      simp [imForm] at this
      linarith
  · refine ⟨Matrix.of fun _ _ => ((1 - EPS d / 2 : ℝ) : ℂ), ⟨fun i j => rfl, fun w hw => ?_⟩,
      fun h => ?_⟩
    · have := len2_pos hw
      simp only [len2, mulVec, dotProduct, Finset.univ_unique, Finset.sum_singleton, of_apply,
        Complex.normSq_mul, Complex.normSq_ofReal] at this ⊢
      have h2 : (1 - EPS d / 2) * (1 - EPS d / 2) < 1 := by nlinarith
      nlinarith [mul_lt_mul_of_pos_right h2 this]
    · have := (C70_bounded_projx d E' (Matrix.of fun _ _ => ((1 - EPS d / 2 : ℝ) : ℂ))).2.1
        fun _ => 1
      rw [h, hlen] at this
      simp only [len2, mulVec, dotProduct, Finset.univ_unique, Finset.sum_singleton, of_apply,
        Complex.normSq_mul, Complex.normSq_ofReal, Complex.normSq_one] at this
      nlinarith

/-! ## Retractions, points and checks -/

/-- **C70.** `retr` returns points of the manifold, for any step. -/
theorem C70_retr (d : RealDtype) (E : EighL n) (E' : EighL (n + n)) (x u : CMat n) :
    OnUpperHalf (upperRetr d E x u) ∧ OnBounded (boundedRetr d E' x u) :=
  ⟨(C70_upper_projx d E (x + u)).2.2, (C70_bounded_projx d E' (x + u)).2.2⟩

theorem symm_close {z : CMat n} (hz : CSymm z) {atol rtol : ℝ} (ha : 0 ≤ atol) (hr : 0 ≤ rtol) :
    isComplexSymmetric z atol rtol := by
  constructor <;> intro i j
  · have : reM z i j - (reM z)ᵀ i j = 0 := by simp [reM, hz i j]
    rw [this, abs_zero]; positivity
  · have : imM z i j - (imM z)ᵀ i j = 0 := by simp [imM, hz i j]
    rw [this, abs_zero]; positivity

theorem imM_onSPD {z : CMat n} (hz : CSymm z) : OnUpperHalf z ↔ OnSPD (imM z) := by
  constructor
  · intro h
    refine ⟨symm_iff.2 (imM_tr hz), fun w hw => ?_⟩
    rw [← imForm_eq]; exact h.2 w hw
  · intro h
    refine ⟨hz, fun w hw => ?_⟩
    rw [imForm_eq]; exact h.2 w hw

/-- **C70.** For symmetric matrices the check of the upper half space is exact, whatever the
tolerances. -/
theorem C70_upper_check (E : EigvalsL n) {z : CMat n} (hz : CSymm z) {atol rtol : ℝ} (ha : 0 ≤ atol)
    (hr : 0 ≤ rtol) : upperCheckPoint E z atol rtol ↔ OnUpperHalf z := by
  obtain ⟨v, hv⟩ := eigvalsL_dec E (imM_tr hz)
  rw [imM_onSPD hz]
  constructor
  · rintro ⟨-, h⟩
    have := onSPD_fn hv (fun t => t) h
    rwa [fn_id hv] at this
  · intro h
    exact ⟨symm_close hz ha hr, fun i => h.pos hv i⟩

/-- **C70.** The result of `projx` passes the check of the upper half space. -/
theorem C70_upper_projx_check (d : RealDtype) (E : EighL n) (Ev : EigvalsL n) (z : CMat n)
    {atol rtol : ℝ} (ha : 0 ≤ atol) (hr : 0 ≤ rtol) :
    upperCheckPoint Ev (upperProjx d E z) atol rtol :=
  (C70_upper_check Ev (C70_upper_projx d E z).1 ha hr).2 (C70_upper_projx d E z).2.2

theorem lowerH_of_herm {x : CMat n} (h : xᴴ = x) : lowerH x = x := by
  ext i j
  have hij := congrFun (congrFun h i) j
  simp only [conjTranspose_apply] at hij
  unfold lowerH
  simp only [of_apply]
  split_ifs with h1 h2
  · rfl
  · subst h2
    exact Complex.conj_eq_iff_re.1 hij
  · exact hij

theorem idMinus_eq {z : CMat n} (hz : CSymm z) : idMinusConjZZ z = 1 - zᴴ * z := by
  unfold idMinusConjZZ identityLike
  have : conjM z = zᴴ := by
    ext i j; simp [conjM, conjTranspose_apply, hz i j]
  rw [this]

theorem len2_eq (w : Fin n → ℂ) : star w ⬝ᵥ w = (len2 w : ℂ) := by
  simp only [dotProduct, len2, Complex.ofReal_sum, Pi.star_apply]
  refine Finset.sum_congr rfl fun i _ => ?_
  exact Complex.normSq_eq_conj_mul_self.symm

theorem form_idMinus {z : CMat n} (hz : CSymm z) (w : Fin n → ℂ) :
    star w ⬝ᵥ (idMinusConjZZ z *ᵥ w) = ((len2 w - len2 (z *ᵥ w) : ℝ) : ℂ) := by
  rw [idMinus_eq hz, sub_mulVec, one_mulVec, dotProduct_sub, len2_eq, ← mulVec_mulVec,
    dotProduct_mulVec, ← star_mulVec, len2_eq]
  push_cast; rfl

theorem form_diag {v : CMat n} {e : Fin n → ℝ} (w : Fin n → ℂ) :
    star w ⬝ᵥ ((v * diagonal (fun i => (e i : ℂ)) * vᴴ) *ᵥ w) =
      ((∑ i, e i * Complex.normSq ((vᴴ *ᵥ w) i) : ℝ) : ℂ) := by
  rw [← mulVec_mulVec, ← mulVec_mulVec, dotProduct_mulVec]
  have : star w ᵥ* v = star (vᴴ *ᵥ w) := by rw [star_mulVec, conjTranspose_conjTranspose]
  rw [this]
  simp only [dotProduct, mulVec_diagonal, Pi.star_apply, Complex.ofReal_sum, Complex.ofReal_mul]
  refine Finset.sum_congr rfl fun i _ => ?_
  rw [Complex.normSq_eq_conj_mul_self]
  simp only [Complex.star_def]
  ring

/-- **C70.** For symmetric matrices the check of the bounded domain is exact, whatever the
tolerances. -/
theorem C70_bounded_check (E : EigvalsH n) {z : CMat n} (hz : CSymm z) {atol rtol : ℝ}
    (ha : 0 ≤ atol) (hr : 0 ≤ rtol) : boundedCheckPoint E z atol rtol ↔ OnBounded z := by
  obtain ⟨v, hv, he⟩ := E.eq (idMinusConjZZ z)
  have hh : (idMinusConjZZ z)ᴴ = idMinusConjZZ z := by
    rw [idMinus_eq hz]; simp
  rw [lowerH_of_herm hh] at he
  have hv' : v * vᴴ = 1 := mul_eq_one_comm.1 hv
  have key : ∀ w, len2 w - len2 (z *ᵥ w) =
      ∑ i, E.e (idMinusConjZZ z) i * Complex.normSq ((vᴴ *ᵥ w) i) := by
    intro w
    have h1 := form_idMinus hz w
    rw [he, form_diag] at h1
    exact_mod_cast h1.symm
  constructor
  · rintro ⟨-, h⟩
    refine ⟨hz, fun w hw => ?_⟩
    rw [← sub_pos, key]
    have hne : vᴴ *ᵥ w ≠ 0 := by
      intro h0
      apply hw
      have : v *ᵥ (vᴴ *ᵥ w) = 0 := by rw [h0, mulVec_zero]
      rwa [mulVec_mulVec, hv', one_mulVec] at this
    obtain ⟨i, hi⟩ := Function.ne_iff.1 hne
    exact Finset.sum_pos' (fun i _ => mul_nonneg (h i).le (Complex.normSq_nonneg _))
      ⟨i, Finset.mem_univ _, mul_pos (h i) (Complex.normSq_pos.2 hi)⟩
  · intro h
    refine ⟨symm_close hz ha hr, fun i => ?_⟩
    have hvi : vᴴ *ᵥ (v *ᵥ Pi.single i 1) = (Pi.single i 1 : Fin n → ℂ) := by
      rw [mulVec_mulVec, hv, one_mulVec]
    have hw : v *ᵥ Pi.single i (1 : ℂ) ≠ 0 := by
      intro h0
      rw [h0, mulVec_zero] at hvi
      have := congrFun hvi i
      simp at this
    have := h.2 _ hw
    rw [← sub_pos, key, hvi] at this
    simpa [Pi.single_apply, apply_ite Complex.normSq] using this

/-- **C70.** The result of `projx` passes the check of the bounded domain. -/
theorem C70_bounded_projx_check (d : RealDtype) (E : EighL (n + n)) (Ev : EigvalsH n) (z : CMat n)
    {atol rtol : ℝ} (ha : 0 ≤ atol) (hr : 0 ≤ rtol) :
    boundedCheckPoint Ev (boundedProjx d E z) atol rtol :=
  (C70_bounded_check Ev (C70_bounded_projx d E z).1 ha hr).2 (C70_bounded_projx d E z).2.2

/-- A complex `eigvalsh` exists. -/
noncomputable def someEigvalsH (n : ℕ) : EigvalsH n :=
  have hx : ∀ x : CMat n, ∃ e : Fin n → ℝ, Monotone e ∧
      ∃ v : CMat n, vᴴ * v = 1 ∧ lowerH x = v * diagonal (fun i => (e i : ℂ)) * vᴴ := by
    intro x
    have hA : (lowerH x).IsHermitian := by
      ext i j
      simp only [lowerH, conjTranspose_apply, of_apply]
      rcases lt_trichotomy i j with h | h | h
      · rw [if_pos h, if_neg h.not_gt, if_neg h.ne]
      · subst h; simp
      · rw [if_neg h.not_gt, if_neg h.ne, if_pos h, star_star]
    set e := hA.eigenvalues
    set v : CMat n := (hA.eigenvectorUnitary : CMat n)
    have ho : vᴴ * v = 1 := (Matrix.mem_unitaryGroup_iff').1 hA.eigenvectorUnitary.2
    have hs : lowerH x = v * diagonal (fun i => (e i : ℂ)) * vᴴ := by
      have := hA.spectral_theorem
      rw [Unitary.conjStarAlgAut_apply] at this
      exact this
    refine ⟨e ∘ Tuple.sort e, Tuple.monotone_sort e, v.submatrix id (Tuple.sort e), ?_, ?_⟩
    · ext i j
      have := congrFun (congrFun ho (Tuple.sort e i)) (Tuple.sort e j)
      simp only [Matrix.mul_apply, conjTranspose_apply, submatrix_apply, id] at this ⊢
      rw [this, Matrix.one_apply, Matrix.one_apply]
      simp
    · rw [hs]
      have hm : ∀ (a b : CMat n) (s : Fin n → ℂ) (i j : Fin n),
          (a * diagonal s * bᴴ) i j = ∑ k, a i k * s k * star (b j k) := by
        intro a b s i j
        rw [Matrix.mul_apply]
        simp only [Matrix.mul_diagonal, conjTranspose_apply]
      ext i j
      rw [hm, hm]
      simp only [submatrix_apply, id, Function.comp_apply]
      exact (Equiv.sum_comp (Tuple.sort e) fun k => v i k * (e k : ℂ) * star (v j k)).symm
  { e := fun x => (hx x).choose
    mono := fun x => (hx x).choose_spec.1
    eq := fun x => (hx x).choose_spec.2 }

/-- A projection that does something: `-i` in dimension one goes to `EPS i`. -/
example (d : RealDtype) (E : EighL 1) :
    upperProjx d E (Matrix.of fun _ _ => ⟨0, -1⟩) ≠ Matrix.of fun _ _ => ⟨0, -1⟩ := by
  intro h
  have := (C70_upper_projx d E (Matrix.of fun _ _ => ⟨0, -1⟩)).2.1 fun _ => 1
  rw [h] at this
  simp [imForm, rlen2] at this
  linarith [EPS_pos d]

end Geoopt.Siegel
