import Verif.Lemmas.Stiefel
import Mathlib.Analysis.Normed.Algebra.MatrixExponential
import Mathlib.Tactic.NoncommRing

/-!
# C24–C26: the Stiefel manifold, and the Stiefel parts of C19, C27 and C74
-/

namespace Geoopt.Stiefel
open Geoopt Geoopt.Linalg Matrix

variable {n m : ℕ}

/-! ## C24: canonical metric, Cayley retraction -/

/-- The linear system solved by `retr` and the transports is never singular, for any `x`, `u`. -/
theorem C24_system_nonsingular (x u : Matrix (Fin n) (Fin m) ℝ) :
    IsUnit (Canonical.lhs x u).det := by
  rw [lhs_eq]; exact isUnit_skew (amat_skew x u) _

/-- `retr` (and `expmap`) of a point with orthonormal columns has orthonormal columns, for every
`u`, tangent or not. -/
theorem C24_retr_on_stiefel {x : Matrix (Fin n) (Fin m) ℝ} (hx : OnStiefel x)
    (u : Matrix (Fin n) (Fin m) ℝ) : OnStiefel (Canonical.retr x u) := by
  unfold OnStiefel at *
  rw [Canonical.retr, transpFollowOne_eq, Matrix.transpose_mul, Matrix.mul_assoc,
    ← Matrix.mul_assoc _ _ x, cay_orth _ (amat_skew x u), Matrix.one_mul, hx]

theorem C24_retr_zero (x : Matrix (Fin n) (Fin m) ℝ) : Canonical.retr x 0 = x := by
  rw [Canonical.retr, transpFollowOne_eq]
  simp [Canonical.amat, cay]

/-- The model's metric is `tr(uᵀ(I - ½xxᵀ)v)`. -/
theorem C24_inner_formula (x u v : Matrix (Fin n) (Fin m) ℝ) :
    Canonical.inner x u v = canonicalMetric x u v := by
  simp only [Canonical.inner, canonicalMetric, frob_eq_trace]
  rw [Matrix.mul_sub, Matrix.sub_mul, Matrix.trace_sub, Matrix.mul_one, Matrix.mul_smul,
    Matrix.smul_mul, Matrix.trace_smul, smul_eq_mul]
  congr 1
  rw [show (0.5 : ℝ) = 2⁻¹ by norm_num]
  congr 1
  rw [← Matrix.trace_transpose]
  simp only [Matrix.transpose_mul, Matrix.transpose_transpose, Matrix.mul_assoc]

/-- `transp_follow_retr` maps tangent vectors at `x` to tangent vectors at `retr(x,u)`. -/
theorem C24_transp_tangent {x v : Matrix (Fin n) (Fin m) ℝ} (u : Matrix (Fin n) (Fin m) ℝ)
    (hv : Tangent x v) : Tangent (Canonical.retr x u) (Canonical.transpFollowRetr x u v) := by
  unfold Tangent at *
  have e : (Canonical.retr x u)ᵀ * Canonical.transpFollowRetr x u v = xᵀ * v := by
    rw [Canonical.retr, Canonical.transpFollowRetr, transpFollowOne_eq, transpFollowOne_eq,
      Matrix.transpose_mul, Matrix.mul_assoc, ← Matrix.mul_assoc _ _ v,
      cay_orth _ (amat_skew x u), Matrix.one_mul]
  rw [e, hv]

/-- ... and preserves the metric exactly. -/
theorem C24_transp_isometry (x u v w : Matrix (Fin n) (Fin m) ℝ) :
    Canonical.inner (Canonical.retr x u) (Canonical.transpFollowRetr x u v)
      (Canonical.transpFollowRetr x u w) = Canonical.inner x v w := by
  have key : ∀ a b : Matrix (Fin n) (Fin m) ℝ,
      (cay (Canonical.amat x u) * a)ᵀ * (cay (Canonical.amat x u) * b) = aᵀ * b := fun a b => by
    rw [Matrix.transpose_mul, Matrix.mul_assoc, ← Matrix.mul_assoc _ _ b,
      cay_orth _ (amat_skew x u), Matrix.one_mul]
  simp only [Canonical.inner, Canonical.retr, Canonical.transpFollowRetr, transpFollowOne_eq,
    frob_eq_trace, key]

/-- `retr_transp` returns exactly the pair of the two separate calls. -/
theorem C24_retr_transp (x u v : Matrix (Fin n) (Fin m) ℝ) :
    Canonical.retrTransp x u v = (Canonical.retr x u, Canonical.transpFollowRetr x u v) := by
  simp only [Canonical.retrTransp, Canonical.retr, Canonical.transpFollowRetr, transpFollowOne_eq,
    Matrix.mul_fromCols, Matrix.toCols₁_fromCols, Matrix.toCols₂_fromCols]

/-! ## C25: reversibility -/

/-- Retracting back along the transported and negated direction returns to the start, and the
direction itself comes back: for every `x` and `u`. -/
theorem C25_reversible (x u : Matrix (Fin n) (Fin m) ℝ) :
    let y := (Canonical.retrTransp x u u).1
    let w := (Canonical.retrTransp x u u).2
    Canonical.retr y (-w) = x ∧ Canonical.transpFollowRetr y (-w) w = u := by
  intro y w
  have hs := amat_skew x u
  have e : (y, w) = (Canonical.retr x u, Canonical.transpFollowRetr x u u) := C24_retr_transp x u u
  have ey : y = cay (Canonical.amat x u) * x := by
    rw [← transpFollowOne_eq]; exact (Prod.mk.inj e).1
  have ew : w = cay (Canonical.amat x u) * u := by
    rw [← transpFollowOne_eq]; exact (Prod.mk.inj e).2
  have eo : cay (Canonical.amat x u) * (cay (Canonical.amat x u))ᵀ = 1 :=
    mul_eq_one_comm.1 (cay_orth _ hs)
  have ea : Canonical.amat y (-w) = -Canonical.amat x u := by
    rw [amat_neg_right, ey, ew, amat_conj, cay_comm_self _ hs, Matrix.mul_assoc, eo, Matrix.mul_one]
  constructor
  · rw [Canonical.retr, transpFollowOne_eq, ea, ey, ← Matrix.mul_assoc, cay_neg_mul _ hs,
      Matrix.one_mul]
  · rw [Canonical.transpFollowRetr, transpFollowOne_eq, ea, ew, ← Matrix.mul_assoc,
      cay_neg_mul _ hs, Matrix.one_mul]

/-! ## C27, C19 for the canonical metric -/

theorem C27_canonical_stiefel_tangent_partial {x : Matrix (Fin n) (Fin m) ℝ} (hx : OnStiefel x)
    (u : Matrix (Fin n) (Fin m) ℝ) : Tangent x (Canonical.proju x u) := by
  unfold Tangent OnStiefel Canonical.proju at *
  simp only [Matrix.mul_sub, Matrix.transpose_sub, Matrix.transpose_mul, Matrix.transpose_transpose]
  have e1 : xᵀ * (u * xᵀ) * x = xᵀ * u := by
    rw [Matrix.mul_assoc, Matrix.mul_assoc, hx, Matrix.mul_one]
  have e2 : xᵀ * (x * uᵀ * x) = uᵀ * x := by
    rw [Matrix.mul_assoc, ← Matrix.mul_assoc, hx, Matrix.one_mul]
  have e3 : xᵀ * (u * xᵀ) * x = xᵀ * u := e1
  rw [e2]
  first | rw [e1] | rw [← Matrix.mul_assoc, ← Matrix.mul_assoc] at e1
  abel

/-- `proju` of the canonical class is not a projection: on tangent vectors it adds `x xᵀ u`. -/
theorem C27_canonical_stiefel_on_tangent {x u : Matrix (Fin n) (Fin m) ℝ} (hu : Tangent x u) :
    Canonical.proju x u = u + x * (xᵀ * u) := by
  unfold Tangent at hu
  rw [Matrix.transpose_mul, Matrix.transpose_transpose] at hu
  rw [Canonical.proju, Matrix.mul_assoc, hu, Matrix.mul_neg, sub_neg_eq_add]

/-- A tangent vector that `proju` doubles; so projecting a tangent momentum buffer again, as
`stabilize` does, changes it. -/
theorem C27_counterexample_canonical_stiefel :
    ∃ (x u : Matrix (Fin 2) (Fin 2) ℝ), OnStiefel x ∧ Tangent x u ∧ u ≠ 0 ∧
      Canonical.proju x u = (2 : ℝ) • u ∧ Canonical.proju x (Canonical.proju x u) ≠ Canonical.proju x u := by
  have hu : Tangent (1 : Matrix (Fin 2) (Fin 2) ℝ) !![0, 1; -1, 0] := by
    unfold Tangent; ext i j; fin_cases i <;> fin_cases j <;> simp
  have e : Canonical.proju 1 !![0, 1; -1, (0:ℝ)] = (2 : ℝ) • !![0, 1; -1, 0] := by
    rw [C27_canonical_stiefel_on_tangent hu]; simp [two_smul]
  refine ⟨1, !![0, 1; -1, 0], by simp [OnStiefel], hu, ?_, e, ?_⟩
  · intro h; have := congrFun (congrFun h 0) 1; simp at this
  · rw [e]
    have hl : Canonical.proju 1 ((2 : ℝ) • !![0, 1; -1, (0:ℝ)])
        = (2 : ℝ) • Canonical.proju 1 !![0, 1; -1, (0:ℝ)] := by
      simp only [Canonical.proju, Matrix.one_mul, Matrix.mul_one, Matrix.transpose_smul, smul_sub]
    rw [hl, e]
    intro h
    have := congrFun (congrFun h 0) 1
    simp at this

/-- As `egrad2rgrad`, however, it is right: the result is tangent and represents the Euclidean
gradient in the canonical metric. -/
theorem C19_canonical_stiefel {x : Matrix (Fin n) (Fin m) ℝ} (hx : OnStiefel x)
    (g v : Matrix (Fin n) (Fin m) ℝ) (hv : Tangent x v) :
    Tangent x (Canonical.proju x g) ∧ canonicalMetric x (Canonical.proju x g) v = (gᵀ * v).trace := by
  refine ⟨C27_canonical_stiefel_tangent_partial hx g, ?_⟩
  have hv' : (xᵀ * v)ᵀ = -(xᵀ * v) := hv
  have hx' : xᵀ * x = 1 := hx
  rw [← C24_inner_formula]
  simp only [Canonical.inner, frob_eq_trace, Canonical.proju]
  have e1 : (g - x * gᵀ * x)ᵀ * v = gᵀ * v - xᵀ * g * (xᵀ * v) := by
    simp only [Matrix.transpose_sub, Matrix.transpose_mul, Matrix.transpose_transpose,
      Matrix.sub_mul, Matrix.mul_assoc]
  have e2 : xᵀ * (g - x * gᵀ * x) = xᵀ * g - gᵀ * x := by
    rw [Matrix.mul_sub, Matrix.mul_assoc, ← Matrix.mul_assoc xᵀ, hx', Matrix.one_mul]
  rw [e1, e2, hv', Matrix.mul_sub, Matrix.trace_sub, Matrix.trace_sub]
  have e3 : (-(xᵀ * v) * (gᵀ * x)).trace = (xᵀ * g * (xᵀ * v)).trace := by
    rw [← Matrix.trace_transpose, Matrix.transpose_mul, Matrix.transpose_mul, Matrix.transpose_neg,
      hv', neg_neg, Matrix.transpose_transpose]
  have e4 : (-(xᵀ * v) * (xᵀ * g)).trace = -(xᵀ * g * (xᵀ * v)).trace := by
    rw [Matrix.neg_mul, Matrix.trace_neg, Matrix.trace_mul_comm]
  rw [e3, e4]
  norm_num
  ring

/-! ## C26: Euclidean metric -/

theorem C26_inner_formula (x u v : Matrix (Fin n) (Fin m) ℝ) :
    Euclidean.inner x u v = euclideanMetric u v := frob_eq_trace u v

theorem C26_proju_tangent {x : Matrix (Fin n) (Fin m) ℝ} (hx : OnStiefel x)
    (u : Matrix (Fin n) (Fin m) ℝ) : Tangent x (Euclidean.proju x u) := by
  have hx' : xᵀ * x = 1 := hx
  unfold Tangent Euclidean.proju
  rw [Matrix.mul_sub, ← Matrix.mul_assoc, hx', Matrix.one_mul]
  generalize xᵀ * u = a
  ext i j
  simp [sym]
  norm_num
  ring

theorem C26_proju_fixes {x u : Matrix (Fin n) (Fin m) ℝ} (hu : Tangent x u) :
    Euclidean.proju x u = u := by
  have hu' : (xᵀ * u)ᵀ = -(xᵀ * u) := hu
  simp [Euclidean.proju, sym, hu']

/-- The C27 statement for the Euclidean class. -/
theorem C27_euclidean_stiefel {x : Matrix (Fin n) (Fin m) ℝ} (hx : OnStiefel x)
    (u : Matrix (Fin n) (Fin m) ℝ) : Tangent x (Euclidean.proju x u) ∧
      Euclidean.proju x (Euclidean.proju x u) = Euclidean.proju x u :=
  ⟨C26_proju_tangent hx u, C26_proju_fixes (C26_proju_tangent hx u)⟩

/-- The projection is orthogonal: what is removed is orthogonal to all tangent vectors. -/
theorem C26_proju_orthogonal {x : Matrix (Fin n) (Fin m) ℝ} (u : Matrix (Fin n) (Fin m) ℝ)
    {v : Matrix (Fin n) (Fin m) ℝ} (hv : Tangent x v) :
    euclideanMetric (u - Euclidean.proju x u) v = 0 := by
  have hv' : (xᵀ * v)ᵀ = -(xᵀ * v) := hv
  unfold euclideanMetric Euclidean.proju
  rw [sub_sub_cancel, Matrix.transpose_mul, Matrix.mul_assoc]
  have hs : (sym (xᵀ * u))ᵀ = sym (xᵀ * u) := by
    simp [sym, add_comm]
  rw [hs]
  generalize sym (xᵀ * u) = s at *
  have : (s * (xᵀ * v)).trace = -(s * (xᵀ * v)).trace := by
    conv_lhs => rw [← Matrix.trace_transpose, Matrix.transpose_mul, hs, hv', Matrix.neg_mul,
      Matrix.trace_neg, Matrix.trace_mul_comm]
  linarith

theorem C19_euclidean_stiefel {x : Matrix (Fin n) (Fin m) ℝ} (hx : OnStiefel x)
    (g v : Matrix (Fin n) (Fin m) ℝ) (hv : Tangent x v) :
    Tangent x (Euclidean.proju x g) ∧
      euclideanMetric (Euclidean.proju x g) v = (gᵀ * v).trace := by
  refine ⟨C26_proju_tangent hx g, ?_⟩
  have := C26_proju_orthogonal g hv
  unfold euclideanMetric at *
  rw [Matrix.transpose_sub, Matrix.sub_mul, Matrix.trace_sub] at this
  linarith

/-- Transport lands in the tangent space of the target. -/
theorem C26_transp_tangent (x : Matrix (Fin n) (Fin m) ℝ) {y : Matrix (Fin n) (Fin m) ℝ}
    (hy : OnStiefel y) (v : Matrix (Fin n) (Fin m) ℝ) : Tangent y (Euclidean.transp x y v) :=
  C26_proju_tangent hy v

lemma retr_eq (q : Matrix (Fin n) (Fin m) ℝ) (r : Matrix (Fin m) (Fin m) ℝ) :
    Euclidean.retr q r = q * diagonal (fun j => usign (r j j)) := by
  ext i j
  rw [Matrix.mul_diagonal]; rfl

/-- `retr` has orthonormal columns, whatever QR factorisation torch returns, for any argument. -/
theorem C26_retr_on_stiefel {x u q : Matrix (Fin n) (Fin m) ℝ} {r : Matrix (Fin m) (Fin m) ℝ}
    (h : IsQR (x + u) q r) : OnStiefel (Euclidean.retr q r) := by
  unfold OnStiefel
  rw [retr_eq, Matrix.transpose_mul, Matrix.diagonal_transpose, Matrix.mul_assoc,
    ← Matrix.mul_assoc qᵀ, h.orth, Matrix.one_mul, Matrix.diagonal_mul_diagonal, ← Matrix.diagonal_one]
  congr 1
  funext j
  have := abs_usign (r j j)
  rw [← abs_mul_abs_self, this]; norm_num

/-- an orthogonal upper triangular matrix is diagonal -/
lemma orth_upper_diag {r : Matrix (Fin m) (Fin m) ℝ} (ho : rᵀ * r = 1)
    (hu : ∀ i j, j < i → r i j = 0) : r = diagonal (fun j => r j j) := by
  have hinv : r⁻¹ = rᵀ := Matrix.inv_eq_left_inv ho
  have : Invertible r := invertibleOfLeftInverse r rᵀ ho
  have hb : BlockTriangular r id := fun i j h => hu i j h
  have hb2 := blockTriangular_inv_of_blockTriangular hb
  rw [hinv] at hb2
  ext i j
  rw [Matrix.diagonal_apply]
  split_ifs with h
  · rw [h]
  · rcases lt_or_gt_of_ne h with h | h
    · have := hb2 (i := j) (j := i) h
      rwa [Matrix.transpose_apply] at this
    · exact hu i j h

/-- `retr(x, 0) = x`, whatever QR factorisation torch returns: the sign fix undoes its choice. -/
theorem C26_retr_zero {x q : Matrix (Fin n) (Fin m) ℝ} {r : Matrix (Fin m) (Fin m) ℝ}
    (hx : OnStiefel x) (h : IsQR (x + 0) q r) : Euclidean.retr q r = x := by
  have hx' : xᵀ * x = 1 := hx
  have he := h.eq
  rw [add_zero] at he
  have ho : rᵀ * r = 1 := by
    rw [he, Matrix.transpose_mul, Matrix.mul_assoc, ← Matrix.mul_assoc qᵀ, h.orth,
      Matrix.one_mul] at hx'
    exact hx'
  have hd := orth_upper_diag ho h.upper
  rw [retr_eq]
  have hs : (fun j => usign (r j j)) = fun j => r j j := by
    funext j
    have h1 : r j j * r j j = 1 := by
      have := congrFun (congrFun ho j) j
      rw [hd] at this
      simpa using this
    rcases mul_self_eq_one_iff.1 h1 with h2 | h2
    · rw [h2, usign_of_nonneg (by norm_num)]
    · rw [h2, usign_of_neg (by norm_num)]
  rw [hs, ← hd, ← he]

/-- `x + u` has full column rank for every tangent `u`. -/
theorem C26_retr_full_rank {x u : Matrix (Fin n) (Fin m) ℝ} (hx : OnStiefel x) (hu : Tangent x u)
    (v : Fin m → ℝ) (h : (x + u) *ᵥ v = 0) : v = 0 := by
  have hx' : xᵀ * x = 1 := hx
  have hu' : (xᵀ * u)ᵀ = -(xᵀ * u) := hu
  have h1 : v ⬝ᵥ (xᵀ *ᵥ ((x + u) *ᵥ v)) = 0 := by rw [h]; simp
  rw [Matrix.mulVec_mulVec, Matrix.mul_add, hx', Matrix.add_mulVec, Matrix.one_mulVec,
    dotProduct_add, skew_dot hu', add_zero] at h1
  exact dot_self_eq_zero.1 h1

/-- `retr` is a function of `x` and `u`: every QR factorisation of `x + u` that torch might
return gives the same result, because the signs are fixed. -/
theorem C26_retr_unique {x u q q' : Matrix (Fin n) (Fin m) ℝ} {r r' : Matrix (Fin m) (Fin m) ℝ}
    (hx : OnStiefel x) (hu : Tangent x u) (h : IsQR (x + u) q r) (h' : IsQR (x + u) q' r') :
    Euclidean.retr q r = Euclidean.retr q' r' := by
  have det_of : ∀ {q : Matrix (Fin n) (Fin m) ℝ} {r : Matrix (Fin m) (Fin m) ℝ},
      IsQR (x + u) q r → r.det ≠ 0 := by
    intro q r h h0
    obtain ⟨v, hv, hv0⟩ := Matrix.exists_mulVec_eq_zero_iff.2 h0
    apply hv
    apply C26_retr_full_rank hx hu
    rw [h.eq, ← Matrix.mulVec_mulVec, hv0, Matrix.mulVec_zero]
  have diag_ne : ∀ {q : Matrix (Fin n) (Fin m) ℝ} {r : Matrix (Fin m) (Fin m) ℝ},
      IsQR (x + u) q r → ∀ j, r j j ≠ 0 := by
    intro q r h j hj
    apply det_of h
    rw [Matrix.det_of_upperTriangular (fun i j hij => h.upper i j hij)]
    exact Finset.prod_eq_zero (Finset.mem_univ j) hj
  have hd := det_of h
  have hd' := det_of h'
  have hU : IsUnit r.det := isUnit_iff_ne_zero.2 hd
  -- `q' = q T` with `T = r r'⁻¹`
  have hU' : IsUnit r'.det := isUnit_iff_ne_zero.2 hd'
  set T := r * r'⁻¹ with hT
  have hq : q' = q * T := by
    have e : q' * r' = q * r := by rw [← h.eq, ← h'.eq]
    calc q' = q' * (r' * r'⁻¹) := by rw [Matrix.mul_nonsing_inv _ hU', Matrix.mul_one]
      _ = q * T := by rw [← Matrix.mul_assoc, e, hT, Matrix.mul_assoc]
  have hTo : Tᵀ * T = 1 := by
    have := h'.orth
    rw [hq, Matrix.transpose_mul, Matrix.mul_assoc, ← Matrix.mul_assoc qᵀ, h.orth,
      Matrix.one_mul] at this
    exact this
  have hr : r = T * r' := by
    rw [hT, Matrix.mul_assoc, Matrix.nonsing_inv_mul _ hU', Matrix.mul_one]
  have hTu : ∀ i j, j < i → T i j = 0 := by
    have : Invertible r' := Matrix.invertibleOfIsUnitDet r' hU'
    have b1 : BlockTriangular r id := fun i j h1 => h.upper i j h1
    have b2 : BlockTriangular r' id := fun i j h1 => h'.upper i j h1
    have b3 : BlockTriangular T id := b1.mul (blockTriangular_inv_of_blockTriangular b2)
    exact fun i j h1 => b3 h1
  have hTd := orth_upper_diag hTo hTu
  have hrd : ∀ j, r j j = T j j * r' j j := by
    intro j
    have := congrFun (congrFun hr j) j
    rw [hTd, Matrix.diagonal_mul] at this
    exact this
  rw [retr_eq, retr_eq, hq, hTd, Matrix.mul_assoc, Matrix.diagonal_mul_diagonal]
  congr 2
  funext j
  have h1 : T j j * T j j = 1 := by
    have := congrFun (congrFun hTo j) j
    rw [hTd] at this
    simpa using this
  have hn := diag_ne h' j
  rw [hrd j]
  rcases mul_self_eq_one_iff.1 h1 with h2 | h2
  · rw [h2, one_mul, one_mul]
  · rw [h2]
    rcases lt_or_gt_of_ne hn with h3 | h3
    · rw [usign_of_neg h3, usign_of_nonneg (by linarith)]; norm_num
    · rw [usign_of_nonneg h3.le, usign_of_neg (by linarith)]; norm_num

/-- `expmap` of a tangent vector has orthonormal columns. -/
theorem C26_expmap_on_stiefel {x u : Matrix (Fin n) (Fin m) ℝ} (hx : OnStiefel x)
    (hu : Tangent x u) : OnStiefel (Euclidean.expmap x u) := by
  have hx' : xᵀ * x = 1 := hx
  have hA : (xᵀ * u)ᵀ = -(xᵀ * u) := hu
  have hux : uᵀ * x = -(xᵀ * u) := by rw [← hA, Matrix.transpose_mul, Matrix.transpose_transpose]
  have heye : (Matrix.of fun i j => 0 + if i = j then 1 else 0 : Matrix (Fin m) (Fin m) ℝ) = 1 := by
    ext i j; simp [Matrix.one_apply]
  unfold OnStiefel
  simp only [Euclidean.expmap, heye]
  have hS : (uᵀ * u)ᵀ = uᵀ * u := by rw [Matrix.transpose_mul, Matrix.transpose_transpose]
  have hG : (fromCols x u)ᵀ * fromCols x u = fromBlocks 1 (xᵀ * u) (-(xᵀ * u)) (uᵀ * u) := by
    rw [Matrix.transpose_fromCols, Matrix.fromRows_mul_fromCols, hx', hux]
  generalize xᵀ * u = A at *
  generalize uᵀ * u = S at *
  set L : Matrix (Fin m ⊕ Fin m) (Fin m ⊕ Fin m) ℝ := fromBlocks A (-S) 1 A with hL
  set G : Matrix (Fin m ⊕ Fin m) (Fin m ⊕ Fin m) ℝ := fromBlocks 1 A (-A) S with hGd
  have hsemi : SemiconjBy G L (-Lᵀ) := by
    unfold SemiconjBy
    rw [hL, hGd, Matrix.fromBlocks_transpose, hA, Matrix.transpose_neg, hS, Matrix.transpose_one,
      Matrix.fromBlocks_neg, Matrix.fromBlocks_multiply, Matrix.fromBlocks_multiply]
    congr 1 <;> noncomm_ring
  have hexp : (NormedSpace.exp L)ᵀ * G * NormedSpace.exp L = G := by
    have h1 : SemiconjBy G (NormedSpace.exp L) (NormedSpace.exp (-Lᵀ)) := by
      open scoped Matrix.Norms.Operator in exact hsemi.exp_right
    rw [Matrix.mul_assoc, h1.eq, ← Matrix.mul_assoc, ← Matrix.exp_transpose,
      ← Matrix.exp_add_of_commute _ _ (Commute.refl Lᵀ).neg_right]
    simp
  have hz : ∀ B : Matrix (Fin m) (Fin m) ℝ,
      (fromRows B (0 : Matrix (Fin m) (Fin m) ℝ))ᵀ * G * fromRows B 0 = Bᵀ * B := by
    intro B
    rw [Matrix.transpose_fromRows, hGd, Matrix.fromCols_mul_fromBlocks, Matrix.fromCols_mul_fromRows]
    simp
  have hAA : (NormedSpace.exp (-A))ᵀ * NormedSpace.exp (-A) = 1 := by
    rw [← Matrix.exp_transpose, Matrix.transpose_neg, hA, neg_neg,
      ← Matrix.exp_add_of_commute _ _ (Commute.refl A).neg_right]
    simp
  rw [Matrix.transpose_mul, Matrix.transpose_mul]
  set z := fromRows (NormedSpace.exp (-A)) (0 : Matrix (Fin m) (Fin m) ℝ)
  calc zᵀ * ((NormedSpace.exp L)ᵀ * (fromCols x u)ᵀ) * (fromCols x u * NormedSpace.exp L * z)
      = zᵀ * ((NormedSpace.exp L)ᵀ * ((fromCols x u)ᵀ * fromCols x u) * NormedSpace.exp L) * z := by
        simp only [Matrix.mul_assoc]
    _ = 1 := by rw [hG, hexp, hz, hAA]

/-- `expmap(x, 0) = x`. -/
theorem C26_expmap_zero (x : Matrix (Fin n) (Fin m) ℝ) : Euclidean.expmap x 0 = x := by
  have heye : (Matrix.of fun i j => 0 + if i = j then 1 else 0 : Matrix (Fin m) (Fin m) ℝ) = 1 := by
    ext i j; simp [Matrix.one_apply]
  simp only [Euclidean.expmap, heye, Matrix.mul_zero, Matrix.transpose_zero, neg_zero,
    NormedSpace.exp_zero]
  set L : Matrix (Fin m ⊕ Fin m) (Fin m ⊕ Fin m) ℝ := fromBlocks 0 0 1 0 with hL
  -- `[x 0]` is killed by `L` from the right
  have hk : SemiconjBy (fromBlocks 1 0 0 0 : Matrix (Fin m ⊕ Fin m) (Fin m ⊕ Fin m) ℝ) L 0 := by
    unfold SemiconjBy
    rw [hL, Matrix.fromBlocks_multiply]; simp
  have h1 : SemiconjBy (fromBlocks 1 0 0 0 : Matrix (Fin m ⊕ Fin m) (Fin m ⊕ Fin m) ℝ)
      (NormedSpace.exp L) (NormedSpace.exp 0) := by
    open scoped Matrix.Norms.Operator in exact hk.exp_right
  have hx0 : fromCols x (0 : Matrix (Fin n) (Fin m) ℝ)
      = fromCols x 0 * (fromBlocks 1 0 0 0 : Matrix (Fin m ⊕ Fin m) (Fin m ⊕ Fin m) ℝ) := by
    rw [Matrix.fromCols_mul_fromBlocks]; simp
  rw [hx0, Matrix.mul_assoc (fromCols x 0), h1.eq, NormedSpace.exp_zero, Matrix.one_mul, ← hx0,
    Matrix.fromCols_mul_fromRows]
  simp

/-! ## projection and origin -/

/-- `projx` has orthonormal columns, whatever SVD torch returns, for every input. -/
theorem C26_projx_on_stiefel {x U : Matrix (Fin n) (Fin m) ℝ} {S : Fin m → ℝ}
    {V : Matrix (Fin m) (Fin m) ℝ} (h : IsSVD x U S V) : OnStiefel (projx U V) := by
  unfold OnStiefel projx
  rw [Matrix.transpose_mul, Matrix.mul_assoc, ← Matrix.mul_assoc Uᵀ, h.orthU, Matrix.one_mul]
  exact mul_eq_one_comm.1 h.orthV

/-- `projx` leaves points of the manifold where they are. -/
theorem C26_projx_fixes {x U : Matrix (Fin n) (Fin m) ℝ} {S : Fin m → ℝ}
    {V : Matrix (Fin m) (Fin m) ℝ} (h : IsSVD x U S V) (hx : OnStiefel x) : projx U V = x := by
  have hx' : xᵀ * x = 1 := hx
  rw [h.eq] at hx'
  have hS : diagonal S * diagonal S = 1 := by
    have e : V * ((U * diagonal S * V)ᵀ * (U * diagonal S * V)) * Vᵀ
        = (V * Vᵀ) * (diagonal S * (Uᵀ * U) * diagonal S) * (V * Vᵀ) := by
      simp only [Matrix.transpose_mul, Matrix.diagonal_transpose, Matrix.mul_assoc]
    rw [hx', h.orthV, h.orthU] at e
    simpa [h.orthV] using e.symm
  have hS1 : S = fun _ => 1 := by
    funext i
    have := congrFun (congrFun hS i) i
    simp only [Matrix.diagonal_mul_diagonal, Matrix.diagonal_apply_eq, Matrix.one_apply_eq] at this
    rcases mul_self_eq_one_iff.1 this with h2 | h2
    · exact h2
    · have := h.nonneg i; rw [h2] at this; norm_num at this
  rw [h.eq, hS1]
  simp [projx]

/-- `projx(x)` is a closest point of the manifold in Frobenius norm. -/
theorem C26_projx_closest {x U : Matrix (Fin n) (Fin m) ℝ} {S : Fin m → ℝ}
    {V : Matrix (Fin m) (Fin m) ℝ} (h : IsSVD x U S V) {y : Matrix (Fin n) (Fin m) ℝ}
    (hy : OnStiefel y) :
    euclideanMetric (x - projx U V) (x - projx U V) ≤ euclideanMetric (x - y) (x - y) := by
  have hy' : yᵀ * y = 1 := hy
  have hp : (projx U V)ᵀ * projx U V = 1 := C26_projx_on_stiefel h
  have expand : ∀ z : Matrix (Fin n) (Fin m) ℝ, zᵀ * z = 1 →
      euclideanMetric (x - z) (x - z) = (xᵀ * x).trace - 2 * (zᵀ * x).trace + (m : ℝ) := by
    intro z hz
    unfold euclideanMetric
    rw [Matrix.transpose_sub, Matrix.sub_mul, Matrix.mul_sub, Matrix.mul_sub, hz]
    have : (xᵀ * z).trace = (zᵀ * x).trace := by
      rw [← Matrix.trace_transpose, Matrix.transpose_mul, Matrix.transpose_transpose]
    simp only [Matrix.trace_sub, this, Matrix.trace_one, Fintype.card_fin]
    ring
  rw [expand _ hp, expand _ hy']
  have hVV : Vᵀ * V = 1 := mul_eq_one_comm.1 h.orthV
  have e1 : ((projx U V)ᵀ * x).trace = ∑ i, S i := by
    rw [h.eq, projx, Matrix.transpose_mul, Matrix.mul_assoc, ← Matrix.mul_assoc Uᵀ,
      ← Matrix.mul_assoc Uᵀ, h.orthU, Matrix.one_mul, Matrix.trace_mul_comm, Matrix.mul_assoc,
      h.orthV, Matrix.mul_one, Matrix.trace_diagonal]
  set w := y * Vᵀ with hw
  have hww : wᵀ * w = 1 := by
    rw [hw, Matrix.transpose_mul, Matrix.transpose_transpose, Matrix.mul_assoc,
      ← Matrix.mul_assoc yᵀ, hy', Matrix.one_mul, h.orthV]
  have e2 : (yᵀ * x).trace = ∑ i, (∑ k, w k i * U k i) * S i := by
    have : (yᵀ * x).trace = (wᵀ * U * diagonal S).trace := by
      rw [h.eq, hw, Matrix.transpose_mul, Matrix.transpose_transpose, ← Matrix.mul_assoc,
        Matrix.trace_mul_comm]
      simp only [Matrix.mul_assoc]
    rw [this]
    simp only [Matrix.trace, Matrix.diag, Matrix.mul_diagonal]
    simp [Matrix.mul_apply]
  have hle : (yᵀ * x).trace ≤ ((projx U V)ᵀ * x).trace := by
    rw [e1, e2]
    apply Finset.sum_le_sum
    intro i _
    have h1 : (∑ k, w k i * U k i) ≤ 1 := by
      have a1 : (fun k => w k i) ⬝ᵥ (fun k => w k i) = 1 := by
        have := congrFun (congrFun hww i) i
        simpa [Matrix.mul_apply, dotProduct] using this
      have a2 : (fun k => U k i) ⬝ᵥ (fun k => U k i) = 1 := by
        have := congrFun (congrFun h.orthU i) i
        simpa [Matrix.mul_apply, dotProduct] using this
      have := dot_le (fun k => w k i) (fun k => U k i)
      rw [nrm, nrm, a1, a2] at this
      simpa [dotProduct] using this
    have := mul_le_mul_of_nonneg_right h1 (h.nonneg i)
    linarith
  linarith

/-- `origin` has orthonormal columns for every admissible shape. -/
theorem C26_origin_on_stiefel (h : m ≤ n) : OnStiefel (origin : Matrix (Fin n) (Fin m) ℝ) := by
  unfold OnStiefel
  ext i j
  simp only [Matrix.mul_apply, Matrix.transpose_apply, origin, zero_add, Matrix.one_apply]
  rw [Finset.sum_eq_single (⟨i.val, by omega⟩ : Fin n)]
  · simp [Fin.ext_iff]
  · intro b _ hb
    have : b.val ≠ i.val := fun e => hb (Fin.ext e)
    simp [this]
  · simp

/-- C74: random points are on the manifold for every draw. -/
theorem C74_stiefel_random {noise q : Matrix (Fin n) (Fin m) ℝ} {r : Matrix (Fin m) (Fin m) ℝ}
    (h : IsQR noise q r) : OnStiefel (randomNaive q) := h.orth

/-- Points and tangent vectors pass the checks with any tolerance. -/
theorem C26_passes_checks {atol rtol : ℝ} (ha : 0 ≤ atol) {x u : Matrix (Fin n) (Fin m) ℝ}
    (hx : OnStiefel x) (hu : Tangent x u) :
    CheckPoint atol rtol x ∧ CheckTangent atol rtol x u := by
  have hx' : xᵀ * x = 1 := hx
  have hu' : (xᵀ * u)ᵀ = -(xᵀ * u) := hu
  constructor
  · intro i j
    rw [hx', Matrix.one_apply]; simpa using ha
  · intro i j
    rw [show uᵀ * x = (xᵀ * u)ᵀ by rw [Matrix.transpose_mul, Matrix.transpose_transpose], hu']
    simpa using ha

/-! ## the hypotheses are met -/

/-- a 3×2 point with a tangent vector that is not horizontal -/
example : OnStiefel (!![1, 0; 0, 1; 0, 0] : Matrix (Fin 3) (Fin 2) ℝ) ∧
    Tangent (!![1, 0; 0, 1; 0, 0] : Matrix (Fin 3) (Fin 2) ℝ) !![0, 2; -2, 0; 5, 7] := by
  constructor
  · unfold OnStiefel; ext i j; fin_cases i <;> fin_cases j <;>
      simp [Matrix.mul_apply, Fin.sum_univ_succ]
  · unfold Tangent; ext i j; fin_cases i <;> fin_cases j <;>
      simp [Matrix.mul_apply, Fin.sum_univ_succ]

/-- a QR and an SVD factorisation in the sense of the contracts, with a negative diagonal entry
in `R` -/
example : IsQR (!![1, 0; 0, 1; 0, 0] : Matrix (Fin 3) (Fin 2) ℝ) !![-1, 0; 0, 1; 0, 0]
    !![-1, 0; 0, 1] ∧
    IsSVD (!![2, 0; 0, 3; 0, 0] : Matrix (Fin 3) (Fin 2) ℝ) !![1, 0; 0, 1; 0, 0] ![2, 3] 1 := by
  constructor
  · refine ⟨?_, ?_, ?_⟩
    · ext i j; fin_cases i <;> fin_cases j <;> simp [Matrix.mul_apply, Fin.sum_univ_succ]
    · ext i j; fin_cases i <;> fin_cases j <;> simp [Matrix.mul_apply, Fin.sum_univ_succ]
    · intro i j h; fin_cases i <;> fin_cases j <;> simp_all
  · refine ⟨?_, ?_, by simp, ?_⟩
    · rw [Matrix.mul_one]
      ext i j; rw [Matrix.mul_diagonal]; fin_cases i <;> fin_cases j <;> simp
    · ext i j; fin_cases i <;> fin_cases j <;> simp [Matrix.mul_apply, Fin.sum_univ_succ]
    · intro i; fin_cases i <;> simp

end Geoopt.Stiefel
