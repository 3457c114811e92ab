import Verif.Lemmas.Siegel
import Verif.Lemmas.Spectral
import Mathlib.LinearAlgebra.Matrix.Charpoly.Basic
import Mathlib.Algebra.Polynomial.Roots
import Mathlib.Data.List.Sort
import Mathlib.Data.Fin.Tuple.Sort
import Mathlib.LinearAlgebra.Matrix.SchurComplement

/-! Sorted spectra, the compound matrix `[[A, B], [B, -A]]` and the Takagi factorisation. -/

namespace Geoopt.Siegel
open Matrix Geoopt Geoopt.Linalg Geoopt.SPD Polynomial

variable {n m : ℕ}

/-! ## Sorted spectra -/

theorem charpoly_dec {x : RMat m} {e v} (h : Dec x e v) :
    x.charpoly = ((Finset.univ.val.map e).map fun a => X - C a).prod := by
  rw [h.eq, Matrix.charpoly_mul_comm, ← Matrix.mul_assoc, h.orth, one_mul, charpoly_diagonal,
    Multiset.map_map]
  rfl

theorem multiset_of_charpoly {x y : RMat m} {e v e' v'} (h : Dec x e v) (h' : Dec y e' v')
    (hc : x.charpoly = y.charpoly) :
    (Finset.univ.val.map e : Multiset ℝ) = Finset.univ.val.map e' := by
  rw [← roots_multiset_prod_X_sub_C (Finset.univ.val.map e), ← charpoly_dec h, hc,
    charpoly_dec h', roots_multiset_prod_X_sub_C]

theorem mono_unique {e e' : Fin m → ℝ} (he : Monotone e) (he' : Monotone e')
    (h : (Finset.univ.val.map e : Multiset ℝ) = Finset.univ.val.map e') : e = e' := by
  rw [Fin.univ_val_map, Fin.univ_val_map, Multiset.coe_eq_coe] at h
  exact List.ofFn_injective (h.eq_of_sortedLE he.sortedLE_ofFn he'.sortedLE_ofFn)

theorem multiset_rev (e : Fin m → ℝ) :
    (Finset.univ.val.map fun i : Fin m => e i.rev : Multiset ℝ) = Finset.univ.val.map e := by
  have : (Finset.univ.val.map fun i : Fin m => e i.rev : Multiset ℝ) =
      (Finset.univ.val.map (Fin.revPerm)).map e := by
    rw [Multiset.map_map]; rfl
  rw [this]
  congr 1
  have := congrArg Finset.val (Finset.map_univ_equiv (Fin.revPerm (n := m)))
  rwa [Finset.map_val] at this

/-- Ascending eigenvalues of a matrix similar to its negative are antisymmetric. -/
theorem rev_neg {x : RMat m} {e v} (h : Dec x e v) (he : Monotone e)
    (hc : (-x).charpoly = x.charpoly) (i : Fin m) : e i.rev = -e i := by
  have hn : Dec (-x) (fun i => -e i) v := ⟨h.orth, by
    rw [h.eq, show (diagonal fun i => -e i) = -diagonal e by rw [diagonal_neg]]
    rw [mul_neg, neg_mul]⟩
  have h1 := multiset_of_charpoly hn h hc
  rw [← multiset_rev] at h1
  have h2 := mono_unique (e := fun i => -e i.rev) (e' := e) ?_ he h1
  · have : -e i.rev = e i := congrFun h2 i
    linarith
  · intro a b hab
    exact neg_le_neg (he (Fin.rev_le_rev.2 hab))

/-! ## Blocks -/

theorem blockMatrix_eq (a b c d : RMat n) :
    blockMatrix a b c d = (fromBlocks a b c d).submatrix finSumFinEquiv.symm finSumFinEquiv.symm := by
  ext i j
  refine Fin.addCases (fun i => ?_) (fun i => ?_) i <;>
    refine Fin.addCases (fun j => ?_) (fun j => ?_) j <;>
    simp [blockMatrix, catRows, catCols, -Fin.natAdd_eq_addNat]

theorem mul_diag_tr {R : Type*} [CommSemiring R] {a b c : Type*} [Fintype c] [DecidableEq c]
    (x : Matrix a c R) (s : c → R) (y : Matrix b c R) (i : a) (k : b) :
    (x * diagonal s * yᵀ) i k = ∑ j, x i j * s j * y k j := by
  rw [Matrix.mul_apply]
  simp only [Matrix.mul_diagonal, transpose_apply]

theorem blockMatrix_mul (a b c d a' b' c' d' : RMat n) :
    blockMatrix a b c d * blockMatrix a' b' c' d' =
      blockMatrix (a * a' + b * c') (a * b' + b * d') (c * a' + d * c') (c * b' + d * d') := by
  simp only [blockMatrix_eq, submatrix_mul_equiv, fromBlocks_multiply]

theorem blockMatrix_transpose (a b c d : RMat n) :
    (blockMatrix a b c d)ᵀ = blockMatrix aᵀ cᵀ bᵀ dᵀ := by
  simp only [blockMatrix_eq, transpose_submatrix, fromBlocks_transpose]

theorem blockMatrix_one : (1 : RMat (n + n)) = blockMatrix 1 0 0 1 := by
  rw [blockMatrix_eq, fromBlocks_one, submatrix_one_equiv]

theorem blockMatrix_neg (a b c d : RMat n) :
    -blockMatrix a b c d = blockMatrix (-a) (-b) (-c) (-d) := by
  simp only [blockMatrix_eq, ← fromBlocks_neg]; rfl

theorem blockMatrix_add (a b c d a' b' c' d' : RMat n) :
    blockMatrix a b c d + blockMatrix a' b' c' d' =
      blockMatrix (a + a') (b + b') (c + c') (d + d') := by
  simp only [blockMatrix_eq, ← fromBlocks_add]; rfl

theorem blockMatrix_inj {a b c d a' b' c' d' : RMat n}
    (h : blockMatrix a b c d = blockMatrix a' b' c' d') : a = a' ∧ b = b' ∧ c = c' ∧ d = d' := by
  rw [blockMatrix_eq, blockMatrix_eq] at h
  have := congrArg (fun M => M.submatrix finSumFinEquiv finSumFinEquiv) h
  simp only [submatrix_submatrix, Equiv.symm_comp_self, submatrix_id_id] at this
  exact fromBlocks_inj.1 this

/-- The quarter turn. -/
def quarter (n : ℕ) : RMat (n + n) := blockMatrix 0 1 (-1) 0

theorem quarter_tr : (quarter n)ᵀ = blockMatrix 0 (-1) 1 0 := by
  unfold quarter; rw [blockMatrix_transpose]; simp

theorem quarter_orth : (quarter n)ᵀ * quarter n = 1 := by
  rw [quarter_tr, quarter, blockMatrix_mul, blockMatrix_one]; simp

theorem quarter_conj (p q r s : RMat n) :
    (quarter n)ᵀ * blockMatrix p q r s * quarter n = blockMatrix s (-r) (-q) p := by
  rw [quarter_tr, quarter, blockMatrix_mul, blockMatrix_mul]; simp

/-! ## The compound matrix -/

theorem compound_eq (z : CMat n) :
    toCompoundSymmetric z = blockMatrix (reM z) (imM z) (imM z) (-(reM z)) := rfl

theorem compound_symm {z : CMat n} (hz : CSymm z) :
    (toCompoundSymmetric z)ᵀ = toCompoundSymmetric z := by
  have hr : (reM z)ᵀ = reM z := by ext i j; simp [reM, hz j i]
  have hi : (imM z)ᵀ = imM z := by ext i j; simp [imM, hz j i]
  rw [compound_eq, blockMatrix_transpose, transpose_neg, hr, hi]

theorem compound_inj {z w : CMat n} (h : toCompoundSymmetric z = toCompoundSymmetric w) :
    z = w := by
  obtain ⟨h1, h2, -, -⟩ := blockMatrix_inj h
  ext i j
  exact Complex.ext (congrFun (congrFun h1 i) j) (congrFun (congrFun h2 i) j)

theorem compound_quarter (z : CMat n) :
    (quarter n)ᵀ * toCompoundSymmetric z * quarter n = -toCompoundSymmetric z := by
  rw [compound_eq, quarter_conj, blockMatrix_neg, neg_neg]

theorem compound_charpoly (z : CMat n) :
    (-toCompoundSymmetric z).charpoly = (toCompoundSymmetric z).charpoly := by
  rw [← compound_quarter, Matrix.charpoly_mul_comm, ← Matrix.mul_assoc,
    mul_eq_one_comm.1 quarter_orth, one_mul]

theorem lower_of_symm {x : RMat m} (h : xᵀ = x) : lower x = x := by
  ext i j; unfold lower; simp only [of_apply]; split_ifs
  · rfl
  · exact congrFun (congrFun h i) j

theorem eighL_dec (E : EighL m) {x : RMat m} (h : xᵀ = x) : Dec x (E.e x) (E.v x) :=
  ⟨E.orth x, by rw [← E.eq x, lower_of_symm h]⟩

theorem eigvalsL_dec (E : EigvalsL m) {x : RMat m} (h : xᵀ = x) : ∃ v, Dec x (E.e x) v := by
  obtain ⟨v, h1, h2⟩ := E.eq x
  exact ⟨v, h1, by rw [← h2, lower_of_symm h]⟩

section
variable {z : CMat n} {e : Fin (n + n) → ℝ} {v : RMat (n + n)}

/-- The lower half of the spectrum of the compound matrix is non-positive, the upper half
non-negative. -/
theorem compound_bottom (h : Dec (toCompoundSymmetric z) e v) (he : Monotone e) (j : Fin n) :
    e (Fin.castAdd n j) ≤ 0 := by
  have h1 := rev_neg h he (compound_charpoly z) (Fin.castAdd n j)
  have h2 : e (Fin.castAdd n j) ≤ e (Fin.castAdd n j).rev := by
    apply he
    show (Fin.castAdd n j).val ≤ (Fin.castAdd n j).rev.val
    rw [Fin.val_rev]
    simp only [Fin.val_castAdd]
    omega
  linarith

theorem compound_top (h : Dec (toCompoundSymmetric z) e v) (he : Monotone e) (j : Fin n) :
    0 ≤ e (Fin.natAdd n j) := by
  have h1 := rev_neg h he (compound_charpoly z) (Fin.natAdd n j)
  have h2 : e (Fin.natAdd n j).rev ≤ e (Fin.natAdd n j) := by
    apply he
    show (Fin.natAdd n j).rev.val ≤ (Fin.natAdd n j).val
    rw [Fin.val_rev]
    simp only [Fin.val_natAdd]
    omega
  linarith

/-- Every eigenvalue is, up to sign, one of the upper half. -/
theorem compound_abs (h : Dec (toCompoundSymmetric z) e v) (he : Monotone e) (i : Fin (n + n)) :
    ∃ j : Fin n, |e i| = e (Fin.natAdd n j) := by
  by_cases hi : i.val < n
  · have h1 := rev_neg h he (compound_charpoly z) i
    refine ⟨⟨n - 1 - i.val, by omega⟩, ?_⟩
    have h3 : Fin.natAdd n (⟨n - 1 - i.val, by omega⟩ : Fin n) = i.rev := by
      ext; simp only [Fin.val_natAdd, Fin.val_rev]; omega
    have h2 := compound_top h he ⟨n - 1 - i.val, by omega⟩
    rw [h3] at h2 ⊢
    rw [h1] at h2 ⊢
    rw [abs_of_nonpos (by linarith)]
  · refine ⟨⟨i.val - n, by omega⟩, ?_⟩
    have h3 : Fin.natAdd n (⟨i.val - n, by omega⟩ : Fin n) = i := by
      ext; simp only [Fin.val_natAdd]; omega
    have h2 := compound_top h he ⟨i.val - n, by omega⟩
    rw [h3] at h2 ⊢
    exact abs_of_nonneg h2

/-- The part of a function on the positive reals. -/
noncomputable def posPart (f : ℝ → ℝ) (t : ℝ) : ℝ := if 0 < t then f t else 0

/-- The complex matrix that `takagi_eig` builds from the right half of the eigenvectors. -/
def uOf (v : RMat (n + n)) : CMat n :=
  toComplex (chunkRows (chunkLastCols v)).1 (-(chunkRows (chunkLastCols v)).2)

theorem fn_pos_blocks (h : Dec (toCompoundSymmetric z) e v) (he : Monotone e) (f : ℝ → ℝ)
    (hf0 : f 0 = 0) :
    fn (posPart f) e v =
      (let x := (chunkRows (chunkLastCols v)).1
       let y := (chunkRows (chunkLastCols v)).2
       let D := diagonal fun j => f (e (Fin.natAdd n j))
       blockMatrix (x * D * xᵀ) (x * D * yᵀ) (y * D * xᵀ) (y * D * yᵀ)) := by
  have hb : ∀ j : Fin n, posPart f (e (Fin.castAdd n j)) = 0 := fun j =>
    if_neg (not_lt.2 (compound_bottom h he j))
  have ht : ∀ j : Fin n, posPart f (e (Fin.natAdd n j)) = f (e (Fin.natAdd n j)) := by
    intro j
    unfold posPart
    split_ifs with hp
    · rfl
    · rw [le_antisymm (not_lt.1 hp) (compound_top h he j), hf0]
  have key : ∀ i k, fn (posPart f) e v i k =
      ∑ j : Fin n, v i (Fin.natAdd n j) * f (e (Fin.natAdd n j)) * v k (Fin.natAdd n j) := by
    intro i k
    unfold fn
    rw [mul_diag_tr]
    rw [Fin.sum_univ_add]
    simp only [hb, ht, mul_zero, zero_mul, Finset.sum_const_zero, zero_add]
  ext i k
  rw [key]
  refine Fin.addCases (fun i => ?_) (fun i => ?_) i <;>
    refine Fin.addCases (fun k => ?_) (fun k => ?_) k <;>
    simp [blockMatrix, catRows, catCols, mul_diag_tr, chunkRows,
      chunkLastCols, -Fin.natAdd_eq_addNat]

theorem takagi_re_im (x y : RMat n) (s : Fin n → ℝ) :
    conjM (toComplex x (-y)) * asComplex (diagonal s) * (conjM (toComplex x (-y)))ᵀ =
      toComplex (x * diagonal s * xᵀ - y * diagonal s * yᵀ)
        (x * diagonal s * yᵀ + y * diagonal s * xᵀ) := by
  have hd : asComplex (diagonal s) = diagonal fun j => (s j : ℂ) := by
    ext i j; simp only [asComplex, of_apply, diagonal_apply]; split_ifs <;> simp
  rw [hd]
  ext i k
  simp only [mul_diag_tr, toComplex, conjM, of_apply, Matrix.sub_apply, Matrix.add_apply]
  apply Complex.ext
  · simp only [Complex.re_sum, ← Finset.sum_sub_distrib]
    refine Finset.sum_congr rfl fun j _ => ?_
    simp
  · simp only [Complex.im_sum, ← Finset.sum_add_distrib]
    refine Finset.sum_congr rfl fun j _ => ?_
    simp

/-- **Functional calculus through the Takagi vectors.**  For odd `f`, the complex matrix
`conj(u) f(σ) conj(u)ᵀ` has compound matrix `f(compound z)`.  No assumption that `u` is unitary
is needed (it need not be when zero is a repeated singular value). -/
theorem takagi_fn (h : Dec (toCompoundSymmetric z) e v) (he : Monotone e) (f : ℝ → ℝ)
    (hf : ∀ t, f (-t) = -f t) :
    toCompoundSymmetric (conjM (uOf v) *
      asComplex (diagonal fun j => f (e (Fin.natAdd n j))) * (conjM (uOf v))ᵀ) = fn f e v := by
  have hf0 : f 0 = 0 := by have := hf 0; rw [neg_zero] at this; linarith
  have h1 : Dec ((quarter n)ᵀ * toCompoundSymmetric z * quarter n) e ((quarter n)ᵀ * v) := by
    constructor
    · rw [transpose_mul, transpose_transpose]
      calc vᵀ * quarter n * ((quarter n)ᵀ * v) = vᵀ * (quarter n * (quarter n)ᵀ) * v := by
            simp only [Matrix.mul_assoc]
        _ = 1 := by rw [mul_eq_one_comm.1 quarter_orth, mul_one, h.orth]
    · conv_lhs => rw [h.eq]
      rw [transpose_mul, transpose_transpose]
      simp only [Matrix.mul_assoc]
  rw [compound_quarter] at h1
  have h2 : Dec (-toCompoundSymmetric z) (fun i => -e i) v := ⟨h.orth, by
    conv_lhs => rw [h.eq]
    rw [show (diagonal fun i => -e i) = -diagonal e by rw [diagonal_neg], mul_neg, neg_mul]⟩
  have h3 := fn_unique h2 h1 (posPart f)
  have h4 : fn (posPart f) e ((quarter n)ᵀ * v) =
      (quarter n)ᵀ * fn (posPart f) e v * quarter n := by
    unfold fn
    rw [transpose_mul, transpose_transpose]
    simp only [Matrix.mul_assoc]
  have h5 : fn f e v = fn (posPart f) e v - fn (posPart f) (fun i => -e i) v := by
    unfold fn
    rw [← sub_mul, ← mul_sub, diagonal_sub]
    congr 3
    ext i
    unfold posPart
    rcases lt_trichotomy (e i) 0 with hi | hi | hi
    · rw [if_neg (by linarith), if_pos (by linarith), hf]; ring
    · rw [if_neg hi.not_gt, if_neg (by simp [hi]), hi, hf0]; ring
    · rw [if_pos hi, if_neg (by linarith)]; ring
  rw [h5, h3, h4, fn_pos_blocks h he f hf0]
  simp only [uOf]
  rw [quarter_conj, takagi_re_im, compound_eq, sub_eq_add_neg (blockMatrix _ _ _ _),
    blockMatrix_neg, blockMatrix_add]
  congr 1 <;> ext i j <;> simp [reM, imM, toComplex] <;> ring

end

/-! ## Lengths -/

theorem rlen2_eq (p : Fin m → ℝ) : rlen2 p = p ⬝ᵥ p := by
  simp only [rlen2, dotProduct, sq]

theorem rlen2_orth {v : RMat m} (h : v * vᵀ = 1) (p : Fin m → ℝ) : rlen2 (vᵀ *ᵥ p) = rlen2 p := by
  rw [rlen2_eq, rlen2_eq, Matrix.dotProduct_mulVec, Matrix.vecMul_transpose, Matrix.mulVec_mulVec,
    h, one_mulVec]

theorem rlen2_fn {v : RMat m} (h : vᵀ * v = 1) (f : ℝ → ℝ) (e : Fin m → ℝ) (p : Fin m → ℝ) :
    rlen2 (fn f e v *ᵥ p) = ∑ i, f (e i) ^ 2 * ((vᵀ *ᵥ p) i) ^ 2 := by
  rw [rlen2_eq, Matrix.dotProduct_mulVec, ← Matrix.mulVec_transpose, fn_symm, Matrix.mulVec_mulVec,
    fn_mul h, dotProduct_comm, quad_fn]
  simp only [sq]

/-- The real vector that stands for the complex vector `w`. -/
def split (w : Fin n → ℂ) : Fin (n + n) → ℝ :=
  Fin.append (fun j => (w j).re) (fun j => -(w j).im)

theorem split_surj (p : Fin (n + n) → ℝ) : ∃ w : Fin n → ℂ, split w = p := by
  refine ⟨fun j => ⟨p (Fin.castAdd n j), -p (Fin.natAdd n j)⟩, ?_⟩
  ext i
  refine Fin.addCases (fun i => ?_) (fun i => ?_) i <;> simp [split, -Fin.natAdd_eq_addNat]

theorem rlen2_split (w : Fin n → ℂ) : rlen2 (split w) = len2 w := by
  unfold rlen2 len2
  rw [Fin.sum_univ_add, ← Finset.sum_add_distrib]
  refine Finset.sum_congr rfl fun i _ => ?_
  simp only [split, Fin.append_left, Fin.append_right, Complex.normSq_apply]
  ring

theorem compound_mulVec (z : CMat n) (w : Fin n → ℂ) :
    toCompoundSymmetric z *ᵥ split w =
      Fin.append (fun i => ((z *ᵥ w) i).re) (fun i => ((z *ᵥ w) i).im) := by
  ext i
  refine Fin.addCases (fun i => ?_) (fun i => ?_) i
  · simp only [Fin.append_left, mulVec, dotProduct, Complex.re_sum]
    rw [Fin.sum_univ_add, ← Finset.sum_add_distrib]
    refine Finset.sum_congr rfl fun j _ => ?_
    simp [toCompoundSymmetric, blockMatrix, catRows, catCols, split, reM, imM,
      -Fin.natAdd_eq_addNat]
    ring
  · simp only [Fin.append_right, mulVec, dotProduct, Complex.im_sum]
    rw [Fin.sum_univ_add, ← Finset.sum_add_distrib]
    refine Finset.sum_congr rfl fun j _ => ?_
    simp [toCompoundSymmetric, blockMatrix, catRows, catCols, split, reM, imM,
      -Fin.natAdd_eq_addNat]
    ring

theorem rlen2_compound (z : CMat n) (w : Fin n → ℂ) :
    rlen2 (toCompoundSymmetric z *ᵥ split w) = len2 (z *ᵥ w) := by
  rw [compound_mulVec]
  unfold rlen2 len2
  rw [Fin.sum_univ_add, ← Finset.sum_add_distrib]
  refine Finset.sum_congr rfl fun i _ => ?_
  simp only [Fin.append_left, Fin.append_right, Complex.normSq_apply]
  ring

theorem csymm_of_compound {z : CMat n}
    (h : (toCompoundSymmetric z)ᵀ = toCompoundSymmetric z) : CSymm z := by
  rw [compound_eq, blockMatrix_transpose] at h
  obtain ⟨h1, h2, -, -⟩ := blockMatrix_inj h
  intro i j
  exact Complex.ext (congrFun (congrFun h1 j) i) (congrFun (congrFun h2 j) i)

/-- A bound on the singular values bounds the eigenvalues of the compound matrix. -/
theorem abs_le_of_len {z : CMat n} {e v} (h : Dec (toCompoundSymmetric z) e v) {c : ℝ}
    (hc : 0 ≤ c) (hz : ∀ w, len2 (z *ᵥ w) ≤ c ^ 2 * len2 w) (i : Fin (n + n)) : |e i| ≤ c := by
  obtain ⟨w, hw⟩ := split_surj (v *ᵥ Pi.single i 1)
  have h1 := hz w
  rw [← rlen2_compound, ← rlen2_split, hw] at h1
  have h2 : vᵀ *ᵥ (v *ᵥ Pi.single i 1) = (Pi.single i 1 : Fin (n + n) → ℝ) := by
    rw [Matrix.mulVec_mulVec, h.orth, Matrix.one_mulVec]
  have h3 : rlen2 (v *ᵥ Pi.single i 1) = 1 := by
    rw [← rlen2_orth h.orth', h2]
    simp [rlen2, Pi.single_apply]
  rw [← fn_id h, rlen2_fn h.orth, h2, h3] at h1
  simp [Pi.single_apply] at h1
  exact abs_le_of_sq_le_sq h1 hc

theorem len_le_of_fn {z : CMat n} {e : Fin (n + n) → ℝ} {v} (hv : vᵀ * v = 1) {f : ℝ → ℝ}
    (h : toCompoundSymmetric z = fn f e v) {c : ℝ} (hf : ∀ i, |f (e i)| ≤ c) (w : Fin n → ℂ) :
    len2 (z *ᵥ w) ≤ c ^ 2 * len2 w := by
  rw [← rlen2_compound, ← rlen2_split, h, rlen2_fn hv, ← rlen2_orth (mul_eq_one_comm.1 hv) (split w)]
  unfold rlen2
  rw [Finset.mul_sum]
  refine Finset.sum_le_sum fun i _ => ?_
  apply mul_le_mul_of_nonneg_right _ (sq_nonneg _)
  exact sq_le_sq' (abs_le.1 (hf i)).1 (abs_le.1 (hf i)).2

/-! ## The contracts can be met -/

theorem lower_symm (x : RMat m) : (lower x)ᵀ = lower x := by
  ext i j; unfold lower; simp only [transpose_apply, of_apply]
  rcases lt_trichotomy i j with h | h | h
  · rw [if_pos h.le, if_neg (not_le.2 h)]
  · subst h; rfl
  · rw [if_neg (not_le.2 h), if_pos h.le]

theorem exists_dec_mono {x : RMat m} (h : xᵀ = x) : ∃ e v, Dec x e v ∧ Monotone e := by
  obtain ⟨e, v, hd⟩ := exists_dec h
  refine ⟨e ∘ Tuple.sort e, v.submatrix id (Tuple.sort e), ⟨?_, ?_⟩, Tuple.monotone_sort e⟩
  · ext i j
    have := congrFun (congrFun hd.orth (Tuple.sort e i)) (Tuple.sort e j)
    simp only [Matrix.mul_apply, transpose_apply, submatrix_apply, id] at this ⊢
    rw [this, Matrix.one_apply, Matrix.one_apply]
    simp
  · conv_lhs => rw [hd.eq]
    ext i j
    rw [mul_diag_tr, mul_diag_tr]
    simp only [submatrix_apply, id, Function.comp_apply]
    exact (Equiv.sum_comp (Tuple.sort e) fun k => v i k * e k * v j k).symm

/-- An `eigh` with ascending eigenvalues exists. -/
noncomputable def someEighL (m : ℕ) : EighL m where
  e x := (exists_dec_mono (lower_symm x)).choose
  v x := (exists_dec_mono (lower_symm x)).choose_spec.choose
  mono x := (exists_dec_mono (lower_symm x)).choose_spec.choose_spec.2
  orth x := (exists_dec_mono (lower_symm x)).choose_spec.choose_spec.1.orth
  eq x := (exists_dec_mono (lower_symm x)).choose_spec.choose_spec.1.eq

/-- An `eigvalsh` exists. -/
noncomputable def someEigvalsL (m : ℕ) : EigvalsL m where
  e := (someEighL m).e
  mono := (someEighL m).mono
  eq x := ⟨(someEighL m).v x, (someEighL m).orth x, (someEighL m).eq x⟩

end Geoopt.Siegel
