import Verif.Lemmas.Spectral
import Mathlib.Analysis.Matrix.LDL
import Mathlib.Analysis.Convex.SpecificFunctions.Basic
import Mathlib.Data.Fin.Tuple.Sort

/-!
Leading minors of positive definite matrices: for a non-decreasing family of weights the weighted sum of
the logarithms of the pivots grows at most by `∑ w k * (log m) k k` (`flag_le`).  This gives the triangle
inequality of the affine invariant distance.
-/

namespace Geoopt.SPD
open Matrix Geoopt.Linalg
variable {n : ℕ}

/-- The block of the rows and columns in `p`. -/
def blk (p : Fin n → Prop) (m : Mat n) : Matrix (Subtype p) (Subtype p) ℝ :=
  m.submatrix Subtype.val Subtype.val

/-- The inclusion of the coordinates in `p`. -/
def incl (p : Fin n → Prop) : Matrix (Fin n) (Subtype p) ℝ :=
  (1 : Mat n).submatrix id Subtype.val

section
variable (p : Fin n → Prop) [DecidablePred p]

theorem incl_orth : (incl p)ᵀ * incl p = 1 := by
  ext i j
  simp [incl, Matrix.mul_apply, Matrix.one_apply, Subtype.ext_iff]

theorem blk_eq (m : Mat n) : blk p m = (incl p)ᵀ * m * incl p := by
  ext i j
  simp [blk, incl, Matrix.mul_apply, Matrix.one_apply]

theorem blk_trace (m : Mat n) : (blk p m).trace = ∑ i : Subtype p, m i i := rfl

/-- The determinant of a block is at least the exponential of the trace of the block of the logarithm. -/
theorem log_det_blk {m : Mat n} (hm : OnSPD m) {e v} (h : Dec m e v) :
    0 < (blk p m).det ∧ ∑ i : Subtype p, fn Real.log e v i i ≤ Real.log (blk p m).det := by
  have hA : (blk p m).IsHermitian := by
    unfold Matrix.IsHermitian
    rw [Matrix.conjTranspose_eq_transpose_of_trivial]
    unfold blk
    rw [Matrix.transpose_submatrix, hm.tr]
  set V : Matrix (Subtype p) (Subtype p) ℝ := hA.eigenvectorUnitary.1 with hV
  have hVo : Vᵀ * V = 1 := by
    have := (Matrix.mem_unitaryGroup_iff').1 hA.eigenvectorUnitary.2
    rwa [Matrix.star_eq_conjTranspose, Matrix.conjTranspose_eq_transpose_of_trivial] at this
  have hVo' : V * Vᵀ = 1 := mul_eq_one_comm.1 hVo
  have hS : blk p m = V * diagonal hA.eigenvalues * Vᵀ := by
    have := hA.spectral_theorem
    rw [Unitary.conjStarAlgAut_apply] at this
    rw [Matrix.star_eq_conjTranspose, Matrix.conjTranspose_eq_transpose_of_trivial] at this
    exact this
  set R : Matrix (Fin n) (Subtype p) ℝ := vᵀ * (incl p * V) with hR
  have hRo : Rᵀ * R = 1 := by
    rw [hR]
    simp only [transpose_mul, transpose_transpose]
    calc Vᵀ * (incl p)ᵀ * v * (vᵀ * (incl p * V)) = Vᵀ * ((incl p)ᵀ * (v * vᵀ) * incl p) * V := by
          simp only [Matrix.mul_assoc]
      _ = 1 := by rw [h.orth', Matrix.mul_one, incl_orth, Matrix.mul_one, hVo]
  have hconj : ∀ f : ℝ → ℝ, Rᵀ * diagonal (fun i => f (e i)) * R = Vᵀ * blk p (fn f e v) * V := by
    intro f
    rw [hR, blk_eq]
    unfold fn
    simp only [transpose_mul, transpose_transpose, Matrix.mul_assoc]
  have hentry : ∀ (f : ℝ → ℝ) (j : Subtype p),
      (Rᵀ * diagonal (fun i => f (e i)) * R) j j = ∑ i, R i j ^ 2 * f (e i) := by
    intro f j
    simp only [Matrix.mul_apply (M := Rᵀ * _), mul_diagonal, transpose_apply]
    exact Finset.sum_congr rfl fun i _ => by ring
  have hmu : ∀ j, hA.eigenvalues j = ∑ i, R i j ^ 2 * e i := by
    intro j
    have h1 := hentry (fun t => t) j
    rw [hconj fun t => t, fn_id h, hS] at h1
    rw [← h1]
    have : Vᵀ * (V * diagonal hA.eigenvalues * Vᵀ) * V = diagonal hA.eigenvalues := by
      calc _ = (Vᵀ * V) * diagonal hA.eigenvalues * (Vᵀ * V) := by simp only [Matrix.mul_assoc]
        _ = _ := by rw [hVo, one_mul, mul_one]
    rw [this, diagonal_apply_eq]
  have hone : ∀ j, ∑ i, R i j ^ 2 = 1 := by
    intro j
    have := congrFun (congrFun hRo j) j
    rw [Matrix.mul_apply, one_apply_eq] at this
    rw [← this]
    exact Finset.sum_congr rfl fun i _ => by rw [transpose_apply]; ring
  have hpos := hm.pos h
  have hmupos : ∀ j, 0 < hA.eigenvalues j := by
    intro j
    rw [hmu]
    by_contra hle
    have h0 : ∀ i, R i j ^ 2 * e i = 0 := fun i =>
      (Finset.sum_eq_zero_iff_of_nonneg (fun i _ => mul_nonneg (sq_nonneg _) (hpos i).le)).1
        (le_antisymm (not_lt.1 hle) (Finset.sum_nonneg fun i _ => mul_nonneg (sq_nonneg _) (hpos i).le))
        i (Finset.mem_univ _)
    have : ∑ i, R i j ^ 2 = 0 := Finset.sum_eq_zero fun i _ =>
      (mul_eq_zero.1 (h0 i)).resolve_right (hpos i).ne'
    rw [hone] at this
    exact one_ne_zero this
  have hdet : (blk p m).det = ∏ j, hA.eigenvalues j := by
    have := hA.det_eq_prod_eigenvalues
    simpa using this
  refine ⟨by rw [hdet]; exact Finset.prod_pos fun j _ => hmupos j, ?_⟩
  rw [hdet, Real.log_prod (fun j _ => (hmupos j).ne')]
  have htr : ∑ i : Subtype p, fn Real.log e v i i = ∑ j, ∑ i, R i j ^ 2 * Real.log (e i) := by
    have h1 : (Rᵀ * diagonal (fun i => Real.log (e i)) * R).trace = (blk p (fn Real.log e v)).trace := by
      rw [hconj, Matrix.trace_mul_comm, ← Matrix.mul_assoc, hVo', one_mul]
    rw [blk_trace] at h1
    rw [← h1]
    exact Finset.sum_congr rfl fun j _ => hentry _ j
  rw [htr]
  refine Finset.sum_le_sum fun j _ => ?_
  have := strictConcaveOn_log_Ioi.concaveOn.le_map_sum (t := Finset.univ)
    (w := fun i => R i j ^ 2) (p := e) (fun i _ => sq_nonneg _) (hone j) (fun i _ => hpos i)
  simp only [smul_eq_mul] at this
  rwa [← hmu] at this

end

/-- Abel summation: a family `d` that is non-negative and vanishes at both ends has
`∑ w k (d (k+1) - d k) ≤ 0` for non-decreasing `w`. -/
theorem abel {w d : ℕ → ℝ} {N : ℕ} (hw : ∀ k, k + 1 < N → w k ≤ w (k + 1)) (hd : ∀ k, 0 ≤ d k)
    (h0 : d 0 = 0) (hN : d N = 0) : ∑ k ∈ Finset.range N, w k * (d (k + 1) - d k) ≤ 0 := by
  have key : ∀ m, m + 1 ≤ N → ∑ k ∈ Finset.range (m + 1), w k * (d (k + 1) - d k) ≤ w m * d (m + 1) := by
    intro m
    induction m with
    | zero => intro _; simp [h0]
    | succ m ih =>
      intro hm
      rw [Finset.sum_range_succ]
      have h1 := ih (by omega)
      have h2 := hw m (by omega)
      nlinarith [hd (m + 1)]
  rcases N with _ | m
  · simp
  · refine (key m le_rfl).trans ?_
    rw [hN]; simp

/-- The logarithm of the leading minor of size `k`. -/
noncomputable def ldet (k : ℕ) (m : Mat n) : ℝ := Real.log (blk (fun i => i.val < k) m).det

/-- The weighted sum of the logarithms of the pivots. -/
noncomputable def flag (w : ℕ → ℝ) (m : Mat n) : ℝ :=
  ∑ k ∈ Finset.range n, w k * (ldet (k + 1) m - ldet k m)

/-- Lower triangular. -/
def Lower (g : Mat n) : Prop := ∀ i j, i < j → g i j = 0

theorem blk_lower {g : Mat n} (hg : Lower g) (k : ℕ) (m : Mat n) :
    blk (fun i => i.val < k) (g * m * gᵀ) =
      blk (fun i => i.val < k) g * blk (fun i => i.val < k) m * (blk (fun i => i.val < k) g)ᵀ := by
  have key : ∀ (q : Fin n → ℝ) (i : Fin n), i.val < k →
      ∑ j, g i j * q j = ∑ j : {j : Fin n // j.val < k}, g i j * q j := by
    intro q i hi
    rw [← Finset.sum_subtype (Finset.univ.filter fun j : Fin n => j.val < k) (by simp)
      (fun j => g i j * q j)]
    refine (Finset.sum_subset (Finset.filter_subset _ _) fun j _ hj => ?_).symm
    have : k ≤ j.val := by simpa using hj
    rw [hg i j (Fin.lt_def.2 (by omega)), zero_mul]
  have h1 : ∀ a b : Fin n, a.val < k → (g * m) a b = ∑ l : {l : Fin n // l.val < k}, g a l * m l b :=
    fun a b ha => by rw [Matrix.mul_apply]; exact key (fun l => m l b) a ha
  ext i j
  have h2 : (g * m * gᵀ) i j = ∑ l, g j l * (g * m) i l := by
    rw [Matrix.mul_apply]
    exact Finset.sum_congr rfl fun l _ => by rw [transpose_apply]; ring
  show (g * m * gᵀ) i j = _
  rw [h2, key _ _ j.2, Matrix.mul_apply]
  refine Finset.sum_congr rfl fun l _ => ?_
  rw [h1 _ _ i.2, Matrix.mul_apply, transpose_apply, mul_comm]
  rfl

theorem blk_lower_det {g : Mat n} (hg : Lower g) (hd : ∀ i, g i i ≠ 0) (k : ℕ) :
    (blk (fun i => i.val < k) g).det ≠ 0 := by
  have : (blk (fun i => i.val < k) g).BlockTriangular OrderDual.toDual := by
    intro i j hij
    exact hg i j (Subtype.coe_lt_coe.2 (OrderDual.toDual_lt_toDual.1 hij))
  rw [Matrix.det_of_lowerTriangular _ this]
  exact Finset.prod_ne_zero_iff.2 fun i _ => hd i

theorem ldet_lower {g : Mat n} (hg : Lower g) (hd : ∀ i, g i i ≠ 0) (k : ℕ) {m : Mat n} (hm : OnSPD m) :
    ldet k (g * m * gᵀ) = ldet k m + 2 * Real.log (blk (fun i => i.val < k) g).det := by
  obtain ⟨e, v, h, _⟩ := hm.dec
  have h1 := (log_det_blk (fun i => i.val < k) hm h).1
  have h2 := blk_lower_det hg hd k
  unfold ldet
  rw [blk_lower hg, Matrix.det_mul, Matrix.det_mul, Matrix.det_transpose,
    Real.log_mul (mul_ne_zero h2 h1.ne') h2, Real.log_mul h2 h1.ne']
  ring

theorem flag_lower (w : ℕ → ℝ) {g : Mat n} (hg : Lower g) (hd : ∀ i, g i i ≠ 0) {p q : Mat n}
    (hp : OnSPD p) (hq : OnSPD q) :
    flag w (g * q * gᵀ) - flag w (g * p * gᵀ) = flag w q - flag w p := by
  unfold flag
  rw [← Finset.sum_sub_distrib, ← Finset.sum_sub_distrib]
  refine Finset.sum_congr rfl fun k _ => ?_
  rw [ldet_lower hg hd _ hp, ldet_lower hg hd _ hp, ldet_lower hg hd _ hq, ldet_lower hg hd _ hq]
  ring

theorem ldet_diagonal {c : Fin n → ℝ} (hc : ∀ i, 0 < c i) (k : ℕ) :
    ldet k (diagonal c) = ∑ i : {i : Fin n // i.val < k}, Real.log (c i) := by
  have : blk (fun i : Fin n => i.val < k) (diagonal c) = diagonal fun i => c i.1 := by
    ext i j
    simp [blk, diagonal_apply, Subtype.ext_iff]
  unfold ldet
  rw [this, det_diagonal]
  exact Real.log_prod fun i _ => (hc i.1).ne'

theorem sum_blk_succ (f : Fin n → ℝ) (k : Fin n) :
    ∑ i : {i : Fin n // i.val < k.val + 1}, f i = (∑ i : {i : Fin n // i.val < k.val}, f i) + f k := by
  rw [← Finset.sum_subtype (Finset.univ.filter fun j : Fin n => j.val < k.val + 1) (by simp) f,
    ← Finset.sum_subtype (Finset.univ.filter fun j : Fin n => j.val < k.val) (by simp) f]
  have : (Finset.univ.filter fun j : Fin n => j.val < k.val + 1) =
      insert k (Finset.univ.filter fun j : Fin n => j.val < k.val) := by
    ext j
    simp only [Finset.mem_filter, Finset.mem_univ, true_and, Finset.mem_insert, Fin.ext_iff]
    omega
  rw [this, Finset.sum_insert (by simp), add_comm]

theorem flag_of_sum (w : ℕ → ℝ) (f : Fin n → ℝ) :
    ∑ k ∈ Finset.range n, w k * ((∑ i : {i : Fin n // i.val < k + 1}, f i)
      - ∑ i : {i : Fin n // i.val < k}, f i) = ∑ k : Fin n, w k * f k := by
  rw [Finset.sum_range]
  refine Finset.sum_congr rfl fun k _ => ?_
  rw [sum_blk_succ]; ring

/-- On a diagonal matrix the pivots are the entries. -/
theorem flag_diagonal (w : ℕ → ℝ) {c : Fin n → ℝ} (hc : ∀ i, 0 < c i) :
    flag w (diagonal c) = ∑ k : Fin n, w k * Real.log (c k) := by
  unfold flag
  simp only [ldet_diagonal hc]
  exact flag_of_sum w fun i => Real.log (c i)

theorem flag_one (w : ℕ → ℝ) : flag w (1 : Mat n) = 0 := by
  rw [← diagonal_one, flag_diagonal w (fun _ => one_pos)]
  simp

/-- The weighted sum of the log pivots is at most the weighted diagonal of the logarithm. -/
theorem flag_le {w : ℕ → ℝ} (hw : ∀ k, k + 1 < n → w k ≤ w (k + 1)) {m : Mat n} (hm : OnSPD m)
    {e v} (h : Dec m e v) : flag w m ≤ ∑ k : Fin n, w k * fn Real.log e v k k := by
  rw [← flag_of_sum w fun i => fn Real.log e v i i]
  have := abel (N := n) (w := w)
    (d := fun k => ldet k m - ∑ i : {i : Fin n // i.val < k}, fn Real.log e v i i) hw
    (fun k => sub_nonneg.2 (log_det_blk (fun i => i.val < k) hm h).2) ?_ ?_
  · unfold flag
    rw [← sub_nonpos, ← Finset.sum_sub_distrib]
    refine le_of_eq_of_le (Finset.sum_congr rfl fun k _ => ?_) this
    ring
  · have : IsEmpty {i : Fin n // i.val < 0} := ⟨fun i => by simpa using i.2⟩
    simp [ldet, blk]
  · have hdet : (blk (fun i : Fin n => i.val < n) m).det = m.det :=
      Matrix.det_submatrix_equiv_self (Equiv.subtypeUnivEquiv fun i : Fin n => i.isLt) m
    have htr : ∑ i : {i : Fin n // i.val < n}, fn Real.log e v i i = (fn Real.log e v).trace :=
      Equiv.sum_comp (Equiv.subtypeUnivEquiv fun i : Fin n => i.isLt) fun i => fn Real.log e v i i
    simp only [ldet]
    have h1 := fn_det h.orth (fun t => t) e
    rw [fn_id h] at h1
    rw [hdet, htr, fn_trace h.orth, h1, Real.log_prod fun i _ => (hm.pos h i).ne', sub_self]

/-- Every positive definite matrix is carried to the identity by a lower triangular congruence. -/
theorem exists_lower {p : Mat n} (hp : OnSPD p) :
    ∃ g : Mat n, Lower g ∧ (∀ i, g i i ≠ 0) ∧ g * p * gᵀ = 1 := by
  have hP : p.PosDef := Matrix.PosDef.of_dotProduct_mulVec_pos
    (by unfold Matrix.IsHermitian; rw [Matrix.conjTranspose_eq_transpose_of_trivial, hp.tr])
    (fun w hw => by simpa using hp.2 w hw)
  set L : Mat n := LDL.lowerInv hP with hL
  have hlow : Lower L := fun i j hij => LDL.lowerInv_triangular hP hij
  have hu : IsUnit L.det := by
    have : Invertible L := LDL.invertibleLowerInv hP
    exact Matrix.isUnit_det_of_invertible L
  have hD : L * p * Lᵀ = diagonal (LDL.diagEntries hP) := by
    have := LDL.diag_eq_lowerInv_conj hP
    rw [Matrix.conjTranspose_eq_transpose_of_trivial] at this
    exact this.symm
  have hDp : ∀ i, 0 < LDL.diagEntries hP i := by
    have h1 := hp.congr hu
    rw [hD] at h1
    exact h1.pos (v := 1) ⟨by simp, by simp⟩
  set s : Fin n → ℝ := fun i => (Real.sqrt (LDL.diagEntries hP i))⁻¹ with hs
  have hsp : ∀ i, s i ≠ 0 := fun i => inv_ne_zero (Real.sqrt_pos.2 (hDp i)).ne'
  have hLii : ∀ i, L i i ≠ 0 := by
    have h1 : L.det = ∏ i, L i i := Matrix.det_of_lowerTriangular L fun i j hij =>
      hlow i j (OrderDual.toDual_lt_toDual.1 hij)
    rw [h1] at hu
    exact fun i => Finset.prod_ne_zero_iff.1 hu.ne_zero i (Finset.mem_univ i)
  refine ⟨diagonal s * L, fun i j hij => ?_, fun i => ?_, ?_⟩
  · rw [diagonal_mul, hlow i j hij, mul_zero]
  · rw [diagonal_mul]; exact mul_ne_zero (hsp i) (hLii i)
  · rw [transpose_mul, diagonal_transpose]
    calc diagonal s * L * p * (Lᵀ * diagonal s) = diagonal s * (L * p * Lᵀ) * diagonal s := by
          simp only [Matrix.mul_assoc]
      _ = 1 := by
        rw [hD, diagonal_mul_diagonal, diagonal_mul_diagonal, ← diagonal_one]
        congr 1
        funext i
        have h1 := Real.mul_self_sqrt (hDp i).le
        have h2 := (Real.sqrt_pos.2 (hDp i)).ne'
        rw [hs]
        field_simp
        rw [sq, h1]

/-- Cauchy-Schwarz for the diagonal of a matrix. -/
theorem diag_le (w : ℕ → ℝ) (l : Mat n) :
    ∑ k : Fin n, w k * l k k ≤ Real.sqrt (∑ k : Fin n, w k ^ 2) * frobNorm l := by
  refine (Real.sum_mul_le_sqrt_mul_sqrt _ _ _).trans ?_
  refine mul_le_mul_of_nonneg_left (Real.sqrt_le_sqrt ?_) (Real.sqrt_nonneg _)
  unfold frob
  refine Finset.sum_le_sum fun i _ => ?_
  rw [sq]
  exact Finset.single_le_sum (f := fun j => l i j * l i j) (fun j _ => mul_self_nonneg _)
    (Finset.mem_univ i)

end Geoopt.SPD
