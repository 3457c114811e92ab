import Verif.Spec.Nearest
import Verif.Props.C20
import Verif.Props.C24
import Verif.Props.C28
import Verif.Props.C35
import Verif.Props.C70
import Verif.Model.Birkhoff
import Verif.Spec.Birkhoff
import Verif.Lemmas.Ball

/-!
# C92: `projx` returns the closest point

`Closest`, `OnlyClosest` and the distances are in `Verif.Spec.Nearest`.
-/

namespace Geoopt.C92
open Geoopt Geoopt.SpecNearest Matrix

variable {n m : ℕ}

/-! ### Vectors -/

theorem sqVec_eq (x y : Vec n) : sqVec x y = (x - y) ⬝ᵥ (x - y) := by
  simp only [sqVec, dotProduct, Pi.sub_apply, sq]

theorem sqVec_split (x y p : Vec n) :
    sqVec x y = sqVec x p + sqVec y p - 2 * ((x - p) ⬝ᵥ (y - p)) := by
  simp only [sqVec, dotProduct, Pi.sub_apply, Finset.mul_sum, ← Finset.sum_add_distrib,
    ← Finset.sum_sub_distrib]
  refine Finset.sum_congr rfl fun i _ => ?_
  ring

theorem sqVec_pos {x y : Vec n} (h : x ≠ y) : 0 < sqVec x y := by
  obtain ⟨i, hi⟩ := Function.ne_iff.1 h
  exact Finset.sum_pos' (fun i _ => sq_nonneg _) ⟨i, Finset.mem_univ _, by
    have := sub_ne_zero.2 hi; positivity⟩

/-- The obtuse angle criterion. -/
theorem onlyClosest_of_obtuse {S : Vec n → Prop} {x p : Vec n} (hp : S p)
    (h : ∀ y, S y → (x - p) ⬝ᵥ (y - p) ≤ 0) : OnlyClosest sqVec S x p := by
  refine ⟨hp, fun y hy hne => ?_⟩
  rw [sqVec_split x y p]
  have := sqVec_pos hne
  linarith [h y hy]

/-- **C92.** `Sphere.projx`, with any subspace: the closest point of the sphere, and the only one,
unless the projection on the subspace is zero. -/
theorem C92_sphere {S : Set (Vec n)} {P : Option (Matrix (Fin n) (Fin n) ℝ)} (hP : Sphere.Projects S P)
    {x : Vec n} (h : Sphere.projectOnSubspace P x ≠ 0) :
    OnlyClosest sqVec (Sphere.OnSphere S) x (Sphere.projx P x) := by
  have hp := Sphere.C20_projx_on_sphere hP h
  refine ⟨hp, fun y hy hne => ?_⟩
  set p := Sphere.projx P x with hpd
  set q := Sphere.projectOnSubspace P x with hq
  have hqn : 0 < nrm q := nrm_pos h
  have e : q = nrm q • p := by
    rw [hpd, Sphere.projx, smul_smul, mul_inv_cancel₀ hqn.ne', one_smul]
  have hdot : ∀ w ∈ S, x ⬝ᵥ w = nrm q * (p ⬝ᵥ w) := by
    intro w hw
    rw [← Sphere.pos_dot hP hw, ← hq, e, smul_dotProduct, smul_eq_mul, ← e]
  have h1 : ∀ w, Sphere.OnSphere S w → sqVec x w = x ⬝ᵥ x - 2 * (nrm q * (p ⬝ᵥ w)) + 1 := by
    intro w hw
    rw [sqVec_eq, ← hdot w hw.2, ← hw.1]
    simp only [sub_dotProduct, dotProduct_sub, dotProduct_comm w x]
    ring
  rw [h1 y hy, h1 p hp, hp.1]
  have h2 := sqVec_pos hne
  rw [sqVec_eq] at h2
  simp only [sub_dotProduct, dotProduct_sub, dotProduct_comm y p, hy.1, hp.1] at h2
  nlinarith

/-- **C92.** The projection of the stereographic model: the closest point of the closed ball of radius
`maxNorm`, and the only one (the curvature is at most about `1e30` in absolute value, so that the ball
is not smaller than the floor of the norm). -/
theorem C92_ball (η : ℝ) (dt : DType) (k : ℝ) (hk : 1e-15 ≤ Stereo.maxNorm η dt k) (x : Vec n) :
    OnlyClosest sqVec (fun y => nrm y ≤ Stereo.maxNorm η dt k) x (Stereo.M.projx η dt k x) := by
  set R := Stereo.maxNorm η dt k with hR
  have hR0 : 0 < R := lt_of_lt_of_le (by norm_num) hk
  unfold Stereo.M.projx Stereo.project
  simp only
  rw [← hR]
  split_ifs with h
  · have hx : R < nrm x := by
      rcases lt_max_iff.1 h with h | h
      · exact h
      · linarith
    have hx0 : 0 < nrm x := hR0.trans hx
    rw [max_eq_left (hk.trans hx.le), smul_smul]
    refine onlyClosest_of_obtuse ?_ fun y hy => ?_
    · rw [nrm_smul, abs_of_pos (by positivity)]
      field_simp
      exact le_rfl
    · have e : x - (R * (nrm x)⁻¹) • x = (1 - R * (nrm x)⁻¹) • x := by rw [sub_smul, one_smul]
      have hc : 0 ≤ 1 - R * (nrm x)⁻¹ := by
        rw [sub_nonneg, ← div_eq_mul_inv, div_le_one hx0]; exact hx.le
      rw [e, smul_dotProduct, smul_eq_mul]
      refine mul_nonpos_of_nonneg_of_nonpos hc ?_
      rw [dotProduct_sub, dotProduct_smul, smul_eq_mul, ← nrm_sq]
      have h1 := dot_le x y
      have h2 : R * (nrm x)⁻¹ * nrm x ^ 2 = R * nrm x := by field_simp
      rw [h2]
      nlinarith [nrm_nonneg x]
  · have hx : nrm x ≤ R := (le_max_left _ _).trans (not_lt.1 h)
    exact onlyClosest_of_obtuse hx fun y _ => by simp

/-! ### Symmetric matrices and their spectra -/

theorem sqMat_split (x y p : Matrix (Fin n) (Fin m) ℝ) :
    sqMat x y = sqMat x p + sqMat y p - 2 * ∑ i, ∑ j, (x i j - p i j) * (y i j - p i j) := by
  simp only [sqMat, Finset.mul_sum, ← Finset.sum_add_distrib, ← Finset.sum_sub_distrib]
  refine Finset.sum_congr rfl fun i _ => Finset.sum_congr rfl fun j _ => ?_
  ring

theorem sqMat_nonneg (x y : Matrix (Fin n) (Fin m) ℝ) : 0 ≤ sqMat x y :=
  Finset.sum_nonneg fun _ _ => Finset.sum_nonneg fun _ _ => sq_nonneg _

open SPD in
theorem frob_fn (f : ℝ → ℝ) (e : Fin n → ℝ) (v B : Matrix (Fin n) (Fin n) ℝ) :
    ∑ i, ∑ j, fn f e v i j * B i j =
      ∑ k, f (e k) * ((fun i => v i k) ⬝ᵥ (B *ᵥ fun i => v i k)) := by
  have h : ∀ i j, fn f e v i j = ∑ k, v i k * f (e k) * v j k := by
    intro i j; unfold fn; rw [Siegel.mul_diag_tr]
  simp only [h, dotProduct, mulVec, Finset.mul_sum, Finset.sum_mul]
  calc ∑ i, ∑ j, ∑ k, v i k * f (e k) * v j k * B i j
      = ∑ i, ∑ k, ∑ j, v i k * f (e k) * v j k * B i j :=
        Finset.sum_congr rfl fun i _ => Finset.sum_comm
    _ = ∑ k, ∑ i, ∑ j, v i k * f (e k) * v j k * B i j := Finset.sum_comm
    _ = _ := Finset.sum_congr rfl fun k _ => Finset.sum_congr rfl fun i _ =>
        Finset.sum_congr rfl fun j _ => by ring

open SPD in
/-- The angle at `f(x)`, when `f` moves each eigenvalue towards the values of `y` on unit vectors. -/
theorem spectral_obtuse {x y : Matrix (Fin n) (Fin n) ℝ} {e v} (h : Dec x e v) (f : ℝ → ℝ)
    (hy : ∀ i, ∀ w : Fin n → ℝ, w ⬝ᵥ w = 1 → (e i - f (e i)) * (w ⬝ᵥ (y *ᵥ w) - f (e i)) ≤ 0) :
    ∑ i, ∑ j, (x i j - fn f e v i j) * (y i j - fn f e v i j) ≤ 0 := by
  have h1 : ∀ i j, x i j - fn f e v i j = fn (fun t => t - f t) e v i j := by
    intro i j
    conv_lhs => rw [h.eq]
    unfold fn
    rw [← Matrix.sub_apply, ← sub_mul, ← mul_sub, diagonal_sub]
  have h2 : ∀ k, (fun i => v i k) ⬝ᵥ (fun i => v i k) = 1 := by
    intro k
    have := congrFun (congrFun h.orth k) k
    simpa [Matrix.mul_apply, dotProduct] using this
  have h3 : ∀ k, (fun i => v i k) ⬝ᵥ (fn f e v *ᵥ fun i => v i k) = f (e k) := by
    intro k
    have h4 : vᵀ *ᵥ (fun i => v i k) = Pi.single k 1 := by
      ext j
      have := congrFun (congrFun h.orth j) k
      simpa [Matrix.mul_apply, dotProduct, mulVec, Matrix.one_apply, Pi.single_apply] using this
    rw [quad_fn, h4]
    simp [Pi.single_apply]
  simp only [h1]
  have h5 : ∀ i j, y i j - fn f e v i j = (y - fn f e v) i j := fun i j => rfl
  simp only [h5]
  rw [frob_fn]
  refine Finset.sum_nonpos fun k _ => ?_
  rw [Matrix.sub_mulVec, dotProduct_sub, h3]
  exact hy k _ (h2 k)

/-- A skew-symmetric and a symmetric matrix are orthogonal. -/
theorem skew_symm {a b : Matrix (Fin n) (Fin n) ℝ} (ha : ∀ i j, a i j = -a j i)
    (hb : ∀ i j, b i j = b j i) : ∑ i, ∑ j, a i j * b i j = 0 := by
  have : ∑ i, ∑ j, a i j * b i j = -∑ i, ∑ j, a i j * b i j := by
    conv_lhs => rw [Finset.sum_comm]
    rw [← Finset.sum_neg_distrib]
    refine Finset.sum_congr rfl fun i _ => ?_
    rw [← Finset.sum_neg_distrib]
    refine Finset.sum_congr rfl fun j _ => ?_
    rw [ha j i, hb j i]; ring
  linarith

/-! ### The Siegel spaces -/

section Siegel
open Siegel SPD

/-- The real inner product of two complex matrices. -/
def dotC (a b : CMat n) : ℝ := ∑ i, ∑ j, ((a i j).re * (b i j).re + (a i j).im * (b i j).im)

theorem sqCMat_split (x y p : CMat n) :
    sqCMat x y = sqCMat x p + sqCMat y p - 2 * dotC (x - p) (y - p) := by
  simp only [sqCMat, dotC, Finset.mul_sum, ← Finset.sum_add_distrib, ← Finset.sum_sub_distrib]
  refine Finset.sum_congr rfl fun i _ => Finset.sum_congr rfl fun j _ => ?_
  simp only [Complex.normSq_apply, Complex.sub_re, Complex.sub_im, Matrix.sub_apply]
  ring

theorem sqCMat_pos {x y : CMat n} (h : x ≠ y) : 0 < sqCMat x y := by
  have : ∃ i j, x i j ≠ y i j := by
    by_contra hc
    push Not at hc
    exact h (by ext i j; exact hc i j)
  obtain ⟨i, j, hij⟩ := this
  refine Finset.sum_pos' (fun i _ => Finset.sum_nonneg fun j _ => Complex.normSq_nonneg _)
    ⟨i, Finset.mem_univ _, ?_⟩
  exact Finset.sum_pos' (fun j _ => Complex.normSq_nonneg _)
    ⟨j, Finset.mem_univ _, Complex.normSq_pos.2 (sub_ne_zero.2 hij)⟩

theorem onlyClosest_of_obtuseC {S : CMat n → Prop} {x p : CMat n} (hp : S p)
    (h : ∀ y, S y → dotC (x - p) (y - p) ≤ 0) : OnlyClosest sqCMat S x p := by
  refine ⟨hp, fun y hy hne => ?_⟩
  rw [sqCMat_split x y p]
  have := sqCMat_pos hne
  linarith [h y hy]

/-- Only the symmetric part of `x` matters when the other points are symmetric. -/
theorem dotC_sym {x y p : CMat n} (hy : CSymm y) (hp : CSymm p) :
    dotC (x - p) (y - p) = dotC (symC x - p) (y - p) := by
  have h1 : dotC (x - p) (y - p) - dotC (symC x - p) (y - p) =
      ∑ i, ∑ j, ((x i j).re - (symC x i j).re) * ((y i j).re - (p i j).re) +
        ∑ i, ∑ j, ((x i j).im - (symC x i j).im) * ((y i j).im - (p i j).im) := by
    simp only [dotC, ← Finset.sum_add_distrib, ← Finset.sum_sub_distrib, Matrix.sub_apply,
      Complex.sub_re, Complex.sub_im]
    refine Finset.sum_congr rfl fun i _ => Finset.sum_congr rfl fun j _ => ?_
    ring
  have h2 : ∑ i, ∑ j, ((x i j).re - (symC x i j).re) * ((y i j).re - (p i j).re) = 0 :=
    skew_symm (a := Matrix.of fun i j => (x i j).re - (symC x i j).re)
      (b := Matrix.of fun i j => (y i j).re - (p i j).re)
      (fun i j => by simp [symC_apply]; ring) (fun i j => by simp [hy i j, hp i j])
  have h3 : ∑ i, ∑ j, ((x i j).im - (symC x i j).im) * ((y i j).im - (p i j).im) = 0 :=
    skew_symm (a := Matrix.of fun i j => (x i j).im - (symC x i j).im)
      (b := Matrix.of fun i j => (y i j).im - (p i j).im)
      (fun i j => by simp [symC_apply]; ring) (fun i j => by simp [hy i j, hp i j])
  linarith

/-- **C92.** `UpperHalf.projx`: the closest symmetric matrix whose imaginary part has eigenvalues of at
least `EPS`, and the only one. -/
theorem C92_upper_half (d : RealDtype) (E : EighL n) (z : CMat n) :
    OnlyClosest sqCMat (fun y => CSymm y ∧ ∀ w, EPS d * rlen2 w ≤ imForm y w) z (upperProjx d E z) := by
  have hp := C70_upper_projx d E z
  refine onlyClosest_of_obtuseC ⟨hp.1, hp.2.1⟩ fun y ⟨hy, hf⟩ => ?_
  rw [dotC_sym hy hp.1]
  have hs := imM_tr (symC_symm z)
  have hd := eighL_dec E hs
  have h1 : dotC (symC z - upperProjx d E z) (y - upperProjx d E z) =
      ∑ i, ∑ j, (imM (symC z) i j - fn (fun t => max t (EPS d)) (E.e (imM (symC z)))
        (E.v (imM (symC z))) i j) * (imM y i j - fn (fun t => max t (EPS d)) (E.e (imM (symC z)))
        (E.v (imM (symC z))) i j) := by
    rw [← pcp_eq d E hs]
    unfold dotC
    refine Finset.sum_congr rfl fun i _ => Finset.sum_congr rfl fun j _ => ?_
    simp [upperProjx, baseProjx, toComplex, reM, imM]
  rw [h1]
  refine spectral_obtuse hd _ fun i w hw => ?_
  rw [← imForm_eq]
  have h2 := hf w
  rw [rlen2_eq, hw, mul_one] at h2
  rcases le_total (E.e (imM (symC z)) i) (EPS d) with h3 | h3
  · rw [max_eq_right h3]
    exact mul_nonpos_of_nonpos_of_nonneg (by linarith) (by linarith)
  · rw [max_eq_left h3, sub_self, zero_mul]

theorem dotC_compound (a b : CMat n) :
    ∑ i, ∑ j, toCompoundSymmetric a i j * toCompoundSymmetric b i j = 2 * dotC a b := by
  rw [Fin.sum_univ_add]
  simp only [Fin.sum_univ_add]
  simp [toCompoundSymmetric, blockMatrix, catRows, catCols, reM, imM, dotC, -Fin.natAdd_eq_addNat,
    Finset.sum_add_distrib]
  ring

/-- **C92.** `BoundedDomain.projx`: the closest symmetric matrix with singular values of at most
`1 - EPS`, and the only one. -/
theorem C92_bounded (d : RealDtype) (E : EighL (n + n)) (z : CMat n) :
    OnlyClosest sqCMat (fun y => CSymm y ∧ ∀ w, len2 (y *ᵥ w) ≤ (1 - EPS d) ^ 2 * len2 w) z
      (boundedProjx d E z) := by
  have hp := C70_bounded_projx d E z
  have hc : 0 ≤ 1 - EPS d := by linarith [EPS_lt_one d]
  refine onlyClosest_of_obtuseC ⟨hp.1, hp.2.1⟩ fun y ⟨hy, hf⟩ => ?_
  rw [dotC_sym hy hp.1]
  have hd := eighL_dec E (compound_symm (symC_symm z))
  have h1 := spectral_obtuse hd (y := toCompoundSymmetric y) (Siegel.clampAbs (1 - EPS d)) fun i w hw => by
    have h2 : |w ⬝ᵥ (toCompoundSymmetric y *ᵥ w)| ≤ 1 - EPS d := by
      obtain ⟨u, rfl⟩ := split_surj w
      have h3 := hf u
      rw [← rlen2_compound, ← rlen2_split, rlen2_eq, rlen2_eq, hw, mul_one] at h3
      have h4 := abs_dot_le (split u) (toCompoundSymmetric y *ᵥ split u)
      have h5 : nrm (split u) = 1 := by rw [nrm, hw, Real.sqrt_one]
      have h6 : nrm (toCompoundSymmetric y *ᵥ split u) ≤ 1 - EPS d := by
        rw [nrm]; exact Real.sqrt_le_iff.2 ⟨hc, h3⟩
      rw [h5, one_mul] at h4
      exact h4.trans h6
    obtain ⟨h3, h4⟩ := abs_le.1 h2
    unfold Siegel.clampAbs
    set t := E.e (toCompoundSymmetric (symC z)) i
    rcases le_total t (1 - EPS d) with h5 | h5
    · rw [min_eq_left h5]
      rcases le_total (-(1 - EPS d)) t with h6 | h6
      · rw [max_eq_right h6, sub_self, zero_mul]
      · rw [max_eq_left h6]
        exact mul_nonpos_of_nonpos_of_nonneg (by linarith) (by linarith)
    · rw [min_eq_right h5, max_eq_right (by linarith)]
      exact mul_nonpos_of_nonneg_of_nonpos (by linarith) (by linarith)
  rw [← compound_projx] at h1
  have h2 := dotC_compound (symC z - boundedProjx d E z) (y - boundedProjx d E z)
  have h3 : ∀ (a b : CMat n) i j, toCompoundSymmetric (a - b) i j =
      toCompoundSymmetric a i j - toCompoundSymmetric b i j := by
    intro a b i j
    refine Fin.addCases (fun i => ?_) (fun i => ?_) i <;>
      refine Fin.addCases (fun j => ?_) (fun j => ?_) j <;>
      simp [toCompoundSymmetric, blockMatrix, catRows, catCols, reM, imM, -Fin.natAdd_eq_addNat]
    ring
  simp only [h3] at h2
  linarith

end Siegel

/-! ### Stiefel -/

/-- **C92.** `Stiefel.projx`: a closest matrix with orthonormal columns. -/
theorem C92_stiefel {x U : Matrix (Fin n) (Fin m) ℝ} {S : Fin m → ℝ} {V : Matrix (Fin m) (Fin m) ℝ}
    (h : Linalg.IsSVD x U S V) :
    Closest sqMat Stiefel.OnStiefel x (Stiefel.projx U V) := by
  have e : ∀ y, Stiefel.euclideanMetric (x - y) (x - y) = sqMat x y := by
    intro y
    simp only [Stiefel.euclideanMetric, Matrix.trace, Matrix.diag, Matrix.mul_apply, transpose_apply,
      sqMat, Matrix.sub_apply]
    rw [Finset.sum_comm]
    refine Finset.sum_congr rfl fun i _ => Finset.sum_congr rfl fun j _ => ?_
    ring
  refine ⟨Stiefel.C26_projx_on_stiefel h, fun y hy => ?_⟩
  rw [← e, ← e]
  exact Stiefel.C26_projx_closest h hy

/-- How much farther away another point is. -/
theorem stiefel_gap {x U y : Matrix (Fin n) (Fin m) ℝ} {S : Fin m → ℝ} {V : Matrix (Fin m) (Fin m) ℝ}
    (h : Linalg.IsSVD x U S V) (hy : Stiefel.OnStiefel y) :
    sqMat x y = sqMat x (Stiefel.projx U V) + ∑ i, S i * ∑ k, ((y * Vᵀ) k i - U k i) ^ 2 := by
  have hV : Vᵀ * V = 1 := mul_eq_one_comm.1 h.orthV
  have e : ∀ z : Matrix (Fin n) (Fin m) ℝ, Stiefel.OnStiefel z →
      sqMat x z = (xᵀ * x).trace + m - 2 * ∑ i, S i * ∑ k, (z * Vᵀ) k i * U k i := by
    intro z hz
    have hz' : zᵀ * z = 1 := hz
    have e1 : sqMat x z = (xᵀ * x).trace + (zᵀ * z).trace - 2 * (zᵀ * x).trace := by
      simp only [Matrix.trace, Matrix.diag, Matrix.mul_apply, transpose_apply, sqMat, Finset.mul_sum,
        ← Finset.sum_add_distrib, ← Finset.sum_sub_distrib]
      rw [Finset.sum_comm]
      exact Finset.sum_congr rfl fun i _ => Finset.sum_congr rfl fun j _ => by ring
    have e2 : (zᵀ * x).trace = ((z * Vᵀ)ᵀ * U * diagonal S).trace := by
      rw [h.eq, Matrix.transpose_mul, Matrix.transpose_transpose, ← Matrix.mul_assoc,
        Matrix.trace_mul_comm]
      simp only [Matrix.mul_assoc]
    rw [e1, hz', Matrix.trace_one, Fintype.card_fin, e2]
    congr 2
    simp only [Matrix.trace, Matrix.diag, Matrix.mul_diagonal]
    refine Finset.sum_congr rfl fun i _ => ?_
    rw [mul_comm, Matrix.mul_apply]
    simp only [transpose_apply]
  have hn : ∀ z : Matrix (Fin n) (Fin m) ℝ, zᵀ * z = 1 → ∀ i, ∑ k, z k i * z k i = 1 := by
    intro z hz i
    have := congrFun (congrFun hz i) i
    simpa [Matrix.mul_apply] using this
  have hw : (y * Vᵀ)ᵀ * (y * Vᵀ) = 1 := by
    have hy' : yᵀ * y = 1 := hy
    rw [Matrix.transpose_mul, Matrix.transpose_transpose, Matrix.mul_assoc, ← Matrix.mul_assoc yᵀ, hy',
      Matrix.one_mul, h.orthV]
  rw [e y hy, e _ (Stiefel.C26_projx_on_stiefel h)]
  have e3 : Stiefel.projx U V * Vᵀ = U := by
    rw [Stiefel.projx, Matrix.mul_assoc, h.orthV, Matrix.mul_one]
  rw [e3]
  simp only [hn U h.orthU]
  have e4 : ∀ i, ∑ k, ((y * Vᵀ) k i - U k i) ^ 2 = 2 - 2 * ∑ k, (y * Vᵀ) k i * U k i := by
    intro i
    have e5 : ∑ k, ((y * Vᵀ) k i - U k i) ^ 2 = ∑ k, (y * Vᵀ) k i * (y * Vᵀ) k i +
        ∑ k, U k i * U k i - 2 * ∑ k, (y * Vᵀ) k i * U k i := by
      rw [Finset.mul_sum, ← Finset.sum_add_distrib, ← Finset.sum_sub_distrib]
      exact Finset.sum_congr rfl fun i _ => by ring
    rw [e5, hn _ hw, hn U h.orthU]; ring
  simp only [e4, mul_sub, Finset.sum_sub_distrib, ← Finset.sum_mul]
  have e6 : ∑ i, S i * (2 * ∑ k, (y * Vᵀ) k i * U k i) = 2 * ∑ i, S i * ∑ k, (y * Vᵀ) k i * U k i := by
    rw [Finset.mul_sum]
    exact Finset.sum_congr rfl fun i _ => by ring
  rw [e6]
  ring

/-- **C92.** ... and the only one, when `x` has full rank. -/
theorem C92_stiefel_only {x U : Matrix (Fin n) (Fin m) ℝ} {S : Fin m → ℝ}
    {V : Matrix (Fin m) (Fin m) ℝ} (h : Linalg.IsSVD x U S V) (hS : ∀ i, 0 < S i) :
    OnlyClosest sqMat Stiefel.OnStiefel x (Stiefel.projx U V) := by
  refine ⟨Stiefel.C26_projx_on_stiefel h, fun y hy hne => ?_⟩
  rw [stiefel_gap h hy]
  have : ∃ i k, (y * Vᵀ) k i ≠ U k i := by
    by_contra hc
    push Not at hc
    apply hne
    have : y * Vᵀ = U := by ext k i; exact hc i k
    rw [Stiefel.projx, ← this, Matrix.mul_assoc, mul_eq_one_comm.1 h.orthV, Matrix.mul_one]
  obtain ⟨i, k, hik⟩ := this
  have : 0 < ∑ i, S i * ∑ k, ((y * Vᵀ) k i - U k i) ^ 2 :=
    Finset.sum_pos' (fun i _ => mul_nonneg (hS i).le (Finset.sum_nonneg fun k _ => sq_nonneg _))
      ⟨i, Finset.mem_univ _, mul_pos (hS i) (Finset.sum_pos' (fun k _ => sq_nonneg _)
        ⟨k, Finset.mem_univ _, by have := sub_ne_zero.2 hik; positivity⟩)⟩
  linarith

/-! ### Where `projx` is not the closest point -/

section Lorentz
open Lorentz

/-- **C92.** `Lorentz.projx` replaces the time coordinate.  The result is at most `√2` times farther away
than the closest point. -/
theorem C92_lorentz_partial {k : ℝ} (hk : 0 < k) (x : Vec (n + 1)) :
    OnHyperboloid k (projx k x) ∧
    ∀ y, OnHyperboloid k y → sqVec x (projx k x) ≤ 2 * sqVec x y := by
  have hp := C35_projx_on hk x
  refine ⟨hp, fun y hy => ?_⟩
  have h1 := mink_le hk hp hy
  obtain ⟨hp1, -⟩ := hp
  obtain ⟨hy1, -⟩ := hy
  have et : ∀ i : Fin n, projx k x i.succ = x i.succ := fun i => rfl
  simp only [mink, et] at h1 hp1 hy1
  simp only [sqVec, Fin.sum_univ_succ, et, sub_self]
  set p0 := projx k x 0
  have e1 : ∑ i : Fin n, (x i.succ - y i.succ) ^ 2 = ∑ i : Fin n, x i.succ * x i.succ +
      ∑ i : Fin n, y i.succ * y i.succ - 2 * ∑ i : Fin n, x i.succ * y i.succ := by
    rw [Finset.mul_sum, ← Finset.sum_add_distrib, ← Finset.sum_sub_distrib]
    exact Finset.sum_congr rfl fun i _ => by ring
  have e0 : ∑ i : Fin n, (0 : ℝ) ^ 2 = 0 := by simp
  rw [e1, e0]
  nlinarith [sq_nonneg (x 0 - y 0 + (p0 - y 0)), sq_nonneg (x 0 - 2 * y 0 + p0)]

/-- It is not the closest point. -/
theorem C92_counterexample_lorentz :
    ∃ x y : Vec 2, OnHyperboloid (n := 1) 1 y ∧ sqVec x y < sqVec x (projx (n := 1) 1 x) := by
  have h5 : Real.sqrt 1.25 * Real.sqrt 1.25 = 1.25 := Real.mul_self_sqrt (by norm_num)
  refine ⟨![0, 1], ![Real.sqrt 1.25, 0.5], ⟨?_, ?_⟩, ?_⟩
  · simp [mink]
    norm_num at h5 ⊢
    linarith
  · simp; norm_num
  · have e : projx (n := 1) 1 ![0, 1] 0 ^ 2 = 2 := by
      have := (C35_projx_on (n := 1) one_pos ![0, 1]).1
      simp only [mink] at this
      have e1 : projx (n := 1) 1 ![0, 1] (Fin.succ 0) = 1 := rfl
      simp only [Finset.univ_unique, Finset.sum_singleton, Fin.default_eq_zero, e1] at this
      linarith
    have e1 : projx (n := 1) 1 ![0, 1] 1 = 1 := rfl
    simp only [sqVec, Fin.sum_univ_two, e1]
    simp
    rw [e]
    norm_num at h5 ⊢
    nlinarith

end Lorentz

/-- **C92.** `SymmetricPositiveDefinite.projx` takes absolute values of the eigenvalues.  The result is at
most twice as far away as any positive semidefinite matrix. -/
theorem C92_spd_partial (E : Linalg.Eigh n) (x : Matrix (Fin n) (Fin n) ℝ) :
    SPD.OnSPSD (SPD.projx E x) ∧
    ∀ y, SPD.OnSPSD y → sqMat x (SPD.projx E x) ≤ 4 * sqMat x y := by
  have hp := SPD.C28_projx_semidefinite E x
  refine ⟨hp, fun y hy => ?_⟩
  set A := Linalg.sym x with hA
  have hs : Aᵀ = A := SPD.sym_symm x
  have hd := SPD.eigh_dec E hs
  set B := SPD.fn (fun t => max t 0) (E.e A) (E.v A) with hB
  have h1 : ∀ w, SPD.Symm w → sqMat x w = sqMat x A + sqMat A w := by
    intro w hw
    have := skew_symm (a := Matrix.of fun i j => x i j - A i j) (b := Matrix.of fun i j => w i j - A i j)
      (fun i j => by simp [hA, Linalg.sym]; ring)
      (fun i j => by
        have := congrFun (congrFun hs j) i
        simp only [transpose_apply] at this
        simp [hw i j, this])
    have h2 := sqMat_split x w A
    simp only [of_apply] at this
    rw [this] at h2
    have h3 : sqMat w A = sqMat A w := by
      unfold sqMat
      exact Finset.sum_congr rfl fun i _ => Finset.sum_congr rfl fun j _ => by ring
    linarith
  have h2 : sqMat A (SPD.projx E x) = 4 * sqMat A B := by
    have e : SPD.projx E x = (2 : ℝ) • B - A := by
      change SPD.fn (fun t => |t|) (E.e A) (E.v A) = _
      have : SPD.fn (fun t => |t|) (E.e A) (E.v A) = (2 : ℝ) • B - SPD.fn (fun t => t) (E.e A) (E.v A) := ?_
      · rw [this, SPD.fn_id hd]
      rw [hB]
      unfold SPD.fn
      rw [← Matrix.smul_mul, ← Matrix.mul_smul, ← Matrix.sub_mul, ← Matrix.mul_sub]
      congr 2
      ext i j
      simp only [diagonal_apply, Matrix.sub_apply, Matrix.smul_apply, smul_eq_mul]
      split_ifs
      · rcases le_total (E.e A i) 0 with h | h
        · rw [abs_of_nonpos h, max_eq_right h]; ring
        · rw [abs_of_nonneg h, max_eq_left h]; ring
      · ring
    rw [e]
    unfold sqMat
    simp only [Finset.mul_sum]
    refine Finset.sum_congr rfl fun i _ => Finset.sum_congr rfl fun j _ => ?_
    simp only [Matrix.sub_apply, Matrix.smul_apply, smul_eq_mul]
    ring
  have h3 : sqMat A B ≤ sqMat A y := by
    rw [sqMat_split A y B]
    have := spectral_obtuse hd (y := y) (fun t => max t 0) fun i w _ => by
      have := hy.2 w
      rcases le_total (E.e A i) 0 with h | h
      · rw [max_eq_right h]
        exact mul_nonpos_of_nonpos_of_nonneg (by linarith) (by linarith)
      · rw [max_eq_left h, sub_self, zero_mul]
    have h4 := sqMat_nonneg y B
    linarith
  rw [h1 _ hp.1, h1 y hy.1, h2]
  have := sqMat_nonneg x A
  linarith

/-- It is not the closest one. -/
theorem C92_counterexample_spd (E : Linalg.Eigh 1) :
    ∃ x y : Matrix (Fin 1) (Fin 1) ℝ, SPD.OnSPD y ∧ sqMat x y < sqMat x (SPD.projx E x) := by
  have e : SPD.projx E (-1 : Matrix (Fin 1) (Fin 1) ℝ) = 1 := by
    have h0 : Linalg.sym (-1 : Matrix (Fin 1) (Fin 1) ℝ) = -1 := SPD.sym_of_symm (by simp)
    have h1 : SPD.Dec (-1 : Matrix (Fin 1) (Fin 1) ℝ) (fun _ => -1) 1 := ⟨by simp, by
      ext i j; simp [Subsingleton.elim i j]⟩
    change SPD.fn (fun t => |t|) (E.e (Linalg.sym (-1))) (E.v (Linalg.sym (-1))) = 1
    rw [h0, SPD.fn_unique (SPD.eigh_dec E (by simp)) h1]
    ext i j
    fin_cases i; fin_cases j
    simp [SPD.fn]
  refine ⟨-1, (0.5 : ℝ) • 1, SPD.smul_one_spd (by norm_num), ?_⟩
  rw [e]
  simp [sqMat]
  norm_num

/-- `BirkhoffPolytope.projx` (Sinkhorn's iteration) is not the closest doubly stochastic matrix. -/
theorem C92_counterexample_birkhoff :
    ∃ x y : Matrix (Fin 2) (Fin 2) ℝ, Birkhoff.Positive x ∧ Birkhoff.DoublyStochastic y ∧
      sqMat x y < sqMat x (Birkhoff.projx1 Birkhoff.Config.default x) := by
  refine ⟨!![4, 2; 2, 1], !![3 / 4, 1 / 4; 1 / 4, 3 / 4], ?_, ⟨?_, ?_, ?_⟩, ?_⟩
  · intro i j; fin_cases i <;> fin_cases j <;> simp
  · intro i j; fin_cases i <;> fin_cases j <;> norm_num
  · intro i; fin_cases i <;> norm_num [Birkhoff.rowSum, Fin.sum_univ_two]
  · intro i; fin_cases i <;> norm_num [Birkhoff.colSum, Fin.sum_univ_two]
  · have hstop : Birkhoff.Stop Birkhoff.Config.default.tol (fun _ : Unit => !![4, 2; 2, 1])
        fun b => Birkhoff.sinkInit Birkhoff.Config.default.eps ((fun _ : Unit => !![4, 2; 2, 1]) b) := by
      intro b j
      fin_cases j <;>
        norm_num [Birkhoff.cinv, Birkhoff.sinkInit, Birkhoff.rOf, Birkhoff.Config.default, Fin.sum_univ_two]
    have e : Birkhoff.projx1 Birkhoff.Config.default !![4, 2; 2, 1] =
        Birkhoff.assemble !![4, 2; 2, 1] (Birkhoff.sinkInit 1e-12 !![4, 2; 2, 1]) := by
      unfold Birkhoff.projx1 Birkhoff.projx Birkhoff.projRun
      simp only
      rw [show Birkhoff.Config.default.maxIter = 99 + 1 from rfl, Birkhoff.sinkLoop, if_pos hstop]
      rfl
    rw [e]
    norm_num [sqMat, Birkhoff.assemble, Birkhoff.sinkInit, Birkhoff.rOf, Fin.sum_univ_two]

/-! ### The hypotheses can be met -/

/-- A point away from the sphere, one outside the ball, a matrix that is not orthogonal. -/
example : Sphere.projectOnSubspace none (![3, 4] : Vec 2) ≠ 0 ∧
    (1e-15 ≤ Stereo.maxNorm 0 .f64 (-1) ∧ ¬ nrm (![3, 4] : Vec 2) ≤ Stereo.maxNorm 0 .f64 (-1)) ∧
    Linalg.IsSVD (!![3, 0; 0, 2] : Matrix (Fin 2) (Fin 2) ℝ) 1 ![3, 2] 1 := by
  have hm : Stereo.maxNorm 0 .f64 (-1) = 1 - 1e-5 := by
    have : sabs 0 (-1) = 1 := by norm_num [sabs]
    rw [Stereo.maxNorm, if_pos (by norm_num), this, Real.one_rpow, div_one]
    rfl
  have h5 : nrm (![3, 4] : Vec 2) = 5 := by
    rw [nrm, show (![3, 4] : Vec 2) ⬝ᵥ ![3, 4] = 5 ^ 2 by norm_num [dotProduct, Fin.sum_univ_two],
      Real.sqrt_sq (by norm_num)]
  refine ⟨fun h => ?_, ⟨by rw [hm]; norm_num, by rw [hm, h5]; norm_num⟩, ?_, by simp, by simp, ?_⟩
  · have := congrFun h 0
    norm_num [Sphere.projectOnSubspace] at this
  · ext i j; fin_cases i <;> fin_cases j <;> simp
  · intro i; fin_cases i <;> simp

end Geoopt.C92
