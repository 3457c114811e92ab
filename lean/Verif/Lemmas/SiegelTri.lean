import Verif.Lemmas.SiegelDist
import Verif.Lemmas.FlagVec
import Verif.Props.C31Aim

/-!
The Siegel upper half space inside the positive definite matrices of twice the size: `z = x + i y` goes to
`T(x) diag(y, y⁻¹) T(x)ᵀ`.  The code's singular values `σ` become the eigenvalues `(1 + σ) / (1 - σ)` and
their inverses, so the triangle inequality of `Verif.Lemmas.FlagVec` applies.
-/

namespace Geoopt.Siegel
open Matrix Geoopt Geoopt.Linalg Geoopt.SPD

variable {n : ℕ}

/-- A shear. -/
def shear (x : RMat n) : RMat (n + n) := blockMatrix 1 (-x) 0 1

/-- `diag(y, y⁻¹)`. -/
noncomputable def dbl (y : RMat n) : RMat (n + n) := blockMatrix y 0 0 y⁻¹

/-- The positive definite matrix of a point. -/
noncomputable def spdOf (x y : RMat n) : RMat (n + n) := shear x * dbl y * (shear x)ᵀ

/-- Moves `x₁ + i r⁻²` to `i`. -/
noncomputable def mover (r x₁ : RMat n) : RMat (n + n) := blockMatrix r (r * x₁) 0 r⁻¹

theorem shear_neg (x : RMat n) : shear (-x) * shear x = 1 := by
  unfold shear
  rw [blockMatrix_mul, blockMatrix_one]; simp

theorem spdOf_move {r x₁ x y : RMat n} (hr : IsUnit r.det) (hrs : rᵀ = r) (hy : IsUnit y.det) :
    mover r x₁ * spdOf x y * (mover r x₁)ᵀ = spdOf (r * (x - x₁) * r) (r * y * r) := by
  have h1 : mover r x₁ * shear x = shear (r * (x - x₁) * r) * blockMatrix r 0 0 r⁻¹ := by
    unfold mover shear
    rw [blockMatrix_mul, blockMatrix_mul]
    simp only [mul_one, one_mul, mul_zero, zero_mul, add_zero, zero_add, mul_neg, neg_mul, neg_zero]
    congr 1
    rw [Matrix.mul_assoc (r * (x - x₁)), mul_nonsing_inv _ hr, mul_one, mul_sub]
    abel
  have h2 : blockMatrix r 0 0 r⁻¹ * dbl y * (blockMatrix r 0 0 r⁻¹)ᵀ = dbl (r * y * r) := by
    unfold dbl
    rw [blockMatrix_transpose, blockMatrix_mul, blockMatrix_mul]
    simp only [mul_zero, zero_mul, add_zero, zero_add, transpose_zero, hrs, transpose_nonsing_inv]
    congr 1
    rw [Matrix.mul_inv_rev, Matrix.mul_inv_rev, Matrix.mul_assoc]
  unfold spdOf
  calc mover r x₁ * (shear x * dbl y * (shear x)ᵀ) * (mover r x₁)ᵀ
      = (mover r x₁ * shear x) * dbl y * (mover r x₁ * shear x)ᵀ := by
        rw [transpose_mul]; simp only [Matrix.mul_assoc]
    _ = _ := by rw [h1, transpose_mul, ← h2]; simp only [Matrix.mul_assoc]

theorem spdOf_zero_one : spdOf (0 : RMat n) 1 = 1 := by
  unfold spdOf
  have h1 : shear (0 : RMat n) = 1 := by unfold shear; rw [neg_zero, blockMatrix_one]
  have h2 : dbl (1 : RMat n) = 1 := by unfold dbl; rw [inv_one, blockMatrix_one]
  rw [h1, h2]; simp

/-- The matrix of a point in terms of its image in the bounded domain. -/
theorem spdOf_cayley {z w : CMat n} (hz : OnUpperHalf z) (h : inverseCayleyTransform z = .ok w) :
    spdOf (reM z) (imM z) * (1 - toCompoundSymmetric w) = 1 + toCompoundSymmetric w := by
  obtain ⟨hu, hw⟩ := inverseCayley_ok.1 h
  have hyu : IsUnit (imM z).det := ((imM_onSPD hz.1).1 hz).unit
  have hcomm : (z - iId n) * (z + iId n) = (z + iId n) * (z - iId n) := by
    have hi : z * iId n = iId n * z := by simp [mul_smul_comm, smul_mul_assoc]
    rw [sub_mul, mul_add, mul_add, add_mul, mul_sub, mul_sub, hi]; abel
  have hzw : (z + iId n) * w = z - iId n := by
    rw [hw, ← Matrix.mul_assoc, ← hcomm, Matrix.mul_assoc, mul_nonsing_inv _ hu, mul_one]
  set x := reM z with hx
  set y := imM z with hy
  set a := reM w with ha
  set b := imM w with hb
  have hre : reM (z + iId n) = x := by
    ext i j
    by_cases hij : i = j
    · subst hij; simp [hx, reM]
    · simp [hx, reM, hij]
  have him : imM (z + iId n) = y + 1 := by
    ext i j
    by_cases hij : i = j
    · subst hij; simp [hy, imM]
    · simp [hy, imM, hij]
  have hre' : reM (z - iId n) = x := by
    ext i j
    by_cases hij : i = j
    · subst hij; simp [hx, reM]
    · simp [hx, reM, hij]
  have him' : imM (z - iId n) = y - 1 := by
    ext i j
    by_cases hij : i = j
    · subst hij; simp [hy, imM]
    · simp [hy, imM, hij]
  have r1 : x * a - (y + 1) * b = x := by
    have := congrArg reM hzw
    rwa [reM_mul, hre, him, hre'] at this
  have r2 : x * b + (y + 1) * a = y - 1 := by
    have := congrArg imM hzw
    rwa [imM_mul, hre, him, him'] at this
  have hW : toCompoundSymmetric w = blockMatrix a b b (-a) := rfl
  have hm : (1 : RMat (n + n)) - toCompoundSymmetric w = blockMatrix (1 - a) (-b) (-b) (1 + a) := by
    rw [sub_eq_add_neg, hW, blockMatrix_neg, blockMatrix_one, blockMatrix_add]
    simp [sub_eq_add_neg]
  have hp : (1 : RMat (n + n)) + toCompoundSymmetric w = blockMatrix (1 + a) b b (1 - a) := by
    rw [hW, blockMatrix_one, blockMatrix_add]
    simp [sub_eq_add_neg]
  have hxt : xᵀ = x := by ext i j; simp [hx, reM, hz.1 j i]
  have e1 : dbl y * ((shear x)ᵀ * (1 - toCompoundSymmetric w)) =
      shear (-x) * (1 + toCompoundSymmetric w) := by
    rw [hm, hp]
    unfold dbl shear
    rw [blockMatrix_transpose, blockMatrix_mul, blockMatrix_mul, blockMatrix_mul]
    simp only [transpose_one, transpose_zero, transpose_neg, hxt, one_mul, zero_mul, add_zero, zero_add,
      neg_neg]
    have s1 : y * (1 - a) = 1 + a + x * b := by
      linear_combination (norm := noncomm_ring) -r2
    have s2 : y * -b = b + x * (1 - a) := by
      linear_combination (norm := noncomm_ring) r1
    have s3 : -x * (1 - a) + -b = y * b := by
      linear_combination (norm := noncomm_ring) r1
    have s4 : -x * -b + (1 + a) = y * (1 - a) := by
      linear_combination (norm := noncomm_ring) r2
    rw [s1, s2, s3, s4, nonsing_inv_mul_cancel_left _ _ hyu, nonsing_inv_mul_cancel_left _ _ hyu]
  unfold spdOf
  have h2 : shear x * shear (-x) = 1 := by
    have := shear_neg (-x)
    rwa [neg_neg] at this
  calc shear x * dbl y * (shear x)ᵀ * (1 - toCompoundSymmetric w)
      = shear x * (dbl y * ((shear x)ᵀ * (1 - toCompoundSymmetric w))) := by
        simp only [Matrix.mul_assoc]
    _ = _ := by rw [e1, ← Matrix.mul_assoc, h2, one_mul]

/-- The positive definite matrix of a point of the upper half space. -/
noncomputable def emb (z : CMat n) : RMat (n + n) := spdOf (reM z) (imM z)

theorem emb_move (Eu : Eigh n) {z1 z2 : CMat n} (h1 : OnUpperHalf z1) (h2 : OnUpperHalf z2) :
    ∃ g : RMat (n + n), g * emb z1 * gᵀ = 1 ∧
      g * emb z2 * gᵀ = emb (asComplex (symInvSqrtm1 Eu (imM z1)) *
        (z2 - asComplex (reM z1)) * asComplex (symInvSqrtm1 Eu (imM z1))) := by
  have hy := (imM_onSPD h1.1).1 h1
  have hy2 := (imM_onSPD h2.1).1 h2
  have hr := roots (E := Eu) hy
  set r := symInvSqrtm1 Eu (imM z1) with hrd
  have hreq : r = (symInvSqrtm2 Eu (imM z1)).1 := symInvSqrtm1_eq hy
  rw [← hreq] at hr
  refine ⟨mover r (reM z1), ?_, ?_⟩
  · unfold emb
    rw [spdOf_move hr.unit_r hr.rsymm hy.unit, sub_self, mul_zero, zero_mul, hr.rxr, spdOf_zero_one]
  · unfold emb
    rw [spdOf_move hr.unit_r hr.rsymm hy2.unit]
    have hreS : reM (asComplex r) = r := by ext i j; simp [reM, asComplex]
    have himS : imM (asComplex r) = 0 := by ext i j; simp [imM, asComplex]
    have himX : imM (z2 - asComplex (reM z1)) = imM z2 := by ext i j; simp [imM, asComplex]
    have hreX : reM (z2 - asComplex (reM z1)) = reM z2 - reM z1 := by
      ext i j; simp [reM, asComplex]
    simp only [reM_mul, imM_mul, hreS, himS, himX, hreX]
    simp

theorem emb_spd (Eu : Eigh n) {z : CMat n} (h : OnUpperHalf z) : OnSPD (emb z) := by
  obtain ⟨g, hg, -⟩ := emb_move Eu h h
  have hu := unit_of_congr hg
  have hut : IsUnit gᵀ.det := by rwa [Matrix.det_transpose]
  have : emb z = g⁻¹ * 1 * (g⁻¹)ᵀ := by
    rw [← hg, transpose_nonsing_inv]
    calc emb z = (g⁻¹ * g) * emb z * (gᵀ * (gᵀ)⁻¹) := by
          rw [nonsing_inv_mul _ hu, mul_nonsing_inv _ hut, one_mul, mul_one]
      _ = _ := by simp only [Matrix.mul_assoc]
  rw [this]
  exact one_spd.congr (by rw [Matrix.det_nonsing_inv]; exact isUnit_ringInverse.2 hu)

/-- All eigenvalues of the compound matrix lie strictly between `-1` and `1`. -/
theorem compound_lt_one (Ev : EigvalsL (n + n)) {w : CMat n} (hw : OnBounded w) (i : Fin (n + n)) :
    |Ev.e (toCompoundSymmetric w) i| < 1 := by
  obtain ⟨v, hd⟩ := eigvalsL_dec Ev (compound_symm hw.1)
  obtain ⟨j, hj⟩ := compound_abs hd (Ev.mono _) i
  rw [hj]
  exact (takagi_range Ev hw j).2

theorem quot_mono {a b : ℝ} (hab : a ≤ b) (hb : b < 1) :
    (1 + a) / (1 - a) ≤ (1 + b) / (1 - b) := by
  rw [div_le_div_iff₀ (by linarith) (by linarith)]
  nlinarith

/-- The eigenvalues between two embedded points, in terms of what the code computes. -/
theorem emb_rel {Eu : Eigh n} (Ev : EigvalsL (n + n)) {z1 z2 w : CMat n} (h1 : OnUpperHalf z1)
    (h2 : OnUpperHalf z2) (h : Normalised Eu z1 z2 w) :
    Rel (emb z1) (emb z2) fun i =>
      (1 + Ev.e (toCompoundSymmetric w) i) / (1 - Ev.e (toCompoundSymmetric w) i) := by
  obtain ⟨g, hg1, hg2⟩ := emb_move Eu h1 h2
  obtain ⟨v, hd⟩ := eigvalsL_dec Ev (compound_symm h.bounded.1)
  have hlt := compound_lt_one Ev h.bounded
  set e := Ev.e (toCompoundSymmetric w) with he
  refine ⟨g, v, hg1, hd.orth, ?_⟩
  rw [hg2]
  set z3 := asComplex (symInvSqrtm1 Eu (imM z1)) *
        (z2 - asComplex (reM z1)) * asComplex (symInvSqrtm1 Eu (imM z1)) with hz3
  have hup : OnUpperHalf z3 := by
    obtain ⟨c, hc, hcu⟩ := C69_bounded_to_upper h.bounded
    have := C69_cayley_of_inverse h.ok
    rw [hc] at this
    injection this with this
    rw [hz3, ← this]; exact hcu
  have key := spdOf_cayley hup h.ok
  show emb z3 = fn (fun t => (1 + t) / (1 - t)) e v
  have hone : (1 : RMat (n + n)) = fn (fun _ => 1) e v := by rw [fn_const hd]; simp
  have hW : toCompoundSymmetric w = fn (fun t => t) e v := (fn_id hd).symm
  have hsub : 1 - toCompoundSymmetric w = fn (fun t => 1 - t) e v := by
    rw [hW, hone]
    unfold fn
    rw [← sub_mul, ← mul_sub, diagonal_sub]
  have hadd : 1 + toCompoundSymmetric w = fn (fun t => 1 + t) e v := by
    rw [hW, hone]
    unfold fn
    rw [← add_mul, ← mul_add, diagonal_add]
  have hinv : fn (fun t => 1 - t) e v * fn (fun t => (1 - t)⁻¹) e v = 1 := by
    rw [fn_mul hd.orth, hone]
    refine fn_congr v fun i => ?_
    have := (abs_lt.1 (hlt i)).2
    exact mul_inv_cancel₀ (by linarith)
  calc emb z3 = emb z3 * (fn (fun t => 1 - t) e v * fn (fun t => (1 - t)⁻¹) e v) := by
        rw [hinv, mul_one]
    _ = fn (fun t => 1 + t) e v * fn (fun t => (1 - t)⁻¹) e v := by
        rw [← Matrix.mul_assoc, ← hsub]
        show spdOf (reM z3) (imM z3) * _ * _ = _
        rw [key, hadd]
    _ = _ := by rw [fn_mul hd.orth]; rfl

/-- The exact vector-valued distance `log((1 + σ) / (1 - σ))` satisfies the triangle inequality for all
non-negative ascending weights. -/
theorem vec_triangle {Eu : Eigh n} (Ev : EigvalsL (n + n)) {z1 z2 z3 w12 w23 w13 : CMat n}
    (h1 : OnUpperHalf z1) (h2 : OnUpperHalf z2) (h3 : OnUpperHalf z3) (h12 : Normalised Eu z1 z2 w12)
    (h23 : Normalised Eu z2 z3 w23) (h13 : Normalised Eu z1 z3 w13) {u : Fin n → ℝ} (hu : Monotone u)
    (hu0 : ∀ i, 0 ≤ u i) :
    ∑ i, u i * Real.log ((1 + takagiEigvals Ev w13 i) / (1 - takagiEigvals Ev w13 i)) ≤
      ∑ i, u i * Real.log ((1 + takagiEigvals Ev w12 i) / (1 - takagiEigvals Ev w12 i)) +
      ∑ i, u i * Real.log ((1 + takagiEigvals Ev w23 i) / (1 - takagiEigvals Ev w23 i)) := by
  set W : Fin (n + n) → ℝ := Fin.append (fun _ => 0) u with hW
  have hmono : Monotone W := by
    intro a b
    refine Fin.addCases (fun a => ?_) (fun a => ?_) a <;> refine Fin.addCases (fun b => ?_) (fun b => ?_) b
    · intro _; rw [hW, Fin.append_left, Fin.append_left]
    · intro _; rw [hW, Fin.append_left, Fin.append_right]; exact hu0 b
    · intro hab
      exfalso
      have : n + a.val ≤ b.val := hab
      have := b.isLt
      omega
    · intro hab
      rw [hW, Fin.append_right, Fin.append_right]
      refine hu ?_
      have : n + a.val ≤ n + b.val := hab
      exact Fin.le_def.2 (by omega)
  have hm : ∀ {w : CMat n}, OnBounded w → Monotone fun i =>
      (1 + Ev.e (toCompoundSymmetric w) i) / (1 - Ev.e (toCompoundSymmetric w) i) := by
    intro w hw a b hab
    exact quot_mono (Ev.mono _ hab) (abs_lt.1 (compound_lt_one Ev hw b)).2
  have := rel_triangle hmono (emb_spd Eu h1) (emb_spd Eu h2) (emb_spd Eu h3) (emb_rel Ev h1 h2 h12)
    (emb_rel Ev h2 h3 h23) (emb_rel Ev h1 h3 h13) (hm h12.bounded) (hm h23.bounded)
  simp only [Fin.sum_univ_add, hW, Fin.append_left, Fin.append_right, zero_mul, Finset.sum_const_zero,
    zero_add] at this
  exact this

end Geoopt.Siegel
