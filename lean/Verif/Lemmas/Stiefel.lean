import Verif.Model.Stiefel
import Verif.Spec.Stiefel
import Verif.Lemmas.Vec
import Mathlib.LinearAlgebra.Matrix.ToLinearEquiv
import Mathlib.LinearAlgebra.Matrix.Block

namespace Geoopt.Stiefel
open Geoopt Geoopt.Linalg Matrix

variable {n m : ℕ} {κ : Type} [Fintype κ]

lemma frob_eq_trace (u v : Matrix (Fin n) (Fin m) ℝ) : frob u v = (uᵀ * v).trace := by
  simp only [frob, Matrix.trace, Matrix.diag, Matrix.mul_apply, Matrix.transpose_apply]
  exact Finset.sum_comm

lemma skew_dot {a : Matrix (Fin n) (Fin n) ℝ} (h : aᵀ = -a) (v : Fin n → ℝ) : v ⬝ᵥ (a *ᵥ v) = 0 := by
  have h1 : v ⬝ᵥ (a *ᵥ v) = v ⬝ᵥ (aᵀ *ᵥ v) := by
    rw [Matrix.dotProduct_mulVec, Matrix.mulVec_transpose, dotProduct_comm]
  rw [h, Matrix.neg_mulVec, dotProduct_neg] at h1
  linarith

lemma skew_det_ne {a : Matrix (Fin n) (Fin n) ℝ} (h : aᵀ = -a) (c : ℝ) : (1 - c • a).det ≠ 0 := by
  intro h0
  obtain ⟨v, hv, h1⟩ := Matrix.exists_mulVec_eq_zero_iff.2 h0
  apply hv
  rw [Matrix.sub_mulVec, Matrix.one_mulVec, Matrix.smul_mulVec, sub_eq_zero] at h1
  rw [← dot_self_eq_zero]
  have h2 : v ⬝ᵥ v = v ⬝ᵥ (c • a *ᵥ v) := by rw [← h1]
  rw [h2, dotProduct_smul, skew_dot h, smul_zero]

lemma isUnit_skew {a : Matrix (Fin n) (Fin n) ℝ} (h : aᵀ = -a) (c : ℝ) :
    IsUnit (1 - c • a).det := isUnit_iff_ne_zero.2 (skew_det_ne h c)

lemma amat_skew (x u : Matrix (Fin n) (Fin m) ℝ) : (Canonical.amat x u)ᵀ = -Canonical.amat x u := by
  simp [Canonical.amat, Matrix.transpose_sub, Matrix.transpose_mul]

lemma lhs_eq (x u : Matrix (Fin n) (Fin m) ℝ) :
    Canonical.lhs x u = 1 - (1 / 2 : ℝ) • Canonical.amat x u := by
  ext i j
  simp only [Canonical.lhs, Matrix.sub_apply, Matrix.smul_apply, smul_eq_mul, Matrix.one_apply]
  ring

/-- the Cayley transform of `½ a` -/
noncomputable def cay (a : Matrix (Fin n) (Fin n) ℝ) : Matrix (Fin n) (Fin n) ℝ :=
  (1 - (1 / 2 : ℝ) • a)⁻¹ * (1 + (1 / 2 : ℝ) • a)

lemma transpFollowOne_eq (x u : Matrix (Fin n) (Fin m) ℝ) (v : Matrix (Fin n) κ ℝ) :
    Canonical.transpFollowOne x v u = cay (Canonical.amat x u) * v := by
  simp only [Canonical.transpFollowOne, lhs_eq, cay]
  rw [Matrix.mul_assoc, Matrix.add_mul, Matrix.one_mul, Matrix.smul_mul]

lemma one_sub_comm (b : Matrix (Fin n) (Fin n) ℝ) : (1 - b) * (1 + b) = (1 + b) * (1 - b) := by
  noncomm_ring

lemma cay_commute (a : Matrix (Fin n) (Fin n) ℝ) (h : aᵀ = -a) :
    cay a = (1 + (1 / 2 : ℝ) • a) * (1 - (1 / 2 : ℝ) • a)⁻¹ := by
  have hu := isUnit_skew h (1 / 2)
  unfold cay
  set P := 1 - (1 / 2 : ℝ) • a with hP
  set R := 1 + (1 / 2 : ℝ) • a with hR
  have hc : P * R = R * P := by
    rw [hP, hR]; exact one_sub_comm _
  calc P⁻¹ * R = P⁻¹ * (R * P) * P⁻¹ := by
        rw [Matrix.mul_assoc, Matrix.mul_assoc, Matrix.mul_nonsing_inv _ hu, Matrix.mul_one]
    _ = R * P⁻¹ := by
        rw [← hc, ← Matrix.mul_assoc, Matrix.nonsing_inv_mul _ hu, Matrix.one_mul]

lemma cay_transpose (a : Matrix (Fin n) (Fin n) ℝ) (h : aᵀ = -a) : (cay a)ᵀ = cay (-a) := by
  have h' : (-a)ᵀ = -(-a) := by rw [Matrix.transpose_neg, h]
  rw [cay_commute (-a) h', cay, Matrix.transpose_mul, Matrix.transpose_nonsing_inv]
  simp only [Matrix.transpose_add, Matrix.transpose_sub, Matrix.transpose_one,
    Matrix.transpose_smul, h]

lemma cay_neg_mul (a : Matrix (Fin n) (Fin n) ℝ) (h : aᵀ = -a) : cay (-a) * cay a = 1 := by
  have h' : (-a)ᵀ = -(-a) := by rw [Matrix.transpose_neg, h]
  have hu := isUnit_skew h (1 / 2)
  have hu' := isUnit_skew h' (1 / 2)
  rw [cay_commute a h, cay]
  simp only [smul_neg, sub_neg_eq_add, ← sub_eq_add_neg]
  simp only [smul_neg, sub_neg_eq_add] at hu'
  rw [Matrix.mul_assoc, ← Matrix.mul_assoc (1 - (1 / 2 : ℝ) • a)]
  have hc : (1 - (1 / 2 : ℝ) • a) * (1 + (1 / 2 : ℝ) • a)
    = (1 + (1 / 2 : ℝ) • a) * (1 - (1 / 2 : ℝ) • a) := one_sub_comm _
  rw [hc, Matrix.mul_assoc, Matrix.mul_nonsing_inv _ hu, Matrix.mul_one,
    Matrix.nonsing_inv_mul _ hu']

lemma cay_orth (a : Matrix (Fin n) (Fin n) ℝ) (h : aᵀ = -a) : (cay a)ᵀ * cay a = 1 := by
  rw [cay_transpose a h, cay_neg_mul a h]

lemma cay_comm_self (a : Matrix (Fin n) (Fin n) ℝ) (h : aᵀ = -a) : cay a * a = a * cay a := by
  have hu := isUnit_skew h (1 / 2)
  have e : (1 - (1 / 2 : ℝ) • a)⁻¹ * a = a * (1 - (1 / 2 : ℝ) • a)⁻¹ := by
    have hc : a * (1 - (1 / 2 : ℝ) • a) = (1 - (1 / 2 : ℝ) • a) * a := by noncomm_ring
    calc (1 - (1 / 2 : ℝ) • a)⁻¹ * a
        = (1 - (1 / 2 : ℝ) • a)⁻¹ * (a * (1 - (1 / 2 : ℝ) • a)) * (1 - (1 / 2 : ℝ) • a)⁻¹ := by
          rw [Matrix.mul_assoc, Matrix.mul_assoc, Matrix.mul_nonsing_inv _ hu, Matrix.mul_one]
      _ = _ := by rw [hc, ← Matrix.mul_assoc, Matrix.nonsing_inv_mul _ hu, Matrix.one_mul]
  unfold cay
  have e2 : (1 + (1 / 2 : ℝ) • a) * a = a * (1 + (1 / 2 : ℝ) • a) := by noncomm_ring
  rw [Matrix.mul_assoc, e2, ← Matrix.mul_assoc, e, Matrix.mul_assoc]

lemma amat_conj (Q : Matrix (Fin n) (Fin n) ℝ) (x u : Matrix (Fin n) (Fin m) ℝ) :
    Canonical.amat (Q * x) (Q * u) = Q * Canonical.amat x u * Qᵀ := by
  simp only [Canonical.amat, Matrix.transpose_mul, Matrix.mul_sub, Matrix.sub_mul, Matrix.mul_assoc]

lemma amat_neg_right (x u : Matrix (Fin n) (Fin m) ℝ) :
    Canonical.amat x (-u) = -Canonical.amat x u := by
  simp [Canonical.amat]; abel

end Geoopt.Stiefel
