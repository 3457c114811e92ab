import Verif.Props.C28
import Mathlib.Algebra.Polynomial.AlgebraMap
import Mathlib.LinearAlgebra.Matrix.Polynomial

/-!
# C127: the functions of symmetric matrices in `geoopt.linalg`

`sym_funcm(x, f)` applies `f` to the eigenvalues, however `torch.linalg.eigh` chooses the eigenvectors
(`E` ranges over all its implementations).  `sym_expm`, `sym_logm`, `sym_sqrtm`, `sym_invm`,
`sym_inv_sqrtm1` and `sym_inv_sqrtm2` are the exponential, the logarithm, the square root, the inverse
and the inverse of the square root.
-/

namespace Geoopt.C127
open Matrix Geoopt.Linalg Geoopt.SPD

variable {n : ℕ} (E : Eigh n)

/-- **C127.** For `x = v diag(e) vᵀ` with `v` orthogonal, `sym_funcm(x, f)` is `v diag(f(e)) vᵀ`,
whichever decomposition `eigh` finds. -/
theorem C127_funcm (f : ℝ → ℝ) {v : Matrix (Fin n) (Fin n) ℝ} (hv : vᵀ * v = 1) (e : Fin n → ℝ) :
    symFuncm E f (v * diagonal e * vᵀ) = v * diagonal (fun i => f (e i)) * vᵀ := by
  have hd : Dec (v * diagonal e * vᵀ) e v := ⟨hv, rfl⟩
  exact symFuncm_eq E f hd hd.symm

/-- **C127.** On a polynomial it is the value of the polynomial at the matrix. -/
theorem C127_polynomial (p : Polynomial ℝ) {x : Matrix (Fin n) (Fin n) ℝ} (hx : xᵀ = x) :
    symFuncm E (fun t => p.eval t) x = Polynomial.aeval x p := by
  have h := eigh_dec E hx
  rw [symFuncm_eq_fn]
  induction p using Polynomial.induction_on' with
  | add p q hp hq =>
    rw [map_add, ← hp, ← hq]
    simp only [fn, Polynomial.eval_add]
    rw [← Matrix.add_mul, ← Matrix.mul_add, diagonal_add]
  | monomial k a =>
    rw [Polynomial.aeval_monomial]
    simp only [Polynomial.eval_monomial]
    have : ∀ k : ℕ, fn (fun t => t ^ k) (E.e x) (E.v x) = x ^ k := by
      intro k
      induction k with
      | zero => simp only [pow_zero]; rw [fn_const h, one_smul]
      | succ k ih =>
        have h1 := fn_mul h.orth (fun t => t ^ k) (fun t => t) (E.e x)
        rw [fn_id h, ih] at h1
        simp only [pow_succ]
        exact h1.symm
    rw [← this k]
    have e2 : (algebraMap ℝ (Matrix (Fin n) (Fin n) ℝ)) a = fn (fun _ => a) (E.e x) (E.v x) := by
      rw [fn_const h, Algebra.algebraMap_eq_smul_one]
    rw [e2, fn_mul h.orth]

/-- **C127.** The result is symmetric; functions of the same matrix multiply, compose and commute
with a change of orthonormal coordinates. -/
theorem C127_laws (f g : ℝ → ℝ) {x q : Matrix (Fin n) (Fin n) ℝ} (hx : xᵀ = x) (hq : qᵀ * q = 1) :
    (symFuncm E f x)ᵀ = symFuncm E f x ∧
    symFuncm E f x * symFuncm E g x = symFuncm E (fun t => f t * g t) x ∧
    symFuncm E f (symFuncm E g x) = symFuncm E (fun t => f (g t)) x ∧
    symFuncm E f (q * x * qᵀ) = q * symFuncm E f x * qᵀ := by
  have h := eigh_dec E hx
  refine ⟨fn_symm _ _ _, ?_, ?_, ?_⟩
  · simp only [symFuncm_eq_fn]; exact fn_mul h.orth f g _
  · rw [symFuncm_eq_fn E g, symFuncm_eq E f (fn_dec h g) (fn_symm _ _ _)]
    rfl
  · have hd : Dec (q * x * qᵀ) (E.e x) (q * E.v x) := by
      refine ⟨?_, ?_⟩
      · rw [transpose_mul, Matrix.mul_assoc, ← Matrix.mul_assoc qᵀ, hq, Matrix.one_mul, h.orth]
      · conv_lhs => rw [h.eq]
        simp only [transpose_mul, Matrix.mul_assoc]
    rw [symFuncm_eq E f hd hd.symm]
    simp only [symFuncm, fn, transpose_mul, Matrix.mul_assoc]

/-- **C127.** `sym_expm` and `sym_logm`: the exponential is `sym_funcm` of `exp`, it is positive
definite, and the two are inverse to each other. -/
theorem C127_exp_log {x y : Matrix (Fin n) (Fin n) ℝ} (hx : xᵀ = x) (hy : OnSPD y) :
    symExpm x = symFuncm E Real.exp x ∧ OnSPD (symExpm x) ∧ symLogm E (symExpm x) = x ∧
      (symLogm E y)ᵀ = symLogm E y ∧ symExpm (symLogm E y) = y := by
  have h := eigh_dec E hx
  refine ⟨?_, onSPD_exp hx, symLogm_exp hx, symLogm_symm E y, exp_symLogm hy⟩
  unfold symExpm
  conv_lhs => rw [← fn_id h]
  rw [exp_fn h.orth]
  rfl

theorem spsd_nonneg {x : Matrix (Fin n) (Fin n) ℝ} (hx : OnSPSD x) {e v} (h : Dec x e v) (i : Fin n) :
    0 ≤ e i := by
  have := hx.2 (v *ᵥ Pi.single i 1)
  rw [← fn_id h, quad_fn, Matrix.mulVec_mulVec, h.orth, Matrix.one_mulVec] at this
  simpa [Pi.single_apply] using this

/-- **C127.** `sym_sqrtm(x)` is the only positive semidefinite matrix whose square is `x`. -/
theorem C127_sqrt {x : Matrix (Fin n) (Fin n) ℝ} (hx : OnSPSD x) :
    (OnSPSD (symSqrtm E x) ∧ symSqrtm E x * symSqrtm E x = x) ∧
      ∀ y, OnSPSD y → y * y = x → y = symSqrtm E x := by
  have hs := symm_iff.1 hx.1
  have h := eigh_dec E hs
  refine ⟨⟨onSPSD_fn _ fun i => Real.sqrt_nonneg _, ?_⟩, fun y hy hyx => ?_⟩
  · unfold symSqrtm
    rw [symFuncm_eq_fn, fn_mul h.orth,
      fn_congr (g := fun t => t) _ fun i => Real.mul_self_sqrt (spsd_nonneg hx h i), fn_id h]
  · obtain ⟨e, v, hd⟩ := exists_dec (symm_iff.1 hy.1)
    have hd2 : Dec x (fun i => e i * e i) v := by
      refine ⟨hd.orth, ?_⟩
      rw [← hyx]
      conv_lhs => rw [← fn_id hd]
      rw [fn_mul hd.orth]
      rfl
    unfold symSqrtm
    rw [symFuncm_eq E _ hd2 hs]
    conv_lhs => rw [← fn_id hd]
    unfold fn
    simp only [Real.sqrt_mul_self (spsd_nonneg hy hd _)]

/-- **C127.** On positive definite matrices `sym_invm` is the inverse, `sym_inv_sqrtm1` and the first
result of `sym_inv_sqrtm2` are the inverse of `sym_sqrtm`, the second result is `sym_sqrtm` itself. -/
theorem C127_inv_sqrt {x : Matrix (Fin n) (Fin n) ℝ} (hx : OnSPD x) :
    symInvm x * x = 1 ∧ x * symInvm x = 1 ∧
    symInvSqrtm1 E x = (symInvSqrtm2 E x).1 ∧ (symInvSqrtm2 E x).2 = symSqrtm E x ∧
    (symInvSqrtm2 E x).1 * symSqrtm E x = 1 ∧ OnSPD (symInvSqrtm2 E x).1 ∧
    (symInvSqrtm2 E x).1 * (symInvSqrtm2 E x).1 = symInvm x ∧
    (symInvSqrtm2 E x).1 * x * (symInvSqrtm2 E x).1 = 1 := by
  have r := roots (E := E) hx
  have h := eigh_dec E hx.tr
  have e2 : (symInvSqrtm2 E x).2 = symSqrtm E x := rfl
  refine ⟨Matrix.nonsing_inv_mul _ hx.unit, Matrix.mul_nonsing_inv _ hx.unit, symInvSqrtm1_eq hx, e2,
    e2 ▸ r.rs, ?_, r.inv, r.rxr⟩
  exact onSPD_fn h (fun t => (Real.sqrt t)⁻¹) fun i => inv_pos.2 (Real.sqrt_pos.2 (hx.pos h i))

/-- **C127.** `trace` is the sum of the eigenvalues, and `sym` of a matrix has its trace. -/
theorem C127_trace {v x : Matrix (Fin n) (Fin n) ℝ} (hv : vᵀ * v = 1) (e : Fin n → ℝ) :
    Linalg.trace (v * diagonal e * vᵀ) = ∑ i, e i ∧ Linalg.trace (sym x) = Linalg.trace x ∧
      Linalg.trace x = ∑ i, extractDiag x i := by
  refine ⟨?_, ?_, rfl⟩
  · have := fn_trace hv (fun t => t) e
    exact this
  · unfold Linalg.trace sym
    refine Finset.sum_congr rfl fun i _ => ?_
    simp only [Matrix.smul_apply, Matrix.add_apply, Matrix.transpose_apply, smul_eq_mul]
    ring

/-- On a matrix that is not symmetric only the upper triangle is read, except by `sym_expm`, which
computes the exponential of the whole matrix. -/
theorem C127_asymmetric :
    (∀ (E : Eigh n) (f : ℝ → ℝ) (x : Matrix (Fin n) (Fin n) ℝ),
      symFuncm E f x = symFuncm E f (upper x)) ∧
    ∀ E : Eigh 2, symExpm (!![0, 0; 1, 0] : Matrix (Fin 2) (Fin 2) ℝ) ≠
      symFuncm E Real.exp !![0, 0; 1, 0] := by
  have key : ∀ {n : ℕ} (E : Eigh n) (f : ℝ → ℝ) (x : Matrix (Fin n) (Fin n) ℝ),
      symFuncm E f x = symFuncm E f (upper x) := by
    intro n E f x
    have hd : Dec (upper x) (E.e x) (E.v x) := ⟨E.orth x, E.eq x⟩
    exact (symFuncm_eq E f hd (upper_symm x)).symm
  refine ⟨key, fun E h => ?_⟩
  have hu : upper (!![0, 0; 1, 0] : Matrix (Fin 2) (Fin 2) ℝ) = 0 := by
    ext i j; fin_cases i <;> fin_cases j <;> simp [upper]
  have h2 : symFuncm E Real.exp (!![0, 0; 1, 0] : Matrix (Fin 2) (Fin 2) ℝ) = 1 := by
    rw [key, hu]
    have := C127_funcm E Real.exp (v := 1) (by simp) (fun _ => 0)
    simpa using this
  rw [h2] at h
  have hsq : (!![0, 0; 1, 0] : Matrix (Fin 2) (Fin 2) ℝ) ^ 2 = 0 := by
    rw [sq]; ext i j; fin_cases i <;> fin_cases j <;> simp
  have hexp : symExpm (!![0, 0; 1, 0] : Matrix (Fin 2) (Fin 2) ℝ) = 1 + !![0, 0; 1, 0] := by
    unfold symExpm
    rw [NormedSpace.exp_eq_tsum ℝ]
    simp only
    rw [tsum_eq_sum (s := Finset.range 2)]
    · simp [Finset.sum_range_succ]
    · intro k hk
      have hk' : 2 ≤ k := by
        have : 1 < k := by simpa using hk
        omega
      obtain ⟨j, rfl⟩ := Nat.exists_eq_add_of_le hk'
      rw [pow_add, hsq, zero_mul, smul_zero]
  rw [hexp] at h
  have := congrFun (congrFun h 1) 0
  simp at this

example : OnSPD (symInvSqrtm2 (someEigh 2) sampleA).1 := (C127_inv_sqrt _ sampleA_spd).2.2.2.2.2.1

end Geoopt.C127
