import Verif.Lemmas.Flag
import Mathlib.Analysis.Convex.Birkhoff
import Mathlib.Algebra.Order.Rearrangement

/-!
The vector of the logarithms of the eigenvalues of `p⁻¹ q`, for positive definite `p` and `q`, satisfies the
triangle inequality for every non-decreasing family of weights (`rel_triangle`).
-/

namespace Geoopt.SPD
open Matrix Geoopt.Linalg
variable {n : ℕ}

/-- Schur: the weighted diagonal is at most the weighted sum of the eigenvalues, both sorted. -/
theorem schur {w l : Fin n → ℝ} (hw : Monotone w) (hl : Monotone l) {v : Mat n} (hv : vᵀ * v = 1) :
    ∑ k, w k * (v * diagonal l * vᵀ) k k ≤ ∑ k, w k * l k := by
  have hv' : v * vᵀ = 1 := mul_eq_one_comm.1 hv
  set f : Mat n → ℝ := fun M => ∑ k, w k * ∑ i, M k i * l i with hf
  have hlin : IsLinearMap ℝ f := by
    constructor
    · intro a b
      simp only [hf, Matrix.add_apply, add_mul, Finset.sum_add_distrib, mul_add]
    · intro c a
      simp only [hf, Matrix.smul_apply, smul_eq_mul, Finset.mul_sum]
      exact Finset.sum_congr rfl fun k _ => Finset.sum_congr rfl fun i _ => by ring
  set M : Mat n := Matrix.of fun k i => v k i ^ 2 with hM
  have hmem : M ∈ doublyStochastic ℝ (Fin n) := by
    rw [mem_doublyStochastic_iff_sum]
    refine ⟨fun i j => sq_nonneg _, fun i => ?_, fun j => ?_⟩
    · have := congrFun (congrFun hv' i) i
      rw [Matrix.mul_apply, one_apply_eq] at this
      rw [← this]
      exact Finset.sum_congr rfl fun j _ => by simp [hM, sq]
    · have := congrFun (congrFun hv j) j
      rw [Matrix.mul_apply, one_apply_eq] at this
      rw [← this]
      exact Finset.sum_congr rfl fun j _ => by simp [hM, sq]
  have hb : f M ≤ ∑ k, w k * l k := by
    have hsub : (doublyStochastic ℝ (Fin n) : Set (Mat n)) ⊆ {x | f x ≤ ∑ k, w k * l k} := by
      rw [doublyStochastic_eq_convexHull_permMatrix]
      refine convexHull_min ?_ (convex_halfSpace_le hlin _)
      rintro _ ⟨σ, rfl⟩
      have hmv : Monovary w l := hw.monovary hl
      refine le_of_eq_of_le ?_ (hmv.sum_mul_comp_perm_le_sum_mul (σ := σ))
      simp only [hf]
      refine Finset.sum_congr rfl fun k _ => ?_
      congr 1
      simp [Equiv.Perm.permMatrix, PEquiv.toMatrix_apply, Equiv.toPEquiv_apply]
    exact hsub hmem
  refine le_of_eq_of_le (Finset.sum_congr rfl fun k _ => ?_) hb
  congr 1
  rw [Matrix.mul_apply]
  refine Finset.sum_congr rfl fun i _ => ?_
  rw [mul_diagonal, transpose_apply, hM, Matrix.of_apply]
  ring

/-- A change of coordinates turns `p` into the identity and `q` into a matrix with the eigenvalues `e`. -/
def Rel (p q : Mat n) (e : Fin n → ℝ) : Prop :=
  ∃ g v : Mat n, g * p * gᵀ = 1 ∧ Dec (g * q * gᵀ) e v

theorem unit_of_congr {g p : Mat n} (h : g * p * gᵀ = 1) : IsUnit g.det := by
  have := congrArg Matrix.det h
  rw [Matrix.det_mul, Matrix.det_mul, Matrix.det_one] at this
  refine IsUnit.of_mul_eq_one (p.det * gᵀ.det) ?_
  rw [← this]; ring

/-- The eigenvalues do not depend on the change of coordinates. -/
theorem Rel.dec {p q : Mat n} {e} (h : Rel p q e) {g : Mat n} (hg : g * p * gᵀ = 1) :
    ∃ v, Dec (g * q * gᵀ) e v := by
  obtain ⟨g', v, hg', hd⟩ := h
  have hu' := unit_of_congr hg'
  have hu := unit_of_congr hg
  have hp : p = g'⁻¹ * (g'⁻¹)ᵀ := by
    have h1 : g'⁻¹ * (g' * p * g'ᵀ) * (g'ᵀ)⁻¹ = p := by
      have hut : IsUnit g'ᵀ.det := by rwa [Matrix.det_transpose]
      calc g'⁻¹ * (g' * p * g'ᵀ) * (g'ᵀ)⁻¹ = (g'⁻¹ * g') * p * (g'ᵀ * (g'ᵀ)⁻¹) := by
            simp only [Matrix.mul_assoc]
        _ = p := by rw [nonsing_inv_mul _ hu', mul_nonsing_inv _ hut, one_mul, mul_one]
    rw [hg', mul_one] at h1
    rw [transpose_nonsing_inv]
    exact h1.symm
  set O := g * g'⁻¹ with hO
  have hOO : O * Oᵀ = 1 := by
    rw [hO, transpose_mul, ← hg, hp]
    simp only [Matrix.mul_assoc]
  have hO' : Oᵀ * O = 1 := mul_eq_one_comm.1 hOO
  have hgO : g = O * g' := by rw [hO, Matrix.mul_assoc, nonsing_inv_mul _ hu', mul_one]
  refine ⟨O * v, ?_, ?_⟩
  · rw [transpose_mul]
    calc vᵀ * Oᵀ * (O * v) = vᵀ * (Oᵀ * O) * v := by simp only [Matrix.mul_assoc]
      _ = 1 := by rw [hO', mul_one, hd.orth]
  · conv_lhs => rw [hgO]
    calc O * g' * q * (O * g')ᵀ = O * (g' * q * g'ᵀ) * Oᵀ := by
          rw [transpose_mul]; simp only [Matrix.mul_assoc]
      _ = _ := by rw [hd.eq, transpose_mul O v]; simp only [Matrix.mul_assoc]

theorem Rel.congr {p q : Mat n} {e} (h : Rel p q e) {a : Mat n} (ha : IsUnit a.det) :
    Rel (a * p * aᵀ) (a * q * aᵀ) e := by
  obtain ⟨g, v, hg, hd⟩ := h
  have hat : IsUnit aᵀ.det := by rwa [Matrix.det_transpose]
  have key : ∀ x : Mat n, g * a⁻¹ * (a * x * aᵀ) * (g * a⁻¹)ᵀ = g * x * gᵀ := by
    intro x
    rw [transpose_mul, transpose_nonsing_inv]
    calc g * a⁻¹ * (a * x * aᵀ) * ((aᵀ)⁻¹ * gᵀ) = g * (a⁻¹ * a) * x * (aᵀ * (aᵀ)⁻¹) * gᵀ := by
          simp only [Matrix.mul_assoc]
      _ = _ := by rw [nonsing_inv_mul _ ha, mul_nonsing_inv _ hat, mul_one, mul_one]
  exact ⟨g * a⁻¹, v, by rw [key, hg], by rw [key]; exact hd⟩

/-- The weighted sum of log pivots grows at most by the weighted sum of log eigenvalues. -/
theorem flag_rel {w : ℕ → ℝ} (hw : ∀ k, k + 1 < n → w k ≤ w (k + 1)) {p q : Mat n}
    (hp : OnSPD p) (hq : OnSPD q) {e : Fin n → ℝ} (h : Rel p q e) (he : Monotone e) :
    flag w q - flag w p ≤ ∑ k : Fin n, w k * Real.log (e k) := by
  obtain ⟨g, hg, hgd, hgp⟩ := exists_lower hp
  have hu := unit_of_congr hgp
  have hM := hq.congr hu
  obtain ⟨v, hd⟩ := h.dec hgp
  rw [← flag_lower w hg hgd hp hq, hgp, flag_one, sub_zero]
  refine (flag_le hw hM hd).trans ?_
  have hpos := hM.pos hd
  have hmw : Monotone fun k : Fin n => w k := by
    have key : ∀ d i : ℕ, i + d < n → w i ≤ w (i + d) := by
      intro d
      induction d with
      | zero => intro i _; exact le_rfl
      | succ d ih => intro i hi; exact (ih i (by omega)).trans (hw (i + d) (by omega))
    intro a b hab
    have hab' : a.val ≤ b.val := hab
    have := key (b.val - a.val) a.val (by omega)
    rwa [Nat.add_sub_cancel' hab'] at this
  exact schur hmw (l := fun k => Real.log (e k))
    (fun a b hab => Real.log_le_log (hpos a) (he hab)) hd.orth

/-- Triangle inequality for the weighted log eigenvalues. -/
theorem rel_triangle {w : Fin n → ℝ} (hw : Monotone w) {p q r : Mat n} (hp : OnSPD p) (hq : OnSPD q)
    (hr : OnSPD r) {e12 e23 e13 : Fin n → ℝ} (h12 : Rel p q e12) (h23 : Rel q r e23) (h13 : Rel p r e13)
    (m12 : Monotone e12) (m23 : Monotone e23) :
    ∑ k, w k * Real.log (e13 k) ≤ ∑ k, w k * Real.log (e12 k) + ∑ k, w k * Real.log (e23 k) := by
  obtain ⟨g, v, hg, hd⟩ := h13
  set a : Mat n := vᵀ * g with ha
  have e1 : a * p * aᵀ = 1 := by
    rw [ha, transpose_mul, transpose_transpose]
    calc vᵀ * g * p * (gᵀ * v) = vᵀ * (g * p * gᵀ) * v := by simp only [Matrix.mul_assoc]
      _ = 1 := by rw [hg, mul_one, hd.orth]
  have e2 : a * r * aᵀ = diagonal e13 := by
    rw [ha, transpose_mul, transpose_transpose]
    calc vᵀ * g * r * (gᵀ * v) = vᵀ * (g * r * gᵀ) * v := by simp only [Matrix.mul_assoc]
      _ = (vᵀ * v) * diagonal e13 * (vᵀ * v) := by rw [hd.eq]; simp only [Matrix.mul_assoc]
      _ = _ := by rw [hd.orth, one_mul, mul_one]
  have hu := unit_of_congr e1
  have hpos : ∀ i, 0 < e13 i := (hr.congr (unit_of_congr hg)).pos hd
  set W : ℕ → ℝ := fun k => if h : k < n then w ⟨k, h⟩ else 0 with hW
  have hWk : ∀ k : Fin n, W k = w k := fun k => by rw [hW]; simp
  have hmono : ∀ k, k + 1 < n → W k ≤ W (k + 1) := by
    intro k hk
    have h1 : k < n := by omega
    have a1 : W k = w ⟨k, h1⟩ := hWk ⟨k, h1⟩
    have a2 : W (k + 1) = w ⟨k + 1, hk⟩ := hWk ⟨k + 1, hk⟩
    rw [a1, a2]
    exact hw (Fin.mk_le_mk.2 (by omega))
  have f1 := flag_rel hmono (hp.congr hu) (hq.congr hu) (h12.congr hu) m12
  have f2 := flag_rel hmono (hq.congr hu) (hr.congr hu) (h23.congr hu) m23
  rw [e1, flag_one] at f1
  rw [e2, flag_diagonal W hpos] at f2
  simp only [hWk] at f1 f2
  linarith

end Geoopt.SPD
