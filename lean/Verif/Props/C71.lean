import Verif.Model.Siegel
import Mathlib.Data.Fin.VecNotation
import Mathlib.Order.Bounds.Basic
import Mathlib.Algebra.BigOperators.Fin
import Mathlib.Algebra.Order.BigOperators.Group.Finset
import Mathlib.Tactic.NormNum
import Mathlib.Tactic.Linarith
import Mathlib.Tactic.FinCases

/-!
# C71: the metrics on the vector-valued distance

`v` is a row of the vector-valued distance, in ascending order.
-/

namespace Geoopt.Siegel
open Geoopt

variable {n : ℕ}

theorem weightedRow_self (w v : Fin n → ℝ) : weightedRow w v = .ok (∑ i, w i * v i) := by
  unfold weightedRow
  rw [dif_pos rfl]
  rfl

/-- **C71.** The Riemannian distance, the Finsler distances one and infinity and the weighted sum
follow their formulas: the length, the sum, the largest entry, the sum weighted by the positive
parts of the parameters. -/
theorem C71_formulas (v : Fin n → ℝ) (hv : Monotone v) (weights : Fin n → ℝ) :
    Metric.riemannian.row v = .ok (Real.sqrt (∑ i, v i ^ 2)) ∧
    Metric.finslerOne.row v = .ok (∑ i, v i) ∧
    (0 < n → ∃ m, Metric.finslerInfinity.row v = .ok m ∧ IsGreatest (Set.range v) m) ∧
    (Metric.weightedSum n weights).row v = .ok (∑ i, max (weights i) 0 * v i) := by
  refine ⟨rfl, rfl, fun hn => ⟨v ⟨n - 1, by omega⟩, ?_, ⟨_, rfl⟩, ?_⟩, ?_⟩
  · simp [Metric.row, hn]
  · rintro _ ⟨i, rfl⟩
    apply hv
    show i.val ≤ n - 1
    omega
  · exact weightedRow_self _ v

/-- **C71.** The metric of minimum entropy, as implemented: the weights are `0, 2, ..., 2(n-1)`. -/
theorem C71_minimum (v : Fin n → ℝ) :
    (Metric.finslerMinimum n).row v = .ok (∑ i, 2 * (i.val : ℝ) * v i) := by
  show weightedRow _ v = _
  rw [weightedRow_self]
  congr 1
  refine Finset.sum_congr rfl fun i _ => ?_
  unfold minimumWeights
  ring

/-- **C71, counterexample.** The documented formula `∑ 2 (n + 1 - i) v_i` is not what the metric of
minimum entropy computes, whichever end of the vector `i = 1` is: for `v = (1, 1)` it gives `6`, the
code gives `2`. -/
theorem C71_counterexample_minimum :
    (Metric.finslerMinimum 2).row ![1, 1] = .ok 2 ∧
    (∑ i : Fin 2, 2 * ((2 : ℝ) + 1 - (i.val + 1)) * (![1, 1] : Fin 2 → ℝ) i) = 6 ∧
    (∑ i : Fin 2, 2 * ((2 : ℝ) + 1 - (i.val + 1)) * (![1, 1] : Fin 2 → ℝ) i.rev) = 6 := by
  refine ⟨?_, ?_, ?_⟩
  · rw [C71_minimum]; simp
  · simp [Fin.sum_univ_two]; norm_num
  · simp [Fin.sum_univ_two]; norm_num

/-- **C71.** Every metric is non-negative on non-negative vectors. -/
theorem C71_nonneg (μ : Metric) (v : Fin n → ℝ) (hv : ∀ i, 0 ≤ v i) (r : ℝ) (h : μ.row v = .ok r) :
    0 ≤ r := by
  have key : ∀ {rank : ℕ} (w : Fin rank → ℝ), (∀ i, 0 ≤ w i) → weightedRow w v = .ok r → 0 ≤ r := by
    intro rank w hw h
    unfold weightedRow at h
    split_ifs at h <;> cases h
    · exact Finset.sum_nonneg fun i _ => mul_nonneg (hw i) (hv _)
    · exact Finset.sum_nonneg fun i _ => mul_nonneg (hw i) (hv _)
    · exact Finset.sum_nonneg fun i _ => mul_nonneg (hw _) (hv i)
  cases μ with
  | riemannian => cases h; exact Real.sqrt_nonneg _
  | finslerOne => cases h; exact Finset.sum_nonneg fun i _ => hv i
  | finslerInfinity =>
      unfold Metric.row at h
      simp only at h
      split_ifs at h
      cases h
      exact hv _
  | finslerMinimum rank =>
      refine key _ (fun i => ?_) h
      unfold minimumWeights
      have : (0 : ℝ) ≤ i.val := Nat.cast_nonneg _
      linarith
  | weightedSum rank weights => exact key _ (fun i => le_max_right _ _) h

/-- **C71.** The distances vanish only for the zero vector: Riemannian, one, infinity, and minimum
entropy for `n ≥ 2` (the smallest rank it accepts).  `v` is ascending and non-negative. -/
theorem C71_definite (v : Fin n → ℝ) (hv : ∀ i, 0 ≤ v i) (hm : Monotone v) :
    (Metric.riemannian.row v = .ok 0 ↔ v = 0) ∧
    (Metric.finslerOne.row v = .ok 0 ↔ v = 0) ∧
    (0 < n → (Metric.finslerInfinity.row v = .ok 0 ↔ v = 0)) ∧
    (2 ≤ n → ((Metric.finslerMinimum n).row v = .ok 0 ↔ v = 0)) := by
  have last : ∀ hn : 0 < n, v ⟨n - 1, by omega⟩ = 0 → v = 0 := by
    intro hn h
    ext i
    have : v i ≤ v ⟨n - 1, by omega⟩ := hm (show i.val ≤ n - 1 by omega)
    exact le_antisymm (this.trans h.le) (hv i)
  refine ⟨⟨fun h => ?_, ?_⟩, ⟨fun h => ?_, ?_⟩, fun hn => ⟨fun h => ?_, ?_⟩,
    fun hn => ⟨fun h => ?_, ?_⟩⟩
  · have h1 : Real.sqrt (∑ i, v i ^ 2) = 0 := by injection h
    rw [Real.sqrt_eq_zero (Finset.sum_nonneg fun i _ => sq_nonneg _),
      Finset.sum_eq_zero_iff_of_nonneg fun i _ => sq_nonneg _] at h1
    ext i
    exact pow_eq_zero_iff (two_ne_zero) |>.1 (h1 i (Finset.mem_univ i))
  · rintro rfl; simp [Metric.row]
  · have h1 : ∑ i, v i = 0 := by injection h
    rw [Finset.sum_eq_zero_iff_of_nonneg fun i _ => hv i] at h1
    ext i
    exact h1 i (Finset.mem_univ i)
  · rintro rfl; simp [Metric.row]
  · simp only [Metric.row, dif_pos hn] at h
    injection h with h
    exact last hn h
  · rintro rfl; simp [Metric.row, hn]
  · rw [C71_minimum] at h
    injection h with h
    rw [Finset.sum_eq_zero_iff_of_nonneg fun i _ => by
      have : (0 : ℝ) ≤ i.val := Nat.cast_nonneg _
      have := hv i
      positivity] at h
    have h1 := h ⟨n - 1, by omega⟩ (Finset.mem_univ _)
    have h2 : (2 * ((n - 1 : ℕ) : ℝ)) ≠ 0 := by
      have : (n - 1 : ℕ) ≠ 0 := by omega
      have := Nat.cast_ne_zero (R := ℝ).2 this
      positivity
    exact last (by omega) ((mul_eq_zero.1 h1).resolve_left h2)
  · rintro rfl; rw [C71_minimum]; simp

/-- **C71.** The weighted sum starts out as the Finsler distance one, and can degenerate: with
non-positive parameters every distance is zero. -/
theorem C71_weighted (v : Fin n → ℝ) :
    (Metric.weightedSum n fun _ => 1).row v = Metric.finslerOne.row v ∧
    ∀ weights : Fin n → ℝ, (∀ i, weights i ≤ 0) → (Metric.weightedSum n weights).row v = .ok 0 := by
  constructor
  · show weightedRow _ v = _
    rw [weightedRow_self]
    simp [Metric.row]
  · intro weights hw
    show weightedRow _ v = _
    rw [weightedRow_self]
    simp [max_eq_right (hw _)]

/-- **C71.** The constructors refuse a missing rank and ranks below two exactly for the metric of
minimum entropy and the weighted sum. -/
theorem C71_refused (t : MetricType) (rank : Option ℤ) :
    (∃ e, Metric.get t rank = .error e) ↔
      (t = .finslerMinimum ∨ t = .weightedSum) ∧ (rank = none ∨ ∃ r, rank = some r ∧ r < 2) := by
  cases t <;> cases rank with
  | none => simp [Metric.get, checkRank, Except.map]
  | some r =>
      by_cases h : r < 2 <;> simp [Metric.get, checkRank, Except.map, h] <;> omega

/-- **C71.** A rank that does not match the size of the points makes the distance raise, unless the
points are one by one. -/
theorem C71_mismatch (rank : ℕ) (h2 : 2 ≤ rank) (hr : rank ≠ n) (v : Fin n → ℝ)
    (weights : Fin rank → ℝ) :
    (n ≠ 1 → (Metric.finslerMinimum rank).row v = .error .runtimeError ∧
      (Metric.weightedSum rank weights).row v = .error .runtimeError) ∧
    (∀ h1 : n = 1, (Metric.weightedSum rank weights).row v =
      .ok ((∑ i, max (weights i) 0) * v ⟨0, by omega⟩)) := by
  constructor
  · intro h1
    constructor <;>
    · show weightedRow _ v = _
      unfold weightedRow
      rw [dif_neg hr, dif_neg h1, dif_neg (by omega)]
  · intro h1
    show weightedRow _ v = _
    unfold weightedRow
    rw [dif_neg hr, dif_pos h1, Finset.sum_mul]

/-- **C71, counterexample.** The shape of the distance depends on the metric, and never on the
argument `keepdim`: the Riemannian distance drops the matrix axes even with `keepdim=True`, the
others keep one axis of size one even with `keepdim=False`, and with points that have no batch axes
the weighted metrics give two axes. -/
theorem C71_counterexample_shape (bs : List ℕ) (keepdim : Bool) (rank : ℕ) (weights : Fin rank → ℝ) :
    distShape .riemannian bs keepdim = bs ∧
    distShape .finslerOne bs keepdim = bs ++ [1] ∧
    distShape .finslerInfinity bs keepdim = bs ++ [1] ∧
    distShape (.finslerMinimum rank) [] keepdim = [1, 1] ∧
    distShape (.weightedSum rank weights) [] keepdim = [1, 1] ∧
    distShape .riemannian bs keepdim ≠ distShape .finslerOne bs keepdim := by
  refine ⟨by simp [distShape, Metric.outShape, Metric.keepdimDefault], rfl, rfl, rfl, rfl, ?_⟩
  simp [distShape, Metric.outShape, Metric.keepdimDefault]

/-- **C71, partial.** All metrics except the Riemannian one give the same shape on batched points. -/
theorem C71_shape_partial (μ : Metric) (hμ : μ ≠ .riemannian) {bs : List ℕ} (hb : bs ≠ [])
    (keepdim : Bool) : distShape μ bs keepdim = bs ++ [1] := by
  cases μ <;> simp_all [distShape, Metric.outShape, Metric.keepdimDefault]

/-- The hypotheses are met. -/
example : Monotone (![0, 1] : Fin 2 → ℝ) ∧ ∀ i, 0 ≤ (![0, 1] : Fin 2 → ℝ) i := by
  constructor
  · intro i j h; fin_cases i <;> fin_cases j <;> simp at h ⊢
  · intro i; fin_cases i <;> simp

end Geoopt.Siegel
