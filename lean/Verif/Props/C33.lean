import Verif.Model.Birkhoff
import Verif.Spec.Birkhoff
import Mathlib.Analysis.SpecialFunctions.Log.Basic
import Mathlib.Analysis.SpecialFunctions.Sqrt
import Mathlib.Analysis.MeanInequalities

/-!
# C33, C34: doubly stochastic matrices, and the Birkhoff parts of C19 and C27
-/

namespace Geoopt.Birkhoff
open Matrix

variable {n : ℕ} {ι : Type*}

abbrev Mat (n : ℕ) := Matrix (Fin n) (Fin n) ℝ

/-! ## Loop invariant -/

/-- What every state of the loop satisfies. -/
structure Good (eps : ℝ) (x : Mat n) (s : Sink n) : Prop where
  cpos : ∀ j, 0 < s.c j
  rpos : ∀ i, 0 < s.r i
  req : s.r = rOf eps x s.c

theorem row_pos {x : Mat n} (hx : Positive x) {c : Fin n → ℝ} (hc : ∀ j, 0 < c j) (i : Fin n) :
    0 < ∑ j, x i j * c j :=
  Finset.sum_pos (fun j _ => mul_pos (hx i j) (hc j)) ⟨i, Finset.mem_univ _⟩

theorem rOf_pos {eps : ℝ} (he : 0 ≤ eps) {x : Mat n} (hx : Positive x) {c : Fin n → ℝ}
    (hc : ∀ j, 0 < c j) (i : Fin n) : 0 < rOf eps x c i := by
  unfold rOf
  have := row_pos hx hc i
  refine div_pos (by norm_num) (by linarith)

theorem good_init {eps : ℝ} (he : 0 ≤ eps) {x : Mat n} (hx : Positive x) :
    Good eps x (sinkInit eps x) := by
  have hc : ∀ j, 0 < (sinkInit eps x).c j := fun j => by
    have : 0 < ∑ i, x i j := Finset.sum_pos (fun i _ => hx i j) ⟨j, Finset.mem_univ _⟩
    exact div_pos (by norm_num) (by linarith)
  exact ⟨hc, rOf_pos he hx hc, rfl⟩

theorem cinv_pos {eps : ℝ} {x : Mat n} (hx : Positive x) {s : Sink n} (h : Good eps x s)
    (j : Fin n) : 0 < cinv x s j :=
  Finset.sum_pos (fun i _ => mul_pos (h.rpos i) (hx i j)) ⟨j, Finset.mem_univ _⟩

theorem good_step {eps : ℝ} (he : 0 ≤ eps) {x : Mat n} (hx : Positive x) {s : Sink n}
    (h : Good eps x s) : Good eps x (sinkStep eps x s) := by
  have hc : ∀ j, 0 < (sinkStep eps x s).c j := fun j => by
    have := cinv_pos hx h j
    exact div_pos (by norm_num) (by linarith)
  exact ⟨hc, rOf_pos he hx hc, rfl⟩

theorem loop_inv {eps tol : ℝ} {x : ι → Mat n} {P : ι → Sink n → Prop}
    (hstep : ∀ b s, P b s → P b (sinkStep eps (x b) s)) :
    ∀ (k : ℕ) (s : ι → Sink n), (∀ b, P b (s b)) → ∀ b, P b ((sinkLoop eps tol x k s).1 b)
  | 0, s, h, b => h b
  | k + 1, s, h, b => by
      unfold sinkLoop
      split_ifs
      · exact h b
      · exact loop_inv hstep k _ (fun b => hstep b _ (h b)) b

theorem loop_stop {eps tol : ℝ} {x : ι → Mat n} :
    ∀ (k : ℕ) (s : ι → Sink n), (sinkLoop eps tol x k s).2 = true →
      Stop tol x (sinkLoop eps tol x k s).1
  | 0, s, h => by simp [sinkLoop] at h
  | k + 1, s, h => by
      unfold sinkLoop at h ⊢
      split_ifs with hs
      · exact hs
      · rw [if_neg hs] at h
        exact loop_stop k _ h

theorem final_good (cfg : Config) (he : 0 ≤ cfg.eps) {x : ι → Mat n} (hx : ∀ b, Positive (x b))
    (b : ι) : Good cfg.eps (x b)
      ((sinkLoop cfg.eps cfg.tol x cfg.maxIter fun b => sinkInit cfg.eps (x b)).1 b) :=
  loop_inv (P := fun b s => Good cfg.eps (x b) s) (fun b _ h => good_step he (hx b) h) _ _
    (fun b => good_init he (hx b)) b

/-! ## C33 -/

/-- `projx` rescales rows and columns by positive factors; the result is entrywise positive. -/
theorem C33_diagonal_scaling (cfg : Config) (he : 0 ≤ cfg.eps) {x : ι → Mat n}
    (hx : ∀ b, Positive (x b)) (b : ι) :
    (∃ d₁ d₂ : Fin n → ℝ, (∀ i, 0 < d₁ i) ∧ (∀ j, 0 < d₂ j) ∧
      projx cfg x b = diagonal d₁ * x b * diagonal d₂) ∧ Positive (projx cfg x b) := by
  have h := final_good cfg he hx b
  refine ⟨⟨_, _, h.rpos, h.cpos, ?_⟩, fun i j => mul_pos (hx b i j) (mul_pos (h.rpos i) (h.cpos j))⟩
  ext i j
  rw [mul_diagonal, diagonal_mul]
  simp only [projx, projRun, assemble, of_apply]
  ring

theorem row_of_good {eps : ℝ} {x : Mat n} {s : Sink n} (h : Good eps x s)
    (i : Fin n) : rowSum (assemble x s) i
      = (∑ j, x i j * s.c j) / ((∑ j, x i j * s.c j) + eps) := by
  unfold rowSum assemble
  simp only [of_apply]
  have : ∀ j, x i j * (s.r i * s.c j) = s.r i * (x i j * s.c j) := fun j => by ring
  simp only [this, ← Finset.mul_sum]
  rw [h.req, rOf]
  rw [show (1.0 : ℝ) = 1 by norm_num]
  rw [div_mul_eq_mul_div, one_mul]

/-- Row sums of the result lie in `(0, 1]`, in every batch and whatever way the loop ends. -/
theorem C33_row_sums (cfg : Config) (he : 0 ≤ cfg.eps) {x : ι → Mat n}
    (hx : ∀ b, Positive (x b)) (b : ι) (i : Fin n) :
    0 < rowSum (projx cfg x b) i ∧ rowSum (projx cfg x b) i ≤ 1 := by
  have h := final_good cfg he hx b
  have e := row_of_good h i
  have hp := row_pos (hx b) h.cpos i
  change rowSum (assemble _ _) i = _ at e
  constructor
  · show 0 < rowSum (assemble _ _) i
    rw [e]; positivity
  · show rowSum (assemble _ _) i ≤ 1
    rw [e, div_le_one (by positivity)]; linarith

/-- With `eps = 0` the row sums are exactly one. -/
theorem C33_row_sums_exact (cfg : Config) (he : cfg.eps = 0) {x : ι → Mat n}
    (hx : ∀ b, Positive (x b)) (b : ι) (i : Fin n) : rowSum (projx cfg x b) i = 1 := by
  obtain ⟨maxIter, tol, eps⟩ := cfg
  simp only at he
  subst he
  set cfg : Config := ⟨maxIter, tol, 0⟩
  have he : cfg.eps = 0 := rfl
  have h := final_good cfg he.ge hx b
  have e := row_of_good h i
  have hp := row_pos (hx b) h.cpos i
  show rowSum (assemble _ _) i = 1
  rw [e, show cfg.eps = 0 from rfl] at *
  rw [add_zero]; exact div_self hp.ne'

/-- When the loop is left through its tolerance test all column sums are within `tol` of one. -/
theorem C33_col_sums (cfg : Config) (x : ι → Mat n) (h : (projRun cfg x).2 = true) (b : ι)
    (j : Fin n) : |colSum (projx cfg x b) j - 1| ≤ cfg.tol := by
  have := loop_stop _ _ h b j
  have e : colSum (projx cfg x b) j = cinv (x b) ((sinkLoop cfg.eps cfg.tol x cfg.maxIter fun b =>
      sinkInit cfg.eps (x b)).1 b) j * ((sinkLoop cfg.eps cfg.tol x cfg.maxIter fun b =>
      sinkInit cfg.eps (x b)).1 b).c j := by
    simp only [colSum, projx, projRun, assemble, of_apply, cinv, Finset.sum_mul]
    refine Finset.sum_congr rfl fun i _ => ?_
    ring
  rw [e]; exact this

/-! ### Convergence of the loop -/

/-- Logarithm of all the scaling factors: it can only grow. -/
noncomputable def pot [Fintype ι] (s : ι → Sink n) : ℝ :=
  ∑ b, ((∑ j, Real.log ((s b).c j)) + ∑ i, Real.log ((s b).r i))

theorem log_gap {s : ℝ} (hs : 0 < s) {m tol : ℝ} (hm : s ≤ m) (ht : 0 ≤ tol) (h : tol < |s - 1|) :
    tol ^ 2 / (Real.sqrt m + 1) ^ 2 ≤ s - 1 - Real.log s := by
  have hq : 0 < Real.sqrt s := Real.sqrt_pos.2 hs
  have hqs : Real.sqrt s * Real.sqrt s = s := Real.mul_self_sqrt hs.le
  have hl : Real.log s ≤ 2 * (Real.sqrt s - 1) := by
    have h1 : Real.log s = 2 * Real.log (Real.sqrt s) := by rw [Real.log_sqrt hs.le]; ring
    have := Real.log_le_sub_one_of_pos hq
    rw [h1]; linarith
  have hmq : Real.sqrt s ≤ Real.sqrt m := Real.sqrt_le_sqrt hm
  have e1 : (Real.sqrt s - 1) ^ 2 ≤ s - 1 - Real.log s := by nlinarith
  refine le_trans ?_ e1
  rw [div_le_iff₀ (by positivity)]
  have e2 : tol ^ 2 ≤ (s - 1) ^ 2 := by rw [← sq_abs (s - 1)]; exact pow_le_pow_left₀ ht h.le 2
  have e3 : (s - 1) ^ 2 = (Real.sqrt s - 1) ^ 2 * (Real.sqrt s + 1) ^ 2 := by
    rw [← mul_pow, show (Real.sqrt s - 1) * (Real.sqrt s + 1) = Real.sqrt s * Real.sqrt s - 1 by ring,
      hqs]
  rw [e3] at e2
  refine e2.trans (mul_le_mul_of_nonneg_left ?_ (sq_nonneg _))
  exact pow_le_pow_left₀ (by positivity) (by linarith) 2

theorem log_gap_nonneg {s : ℝ} (hs : 0 < s) : 0 ≤ s - 1 - Real.log s := by
  have := Real.log_le_sub_one_of_pos hs; linarith

theorem mass {x : Mat n} {s : Sink n} (hx : Positive x) (h : Good 0 x s) :
    ∑ j, cinv x s j * s.c j = n := by
  have e1 : ∀ i, s.r i * ∑ j, x i j * s.c j = 1 := fun i => by
    have hp := row_pos hx h.cpos i
    have : s.r i = 1.0 / ((∑ j, x i j * s.c j) + 0) := congrFun h.req i
    rw [this, add_zero, show (1.0 : ℝ) = 1 by norm_num, one_div, inv_mul_cancel₀ hp.ne']
  calc ∑ j, cinv x s j * s.c j = ∑ j, ∑ i, s.r i * (x i j * s.c j) := by
        refine Finset.sum_congr rfl fun j _ => ?_
        rw [cinv, Finset.sum_mul]
        exact Finset.sum_congr rfl fun i _ => by ring
    _ = ∑ i, s.r i * ∑ j, x i j * s.c j := by
        rw [Finset.sum_comm]; simp only [Finset.mul_sum]
    _ = n := by simp only [e1]; simp

/-- One update increases the potential of one batch element by at least the column imbalance. -/
theorem step_gain {x : Mat n} {s : Sink n} (hx : Positive x) (h : Good 0 x s) :
    (∑ j, Real.log (s.c j)) + (∑ i, Real.log (s.r i))
      + ∑ j, (cinv x s j * s.c j - 1 - Real.log (cinv x s j * s.c j))
    ≤ (∑ j, Real.log ((sinkStep 0 x s).c j)) + ∑ i, Real.log ((sinkStep 0 x s).r i) := by
  have h' := good_step le_rfl hx h
  have hci := cinv_pos hx h
  have hc' : ∀ j, (sinkStep 0 x s).c j = (cinv x s j)⁻¹ := fun j => by
    show (1.0 : ℝ) / (cinv x s j + 0) = _
    rw [add_zero, show (1.0 : ℝ) = 1 by norm_num, one_div]
  have hr' : ∀ i, (sinkStep 0 x s).r i = (∑ j, x i j * (cinv x s j)⁻¹)⁻¹ := fun i => by
    rw [show (sinkStep 0 x s).r i = 1.0 / ((∑ j, x i j * (sinkStep 0 x s).c j) + 0) from rfl]
    simp only [hc']
    rw [add_zero, show (1.0 : ℝ) = 1 by norm_num, one_div]
  -- row part: `t i = r i * Σ x c'` sums to `n`
  have hrow : ∀ i, 0 < ∑ j, x i j * (cinv x s j)⁻¹ := fun i =>
    row_pos hx (fun j => inv_pos.2 (hci j)) i
  have htsum : ∑ i, s.r i * ∑ j, x i j * (cinv x s j)⁻¹ = n := by
    calc _ = ∑ j, ∑ i, s.r i * (x i j * (cinv x s j)⁻¹) := by
          rw [Finset.sum_comm]; simp only [Finset.mul_sum]
      _ = ∑ j, cinv x s j * (cinv x s j)⁻¹ := by
          refine Finset.sum_congr rfl fun j _ => ?_
          rw [cinv, Finset.sum_mul]
          exact Finset.sum_congr rfl fun i _ => by ring
      _ = n := by
          have : ∀ j, cinv x s j * (cinv x s j)⁻¹ = 1 := fun j => mul_inv_cancel₀ (hci j).ne'
          simp only [this]; simp
  have hrlog : ∑ i, Real.log (s.r i) ≤ ∑ i, Real.log ((sinkStep 0 x s).r i) := by
    have e : ∀ i, Real.log (s.r i) - Real.log ((sinkStep 0 x s).r i)
        ≤ s.r i * (∑ j, x i j * (cinv x s j)⁻¹) - 1 := fun i => by
      rw [hr', Real.log_inv, sub_neg_eq_add, ← Real.log_mul (h.rpos i).ne' (hrow i).ne']
      exact Real.log_le_sub_one_of_pos (mul_pos (h.rpos i) (hrow i))
    have := Finset.sum_le_sum fun i (_ : i ∈ Finset.univ) => e i
    rw [Finset.sum_sub_distrib, Finset.sum_sub_distrib, htsum] at this
    simp at this
    linarith
  have hclog : (∑ j, Real.log (s.c j))
      + ∑ j, (cinv x s j * s.c j - 1 - Real.log (cinv x s j * s.c j))
      = ∑ j, Real.log ((sinkStep 0 x s).c j) := by
    rw [Finset.sum_sub_distrib, Finset.sum_sub_distrib, mass hx h]
    simp only [hc', Real.log_inv]
    have : ∀ j, Real.log (cinv x s j * s.c j) = Real.log (cinv x s j) + Real.log (s.c j) :=
      fun j => Real.log_mul (hci j).ne' (h.cpos j).ne'
    simp only [this, Finset.sum_add_distrib, Finset.sum_neg_distrib]
    simp
  linarith

theorem pot_bound [Fintype ι] {x : ι → Mat n} (hx : ∀ b, Positive (x b)) {s : ι → Sink n}
    (h : ∀ b, Good 0 (x b) (s b)) : pot s ≤ ∑ b, ∑ i, -Real.log (x b i i) := by
  unfold pot
  refine Finset.sum_le_sum fun b _ => ?_
  rw [← Finset.sum_add_distrib]
  refine Finset.sum_le_sum fun i _ => ?_
  have hle : x b i i * ((s b).r i * (s b).c i) ≤ 1 := by
    have hr := row_of_good (h b) i
    have hp := row_pos (hx b) (h b).cpos i
    rw [add_zero, div_self hp.ne'] at hr
    rw [← hr]
    exact Finset.single_le_sum (f := fun j => assemble (x b) (s b) i j)
      (fun j _ => (mul_pos (hx b i j) (mul_pos ((h b).rpos i) ((h b).cpos j))).le)
      (Finset.mem_univ i)
  have hlog := Real.log_le_log (mul_pos (hx b i i) (mul_pos ((h b).rpos i) ((h b).cpos i))) hle
  rw [Real.log_one, Real.log_mul (hx b i i).ne' (mul_pos ((h b).rpos i) ((h b).cpos i)).ne',
    Real.log_mul ((h b).rpos i).ne' ((h b).cpos i).ne'] at hlog
  linarith

theorem loop_gain [Fintype ι] {tol : ℝ} (ht : 0 ≤ tol) {x : ι → Mat n}
    (hx : ∀ b, Positive (x b)) : ∀ (k : ℕ) (s : ι → Sink n), (∀ b, Good 0 (x b) (s b)) →
      (sinkLoop 0 tol x k s).2 = false →
      pot s + k * (tol ^ 2 / (Real.sqrt n + 1) ^ 2) ≤ ∑ b, ∑ i, -Real.log (x b i i)
  | 0, s, h, _ => by simpa using pot_bound hx h
  | k + 1, s, h, hf => by
      unfold sinkLoop at hf
      split_ifs at hf with hs
      have ih := loop_gain ht hx k _ (fun b => good_step le_rfl (hx b) (h b)) hf
      have gain : pot s + tol ^ 2 / (Real.sqrt n + 1) ^ 2 ≤ pot fun b => sinkStep 0 (x b) (s b) := by
        unfold Stop at hs
        push Not at hs
        obtain ⟨b, j, hbj⟩ := hs
        have hsp : ∀ b j, 0 < cinv (x b) (s b) j * (s b).c j := fun b j =>
          mul_pos (cinv_pos (hx b) (h b) j) ((h b).cpos j)
        have hle : cinv (x b) (s b) j * (s b).c j ≤ n := by
          rw [← mass (hx b) (h b)]
          exact Finset.single_le_sum (f := fun j => cinv (x b) (s b) j * (s b).c j)
            (fun j _ => (hsp b j).le) (Finset.mem_univ j)
        have g1 := log_gap (hsp b j) hle ht hbj
        have g2 : cinv (x b) (s b) j * (s b).c j - 1 - Real.log (cinv (x b) (s b) j * (s b).c j)
            ≤ ∑ j, (cinv (x b) (s b) j * (s b).c j - 1
              - Real.log (cinv (x b) (s b) j * (s b).c j)) :=
          Finset.single_le_sum (f := fun j => cinv (x b) (s b) j * (s b).c j - 1
              - Real.log (cinv (x b) (s b) j * (s b).c j))
            (fun j _ => log_gap_nonneg (hsp b j)) (Finset.mem_univ j)
        have g3 : ∑ j, (cinv (x b) (s b) j * (s b).c j - 1
              - Real.log (cinv (x b) (s b) j * (s b).c j))
            ≤ ∑ b, ∑ j, (cinv (x b) (s b) j * (s b).c j - 1
              - Real.log (cinv (x b) (s b) j * (s b).c j)) :=
          Finset.single_le_sum (f := fun b => ∑ j, (cinv (x b) (s b) j * (s b).c j - 1
              - Real.log (cinv (x b) (s b) j * (s b).c j)))
            (fun b _ => Finset.sum_nonneg fun j _ => log_gap_nonneg (hsp b j)) (Finset.mem_univ b)
        have g4 : pot s + ∑ b, ∑ j, (cinv (x b) (s b) j * (s b).c j - 1
              - Real.log (cinv (x b) (s b) j * (s b).c j))
            ≤ pot fun b => sinkStep 0 (x b) (s b) := by
          unfold pot
          rw [← Finset.sum_add_distrib]
          exact Finset.sum_le_sum fun b _ => step_gain (hx b) (h b)
        linarith
      push_cast
      linarith

/-- Sinkhorn's iteration converges: with `eps = 0`, for every finite batch of positive matrices and
every positive tolerance, the loop is left through its tolerance test as soon as `max_iter` is large
enough; so then the result is doubly stochastic up to `tol`. -/
theorem C33_converges [Finite ι] {tol : ℝ} (ht : 0 < tol) (x : ι → Mat n)
    (hx : ∀ b, Positive (x b)) :
    ∃ N, ∀ maxIter, N ≤ maxIter →
      (projRun ⟨maxIter, tol, 0⟩ x).2 = true ∧
      ∀ b, (∀ i, rowSum (projx ⟨maxIter, tol, 0⟩ x b) i = 1) ∧
        ∀ j, |colSum (projx ⟨maxIter, tol, 0⟩ x b) j - 1| ≤ tol := by
  cases nonempty_fintype ι
  set δ := tol ^ 2 / (Real.sqrt n + 1) ^ 2 with hδ
  have hδp : 0 < δ := by positivity
  obtain ⟨N, hN⟩ := exists_nat_gt
    (((∑ b, ∑ i, -Real.log (x b i i)) - pot fun b => sinkInit 0 (x b)) / δ)
  refine ⟨N, fun k hk => ?_⟩
  have hs : (projRun ⟨k, tol, 0⟩ x).2 = true := by
    by_contra hf
    have hf' : (sinkLoop 0 tol x k fun b => sinkInit 0 (x b)).2 = false := by
      simpa [projRun] using hf
    have := loop_gain ht.le hx k _ (fun b => good_init le_rfl (hx b)) hf'
    rw [div_lt_iff₀ hδp] at hN
    have hk' : (N : ℝ) * δ ≤ k * δ := mul_le_mul_of_nonneg_right (by exact_mod_cast hk) hδp.le
    linarith
  exact ⟨hs, fun b => ⟨C33_row_sums_exact _ rfl hx b, C33_col_sums _ x hs b⟩⟩

/-- A doubly stochastic matrix is left unchanged when `eps = 0`. -/
theorem C33_fixes {maxIter : ℕ} {tol : ℝ} {x : ι → Mat n} (hx : ∀ b, DoublyStochastic (x b))
    (b : ι) : projx ⟨maxIter, tol, 0⟩ x b = x b := by
  have hr1 : ∀ b, rOf 0 (x b) (fun _ => 1) = fun _ => 1 := fun b => by
    funext i
    unfold rOf
    have h := (hx b).row i
    unfold rowSum at h
    simp only [mul_one, h]; norm_num
  have hi : ∀ b, sinkInit 0 (x b) = ⟨fun _ => 1, fun _ => 1⟩ := fun b => by
    have hc : (fun j => (1.0 : ℝ) / ((∑ i, x b i j) + 0)) = fun _ => 1 := by
      funext j
      have h := (hx b).col j
      unfold colSum at h
      rw [h]; norm_num
    unfold sinkInit
    simp only [hc, hr1]
  have hst : ∀ b, sinkStep 0 (x b) ⟨fun _ => 1, fun _ => 1⟩ = ⟨fun _ => 1, fun _ => 1⟩ := fun b => by
    have hc : (fun j => (1.0 : ℝ) / (cinv (x b) ⟨fun _ => 1, fun _ => 1⟩ j + 0)) = fun _ => 1 := by
      funext j
      have h := (hx b).col j
      unfold colSum at h
      simp only [cinv, one_mul, h]; norm_num
    unfold sinkStep
    simp only [hc, hr1]
  have := loop_inv (eps := 0) (tol := tol) (x := x)
    (P := fun _ s => s = ⟨fun _ => 1, fun _ => 1⟩) (fun b s h => by rw [h]; exact hst b)
    maxIter (fun b => sinkInit 0 (x b)) hi b
  show assemble _ _ = _
  rw [this]
  ext i j; simp [assemble]

/-- With a positive `eps` a positive matrix with tiny entries is not made doubly stochastic, however
many iterations are run: all row sums stay at most `1/2`.  (The default `eps` is `1e-12`.) -/
theorem C33_counterexample_tiny (cfg : Config) (he : 0 < cfg.eps) {x : ι → Mat n}
    (hx : ∀ b, Positive (x b)) (b : ι) (hs : ∀ i j, x b i j ≤ cfg.eps ^ 2 / (2 * n)) (i : Fin n) :
    rowSum (projx cfg x b) i ≤ 1 / 2 := by
  have hn : 0 < n := Fin.pos i
  have hn' : (0 : ℝ) < n := by exact_mod_cast hn
  set s := (sinkLoop cfg.eps cfg.tol x cfg.maxIter fun b => sinkInit cfg.eps (x b)).1 b with hsdef
  have hg : Good cfg.eps (x b) s := final_good cfg he.le hx b
  have hcle : ∀ j, s.c j ≤ 1 / cfg.eps := by
    have := loop_inv (eps := cfg.eps) (tol := cfg.tol) (x := x)
      (P := fun b s => Good cfg.eps (x b) s ∧ ∀ j, s.c j ≤ 1 / cfg.eps) (fun b s h => by
        refine ⟨good_step he.le (hx b) h.1, fun j => ?_⟩
        have := cinv_pos (hx b) h.1 j
        show (1.0 : ℝ) / (cinv (x b) s j + cfg.eps) ≤ _
        rw [show (1.0 : ℝ) = 1 by norm_num]
        exact one_div_le_one_div_of_le he (by linarith))
      cfg.maxIter (fun b => sinkInit cfg.eps (x b)) (fun b => by
        refine ⟨good_init he.le (hx b), fun j => ?_⟩
        have : 0 < ∑ i, x b i j := Finset.sum_pos (fun i _ => hx b i j) ⟨j, Finset.mem_univ _⟩
        show (1.0 : ℝ) / ((∑ i, x b i j) + cfg.eps) ≤ _
        rw [show (1.0 : ℝ) = 1 by norm_num]
        exact one_div_le_one_div_of_le he (by linarith)) b
    exact this.2
  have hrle : s.r i ≤ 1 / cfg.eps := by
    rw [hg.req]
    have := row_pos (hx b) hg.cpos i
    show (1.0 : ℝ) / _ ≤ _
    rw [show (1.0 : ℝ) = 1 by norm_num]
    exact one_div_le_one_div_of_le he (by linarith)
  have hterm : ∀ j, x b i j * (s.r i * s.c j) ≤ 1 / (2 * n) := fun j => by
    have h1 : s.r i * s.c j ≤ 1 / cfg.eps * (1 / cfg.eps) :=
      mul_le_mul hrle (hcle j) (hg.cpos j).le (by positivity)
    calc _ ≤ cfg.eps ^ 2 / (2 * n) * (1 / cfg.eps * (1 / cfg.eps)) :=
          mul_le_mul (hs i j) h1 (mul_pos (hg.rpos i) (hg.cpos j)).le (by positivity)
      _ = _ := by field_simp
  show ∑ j, x b i j * (s.r i * s.c j) ≤ 1 / 2
  calc _ ≤ ∑ _j : Fin n, (1 : ℝ) / (2 * n) := Finset.sum_le_sum fun j _ => hterm j
    _ = 1 / 2 := by simp; field_simp

/-- `retr` is entrywise at least `1e-12`, for any input. -/
theorem C33_retr_positive (cfg : Config) (x u : ι → Mat n) (b : ι) : Positive (retr cfg x u b) :=
  fun i j => lt_of_lt_of_le (by norm_num) (le_max_right _ _)

/-- `retr` multiplies every entry `x i j` by `exp (u i j / x i j)`, rescales rows and columns by positive
factors, and replaces entries below `1e-12`. -/
theorem C33_retr_form (cfg : Config) (he : 0 ≤ cfg.eps) {x : ι → Mat n} (hx : ∀ b, Positive (x b))
    (u : ι → Mat n) (b : ι) :
    ∃ d₁ d₂ : Fin n → ℝ, (∀ i, 0 < d₁ i) ∧ (∀ j, 0 < d₂ j) ∧ ∀ i j,
      retr cfg x u b i j = max (d₁ i * (x b i j * Real.exp (u b i j / x b i j)) * d₂ j) 1e-12 := by
  obtain ⟨⟨d₁, d₂, h1, h2, h3⟩, -⟩ := C33_diagonal_scaling cfg he
    (x := fun b => Matrix.of fun i j => x b i j * Real.exp (u b i j / x b i j))
    (fun b i j => mul_pos (hx b i j) (Real.exp_pos _)) b
  refine ⟨d₁, d₂, h1, h2, fun i j => ?_⟩
  simp only [retr, of_apply]
  rw [h3, mul_diagonal, diagonal_mul]
  rfl

/-- Row sums after `retr` are positive and exceed one by at most `n * 1e-12`. -/
theorem C33_retr_row_sums (cfg : Config) (he : 0 ≤ cfg.eps) {x : ι → Mat n} (hx : ∀ b, Positive (x b))
    (u : ι → Mat n) (b : ι) (i : Fin n) :
    0 < rowSum (retr cfg x u b) i ∧ rowSum (retr cfg x u b) i ≤ 1 + n * 1e-12 := by
  have hy : ∀ b, Positive (Matrix.of fun i j => x b i j * Real.exp (u b i j / x b i j) : Mat n) :=
    fun b i j => mul_pos (hx b i j) (Real.exp_pos _)
  have h := C33_row_sums cfg he hy b i
  have hp := (C33_diagonal_scaling cfg he hy b).2
  constructor
  · exact Finset.sum_pos (fun j _ => C33_retr_positive cfg x u b i j) ⟨i, Finset.mem_univ _⟩
  · calc rowSum (retr cfg x u b) i
        ≤ ∑ j, (projx cfg (fun b => Matrix.of fun i j => x b i j * Real.exp (u b i j / x b i j)) b i j
            + 1e-12) := by
          refine Finset.sum_le_sum fun j _ => max_le ?_ ?_
          · exact le_add_of_nonneg_right (by norm_num)
          · exact le_add_of_nonneg_left (hp i j).le
      _ ≤ 1 + n * 1e-12 := by
          rw [Finset.sum_add_distrib]
          simp only [Finset.sum_const, Finset.card_univ, Fintype.card_fin, nsmul_eq_mul]
          exact add_le_add h.2 (le_refl _)

/-- With `eps = 0`, `retr(x, 0)` is `x` for every doubly stochastic `x` with entries of at least
`1e-12`. -/
theorem C33_retr_zero {maxIter : ℕ} {tol : ℝ} {x : ι → Mat n} (hx : ∀ b, DoublyStochastic (x b))
    (hl : ∀ b i j, 1e-12 ≤ x b i j) (b : ι) : retr ⟨maxIter, tol, 0⟩ x 0 b = x b := by
  have e : (fun b => Matrix.of fun i j => x b i j * Real.exp ((0 : ι → Mat n) b i j / x b i j)) = x := by
    funext b; ext i j; simp
  ext i j
  simp only [retr, of_apply]
  rw [e, C33_fixes hx, max_eq_left (hl b i j)]

/-- Non-vacuity: a positive matrix that is not doubly stochastic. -/
example : Positive (!![1, 2; 3, 4] : Mat 2) ∧ ¬ DoublyStochastic (!![1, 2; 3, 4] : Mat 2) :=
  ⟨fun i j => by fin_cases i <;> fin_cases j <;> simp, fun h => by
    have := h.row 0; simp [rowSum, Fin.sum_univ_two] at this⟩

/-- `J/2`. -/
noncomputable def half : Mat 2 := !![1 / 2, 1 / 2; 1 / 2, 1 / 2]

theorem half_ds : DoublyStochastic half :=
  ⟨fun i j => by fin_cases i <;> fin_cases j <;> simp [half],
   fun i => by fin_cases i <;> simp [half, rowSum, Fin.sum_univ_two] <;> norm_num,
   fun j => by fin_cases j <;> simp [half, colSum, Fin.sum_univ_two] <;> norm_num⟩

/-- The result for one matrix depends on which other matrices are in the batch: the stopping test
looks at the whole batch.  Here `J/2` projected alone differs from `J/2` projected together with
`[[1,2],[3,4]]`. -/
theorem C33_counterexample_batch :
    projx ⟨1, 1e-5, 1e-12⟩ ![half, !![1, 2; 3, 4]] 0 ≠ projx1 ⟨1, 1e-5, 1e-12⟩ half := by
  have h1 : ¬ Stop (1e-5) ![half, !![1, 2; 3, 4]]
      (fun b => sinkInit (1e-12) ((![half, !![1, 2; 3, 4]] : Fin 2 → Mat 2) b)) := by
    intro h
    have := h 1 0
    simp [sinkInit, rOf, cinv, Fin.sum_univ_two] at this
    norm_num [abs_le] at this
  have h2 : Stop (1e-5) (fun _ : Unit => half) (fun _ => sinkInit (1e-12) half) := by
    intro b j
    fin_cases j <;> simp [sinkInit, rOf, cinv, Fin.sum_univ_two, half] <;> norm_num [abs_le]
  intro h
  have := congrFun (congrFun h 0) 0
  simp only [projx, projx1, projRun, sinkLoop, if_neg h1, if_pos h2] at this
  simp [assemble, sinkStep, sinkInit, rOf, cinv, Fin.sum_univ_two, half] at this
  norm_num at this

/-- The point check accepts matrices with negative entries. -/
theorem C33_check_accepts_negative {atol rtol : ℝ} (ha : 0 ≤ atol) (hr : 0 ≤ rtol) :
    CheckPoint atol rtol (!![2, -1; -1, 2] : Mat 2) ∧ ¬ Positive (!![2, -1; -1, 2] : Mat 2) := by
  refine ⟨⟨fun i => ?_, fun j => ?_⟩, fun h => ?_⟩
  · fin_cases i <;> simp [Close, Fin.sum_univ_two] <;> norm_num <;> positivity
  · fin_cases j <;> simp [Close, Fin.sum_univ_two] <;> norm_num <;> positivity
  · have := h 0 1; simp at this; norm_num at this

/-- `random`: for every draw without an exactly zero entry the result is a positive rescaling with row
sums in `(0,1]`. -/
theorem C74_birkhoff_random_partial (cfg : Config) (he : 0 ≤ cfg.eps) {z : ι → Mat n}
    (hz : ∀ b i j, z b i j ≠ 0) (b : ι) : Positive (random cfg z b) ∧
      ∀ i, 0 < rowSum (random cfg z b) i ∧ rowSum (random cfg z b) i ≤ 1 :=
  ⟨(C33_diagonal_scaling cfg he (fun b i j => abs_pos.2 (hz b i j)) b).2,
   fun i => C33_row_sums cfg he (fun b i j => abs_pos.2 (hz b i j)) b i⟩

/-! ## C34 -/

section tangent
variable {x : Mat (n + 1)}

/-- The quadratic form of `A`. -/
theorem amat_quad (hx : DoublyStochastic x) (z : Fin (n + 1) ⊕ Fin (n + 1) → ℝ) :
    z ⬝ᵥ (amat x *ᵥ z) = ∑ i, ∑ j, x i j * (z (Sum.inl i) + z (Sum.inr j)) ^ 2 := by
  have h1 : ∑ i, ∑ j, x i j * z (Sum.inl i) ^ 2 = ∑ i, z (Sum.inl i) ^ 2 := by
    refine Finset.sum_congr rfl fun i _ => ?_
    rw [← Finset.sum_mul]
    have := hx.row i; unfold rowSum at this; rw [this, one_mul]
  have h2 : ∑ i, ∑ j, x i j * z (Sum.inr j) ^ 2 = ∑ j, z (Sum.inr j) ^ 2 := by
    rw [Finset.sum_comm]
    refine Finset.sum_congr rfl fun j _ => ?_
    rw [← Finset.sum_mul]
    have := hx.col j; unfold colSum at this; rw [this, one_mul]
  have e : ∑ i, ∑ j, x i j * (z (Sum.inl i) + z (Sum.inr j)) ^ 2
      = (∑ i, ∑ j, x i j * z (Sum.inl i) ^ 2) + (∑ i, ∑ j, x i j * z (Sum.inr j) ^ 2)
        + 2 * ∑ i, ∑ j, x i j * (z (Sum.inl i) * z (Sum.inr j)) := by
    simp only [Finset.mul_sum, ← Finset.sum_add_distrib]
    refine Finset.sum_congr rfl fun i _ => Finset.sum_congr rfl fun j _ => ?_
    ring
  rw [e, h1, h2]
  have e2 : ∀ i, (amat x *ᵥ z) (Sum.inl i) = z (Sum.inl i) + ∑ j, x i j * z (Sum.inr j) := fun i => by
    simp [amat, Matrix.mulVec, dotProduct, Fintype.sum_sum_type, Matrix.one_apply]
  have e3 : ∀ j, (amat x *ᵥ z) (Sum.inr j) = (∑ i, x i j * z (Sum.inl i)) + z (Sum.inr j) := fun j => by
    simp [amat, Matrix.mulVec, dotProduct, Fintype.sum_sum_type, Matrix.one_apply]
  rw [dotProduct, Fintype.sum_sum_type]
  simp only [e2, e3, mul_add, Finset.sum_add_distrib]
  have e4 : ∑ i, z (Sum.inl i) * ∑ j, x i j * z (Sum.inr j)
      = ∑ i, ∑ j, x i j * (z (Sum.inl i) * z (Sum.inr j)) := by
    simp only [Finset.mul_sum]
    refine Finset.sum_congr rfl fun i _ => Finset.sum_congr rfl fun j _ => ?_
    ring
  have e5 : ∑ j, z (Sum.inr j) * ∑ i, x i j * z (Sum.inl i)
      = ∑ i, ∑ j, x i j * (z (Sum.inl i) * z (Sum.inr j)) := by
    rw [Finset.sum_comm]
    simp only [Finset.mul_sum]
    refine Finset.sum_congr rfl fun i _ => Finset.sum_congr rfl fun j _ => ?_
    ring
  rw [e4, e5]
  simp only [← sq]
  ring

theorem amat_inl (z : Fin (n + 1) ⊕ Fin (n + 1) → ℝ) (i : Fin (n + 1)) :
    (amat x *ᵥ z) (Sum.inl i) = z (Sum.inl i) + ∑ j, x i j * z (Sum.inr j) := by
  simp [amat, Matrix.mulVec, dotProduct, Fintype.sum_sum_type, Matrix.one_apply]

theorem amat_inr (z : Fin (n + 1) ⊕ Fin (n + 1) → ℝ) (j : Fin (n + 1)) :
    (amat x *ᵥ z) (Sum.inr j) = (∑ i, x i j * z (Sum.inl i)) + z (Sum.inr j) := by
  simp [amat, Matrix.mulVec, dotProduct, Fintype.sum_sum_type, Matrix.one_apply]

/-- Null space of `A`: multiples of `(1; -1)`. -/
theorem amat_null (hx : DoublyStochastic x) {z : Fin (n + 1) ⊕ Fin (n + 1) → ℝ}
    (h : z ⬝ᵥ (amat x *ᵥ z) = 0) (i j : Fin (n + 1)) : z (Sum.inl i) + z (Sum.inr j) = 0 := by
  rw [amat_quad hx] at h
  have hnn : ∀ i j, 0 ≤ x i j * (z (Sum.inl i) + z (Sum.inr j)) ^ 2 := fun i j =>
    mul_nonneg (hx.pos i j).le (sq_nonneg _)
  have h1 := (Finset.sum_eq_zero_iff_of_nonneg fun i _ => Finset.sum_nonneg fun j _ => hnn i j).1 h i
    (Finset.mem_univ _)
  have h2 := (Finset.sum_eq_zero_iff_of_nonneg fun j _ => hnn i j).1 h1 j (Finset.mem_univ _)
  rcases mul_eq_zero.1 h2 with h3 | h3
  · exact absurd h3 (hx.pos i j).ne'
  · exact pow_eq_zero_iff (two_ne_zero) |>.1 h3

/-- Extension of a reduced vector by a value `a` at the dropped position. -/
def ext (a : ℝ) (w : Fin n ⊕ Fin (n + 1) → ℝ) : Fin (n + 1) ⊕ Fin (n + 1) → ℝ :=
  Sum.elim (Fin.cons a fun i => w (Sum.inl i)) fun j => w (Sum.inr j)

theorem bmat_mulVec (a : ℝ) (w : Fin n ⊕ Fin (n + 1) → ℝ) :
    amat x *ᵥ ext a w = fun k => a * amat x k (Sum.inl 0) + (bmat x *ᵥ w) k := by
  funext k
  simp only [Matrix.mulVec, dotProduct, Fintype.sum_sum_type, ext, Sum.elim_inl, Sum.elim_inr,
    bmat, submatrix_apply, skip, id, Sum.map_inl, Sum.map_inr]
  rw [Fin.sum_univ_succ]
  simp only [Fin.cons_zero, Fin.cons_succ]
  ring

/-- The linear system solved by `proju` is non-singular at every doubly stochastic point. -/
theorem C34_system_nonsingular (hx : DoublyStochastic x) : IsUnit (lhs x).det := by
  rw [isUnit_iff_ne_zero]
  intro h0
  obtain ⟨w, hw, hz⟩ := Matrix.exists_mulVec_eq_zero_iff.2 h0
  apply hw
  have h1 : (bmat x *ᵥ w) ⬝ᵥ (bmat x *ᵥ w) = 0 := by
    have : w ⬝ᵥ (lhs x *ᵥ w) = 0 := by rw [hz, dotProduct_zero]
    rw [lhs, ← Matrix.mulVec_mulVec, Matrix.dotProduct_mulVec, Matrix.vecMul_transpose] at this
    exact this
  have h2 : bmat x *ᵥ w = 0 := by
    funext k
    have := (Finset.sum_eq_zero_iff_of_nonneg fun k _ => mul_self_nonneg ((bmat x *ᵥ w) k)).1 h1 k
      (Finset.mem_univ _)
    simpa using this
  have h3 : amat x *ᵥ ext 0 w = 0 := by
    rw [bmat_mulVec, h2]; funext k; simp
  have h4 := fun i j => amat_null hx (z := ext 0 w) (by rw [h3, dotProduct_zero]) i j
  have h5 : ∀ j, w (Sum.inr j) = 0 := fun j => by simpa [ext] using h4 0 j
  funext k
  rcases k with i | j
  · have := h4 i.succ 0
    simp only [ext, Sum.elim_inl, Sum.elim_inr, Fin.cons_succ, h5, add_zero] at this
    simpa using this
  · exact h5 j

theorem balance (hx : DoublyStochastic x) (z : Fin (n + 1) ⊕ Fin (n + 1) → ℝ) :
    ∑ i, (amat x *ᵥ z) (Sum.inl i) = ∑ j, (amat x *ᵥ z) (Sum.inr j) := by
  simp only [amat_inl, amat_inr, Finset.sum_add_distrib]
  have h1 : ∑ i, ∑ j, x i j * z (Sum.inr j) = ∑ j, z (Sum.inr j) := by
    rw [Finset.sum_comm]
    refine Finset.sum_congr rfl fun j _ => ?_
    rw [← Finset.sum_mul]
    have := hx.col j; unfold colSum at this; rw [this, one_mul]
  have h2 : ∑ j, ∑ i, x i j * z (Sum.inl i) = ∑ i, z (Sum.inl i) := by
    rw [Finset.sum_comm]
    refine Finset.sum_congr rfl fun i _ => ?_
    rw [← Finset.sum_mul]
    have := hx.row i; unfold rowSum at this; rw [this, one_mul]
  rw [h1, h2]

theorem amat_transpose : (amat x)ᵀ = amat x := by
  simp [amat, Matrix.fromBlocks_transpose]

/-- The least-squares system is solved exactly. -/
theorem solved (hx : DoublyStochastic x) (u : Mat (n + 1)) :
    amat x *ᵥ ext 1 (zeta x u) = bvec x u := by
  set ρ : Fin (n + 1) ⊕ Fin (n + 1) → ℝ := fun k => (amat x *ᵥ ext 1 (zeta x u)) k - bvec x u k
    with hρ
  have hB : (bmat x)ᵀ *ᵥ ρ = 0 := by
    have e1 : lhs x *ᵥ zeta x u = rhs x u := by
      rw [zeta, Matrix.mulVec_mulVec, Matrix.mul_nonsing_inv _ (C34_system_nonsingular hx),
        Matrix.one_mulVec]
    have e2 : ρ = bmat x *ᵥ zeta x u - fun k => bvec x u k - amat x k (Sum.inl 0) := by
      funext k
      simp only [hρ, bmat_mulVec, Pi.sub_apply]; ring
    rw [e2, Matrix.mulVec_sub, Matrix.mulVec_mulVec]
    have : (bmat x)ᵀ * bmat x = lhs x := rfl
    rw [this, e1]
    exact sub_self _
  have hA : ∀ k, (amat x *ᵥ ρ) (skip k) = 0 := fun k => by
    have := congrFun hB k
    rw [← amat_transpose]
    exact this
  have hA0 : (amat x *ᵥ ρ) (Sum.inl 0) = 0 := by
    have h := balance hx ρ
    rw [Fin.sum_univ_succ] at h
    have h1 : ∀ i : Fin n, (amat x *ᵥ ρ) (Sum.inl i.succ) = 0 := fun i => hA (Sum.inl i)
    have h2 : ∀ j, (amat x *ᵥ ρ) (Sum.inr j) = 0 := fun j => hA (Sum.inr j)
    simpa [h1, h2] using h
  have hAll : amat x *ᵥ ρ = 0 := by
    funext k
    rcases k with i | j
    · refine Fin.cases hA0 (fun i => ?_) i
      exact hA (Sum.inl i)
    · exact hA (Sum.inr j)
  have hnull := fun i j => amat_null hx (z := ρ) (by rw [hAll, dotProduct_zero]) i j
  have hbal : ∑ i, ρ (Sum.inl i) = ∑ j, ρ (Sum.inr j) := by
    simp only [hρ, Finset.sum_sub_distrib, balance hx]
    congr 1
    simp only [bvec, Sum.elim_inl, Sum.elim_inr]
    exact Finset.sum_comm
  have hc : ∀ i, ρ (Sum.inl i) = ρ (Sum.inl 0) := fun i => by
    have := hnull i 0; have := hnull 0 0; linarith
  have hd : ∀ j, ρ (Sum.inr j) = -ρ (Sum.inl 0) := fun j => by have := hnull 0 j; linarith
  have h0 : ρ (Sum.inl 0) = 0 := by
    simp only [hc, hd, Finset.sum_const, Finset.card_univ, Fintype.card_fin, nsmul_eq_mul] at hbal
    have hn : (0 : ℝ) < ((n + 1 : ℕ) : ℝ) := by positivity
    have h6 : ((n + 1 : ℕ) : ℝ) * (2 * ρ (Sum.inl 0)) = 0 := by linear_combination hbal
    rcases mul_eq_zero.1 h6 with h | h
    · exact absurd h hn.ne'
    · linarith
  funext k
  have : ρ k = 0 := by
    rcases k with i | j
    · rw [hc, h0]
    · rw [hd, h0, neg_zero]
  simp only [hρ] at this
  linarith

/-- `proju` gives exactly zero row and column sums, at every doubly stochastic point and for every
matrix. -/
theorem C34_tangent (hx : DoublyStochastic x) (u : Mat (n + 1)) : Tangent (proju x u) := by
  have hs := solved hx u
  constructor
  · intro i
    have h := congrFun hs (Sum.inl i)
    rw [amat_inl] at h
    have h1 : rowSum (proju x u) i = (∑ j, mu x u i j) - alpha x u i * rowSum x i
        - ∑ j, x i j * beta x u j := by
      simp only [rowSum, proju, of_apply, Finset.mul_sum, ← Finset.sum_sub_distrib]
      exact Finset.sum_congr rfl fun j _ => by ring
    rw [h1, hx.row i, mul_one]
    simp only [ext, bvec, Sum.elim_inl, Sum.elim_inr] at h
    have ha : alpha x u i = (Fin.cons 1 fun i => zeta x u (Sum.inl i) : Fin (n + 1) → ℝ) i := rfl
    rw [ha]
    have hb : ∑ j, x i j * beta x u j = ∑ j, x i j * zeta x u (Sum.inr j) := rfl
    rw [hb]; linarith
  · intro j
    have h := congrFun hs (Sum.inr j)
    rw [amat_inr] at h
    have h1 : colSum (proju x u) j = (∑ i, mu x u i j) - (∑ i, x i j * alpha x u i)
        - beta x u j * colSum x j := by
      simp only [colSum, proju, of_apply, Finset.mul_sum, ← Finset.sum_sub_distrib]
      exact Finset.sum_congr rfl fun i _ => by ring
    rw [h1, hx.col j, mul_one]
    simp only [ext, bvec, Sum.elim_inl, Sum.elim_inr] at h
    have ha : ∑ i, x i j * alpha x u i
        = ∑ i, x i j * (Fin.cons 1 fun i => zeta x u (Sum.inl i) : Fin (n + 1) → ℝ) i := rfl
    rw [ha]
    have hb : beta x u j = zeta x u (Sum.inr j) := rfl
    rw [hb]; linarith

/-- It therefore passes `check_vector_on_tangent` for all tolerances, including zero. -/
theorem C34_passes_check (hx : DoublyStochastic x) (u : Mat (n + 1)) {atol rtol : ℝ}
    (ha : 0 ≤ atol) (_hr : 0 ≤ rtol) : CheckTangent atol rtol (proju x u) := by
  have h := C34_tangent hx u
  refine ⟨fun i => ?_, fun j => ?_⟩
  · have := h.row i; unfold rowSum at this
    simp [Close, this, ha]
  · have := h.col j; unfold colSum at this
    simp [Close, this, ha]

/-- Pairing with a tangent vector only sees the `x*u` part. -/
theorem pairing (_hx : DoublyStochastic x) (a b : Fin (n + 1) → ℝ) {v : Mat (n + 1)}
    (hv : Tangent v) : ∑ i, ∑ j, (a i + b j) * v i j = 0 := by
  have h1 : ∑ i, ∑ j, a i * v i j = 0 := by
    refine Finset.sum_eq_zero fun i _ => ?_
    rw [← Finset.mul_sum]
    have := hv.row i; unfold rowSum at this; rw [this, mul_zero]
  have h2 : ∑ i, ∑ j, b j * v i j = 0 := by
    rw [Finset.sum_comm]
    refine Finset.sum_eq_zero fun j _ => ?_
    rw [← Finset.mul_sum]
    have := hv.col j; unfold colSum at this; rw [this, mul_zero]
  simp only [add_mul, Finset.sum_add_distrib, h1, h2, add_zero]

/-- Characterisation without the linear system: `proju(x,u)` is the only tangent matrix of the form
`x*u - (a_i + b_j) x_ij`. -/
theorem C34_characterisation (hx : DoublyStochastic x) (u : Mat (n + 1)) {a b : Fin (n + 1) → ℝ}
    (h : Tangent (Matrix.of fun i j => x i j * u i j - (a i + b j) * x i j)) :
    proju x u = Matrix.of fun i j => x i j * u i j - (a i + b j) * x i j := by
  have ht := C34_tangent hx u
  -- the difference is tangent and of the form `(a' + b') x`
  set d : Mat (n + 1) := proju x u - Matrix.of fun i j => x i j * u i j - (a i + b j) * x i j with hd
  have hdt : Tangent d := by
    constructor
    · intro i
      have e1 := ht.row i; have e2 := h.row i
      simp only [rowSum] at *
      simp only [hd, Matrix.sub_apply, Finset.sum_sub_distrib, e1, e2, sub_zero]
    · intro j
      have e1 := ht.col j; have e2 := h.col j
      simp only [colSum] at *
      simp only [hd, Matrix.sub_apply, Finset.sum_sub_distrib, e1, e2, sub_zero]
  have hform : ∀ i j, d i j = ((a i - alpha x u i) + (b j - beta x u j)) * x i j := fun i j => by
    simp only [hd, proju, mu, Matrix.sub_apply, of_apply]; ring
  have hp := pairing hx (fun i => a i - alpha x u i) (fun j => b j - beta x u j) hdt
  have hz : ∀ i j, (a i - alpha x u i) + (b j - beta x u j) = 0 := by
    have hnn : ∀ i j, 0 ≤ ((a i - alpha x u i) + (b j - beta x u j)) * d i j := fun i j => by
      rw [hform]
      have := mul_nonneg (sq_nonneg ((a i - alpha x u i) + (b j - beta x u j))) (hx.pos i j).le
      nlinarith
    intro i j
    have h1 := (Finset.sum_eq_zero_iff_of_nonneg fun i _ => Finset.sum_nonneg fun j _ =>
      hnn i j).1 hp i (Finset.mem_univ _)
    have h2 := (Finset.sum_eq_zero_iff_of_nonneg fun j _ => hnn i j).1 h1 j (Finset.mem_univ _)
    rw [hform, ← mul_assoc, mul_eq_zero] at h2
    rcases h2 with h2 | h2
    · exact mul_self_eq_zero.1 h2
    · exact absurd h2 (hx.pos i j).ne'
  have : d = 0 := by ext i j; rw [hform, hz, zero_mul]; rfl
  exact sub_eq_zero.1 this

/-- `proju` is linear in the vector. -/
theorem C34_linear (hx : DoublyStochastic x) (u v : Mat (n + 1)) (c : ℝ) :
    proju x (u + c • v) = proju x u + c • proju x v := by
  have hu := C34_tangent hx u
  have hv := C34_tangent hx v
  have e : (Matrix.of fun i j => x i j * (u + c • v) i j
      - ((alpha x u i + c * alpha x v i) + (beta x u j + c * beta x v j)) * x i j)
      = proju x u + c • proju x v := by
    ext i j
    simp only [proju, mu, of_apply, Matrix.add_apply, Matrix.smul_apply, smul_eq_mul]; ring
  rw [← e]
  refine C34_characterisation hx _ (a := fun i => alpha x u i + c * alpha x v i)
    (b := fun j => beta x u j + c * beta x v j) ?_
  rw [e]
  constructor
  · intro i
    have e1 := hu.row i; have e2 := hv.row i
    simp only [rowSum] at *
    simp only [Matrix.add_apply, Matrix.smul_apply, smul_eq_mul, Finset.sum_add_distrib,
      ← Finset.mul_sum, e1, e2, mul_zero, add_zero]
  · intro j
    have e1 := hu.col j; have e2 := hv.col j
    simp only [colSum] at *
    simp only [Matrix.add_apply, Matrix.smul_apply, smul_eq_mul, Finset.sum_add_distrib,
      ← Finset.mul_sum, e1, e2, mul_zero, add_zero]

/-- `egrad2rgrad` represents the Euclidean gradient only up to the factor `1/n`: `inner` divides by
the matrix size, `egrad2rgrad` does not compensate. -/
theorem C19_birkhoff (hx : DoublyStochastic x) (g : Mat (n + 1)) {v : Mat (n + 1)}
    (hv : Tangent v) :
    inner x (proju x g) v = (∑ i, ∑ j, g i j * v i j) / ((n + 1 : ℕ) : ℝ) := by
  unfold inner
  congr 1
  have h0 := pairing hx (alpha x g) (beta x g) hv
  have e : ∀ i j, proju x g i j * v i j / x i j
      = g i j * v i j - (alpha x g i + beta x g j) * v i j := fun i j => by
    simp only [proju, mu, of_apply]
    have := (hx.pos i j).ne'
    field_simp
  simp only [e, Finset.sum_sub_distrib, h0, sub_zero]

/-- On a vector `u` with `x*u` tangent, `proju` multiplies by `x` entrywise: it is not a projection. -/
theorem C27_birkhoff_on_tangent (hx : DoublyStochastic x) {u : Mat (n + 1)}
    (hu : Tangent (Matrix.of fun i j => x i j * u i j)) :
    proju x u = Matrix.of fun i j => x i j * u i j := by
  have := C34_characterisation hx u (a := fun _ => 0) (b := fun _ => 0) (by simpa using hu)
  simpa using this

end tangent

/-- Tangent at `J/2`, and halved by `proju`. -/
theorem C27_counterexample_birkhoff :
    Tangent (!![1, -1; -1, 1] : Mat 2) ∧
      proju half !![1, -1; -1, 1] = (1 / 2 : ℝ) • !![1, -1; -1, 1] ∧
      proju half !![1, -1; -1, 1] ≠ !![1, -1; -1, 1] := by
  have h1 : proju half !![1, -1; -1, 1] = (1 / 2 : ℝ) • !![1, -1; -1, 1] := by
    rw [C27_birkhoff_on_tangent half_ds]
    · ext i j; fin_cases i <;> fin_cases j <;> simp [half]
    · constructor <;> intro i <;> fin_cases i <;>
        simp [half, rowSum, colSum, Fin.sum_univ_two]
  refine ⟨?_, h1, ?_⟩
  · constructor <;> intro i <;> fin_cases i <;> simp [rowSum, colSum, Fin.sum_univ_two]
  · rw [h1]; intro h
    have := congrFun (congrFun h 0) 0
    simp at this

noncomputable def ext' (m : ℕ) : Fin (m + 1) ⊕ Fin (m + 2) → ℝ :=
  Sum.elim (Pi.single 0 1) (Pi.single 1 (-1))

/-- At the point returned by `origin` (the identity matrix) the system of `proju` is singular for
every size `≥ 2`, so `torch.linalg.solve` raises there. -/
theorem C34_counterexample_origin (m : ℕ) :
    (lhs (origin : Mat (m + 2))).det = 0 ∧
      ∀ atol rtol, 0 ≤ atol → 0 ≤ rtol → CheckPoint atol rtol (origin : Mat (m + 2)) := by
  constructor
  · refine Matrix.exists_mulVec_eq_zero_iff.1 ⟨ext' m, ?_, ?_⟩
    · intro h
      have := congrFun h (Sum.inl 0)
      simp [ext'] at this
    · have h2 : bmat (origin : Mat (m + 2)) *ᵥ ext' m = 0 := by
        funext k
        rcases k with i | i <;>
        simp [bmat, amat, origin, ext', skip, Matrix.mulVec, dotProduct, Fintype.sum_sum_type,
          Matrix.one_apply, Finset.sum_ite_eq]
        all_goals
          refine Fin.cases ?_ (fun k => ?_) i
          · simp [Pi.single_apply, Fin.succ_ne_zero, eq_comm]
          · simp only [Fin.succ_inj, Finset.sum_ite_eq, Finset.mem_univ, if_true]
            by_cases hk : k = 0
            · subst hk; simp
            · have h3 : k.succ ≠ 1 := fun h => hk (Fin.succ_injective _ (by simpa using h))
              rw [Pi.single_eq_of_ne hk, Pi.single_eq_of_ne h3, add_zero]
      rw [lhs, ← Matrix.mulVec_mulVec, h2, Matrix.mulVec_zero]
  · intro atol rtol ha hr
    constructor <;> intro i <;> simp [Close, origin, Matrix.one_apply] <;> positivity

end Geoopt.Birkhoff
