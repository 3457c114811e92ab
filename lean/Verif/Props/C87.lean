import Verif.Props.C82
import Verif.Lemmas.SiegelTri

/-!
# C87: the triangle inequality of the Siegel distances

The code clamps `1 - σ` at `EPS`.  As long as the clamp is not reached, that is as long as all entries of the
vector-valued distance are at most `log(2 / EPS - 1)`, the Riemannian distance, the three Finsler distances
and the weighted sum with ascending weights satisfy the triangle inequality; the Finsler distance infinity
always does.  The weighted sum with weights that are not ascending does not.
-/

namespace Geoopt.Siegel
open Matrix Geoopt Geoopt.Linalg Geoopt.SPD

variable {n : ℕ}

/-- The clamped entry is at most the exact one. -/
theorem clamped_le {eps σ : ℝ} (he : 0 < eps) (h0 : 0 ≤ σ) (h1 : σ < 1) :
    Real.log ((1 + σ) / max (1 - σ) eps) ≤ Real.log ((1 + σ) / (1 - σ)) := by
  have hm : 0 < max (1 - σ) eps := lt_max_of_lt_right he
  apply Real.log_le_log (by positivity)
  exact div_le_div_of_nonneg_left (by linarith) (by linarith) (le_max_left _ _)

/-- Entries up to `log(2 / EPS - 1)` are exact. -/
theorem unclamped {eps σ : ℝ} (he : 0 < eps) (he1 : eps < 1) (h0 : 0 ≤ σ) (h1 : σ < 1)
    (h : Real.log ((1 + σ) / max (1 - σ) eps) ≤ Real.log (2 / eps - 1)) :
    Real.log ((1 + σ) / max (1 - σ) eps) = Real.log ((1 + σ) / (1 - σ)) := by
  rcases le_or_gt eps (1 - σ) with hc | hc
  · rw [max_eq_left hc]
  · exfalso
    rw [max_eq_right hc.le] at h
    have hp : (0 : ℝ) < 2 / eps - 1 := by
      have : 1 < 2 / eps := by rw [lt_div_iff₀ he]; linarith
      linarith
    have h2 := (Real.log_le_log_iff (by positivity) hp).1 h
    have h3 : 2 / eps - 1 = (2 - eps) / eps := by field_simp
    rw [h3, div_le_div_iff_of_pos_right he] at h2
    linarith

/-- The metrics are norms: a triangle inequality for all ascending non-negative weights carries over. -/
theorem row_triangle {a b c : Fin n → ℝ} (hc : Monotone c) (hc0 : ∀ i, 0 ≤ c i)
    (h : ∀ u : Fin n → ℝ, Monotone u → (∀ i, 0 ≤ u i) →
      ∑ i, u i * c i ≤ ∑ i, u i * a i + ∑ i, u i * b i)
    (μ : Metric) (hμ : μ ∈ [Metric.riemannian, .finslerOne, .finslerInfinity, .finslerMinimum n] ∨
      ∃ weights : Fin n → ℝ, Monotone weights ∧ μ = .weightedSum n weights)
    {r12 r23 r13 : ℝ} (e12 : μ.row a = .ok r12) (e23 : μ.row b = .ok r23) (e13 : μ.row c = .ok r13) :
    r13 ≤ r12 + r23 := by
  simp only [List.mem_cons, List.not_mem_nil, or_false] at hμ
  rcases hμ with (rfl | rfl | rfl | rfl) | ⟨weights, hw, rfl⟩
  · have q := h c hc hc0
    injection e12 with e12
    injection e23 with e23
    injection e13 with e13
    rw [← e12, ← e23, ← e13]
    have h1 := Real.sum_mul_le_sqrt_mul_sqrt Finset.univ c a
    have h2 := Real.sum_mul_le_sqrt_mul_sqrt Finset.univ c b
    have h3 : ∑ i, c i * c i = Real.sqrt (∑ i, c i ^ 2) ^ 2 := by
      rw [Real.sq_sqrt (Finset.sum_nonneg fun _ _ => sq_nonneg _)]
      exact Finset.sum_congr rfl fun i _ => (sq (c i)).symm
    rw [h3] at q
    set C := Real.sqrt (∑ i, c i ^ 2)
    have hC : 0 ≤ C := Real.sqrt_nonneg _
    have hA : 0 ≤ Real.sqrt (∑ i, a i ^ 2) := Real.sqrt_nonneg _
    have hB : 0 ≤ Real.sqrt (∑ i, b i ^ 2) := Real.sqrt_nonneg _
    rcases eq_or_lt_of_le hC with h0 | h0
    · rw [← h0]; positivity
    · nlinarith
  · have q := h (fun _ => 1) (fun _ _ _ => le_rfl) (fun _ => zero_le_one)
    injection e12 with e12
    injection e23 with e23
    injection e13 with e13
    rw [← e12, ← e23, ← e13]
    simpa using q
  · by_cases hn : 0 < n
    · simp only [Metric.row, dif_pos hn] at e12 e23 e13
      injection e12 with e12
      injection e23 with e23
      injection e13 with e13
      have q := h (fun i => if i.val = n - 1 then 1 else 0) (fun i j hij => by
          have hij' : i.val ≤ j.val := hij
          have := j.isLt
          beta_reduce
          split_ifs <;> first | (exfalso; omega) | norm_num) (fun i => by beta_reduce; split_ifs <;> norm_num)
      have key : ∀ x : Fin n → ℝ, ∑ i : Fin n, (if i.val = n - 1 then (1 : ℝ) else 0) * x i =
          x ⟨n - 1, by omega⟩ := by
        intro x
        rw [Finset.sum_eq_single ⟨n - 1, by omega⟩]
        · simp
        · intro b _ hb
          rw [if_neg fun hv => hb (Fin.ext hv), zero_mul]
        · intro hb; exact absurd (Finset.mem_univ _) hb
      rw [key, key, key] at q
      rw [← e12, ← e23, ← e13]
      exact q
    · simp only [Metric.row, dif_neg hn] at e12
      cases e12
  · rw [C71_minimum] at e12 e23 e13
    injection e12 with e12
    injection e23 with e23
    injection e13 with e13
    rw [← e12, ← e23, ← e13]
    refine h (fun i => 2 * (i.val : ℝ)) (fun i j hij => ?_) fun i => by positivity
    have hij' : i.val ≤ j.val := hij
    have : (i.val : ℝ) ≤ j.val := by exact_mod_cast hij'
    beta_reduce
    linarith
  · replace e12 : weightedRow _ a = _ := e12
    replace e23 : weightedRow _ b = _ := e23
    replace e13 : weightedRow _ c = _ := e13
    rw [weightedRow_self] at e12 e23 e13
    injection e12 with e12
    injection e23 with e23
    injection e13 with e13
    rw [← e12, ← e23, ← e13]
    exact h (fun i => max (weights i) 0) (fun i j hij => max_le_max (hw hij) le_rfl)
      fun i => le_max_right _ _

/-- **C87, partial** (the full property drops `c12` and `c23`).  The triangle inequality, for every metric
except weighted sums whose weights are not ascending, between points for which the first two vector-valued
distances do not reach the clamp. -/
theorem C87_triangle_partial (Eu : Eigh n) (Ev : EigvalsL (n + n)) (d : RealDtype) {z1 z2 z3 : CMat n}
    (h1 : OnUpperHalf z1) (h2 : OnUpperHalf z2) (h3 : OnUpperHalf z3)
    (c12 : ∀ v, upperVvd Eu Ev d z1 z2 = .ok v → ∀ i, v i ≤ Real.log (2 / EPS d - 1))
    (c23 : ∀ v, upperVvd Eu Ev d z2 z3 = .ok v → ∀ i, v i ≤ Real.log (2 / EPS d - 1))
    (μ : Metric) (hμ : μ ∈ [Metric.riemannian, .finslerOne, .finslerInfinity, .finslerMinimum n] ∨
      ∃ weights : Fin n → ℝ, Monotone weights ∧ μ = .weightedSum n weights)
    {r12 r23 r13 : ℝ} (e12 : upperDist Eu Ev d μ z1 z2 = .ok r12)
    (e23 : upperDist Eu Ev d μ z2 z3 = .ok r23) (e13 : upperDist Eu Ev d μ z1 z3 = .ok r13) :
    r13 ≤ r12 + r23 := by
  obtain ⟨w12, hw12⟩ := normalise Eu h1 h2
  obtain ⟨w23, hw23⟩ := normalise Eu h2 h3
  obtain ⟨w13, hw13⟩ := normalise Eu h1 h3
  have hr12 := takagi_range Ev hw12.bounded
  have hr23 := takagi_range Ev hw23.bounded
  have hr13 := takagi_range Ev hw13.bounded
  have v12 := (vvd_normalised Ev d hw12).trans (vvdOf_ok d hr12)
  have v23 := (vvd_normalised Ev d hw23).trans (vvdOf_ok d hr23)
  have v13 := (vvd_normalised Ev d hw13).trans (vvdOf_ok d hr13)
  replace c12 := c12 _ v12
  replace c23 := c23 _ v23
  have hmono : Monotone fun i => Real.log ((1 + takagiEigvals Ev w13 i) /
      max (1 - takagiEigvals Ev w13 i) (EPS d)) := fun i j hij =>
    vvd_mono (EPS_pos d) (hr13 i).1 (takagi_mono Ev w13 hij)
  have hvec := fun (u : Fin n → ℝ) (hu : Monotone u) (hu0 : ∀ i, 0 ≤ u i) =>
    vec_triangle Ev h1 h2 h3 hw12 hw23 hw13 hu hu0
  have q12 : ∀ i, Real.log ((1 + takagiEigvals Ev w12 i) / (1 - takagiEigvals Ev w12 i)) =
      Real.log ((1 + takagiEigvals Ev w12 i) / max (1 - takagiEigvals Ev w12 i) (EPS d)) := fun i =>
    (unclamped (EPS_pos d) (EPS_lt_one d) (hr12 i).1 (hr12 i).2 (c12 i)).symm
  have q23 : ∀ i, Real.log ((1 + takagiEigvals Ev w23 i) / (1 - takagiEigvals Ev w23 i)) =
      Real.log ((1 + takagiEigvals Ev w23 i) / max (1 - takagiEigvals Ev w23 i) (EPS d)) := fun i =>
    (unclamped (EPS_pos d) (EPS_lt_one d) (hr23 i).1 (hr23 i).2 (c23 i)).symm
  simp only [q12, q23] at hvec
  have q13 : ∀ i, Real.log ((1 + takagiEigvals Ev w13 i) / max (1 - takagiEigvals Ev w13 i) (EPS d)) ≤
      Real.log ((1 + takagiEigvals Ev w13 i) / (1 - takagiEigvals Ev w13 i)) := fun i =>
    clamped_le (EPS_pos d) (hr13 i).1 (hr13 i).2
  have n13 : ∀ i, 0 ≤ Real.log ((1 + takagiEigvals Ev w13 i) / max (1 - takagiEigvals Ev w13 i) (EPS d)) :=
    fun i => (vvd_entry (EPS_pos d) (EPS_lt_one d) (hr13 i).1 (hr13 i).2).1
  unfold upperDist at e12 e23 e13
  simp only [v12, v23, v13] at e12 e23 e13
  replace e12 : μ.row _ = .ok r12 := e12
  replace e23 : μ.row _ = .ok r23 := e23
  replace e13 : μ.row _ = .ok r13 := e13
  refine row_triangle hmono n13 (fun u hu hu0 => le_trans ?_ (hvec u hu hu0)) μ hμ e12 e23 e13
  exact Finset.sum_le_sum fun i _ => mul_le_mul_of_nonneg_left (q13 i) (hu0 i)

/-- Subadditivity of the clamped function. -/
theorem clamped_subadditive {eps a b s : ℝ} (he : 0 < eps) (he1 : eps < 1) (ha : 0 ≤ a) (ha1 : a < 1)
    (hb : 0 ≤ b) (hb1 : b < 1) (hs : 0 ≤ s) (hs1 : s < 1)
    (h : Real.log ((1 + s) / (1 - s)) ≤ Real.log ((1 + a) / (1 - a)) + Real.log ((1 + b) / (1 - b))) :
    Real.log ((1 + s) / max (1 - s) eps) ≤
      Real.log ((1 + a) / max (1 - a) eps) + Real.log ((1 + b) / max (1 - b) eps) := by
  have pa : 0 < 1 - a := by linarith
  have pb : 0 < 1 - b := by linarith
  have ps : 0 < 1 - s := by linarith
  have ma : 0 < max (1 - a) eps := lt_max_of_lt_right he
  have mb : 0 < max (1 - b) eps := lt_max_of_lt_right he
  have ms : 0 < max (1 - s) eps := lt_max_of_lt_right he
  rw [← Real.log_mul (by positivity) (by positivity), Real.log_le_log_iff (by positivity) (by positivity),
    div_mul_div_comm, div_le_div_iff₀ ps (by positivity)] at h
  -- `s (1 + a b) ≤ a + b`
  have hsab : s * (1 + a * b) ≤ a + b := by nlinarith
  rw [← Real.log_mul (by positivity) (by positivity)]
  apply Real.log_le_log (by positivity)
  rw [div_mul_div_comm, div_le_div_iff₀ ms (by positivity)]
  have ma1 : max (1 - a) eps ≤ 1 := max_le (by linarith) he1.le
  have mb1 : max (1 - b) eps ≤ 1 := max_le (by linarith) he1.le
  have hab : 0 ≤ a * b := mul_nonneg ha hb
  have h1s : 1 + s ≤ (1 + a) * (1 + b) := by nlinarith
  rcases le_or_gt eps (1 - a) with ca | ca
  · rcases le_or_gt eps (1 - b) with cb | cb
    · rw [max_eq_left ca, max_eq_left cb]
      refine h.trans ?_
      exact mul_le_mul_of_nonneg_left (le_max_left _ _) (by positivity)
    · rw [max_eq_right cb.le]
      have : (1 + s) * (max (1 - a) eps * eps) ≤ (1 + s) * eps := by
        refine mul_le_mul_of_nonneg_left ?_ (by linarith)
        nlinarith
      refine this.trans ?_
      exact mul_le_mul h1s (le_max_right _ _) he.le (by positivity)
  · rw [max_eq_right ca.le]
    have : (1 + s) * (eps * max (1 - b) eps) ≤ (1 + s) * eps := by
      refine mul_le_mul_of_nonneg_left ?_ (by linarith)
      nlinarith
    refine this.trans ?_
    exact mul_le_mul h1s (le_max_right _ _) he.le (by positivity)

/-- **C87.** The Finsler distance infinity satisfies the triangle inequality everywhere, clamp included. -/
theorem C87_triangle_infinity (Eu : Eigh n) (Ev : EigvalsL (n + n)) (d : RealDtype) {z1 z2 z3 : CMat n}
    (h1 : OnUpperHalf z1) (h2 : OnUpperHalf z2) (h3 : OnUpperHalf z3)
    {r12 r23 r13 : ℝ} (e12 : upperDist Eu Ev d .finslerInfinity z1 z2 = .ok r12)
    (e23 : upperDist Eu Ev d .finslerInfinity z2 z3 = .ok r23)
    (e13 : upperDist Eu Ev d .finslerInfinity z1 z3 = .ok r13) : r13 ≤ r12 + r23 := by
  obtain ⟨w12, hw12⟩ := normalise Eu h1 h2
  obtain ⟨w23, hw23⟩ := normalise Eu h2 h3
  obtain ⟨w13, hw13⟩ := normalise Eu h1 h3
  have hr12 := takagi_range Ev hw12.bounded
  have hr23 := takagi_range Ev hw23.bounded
  have hr13 := takagi_range Ev hw13.bounded
  have v12 := (vvd_normalised Ev d hw12).trans (vvdOf_ok d hr12)
  have v23 := (vvd_normalised Ev d hw23).trans (vvdOf_ok d hr23)
  have v13 := (vvd_normalised Ev d hw13).trans (vvdOf_ok d hr13)
  unfold upperDist at e12 e23 e13
  simp only [v12, v23, v13] at e12 e23 e13
  simp only [Bind.bind, Except.bind] at e12 e23 e13
  by_cases hn : 0 < n
  · simp only [Metric.row, dif_pos hn] at e12 e23 e13
    injection e12 with e12
    injection e23 with e23
    injection e13 with e13
    rw [← e12, ← e23, ← e13]
    set l : Fin n := ⟨n - 1, by omega⟩ with hl
    refine clamped_subadditive (EPS_pos d) (EPS_lt_one d) (hr12 l).1 (hr12 l).2 (hr23 l).1 (hr23 l).2
      (hr13 l).1 (hr13 l).2 ?_
    refine row_triangle (n := n) (c := fun i => Real.log ((1 + takagiEigvals Ev w13 i) /
      (1 - takagiEigvals Ev w13 i))) (fun i j hij => ?_) (fun i => ?_)
      (fun u hu hu0 => vec_triangle Ev h1 h2 h3 hw12 hw23 hw13 hu hu0) .finslerInfinity (by simp)
      (by simp only [Metric.row, dif_pos hn]; rfl) (by simp only [Metric.row, dif_pos hn]; rfl)
      (by simp only [Metric.row, dif_pos hn]; rfl)
    · have p1 := (hr13 j).2
      have p2 := (hr13 i).2
      have p3 := (hr13 i).1
      refine Real.log_le_log (div_pos (by linarith) (by linarith)) ?_
      exact quot_mono (takagi_mono Ev w13 hij) p1
    · have p2 := (hr13 i).2
      have p3 := (hr13 i).1
      refine Real.log_nonneg ?_
      rw [le_div_iff₀ (by linarith)]
      linarith
  · simp only [Metric.row, dif_neg hn] at e12
    cases e12

/-- **C87.** The smallest entry of the vector-valued distance vanishes exactly when the difference of the
points is singular. -/
theorem C87_smallest_zero_iff (Eu : Eigh n) (Ev : EigvalsL (n + n)) (d : RealDtype) {z1 z2 : CMat n}
    (h1 : OnUpperHalf z1) (h2 : OnUpperHalf z2) (hn : 0 < n) {v : Fin n → ℝ}
    (hv : upperVvd Eu Ev d z1 z2 = .ok v) : v ⟨0, hn⟩ = 0 ↔ (z2 - z1).det = 0 := by
  obtain ⟨w, hw⟩ := normalise Eu h1 h2
  have hr := takagi_range Ev hw.bounded
  rw [vvd_normalised Ev d hw, vvdOf_ok d hr] at hv
  injection hv with hv
  have hdet : w.det = 0 ↔ (z2 - z1).det = 0 := by
    rw [hw.eq, det_mul, det_mul, det_mul]
    have a := hw.unitS.ne_zero
    have e := hw.unitE.ne_zero
    simp [a, e]
  rw [← hdet]
  have hσ : v ⟨0, hn⟩ = 0 ↔ takagiEigvals Ev w ⟨0, hn⟩ = 0 := by
    rw [← hv]
    refine ⟨(vvd_entry (EPS_pos d) (EPS_lt_one d) (hr _).1 (hr _).2).2.2, fun h => ?_⟩
    beta_reduce
    rw [h, sub_zero, add_zero, max_eq_left (EPS_lt_one d).le]
    simp
  rw [hσ]
  constructor
  · intro h
    have ht := C70_takagi (someEighL _) Ev hw.bounded.1
    rw [ht.2.2.1] at h
    rw [ht.2.2.2, det_mul, det_mul]
    have : (asComplex (diagonal (takagiEig (someEighL (n + n)) w).1)).det = 0 := by
      have hd : asComplex (diagonal (takagiEig (someEighL (n + n)) w).1) =
          diagonal fun i => ((takagiEig (someEighL (n + n)) w).1 i : ℂ) := by
        ext i j
        by_cases hij : i = j
        · subst hij; simp [asComplex]
        · simp [asComplex, hij]
      rw [hd, det_diagonal]
      exact Finset.prod_eq_zero (Finset.mem_univ ⟨0, hn⟩) (by rw [h]; simp)
    rw [this]; simp
  · intro h
    obtain ⟨u, hu, hwu⟩ := Matrix.exists_mulVec_eq_zero_iff.2 h
    obtain ⟨V, hd⟩ := eigvalsL_dec Ev (compound_symm hw.bounded.1)
    by_contra hne
    have hpos : 0 < takagiEigvals Ev w ⟨0, hn⟩ := lt_of_le_of_ne (hr _).1 (Ne.symm hne)
    have hlow : ∀ i, 0 < |Ev.e (toCompoundSymmetric w) i| := by
      intro i
      obtain ⟨j, hj⟩ := compound_abs hd (Ev.mono _) i
      rw [hj]
      exact hpos.trans_le (takagi_mono Ev w (Fin.mk_le_of_le_val (Nat.zero_le _)))
    have hz : rlen2 (toCompoundSymmetric w *ᵥ split u) = 0 := by
      rw [rlen2_compound, hwu]; simp [len2]
    rw [← fn_id hd, rlen2_fn hd.orth, Finset.sum_eq_zero_iff_of_nonneg fun i _ => by positivity] at hz
    have hz' : Vᵀ *ᵥ split u = 0 := by
      ext i
      have := hz i (Finset.mem_univ i)
      rcases mul_eq_zero.1 this with h' | h'
      · exact absurd (pow_eq_zero_iff two_ne_zero |>.1 h') (abs_pos.1 (hlow i))
      · exact pow_eq_zero_iff two_ne_zero |>.1 h'
    have : rlen2 (split u) = 0 := by
      rw [← rlen2_orth hd.orth', hz']; simp [rlen2]
    rw [rlen2_split] at this
    exact (len2_pos hu).ne' this

/-- `i diag(s)`. -/
def iDiag (s : Fin n → ℝ) : CMat n := Matrix.diagonal fun i => ⟨0, s i⟩

theorem iDiag_upper {s : Fin n → ℝ} (hs : ∀ i, 0 < s i) : OnUpperHalf (iDiag s) := by
  refine ⟨fun i j => ?_, fun w hw => ?_⟩
  · by_cases h : i = j
    · subst h; rfl
    · simp [iDiag, h, Ne.symm h]
  · have : imForm (iDiag s) w = ∑ i, s i * w i ^ 2 := by
      unfold imForm
      refine Finset.sum_congr rfl fun i _ => ?_
      rw [Finset.sum_eq_single i]
      · simp [iDiag]; ring
      · intro j _ hj
        simp [iDiag, Ne.symm hj]
      · simp
    rw [this]
    obtain ⟨i, hi⟩ := Function.ne_iff.1 hw
    refine Finset.sum_pos' (fun j _ => mul_nonneg (hs j).le (sq_nonneg _)) ⟨i, Finset.mem_univ i, ?_⟩
    exact mul_pos (hs i) (by have : w i ≠ 0 := hi; positivity)

/-- **C87, counterexample.** With the weights `(1, 0)`, which the learnable weighted sum can reach, the
distance between distinct points can be zero, and the triangle inequality fails: `i diag(1,1)`,
`i diag(2,1)`, `i diag(2,2)`. -/
theorem C87_counterexample_weighted (Eu : Eigh 2) (Ev : EigvalsL (2 + 2)) (d : RealDtype) :
    ∃ r, 0 < r ∧
      upperDist Eu Ev d (.weightedSum 2 ![1, 0]) (iDiag ![1, 1]) (iDiag ![2, 1]) = .ok 0 ∧
      upperDist Eu Ev d (.weightedSum 2 ![1, 0]) (iDiag ![2, 1]) (iDiag ![2, 2]) = .ok 0 ∧
      upperDist Eu Ev d (.weightedSum 2 ![1, 0]) (iDiag ![1, 1]) (iDiag ![2, 2]) = .ok r := by
  have u1 : OnUpperHalf (iDiag ![1, 1]) := iDiag_upper fun i => by fin_cases i <;> simp
  have u2 : OnUpperHalf (iDiag ![2, 1]) := iDiag_upper fun i => by fin_cases i <;> simp
  have u3 : OnUpperHalf (iDiag ![2, 2]) := iDiag_upper fun i => by fin_cases i <;> simp
  have hrow : ∀ v : Fin 2 → ℝ, (Metric.weightedSum 2 ![1, 0]).row v = .ok (v 0) := by
    intro v
    show weightedRow _ v = _
    rw [weightedRow_self]
    simp [Fin.sum_univ_two]
  have hdist : ∀ {z1 z2 : CMat 2} {v}, upperVvd Eu Ev d z1 z2 = .ok v →
      upperDist Eu Ev d (.weightedSum 2 ![1, 0]) z1 z2 = .ok (v 0) := by
    intro z1 z2 v hv
    unfold upperDist
    simp only [hv]
    exact hrow v
  obtain ⟨v12, e12, -, -⟩ := C82_defined Eu Ev d u1 u2
  obtain ⟨v23, e23, -, -⟩ := C82_defined Eu Ev d u2 u3
  obtain ⟨v13, e13, -, n13⟩ := C82_defined Eu Ev d u1 u3
  have z12 := (C87_smallest_zero_iff Eu Ev d u1 u2 (by norm_num) e12).2 (by
    simp [iDiag])
  have z23 := (C87_smallest_zero_iff Eu Ev d u2 u3 (by norm_num) e23).2 (by
    simp [iDiag])
  have z13 : v13 0 ≠ 0 := fun h =>
    absurd ((C87_smallest_zero_iff Eu Ev d u1 u3 (by norm_num) e13).1 h) (by
      simp [iDiag, Complex.ext_iff]; norm_num)
  refine ⟨v13 0, lt_of_le_of_ne (n13 0) (Ne.symm z13), ?_, ?_, hdist e13⟩
  · rw [hdist e12]; exact congrArg Except.ok z12
  · rw [hdist e23]; exact congrArg Except.ok z23

/-- **C87, partial.** The same on the bounded domain. -/
theorem C87_triangle_bounded_partial (Eu : Eigh n) (Ev : EigvalsL (n + n)) (d : RealDtype)
    {z1 z2 z3 : CMat n} (h1 : OnBounded z1) (h2 : OnBounded z2) (h3 : OnBounded z3) (hn : 0 < n)
    {m12 m23 : ℝ} (c12 : boundedDist Eu Ev d .finslerInfinity z1 z2 = .ok m12)
    (c23 : boundedDist Eu Ev d .finslerInfinity z2 z3 = .ok m23)
    (hm12 : m12 ≤ Real.log (2 / EPS d - 1)) (hm23 : m23 ≤ Real.log (2 / EPS d - 1))
    (μ : Metric) (hμ : μ ∈ [Metric.riemannian, .finslerOne, .finslerInfinity, .finslerMinimum n] ∨
      ∃ weights : Fin n → ℝ, Monotone weights ∧ μ = .weightedSum n weights)
    {r12 r23 r13 : ℝ} (e12 : boundedDist Eu Ev d μ z1 z2 = .ok r12)
    (e23 : boundedDist Eu Ev d μ z2 z3 = .ok r23) (e13 : boundedDist Eu Ev d μ z1 z3 = .ok r13) :
    r13 ≤ r12 + r23 := by
  obtain ⟨w1, q1, u1⟩ := C69_bounded_to_upper h1
  obtain ⟨w2, q2, u2⟩ := C69_bounded_to_upper h2
  obtain ⟨w3, q3, u3⟩ := C69_bounded_to_upper h3
  have b : ∀ {a b a' b' : CMat n} (μ : Metric), cayleyTransform a = .ok a' → cayleyTransform b = .ok b' →
      boundedDist Eu Ev d μ a b = upperDist Eu Ev d μ a' b' := by
    intro a b a' b' μ ha hb
    unfold boundedDist; simp only [ha, hb]; rfl
  rw [b _ q1 q2] at e12 c12
  rw [b _ q2 q3] at e23 c23
  rw [b _ q1 q3] at e13
  have bound : ∀ {a b : CMat n} {m : ℝ}, OnUpperHalf a → OnUpperHalf b →
      upperDist Eu Ev d .finslerInfinity a b = .ok m → m ≤ Real.log (2 / EPS d - 1) →
      ∀ v, upperVvd Eu Ev d a b = .ok v → ∀ i, v i ≤ Real.log (2 / EPS d - 1) := by
    intro a b m ha hb hm hle v hv i
    obtain ⟨v', hv', hmono, -⟩ := C82_defined Eu Ev d ha hb
    rw [hv] at hv'
    injection hv' with hv'
    unfold upperDist at hm
    simp only [hv] at hm
    replace hm : Metric.finslerInfinity.row v = .ok m := hm
    simp only [Metric.row, dif_pos hn] at hm
    injection hm with hm
    refine le_trans ?_ hle
    rw [← hm]
    exact (hv' ▸ hmono) (show i.val ≤ n - 1 by omega)
  exact C87_triangle_partial Eu Ev d u1 u2 u3 (bound u1 u2 c12 hm12) (bound u2 u3 c23 hm23) μ hμ
    e12 e23 e13

/-- The hypotheses are met: a non-trivial triangle. -/
example (Eu : Eigh 2) (Ev : EigvalsL (2 + 2)) (d : RealDtype) {r12 r23 r13 : ℝ}
    (e12 : upperDist Eu Ev d .finslerInfinity (iDiag ![1, 1]) (iDiag ![2, 1]) = .ok r12)
    (e23 : upperDist Eu Ev d .finslerInfinity (iDiag ![2, 1]) (iDiag ![2, 2]) = .ok r23)
    (e13 : upperDist Eu Ev d .finslerInfinity (iDiag ![1, 1]) (iDiag ![2, 2]) = .ok r13) :
    r13 ≤ r12 + r23 :=
  C87_triangle_infinity Eu Ev d (iDiag_upper fun i => by fin_cases i <;> simp)
    (iDiag_upper fun i => by fin_cases i <;> simp) (iDiag_upper fun i => by fin_cases i <;> simp)
    e12 e23 e13

end Geoopt.Siegel
