import Verif.Props.C16

/-!
C16: the equation that determines the weighted midpoint, the effect of rescaling the weights, and the
distances of the midpoint of two points from them.
-/

namespace Geoopt.Stereo
open Geoopt
variable {n : ℕ}

/-- Doubling undoes the halving in `_weighted_midpoint`. -/
lemma half_double {η k : ℝ} (hη : 0 ≤ η) (hk : k < -1e-8) {y : Vec n}
    (h1 : nrm y * Real.sqrt (|k| + η) ≤ 1 - 1e-7) (h0 : y = 0 ∨ 1e-15 ≤ nrm y) :
    (2 / (1 + (|k| + η) * (mobiusScalarMul η k 0.5 y ⬝ᵥ mobiusScalarMul η k 0.5 y))) •
      mobiusScalarMul η k 0.5 y = y ∧
    (|k| + η) * (mobiusScalarMul η k 0.5 y ⬝ᵥ mobiusScalarMul η k 0.5 y) < 1 := by
  have hk0 : k < 0 := by have := e8; linarith
  have hs := kSqrt_pos hη hk0.ne
  have hs2 := kSqrt_sq hη k
  rcases h0 with rfl | h0
  · have : mobiusScalarMul η k 0.5 (0 : Vec n) = 0 := by simp [mobiusScalarMul]
    rw [this]; simp
  · have hz : 0 < nrm y := lt_of_lt_of_le (by norm_num) h0
    obtain ⟨b0, b1, b2⟩ := half_artanhC (z := nrm y * kSqrt η k) (by positivity)
    have hmin : min (nrm y * kSqrt η k) (1 - 1e-7) = nrm y * kSqrt η k := min_eq_left h1
    rw [hmin] at b2
    have hval : mobiusScalarMul η k 0.5 y =
        ((kSqrt η k)⁻¹ * tanhC (0.5 * artanhC (nrm y * kSqrt η k)) * (nrm y)⁻¹) • y := by
      simp only [mobiusScalarMul]
      rw [max_eq_left h0, tanK_neg_curv hk, artanK_neg_curv hk, smul_smul]
      congr 3
      congr 1
      field_simp
    set b := tanhC (0.5 * artanhC (nrm y * kSqrt η k)) with hb
    have hsq : (|k| + η) * (mobiusScalarMul η k 0.5 y ⬝ᵥ mobiusScalarMul η k 0.5 y) = b ^ 2 := by
      rw [hval, ← hs2]
      dots
      rw [← nrm_sq y]
      field_simp
    rw [hsq, hval]
    refine ⟨?_, by nlinarith⟩
    rw [smul_smul]
    convert one_smul ℝ y using 2
    have : 2 * b = nrm y * kSqrt η k * (1 + b ^ 2) := by
      rw [← b2]; field_simp
    have hb3 : (1 + b ^ 2) ≠ 0 := by positivity
    field_simp
    linarith

/-- The midpoint `m` of points with non-negative total weight solves
`(∑ (λ_j - 1) w_j + 1e-10) · 2 m / (1 + (|k|+η)‖m‖²) = ∑ λ_j w_j x_j`.
Missing: a right-hand side so large that `artanh` is clamped, or smaller than `1e-15`. -/
theorem C16_equation_partial {N : ℕ} {η k : ℝ} (hη : 0 ≤ η) (hk : k < -1e-8) (xs : Fin N → Vec n)
    (w : Fin N → ℝ) (hD : 0 ≤ ∑ j, (lambdaX k (xs j) - 1) * w j)
    (h1 : nrm (∑ j, (lambdaX k (xs j) * w j) • xs j) * Real.sqrt (|k| + η) ≤
      (1 - 1e-7) * (∑ j, (lambdaX k (xs j) - 1) * w j + 1e-10))
    (h0 : ∑ j, (lambdaX k (xs j) * w j) • xs j = 0 ∨
      1e-15 * (∑ j, (lambdaX k (xs j) - 1) * w j + 1e-10) ≤
        nrm (∑ j, (lambdaX k (xs j) * w j) • xs j)) :
    let m := weightedMidpoint η k xs w false false
    (∑ j, (lambdaX k (xs j) - 1) * w j + 1e-10) • ((2 / (1 + (|k| + η) * (m ⬝ᵥ m))) • m) =
      ∑ j, (lambdaX k (xs j) * w j) • xs j ∧ (|k| + η) * (m ⬝ᵥ m) < 1 := by
  intro m
  have hk0 : k < 0 := by have := e8; linarith
  set S := ∑ j, (lambdaX k (xs j) * w j) • xs j with hS
  set D := ∑ j, (lambdaX k (xs j) - 1) * w j with hDd
  have hE : 0 < D + 1e-10 := by have : (0:ℝ) < 1e-10 := by norm_num
                                linarith
  have hm : m = mobiusScalarMul η k 0.5 ((D + 1e-10)⁻¹ • S) := by
    simp only [m, weightedMidpoint, Bool.false_eq_true, false_and, if_false, if_neg (not_lt.2 hk0.le)]
    rw [← hDd, ← hS, clampAbs, usign_of_nonneg hD, sabs, abs_of_nonneg hD, one_mul]
  have hn : nrm ((D + 1e-10)⁻¹ • S) = nrm S / (D + 1e-10) := by
    rw [nrm_smul, abs_of_pos (inv_pos.2 hE), inv_mul_eq_div]
  have := half_double hη hk (y := (D + 1e-10)⁻¹ • S)
    (by rw [hn, div_mul_eq_mul_div, div_le_iff₀ hE]; exact h1)
    (by
      rcases h0 with h0 | h0
      · left; rw [h0, smul_zero]
      · right; rw [hn, le_div_iff₀ hE]; exact h0)
  rw [← hm] at this
  refine ⟨?_, this.2⟩
  rw [this.1, smul_smul, mul_inv_cancel₀ hE.ne', one_smul]

/-- Rescaling the weights by `c`: the doubled midpoint is multiplied by
`c (D + 1e-10) / (c D + 1e-10)`, where `D = ∑ (λ_j - 1) w_j`; the claim asks for factor `1`, which the
added `1e-10` prevents (`C16_counterexample_rescale`). -/
theorem C16_rescale_partial {N : ℕ} {η k : ℝ} (hη : 0 ≤ η) (hk : k < -1e-8) (xs : Fin N → Vec n)
    (w : Fin N → ℝ) {c : ℝ} (hc : 0 < c) (hD : 0 ≤ ∑ j, (lambdaX k (xs j) - 1) * w j)
    (h1 : nrm (∑ j, (lambdaX k (xs j) * w j) • xs j) * Real.sqrt (|k| + η) ≤
      (1 - 1e-7) * (∑ j, (lambdaX k (xs j) - 1) * w j))
    (h0 : ∑ j, (lambdaX k (xs j) * w j) • xs j = 0 ∨
      (1e-15 * (∑ j, (lambdaX k (xs j) - 1) * w j + 1e-10) ≤
        nrm (∑ j, (lambdaX k (xs j) * w j) • xs j) ∧
      1e-15 * (c * (∑ j, (lambdaX k (xs j) - 1) * w j) + 1e-10) ≤
        c * nrm (∑ j, (lambdaX k (xs j) * w j) • xs j))) :
    let m := weightedMidpoint η k xs w false false
    let m' := weightedMidpoint η k xs (fun j => c * w j) false false
    let D := ∑ j, (lambdaX k (xs j) - 1) * w j
    (2 / (1 + (|k| + η) * (m' ⬝ᵥ m'))) • m' =
      (c * (D + 1e-10) / (c * D + 1e-10)) • ((2 / (1 + (|k| + η) * (m ⬝ᵥ m))) • m) := by
  intro m m' D
  have h10 : (0:ℝ) < 1e-10 := by norm_num
  have h17 : (0:ℝ) ≤ 1 - 1e-7 := by norm_num
  have eD : ∑ j, (lambdaX k (xs j) - 1) * (c * w j) = c * D := by
    rw [Finset.mul_sum]; exact Finset.sum_congr rfl fun j _ => by ring
  have eS : ∑ j, (lambdaX k (xs j) * (c * w j)) • xs j = c • ∑ j, (lambdaX k (xs j) * w j) • xs j := by
    rw [Finset.smul_sum]
    exact Finset.sum_congr rfl fun j _ => by rw [smul_smul]; congr 1; ring
  have e1 := (C16_equation_partial hη hk xs w hD
    (h1.trans (mul_le_mul_of_nonneg_left (by linarith) h17))
    (h0.imp id fun h => h.1)).1
  have e2 := (C16_equation_partial hη hk xs (fun j => c * w j) (by rw [eD]; positivity)
    (by
      rw [eD, eS, nrm_smul, abs_of_pos hc, mul_assoc]
      refine (mul_le_mul_of_nonneg_left h1 hc.le).trans ?_
      nlinarith)
    (by
      rw [eD, eS, nrm_smul, abs_of_pos hc]
      exact h0.imp (fun h => by rw [h, smul_zero]) fun h => h.2)).1
  rw [eD, eS, ← e1, smul_smul] at e2
  have hE : 0 < c * D + 1e-10 := by have : 0 ≤ c * D := mul_nonneg hc.le hD
                                    linarith
  have := congrArg (fun v => (c * D + 1e-10)⁻¹ • v) e2
  simp only [smul_smul] at this
  rw [← mul_assoc, inv_mul_cancel₀ hE.ne', one_mul] at this
  simp only [smul_smul]
  refine this.trans ?_
  congr 1
  ring

/-- Rescaling the weights does change the midpoint: one point with weight `1` and with weight `1e-10`,
for every curvature below `-1e-8` and every such point. -/
theorem C16_counterexample_rescale {η k : ℝ} (hη : 0 ≤ η) (hk : k < -1e-8) {x : Vec n}
    (hx : 1e-15 ≤ nrm x) (hx2 : nrm x * Real.sqrt (|k| + η) ≤ 0.4) :
    weightedMidpoint η k (fun _ : Fin 1 => x) (fun _ => 1e-10) false false ≠
      weightedMidpoint η k (fun _ : Fin 1 => x) (fun _ => 1) false false := by
  intro heq
  have hk0 : k < 0 := by have := e8; linarith
  have hs := kSqrt_pos hη hk0.ne
  have hs2 := kSqrt_sq hη k
  have es : Real.sqrt (|k| + η) = kSqrt η k := rfl
  have hx0 : 0 < nrm x := lt_of_lt_of_le (by norm_num) hx
  have hkx : -k * (x ⬝ᵥ x) ≤ 0.16 := by
    rw [es] at hx2
    have h2 : (nrm x * kSqrt η k) ^ 2 ≤ 0.4 ^ 2 := pow_le_pow_left₀ (by positivity) hx2 2
    rw [mul_pow, hs2, nrm_sq, abs_of_neg hk0] at h2
    nlinarith [dot_self_nonneg x]
  have hlam : 2 ≤ lambdaX k x := by
    have h3 : 0 ≤ -k * (x ⬝ᵥ x) := mul_nonneg (by linarith) (dot_self_nonneg x)
    rw [lambdaX, max_eq_left (by norm_num at hkx ⊢; linarith), le_div_iff₀ (by norm_num at hkx; linarith)]
    linarith
  have hlam2 : lambdaX k x ≤ 3 := by
    rw [lambdaX, max_eq_left (by norm_num at hkx ⊢; linarith), div_le_iff₀ (by norm_num at hkx; linarith)]
    norm_num at hkx ⊢
    linarith
  set γ := lambdaX k x with hγ
  have hn : ∀ c : ℝ, 0 ≤ c → nrm (c • x) = c * nrm x := fun c hc => by rw [nrm_smul, abs_of_nonneg hc]
  have e1 := (C16_equation_partial hη hk (fun _ : Fin 1 => x) (fun _ => 1)
    (by simp only [Fin.sum_univ_one, ← hγ]; linarith)
    (by
      simp only [Fin.sum_univ_one, ← hγ, mul_one]
      rw [hn _ (by linarith), mul_assoc]
      have : γ * (nrm x * Real.sqrt (|k| + η)) ≤ γ * 0.4 := mul_le_mul_of_nonneg_left hx2 (by linarith)
      refine this.trans ?_
      norm_num
      linarith)
    (by
      right
      simp only [Fin.sum_univ_one, ← hγ, mul_one]
      rw [hn _ (by linarith)]
      have : 1e-15 * (γ - 1 + 1e-10) ≤ 1e-15 * γ := by norm_num; linarith
      refine this.trans ?_
      rw [mul_comm]
      exact mul_le_mul_of_nonneg_left hx (by linarith))).1
  have e2 := (C16_equation_partial hη hk (fun _ : Fin 1 => x) (fun _ => 1e-10)
    (by simp only [Fin.sum_univ_one, ← hγ]; exact mul_nonneg (by linarith) (by norm_num))
    (by
      simp only [Fin.sum_univ_one, ← hγ]
      rw [hn _ (mul_nonneg (by linarith) (by norm_num)), mul_assoc]
      have : γ * 1e-10 * (nrm x * Real.sqrt (|k| + η)) ≤ γ * 1e-10 * 0.4 :=
        mul_le_mul_of_nonneg_left hx2 (mul_nonneg (by linarith) (by norm_num))
      refine this.trans ?_
      norm_num
      linarith)
    (by
      right
      simp only [Fin.sum_univ_one, ← hγ]
      rw [hn _ (mul_nonneg (by linarith) (by norm_num))]
      have : 1e-15 * ((γ - 1) * 1e-10 + 1e-10) = γ * 1e-10 * 1e-15 := by ring
      rw [this]
      exact mul_le_mul_of_nonneg_left hx (mul_nonneg (by linarith) (by norm_num)))).1
  rw [heq] at e2
  simp only [Fin.sum_univ_one, ← hγ, mul_one] at e1 e2
  set m := weightedMidpoint η k (fun _ : Fin 1 => x) (fun _ => 1) false false
  set d := (2 / (1 + (|k| + η) * (m ⬝ᵥ m))) • m
  have h3 : (γ - 1) * 1e-10 + 1e-10 = γ * 1e-10 := by ring
  rw [h3] at e2
  have h4 : γ * 1e-10 ≠ 0 := mul_ne_zero (by linarith) (by norm_num)
  have h5 : d = x := smul_right_injective _ h4 e2
  rw [h5] at e1
  have h6 : (γ - 1 + 1e-10 - γ) • x = 0 := by rw [sub_smul, e1, sub_self]
  rcases smul_eq_zero.1 h6 with h | h
  · norm_num at h; linarith
  · rw [h] at hx0
    simp at hx0

/-- `sinh²(√-k d/2)` as a rational function, when no clamp is active. -/
lemma sinh_sq_dist {k : ℝ} (hk : k < -1e-8) {x y : Vec n} (hx : OpenBall k x) (hy : OpenBall k y)
    (hD : 1e-15 ≤ mobDenom k (-x) y)
    (hfar : -k * ((x - y) ⬝ᵥ (x - y)) ≤ 4e6 * ((1 + k * (x ⬝ᵥ x)) * (1 + k * (y ⬝ᵥ y)))) :
    Real.sinh (Real.sqrt (-k) * dist 0 k x y / 2) ^ 2 =
      -k * ((x - y) ⬝ᵥ (x - y)) / ((1 + k * (x ⬝ᵥ x)) * (1 + k * (y ⬝ᵥ y))) := by
  have hk0 : k < 0 := by have := e8; linarith
  have hs := kSqrt_pos (le_refl (0:ℝ)) hk0.ne
  have hs2 := kSqrt_sq (le_refl (0:ℝ)) k
  have es : Real.sqrt (-k) = kSqrt 0 k := by simp [kSqrt, sabs, abs_of_neg hk0]
  rw [abs_of_neg hk0, add_zero] at hs2
  have hD0 : mobDenom k (-x) y ≠ 0 := (lt_of_lt_of_le (by norm_num) hD).ne'
  have hDp : 0 < mobDenom k (-x) y := lt_of_lt_of_le (by norm_num) hD
  have hpx : 0 < 1 + k * (x ⬝ᵥ x) := by unfold OpenBall at hx; linarith
  have hpy : 0 < 1 + k * (y ⬝ᵥ y) := by unfold OpenBall at hy; linarith
  have hsub : (x - y) ⬝ᵥ (x - y) = x ⬝ᵥ x - 2 * (x ⬝ᵥ y) + y ⬝ᵥ y := by
    dots; rw [dotProduct_comm y x]; ring
  set z := nrm (mobiusAdd k (-x) y) * kSqrt 0 k with hz
  have hz0 : 0 ≤ z := mul_nonneg (nrm_nonneg _) hs.le
  have hz2 : z ^ 2 = -k * ((x - y) ⬝ᵥ (x - y)) / mobDenom k (-x) y := by
    rw [hz, mul_pow, hs2, nrm_sq, mobiusAdd_eq hD, mAdd_self hD0, hsub]
    dots; ring
  have h1z : 1 - z ^ 2 = (1 + k * (x ⬝ᵥ x)) * (1 + k * (y ⬝ᵥ y)) / mobDenom k (-x) y := by
    have := one_add_mAdd_self (k := k) (x := -x) (y := y) hD0
    rw [neg_dotProduct, dotProduct_neg, neg_neg] at this
    rw [← this, hz, mul_pow, hs2, nrm_sq, mobiusAdd_eq hD]; ring
  have h1p : 0 < 1 - z ^ 2 := by rw [h1z]; positivity
  have hzc : z ≤ 1 - 1e-7 := by
    have h3 : z ^ 2 ≤ 4e6 * (1 - z ^ 2) := by
      rw [h1z, hz2, ← mul_div_assoc]
      exact div_le_div_of_nonneg_right hfar hDp.le
    have h4 : z ^ 2 ≤ (1 - 1e-7) ^ 2 := by norm_num at h3 ⊢; linarith
    exact le_of_sq_le_sq h4 (by norm_num)
  have hd : Real.sqrt (-k) * dist 0 k x y / 2 = Real.artanh z := by
    rw [es, dist, artanK_neg_curv hk, ← hz, artanhC_eq (by norm_num at hz0 ⊢; linarith) hzc]
    rw [show (2.0 : ℝ) = 2 by norm_num]
    field_simp
  have hzm : z ∈ Set.Ioo (-1 : ℝ) 1 := ⟨by linarith, by nlinarith⟩
  have ht := Real.tanh_artanh hzm
  rw [hd]
  generalize Real.artanh z = a at ht
  have hc := Real.cosh_sq a
  have hcp := Real.cosh_pos a
  rw [Real.tanh_eq_sinh_div_cosh, div_eq_iff hcp.ne'] at ht
  have h5 : Real.sinh a ^ 2 * (1 - z ^ 2) = z ^ 2 := by
    have : Real.sinh a ^ 2 = z ^ 2 * (Real.sinh a ^ 2 + 1) := by
      rw [← hc, ← mul_pow, ← ht]
    linarith
  rw [eq_div_iff (by positivity)]
  rw [hz2] at h5
  rw [← hz2, h1z, hz2] at h5
  have h6 := congrArg (· * mobDenom k (-x) y) h5
  beta_reduce at h6
  rw [mul_assoc, div_mul_cancel₀ _ hD0, div_mul_cancel₀ _ hD0] at h6
  exact h6

/-- The same from a point that is not too close to the boundary. -/
lemma sinh_sq_mid {k : ℝ} (hk : k < -1e-8) {m u : Vec n} (hmb : OpenBall k m)
    (hm3 : 1e-3 ≤ 1 + k * (m ⬝ᵥ m)) (hu : OpenBall k u) (hu3 : 1 / 999 ≤ 1 + k * (u ⬝ᵥ u)) {l : ℝ}
    (hl : l * (1 + k * (u ⬝ᵥ u)) = 2) :
    Real.sinh (Real.sqrt (-k) * dist 0 k m u / 2) ^ 2 =
      -k * (l * ((u ⬝ᵥ u) - 2 * (u ⬝ᵥ m) + m ⬝ᵥ m)) / (2 * (1 + k * (m ⬝ᵥ m))) := by
  have hk0 : k < 0 := by have := e8; linarith
  have hu' : 0 < 1 + k * (u ⬝ᵥ u) := lt_of_lt_of_le (by norm_num) hu3
  have hp : 0 < 1 + k * (m ⬝ᵥ m) := lt_of_lt_of_le (by norm_num) hm3
  have e1 : (m - u) ⬝ᵥ (m - u) = (u ⬝ᵥ u) - 2 * (u ⬝ᵥ m) + m ⬝ᵥ m := by
    dots; rw [dotProduct_comm m u]; ring
  have e2 : -k * ((m - u) ⬝ᵥ (m - u)) ≤ 2 * (-k * (m ⬝ᵥ m)) + 2 * (-k * (u ⬝ᵥ u)) := by
    have := dot_self_nonneg (m + u)
    have e3 : (m + u) ⬝ᵥ (m + u) = (u ⬝ᵥ u) + 2 * (u ⬝ᵥ m) + m ⬝ᵥ m := by
      dots; rw [dotProduct_comm m u]; ring
    rw [e1]; nlinarith
  have hden : 1e-15 ≤ mobDenom k (-m) u := by
    have h1 := mobDenom_ge hk0.le (-m) u
    rw [nrm_neg] at h1
    have h2 : 5e-4 ≤ 1 + k * (nrm m * nrm u) := by
      have h3 : 2 * (nrm m * nrm u) ≤ m ⬝ᵥ m + u ⬝ᵥ u := by
        rw [← nrm_sq, ← nrm_sq]; nlinarith [sq_nonneg (nrm m - nrm u)]
      have h4 : k * (m ⬝ᵥ m + u ⬝ᵥ u) ≤ k * (2 * (nrm m * nrm u)) :=
        mul_le_mul_of_nonpos_left h3 hk0.le
      norm_num at hm3 ⊢
      linarith
    have h4 : (5e-4 : ℝ) ^ 2 ≤ (1 + k * (nrm m * nrm u)) ^ 2 := pow_le_pow_left₀ (by norm_num) h2 2
    exact le_trans (by norm_num) (h4.trans h1)
  have hfar : -k * ((m - u) ⬝ᵥ (m - u)) ≤ 4e6 * ((1 + k * (m ⬝ᵥ m)) * (1 + k * (u ⬝ᵥ u))) := by
    have h5 : (1e-3 : ℝ) * (1 / 999) ≤ (1 + k * (m ⬝ᵥ m)) * (1 + k * (u ⬝ᵥ u)) :=
      mul_le_mul hm3 hu3 (by norm_num) hp.le
    have h6 : -k * ((m - u) ⬝ᵥ (m - u)) ≤ 4 := by linarith
    have : (4e6 : ℝ) * (1e-3 * (1 / 999)) ≤ 4e6 * ((1 + k * (m ⬝ᵥ m)) * (1 + k * (u ⬝ᵥ u))) :=
      mul_le_mul_of_nonneg_left h5 (by norm_num)
    refine (h6.trans ?_).trans this
    norm_num
  rw [sinh_sq_dist hk hmb hu hden hfar, e1, div_eq_div_iff (mul_pos hp hu').ne' (by positivity)]
  generalize u ⬝ᵥ u - 2 * (u ⬝ᵥ m) + m ⬝ᵥ m = Q
  linear_combination (k * Q * (1 + k * (m ⬝ᵥ m))) * hl

lemma two_mid_scalar {k lx ly X Y M xm ym w ε τ : ℝ} (hk : k ≠ 0) (hX : lx * (k * X) = 2 - lx)
    (hY : ly * (k * Y) = 2 - ly) (hτ : τ * (lx * xm - ly * ym) = w * (lx ^ 2 * X - ly ^ 2 * Y))
    (hτd : τ * (1 - k * M) = 2 * (w * (lx + ly - 2) + ε)) (hE : w * (lx + ly - 2) + ε ≠ 0)
    (hM : 1 - k * M ≠ 0) :
    -k * (lx * (X - 2 * xm + M) - ly * (Y - 2 * ym + M)) =
      (lx - ly) * (1 - k * M) * ε / (w * (lx + ly - 2) + ε) := by
  have h1 : k * (lx ^ 2 * X - ly ^ 2 * Y) = -(lx - ly) * (lx + ly - 2) := by
    linear_combination lx * hX - ly * hY
  have h2 : τ = 2 * (w * (lx + ly - 2) + ε) / (1 - k * M) := by rw [← hτd]; field_simp
  have h3 : k * (lx * xm - ly * ym) * (2 * (w * (lx + ly - 2) + ε)) =
      -w * (lx - ly) * (lx + ly - 2) * (1 - k * M) := by
    have := congrArg (fun t => k * t * (1 - k * M)) hτ
    beta_reduce at this
    linear_combination this - k * (lx * xm - ly * ym) * hτd + w * (1 - k * M) * h1
  rw [eq_div_iff hE]
  linear_combination (-(w * (lx + ly - 2) + ε)) * (hX - hY) + h3

set_option maxHeartbeats 1000000 in
/-- The weighted midpoint `m` of two points with equal weights `w`, on the ball without the regulariser:
`sinh²(√-k d(m,x)/2) - sinh²(√-k d(m,y)/2) = (λ_m - 1)(λ_x - λ_y) 1e-10 / (2 (w(λ_x+λ_y-2) + 1e-10))`.
So the two distances agree when the points have equal norm, and otherwise up to the `1e-10` that
`clamp_abs` adds.  Missing: the regulariser `η` of `|k|`, points with `λ_x + λ_y > 2000`, and a sum
`λ_x x + λ_y y` that is tiny but not zero. -/
theorem C16_two_points_partial {k w : ℝ} (hk : k < -1e-8) (hw : 0 < w) {x y : Vec n}
    (hx : OpenBall k x) (hy : OpenBall k y) (hl : lambdaX k x + lambdaX k y ≤ 2000)
    (h0 : lambdaX k x • x + lambdaX k y • y = 0 ∨
      1e-15 * (w * (lambdaX k x + lambdaX k y - 2) + 1e-10) ≤
        w * nrm (lambdaX k x • x + lambdaX k y • y)) :
    let m := weightedMidpoint 0 k ![x, y] (fun _ => w) false false
    Real.sinh (Real.sqrt (-k) * dist 0 k m x / 2) ^ 2 - Real.sinh (Real.sqrt (-k) * dist 0 k m y / 2) ^ 2
      = (lambdaX k m - 1) * (lambdaX k x - lambdaX k y) * 1e-10 /
          (2 * (w * (lambdaX k x + lambdaX k y - 2) + 1e-10)) := by
  intro m
  have hk0 : k < 0 := by have := e8; linarith
  have h10 : (0:ℝ) < 1e-10 := by norm_num
  have lam : ∀ {u : Vec n}, OpenBall k u → lambdaX k u ≤ 2000 →
      lambdaX k u * (1 + k * (u ⬝ᵥ u)) = 2 := by
    intro u hu hlu
    have hu' : 0 < 1 + k * (u ⬝ᵥ u) := by unfold OpenBall at hu; linarith
    have hm : 1e-15 ≤ 1 + k * (u ⬝ᵥ u) := by
      by_contra h
      rw [lambdaX, max_eq_right (not_le.1 h).le] at hlu
      norm_num at hlu
    rw [lambdaX, max_eq_left hm]; field_simp
  have lam2 : ∀ {u : Vec n}, OpenBall k u → 2 ≤ lambdaX k u := by
    intro u hu
    have hu' : 0 < 1 + k * (u ⬝ᵥ u) := by unfold OpenBall at hu; linarith
    have hpos : 0 < max (1 + k * (u ⬝ᵥ u)) 1e-15 := lt_max_of_lt_left hu'
    rw [lambdaX, le_div_iff₀ hpos]
    have : max (1 + k * (u ⬝ᵥ u)) 1e-15 ≤ 1 := max_le (by nlinarith [dot_self_nonneg u]) (by norm_num)
    linarith
  have hlx2 := lam2 hx
  have hly2 := lam2 hy
  have hlx := lam hx (by linarith)
  have hly := lam hy (by linarith)
  set lx := lambdaX k x with hlxd
  set ly := lambdaX k y with hlyd
  set S := lx • x + ly • y with hS
  set X := x ⬝ᵥ x with hX
  set Y := y ⬝ᵥ y with hY
  have hX0 : 0 ≤ X := dot_self_nonneg x
  have hY0 : 0 ≤ Y := dot_self_nonneg y
  have hpx : 0 < 1 + k * X := by unfold OpenBall at hx; linarith
  have hpy : 0 < 1 + k * Y := by unfold OpenBall at hy; linarith
  -- the length of the sum
  have hSS : -k * (S ⬝ᵥ S) ≤ (lx + ly - 2) ^ 2 - 4 := by
    have e1 : S ⬝ᵥ S = lx ^ 2 * X + 2 * (lx * ly) * (x ⬝ᵥ y) + ly ^ 2 * Y := by
      rw [hS]; dots; rw [dotProduct_comm y x]; ring
    have e2 : -k * (2 * (x ⬝ᵥ y)) ≤ -k * X + -k * Y := by
      have := dot_self_nonneg (x - y)
      have e3 : (x - y) ⬝ᵥ (x - y) = X - 2 * (x ⬝ᵥ y) + Y := by
        dots; rw [dotProduct_comm y x]; ring
      nlinarith
    rw [e1]
    have a1 : -k * (lx ^ 2 * X) = lx ^ 2 - 2 * lx := by linear_combination (-lx) * hlx
    have a2 : -k * (ly ^ 2 * Y) = ly ^ 2 - 2 * ly := by linear_combination (-ly) * hly
    have a3 : lx * ly * (-k * X) = lx * ly - 2 * ly := by linear_combination (-ly) * hlx
    have a4 : lx * ly * (-k * Y) = lx * ly - 2 * lx := by linear_combination (-lx) * hly
    have a5 := mul_le_mul_of_nonneg_left e2 (show 0 ≤ lx * ly by positivity)
    nlinarith
  set D := lx + ly - 2 with hD
  have hD2 : 2 ≤ D := by linarith
  have hDu : D ≤ 1998 := by linarith
  have eD : ∑ j : Fin 2, (lambdaX k (![x, y] j) - 1) * w = w * D := by
    rw [Fin.sum_univ_two]
    simp only [Matrix.cons_val_zero, Matrix.cons_val_one]
    rw [← hlxd, ← hlyd, hD]; ring
  have eS : ∑ j : Fin 2, (lambdaX k (![x, y] j) * w) • (![x, y] j) = w • S := by
    rw [Fin.sum_univ_two]
    simp only [Matrix.cons_val_zero, Matrix.cons_val_one]
    rw [← hlxd, ← hlyd, hS, smul_add, smul_smul, smul_smul, mul_comm lx, mul_comm ly]
  have hwD : 0 < w * D := by positivity
  have hE : 0 < w * D + 1e-10 := by positivity
  have hab : |k| + 0 = -k := by rw [abs_of_neg hk0, add_zero]
  have hsq : (nrm S * Real.sqrt (-k)) ^ 2 = -k * (S ⬝ᵥ S) := by
    rw [mul_pow, nrm_sq, Real.sq_sqrt (by linarith)]; ring
  have hlen : nrm S * Real.sqrt (-k) ≤ (1 - 1e-7) * D := by
    refine le_of_sq_le_sq ?_ (mul_nonneg (by norm_num) (by linarith))
    rw [hsq, mul_pow]
    refine hSS.trans ?_
    norm_num
    nlinarith
  have heq := C16_equation_partial (le_refl (0:ℝ)) hk ![x, y] (fun _ => w)
    (by rw [eD]; exact hwD.le)
    (by
      rw [eD, eS, hab, nrm_smul, abs_of_pos hw, mul_assoc]
      refine (mul_le_mul_of_nonneg_left hlen hw.le).trans ?_
      have : (0:ℝ) ≤ (1 - 1e-7) * 1e-10 := by norm_num
      nlinarith)
    (by
      rw [eD, eS, nrm_smul, abs_of_pos hw]
      exact h0.imp (fun h => by rw [h, smul_zero]) id)
  rw [eD, eS, hab] at heq
  change (w * D + 1e-10) • ((2 / (1 + -k * (m ⬝ᵥ m))) • m) = w • S ∧ -k * (m ⬝ᵥ m) < 1 at heq
  obtain ⟨heq, hm1⟩ := heq
  set M := m ⬝ᵥ m with hM
  have hM0 : 0 ≤ M := dot_self_nonneg m
  have hkM : 0 ≤ -k * M := mul_nonneg (by linarith) hM0
  have hmb : OpenBall k m := hm1
  have hp : 0 < 1 + k * M := by linarith
  -- the midpoint stays away from the boundary
  have hm3 : 1e-3 ≤ 1 + k * M := by
    have h1 := congrArg (fun v => v ⬝ᵥ v) heq
    beta_reduce at h1
    simp only [dotProduct_smul, smul_dotProduct, smul_eq_mul] at h1
    rw [← hM] at h1
    have h2 : (w * D + 1e-10) ^ 2 * (4 * (-k * M)) = w ^ 2 * (-k * (S ⬝ᵥ S)) * (1 + -k * M) ^ 2 := by
      have h3 : 1 + -k * M ≠ 0 := by linarith
      have hc : 2 / (1 + -k * M) * (1 + -k * M) = 2 := div_mul_cancel₀ _ h3
      generalize 2 / (1 + -k * M) = c at h1 hc
      generalize w * D + 1e-10 = E' at h1
      linear_combination (-k) * (1 + -k * M) ^ 2 * h1
        + (-(E' ^ 2 * (-k * M) * (c * (1 + -k * M) + 2))) * hc
    have h4 : w ^ 2 * (-k * (S ⬝ᵥ S)) ≤ (w * D + 1e-10) ^ 2 * (1 - 1e-6) := by
      have h5 : -k * (S ⬝ᵥ S) ≤ D ^ 2 * (1 - 1e-6) := hSS.trans (by norm_num; nlinarith)
      calc w ^ 2 * (-k * (S ⬝ᵥ S)) ≤ w ^ 2 * (D ^ 2 * (1 - 1e-6)) :=
            mul_le_mul_of_nonneg_left h5 (by positivity)
        _ = (w * D) ^ 2 * (1 - 1e-6) := by ring
        _ ≤ _ := mul_le_mul_of_nonneg_right (pow_le_pow_left₀ hwD.le (by linarith) 2) (by norm_num)
    have h5 : 4 * (-k * M) ≤ (1 - 1e-6) * (1 + -k * M) ^ 2 := by
      have h6 := mul_le_mul_of_nonneg_right h4 (sq_nonneg (1 + -k * M))
      rw [← h2] at h6
      have hE2 : 0 < (w * D + 1e-10) ^ 2 := by positivity
      refine le_of_mul_le_mul_left ?_ hE2
      linarith
    have h6 : (1e-3 * (1 + -k * M)) ^ 2 ≤ (1 + k * M) ^ 2 := by
      have : (1 + k * M) ^ 2 = (1 + -k * M) ^ 2 - 4 * (-k * M) := by ring
      rw [this, mul_pow]
      norm_num at h5 ⊢
      linarith
    have h7 := le_of_sq_le_sq h6 hp.le
    have h8 : (1e-3 : ℝ) * 1 ≤ 1e-3 * (1 + -k * M) := mul_le_mul_of_nonneg_left (by linarith) (by norm_num)
    linarith
  have hx3 : 1 / 999 ≤ 1 + k * X := by
    linarith [mul_le_mul_of_nonneg_right (show lx ≤ 1998 by linarith) hpx.le]
  have hy3 : 1 / 999 ≤ 1 + k * Y := by
    linarith [mul_le_mul_of_nonneg_right (show ly ≤ 1998 by linarith) hpy.le]
  rw [sinh_sq_mid hk hmb hm3 hx hx3 hlx, sinh_sq_mid hk hmb hm3 hy hy3 hly]
  have hq : 1 - k * M ≠ 0 := by linarith
  have hlm : lambdaX k m - 1 = (1 - k * M) / (1 + k * M) := by
    rw [lambdaX, ← hM, max_eq_left (le_trans (by norm_num) hm3)]
    field_simp; ring
  have hs := two_mid_scalar (k := k) (lx := lx) (ly := ly) (X := X) (Y := Y) (M := M) (xm := x ⬝ᵥ m)
    (ym := y ⬝ᵥ m) (w := w) (ε := 1e-10) (τ := (w * D + 1e-10) * (2 / (1 + -k * M))) hk0.ne
    (by linarith) (by linarith)
    (by
      have h1 := congrArg (fun v => (lx • x - ly • y) ⬝ᵥ v) heq
      beta_reduce at h1
      rw [smul_smul, hS] at h1
      simp only [sub_dotProduct, add_dotProduct, dotProduct_add, smul_dotProduct, dotProduct_smul,
        smul_eq_mul, ← hX, ← hY] at h1
      rw [dotProduct_comm y x] at h1
      linear_combination h1)
    (by have : 1 + -k * M ≠ 0 := by linarith
        rw [← hD, show 1 - k * M = 1 + -k * M by ring, mul_assoc, div_mul_cancel₀ _ this, mul_comm])
    (by rw [← hD]; exact hE.ne') hq
  rw [← sub_div, ← hX, ← hY, ← hM, ← mul_sub, hs, hlm, ← hD, div_div, div_mul_eq_mul_div,
    div_mul_eq_mul_div, div_div]
  congr 1 <;> ring

/-- Hence points of equal norm are exactly equally far from their midpoint. -/
theorem C16_equidistant_partial {k w : ℝ} (hk : k < -1e-8) (hw : 0 < w) {x y : Vec n}
    (hx : OpenBall k x) (hxy : x ⬝ᵥ x = y ⬝ᵥ y) (hl : lambdaX k x ≤ 1000)
    (h0 : x + y = 0 ∨ 1e-15 * (w * (2 * lambdaX k x - 2) + 1e-10) ≤ w * nrm (lambdaX k x • (x + y))) :
    dist 0 k (weightedMidpoint 0 k ![x, y] (fun _ => w) false false) x =
      dist 0 k (weightedMidpoint 0 k ![x, y] (fun _ => w) false false) y := by
  have hk0 : k < 0 := by have := e8; linarith
  have hl' : lambdaX k y = lambdaX k x := by unfold lambdaX; rw [hxy]
  have hy : OpenBall k y := by unfold OpenBall at *; rwa [← hxy]
  have h := C16_two_points_partial hk hw hx hy (by rw [hl']; linarith) (by
    rw [hl', ← smul_add]
    refine h0.imp (fun h => by rw [h, smul_zero]) fun h => ?_
    rw [show lambdaX k x + lambdaX k x - 2 = 2 * lambdaX k x - 2 by ring]
    exact h)
  simp only at h
  rw [hl', sub_self, mul_zero, zero_mul, zero_div, sub_eq_zero] at h
  set m := weightedMidpoint 0 k ![x, y] (fun _ => w) false false
  have hs : 0 < Real.sqrt (-k) := Real.sqrt_pos.2 (by linarith)
  have hka : k = 0 ∨ 1e-8 < |k| := Or.inr (by rw [abs_of_neg hk0]; linarith)
  have n1 := C06_nonneg (η := 0) hka m x
  have n2 := C06_nonneg (η := 0) hka m y
  have h1 := (sq_eq_sq₀ (Real.sinh_nonneg_iff.2 (by positivity)) (Real.sinh_nonneg_iff.2 (by positivity))).1 h
  have h2 := Real.sinh_injective h1
  have h3 : Real.sqrt (-k) * dist 0 k m x = Real.sqrt (-k) * dist 0 k m y := by linarith
  exact mul_left_cancel₀ hs.ne' h3

set_option maxHeartbeats 1000000 in
/-- With the code's constants the midpoint of two equally weighted points need not be equidistant: the
origin and any point of norm `1/2` in the unit ball. -/
theorem C16_counterexample_equidistant {y : Vec n} (hy : y ⬝ᵥ y = 1 / 4) :
    dist codeEta (-1) (weightedMidpoint codeEta (-1) ![0, y] (fun _ => 1) false false) 0 ≠
      dist codeEta (-1) (weightedMidpoint codeEta (-1) ![0, y] (fun _ => 1) false false) y := by
  intro heq
  have hk : (-1 : ℝ) < -1e-8 := by norm_num
  have hη := codeEta_nonneg
  have hs := kSqrt_pos hη (show (-1 : ℝ) ≠ 0 by norm_num)
  have hs2 := kSqrt_sq hη (-1)
  rw [abs_neg, abs_one] at hs2
  have hce : codeEta = 1e-15 := rfl
  have hny : nrm y = 1 / 2 := nrm_eq_of_dot_eq (by norm_num) (by rw [hy]; norm_num)
  have hl0 : lambdaX (-1) (0 : Vec n) = 2 := by unfold lambdaX; norm_num
  have hly : lambdaX (-1) y = 8 / 3 := by unfold lambdaX; rw [hy]; norm_num
  have hs1 : kSqrt codeEta (-1) ≤ 1.01 := by
    refine le_of_sq_le_sq ?_ (by norm_num)
    rw [hs2, hce]; norm_num
  have eD : ∑ j : Fin 2, (lambdaX (-1) (![0, y] j) - 1) * 1 = 8 / 3 := by
    rw [Fin.sum_univ_two]
    simp only [Matrix.cons_val_zero, Matrix.cons_val_one]
    rw [hl0, hly]; norm_num
  have eS : ∑ j : Fin 2, (lambdaX (-1) (![0, y] j) * 1) • (![0, y] j) = (8 / 3 : ℝ) • y := by
    rw [Fin.sum_univ_two]
    simp only [Matrix.cons_val_zero, Matrix.cons_val_one]
    rw [hly, smul_zero, zero_add, mul_one]
  have hn : nrm ((8 / 3 : ℝ) • y) = 4 / 3 := by rw [nrm_smul, hny]; norm_num
  have h := C16_equation_partial hη hk ![0, y] (fun _ => 1) (by rw [eD]; norm_num)
    (by
      rw [eD, eS, hn]
      have es : Real.sqrt (|(-1 : ℝ)| + codeEta) = kSqrt codeEta (-1) := rfl
      rw [es]
      norm_num at hs1 ⊢
      linarith)
    (by right; rw [eD, eS, hn]; norm_num)
  simp only at h
  rw [eD, eS, abs_neg, abs_one] at h
  set m := weightedMidpoint codeEta (-1) ![0, y] (fun _ => 1) false false with hm
  obtain ⟨h1, h2⟩ := h
  have hM0 : 0 ≤ (1 + codeEta) * (m ⬝ᵥ m) := mul_nonneg (by linarith) (dot_self_nonneg m)
  set q := (1 + codeEta) * (m ⬝ᵥ m) with hq
  -- the midpoint is `μ • y`
  set μ : ℝ := (8 / 3 + 1e-10)⁻¹ * (8 / 3) * ((1 + q) / 2) with hμ
  have hmy : m = μ • y := by
    have h3 := congrArg (fun v => ((8 / 3 + 1e-10)⁻¹ * ((1 + q) / 2)) • v) h1
    beta_reduce at h3
    rw [smul_smul, smul_smul, smul_smul] at h3
    have h4 : (8 / 3 + 1e-10 : ℝ)⁻¹ * ((1 + q) / 2) * (8 / 3 + 1e-10) * (2 / (1 + q)) = 1 := by
      have : (1 + q) ≠ 0 := by linarith
      have h5 : (8 / 3 + 1e-10 : ℝ) ≠ 0 := by norm_num
      generalize (8 / 3 + 1e-10 : ℝ) = e at h5
      field_simp
    rw [h4, one_smul] at h3
    rw [h3, hμ]
    congr 1; ring
  have hμ0 : 0 < μ := by rw [hμ]; have : 0 < (1 + q) / 2 := by linarith
                         positivity
  have hqμ : q = (1 + codeEta) * (μ ^ 2 / 4) := by
    rw [hq, hmy]; dots; rw [hy]; ring
  have hμe : μ * (8 / 3 + 1e-10) * 2 = 8 / 3 * (1 + q) := by
    have h5 : (8 / 3 + 1e-10 : ℝ) ≠ 0 := by norm_num
    rw [hμ]
    generalize (8 / 3 + 1e-10 : ℝ) = e at h5
    field_simp
  have hμ1 : μ < 1 := by norm_num at hμe; nlinarith
  -- the two distances
  have d0 : dist codeEta (-1) m 0 = 2 * ((kSqrt codeEta (-1))⁻¹ * artanhC (μ / 2 * kSqrt codeEta (-1))) := by
    rw [dist, artanK_neg_curv hk, C03_add_zero, nrm_neg, hmy, nrm_smul, hny, abs_of_pos hμ0]
    norm_num
    left; congr 2; ring
  have d1 : dist codeEta (-1) m y = 2 * ((kSqrt codeEta (-1))⁻¹ *
      artanhC ((1 - μ) / (1 - μ / 4) / 2 * kSqrt codeEta (-1))) := by
    rw [C06_symm, dist, artanK_neg_curv hk, hmy]
    have e : μ • y = (-μ) • (-y) := by simp
    have hden : (1 : ℝ) - -1 * (-μ * (-y ⬝ᵥ -y)) = 1 - μ / 4 := by
      rw [neg_dotProduct, dotProduct_neg, neg_neg, hy]; ring
    rw [e, mobiusAdd_ray (-1) (-y) (-μ) (by rw [hden]; norm_num; nlinarith) (by rw [hden]; linarith), hden,
      nrm_smul, nrm_neg, hny, abs_of_pos (div_pos (by linarith) (by linarith))]
    norm_num
    left; congr 2; ring
  rw [d0, d1] at heq
  have h5 : artanhC (μ / 2 * kSqrt codeEta (-1)) =
      artanhC ((1 - μ) / (1 - μ / 4) / 2 * kSqrt codeEta (-1)) :=
    mul_left_cancel₀ (inv_ne_zero hs.ne') (mul_left_cancel₀ two_ne_zero heq)
  have inj : ∀ {a b : ℝ}, 0 ≤ a → a ≤ 0.9 → 0 ≤ b → b ≤ 0.9 → artanhC a = artanhC b → a = b := by
    intro a b a0 a1 b0 b1 hab
    rw [artanhC_eq (by norm_num at *; linarith) (by norm_num at *; linarith),
      artanhC_eq (by norm_num at *; linarith) (by norm_num at *; linarith)] at hab
    have := congrArg Real.tanh hab
    rwa [Real.tanh_artanh ⟨by linarith, by norm_num at *; linarith⟩,
      Real.tanh_artanh ⟨by linarith, by norm_num at *; linarith⟩] at this
  have hr0 : 0 < (1 - μ) / (1 - μ / 4) := div_pos (by linarith) (by linarith)
  have hr1 : (1 - μ) / (1 - μ / 4) ≤ 1 := by rw [div_le_one (by linarith)]; linarith
  have h6 := inj (by positivity) (by norm_num at hs1 ⊢; nlinarith) (by positivity)
    (by norm_num at hs1 ⊢; nlinarith) h5
  have h7 : μ / 2 = (1 - μ) / (1 - μ / 4) / 2 := mul_right_cancel₀ hs.ne' h6
  have h8 : μ * (1 - μ / 4) = 1 - μ := by
    have : μ = (1 - μ) / (1 - μ / 4) := by linarith
    rwa [eq_div_iff (by linarith)] at this
  rw [hqμ, hce] at hμe
  norm_num at hμe
  nlinarith [sq_nonneg μ]

example : OpenBall (-1) (fun _ => 0.5 : Vec 1) ∧ lambdaX (-1) (fun _ => 0.5 : Vec 1) ≤ 1000 := by
  constructor
  · simp [OpenBall, dotProduct]; norm_num
  · unfold lambdaX; simp [dotProduct]; norm_num

example : (fun _ => 0.5 : Vec 1) ⬝ᵥ (fun _ => 0.5 : Vec 1) = 1 / 4 := by simp [dotProduct]; norm_num

/-- The hypotheses of `C16_two_points_partial` hold for the origin and the point `1/2`. -/
example : OpenBall (-1) (0 : Vec 1) ∧
    lambdaX (-1) (0 : Vec 1) + lambdaX (-1) (fun _ => 0.5 : Vec 1) ≤ 2000 ∧
    1e-15 * (1 * (lambdaX (-1) (0 : Vec 1) + lambdaX (-1) (fun _ => 0.5 : Vec 1) - 2) + 1e-10) ≤
      1 * nrm (lambdaX (-1) (0 : Vec 1) • (0 : Vec 1) +
        lambdaX (-1) (fun _ => 0.5 : Vec 1) • (fun _ => 0.5 : Vec 1)) := by
  have h0 : lambdaX (-1) (0 : Vec 1) = 2 := by unfold lambdaX; norm_num
  have h1 : lambdaX (-1) (fun _ => 0.5 : Vec 1) = 8 / 3 := by unfold lambdaX; simp [dotProduct]; norm_num
  have h5 : nrm (fun _ => 0.5 : Vec 1) = 0.5 :=
    nrm_eq_of_dot_eq (by norm_num) (by simp [dotProduct]; norm_num)
  rw [h0, h1, smul_zero, zero_add, nrm_smul, h5]
  refine ⟨by simp [OpenBall], by norm_num, by norm_num⟩

end Geoopt.Stereo
