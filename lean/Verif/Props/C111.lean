import Verif.Props.C16Sphere

/-!
# C111: negative weights of `weighted_midpoint` with `posweight=True`

The documentation: a negative weight weights the antipode of the entry with the positive weight instead.
True for `k ≤ 0`.  On the sphere it is false: the factors `gamma` are those of the original points.
-/

namespace Geoopt.Stereo
open Geoopt
variable {n : ℕ}

open Classical in
/-- The points that are to be averaged according to the documentation. -/
noncomputable def flipped {m : ℕ} (η k : ℝ) (xs : Fin m → Vec n) (w : Fin m → ℝ) : Fin m → Vec n :=
  fun j => if w j < 0 then antipode η k (xs j) else xs j

/-- **C111** for `k ≤ 0`: all families of points and weights, with and without `lincomb`. -/
theorem C111_nonpos {m : ℕ} {η k : ℝ} (hk : k ≤ 0) (xs : Fin m → Vec n) (w : Fin m → ℝ)
    (lincomb : Bool) :
    weightedMidpoint η k xs w lincomb true =
      weightedMidpoint η k (flipped η k xs w) (fun j => |w j|) lincomb false := by
  have hl : ∀ j, lambdaX k (flipped η k xs w j) = lambdaX k (xs j) := by
    intro j
    unfold flipped
    split_ifs
    · rw [C15_nonpos hk, lambdaX, lambdaX]
      simp
    · rfl
  by_cases hp : ∃ j, w j < 0
  · simp only [weightedMidpoint, hp, and_self, if_true, Bool.false_eq_true, false_and, if_false, hl]
    rfl
  · have hw : ∀ j, |w j| = w j := fun j => abs_of_nonneg (not_lt.1 fun h => hp ⟨j, h⟩)
    have hf : flipped η k xs w = xs := by
      funext j
      unfold flipped
      rw [if_neg fun h => hp ⟨j, h⟩]
    simp only [weightedMidpoint, hp, and_false, if_false, Bool.false_eq_true, false_and, hw, hf]

/-- For every curvature: without negative weights `posweight` changes nothing. -/
theorem C111_nonneg_weights {m : ℕ} {η k : ℝ} (xs : Fin m → Vec n) {w : Fin m → ℝ}
    (hw : ∀ j, 0 ≤ w j) (lincomb : Bool) :
    weightedMidpoint η k xs w lincomb true = weightedMidpoint η k xs w lincomb false := by
  have hp : ¬ ∃ j, w j < 0 := fun ⟨j, h⟩ => absurd h (not_lt.2 (hw j))
  simp only [weightedMidpoint, hp, and_false, if_false, Bool.false_eq_true, false_and]

set_option maxHeartbeats 1000000 in
/-- On the unit sphere: one point `x` with `‖x‖ = 1/2` and weight `-1`.  The documented result is the
antipode of `x`, which has norm two (`C15_antipode_error_partial`); the result of the code is farther than
0.9 from it. -/
theorem C111_counterexample_sphere {η : ℝ} (hη : 0 ≤ η) (hη1 : η ≤ 1e-6) {x : Vec n}
    (hx : x ⬝ᵥ x = 1 / 4) :
    0.9 < nrm (weightedMidpoint η 1 (fun _ : Fin 1 => x) (fun _ => -1) false true - antipode η 1 x) := by
  have hk : (1e-8 : ℝ) < 1 := by norm_num
  have hn : nrm x = 1 / 2 := nrm_eq_of_dot_eq (by norm_num) (by rw [hx]; norm_num)
  have hs := kSqrt_pos hη (one_ne_zero (α := ℝ))
  have hs2 := kSqrt_sq hη 1
  rw [abs_one] at hs2
  have hT0 := tan_piLit_ge
  set s := kSqrt η 1 with hsd
  have hs1 : 1 ≤ s := by nlinarith
  have hs3 : s ≤ 1.00001 := by norm_num at *; nlinarith
  set T := Real.tan (piLit / 2) with hT
  obtain ⟨t, ht⟩ : ∃ t, t = T / s := ⟨_, rfl⟩
  have ht0 : 1e15 ≤ t := by
    rw [ht, le_div_iff₀ hs]
    calc (1e15 : ℝ) * s ≤ 1e15 * 1.00001 := by gcongr
      _ ≤ 4e15 := by norm_num
      _ ≤ T := hT0
  have htp : 1000 < t := lt_of_lt_of_le (by norm_num) ht0
  -- the antipode
  obtain ⟨α, hα, hα0, hα1⟩ : ∃ α : ℝ, antipode η 1 x = α • x ∧ α ≤ -4 ∧ -4.1 ≤ α := by
    refine ⟨_, antipode_ray hη hk (x := x) ?_ ?_, ?_⟩
    · rw [hn]; norm_num
    · rw [← hT, ← hsd, ← ht, hn]
      have : 1 ≤ (1 - 1 * (1 / 2) * t) ^ 2 := by nlinarith
      exact le_trans (by norm_num) this
    · rw [← hT, ← hsd, ← ht, hn]
      have h1 : (1 / 2 * (1 - 1 * (1 / 2) * t)) = -((t - 2) / 4) := by ring
      have h2 : 0 < (t - 2) / 4 := by linarith
      rw [h1, div_neg]
      constructor
      · rw [neg_le_neg_iff, le_div_iff₀ h2]; linarith
      · rw [neg_le_neg_iff, div_le_iff₀ h2]; norm_num; linarith
  -- the first candidate
  obtain ⟨β, hβ⟩ : ∃ β : ℝ, β = (0.6 + 1e-10)⁻¹ * 1.6 * α := ⟨_, rfl⟩
  have hβ0 : β ≤ -10.6 := by
    have : (2.65 : ℝ) ≤ (0.6 + 1e-10)⁻¹ * 1.6 := by norm_num
    rw [hβ]
    norm_num at *
    nlinarith
  have hl : lambdaX 1 x = 1.6 := by rw [lambdaX, hx]; norm_num
  have hz0 : nrm (β • x) = -β / 2 := by
    rw [nrm_smul, abs_of_neg (by norm_num at *; linarith), hn]; ring
  obtain ⟨z, hz⟩ : ∃ z, z = -β / 2 * s := ⟨_, rfl⟩
  have hz1 : 5.3 ≤ z := by
    rw [hz]
    have : (5.3 : ℝ) ≤ -β / 2 := by norm_num at *; linarith
    nlinarith [show (0:ℝ) < 5.3 by norm_num]
  obtain ⟨A0, A1, A2⟩ := half_arctan (z := z) (le_trans (by norm_num) hz1)
  have harc : (0.5 : ℝ) * Real.arctan z ≤ 1e38 := by
    have := Real.arctan_lt_pi_div_two z
    have := Real.pi_lt_d2
    norm_num at *
    linarith
  set A := Real.tan (0.5 * Real.arctan z) with hA
  have hAh : 0.5 ≤ A := by
    by_contra h
    push Not at h
    have h1 : A ^ 2 ≤ 0.25 := by norm_num at *; nlinarith
    have h2 : 5.3 * 0.75 ≤ z * (1 - A ^ 2) :=
      mul_le_mul hz1 (by norm_num at *; linarith) (by norm_num) (by norm_num at *; linarith)
    norm_num at *
    linarith
  have ha : mobiusScalarMul η 1 0.5 (β • x) = (-(2 * (A / s))) • x := by
    have hb : β ≠ 0 := by
      intro h
      rw [h] at hβ0
      norm_num at hβ0
    simp only [mobiusScalarMul]
    rw [hz0, max_eq_left (by norm_num at *; linarith), tanK_pos_curv hk, artanK_pos_curv hk, ← hsd]
    have e : 0.5 * (s⁻¹ * Real.arctan (-β / 2 * s)) * s = 0.5 * Real.arctan z := by
      rw [hz]; field_simp
    rw [e, min_eq_left harc, ← hA, smul_smul, smul_smul]
    congr 1
    field_simp
  obtain ⟨r, hr⟩ : ∃ r, r = A / s := ⟨_, rfl⟩
  rw [← hr] at ha
  have hr0 : 0.4 ≤ r := by
    rw [hr, le_div_iff₀ hs]
    norm_num at *
    linarith
  have hr1 : r ≤ 1 := by
    rw [hr, div_le_one hs]; linarith
  have hrp : 0 < r := lt_of_lt_of_le (by norm_num) hr0
  have hna : nrm ((-(2 * r)) • x) = r := by
    rw [nrm_smul, abs_neg, abs_of_pos (by linarith), hn]; ring
  have hrt : 4 ≤ r * t := by
    have : 0.4 * 1000 ≤ r * t := mul_le_mul hr0 htp.le (by norm_num) hrp.le
    norm_num at *
    linarith
  -- the second candidate
  obtain ⟨p, hp0, hb⟩ : ∃ p : ℝ, 0 ≤ p ∧ antipode η 1 ((-(2 * r)) • x) = p • x := by
    have h := antipode_ray hη hk (x := (-(2 * r)) • x) ?_ ?_
    · rw [h, ← hT, ← hsd, ← ht, hna, smul_smul]
      refine ⟨_, ?_, rfl⟩
      rw [one_mul]
      have h1 : 0 < r * t - 1 := by linarith
      have h2 : (r + t) / (r * (1 - r * t)) = -((r + t) / (r * (r * t - 1))) := by
        rw [← div_neg]; congr 1; ring
      rw [h2, neg_mul_neg]
      have : 0 < r + t := by linarith
      positivity
    · rw [hna]; exact le_trans (by norm_num) hr0
    · rw [← hT, ← hsd, ← ht, hna, one_mul]
      have : 1 ≤ (1 - r * t) ^ 2 := by nlinarith
      exact le_trans (by norm_num) this
  -- the result is one of the two
  obtain ⟨c, hc, hmid⟩ : ∃ c : ℝ, -2 ≤ c ∧
      weightedMidpoint η 1 (fun _ : Fin 1 => x) (fun _ => -1) false true = c • x := by
    have hneg' : (-1 : ℝ) < 0 := by norm_num
    have e1 : clampAbs 1e-10 (0.6 : ℝ) = 0.6 + 1e-10 := by
      rw [clampAbs, usign_of_nonneg (by norm_num), sabs, abs_of_nonneg (by norm_num)]; ring
    simp only [weightedMidpoint, hneg', and_self, exists_const, if_true, hl, hα, Finset.univ_unique,
      Finset.sum_singleton, abs_neg, abs_one, mul_one, Bool.false_eq_true, if_false, one_pos]
    rw [show (1.6 : ℝ) - 1 = 0.6 by norm_num, e1, smul_smul, smul_smul,
      ← hβ, ha, hb]
    split_ifs
    · exact ⟨p, by linarith, rfl⟩
    · exact ⟨_, by linarith, rfl⟩
  rw [hmid, hα, ← sub_smul, nrm_smul, abs_of_pos (by linarith), hn]
  norm_num
  linarith

/-- Non-vacuity: such a point, with the regulariser of the code. -/
example : 0.9 < nrm (weightedMidpoint codeEta 1 (fun _ : Fin 1 => (![1 / 2] : Vec 1)) (fun _ => -1)
    false true - antipode codeEta 1 ![1 / 2]) :=
  C111_counterexample_sphere codeEta_nonneg (by norm_num [codeEta]) (by norm_num [dotProduct])

end Geoopt.Stereo
