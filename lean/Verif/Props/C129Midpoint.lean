import Verif.Props.C129

/-!
# C129 for weighted midpoints
-/

namespace Geoopt.C129
open Geoopt Geoopt.Stereo

variable {n m : ℕ}

theorem two_le_lambdaX {k : ℝ} (hk : k ≤ 0) (x : Vec n) : 2 ≤ lambdaX k x := by
  have h0 : 0 ≤ x ⬝ᵥ x := Finset.sum_nonneg fun i _ => mul_self_nonneg _
  have h1 : max (1 + k * (x ⬝ᵥ x)) 1e-15 ≤ 1 :=
    max_le (by nlinarith [mul_nonneg_of_nonpos_of_nonpos hk (neg_nonpos.2 h0)]) (by norm_num)
  have h2 : 0 < max (1 + k * (x ⬝ᵥ x)) 1e-15 := lt_of_lt_of_le (by norm_num) (le_max_right _ _)
  unfold lambdaX
  rw [le_div_iff₀ h2]; linarith

/-- **C129** (`weighted_midpoint`): with curvature at most zero and weights that are not negative, weighted
midpoints and linear combinations are continuous in all points and all weights together, also where all
weights vanish. -/
theorem C129_midpoint (η : ℝ) {k : ℝ} (hk : k ≤ 0) (lincomb posweight : Bool) :
    ContinuousOn (fun p : (Fin m → Vec n) × (Fin m → ℝ) =>
      weightedMidpoint η k p.1 p.2 lincomb posweight) {p | ∀ j, 0 ≤ p.2 j} := by
  have hx : ∀ j, Continuous fun p : (Fin m → Vec n) × (Fin m → ℝ) => p.1 j := fun j =>
    (continuous_apply j).comp continuous_fst
  have hw : ∀ j, Continuous fun p : (Fin m → Vec n) × (Fin m → ℝ) => p.2 j := fun j =>
    (continuous_apply j).comp continuous_snd
  have hl : ∀ j, Continuous fun p : (Fin m → Vec n) × (Fin m → ℝ) => lambdaX k (p.1 j) := fun j =>
    c_lambdaX k (hx j)
  have hd : Continuous fun p : (Fin m → Vec n) × (Fin m → ℝ) =>
      |∑ j, (lambdaX k (p.1 j) - 1) * p.2 j| + 1e-10 :=
    (continuous_finset_sum _ fun j _ => ((hl j).sub continuous_const).mul (hw j)).abs.add continuous_const
  have hn : Continuous fun p : (Fin m → Vec n) × (Fin m → ℝ) =>
      ∑ j, (lambdaX k (p.1 j) * p.2 j) • p.1 j :=
    continuous_finset_sum _ fun j _ => ((hl j).mul (hw j)).smul (hx j)
  have ht : Continuous fun p : (Fin m → Vec n) × (Fin m → ℝ) =>
      (|∑ j, (lambdaX k (p.1 j) - 1) * p.2 j| + 1e-10)⁻¹ •
        ∑ j, (lambdaX k (p.1 j) * p.2 j) • p.1 j :=
    (hd.inv₀ fun p => ne_of_gt (add_pos_of_nonneg_of_pos (abs_nonneg _) (by norm_num))).smul hn
  have hms := (C129_stereographic_exp (n := n) (m := 0) η (k := k) (hk.trans (by norm_num))).2.2.1
  have ha := hms.comp ((continuous_const (y := (0.5 : ℝ))).prodMk ht)
  have hs : Continuous fun p : (Fin m → Vec n) × (Fin m → ℝ) => ∑ j, p.2 j :=
    continuous_finset_sum _ fun j _ => hw j
  have hb := hms.comp (hs.prodMk ha)
  have key : ∀ p ∈ {p : (Fin m → Vec n) × (Fin m → ℝ) | ∀ j, 0 ≤ p.2 j},
      weightedMidpoint η k p.1 p.2 lincomb posweight =
        if lincomb then mobiusScalarMul η k (∑ j, p.2 j) (mobiusScalarMul η k 0.5
          ((|∑ j, (lambdaX k (p.1 j) - 1) * p.2 j| + 1e-10)⁻¹ •
            ∑ j, (lambdaX k (p.1 j) * p.2 j) • p.1 j))
        else mobiusScalarMul η k 0.5
          ((|∑ j, (lambdaX k (p.1 j) - 1) * p.2 j| + 1e-10)⁻¹ •
            ∑ j, (lambdaX k (p.1 j) * p.2 j) • p.1 j) := by
    intro p hp
    have hp : ∀ j, 0 ≤ p.2 j := hp
    have hpos : ¬ (posweight = true ∧ ∃ j, p.2 j < 0) := by
      rintro ⟨-, j, hj⟩; exact absurd (hp j) (not_le.2 hj)
    have hden : 0 ≤ ∑ j, (lambdaX k (p.1 j) - 1) * p.2 j :=
      Finset.sum_nonneg fun j _ => mul_nonneg (by linarith [two_le_lambdaX hk (p.1 j)]) (hp j)
    have hc : clampAbs 1e-10 (∑ j, (lambdaX k (p.1 j) - 1) * p.2 j) =
        |∑ j, (lambdaX k (p.1 j) - 1) * p.2 j| + 1e-10 := by
      unfold clampAbs sabs
      rw [usign_of_nonneg hden, one_mul]
    unfold weightedMidpoint
    simp only [if_neg hpos, if_neg (not_lt.2 hk), hc]
  cases lincomb with
  | true => exact hb.continuousOn.congr fun p hp => by rw [key p hp, if_pos rfl]; rfl
  | false => exact ha.continuousOn.congr fun p hp => by rw [key p hp]; rfl

/-- The hypotheses are met: two points of the hyperbolic plane with weights one and zero. -/
example : (-1 : ℝ) ≤ 0 ∧ ((fun _ => ![0.5, 0], ![1, 0]) : (Fin 2 → Vec 2) × (Fin 2 → ℝ)) ∈
    {p : (Fin 2 → Vec 2) × (Fin 2 → ℝ) | ∀ j, 0 ≤ p.2 j} := by
  refine ⟨by norm_num, fun j => ?_⟩
  fin_cases j <;> simp

end Geoopt.C129
