import Verif.Props.C16
import Verif.Props.C15Inv

/-!
C16 for positive curvature: the midpoint of copies of one point, on both hemispheres, and the
choice between the two antipodal candidates.
-/

namespace Geoopt.Stereo
open Geoopt
variable {n : ℕ}

lemma tan_piLit_le : Real.tan (piLit / 2) ≤ 1e16 := by
  set δ := (Real.pi - piLit) / 2 with hδ
  have h1 : 1e-16 ≤ δ := by
    have := Real.pi_gt_d20
    rw [hδ]; unfold piLit
    linarith [show (2e-16 : ℝ) ≤ 3.14159265358979323846 - 3.141592653589793 by norm_num,
      show (2e-16 : ℝ) = 2 * 1e-16 by norm_num]
  have h0 : 0 < δ := lt_of_lt_of_le (by norm_num) h1
  have h2 : δ < Real.pi / 2 := by
    have : 0 < piLit := by unfold piLit; norm_num
    rw [hδ]; linarith
  have e : piLit / 2 = Real.pi / 2 - δ := by rw [hδ]; ring
  rw [e, Real.tan_pi_div_two_sub]
  have h3 : δ ≤ Real.tan δ := Real.le_tan h0.le h2
  calc (Real.tan δ)⁻¹ ≤ (1e-16 : ℝ)⁻¹ := inv_anti₀ (by norm_num) (h1.trans h3)
    _ = 1e16 := by norm_num

/-- half of an angle, through the tangent -/
lemma half_arctan {z : ℝ} (hz : 0 ≤ z) :
    0 ≤ Real.tan (0.5 * Real.arctan z) ∧ Real.tan (0.5 * Real.arctan z) < 1 ∧
      2 * Real.tan (0.5 * Real.arctan z) = z * (1 - Real.tan (0.5 * Real.arctan z) ^ 2) := by
  have h0 : 0 ≤ Real.arctan z := Real.arctan_nonneg.2 hz
  have h1 := Real.arctan_lt_pi_div_two z
  have hp := Real.pi_pos
  have e : (0.5 : ℝ) * Real.arctan z = Real.arctan z / 2 := by norm_num; ring
  rw [e]
  have hA0 : 0 ≤ Real.tan (Real.arctan z / 2) :=
    Real.tan_nonneg_of_nonneg_of_le_pi_div_two (by linarith) (by linarith)
  have hA1 : Real.tan (Real.arctan z / 2) < 1 := by
    rw [← Real.tan_pi_div_four]
    exact Real.tan_lt_tan_of_lt_of_lt_pi_div_two (by linarith) (by linarith) (by linarith)
  refine ⟨hA0, hA1, ?_⟩
  have h2 : Real.tan (Real.arctan z) = z := Real.tan_arctan z
  rw [show Real.arctan z = 2 * (Real.arctan z / 2) by ring, Real.tan_two_mul] at h2
  have h3 : 1 - Real.tan (Real.arctan z / 2) ^ 2 ≠ 0 := by nlinarith
  rw [div_eq_iff h3] at h2
  exact h2

/-- Möbius difference of two points of one ray, with the clamp of the denominator. -/
lemma mobiusAdd_neg_ray (k p : ℝ) (x : Vec n) :
    mobiusAdd k (-(p • x)) x =
      ((1 - p) * (1 + k * (p * (x ⬝ᵥ x))) / max ((1 + k * (p * (x ⬝ᵥ x))) ^ 2) 1e-15) • x := by
  have e : mobDenom k (-(p • x)) x = (1 + k * (p * (x ⬝ᵥ x))) ^ 2 := by
    unfold mobDenom; dots; ring
  rw [mobiusAdd, e]
  dots
  funext i
  simp only [Pi.smul_apply, Pi.add_apply, Pi.neg_apply, smul_eq_mul]
  ring

/-- The distance of two points of one ray as the code computes it. -/
lemma dist_ray {η k : ℝ} (hη : 0 ≤ η) (hk : 1e-8 < k) (p : ℝ) (x : Vec n) :
    dist η k (p • x) x = 2 * ((kSqrt η k)⁻¹ * Real.arctan
      (|1 - p| * |1 + k * (p * nrm x ^ 2)| / max ((1 + k * (p * nrm x ^ 2)) ^ 2) 1e-15 *
        (nrm x * kSqrt η k))) := by
  have h : (0:ℝ) < max ((1 + k * (p * nrm x ^ 2)) ^ 2) 1e-15 := lt_max_of_lt_right (by norm_num)
  rw [dist, mobiusAdd_neg_ray, artanK_pos_curv hk, nrm_smul, ← nrm_sq, abs_div, abs_mul,
    abs_of_pos h, mul_assoc (_ / _)]
  norm_num

lemma mid_lower {A σ ε : ℝ} (hA0 : 0 ≤ A) (hA1 : A < 1) (hσ : 0 < σ) (hσ1 : σ ≤ 1) (hε : 0 < ε)
    (hε1 : ε ≤ 1) (h : 2 * A * (1 - σ ^ 2 + ε * (1 + σ ^ 2)) = 2 * σ * (1 - A ^ 2)) :
    (1 - ε) * σ ≤ A ∧ A ≤ (1 - ε / 2) * σ := by
  constructor
  · by_contra hc
    push Not at hc
    have h1 : 0 < σ - A := by nlinarith
    nlinarith [mul_pos hσ h1, mul_nonneg hA0 hσ.le, mul_pos hε hσ, sq_nonneg (σ - A),
      mul_nonneg hA0 (sq_nonneg σ), mul_pos hε hε]
  · by_contra hc
    push Not at hc
    nlinarith [mul_pos hε hσ, mul_nonneg hA0 hσ.le]

/-- ratio of the distances from a point to the two candidates, upper hemisphere -/
lemma north_scalar {A T ρ ε : ℝ} (hT0 : 4e15 ≤ T) (hT1 : T ≤ 1e16) (hρ : 1e-6 ≤ ρ) (hρ1 : ρ ≤ 1)
    (hε0 : 0 < ε) (hε1 : ε ≤ 1e-10) (hA0 : (1 - ε) * ρ ≤ A) (hA1 : A ≤ ρ) :
    (ρ - A) * (1 + ρ * A) / max ((1 + ρ * A) ^ 2) 1e-15 ≤
      |ρ - (A + T) / (1 - A * T)| * |1 + ρ * ((A + T) / (1 - A * T))| /
        max ((1 + ρ * ((A + T) / (1 - A * T))) ^ 2) 1e-15 := by
  have n1 : (1e-10 : ℝ) ≤ 1 / 2 := by norm_num
  have hρ0 : 0 < ρ := lt_of_lt_of_le (by norm_num) hρ
  have hA2 : ρ / 2 ≤ A := by nlinarith
  have hA3 : 5e-7 ≤ A := by
    have : (5e-7 : ℝ) = 1e-6 / 2 := by norm_num
    linarith
  have hA4 : 0 < A := lt_of_lt_of_le (by norm_num) hA3
  have hT : 0 < T := lt_of_lt_of_le (by norm_num) hT0
  have hAT : 2e9 ≤ A * T := by
    calc (2e9 : ℝ) = 5e-7 * 4e15 := by norm_num
      _ ≤ A * T := by gcongr
  have hq : 0 < A * T - 1 := by linarith [show (2e9 : ℝ) > 1 by norm_num]
  have hne : 1 - A * T ≠ 0 := by linarith
  -- left-hand side
  have hl : (ρ - A) * (1 + ρ * A) / max ((1 + ρ * A) ^ 2) 1e-15 ≤ 1e-10 := by
    have h1 : 1 ≤ 1 + ρ * A := by nlinarith
    rw [max_eq_left (by nlinarith [show (1e-15 : ℝ) < 1 by norm_num]), div_le_iff₀ (by positivity)]
    have h2 : ρ - A ≤ 1e-10 := by nlinarith
    have h3 : 1 + ρ * A ≤ (1 + ρ * A) ^ 2 := by nlinarith
    have h4 : 0 ≤ ρ - A := by linarith
    calc (ρ - A) * (1 + ρ * A) ≤ 1e-10 * (1 + ρ * A) := by gcongr
      _ ≤ _ := by gcongr
  refine hl.trans ?_
  set β := (A + T) / (1 - A * T) with hβ
  have hβ' : β = -((A + T) / (A * T - 1)) := by
    rw [hβ, ← neg_sub (A * T) 1, div_neg]
  have h1 : 1 ≤ (A + T) / (A * T - 1) := by rw [le_div_iff₀ hq]; nlinarith
  have h2 : 1 ≤ |ρ - β| := by rw [hβ']; exact le_trans (by linarith) (le_abs_self _)
  have e : 1 + ρ * β = -((1 + ρ * A + (ρ - A) * T) / (A * T - 1)) := by
    rw [hβ']; field_simp; ring
  have he0 : 0 < (1 + ρ * A + (ρ - A) * T) / (A * T - 1) := by
    have : 0 ≤ (ρ - A) * T := mul_nonneg (by linarith) hT.le
    have : 0 < ρ * A := by positivity
    apply div_pos _ hq
    linarith
  rw [e, abs_neg, abs_of_pos he0, neg_sq]
  set d := (1 + ρ * A + (ρ - A) * T) / (A * T - 1) with hd
  have hd1 : 1e-16 ≤ d := by
    rw [hd, le_div_iff₀ hq]
    have : A * T ≤ 1e16 := by nlinarith
    have h3 : 0 ≤ (ρ - A) * T := mul_nonneg (by linarith) hT.le
    have h4 : 0 < ρ * A := by positivity
    nlinarith [show (1e-16 : ℝ) * 1e16 = 1 by norm_num]
  have hd2 : d ≤ 1 := by
    rw [hd, div_le_one hq]
    have h3 : (ρ - A) * T ≤ 1e-6 * (A * T) := by
      have h5 : ρ - A ≤ 1e-6 * A := by
        have : ρ - A ≤ 1e-10 * ρ := by nlinarith
        have h6 : (1e-10 : ℝ) * ρ ≤ 1e-10 * (2 * A) := by gcongr; linarith
        have h7 : (1e-10 : ℝ) * (2 * A) ≤ 1e-6 * A := by
          have : (1e-10 : ℝ) * 2 ≤ 1e-6 := by norm_num
          nlinarith
        linarith
      nlinarith
    have h4 : ρ * A ≤ 1 := by nlinarith
    have h6 : (1e-6 : ℝ) ≤ 1 / 2 := by norm_num
    nlinarith
  rw [le_div_iff₀ (lt_max_of_lt_right (by norm_num))]
  rcases le_total (d ^ 2) 1e-15 with hc | hc
  · rw [max_eq_right hc]
    have : (1e-10 : ℝ) * 1e-15 ≤ 1e-16 := by norm_num
    nlinarith
  · rw [max_eq_left hc]
    have h3 : d ^ 2 ≤ d := by nlinarith
    have : (1e-10 : ℝ) ≤ 1 := by norm_num
    nlinarith

set_option maxHeartbeats 1000000 in
/-- Copies of one point `x` of the upper hemisphere (`1e-6 ≤ √k‖x‖ ≤ 1`), total weight `W ≥ 1`: the
midpoint is `c • x` with `1 - 1e-10/W ≤ c ≤ 1`. -/
theorem C16_copies_north_partial {m : ℕ} {k : ℝ} (hk : 1e-8 < k) {x : Vec n} (w : Fin m → ℝ)
    (hx0 : 1e-6 ≤ nrm x * Real.sqrt k) (hx1 : nrm x * Real.sqrt k ≤ 1) (hxa : 2e-15 ≤ nrm x)
    (hW : 1 ≤ ∑ j, w j) :
    ∃ c : ℝ, weightedMidpoint 0 k (fun _ => x) w false false = c • x ∧
      1 - 1e-10 / (∑ j, w j) ≤ c ∧ c ≤ 1 := by
  have hk0 : 0 < k := by have := e8; linarith
  have h10 : (0:ℝ) < 1e-10 := by norm_num
  have hs := kSqrt_pos (le_refl (0:ℝ)) hk0.ne'
  have hs2 := kSqrt_sq (le_refl (0:ℝ)) k
  have es : kSqrt 0 k = Real.sqrt k := by simp [kSqrt, sabs, abs_of_pos hk0]
  rw [← es] at hx0 hx1
  rw [abs_of_pos hk0, add_zero] at hs2
  have ha0 : 0 < nrm x := lt_of_lt_of_le (by norm_num) hxa
  set W := ∑ j, w j with hWd
  have hW0 : 0 < W := by linarith
  set s := kSqrt 0 k with hsd
  set ρ := nrm x * s with hρ
  have hρ0 : 0 < ρ := by positivity
  have hkx : k * (x ⬝ᵥ x) = ρ ^ 2 := by
    rw [hρ, mul_pow, nrm_sq, hs2]; ring
  have hlam : lambdaX k x = 2 / (1 + ρ ^ 2) := by
    rw [lambdaX, hkx, max_eq_left]
    nlinarith [show (1e-15:ℝ) ≤ 1 by norm_num]
  set γ := lambdaX k x with hγ
  have hγ1 : γ - 1 = (1 - ρ ^ 2) / (1 + ρ ^ 2) := by rw [hlam]; field_simp; ring
  have hγ0 : 0 ≤ γ - 1 := by
    rw [hγ1]; apply div_nonneg _ (by positivity); nlinarith
  set E := (γ - 1) * W + 1e-10 with hE
  have hEpos : 0 < E := by positivity
  have hclamp : clampAbs 1e-10 ((γ - 1) * W) = E := by
    have : 0 ≤ (γ - 1) * W := by positivity
    rw [clampAbs, usign_of_nonneg this, sabs, abs_of_nonneg this, one_mul]
  set q := γ * W / E with hq
  have hγp : 0 < γ := by linarith
  have hq0 : 0 < q := by positivity
  have htwo : (clampAbs 1e-10 (∑ j : Fin m, (γ - 1) * w j))⁻¹ • ∑ j : Fin m, (γ * w j) • x = q • x := by
    rw [← Finset.mul_sum, ← hWd, hclamp, ← Finset.sum_smul, ← Finset.mul_sum, ← hWd, smul_smul]
    congr 1
    rw [hq, inv_mul_eq_div]
  set ε := 1e-10 / W with hε
  have hε0 : 0 < ε := by positivity
  have hε1 : ε ≤ 1e-10 := by rw [hε]; exact div_le_self h10.le hW
  have hq1 : q * (1 - ρ ^ 2 + ε * (1 + ρ ^ 2)) = 2 := by
    have e1 : E = W * (1 - ρ ^ 2 + ε * (1 + ρ ^ 2)) / (1 + ρ ^ 2) := by
      rw [hE, hγ1, hε]; field_simp
    have : 0 < 1 - ρ ^ 2 + ε * (1 + ρ ^ 2) := by
      have : 0 ≤ 1 - ρ ^ 2 := by nlinarith
      positivity
    rw [hq, e1, hlam]
    generalize 1 - ρ ^ 2 + ε * (1 + ρ ^ 2) = D at this
    field_simp
  have hqge : 1 / 2 ≤ q := by
    have : 1 - ρ ^ 2 + ε * (1 + ρ ^ 2) ≤ 4 := by nlinarith [show (1e-10 : ℝ) ≤ 1 by norm_num]
    nlinarith
  have hqn : nrm (q • x) = q * nrm x := by rw [nrm_smul, abs_of_pos hq0]
  have hqmax : max (nrm (q • x)) 1e-15 = q * nrm x := by
    rw [hqn, max_eq_left]
    linarith [mul_le_mul hqge hxa (by norm_num) hq0.le, show (1:ℝ) / 2 * 2e-15 = 1e-15 by norm_num]
  have hz0 : 0 ≤ q * nrm x * s := by positivity
  obtain ⟨A0, A1, A2⟩ := half_arctan hz0
  have harc : (0.5 : ℝ) * Real.arctan (q * nrm x * s) ≤ 1e38 := by
    have := Real.arctan_lt_pi_div_two (q * nrm x * s)
    have := Real.pi_lt_four
    norm_num at *
    linarith
  set A := Real.tan (0.5 * Real.arctan (q * nrm x * s)) with hA
  have hAeq : 2 * A * (1 - ρ ^ 2 + ε * (1 + ρ ^ 2)) = 2 * ρ * (1 - A ^ 2) := by
    rw [A2, show q * nrm x * s = q * ρ by rw [hρ]; ring]
    linear_combination ρ * (1 - A ^ 2) * hq1
  obtain ⟨L0, L1⟩ := mid_lower A0 A1 hρ0 hx1 hε0 (by linarith [show (1e-10:ℝ) ≤ 1 by norm_num]) hAeq
  have hAρ : A ≤ ρ := by
    have := mul_pos hε0 hρ0
    linarith
  have hApos : ρ / 2 ≤ A := by
    have h1 : ε ≤ 1 / 2 := hε1.trans (by norm_num)
    have := mul_le_mul_of_nonneg_right h1 hρ0.le
    linarith
  have hA0' : 0 < A := by linarith
  -- the first candidate
  have ha : mobiusScalarMul 0 k 0.5 (q • x) = (A / ρ) • x := by
    simp only [mobiusScalarMul]
    rw [hqmax, tanK_pos_curv hk, artanK_pos_curv hk, ← hsd]
    have e : 0.5 * (s⁻¹ * Real.arctan (q * nrm x * s)) * s = 0.5 * Real.arctan (q * nrm x * s) := by
      field_simp
    rw [e, min_eq_left harc, ← hA, smul_smul, smul_smul]
    congr 1
    rw [hρ]
    field_simp
  refine ⟨A / ρ, ?_, ?_, ?_⟩
  · simp only [weightedMidpoint, Bool.false_eq_true, false_and, if_false, if_pos hk0]
    rw [← hγ, htwo, ha, if_neg]
    rw [not_lt]
    refine Finset.sum_le_sum fun j _ => ?_
    have hna : nrm ((A / ρ) • x) = A / s := by
      rw [nrm_smul, abs_of_pos (by positivity), hρ]; field_simp
    have hT0 := tan_piLit_ge
    have hT1 := tan_piLit_le
    set T := Real.tan (piLit / 2) with hT
    have hT' : 0 < T := lt_of_lt_of_le (by norm_num) hT0
    have hAT : k * nrm ((A / ρ) • x) * (T / s) = A * T := by
      rw [hna, ← hs2]; field_simp
    have hA3 : 5e-7 ≤ A := by
      have : (5e-7 : ℝ) = 1e-6 / 2 := by norm_num
      linarith
    have hATge : 2e9 ≤ A * T := by
      calc (2e9 : ℝ) = 5e-7 * 4e15 := by norm_num
        _ ≤ A * T := by gcongr
    have n2 : (2e9 : ℝ) > 2 := by norm_num
    have hb : antipode 0 k ((A / ρ) • x) = ((A + T) / (1 - A * T) / ρ) • x := by
      have hr := antipode_ray (le_refl (0:ℝ)) hk (x := (A / ρ) • x) ?_ ?_
      · rw [hr, ← hT, ← hsd, hAT, hna, smul_smul]
        congr 1
        have : 1 - A * T ≠ 0 := by linarith
        field_simp
      · rw [nrm_smul, abs_of_pos (by positivity)]
        have h1 : 1 / 2 ≤ A / ρ := by rw [le_div_iff₀ hρ0]; linarith
        linarith [mul_le_mul h1 hxa (by norm_num) (by positivity),
          show (1:ℝ) / 2 * 2e-15 = 1e-15 by norm_num]
      · rw [← hT, ← hsd, hAT]
        nlinarith [show (1e-15 : ℝ) < 1 by norm_num]
    rw [hb, dist_ray (le_refl 0) hk, dist_ray (le_refl 0) hk, ← hsd, ← hρ]
    have key : ∀ P : ℝ, |1 - P / ρ| * |1 + k * (P / ρ * nrm x ^ 2)| /
        max ((1 + k * (P / ρ * nrm x ^ 2)) ^ 2) 1e-15 * ρ =
        |ρ - P| * |1 + ρ * P| / max ((1 + ρ * P) ^ 2) 1e-15 := by
      intro P
      have e1 : k * (P / ρ * nrm x ^ 2) = ρ * P := by
        rw [← hs2, hρ]; field_simp
      have e2 : |ρ - P| = |1 - P / ρ| * ρ := by
        rw [← abs_of_pos hρ0, ← abs_mul, abs_of_pos hρ0]; congr 1; field_simp
      rw [e1, e2]; ring
    rw [key, key]
    refine mul_le_mul_of_nonneg_left (mul_le_mul_of_nonneg_left
      (Real.arctan_strictMono.monotone ?_) (inv_nonneg.2 hs.le)) zero_le_two
    rw [abs_of_nonneg (show (0:ℝ) ≤ ρ - A by linarith),
      abs_of_pos (show (0:ℝ) < 1 + ρ * A by positivity)]
    exact north_scalar hT0 hT1 hx0 hx1 hε0 hε1 L0 hAρ
  · rw [le_div_iff₀ hρ0]; exact L0
  · rw [div_le_one hρ0]; exact hAρ

/-- ratio of the distances from a point to the two candidates, lower hemisphere -/
lemma south_scalar {A T ρ ε : ℝ} (hT0 : 4e15 ≤ T) (hρ1 : 1 ≤ ρ) (hρ2 : ρ ≤ 1e6)
    (hε0 : 1e-28 ≤ ε) (hε1 : ε ≤ 1e-10) (hA0 : 1 - ε ≤ ρ * A) (hA1 : ρ * A ≤ 1 - ε / 2) (hA : 0 < A) :
    |ρ - (A + T) / (A * T - 1)| * |1 + ρ * ((A + T) / (A * T - 1))| /
        max ((1 + ρ * ((A + T) / (A * T - 1))) ^ 2) 1e-15 <
      |ρ + A| * |1 + ρ * -A| / max ((1 + ρ * -A) ^ 2) 1e-15 ∧
    1 ≤ (A + T) / (A * T - 1) / ρ ∧ (A + T) / (A * T - 1) / ρ ≤ 1 + 2 * ε + 1e-15 * ρ := by
  have n1 : (1e-10 : ℝ) ≤ 1 / 4 := by norm_num
  have hρ0 : 0 < ρ := by linarith
  have hT : 0 < T := lt_of_lt_of_le (by norm_num) hT0
  have hε : 0 < ε := lt_of_lt_of_le (by norm_num) hε0
  have hAle : A ≤ 1 := by nlinarith
  have hAT : 4e8 ≤ A * T := by
    have h1 : (1:ℝ) / 2 ≤ 1e6 * A := by nlinarith
    have h2 : 1e-7 ≤ A := by norm_num at *; linarith
    calc (4e8 : ℝ) = 1e-7 * 4e15 := by norm_num
      _ ≤ A * T := by gcongr
  have hq : 0 < A * T - 1 := by linarith [show (4e8 : ℝ) > 1 by norm_num]
  have hρT : ρ * 4e9 ≤ T := by
    calc ρ * 4e9 ≤ 1e6 * 4e9 := by gcongr
      _ = 4e15 := by norm_num
      _ ≤ T := hT0
  set β := (A + T) / (A * T - 1) with hβ
  have hβ0 : 0 < β := by positivity
  have e1 : β - ρ = ((1 - ρ * A) * T + ρ + A) / (A * T - 1) := by rw [hβ]; field_simp; ring
  have e2 : 1 + ρ * β = (A * T - 1 + ρ * A + ρ * T) / (A * T - 1) := by rw [hβ]; field_simp; ring
  have hw0 : 0 < 1 - ρ * A := by linarith
  have hb : 0 < β - ρ := by rw [e1]; positivity
  have hb1 : 1 ≤ 1 + ρ * β := by nlinarith [mul_pos hρ0 hβ0]
  refine ⟨?_, ?_, ?_⟩
  · have hl : |ρ - β| * |1 + ρ * β| / max ((1 + ρ * β) ^ 2) 1e-15 ≤ ε + 5e-16 := by
      rw [abs_sub_comm, abs_of_pos hb, abs_of_pos (by linarith : 0 < 1 + ρ * β),
        max_eq_left (by nlinarith [show (1e-15 : ℝ) < 1 by norm_num]), sq, mul_div_mul_right _ _ (by linarith),
        e1, e2, div_div_div_cancel_right₀ hq.ne']
      have hd : 0 < A * T - 1 + ρ * A + ρ * T := by positivity
      rw [div_le_iff₀ hd]
      have h1 : (1 - ρ * A) * T ≤ ε * (ρ * T) := by
        have : 1 - ρ * A ≤ ε * ρ := by nlinarith
        nlinarith
      have h2 : ρ + A ≤ 5e-16 * (ρ * T) := by
        have h3 : (2:ℝ) ≤ 5e-16 * T := by
          calc (2:ℝ) = 5e-16 * 4e15 := by norm_num
            _ ≤ _ := by gcongr
        nlinarith
      have h4 : (ε + 5e-16) * (ρ * T) ≤ (ε + 5e-16) * (A * T - 1 + ρ * A + ρ * T) := by
        gcongr
        have : 0 < ρ * A := by positivity
        linarith
      linarith
    refine lt_of_le_of_lt hl ?_
    rw [abs_of_pos (by linarith : 0 < ρ + A), show 1 + ρ * -A = 1 - ρ * A by ring, abs_of_pos hw0,
      max_eq_right, lt_div_iff₀ (by norm_num)]
    · have h1 : ε / 2 ≤ (ρ + A) * (1 - ρ * A) := by nlinarith
      have h2 : (ε + 5e-16) * 1e-15 < ε / 2 := by norm_num at *; linarith
      linarith
    · have : (1 - ρ * A) ^ 2 ≤ (1e-10) ^ 2 := by
        apply pow_le_pow_left₀ hw0.le; linarith
      exact this.trans (by norm_num)
  · rw [le_div_iff₀ hρ0]; linarith
  · have h1 : β / ρ - 1 = ((1 - ρ * A) * T + ρ + A) / (ρ * A * T - ρ) := by
      rw [show β / ρ - 1 = (β - ρ) / ρ by field_simp, e1, div_div]; congr 1; ring
    have h2 : T / 2 ≤ ρ * A * T - ρ := by
      have h3 : 3 / 4 * T ≤ ρ * A * T := by gcongr; linarith
      norm_num at hρT
      linarith
    have h3 : ((1 - ρ * A) * T + ρ + A) / (ρ * A * T - ρ) ≤ (ε * T + 2 * ρ) / (T / 2) := by
      have h5 : (1 - ρ * A) * T ≤ ε * T := by gcongr; linarith
      have h6 : (1 - ρ * A) * T + ρ + A ≤ ε * T + 2 * ρ := by linarith
      exact div_le_div₀ (by positivity) h6 (by positivity) h2
    have h4 : (ε * T + 2 * ρ) / (T / 2) ≤ 2 * ε + 1e-15 * ρ := by
      rw [div_le_iff₀ (by positivity)]
      have : ρ * (4 : ℝ) ≤ 1e-15 * ρ * T := by
        have h5 : (4 : ℝ) ≤ 1e-15 * T := by
          calc (4 : ℝ) = 1e-15 * 4e15 := by norm_num
            _ ≤ _ := by gcongr
        nlinarith
      linarith
    linarith

set_option maxHeartbeats 1000000 in
/-- Copies of one point `x` of the lower hemisphere (`1 < √k‖x‖ ≤ 1e6`), total weight between `1`
and `1e18`: the midpoint is `c • x` with `1 ≤ c ≤ 1 + 2e-10/W + 1e-15·√k‖x‖`.  Here the formula
yields the antipode and the comparison of distances has to correct it. -/
theorem C16_copies_south_partial {m : ℕ} {k : ℝ} (hk : 1e-8 < k) {x : Vec n} (w : Fin m → ℝ)
    (hm : 0 < m) (hx0 : 1 < nrm x * Real.sqrt k) (hx1 : nrm x * Real.sqrt k ≤ 1e6)
    (hxa : k * nrm x ≤ 1e14) (hW : 1 ≤ ∑ j, w j) (hW1 : ∑ j, w j ≤ 1e18) :
    ∃ c : ℝ, weightedMidpoint 0 k (fun _ => x) w false false = c • x ∧
      1 ≤ c ∧ c ≤ 1 + 2 * (1e-10 / ∑ j, w j) + 1e-15 * (nrm x * Real.sqrt k) := by
  have hk0 : 0 < k := by have := e8; linarith
  have h10 : (0:ℝ) < 1e-10 := by norm_num
  have hs := kSqrt_pos (le_refl (0:ℝ)) hk0.ne'
  have hs2 := kSqrt_sq (le_refl (0:ℝ)) k
  have es : kSqrt 0 k = Real.sqrt k := by simp [kSqrt, sabs, abs_of_pos hk0]
  rw [← es] at hx0 hx1 ⊢
  rw [abs_of_pos hk0, add_zero] at hs2
  have ha0 : 0 < nrm x := by
    rcases (nrm_nonneg x).lt_or_eq with h | h
    · exact h
    · rw [← h, zero_mul] at hx0; linarith
  set W := ∑ j, w j with hWd
  have hW0 : 0 < W := by linarith
  set s := kSqrt 0 k with hsd
  set ρ := nrm x * s with hρ
  have hρ0 : 0 < ρ := by positivity
  have hkx : k * (x ⬝ᵥ x) = ρ ^ 2 := by
    rw [hρ, mul_pow, nrm_sq, hs2]; ring
  have hlam : lambdaX k x = 2 / (1 + ρ ^ 2) := by
    rw [lambdaX, hkx, max_eq_left]
    nlinarith [show (1e-15:ℝ) ≤ 1 by norm_num]
  set γ := lambdaX k x with hγ
  have hγ1 : γ - 1 = -((ρ ^ 2 - 1) / (1 + ρ ^ 2)) := by rw [hlam]; field_simp; ring
  have hρ2 : 0 < ρ ^ 2 - 1 := by nlinarith
  have hγ0 : γ - 1 < 0 := by
    rw [hγ1, neg_lt_zero]; positivity
  set E := (1 - γ) * W + 1e-10 with hE
  have hEpos : 0 < E := by
    have : 0 < 1 - γ := by linarith
    positivity
  have hclamp : clampAbs 1e-10 ((γ - 1) * W) = -E := by
    have : (γ - 1) * W < 0 := mul_neg_of_neg_of_pos hγ0 hW0
    rw [clampAbs, usign_of_neg this, sabs, abs_of_neg this, hE]; ring
  have hγp : 0 < γ := by rw [hlam]; positivity
  set q := γ * W / E with hq
  have hq0 : 0 < q := by positivity
  have htwo : (clampAbs 1e-10 (∑ j : Fin m, (γ - 1) * w j))⁻¹ • ∑ j : Fin m, (γ * w j) • x =
      (-q) • x := by
    rw [← Finset.mul_sum, ← hWd, hclamp, ← Finset.sum_smul, ← Finset.mul_sum, ← hWd, smul_smul]
    congr 1
    rw [hq, inv_mul_eq_div, div_neg]
  set ε := 1e-10 / W with hε
  have hε0 : 0 < ε := by positivity
  have hε1 : ε ≤ 1e-10 := by rw [hε]; exact div_le_self h10.le hW
  have hε2 : 1e-28 ≤ ε := by
    rw [hε, le_div_iff₀ hW0]
    calc (1e-28 : ℝ) * W ≤ 1e-28 * 1e18 := by gcongr
      _ = 1e-10 := by norm_num
  have hD : 0 < ρ ^ 2 - 1 + ε * (1 + ρ ^ 2) := by positivity
  have hq1 : q * (ρ ^ 2 - 1 + ε * (1 + ρ ^ 2)) = 2 := by
    have e1 : E = W * (ρ ^ 2 - 1 + ε * (1 + ρ ^ 2)) / (1 + ρ ^ 2) := by
      rw [hE, show 1 - γ = (ρ ^ 2 - 1) / (1 + ρ ^ 2) by linarith, hε]; field_simp
    rw [hq, e1, hlam]
    generalize ρ ^ 2 - 1 + ε * (1 + ρ ^ 2) = D at hD
    field_simp
  have hkn : ρ ^ 2 = k * nrm x * nrm x := by rw [← hkx, ← nrm_sq]; ring
  have hqge : 1e-15 ≤ q * nrm x := by
    have h1 : ρ ^ 2 - 1 + ε * (1 + ρ ^ 2) ≤ 2 * ρ ^ 2 := by
      have : ε ≤ 1 / 2 := hε1.trans (by norm_num)
      nlinarith
    have h2 : 2 ≤ q * (2 * ρ ^ 2) := hq1.symm.le.trans (by gcongr)
    have h3 : q * ρ ^ 2 ≤ q * nrm x * 1e14 := by
      rw [hkn]
      have := mul_le_mul_of_nonneg_left hxa (mul_nonneg hq0.le ha0.le)
      linarith
    norm_num at *
    linarith
  have hqn : nrm ((-q) • x) = q * nrm x := by rw [nrm_smul, abs_neg, abs_of_pos hq0]
  have hqmax : max (nrm ((-q) • x)) 1e-15 = q * nrm x := by
    rw [hqn, max_eq_left hqge]
  have hz0 : 0 ≤ q * nrm x * s := by positivity
  obtain ⟨A0, A1, A2⟩ := half_arctan hz0
  have harc : (0.5 : ℝ) * Real.arctan (q * nrm x * s) ≤ 1e38 := by
    have := Real.arctan_lt_pi_div_two (q * nrm x * s)
    have := Real.pi_lt_four
    norm_num at *
    linarith
  set A := Real.tan (0.5 * Real.arctan (q * nrm x * s)) with hA
  have hAeq : 2 * A * (1 - (ρ⁻¹) ^ 2 + ε * (1 + (ρ⁻¹) ^ 2)) = 2 * ρ⁻¹ * (1 - A ^ 2) := by
    rw [A2, show q * nrm x * s = q * ρ by rw [hρ]; ring]
    have e : 1 - (ρ⁻¹) ^ 2 + ε * (1 + (ρ⁻¹) ^ 2) = (ρ ^ 2 - 1 + ε * (1 + ρ ^ 2)) * (ρ⁻¹ * ρ⁻¹) := by
      field_simp
      ring
    have e3 : ρ * ρ⁻¹ = 1 := mul_inv_cancel₀ hρ0.ne'
    rw [e]
    linear_combination (1 - A ^ 2) * ρ⁻¹ * hq1 + q * (1 - A ^ 2) * ρ⁻¹ * (ρ ^ 2 - 1 + ε * (1 + ρ ^ 2)) * e3
  obtain ⟨L0, L1⟩ := mid_lower A0 A1 (inv_pos.2 hρ0) (inv_le_one_of_one_le₀ hx0.le) hε0
    (by linarith [show (1e-10:ℝ) ≤ 1 by norm_num]) hAeq
  have M0 : 1 - ε ≤ ρ * A := by
    rw [← div_eq_mul_inv, div_le_iff₀ hρ0] at L0; linarith
  have M1 : ρ * A ≤ 1 - ε / 2 := by
    rw [← div_eq_mul_inv, le_div_iff₀ hρ0] at L1; linarith
  have hρA : 1 / 2 ≤ ρ * A := by linarith [hε1.trans (show (1e-10 : ℝ) ≤ 1 / 2 by norm_num)]
  have hA0' : 0 < A := by
    rcases A0.lt_or_eq with h | h
    · exact h
    · rw [← h] at hρA; norm_num at hρA
  have ha : mobiusScalarMul 0 k 0.5 ((-q) • x) = (-A / ρ) • x := by
    simp only [mobiusScalarMul]
    rw [hqmax, tanK_pos_curv hk, artanK_pos_curv hk, ← hsd]
    have e : 0.5 * (s⁻¹ * Real.arctan (q * nrm x * s)) * s = 0.5 * Real.arctan (q * nrm x * s) := by
      field_simp
    rw [e, min_eq_left harc, ← hA, smul_smul, smul_smul]
    congr 1
    rw [hρ]
    field_simp
  have hna : nrm ((-A / ρ) • x) = A / s := by
    rw [nrm_smul, neg_div, abs_neg, abs_of_pos (by positivity), hρ]; field_simp
  have hT0 := tan_piLit_ge
  set T := Real.tan (piLit / 2) with hT
  have hT' : 0 < T := lt_of_lt_of_le (by norm_num) hT0
  have hAT : k * nrm ((-A / ρ) • x) * (T / s) = A * T := by
    rw [hna, ← hs2]; field_simp
  have hATge : 2 ≤ A * T := by
    have h1 : (1:ℝ) / 2 ≤ 1e6 * A := hρA.trans (by gcongr)
    have h2 : 1e-7 ≤ A := by norm_num at *; linarith
    calc (2 : ℝ) ≤ 1e-7 * 4e15 := by norm_num
      _ ≤ A * T := by gcongr
  have hb : antipode 0 k ((-A / ρ) • x) = ((A + T) / (A * T - 1) / ρ) • x := by
    have hr := antipode_ray (le_refl (0:ℝ)) hk (x := (-A / ρ) • x) ?_ ?_
    · rw [hr, ← hT, ← hsd, hAT, hna, smul_smul]
      congr 1
      have h1 : 1 - A * T ≠ 0 := by linarith
      have h2 : A * T - 1 ≠ 0 := by linarith
      rw [show A * T - 1 = -(1 - A * T) by ring]
      field_simp
    · rw [hna, le_div_iff₀ hs]
      have h3 : ρ * s ≤ 1e14 := by rw [hρ]; nlinarith
      have h4 : 1e-15 * s * ρ ≤ A * ρ := by
        have : (1e-15 : ℝ) * 1e14 ≤ 1 / 2 := by norm_num
        nlinarith
      exact le_of_mul_le_mul_right h4 hρ0
    · rw [← hT, ← hsd, hAT]
      nlinarith [show (1e-15 : ℝ) < 1 by norm_num]
  obtain ⟨S0, S1, S2⟩ := south_scalar hT0 hx0.le hx1 hε2 hε1 M0 M1 hA0'
  refine ⟨(A + T) / (A * T - 1) / ρ, ?_, S1, S2⟩
  simp only [weightedMidpoint, Bool.false_eq_true, false_and, if_false, if_pos hk0]
  rw [← hγ, htwo, ha, if_pos, hb]
  haveI : Nonempty (Fin m) := ⟨⟨0, hm⟩⟩
  refine Finset.sum_lt_sum_of_nonempty Finset.univ_nonempty fun j _ => ?_
  rw [hb, dist_ray (le_refl 0) hk, dist_ray (le_refl 0) hk, ← hsd, ← hρ]
  have key : ∀ P : ℝ, |1 - P / ρ| * |1 + k * (P / ρ * nrm x ^ 2)| /
      max ((1 + k * (P / ρ * nrm x ^ 2)) ^ 2) 1e-15 * ρ =
      |ρ - P| * |1 + ρ * P| / max ((1 + ρ * P) ^ 2) 1e-15 := by
    intro P
    have e1 : k * (P / ρ * nrm x ^ 2) = ρ * P := by
      rw [← hs2, hρ]; field_simp
    have e2 : |ρ - P| = |1 - P / ρ| * ρ := by
      rw [← abs_of_pos hρ0, ← abs_mul, abs_of_pos hρ0]; congr 1; field_simp
    rw [e1, e2]; ring
  rw [key, key, sub_neg_eq_add]
  exact mul_lt_mul_of_pos_left (mul_lt_mul_of_pos_left
    (Real.arctan_strictMono S0) (inv_pos.2 hs)) two_pos

/-- Both theorems apply, for instance, to three copies of a unit vector and of its double. -/
example {x : Vec n} (hx : x ⬝ᵥ x = 1) :
    (∃ c : ℝ, weightedMidpoint 0 1 (fun _ : Fin 3 => x) (fun _ => 1) false false = c • x ∧
      1 - 1e-10 / 3 ≤ c ∧ c ≤ 1) ∧
    ∃ c : ℝ, weightedMidpoint 0 1 (fun _ : Fin 3 => (2:ℝ) • x) (fun _ => 1) false false =
      c • ((2:ℝ) • x) ∧ 1 ≤ c ∧ c ≤ 1 + 1e-9 := by
  have hn : nrm x = 1 := nrm_eq_of_dot_eq one_pos.le (by rw [hx]; norm_num)
  have hn2 : nrm ((2:ℝ) • x) = 2 := by rw [nrm_smul, hn]; norm_num
  have hw : ∑ _j : Fin 3, (1:ℝ) = 3 := by simp
  constructor
  · have := C16_copies_north_partial (n := n) (k := 1) (by norm_num) (x := x) (fun _ : Fin 3 => 1)
      (by rw [hn]; norm_num) (by rw [hn]; norm_num) (by rw [hn]; norm_num) (by rw [hw]; norm_num)
    rwa [hw] at this
  · obtain ⟨c, h1, h2, h3⟩ := C16_copies_south_partial (n := n) (k := 1) (by norm_num)
      (x := (2:ℝ) • x) (fun _ : Fin 3 => 1) (by norm_num)
      (by rw [hn2]; norm_num) (by rw [hn2]; norm_num) (by rw [hn2]; norm_num) (by rw [hw]; norm_num)
      (by rw [hw]; norm_num)
    refine ⟨c, h1, h2, h3.trans ?_⟩
    rw [hw, hn2]; norm_num

lemma arctan_le_self' {t : ℝ} (h : 0 ≤ t) : Real.arctan t ≤ t := by
  have := Real.le_tan (Real.arctan_nonneg.2 h) (Real.arctan_lt_pi_div_two t)
  rwa [Real.tan_arctan] at this

lemma dist_zero_pos {η k : ℝ} (hk : 1e-8 < k) (a : Vec n) :
    dist η k a 0 = 2 * ((kSqrt η k)⁻¹ * Real.arctan (nrm a * kSqrt η k)) := by
  have e : mobiusAdd k (-a) (0 : Vec n) = -a := by
    have : mobDenom k (-a) (0 : Vec n) = 1 := by unfold mobDenom; simp
    rw [mobiusAdd, this, max_eq_left (by norm_num)]
    simp
  rw [dist, e, nrm_neg, artanK_pos_curv hk]
  norm_num

set_option maxHeartbeats 1000000 in
/-- The choice between the two antipodal candidates does not use the weights (lines 1982-1989).  On
the unit sphere, the point `x` with `‖x‖ = 10` has weight 100, the origin twice weight 1: the result
is almost antipodal to `x`, although the other candidate is close to `x`. -/
theorem C16_counterexample_weights {η : ℝ} (hη : 0 ≤ η) (hη1 : η ≤ 1e-6) {x : Vec n}
    (hx : x ⬝ᵥ x = 100) :
    let p := weightedMidpoint η 1 ![x, 0, 0] ![100, 1, 1] false false
    2 < dist η 1 p x ∧ dist η 1 (antipode η 1 p) x < 0.1 := by
  have hk : (1e-8 : ℝ) < 1 := by norm_num
  have hn : nrm x = 10 := nrm_eq_of_dot_eq (by norm_num) (by rw [hx]; norm_num)
  have hs := kSqrt_pos hη (one_ne_zero (α := ℝ))
  have hs2 := kSqrt_sq hη 1
  rw [abs_one] at hs2
  set s := kSqrt η 1 with hsd
  have hs1 : 1 ≤ s := by nlinarith
  have hs3 : s ≤ 1.00001 := by norm_num at *; nlinarith
  have hpi := Real.pi_gt_three
  have hpi2 := Real.pi_lt_d2
  set q : ℝ := 200 / 101 / (9698 / 101 + 1e-10) with hq
  have hq0 : 0.02062 ≤ q := by rw [hq]; norm_num
  have hq1 : q ≤ 0.020625 := by rw [hq]; norm_num
  have hqp : 0 < q := lt_of_lt_of_le (by norm_num) hq0
  set z := 10 * q * s with hz
  have hz0 : 0.2062 ≤ z := by norm_num at *; nlinarith
  have hz1 : z ≤ 0.2063 := by norm_num at *; nlinarith
  obtain ⟨A0, A1, A2⟩ := half_arctan (z := z) (by positivity)
  have harc : (0.5 : ℝ) * Real.arctan z ≤ 1e38 := by
    have := Real.arctan_lt_pi_div_two z
    norm_num at *
    linarith
  set A := Real.tan (0.5 * Real.arctan z) with hA
  have hA1 : A ≤ 0.10315 := by norm_num at *; nlinarith
  have hA0 : 0.102 ≤ A := by
    have h1 : A ^ 2 ≤ 0.10315 ^ 2 := pow_le_pow_left₀ A0 hA1 2
    norm_num at *
    nlinarith
  have hAp : 0 < A := lt_of_lt_of_le (by norm_num) hA0
  have hl : lambdaX 1 x = 2 / 101 := by
    rw [lambdaX, hx]; norm_num
  have hl0 : lambdaX 1 (0 : Vec n) = 2 := by rw [lambdaX]; simp; norm_num
  -- the first candidate
  have htwo : (clampAbs 1e-10 (∑ j, (lambdaX 1 ((![x, 0, 0] : Fin 3 → Vec n) j) - 1) *
      (![100, 1, 1] : Fin 3 → ℝ) j))⁻¹ • ∑ j, (lambdaX 1 ((![x, 0, 0] : Fin 3 → Vec n) j) *
        (![100, 1, 1] : Fin 3 → ℝ) j) • (![x, 0, 0] : Fin 3 → Vec n) j = (-q) • x := by
    have e1 : ∑ j, (lambdaX 1 ((![x, 0, 0] : Fin 3 → Vec n) j) - 1) *
      (![100, 1, 1] : Fin 3 → ℝ) j = -(9698 / 101) := by
      rw [Fin.sum_univ_three]
      simp [hl, hl0]; norm_num
    have e2 : ∑ j, (lambdaX 1 ((![x, 0, 0] : Fin 3 → Vec n) j) *
        (![100, 1, 1] : Fin 3 → ℝ) j) • (![x, 0, 0] : Fin 3 → Vec n) j = (200 / 101 : ℝ) • x := by
      rw [Fin.sum_univ_three]
      simp [hl, hl0]; norm_num
    have e3 : clampAbs 1e-10 (-(9698 / 101 : ℝ)) = -(9698 / 101 + 1e-10) := by
      rw [clampAbs, usign_of_neg (by norm_num), sabs, abs_of_neg (by norm_num)]; ring
    rw [e1, e2, e3, smul_smul]
    congr 1
    rw [hq]; norm_num
  have hqn : max (nrm ((-q) • x)) 1e-15 = 10 * q := by
    rw [nrm_smul, abs_neg, abs_of_pos hqp, hn, max_eq_left]
    · ring
    · norm_num at *
  set c := A / (10 * s) with hc
  have hc0 : 0 < c := by positivity
  have ha : mobiusScalarMul η 1 0.5 ((-q) • x) = (-c) • x := by
    simp only [mobiusScalarMul]
    rw [hqn, tanK_pos_curv hk, artanK_pos_curv hk, ← hsd]
    have e : 0.5 * (s⁻¹ * Real.arctan (10 * q * s)) * s = 0.5 * Real.arctan z := by
      rw [hz]; field_simp
    rw [e, min_eq_left harc, ← hA, smul_smul, smul_smul]
    congr 1
    rw [hc]
    field_simp
  have hna : nrm ((-c) • x) = A / s := by
    rw [nrm_smul, abs_neg, abs_of_pos hc0, hn, hc]; field_simp
  have hAs0 : 0.1019 ≤ A / s := by rw [le_div_iff₀ hs]; norm_num at *; nlinarith
  have hAs1 : A / s ≤ 0.10315 := by rw [div_le_iff₀ hs]; nlinarith
  have hT0 := tan_piLit_ge
  -- the second candidate
  set T := Real.tan (piLit / 2) with hT
  have hT' : 0 < T := lt_of_lt_of_le (by norm_num) hT0
  set t := T / s with ht
  have ht0 : 1e15 ≤ t := by
    rw [ht, le_div_iff₀ hs]
    calc (1e15 : ℝ) * s ≤ 1e15 * 1.00001 := by gcongr
      _ ≤ 4e15 := by norm_num
      _ ≤ T := hT0
  have htp : 0 < t := lt_of_lt_of_le (by norm_num) ht0
  set r := A / s with hr
  have hr0 : 0 < r := lt_of_lt_of_le (by norm_num) hAs0
  have hrt : 1e14 ≤ r * t := by
    calc (1e14 : ℝ) ≤ 0.1019 * 1e15 := by norm_num
      _ ≤ r * t := by gcongr
  have hd : 0 < r * t - 1 := by linarith [show (1e14 : ℝ) > 1 by norm_num]
  set P := (r + t) / (r * t - 1) / 10 with hP
  have hb : antipode η 1 ((-c) • x) = P • x := by
    have h := antipode_ray hη hk (x := (-c) • x) ?_ ?_
    · rw [h, ← hT, ← hsd, ← ht, hna, smul_smul]
      congr 1
      have h1 : 1 - r * t ≠ 0 := by linarith
      have h2 : r * t - 1 ≠ 0 := hd.ne'
      have h3 : c = r / 10 := by rw [hc, hr]; field_simp
      rw [hP, h3, one_mul, show r * t - 1 = -(1 - r * t) by ring]
      field_simp
    · rw [hna]; exact le_trans (by norm_num) hAs0
    · rw [← hT, ← hsd, ← ht, hna, one_mul]
      have : (1e14 : ℝ) - 1 ≤ r * t - 1 := by linarith
      nlinarith [show (1e-15 : ℝ) < 1 by norm_num, show (1e14 : ℝ) > 2 by norm_num]
  have hP0 : 0.9 ≤ P := by
    rw [hP, le_div_iff₀ (by norm_num), le_div_iff₀ hd]
    have : r * t ≤ 0.10315 * t := by gcongr
    norm_num at *
    linarith
  have hP1 : P ≤ 1 := by
    rw [hP, div_le_iff₀ (by norm_num), div_le_iff₀ hd]
    have : 0.1019 * t ≤ r * t := by gcongr
    norm_num at *
    linarith
  have hpi3 : Real.arctan (Real.sqrt 3) = Real.pi / 3 := by
    rw [← Real.tan_pi_div_three, Real.arctan_tan] <;> linarith
  have h3 : Real.sqrt 3 ≤ 2 := by
    rw [Real.sqrt_le_left (by norm_num)]; norm_num
  have hmid : weightedMidpoint η 1 ![x, 0, 0] ![100, 1, 1] false false = (-c) • x := by
    simp only [weightedMidpoint, Bool.false_eq_true, false_and, if_false, if_pos one_pos]
    rw [htwo, ha, if_neg]
    rw [not_lt, Fin.sum_univ_three, Fin.sum_univ_three]
    simp only [Matrix.cons_val_zero, Matrix.cons_val_one, Matrix.cons_val_two, Matrix.cons_val,
      Matrix.head_cons, Matrix.tail_cons]
    rw [hb, dist_zero_pos hk, dist_zero_pos hk, dist_ray hη hk, dist_ray hη hk, ← hsd, hna]
    have g1 : Real.arctan (r * s) ≤ 0.11 := by
      refine (arctan_le_self' (by positivity)).trans ?_
      rw [hr, div_mul_cancel₀ _ hs.ne']; exact hA1.trans (by norm_num)
    have g2 : Real.pi / 3 ≤ Real.arctan (nrm (P • x) * s) := by
      rw [← hpi3]
      apply Real.arctan_strictMono.monotone
      rw [nrm_smul, abs_of_pos (lt_of_lt_of_le (by norm_num) hP0), hn]
      norm_num at *
      nlinarith
    generalize hu : |1 - -c| * |1 + 1 * (-c * nrm x ^ 2)| /
      max ((1 + 1 * (-c * nrm x ^ 2)) ^ 2) 1e-15 * (nrm x * s) = u
    have g3 := (Real.arctan_lt_pi_div_two u).le
    have g4 : 0 ≤ Real.arctan (|1 - P| * |1 + 1 * (P * nrm x ^ 2)| /
      max ((1 + 1 * (P * nrm x ^ 2)) ^ 2) 1e-15 * (nrm x * s)) := by
      apply Real.arctan_nonneg.2
      have : (0:ℝ) < max ((1 + 1 * (P * nrm x ^ 2)) ^ 2) 1e-15 := lt_max_of_lt_right (by norm_num)
      have := nrm_nonneg x
      positivity
    have hsi := inv_pos.2 hs
    rw [← mul_add, ← mul_add, ← mul_add, ← mul_add, ← mul_add, ← mul_add, ← mul_add, ← mul_add]
    refine mul_le_mul_of_nonneg_left (mul_le_mul_of_nonneg_left ?_ hsi.le) zero_le_two
    norm_num at g1 hpi2
    linarith
  simp only [hmid, hb]
  rw [dist_ray hη hk, dist_ray hη hk, ← hsd, hn]
  have hc1 : c * 100 = 10 * r := by rw [hc, hr]; field_simp; ring
  have hsi : s⁻¹ ≤ 1 := inv_le_one_of_one_le₀ hs1
  have hsi0 := inv_pos.2 hs
  have hsi2 : 0.9999 ≤ s⁻¹ := by
    rw [le_inv_comm₀ (by norm_num) hs]
    exact hs3.trans (by norm_num)
  constructor
  · have e : 1 + 1 * (-c * 10 ^ 2) = -(10 * r - 1) := by linarith
    have h5 : 0 < 10 * r - 1 := by norm_num at *; linarith
    rw [e, abs_neg, neg_sq, abs_of_pos h5, max_eq_left]
    · have h6 : Real.sqrt 3 ≤ |1 - -c| * (10 * r - 1) / (10 * r - 1) ^ 2 * (10 * s) := by
        rw [sub_neg_eq_add, abs_of_pos (by linarith), sq, mul_div_mul_right _ _ h5.ne',
          div_mul_eq_mul_div, le_div_iff₀ h5]
        have : 10 * r - 1 ≤ 1 := by norm_num at *; linarith
        nlinarith [Real.sqrt_nonneg 3]
      have h7 := Real.arctan_strictMono.monotone h6
      rw [hpi3] at h7
      have : 1.0001 ≤ Real.pi / 3 := by
        have := Real.pi_gt_d2
        norm_num at *; linarith
      have h8 : (0.9999 : ℝ) * 1.03 ≤ s⁻¹ * Real.arctan
          (|1 - -c| * (10 * r - 1) / (10 * r - 1) ^ 2 * (10 * s)) := by
        apply mul_le_mul hsi2 _ (by norm_num) hsi0.le
        have := Real.pi_gt_d2
        norm_num at *; linarith
      norm_num at h8 ⊢
      linarith
    · have : (0.019 : ℝ) ≤ 10 * r - 1 := by norm_num at *; linarith
      calc (1e-15 : ℝ) ≤ 0.019 ^ 2 := by norm_num
        _ ≤ _ := pow_le_pow_left₀ (by norm_num) this 2
  · have h5 : 90 ≤ 1 + 1 * (P * 10 ^ 2) := by norm_num at *; linarith
    have h6 : 0 < 1 + 1 * (P * 10 ^ 2) := by linarith
    rw [abs_of_pos h6, max_eq_left (by nlinarith [show (1e-15 : ℝ) < 1 by norm_num]), sq (1 + _),
      mul_div_mul_right _ _ h6.ne', abs_of_nonneg (by linarith : 0 ≤ 1 - P)]
    have h7 : (1 - P) / (1 + 1 * (P * 10 ^ 2)) * (10 * s) ≤ 0.02 := by
      rw [div_mul_eq_mul_div, div_le_iff₀ h6]
      norm_num at *
      nlinarith
    have h8 : 0 ≤ (1 - P) / (1 + 1 * (P * 10 ^ 2)) * (10 * s) := by
      have : 0 ≤ 1 - P := by linarith
      positivity
    have h9 := (arctan_le_self' h8).trans h7
    have h10 := Real.arctan_nonneg.2 h8
    have : s⁻¹ * Real.arctan ((1 - P) / (1 + 1 * (P * 10 ^ 2)) * (10 * s)) ≤ 0.02 :=
      (mul_le_of_le_one_left h10 hsi).trans h9
    norm_num at this ⊢
    linarith

/-- the theorem applies to the regulariser of the code -/
example {x : Vec n} (hx : x ⬝ᵥ x = 100) :
    2 < dist codeEta 1 (weightedMidpoint codeEta 1 ![x, 0, 0] ![100, 1, 1] false false) x :=
  (C16_counterexample_weights codeEta_nonneg (by unfold codeEta; norm_num) hx).1

end Geoopt.Stereo
