import Verif.Spec.NearFlat
import Mathlib.Analysis.SpecialFunctions.Trigonometric.ArctanDeriv
import Mathlib.Analysis.SpecialFunctions.Trigonometric.Bounds
import Mathlib.Analysis.Calculus.Deriv.MeanValue
import Mathlib.Analysis.SpecialFunctions.Trigonometric.DerivHyp
import Mathlib.Analysis.Real.Pi.Bounds

/-! Helper lemmas: Taylor bounds for `tan`, `arctan`, `tanh`, `artanh`. -/

namespace Geoopt.NearFlat
open Set

theorem nonneg_of_deriv {f f' : ℝ → ℝ} {b : ℝ} (hb : 0 ≤ b)
    (h : ∀ y ∈ Icc 0 b, HasDerivAt f (f' y) y) (hn : ∀ y ∈ Icc 0 b, 0 ≤ f' y) (h0 : f 0 = 0) :
    0 ≤ f b := by
  have hm : MonotoneOn f (Icc 0 b) := by
    apply monotoneOn_of_deriv_nonneg (convex_Icc 0 b)
    · exact fun y hy => (h y hy).continuousAt.continuousWithinAt
    · exact fun y hy => (h y (interior_subset hy)).differentiableAt.differentiableWithinAt
    · intro y hy
      rw [(h y (interior_subset hy)).deriv]
      exact hn y (interior_subset hy)
  have := hm (left_mem_Icc.2 hb) (right_mem_Icc.2 hb) hb
  rwa [h0] at this

theorem pos_of_deriv {f f' : ℝ → ℝ} {b : ℝ} (hb : 0 < b)
    (h : ∀ y ∈ Icc 0 b, HasDerivAt f (f' y) y) (hn : ∀ y ∈ Ioo 0 b, 0 < f' y) (h0 : f 0 = 0) :
    0 < f b := by
  have hm : StrictMonoOn f (Icc 0 b) := by
    apply strictMonoOn_of_deriv_pos (convex_Icc 0 b)
    · exact fun y hy => (h y hy).continuousAt.continuousWithinAt
    · intro y hy
      rw [(h y (interior_subset hy)).deriv]
      rw [interior_Icc] at hy
      exact hn y hy
  have := hm (left_mem_Icc.2 hb.le) (right_mem_Icc.2 hb.le) hb
  rwa [h0] at this

/-! ### arctan -/

theorem arctan_taylor {y : ℝ} (hy : 0 ≤ y) :
    0 ≤ Real.arctan y - (y - y ^ 3 / 3) ∧ Real.arctan y - (y - y ^ 3 / 3) ≤ y ^ 5 / 5 := by
  have hd : ∀ z : ℝ, HasDerivAt (fun z => Real.arctan z - (z - z ^ 3 / 3))
      (1 / (1 + z ^ 2) - (1 - z ^ 2)) z := by
    intro z
    have h1 := Real.hasDerivAt_arctan z
    have h2 : HasDerivAt (fun z : ℝ => z - z ^ 3 / 3) (1 - z ^ 2) z := by
      have := (hasDerivAt_id z).fun_sub ((hasDerivAt_pow 3 z).div_const 3)
      refine this.congr_deriv ?_
      simp
    exact h1.fun_sub h2
  have hd5 : ∀ z : ℝ, HasDerivAt (fun z : ℝ => z ^ 5 / 5) (z ^ 4) z := by
    intro z
    refine ((hasDerivAt_pow 5 z).div_const 5).congr_deriv ?_
    simp
  have e : ∀ z : ℝ, 1 / (1 + z ^ 2) - (1 - z ^ 2) = z ^ 4 / (1 + z ^ 2) := by
    intro z
    have : (1 + z ^ 2) ≠ 0 := by positivity
    field_simp; ring
  constructor
  · refine nonneg_of_deriv (f := fun z => Real.arctan z - (z - z ^ 3 / 3)) hy (fun z _ => hd z)
      (fun z _ => ?_) (by simp)
    rw [e]; positivity
  · have := nonneg_of_deriv hy (fun z _ => (hd5 z).fun_sub (hd z)) (fun z _ => ?_) (by simp)
    · linarith
    · rw [e, sub_nonneg, div_le_iff₀ (by positivity)]
      have : 0 ≤ z ^ 4 * z ^ 2 := by positivity
      nlinarith

/-! ### tan -/

theorem tan_le_of_le_half {y : ℝ} (h0 : 0 ≤ y) (h1 : y ≤ 1 / 2) : Real.tan y ≤ 8 / 7 * y := by
  have hc : 7 / 8 ≤ Real.cos y := by
    have := Real.one_sub_sq_div_two_le_cos (x := y)
    nlinarith
  rw [Real.tan_eq_sin_div_cos, div_le_iff₀ (by linarith)]
  have := Real.sin_le h0
  nlinarith

theorem cos_ne {z : ℝ} (h0 : 0 ≤ z) (h1 : z ≤ 1 / 2) : Real.cos z ≠ 0 := by
  have := Real.one_sub_sq_div_two_le_cos (x := z)
  have : 0 < Real.cos z := by nlinarith
  exact this.ne'

theorem hasDerivAt_tan' {z : ℝ} (h0 : 0 ≤ z) (h1 : z ≤ 1 / 2) :
    HasDerivAt Real.tan (1 + Real.tan z ^ 2) z := by
  refine (Real.hasDerivAt_tan (cos_ne h0 h1)).congr_deriv ?_
  rw [Real.tan_eq_sin_div_cos]
  have := cos_ne h0 h1
  field_simp
  rw [add_comm, Real.sin_sq_add_cos_sq]

theorem tan_taylor {y : ℝ} (hy : 0 ≤ y) (hy1 : y ≤ 1 / 2) :
    0 ≤ Real.tan y - (y + y ^ 3 / 3) ∧ Real.tan y - (y + y ^ 3 / 3) ≤ y ^ 5 / 4 := by
  have hle : ∀ z ∈ Icc 0 y, z ≤ Real.tan z ∧ Real.tan z - z ≤ z ^ 3 / 2 := by
    intro z hz
    have hz1 : z ≤ 1 / 2 := hz.2.trans hy1
    constructor
    · have := nonneg_of_deriv (f := fun w => Real.tan w - w) hz.1
        (fun w hw => (hasDerivAt_tan' hw.1 (hw.2.trans hz1)).fun_sub (hasDerivAt_id w))
        (fun w hw => by simp; positivity) (by simp)
      linarith
    · have := nonneg_of_deriv (f := fun w => w ^ 3 / 2 - (Real.tan w - w)) hz.1
        (fun w hw => ((hasDerivAt_pow 3 w).div_const 2).fun_sub
          ((hasDerivAt_tan' hw.1 (hw.2.trans hz1)).fun_sub (hasDerivAt_id w)))
        (fun w hw => by
          have h1 := tan_le_of_le_half hw.1 (hw.2.trans hz1)
          have h2 : 0 ≤ Real.tan w :=
            Real.tan_nonneg_of_nonneg_of_le_pi_div_two hw.1
              (by linarith [Real.pi_gt_three, hw.2.trans hz1])
          have h3 : Real.tan w ^ 2 ≤ (8 / 7 * w) ^ 2 := by gcongr
          have : 0 ≤ w ^ 2 := by positivity
          simp
          nlinarith) (by simp)
      linarith
  have h3 : ∀ z : ℝ, HasDerivAt (fun z : ℝ => z + z ^ 3 / 3) (1 + z ^ 2) z := by
    intro z
    refine ((hasDerivAt_id z).fun_add ((hasDerivAt_pow 3 z).div_const 3)).congr_deriv ?_
    simp
  constructor
  · refine nonneg_of_deriv (f := fun z => Real.tan z - (z + z ^ 3 / 3)) hy
      (fun z hz => (hasDerivAt_tan' hz.1 (hz.2.trans hy1)).fun_sub (h3 z)) (fun z hz => ?_) (by simp)
    have := hle z hz
    nlinarith [hz.1]
  · have := nonneg_of_deriv (f := fun z => z ^ 5 / 4 - (Real.tan z - (z + z ^ 3 / 3))) hy
      (fun z hz => ((hasDerivAt_pow 5 z).div_const 4).fun_sub
        ((hasDerivAt_tan' hz.1 (hz.2.trans hy1)).fun_sub (h3 z))) (fun z hz => ?_) (by simp)
    · linarith
    · obtain ⟨a1, a2⟩ := hle z hz
      have a3 := tan_le_of_le_half hz.1 (hz.2.trans hy1)
      have e : (1 + Real.tan z ^ 2) - (1 + z ^ 2) = (Real.tan z - z) * (Real.tan z + z) := by ring
      have : (Real.tan z - z) * (Real.tan z + z) ≤ z ^ 3 / 2 * (15 / 7 * z) := by
        apply mul_le_mul a2 (by linarith) (by linarith [hz.1])
        have := hz.1; positivity
      rw [e]
      have : 0 ≤ z ^ 4 := by positivity
      simp
      nlinarith

/-! ### tanh and artanh -/

theorem hasDerivAt_tanh' (z : ℝ) : HasDerivAt Real.tanh (1 - Real.tanh z ^ 2) z := by
  have h : HasDerivAt (fun z => Real.sinh z / Real.cosh z) _ z :=
    (Real.hasDerivAt_sinh z).fun_div (Real.hasDerivAt_cosh z) (Real.cosh_pos z).ne'
  have e : Real.tanh = fun z => Real.sinh z / Real.cosh z := by
    funext z; exact Real.tanh_eq_sinh_div_cosh z
  rw [e]
  refine h.congr_deriv ?_
  have := (Real.cosh_pos z).ne'
  field_simp

theorem tanh_lt_self {y : ℝ} (hy : 0 < y) : Real.tanh y < y := by
  have := pos_of_deriv (f := fun z => z - Real.tanh z) hy
    (fun z _ => (hasDerivAt_id z).fun_sub (hasDerivAt_tanh' z)) (fun z hz => by
      have : 0 < Real.tanh z := by
        rw [Real.tanh_eq_sinh_div_cosh]
        exact div_pos (Real.sinh_pos_iff.2 hz.1) (Real.cosh_pos z)
      simp; positivity) (by simp)
  linarith

theorem tanh_ge {y : ℝ} (hy : 0 ≤ y) : y - y ^ 3 / 3 ≤ Real.tanh y := by
  have := nonneg_of_deriv (f := fun z => Real.tanh z - (z - z ^ 3 / 3)) hy
    (fun z _ => (hasDerivAt_tanh' z).fun_sub
      ((hasDerivAt_id z).fun_sub ((hasDerivAt_pow 3 z).div_const 3))) (fun z hz => by
      have h0 : 0 ≤ Real.tanh z := by
        rw [Real.tanh_eq_sinh_div_cosh]
        exact div_nonneg (Real.sinh_nonneg_iff.2 hz.1) (Real.cosh_pos z).le
      have h1 : Real.tanh z ≤ z := by
        rcases hz.1.eq_or_lt with h | h
        · rw [← h]; simp
        · exact (tanh_lt_self h).le
      have : Real.tanh z ^ 2 ≤ z ^ 2 := by gcongr
      simp; linarith) (by simp)
  linarith

theorem lt_artanh {y : ℝ} (hy : 0 < y) (h1 : y < 1) : y < Real.artanh y := by
  have hm : y ∈ Ioo (-1 : ℝ) 1 := ⟨by linarith, h1⟩
  have h2 := Real.tanh_artanh hm
  have h3 := Real.artanh_pos ⟨hy, h1⟩
  have := tanh_lt_self h3
  linarith

theorem artanh_le {y : ℝ} (hy : 0 ≤ y) (h1 : y ≤ 1 / 2) : Real.artanh y ≤ y + y ^ 3 / 2 := by
  have hm : y ∈ Ioo (-1 : ℝ) 1 := ⟨by linarith, by linarith⟩
  have hd : ∀ z ∈ Icc 0 y, HasDerivAt (fun z : ℝ => (Real.log (1 + z) - Real.log (1 - z)) / 2)
      ((1 / (1 + z) - (-1) / (1 - z)) / 2) z := by
    intro z hz
    have a1 : HasDerivAt (fun z : ℝ => 1 + z) 1 z := (hasDerivAt_id z).const_add 1
    have a2 : HasDerivAt (fun z : ℝ => 1 - z) (-1) z := (hasDerivAt_id z).const_sub 1
    exact ((a1.log (by linarith [hz.1])).fun_sub (a2.log (by linarith [hz.2]))).div_const 2
  have := nonneg_of_deriv
    (f := fun z => (z + z ^ 3 / 2) - (Real.log (1 + z) - Real.log (1 - z)) / 2) hy
    (fun z hz => ((hasDerivAt_id z).fun_add ((hasDerivAt_pow 3 z).div_const 2)).fun_sub (hd z hz))
    (fun z hz => by
      have b1 : (0 : ℝ) < 1 + z := by linarith [hz.1]
      have b2 : (0 : ℝ) < 1 - z := by linarith [hz.2]
      have e : (1 / (1 + z) - (-1) / (1 - z)) / 2 = 1 / ((1 + z) * (1 - z)) := by
        field_simp; ring
      rw [e, sub_nonneg, div_le_iff₀ (by positivity)]
      have hz1 : z ≤ 1 / 2 := hz.2.trans h1
      have h4 : z ^ 2 ≤ 1 / 4 := by nlinarith [hz.1]
      have : 0 ≤ z ^ 2 := by positivity
      simp
      nlinarith) (by simp)
  rw [Real.artanh_eq_half_log ⟨by linarith, by linarith⟩, Real.log_div (by linarith) (by linarith)]
  linarith

end Geoopt.NearFlat
