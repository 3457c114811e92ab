import Verif.Props.C15

/-!
# C16 weighted midpoint
-/

namespace Geoopt.Stereo
open Geoopt
variable {n : ℕ}

/-- The midpoint does not depend on the order of the points: all curvatures, all
flags. -/
theorem C16_order_irrelevant {m : ℕ} (η k : ℝ) (xs : Fin m → Vec n) (w : Fin m → ℝ)
    (lincomb posweight : Bool) (σ : Equiv.Perm (Fin m)) :
    weightedMidpoint η k (fun j => xs (σ j)) (fun j => w (σ j)) lincomb posweight =
      weightedMidpoint η k xs w lincomb posweight := by
  have hpos : (∃ j, w (σ j) < 0) ↔ ∃ j, w j < 0 :=
    ⟨fun ⟨j, h⟩ => ⟨_, h⟩, fun ⟨j, h⟩ => ⟨σ.symm j, by simpa using h⟩⟩
  by_cases hp : posweight = true ∧ ∃ j, w j < 0
  · have hp' : posweight = true ∧ ∃ j, w (σ j) < 0 := ⟨hp.1, hpos.2 hp.2⟩
    simp only [weightedMidpoint, if_pos hp, if_pos hp']
    rw [Equiv.sum_comp σ (fun j => (lambdaX k (xs j) - 1) * |w j|),
      Equiv.sum_comp σ (fun j => (lambdaX k (xs j) * |w j|) •
        (if w j < 0 then antipode η k (xs j) else xs j)),
      Equiv.sum_comp σ (fun j => |w j|)]
    have hs : ∀ b : Vec n, ∑ j, dist η k b (if w (σ j) < 0 then antipode η k (xs (σ j)) else xs (σ j)) =
        ∑ j, dist η k b (if w j < 0 then antipode η k (xs j) else xs j) := fun b =>
      Equiv.sum_comp σ (fun j => dist η k b (if w j < 0 then antipode η k (xs j) else xs j))
    simp only [hs]
  · have hp' : ¬ (posweight = true ∧ ∃ j, w (σ j) < 0) := fun h => hp ⟨h.1, hpos.1 h.2⟩
    simp only [weightedMidpoint, if_neg hp, if_neg hp']
    rw [Equiv.sum_comp σ (fun j => (lambdaX k (xs j) - 1) * w j),
      Equiv.sum_comp σ (fun j => (lambdaX k (xs j) * w j) • xs j),
      Equiv.sum_comp σ (fun j => w j)]
    have hs : ∀ b : Vec n, ∑ j, dist η k b (xs (σ j)) = ∑ j, dist η k b (xs j) := fun b =>
      Equiv.sum_comp σ (fun j => dist η k b (xs j))
    simp only [hs]

lemma tanh_two_mul (t : ℝ) : Real.tanh (2 * t) = 2 * Real.tanh t / (1 + Real.tanh t ^ 2) := by
  have hc := (Real.cosh_pos t).ne'
  have h1 := Real.cosh_sq t
  rw [Real.tanh_eq_sinh_div_cosh, Real.tanh_eq_sinh_div_cosh, Real.sinh_two_mul, Real.cosh_two_mul]
  have : Real.cosh t ^ 2 + Real.sinh t ^ 2 ≠ 0 := by positivity
  field_simp

/-- half of the clamped `artanh` -/
lemma half_artanhC {z : ℝ} (h0 : 0 ≤ z) :
    0 ≤ tanhC (0.5 * artanhC z) ∧ tanhC (0.5 * artanhC z) < 1 ∧
    2 * tanhC (0.5 * artanhC z) / (1 + tanhC (0.5 * artanhC z) ^ 2) =
      min z (1 - 1e-7) := by
  have h1 := artanhC_nonneg h0
  have h2 := artanhC_le z
  have h7 : (1e-7 : ℝ) > 0 := by norm_num
  have h71 : (1e-7 : ℝ) < 1 := by norm_num
  have e5 : (0.5 : ℝ) = 1 / 2 := by norm_num
  have ht : tanhC (0.5 * artanhC z) = Real.tanh (1 / 2 * artanhC z) := by
    rw [tanhC_eq (by rw [e5]; linarith) (by rw [e5]; linarith), e5]
  rw [ht]
  refine ⟨tanh_nonneg' (by linarith), tanh_lt_one' _, ?_⟩
  rw [← tanh_two_mul, show 2 * (1 / 2 * artanhC z) = artanhC z by ring, artanhC_eq_artanh,
    Real.tanh_artanh (clampA_mem z), clamp, max_eq_left (by linarith)]

lemma g_mono {a b : ℝ} (hb0 : 0 ≤ b) (_hb1 : b < 1) (_ha0 : 0 ≤ a)
    (h : 2 * a / (1 + a ^ 2) ≤ 2 * b / (1 + b ^ 2)) (ha1 : a < 1) : a ≤ b := by
  by_contra hc
  rw [not_le] at hc
  rw [div_le_div_iff₀ (by positivity) (by positivity)] at h
  have hab : a * b < 1 := by nlinarith
  nlinarith [mul_pos (sub_pos.2 hc) (sub_pos.2 hab)]

lemma mid_aux1 {α ε : ℝ} (h0 : 0 ≤ α) (h1 : α ≤ 0.9995) (hε : 0 ≤ ε) :
    2 * α ≤ (1 - 1e-7) * (1 + α ^ 2 + ε * (1 - α ^ 2)) := by
  have h2 : 2 * α ≤ (1 - 1e-7) * (1 + α ^ 2) := by norm_num at *; nlinarith
  have h3 : 0 ≤ ε * (1 - α ^ 2) := mul_nonneg hε (by norm_num at h1; nlinarith)
  have h4 : 0 ≤ (1 - 1e-7 : ℝ) * (ε * (1 - α ^ 2)) := mul_nonneg (by norm_num) h3
  linarith

lemma mid_aux2 {α ε : ℝ} (h0 : 0 ≤ α) :
    2 * ((1 - ε) * α) * (1 + α ^ 2 + ε * (1 - α ^ 2)) ≤ 2 * α * (1 + ((1 - ε) * α) ^ 2) := by
  have : 0 ≤ α * ε ^ 2 := by positivity
  have e : 2 * α * (1 + ((1 - ε) * α) ^ 2) -
    2 * ((1 - ε) * α) * (1 + α ^ 2 + ε * (1 - α ^ 2)) = 2 * (α * ε ^ 2) := by ring
  linarith

/-- On the Poincaré ball the midpoint of any points with any weights lies within
`0.9997` of the radius: the clamp of `artanh` moves everything closer to the boundary
inwards. -/
theorem C16_midpoint_radius {m : ℕ} {η k : ℝ} (hη : 0 ≤ η) (hk : k < -1e-8) (xs : Fin m → Vec n)
    (w : Fin m → ℝ) (posweight : Bool) :
    nrm (weightedMidpoint η k xs w false posweight) ≤ 0.9997 / Real.sqrt (|k| + η) := by
  have hk0 : k < 0 := by have := e8; linarith
  have hs := kSqrt_pos hη hk0.ne
  have es : Real.sqrt (|k| + η) = kSqrt η k := rfl
  have key : ∀ y : Vec n, nrm (mobiusScalarMul η k 0.5 y) ≤ 0.9997 / Real.sqrt (|k| + η) := by
    intro y
    simp only [mobiusScalarMul]
    have hm : 0 < max (nrm y) 1e-15 := lt_max_of_lt_right (by norm_num)
    set z := max (nrm y) 1e-15 with hz
    have harg : 0.5 * artanK η k z * kSqrt η k = 0.5 * artanhC (z * kSqrt η k) := by
      rw [artanK_neg_curv hk]; field_simp
    obtain ⟨b0, b1, b2⟩ := half_artanhC (z := z * kSqrt η k) (by positivity)
    rw [tanK_neg_curv hk, harg, nrm_smul, nrm_smul, abs_of_pos (inv_pos.2 hm),
      abs_of_nonneg (mul_nonneg (inv_nonneg.2 hs.le) b0), es]
    set b := tanhC (0.5 * artanhC (z * kSqrt η k)) with hb
    have hb3 : b ≤ 0.9997 := by
      apply g_mono (by norm_num) (by norm_num) b0 _ b1
      rw [b2]
      refine (min_le_right _ _).trans ?_
      norm_num
    have h1 : z⁻¹ * nrm y ≤ 1 := by
      rw [inv_mul_le_iff₀ hm, mul_one]; exact le_max_left _ _
    calc (kSqrt η k)⁻¹ * b * (z⁻¹ * nrm y) ≤ (kSqrt η k)⁻¹ * b * 1 :=
          mul_le_mul_of_nonneg_left h1 (by positivity)
      _ ≤ (kSqrt η k)⁻¹ * 0.9997 := by
          rw [mul_one]; exact mul_le_mul_of_nonneg_left hb3 (inv_nonneg.2 hs.le)
      _ = 0.9997 / kSqrt η k := by rw [inv_mul_eq_div]
  simp only [weightedMidpoint, if_neg (not_lt.2 hk0.le), Bool.false_eq_true, if_false]
  exact key _

/-- Hence the midpoint of copies of one accepted point need not be that point. -/
theorem C16_counterexample_boundary {m : ℕ} {k : ℝ} (hk : k < -1e-8) {x : Vec n}
    (hx : 0.9997 / Real.sqrt (|k| + codeEta) < nrm x) (w : Fin m → ℝ) (posweight : Bool) :
    weightedMidpoint codeEta k (fun _ => x) w false posweight ≠ x := by
  intro h
  have := C16_midpoint_radius codeEta_nonneg hk (fun _ => x) w posweight
  rw [h] at this
  linarith

/-- such accepted points exist -/
example : ∃ x : Vec 1, Valid codeEta .f64 (-1) x ∧ 0.9997 / Real.sqrt (|(-1:ℝ)| + codeEta) < nrm x := by
  have hs : 0 < Real.sqrt (|(-1:ℝ)| + codeEta) := kSqrt_pos codeEta_nonneg (by norm_num)
  refine ⟨fun _ => 0.9999 / Real.sqrt (|(-1:ℝ)| + codeEta), ?_, ?_⟩
  all_goals
    have hn : nrm (fun _ => 0.9999 / Real.sqrt (|(-1:ℝ)| + codeEta) : Vec 1) =
        0.9999 / Real.sqrt (|(-1:ℝ)| + codeEta) :=
      nrm_eq_of_dot_eq (by positivity) (by simp [dotProduct, sq])
  · unfold Valid; rw [hn]
    exact div_le_div_of_nonneg_right (by norm_num) hs.le
  · rw [hn]; exact div_lt_div_of_pos_right (by norm_num) hs

/-- Copies of one point `x`, total weight `W ≥ 1e-10`: the midpoint is `c • x` with
`1 - 1e-10/W ≤ c ≤ 1` (`1e-10` is the `eps` that `clamp_abs` adds to the denominator).
Missing for the full claim: the regulariser `η` of `|k|`, and the points beyond `0.9995`
of the radius, where it fails (`C16_counterexample_boundary`). -/
theorem C16_copies_partial {m : ℕ} {k : ℝ} (hk : k < -1e-8) {x : Vec n} (w : Fin m → ℝ)
    (hx : 1e-15 ≤ nrm x) (hx2 : nrm x * Real.sqrt (-k) ≤ 0.9995) (hW : 1e-10 ≤ ∑ j, w j) :
    ∃ c : ℝ, weightedMidpoint 0 k (fun _ => x) w false false = c • x ∧
      1 - 1e-10 / (∑ j, w j) ≤ c ∧ c ≤ 1 := by
  have hk0 : k < 0 := by have := e8; linarith
  have h15 : (0:ℝ) < 1e-15 := by norm_num
  have h10 : (0:ℝ) < 1e-10 := by norm_num
  have hs := kSqrt_pos (le_refl (0:ℝ)) hk0.ne
  have hs2 := kSqrt_sq (le_refl (0:ℝ)) k
  have es : kSqrt 0 k = Real.sqrt (-k) := by simp [kSqrt, sabs, abs_of_neg hk0]
  rw [← es] at hx2
  rw [abs_of_neg hk0, add_zero] at hs2
  have ha0 : 0 < nrm x := by linarith
  set W := ∑ j, w j with hWd
  have hW0 : 0 < W := by linarith
  set s := kSqrt 0 k with hsd
  set α := nrm x * s with hα
  have hα0 : 0 < α := by positivity
  have hα1 : α < 1 := by linarith [show (0.9995:ℝ) < 1 by norm_num]
  have hkx : k * (x ⬝ᵥ x) = -α ^ 2 := by
    rw [hα, mul_pow, nrm_sq, hs2]; ring
  have h1α : 0 < 1 - α ^ 2 := by nlinarith
  have hlam : lambdaX k x = 2 / (1 - α ^ 2) := by
    rw [lambdaX, hkx, max_eq_left, ← sub_eq_add_neg]
    nlinarith [show (0.9995:ℝ)^2 + 1e-15 ≤ 1 by norm_num]
  set γ := lambdaX k x with hγ
  have hγ1 : γ - 1 = (1 + α ^ 2) / (1 - α ^ 2) := by rw [hlam]; field_simp; ring
  have hγpos : 0 < γ - 1 := by rw [hγ1]; positivity
  have hγ1' : 1 ≤ γ - 1 := by rw [hγ1, le_div_iff₀ h1α]; nlinarith
  set E := (γ - 1) * W + 1e-10 with hE
  have hEpos : 0 < E := by positivity
  have hclamp : clampAbs 1e-10 ((γ - 1) * W) = E := by
    have : 0 ≤ (γ - 1) * W := by positivity
    rw [clampAbs, usign_of_nonneg this, sabs, abs_of_nonneg this, one_mul]
  set q := γ * W / E with hq
  have hq1 : 1 ≤ q := by
    rw [hq, le_div_iff₀ hEpos, hE]; nlinarith
  have htwo : (clampAbs 1e-10 (∑ j : Fin m, (γ - 1) * w j))⁻¹ • ∑ j : Fin m, (γ * w j) • x = q • x := by
    rw [← Finset.mul_sum, ← hWd, hclamp, ← Finset.sum_smul, ← Finset.mul_sum, ← hWd, smul_smul]
    congr 1
    rw [hq, inv_mul_eq_div]
  have hqn : nrm (q • x) = q * nrm x := by rw [nrm_smul, abs_of_pos (by linarith)]
  have hqmax : max (nrm (q • x)) 1e-15 = q * nrm x := by
    rw [hqn, max_eq_left]; nlinarith
  set ε := 1e-10 / W with hε
  have hε0 : 0 < ε := by positivity
  have hε1 : ε ≤ 1 := by rw [hε, div_le_one hW0]; exact hW
  have hz : q * nrm x * s = 2 * α / (1 + α ^ 2 + ε * (1 - α ^ 2)) := by
    have e1 : E = W * (1 + α ^ 2 + ε * (1 - α ^ 2)) / (1 - α ^ 2) := by
      rw [hE, hγ1, hε]; field_simp
    have hden : 0 < 1 + α ^ 2 + ε * (1 - α ^ 2) := by positivity
    have e2 : q = 2 / (1 + α ^ 2 + ε * (1 - α ^ 2)) := by
      rw [hq, e1, hlam]; field_simp
    rw [e2, hα]; field_simp
  obtain ⟨b0, b1, b2⟩ := half_artanhC (z := q * nrm x * s) (by positivity)
  set b := tanhC (0.5 * artanhC (q * nrm x * s)) with hb
  have hden : 0 < 1 + α ^ 2 + ε * (1 - α ^ 2) := by positivity
  have hmin : min (q * nrm x * s) (1 - 1e-7) = q * nrm x * s := by
    apply min_eq_left
    rw [hz, div_le_iff₀ hden]
    exact mid_aux1 hα0.le hx2 hε0.le
  rw [hmin, hz] at b2
  refine ⟨b / α, ?_, ?_, ?_⟩
  · simp only [weightedMidpoint, Bool.false_eq_true, false_and, if_false, if_neg (not_lt.2 hk0.le)]
    rw [← hγ, htwo]
    simp only [mobiusScalarMul]
    rw [hqmax, tanK_neg_curv hk, artanK_neg_curv hk, ← hsd]
    have e : 0.5 * (s⁻¹ * artanhC (q * nrm x * s)) * s = 0.5 * artanhC (q * nrm x * s) := by
      field_simp
    rw [e, ← hb, smul_smul, smul_smul]
    congr 1
    rw [hα]
    field_simp
  · rw [le_div_iff₀ hα0]
    have hε' : 0 ≤ 1 - ε := by linarith
    have hlt : (1 - ε) * α < 1 := lt_of_le_of_lt (mul_le_of_le_one_left hα0.le (by linarith)) hα1
    apply g_mono b0 b1 (mul_nonneg hε' hα0.le) _ hlt
    rw [b2, div_le_div_iff₀ (by positivity) hden]
    exact mid_aux2 hα0.le
  · rw [div_le_one hα0]
    apply g_mono hα0.le hα1 b0 _ b1
    rw [b2]
    apply div_le_div_of_nonneg_left (by positivity) (by positivity)
    have : 0 ≤ ε * (1 - α ^ 2) := by positivity
    linarith

/-- The flat case: the midpoint of copies of `x` is `W/(W+1e-10) • x`, so it is `x` only
up to the same regulariser. -/
theorem C16_copies_flat {m : ℕ} {x : Vec n} (η : ℝ) (w : Fin m → ℝ) (hW : 0 < ∑ j, w j) :
    weightedMidpoint η 0 (fun _ => x) w false false =
      ((∑ j, w j) / ((∑ j, w j) + 1e-10)) • x := by
  set W := ∑ j, w j with hWd
  have hl : lambdaX 0 x = 2 := by unfold lambdaX; norm_num
  have hE : (0:ℝ) < W + 1e-10 := by linarith [show (0:ℝ) < 1e-10 by norm_num]
  have hclamp : clampAbs 1e-10 W = W + 1e-10 := by
    rw [clampAbs, usign_of_nonneg hW.le, sabs, abs_of_nonneg hW.le, one_mul]
  simp only [weightedMidpoint, Bool.false_eq_true, false_and, if_false, lt_irrefl, hl]
  rw [(C11_flat η 0 0.5 _ 0 0 0).2.2.2.1, ← Finset.mul_sum, ← Finset.sum_smul, ← Finset.mul_sum,
    ← hWd, show (2 - 1 : ℝ) * W = W by ring, hclamp, smul_smul, smul_smul]
  congr 1
  rw [show (0.5 : ℝ) = 1 / 2 by norm_num]
  field_simp

example : (1e-15 : ℝ) ≤ nrm (fun _ => 0.5 : Vec 1) ∧
    nrm (fun _ => 0.5 : Vec 1) * Real.sqrt (-(-1)) ≤ 0.9995 ∧
    (1e-10:ℝ) ≤ ∑ _j : Fin 3, (2:ℝ) := by
  have h5 : nrm (fun _ => 0.5 : Vec 1) = 0.5 :=
    nrm_eq_of_dot_eq (by norm_num) (by simp [dotProduct]; norm_num)
  rw [h5]; norm_num

end Geoopt.Stereo
