import Verif.Spec.Midpoint
import Verif.Props.C16Two

/-!
# C123: the weighted midpoint minimises the spread of the points about it
-/

namespace Geoopt.Stereo
open Geoopt
variable {n N : ℕ}

namespace C123

lemma nrm_sum_le {ι : Type} (s : Finset ι) (f : ι → Vec n) : nrm (∑ j ∈ s, f j) ≤ ∑ j ∈ s, nrm (f j) := by
  classical
  induction s using Finset.induction_on with
  | empty => simp
  | insert a s ha ih =>
    rw [Finset.sum_insert ha, Finset.sum_insert ha]
    exact (nrm_add_le _ _).trans (by linarith)

lemma openBall {k : ℝ} {x : Vec n} (hx : Central k x) : OpenBall k x := by
  unfold Central at hx; unfold OpenBall; norm_num at hx ⊢; linarith

lemma margin {k : ℝ} {x : Vec n} (hx : Central k x) : 1 / 999 ≤ 1 + k * (x ⬝ᵥ x) := by
  unfold Central at hx; norm_num at hx ⊢; linarith

lemma lam {k : ℝ} {x : Vec n} (hx : Central k x) : lambdaX k x * (1 + k * (x ⬝ᵥ x)) = 2 := by
  have h := margin hx
  have h0 : 0 < 1 + k * (x ⬝ᵥ x) := lt_of_lt_of_le (by norm_num) h
  rw [lambdaX, max_eq_left (le_trans (by norm_num) h)]
  field_simp

lemma lam_ge {k : ℝ} (hk : k < 0) {x : Vec n} (hx : Central k x) : 2 ≤ lambdaX k x := by
  have h := lam hx
  have h0 : 0 < 1 + k * (x ⬝ᵥ x) := lt_of_lt_of_le (by norm_num) (margin hx)
  have h1 : 1 + k * (x ⬝ᵥ x) ≤ 1 := by nlinarith [dot_self_nonneg x]
  have hl : 0 ≤ lambdaX k x := by
    by_contra hc
    push Not at hc
    nlinarith
  nlinarith

/-- The distance of two points in terms of conformal factors. -/
lemma sinh_sq {k : ℝ} (hk : k < -1e-8) {a b : Vec n} (ha : Central k a) (hb : Central k b) :
    Real.sinh (Real.sqrt (-k) * dist 0 k a b / 2) ^ 2 =
      -k * (lambdaX k a * lambdaX k b * (a ⬝ᵥ a - 2 * (a ⬝ᵥ b) + b ⬝ᵥ b)) / 4 := by
  have h := margin ha
  rw [sinh_sq_mid hk (openBall ha) (le_trans (by norm_num) h) (openBall hb) (margin hb) (lam hb)]
  have h0 : 0 < 1 + k * (a ⬝ᵥ a) := lt_of_lt_of_le (by norm_num) h
  rw [div_eq_div_iff (by positivity) (by norm_num), dotProduct_comm b a]
  linear_combination (2 * k * lambdaX k b * (a ⬝ᵥ a - 2 * (a ⬝ᵥ b) + b ⬝ᵥ b)) * lam ha

/-- One plus twice the spread, weighted, in terms of the sums that the code computes. -/
lemma spread_eq {k : ℝ} (hk : k < -1e-8) {xs : Fin N → Vec n} (w : Fin N → ℝ)
    (hx : ∀ j, Central k (xs j)) {μ : Vec n} (hμ : Central k μ) :
    ∑ j, w j + 2 * spread k xs w μ = (lambdaX k μ - 1) * ∑ j, (lambdaX k (xs j) - 1) * w j +
      k * lambdaX k μ * (μ ⬝ᵥ ∑ j, (lambdaX k (xs j) * w j) • xs j) := by
  rw [spread, Finset.mul_sum, ← Finset.sum_add_distrib, dotProduct_sum, Finset.mul_sum, Finset.mul_sum,
    ← Finset.sum_add_distrib]
  refine Finset.sum_congr rfl fun j _ => ?_
  rw [sinh_sq hk hμ (hx j), dotProduct_smul, smul_eq_mul]
  have h1 := lam hμ
  have h2 := lam (hx j)
  generalize lambdaX k μ = a at *
  generalize lambdaX k (xs j) = b at *
  generalize μ ⬝ᵥ μ = A at *
  generalize xs j ⬝ᵥ xs j = B at *
  linear_combination (-(w j) * b / 2) * h1 + (-(w j) * a / 2) * h2

/-- `2r/(1+r²)` is increasing on `[0,1]`. -/
lemma ratio {q Q : ℝ} (h0 : 0 ≤ q) (hq : q ≤ Q) (hQ : Q ≤ 1) : q * (1 + Q) ^ 2 ≤ Q * (1 + q) ^ 2 := by
  have : 0 ≤ (Q - q) * (1 - q * Q) := mul_nonneg (by linarith) (by nlinarith)
  nlinarith

/-- The length of the numerator. -/
lemma length {k : ℝ} (hk : k < 0) {xs : Fin N → Vec n} {w : Fin N → ℝ} (hw : ∀ j, 0 ≤ w j)
    (hx : ∀ j, Central k (xs j)) :
    nrm (∑ j, (lambdaX k (xs j) * w j) • xs j) * Real.sqrt (-k) ≤
      Real.sqrt (4 * (998 / 999) / (1 + 998 / 999) ^ 2) * ∑ j, (lambdaX k (xs j) - 1) * w j := by
  have h1 := mul_le_mul_of_nonneg_right (nrm_sum_le Finset.univ fun j => (lambdaX k (xs j) * w j) • xs j)
    (Real.sqrt_nonneg (-k))
  refine h1.trans ?_
  rw [Finset.sum_mul, Finset.mul_sum]
  refine Finset.sum_le_sum fun j _ => ?_
  have hl := lam_ge hk (hx j)
  have hX := lam (hx j)
  rw [nrm_smul, abs_of_nonneg (mul_nonneg (by linarith) (hw j))]
  have key : lambdaX k (xs j) * (nrm (xs j) * Real.sqrt (-k)) ≤
      Real.sqrt (4 * (998 / 999) / (1 + 998 / 999) ^ 2) * (lambdaX k (xs j) - 1) := by
    refine le_of_sq_le_sq ?_ (mul_nonneg (Real.sqrt_nonneg _) (by linarith))
    rw [mul_pow, mul_pow, mul_pow, nrm_sq, Real.sq_sqrt (by linarith), Real.sq_sqrt (by norm_num),
      div_mul_eq_mul_div, le_div_iff₀ (by norm_num)]
    have hc : -k * (xs j ⬝ᵥ xs j) ≤ 998 / 999 := hx j
    have r := ratio (mul_nonneg (by linarith : 0 ≤ -k) (dot_self_nonneg (xs j))) hc (by norm_num)
    generalize lambdaX k (xs j) = l at *
    generalize xs j ⬝ᵥ xs j = X at *
    have e1 : l * (1 + -k * X) = 2 * (l - 1) := by linear_combination (-1) * hX
    have := mul_le_mul_of_nonneg_left r (sq_nonneg l)
    calc l ^ 2 * (X * -k) * (1 + 998 / 999) ^ 2 = l ^ 2 * (-k * X * (1 + 998 / 999) ^ 2) := by ring
      _ ≤ l ^ 2 * (998 / 999 * (1 + -k * X) ^ 2) := this
      _ = 998 / 999 * (l * (1 + -k * X)) ^ 2 := by ring
      _ = 4 * (998 / 999) * (l - 1) ^ 2 := by rw [e1]; ring
  calc lambdaX k (xs j) * w j * nrm (xs j) * Real.sqrt (-k)
      = w j * (lambdaX k (xs j) * (nrm (xs j) * Real.sqrt (-k))) := by ring
    _ ≤ w j * (Real.sqrt (4 * (998 / 999) / (1 + 998 / 999) ^ 2) * (lambdaX k (xs j) - 1)) :=
        mul_le_mul_of_nonneg_left key (hw j)
    _ = _ := by ring

end C123

open C123

/-- The weighted midpoint of points away from the boundary is no closer to the boundary than they are
allowed to be. -/
theorem C123_central {k : ℝ} (hk : k < -1e-8) {xs : Fin N → Vec n} {w : Fin N → ℝ} (hw : ∀ j, 0 ≤ w j)
    (hx : ∀ j, Central k (xs j))
    (h0 : ∑ j, (lambdaX k (xs j) * w j) • xs j = 0 ∨
      1e-15 * (∑ j, (lambdaX k (xs j) - 1) * w j + 1e-10) ≤
        nrm (∑ j, (lambdaX k (xs j) * w j) • xs j)) :
    Central k (weightedMidpoint 0 k xs w false false) ∧
    (∑ j, (lambdaX k (xs j) - 1) * w j + 1e-10) •
      (2 • weightedMidpoint 0 k xs w false false) = (1 - k * (weightedMidpoint 0 k xs w false false ⬝ᵥ
        weightedMidpoint 0 k xs w false false)) • ∑ j, (lambdaX k (xs j) * w j) • xs j := by
  have hk0 : k < 0 := by have := e8; linarith
  have hab : |k| + 0 = -k := by rw [abs_of_neg hk0, add_zero]
  have hD : 0 ≤ ∑ j, (lambdaX k (xs j) - 1) * w j :=
    Finset.sum_nonneg fun j _ => mul_nonneg (by linarith [lam_ge hk0 (hx j)]) (hw j)
  have hlen := length hk0 hw hx
  have hZ : Real.sqrt (4 * (998 / 999) / (1 + 998 / 999) ^ 2) ≤ 1 - 1e-7 := by
    rw [Real.sqrt_le_left (by norm_num)]; norm_num
  have heq := C16_equation_partial (le_refl (0:ℝ)) hk xs w hD
    (by
      rw [hab]
      refine hlen.trans ((mul_le_mul_of_nonneg_right hZ hD).trans ?_)
      exact mul_le_mul_of_nonneg_left (by linarith [show (0:ℝ) < 1e-10 by norm_num]) (by norm_num)) h0
  dsimp only at heq
  rw [hab] at heq
  generalize weightedMidpoint 0 k xs w false false = m at heq ⊢
  obtain ⟨heq, hm1⟩ := heq
  have hM0 := dot_self_nonneg m
  have hq0 : 0 ≤ -k * (m ⬝ᵥ m) := mul_nonneg (by linarith) hM0
  generalize hS : ∑ j, (lambdaX k (xs j) * w j) • xs j = S at *
  generalize hDd : ∑ j, (lambdaX k (xs j) - 1) * w j = D at *
  have hE : 0 < D + 1e-10 := by linarith [show (0:ℝ) < 1e-10 by norm_num]
  have heq' : (D + 1e-10) • (2 • m) = (1 - k * (m ⬝ᵥ m)) • S := by
    rw [← heq, smul_smul, smul_smul, ← Nat.cast_smul_eq_nsmul ℝ, smul_smul]
    congr 1
    have : 1 + -k * (m ⬝ᵥ m) ≠ 0 := by linarith
    push_cast
    rw [show 1 - k * (m ⬝ᵥ m) = 1 + -k * (m ⬝ᵥ m) by ring]
    generalize 1 + -k * (m ⬝ᵥ m) = q at this
    field_simp
  refine ⟨?_, heq'⟩
  by_contra hc
  unfold Central at hc
  push Not at hc
  have h1 := congrArg nrm heq'
  rw [nrm_smul, ← Nat.cast_smul_eq_nsmul ℝ, nrm_smul, nrm_smul, abs_of_pos hE,
    abs_of_pos (by linarith : 0 < 1 - k * (m ⬝ᵥ m))] at h1
  push_cast at h1
  rw [abs_of_pos (by norm_num : (0:ℝ) < 2)] at h1
  have hs0 : 0 ≤ Real.sqrt (-k) := Real.sqrt_nonneg _
  have h2 : (D + 1e-10) * (2 * (nrm m * Real.sqrt (-k))) ≤ (1 - k * (m ⬝ᵥ m)) *
      (Real.sqrt (4 * (998 / 999) / (1 + 998 / 999) ^ 2) * (D + 1e-10)) := by
    calc (D + 1e-10) * (2 * (nrm m * Real.sqrt (-k)))
        = (1 - k * (m ⬝ᵥ m)) * (nrm S * Real.sqrt (-k)) := by
          linear_combination Real.sqrt (-k) * h1
      _ ≤ _ := by
          refine mul_le_mul_of_nonneg_left (hlen.trans ?_) (by linarith)
          exact mul_le_mul_of_nonneg_left (by linarith [show (0:ℝ) < 1e-10 by norm_num]) (Real.sqrt_nonneg _)
  have h3 : 2 * (nrm m * Real.sqrt (-k)) ≤ (1 - k * (m ⬝ᵥ m)) *
      Real.sqrt (4 * (998 / 999) / (1 + 998 / 999) ^ 2) :=
    le_of_mul_le_mul_left (by linarith) hE
  have h4 := pow_le_pow_left₀ (by have := nrm_nonneg m; positivity) h3 2
  rw [mul_pow, mul_pow, mul_pow, nrm_sq, Real.sq_sqrt (by linarith), Real.sq_sqrt (by norm_num)] at h4
  generalize m ⬝ᵥ m = M at *
  obtain ⟨q, hq⟩ : ∃ q, q = -k * M := ⟨_, rfl⟩
  rw [show M * -k = q by rw [hq]; ring, show 1 - k * M = 1 + q by rw [hq]; ring] at h4
  rw [← hq] at hm1 hq0 hc
  have h5 : 0 < (q - 998 / 999) * (1 - q * (998 / 999)) := mul_pos (by linarith) (by linarith)
  norm_num at h4 h5
  nlinarith

set_option maxHeartbeats 1000000 in
/-- **C123.** The spread of the points about any `μ`, with an additional point at the origin of weight
`1e-10`, is the spread about the weighted midpoint plus a positive multiple of `sinh²(√-k d/2)`, where `d` is
the distance of `μ` from the weighted midpoint. -/
theorem C123_spread_partial {k : ℝ} (hk : k < -1e-8) {xs : Fin N → Vec n} {w : Fin N → ℝ}
    (hw : ∀ j, 0 ≤ w j) (hx : ∀ j, Central k (xs j))
    (h0 : ∑ j, (lambdaX k (xs j) * w j) • xs j = 0 ∨
      1e-15 * (∑ j, (lambdaX k (xs j) - 1) * w j + 1e-10) ≤
        nrm (∑ j, (lambdaX k (xs j) * w j) • xs j)) {μ : Vec n} (hμ : Central k μ) :
    let m := weightedMidpoint 0 k xs w false false
    let F := spread k (Fin.cons 0 xs : Fin (N + 1) → Vec n) (Fin.cons 1e-10 w : Fin (N + 1) → ℝ)
    F μ = F m + (∑ j, w j + 1e-10 + 2 * F m) *
      Real.sinh (Real.sqrt (-k) * dist 0 k μ m / 2) ^ 2 := by
  intro m F
  have hk0 : k < 0 := by have := e8; linarith
  obtain ⟨hm, heq⟩ := C123_central hk hw hx h0
  change Central k m at hm
  change _ • (2 • m) = (1 - k * (m ⬝ᵥ m)) • _ at heq
  have h00 : Central k (0 : Vec n) := by simp [Central]; norm_num
  have hx' : ∀ j, Central k ((Fin.cons 0 xs : Fin (N + 1) → Vec n) j) := fun j => by
    refine Fin.cases ?_ (fun j => ?_) j
    · exact h00
    · exact hx j
  have l0 : lambdaX k (0 : Vec n) = 2 := by have := lam h00; simpa using this
  have fe : ∀ {ν : Vec n}, Central k ν → ∑ j, w j + 1e-10 + 2 * F ν = (lambdaX k ν - 1) *
      (∑ j, (lambdaX k (xs j) - 1) * w j + 1e-10) +
      k * lambdaX k ν * (ν ⬝ᵥ ∑ j, (lambdaX k (xs j) * w j) • xs j) := by
    intro ν hν
    have h := spread_eq hk (Fin.cons 1e-10 w : Fin (N + 1) → ℝ) hx' hν
    simp only [Fin.sum_univ_succ, Fin.cons_zero, Fin.cons_succ, l0, smul_zero, zero_add] at h
    linear_combination h
  have e1 := fe hμ
  have e2 := fe hm
  have e3 := sinh_sq hk hμ hm
  have eμ := congrArg (fun v => μ ⬝ᵥ v) heq
  have em := congrArg (fun v => m ⬝ᵥ v) heq
  beta_reduce at eμ em
  simp only [← Nat.cast_smul_eq_nsmul ℝ, dotProduct_smul, smul_eq_mul] at eμ em
  push_cast at eμ em
  have lm := lam hm
  have lμ := lam hμ
  generalize ∑ j, (lambdaX k (xs j) * w j) • xs j = S at *
  generalize ∑ j, (lambdaX k (xs j) - 1) * w j + 1e-10 = E at *
  generalize ∑ j, w j + 1e-10 = W at *
  rw [e3]
  generalize F μ = Fμ at *
  generalize F m = Fm at *
  generalize lambdaX k μ = a at *
  generalize lambdaX k m = b at *
  have hp : 0 < 1 - k * (m ⬝ᵥ m) := by nlinarith [dot_self_nonneg m]
  generalize m ⬝ᵥ m = M at *
  generalize μ ⬝ᵥ μ = A at *
  generalize μ ⬝ᵥ m = c at *
  generalize μ ⬝ᵥ S = s at *
  generalize m ⬝ᵥ S = t at *
  have hb : b ≠ 0 := by rintro rfl; simp at lm
  -- `ρ (b - 1) = E`, where `ρ = W + 2 F(m)`
  have hr : (W + 2 * Fm) * (1 - k * M) = E * (1 + k * M) := by
    rw [e2]
    have h1 : b * (1 - k * M) = 2 * (b - 1) := by linear_combination (-1) * lm
    have h2 : (1 - k * M) * (1 + k * M) = (1 - k * M) * (1 + k * M) := rfl
    have h3 : k * b * t * (1 - k * M) = 2 * k * b * (E * M) := by linear_combination (-k * b) * em
    have h4 : b * (k * M) = 2 - b := by linear_combination lm
    have h5 : (b - 1) * (1 - k * M) = 2 * (b - 1) - (1 - k * M) := by linear_combination h1
    have : ((b - 1) * E + k * b * t) * (1 - k * M) = E * ((2 * (b - 1) - (1 - k * M)) + 2 * (2 - b)) := by
      linear_combination E * h5 + h3 + 2 * E * h4
    rw [this]; ring
  have hs : s * (1 - k * M) = 2 * E * c := by linear_combination -eμ
  have main : (1 - k * M) * (2 * Fμ - 2 * Fm) =
      (1 - k * M) * (2 * ((W + 2 * Fm) * (-k * (a * b * (A - 2 * c + M)) / 4))) := by
    have h1 : (1 - k * M) * (W + 2 * Fμ) = E * ((a - 1) * (1 - k * M) + 2 * k * a * c) := by
      rw [e1]; linear_combination (k * a) * hs
    have h2 : (1 - k * M) * (W + 2 * Fm) = E * (1 + k * M) := by linear_combination hr
    have h3 : (1 - k * M) * (2 * ((W + 2 * Fm) * (-k * (a * b * (A - 2 * c + M)) / 4))) =
        E * (1 + k * M) * (-k * (a * b * (A - 2 * c + M)) / 2) := by
      linear_combination (-k * (a * b * (A - 2 * c + M)) / 2) * h2
    rw [h3]
    have h4 : E * (1 + k * M) * (-k * (a * b * (A - 2 * c + M)) / 2) = E * (-k * (a * (A - 2 * c + M))) := by
      linear_combination (E * (-k * (a * (A - 2 * c + M))) / 2) * lm
    rw [h4]
    linear_combination h1 - h2 + E * lμ
  have := mul_left_cancel₀ hp.ne' main
  linear_combination this / 2

lemma C123.spread_nonneg {k : ℝ} {xs : Fin N → Vec n} {w : Fin N → ℝ} (hw : ∀ j, 0 ≤ w j) (μ : Vec n) :
    0 ≤ spread k xs w μ :=
  Finset.sum_nonneg fun j _ => mul_nonneg (hw j) (sq_nonneg _)

/-- Hence the weighted midpoint is the only minimiser of the spread with that additional point. -/
theorem C123_minimises_partial {k : ℝ} (hk : k < -1e-8) {xs : Fin N → Vec n} {w : Fin N → ℝ}
    (hw : ∀ j, 0 ≤ w j) (hx : ∀ j, Central k (xs j))
    (h0 : ∑ j, (lambdaX k (xs j) * w j) • xs j = 0 ∨
      1e-15 * (∑ j, (lambdaX k (xs j) - 1) * w j + 1e-10) ≤
        nrm (∑ j, (lambdaX k (xs j) * w j) • xs j)) {μ : Vec n} (hμ : Central k μ) :
    let m := weightedMidpoint 0 k xs w false false
    let F := spread k (Fin.cons 0 xs : Fin (N + 1) → Vec n) (Fin.cons 1e-10 w : Fin (N + 1) → ℝ)
    F m ≤ F μ ∧ (F m = F μ → μ = m) := by
  intro m F
  have hm := (C123_central hk hw hx h0).1
  have h := C123_spread_partial hk hw hx h0 hμ
  change F μ = F m + (∑ j, w j + 1e-10 + 2 * F m) * Real.sinh (Real.sqrt (-k) * dist 0 k μ m / 2) ^ 2 at h
  have hF : 0 ≤ F m := C123.spread_nonneg (fun j => by
    refine Fin.cases ?_ (fun j => ?_) j
    · simp only [Fin.cons_zero]; norm_num
    · exact hw j) m
  have hW : 0 ≤ ∑ j, w j := Finset.sum_nonneg fun j _ => hw j
  have hr : 0 < ∑ j, w j + 1e-10 + 2 * F m := by linarith [show (0:ℝ) < 1e-10 by norm_num]
  refine ⟨by rw [h]; exact le_add_of_nonneg_right (mul_nonneg hr.le (sq_nonneg _)), fun he => ?_⟩
  rw [he] at h hr
  have h1 : (∑ j, w j + 1e-10 + 2 * F μ) * Real.sinh (Real.sqrt (-k) * dist 0 k μ m / 2) ^ 2 = 0 := by
    linarith
  rcases mul_eq_zero.1 h1 with h2 | h2
  · exact absurd h2 hr.ne'
  · have h3 := Real.sinh_eq_zero.1 (pow_eq_zero_iff (two_ne_zero) |>.1 h2)
    have hk0 : k < 0 := by have := e8; linarith
    have hs : 0 < Real.sqrt (-k) := Real.sqrt_pos.2 (by linarith)
    have h4 : dist 0 k μ m = 0 := by
      rcases mul_eq_zero.1 (by linarith : Real.sqrt (-k) * dist 0 k μ m = 0) with h5 | h5
      · exact absurd h5 hs.ne'
      · exact h5
    exact (C06_separates le_rfl hk (openBall hμ) (openBall hm)).1 h4

/-- Without the additional point, the spread about the weighted midpoint exceeds the least possible one by
at most `1e-10 sinh²(√-k d(μ, 0)/2)`. -/
theorem C123_nearly {k : ℝ} (hk : k < -1e-8) {xs : Fin N → Vec n} {w : Fin N → ℝ}
    (hw : ∀ j, 0 ≤ w j) (hx : ∀ j, Central k (xs j))
    (h0 : ∑ j, (lambdaX k (xs j) * w j) • xs j = 0 ∨
      1e-15 * (∑ j, (lambdaX k (xs j) - 1) * w j + 1e-10) ≤
        nrm (∑ j, (lambdaX k (xs j) * w j) • xs j)) {μ : Vec n} (hμ : Central k μ) :
    spread k xs w (weightedMidpoint 0 k xs w false false) ≤
      spread k xs w μ + 1e-10 * Real.sinh (Real.sqrt (-k) * dist 0 k μ 0 / 2) ^ 2 := by
  have h := (C123_minimises_partial hk hw hx h0 hμ).1
  simp only [spread, Fin.sum_univ_succ, Fin.cons_zero, Fin.cons_succ] at h ⊢
  have : 0 ≤ 1e-10 * Real.sinh (Real.sqrt (-k) * dist 0 k (weightedMidpoint 0 k xs w false false) 0 / 2) ^ 2 :=
    mul_nonneg (by norm_num) (sq_nonneg _)
  linarith

/-- **C123 is false to the letter**: the weighted midpoint of a single point other than the origin is not
that point, so it does not minimise the spread (which is zero at the point). -/
theorem C123_counterexample {k : ℝ} (hk : k < -1e-8) {x : Vec n} (hx : Central k x) (hx0 : 1e-15 ≤ nrm x) :
    spread k ![x] ![1] x = 0 ∧ 0 < spread k ![x] ![1] (weightedMidpoint 0 k ![x] ![1] false false) := by
  have hk0 : k < 0 := by have := e8; linarith
  refine ⟨by simp [spread, C06_self], ?_⟩
  have hl := lam_ge hk0 hx
  have hw : ∀ j : Fin 1, (0:ℝ) ≤ (![1] : Fin 1 → ℝ) j := fun j => by simp
  have hx' : ∀ j : Fin 1, Central k ((![x] : Fin 1 → Vec n) j) := fun j => by simpa using hx
  have h15 : (0:ℝ) ≤ 1e-15 := by norm_num
  obtain ⟨hm, heq⟩ := C123_central hk hw hx' (Or.inr (by
    simp only [Fin.sum_univ_one, Matrix.cons_val_fin_one, mul_one]
    rw [nrm_smul, abs_of_pos (by linarith)]
    have : lambdaX k x - 1 + 1e-10 ≤ lambdaX k x := by norm_num; linarith
    calc 1e-15 * (lambdaX k x - 1 + 1e-10) ≤ nrm x * lambdaX k x :=
          mul_le_mul hx0 this (by norm_num; linarith) (nrm_nonneg x)
      _ = _ := mul_comm _ _))
  simp only [Fin.sum_univ_one, Matrix.cons_val_fin_one, mul_one] at heq
  refine lt_of_le_of_ne (C123.spread_nonneg hw _) fun h => ?_
  simp only [spread, Fin.sum_univ_one, Matrix.cons_val_fin_one, one_mul] at h
  have h3 := Real.sinh_eq_zero.1 (pow_eq_zero_iff (two_ne_zero) |>.1 h.symm)
  have hs : 0 < Real.sqrt (-k) := Real.sqrt_pos.2 (by linarith)
  have h4 : dist 0 k (weightedMidpoint 0 k ![x] ![1] false false) x = 0 := by
    rcases mul_eq_zero.1 (by linarith : Real.sqrt (-k) *
      dist 0 k (weightedMidpoint 0 k ![x] ![1] false false) x = 0) with h5 | h5
    · exact absurd h5 hs.ne'
    · exact h5
  have h5 := (C06_separates le_rfl hk (openBall hm) (openBall hx)).1 h4
  rw [h5, ← Nat.cast_smul_eq_nsmul ℝ, smul_smul, smul_smul] at heq
  have h6 : ((lambdaX k x - 1 + 1e-10) * (2:ℕ) - (1 - k * (x ⬝ᵥ x)) * lambdaX k x) • x = 0 := by
    rw [sub_smul, heq, sub_self]
  rcases smul_eq_zero.1 h6 with h7 | h7
  · have := lam hx
    have e : (1 - k * (x ⬝ᵥ x)) * lambdaX k x = 2 * (lambdaX k x - 1) := by linear_combination (-1) * this
    rw [e] at h7
    push_cast at h7
    norm_num at h7
    linarith
  · rw [h7] at hx0
    simp at hx0
    norm_num at hx0

/-- At curvature zero the weighted midpoint minimises the weighted sum of squared distances, with the same
additional point. -/
theorem C123_flat (η : ℝ) {xs : Fin N → Vec n} {w : Fin N → ℝ} (hw : ∀ j, 0 ≤ w j) (μ : Vec n) :
    let m := weightedMidpoint η 0 xs w false false
    let F := flatSpread η (Fin.cons 0 xs : Fin (N + 1) → Vec n) (Fin.cons 1e-10 w : Fin (N + 1) → ℝ)
    F μ = F m + (∑ j, w j + 1e-10) * (dist η 0 μ m / 2) ^ 2 := by
  intro m F
  set W := ∑ j, w j with hWd
  have hW : 0 ≤ W := Finset.sum_nonneg fun j _ => hw j
  have hl : ∀ x : Vec n, lambdaX 0 x = 2 := fun x => by unfold lambdaX; norm_num
  have hE : (0:ℝ) < W + 1e-10 := by linarith [show (0:ℝ) < 1e-10 by norm_num]
  have hclamp : clampAbs 1e-10 W = W + 1e-10 := by
    rw [clampAbs, usign_of_nonneg hW, sabs, abs_of_nonneg hW, one_mul]
  have hm : (W + 1e-10) • m = ∑ j, w j • xs j := by
    simp only [m, weightedMidpoint, Bool.false_eq_true, false_and, if_false, lt_irrefl, hl]
    rw [(C11_flat η 0 0.5 _ 0 0 0).2.2.2.1, ← Finset.mul_sum, ← hWd, show (2 - 1 : ℝ) * W = W by ring, hclamp,
      smul_smul, smul_smul]
    have e : ∑ j, (2 * w j) • xs j = (2:ℝ) • ∑ j, w j • xs j := by
      rw [Finset.smul_sum]; exact Finset.sum_congr rfl fun j _ => mul_smul _ _ _
    rw [e, smul_smul]
    convert one_smul ℝ _ using 2
    rw [show (0.5 : ℝ) = 1 / 2 by norm_num]
    field_simp
  have hd : ∀ a b : Vec n, (dist η 0 a b / 2) ^ 2 = a ⬝ᵥ a - 2 * (a ⬝ᵥ b) + b ⬝ᵥ b := by
    intro a b
    rw [(C11_flat η 0 0 a b 0 0).2.2.2.2.1, mul_div_cancel_left₀ _ (two_ne_zero), nrm_sq]
    dots
    rw [dotProduct_comm b a]; ring
  have hF : ∀ ν, F ν = (W + 1e-10) * (ν ⬝ᵥ ν) - 2 * ((W + 1e-10) * (ν ⬝ᵥ m)) + ∑ j, w j * (xs j ⬝ᵥ xs j) := by
    intro ν
    have h1 : (W + 1e-10) * (ν ⬝ᵥ m) = ∑ j, w j * (ν ⬝ᵥ xs j) := by
      rw [← smul_eq_mul, ← dotProduct_smul, hm, dotProduct_sum]
      exact Finset.sum_congr rfl fun j _ => by rw [dotProduct_smul, smul_eq_mul]
    rw [h1]
    simp only [F, flatSpread, Fin.sum_univ_succ, Fin.cons_zero, Fin.cons_succ, hd, dotProduct_zero]
    have e : ∑ j, w j * (ν ⬝ᵥ ν - 2 * (ν ⬝ᵥ xs j) + xs j ⬝ᵥ xs j) =
        W * (ν ⬝ᵥ ν) - 2 * ∑ j, w j * (ν ⬝ᵥ xs j) + ∑ j, w j * (xs j ⬝ᵥ xs j) := by
      rw [hWd, Finset.sum_mul, Finset.mul_sum, ← Finset.sum_sub_distrib, ← Finset.sum_add_distrib]
      exact Finset.sum_congr rfl fun j _ => by ring
    rw [e]; ring
  rw [hF μ, hF m, hd]
  ring

/-- Three points to which the theorems apply. -/
example : (∀ j, Central (-1) ((![fun _ => 1 / 2, 0, fun _ => -1 / 3] : Fin 3 → Vec 1) j)) ∧
    1e-15 * (∑ j, (lambdaX (-1) ((![fun _ => 1 / 2, 0, fun _ => -1 / 3] : Fin 3 → Vec 1) j) - 1) *
      (![1, 2, 3] : Fin 3 → ℝ) j + 1e-10) ≤
      nrm (∑ j, (lambdaX (-1) ((![fun _ => 1 / 2, 0, fun _ => -1 / 3] : Fin 3 → Vec 1) j) *
        (![1, 2, 3] : Fin 3 → ℝ) j) • (![fun _ => 1 / 2, 0, fun _ => -1 / 3] : Fin 3 → Vec 1) j) := by
  have e : ∑ j, (lambdaX (-1) ((![fun _ => 1 / 2, 0, fun _ => -1 / 3] : Fin 3 → Vec 1) j) *
      (![1, 2, 3] : Fin 3 → ℝ) j) • (![fun _ => 1 / 2, 0, fun _ => -1 / 3] : Fin 3 → Vec 1) j =
      fun _ => -(11 / 12) := by
    funext i
    simp [Fin.sum_univ_succ, lambdaX, dotProduct]
    norm_num
  constructor
  · intro j
    fin_cases j <;> simp [Central, dotProduct] <;> norm_num
  · rw [e, show nrm (fun _ => -(11 / 12) : Vec 1) = 11 / 12 from
      nrm_eq_of_dot_eq (by norm_num) (by simp [dotProduct]; norm_num)]
    simp [Fin.sum_univ_succ, lambdaX, dotProduct]
    norm_num

end Geoopt.Stereo
