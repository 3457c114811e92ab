import Verif.Lemmas.TanK
import Verif.Model.StereoManifold

namespace Geoopt.Stereo
open Geoopt
variable {n : ℕ}

lemma rpow_half (x : ℝ) : x ^ (0.5 : ℝ) = Real.sqrt x := by
  rw [Real.sqrt_eq_rpow]; norm_num

lemma maxNorm_neg {η k : ℝ} {dt : DType} (hk : k < 0) :
    maxNorm η dt k = (1 - projEps dt) / kSqrt η k := by
  rw [maxNorm, if_pos hk, rpow_half]; rfl

lemma projEps_pos (dt : DType) : 0 < projEps dt := by cases dt <;> norm_num [projEps]
lemma projEps_ge (dt : DType) : 1e-5 ≤ projEps dt := by cases dt <;> norm_num [projEps]
lemma projEps_lt_one (dt : DType) : projEps dt < 1 := by cases dt <;> norm_num [projEps]

lemma valid_iff {η k : ℝ} {dt : DType} {x : Vec n} (hk : k < 0) :
    Valid η dt k x ↔ nrm x ≤ maxNorm η dt k := by
  rw [maxNorm_neg hk]
  cases dt <;> simp [Valid, projEps, kSqrt, sabs]

lemma maxNorm_pos {η k : ℝ} (hη : 0 ≤ η) (dt : DType) : 0 < maxNorm η dt k := by
  by_cases hk : k < 0
  · rw [maxNorm_neg hk]
    exact div_pos (by linarith [projEps_lt_one dt]) (kSqrt_pos hη hk.ne)
  · rw [maxNorm, if_neg hk]; norm_num

lemma nrm_project_le {η k : ℝ} (hη : 0 ≤ η) (dt : DType) (x : Vec n) :
    nrm (project η dt k x) ≤ maxNorm η dt k := by
  have hm := maxNorm_pos (k := k) hη dt
  simp only [project]
  split_ifs with h
  · have h15 : (0:ℝ) < max (nrm x) 1e-15 := lt_max_of_lt_right (by norm_num)
    rw [nrm_smul, nrm_smul, abs_of_pos hm, abs_of_pos (inv_pos.2 h15)]
    have : (max (nrm x) 1e-15)⁻¹ * nrm x ≤ 1 := by
      rw [inv_mul_le_one₀ h15]; exact le_max_left _ _
    calc maxNorm η dt k * ((max (nrm x) 1e-15)⁻¹ * nrm x) ≤ maxNorm η dt k * 1 :=
          mul_le_mul_of_nonneg_left this hm.le
      _ = _ := mul_one _
  · exact (le_max_left _ _).trans (not_lt.1 h)

lemma project_of_le {η k : ℝ} {dt : DType} {x : Vec n} (h15 : 1e-15 ≤ maxNorm η dt k)
    (h : nrm x ≤ maxNorm η dt k) : project η dt k x = x := by
  simp only [project]
  rw [if_neg]
  exact not_lt.2 (max_le h h15)

/-- the two bounds a valid point of the ball satisfies -/
lemma valid_sq {η k : ℝ} {dt : DType} {x : Vec n} (hη : 0 ≤ η) (hk : k < 0)
    (h : Valid η dt k x) : -k * (x ⬝ᵥ x) ≤ (1 - 1e-5) ^ 2 := by
  rw [valid_iff hk, maxNorm_neg hk] at h
  have hs := kSqrt_pos hη hk.ne
  have h1 : nrm x * kSqrt η k ≤ 1 - 1e-5 := by
    have := (le_div_iff₀ hs).1 h
    linarith [projEps_ge dt]
  have h2 : (nrm x * kSqrt η k) ^ 2 ≤ (1 - 1e-5) ^ 2 :=
    pow_le_pow_left₀ (mul_nonneg (nrm_nonneg x) hs.le) h1 2
  rw [mul_pow, kSqrt_sq hη, nrm_sq, abs_of_neg hk] at h2
  have := dot_self_nonneg x
  nlinarith

lemma valid_openBall {η k : ℝ} {dt : DType} {x : Vec n} (hη : 0 ≤ η) (hk : k < 0)
    (h : Valid η dt k x) : OpenBall k x := by
  have := valid_sq hη hk h
  unfold OpenBall
  refine this.trans_lt ?_
  norm_num

lemma mobDenom_ge {k : ℝ} (hk : k ≤ 0) (x y : Vec n) :
    (1 + k * (nrm x * nrm y)) ^ 2 ≤ mobDenom k x y := by
  unfold mobDenom
  have h1 := neg_le_dot x y
  have e : (x ⬝ᵥ x) * (y ⬝ᵥ y) = (nrm x * nrm y) ^ 2 := by rw [mul_pow, nrm_sq, nrm_sq]
  have e2 : k ^ 2 * (x ⬝ᵥ x) * (y ⬝ᵥ y) = k ^ 2 * (nrm x * nrm y) ^ 2 := by rw [mul_assoc, e]
  rw [e2]
  nlinarith

lemma mobDenom_ge_pos {k : ℝ} (hk : 0 ≤ k) (x y : Vec n) :
    (1 - k * (nrm x * nrm y)) ^ 2 ≤ mobDenom k x y := by
  unfold mobDenom
  have h1 := dot_le x y
  have e : (x ⬝ᵥ x) * (y ⬝ᵥ y) = (nrm x * nrm y) ^ 2 := by rw [mul_pow, nrm_sq, nrm_sq]
  have e2 : k ^ 2 * (x ⬝ᵥ x) * (y ⬝ᵥ y) = k ^ 2 * (nrm x * nrm y) ^ 2 := by rw [mul_assoc, e]
  rw [e2]
  nlinarith

/-- product of the radii of two points of the ball -/
lemma ball_prod {k c : ℝ} (hk : k ≤ 0) (_hc : 0 ≤ c) {x y : Vec n} (hx : -k * (x ⬝ᵥ x) ≤ c ^ 2)
    (hy : -k * (y ⬝ᵥ y) ≤ c ^ 2) : -k * (nrm x * nrm y) ≤ c ^ 2 := by
  have h0 := nrm_nonneg x
  have h1 := nrm_nonneg y
  have e1 := nrm_sq x
  have e2 := nrm_sq y
  have : nrm x * nrm y ≤ (nrm x ^ 2 + nrm y ^ 2) / 2 := by nlinarith [sq_nonneg (nrm x - nrm y)]
  nlinarith

lemma openBall_prod {k : ℝ} (hk : k ≤ 0) {x y : Vec n} (hx : OpenBall k x) (hy : OpenBall k y) :
    -k * (nrm x * nrm y) < 1 := by
  unfold OpenBall at *
  have e1 := nrm_sq x
  have e2 := nrm_sq y
  have : nrm x * nrm y ≤ (nrm x ^ 2 + nrm y ^ 2) / 2 := by nlinarith [sq_nonneg (nrm x - nrm y)]
  nlinarith

lemma mobDenom_pos {k : ℝ} (hk : k ≤ 0) {x y : Vec n} (hx : OpenBall k x) (hy : OpenBall k y) :
    0 < mobDenom k x y := by
  have h := openBall_prod hk hx hy
  refine lt_of_lt_of_le ?_ (mobDenom_ge hk x y)
  apply pow_pos; linarith

lemma mobDenom_valid {η k : ℝ} {dt : DType} {x y : Vec n} (hη : 0 ≤ η) (hk : k < 0)
    (hx : Valid η dt k x) (hy : Valid η dt k y) : 1e-10 ≤ mobDenom k x y := by
  have h := ball_prod hk.le (by norm_num) (valid_sq hη hk hx) (valid_sq hη hk hy)
  refine le_trans ?_ (mobDenom_ge hk.le x y)
  have : (1e-5 : ℝ) ≤ 1 + k * (nrm x * nrm y) := by
    have e : ((1 : ℝ) - 1e-5) ^ 2 ≤ 1 - 1e-5 := by norm_num
    linarith
  calc (1e-10 : ℝ) = (1e-5) ^ 2 := by norm_num
    _ ≤ _ := pow_le_pow_left₀ (by norm_num) this 2

lemma mobDenom_le {k : ℝ} (x y : Vec n) :
    mobDenom k x y ≤ (1 + |k| * (nrm x * nrm y)) ^ 2 := by
  unfold mobDenom
  have h1 := abs_dot_le x y
  have e2 : k ^ 2 * (x ⬝ᵥ x) * (y ⬝ᵥ y) = |k| ^ 2 * (nrm x * nrm y) ^ 2 := by
    rw [sq_abs, mul_pow, nrm_sq, nrm_sq]; ring
  rw [e2]
  have h2 : -(k * (x ⬝ᵥ y)) ≤ |k| * (nrm x * nrm y) :=
    calc -(k * (x ⬝ᵥ y)) ≤ |k * (x ⬝ᵥ y)| := neg_le_abs _
      _ = |k| * |x ⬝ᵥ y| := abs_mul _ _
      _ ≤ _ := mul_le_mul_of_nonneg_left h1 (abs_nonneg k)
  nlinarith

lemma openBall_neg {k : ℝ} {x : Vec n} : OpenBall k (-x) ↔ OpenBall k x := by
  simp [OpenBall]

lemma valid_neg {η k : ℝ} {dt : DType} {x : Vec n} : Valid η dt k (-x) ↔ Valid η dt k x := by
  simp [Valid]

lemma openBall_mAdd {k : ℝ} (hk : k ≤ 0) {x y : Vec n} (hx : OpenBall k x) (hy : OpenBall k y) :
    OpenBall k (mAdd k x y) := by
  have hD := mobDenom_pos hk hx hy
  unfold OpenBall at *
  have := one_add_mAdd_self hD.ne'
  have h : 0 < (1 + k * (x ⬝ᵥ x)) * (1 + k * (y ⬝ᵥ y)) / mobDenom k x y :=
    div_pos (mul_pos (by linarith) (by linarith)) hD
  linarith

/-- the clamp only shrinks a Möbius sum -/
lemma mobiusAdd_shrink {k : ℝ} {x y : Vec n} (hD : 0 < mobDenom k x y) :
    ∃ c : ℝ, 0 < c ∧ c ≤ 1 ∧ mobiusAdd k x y = c • mAdd k x y := by
  refine ⟨mobDenom k x y / max (mobDenom k x y) 1e-15, ?_, ?_, ?_⟩
  · exact div_pos hD (lt_max_of_lt_left hD)
  · rw [div_le_one (lt_max_of_lt_left hD)]; exact le_max_left _ _
  · rw [mobiusAdd, mAdd, smul_smul]
    congr 1
    field_simp

lemma openBall_smul {k c : ℝ} (hk : k ≤ 0) (h0 : 0 ≤ c) (h1 : c ≤ 1) {x : Vec n}
    (hx : OpenBall k x) : OpenBall k (c • x) := by
  unfold OpenBall at *
  dots
  have := dot_self_nonneg x
  have : c * (c * (x ⬝ᵥ x)) ≤ x ⬝ᵥ x := by
    have : c * c ≤ 1 := by nlinarith
    nlinarith
  nlinarith

lemma openBall_mobiusAdd {k : ℝ} (hk : k ≤ 0) {x y : Vec n} (hx : OpenBall k x)
    (hy : OpenBall k y) : OpenBall k (mobiusAdd k x y) := by
  obtain ⟨c, h0, h1, e⟩ := mobiusAdd_shrink (mobDenom_pos hk hx hy)
  rw [e]
  exact openBall_smul hk h0.le h1 (openBall_mAdd hk hx hy)

end Geoopt.Stereo

namespace Geoopt.Stereo
open Geoopt
variable {n : ℕ}

lemma codeEta_nonneg : 0 ≤ codeEta := by norm_num [codeEta]

/-- a convenient way to check `Valid` on literals -/
lemma valid_of_sq {η k : ℝ} {dt : DType} {x : Vec n} (hη : 0 ≤ η) (hk : k ≠ 0)
    (h : (x ⬝ᵥ x) * (|k| + η) ≤ (1 - projEps dt) ^ 2) : Valid η dt k x := by
  have hs : 0 < Real.sqrt (|k| + η) := kSqrt_pos hη hk
  have h1 : nrm x * Real.sqrt (|k| + η) ≤ 1 - projEps dt := by
    apply le_of_abs_le; apply abs_le_of_sq_le_sq _ (by linarith [projEps_lt_one dt])
    rw [mul_pow, nrm_sq, Real.sq_sqrt (by positivity)]
    exact h
  unfold Valid
  cases dt <;> exact (le_div_iff₀ hs).2 h1

end Geoopt.Stereo
