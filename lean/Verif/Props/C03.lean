import Verif.Lemmas.Ball

/-!
# C03 – Möbius addition;  C04 – gyration
-/

namespace Geoopt.Stereo
open Geoopt
variable {n : ℕ}

/-- Closure: the Möbius sum of two points of the open ball is in the open ball, with
no projection, for every `k ≤ 0` (and trivially for `k ≥ 0`). -/
theorem C03_closed {k : ℝ} (hk : k ≤ 0) {x y : Vec n} (hx : OpenBall k x) (hy : OpenBall k y) :
    OpenBall k (mobiusAdd k x y) := openBall_mobiusAdd hk hx hy

/-- `0` is a right identity, for every curvature and vector. -/
theorem C03_add_zero (k : ℝ) (x : Vec n) : mobiusAdd k x 0 = x := by
  have : max (mobDenom k x (0 : Vec n)) 1e-15 = 1 := by
    simp [mobDenom]; norm_num
  simp [mobiusAdd, this]

/-- `0` is a left identity, for every curvature and vector. -/
theorem C03_zero_add (k : ℝ) (y : Vec n) : mobiusAdd k 0 y = y := by
  have : max (mobDenom k (0 : Vec n) y) 1e-15 = 1 := by
    simp [mobDenom]; norm_num
  simp [mobiusAdd, this]

/-- `-x` is a left inverse, for every curvature and vector. -/
theorem C03_neg_add (k : ℝ) (x : Vec n) : mobiusAdd k (-x) x = 0 := by
  have : (1 - 2 * k * (-x ⬝ᵥ x) - k * (x ⬝ᵥ x)) • (-x) + (1 + k * (-x ⬝ᵥ -x)) • x = 0 := by
    funext i; simp; ring
  rw [mobiusAdd, this, smul_zero]

/-- `mobius_sub(x, x) = 0`. -/
theorem C03_sub_self (k : ℝ) (x : Vec n) : mobiusSub k x x = 0 := by
  have := C03_neg_add k (-x)
  rwa [neg_neg] at this

/-- Left cancellation, for every curvature, as long as the two denominators are
above the `1e-15` clamp. -/
theorem C03_left_cancel {k : ℝ} {x y : Vec n} (h1 : 1e-15 ≤ mobDenom k x y)
    (h2 : 1e-15 * mobDenom k x y ≤ (1 + k * (x ⬝ᵥ x)) ^ 2) (hx : 1 + k * (x ⬝ᵥ x) ≠ 0) :
    mobiusAdd k (-x) (mobiusAdd k x y) = y := by
  have hD : (0:ℝ) < mobDenom k x y := lt_of_lt_of_le (by norm_num) h1
  rw [mobiusAdd_eq h1, mobiusAdd_eq, mAdd_left_cancel hD.ne' hx]
  rw [mobDenom_neg_mAdd hD.ne', le_div_iff₀ hD]
  exact h2

/-- the clamps of the left cancellation law are inactive for valid points -/
lemma left_cancel_ok {η k : ℝ} (hη : 0 ≤ η) (hk : k < 0) {dt : DType} {x y : Vec n}
    (hx : Valid η dt k x) (hy : OpenBall k y) : 1e-15 ≤ mobDenom k x y ∧
    1e-15 * mobDenom k x y ≤ (1 + k * (x ⬝ᵥ x)) ^ 2 ∧ 1e-5 ≤ 1 + k * (x ⬝ᵥ x) := by
  have hxs := valid_sq hη hk hx
  have e : ((1 : ℝ) - 1e-5) ^ 2 ≤ 1 - 1e-5 := by norm_num
  have hx1 : 1e-5 ≤ 1 + k * (x ⬝ᵥ x) := by linarith
  have hnx : nrm x ^ 2 = x ⬝ᵥ x := nrm_sq x
  have hny : nrm y ^ 2 = y ⬝ᵥ y := nrm_sq y
  have hxy : -k * (nrm x * nrm y) ≤ 1 - 1e-5 := by
    -- (-k |x||y|)^2 ≤ (1-1e-5)^2 * 1
    have h0 : 0 ≤ -k * (nrm x * nrm y) :=
      mul_nonneg (by linarith) (mul_nonneg (nrm_nonneg x) (nrm_nonneg y))
    apply le_of_abs_le
    apply abs_le_of_sq_le_sq _ (by norm_num)
    have : (-k * (nrm x * nrm y)) ^ 2 = (-k * (x ⬝ᵥ x)) * (-k * (y ⬝ᵥ y)) := by
      rw [← hnx, ← hny]; ring
    rw [this]
    unfold OpenBall at hy
    have h3 : 0 ≤ -k * (x ⬝ᵥ x) := mul_nonneg (by linarith) (dot_self_nonneg x)
    have h4 : 0 ≤ -k * (y ⬝ᵥ y) := mul_nonneg (by linarith) (dot_self_nonneg y)
    nlinarith
  have hlow : 1e-10 ≤ mobDenom k x y := by
    refine le_trans ?_ (mobDenom_ge hk.le x y)
    calc (1e-10 : ℝ) = (1e-5) ^ 2 := by norm_num
      _ ≤ _ := pow_le_pow_left₀ (by norm_num) (by linarith) 2
  have hup : mobDenom k x y ≤ 4 := by
    refine (mobDenom_le x y).trans ?_
    rw [abs_of_neg hk]
    have h0 : 0 ≤ -k * (nrm x * nrm y) :=
      mul_nonneg (by linarith) (mul_nonneg (nrm_nonneg x) (nrm_nonneg y))
    nlinarith
  refine ⟨le_trans (by norm_num) hlow, ?_, hx1⟩
  have : (1e-5 : ℝ) ^ 2 ≤ (1 + k * (x ⬝ᵥ x)) ^ 2 := pow_le_pow_left₀ (by norm_num) hx1 2
  calc 1e-15 * mobDenom k x y ≤ 1e-15 * 4 := mul_le_mul_of_nonneg_left hup (by norm_num)
    _ ≤ (1e-5 : ℝ) ^ 2 := by norm_num
    _ ≤ _ := this

/-- Left cancellation for the Poincaré ball: no side condition beyond `x` being a
point the library accepts and `y` being in the ball. -/
theorem C03_left_cancel_ball {η k : ℝ} (hη : 0 ≤ η) (hk : k < 0) {dt : DType} {x y : Vec n}
    (hx : Valid η dt k x) (hy : OpenBall k y) : mobiusAdd k (-x) (mobiusAdd k x y) = y := by
  obtain ⟨h1, h2, h3⟩ := left_cancel_ok hη hk hx hy
  exact C03_left_cancel h1 h2 (by intro h; rw [h] at h3; norm_num at h3)

/-- The equation `x + z = y` has the solution `z = -x + y` (ball). -/
theorem C03_solve {η k : ℝ} (hη : 0 ≤ η) (hk : k < 0) {dt : DType} {x y : Vec n}
    (hx : Valid η dt k x) (hy : OpenBall k y) : mobiusAdd k x (mobiusAdd k (-x) y) = y := by
  have := C03_left_cancel_ball hη hk (valid_neg.2 hx) hy
  rwa [neg_neg] at this

example : mobiusAdd (-1) (-![0.5, 0.3]) (mobiusAdd (-1) ![0.5, 0.3] (![-0.2, 0.7] : Vec 2)) =
    ![-0.2, 0.7] := by
  apply C03_left_cancel_ball codeEta_nonneg (by norm_num) (dt := .f64)
  · apply valid_of_sq codeEta_nonneg (by norm_num)
    simp only [dotProduct, Fin.sum_univ_two, codeEta, projEps]
    norm_num
  · norm_num [OpenBall, dotProduct, Fin.sum_univ_two]

/-- Möbius addition is not commutative: the order of the arguments matters. -/
theorem C03_not_commutative : ∃ x y : Vec 2, OpenBall (-1) x ∧ OpenBall (-1) y ∧
    mobiusAdd (-1) x y ≠ mobiusAdd (-1) y x := by
  refine ⟨![0.5, 0], ![0, 0.5], ?_, ?_, ?_⟩
  · norm_num [OpenBall, dotProduct, Fin.sum_univ_two]
  · norm_num [OpenBall, dotProduct, Fin.sum_univ_two]
  · intro h
    have h1 : mobDenom (-1) (![0.5, 0] : Vec 2) ![0, 0.5] = 1.0625 := by
      norm_num [mobDenom, dotProduct, Fin.sum_univ_two]
    have := congrFun h 0
    rw [mobiusAdd, mobiusAdd, mobDenom_comm (-1) ![0, 0.5] ![0.5, 0], h1] at this
    norm_num [dotProduct, Fin.sum_univ_two] at this

/-! ### C04 -/

/-- Gyration is what its documentation says: `-(x+y) + (x+(y+z))`, whenever the five
denominators involved are above the clamp. -/
theorem C04_gyration_def {k : ℝ} {x y z : Vec n} (hxy : 1e-15 ≤ mobDenom k x y)
    (hyz : 1e-15 ≤ mobDenom k y z)
    (h1 : 1e-15 ≤ mobDenom k x (mobiusAdd k y z))
    (h2 : 1e-15 ≤ mobDenom k (-mobiusAdd k x y) (mobiusAdd k x (mobiusAdd k y z)))
    (h3 : 1 + k * (mobiusAdd k x y ⬝ᵥ mobiusAdd k x y) ≠ 0) :
    gyration k x y z =
      mobiusAdd k (-mobiusAdd k x y) (mobiusAdd k x (mobiusAdd k y z)) := by
  have p : (0:ℝ) < 1e-15 := by norm_num
  rw [mobiusAdd_eq h2, gyration_eq hxy, mobiusAdd_eq h1]
  rw [mobiusAdd_eq hyz] at h1 ⊢
  rw [mobiusAdd_eq hxy] at h3 ⊢
  have hd3 : den3 k x y z ≠ 0 := by
    rw [den3_left (p.trans_le hyz).ne'] at h1
    intro h
    rw [h, zero_div] at h1
    norm_num at h1
  rw [mAdd_assoc (p.trans_le hxy).ne' (p.trans_le hyz).ne' hd3, mAdd_left_cancel _ h3]
  rw [den3_right (p.trans_le hxy).ne']
  exact div_ne_zero hd3 (p.trans_le hxy).ne'

/-- On the Poincaré ball the side conditions hold for all points that are valid
float32 points (norm at most `0.996/√|k|`). -/
theorem C04_gyration_def_ball {η k : ℝ} (hη : 0 ≤ η) (hk : k < 0) {x y z : Vec n}
    (hx : Valid η .f32 k x) (hy : Valid η .f32 k y) (hz : Valid η .f32 k z) :
    gyration k x y z =
      mobiusAdd k (-mobiusAdd k x y) (mobiusAdd k x (mobiusAdd k y z)) := by
  have ox := valid_openBall hη hk hx
  have oy := valid_openBall hη hk hy
  have oz := valid_openBall hη hk hz
  obtain ⟨hxy, -, hx5⟩ := left_cancel_ok hη hk hx oy
  obtain ⟨hyz, -, hy5⟩ := left_cancel_ok hη hk hy oz
  obtain ⟨h1, -, -⟩ := left_cancel_ok hη hk hx (openBall_mobiusAdd hk.le oy oz)
  have hs : ∀ {w : Vec n}, Valid η .f32 k w → 7e-3 ≤ 1 + k * (w ⬝ᵥ w) := by
    intro w hw
    rw [valid_iff hk, maxNorm_neg hk] at hw
    have hsq := kSqrt_pos hη hk.ne
    have h1 : nrm w * kSqrt η k ≤ 1 - 4e-3 := by
      have := (le_div_iff₀ hsq).1 hw
      simpa [projEps] using this
    have h2 : (nrm w * kSqrt η k) ^ 2 ≤ (1 - 4e-3) ^ 2 :=
      pow_le_pow_left₀ (mul_nonneg (nrm_nonneg w) hsq.le) h1 2
    rw [mul_pow, kSqrt_sq hη, nrm_sq, abs_of_neg hk] at h2
    have := dot_self_nonneg w
    nlinarith
  have hup : ∀ {a b : Vec n}, OpenBall k a → OpenBall k b → mobDenom k a b ≤ 4 := by
    intro a b ha hb
    refine (mobDenom_le a b).trans ?_
    rw [abs_of_neg hk]
    have h0 : 0 ≤ -k * (nrm a * nrm b) :=
      mul_nonneg (by linarith) (mul_nonneg (nrm_nonneg a) (nrm_nonneg b))
    have := openBall_prod hk.le ha hb
    nlinarith
  have p : (0:ℝ) < 1e-15 := by norm_num
  have hxy0 := (p.trans_le hxy)
  have hyz0 := (p.trans_le hyz)
  -- 1 + k |x+y|^2 ≥ 7e-3^2/4
  have hsum : 1e-5 ≤ 1 + k * (mobiusAdd k x y ⬝ᵥ mobiusAdd k x y) := by
    rw [mobiusAdd_eq hxy, one_add_mAdd_self hxy0.ne', le_div_iff₀ hxy0]
    have := hs hx
    have := hs hy
    have := hup ox oy
    nlinarith
  apply C04_gyration_def hxy hyz h1 _ (by intro h; rw [h] at hsum; norm_num at hsum)
  rw [mobiusAdd_eq h1]
  rw [mobiusAdd_eq hyz] at h1 ⊢
  rw [mobiusAdd_eq hxy] at hsum ⊢
  have hd3 : den3 k x y z ≠ 0 := by
    rw [den3_left hyz0.ne'] at h1
    intro h
    rw [h, zero_div] at h1
    norm_num at h1
  have hg : OpenBall k (mGyr k x y z) := by
    unfold OpenBall; rw [mGyr_dot_mGyr hxy0.ne']; exact oz
  have hpos := mobDenom_pos hk.le (openBall_mAdd hk.le ox oy) hg
  rw [mAdd_assoc hxy0.ne' hyz0.ne' hd3, mobDenom_neg_mAdd hpos.ne', le_div_iff₀ hpos]
  have := hup (openBall_mAdd hk.le ox oy) hg
  nlinarith

/-- Gyrations are linear in the moved vector, for all arguments. -/
theorem C04_gyration_linear (k a b : ℝ) (x y z w : Vec n) :
    gyration k x y (a • z + b • w) = a • gyration k x y z + b • gyration k x y w := by
  funext i
  simp only [gyration, dotProduct_add, dotProduct_smul, smul_eq_mul, Pi.add_apply, Pi.smul_apply]
  ring

/-- Gyrations preserve inner products, hence norms and angles. -/
theorem C04_gyration_isometry {k : ℝ} {x y : Vec n} (h : 1e-15 ≤ mobDenom k x y) (z w : Vec n) :
    gyration k x y z ⬝ᵥ gyration k x y w = z ⬝ᵥ w ∧ nrm (gyration k x y z) = nrm z := by
  have h0 : (0:ℝ) < mobDenom k x y := lt_of_lt_of_le (by norm_num) h
  have key : ∀ z w : Vec n, gyration k x y z ⬝ᵥ gyration k x y w = z ⬝ᵥ w := by
    intro z w; rw [gyration_eq h, gyration_eq h, mGyr_dot_mGyr h0.ne']
  exact ⟨key z w, by rw [nrm, key, nrm]⟩

/-- Gyrocommutative law. -/
theorem C04_gyrocommutative {k : ℝ} {x y : Vec n} (h : 1e-15 ≤ mobDenom k x y) :
    mobiusAdd k x y = gyration k x y (mobiusAdd k y x) := by
  have h0 : (0:ℝ) < mobDenom k x y := lt_of_lt_of_le (by norm_num) h
  rw [gyration_eq h, mobiusAdd_eq h, mobiusAdd_eq (by rwa [mobDenom_comm]), mGyr_comm h0.ne']

/-- all hypotheses of the C04 theorems hold at concrete, non-collinear points -/
example : gyration (-1) ![0.5, 0.3] ![0.1, -0.4] (![-0.2, 0.7] : Vec 2) =
    mobiusAdd (-1) (-mobiusAdd (-1) ![0.5, 0.3] ![0.1, -0.4])
      (mobiusAdd (-1) ![0.5, 0.3] (mobiusAdd (-1) ![0.1, -0.4] ![-0.2, 0.7])) := by
  apply C04_gyration_def_ball codeEta_nonneg (by norm_num)
  all_goals
    apply valid_of_sq codeEta_nonneg (by norm_num)
    simp only [dotProduct, Fin.sum_univ_two, codeEta, projEps]
    norm_num

example : (1e-15 : ℝ) ≤ mobDenom 1 (![0.5, 0.3] : Vec 2) ![2, 7] := by
  norm_num [mobDenom, dotProduct, Fin.sum_univ_two]

end Geoopt.Stereo
