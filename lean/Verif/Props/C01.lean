import Verif.Lemmas.Ball

/-!
# C01 – Poincaré ball operations never leave the ball
# C02 – the projection is idempotent and leaves valid points alone

`η` is the regulariser of `sabs`; the code is the instance `η = codeEta = 1e-15`.
-/

namespace Geoopt.Stereo
open Geoopt
variable {n : ℕ}

/-- Valid points are strictly inside the ball of radius `1/√|k|`. -/
theorem C01_valid_inside {η k : ℝ} {dt : DType} (hη : 0 ≤ η) (hk : k < 0) {x : Vec n}
    (h : Valid η dt k x) : nrm x < 1 / Real.sqrt |k| := by
  have h2 : -k * (x ⬝ᵥ x) < 1 := valid_openBall hη hk h
  have hs : 0 < Real.sqrt |k| := Real.sqrt_pos.2 (abs_pos.2 hk.ne)
  rw [lt_div_iff₀ hs]
  apply lt_of_abs_lt; apply abs_lt_of_sq_lt_sq _ (by norm_num)
  rw [mul_pow, nrm_sq, Real.sq_sqrt (abs_nonneg k), abs_of_neg hk]
  linarith

/-- Whatever vectors they are given, all the point-valued operations (with the
default `project=True`) return a valid point. -/
theorem C01_ball_closed {η k : ℝ} (hη : 0 ≤ η) (hk : k < 0) (dt : DType) (x y u w : Vec n)
    (r t mean std : ℝ) {m : ℕ} (A : Matrix (Fin m) (Fin n) ℝ) (fn : Vec n → Vec m)
    (fns : List (Vec n → Vec n)) (xs : Fin m → Vec n) (ws : Fin m → ℝ) (lc pw : Bool) :
    Valid η dt k (M.projx η dt k x) ∧
    Valid η dt k (M.retr η dt k x u) ∧
    Valid η dt k (M.expmap true η dt k x u) ∧
    Valid η dt k (M.expmap0 true η dt k u) ∧
    Valid η dt k (M.retrTransp η dt k x u w).1 ∧
    Valid η dt k (M.expmapTransp true η dt k x u w).1 ∧
    Valid η dt k (M.mobiusAdd true η dt k x y) ∧
    Valid η dt k (M.mobiusSub true η dt k x y) ∧
    Valid η dt k (M.mobiusCoadd true η dt k x y) ∧
    Valid η dt k (M.mobiusCosub true η dt k x y) ∧
    Valid η dt k (M.mobiusScalarMul true η dt k r x) ∧
    Valid η dt k (M.mobiusPointwiseMul true η dt k w x) ∧
    Valid η dt k (M.mobiusMatvec true η dt k A x) ∧
    Valid η dt k (M.mobiusFnApply true η dt k fn x) ∧
    Valid η dt k (M.mobiusFnApplyChain true η dt k x fns) ∧
    Valid η dt k (M.geodesicUnit true η dt k t x u) ∧
    Valid η dt k (M.weightedMidpoint true η dt k xs ws lc pw) ∧
    Valid η dt k (M.randomNormal η dt k mean std w) ∧
    Valid η dt k (M.wrappedNormal η dt k x std w) := by
  have key : ∀ {m : ℕ} (z : Vec m), Valid η dt k (project η dt k z) := fun z => by
    rw [valid_iff hk]; exact nrm_project_le hη dt z
  refine ⟨key _, key _, key _, key _, key _, key _, key _, key _, key _, key _, key _, key _,
    key _, key _, key _, key _, key _, key _, key _⟩

/-- Without projection the maps still stay in the open ball when they start in it. -/
theorem C01_unprojected_open_ball {η k : ℝ} (hη : 0 ≤ η) (hk : k < -1e-8) (x u : Vec n) (t : ℝ)
    (hx : OpenBall k x) (dt : DType) :
    OpenBall k (M.expmap false η dt k x u) ∧ OpenBall k (M.expmap0 false η dt k u) ∧
    OpenBall k (M.geodesicUnit false η dt k t x u) := by
  have hk0 : k < 0 := by have := e8; linarith
  have hs := kSqrt_pos hη hk0.ne
  have key : ∀ (a : ℝ) (v : Vec n), nrm v ≤ 1 → OpenBall k (tanK η k a • v) := by
    intro a v hv
    rw [tanK_neg_curv hk]
    unfold OpenBall
    dots
    have h1 : (tanhC (a * kSqrt η k)) ^ 2 < 1 := (sq_lt_one_iff_abs_lt_one _).2 (abs_tanhC_lt _)
    have h2 : v ⬝ᵥ v ≤ 1 := by rw [← nrm_sq]; nlinarith [nrm_nonneg v]
    have h0 := dot_self_nonneg v
    have h3 : -k ≤ kSqrt η k ^ 2 := by rw [kSqrt_sq hη, abs_of_neg hk0]; linarith
    have h4 : -k * (((kSqrt η k)⁻¹ * tanhC (a * kSqrt η k)) *
        (((kSqrt η k)⁻¹ * tanhC (a * kSqrt η k)) * (v ⬝ᵥ v))) =
        (-k / kSqrt η k ^ 2) * (tanhC (a * kSqrt η k) ^ 2 * (v ⬝ᵥ v)) := by
      field_simp
    rw [h4]
    have h5 : -k / kSqrt η k ^ 2 ≤ 1 := (div_le_one (by positivity)).2 h3
    have h6 : 0 ≤ -k / kSqrt η k ^ 2 := div_nonneg (by linarith) (by positivity)
    have h7 : tanhC (a * kSqrt η k) ^ 2 * (v ⬝ᵥ v) < 1 := by nlinarith [sq_nonneg (tanhC (a * kSqrt η k))]
    have h8 : 0 ≤ tanhC (a * kSqrt η k) ^ 2 * (v ⬝ᵥ v) := by positivity
    nlinarith
  have hu : nrm ((max (nrm u) 1e-15)⁻¹ • u) ≤ 1 := by
    have h15 : (0:ℝ) < max (nrm u) 1e-15 := lt_max_of_lt_right (by norm_num)
    rw [nrm_smul, abs_of_pos (inv_pos.2 h15), inv_mul_le_one₀ h15]
    exact le_max_left _ _
  refine ⟨?_, ?_, ?_⟩
  · simp only [M.expmap, withProject, expmap, Bool.false_eq_true, if_false]
    exact openBall_mobiusAdd hk0.le hx (key _ _ hu)
  · simp only [M.expmap0, withProject, expmap0, Bool.false_eq_true, if_false]
    exact key _ _ hu
  · simp only [M.geodesicUnit, withProject, geodesicUnit, Bool.false_eq_true, if_false]
    exact openBall_mobiusAdd hk0.le hx (key _ _ hu)

/-- non-vacuity: a curvature of −2 and a point far outside the ball -/
example : Valid codeEta .f64 (-2) (M.retr codeEta .f64 (-2) ![3, 4] ![100, -7]) :=
  (C01_ball_closed (m := 0) codeEta_nonneg (by norm_num) .f64 ![3, 4] 0 ![100, -7] 0 0 0 0 0
    0 (fun _ => 0) [] (fun _ => 0) (fun _ => 0) false false).2.1

example : OpenBall (-2) (![0.5, 0.1] : Vec 2) := by
  norm_num [OpenBall, dotProduct, Fin.sum_univ_two]

/-! ### C02 -/

/-- `projx` returns its argument exactly on valid points, for every curvature with
`|k| ≤ 1e29` (so that the radius is above the 1e-15 floor used for norms). -/
theorem C02_projx_fixes_exactly_valid {η k : ℝ} (hη : 0 ≤ η) (hη1 : η ≤ 1) (hk : k < 0)
    (hbig : |k| ≤ 1e29) (dt : DType) (x : Vec n) :
    M.projx η dt k x = x ↔ Valid η dt k x := by
  have h15 : (1e-15 : ℝ) ≤ maxNorm η dt k := by
    rw [maxNorm_neg hk, le_div_iff₀ (kSqrt_pos hη hk.ne)]
    have h1 : kSqrt η k ≤ 9e14 := by
      rw [kSqrt, sabs, Real.sqrt_le_left (by norm_num)]
      calc |k| + η ≤ 1e29 + 1 := add_le_add hbig hη1
        _ ≤ 9e14 ^ 2 := by norm_num
    have h2 : (0.99 : ℝ) ≤ 1 - projEps dt := by cases dt <;> norm_num [projEps]
    linarith
  constructor
  · intro h
    rw [valid_iff hk, ← h]
    exact nrm_project_le hη dt x
  · intro h
    exact project_of_le h15 ((valid_iff hk).1 h)

/-- `projx` is idempotent (same curvature range). -/
theorem C02_projx_idempotent {η k : ℝ} (hη : 0 ≤ η) (hη1 : η ≤ 1) (hk : k < 0)
    (hbig : |k| ≤ 1e29) (dt : DType) (x : Vec n) :
    M.projx η dt k (M.projx η dt k x) = M.projx η dt k x := by
  rw [C02_projx_fixes_exactly_valid hη hη1 hk hbig, valid_iff hk]
  exact nrm_project_le hη dt x

/-- `projx` only rescales: the result is `c • x` with `0 ≤ c ≤ 1` unless the radius
of the ball is below `1e-15`. -/
theorem C02_projx_rescales {η k : ℝ} (hη : 0 ≤ η) (dt : DType) (x : Vec n) :
    ∃ c : ℝ, 0 < c ∧ c ≤ 1 ∧ M.projx η dt k x = c • x := by
  have hm := maxNorm_pos (k := k) hη dt
  simp only [M.projx, project]
  split_ifs with h
  · have h15 : (0:ℝ) < max (nrm x) 1e-15 := lt_max_of_lt_right (by norm_num)
    refine ⟨maxNorm η dt k * (max (nrm x) 1e-15)⁻¹, by positivity, ?_, by rw [smul_smul]⟩
    rw [← div_eq_mul_inv, div_le_one h15]
    exact le_of_lt h
  · exact ⟨1, one_pos, le_rfl, (one_smul _ _).symm⟩

/-- For `k ≥ 0` `projx` is the identity on every vector of norm at most `1e15`. -/
theorem C02_projx_nonneg_curvature {η k : ℝ} (hk : 0 ≤ k) (dt : DType) (x : Vec n)
    (h : nrm x ≤ 1e15) : M.projx η dt k x = x := by
  apply project_of_le
  · rw [maxNorm, if_neg hk.not_gt]; norm_num
  · rw [maxNorm, if_neg hk.not_gt]; exact h

/-- Every projected point passes `check_point_on_manifold`, for all tolerances. -/
theorem C02_projected_point_passes_check {η k : ℝ} (hη : 0 ≤ η) (hη1 : η ≤ 1) (hk : k < 0)
    (hbig : |k| ≤ 1e29) (dt : DType) (x : Vec n) {atol rtol : ℝ} (ha : 0 ≤ atol) (hr : 0 ≤ rtol) :
    M.CheckPoint η dt k atol rtol (M.projx η dt k x) := by
  intro i
  have := C02_projx_idempotent hη hη1 hk hbig dt x
  unfold M.projx at *
  rw [this, sub_self, abs_zero]
  positivity

/-- Outside that curvature range the claim is false of the code: with `k = -1e40`
a point well inside the ball is moved by `projx`. -/
theorem C02_counterexample_huge_curvature :
    Valid codeEta .f64 (-1e40) (fun _ => 1e-22 : Vec 1) ∧
    M.projx codeEta .f64 (-1e40) (fun _ => 1e-22 : Vec 1) ≠ fun _ => 1e-22 := by
  have hn : nrm (fun _ => 1e-22 : Vec 1) = 1e-22 :=
    nrm_eq_of_dot_eq (by norm_num) (by simp [dotProduct]; norm_num)
  have hk : (-1e40 : ℝ) < 0 := by norm_num
  have hm : maxNorm codeEta .f64 (-1e40) < 1e-15 := by
    rw [maxNorm_neg hk, div_lt_iff₀ (kSqrt_pos codeEta_nonneg hk.ne)]
    have : (1e19 : ℝ) ≤ kSqrt codeEta (-1e40) := by
      rw [kSqrt, sabs]
      apply Real.le_sqrt_of_sq_le
      norm_num [codeEta, abs_of_neg]
    norm_num [projEps]
    linarith
  constructor
  · apply valid_of_sq codeEta_nonneg hk.ne
    simp only [dotProduct, Fin.sum_univ_one, codeEta, projEps, abs_of_neg hk]
    norm_num
  · intro h
    have h2 := congrArg nrm h
    have hmx : max (nrm (fun _ => 1e-22 : Vec 1)) 1e-15 = 1e-15 := by
      rw [hn]; exact max_eq_right (by norm_num)
    simp only [M.projx, project, hmx, if_pos hm] at h2
    have hmp := maxNorm_pos (k := -1e40) codeEta_nonneg .f64
    rw [nrm_smul, nrm_smul, hn, abs_of_pos hmp, abs_of_pos (by norm_num)] at h2
    nlinarith

example : Valid codeEta .f32 (-1) (![0.5, 0.3] : Vec 2) := by
  apply valid_of_sq codeEta_nonneg (by norm_num)
  simp only [dotProduct, Fin.sum_univ_two, codeEta, projEps]
  norm_num

end Geoopt.Stereo
