import Verif.Props.C03

/-!
# C05 exp/log, C07 norm/dist, C08 origin versions, C10 geodesics, C13 scalar laws
-/

namespace Geoopt.Stereo
open Geoopt
variable {n : ℕ}

lemma lambdaX_pos (k : ℝ) (x : Vec n) : 0 < lambdaX k x := by
  unfold lambdaX
  have : (0:ℝ) < max (1 + k * (x ⬝ᵥ x)) 1e-15 := lt_max_of_lt_right (by norm_num)
  positivity

lemma max_norm_eq {x : Vec n} (h : 1e-15 ≤ nrm x) : max (nrm x) 1e-15 = nrm x := max_eq_left h

lemma nrm_unit {u : Vec n} (h : 1e-15 ≤ nrm u) : nrm ((nrm u)⁻¹ • u) = 1 := by
  have : (0:ℝ) < nrm u := lt_of_lt_of_le (by norm_num) h
  rw [nrm_smul, abs_of_pos (inv_pos.2 this), inv_mul_cancel₀ this.ne']

lemma expmap_zero (η k : ℝ) (x : Vec n) : expmap η k x 0 = x := by
  simp only [expmap, smul_zero, C03_add_zero]

/-- `expmap(x, logmap(x, y)) = y` for every curvature: the hypotheses say that the
Möbius denominators and the norms are above their `1e-15` floors (or `-x+y=0`) and
that the radius `‖-x+y‖` is in the unclamped range of `artanh`. -/
theorem C05_exp_log {η k : ℝ} (hη : 0 ≤ η) {x y : Vec n}
    (h1 : 1e-15 ≤ mobDenom k (-x) y)
    (h2 : 1e-15 * mobDenom k (-x) y ≤ (1 + k * (x ⬝ᵥ x)) ^ 2) (hx : 1 + k * (x ⬝ᵥ x) ≠ 0)
    (hr : RadiusOk η k (nrm (mobiusAdd k (-x) y)))
    (hsmall : mobiusAdd k (-x) y = 0 ∨
      (1e-15 ≤ nrm (mobiusAdd k (-x) y) ∧ 1e-15 ≤ nrm (logmap η k x y))) :
    expmap η k x (logmap η k x y) = y := by
  have hcancel : mobiusAdd k x (mobiusAdd k (-x) y) = y := by
    have := C03_left_cancel (x := -x) (y := y) h1 (by simpa using h2) (by simpa using hx)
    rwa [neg_neg] at this
  rcases hsmall with h0 | ⟨hr0, hl⟩
  · have : logmap η k x y = 0 := by simp [logmap, h0]
    rw [this, expmap_zero]
    rw [h0, C03_add_zero] at hcancel
    exact hcancel
  · set v := mobiusAdd k (-x) y with hv
    have hvp : 0 < nrm v := lt_of_lt_of_le (by norm_num) hr0
    have hlam := lambdaX_pos k x
    have ha := artanK_nonneg hr
    have hlog : logmap η k x y = (2 * artanK η k (nrm v) / (lambdaX k x * nrm v)) • v := by
      simp only [logmap, ← hv, max_norm_eq hr0, smul_smul]
      congr 1
      norm_num
      ring
    have hln : nrm (logmap η k x y) = 2 * artanK η k (nrm v) / lambdaX k x := by
      rw [hlog, nrm_smul, abs_of_nonneg (by positivity)]
      field_simp
    have ha' : 0 < artanK η k (nrm v) := by
      rcases ha.lt_or_eq with h | h
      · exact h
      · rw [hln, ← h] at hl; norm_num at hl
    simp only [expmap, max_norm_eq hl]
    rw [hln]
    have : lambdaX k x / 2.0 * (2 * artanK η k (nrm v) / lambdaX k x) = artanK η k (nrm v) := by
      norm_num; field_simp
    rw [this, tanK_artanK hη hr, hlog]
    rw [smul_smul, smul_smul]
    have : nrm v * ((2 * artanK η k (nrm v) / lambdaX k x)⁻¹ *
        (2 * artanK η k (nrm v) / (lambdaX k x * nrm v))) = 1 := by
      field_simp
    rw [← mul_assoc] at this
    rw [this, one_smul, hcancel]

/-- bound on the conformal factor of a valid point -/
lemma lambdaX_valid {η k : ℝ} (hη : 0 ≤ η) (hk : k < 0) {dt : DType} {x : Vec n}
    (hx : Valid η dt k x) : lambdaX k x ≤ 2e5 := by
  have h := valid_sq hη hk hx
  have e : ((1 : ℝ) - 1e-5) ^ 2 ≤ 1 - 1e-5 := by norm_num
  have h2 : (1e-5 : ℝ) ≤ max (1 + k * (x ⬝ᵥ x)) 1e-15 := le_max_of_le_left (by linarith)
  unfold lambdaX
  rw [div_le_iff₀ (lt_of_lt_of_le (by norm_num) h2)]
  linarith

lemma two_le_lambdaX {k : ℝ} (hk : k ≤ 0) (x : Vec n) : 2 ≤ lambdaX k x := by
  unfold lambdaX
  have h1 : max (1 + k * (x ⬝ᵥ x)) 1e-15 ≤ 1 := by
    apply max_le _ (by norm_num)
    have := dot_self_nonneg x
    nlinarith
  have h0 : (0:ℝ) < max (1 + k * (x ⬝ᵥ x)) 1e-15 := lt_max_of_lt_right (by norm_num)
  rw [le_div_iff₀ h0]
  linarith

/-- Poincaré ball, all accepted points: exp inverts log unless the two points are so
far apart that `artanh` saturates (`√(|k|+η)‖-x+y‖ > 1 - 1e-7`) or closer than
`2e-10` without being equal.  Holds with and without the final projection. -/
theorem C05_exp_log_ball {η k : ℝ} (hη : 0 ≤ η) (hk : k < -1e-8) (hη1 : η ≤ 1)
    (hbig : |k| ≤ 1e29) {dt : DType} (p : Bool)
    {x y : Vec n} (hx : Valid η dt k x) (hy : Valid η dt k y)
    (hfar : nrm (mobiusAdd k (-x) y) * Real.sqrt (|k| + η) ≤ 1 - 1e-7)
    (hnear : x = y ∨ 2e-10 ≤ nrm (mobiusAdd k (-x) y)) :
    M.expmap p η dt k x (M.logmap η k x y) = y := by
  have hk0 : k < 0 := by have := e8; linarith
  have hr : RadiusOk η k (nrm (mobiusAdd k (-x) y)) :=
    ⟨nrm_nonneg _, Or.inr (Or.inr ⟨hk, hfar⟩)⟩
  obtain ⟨h1, h2, h3⟩ := left_cancel_ok hη hk0 (valid_neg.2 hx) (valid_openBall hη hk0 hy)
  have key : expmap η k x (logmap η k x y) = y := by
    apply C05_exp_log hη h1 (by simpa using h2) _ hr
    · rcases hnear with rfl | hnear
      · left; exact C03_neg_add k x
      · right
        have hr0 : (1e-15:ℝ) ≤ nrm (mobiusAdd k (-x) y) := le_trans (by norm_num) hnear
        refine ⟨hr0, ?_⟩
        have hvp : 0 < nrm (mobiusAdd k (-x) y) := lt_of_lt_of_le (by norm_num) hr0
        have hlam := lambdaX_pos k x
        have hl5 := lambdaX_valid hη hk0 hx
        have ha := artanK_nonneg hr
        have hha := half_le_artanK hη hk hr
        simp only [logmap, max_norm_eq hr0]
        rw [nrm_smul, nrm_smul, abs_of_nonneg (by norm_num; exact ha),
          abs_of_nonneg (by positivity)]
        have : 2.0 * artanK η k (nrm (mobiusAdd k (-x) y)) *
            ((lambdaX k x * nrm (mobiusAdd k (-x) y))⁻¹ * nrm (mobiusAdd k (-x) y)) =
            2 * artanK η k (nrm (mobiusAdd k (-x) y)) / lambdaX k x := by
          norm_num; field_simp
        rw [this, le_div_iff₀ hlam]
        nlinarith
    · intro h; simp at h3; rw [h] at h3; norm_num at h3
  have hproj : project η dt k y = y := by
    apply project_of_le _ ((valid_iff hk0).1 hy)
    rw [maxNorm_neg hk0, le_div_iff₀ (kSqrt_pos hη hk0.ne)]
    have h1 : kSqrt η k ≤ 9e14 := by
      rw [kSqrt, sabs, Real.sqrt_le_left (by norm_num)]
      calc |k| + η ≤ 1e29 + 1 := add_le_add hbig hη1
        _ ≤ 9e14 ^ 2 := by norm_num
    have h2 : (0.99 : ℝ) ≤ 1 - projEps dt := by cases dt <;> norm_num [projEps]
    linarith
  simp only [M.expmap, M.logmap, withProject, key, hproj, ite_self]

/-- `logmap(x, expmap(x, u)) = u`, every curvature. -/
theorem C05_log_exp {η k : ℝ} (hη : 0 ≤ η) {x u : Vec n} (hu : 1e-15 ≤ nrm u)
    (ht : HalfLenOk η k (lambdaX k x / 2 * nrm u))
    (hr : 1e-15 ≤ tanK η k (lambdaX k x / 2 * nrm u))
    (h1 : 1e-15 ≤ mobDenom k x (tanK η k (lambdaX k x / 2 * nrm u) • ((nrm u)⁻¹ • u)))
    (h2 : 1e-15 * mobDenom k x (tanK η k (lambdaX k x / 2 * nrm u) • ((nrm u)⁻¹ • u))
      ≤ (1 + k * (x ⬝ᵥ x)) ^ 2) (hx : 1 + k * (x ⬝ᵥ x) ≠ 0) :
    logmap η k x (expmap η k x u) = u := by
  have hup : 0 < nrm u := lt_of_lt_of_le (by norm_num) hu
  have e2 : lambdaX k x / 2.0 = lambdaX k x / 2 := by norm_num
  set r := tanK η k (lambdaX k x / 2 * nrm u) with hrdef
  have hrp : 0 < r := lt_of_lt_of_le (by norm_num) hr
  have hlam := lambdaX_pos k x
  have hexp : expmap η k x u = mobiusAdd k x (r • ((nrm u)⁻¹ • u)) := by
    simp only [expmap, max_norm_eq hu, e2, ← hrdef]
  have hsub : mobiusAdd k (-x) (expmap η k x u) = r • ((nrm u)⁻¹ • u) := by
    rw [hexp, C03_left_cancel h1 h2 hx]
  have hn : nrm (r • ((nrm u)⁻¹ • u)) = r := by
    rw [nrm_smul, nrm_unit hu, abs_of_pos hrp, mul_one]
  simp only [logmap, hsub, hn, max_eq_left hr]
  rw [artanK_tanK hη ht, smul_smul, smul_smul, smul_smul]
  have : 2.0 * (lambdaX k x / 2 * nrm u) * ((lambdaX k x * r)⁻¹ * (r * (nrm u)⁻¹)) = 1 := by
    norm_num; field_simp
  rw [← mul_assoc] at this
  rw [← mul_assoc, ← mul_assoc] at *
  rw [this, one_smul]

lemma openBall_tanK {η k : ℝ} (hη : 0 ≤ η) (hk : k < -1e-8) (a : ℝ) (v : Vec n)
    (hv : nrm v ≤ 1) : OpenBall k (tanK η k a • v) := by
  have hk0 : k < 0 := by have := e8; linarith
  have hs := kSqrt_pos hη hk0.ne
  rw [tanK_neg_curv hk]
  unfold OpenBall
  dots
  have h1 : (tanhC (a * kSqrt η k)) ^ 2 < 1 := (sq_lt_one_iff_abs_lt_one _).2 (abs_tanhC_lt _)
  have h2 : v ⬝ᵥ v ≤ 1 := by rw [← nrm_sq]; nlinarith [nrm_nonneg v]
  have h0 := dot_self_nonneg v
  have h3 : -k ≤ kSqrt η k ^ 2 := by rw [kSqrt_sq hη, abs_of_neg hk0]; linarith
  have h4 : -k * (((kSqrt η k)⁻¹ * tanhC (a * kSqrt η k)) *
      (((kSqrt η k)⁻¹ * tanhC (a * kSqrt η k)) * (v ⬝ᵥ v))) =
      (-k / kSqrt η k ^ 2) * (tanhC (a * kSqrt η k) ^ 2 * (v ⬝ᵥ v)) := by
    field_simp
  rw [h4]
  have h5 : -k / kSqrt η k ^ 2 ≤ 1 := (div_le_one (by positivity)).2 h3
  have h6 : 0 ≤ -k / kSqrt η k ^ 2 := div_nonneg (by linarith) (by positivity)
  have h7 : tanhC (a * kSqrt η k) ^ 2 * (v ⬝ᵥ v) < 1 := by
    nlinarith [sq_nonneg (tanhC (a * kSqrt η k))]
  have h8 : 0 ≤ tanhC (a * kSqrt η k) ^ 2 * (v ⬝ᵥ v) := by positivity
  nlinarith

lemma tanK_ge {η k t : ℝ} (hη : 0 ≤ η) (hk : k < -1e-8) (h : HalfLenOk η k t) :
    t / 16 ≤ tanK η k t := by
  have h8 := e8
  obtain ⟨ht, hk' | ⟨hk', _⟩ | ⟨_, hs⟩⟩ := h
  · linarith
  · linarith
  · change Real.tanh (t * kSqrt η k) ≤ _ at hs
    have hp := kSqrt_pos hη (show k ≠ 0 by intro h; linarith)
    have h15 := le_fifteen_of_tanh hs
    have h0 := mul_nonneg ht hp.le
    rw [tanK_neg_curv hk, tanhC_eq (by linarith) h15]
    have hge := tanh_ge h0
    have : t * kSqrt η k / 16 ≤ t * kSqrt η k / (1 + t * kSqrt η k) := by
      apply div_le_div_of_nonneg_left h0 <;> linarith
    rw [inv_mul_eq_div, le_div_iff₀ hp]
    linarith

/-- Poincaré ball: `logmap(x, expmap(x,u)) = u` for every accepted point `x` and every
`u` that is zero or has norm at least `2e-14`, up to hyperbolic length
`λ_x‖u‖√(|k|+η) ≤ 16` (where the `artanh` clamp would start to act). -/
theorem C05_log_exp_ball {η k : ℝ} (hη : 0 ≤ η) (hk : k < -1e-8) {dt : DType}
    {x u : Vec n} (hx : Valid η dt k x) (hu : u = 0 ∨ 2e-14 ≤ nrm u)
    (hlen : lambdaX k x * nrm u * Real.sqrt (|k| + η) ≤ 16) :
    logmap η k x (expmap η k x u) = u := by
  have hk0 : k < 0 := by have := e8; linarith
  rcases hu with rfl | hu
  · simp [expmap_zero, logmap, C03_neg_add]
  · have hu' : (1e-15:ℝ) ≤ nrm u := le_trans (by norm_num) hu
    have hlam := two_le_lambdaX hk0.le x
    have ht : HalfLenOk η k (lambdaX k x / 2 * nrm u) := by
      apply halfLenOk_of_le_eight hk
      · exact mul_nonneg (by linarith) (nrm_nonneg u)
      · linarith
    have hb := openBall_tanK hη hk (lambdaX k x / 2 * nrm u) ((nrm u)⁻¹ • u) (nrm_unit hu').le
    obtain ⟨h1, h2, h3⟩ := left_cancel_ok hη hk0 hx hb
    apply C05_log_exp hη hu' ht _ h1 h2 (by intro h; rw [h] at h3; norm_num at h3)
    have := tanK_ge hη hk ht
    have h4 : nrm u ≤ lambdaX k x / 2 * nrm u := by nlinarith [nrm_nonneg u]
    linarith

/-- The near-flat Taylor branch (`0 < |k| ≤ 1e-8`) uses `|k|` instead of `k`: for
negative curvature the correction of `tan_k` has the wrong sign (`tanh` lies below
the identity, the code's value above it), so `tan_k` is not the function the model
uses for slightly larger `|k|`. -/
theorem C05_taylor_sign_wrong {η k x : ℝ} (hk : k < 0) (hk2 : |k| ≤ 1e-8) (hx : 0 < x) :
    x < tanK η k x ∧ (Real.sqrt |k|)⁻¹ * Real.tanh (x * Real.sqrt |k|) < x := by
  constructor
  · rw [tanK, if_pos (show KZero k from hk2), tanKTaylor, absZeroGrad_eq]
    have : 0 < |k| := abs_pos.2 hk.ne
    have : 0 < 1 / 3 * |k| * x ^ 3 := by positivity
    linarith
  · have hs : 0 < Real.sqrt |k| := Real.sqrt_pos.2 (abs_pos.2 hk.ne)
    have hz : 0 < x * Real.sqrt |k| := mul_pos hx hs
    have : Real.tanh (x * Real.sqrt |k|) < x * Real.sqrt |k| := by
      rw [Real.tanh_eq_sinh_div_cosh, div_lt_iff₀ (Real.cosh_pos _)]
      -- sinh z < z cosh z
      have hmono : StrictMonoOn (fun z : ℝ => z * Real.cosh z - Real.sinh z) (Set.Ici 0) := by
        apply strictMonoOn_of_deriv_pos (convex_Ici 0)
        · fun_prop
        · intro z hz
          simp only [interior_Ici, Set.mem_Ioi] at hz
          have hd : HasDerivAt (fun z : ℝ => z * Real.cosh z - Real.sinh z)
              (1 * Real.cosh z + z * Real.sinh z - Real.cosh z) z :=
            ((hasDerivAt_id z).mul (Real.hasDerivAt_cosh z)).sub (Real.hasDerivAt_sinh z)
          rw [hd.deriv]
          have := Real.sinh_pos_iff.2 hz
          nlinarith [mul_pos hz this]
      have := hmono (Set.mem_Ici.2 le_rfl) (Set.mem_Ici.2 hz.le) hz
      simp at this
      linarith
    rw [inv_mul_eq_div, div_lt_iff₀ hs]
    exact this

/-! ### C07 -/

/-- The metric length of the logarithm is the distance (every curvature). -/
theorem C07_norm_log_eq_dist {η k : ℝ} {x y : Vec n}
    (hr : RadiusOk η k (nrm (mobiusAdd k (-x) y)))
    (hsmall : mobiusAdd k (-x) y = 0 ∨ 1e-15 ≤ nrm (mobiusAdd k (-x) y)) :
    norm k x (logmap η k x y) = dist η k x y := by
  rcases hsmall with h0 | hr0
  · simp [logmap, h0, norm, dist, artanK_zero]
  · have hvp : 0 < nrm (mobiusAdd k (-x) y) := lt_of_lt_of_le (by norm_num) hr0
    have hlam := lambdaX_pos k x
    have ha := artanK_nonneg hr
    simp only [norm, logmap, dist, max_norm_eq hr0]
    rw [nrm_smul, nrm_smul, abs_of_nonneg (by norm_num; exact ha), abs_of_nonneg (by positivity)]
    field_simp

/-- The distance travelled by the exponential map is the metric length of the tangent
vector (every curvature). -/
theorem C07_dist_exp_eq_norm {η k : ℝ} (hη : 0 ≤ η) {x u : Vec n} (hu : 1e-15 ≤ nrm u)
    (ht : HalfLenOk η k (lambdaX k x / 2 * nrm u))
    (h1 : 1e-15 ≤ mobDenom k x (tanK η k (lambdaX k x / 2 * nrm u) • ((nrm u)⁻¹ • u)))
    (h2 : 1e-15 * mobDenom k x (tanK η k (lambdaX k x / 2 * nrm u) • ((nrm u)⁻¹ • u))
      ≤ (1 + k * (x ⬝ᵥ x)) ^ 2) (hx : 1 + k * (x ⬝ᵥ x) ≠ 0) :
    dist η k x (expmap η k x u) = norm k x u := by
  have hup : 0 < nrm u := lt_of_lt_of_le (by norm_num) hu
  have e2 : lambdaX k x / 2.0 = lambdaX k x / 2 := by norm_num
  have hexp : expmap η k x u =
      mobiusAdd k x (tanK η k (lambdaX k x / 2 * nrm u) • ((nrm u)⁻¹ • u)) := by
    simp only [expmap, max_norm_eq hu, e2]
  rw [dist, hexp, C03_left_cancel h1 h2 hx, nrm_smul, nrm_unit hu, abs_of_nonneg (tanK_nonneg ht),
    mul_one, artanK_tanK hη ht, norm]
  norm_num
  ring

/-- Ball version of `C07_dist_exp_eq_norm` with explicit range. -/
theorem C07_dist_exp_eq_norm_ball {η k : ℝ} (hη : 0 ≤ η) (hk : k < -1e-8) {dt : DType}
    {x u : Vec n} (hx : Valid η dt k x) (hu : u = 0 ∨ 1e-15 ≤ nrm u)
    (hlen : lambdaX k x * nrm u * Real.sqrt (|k| + η) ≤ 16) :
    dist η k x (expmap η k x u) = norm k x u := by
  have hk0 : k < 0 := by have := e8; linarith
  rcases hu with rfl | hu'
  · simp [expmap_zero, dist, C03_neg_add, norm, artanK_zero]
  · have hlam := two_le_lambdaX hk0.le x
    have ht : HalfLenOk η k (lambdaX k x / 2 * nrm u) := by
      apply halfLenOk_of_le_eight hk
      · exact mul_nonneg (by linarith) (nrm_nonneg u)
      · linarith
    have hb := openBall_tanK hη hk (lambdaX k x / 2 * nrm u) ((nrm u)⁻¹ • u) (nrm_unit hu').le
    obtain ⟨h1, h2, h3⟩ := left_cancel_ok hη hk0 hx hb
    exact C07_dist_exp_eq_norm hη hu' ht h1 h2 (by intro h; rw [h] at h3; norm_num at h3)

/-- The distance the library reports never exceeds `30/√(|k|+η)`: for points further
apart than that (they exist in every ball, also among float64-valid points when the
ball is not cut off) the value saturates and the laws above cannot hold. -/
theorem C07_dist_saturates {η k : ℝ} (hη : 0 ≤ η) (hk : k < -1e-8) (x y : Vec n) :
    dist η k x y ≤ 30 / Real.sqrt (|k| + η) := by
  have hk0 : k < 0 := by have := e8; linarith
  have hs : 0 < Real.sqrt (|k| + η) := kSqrt_pos hη hk0.ne
  have e2 : (2.0 : ℝ) = 2 := by norm_num
  rw [dist, artanK_neg_curv hk, le_div_iff₀ hs, e2]
  have h := artanhC_le (nrm (mobiusAdd k (-x) y) * kSqrt η k)
  change artanhC (_ * Real.sqrt (|k| + η)) ≤ 15 at h
  change 2 * ((Real.sqrt (|k| + η))⁻¹ * artanhC (_ * Real.sqrt (|k| + η))) * _ ≤ 30
  have : 2 * ((Real.sqrt (|k| + η))⁻¹ *
      artanhC (nrm (mobiusAdd k (-x) y) * Real.sqrt (|k| + η))) * Real.sqrt (|k| + η) =
      2 * artanhC (nrm (mobiusAdd k (-x) y) * Real.sqrt (|k| + η)) := by
    field_simp
  rw [this]
  linarith

/-! ### C08 -/

lemma lambdaX_zero (k : ℝ) : lambdaX k (0 : Vec n) = 2 := by
  have : max (1 + k * ((0 : Vec n) ⬝ᵥ 0)) 1e-15 = 1 := by simp; norm_num
  rw [lambdaX, this]; norm_num

/-- All the functions specialised to the origin agree with the general ones at `0`,
for every curvature, every dimension and all vectors, clamps included. -/
theorem C08_origin_versions (η k : ℝ) (x u v : Vec n) :
    dist0 η k x = dist η k 0 x ∧
    expmap0 η k u = expmap η k 0 u ∧
    logmap0 η k x = logmap η k 0 x ∧
    transp0 k x v = transp k 0 x v ∧
    transp0back k x v = transp k x 0 v := by
  have hg : ∀ (a : Vec n), gyration k a 0 v = v := by
    intro a; funext i; simp [gyration]
  have hg' : ∀ (a : Vec n), gyration k 0 a v = v := by
    intro a; funext i; simp [gyration]
  refine ⟨?_, ?_, ?_, ?_, ?_⟩
  · simp [dist0, dist, C03_zero_add]
  · simp only [expmap0, expmap, lambdaX_zero, C03_zero_add]
    norm_num
  · simp only [logmap0, logmap, lambdaX_zero, C03_zero_add, neg_zero, smul_smul]
    congr 1
    norm_num
    ring
  · simp only [transp0, transp, lambdaX_zero, neg_zero, hg]
    congr 1
    unfold lambdaX
    have : (0:ℝ) < max (1 + k * (x ⬝ᵥ x)) 1e-15 := lt_max_of_lt_right (by norm_num)
    field_simp
  · simp only [transp0back, transp, lambdaX_zero, hg']
    congr 1
    unfold lambdaX
    have : (0:ℝ) < max (1 + k * (x ⬝ᵥ x)) 1e-15 := lt_max_of_lt_right (by norm_num)
    field_simp

/-! ### C13 and C10 -/

lemma scalarMul_eq {η k t : ℝ} {v : Vec n} (h : 1e-15 ≤ nrm v) :
    mobiusScalarMul η k t v = tanK η k (t * artanK η k (nrm v)) • ((nrm v)⁻¹ • v) := by
  simp only [mobiusScalarMul, max_norm_eq h]

/-- `0 ⊗ x = 0`, all arguments. -/
theorem C13_zero_smul (η k : ℝ) (x : Vec n) : mobiusScalarMul η k 0 x = 0 := by
  simp [mobiusScalarMul, tanK_zero]

/-- `1 ⊗ x = x`. -/
theorem C13_one_smul {η k : ℝ} (hη : 0 ≤ η) {x : Vec n} (hx : x = 0 ∨ 1e-15 ≤ nrm x)
    (hr : RadiusOk η k (nrm x)) : mobiusScalarMul η k 1 x = x := by
  rcases hx with rfl | hx
  · simp [mobiusScalarMul]
  · have : 0 < nrm x := lt_of_lt_of_le (by norm_num) hx
    rw [scalarMul_eq hx, one_mul, tanK_artanK hη hr, smul_smul, mul_inv_cancel₀ this.ne', one_smul]

/-- `(r s) ⊗ x = r ⊗ (s ⊗ x)` for `s ≥ 0`. -/
theorem C13_mul_smul {η k r s : ℝ} (hη : 0 ≤ η) {x : Vec n} (hx : 1e-15 ≤ nrm x)
    (hs : HalfLenOk η k (s * artanK η k (nrm x)))
    (hsm : 1e-15 ≤ nrm (mobiusScalarMul η k s x)) :
    mobiusScalarMul η k (r * s) x = mobiusScalarMul η k r (mobiusScalarMul η k s x) := by
  have hxp : 0 < nrm x := lt_of_lt_of_le (by norm_num) hx
  have ht := tanK_nonneg hs
  have hn : nrm (mobiusScalarMul η k s x) = tanK η k (s * artanK η k (nrm x)) := by
    rw [scalarMul_eq hx, nrm_smul, nrm_unit hx, mul_one, abs_of_nonneg ht]
  rw [scalarMul_eq hsm, hn, artanK_tanK hη hs, scalarMul_eq hx, scalarMul_eq hx, mul_assoc]
  rw [hn] at hsm
  have : 0 < tanK η k (s * artanK η k (nrm x)) := lt_of_lt_of_le (by norm_num) hsm
  congr 1
  rw [smul_smul, inv_mul_cancel₀ this.ne', one_smul]

/-- Möbius sum of two multiples of a unit vector. -/
lemma mAdd_collinear {k a b : ℝ} {e : Vec n} (he : e ⬝ᵥ e = 1) (h : 1 - k * a * b ≠ 0) :
    mAdd k (a • e) (b • e) = ((a + b) / (1 - k * a * b)) • e := by
  have hD : mobDenom k (a • e) (b • e) = (1 - k * a * b) ^ 2 := by
    unfold mobDenom; dots; rw [he]; ring
  rw [mAdd, hD]
  dots
  rw [he, smul_smul, smul_smul, ← add_smul, smul_smul]
  congr 1
  field_simp
  ring

/-- Distributive law, with the error caused by the `1e-15` regulariser made explicit:
for `r, s ≥ 0` in range, `(r+s) ⊗ x` and `r ⊗ x + s ⊗ x` are parallel and differ by at
most `η (a+b) a b`, with `a = ‖r ⊗ x‖`, `b = ‖s ⊗ x‖`; so they are equal when `η = 0`. -/
theorem C13_add_smul_partial {η k r s : ℝ} (hη : 0 ≤ η) (hk : k < -1e-8) (hr : 0 ≤ r)
    (hs : 0 ≤ s) {x : Vec n} (hx : 1e-15 ≤ nrm x)
    (hlen : (r + s) * artanK η k (nrm x) * Real.sqrt (|k| + η) ≤ 15)
    (hD : 1e-15 ≤ mobDenom k (mobiusScalarMul η k r x) (mobiusScalarMul η k s x)) :
    nrm (mobiusAdd k (mobiusScalarMul η k r x) (mobiusScalarMul η k s x)
        - mobiusScalarMul η k (r + s) x) ≤
      η * ((nrm (mobiusScalarMul η k r x) + nrm (mobiusScalarMul η k s x)) *
        (nrm (mobiusScalarMul η k r x) * nrm (mobiusScalarMul η k s x))) := by
  have hk0 : k < 0 := by have := e8; linarith
  have hsq := kSqrt_pos hη hk0.ne
  have hs2 := kSqrt_sq hη k
  rw [abs_of_neg hk0] at hs2
  have hxp : 0 < nrm x := lt_of_lt_of_le (by norm_num) hx
  set A := artanK η k (nrm x) with hA
  set σ := kSqrt η k with hσ
  have hA0 : 0 ≤ A := by
    rw [hA, artanK_neg_curv hk]
    exact mul_nonneg (inv_nonneg.2 hsq.le) (artanhC_nonneg (mul_nonneg hxp.le hsq.le))
  change (r + s) * A * σ ≤ 15 at hlen
  have hrA : 0 ≤ r * A * σ := by positivity
  have hsA : 0 ≤ s * A * σ := by positivity
  have e1 : ∀ t : ℝ, 0 ≤ t * A * σ → t * A * σ ≤ 15 →
      tanK η k (t * A) = Real.tanh (t * A * σ) / σ := by
    intro t h1 h2
    rw [tanK_neg_curv hk, tanhC_eq (by linarith) h2, inv_mul_eq_div]
  rw [scalarMul_eq hx, scalarMul_eq hx, scalarMul_eq hx] at *
  rw [← hA] at *
  have he : ((nrm x)⁻¹ • x) ⬝ᵥ ((nrm x)⁻¹ • x) = 1 := by
    rw [← nrm_sq, nrm_unit hx]; norm_num
  set e := (nrm x)⁻¹ • x with hedef
  have hne : nrm e = 1 := nrm_unit hx
  clear_value e
  rw [mobiusAdd_eq hD]
  rw [e1 r hrA (by nlinarith), e1 s hsA (by nlinarith), e1 (r + s) (by positivity) hlen]
  set p := Real.tanh (r * A * σ) with hp
  set q := Real.tanh (s * A * σ) with hq
  have hp0 : 0 ≤ p := tanh_nonneg' hrA
  have hq0 : 0 ≤ q := tanh_nonneg' hsA
  have hsum : Real.tanh ((r + s) * A * σ) = (p + q) / (1 + p * q) := by
    have : (r + s) * A * σ = r * A * σ + s * A * σ := by ring
    rw [this, Real.tanh_eq_sinh_div_cosh, Real.sinh_add, Real.cosh_add, hp, hq,
      Real.tanh_eq_sinh_div_cosh, Real.tanh_eq_sinh_div_cosh]
    have c1 := (Real.cosh_pos (r * A * σ)).ne'
    have c2 := (Real.cosh_pos (s * A * σ)).ne'
    field_simp
  rw [hsum]
  have hden : 0 < 1 - k * (p / σ) * (q / σ) := by
    have : 0 ≤ -k * (p / σ) * (q / σ) := by
      have : 0 ≤ -k := by linarith
      positivity
    linarith
  rw [mAdd_collinear he hden.ne', ← sub_smul, nrm_smul, hne, mul_one, nrm_smul, nrm_smul, hne,
    mul_one, mul_one, abs_of_nonneg (show 0 ≤ p / σ by positivity),
    abs_of_nonneg (show 0 ≤ q / σ by positivity)]
  set a := p / σ with ha
  set b := q / σ with hb
  have ha0 : 0 ≤ a := by positivity
  have hb0 : 0 ≤ b := by positivity
  have hpa : p = a * σ := by rw [ha]; field_simp
  have hqb : q = b * σ := by rw [hb]; field_simp
  have hkey : (a + b) / (1 - k * a * b) - (p + q) / (1 + p * q) / σ =
      η * ((a + b) * (a * b)) / ((1 - k * a * b) * (1 + (-k + η) * (a * b))) := by
    have h2 : (p + q) / (1 + p * q) / σ = (a + b) / (1 + (-k + η) * (a * b)) := by
      rw [← hs2, hpa, hqb]; field_simp
    rw [h2]
    have : 0 < 1 + (-k + η) * (a * b) := by
      have : 0 ≤ -k + η := by linarith
      positivity
    rw [div_sub_div _ _ hden.ne' this.ne']
    congr 1
    ring
  rw [hkey]
  have hk1 : 1 ≤ 1 - k * a * b := by
    have : 0 ≤ -k * a * b := by
      have : 0 ≤ -k := by linarith
      positivity
    linarith
  have hk2 : 1 ≤ 1 + (-k + η) * (a * b) := by
    have : 0 ≤ -k + η := by linarith
    have : 0 ≤ (-k + η) * (a * b) := by positivity
    linarith
  rw [abs_of_nonneg (by positivity)]
  apply div_le_self (by positivity)
  nlinarith

/-- A geodesic starts at `x`, for all arguments. -/
theorem C10_geodesic_zero (η k : ℝ) (x y : Vec n) : geodesic η k 0 x y = x := by
  rw [geodesic, C13_zero_smul, C03_add_zero]

/-- A geodesic ends at `y` (ball). -/
theorem C10_geodesic_one {η k : ℝ} (hη : 0 ≤ η) (hk : k < -1e-8) {dt : DType} {x y : Vec n}
    (hx : Valid η dt k x) (hy : Valid η dt k y)
    (hfar : nrm (mobiusAdd k (-x) y) * Real.sqrt (|k| + η) ≤ 1 - 1e-7)
    (hnear : x = y ∨ 1e-15 ≤ nrm (mobiusAdd k (-x) y)) : geodesic η k 1 x y = y := by
  have hk0 : k < 0 := by have := e8; linarith
  rw [geodesic, C13_one_smul hη _ ⟨nrm_nonneg _, Or.inr (Or.inr ⟨hk, hfar⟩)⟩]
  · exact C03_solve hη hk0 hx (valid_openBall hη hk0 hy)
  · rcases hnear with rfl | h
    · left; exact C03_neg_add k x
    · right; exact h

/-- Along a geodesic the distance from the start is proportional to `t` (ball). -/
theorem C10_geodesic_speed {η k t : ℝ} (hη : 0 ≤ η) (hk : k < -1e-8) (ht : 0 ≤ t) (ht1 : t ≤ 1)
    {dt : DType} {x y : Vec n} (hx : Valid η dt k x)
    (hfar : nrm (mobiusAdd k (-x) y) * Real.sqrt (|k| + η) ≤ 1 - 1e-7)
    (hnear : x = y ∨ 1e-15 ≤ nrm (mobiusAdd k (-x) y)) :
    dist η k x (geodesic η k t x y) = t * dist η k x y := by
  have hk0 : k < 0 := by have := e8; linarith
  rcases hnear with rfl | h
  · simp [geodesic, C03_neg_add, mobiusScalarMul, C03_add_zero, dist, artanK_zero]
  · have hr : RadiusOk η k (nrm (mobiusAdd k (-x) y)) :=
      ⟨nrm_nonneg _, Or.inr (Or.inr ⟨hk, hfar⟩)⟩
    have hl := halfLenOk_artanK hη hr ht ht1
    have hb : OpenBall k (mobiusScalarMul η k t (mobiusAdd k (-x) y)) := by
      rw [scalarMul_eq h]
      exact openBall_tanK hη hk _ _ (nrm_unit h).le
    rw [dist, geodesic, C03_left_cancel_ball hη hk0 hx hb, scalarMul_eq h, nrm_smul, nrm_unit h,
      mul_one, abs_of_nonneg (tanK_nonneg hl), artanK_tanK hη hl, dist]
    exact mul_left_comm _ _ _

/-- `geodesic_unit` is parametrised by arc length (ball): the point at parameter `t` is
at distance `t`, for every non-zero direction. -/
theorem C10_geodesic_unit_speed {η k t : ℝ} (hη : 0 ≤ η) (hk : k < -1e-8) (ht : 0 ≤ t)
    {dt : DType} {x u : Vec n} (hx : Valid η dt k x) (hu : 1e-15 ≤ nrm u)
    (hlen : t * Real.sqrt (|k| + η) ≤ 16) :
    dist η k x (geodesicUnit η k t x u) = t := by
  have hk0 : k < 0 := by have := e8; linarith
  have e2 : t / 2.0 = t / 2 := by rw [show (2.0 : ℝ) = 2 by norm_num]
  have hl : HalfLenOk η k (t / 2) := by
    refine halfLenOk_of_le_eight hk (div_nonneg ht (by norm_num)) ?_
    rw [div_mul_eq_mul_div, div_le_iff₀ (by norm_num)]
    exact hlen.trans (by norm_num)
  have hb := openBall_tanK hη hk (t / 2) ((nrm u)⁻¹ • u) (nrm_unit hu).le
  simp only [geodesicUnit, max_norm_eq hu, e2]
  rw [dist, C03_left_cancel_ball hη hk0 hx hb, nrm_smul, nrm_unit hu, mul_one,
    abs_of_nonneg (tanK_nonneg hl), artanK_tanK hη hl,
    show (2.0 : ℝ) = 2 by norm_num]
  ring

/-! ### The hypotheses of the theorems above hold at a concrete configuration -/

/-- two points of the unit Poincaré disc (curvature -1) -/
def pA : Vec 2 := ![0.5, 0.3]
def pB : Vec 2 := ![-0.2, 0.6]

lemma pA_valid (dt : DType) : Valid codeEta dt (-1) pA := by
  apply valid_of_sq codeEta_nonneg (by norm_num)
  cases dt <;> simp only [dotProduct, Fin.sum_univ_two, codeEta, projEps, pA] <;> norm_num

lemma pB_valid (dt : DType) : Valid codeEta dt (-1) pB := by
  apply valid_of_sq codeEta_nonneg (by norm_num)
  cases dt <;> simp only [dotProduct, Fin.sum_univ_two, codeEta, projEps, pB] <;> norm_num

lemma pAB_dot : mobiusAdd (-1) (-pA) pB ⬝ᵥ mobiusAdd (-1) (-pA) pB = 0.58 / 0.976 := by
  have hD : mobDenom (-1) (-pA) pB = 0.976 := by
    norm_num [mobDenom, pA, pB, dotProduct, Fin.sum_univ_two]
  rw [mobiusAdd_eq (by rw [hD]; norm_num), mAdd_self (by rw [hD]; norm_num), hD]
  norm_num [pA, pB, dotProduct, Fin.sum_univ_two]

lemma pAB_far : nrm (mobiusAdd (-1) (-pA) pB) * Real.sqrt (|(-1 : ℝ)| + codeEta) ≤ 1 - 1e-7 := by
  apply le_of_abs_le
  apply abs_le_of_sq_le_sq _ (by norm_num)
  rw [mul_pow, nrm_sq, pAB_dot, Real.sq_sqrt (by norm_num [codeEta])]
  norm_num [codeEta]

lemma pAB_near : 2e-10 ≤ nrm (mobiusAdd (-1) (-pA) pB) := by
  apply Real.le_sqrt_of_sq_le
  rw [pAB_dot]; norm_num

/-- `C05_exp_log_ball`, `C07_norm_log_eq_dist`, `C10_geodesic_one`, `C10_geodesic_speed` apply -/
example : M.expmap true codeEta .f64 (-1) pA (M.logmap codeEta (-1) pA pB) = pB ∧
    norm (-1) pA (logmap codeEta (-1) pA pB) = dist codeEta (-1) pA pB ∧
    geodesic codeEta (-1) 1 pA pB = pB ∧
    dist codeEta (-1) pA (geodesic codeEta (-1) 0.25 pA pB) = 0.25 * dist codeEta (-1) pA pB :=
  have h15 : (1e-15 : ℝ) ≤ nrm (mobiusAdd (-1) (-pA) pB) := le_trans (by norm_num) pAB_near
  ⟨C05_exp_log_ball codeEta_nonneg (by norm_num) (by norm_num [codeEta]) (by norm_num) true
    (pA_valid _) (pB_valid _) pAB_far (Or.inr pAB_near),
   C07_norm_log_eq_dist ⟨nrm_nonneg _, Or.inr (Or.inr ⟨by norm_num, pAB_far⟩)⟩ (Or.inr h15),
   C10_geodesic_one codeEta_nonneg (by norm_num) (pA_valid .f64) (pB_valid .f64) pAB_far
    (Or.inr h15),
   C10_geodesic_speed codeEta_nonneg (by norm_num) (by norm_num) (by norm_num) (pA_valid .f64)
    pAB_far (Or.inr h15)⟩

lemma lambda_pA : lambdaX (-1) pA = 2 / 0.66 := by
  norm_num [lambdaX, pA, dotProduct, Fin.sum_univ_two]

/-- `C05_log_exp_ball`, `C07_dist_exp_eq_norm_ball` and `C10_geodesic_unit_speed` apply -/
example : logmap codeEta (-1) pA (expmap codeEta (-1) pA ![3, -4]) = ![3, -4] := by
  have hu : nrm (![3, -4] : Vec 2) = 5 := nrm_eq_of_dot_eq (by norm_num)
    (by norm_num [dotProduct, Fin.sum_univ_two])
  apply C05_log_exp_ball codeEta_nonneg (by norm_num) (pA_valid .f64)
  · right; rw [hu]; norm_num
  · rw [lambda_pA, hu]
    have : Real.sqrt (|(-1 : ℝ)| + codeEta) ≤ 1.01 := by
      rw [Real.sqrt_le_left (by norm_num)]; norm_num [codeEta]
    nlinarith

/-- the general theorem also covers positive curvature -/
example : RadiusOk codeEta 2 17 ∧ HalfLenOk codeEta 0 5 :=
  ⟨⟨by norm_num, Or.inr (Or.inl (by norm_num))⟩, by norm_num, Or.inl rfl⟩

end Geoopt.Stereo
