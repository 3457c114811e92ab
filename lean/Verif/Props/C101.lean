import Verif.Props.C01
import Verif.Props.C06
import Verif.Props.C20
import Verif.Props.C28
import Verif.Props.C35
import Verif.Lemmas.NearFlat
import Mathlib.Analysis.SpecialFunctions.Trigonometric.Bounds

/-!
# C101: a step along `u` ends no further away than `u` is long
-/

/-! ## Symmetric positive definite matrices -/

namespace Geoopt.SPD
open Geoopt Geoopt.Linalg Matrix
variable {n : ℕ} (E : Eigh n)

theorem abs_log_quad_le (t : ℝ) : Real.log (1 + t + t ^ 2 / 2) ^ 2 ≤ t ^ 2 := by
  have hpos : 0 < 1 + t + t ^ 2 / 2 := by nlinarith [sq_nonneg (t + 1)]
  have hup : ∀ s : ℝ, 0 ≤ s → 1 + s + s ^ 2 / 2 ≤ Real.exp s := fun s hs => by
    have := Real.quadratic_le_exp_of_nonneg hs
    linarith
  refine sq_le_sq.2 (abs_le.2 ⟨?_, ?_⟩)
  · rw [Real.le_log_iff_exp_le hpos, Real.exp_neg]
    rcases le_or_gt 0 t with h | h
    · rw [abs_of_nonneg h]
      refine le_trans (inv_le_one_of_one_le₀ (Real.one_le_exp h)) ?_
      nlinarith [sq_nonneg t]
    · rw [abs_of_neg h]
      have h1 := hup (-t) (by linarith)
      have h2 : 0 < 1 + -t + (-t) ^ 2 / 2 := by nlinarith
      refine le_trans (inv_anti₀ h2 h1) ?_
      rw [inv_le_iff_one_le_mul₀ h2]
      have : (1 + t + t ^ 2 / 2) * (1 + -t + (-t) ^ 2 / 2) = 1 + t ^ 4 / 4 := by ring
      rw [this]
      have : 0 ≤ t ^ 4 := by positivity
      linarith
  · rw [Real.log_le_iff_le_exp hpos]
    rcases le_or_gt 0 t with h | h
    · rw [abs_of_nonneg h]; exact hup t h
    · rw [abs_of_neg h]
      have h1 := hup (-t) (by linarith)
      nlinarith

/-- **C101, SPD matrices with the affine invariant metric.** `dist(x, retr(x, u))` is at most the length of
`u`, for every SPD `x` and every symmetric `u` (no smallness). -/
theorem C101_retr {x u : Mat n} (hx : OnSPD x) (hu : Symm u) :
    dist E .AIM x (retr x u) ^ 2 ≤ inner x u u := by
  have r := roots (E := E) hx
  have hut := symm_iff.1 hu
  have hxi : x⁻¹ᵀ = x⁻¹ := by rw [Matrix.transpose_nonsing_inv, hx.tr]
  have hss : (x + u + (0.5 : ℝ) • u * x⁻¹ * u)ᵀ = x + u + (0.5 : ℝ) • u * x⁻¹ * u := by
    simp only [transpose_add, transpose_mul, transpose_smul, hx.tr, hut, hxi, Matrix.smul_mul,
      Matrix.mul_smul, Matrix.mul_assoc]
  rw [aim_eq E hx]
  unfold inner symInvm
  show _ ≤ Matrix.trace _
  rw [← r.inv]
  have hret : retr x u = x + u + (1 / 2 : ℝ) • (u * ((symInvSqrtm2 E x).1 * (symInvSqrtm2 E x).1) * u) := by
    unfold retr symInvm
    simp only
    rw [sym_of_symm hss, r.inv, show (0.5 : ℝ) = 1 / 2 by norm_num]
    simp only [Matrix.smul_mul]
  rw [hret]
  generalize (symInvSqrtm2 E x).1 = R at *
  generalize (symInvSqrtm2 E x).2 = S at *
  have hw : (R * u * R)ᵀ = R * u * R := by
    simp only [transpose_mul, r.rsymm, hut, Matrix.mul_assoc]
  obtain ⟨e, v, hd⟩ := exists_dec hw
  have hmid : R * (x + u + (1 / 2 : ℝ) • (u * (R * R) * u)) * R =
      fn (fun t => 1 + t + t ^ 2 / 2) e v := by
    have e1 : R * (x + u + (1 / 2 : ℝ) • (u * (R * R) * u)) * R =
        R * x * R + R * u * R + (1 / 2 : ℝ) • ((R * u * R) * (R * u * R)) := by
      simp only [Matrix.mul_add, Matrix.add_mul, Matrix.mul_smul, Matrix.smul_mul, Matrix.mul_assoc]
    rw [e1, r.rxr]
    have e2 : fn (fun t => 1 + t + t ^ 2 / 2) e v =
        fn (fun _ => 1) e v + fn (fun t => t) e v + (1 / 2 : ℝ) • fn (fun t => t * t) e v := by
      unfold fn
      rw [← Matrix.add_mul, ← Matrix.mul_add, ← Matrix.smul_mul, ← Matrix.mul_smul, ← Matrix.add_mul,
        ← Matrix.mul_add]
      congr 2
      ext i j
      by_cases h : i = j
      · subst h; simp; ring
      · simp [h]
    rw [e2, fn_const hd, one_smul, ← fn_mul hd.orth, fn_id hd]
  have hdm : Dec (R * (x + u + (1 / 2 : ℝ) • (u * (R * R) * u)) * R)
      (fun i => 1 + e i + e i ^ 2 / 2) v := by
    rw [hmid]; exact fn_dec hd _
  have hnn : 0 ≤ frob (symLogm E (R * (x + u + (1 / 2 : ℝ) • (u * (R * R) * u)) * R))
      (symLogm E (R * (x + u + (1 / 2 : ℝ) • (u * (R * R) * u)) * R)) :=
    Finset.sum_nonneg fun i _ => Finset.sum_nonneg fun j _ => mul_self_nonneg _
  rw [frobNorm, Real.sq_sqrt hnn, frob_symLogm E hdm]
  have htr : Matrix.trace (R * R * u * (R * R) * u) = ∑ i, e i ^ 2 := by
    have : Matrix.trace (R * R * u * (R * R) * u) = Matrix.trace ((R * u * R) * (R * u * R)) := by
      rw [show R * R * u * (R * R) * u = R * (R * u * (R * R) * u) by simp only [Matrix.mul_assoc],
        Matrix.trace_mul_comm]
      simp only [Matrix.mul_assoc]
    rw [this]
    have : R * u * R * (R * u * R) = fn (fun t => t * t) e v := by
      rw [← fn_mul hd.orth, fn_id hd]
    rw [this, fn_trace hd.orth]
    exact Finset.sum_congr rfl fun i _ => by ring
  rw [htr]
  exact Finset.sum_le_sum fun i _ => abs_log_quad_le _

/-- `expmap` covers exactly the length of `u`. -/
theorem C101_expmap {x u : Mat n} (hx : OnSPD x) (hu : Symm u) :
    dist E .AIM x (expmap E x u) ^ 2 = inner x u u := C30_dist_expmap E hx hu

example : dist (someEigh 2) .AIM sampleA (retr sampleA sampleB) ^ 2 ≤ inner sampleA sampleB sampleB :=
  C101_retr _ sampleA_spd sampleB_spd.1

end Geoopt.SPD

/-! ## Spheres -/

namespace Geoopt.Sphere
open Geoopt
variable {n : ℕ} {S : Set (Vec n)} {P : Option (Matrix (Fin n) (Fin n) ℝ)} (hP : Projects S P)

theorem dist_le_max {dt : DType} {x y : Vec n} {t : ℝ} (h : Real.arccos (x ⬝ᵥ y) ≤ t) :
    dist dt x y ≤ max t (Real.arccos (1 - eps dt)) := by
  rw [dist, inner]
  have h0 := eps_pos dt
  have h4 := eps_small dt
  rcases le_total (x ⬝ᵥ y) (1 - eps dt) with hc | hc
  · refine le_trans (Real.arccos_le_arccos ?_) (le_trans h (le_max_left _ _))
    rw [clamp]
    exact le_min (le_max_left _ _) hc
  · refine le_trans (Real.arccos_le_arccos ?_) (le_max_right _ _)
    rw [clamp]
    exact le_min (le_trans hc (le_max_left _ _)) le_rfl

theorem arccos_retr_le {t : ℝ} (ht : 0 ≤ t) : Real.arccos (1 / Real.sqrt (t ^ 2 + 1)) ≤ t := by
  rcases le_or_gt t Real.pi with h | h
  · have := Real.cos_le_one_div_sqrt_sq_add_one (x := t) (by linarith [Real.pi_pos])
      (by linarith [Real.pi_pos])
    exact le_trans (Real.arccos_le_arccos this) (by rw [Real.arccos_cos ht h])
  · exact le_trans (Real.arccos_le_pi _) h.le

include hP in
/-- The angle between `x` and `retr(x, u)`. -/
theorem angle_retr_le {x u : Vec n} (hx : OnSphere S x) (hu : Tangent S x u) :
    Real.arccos (x ⬝ᵥ retr P x u) ≤ nrm u := by
  refine le_trans (le_of_eq ?_) (arccos_retr_le (nrm_nonneg u))
  have hm : x + u ∈ S := add_mem hP hx.2 hu.2
  have hxu : x ⬝ᵥ u = 0 := hu.1
  have hn : nrm (x + u) = Real.sqrt (nrm u ^ 2 + 1) := by
    rw [nrm_sq]
    unfold nrm
    congr 1
    simp only [add_dotProduct, dotProduct_add, hx.1, hxu, dotProduct_comm u x]
    ring
  rw [retr, projx, pos_fix hP hm, dotProduct_smul, dotProduct_add, hx.1, hxu, add_zero, hn, smul_eq_mul,
    mul_one, one_div]

include hP in
/-- The angle between `x` and `expmap(x, u)`. -/
theorem angle_expmap_le (dt : DType) {x u : Vec n} (hx : OnSphere S x) (hu : Tangent S x u) :
    Real.arccos (x ⬝ᵥ expmap P dt x u) ≤ nrm u := by
  have hxu : x ⬝ᵥ u = 0 := hu.1
  unfold expmap
  split_ifs with h
  · rw [dotProduct_add, dotProduct_smul, dotProduct_smul, hx.1, hxu, smul_eq_mul, smul_zero, add_zero,
      mul_one]
    rcases le_or_gt (nrm u) Real.pi with h | h
    · rw [Real.arccos_cos (nrm_nonneg u) h]
    · exact le_trans (Real.arccos_le_pi _) h.le
  · exact angle_retr_le hP hx hu

include hP in
/-- **C101, spheres: `retr`.** `dist(x, retr(x, u))` is at most the length of `u`, or the smallest value
`dist` can return, if that is larger. -/
theorem C101_retr (dt : DType) {x u : Vec n} (hx : OnSphere S x) (hu : Tangent S x u) :
    dist dt x (retr P x u) ≤ max (nrm u) (Real.arccos (1 - eps dt)) :=
  dist_le_max (angle_retr_le hP hx hu)

include hP in
/-- **C101, spheres: `expmap`.** -/
theorem C101_expmap (dt : DType) {x u : Vec n} (hx : OnSphere S x) (hu : Tangent S x u) :
    dist dt x (expmap P dt x u) ≤ max (nrm u) (Real.arccos (1 - eps dt)) :=
  dist_le_max (angle_expmap_le hP dt hx hu)

/-- The second bound is needed: the zero vector has length 0, but the distance is more than `1e-4`. -/
theorem C101_counterexample_zero (dt : DType) {x : Vec n} (hx : x ⬝ᵥ x = 1) :
    nrm (0 : Vec n) = 0 ∧ retr none x 0 = x ∧ 1e-4 < dist dt x (retr none x 0) := by
  have e : retr none x 0 = x := by
    rw [retr, add_zero, projx]
    have : nrm x = 1 := by unfold nrm; rw [hx, Real.sqrt_one]
    simp [projectOnSubspace, this]
  refine ⟨by simp [nrm], e, ?_⟩
  rw [e]
  exact (C22_counterexample_dist_self dt hx).2

example : dist .f64 (![1, 0] : Vec 2) (retr none ![1, 0] ![0, 2]) ≤
    max (nrm (![0, 2] : Vec 2)) (Real.arccos (1 - eps .f64)) :=
  C101_retr (S := Set.univ) (P := none) rfl _ ⟨by simp [dotProduct, Fin.sum_univ_two], trivial⟩
    ⟨by simp [dotProduct, Fin.sum_univ_two], trivial⟩

end Geoopt.Sphere

/-! ## The Poincaré ball -/

namespace Geoopt.Stereo
open Geoopt
variable {n : ℕ}

theorem tanh_concave : ConcaveOn ℝ (Set.Ici 0) Real.tanh := by
  refine AntitoneOn.concaveOn_of_deriv (convex_Ici 0) ?_ ?_ ?_
  · exact fun z _ => (NearFlat.hasDerivAt_tanh' z).continuousAt.continuousWithinAt
  · exact fun z _ => (NearFlat.hasDerivAt_tanh' z).differentiableAt.differentiableWithinAt
  · intro a ha b hb hab
    rw [interior_Ici] at ha hb
    rw [(NearFlat.hasDerivAt_tanh' a).deriv, (NearFlat.hasDerivAt_tanh' b).deriv]
    have h1 := tanh_nonneg' (le_of_lt ha)
    have h2 := tanh_mono hab
    nlinarith

theorem smul_tanh_le {c b : ℝ} (h0 : 0 ≤ c) (h1 : c ≤ 1) (hb : 0 ≤ b) :
    c * Real.tanh b ≤ Real.tanh (c * b) := by
  have := tanh_concave.2 (Set.mem_Ici.2 (le_refl (0 : ℝ))) (Set.mem_Ici.2 hb)
    (show 0 ≤ 1 - c by linarith) h0 (by ring)
  simpa using this

theorem artanhC_le_of_le_tanh {z t : ℝ} (h0 : 0 ≤ z) (h : z ≤ Real.tanh t) : artanhC z ≤ t := by
  rw [artanhC_eq_artanh]
  have hle : clamp (-1 + 1e-7) (1 - 1e-7) z ≤ z := by
    rw [clamp]
    refine le_trans (min_le_left _ _) (max_le le_rfl ?_)
    exact le_trans (by norm_num) h0
  have := (Real.artanh_le_artanh_iff (clampA_mem z) ⟨neg_one_lt_tanh' t, tanh_lt_one' t⟩).2
    (le_trans hle h)
  rwa [Real.artanh_tanh] at this

theorem tanhC_le {b : ℝ} (hb : 0 ≤ b) : tanhC b ≤ Real.tanh b := by
  rw [tanhC]
  refine tanh_mono ?_
  rw [clamp]
  exact le_trans (min_le_left _ _) (max_le le_rfl (by linarith))

theorem kSqrt_le {η η' k : ℝ} (hη' : 0 ≤ η') (h : η' ≤ η) : kSqrt η' k ≤ kSqrt η k := by
  refine abs_le_of_sq_le_sq ?_ (Real.sqrt_nonneg _) |> le_trans (le_abs_self _)
  rw [kSqrt_sq hη', kSqrt_sq (le_trans hη' h)]
  linarith

/-- Without projection; `dist` may use a smaller regulariser (0 gives the geodesic distance). -/
theorem dist_expmap_le {η η' k : ℝ} (hη' : 0 ≤ η') (hle : η' ≤ η) (hk : k < -1e-8) {dt : DType}
    {x : Vec n} (hx : Valid η dt k x) (u : Vec n) : dist η' k x (expmap η k x u) ≤ norm k x u := by
  have hη : 0 ≤ η := le_trans hη' hle
  have hk0 : k < 0 := by have := e8; linarith
  have hs := kSqrt_pos hη hk0.ne
  have hs' := kSqrt_pos hη' hk0.ne
  have hlam := lambdaX_pos k x
  set m := max (nrm u) 1e-15 with hm
  have hm0 : 0 < m := lt_max_of_lt_right (by norm_num)
  have hc0' : 0 ≤ nrm u / m := div_nonneg (nrm_nonneg u) hm0.le
  have hc1' : nrm u / m ≤ 1 := (div_le_one hm0).2 (le_max_left _ _)
  have hr0 : 0 ≤ kSqrt η' k / kSqrt η k := by positivity
  have hr1 : kSqrt η' k / kSqrt η k ≤ 1 := (div_le_one hs).2 (kSqrt_le hη' hle)
  have hc0 : 0 ≤ nrm u / m * (kSqrt η' k / kSqrt η k) := mul_nonneg hc0' hr0
  have hc1 : nrm u / m * (kSqrt η' k / kSqrt η k) ≤ 1 := mul_le_one₀ hc1' hr0 hr1
  have hv : nrm (m⁻¹ • u) = nrm u / m := by
    rw [nrm_smul, abs_of_pos (inv_pos.2 hm0), div_eq_mul_inv, mul_comm]
  have e2 : (2.0 : ℝ) = 2 := by norm_num
  have hexp : expmap η k x u = mobiusAdd k x (tanK η k (lambdaX k x / 2 * m) • (m⁻¹ • u)) := by
    simp only [expmap, ← hm, e2]
  have hb := openBall_tanK hη hk (lambdaX k x / 2 * m) (m⁻¹ • u) (by rw [hv]; exact hc1')
  obtain ⟨h1, h2, h3⟩ := left_cancel_ok hη hk0 hx hb
  have hb0 : 0 ≤ lambdaX k x / 2 * m * kSqrt η k := by positivity
  rw [dist, hexp, C03_left_cancel h1 h2 (by intro h; rw [h] at h3; norm_num at h3), nrm_smul, hv,
    tanK_neg_curv hk, artanK_neg_curv hk, norm, e2,
    abs_of_nonneg (mul_nonneg (inv_nonneg.2 hs.le) (tanhC_nonneg hb0))]
  have e3 : (kSqrt η k)⁻¹ * tanhC (lambdaX k x / 2 * m * kSqrt η k) * (nrm u / m) * kSqrt η' k =
      nrm u / m * (kSqrt η' k / kSqrt η k) * tanhC (lambdaX k x / 2 * m * kSqrt η k) := by
    field_simp
  rw [e3]
  have h4 := artanhC_le_of_le_tanh (mul_nonneg hc0 (tanhC_nonneg hb0))
      (le_trans (mul_le_mul_of_nonneg_left (tanhC_le hb0) hc0) (smul_tanh_le hc0 hc1 hb0))
  have h5 : nrm u / m * (kSqrt η' k / kSqrt η k) * (lambdaX k x / 2 * m * kSqrt η k) =
      lambdaX k x * nrm u / 2 * kSqrt η' k := by
    field_simp
  rw [h5] at h4
  have h6 := mul_le_mul_of_nonneg_left h4 (inv_nonneg.2 hs'.le)
  have h7 : (kSqrt η' k)⁻¹ * (lambdaX k x * nrm u / 2 * kSqrt η' k) = lambdaX k x * nrm u / 2 := by
    field_simp
  linarith

/-- Shrinking `y` towards the origin, to a point `c • y` still no closer to the origin than `x`, brings it
closer to `x`. -/
theorem shrink_le {K a s p c : ℝ} (hK : 0 ≤ K) (ha : 0 ≤ a) (hs : 0 ≤ s) (hc1 : c ≤ 1) (hc0 : 0 ≤ c)
    (hac : a ≤ c * s) (hp : p ≤ a * s) (hb : K * (c * s) ^ 2 ≤ 1) :
    (a ^ 2 - 2 * (c * p) + c ^ 2 * s ^ 2) * (1 - K * s ^ 2) ≤
      (a ^ 2 - 2 * p + s ^ 2) * (1 - K * (c ^ 2 * s ^ 2)) := by
  have e : (a ^ 2 - 2 * p + s ^ 2) * (1 - K * (c ^ 2 * s ^ 2)) -
      (a ^ 2 - 2 * (c * p) + c ^ 2 * s ^ 2) * (1 - K * s ^ 2) =
      (1 - c) * ((1 + c) * s ^ 2 * (1 + K * a ^ 2) - 2 * p * (1 + K * c * s ^ 2)) := by ring
  have h1 : 2 * p * (1 + K * c * s ^ 2) ≤ 2 * (a * s) * (1 + K * c * s ^ 2) :=
    mul_le_mul_of_nonneg_right (by linarith) (by positivity)
  have e2 : (1 + c) * s ^ 2 * (1 + K * a ^ 2) - 2 * (a * s) * (1 + K * c * s ^ 2) =
      s * ((1 - c) * s * (1 - K * (c * s) ^ 2) +
        (c * s - a) * (2 + 2 * K * c * s ^ 2 - (1 + c) * s * K * (a + c * s))) := by ring
  have h2 : (1 + c) * s * K * (a + c * s) ≤ (1 + c) * s * K * (c * s + c * s) :=
    mul_le_mul_of_nonneg_left (by linarith) (by positivity)
  have e3 : (1 + c) * s * K * (c * s + c * s) = 2 * K * c * s ^ 2 + 2 * (K * (c * s) ^ 2) := by ring
  have h3 : 0 ≤ 2 + 2 * K * c * s ^ 2 - (1 + c) * s * K * (a + c * s) := by linarith
  have h4 : 0 ≤ (1 - c) * s * (1 - K * (c * s) ^ 2) :=
    mul_nonneg (mul_nonneg (by linarith) hs) (by linarith)
  have h5 : 0 ≤ (c * s - a) * (2 + 2 * K * c * s ^ 2 - (1 + c) * s * K * (a + c * s)) :=
    mul_nonneg (by linarith) h3
  have h6 : 0 ≤ s * ((1 - c) * s * (1 - K * (c * s) ^ 2) +
        (c * s - a) * (2 + 2 * K * c * s ^ 2 - (1 + c) * s * K * (a + c * s))) :=
    mul_nonneg hs (by linarith)
  have h7 : 0 ≤ (1 - c) * ((1 + c) * s ^ 2 * (1 + K * a ^ 2) - 2 * p * (1 + K * c * s ^ 2)) :=
    mul_nonneg (by linarith) (by linarith)
  linarith

/-- Projection onto the ball does not increase the distance from an accepted point. -/
theorem nrm_project_shrink {η k : ℝ} (hη : 0 ≤ η) (hη1 : η ≤ 1) (hk : k < 0) (hbig : |k| ≤ 1e29)
    {dt : DType} {x y : Vec n} (hx : Valid η dt k x) (hy : OpenBall k y)
    (hD : 1e-15 ≤ mobDenom k (-x) y) :
    nrm (mobiusAdd k (-x) (project η dt k y)) ≤ nrm (mobiusAdd k (-x) y) := by
  rcases le_or_gt (nrm y) (maxNorm η dt k) with h | h
  · have : project η dt k y = y := by
      have hv : Valid η dt k y := (valid_iff hk).2 h
      exact (C02_projx_fixes_exactly_valid hη hη1 hk hbig dt y).2 hv
    rw [this]
  · have hR := maxNorm_pos (k := k) hη dt
    have hs0 : 0 < nrm y := lt_trans hR h
    have hk' : 0 ≤ -k := by linarith
    set R := maxNorm η dt k with hRdef
    have hpv : Valid η dt k (project η dt k y) := (valid_iff hk).2 (nrm_project_le hη dt y)
    have hmax : max (nrm y) 1e-15 = nrm y := by
      refine max_eq_left (le_trans ?_ h.le)
      by_contra hcon
      rw [not_le] at hcon
      -- the ball is not smaller than the floor of the norm
      have hs := kSqrt_pos hη hk.ne
      rw [hRdef, maxNorm_neg hk, div_lt_iff₀ hs] at hcon
      have h1 : kSqrt η k ≤ 9e14 := by
        rw [kSqrt, sabs, Real.sqrt_le_left (by norm_num)]
        calc |k| + η ≤ 1e29 + 1 := add_le_add hbig hη1
          _ ≤ 9e14 ^ 2 := by norm_num
      have h2 : (0.99 : ℝ) ≤ 1 - projEps dt := by cases dt <;> norm_num [projEps]
      have : (1e-15 : ℝ) * kSqrt η k ≤ 1e-15 * 9e14 := mul_le_mul_of_nonneg_left h1 (by norm_num)
      norm_num at this h2 hcon
      linarith
    have hpr : project η dt k y = (R / nrm y) • y := by
      simp only [project, hmax, ← hRdef]
      rw [if_pos h, smul_smul, div_eq_mul_inv]
    have hpv' := hpv
    rw [hpr] at hpv' ⊢
    set c := R / nrm y with hc
    have hc0 : 0 ≤ c := by positivity
    have hc1 : c ≤ 1 := (div_le_one hs0).2 h.le
    have hcs : c * nrm y = R := by rw [hc]; field_simp
    have hD2 : 1e-15 ≤ mobDenom k (-x) (c • y) :=
      le_trans (by norm_num) (mobDenom_valid hη hk (valid_neg.2 hx) hpv')
    rw [mobiusAdd_eq hD, mobiusAdd_eq hD2]
    have p1 : 0 < mobDenom k (-x) y := lt_of_lt_of_le (by norm_num) hD
    have p2 : 0 < mobDenom k (-x) (c • y) := lt_of_lt_of_le (by norm_num) hD2
    unfold nrm
    refine Real.sqrt_le_sqrt ?_
    rw [mAdd_self p1.ne', mAdd_self p2.ne', div_le_div_iff₀ p2 p1]
    have hxa : nrm x ≤ R := (valid_iff hk).1 hx
    have hb : -k * (c * nrm y) ^ 2 ≤ 1 := by
      have := valid_openBall hη hk hpv'
      unfold OpenBall at this
      rw [← nrm_sq, nrm_smul, abs_of_nonneg hc0] at this
      linarith
    have key := shrink_le (p := x ⬝ᵥ y) hk' (nrm_nonneg x) hs0.le hc1 hc0 (by rw [hcs]; exact hxa)
      (dot_le x y) hb
    rw [nrm_sq, nrm_sq] at key
    have hX : 0 ≤ 1 + k * (x ⬝ᵥ x) := by
      have := valid_openBall hη hk hx
      unfold OpenBall at this
      linarith
    have key2 := mul_le_mul_of_nonneg_left key hX
    have d1 : mobDenom k (-x) y = (1 + k * (x ⬝ᵥ x)) * (1 + k * (y ⬝ᵥ y)) -
        k * (x ⬝ᵥ x - 2 * (x ⬝ᵥ y) + y ⬝ᵥ y) := by
      unfold mobDenom; simp only [neg_dotProduct, dotProduct_neg]; ring
    have d2 : mobDenom k (-x) (c • y) = (1 + k * (x ⬝ᵥ x)) * (1 + k * (c ^ 2 * (y ⬝ᵥ y))) -
        k * (x ⬝ᵥ x - 2 * (c * (x ⬝ᵥ y)) + c ^ 2 * (y ⬝ᵥ y)) := by
      unfold mobDenom
      simp only [neg_dotProduct, dotProduct_neg, smul_dotProduct, dotProduct_smul, smul_eq_mul]; ring
    rw [d1, d2]
    simp only [neg_dotProduct, dotProduct_neg, smul_dotProduct, dotProduct_smul, smul_eq_mul, neg_neg]
    nlinarith [key2]

theorem expmap_le {η η' k : ℝ} (hη' : 0 ≤ η') (hle : η' ≤ η) (hη1 : η ≤ 1) (hk : k < -1e-8)
    (hbig : |k| ≤ 1e29) {dt : DType} {x : Vec n} (hx : Valid η dt k x) (u : Vec n) (p : Bool) :
    M.dist η' k x (M.expmap p η dt k x u) ≤ norm k x u := by
  have hk0 : k < 0 := by have := e8; linarith
  have hη : 0 ≤ η := le_trans hη' hle
  have hs := kSqrt_pos hη' hk0.ne
  refine le_trans ?_ (dist_expmap_le hη' hle hk hx u)
  unfold M.dist M.expmap withProject
  split_ifs
  · have hm0 : (0 : ℝ) < max (nrm u) 1e-15 := lt_max_of_lt_right (by norm_num)
    have hb := openBall_tanK hη hk (lambdaX k x / 2.0 * max (nrm u) 1e-15)
      ((max (nrm u) 1e-15)⁻¹ • u) (by
        rw [nrm_smul, abs_of_pos (inv_pos.2 hm0), inv_mul_eq_div]
        exact (div_le_one hm0).2 (le_max_left _ _))
    obtain ⟨h1, h2, h3⟩ := left_cancel_ok hη hk0 hx hb
    have p1 : 0 < mobDenom k x (tanK η k (lambdaX k x / 2.0 * max (nrm u) 1e-15) •
      ((max (nrm u) 1e-15)⁻¹ • u)) := lt_of_lt_of_le (by norm_num) h1
    have hD : 1e-15 ≤ mobDenom k (-x) (expmap η k x u) := by
      simp only [expmap]
      rw [mobiusAdd_eq h1, mobDenom_neg_mAdd p1.ne', le_div_iff₀ p1]
      exact h2
    have ho : OpenBall k (expmap η k x u) :=
      openBall_mobiusAdd hk0.le (valid_openBall hη hk0 hx) hb
    have := nrm_project_shrink hη hη1 hk0 hbig hx ho hD
    unfold dist
    rw [artanK_neg_curv hk, artanK_neg_curv hk]
    have h5 := artanhC_mono (mul_le_mul_of_nonneg_right this hs.le)
    have h6 := mul_le_mul_of_nonneg_left h5 (inv_nonneg.2 hs.le)
    norm_num at h6 ⊢
    exact h6
  · exact le_rfl

/-- **C101, Poincaré ball: `expmap`** (and `retr` of `PoincareBallExact`), with projection or without:
every accepted `x`, every `u`, however long.  The clamps of `tanh` and `artanh`, the floors and the
projection only shorten. -/
theorem C101_expmap {η k : ℝ} (hη : 0 ≤ η) (hη1 : η ≤ 1) (hk : k < -1e-8) (hbig : |k| ≤ 1e29)
    {dt : DType} {x : Vec n} (hx : Valid η dt k x) (u : Vec n) (p : Bool) :
    M.dist η k x (M.expmap p η dt k x u) ≤ norm k x u :=
  expmap_le hη le_rfl hη1 hk hbig hx u p

/-- **`retr` of the Poincaré ball is not bounded by the length of the step.** At the origin (every negative
curvature away from 0) every non-zero `u` inside the ball is overshot. -/
theorem C101_counterexample_retr {η k : ℝ} (hη : 0 ≤ η) (hη1 : η ≤ 1) (hk : k < -1e-8)
    (hbig : |k| ≤ 1e29) {dt : DType} {u : Vec n} (hu : Valid η dt k u) (hu0 : u ≠ 0) :
    norm k 0 u < M.dist η k 0 (M.retr η dt k 0 u) := by
  have hk0 : k < 0 := by have := e8; linarith
  have hs := kSqrt_pos hη hk0.ne
  have hn : 0 < nrm u := lt_of_le_of_ne (nrm_nonneg u) fun h => hu0 (nrm_eq_zero.1 h.symm)
  have hl : lambdaX k (0 : Vec n) = 2 := by
    unfold lambdaX
    rw [zero_dotProduct, mul_zero, add_zero, max_eq_left (by norm_num)]
    norm_num
  have hp : M.retr η dt k 0 u = u := by
    unfold M.retr
    rw [zero_add]
    exact (C02_projx_fixes_exactly_valid hη hη1 hk0 hbig dt u).2 hu
  rw [hp]
  unfold M.dist dist norm
  rw [neg_zero, C03_zero_add, artanK_neg_curv hk, hl]
  have h1 : nrm u * kSqrt η k ≤ 1 - 1e-7 := by
    have := (valid_iff hk0).1 hu
    rw [maxNorm_neg hk0, le_div_iff₀ hs] at this
    have h5 := projEps_ge dt
    norm_num at h5 ⊢
    linarith
  have h0 : 0 < nrm u * kSqrt η k := mul_pos hn hs
  rw [artanhC_eq (by norm_num; linarith) h1]
  have := NearFlat.lt_artanh h0 (by linarith [show (0:ℝ) < 1e-7 by norm_num])
  have h2 := mul_lt_mul_of_pos_left this (inv_pos.2 hs)
  have h3 : (kSqrt η k)⁻¹ * (nrm u * kSqrt η k) = nrm u := by field_simp
  norm_num at h2 ⊢
  linarith

example (u : Vec 2) : M.dist codeEta (-1) ![0.3, 0.4] (M.expmap true codeEta .f32 (-1) ![0.3, 0.4] u) ≤
    norm (-1) ![0.3, 0.4] u := by
  refine C101_expmap codeEta_nonneg (by norm_num [codeEta]) (by norm_num) (by norm_num) ?_ u true
  have hn : nrm (![0.3, 0.4] : Vec 2) = 0.5 :=
    nrm_eq_of_dot_eq (by norm_num) (by simp [dotProduct]; norm_num)
  refine (valid_iff (by norm_num)).2 ?_
  rw [hn, maxNorm_neg (by norm_num), le_div_iff₀ (kSqrt_pos codeEta_nonneg (by norm_num))]
  have h2 := kSqrt_sq codeEta_nonneg (-1)
  have h0 := kSqrt_pos codeEta_nonneg (show (-1 : ℝ) ≠ 0 by norm_num)
  have : kSqrt codeEta (-1) ≤ 1.5 := by
    have he : codeEta = 1e-15 := rfl
    rw [he] at h2 h0 ⊢
    norm_num at h2 h0 ⊢
    nlinarith
  norm_num [projEps] at this ⊢
  linarith

end Geoopt.Stereo

/-! ## The hyperboloid -/

namespace Geoopt.Lorentz
open Geoopt
variable {n : ℕ}

/-- **C101, hyperboloid: `expmap` = `retr`**, for tangent vectors above the floors. -/
theorem C101_expmap {k : ℝ} (hk : 0 < k) {x u : Vec (n + 1)} (hx : OnHyperboloid k x)
    (hu : Tangent x u) (h : 1e-8 ≤ mink u u) (h' : 1e-15 * k ≤ mink u u) :
    dist k x (expmap k x u) = Real.sqrt (mink u u) := by
  have hs : 0 < Real.sqrt k := Real.sqrt_pos.2 hk
  have hu' : mink x u = 0 := hu
  have hon := C35_expmap_unprojected hk hx hu h false
  have hy : expmap k x u = expmapRaw k x u := by
    have e : expmap k x u false false = expmapRaw k x u := by simp [expmap]
    rw [e] at hon
    simp only [expmap, if_true, C36_proju_fixes hu]
    exact project_of_on hon
  rw [hy]
  have hr : norm u = Real.sqrt (mink u u) := by rw [norm, inner_eq, max_eq_left h]
  have hr0 : 0 < norm u := norm_pos u
  have hch : ch k x (expmapRaw k x u) = Real.cosh (norm u / Real.sqrt k) := by
    unfold ch expmapRaw
    minks
    rw [hx.1, hu']
    field_simp; ring
  have hpos : 0 ≤ norm u / Real.sqrt k := by positivity
  rw [dist_eq, hch, arcosh_eq, Real.arcosh_cosh hpos, hr]
  · field_simp
  · rw [Real.cosh_sq, add_sub_cancel_right]
    refine le_trans ?_ (pow_le_pow_left₀ hpos (Real.self_le_sinh_iff.2 hpos) 2)
    rw [div_pow, Real.sq_sqrt hk.le, le_div_iff₀ hk, norm_sq_of h]
    exact h'

/-- **Below the floors it fails**: along the zero vector `expmap` moves by a positive distance. -/
theorem C101_counterexample_zero {k : ℝ} (hk : 0 < k) {x : Vec (n + 1)} (hx : OnHyperboloid k x) :
    Real.sqrt (mink (0 : Vec (n + 1)) 0) < dist k x (expmap k x 0) := by
  rw [show mink (0 : Vec (n + 1)) 0 = 0 by simp [mink], Real.sqrt_zero]
  exact C37_dist_pos hk hx (C35_expmap_on hk x 0 true)

example : dist 1 (![5 / 4, 3 / 4] : Vec 2) (expmap 1 ![5 / 4, 3 / 4] ![3, 5]) = 4 := by
  rw [C101_expmap one_pos ⟨by simp [mink]; norm_num, by norm_num⟩
    (by simp [Tangent, mink]; norm_num) (by simp [mink]; norm_num) (by simp [mink]; norm_num)]
  rw [show mink (![3, 5] : Vec 2) ![3, 5] = 4 ^ 2 by simp [mink]; norm_num]
  exact Real.sqrt_sq (by norm_num)

end Geoopt.Lorentz
