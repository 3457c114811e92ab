import Verif.Props.C06
import Verif.Model.StereoManifold

/-!
# C09, C11, C12, C14, C19 (stereographic part)
-/

namespace Geoopt.Stereo
open Geoopt
variable {n : ℕ}

/-! ### C09 parallel transport -/

/-- `gyr[v,u]` inverts `gyr[u,v]` -/
lemma mGyr_inv {k : ℝ} {u v w : Vec n} (h : mobDenom k u v ≠ 0) :
    mGyr k v u (mGyr k u v w) = w := by
  have h' : mobDenom k v u ≠ 0 := by rwa [mobDenom_comm]
  funext i
  have e1 : v ⬝ᵥ mGyr k u v w = mGyr k u v w ⬝ᵥ v := dotProduct_comm _ _
  have e2 : u ⬝ᵥ mGyr k u v w = mGyr k u v w ⬝ᵥ u := dotProduct_comm _ _
  conv_lhs => unfold mGyr
  rw [show w + (mobDenom k u v)⁻¹ • ((2 : ℝ) •
    ((-k ^ 2 * (u ⬝ᵥ w) * (v ⬝ᵥ v) - k * (v ⬝ᵥ w) + 2 * k ^ 2 * (u ⬝ᵥ v) * (v ⬝ᵥ w)) • u
      + (-k ^ 2 * (v ⬝ᵥ w) * (u ⬝ᵥ u) + k * (u ⬝ᵥ w)) • v)) = mGyr k u v w from rfl]
  rw [e1, e2, mGyr_dot, mGyr_dot, mobDenom_comm k v u, dotProduct_comm w u, dotProduct_comm w v,
    dotProduct_comm v u]
  simp only [mGyr, Pi.smul_apply, Pi.add_apply, smul_eq_mul]
  field_simp
  unfold mobDenom
  ring

lemma mGyr_neg_neg (k : ℝ) (u v w : Vec n) : mGyr k (-u) (-v) w = mGyr k u v w := by
  have : mobDenom k (-u) (-v) = mobDenom k u v := by unfold mobDenom; dots; ring
  unfold mGyr
  rw [this]
  dots
  funext i
  simp only [Pi.smul_apply, Pi.add_apply, smul_eq_mul, Pi.neg_apply]
  ring

lemma lambdaX_pos' (k : ℝ) (x : Vec n) : 0 < lambdaX k x := by
  unfold lambdaX
  have : (0:ℝ) < max (1 + k * (x ⬝ᵥ x)) 1e-15 := lt_max_of_lt_right (by norm_num)
  positivity

/-- linear, for all points and curvatures -/
theorem C09_transport_linear (k a b : ℝ) (x y u v : Vec n) :
    transp k x y (a • u + b • v) = a • transp k x y u + b • transp k x y v := by
  rw [transp, C04_gyration_linear, transp, transp, smul_add, smul_comm, smul_comm _ b]

/-- isometry between the tangent spaces, whenever the clamp of the gyration is inactive -/
theorem C09_transport_isometry {k : ℝ} {x y : Vec n} (h : 1e-15 ≤ mobDenom k y (-x)) (u v : Vec n) :
    inner k y (transp k x y u) (transp k x y v) = inner k x u v := by
  have h0 : mobDenom k y (-x) ≠ 0 := by
    have : (0:ℝ) < 1e-15 := by norm_num
    linarith
  have hy := (lambdaX_pos' k y).ne'
  rw [inner, transp, transp, gyration_eq h, gyration_eq h, inner]
  simp only [smul_dotProduct, dotProduct_smul, smul_eq_mul]
  rw [mGyr_dot_mGyr h0]
  field_simp

/-- transporting there and back is the identity -/
theorem C09_transport_back {k : ℝ} {x y : Vec n} (h : 1e-15 ≤ mobDenom k y (-x)) (u : Vec n) :
    transp k y x (transp k x y u) = u := by
  have h' : 1e-15 ≤ mobDenom k x (-y) := by
    have : mobDenom k x (-y) = mobDenom k y (-x) := by
      unfold mobDenom; dots; rw [dotProduct_comm]; ring
    rwa [this]
  have h0 : mobDenom k y (-x) ≠ 0 := by
    have : (0:ℝ) < 1e-15 := by norm_num
    linarith
  have hy := (lambdaX_pos' k y).ne'
  have hx := (lambdaX_pos' k x).ne'
  have hlin : gyration k x (-y) ((lambdaX k x / lambdaX k y) • gyration k y (-x) u) =
      (lambdaX k x / lambdaX k y) • gyration k x (-y) (gyration k y (-x) u) := by
    have := C04_gyration_linear k (lambdaX k x / lambdaX k y) 0 x (-y) (gyration k y (-x) u) 0
    simpa using this
  rw [transp, transp, hlin, gyration_eq h', gyration_eq h, smul_smul]
  have : mGyr k x (-y) (mGyr k y (-x) u) = u := by
    have e := mGyr_neg_neg k (-x) y (mGyr k y (-x) u)
    rw [neg_neg] at e
    rw [e]
    exact mGyr_inv h0
  rw [this, show lambdaX k y / lambdaX k x * (lambdaX k x / lambdaX k y) = 1 by field_simp, one_smul]

/-- transport to the same point is the identity, clamp or not -/
theorem C09_transport_self (k : ℝ) (x u : Vec n) : transp k x x u = u := by
  have hx := (lambdaX_pos' k x).ne'
  rw [transp, div_self hx, one_smul]
  unfold gyration
  dots
  funext i
  simp only [Pi.smul_apply, Pi.add_apply, smul_eq_mul, Pi.neg_apply]
  ring

/-- transport moves the tangent of the geodesic along the geodesic: the direction
towards `y` becomes the direction away from `x`. -/
theorem C09_transport_log {η k : ℝ} {x y : Vec n} (h : 1e-15 ≤ mobDenom k y (-x)) :
    transp k x y (logmap η k x y) = -logmap η k y x := by
  have h' : 1e-15 ≤ mobDenom k (-x) y := by rwa [mobDenom_comm]
  have h0 : mobDenom k y (-x) ≠ 0 := by
    have : (0:ℝ) < 1e-15 := by norm_num
    linarith
  have hy := (lambdaX_pos' k y).ne'
  have hx := (lambdaX_pos' k x).ne'
  have hg : gyration k y (-x) (mobiusAdd k (-x) y) = mobiusAdd k y (-x) := by
    rw [gyration_eq h, mobiusAdd_eq h', mobiusAdd_eq h]; exact mGyr_comm h0
  have hneg : mobiusAdd k y (-x) = -mobiusAdd k (-y) x := by
    have e : mobDenom k (-y) x = mobDenom k y (-x) := by unfold mobDenom; dots; ring
    unfold mobiusAdd; rw [e]; dots
    funext i
    simp only [Pi.smul_apply, Pi.add_apply, smul_eq_mul, Pi.neg_apply]
    ring
  have hn : nrm (mobiusAdd k (-x) y) = nrm (mobiusAdd k (-y) x) := nrm_mobiusSub_comm k x y
  have hlin : ∀ c : ℝ, gyration k y (-x) (c • mobiusAdd k (-x) y) =
      c • gyration k y (-x) (mobiusAdd k (-x) y) := by
    intro c
    have := C04_gyration_linear k c 0 y (-x) (mobiusAdd k (-x) y) 0
    simpa using this
  simp only [transp, logmap]
  rw [smul_smul, hlin, hg, hneg, hn, smul_smul, smul_neg, smul_smul]
  congr 2
  have : 0 < max (nrm (mobiusAdd k (-y) x)) 1e-15 := lt_max_of_lt_right (by norm_num)
  field_simp

/-- all of it for the points the library accepts in the Poincaré ball -/
theorem C09_transport_ball {η k : ℝ} (hη : 0 ≤ η) (hk : k < 0) {dt : DType} {x y : Vec n}
    (hx : Valid η dt k x) (hy : Valid η dt k y) :
    (∀ u v, inner k y (transp k x y u) (transp k x y v) = inner k x u v) ∧
    (∀ u, transp k y x (transp k x y u) = u) ∧
    transp k x y (logmap η k x y) = -logmap η k y x := by
  have h : 1e-15 ≤ mobDenom k y (-x) :=
    le_trans (by norm_num) (mobDenom_valid hη hk hy (valid_neg.2 hx))
  exact ⟨fun u v => C09_transport_isometry h u v, fun u => C09_transport_back h u,
    C09_transport_log h⟩

example : Valid codeEta .f64 (-1) pA ∧ Valid codeEta .f64 (-1) pB := ⟨pA_valid _, pB_valid _⟩

/-! ### C11 zero curvature -/

/-- With `k = 0` every operation is the one of flat space (with metric `4⟨u,v⟩`). -/
theorem C11_flat (η : ℝ) (t r : ℝ) (x y u v : Vec n) :
    mobiusAdd 0 x y = x + y ∧ mobiusSub 0 x y = x - y ∧ mobiusCoadd 0 x y = x + y ∧
    mobiusScalarMul η 0 r x = r • x ∧
    dist η 0 x y = 2 * nrm (x - y) ∧ expmap η 0 x u = x + u ∧ logmap η 0 x y = y - x ∧
    transp 0 x y u = u ∧ inner 0 x u v = 4 * (u ⬝ᵥ v) ∧ norm 0 x u = 2 * nrm u ∧
    gyration 0 x y u = u ∧ geodesic η 0 t x y = x + t • (y - x) ∧ egrad2rgrad 0 x u = (1/4 : ℝ) • u := by
  have m15 : ∀ z : Vec n, max (nrm z) 1e-15 ≠ 0 := fun z => (lt_max_of_lt_right (by norm_num)).ne'
  have hadd : ∀ x y : Vec n, mobiusAdd 0 x y = x + y := by
    intro x y
    unfold mobiusAdd mobDenom
    norm_num
  have hl : ∀ x : Vec n, lambdaX 0 x = 2 := by
    intro x; unfold lambdaX; norm_num
  have hg : ∀ x y u : Vec n, gyration 0 x y u = u := by
    intro x y u; unfold gyration; simp
  have hsm : ∀ (r : ℝ) (x : Vec n), mobiusScalarMul η 0 r x = r • x := by
    intro r x
    simp only [mobiusScalarMul, tanK_zero_curv, artanK_zero_curv]
    rw [smul_smul, mul_assoc, mul_inv_cancel₀ (m15 x), mul_one]
  refine ⟨hadd x y, ?_, ?_, hsm r x, ?_, ?_, ?_, ?_, ?_, ?_, hg x y u, ?_, ?_⟩
  · rw [mobiusSub, hadd]; abel
  · rw [mobiusCoadd, hg, hadd]
  · rw [dist, hadd, artanK_zero_curv, show (2.0:ℝ) = 2 by norm_num, ← nrm_neg (x - y)]
    congr 2; abel
  · simp only [expmap]
    rw [hl, tanK_zero_curv, smul_smul, hadd, show (2:ℝ) / 2.0 = 1 by norm_num, one_mul,
      mul_inv_cancel₀ (m15 u), one_smul]
  · simp only [logmap]
    rw [hl, artanK_zero_curv, hadd, smul_smul, show (2.0:ℝ) = 2 by norm_num,
      mul_inv_cancel₀ (mul_ne_zero two_ne_zero (m15 _)), one_smul]
    abel
  · rw [transp, hg, hl, hl]; norm_num
  · rw [inner, hl]; norm_num
  · rw [norm, hl]
  · rw [geodesic, hsm, hadd, hadd]; congr 2; abel
  · rw [egrad2rgrad, hl]; norm_num

/-! ### C12 sign of the curvature -/

/-- Whatever value the optimiser gives to the unconstrained parameter, the Poincaré
ball has negative and the sphere projection positive curvature. -/
theorem C12_sign (isp : ℝ) : poincareK isp < 0 ∧ 0 < poincareC isp ∧ 0 < sphereProjK isp := by
  have : 0 < softplus isp := by
    unfold softplus
    split_ifs with h
    · linarith
    · exact Real.log_pos (by linarith [Real.exp_pos isp])
  exact ⟨by unfold poincareK poincareC; linarith, this, this⟩

/-- The curvature read back after construction with `c > 0` is `c`, exactly as long as
torch's softplus is not in its linear branch (which is the case for `c ≤ 20`). -/
theorem C12_read_back {c : ℝ} (hc : 0 < c) (h : ispInit c ≤ 20) :
    poincareC (ispInit c) = c ∧ poincareK (ispInit c) = -c ∧ sphereProjK (ispInit c) = c := by
  have hpos : 0 < Real.exp c - 1 := by
    have := Real.add_one_lt_exp hc.ne'
    linarith
  have : softplus (ispInit c) = c := by
    rw [softplus, if_neg (not_lt.2 h), ispInit, Real.exp_log hpos]
    rw [show 1 + (Real.exp c - 1) = Real.exp c by ring, Real.log_exp]
  exact ⟨this, by rw [poincareK, poincareC, this], this⟩

theorem C12_read_back_range {c : ℝ} (hc : 0 < c) (h : c ≤ 20) : ispInit c ≤ 20 := by
  have hpos : 0 < Real.exp c - 1 := by
    have := Real.add_one_lt_exp hc.ne'
    linarith
  refine le_trans ?_ h
  rw [ispInit, Real.log_le_iff_le_exp hpos]
  linarith

/-- In the linear branch the value read back is off by at most `3e-9`. -/
theorem C12_read_back_error {c : ℝ} (hc : 0 < c) :
    |poincareC (ispInit c) - c| ≤ 3e-9 ∧ |sphereProjK (ispInit c) - c| ≤ 3e-9 := by
  have hpos : 0 < Real.exp c - 1 := by
    have := Real.add_one_lt_exp hc.ne'
    linarith
  suffices h : |softplus (ispInit c) - c| ≤ 3e-9 from ⟨h, h⟩
  rcases le_or_gt (ispInit c) 20 with h | h
  · have := (C12_read_back hc h).2.2
    unfold sphereProjK at this
    rw [this]; norm_num
  · rw [softplus, if_pos h]
    have hc20 : 20 < c := by
      by_contra hcon
      exact absurd (C12_read_back_range hc (not_lt.1 hcon)) (not_le.2 h)
    have hlt : ispInit c ≤ c := by
      rw [ispInit, Real.log_le_iff_le_exp hpos]; linarith
    rw [abs_of_nonpos (by linarith)]
    -- c - log(e^c - 1) = log(e^c/(e^c-1)) ≤ 1/(e^c-1)
    have e : -(ispInit c - c) = Real.log (Real.exp c / (Real.exp c - 1)) := by
      rw [Real.log_div (Real.exp_pos c).ne' hpos.ne', Real.log_exp, ispInit]; ring
    rw [e]
    refine (Real.log_le_sub_one_of_pos (by positivity)).trans ?_
    rw [div_sub_one hpos.ne', div_le_iff₀ hpos]
    have h20 : (2.7 : ℝ) ^ 20 ≤ Real.exp c := by
      have h1 : Real.exp 20 ≤ Real.exp c := Real.exp_le_exp.2 hc20.le
      have h2 : Real.exp 20 = Real.exp 1 ^ 20 := by rw [← Real.exp_nat_mul]; norm_num
      have h3 : (2.7 : ℝ) ≤ Real.exp 1 := by
        have := Real.exp_one_gt_d9; linarith [show (2.7 : ℝ) < 2.7182818283 by norm_num]
      rw [h2] at h1
      exact (pow_le_pow_left₀ (by norm_num) h3 20).trans h1
    have : (4.2e8 : ℝ) ≤ (2.7 : ℝ) ^ 20 := by norm_num
    have h5 : (4e8 : ℝ) ≤ Real.exp c - 1 := by linarith [show (4.2e8 : ℝ) - 1 > 4e8 by norm_num]
    nlinarith

example : poincareK (ispInit 1) = -1 :=
  (C12_read_back one_pos (C12_read_back_range one_pos (by norm_num))).2.1

/-! ### C14 stereographic projection -/

/-- `sproj` inverts `inv_sproj` for every curvature and every vector. -/
theorem C14_sproj_invSproj {η k : ℝ} (hs : 0 < |k| + η) (x : Vec n) :
    sproj η k (invSproj η k x) = x := by
  have hs' : 0 < kSqrt η k := Real.sqrt_pos.2 hs
  have hl := (lambdaX_pos' k x).ne'
  unfold sproj invSproj
  funext i
  simp only [Pi.smul_apply, Fin.snoc_last, Fin.snoc_castSucc, smul_eq_mul]
  rw [show (1.0 : ℝ) = 1 by norm_num]
  have : 1 + kSqrt η k * (1 / kSqrt η k * (lambdaX k x - 1)) = lambdaX k x := by
    field_simp; ring
  rw [this]
  field_simp

/-- The lifted point lies on the quadric `k‖a‖² + (|k|+η) b² = 1` (`a` the first `n`
coordinates, `b` the last): for `η = 0` the sphere of radius `1/√k` or the hyperboloid
`‖a‖² - b² = -1/|k|`. -/
theorem C14_invSproj_on_quadric {η k : ℝ} (hs : 0 < |k| + η) {x : Vec n}
    (hx : 1e-15 ≤ 1 + k * (x ⬝ᵥ x)) :
    k * ∑ i : Fin n, invSproj η k x i.castSucc ^ 2 +
      (|k| + η) * invSproj η k x (Fin.last n) ^ 2 = 1 := by
  have hs' : 0 < kSqrt η k := Real.sqrt_pos.2 hs
  have hs2 : kSqrt η k ^ 2 = |k| + η := Real.sq_sqrt hs.le
  have h0 : 1 + k * (x ⬝ᵥ x) ≠ 0 := by
    have : (0:ℝ) < 1e-15 := by norm_num
    linarith
  rw [← hs2]
  unfold invSproj
  simp only [Fin.snoc_last, Fin.snoc_castSucc, Pi.smul_apply, smul_eq_mul, mul_pow]
  rw [← Finset.mul_sum]
  have e : ∑ i : Fin n, x i ^ 2 = x ⬝ᵥ x := by simp [dotProduct, sq]
  rw [e, show (1.0 : ℝ) = 1 by norm_num, lambdaX, max_eq_left hx]
  field_simp
  ring

/-- Conversely `inv_sproj` inverts `sproj` on that quadric (on the sheet in front of
the projection centre; the bound keeps the clamp of the conformal factor inactive). -/
theorem C14_invSproj_sproj {η k : ℝ} (hs : 0 < |k| + η) {z : Vec (n + 1)}
    (hz : k * ∑ i : Fin n, z i.castSucc ^ 2 + (|k| + η) * z (Fin.last n) ^ 2 = 1)
    (h1 : 0 < 1 + Real.sqrt (|k| + η) * z (Fin.last n))
    (h2 : 1 + Real.sqrt (|k| + η) * z (Fin.last n) ≤ 2e15) :
    invSproj η k (sproj η k z) = z := by
  have hs' : 0 < kSqrt η k := Real.sqrt_pos.2 hs
  have hs2 : kSqrt η k ^ 2 = |k| + η := Real.sq_sqrt hs.le
  have es : Real.sqrt (|k| + η) = kSqrt η k := rfl
  rw [es] at h1 h2
  rw [← hs2] at hz
  set s := kSqrt η k with hsd
  set b := z (Fin.last n) with hb
  have e : (sproj η k z) ⬝ᵥ (sproj η k z) = (∑ i : Fin n, z i.castSucc ^ 2) / (1 + s * b) ^ 2 := by
    unfold sproj
    rw [smul_dotProduct, dotProduct_smul, ← hsd, ← hb, show (1.0 : ℝ) = 1 by norm_num]
    simp only [dotProduct, smul_eq_mul, ← sq]
    field_simp
  have h3 : 1 + k * ((sproj η k z) ⬝ᵥ (sproj η k z)) = 2 / (1 + s * b) := by
    rw [e]
    field_simp
    linear_combination hz
  have hlam : lambdaX k (sproj η k z) = 1 + s * b := by
    rw [lambdaX, h3, max_eq_left]
    · field_simp
    · rw [le_div_iff₀ h1]
      have : (0:ℝ) < 1e-15 := by norm_num
      nlinarith
  unfold invSproj
  rw [hlam]
  funext i
  refine Fin.lastCases ?_ (fun j => ?_) i
  · rw [Fin.snoc_last, ← hsd, show (1.0 : ℝ) = 1 by norm_num, ← hb]
    field_simp
    ring
  · rw [Fin.snoc_castSucc]
    simp only [sproj, Pi.smul_apply, smul_eq_mul, ← hsd, ← hb]
    rw [show (1.0 : ℝ) = 1 by norm_num]
    field_simp

example : (0:ℝ) < |(-1:ℝ)| + codeEta := by norm_num [codeEta]

/-! ### C19 Riemannian gradient -/

/-- `egrad2rgrad` represents the Euclidean gradient in the metric: all curvatures, all
vectors, clamps included. -/
theorem C19_stereographic (k : ℝ) (x g v : Vec n) :
    inner k x (egrad2rgrad k x g) v = g ⬝ᵥ v := by
  have hl := (lambdaX_pos' k x).ne'
  rw [inner, egrad2rgrad, smul_dotProduct, smul_eq_mul]
  field_simp

/-- Consequently a step against it decreases the loss to first order: the derivative
`⟨g, -rgrad⟩` is negative unless the gradient vanishes. -/
theorem C19_stereographic_descent (k : ℝ) (x g : Vec n) (hg : g ≠ 0) :
    g ⬝ᵥ (-egrad2rgrad k x g) < 0 := by
  have hl := lambdaX_pos' k x
  have : 0 < g ⬝ᵥ g := lt_of_le_of_ne (dot_self_nonneg g) (fun e => hg (dot_self_eq_zero.1 e.symm))
  rw [egrad2rgrad, dotProduct_neg, dotProduct_smul, smul_eq_mul]
  have : 0 < (lambdaX k x ^ 2)⁻¹ * (g ⬝ᵥ g) := by positivity
  linarith

end Geoopt.Stereo
