import Verif.Props.C35
import Verif.Props.C06

/-!
# C39: the maps between the hyperboloid and the Poincaré ball

The ball is the unit ball whatever `k` is.
-/

namespace Geoopt.Lorentz
open Geoopt Matrix
variable {n : ℕ}

lemma toPoincare_sq {k : ℝ} (hk : 0 < k) {x : Vec (n + 1)} (hx : OnHyperboloid k x) :
    toPoincare k x ⬝ᵥ toPoincare k x = (x 0 - Real.sqrt k) / (x 0 + Real.sqrt k) := by
  have hs : 0 < Real.sqrt k := Real.sqrt_pos.2 hk
  have h0 := hx.2
  have h1 := hx.1
  rw [mink_eq_tail] at h1
  have e : Fin.tail x ⬝ᵥ Fin.tail x = (x 0 - Real.sqrt k) * (x 0 + Real.sqrt k) := by
    have := sqrt_sq' hk
    linarith
  have hp : x 0 + Real.sqrt k ≠ 0 := by positivity
  simp only [toPoincare, smul_dotProduct, dotProduct_smul, smul_eq_mul, e]
  field_simp

/-- `lorentz_to_poincare` lands in the open unit ball. -/
theorem C39_to_poincare_in_ball {k : ℝ} (hk : 0 < k) {x : Vec (n + 1)} (hx : OnHyperboloid k x) :
    toPoincare k x ⬝ᵥ toPoincare k x < 1 := by
  have hs : 0 < Real.sqrt k := Real.sqrt_pos.2 hk
  have h0 := hx.2
  rw [toPoincare_sq hk hx, div_lt_one (by positivity)]
  linarith

lemma mink_ofPoincare {k : ℝ} (hk : 0 < k) (eps : ℝ) (p q : Vec n) :
    mink (ofPoincare k eps p) (ofPoincare k eps q) =
      k * (-(1 + p ⬝ᵥ p) * (1 + q ⬝ᵥ q) + 4 * (p ⬝ᵥ q)) /
        ((1 - p ⬝ᵥ p + eps) * (1 - q ⬝ᵥ q + eps)) := by
  simp only [ofPoincare, show (1.0 : ℝ) = 1 by norm_num]
  minks
  rw [mink_eq_tail]
  simp only [Fin.cons_zero, Fin.tail_cons, smul_dotProduct, dotProduct_smul, smul_eq_mul]
  generalize 1 - p ⬝ᵥ p + eps = D
  generalize 1 - q ⬝ᵥ q + eps = E
  linear_combination ((-((1 + p ⬝ᵥ p) * (1 + q ⬝ᵥ q)) + 2 * (2 * (p ⬝ᵥ q))) / (D * E)) * sqrt_sq' hk

/-- With `eps=0`, `poincare_to_lorentz` lands on the hyperboloid. -/
theorem C39_of_poincare_on_partial {k : ℝ} (hk : 0 < k) {p : Vec n} (hp : p ⬝ᵥ p < 1) :
    OnHyperboloid k (ofPoincare k 0 p) := by
  have h1 : 0 < 1 - p ⬝ᵥ p := by linarith
  constructor
  · rw [mink_ofPoincare hk, add_zero]
    field_simp
    ring
  · have hs : 0 < Real.sqrt k := Real.sqrt_pos.2 hk
    have := dot_self_nonneg p
    simp only [ofPoincare, Pi.smul_apply, Fin.cons_zero, smul_eq_mul,
      show (1.0 : ℝ) = 1 by norm_num, add_zero]
    positivity

/-- With the default `eps=1e-6` (or any positive one) it never does. -/
theorem C39_counterexample_eps {k eps : ℝ} (hk : 0 < k) (he : 0 < eps) {p : Vec n}
    (hp : p ⬝ᵥ p < 1) :
    mink (ofPoincare k eps p) (ofPoincare k eps p)
      = -k * ((1 - p ⬝ᵥ p) / (1 - p ⬝ᵥ p + eps)) ^ 2 ∧
    ¬ OnHyperboloid k (ofPoincare k eps p) := by
  have h1 : 0 < 1 - p ⬝ᵥ p := by linarith
  have e : mink (ofPoincare k eps p) (ofPoincare k eps p)
      = -k * ((1 - p ⬝ᵥ p) / (1 - p ⬝ᵥ p + eps)) ^ 2 := by
    rw [mink_ofPoincare hk]
    field_simp
    ring
  refine ⟨e, fun h => ?_⟩
  have h2 := h.1
  rw [e] at h2
  have h3 : ((1 - p ⬝ᵥ p) / (1 - p ⬝ᵥ p + eps)) ^ 2 < 1 := by
    have : (1 - p ⬝ᵥ p) / (1 - p ⬝ᵥ p + eps) < 1 := by rw [div_lt_one] <;> linarith
    have h4 : 0 ≤ (1 - p ⬝ᵥ p) / (1 - p ⬝ᵥ p + eps) := by positivity
    nlinarith
  nlinarith

theorem C39_counterexample_default_eps {k : ℝ} (hk : 0 < k) {p : Vec n} (hp : p ⬝ᵥ p < 1) :
    ¬ OnHyperboloid k (ofPoincare k ofPoincareEps p) :=
  (C39_counterexample_eps hk (by norm_num [ofPoincareEps]) hp).2

/-- Ball → hyperboloid → ball, exactly: the point is shrunk by `2/(2+eps)`; it comes back
unchanged iff `eps = 0` (or it is the origin). -/
theorem C39_round_trip_ball {k eps : ℝ} (hk : 0 < k) (he : 0 ≤ eps) {p : Vec n}
    (hp : p ⬝ᵥ p < 1) : toPoincare k (ofPoincare k eps p) = (2 / (2 + eps)) • p := by
  have hs : 0 < Real.sqrt k := Real.sqrt_pos.2 hk
  have h1 : 0 < 1 - p ⬝ᵥ p + eps := by linarith
  funext i
  simp only [toPoincare, ofPoincare, Pi.smul_apply, Fin.cons_zero, smul_eq_mul, Fin.tail,
    Fin.cons_succ, show (1.0 : ℝ) = 1 by norm_num]
  generalize p ⬝ᵥ p = s at *
  have h2 : Real.sqrt k / (1 - s + eps) * (1 + s) + Real.sqrt k
      = Real.sqrt k * (2 + eps) / (1 - s + eps) := by field_simp; ring
  have h3 : 2 + eps ≠ 0 := by linarith
  rw [h2]
  field_simp

/-- Hyperboloid → ball → hyperboloid is the identity with `eps=0`. -/
theorem C39_round_trip_hyperboloid_partial {k : ℝ} (hk : 0 < k) {x : Vec (n + 1)}
    (hx : OnHyperboloid k x) : ofPoincare k 0 (toPoincare k x) = x := by
  have hs : 0 < Real.sqrt k := Real.sqrt_pos.2 hk
  have h0 := hx.2
  have hq : x 0 + Real.sqrt k ≠ 0 := by positivity
  have e1 : 1 - (x 0 - Real.sqrt k) / (x 0 + Real.sqrt k) = 2 * Real.sqrt k / (x 0 + Real.sqrt k) := by
    field_simp; ring
  have e2 : 1 + (x 0 - Real.sqrt k) / (x 0 + Real.sqrt k) = 2 * x 0 / (x 0 + Real.sqrt k) := by
    field_simp; ring
  funext i
  simp only [ofPoincare, toPoincare_sq hk hx, show (1.0 : ℝ) = 1 by norm_num, add_zero, e1, e2]
  refine Fin.cases ?_ (fun i => ?_) i
  · simp only [Pi.smul_apply, Fin.cons_zero, smul_eq_mul]
    field_simp
  · simp only [Pi.smul_apply, Fin.cons_succ, smul_eq_mul, toPoincare, Fin.tail]
    field_simp

/-- `cosh` of the distance, in ball coordinates: the textbook formula. -/
theorem C39_cosh_formula {k : ℝ} (hk : 0 < k) {x y : Vec (n + 1)} (hx : OnHyperboloid k x)
    (hy : OnHyperboloid k y) :
    let p := toPoincare k x
    let q := toPoincare k y
    (-mink x y) / k = 1 + 2 * ((p - q) ⬝ᵥ (p - q)) / ((1 - p ⬝ᵥ p) * (1 - q ⬝ᵥ q)) := by
  intro p q
  have hp : p ⬝ᵥ p < 1 := C39_to_poincare_in_ball hk hx
  have hq : q ⬝ᵥ q < 1 := C39_to_poincare_in_ball hk hy
  rw [← C39_round_trip_hyperboloid_partial hk hx, ← C39_round_trip_hyperboloid_partial hk hy,
    mink_ofPoincare hk]
  change -(k * (-(1 + p ⬝ᵥ p) * (1 + q ⬝ᵥ q) + 4 * (p ⬝ᵥ q)) /
        ((1 - p ⬝ᵥ p + 0) * (1 - q ⬝ᵥ q + 0))) / k = _
  have e : (p - q) ⬝ᵥ (p - q) = p ⬝ᵥ p - 2 * (p ⬝ᵥ q) + q ⬝ᵥ q := by
    simp only [sub_dotProduct, dotProduct_sub, dotProduct_comm q p]; ring
  rw [e]
  have h1 : 1 - p ⬝ᵥ p ≠ 0 := by linarith
  have h2 : 1 - q ⬝ᵥ q ≠ 0 := by linarith
  simp only [add_zero]
  field_simp
  ring

/-- The two models are isometric up to the factor `√k`: the distance of the Lorentz class is
`√k` times the distance of the `k=-1` Stereographic (Poincaré ball, `c=1`) class between the
images, wherever no clamp is active and the `1e-15` regulariser of the latter is off. -/
theorem C39_distance_partial {k : ℝ} (hk : 0 < k) {x y : Vec (n + 1)} (hx : OnHyperboloid k x)
    (hy : OnHyperboloid k y) (h : k ^ 2 * (1 + 1e-15) ≤ mink x y ^ 2)
    (hD : 1e-15 ≤ Stereo.mobDenom (-1) (-toPoincare k x) (toPoincare k y))
    (hfar : nrm (Stereo.mobiusAdd (-1) (-toPoincare k x) (toPoincare k y)) ≤ 1 - 1e-7) :
    dist k x y = Real.sqrt k * Stereo.dist 0 (-1) (toPoincare k x) (toPoincare k y) := by
  have hp := C39_to_poincare_in_ball hk hx
  have hq := C39_to_poincare_in_ball hk hy
  have hch := C39_cosh_formula hk hx hy
  simp only at hch
  set p := toPoincare k x
  set q := toPoincare k y
  have h1 : 0 < 1 - p ⬝ᵥ p := by linarith
  have h2 : 0 < 1 - q ⬝ᵥ q := by linarith
  have hD0 : Stereo.mobDenom (-1) (-p) q ≠ 0 := (lt_of_lt_of_le (by norm_num) hD).ne'
  have hks : Stereo.kSqrt 0 (-1) = 1 := by simp [Stereo.kSqrt, sabs]
  rw [Stereo.dist, Stereo.artanK_neg_curv (by norm_num), hks]
  rw [Stereo.mobiusAdd_eq hD] at hfar ⊢
  set r := nrm (Stereo.mAdd (-1) (-p) q) with hr
  have hr0 : 0 ≤ r := nrm_nonneg _
  have hrsq : r ^ 2 = (p ⬝ᵥ p - 2 * (p ⬝ᵥ q) + q ⬝ᵥ q) / Stereo.mobDenom (-1) (-p) q := by
    rw [hr, nrm_sq, Stereo.mAdd_self hD0]
    simp only [neg_dotProduct, dotProduct_neg]; congr 1; ring
  have hr1 : r < 1 := by
    have : (0:ℝ) < 1e-7 := by norm_num
    linarith
  have h7 : (-1 : ℝ) + 1e-7 ≤ r := by
    have : (1e-7 : ℝ) < 1 := by norm_num
    linarith
  rw [dist_eq, arcosh_eq (ch_of_sq hk h), mul_one, Stereo.artanhC_eq h7 hfar]
  have hmem : r ∈ Set.Ioo (-1 : ℝ) 1 := ⟨by linarith, hr1⟩
  have hc : ch k x y = Real.cosh (2 * Real.artanh r) := by
    rw [Real.cosh_two_mul, Real.cosh_artanh hmem, Real.sinh_artanh hmem]
    have hpos : 0 < 1 - r ^ 2 := by nlinarith
    rw [div_pow, div_pow, Real.sq_sqrt hpos.le]
    unfold ch
    rw [hch, hrsq]
    have e : (p - q) ⬝ᵥ (p - q) = p ⬝ᵥ p - 2 * (p ⬝ᵥ q) + q ⬝ᵥ q := by
      simp only [sub_dotProduct, dotProduct_sub, dotProduct_comm q p]; ring
    rw [e]
    have hDe : Stereo.mobDenom (-1) (-p) q = 1 - 2 * (p ⬝ᵥ q) + (p ⬝ᵥ p) * (q ⬝ᵥ q) := by
      simp only [Stereo.mobDenom, neg_dotProduct, dotProduct_neg]; ring
    rw [hrsq] at hpos
    generalize Stereo.mobDenom (-1) (-p) q = D at *
    generalize p ⬝ᵥ p = P at *
    generalize q ⬝ᵥ q = Q at *
    generalize p ⬝ᵥ q = R at *
    have e3 : 1 - (P - 2 * R + Q) / D = (1 - P) * (1 - Q) / D := by
      field_simp; rw [hDe]; ring
    rw [e3]
    field_simp
    rw [hDe]; ring
  have ha : 0 ≤ Real.artanh r := Real.artanh_nonneg hr0
  rw [hc, Real.arcosh_cosh (by positivity)]
  norm_num

/-- The hypotheses are met by a concrete pair of points. -/
example : OnHyperboloid 1 qA ∧ OnHyperboloid 1 qB ∧ (1:ℝ) ^ 2 * (1 + 1e-15) ≤ mink qA qB ^ 2 ∧
    1e-15 ≤ Stereo.mobDenom (-1) (-toPoincare 1 qA) (toPoincare 1 qB) ∧
    nrm (Stereo.mobiusAdd (-1) (-toPoincare 1 qA) (toPoincare 1 qB)) ≤ 1 - 1e-7 := by
  have eA : toPoincare 1 qA = ![1/3, 0] := by
    funext i; fin_cases i <;> simp [toPoincare, qA, Fin.tail] <;> norm_num
  have eB : toPoincare 1 qB = ![0, 1/2] := by
    funext i; fin_cases i <;> simp [toPoincare, qB, Fin.tail] <;> norm_num
  have hD : Stereo.mobDenom (-1) (-(![1/3, 0] : Vec 2)) ![0, 1/2] = 37/36 := by
    simp [Stereo.mobDenom, dotProduct, Fin.sum_univ_succ]; norm_num
  refine ⟨qA_on, qB_on, by rw [qAB]; norm_num, ?_, ?_⟩
  · rw [eA, eB, hD]; norm_num
  · rw [eA, eB, nrm_le_iff (by norm_num), Stereo.mobiusAdd_self, hD]
    simp [dotProduct, Fin.sum_univ_succ]
    norm_num

end Geoopt.Lorentz
