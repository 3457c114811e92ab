import Verif.Props.C05

/-!
# C06 – the stereographic distance is a metric
-/

namespace Geoopt.Stereo
open Geoopt
variable {n : ℕ}

/-- squared norm of a Möbius sum, clamp included -/
lemma mobiusAdd_self (k : ℝ) (x y : Vec n) : mobiusAdd k x y ⬝ᵥ mobiusAdd k x y =
    mobDenom k x y * (x ⬝ᵥ x + 2 * (x ⬝ᵥ y) + y ⬝ᵥ y) / max (mobDenom k x y) 1e-15 ^ 2 := by
  have hp : (0:ℝ) < max (mobDenom k x y) 1e-15 := lt_max_of_lt_right (by norm_num)
  unfold mobiusAdd; dots
  rw [dotProduct_comm y x]
  field_simp
  unfold mobDenom
  ring

lemma nrm_mobiusSub_comm (k : ℝ) (x y : Vec n) :
    nrm (mobiusAdd k (-x) y) = nrm (mobiusAdd k (-y) x) := by
  rw [nrm, nrm, mobiusAdd_self, mobiusAdd_self]
  have : mobDenom k (-x) y = mobDenom k (-y) x := by
    unfold mobDenom; dots; rw [dotProduct_comm x y]; ring
  rw [this]
  dots
  rw [dotProduct_comm x y]
  congr 2
  ring

/-- symmetric: every curvature, all vectors, clamps included -/
theorem C06_symm (η k : ℝ) (x y : Vec n) : dist η k x y = dist η k y x := by
  rw [dist, dist, nrm_mobiusSub_comm]

/-- `dist(x,x) = 0`: every curvature, all vectors -/
theorem C06_self (η k : ℝ) (x : Vec n) : dist η k x x = 0 := by
  simp [dist, C03_neg_add, artanK_zero]

/-- non-negative: every curvature outside the Taylor zone, all vectors -/
theorem C06_nonneg {η k : ℝ} (hk : k = 0 ∨ 1e-8 < |k|) (x y : Vec n) : 0 ≤ dist η k x y := by
  have hn := nrm_nonneg (mobiusAdd k (-x) y)
  have hs := kSqrt_nonneg η k
  have e2 : (0:ℝ) ≤ 2.0 := by norm_num
  rw [dist]
  apply mul_nonneg e2
  rcases hk with rfl | hk
  · rwa [artanK_zero_curv]
  · unfold artanK
    rw [if_neg (show ¬ KZero k from not_le.2 hk)]
    split_ifs
    · exact mul_nonneg (inv_nonneg.2 hs) (artanhC_nonneg (mul_nonneg hn hs))
    · exact mul_nonneg (inv_nonneg.2 hs) (Real.arctan_nonneg.2 (mul_nonneg hn hs))

/-- distinct points of the ball have positive distance -/
theorem C06_separates {η k : ℝ} (hη : 0 ≤ η) (hk : k < -1e-8) {x y : Vec n}
    (hx : OpenBall k x) (hy : OpenBall k y) : dist η k x y = 0 ↔ x = y := by
  have hk0 : k < 0 := by have := e8; linarith
  constructor
  · intro h
    by_contra hne
    have hD := mobDenom_pos hk0.le (openBall_neg.2 hx) hy
    have hxy : 0 < (x - y) ⬝ᵥ (x - y) := by
      rcases (dot_self_nonneg (x - y)).lt_or_eq with h | h
      · exact h
      · exact absurd (sub_eq_zero.1 (dot_self_eq_zero.1 h.symm)) hne
    have hm : 0 < mobiusAdd k (-x) y ⬝ᵥ mobiusAdd k (-x) y := by
      rw [mobiusAdd_self]
      have e : -x ⬝ᵥ -x + 2 * (-x ⬝ᵥ y) + y ⬝ᵥ y = (x - y) ⬝ᵥ (x - y) := by
        dots; rw [dotProduct_comm y x]; ring
      rw [e]
      have : (0:ℝ) < max (mobDenom k (-x) y) 1e-15 := lt_max_of_lt_left hD
      positivity
    have hs := kSqrt_pos hη hk0.ne
    have hr : 0 < nrm (mobiusAdd k (-x) y) := Real.sqrt_pos.2 hm
    rw [dist, artanK_neg_curv hk] at h
    have := artanhC_pos (mul_pos hr hs)
    have h2 : (0:ℝ) < 2.0 * ((kSqrt η k)⁻¹ * artanhC (nrm (mobiusAdd k (-x) y) * kSqrt η k)) := by
      have : (0:ℝ) < 2.0 := by norm_num
      positivity
    linarith
  · rintro rfl; exact C06_self η k x

/-! #### triangle inequality -/

/-- the gyrotriangle inequality -/
lemma nrm_mAdd_le {k : ℝ} (hk : k ≤ 0) {a g : Vec n} (ha : OpenBall k a) (hg : OpenBall k g) :
    nrm (mAdd k a g) ≤ (nrm a + nrm g) / (1 - k * (nrm a * nrm g)) := by
  have hD := mobDenom_pos hk ha hg
  have hα := nrm_nonneg a
  have hβ := nrm_nonneg g
  have hden : 0 < 1 - k * (nrm a * nrm g) := by
    have : 0 ≤ -k * (nrm a * nrm g) := mul_nonneg (by linarith) (mul_nonneg hα hβ)
    linarith
  rw [nrm_le_iff (by positivity), mAdd_self hD.ne', div_pow, div_le_div_iff₀ hD (by positivity)]
  have ht := dot_le a g
  have e1 := nrm_sq a
  have e2 := nrm_sq g
  unfold OpenBall at ha hg
  rw [← e1] at ha
  rw [← e2] at hg
  unfold mobDenom
  rw [← e1, ← e2]
  have h1 : 0 < 1 + k * nrm a ^ 2 := by linarith
  have h2 : 0 < 1 + k * nrm g ^ 2 := by linarith
  have key : 0 ≤ 2 * (nrm a * nrm g - a ⬝ᵥ g) * ((1 + k * nrm a ^ 2) * (1 + k * nrm g ^ 2)) := by
    apply mul_nonneg (by linarith) (by positivity)
  nlinarith [key]

lemma artanhC_add_le {p q : ℝ} (hp : 0 ≤ p) (hq : 0 ≤ q) :
    artanhC ((p + q) / (1 + p * q)) ≤ artanhC p + artanhC q := by
  have h7 : (1e-7 : ℝ) > 0 := by norm_num
  have h71 : (1e-7 : ℝ) < 1 := by norm_num
  have cap : ∀ {p : ℝ} (z : ℝ), 1 - 1e-7 < p → artanhC z ≤ artanhC p := by
    intro p z h
    rw [artanhC_eq_artanh, artanhC_eq_artanh,
      Real.artanh_le_artanh_iff (clampA_mem _) (clampA_mem _)]
    have : clamp (-1 + 1e-7) (1 - 1e-7) p = 1 - 1e-7 := by
      unfold clamp
      rw [max_eq_left (by linarith), min_eq_right h.le]
    rw [this]
    exact (clamp_mem (by linarith)).2
  rcases le_or_gt p (1 - 1e-7) with h1 | h1
  · rcases le_or_gt q (1 - 1e-7) with h2 | h2
    · have m1 : p ∈ Set.Ioo (-1 : ℝ) 1 := ⟨by linarith, by linarith⟩
      have m2 : q ∈ Set.Ioo (-1 : ℝ) 1 := ⟨by linarith, by linarith⟩
      rw [artanhC_eq (by linarith) h1, artanhC_eq (by linarith) h2]
      have hpq : 0 ≤ p * q := mul_nonneg hp hq
      have hlt : (p + q) / (1 + p * q) < 1 := by
        rw [div_lt_one (by linarith)]; nlinarith
      have h0 : 0 ≤ (p + q) / (1 + p * q) := by positivity
      have hsum : Real.artanh p + Real.artanh q = Real.artanh ((p + q) / (1 + p * q)) := by
        rw [← Real.artanh_tanh (Real.artanh p + Real.artanh q)]
        congr 1
        have t1 := Real.tanh_artanh m1
        have t2 := Real.tanh_artanh m2
        rw [Real.tanh_eq_sinh_div_cosh] at t1 t2 ⊢
        rw [Real.sinh_add, Real.cosh_add]
        have c1 := (Real.cosh_pos (Real.artanh p)).ne'
        have c2 := (Real.cosh_pos (Real.artanh q)).ne'
        rw [div_eq_iff c1] at t1
        rw [div_eq_iff c2] at t2
        rw [t1, t2]
        have : 1 + p * q ≠ 0 := by linarith
        field_simp
      rw [hsum, artanhC_eq_artanh, Real.artanh_le_artanh_iff (clampA_mem _)
        ⟨by linarith, hlt⟩]
      unfold clamp
      rw [max_eq_left (by linarith)]
      exact min_le_left _ _
    · have := cap ((p + q) / (1 + p * q)) h2
      have := artanhC_nonneg hp
      linarith
  · have := cap ((p + q) / (1 + p * q)) h1
    have := artanhC_nonneg hq
    linarith

lemma artanhC_lipschitz {u v : ℝ} (hu : 0 ≤ u) (huv : u ≤ v) :
    artanhC v ≤ artanhC u + 5.1e6 * (v - u) := by
  have h7 : (1e-7 : ℝ) > 0 := by norm_num
  have h71 : (1e-7 : ℝ) < 1 := by norm_num
  set a := clamp (-1 + 1e-7) (1 - 1e-7) u with ha
  set b := clamp (-1 + 1e-7) (1 - 1e-7) v with hb
  have hab : a ≤ b := clamp_mono huv
  have ha' : a = min u (1 - 1e-7) := by
    rw [ha, clamp, max_eq_left (by linarith)]
  have hb' : b = min v (1 - 1e-7) := by
    rw [hb, clamp, max_eq_left (by linarith)]
  have hd : b - a ≤ v - u := by
    rw [ha', hb']
    rcases le_total u (1 - 1e-7) with h | h
    · rw [min_eq_left h]
      have := min_le_left v (1 - 1e-7)
      linarith
    · rw [min_eq_right h, min_eq_right (h.trans huv)]; linarith
  have ha0 : 0 ≤ a := by rw [ha']; exact le_min hu (by linarith)
  have hb1 : b ≤ 1 - 1e-7 := by rw [hb']; exact min_le_right _ _
  have hb0 : 0 ≤ b := ha0.trans hab
  simp only [artanhC, ← ha, ← hb]
  have l1 : Real.log (1 + b) - Real.log (1 + a) ≤ b - a := by
    rw [← Real.log_div (by linarith) (by linarith)]
    refine (Real.log_le_sub_one_of_pos (by apply div_pos <;> linarith)).trans ?_
    rw [div_sub_one (by linarith), div_le_iff₀ (by linarith)]
    nlinarith
  have l2 : Real.log (1 - a) - Real.log (1 - b) ≤ (b - a) * 1e7 := by
    rw [← Real.log_div (by linarith) (by linarith)]
    refine (Real.log_le_sub_one_of_pos (by apply div_pos <;> linarith)).trans ?_
    have hpos : (0:ℝ) < 1 - b := by linarith
    rw [div_sub_one hpos.ne', div_le_iff₀ hpos]
    have : (1e-7 : ℝ) ≤ 1 - b := by linarith
    nlinarith
  have e : (0.5 : ℝ) = 1 / 2 := by norm_num
  rw [e]
  nlinarith

/-- composition of the displacement of `x → y` and `y → z` -/
lemma mobius_triangle {η k : ℝ} (hη : 0 ≤ η) (hk : k < 0) {dt : DType} {x y z : Vec n}
    (hx : Valid η dt k x) (hy : Valid η dt k y) (hz : Valid η dt k z) :
    nrm (mobiusAdd k (-x) z) ≤
      (nrm (mobiusAdd k (-x) y) + nrm (mobiusAdd k (-y) z)) /
        (1 - k * (nrm (mobiusAdd k (-x) y) * nrm (mobiusAdd k (-y) z))) := by
  have ox := openBall_neg.2 (valid_openBall hη hk hx)
  have oy := valid_openBall hη hk hy
  have ony := openBall_neg.2 oy
  have oz := valid_openBall hη hk hz
  have nx := valid_neg.2 hx
  have ny := valid_neg.2 hy
  have u : ∀ {a b : Vec n}, Valid η dt k a → Valid η dt k b → mobiusAdd k a b = mAdd k a b := by
    intro a b ha hb
    exact mobiusAdd_eq (le_trans (by norm_num) (mobDenom_valid hη hk ha hb))
  rw [u nx hz, u nx hy, u ny hz]
  set b := mAdd k (-y) z with hb
  have ob : OpenBall k b := openBall_mAdd hk.le ony oz
  have hyb : mAdd k y b = z := by
    have := mAdd_left_cancel (k := k) (x := -y) (y := z) (mobDenom_pos hk.le ony oz).ne' (by
      unfold OpenBall at ony; intro h; linarith)
    rwa [neg_neg] at this
  have hD1 := (mobDenom_pos hk.le ox oy).ne'
  have hD2 := (mobDenom_pos hk.le oy ob).ne'
  have hd3 : den3 k (-x) y b ≠ 0 := by
    have h1 := mobDenom_pos hk.le ox (openBall_mAdd hk.le oy ob)
    rw [den3_left hD2] at h1
    intro h
    rw [h, zero_div] at h1
    exact lt_irrefl _ h1
  have hcomp : mAdd k (-x) z = mAdd k (mAdd k (-x) y) (mGyr k (-x) y b) := by
    conv_lhs => rw [← hyb]
    exact mAdd_assoc hD1 hD2 hd3
  have hgb : nrm (mGyr k (-x) y b) = nrm b := by rw [nrm, mGyr_dot_mGyr hD1, nrm]
  have og : OpenBall k (mGyr k (-x) y b) := by
    unfold OpenBall; rw [mGyr_dot_mGyr hD1]; exact ob
  rw [hcomp]
  have := nrm_mAdd_le hk.le (openBall_mAdd hk.le ox oy) og
  rwa [hgb] at this

/-- Triangle inequality on the Poincaré ball, all accepted points.  The regulariser
`η` (1e-15 in the code) enters with the explicit error term; without it (`η = 0`) the
inequality is exact. -/
theorem C06_triangle_partial {η k : ℝ} (hη : 0 ≤ η) (hk : k < -1e-8) {dt : DType} {x y z : Vec n}
    (hx : Valid η dt k x) (hy : Valid η dt k y) (hz : Valid η dt k z) :
    dist η k x z ≤ dist η k x y + dist η k y z +
      1.02e7 * η * ((nrm (mobiusAdd k (-x) y) + nrm (mobiusAdd k (-y) z)) *
        (nrm (mobiusAdd k (-x) y) * nrm (mobiusAdd k (-y) z))) := by
  have hk0 : k < 0 := by have := e8; linarith
  have hs := kSqrt_pos hη hk0.ne
  have hs2 := kSqrt_sq hη k
  rw [abs_of_neg hk0] at hs2
  have hc := mobius_triangle hη hk0 hx hy hz
  set α := nrm (mobiusAdd k (-x) y) with hα
  set β := nrm (mobiusAdd k (-y) z) with hβ
  set c := nrm (mobiusAdd k (-x) z) with hcdef
  set s := kSqrt η k with hsdef
  have hα0 : 0 ≤ α := nrm_nonneg _
  have hβ0 : 0 ≤ β := nrm_nonneg _
  have hkk : 0 ≤ -k := by linarith
  have hden1 : 0 < 1 - k * (α * β) := by
    have : 0 ≤ -k * (α * β) := by positivity
    linarith
  have hden2 : 0 < 1 + s ^ 2 * (α * β) := by positivity
  set m := (α + β) / (1 - k * (α * β)) with hm
  set m' := (α + β) / (1 + s ^ 2 * (α * β)) with hm'
  have hdiff : m - m' = η * ((α + β) * (α * β)) / ((1 - k * (α * β)) * (1 + s ^ 2 * (α * β))) := by
    rw [hm, hm', div_sub_div _ _ hden1.ne' hden2.ne', hs2]
    congr 1
    ring
  have hdiff0 : 0 ≤ m - m' := by rw [hdiff]; positivity
  have hdiff1 : m - m' ≤ η * ((α + β) * (α * β)) := by
    rw [hdiff]
    apply div_le_self (by positivity)
    have h1 : 1 ≤ 1 - k * (α * β) := by
      have : 0 ≤ -k * (α * β) := by positivity
      linarith
    have h2 : 1 ≤ 1 + s ^ 2 * (α * β) := by
      have : 0 ≤ s ^ 2 * (α * β) := by positivity
      linarith
    nlinarith
  have hm'0 : 0 ≤ m' := by positivity
  have e2 : (2.0 : ℝ) = 2 := by norm_num
  have step1 : artanhC (c * s) ≤ artanhC (m * s) := artanhC_mono (mul_le_mul_of_nonneg_right hc hs.le)
  have step2 : artanhC (m * s) ≤ artanhC (m' * s) + 5.1e6 * (m * s - m' * s) :=
    artanhC_lipschitz (by positivity) (mul_le_mul_of_nonneg_right (by linarith) hs.le)
  have step3 : artanhC (m' * s) ≤ artanhC (α * s) + artanhC (β * s) := by
    have e : m' * s = (α * s + β * s) / (1 + (α * s) * (β * s)) := by
      rw [hm']
      have : 1 + (α * s) * (β * s) = 1 + s ^ 2 * (α * β) := by ring
      rw [this]
      field_simp
    rw [e]
    exact artanhC_add_le (by positivity) (by positivity)
  rw [dist, dist, dist, artanK_neg_curv hk, artanK_neg_curv hk, artanK_neg_curv hk, e2]
  rw [← hα, ← hβ, ← hcdef, ← hsdef]
  have hfin : s⁻¹ * artanhC (c * s) ≤
      s⁻¹ * (artanhC (α * s) + artanhC (β * s) + 5.1e6 * (m * s - m' * s)) :=
    mul_le_mul_of_nonneg_left (by linarith) (inv_nonneg.2 hs.le)
  have e3 : s⁻¹ * (artanhC (α * s) + artanhC (β * s) + 5.1e6 * (m * s - m' * s)) =
      s⁻¹ * artanhC (α * s) + s⁻¹ * artanhC (β * s) + 5.1e6 * (m - m') := by
    field_simp
  have e102 : (1.02e7 : ℝ) = 10200000 := by norm_num
  have e51 : (5.1e6 : ℝ) = 5100000 := by norm_num
  rw [e3, e51] at hfin
  rw [e102]
  linarith

/-- With the exact curvature (`η = 0`) the triangle inequality holds without error. -/
theorem C06_triangle_exact {k : ℝ} (hk : k < -1e-8) {dt : DType} {x y z : Vec n}
    (hx : Valid 0 dt k x) (hy : Valid 0 dt k y) (hz : Valid 0 dt k z) :
    dist 0 k x z ≤ dist 0 k x y + dist 0 k y z := by
  have := C06_triangle_partial le_rfl hk hx hy hz
  simpa using this

/-- With the code's constant the exact inequality is violated (at rounding level): on
the segment from `-1/2` through `0` to `1/2` in the ball of curvature `-1`. -/
theorem C06_triangle_fails_with_regulariser :
    dist codeEta (-1) (fun _ => -0.5 : Vec 1) 0 + dist codeEta (-1) 0 (fun _ => 0.5 : Vec 1) <
      dist codeEta (-1) (fun _ => -0.5 : Vec 1) (fun _ => 0.5) := by
  have hk : (-1 : ℝ) < -1e-8 := by norm_num
  have hs := kSqrt_pos codeEta_nonneg (show (-1 : ℝ) ≠ 0 by norm_num)
  have hs2 := kSqrt_sq codeEta_nonneg (-1)
  have h5 : nrm (fun _ => 0.5 : Vec 1) = 0.5 :=
    nrm_eq_of_dot_eq (by norm_num) (by simp [dotProduct]; norm_num)
  have n1 : nrm (mobiusAdd (-1) (-(fun _ => -0.5 : Vec 1)) 0) = 0.5 := by
    rw [C03_add_zero, nrm_neg]
    exact nrm_eq_of_dot_eq (by norm_num) (by simp [dotProduct]; norm_num)
  have n2 : nrm (mobiusAdd (-1) (-(0 : Vec 1)) (fun _ => 0.5 : Vec 1)) = 0.5 := by
    rw [neg_zero, C03_zero_add, h5]
  have n3 : nrm (mobiusAdd (-1) (-(fun _ => -0.5 : Vec 1)) (fun _ => 0.5 : Vec 1)) = 0.8 := by
    apply nrm_eq_of_dot_eq (by norm_num)
    rw [mobiusAdd_self]
    have : mobDenom (-1) (-(fun _ => -0.5 : Vec 1)) (fun _ => 0.5 : Vec 1) = 1.5625 := by
      norm_num [mobDenom, dotProduct]
    rw [this]
    norm_num [dotProduct]
  rw [dist, dist, dist, n1, n2, n3, artanK_neg_curv hk, artanK_neg_curv hk]
  set s := kSqrt codeEta (-1) with hsdef
  have hs2' : s ^ 2 = 1 + 1e-15 := by rw [hs2]; norm_num [codeEta]
  have hs1 : 1 < s := by nlinarith [show (1e-15 : ℝ) > 0 by norm_num]
  have hs3 : s < 1.01 := by nlinarith [show (1e-15 : ℝ) < 1e-3 by norm_num]
  have b1 : (0.5 : ℝ) * s ≤ 1 - 1e-7 := by nlinarith [show (1e-7 : ℝ) < 0.1 by norm_num]
  have b2 : (0.8 : ℝ) * s ≤ 1 - 1e-7 := by nlinarith [show (1e-7 : ℝ) < 0.1 by norm_num]
  have lo : ∀ c : ℝ, 0 < c → -1 + 1e-7 ≤ c * s := by
    intro c hc
    have : (-1 : ℝ) + 1e-7 < 0 := by norm_num
    have : 0 < c * s := by positivity
    linarith
  rw [artanhC_eq (lo _ (by norm_num)) b1, artanhC_eq (lo _ (by norm_num)) b2]
  have m1 : 0.5 * s ∈ Set.Ioo (-1 : ℝ) 1 := ⟨by linarith, by nlinarith⟩
  have m2 : 0.8 * s ∈ Set.Ioo (-1 : ℝ) 1 := ⟨by linarith, by nlinarith⟩
  -- artanh(s/2) + artanh(s/2) = artanh(s/(1+s²/4)) < artanh(0.8 s)
  have key : Real.artanh (0.5 * s) + Real.artanh (0.5 * s) < Real.artanh (0.8 * s) := by
    have hm : s / (1 + s ^ 2 / 4) < 0.8 * s := by
      rw [div_lt_iff₀ (by positivity), hs2']
      nlinarith
    have hm0 : 0 < s / (1 + s ^ 2 / 4) := by positivity
    have hsum : Real.artanh (0.5 * s) + Real.artanh (0.5 * s) = Real.artanh (s / (1 + s ^ 2 / 4)) := by
      rw [← Real.artanh_tanh (Real.artanh (0.5 * s) + Real.artanh (0.5 * s))]
      congr 1
      have t1 := Real.tanh_artanh m1
      rw [Real.tanh_eq_sinh_div_cosh] at t1 ⊢
      rw [Real.sinh_add, Real.cosh_add]
      have c1 := (Real.cosh_pos (Real.artanh (0.5 * s))).ne'
      rw [div_eq_iff c1] at t1
      rw [t1, show (0.5 : ℝ) = 1 / 2 by norm_num]
      field_simp
      ring
    rw [hsum]
    exact Real.artanh_lt_artanh (by linarith) m2.2 hm
  have e2 : (2.0 : ℝ) = 2 := by norm_num
  rw [e2]
  have hinv : 0 < s⁻¹ := inv_pos.2 hs
  nlinarith [mul_lt_mul_of_pos_left key hinv]

/-- For positive curvature the separation axiom fails: a point and its antipode
`-x/(k‖x‖²)` have computed distance `0` (both numerator and denominator vanish and the
denominator is clamped), although they are the farthest points of the sphere. -/
theorem C06_antipodal_distance_zero {η k : ℝ} (hk : 0 < k) {x : Vec n} (hx : x ≠ 0) :
    x ≠ -((k * (x ⬝ᵥ x))⁻¹ • x) ∧ dist η k x (-((k * (x ⬝ᵥ x))⁻¹ • x)) = 0 := by
  have hxx : 0 < x ⬝ᵥ x := by
    rcases (dot_self_nonneg x).lt_or_eq with h | h
    · exact h
    · exact absurd (dot_self_eq_zero.1 h.symm) hx
  constructor
  · intro h
    have h2 := congrArg (fun v => x ⬝ᵥ v) h
    simp only [dotProduct_neg, dotProduct_smul, smul_eq_mul] at h2
    have : 0 < (k * (x ⬝ᵥ x))⁻¹ * (x ⬝ᵥ x) := by positivity
    linarith
  · have h0 : mobiusAdd k (-x) (-((k * (x ⬝ᵥ x))⁻¹ • x)) = 0 := by
      have : (1 - 2 * k * (-x ⬝ᵥ -((k * (x ⬝ᵥ x))⁻¹ • x)) -
            k * (-((k * (x ⬝ᵥ x))⁻¹ • x) ⬝ᵥ -((k * (x ⬝ᵥ x))⁻¹ • x))) • (-x) +
          (1 + k * (-x ⬝ᵥ -x)) • (-((k * (x ⬝ᵥ x))⁻¹ • x)) = 0 := by
        dots
        funext i
        simp only [Pi.add_apply, Pi.smul_apply, Pi.neg_apply, smul_eq_mul, Pi.zero_apply]
        field_simp
        ring
      rw [mobiusAdd, this, smul_zero]
    rw [dist, h0, nrm_zero, artanK_zero, mul_zero]

example : Valid codeEta .f64 (-1) pA ∧ Valid codeEta .f64 (-1) pB ∧
    Valid codeEta .f64 (-1) (0 : Vec 2) :=
  ⟨pA_valid _, pB_valid _, by
    apply valid_of_sq codeEta_nonneg (by norm_num)
    simp [projEps]; positivity⟩

end Geoopt.Stereo
