import Verif.Model.Lorentz
import Verif.Spec.Lorentz
import Verif.Lemmas.Vec
import Mathlib.Analysis.SpecialFunctions.Arcosh

namespace Geoopt.Lorentz
open Geoopt Matrix
variable {n : ℕ}

lemma inner_eq (u v : Vec (n + 1)) : inner u v = mink u v := rfl

lemma mink_comm (u v : Vec (n + 1)) : mink u v = mink v u := by
  unfold mink; simp only [mul_comm]

lemma mink_add_left (u v w : Vec (n + 1)) : mink (u + v) w = mink u w + mink v w := by
  simp only [mink, Pi.add_apply, add_mul, Finset.sum_add_distrib]; ring

lemma mink_smul_left (c : ℝ) (u v : Vec (n + 1)) : mink (c • u) v = c * mink u v := by
  simp only [mink, Pi.smul_apply, smul_eq_mul, mul_add, Finset.mul_sum, mul_assoc]; ring

lemma mink_add_right (u v w : Vec (n + 1)) : mink u (v + w) = mink u v + mink u w := by
  rw [mink_comm, mink_add_left, mink_comm v, mink_comm w]

lemma mink_smul_right (c : ℝ) (u v : Vec (n + 1)) : mink u (c • v) = c * mink u v := by
  rw [mink_comm, mink_smul_left, mink_comm v]

lemma mink_neg_left (u v : Vec (n + 1)) : mink (-u) v = -mink u v := by
  rw [← neg_one_smul ℝ u, mink_smul_left]; ring

lemma mink_neg_right (u v : Vec (n + 1)) : mink u (-v) = -mink u v := by
  rw [mink_comm, mink_neg_left, mink_comm]

lemma mink_sub_left (u v w : Vec (n + 1)) : mink (u - v) w = mink u w - mink v w := by
  rw [sub_eq_add_neg, mink_add_left, mink_neg_left]; ring

lemma mink_sub_right (u v w : Vec (n + 1)) : mink u (v - w) = mink u v - mink u w := by
  rw [sub_eq_add_neg, mink_add_right, mink_neg_right]; ring

/-- expand Minkowski products -/
macro "minks" : tactic => `(tactic| simp only [mink_add_left, mink_add_right, mink_smul_left,
  mink_smul_right, mink_sub_left, mink_sub_right, mink_neg_left, mink_neg_right])

lemma mink_eq_tail (u v : Vec (n + 1)) : mink u v = -(u 0 * v 0) + Fin.tail u ⬝ᵥ Fin.tail v := rfl

/-- a tangent vector has non-negative square -/
lemma tangent_sq_nonneg {k : ℝ} (hk : 0 < k) {x u : Vec (n + 1)} (hx : OnHyperboloid k x)
    (hu : Tangent x u) : 0 ≤ mink u u := by
  obtain ⟨h1, h0⟩ := hx
  rw [mink_eq_tail] at h1
  rw [Tangent, mink_eq_tail] at hu
  rw [mink_eq_tail]
  have hc := cauchy_sq (Fin.tail x) (Fin.tail u)
  have hn := dot_self_nonneg (Fin.tail u)
  have e : Fin.tail x ⬝ᵥ Fin.tail u = x 0 * u 0 := by linarith
  rw [e] at hc
  have e2 : Fin.tail x ⬝ᵥ Fin.tail x = x 0 ^ 2 - k := by linarith [sq (x 0)]
  rw [e2] at hc
  by_contra hneg
  push Not at hneg
  have : x 0 ^ 2 * (u 0 * u 0 - Fin.tail u ⬝ᵥ Fin.tail u) ≤ 0 := by nlinarith
  have hx2 : 0 < x 0 ^ 2 := by positivity
  nlinarith

lemma tangent_sq_eq_zero {k : ℝ} (hk : 0 < k) {x u : Vec (n + 1)} (hx : OnHyperboloid k x)
    (hu : Tangent x u) (h : mink u u = 0) : u = 0 := by
  obtain ⟨h1, h0⟩ := hx
  rw [mink_eq_tail] at h1 h
  rw [Tangent, mink_eq_tail] at hu
  have hc := cauchy_sq (Fin.tail x) (Fin.tail u)
  have hn := dot_self_nonneg (Fin.tail u)
  have e : Fin.tail x ⬝ᵥ Fin.tail u = x 0 * u 0 := by linarith
  rw [e] at hc
  have e2 : Fin.tail x ⬝ᵥ Fin.tail x = x 0 ^ 2 - k := by linarith [sq (x 0)]
  rw [e2] at hc
  have e3 : Fin.tail u ⬝ᵥ Fin.tail u = u 0 ^ 2 := by linarith [sq (u 0)]
  rw [e3] at hc
  have h00 : u 0 ^ 2 = 0 := by
    have : k * u 0 ^ 2 ≤ 0 := by nlinarith
    have := sq_nonneg (u 0)
    nlinarith
  rw [h00] at e3
  have ht : Fin.tail u = 0 := dot_self_eq_zero.1 e3
  have h00' : u 0 = 0 := by simpa using h00
  rw [← Fin.cons_self_tail u, ht, h00']
  funext i
  refine Fin.cases ?_ (fun i => ?_) i <;> simp

/-- Cauchy–Schwarz in a tangent space -/
lemma tangent_cauchy {k : ℝ} (hk : 0 < k) {x u v : Vec (n + 1)} (hx : OnHyperboloid k x)
    (hu : Tangent x u) (hv : Tangent x v) : mink u v ^ 2 ≤ mink u u * mink v v := by
  have hvv := tangent_sq_nonneg hk hx hv
  rcases hvv.lt_or_eq with hpos | hz
  · have ht : Tangent x (mink v v • u - mink u v • v) := by
      unfold Tangent at *; minks; rw [hu, hv]; ring
    have := tangent_sq_nonneg hk hx ht
    revert this
    minks
    rw [mink_comm v u]
    intro h
    have h2 : 0 ≤ mink v v * (mink v v * mink u u - mink u v ^ 2) := by nlinarith
    have := nonneg_of_mul_nonneg_right h2 hpos
    linarith
  · have := tangent_sq_eq_zero hk hx hv hz.symm
    subst this
    have e : mink u (0 : Vec (n + 1)) = 0 := by simp [mink]
    rw [e]; simp [mink]

lemma ne_zero_of_pos {k : ℝ} (hk : 0 < k) : k ≠ 0 := hk.ne'

/-- `-⟨x,y⟩ ≥ k` on the upper sheet -/
lemma mink_le {k : ℝ} (hk : 0 < k) {x y : Vec (n + 1)} (hx : OnHyperboloid k x)
    (hy : OnHyperboloid k y) : k ≤ -mink x y := by
  have hxx := hx.1
  have hyy := hy.1
  have ht : Tangent x (k • y + mink x y • x) := by
    unfold Tangent; minks; rw [hxx]; ring
  have h := tangent_sq_nonneg hk hx ht
  revert h
  minks
  rw [hxx, hyy, mink_comm y x]
  intro h
  have h2 : k ^ 2 ≤ mink x y ^ 2 := by
    have : 0 ≤ k * (mink x y ^ 2 - k ^ 2) := by nlinarith
    have := nonneg_of_mul_nonneg_right this hk
    linarith
  have hneg : mink x y ≤ 0 := by
    rw [mink_eq_tail]
    have hc := abs_dot_le (Fin.tail x) (Fin.tail y)
    have a1 : nrm (Fin.tail x) ≤ x 0 := by
      rw [nrm_le_iff hx.2.le]; rw [mink_eq_tail] at hxx; nlinarith
    have a2 : nrm (Fin.tail y) ≤ y 0 := by
      rw [nrm_le_iff hy.2.le]; rw [mink_eq_tail] at hyy; nlinarith
    have := mul_le_mul a1 a2 (nrm_nonneg _) hx.2.le
    have := le_abs_self (Fin.tail x ⬝ᵥ Fin.tail y)
    linarith
  nlinarith

lemma eq_of_mink_eq {k : ℝ} (hk : 0 < k) {x y : Vec (n + 1)} (hx : OnHyperboloid k x)
    (hy : OnHyperboloid k y) (h : -mink x y = k) : x = y := by
  have hxx := hx.1
  have hyy := hy.1
  have e : mink x y = -k := by linarith
  have ht : Tangent x (y - x) := by
    unfold Tangent; minks; rw [hxx, e]; ring
  have := tangent_sq_eq_zero hk hx ht (by minks; rw [hxx, hyy, mink_comm y x, e]; ring)
  exact (sub_eq_zero.1 this).symm

/-- `cosh` of the distance -/
noncomputable def ch (k : ℝ) (x y : Vec (n + 1)) : ℝ := -mink x y / k

lemma ch_ge_one {k : ℝ} (hk : 0 < k) {x y : Vec (n + 1)} (hx : OnHyperboloid k x)
    (hy : OnHyperboloid k y) : 1 ≤ ch k x y := by
  rw [ch, le_div_iff₀ hk, one_mul]; exact mink_le hk hx hy

lemma mink_eq_ch {k : ℝ} (hk : 0 < k) (x y : Vec (n + 1)) : mink x y = -(k * ch k x y) := by
  rw [ch, mul_div_cancel₀ _ hk.ne']; ring

lemma ch_comm (k : ℝ) (x y : Vec (n + 1)) : ch k x y = ch k y x := by rw [ch, ch, mink_comm]

lemma ch_self {k : ℝ} (hk : 0 < k) {x : Vec (n + 1)} (hx : OnHyperboloid k x) : ch k x x = 1 := by
  rw [ch, hx.1, neg_neg, div_self hk.ne']

lemma dist_eq {k : ℝ} (x y : Vec (n + 1)) : dist k x y = Real.sqrt k * arcosh (ch k x y) := rfl

lemma arcosh_eq {c : ℝ} (h : 1e-15 ≤ c ^ 2 - 1) : arcosh c = Real.arcosh c := by
  unfold arcosh Real.arcosh
  rw [show (1.0 : ℝ) = 1 by norm_num, max_eq_left h]

lemma arcosh_pos {c : ℝ} (h : 1 ≤ c) : 0 < arcosh c := by
  unfold arcosh
  apply Real.log_pos
  have : 0 < Real.sqrt (max (c ^ 2 - 1.0) 1e-15) :=
    Real.sqrt_pos.2 (lt_of_lt_of_le (by norm_num) (le_max_right _ _))
  linarith

lemma real_arcosh_le {c : ℝ} (h : 1 ≤ c) : Real.arcosh c ≤ arcosh c := by
  unfold arcosh Real.arcosh
  apply Real.log_le_log
  · have := Real.sqrt_nonneg (c ^ 2 - 1); linarith
  · have := Real.sqrt_le_sqrt (le_max_left (c ^ 2 - 1.0) (1e-15 : ℝ))
    norm_num at this ⊢

/-- the square of the direction from `x` to `y` -/
lemma dir_sq {k : ℝ} (hk : 0 < k) {x y : Vec (n + 1)} (hx : OnHyperboloid k x)
    (hy : OnHyperboloid k y) :
    mink (y + (1.0 / k * mink x y) • x) (y + (1.0 / k * mink x y) • x)
      = k * (ch k x y ^ 2 - 1) := by
  minks
  rw [hx.1, hy.1, mink_comm y x, mink_eq_ch hk x y, show (1.0 : ℝ) = 1 by norm_num]
  field_simp
  ring

lemma dir_eq {k : ℝ} (hk : 0 < k) (x y : Vec (n + 1)) :
    y + (1.0 / k * mink x y) • x = y - ch k x y • x := by
  rw [mink_eq_ch hk x y, sub_eq_add_neg, ← neg_smul, show (1.0 : ℝ) = 1 by norm_num]
  congr 2
  field_simp

/-- clamped length of the direction -/
noncomputable def dirNorm (k c : ℝ) : ℝ := Real.sqrt (max (k * (c ^ 2 - 1)) 1e-8)

lemma dirNorm_pos (k c : ℝ) : 0 < dirNorm k c :=
  Real.sqrt_pos.2 (lt_of_lt_of_le (by norm_num) (le_max_right _ _))

lemma dirNorm_sq (k c : ℝ) : dirNorm k c ^ 2 = max (k * (c ^ 2 - 1)) 1e-8 :=
  Real.sq_sqrt (le_trans (by norm_num) (le_max_right _ _))

lemma logmap_eq {k : ℝ} (hk : 0 < k) {x y : Vec (n + 1)} (hx : OnHyperboloid k x)
    (hy : OnHyperboloid k y) :
    logmap k x y = (dist k x y / dirNorm k (ch k x y)) • (y - ch k x y • x) := by
  unfold logmap
  simp only [inner_eq]
  rw [← dir_eq hk x y]
  unfold norm
  rw [inner_eq, dir_sq hk hx hy]
  rfl

lemma project_on {k : ℝ} (hk : 0 < k) (x : Vec (n + 1)) : OnHyperboloid k (project k x) := by
  have h : 0 ≤ k + nrm (Fin.tail x) ^ 2 := by positivity
  constructor
  · rw [mink_eq_tail]
    simp only [project, Fin.cons_zero, Fin.tail_cons]
    rw [Real.mul_self_sqrt h, nrm_sq]; ring
  · simp only [project, Fin.cons_zero]
    exact Real.sqrt_pos.2 (by positivity)

lemma project_of_on {k : ℝ} {x : Vec (n + 1)} (hx : OnHyperboloid k x) : project k x = x := by
  have h1 := hx.1
  rw [mink_eq_tail] at h1
  conv_rhs => rw [← Fin.cons_self_tail x]
  unfold project
  congr 1
  rw [nrm_sq, show k + Fin.tail x ⬝ᵥ Fin.tail x = x 0 ^ 2 by linarith [sq (x 0)],
    Real.sqrt_sq hx.2.le]

lemma sqrt_sq' {k : ℝ} (hk : 0 < k) : Real.sqrt k * Real.sqrt k = k := Real.mul_self_sqrt hk.le

lemma norm_sq_of {u : Vec (n + 1)} (h : 1e-8 ≤ mink u u) : norm u ^ 2 = mink u u := by
  rw [norm, inner_eq, max_eq_left h, Real.sq_sqrt (le_trans (by norm_num) h)]

lemma norm_pos (u : Vec (n + 1)) : 0 < norm u :=
  Real.sqrt_pos.2 (lt_of_lt_of_le (by norm_num) (le_max_right _ _))

lemma upper_of {k : ℝ} (hk : 0 < k) {x y : Vec (n + 1)} (hx : OnHyperboloid k x)
    (hy : mink y y = -k) (h : mink x y < 0) : OnHyperboloid k y := by
  refine ⟨hy, ?_⟩
  by_contra hn
  push Not at hn
  rw [mink_eq_tail] at h hy
  have hxx := hx.1
  rw [mink_eq_tail] at hxx
  have hc := neg_le_dot (Fin.tail x) (Fin.tail y)
  have a1 : nrm (Fin.tail x) ≤ x 0 := by
    rw [nrm_le_iff hx.2.le]; nlinarith
  have a2 : nrm (Fin.tail y) ≤ -y 0 := by
    rw [nrm_le_iff (by linarith)]; nlinarith
  have := mul_le_mul a1 a2 (nrm_nonneg _) hx.2.le
  linarith

end Geoopt.Lorentz
