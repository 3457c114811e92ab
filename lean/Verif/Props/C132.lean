import Verif.Props.C20
import Verif.Props.C31Aim
import Verif.Lemmas.NearFlat
import Verif.Props.C01
import Mathlib.Analysis.SpecialFunctions.Trigonometric.ArctanDeriv
import Mathlib.Analysis.SpecialFunctions.Log.Deriv

/-!
# C132 – the retractions follow the exponential map to third order

`retr` is the cheap replacement of `expmap` in the optimisers.  The distance between the two results is
at most the cube of the length of the step: halving the step divides the difference by eight.
-/

namespace Geoopt.C132
open Geoopt Matrix
variable {n : ℕ}

/-! ### real inequalities -/

theorem sub_arctan_le {r : ℝ} (hr : 0 ≤ r) : r - Real.arctan r ≤ r ^ 3 / 3 := by
  have hd : ∀ t : ℝ, HasDerivAt (fun t => t ^ 3 / 3 - t + Real.arctan t) (t ^ 2 - 1 + 1 / (1 + t ^ 2)) t := by
    intro t
    have h1 := ((hasDerivAt_pow 3 t).div_const 3).sub (hasDerivAt_id t)
    have h2 := h1.add (Real.hasDerivAt_arctan t)
    exact h2.congr_deriv (by norm_num)
  have hm : Monotone fun t : ℝ => t ^ 3 / 3 - t + Real.arctan t := by
    refine monotone_of_deriv_nonneg (fun t => (hd t).differentiableAt) fun t => ?_
    rw [(hd t).deriv]
    have hp : 0 < 1 + t ^ 2 := by positivity
    have : t ^ 2 - 1 + 1 / (1 + t ^ 2) = t ^ 4 / (1 + t ^ 2) := by field_simp; ring
    rw [this]; positivity
  have := hm hr
  simp only [Real.arctan_zero] at this
  norm_num at this
  linarith

theorem arctan_le {r : ℝ} (hr : 0 ≤ r) : Real.arctan r ≤ r := by
  have hm : Monotone fun t : ℝ => t - Real.arctan t := by
    have hd : ∀ t : ℝ, HasDerivAt (fun t => t - Real.arctan t) (1 - 1 / (1 + t ^ 2)) t := fun t =>
      (hasDerivAt_id t).sub (Real.hasDerivAt_arctan t)
    refine monotone_of_deriv_nonneg (fun t => (hd t).differentiableAt) fun t => ?_
    rw [(hd t).deriv, sub_nonneg, div_le_one (by positivity)]
    nlinarith [sq_nonneg t]
  have := hm hr
  simp at this
  exact this

theorem arccos_cos_le (t : ℝ) : Real.arccos (Real.cos t) ≤ |t| := by
  rw [← Real.cos_abs]
  by_cases h : |t| ≤ Real.pi
  · rw [Real.arccos_cos (abs_nonneg t) h]
  · exact (Real.arccos_le_pi _).trans (not_le.1 h).le

theorem quad_pos (t : ℝ) : 1 / 2 ≤ 1 + t + t ^ 2 / 2 := by nlinarith [sq_nonneg (t + 1)]

/-- The logarithm of the quadratic Taylor polynomial of the exponential. -/
theorem log_quad (t : ℝ) : |t - Real.log (1 + t + t ^ 2 / 2)| ≤ |t| ^ 3 / 3 := by
  have hg : ∀ t : ℝ, HasDerivAt (fun t => t - Real.log (1 + t + t ^ 2 / 2))
      ((t ^ 2 / 2) / (1 + t + t ^ 2 / 2)) t := by
    intro t
    have hp : (1 + t + t ^ 2 / 2) ≠ 0 := by linarith [quad_pos t]
    have h1 : HasDerivAt (fun t : ℝ => 1 + t + t ^ 2 / 2) (1 + t) t := by
      have := ((hasDerivAt_id t).const_add 1).add ((hasDerivAt_pow 2 t).div_const 2)
      exact this.congr_deriv (by norm_num)
    have h2 := (hasDerivAt_id t).sub (h1.log hp)
    refine h2.congr_deriv ?_
    change 1 - (1 + t) / (1 + t + t ^ 2 / 2) = t ^ 2 / 2 / (1 + t + t ^ 2 / 2)
    rw [eq_div_iff hp, sub_mul, div_mul_cancel₀ _ hp]
    ring
  have hb : ∀ t : ℝ, 0 ≤ (t ^ 2 / 2) / (1 + t + t ^ 2 / 2) ∧ (t ^ 2 / 2) / (1 + t + t ^ 2 / 2) ≤ t ^ 2 := by
    intro t
    have hp : 0 < 1 + t + t ^ 2 / 2 := by linarith [quad_pos t]
    refine ⟨by positivity, ?_⟩
    rw [div_le_iff₀ hp]
    nlinarith [quad_pos t, sq_nonneg t]
  have hm1 : Monotone fun t : ℝ => t - Real.log (1 + t + t ^ 2 / 2) := by
    refine monotone_of_deriv_nonneg (fun t => (hg t).differentiableAt) fun t => ?_
    rw [(hg t).deriv]; exact (hb t).1
  have hm2 : Monotone fun t : ℝ => t ^ 3 / 3 - (t - Real.log (1 + t + t ^ 2 / 2)) := by
    have hd : ∀ t : ℝ, HasDerivAt (fun t => t ^ 3 / 3 - (t - Real.log (1 + t + t ^ 2 / 2)))
        (t ^ 2 - (t ^ 2 / 2) / (1 + t + t ^ 2 / 2)) t := by
      intro t
      have := ((hasDerivAt_pow 3 t).div_const 3).sub (hg t)
      exact this.congr_deriv (by norm_num)
    refine monotone_of_deriv_nonneg (fun t => (hd t).differentiableAt) fun t => ?_
    rw [(hd t).deriv]; linarith [(hb t).2]
  rcases le_total 0 t with h | h
  · have h1 := hm1 h
    have h2 := hm2 h
    norm_num at h1 h2
    rw [abs_of_nonneg h, abs_of_nonneg (by linarith)]
    linarith
  · have h1 := hm1 h
    have h2 := hm2 h
    norm_num at h1 h2
    rw [abs_of_nonpos h, abs_of_nonpos (by linarith)]
    have : (-t) ^ 3 = -t ^ 3 := by ring
    rw [this]
    linarith

/-! ### the sphere -/

section sphere
open Geoopt.Sphere
variable {S : Set (Vec n)} {P : Option (Matrix (Fin n) (Fin n) ℝ)}

/-- The retraction goes along the great circle of `u`, through the angle `arctan |u|` in place of
`|u|`. -/
theorem C132_sphere_angle (hP : Projects S P) {x u : Vec n} (hx : OnSphere S x) (hu : Tangent S x u)
    (h0 : u ≠ 0) :
    retr P x u = Real.cos (Real.arctan (nrm u)) • x + (Real.sin (Real.arctan (nrm u)) / nrm u) • u := by
  have hm : x + u ∈ S := add_mem hP hx.2 hu.2
  have hr : 0 < nrm u := lt_of_le_of_ne (nrm_nonneg u) fun e => h0 (nrm_eq_zero.1 e.symm)
  have hn : nrm (x + u) = Real.sqrt (1 + nrm u ^ 2) := by
    have hux : u ⬝ᵥ x = 0 := by rw [dotProduct_comm]; exact hu.1
    have hp : 0 ≤ u ⬝ᵥ u := Finset.sum_nonneg fun _ _ => mul_self_nonneg _
    rw [nrm, nrm, Real.sq_sqrt hp, dotProduct_add,
      add_dotProduct, add_dotProduct, hx.1, hu.1, hux]
    congr 1; ring
  unfold retr projx
  dsimp only
  rw [pos_fix hP hm, hn, Real.cos_arctan, Real.sin_arctan, smul_add, one_div]
  congr 2
  field_simp

/-- The angle between the retraction and the exponential. -/
theorem C132_sphere (hP : Projects S P) (dt : DType) {x u : Vec n} (hx : OnSphere S x)
    (hu : Tangent S x u) : Real.arccos (retr P x u ⬝ᵥ expmap P dt x u) ≤ nrm u ^ 3 / 3 := by
  have hm : x + u ∈ S := add_mem hP hx.2 hu.2
  by_cases h : nrm u > eps dt
  · have hr : 0 < nrm u := lt_trans (by cases dt <;> norm_num [eps]) h
    have h0 : u ≠ 0 := fun e => by rw [e, nrm_zero] at hr; exact lt_irrefl _ hr
    have hp : 0 ≤ u ⬝ᵥ u := Finset.sum_nonneg fun _ _ => mul_self_nonneg _
    have huu : u ⬝ᵥ u = nrm u ^ 2 := by
      rw [nrm, Real.sq_sqrt hp]
    have hux : u ⬝ᵥ x = 0 := by rw [dotProduct_comm]; exact hu.1
    rw [C132_sphere_angle hP hx hu h0, expmap, if_pos h]
    obtain ⟨r, hr'⟩ : ∃ r, r = nrm u := ⟨_, rfl⟩
    have e : (Real.cos (Real.arctan r) • x + (Real.sin (Real.arctan r) / r) • u) ⬝ᵥ
        (Real.cos r • x + (Real.sin r / r) • u) = Real.cos (r - Real.arctan r) := by
      rw [← hr'] at huu hr
      simp only [dotProduct_add, add_dotProduct, dotProduct_smul, smul_dotProduct, hx.1, hu.1, hux, huu,
        smul_eq_mul, Real.cos_sub]
      field_simp
      ring
    rw [← hr', e]
    rw [← hr'] at hr
    refine (arccos_cos_le _).trans ?_
    rw [abs_of_nonneg (by linarith [arctan_le hr.le])]
    exact sub_arctan_le hr.le
  · have h1 : projectOnSubspace P (x + u) ≠ 0 := by
      rw [pos_fix hP hm]
      intro e
      have : x ⬝ᵥ (x + u) = 0 := by rw [e, dotProduct_zero]
      rw [dotProduct_add, hx.1, hu.1] at this
      norm_num at this
    have h2 := (C20_projx_on_sphere hP h1).1
    rw [expmap, if_neg h]
    show Real.arccos (projx P (x + u) ⬝ᵥ projx P (x + u)) ≤ _
    rw [h2, Real.arccos_one]
    have := nrm_nonneg u
    positivity

/-- A point of the circle and a step of length two. -/
example : Projects (Set.univ : Set (Vec 2)) none ∧ OnSphere Set.univ (![1, 0] : Vec 2) ∧
    Tangent Set.univ (![1, 0] : Vec 2) ![0, 2] :=
  ⟨rfl, ⟨by simp [dotProduct], trivial⟩, by simp [dotProduct], trivial⟩

end sphere

/-! ### positive definite matrices -/

section spd
open Geoopt.SPD Geoopt.Linalg
variable (E : Eigh n)

/-- The affine invariant distance between the retraction and the exponential, for steps of any length. -/
theorem C132_spd {x u : Mat n} (hx : OnSPD x) (hu : Symm u) :
    dist E .AIM (Geoopt.SPD.retr x u) (Geoopt.SPD.expmap E x u) ≤
      Real.sqrt (Geoopt.SPD.inner x u u) ^ 3 / 3 := by
  rw [symm_iff] at hu
  have r := roots (E := E) hx
  obtain ⟨p, hp⟩ : ∃ p, p = (symInvSqrtm2 E x).1 := ⟨_, rfl⟩
  obtain ⟨q, hq⟩ : ∃ q, q = (symInvSqrtm2 E x).2 := ⟨_, rfl⟩
  rw [← hp, ← hq] at r
  have hA : (p * u * p)ᵀ = p * u * p := by
    rw [transpose_mul, transpose_mul, hu, r.rsymm, Matrix.mul_assoc]
  obtain ⟨e, v, hd⟩ := exists_dec hA
  -- the two results
  have hqA : q * (p * u * p) * q = u := by
    calc q * (p * u * p) * q = (q * p) * u * (p * q) := by simp only [Matrix.mul_assoc]
      _ = u := by rw [r.sr, r.rs, one_mul, mul_one]
  have hqAA : q * ((p * u * p) * (p * u * p)) * q = u * x⁻¹ * u := by
    calc q * ((p * u * p) * (p * u * p)) * q = (q * p) * u * (p * p) * u * (p * q) := by
          simp only [Matrix.mul_assoc]
      _ = u * x⁻¹ * u := by rw [r.sr, r.rs, r.inv, one_mul, mul_one]
  have hAA : fn (fun t => t * t) e v = (p * u * p) * (p * u * p) := by
    rw [← fn_mul hd.orth (fun t => t) (fun t => t), fn_id hd]
  have e1 : Geoopt.SPD.retr x u = q * fn (fun t => 1 + t + t ^ 2 / 2) e v * qᵀ := by
    have h1 : fn (fun t => 1 + t + t ^ 2 / 2) e v =
        1 + p * u * p + (0.5 : ℝ) • ((p * u * p) * (p * u * p)) := by
      have h2 : fn (fun t => 1 + t + t ^ 2 / 2) e v =
          fn (fun _ => 1) e v + fn (fun t => t) e v + fn (fun t => (0.5 : ℝ) * (t * t)) e v := by
        unfold fn
        rw [← add_mul, ← add_mul, ← mul_add, ← mul_add, diagonal_add, diagonal_add]
        congr 3
        funext i
        norm_num
        ring
      rw [h2, fn_const hd, one_smul, fn_id hd, ← fn_mul hd.orth (fun _ => (0.5 : ℝ)), fn_const hd,
        smul_mul_assoc, one_mul, hAA]
    have h3 : q * fn (fun t => 1 + t + t ^ 2 / 2) e v * qᵀ = x + u + (0.5 : ℝ) • u * x⁻¹ * u := by
      rw [h1, r.ssymm, mul_add, mul_add, add_mul, add_mul, mul_one, r.ss, hqA, mul_smul_comm,
        smul_mul_assoc, hqAA, smul_mul_assoc, smul_mul_assoc]
    rw [h3]
    show sym (x + u + (0.5 : ℝ) • u * x⁻¹ * u) = _
    apply sym_of_symm
    rw [← h3, transpose_mul, transpose_mul, transpose_transpose, fn_symm, Matrix.mul_assoc]
  have e2 : Geoopt.SPD.expmap E x u = q * fn Real.exp e v * qᵀ := by
    have : Geoopt.SPD.expmap E x u = q * NormedSpace.exp (p * u * p) * q := by rw [hp, hq]; rfl
    rw [this, r.ssymm]
    congr 2
    conv_lhs => rw [← fn_id hd]
    exact exp_fn hd.orth _ _
  have hg : OnSPD (fn (fun t => 1 + t + t ^ 2 / 2) e v) :=
    onSPD_fn hd _ fun i => by linarith [quad_pos (e i)]
  have hE : OnSPD (fn Real.exp e v) := onSPD_fn hd _ fun i => Real.exp_pos _
  rw [e1, e2, C30_congruence_invariant E hg hE r.unit_s]
  -- divide by the first
  have hc := fn_symm (fun t => (Real.sqrt (1 + t + t ^ 2 / 2))⁻¹) e v
  have hs : ∀ t : ℝ, 0 < Real.sqrt (1 + t + t ^ 2 / 2) := fun t =>
    Real.sqrt_pos.2 (by linarith [quad_pos t])
  have hdet : IsUnit (fn (fun t => (Real.sqrt (1 + t + t ^ 2 / 2))⁻¹) e v).det :=
    (onSPD_fn hd (fun t => (Real.sqrt (1 + t + t ^ 2 / 2))⁻¹) fun i => inv_pos.2 (hs (e i))).unit
  rw [← C30_congruence_invariant E hg hE hdet, hc, fn_mul hd.orth, fn_mul hd.orth, fn_mul hd.orth,
    fn_mul hd.orth]
  have f1 : fn (fun t => (Real.sqrt (1 + t + t ^ 2 / 2))⁻¹ * (1 + t + t ^ 2 / 2) *
      (Real.sqrt (1 + t + t ^ 2 / 2))⁻¹) e v = 1 := by
    rw [fn_congr (g := fun _ => 1) v fun i => ?_, fn_const hd, one_smul]
    have hk : ∀ g : ℝ, 0 < g → (Real.sqrt g)⁻¹ * g * (Real.sqrt g)⁻¹ = 1 := by
      intro g hg
      have h0 := (Real.sqrt_pos.2 hg).ne'
      have := Real.mul_self_sqrt hg.le
      rw [mul_assoc, mul_comm g, ← mul_assoc, ← mul_inv, this, inv_mul_cancel₀ hg.ne']
    exact hk _ (by linarith [quad_pos (e i)])
  rw [f1]
  have hm : Dec (fn (fun t => (Real.sqrt (1 + t + t ^ 2 / 2))⁻¹ * Real.exp t *
      (Real.sqrt (1 + t + t ^ 2 / 2))⁻¹) e v) _ v := fn_dec hd _
  rw [dist_one E (onSPD_fn hd _ fun i => by have := hs (e i); positivity), frobNorm, frob_symLogm E hm]
  have hl : ∀ t : ℝ, Real.log ((Real.sqrt (1 + t + t ^ 2 / 2))⁻¹ * Real.exp t *
      (Real.sqrt (1 + t + t ^ 2 / 2))⁻¹) = t - Real.log (1 + t + t ^ 2 / 2) := by
    intro t
    have h0 := (hs t).ne'
    have hq := quad_pos t
    rw [Real.log_mul (mul_ne_zero (inv_ne_zero h0) (Real.exp_pos t).ne') (inv_ne_zero h0),
      Real.log_mul (inv_ne_zero h0) (Real.exp_pos t).ne', Real.log_exp, Real.log_inv,
      Real.log_sqrt (by linarith)]
    ring
  have hi : Geoopt.SPD.inner x u u = ∑ i, e i ^ 2 := by
    show Matrix.trace (x⁻¹ * u * x⁻¹ * u) = _
    have : Matrix.trace (x⁻¹ * u * x⁻¹ * u) = Matrix.trace ((p * u * p) * (p * u * p)) := by
      rw [← r.inv]
      calc Matrix.trace (p * p * u * (p * p) * u) = Matrix.trace (p * (p * u * p * p * u)) := by
            simp only [Matrix.mul_assoc]
        _ = Matrix.trace ((p * u * p * p * u) * p) := Matrix.trace_mul_comm _ _
        _ = _ := by simp only [Matrix.mul_assoc]
    rw [this, ← hAA, fn_trace hd.orth]
    exact Finset.sum_congr rfl fun i _ => by ring
  have hN : 0 ≤ ∑ i, e i ^ 2 := Finset.sum_nonneg fun _ _ => sq_nonneg _
  rw [hi]
  apply Real.sqrt_le_iff.2 ⟨by positivity, ?_⟩
  calc ∑ i, Real.log ((Real.sqrt (1 + e i + e i ^ 2 / 2))⁻¹ * Real.exp (e i) *
        (Real.sqrt (1 + e i + e i ^ 2 / 2))⁻¹) ^ 2
      ≤ ∑ i, e i ^ 2 * ((∑ j, e j ^ 2) ^ 2 / 9) := by
        refine Finset.sum_le_sum fun i _ => ?_
        rw [hl, ← sq_abs]
        have h1 := log_quad (e i)
        have h2 : e i ^ 2 ≤ ∑ j, e j ^ 2 :=
          Finset.single_le_sum (f := fun j => e j ^ 2) (fun _ _ => sq_nonneg _) (Finset.mem_univ i)
        calc |e i - Real.log (1 + e i + e i ^ 2 / 2)| ^ 2 ≤ (|e i| ^ 3 / 3) ^ 2 :=
              pow_le_pow_left₀ (abs_nonneg _) h1 2
          _ = e i ^ 2 * ((e i ^ 2) ^ 2 / 9) := by
              rw [← sq_abs (e i)]; ring
          _ ≤ _ := by
              apply mul_le_mul_of_nonneg_left _ (sq_nonneg _)
              have := pow_le_pow_left₀ (sq_nonneg (e i)) h2 2
              linarith
    _ = (Real.sqrt (∑ i, e i ^ 2) ^ 3 / 3) ^ 2 := by
        rw [← Finset.sum_mul]
        have := Real.sq_sqrt hN
        calc (∑ i, e i ^ 2) * ((∑ j, e j ^ 2) ^ 2 / 9)
            = (Real.sqrt (∑ i, e i ^ 2) ^ 2) ^ 3 / 9 := by rw [this]; ring
          _ = _ := by ring

/-- A point and a step that are not trivial. -/
example : OnSPD (1 : Mat 2) ∧ Symm (!![0, 1; 1, 0] : Mat 2) := ⟨one_spd, by
  intro i j; fin_cases i <;> fin_cases j <;> rfl⟩

end spd

/-! ### the stereographic models -/

section stereo
open Geoopt.Stereo

theorem tanhC_near {z : ℝ} (hz : 0 ≤ z) : tanhC z ≤ z ∧ z - z ^ 3 / 3 ≤ tanhC z := by
  have hle : Real.tanh z ≤ z := by
    rcases hz.eq_or_lt with h | h
    · rw [← h]; simp
    · exact (NearFlat.tanh_lt_self h).le
  by_cases h : z ≤ 15
  · rw [tanhC_eq (by linarith) h]
    exact ⟨hle, NearFlat.tanh_ge hz⟩
  · have h' := not_le.1 h
    have h1 := tanhC_nonneg hz
    have h2 := (abs_lt.1 (abs_tanhC_lt z)).2
    refine ⟨by linarith, ?_⟩
    have : 225 * z ≤ z ^ 3 := by nlinarith [mul_self_nonneg z]
    linarith

theorem tanK_near {η k : ℝ} (hη : 0 ≤ η) (hk : k ≤ 1e-8) {t : ℝ} (ht : 0 ≤ t) :
    |tanK η k t - t| ≤ (|k| + η) / 3 * t ^ 3 := by
  have h3 : 0 ≤ t ^ 3 := by positivity
  by_cases h0 : KZero k
  · rw [tanK, if_pos h0, tanKTaylor]
    have ha : |absZeroGrad k| = |k| := by
      unfold absZeroGrad; rw [abs_mul, abs_usign, mul_one]
    have : t + 1 / 3 * absZeroGrad k * t ^ 3 - t = absZeroGrad k * (t ^ 3 / 3) := by ring
    rw [this, abs_mul, ha, abs_of_nonneg (div_nonneg h3 (by norm_num) : 0 ≤ t ^ 3 / 3)]
    have := mul_nonneg hη h3
    linarith
  · have hk0 : k < 0 := by
      by_contra h
      apply h0
      rw [KZero, abs_of_nonneg (not_lt.1 h)]; exact hk
    have hs2 : kSqrt η k ^ 2 = |k| + η := Real.sq_sqrt (by unfold sabs; positivity)
    have hs : 0 < kSqrt η k := Real.sqrt_pos.2 (by
      have := abs_pos.2 hk0.ne; unfold sabs; linarith)
    rw [tanK, if_neg h0, if_pos hk0]
    obtain ⟨h1, h2⟩ := tanhC_near (mul_nonneg ht hs.le)
    have e : (kSqrt η k)⁻¹ * tanhC (t * kSqrt η k) - t =
        -((kSqrt η k)⁻¹ * (t * kSqrt η k - tanhC (t * kSqrt η k))) := by field_simp; ring
    rw [e, abs_neg, abs_of_nonneg (mul_nonneg (inv_nonneg.2 hs.le) (by linarith)), ← hs2]
    calc (kSqrt η k)⁻¹ * (t * kSqrt η k - tanhC (t * kSqrt η k))
        ≤ (kSqrt η k)⁻¹ * ((t * kSqrt η k) ^ 3 / 3) :=
          mul_le_mul_of_nonneg_left (by linarith) (inv_nonneg.2 hs.le)
      _ = kSqrt η k ^ 2 / 3 * t ^ 3 := by field_simp

/-- At the origin of a model that is hyperbolic or flat the exponential differs from the vector itself,
which is the result of the retraction inside the ball, by the cube of its length. -/
theorem C132_stereographic_origin {η k : ℝ} (hη : 0 ≤ η) (hk : k ≤ 1e-8) (u : Vec n) :
    nrm (expmap0 η k u - u) ≤ (|k| + η) / 3 * max (nrm u) 1e-15 ^ 2 * nrm u := by
  obtain ⟨r, hr⟩ : ∃ r, r = max (nrm u) 1e-15 := ⟨_, rfl⟩
  have hp : 0 < r := hr ▸ lt_of_lt_of_le (by norm_num) (le_max_right (nrm u) 1e-15)
  have e : expmap0 η k u - u = (r⁻¹ * (tanK η k r - r)) • u := by
    show tanK η k (max (nrm u) 1e-15) • ((max (nrm u) 1e-15)⁻¹ • u) - u = _
    rw [← hr, smul_smul, mul_sub, inv_mul_cancel₀ hp.ne', sub_smul, one_smul, mul_comm]
  rw [e, nrm_smul, ← hr]
  apply mul_le_mul_of_nonneg_right _ (nrm_nonneg u)
  rw [abs_mul, abs_of_pos (inv_pos.2 hp)]
  calc r⁻¹ * |tanK η k r - r| ≤ r⁻¹ * ((|k| + η) / 3 * r ^ 3) :=
        mul_le_mul_of_nonneg_left (tanK_near hη hk hp.le) (inv_pos.2 hp).le
    _ = (|k| + η) / 3 * r ^ 2 := by field_simp

/-- Away from the origin this fails: in the ball of curvature `-1` at `1/2` the difference is at least
half the square of the length. -/
theorem C132_counterexample_stereographic (dt : DType) (C : ℝ) :
    ∃ u : Vec 1, u ≠ 0 ∧ C * nrm u ^ 3 <
      nrm (M.retr codeEta dt (-1) ![1 / 2] u - M.expmap true codeEta dt (-1) ![1 / 2] u) := by
  obtain ⟨u, hu⟩ : ∃ u : ℝ, u = 1 / (4 * (|C| + 1)) := ⟨_, rfl⟩
  have hC := abs_nonneg C
  have hu0 : 0 < u := by rw [hu]; positivity
  have hu4 : u ≤ 1 / 4 := by
    rw [hu]; apply one_div_le_one_div_of_le (by norm_num); linarith
  have hCu : |C| * u ≤ 1 / 4 := by
    rw [hu, mul_one_div, div_le_div_iff₀ (by positivity) (by norm_num)]; linarith
  have hnu : nrm ![u] = u := by
    unfold nrm; simp [dotProduct, Real.sqrt_mul_self hu0.le]
  obtain ⟨r, hr⟩ : ∃ r, r = max (nrm ![u]) 1e-15 := ⟨_, rfl⟩
  have hp : 0 < r := hr ▸ lt_of_lt_of_le (by norm_num) (le_max_right _ 1e-15)
  -- the conformal factor and the Möbius vector
  have hlam : lambdaX (-1) (![1 / 2] : Vec 1) / 2.0 = 4 / 3 := by
    unfold lambdaX
    rw [max_eq_left (by simp [dotProduct]; norm_num)]
    simp [dotProduct]; norm_num
  have hT : tanK codeEta (-1) (4 / 3 * r) ≤ 4 / 3 * r ∧ 0 ≤ tanK codeEta (-1) (4 / 3 * r) := by
    have h0 : ¬ KZero (-1 : ℝ) := by unfold KZero; norm_num
    have hs : 0 < kSqrt codeEta (-1) := Real.sqrt_pos.2 (by unfold sabs codeEta; norm_num)
    have hz : 0 ≤ 4 / 3 * r * kSqrt codeEta (-1) := by positivity
    rw [tanK, if_neg h0, if_pos (by norm_num)]
    refine ⟨?_, mul_nonneg (inv_nonneg.2 hs.le) (tanhC_nonneg hz)⟩
    calc (kSqrt codeEta (-1))⁻¹ * tanhC (4 / 3 * r * kSqrt codeEta (-1))
        ≤ (kSqrt codeEta (-1))⁻¹ * (4 / 3 * r * kSqrt codeEta (-1)) :=
          mul_le_mul_of_nonneg_left (tanhC_near hz).1 (inv_nonneg.2 hs.le)
      _ = 4 / 3 * r := by field_simp
  obtain ⟨w, hw⟩ : ∃ w, w = tanK codeEta (-1) (4 / 3 * r) * (r⁻¹ * u) := ⟨_, rfl⟩
  have hw0 : 0 ≤ w := by rw [hw]; exact mul_nonneg hT.2 (by positivity)
  have hw1 : w ≤ 4 / 3 * u := by
    rw [hw]
    calc tanK codeEta (-1) (4 / 3 * r) * (r⁻¹ * u) ≤ 4 / 3 * r * (r⁻¹ * u) :=
          mul_le_mul_of_nonneg_right hT.1 (by positivity)
      _ = 4 / 3 * u := by field_simp
  have hexp : Stereo.expmap codeEta (-1) ![1 / 2] ![u] = ![(1 / 2 + w) / (1 + w / 2)] := by
    have e1 : Stereo.expmap codeEta (-1) ![1 / 2] ![u] = mobiusAdd (-1) ![1 / 2] ![w] := by
      show mobiusAdd (-1) ![1 / 2] (tanK codeEta (-1) (lambdaX (-1) ![1 / 2] / 2.0 *
        max (nrm ![u]) 1e-15) • ((max (nrm ![u]) 1e-15)⁻¹ • ![u])) = _
      rw [← hr, hlam, hw]
      congr 1
      funext i; fin_cases i; simp
    have hden : mobDenom (-1) (![1 / 2] : Vec 1) ![w] = (1 + w / 2) ^ 2 := by
      unfold mobDenom; simp [dotProduct]; ring
    rw [e1, mobiusAdd, hden, max_eq_left (by
      have : (1 : ℝ) ≤ (1 + w / 2) ^ 2 := by nlinarith
      linarith [show (1e-15 : ℝ) ≤ 1 by norm_num])]
    funext i; fin_cases i
    simp [dotProduct]
    have : 1 + w / 2 ≠ 0 := by positivity
    field_simp
    ring
  obtain ⟨y, hy⟩ : ∃ y, y = (1 / 2 + w) / (1 + w / 2) := ⟨_, rfl⟩
  have hyp : 1 / 2 ≤ y := by
    rw [hy, le_div_iff₀ (by positivity)]; nlinarith
  have hyu : y ≤ 1 / 2 + u / (1 + 2 / 3 * u) := by
    rw [hy, show (1 / 2 + w) / (1 + w / 2) = 1 / 2 + (3 / 4 * w) / (1 + w / 2) by field_simp; ring]
    gcongr 1 / 2 + ?_
    rw [div_le_div_iff₀ (by positivity) (by positivity)]
    nlinarith
  have hdiff : u ^ 2 / 2 ≤ 1 / 2 + u - y := by
    have : u - u / (1 + 2 / 3 * u) = (2 / 3 * u ^ 2) / (1 + 2 / 3 * u) := by field_simp; ring
    have h2 : u ^ 2 / 2 ≤ (2 / 3 * u ^ 2) / (1 + 2 / 3 * u) := by
      rw [le_div_iff₀ (by positivity)]; nlinarith [sq_nonneg u]
    linarith
  -- both results are inside the ball
  have hmax : 3 / 4 ≤ maxNorm codeEta dt (-1) := by
    rw [maxNorm, if_pos (by norm_num)]
    have h1 : sabs codeEta (-1) ^ (0.5 : ℝ) ≤ 1.1 := by
      have hb : (1 : ℝ) ≤ sabs codeEta (-1) := by unfold sabs codeEta; norm_num
      calc sabs codeEta (-1) ^ (0.5 : ℝ) ≤ sabs codeEta (-1) ^ (1 : ℝ) :=
            Real.rpow_le_rpow_of_exponent_le hb (by norm_num)
        _ = sabs codeEta (-1) := Real.rpow_one _
        _ ≤ 1.1 := by unfold sabs codeEta; norm_num
    have h2 : (0 : ℝ) < sabs codeEta (-1) ^ (0.5 : ℝ) :=
      Real.rpow_pos_of_pos (by unfold sabs codeEta; norm_num) _
    rw [le_div_iff₀ h2]
    have h3 : projEps dt ≤ 4e-3 := by cases dt <;> norm_num [projEps]
    have : (3 / 4 : ℝ) * 1.1 ≤ 1 - 4e-3 := by norm_num
    nlinarith
  have hin : ∀ c : ℝ, 1 / 2 ≤ c → c ≤ 3 / 4 → project codeEta dt (-1) ![c] = ![c] := by
    intro c h1 h2
    have hn : nrm ![c] = c := by
      unfold nrm; simp [dotProduct, Real.sqrt_mul_self (by linarith : (0:ℝ) ≤ c)]
    unfold project
    dsimp only
    rw [if_neg]
    rw [hn, max_eq_left (by linarith [show (1e-15 : ℝ) ≤ 1 / 2 by norm_num])]
    exact not_lt.2 (h2.trans hmax)
  have hretr : M.retr codeEta dt (-1) ![1 / 2] ![u] = ![1 / 2 + u] := by
    have : (![1 / 2] : Vec 1) + ![u] = ![1 / 2 + u] := by funext i; fin_cases i; simp
    rw [M.retr, this]
    exact hin _ (by linarith) (by linarith)
  have hexp' : M.expmap true codeEta dt (-1) ![1 / 2] ![u] = ![y] := by
    show project codeEta dt (-1) (Stereo.expmap codeEta (-1) ![1 / 2] ![u]) = _
    rw [hexp, ← hy]
    refine hin _ hyp ?_
    nlinarith [sq_nonneg u]
  refine ⟨![u], fun h => hu0.ne' (by have := congrFun h 0; simpa using this), ?_⟩
  have hd : (![1 / 2 + u] : Vec 1) - ![y] = ![1 / 2 + u - y] := by funext i; fin_cases i; simp
  have hnd : nrm (![1 / 2 + u - y] : Vec 1) = 1 / 2 + u - y := by
    have : 0 ≤ 1 / 2 + u - y := le_trans (by positivity) hdiff
    generalize 1 / 2 + u - y = c at this
    unfold nrm; simp [dotProduct, Real.sqrt_mul_self this]
  rw [hretr, hexp', hd, hnd, hnu]
  calc C * u ^ 3 ≤ |C| * u * u ^ 2 := by
        have := le_abs_self C
        nlinarith [pow_pos hu0 3]
    _ ≤ 1 / 4 * u ^ 2 := mul_le_mul_of_nonneg_right hCu (sq_nonneg u)
    _ < u ^ 2 / 2 := by nlinarith [pow_pos hu0 2]
    _ ≤ _ := hdiff

end stereo
end Geoopt.C132
