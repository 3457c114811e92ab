import Verif.Lemmas.Lorentz
import Mathlib.Analysis.Complex.ExponentialBounds

/-!
# C35–C38: the hyperboloid, and the Lorentz parts of C27 and C74

`k > 0` is the parameter of the class (`⟨x,x⟩ = -k`, curvature `-1/k`).
-/

namespace Geoopt.Lorentz
open Geoopt Matrix
variable {n : ℕ}

/-! ## C35: results are on the hyperboloid -/

/-- `projx` returns a point of the upper sheet for every input whatsoever. -/
theorem C35_projx_on {k : ℝ} (hk : 0 < k) (x : Vec (n + 1)) : OnHyperboloid k (projx k x) :=
  project_on hk x

/-- `projx` changes nothing on the manifold, so it is idempotent. -/
theorem C35_projx_fixes {k : ℝ} {x : Vec (n + 1)} (hx : OnHyperboloid k x) : projx k x = x :=
  project_of_on hx

/-- `expmap` (and `retr`, which is the same function) with the default `project=True` lands on
the hyperboloid for every `x` and `u`. -/
theorem C35_expmap_on {k : ℝ} (hk : 0 < k) (x u : Vec (n + 1)) (b : Bool) :
    OnHyperboloid k (expmap k x u b true) := by
  simp only [expmap, if_true]; exact project_on hk _

theorem C35_expmap0_on {k : ℝ} (hk : 0 < k) (u : Vec (n + 1)) :
    OnHyperboloid k (expmap0 k u) := by
  simp only [expmap0, if_true]; exact project_on hk _

theorem C35_geodesic_on {k : ℝ} (hk : 0 < k) (t : ℝ) (x u : Vec (n + 1)) :
    OnHyperboloid k (geodesicUnit k t x u) := by
  simp only [geodesicUnit, if_true]; exact project_on hk _

theorem C35_origin_on {k : ℝ} (hk : 0 < k) : OnHyperboloid k (origin k : Vec (n + 1)) := by
  constructor
  · rw [mink_eq_tail]; simp [origin, sqrt_sq' hk]
  · simp [origin, hk]

lemma raw_on_aux {k a : ℝ} (hk : 0 < k) {x u : Vec (n + 1)} (hx : OnHyperboloid k x)
    (hu : Tangent x u) {r : ℝ} (hr : r ^ 2 = mink u u) (hr0 : r ≠ 0) :
    OnHyperboloid k (Real.cosh a • x + (Real.sqrt k * Real.sinh a / r) • u) := by
  have hu' : mink x u = 0 := hu
  have hc := Real.cosh_sq a
  apply upper_of hk hx
  · minks
    rw [hx.1, mink_comm u x, hu', ← hr, mul_zero, mul_zero, add_zero, zero_add]
    have : Real.sqrt k * Real.sinh a / r * (Real.sqrt k * Real.sinh a / r * r ^ 2)
        = (Real.sqrt k * Real.sqrt k) * Real.sinh a ^ 2 := by field_simp
    rw [this, sqrt_sq' hk]
    linear_combination (-k) * hc
  · minks
    rw [hx.1, hu']
    have := Real.cosh_pos a
    nlinarith

/-- With `project=False` (and with `norm_tan` either way) `expmap` of a tangent vector stays on
the hyperboloid as long as the floor `1e-8` of the squared norm is inactive. -/
theorem C35_expmap_unprojected {k : ℝ} (hk : 0 < k) {x u : Vec (n + 1)}
    (hx : OnHyperboloid k x) (hu : Tangent x u) (h : 1e-8 ≤ mink u u) (b : Bool) :
    OnHyperboloid k (expmap k x u b false) := by
  have hp : (if b then proju k x u else u) = u := by
    split
    · have hu' : mink x u = 0 := hu
      simp [proju, projectU, inner_eq, hu']
    · rfl
  simp only [expmap, hp, Bool.false_eq_true, if_false, expmapRaw]
  exact raw_on_aux hk hx hu (norm_sq_of h) (norm_pos u).ne'

/-- ... and when the floor is active it does not: `expmap(x, 0, project=False)` is never a
point of the manifold. -/
theorem C35_counterexample_unprojected_zero {k : ℝ} (hk : 0 < k) {x : Vec (n + 1)}
    (hx : OnHyperboloid k x) : ¬ OnHyperboloid k (expmap k x 0 true false) := by
  intro h
  have h1 := h.1
  have e : expmap k x 0 true false = Real.cosh (norm (0 : Vec (n + 1)) / Real.sqrt k) • x := by
    simp [expmap, proju, projectU, inner_eq, mink, expmapRaw]
  rw [e] at h1
  revert h1
  minks
  rw [hx.1]
  have hpos : 0 < norm (0 : Vec (n + 1)) / Real.sqrt k :=
    div_pos (norm_pos _) (Real.sqrt_pos.2 hk)
  have := Real.one_lt_cosh.2 hpos.ne'
  intro h1
  generalize Real.cosh (norm (0 : Vec (n + 1)) / Real.sqrt k) = c at *
  have : k * (c * c - 1) = 0 := by linarith
  rcases mul_eq_zero.1 this with h2 | h2
  · exact hk.ne' h2
  · nlinarith

/-- `geodesic_unit` without projection is on the hyperboloid for a unit tangent vector. -/
theorem C35_geodesic_unprojected {k : ℝ} (hk : 0 < k) (t : ℝ) {x u : Vec (n + 1)}
    (hx : OnHyperboloid k x) (hu : Tangent x u) (h1 : mink u u = 1) :
    OnHyperboloid k (geodesicUnit k t x u false) := by
  simp only [geodesicUnit, Bool.false_eq_true, if_false, geodesicUnitRaw]
  have := raw_on_aux (a := t / Real.sqrt k) hk hx hu (r := 1) (by rw [h1]; norm_num) one_ne_zero
  simpa using this

/-- Polar coordinates give a point of the manifold when `k = 1`. -/
theorem C35_project_polar_partial {d : Vec n} (hd : d ⬝ᵥ d = 1) (r : ℝ) :
    OnHyperboloid 1 (projectPolar 1 d r) := by
  constructor
  · rw [mink_eq_tail]
    simp only [projectPolar, Fin.cons_zero, Fin.tail_cons, Real.sqrt_one, div_one, one_mul,
      smul_dotProduct, dotProduct_smul, smul_eq_mul, hd]
    have := Real.cosh_sq r
    linear_combination (-1) * this
  · simp only [projectPolar, Fin.cons_zero]; exact Real.cosh_pos _

/-- For every other `k` they do not: the first coordinate lacks the factor `√k`. -/
theorem C35_counterexample_project_polar {k : ℝ} (hk : 0 < k) (h1 : k ≠ 1) {d : Vec n}
    (hd : d ⬝ᵥ d = 1) (r : ℝ) : ¬ OnHyperboloid k (projectPolar k d r) := by
  rintro ⟨h, -⟩
  rw [mink_eq_tail] at h
  simp only [projectPolar, Fin.cons_zero, Fin.tail_cons, smul_dotProduct, dotProduct_smul,
    smul_eq_mul, hd] at h
  have hc := Real.cosh_sq (r / Real.sqrt k)
  have hs := sqrt_sq' hk
  have hcp : 1 ≤ Real.cosh (r / Real.sqrt k) := Real.one_le_cosh _
  have : (k - 1) * Real.cosh (r / Real.sqrt k) ^ 2 = 0 := by
    have : Real.sqrt k * Real.sinh (r / Real.sqrt k) * (Real.sqrt k * Real.sinh (r / Real.sqrt k) * 1)
      = k * Real.sinh (r / Real.sqrt k) ^ 2 := by
        linear_combination (Real.sinh (r / Real.sqrt k)) ^ 2 * hs
    rw [this] at h
    linear_combination h + k * hc
  rcases mul_eq_zero.1 this with h' | h'
  · exact h1 (by linarith)
  · nlinarith

/-- A point of the hyperboloid passes `check_point_on_manifold` with any tolerances. -/
theorem C35_passes_check {k atol rtol : ℝ} (ha : 0 ≤ atol) (hr : 0 ≤ rtol) {x : Vec (n + 1)}
    (hx : OnHyperboloid k x) : CheckPoint k atol rtol x := by
  unfold CheckPoint
  have h1 := hx.1
  unfold mink at h1
  have e : (-(x 0 ^ 2) + ∑ i, Fin.tail x i ^ 2) - (-k) = 0 := by
    simp only [Fin.tail, sq]; linarith
  rw [e, abs_zero]; positivity

/-- The check does not look at the sheet: with zero tolerances it accepts `-x` as well, which
is not a point of the model (`dist` to it is not defined). -/
theorem C35_counterexample_check_accepts_lower_sheet {k atol rtol : ℝ} (ha : 0 ≤ atol)
    (hr : 0 ≤ rtol) {x : Vec (n + 1)} (hx : OnHyperboloid k x) :
    CheckPoint k atol rtol (-x) ∧ ¬ OnHyperboloid k (-x) := by
  constructor
  · have := C35_passes_check ha hr hx
    unfold CheckPoint at *
    simpa [Fin.tail] using this
  · rintro ⟨-, h⟩
    have := hx.2
    simp at h
    linarith

/-! ## C36: tangent projection and gradient -/

theorem C36_proju_tangent {k : ℝ} (hk : 0 < k) {x : Vec (n + 1)} (hx : OnHyperboloid k x)
    (v : Vec (n + 1)) : Tangent x (proju k x v) := by
  unfold Tangent proju projectU
  rw [inner_eq]; minks
  rw [hx.1]
  field_simp; ring

theorem C36_proju_fixes {k : ℝ} {x v : Vec (n + 1)} (hv : Tangent x v) : proju k x v = v := by
  have hv' : mink x v = 0 := hv
  simp [proju, projectU, inner_eq, hv']

theorem C36_proju_idempotent {k : ℝ} (hk : 0 < k) {x : Vec (n + 1)} (hx : OnHyperboloid k x)
    (v : Vec (n + 1)) : proju k x (proju k x v) = proju k x v :=
  C36_proju_fixes (C36_proju_tangent hk hx v)

/-- The C27 statement for the hyperboloid. -/
theorem C27_lorentz {k : ℝ} (hk : 0 < k) {x : Vec (n + 1)} (hx : OnHyperboloid k x)
    (v : Vec (n + 1)) : Tangent x (proju k x v) ∧ proju k x (proju k x v) = proju k x v :=
  ⟨C36_proju_tangent hk hx v, C36_proju_idempotent hk hx v⟩

/-- What is removed is normal: Minkowski-orthogonal to every tangent vector. -/
theorem C36_proju_normal {k : ℝ} {x : Vec (n + 1)} (v w : Vec (n + 1)) (hw : Tangent x w) :
    mink (v - proju k x v) w = 0 := by
  have hw' : mink x w = 0 := hw
  unfold proju projectU
  minks
  rw [hw']; ring

/-- The result of `egrad2rgrad` is tangent. -/
theorem C36_egrad2rgrad_tangent {k : ℝ} (hk : 0 < k) {x : Vec (n + 1)} (hx : OnHyperboloid k x)
    (g : Vec (n + 1)) : Tangent x (egrad2rgrad k x g).1 := by
  unfold Tangent egrad2rgrad
  simp only
  rw [inner_eq]; minks
  rw [hx.1]
  field_simp; ring

/-- It represents the Euclidean gradient in the metric: its inner product with a tangent vector
is the directional derivative. -/
theorem C36_egrad2rgrad_represents {k : ℝ} {x : Vec (n + 1)} (g v : Vec (n + 1))
    (hv : Tangent x v) : mink (egrad2rgrad k x g).1 v = ∑ i, g i * v i := by
  have hv' : mink x v = 0 := hv
  unfold egrad2rgrad
  simp only
  minks
  rw [hv', Fin.sum_univ_succ]
  simp only [mink, Fin.cons_zero, Fin.cons_succ, Fin.tail]
  ring

/-- The C19 statement for the hyperboloid: stepping against it is a descent direction. -/
theorem C19_lorentz {k : ℝ} (hk : 0 < k) {x : Vec (n + 1)} (hx : OnHyperboloid k x)
    (g : Vec (n + 1)) :
    Tangent x (egrad2rgrad k x g).1 ∧
    (∀ v, Tangent x v → mink (egrad2rgrad k x g).1 v = ∑ i, g i * v i) ∧
    ∑ i, g i * (-(egrad2rgrad k x g).1) i ≤ 0 := by
  have ht := C36_egrad2rgrad_tangent hk hx g
  refine ⟨ht, fun v hv => C36_egrad2rgrad_represents g v hv, ?_⟩
  have hn : Tangent x (-(egrad2rgrad k x g).1) := by
    unfold Tangent at *; minks; rw [ht]; ring
  rw [← C36_egrad2rgrad_represents (k := k) g _ hn]
  minks
  have := tangent_sq_nonneg hk hx ht
  linarith

/-- The property is violated: the call overwrites the caller's gradient whenever its first
entry is not zero. -/
theorem C36_counterexample_mutates {k : ℝ} {x g : Vec (n + 1)} (hg : g 0 ≠ 0) :
    (egrad2rgrad k x g).2 ≠ g := by
  intro h
  have := congrFun h 0
  simp [egrad2rgrad] at this
  exact hg (by linarith)

/-- Consequently converting the same gradient buffer a second time gives another answer: on a
point with `⟨x, J g⟩`-free gradient it even returns the un-flipped gradient. -/
theorem C36_counterexample_second_call :
    ∃ (x g : Vec 2), OnHyperboloid 1 x ∧
      (egrad2rgrad 1 x (egrad2rgrad 1 x g).2).1 ≠ (egrad2rgrad 1 x g).1 := by
  refine ⟨![5/4, 3/4], ![1, 0], ⟨?_, ?_⟩, ?_⟩
  · simp [mink]; norm_num
  · norm_num
  · intro h
    have := congrFun h 0
    simp [egrad2rgrad, inner, Fin.tail, dotProduct] at this
    norm_num at this

/-! ## C37: distance, exp and log -/

/-- `dist` is evaluated inside the domain of `arcosh` for any two points. -/
theorem C37_dist_defined {k : ℝ} (hk : 0 < k) {x y : Vec (n + 1)} (hx : OnHyperboloid k x)
    (hy : OnHyperboloid k y) : 1 ≤ -mink x y / k := ch_ge_one hk hx hy

theorem C37_dist_symm (k : ℝ) (x y : Vec (n + 1)) : dist k x y = dist k y x := by
  rw [dist_eq, dist_eq, ch_comm]

theorem C37_dist_pos {k : ℝ} (hk : 0 < k) {x y : Vec (n + 1)} (hx : OnHyperboloid k x)
    (hy : OnHyperboloid k y) : 0 < dist k x y :=
  mul_pos (Real.sqrt_pos.2 hk) (arcosh_pos (ch_ge_one hk hx hy))

/-- The property `dist(x,x) = 0` is violated at every point: the floor inside `arcosh` makes it
`√k · log(1 + √1e-15) > 0`. -/
theorem C37_counterexample_dist_self {k : ℝ} (hk : 0 < k) {x : Vec (n + 1)}
    (hx : OnHyperboloid k x) :
    dist k x x = Real.sqrt k * Real.log (1 + Real.sqrt 1e-15) ∧ dist k x x ≠ 0 := by
  refine ⟨?_, (C37_dist_pos hk hx hx).ne'⟩
  rw [dist_eq, ch_self hk hx, arcosh]
  norm_num

/-- Away from the floor, `dist` is the geodesic distance. -/
theorem C37_dist_exact {k : ℝ} (hk : 0 < k) {x y : Vec (n + 1)} (hx : OnHyperboloid k x)
    (hy : OnHyperboloid k y) (h : k ^ 2 * (1 + 1e-15) ≤ mink x y ^ 2) :
    IsGeodesicDist k x y (dist k x y) := by
  refine ⟨(C37_dist_pos hk hx hy).le, ?_⟩
  have hc : 1e-15 ≤ ch k x y ^ 2 - 1 := by
    rw [ch, div_pow, neg_sq, le_sub_iff_add_le, le_div_iff₀ (by positivity)]
    linarith
  rw [dist_eq, arcosh_eq hc, mul_div_cancel_left₀ _ (Real.sqrt_pos.2 hk).ne',
    Real.cosh_arcosh (ch_ge_one hk hx hy), mink_eq_ch hk x y]
  ring

/-- Everywhere, `dist` exceeds the geodesic distance by at most `√k · √1e-15`. -/
theorem C37_dist_error {k d : ℝ} (hk : 0 < k) {x y : Vec (n + 1)} (hx : OnHyperboloid k x)
    (hy : OnHyperboloid k y) (hd : IsGeodesicDist k x y d) :
    d ≤ dist k x y ∧ dist k x y ≤ d + Real.sqrt k * Real.sqrt 1e-15 := by
  have hs : 0 < Real.sqrt k := Real.sqrt_pos.2 hk
  have h1 := ch_ge_one hk hx hy
  have e : d = Real.sqrt k * Real.arcosh (ch k x y) := by
    have h2 := hd.2
    rw [mink_eq_ch hk x y] at h2
    have h3 : Real.cosh (d / Real.sqrt k) = ch k x y := by
      have : k * Real.cosh (d / Real.sqrt k) = k * ch k x y := by linarith
      exact mul_left_cancel₀ hk.ne' this
    rw [← h3, Real.arcosh_cosh (div_nonneg hd.1 hs.le)]
    field_simp
  have hle : arcosh (ch k x y) ≤ Real.arcosh (ch k x y) + Real.sqrt 1e-15 := by
    generalize ch k x y = c at h1
    unfold arcosh Real.arcosh
    have hq := Real.sqrt_nonneg (c ^ 2 - 1)
    have hε : 0 ≤ Real.sqrt 1e-15 := Real.sqrt_nonneg _
    have hm : Real.sqrt (max (c ^ 2 - 1.0) 1e-15) ≤ Real.sqrt (c ^ 2 - 1) + Real.sqrt 1e-15 := by
      rw [show (1.0 : ℝ) = 1 by norm_num]
      rcases le_total (c ^ 2 - 1) 1e-15 with h | h
      · rw [max_eq_right h]; linarith
      · rw [max_eq_left h]; linarith
    have hp : 0 < c + Real.sqrt (c ^ 2 - 1) := by linarith
    calc Real.log (c + Real.sqrt (max (c ^ 2 - 1.0) 1e-15))
        ≤ Real.log ((c + Real.sqrt (c ^ 2 - 1)) * (1 + Real.sqrt 1e-15)) := by
          apply Real.log_le_log
          · have := Real.sqrt_nonneg (max (c ^ 2 - 1.0) 1e-15); linarith
          · nlinarith
      _ = Real.log (c + Real.sqrt (c ^ 2 - 1)) + Real.log (1 + Real.sqrt 1e-15) :=
          Real.log_mul hp.ne' (by positivity)
      _ ≤ _ := by
          have := Real.log_le_sub_one_of_pos (show 0 < 1 + Real.sqrt 1e-15 by positivity)
          linarith
  rw [dist_eq, e]
  constructor
  · exact mul_le_mul_of_nonneg_left (real_arcosh_le h1) hs.le
  · rw [← mul_add]; exact mul_le_mul_of_nonneg_left hle hs.le

lemma triangle_ch {k : ℝ} (hk : 0 < k) {x y z : Vec (n + 1)} (hx : OnHyperboloid k x)
    (hy : OnHyperboloid k y) (hz : OnHyperboloid k z) :
    ch k x z ≤ ch k x y * ch k y z + Real.sqrt (ch k x y ^ 2 - 1) * Real.sqrt (ch k y z ^ 2 - 1) := by
  have hu : Tangent y (x - ch k x y • y) := by
    unfold Tangent; minks; rw [hy.1, mink_comm y x, mink_eq_ch hk x y]; ring
  have hw : Tangent y (z - ch k y z • y) := by
    unfold Tangent; minks; rw [hy.1, mink_eq_ch hk y z]; ring
  have hc := tangent_cauchy hk hy hu hw
  have e1 : mink (x - ch k x y • y) (x - ch k x y • y) = k * (ch k x y ^ 2 - 1) := by
    minks; rw [hx.1, hy.1, mink_comm y x, mink_eq_ch hk x y]; ring
  have e2 : mink (z - ch k y z • y) (z - ch k y z • y) = k * (ch k y z ^ 2 - 1) := by
    minks; rw [hz.1, hy.1, mink_comm z y, mink_eq_ch hk y z]; ring
  have e3 : mink (x - ch k x y • y) (z - ch k y z • y)
      = k * (ch k x y * ch k y z - ch k x z) := by
    minks; rw [hy.1, mink_eq_ch hk x z, mink_eq_ch hk x y, mink_eq_ch hk y z]; ring
  rw [e1, e2, e3] at hc
  have a1 := ch_ge_one hk hx hy
  have a2 := ch_ge_one hk hy hz
  set a := ch k x y
  set b := ch k y z
  set c := ch k x z
  have ha : 0 ≤ a ^ 2 - 1 := by nlinarith
  have hb : 0 ≤ b ^ 2 - 1 := by nlinarith
  rw [← Real.sqrt_mul ha]
  have h2 : (a * b - c) ^ 2 ≤ (a ^ 2 - 1) * (b ^ 2 - 1) := by
    have : k ^ 2 * (a * b - c) ^ 2 ≤ k ^ 2 * ((a ^ 2 - 1) * (b ^ 2 - 1)) := by nlinarith
    exact le_of_mul_le_mul_left this (by positivity)
  have h3 := Real.abs_le_sqrt h2
  have := neg_le_of_abs_le h3
  linarith

/-- The triangle inequality, for the distance as computed (floors included). -/
theorem C37_triangle {k : ℝ} (hk : 0 < k) {x y z : Vec (n + 1)} (hx : OnHyperboloid k x)
    (hy : OnHyperboloid k y) (hz : OnHyperboloid k z) :
    dist k x z ≤ dist k x y + dist k y z := by
  have hs : 0 < Real.sqrt k := Real.sqrt_pos.2 hk
  rw [dist_eq, dist_eq, dist_eq, ← mul_add]
  apply mul_le_mul_of_nonneg_left _ hs.le
  have hc := triangle_ch hk hx hy hz
  have a1 := ch_ge_one hk hx hy
  have a2 := ch_ge_one hk hy hz
  have a3 := ch_ge_one hk hx hz
  generalize ch k x y = a at *
  generalize ch k y z = b at *
  generalize ch k x z = c at *
  rcases le_total (c ^ 2 - 1) 1e-15 with h | h
  · -- floor active between x and z
    unfold arcosh
    rw [show (1.0 : ℝ) = 1 by norm_num, max_eq_right h]
    have hε0 : 0 ≤ Real.sqrt 1e-15 := Real.sqrt_nonneg _
    have hε : Real.sqrt 1e-15 ^ 2 = 1e-15 := Real.sq_sqrt (by norm_num)
    have hA : 1 + Real.sqrt 1e-15 ≤ a + Real.sqrt (max (a ^ 2 - 1) 1e-15) := by
      have := Real.sqrt_le_sqrt (le_max_right (a ^ 2 - 1) (1e-15 : ℝ)); linarith
    have hB : 1 + Real.sqrt 1e-15 ≤ b + Real.sqrt (max (b ^ 2 - 1) 1e-15) := by
      have := Real.sqrt_le_sqrt (le_max_right (b ^ 2 - 1) (1e-15 : ℝ)); linarith
    rw [← Real.log_mul (by linarith) (by linarith)]
    apply Real.log_le_log (by linarith)
    have : (1 + Real.sqrt 1e-15) * (1 + Real.sqrt 1e-15) ≤
      (a + Real.sqrt (max (a ^ 2 - 1) 1e-15)) * (b + Real.sqrt (max (b ^ 2 - 1) 1e-15)) :=
      mul_le_mul hA hB (by linarith) (by linarith)
    nlinarith
  · rw [arcosh_eq h]
    have h1 := real_arcosh_le a1
    have h2 := real_arcosh_le a2
    have hab : Real.arcosh c ≤ Real.arcosh a + Real.arcosh b := by
      rw [← Real.arcosh_cosh (add_nonneg (Real.arcosh_nonneg a1) (Real.arcosh_nonneg a2))]
      rw [Real.arcosh_le_arcosh (by linarith) (Real.cosh_pos _)]
      rw [Real.cosh_add, Real.cosh_arcosh a1, Real.cosh_arcosh a2, Real.sinh_arcosh a1,
        Real.sinh_arcosh a2]
      exact hc
    linarith

theorem C37_log_tangent {k : ℝ} (hk : 0 < k) {x y : Vec (n + 1)} (hx : OnHyperboloid k x)
    (hy : OnHyperboloid k y) : Tangent x (logmap k x y) := by
  rw [logmap_eq hk hx hy]
  unfold Tangent
  minks
  rw [hx.1, mink_eq_ch hk x y]; ring

lemma ch_of_sq {k : ℝ} (hk : 0 < k) {x y : Vec (n + 1)}
    (h : k ^ 2 * (1 + 1e-15) ≤ mink x y ^ 2) : 1e-15 ≤ ch k x y ^ 2 - 1 := by
  rw [ch, div_pow, neg_sq, le_sub_iff_add_le, le_div_iff₀ (by positivity)]
  linarith

/-- facts about a pair of points away from the floors -/
lemma far_facts {k : ℝ} (hk : 0 < k) {x y : Vec (n + 1)} (hx : OnHyperboloid k x)
    (hy : OnHyperboloid k y) (h : k ^ 2 * (1 + 1e-15) ≤ mink x y ^ 2) (hd : 1e-4 ≤ dist k x y) :
    dirNorm k (ch k x y) = Real.sqrt k * Real.sinh (dist k x y / Real.sqrt k) ∧
    Real.cosh (dist k x y / Real.sqrt k) = ch k x y ∧
    mink (logmap k x y) (logmap k x y) = dist k x y ^ 2 := by
  have hs : 0 < Real.sqrt k := Real.sqrt_pos.2 hk
  have h1 := ch_ge_one hk hx hy
  have hch : Real.cosh (dist k x y / Real.sqrt k) = ch k x y := by
    rw [dist_eq, arcosh_eq (ch_of_sq hk h), mul_div_cancel_left₀ _ hs.ne', Real.cosh_arcosh h1]
  have hpos : 0 ≤ dist k x y / Real.sqrt k := by positivity
  have hsinh : k * (ch k x y ^ 2 - 1) = (Real.sqrt k * Real.sinh (dist k x y / Real.sqrt k)) ^ 2 := by
    rw [← hch, Real.cosh_sq, mul_pow, sq (Real.sqrt k), sqrt_sq' hk]; ring
  have hge : dist k x y ≤ Real.sqrt k * Real.sinh (dist k x y / Real.sqrt k) := by
    have := Real.self_le_sinh_iff.2 hpos
    calc dist k x y = Real.sqrt k * (dist k x y / Real.sqrt k) := by field_simp
      _ ≤ _ := mul_le_mul_of_nonneg_left this hs.le
  have hd0 : 0 < dist k x y := lt_of_lt_of_le (by norm_num) hd
  have hn : dirNorm k (ch k x y) = Real.sqrt k * Real.sinh (dist k x y / Real.sqrt k) := by
    unfold dirNorm
    rw [hsinh, max_eq_left, Real.sqrt_sq (by linarith)]
    nlinarith
  refine ⟨hn, hch, ?_⟩
  rw [logmap_eq hk hx hy]
  have e2 : mink (y - ch k x y • x) (y - ch k x y • x) = dirNorm k (ch k x y) ^ 2 := by
    rw [hn, ← hsinh]
    minks; rw [hx.1, hy.1, mink_comm y x, mink_eq_ch hk x y]; ring
  rw [mink_smul_left, mink_smul_right, e2]
  have := (dirNorm_pos k (ch k x y)).ne'
  field_simp

/-- `norm(logmap(x,y)) = dist(x,y)` away from the floors. -/
theorem C37_norm_log {k : ℝ} (hk : 0 < k) {x y : Vec (n + 1)} (hx : OnHyperboloid k x)
    (hy : OnHyperboloid k y) (h : k ^ 2 * (1 + 1e-15) ≤ mink x y ^ 2) (hd : 1e-4 ≤ dist k x y) :
    norm (logmap k x y) = dist k x y := by
  have hf := (far_facts hk hx hy h hd).2.2
  have hd0 : 0 < dist k x y := lt_of_lt_of_le (by norm_num) hd
  rw [norm, inner_eq, hf, max_eq_left (by nlinarith), Real.sqrt_sq hd0.le]

/-- `expmap(x, logmap(x,y)) = y` away from the floors, with or without `norm_tan`/`project`. -/
theorem C37_exp_log {k : ℝ} (hk : 0 < k) {x y : Vec (n + 1)} (hx : OnHyperboloid k x)
    (hy : OnHyperboloid k y) (h : k ^ 2 * (1 + 1e-15) ≤ mink x y ^ 2) (hd : 1e-4 ≤ dist k x y)
    (b p : Bool) : expmap k x (logmap k x y) b p = y := by
  obtain ⟨hn, hch, hf⟩ := far_facts hk hx hy h hd
  have hp : (if b then proju k x (logmap k x y) else logmap k x y) = logmap k x y := by
    split
    · exact C36_proju_fixes (C37_log_tangent hk hx hy)
    · rfl
  have hraw : expmapRaw k x (logmap k x y) = y := by
    simp only [expmapRaw]
    rw [C37_norm_log hk hx hy h hd, hch, ← hn, logmap_eq hk hx hy, smul_smul]
    have h1 := (dirNorm_pos k (ch k x y)).ne'
    have h2 : dist k x y ≠ 0 := (lt_of_lt_of_le (by norm_num) hd).ne'
    rw [show dirNorm k (ch k x y) / dist k x y * (dist k x y / dirNorm k (ch k x y)) = 1 by
      field_simp]
    simp
  simp only [expmap, hp, hraw]
  split
  · exact project_of_on hy
  · rfl

/-- `logmap(x, expmap(x,u)) = u` for tangent `u` away from the floors. -/
theorem C37_log_exp {k : ℝ} (hk : 0 < k) {x u : Vec (n + 1)} (hx : OnHyperboloid k x)
    (hu : Tangent x u) (h : 1e-8 ≤ mink u u) (h' : 1e-15 * k ≤ mink u u) :
    logmap k x (expmap k x u) = u := by
  have hs : 0 < Real.sqrt k := Real.sqrt_pos.2 hk
  have hu' : mink x u = 0 := hu
  have hon := C35_expmap_unprojected hk hx hu h false
  have hy : expmap k x u = expmapRaw k x u := by
    have e : expmap k x u false false = expmapRaw k x u := by simp [expmap]
    rw [e] at hon
    simp only [expmap, if_true, C36_proju_fixes hu]
    exact project_of_on hon
  have hyo : OnHyperboloid k (expmapRaw k x u) := by
    have e : expmap k x u false false = expmapRaw k x u := by simp [expmap]
    rwa [e] at hon
  rw [hy, logmap_eq hk hx hyo]
  set r := norm u with hr
  have hr0 : 0 < r := norm_pos u
  have hrsq : r ^ 2 = mink u u := norm_sq_of h
  have hch : ch k x (expmapRaw k x u) = Real.cosh (r / Real.sqrt k) := by
    unfold ch expmapRaw
    minks
    rw [hx.1, hu', ← hr]
    field_simp; ring
  have hpos : 0 ≤ r / Real.sqrt k := by positivity
  have hself := Real.self_le_sinh_iff.2 hpos
  have hge : r ≤ Real.sqrt k * Real.sinh (r / Real.sqrt k) := by
    calc r = Real.sqrt k * (r / Real.sqrt k) := by field_simp
      _ ≤ _ := mul_le_mul_of_nonneg_left hself hs.le
  have hdn : dirNorm k (Real.cosh (r / Real.sqrt k)) = Real.sqrt k * Real.sinh (r / Real.sqrt k) := by
    unfold dirNorm
    have e : k * (Real.cosh (r / Real.sqrt k) ^ 2 - 1)
        = (Real.sqrt k * Real.sinh (r / Real.sqrt k)) ^ 2 := by
      rw [Real.cosh_sq, mul_pow, sq (Real.sqrt k), sqrt_sq' hk]; ring
    rw [e, max_eq_left, Real.sqrt_sq (by linarith)]
    nlinarith
  have hdist : dist k x (expmapRaw k x u) = r := by
    rw [dist_eq, hch, arcosh_eq, Real.arcosh_cosh hpos]
    · field_simp
    · rw [Real.cosh_sq, add_sub_cancel_right]
      have : (r / Real.sqrt k) ^ 2 ≤ Real.sinh (r / Real.sqrt k) ^ 2 :=
        pow_le_pow_left₀ hpos hself 2
      refine le_trans ?_ this
      rw [div_pow, sq (Real.sqrt k), sqrt_sq' hk, le_div_iff₀ hk, hrsq]
      exact h'
  rw [hdist, hch, hdn]
  have hsub : expmapRaw k x u - Real.cosh (r / Real.sqrt k) • x
      = (Real.sqrt k * Real.sinh (r / Real.sqrt k) / r) • u := by
    simp only [expmapRaw]; rw [← hr]; abel
  rw [hsub, smul_smul]
  have : Real.sqrt k * Real.sinh (r / Real.sqrt k) ≠ 0 := by linarith [hge]
  rw [show r / (Real.sqrt k * Real.sinh (r / Real.sqrt k)) *
    (Real.sqrt k * Real.sinh (r / Real.sqrt k) / r) = 1 by field_simp, one_smul]

/-- Below the floor the property is violated: `expmap(x, 0)` multiplies the spatial part of `x`
by `cosh(1e-4/√k)`, so the zero vector moves every point except the origin. -/
theorem C37_counterexample_exp_zero {k : ℝ} (hk : 0 < k) {x : Vec (n + 1)} (_hx : OnHyperboloid k x)
    (h0 : Fin.tail x ≠ 0) :
    Fin.tail (expmap k x 0) = Real.cosh (1e-4 / Real.sqrt k) • Fin.tail x ∧ expmap k x 0 ≠ x := by
  have hn : norm (0 : Vec (n + 1)) = 1e-4 := by
    have : inner (0 : Vec (n + 1)) 0 = 0 := by simp [inner, Fin.tail, dotProduct]
    rw [norm, this, max_eq_right (by norm_num), show (1e-8 : ℝ) = 1e-4 ^ 2 by norm_num,
      Real.sqrt_sq (by norm_num)]
  have e : Fin.tail (expmap k x 0) = Real.cosh (1e-4 / Real.sqrt k) • Fin.tail x := by
    simp only [expmap, proju, projectU, if_true, project, Fin.tail_cons]
    have : inner x (0 : Vec (n + 1)) = 0 := by simp [inner, Fin.tail, dotProduct]
    rw [this]
    simp only [expmapRaw, zero_smul, add_zero, smul_zero, hn]
    rfl
  refine ⟨e, fun h => ?_⟩
  rw [h] at e
  apply h0
  have hpos : 0 < 1e-4 / Real.sqrt k := div_pos (by norm_num) (Real.sqrt_pos.2 hk)
  have hc := Real.one_lt_cosh.2 hpos.ne'
  have h1 : (Real.cosh (1e-4 / Real.sqrt k) - 1) • Fin.tail x = 0 := by
    rw [sub_smul, one_smul, ← e, sub_self]
  rcases smul_eq_zero.1 h1 with h2 | h2
  · linarith
  · exact h2

/-- For small `k` the effect is large: with `k = 1e-8` the "zero step" stretches by more than
half. -/
theorem C37_counterexample_exp_zero_large {x : Vec (n + 1)} (hx : OnHyperboloid 1e-8 x)
    (h0 : Fin.tail x ≠ 0) :
    1.5 * nrm (Fin.tail x) ≤ nrm (Fin.tail (expmap 1e-8 x 0)) := by
  rw [(C37_counterexample_exp_zero (by norm_num) hx h0).1, nrm_smul]
  have e : (1e-4 : ℝ) / Real.sqrt 1e-8 = 1 := by
    rw [show (1e-8 : ℝ) = 1e-4 ^ 2 by norm_num, Real.sqrt_sq (by norm_num), div_self (by norm_num)]
  rw [e, abs_of_pos (Real.cosh_pos 1)]
  apply mul_le_mul_of_nonneg_right _ (nrm_nonneg _)
  rw [Real.cosh_eq]
  have h1 := Real.exp_one_gt_d9
  have h2 : (0.3 : ℝ) ≤ Real.exp (-1) := by
    rw [Real.exp_neg, le_inv_comm₀ (by norm_num) (Real.exp_pos 1)]
    have := Real.exp_one_lt_d9
    norm_num at this ⊢; linarith
  norm_num at h1 h2 ⊢
  linarith

/-! ### the functions specialised to the origin -/

theorem C37_inner0 {k : ℝ} (v : Vec (n + 1)) : inner0 k v = mink (origin k) v := by
  rw [mink_eq_tail]; simp [inner0, origin]; ring

theorem C37_dist0 {k : ℝ} (x : Vec (n + 1)) : dist0 k x = dist k (origin k) x := by
  unfold dist0 dist
  rw [C37_inner0, inner_eq]

theorem C37_expmap0_raw {k : ℝ} (u : Vec (n + 1)) : expmap0Raw k u = expmapRaw k (origin k) u := by
  unfold expmap0Raw expmapRaw
  funext i
  refine Fin.cases ?_ (fun i => ?_) i
  · simp [origin]
  · simp [origin, Fin.tail]

/-- `expmap0` is `expmap` at the origin on tangent vectors there. -/
theorem C37_expmap0 {k : ℝ} {u : Vec (n + 1)} (hu : Tangent (origin k) u) (p : Bool) :
    expmap0 k u p = expmap k (origin k) u true p := by
  simp only [expmap0, expmap, if_true, C36_proju_fixes hu, C37_expmap0_raw]

theorem C37_logmap0 {k : ℝ} (y : Vec (n + 1)) : logmap0 k y = logmap k (origin k) y := by
  have e : (Fin.cons (1.0 / k * inner0 k y * Real.sqrt k + y 0) (Fin.tail y) : Vec (n + 1))
      = y + (1.0 / k * inner (origin k) y) • origin k := by
    funext i
    refine Fin.cases ?_ (fun i => ?_) i
    · simp only [origin, C37_inner0, inner_eq, Fin.cons_zero, Pi.add_apply, Pi.smul_apply,
        smul_eq_mul]
      exact add_comm _ _
    · simp [origin, Fin.tail]
  unfold logmap0 logmap
  simp only [C37_dist0, e]

theorem C37_logmap0back {k : ℝ} (x : Vec (n + 1)) : logmap0back k x = logmap k x (origin k) := by
  have e : (Fin.cons (((1.0 / k * inner0 k x) • x) 0 + Real.sqrt k)
      (Fin.tail ((1.0 / k * inner0 k x) • x)) : Vec (n + 1))
      = origin k + (1.0 / k * inner x (origin k)) • x := by
    rw [inner_eq, mink_comm, ← C37_inner0]
    funext i
    refine Fin.cases ?_ (fun i => ?_) i
    · simp only [origin, Fin.cons_zero, Pi.add_apply, Pi.smul_apply, smul_eq_mul]
      exact add_comm _ _
    · simp [origin, Fin.tail]
  unfold logmap0back logmap
  simp only [C37_dist0, e]
  rw [C37_dist_symm]

/-! ## C38: parallel transport -/

theorem C38_transp0 {k : ℝ} (y v : Vec (n + 1)) : transp0 k y v = transp k (origin k) y v := by
  unfold transp0 transp
  simp only [C37_logmap0, C37_logmap0back, C37_dist0]

theorem C38_transp0back {k : ℝ} (x v : Vec (n + 1)) :
    transp0back k x v = transp k x (origin k) v := by
  unfold transp0back transp
  simp only [C37_logmap0, C37_logmap0back, C37_dist0, C37_dist_symm k x]

/-- closed form, floors included: the distance cancels, only the floor of the norm matters -/
lemma transp_eq {k : ℝ} (hk : 0 < k) {x y v : Vec (n + 1)} (hx : OnHyperboloid k x)
    (hy : OnHyperboloid k y) (hv : Tangent x v) :
    transp k x y v = v + (mink y v * (ch k x y - 1) / dirNorm k (ch k x y) ^ 2) • (x + y) := by
  have hv' : mink x v = 0 := hv
  have hd := (C37_dist_pos hk hx hy).ne'
  have hN := (dirNorm_pos k (ch k x y)).ne'
  unfold transp
  simp only [inner_eq]
  rw [logmap_eq hk hx hy, logmap_eq hk hy hx, ch_comm k y x, C37_dist_symm k y x]
  have e : mink ((dist k x y / dirNorm k (ch k x y)) • (y - ch k x y • x)) v
      = dist k x y / dirNorm k (ch k x y) * mink y v := by
    minks; rw [hv']; ring
  rw [e]
  generalize dist k x y = d at *
  generalize dirNorm k (ch k x y) = N at *
  generalize ch k x y = c at *
  rw [← smul_add, smul_smul, sub_eq_add_neg, ← neg_smul]
  have e2 : y - c • x + (x - c • y) = (1 - c) • (x + y) := by
    simp only [smul_add, sub_smul, one_smul]; abel
  rw [e2, smul_smul]
  congr 2
  field_simp
  ring

/-- When the points are far enough for the floor on the norm to be inactive, or equal,
`transp` is the textbook map `v ↦ v + ⟨y,v⟩/(k - ⟨x,y⟩) (x + y)`. -/
lemma transp_exact {k : ℝ} (hk : 0 < k) {x y v : Vec (n + 1)} (hx : OnHyperboloid k x)
    (hy : OnHyperboloid k y) (hv : Tangent x v)
    (h : x = y ∨ k ^ 2 + k * 1e-8 ≤ mink x y ^ 2) :
    transp k x y v = v + (mink y v / (k * (1 + ch k x y))) • (x + y) := by
  rw [transp_eq hk hx hy hv]
  rcases h with rfl | h
  · have hv' : mink x v = 0 := hv
    rw [hv']; simp
  · have h1 := ch_ge_one hk hx hy
    have h2 : 1e-8 ≤ k * (ch k x y ^ 2 - 1) := by
      rw [mink_eq_ch hk x y] at h
      have : k * 1e-8 ≤ k * (k * (ch k x y ^ 2 - 1)) := by nlinarith
      exact le_of_mul_le_mul_left this hk
    have h3 : ch k x y - 1 ≠ 0 := by
      intro h0
      have : ch k x y = 1 := by linarith
      rw [this] at h2; norm_num at h2
    rw [dirNorm_sq, max_eq_left h2]
    congr 2
    generalize ch k x y = c at *
    have h4 : 1 + c ≠ 0 := by linarith
    rw [show k * (c ^ 2 - 1) = (c - 1) * (k * (1 + c)) by ring, mul_comm (mink y v), mul_div_mul_left _ _ h3]

/-- Transported vectors are tangent at the target. -/
theorem C38_transp_tangent {k : ℝ} (hk : 0 < k) {x y v : Vec (n + 1)} (hx : OnHyperboloid k x)
    (hy : OnHyperboloid k y) (hv : Tangent x v)
    (h : x = y ∨ k ^ 2 + k * 1e-8 ≤ mink x y ^ 2) : Tangent y (transp k x y v) := by
  have h1 := ch_ge_one hk hx hy
  rw [transp_exact hk hx hy hv h]
  unfold Tangent
  minks
  rw [hy.1, mink_comm y x, mink_eq_ch hk x y]
  have h4 : 1 + ch k x y ≠ 0 := by linarith
  field_simp
  ring

/-- Parallel transport preserves the inner product. -/
theorem C38_transp_isometry {k : ℝ} (hk : 0 < k) {x y v w : Vec (n + 1)} (hx : OnHyperboloid k x)
    (hy : OnHyperboloid k y) (hv : Tangent x v) (hw : Tangent x w)
    (h : x = y ∨ k ^ 2 + k * 1e-8 ≤ mink x y ^ 2) :
    mink (transp k x y v) (transp k x y w) = mink v w := by
  have h1 := ch_ge_one hk hx hy
  have hv' : mink x v = 0 := hv
  have hw' : mink x w = 0 := hw
  rw [transp_exact hk hx hy hv h, transp_exact hk hx hy hw h]
  minks
  rw [hx.1, hy.1, mink_comm y x, mink_comm v x, mink_comm v y, hv', hw', mink_eq_ch hk x y]
  have h4 : 1 + ch k x y ≠ 0 := by linarith
  field_simp
  ring

/-- Transport to the same point is the identity. -/
theorem C38_transp_self {k : ℝ} (hk : 0 < k) {x v : Vec (n + 1)} (hx : OnHyperboloid k x)
    (hv : Tangent x v) : transp k x x v = v := by
  have hv' : mink x v = 0 := hv
  rw [transp_exact hk hx hx hv (Or.inl rfl), hv']; simp

/-- Transporting there and back is the identity. -/
theorem C38_transp_inverse {k : ℝ} (hk : 0 < k) {x y v : Vec (n + 1)} (hx : OnHyperboloid k x)
    (hy : OnHyperboloid k y) (hv : Tangent x v)
    (h : x = y ∨ k ^ 2 + k * 1e-8 ≤ mink x y ^ 2) :
    transp k y x (transp k x y v) = v := by
  have h1 := ch_ge_one hk hx hy
  have hv' : mink x v = 0 := hv
  have ht := C38_transp_tangent hk hx hy hv h
  rw [transp_exact hk hy hx ht (by rw [mink_comm]; exact h.imp Eq.symm id),
    transp_exact hk hx hy hv h, ch_comm k y x]
  minks
  rw [hx.1, hv', mink_eq_ch hk x y]
  have h4 : 1 + ch k x y ≠ 0 := by linarith
  rw [add_comm y x, add_assoc, ← add_smul]
  have : mink y v / (k * (1 + ch k x y)) +
      (0 + mink y v / (k * (1 + ch k x y)) * (-k + -(k * ch k x y))) / (k * (1 + ch k x y)) = 0 := by
    field_simp; ring
  rw [this, zero_smul, add_zero]

/-- Below the floor (distinct but very close points) the result is not exactly tangent: the
defect is `⟨y,v⟩ · (1 - k(c²-1)/1e-8)` where `c = -⟨x,y⟩/k`. -/
theorem C38_transp_defect {k : ℝ} (hk : 0 < k) {x y v : Vec (n + 1)} (hx : OnHyperboloid k x)
    (hy : OnHyperboloid k y) (hv : Tangent x v)
    (h : mink x y ^ 2 ≤ k ^ 2 + k * 1e-8) :
    mink y (transp k x y v) = mink y v * (1 - (mink x y ^ 2 - k ^ 2) / (k * 1e-8)) := by
  have h2 : k * (ch k x y ^ 2 - 1) ≤ 1e-8 := by
    rw [mink_eq_ch hk x y] at h
    have : k * (k * (ch k x y ^ 2 - 1)) ≤ k * 1e-8 := by nlinarith
    exact le_of_mul_le_mul_left this hk
  rw [transp_eq hk hx hy hv, dirNorm_sq, max_eq_right h2]
  minks
  rw [hy.1, mink_comm y x, mink_eq_ch hk x y]
  field_simp
  ring

/-! ## C74 for the hyperboloid -/

theorem C74_lorentz_random_normal {k : ℝ} (hk : 0 < k) (mean std : ℝ) (noise : Vec (n + 1)) :
    OnHyperboloid k (randomNormal k mean std noise) := C35_expmap0_on hk _

/-- The requested spread is ignored: with the default `mean=0`, every positive `std` gives the
same sample as `std=1`, because the noise is normalised after scaling. -/
theorem C74_counterexample_lorentz_std {k std : ℝ} (hs : 0 < std) (noise : Vec (n + 1)) :
    randomNormal k 0 std noise = randomNormal k 0 1 noise := by
  unfold randomNormal
  simp only [add_zero, mul_one]
  congr 1
  have e : (fun i => noise i * std) = std • noise := by funext i; simp [mul_comm]
  rw [e, nrm_smul, abs_of_pos hs, smul_smul, mul_inv]
  congr 1
  field_simp

/-! ## the hypotheses are met -/

/-- two points far apart on the hyperboloid `k = 1` -/
noncomputable def qA : Vec 3 := ![5/4, 3/4, 0]
noncomputable def qB : Vec 3 := ![5/3, 0, 4/3]

lemma qA_on : OnHyperboloid 1 qA := by
  constructor
  · simp [mink, qA, Fin.sum_univ_succ]; norm_num
  · norm_num [qA]

lemma qB_on : OnHyperboloid 1 qB := by
  constructor
  · simp [mink, qB, Fin.sum_univ_succ]; norm_num
  · norm_num [qB]

lemma qAB : mink qA qB = -(25/12) := by
  simp [mink, qA, qB, Fin.sum_univ_succ]; norm_num

lemma qAB_dist : 1e-4 ≤ dist 1 qA qB := by
  rw [dist_eq]
  have e : ch 1 qA qB = 25/12 := by rw [ch, qAB]; norm_num
  rw [e, Real.sqrt_one, one_mul, arcosh]
  have h1 : Real.log (Real.exp 1e-4) ≤
      Real.log (25/12 + Real.sqrt (max ((25/12:ℝ)^2 - 1.0) 1e-15)) := by
    apply Real.log_le_log (Real.exp_pos _)
    have h2 : Real.exp 1e-4 ≤ 2 := by
      have := Real.exp_bound' (n := 1) (x := 1e-4) (by norm_num) (by norm_num) (by norm_num)
      norm_num at this ⊢; linarith
    have := Real.sqrt_nonneg (max ((25/12:ℝ)^2 - 1.0) 1e-15)
    linarith
  rwa [Real.log_exp] at h1

/-- The hypotheses of the C37 and C38 theorems hold for these two points. -/
example : OnHyperboloid 1 qA ∧ OnHyperboloid 1 qB ∧ (1:ℝ) ^ 2 * (1 + 1e-15) ≤ mink qA qB ^ 2 ∧
    1e-4 ≤ dist 1 qA qB ∧ (1:ℝ) ^ 2 + 1 * 1e-8 ≤ mink qA qB ^ 2 := by
  refine ⟨qA_on, qB_on, ?_, qAB_dist, ?_⟩ <;> rw [qAB] <;> norm_num

/-- A tangent vector at `qA`, long enough for `C37_log_exp` and `C35_expmap_unprojected`. -/
example : Tangent qA ![3/4, 5/4, 2] ∧ 1e-8 ≤ mink (![3/4, 5/4, 2] : Vec 3) ![3/4, 5/4, 2] := by
  constructor
  · simp [Tangent, mink, qA, Fin.sum_univ_succ]; norm_num
  · simp [mink, Fin.sum_univ_succ]; norm_num

/-- So exp and log really invert each other on a concrete pair. -/
example : expmap 1 qA (logmap 1 qA qB) = qB :=
  C37_exp_log one_pos qA_on qB_on (by rw [qAB]; norm_num) qAB_dist true true

end Geoopt.Lorentz
