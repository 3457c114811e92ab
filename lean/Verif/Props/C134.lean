import Verif.Props.C133
import Verif.Props.C35
import Mathlib.Analysis.SpecialFunctions.Trigonometric.Series
import Mathlib.Analysis.Convex.Deriv
import Mathlib.Analysis.Convex.Mul
import Mathlib.Analysis.Convex.SpecificFunctions.Deriv

/-!
# C134 – the tangent space as a map of the manifold

In hyperbolic space the exponential never brings two vectors closer together than they are in the tangent
space, on the sphere it never drives them apart.
-/

namespace Geoopt.C134
open Geoopt Matrix
variable {n : ℕ}

/-! ### real inequalities -/

/-- `s ↦ cosh √s` is convex. -/
theorem cosh_sqrt_convex {p q θ : ℝ} (h0 : 0 ≤ θ) (h1 : θ ≤ 1) :
    Real.cosh (Real.sqrt ((1 - θ) * p ^ 2 + θ * q ^ 2)) ≤ (1 - θ) * Real.cosh p + θ * Real.cosh q := by
  have hs : 0 ≤ (1 - θ) * p ^ 2 + θ * q ^ 2 :=
    add_nonneg (mul_nonneg (by linarith) (sq_nonneg _)) (mul_nonneg h0 (sq_nonneg _))
  have hp := (Real.hasSum_cosh p).mul_left (1 - θ)
  have hq := (Real.hasSum_cosh q).mul_left θ
  refine hasSum_le (fun i => ?_) (Real.hasSum_cosh _) (hp.add hq)
  rw [pow_mul, Real.sq_sqrt hs, pow_mul, pow_mul]
  have hc := (convexOn_pow (𝕜 := ℝ) i).2 (show p ^ 2 ∈ Set.Ici 0 from sq_nonneg p)
    (show q ^ 2 ∈ Set.Ici 0 from sq_nonneg q) (by linarith : (0 : ℝ) ≤ 1 - θ) h0 (by ring)
  simp only [smul_eq_mul] at hc
  have hf : (0 : ℝ) < ((2 * i).factorial : ℝ) := by exact_mod_cast Nat.factorial_pos _
  rw [← mul_div_assoc, ← mul_div_assoc, ← add_div]
  gcongr

/-- The hyperbolic law of cosines against the flat one. -/
theorem cosh_law {a b q : ℝ} (h : |q| ≤ 1) :
    Real.cosh (Real.sqrt (a ^ 2 + b ^ 2 - 2 * a * b * q)) ≤
      Real.cosh a * Real.cosh b - Real.sinh a * Real.sinh b * q := by
  obtain ⟨h1, h2⟩ := abs_le.1 h
  have := cosh_sqrt_convex (p := a - b) (q := a + b) (θ := (1 - q) / 2) (by linarith) (by linarith)
  rw [Real.cosh_sub, Real.cosh_add] at this
  convert this using 3 <;> ring

/-- `sin r / r` decreases up to `π`. -/
theorem sinc_anti {r R : ℝ} (h0 : 0 < r) (h : r ≤ R) (hR : R ≤ Real.pi) :
    Real.sin R / R ≤ Real.sin r / r := by
  have hR0 : 0 < R := h0.trans_le h
  have hc := strictConcaveOn_sin_Icc.concaveOn.2 (show (0 : ℝ) ∈ Set.Icc 0 Real.pi from ⟨le_rfl, Real.pi_pos.le⟩)
    (show R ∈ Set.Icc 0 Real.pi from ⟨hR0.le, hR⟩) (sub_nonneg.2 ((div_le_one hR0).2 h))
    (div_nonneg h0.le hR0.le) (by ring)
  simp only [smul_eq_mul, Real.sin_zero, mul_zero, zero_add] at hc
  rw [div_mul_cancel₀ _ hR0.ne'] at hc
  rw [div_le_div_iff₀ hR0 h0]
  rw [div_mul_eq_mul_div, div_le_iff₀ hR0] at hc
  linarith

/-- `s ↦ cos √s` is convex up to `π²`. -/
theorem cos_sqrt_convexOn : ConvexOn ℝ (Set.Icc 0 (Real.pi ^ 2)) fun s => Real.cos (Real.sqrt s) := by
  have hd : ∀ s, 0 < s → HasDerivAt (fun s => Real.cos (Real.sqrt s))
      (-(Real.sin (Real.sqrt s) / Real.sqrt s) / 2) s := by
    intro s hs
    have h := (Real.hasDerivAt_cos (Real.sqrt s)).comp s (Real.hasDerivAt_sqrt hs.ne')
    refine h.congr_deriv ?_
    have := Real.sqrt_pos.2 hs
    field_simp
  refine MonotoneOn.convexOn_of_deriv (convex_Icc _ _) (by fun_prop) ?_ ?_
  · rw [interior_Icc]
    intro s hs
    exact (hd s hs.1).differentiableAt.differentiableWithinAt
  · rw [interior_Icc]
    intro s hs t ht hst
    rw [(hd s hs.1).deriv, (hd t ht.1).deriv]
    have := sinc_anti (Real.sqrt_pos.2 hs.1) (Real.sqrt_le_sqrt hst)
      (by rw [Real.sqrt_le_left Real.pi_pos.le]; exact ht.2.le)
    linarith

theorem cos_law {a b q : ℝ} (ha : 0 ≤ a) (hb : 0 ≤ b) (hab : a + b ≤ Real.pi) (h : |q| ≤ 1) :
    Real.cos (Real.sqrt (a ^ 2 + b ^ 2 - 2 * a * b * q)) ≤
      Real.cos a * Real.cos b + Real.sin a * Real.sin b * q := by
  obtain ⟨h1, h2⟩ := abs_le.1 h
  have hpm : (a - b) ^ 2 ≤ Real.pi ^ 2 := sq_le_sq' (by linarith) (by linarith)
  have hpp : (a + b) ^ 2 ≤ Real.pi ^ 2 := pow_le_pow_left₀ (by linarith) hab 2
  have := cos_sqrt_convexOn.2 (show (a - b) ^ 2 ∈ Set.Icc 0 (Real.pi ^ 2) from ⟨sq_nonneg _, hpm⟩)
    (show (a + b) ^ 2 ∈ Set.Icc 0 (Real.pi ^ 2) from ⟨sq_nonneg _, hpp⟩)
    (by linarith : 0 ≤ (1 + q) / 2) (by linarith : 0 ≤ (1 - q) / 2) (by ring)
  simp only [smul_eq_mul] at this
  rw [Real.sqrt_sq_eq_abs, Real.sqrt_sq (by linarith : 0 ≤ a + b), Real.cos_abs, Real.cos_sub,
    Real.cos_add] at this
  refine le_trans (le_of_eq ?_) (this.trans (le_of_eq (by ring)))
  congr 2; ring

/-! ### the hyperboloid -/

section lorentz
open Geoopt.Lorentz

/-- The exponential of the hyperboloid never brings two vectors closer together than they are. -/
theorem C134_lorentz {k : ℝ} (hk : 0 < k) {x u v : Vec (n + 1)} (hx : OnHyperboloid k x)
    (hu : Tangent x u) (hv : Tangent x v) (hun : 1e-8 ≤ mink u u) (hvn : 1e-8 ≤ mink v v) (c d : Bool) :
    Real.sqrt (mink (u - v) (u - v)) ≤ dist k (expmap k x u c d) (expmap k x v c d) := by
  have hs : 0 < Real.sqrt k := Real.sqrt_pos.2 hk
  have hs2 := Real.mul_self_sqrt hk.le
  have e8 : (0 : ℝ) < 1e-8 := by norm_num
  have hexp : ∀ {w : Vec (n + 1)}, Tangent x w → 1e-8 ≤ mink w w → expmap k x w c d = expmapRaw k x w := by
    intro w hw hwn
    have hon : OnHyperboloid k (expmapRaw k x w) := by
      have h := C35_expmap_unprojected hk hx hw hwn false
      simpa [Lorentz.expmap] using h
    unfold Lorentz.expmap
    cases c <;> cases d <;> simp [C36_proju_fixes hw, project_of_on hon]
  have hun' := norm_sq_of hun
  have hvn' := norm_sq_of hvn
  have hup := norm_pos u
  have hvp := norm_pos v
  have hu' : mink x u = 0 := hu
  have hv' : mink x v = 0 := hv
  obtain ⟨q, hq⟩ : ∃ q, q = mink u v / (Lorentz.norm u * Lorentz.norm v) := ⟨_, rfl⟩
  have hq1 : |q| ≤ 1 := by
    have hc := tangent_cauchy hk hx hu hv
    rw [← hun', ← hvn', ← mul_pow] at hc
    rw [hq, abs_div, abs_of_pos (mul_pos hup hvp), div_le_one (mul_pos hup hvp)]
    exact abs_le_of_sq_le_sq hc (mul_pos hup hvp).le
  have hch : ch k (expmapRaw k x u) (expmapRaw k x v) =
      Real.cosh (Lorentz.norm u / Real.sqrt k) * Real.cosh (Lorentz.norm v / Real.sqrt k) -
        Real.sinh (Lorentz.norm u / Real.sqrt k) * Real.sinh (Lorentz.norm v / Real.sqrt k) * q := by
    simp only [ch, expmapRaw]
    minks
    rw [mink_comm u x, hu', hv', hx.1, hq]
    obtain ⟨A, hA⟩ : ∃ A, A = Real.cosh (Lorentz.norm u / Real.sqrt k) := ⟨_, rfl⟩
    obtain ⟨B, hB⟩ : ∃ B, B = Real.cosh (Lorentz.norm v / Real.sqrt k) := ⟨_, rfl⟩
    obtain ⟨A', hA'⟩ : ∃ A, A = Real.sinh (Lorentz.norm u / Real.sqrt k) := ⟨_, rfl⟩
    obtain ⟨B', hB'⟩ : ∃ B, B = Real.sinh (Lorentz.norm v / Real.sqrt k) := ⟨_, rfl⟩
    rw [← hA, ← hB, ← hA', ← hB']
    field_simp
    linear_combination (-B' * A' * mink u v) * hs2
  have hlaw := cosh_law (a := Lorentz.norm u / Real.sqrt k) (b := Lorentz.norm v / Real.sqrt k) hq1
  rw [← hch] at hlaw
  have hsq : (Lorentz.norm u / Real.sqrt k) ^ 2 + (Lorentz.norm v / Real.sqrt k) ^ 2 -
      2 * (Lorentz.norm u / Real.sqrt k) * (Lorentz.norm v / Real.sqrt k) * q = mink (u - v) (u - v) / k := by
    minks
    rw [mink_comm v u, ← hun', ← hvn', hq]
    field_simp
    rw [Real.sq_sqrt hk.le]
    ring
  rw [hsq, Real.sqrt_div' _ hk.le] at hlaw
  rw [hexp hu hun, hexp hv hvn, dist_eq]
  have h1 : 1 ≤ ch k (expmapRaw k x u) (expmapRaw k x v) := (Real.one_le_cosh _).trans hlaw
  have h2 : Real.sqrt (mink (u - v) (u - v)) / Real.sqrt k ≤
      Real.arcosh (ch k (expmapRaw k x u) (expmapRaw k x v)) := by
    have := (Real.arcosh_le_arcosh (Real.cosh_pos _) (by linarith)).2 hlaw
    rwa [Real.arcosh_cosh (by positivity)] at this
  have h3 := h2.trans (real_arcosh_le h1)
  rw [div_le_iff₀ hs] at h3
  linarith

/-- So the logarithms of two points are at most as far apart as the points. -/
theorem C134_lorentz_log {k : ℝ} (hk : 0 < k) {x y z : Vec (n + 1)} (hx : OnHyperboloid k x)
    (hy : OnHyperboloid k y) (hz : OnHyperboloid k z) (hxy : k ^ 2 * (1 + 1e-15) ≤ mink x y ^ 2)
    (hxy' : 1e-4 ≤ dist k x y) (hxz : k ^ 2 * (1 + 1e-15) ≤ mink x z ^ 2) (hxz' : 1e-4 ≤ dist k x z) :
    Real.sqrt (mink (logmap k x y - logmap k x z) (logmap k x y - logmap k x z)) ≤ dist k y z := by
  have key : ∀ {r : ℝ}, 1e-4 ≤ r → (1e-8 : ℝ) ≤ r ^ 2 := by
    intro r hr
    have := pow_le_pow_left₀ (by norm_num) hr 2
    norm_num at this ⊢
    exact this
  have h := C134_lorentz hk hx (C37_log_tangent hk hx hy) (C37_log_tangent hk hx hz)
    (by rw [(far_facts hk hx hy hxy hxy').2.2]; exact key hxy')
    (by rw [(far_facts hk hx hz hxz hxz').2.2]; exact key hxz') true true
  rwa [C37_exp_log hk hx hy hxy hxy', C37_exp_log hk hx hz hxz hxz'] at h

/-- Half way along a geodesic (from `expmap(m, -u)` to `expmap(m, u)`) the squared distance to any point
`expmap(m, w)` is below the mean of its values at the ends, by the square of half the length: squared
distances are strongly convex, with the modulus of flat space. -/
theorem C134_lorentz_midpoint {k : ℝ} (hk : 0 < k) {m u w : Vec (n + 1)} (hm : OnHyperboloid k m)
    (hu : Tangent m u) (hw : Tangent m w) (hun : 1e-8 ≤ mink u u) (hwn : 1e-8 ≤ mink w w) :
    mink w w + mink u u ≤ (dist k (expmap k m w) (expmap k m u) ^ 2 +
      dist k (expmap k m w) (expmap k m (-u)) ^ 2) / 2 := by
  have hu' : mink m u = 0 := hu
  have hneg : Tangent m (-u) := by unfold Tangent; rw [mink_neg_right, hu', neg_zero]
  have hnn : mink (-u) (-u) = mink u u := by rw [mink_neg_left, mink_neg_right, neg_neg]
  have hww := tangent_sq_nonneg hk hm hw
  have h1 := C134_lorentz hk hm hw hu hwn hun true true
  have h2 := C134_lorentz hk hm hw hneg hwn (by rw [hnn]; exact hun) true true
  have s1 := Real.sqrt_le_left (Real.sqrt_nonneg _ |>.trans h1) |>.1 h1
  have s2 := Real.sqrt_le_left (Real.sqrt_nonneg _ |>.trans h2) |>.1 h2
  rw [sub_neg_eq_add] at s2
  rw [mink_sub_left, mink_sub_right, mink_sub_right] at s1
  rw [mink_add_left, mink_add_right, mink_add_right] at s2
  linarith

/-- Two orthogonal unit vectors at a point. -/
example : OnHyperboloid 1 (![1, 0, 0] : Vec 3) ∧ Tangent (![1, 0, 0] : Vec 3) ![0, 0, 1] ∧
    Tangent (![1, 0, 0] : Vec 3) ![0, 1, 0] ∧ 1e-8 ≤ mink (![0, 0, 1] : Vec 3) ![0, 0, 1] ∧
    1e-8 ≤ mink (![0, 1, 0] : Vec 3) ![0, 1, 0] := by
  refine ⟨⟨?_, ?_⟩, ?_, ?_, ?_, ?_⟩ <;> norm_num [mink, Tangent, Fin.sum_univ_succ]

end lorentz

/-! ### the sphere -/

section sphere
open Geoopt.Sphere
variable {S : Set (Vec n)} {P : Option (Matrix (Fin n) (Fin n) ℝ)}

/-- The exponential of the sphere never drives two vectors apart, up to the smallest number `dist`
returns. -/
theorem C134_sphere (hP : Projects S P) (dt : DType) {x u v : Vec n} (hx : OnSphere S x)
    (hu : Tangent S x u) (hv : Tangent S x v) (hu0 : u = 0 ∨ eps dt < nrm u)
    (hv0 : v = 0 ∨ eps dt < nrm v) (hπ : nrm u + nrm v ≤ Real.pi) :
    dist dt (expmap P dt x u) (expmap P dt x v) ≤ max (nrm (u - v)) (Real.arccos (1 - eps dt)) := by
  have hexp : ∀ {w : Vec n}, (w = 0 ∨ eps dt < nrm w) →
      expmap P dt x w = Real.cos (nrm w) • x + (Real.sin (nrm w) / nrm w) • w := by
    intro w hw
    rcases hw with h | h
    · rw [h, expmap, nrm_zero, if_neg (not_lt.2 (C133.eps_pos dt).le), add_zero, C20_projx_fixes hP hx]
      simp
    · rw [expmap, if_pos h]
  have na := nrm_nonneg u
  have nb := nrm_nonneg v
  have hux : u ⬝ᵥ x = 0 := by rw [dotProduct_comm]; exact hu.1
  obtain ⟨q, hq⟩ : ∃ q, q = (u ⬝ᵥ v) / (nrm u * nrm v) := ⟨_, rfl⟩
  have hq1 : |q| ≤ 1 := by
    rw [hq, abs_div, abs_of_nonneg (mul_nonneg na nb)]
    exact div_le_one_of_le₀ (abs_dot_le u v) (mul_nonneg na nb)
  have habq : nrm u * nrm v * q = u ⬝ᵥ v := by
    by_cases h : nrm u * nrm v = 0
    · have := abs_dot_le u v
      rw [h] at this
      rw [h, zero_mul, abs_eq_zero.1 (le_antisymm this (abs_nonneg _))]
    · rw [hq, mul_div_cancel₀ _ h]
  have hc : expmap P dt x u ⬝ᵥ expmap P dt x v =
      Real.cos (nrm u) * Real.cos (nrm v) + Real.sin (nrm u) * Real.sin (nrm v) * q := by
    rw [hexp hu0, hexp hv0]
    simp only [add_dotProduct, dotProduct_add, smul_dotProduct, dotProduct_smul, smul_eq_mul]
    rw [hx.1, hux, hv.1, hq]
    ring
  have hsq : nrm u ^ 2 + nrm v ^ 2 - 2 * nrm u * nrm v * q = nrm (u - v) ^ 2 := by
    rw [nrm_sq, nrm_sq, nrm_sq]
    simp only [sub_dotProduct, dotProduct_sub]
    rw [dotProduct_comm v u]
    linarith
  have hlaw := cos_law na nb hπ hq1
  rw [hsq, Real.sqrt_sq (nrm_nonneg _), ← hc] at hlaw
  have hle : nrm (u - v) ≤ Real.pi := by
    refine le_trans ?_ hπ
    have : nrm (u - v) ^ 2 ≤ (nrm u + nrm v) ^ 2 := by
      rw [← hsq]
      have := mul_nonneg na nb
      have h2 := (abs_le.1 hq1).1
      nlinarith
    exact abs_le_of_sq_le_sq' this (add_nonneg na nb) |>.2
  have h2 : Real.arccos (expmap P dt x u ⬝ᵥ expmap P dt x v) ≤ nrm (u - v) := by
    have := Real.arccos_le_arccos hlaw
    rwa [Real.arccos_cos (nrm_nonneg _) hle] at this
  unfold Sphere.dist Sphere.inner
  by_cases h : expmap P dt x u ⬝ᵥ expmap P dt x v ≤ 1 - eps dt
  · refine le_max_of_le_left (le_trans (Real.arccos_le_arccos ?_) h2)
    unfold clamp
    exact le_min (le_max_left _ _) h
  · refine le_max_of_le_right (Real.arccos_le_arccos ?_)
    unfold clamp
    exact le_min ((not_le.1 h).le.trans (le_max_left _ _)) le_rfl

/-- The hypotheses for two orthogonal vectors at a pole. -/
example : OnSphere Set.univ (![1, 0, 0] : Vec 3) ∧ Tangent Set.univ (![1, 0, 0] : Vec 3) ![0, 1, 0] ∧
    Tangent Set.univ (![1, 0, 0] : Vec 3) ![0, 0, 1] ∧ eps .f64 < nrm (![0, 1, 0] : Vec 3) ∧
    nrm (![0, 1, 0] : Vec 3) + nrm (![0, 0, 1] : Vec 3) ≤ Real.pi := by
  have h1 : nrm (![0, 1, 0] : Vec 3) = 1 := by unfold nrm; simp [dotProduct, Fin.sum_univ_succ]
  have h2 : nrm (![0, 0, 1] : Vec 3) = 1 := by unfold nrm; simp [dotProduct, Fin.sum_univ_succ]
  refine ⟨⟨by simp [dotProduct, Fin.sum_univ_succ], trivial⟩,
    ⟨by simp [dotProduct, Fin.sum_univ_succ], trivial⟩,
    ⟨by simp [dotProduct, Fin.sum_univ_succ], trivial⟩, ?_, ?_⟩
  · rw [h1]; linarith [C133.eps_lt .f64]
  · rw [h1, h2]; linarith [Real.pi_gt_three]

end sphere
end Geoopt.C134
