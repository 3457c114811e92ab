import Verif.Props.C20
import Verif.Props.C01
import Verif.Lemmas.Lorentz
import Verif.Lemmas.Gyro
import Verif.Props.C132

/-!
# C133 – balls are convex

If two points are within some distance of a third one, so is every point of the geodesic between them.
Clustering, nearest neighbours and means of points rely on it.
-/

namespace Geoopt.C133
open Geoopt Matrix
variable {n : ℕ}

/-! ### the hyperboloid -/

section lorentz
open Geoopt.Lorentz

theorem arcosh_mono {a b : ℝ} (ha : 1 ≤ a) (h : a ≤ b) : Lorentz.arcosh a ≤ Lorentz.arcosh b := by
  unfold Lorentz.arcosh
  have hs : 0 ≤ Real.sqrt (max (a ^ 2 - 1.0) 1e-15) := Real.sqrt_nonneg _
  apply Real.log_le_log (by linarith)
  have : a ^ 2 ≤ b ^ 2 := pow_le_pow_left₀ (by linarith) h 2
  gcongr

/-- The geodesic stays on the hyperboloid. -/
theorem geodesicUnit_on {k : ℝ} (hk : 0 < k) {x u : Vec (n + 1)} (hx : OnHyperboloid k x)
    (hu : Tangent x u) (h1 : mink u u = 1) (t : ℝ) : OnHyperboloid k (geodesicUnitRaw k t x u) := by
  have hu' : mink x u = 0 := hu
  have hs := Real.mul_self_sqrt hk.le
  refine upper_of hk hx ?_ ?_
  · unfold geodesicUnitRaw
    minks
    rw [mink_comm u x, hu', hx.1, h1]
    have := Real.cosh_sq (t / Real.sqrt k)
    linear_combination (-k) * this + (Real.sinh (t / Real.sqrt k)) ^ 2 * hs
  · unfold geodesicUnitRaw
    minks
    rw [hu', hx.1]
    nlinarith [Real.cosh_pos (t / Real.sqrt k)]

/-- Along a geodesic of the hyperboloid the distance to any point is at most the larger one of the
distances at the ends. -/
theorem C133_lorentz {k : ℝ} (hk : 0 < k) {p x u : Vec (n + 1)} (hp : OnHyperboloid k p)
    (hx : OnHyperboloid k x) (hu : Tangent x u) (h1 : mink u u = 1) {a t b : ℝ} (hat : a ≤ t)
    (htb : t ≤ b) (c : Bool) :
    dist k p (geodesicUnit k t x u c) ≤
      max (dist k p (geodesicUnit k a x u c)) (dist k p (geodesicUnit k b x u c)) := by
  have hon := geodesicUnit_on hk hx hu h1
  have e : ∀ s, geodesicUnit k s x u c = geodesicUnitRaw k s x u := by
    intro s
    unfold geodesicUnit
    cases c
    · rfl
    · exact project_of_on (hon s)
  rw [e, e, e, dist_eq, dist_eq, dist_eq]
  -- the function to compare
  obtain ⟨f, hf⟩ : ∃ f : ℝ → ℝ, f = fun s => ch k p (geodesicUnitRaw k s x u) := ⟨_, rfl⟩
  have h1f : ∀ s, 1 ≤ f s := fun s => by rw [hf]; exact ch_ge_one hk hp (hon s)
  have hr : 0 < Real.sqrt k := Real.sqrt_pos.2 hk
  have hfe : ∀ s, f s = Real.cosh (s / Real.sqrt k) * (-mink p x / k) +
      Real.sinh (s / Real.sqrt k) * (-(Real.sqrt k * mink p u) / k) := by
    intro s
    rw [hf]
    simp only [ch, geodesicUnitRaw]
    minks
    ring
  have key : f t ≤ max (f a) (f b) := by
    rcases hat.eq_or_lt with h | hat
    · rw [h]; exact le_max_left _ _
    obtain ⟨A, hA⟩ : ∃ A, A = (t - a) / Real.sqrt k := ⟨_, rfl⟩
    obtain ⟨B, hB⟩ : ∃ B, B = (b - t) / Real.sqrt k := ⟨_, rfl⟩
    have hA0 : 0 < A := by rw [hA]; exact div_pos (by linarith) hr
    have hB0 : 0 ≤ B := by rw [hB]; exact div_nonneg (by linarith) hr.le
    have ea : a / Real.sqrt k = t / Real.sqrt k - A := by rw [hA]; ring
    have eb : b / Real.sqrt k = t / Real.sqrt k + B := by rw [hB]; ring
    have hsA : 0 < Real.sinh A := Real.sinh_pos_iff.2 hA0
    have hsB : 0 ≤ Real.sinh B := Real.sinh_nonneg_iff.2 hB0
    have heq : Real.sinh (A + B) * f t = Real.sinh B * f a + Real.sinh A * f b := by
      rw [hfe t, hfe a, hfe b, ea, eb, Real.cosh_sub, Real.cosh_add, Real.sinh_sub, Real.sinh_add,
        Real.sinh_add]
      ring
    have hsup : Real.sinh B + Real.sinh A ≤ Real.sinh (A + B) := by
      rw [Real.sinh_add]
      nlinarith [Real.one_le_cosh A, Real.one_le_cosh B]
    have hM : 0 ≤ max (f a) (f b) := le_trans (by linarith [h1f a]) (le_max_left _ _)
    have hle : Real.sinh (A + B) * f t ≤ Real.sinh (A + B) * max (f a) (f b) := by
      rw [heq]
      calc Real.sinh B * f a + Real.sinh A * f b
          ≤ Real.sinh B * max (f a) (f b) + Real.sinh A * max (f a) (f b) :=
            add_le_add (mul_le_mul_of_nonneg_left (le_max_left _ _) hsB)
              (mul_le_mul_of_nonneg_left (le_max_right _ _) hsA.le)
        _ = (Real.sinh B + Real.sinh A) * max (f a) (f b) := by ring
        _ ≤ _ := mul_le_mul_of_nonneg_right hsup hM
    exact le_of_mul_le_mul_left hle (by linarith)
  rw [← mul_max_of_nonneg _ _ hr.le]
  refine mul_le_mul_of_nonneg_left ?_ hr.le
  have e2 : ∀ s, ch k p (geodesicUnitRaw k s x u) = f s := fun s => by rw [hf]
  rw [e2, e2, e2]
  rcases le_max_iff.1 key with h | h
  · exact le_max_of_le_left (arcosh_mono (h1f t) h)
  · exact le_max_of_le_right (arcosh_mono (h1f t) h)

/-- A point and a unit vector at it. -/
example : OnHyperboloid 1 (![1, 0, 0] : Vec 3) ∧ Tangent (![1, 0, 0] : Vec 3) ![0, 0, 1] ∧
    mink (![0, 0, 1] : Vec 3) ![0, 0, 1] = 1 := by
  refine ⟨⟨?_, ?_⟩, ?_, ?_⟩ <;> simp [mink, Tangent, Fin.sum_univ_succ]

end lorentz

/-! ### the sphere -/

section sphere
open Geoopt.Sphere
variable {S : Set (Vec n)} {P : Option (Matrix (Fin n) (Fin n) ℝ)}

theorem eps_pos (dt : DType) : 0 < eps dt := by cases dt <;> norm_num [eps]
theorem eps_lt (dt : DType) : eps dt < 1 / 2 := by cases dt <;> norm_num [eps]

/-- The angle `expmap` goes for a vector of length `s`: `s` itself, for tiny vectors `arctan s`. -/
noncomputable def ang (dt : DType) (s : ℝ) : ℝ := if s > eps dt then s else Real.arctan s

theorem ang_mono (dt : DType) {s s' : ℝ} (h0 : 0 ≤ s) (h : s ≤ s') : ang dt s ≤ ang dt s' := by
  unfold ang
  by_cases h1 : s > eps dt
  · rw [if_pos h1, if_pos (lt_of_lt_of_le h1 h)]; exact h
  · rw [if_neg h1]
    by_cases h2 : s' > eps dt
    · rw [if_pos h2]; exact (C132.arctan_le h0).trans h
    · rw [if_neg h2]; exact Real.arctan_strictMono.monotone h

theorem ang_nonneg (dt : DType) {s : ℝ} (h0 : 0 ≤ s) : 0 ≤ ang dt s := by
  unfold ang
  by_cases h1 : s > eps dt
  · rw [if_pos h1]; exact h0
  · rw [if_neg h1]; exact Real.arctan_nonneg.2 h0

theorem ang_pos (dt : DType) {s : ℝ} (h0 : 0 < s) : 0 < ang dt s := by
  unfold ang
  by_cases h1 : s > eps dt
  · rw [if_pos h1]; exact h0
  · rw [if_neg h1]; exact Real.arctan_pos.2 h0

theorem ang_le (dt : DType) {s : ℝ} (h0 : 0 ≤ s) : ang dt s ≤ s := by
  unfold ang
  by_cases h1 : s > eps dt
  · rw [if_pos h1]
  · rw [if_neg h1]; exact C132.arctan_le h0

theorem expmap_angle (hP : Projects S P) (dt : DType) {x u : Vec n} (hx : OnSphere S x)
    (hu : Tangent S x u) (h0 : u ≠ 0) {t : ℝ} (ht0 : 0 ≤ t) :
    expmap P dt x (t • u) = Real.cos (ang dt (t * nrm u)) • x +
      (Real.sin (ang dt (t * nrm u)) / nrm u) • u := by
  have hr : 0 < nrm u := lt_of_le_of_ne (nrm_nonneg u) fun e => h0 (nrm_eq_zero.1 e.symm)
  rcases ht0.eq_or_lt with h | ht
  · rw [← h, zero_smul, expmap, nrm_zero, if_neg (not_lt.2 (eps_pos dt).le), add_zero,
      C20_projx_fixes hP hx, zero_mul, ang, if_neg (not_lt.2 (eps_pos dt).le)]
    simp
  have hnt : nrm (t • u) = t * nrm u := by rw [nrm_smul, abs_of_pos ht]
  have htu : Tangent S x (t • u) :=
    ⟨by rw [dotProduct_smul, hu.1, smul_zero], smul_mem hP hu.2 t⟩
  by_cases h : nrm (t • u) > eps dt
  · rw [expmap, if_pos h, ang, ← hnt, if_pos h, hnt, smul_smul]
    congr 2
    field_simp
  · have hne : t • u ≠ 0 := smul_ne_zero ht.ne' h0
    have := C132.C132_sphere_angle hP hx htu hne
    rw [expmap, if_neg h, ang, ← hnt, if_neg h]
    refine this.trans ?_
    rw [hnt, smul_smul]
    congr 2
    field_simp

theorem dist_mono (dt : DType) {p y z : Vec n} (h : p ⬝ᵥ y ≤ p ⬝ᵥ z) : dist dt p z ≤ dist dt p y :=
  Real.arccos_le_arccos (clamp_mono h)

theorem pos_of_dist (dt : DType) {p y : Vec n} (h : dist dt p y < Real.pi / 2) : 0 < p ⬝ᵥ y := by
  have h1 := Real.arccos_lt_pi_div_two.1 h
  by_contra hn
  have h2 : clamp (-1 + eps dt) (1 - eps dt) (p ⬝ᵥ y) ≤ 0 := by
    unfold clamp
    refine (min_le_left _ _).trans (max_le (not_lt.1 hn) ?_)
    linarith [eps_lt dt]
  exact absurd h1 (not_lt.2 h2)

/-- A ball of radius less than a quarter of a great circle is convex: if `x` and `expmap(x, u)` are
within a distance `r < π/2` of `p`, so is every point in between. -/
theorem C133_sphere (hP : Projects S P) (dt : DType) {p x u : Vec n} (hx : OnSphere S x)
    (hu : Tangent S x u) (hlt : nrm u < Real.pi) {t : ℝ} (ht0 : 0 ≤ t) (ht1 : t ≤ 1) {r : ℝ}
    (hr : r < Real.pi / 2) (h0 : dist dt p x ≤ r) (h1 : dist dt p (expmap P dt x u) ≤ r) :
    dist dt p (expmap P dt x (t • u)) ≤ r := by
  by_cases hu0 : u = 0
  · rw [hu0, smul_zero, ← hu0]; exact h1
  have hn : 0 < nrm u := lt_of_le_of_ne (nrm_nonneg u) fun e => hu0 (nrm_eq_zero.1 e.symm)
  have hA := pos_of_dist dt (h0.trans_lt hr)
  have hB := pos_of_dist dt (h1.trans_lt hr)
  obtain ⟨φ, hφ⟩ : ∃ φ, φ = ang dt (t * nrm u) := ⟨_, rfl⟩
  obtain ⟨θ, hθ⟩ : ∃ θ, θ = ang dt (nrm u) := ⟨_, rfl⟩
  have hφ0 : 0 ≤ φ := hφ ▸ ang_nonneg dt (by positivity)
  have hφθ : φ ≤ θ := by
    rw [hφ, hθ]; exact ang_mono dt (by positivity) (by nlinarith)
  have hθ0 : 0 < θ := hθ ▸ ang_pos dt hn
  have hθπ : θ < Real.pi := (hθ ▸ ang_le dt hn.le).trans_lt hlt
  have e1 := expmap_angle hP dt hx hu hu0 (t := 1) zero_le_one
  rw [one_smul, one_mul, ← hθ] at e1
  have e2 := expmap_angle hP dt hx hu hu0 ht0
  rw [← hφ] at e2
  have f1 : p ⬝ᵥ expmap P dt x u = Real.cos θ * (p ⬝ᵥ x) + Real.sin θ * ((p ⬝ᵥ u) / nrm u) := by
    rw [e1]; simp only [dotProduct_add, dotProduct_smul, smul_eq_mul]; ring
  have f2 : p ⬝ᵥ expmap P dt x (t • u) =
      Real.cos φ * (p ⬝ᵥ x) + Real.sin φ * ((p ⬝ᵥ u) / nrm u) := by
    rw [e2]; simp only [dotProduct_add, dotProduct_smul, smul_eq_mul]; ring
  obtain ⟨m, hm⟩ : ∃ m, m = min (p ⬝ᵥ x) (p ⬝ᵥ expmap P dt x u) := ⟨_, rfl⟩
  have hm0 : 0 < m := hm ▸ lt_min hA hB
  have hmA : m ≤ p ⬝ᵥ x := hm ▸ min_le_left _ _
  have hmB : m ≤ p ⬝ᵥ expmap P dt x u := hm ▸ min_le_right _ _
  have hs : 0 < Real.sin θ := Real.sin_pos_of_pos_of_lt_pi hθ0 hθπ
  have hs1 : 0 ≤ Real.sin (θ - φ) := Real.sin_nonneg_of_nonneg_of_le_pi (by linarith) (by linarith)
  have hs2 : 0 ≤ Real.sin φ := Real.sin_nonneg_of_nonneg_of_le_pi hφ0 (by linarith)
  have heq : Real.sin θ * (p ⬝ᵥ expmap P dt x (t • u)) =
      Real.sin (θ - φ) * (p ⬝ᵥ x) + Real.sin φ * (p ⬝ᵥ expmap P dt x u) := by
    rw [f1, f2, Real.sin_sub]; ring
  have hsub : Real.sin θ ≤ Real.sin (θ - φ) + Real.sin φ := by
    have : Real.sin θ = Real.sin ((θ - φ) + φ) := by rw [sub_add_cancel]
    rw [this, Real.sin_add]
    nlinarith [Real.cos_le_one φ, Real.cos_le_one (θ - φ)]
  have hle : m ≤ p ⬝ᵥ expmap P dt x (t • u) := by
    refine le_of_mul_le_mul_left ?_ hs
    rw [heq]
    calc Real.sin θ * m ≤ (Real.sin (θ - φ) + Real.sin φ) * m :=
          mul_le_mul_of_nonneg_right hsub hm0.le
      _ = Real.sin (θ - φ) * m + Real.sin φ * m := by ring
      _ ≤ _ := add_le_add (mul_le_mul_of_nonneg_left hmA hs1) (mul_le_mul_of_nonneg_left hmB hs2)
  rw [hm] at hle
  rcases min_le_iff.1 hle with h | h
  · exact (dist_mono dt h).trans h0
  · exact (dist_mono dt h).trans h1

/-- The hypotheses for a quarter of the circle seen from its middle. -/
example : OnSphere Set.univ (![1, 0] : Vec 2) ∧ Tangent Set.univ (![1, 0] : Vec 2) ![0, 1] ∧
    nrm (![0, 1] : Vec 2) < Real.pi ∧ dist .f64 (![1, 0] : Vec 2) ![1, 0] < Real.pi / 2 := by
  refine ⟨⟨by simp [dotProduct], trivial⟩, ⟨by simp [dotProduct], trivial⟩, ?_, ?_⟩
  · have : nrm (![0, 1] : Vec 2) = 1 := by unfold nrm; simp [dotProduct]
    rw [this]; linarith [Real.pi_gt_three]
  · refine Real.arccos_lt_pi_div_two.2 ?_
    unfold clamp
    exact lt_min (lt_max_of_lt_left (by simp [Sphere.inner, dotProduct]))
      (by linarith [eps_lt .f64])

end sphere

/-! ### the stereographic models -/

section stereo
open Geoopt.Stereo

/-- Quadratic functions that open upwards are below zero between two arguments where they are. -/
theorem quad_between {α β γ s : ℝ} (hγ : 0 ≤ γ) (h0 : α ≤ 0) (h1 : α + β + γ ≤ 0) (hs0 : 0 ≤ s)
    (hs1 : s ≤ 1) : α + β * s + γ * s ^ 2 ≤ 0 := by
  have e : α + β * s + γ * s ^ 2 = (1 - s) * α + s * (α + β + γ) - γ * (s * (1 - s)) := by ring
  rw [e]
  have := mul_nonneg hγ (mul_nonneg hs0 (sub_nonneg.2 hs1))
  nlinarith

/-- `D(-p, x ⊕ s v) D(x, s v)` as a polynomial in `s`. -/
theorem den3_seg (k s : ℝ) (p x v : Vec n) : den3 k (-p) x (s • v) =
    mobDenom k (-p) x + (den3 k (-p) x v - mobDenom k (-p) x -
      k ^ 2 * (v ⬝ᵥ v) * ((p - x) ⬝ᵥ (p - x))) * s +
    k ^ 2 * (v ⬝ᵥ v) * ((p - x) ⬝ᵥ (p - x)) * s ^ 2 := by
  unfold den3 mobDenom
  dots
  rw [dotProduct_comm x p]
  ring

theorem one_add_three {k : ℝ} {p x w : Vec n} (h : mobDenom k x w ≠ 0) (h3 : den3 k (-p) x w ≠ 0) :
    1 + k * (mAdd k (-p) (mAdd k x w) ⬝ᵥ mAdd k (-p) (mAdd k x w)) =
      (1 + k * (p ⬝ᵥ p)) * (1 + k * (x ⬝ᵥ x)) * (1 + k * (w ⬝ᵥ w)) / den3 k (-p) x w := by
  have h2 : mobDenom k (-p) (mAdd k x w) ≠ 0 := by rw [den3_left h]; exact div_ne_zero h3 h
  rw [one_add_mAdd_self h2, one_add_mAdd_self h, den3_left h]
  simp only [neg_dotProduct, dotProduct_neg, neg_neg]
  field_simp

/-- The comparison at `s`, from the ones at `0` and `1`; `σ` is the sign of the curvature. -/
theorem core {σ k ρ s : ℝ} {p x v : Vec n}
    (hγ : 0 ≤ σ * ((1 + k * (p ⬝ᵥ p)) * (1 + k * (x ⬝ᵥ x)) * k * (v ⬝ᵥ v) -
      ρ * (k ^ 2 * (v ⬝ᵥ v) * ((p - x) ⬝ᵥ (p - x)))))
    (h0 : σ * ((1 + k * (p ⬝ᵥ p)) * (1 + k * (x ⬝ᵥ x)) - ρ * mobDenom k (-p) x) ≤ 0)
    (h1 : σ * ((1 + k * (p ⬝ᵥ p)) * (1 + k * (x ⬝ᵥ x)) * (1 + k * (v ⬝ᵥ v)) -
      ρ * den3 k (-p) x v) ≤ 0) (hs0 : 0 ≤ s) (hs1 : s ≤ 1) :
    σ * ((1 + k * (p ⬝ᵥ p)) * (1 + k * (x ⬝ᵥ x)) * (1 + k * ((s • v) ⬝ᵥ (s • v))) -
      ρ * den3 k (-p) x (s • v)) ≤ 0 := by
  have h := quad_between (s := s) hγ h0
    (β := σ * (-ρ * (den3 k (-p) x v - mobDenom k (-p) x -
      k ^ 2 * (v ⬝ᵥ v) * ((p - x) ⬝ᵥ (p - x))))) (by refine le_trans (le_of_eq ?_) h1; ring) hs0 hs1
  refine le_trans (le_of_eq ?_) h
  rw [den3_seg, smul_dotProduct, dotProduct_smul, smul_eq_mul, smul_eq_mul]
  ring

/-- `t ⊗ v` is on the segment from `0` to `v`. -/
theorem scalar_between {η k t : ℝ} (hη : 0 ≤ η) (hk : k < -1e-8 ∨ 1e-8 < k) (ht0 : 0 ≤ t)
    (ht1 : t ≤ 1) (v : Vec n) : ∃ s : ℝ, 0 ≤ s ∧ s ≤ 1 ∧ mobiusScalarMul η k t v = s • v := by
  obtain ⟨r, hr⟩ : ∃ r, r = max (nrm v) 1e-15 := ⟨_, rfl⟩
  have hp : 0 < r := hr ▸ lt_of_lt_of_le (by norm_num) (le_max_right (nrm v) 1e-15)
  have hk0 : k ≠ 0 := by
    rintro rfl
    rcases hk with h | h <;> norm_num at h
  have hσ := kSqrt_pos hη hk0
  have key : 0 ≤ tanK η k (t * artanK η k r) ∧ tanK η k (t * artanK η k r) ≤ r := by
    rcases hk with hk | hk
    · rw [tanK_neg_curv hk, artanK_neg_curv hk]
      have e : t * ((kSqrt η k)⁻¹ * artanhC (r * kSqrt η k)) * kSqrt η k =
          t * artanhC (r * kSqrt η k) := by field_simp
      rw [e]
      have ha := artanhC_nonneg (mul_pos hp hσ).le
      have hta : 0 ≤ t * artanhC (r * kSqrt η k) := mul_nonneg ht0 ha
      refine ⟨mul_nonneg (inv_nonneg.2 hσ.le) (tanhC_nonneg hta), ?_⟩
      have hle : tanhC (t * artanhC (r * kSqrt η k)) ≤ r * kSqrt η k := by
        have h15 := artanhC_le (r * kSqrt η k)
        have hle' : t * artanhC (r * kSqrt η k) ≤ artanhC (r * kSqrt η k) := by nlinarith
        rw [tanhC_eq (by linarith) (by linarith)]
        refine (tanh_mono hle').trans ?_
        rw [artanhC_eq_artanh, Real.tanh_artanh (clampA_mem _)]
        unfold clamp
        refine (min_le_left _ _).trans (max_le le_rfl ?_)
        have := mul_pos hp hσ
        linarith [show (1e-7 : ℝ) < 1 by norm_num]
      calc (kSqrt η k)⁻¹ * tanhC (t * artanhC (r * kSqrt η k))
          ≤ (kSqrt η k)⁻¹ * (r * kSqrt η k) := mul_le_mul_of_nonneg_left hle (inv_nonneg.2 hσ.le)
        _ = r := by field_simp
    · rw [tanK_pos_curv hk, artanK_pos_curv hk]
      have e : t * ((kSqrt η k)⁻¹ * Real.arctan (r * kSqrt η k)) * kSqrt η k =
          t * Real.arctan (r * kSqrt η k) := by field_simp
      rw [e]
      have ha : 0 ≤ Real.arctan (r * kSqrt η k) := Real.arctan_nonneg.2 (mul_pos hp hσ).le
      have hb := Real.arctan_lt_pi_div_two (r * kSqrt η k)
      have hta : 0 ≤ t * Real.arctan (r * kSqrt η k) := mul_nonneg ht0 ha
      have hle' : t * Real.arctan (r * kSqrt η k) ≤ Real.arctan (r * kSqrt η k) := by nlinarith
      rw [min_eq_left (by linarith [Real.pi_le_four, show (4 : ℝ) / 2 ≤ 1e38 by norm_num])]
      have h1 : 0 ≤ Real.tan (t * Real.arctan (r * kSqrt η k)) :=
        Real.tan_nonneg_of_nonneg_of_le_pi_div_two hta (by linarith)
      have h2 : Real.tan (t * Real.arctan (r * kSqrt η k)) ≤ r * kSqrt η k := by
        have := Real.strictMonoOn_tan.monotoneOn
          (a := t * Real.arctan (r * kSqrt η k)) (b := Real.arctan (r * kSqrt η k))
          ⟨by linarith [Real.pi_pos], by linarith⟩ ⟨by linarith [Real.pi_pos], hb⟩ hle'
        rwa [Real.tan_arctan] at this
      refine ⟨mul_nonneg (inv_nonneg.2 hσ.le) h1, ?_⟩
      calc (kSqrt η k)⁻¹ * Real.tan (t * Real.arctan (r * kSqrt η k))
          ≤ (kSqrt η k)⁻¹ * (r * kSqrt η k) := mul_le_mul_of_nonneg_left h2 (inv_nonneg.2 hσ.le)
        _ = r := by field_simp
  refine ⟨tanK η k (t * artanK η k r) * r⁻¹, mul_nonneg key.1 (inv_nonneg.2 hp.le), ?_, ?_⟩
  · rw [← div_eq_mul_inv, div_le_one hp]; exact key.2
  · show tanK η k (t * artanK η k (max (nrm v) 1e-15)) • ((max (nrm v) 1e-15)⁻¹ • v) = _
    rw [← hr, smul_smul]

theorem den_ge {η k : ℝ} {dt : DType} {x w : Vec n} (hη : 0 ≤ η) (hk : k < 0) (hx : Valid η dt k x)
    (hw : OpenBall k w) : 1e-15 ≤ mobDenom k x w := by
  refine le_trans ?_ (mobDenom_ge hk.le x w)
  have h1 := valid_sq hη hk hx
  have h2 : -k * (w ⬝ᵥ w) < 1 := hw
  have h3 : (-k * (nrm x * nrm w)) ^ 2 ≤ (1 - 1e-5) ^ 2 := by
    have e : (-k * (nrm x * nrm w)) ^ 2 = (-k * (x ⬝ᵥ x)) * (-k * (w ⬝ᵥ w)) := by
      rw [← nrm_sq, ← nrm_sq]; ring
    rw [e]
    have := mul_nonneg (by linarith : (0 : ℝ) ≤ -k) (dot_self_nonneg x)
    nlinarith
  have h4 : -k * (nrm x * nrm w) ≤ 1 - 1e-5 := abs_le_of_sq_le_sq' h3 (by norm_num) |>.2
  have h5 : (1e-5 : ℝ) ≤ 1 + k * (nrm x * nrm w) := by linarith
  have : (1e-5 : ℝ) ^ 2 ≤ (1 + k * (nrm x * nrm w)) ^ 2 := pow_le_pow_left₀ (by norm_num) h5 2
  refine le_trans (by norm_num) this

/-- In the hyperbolic models every ball is convex: along the geodesic from `x` to `y` the distance to any
point is at most the larger one of the distances at the ends. -/
theorem C133_ball {η k : ℝ} {dt : DType} (hη : 0 ≤ η) (hk : k < -1e-8) {p x y : Vec n}
    (hp : Valid η dt k p) (hx : Valid η dt k x) (hy : OpenBall k y) {t : ℝ} (ht0 : 0 ≤ t)
    (ht1 : t ≤ 1) :
    dist η k p (geodesic η k t x y) ≤ max (dist η k p x) (dist η k p y) := by
  have hk0 : k < 0 := by linarith [show (1e-8 : ℝ) > 0 by norm_num]
  have bp := valid_openBall hη hk0 hp
  have bx := valid_openBall hη hk0 hx
  have hP : 0 < 1 + k * (p ⬝ᵥ p) := by have : -k * (p ⬝ᵥ p) < 1 := bp; linarith
  have hX : 0 < 1 + k * (x ⬝ᵥ x) := by have : -k * (x ⬝ᵥ x) < 1 := bx; linarith
  have dxy := den_ge hη hk0 (valid_neg.2 hx) hy
  obtain ⟨v, hv⟩ : ∃ v, v = mAdd k (-x) y := ⟨_, rfl⟩
  have bv : OpenBall k v := hv ▸ openBall_mAdd hk0.le (openBall_neg.2 bx) hy
  obtain ⟨s, hs0, hs1, hs⟩ := scalar_between hη (Or.inl hk) ht0 ht1 v
  have bw : OpenBall k (s • v) := openBall_smul hk0.le hs0 hs1 bv
  have e15 : (0 : ℝ) < 1e-15 := by norm_num
  have dxw := den_ge hη hk0 hx bw
  have dxv := den_ge hη hk0 hx bv
  have hxv : mAdd k x v = y := hv ▸ mAdd_neg_cancel (by linarith) hX.ne'
  have hz : geodesic η k t x y = mAdd k x (s • v) := by
    rw [geodesic, mobiusAdd_eq dxy, ← hv, hs, mobiusAdd_eq dxw]
  have bz : OpenBall k (mAdd k x (s • v)) := openBall_mAdd hk0.le bx bw
  have dpz := den_ge hη hk0 (valid_neg.2 hp) bz
  have dpx := den_ge hη hk0 (valid_neg.2 hp) bx
  have dpy := den_ge hη hk0 (valid_neg.2 hp) hy
  have pos3 : ∀ {w : Vec n}, 1e-15 ≤ mobDenom k x w → 1e-15 ≤ mobDenom k (-p) (mAdd k x w) →
      0 < den3 k (-p) x w := by
    intro w h1 h2
    rw [den3_left (by linarith)] at h2
    have h3 : 0 < mobDenom k x w := by linarith
    exact (div_pos_iff_of_pos_right h3).1 (by linarith)
  have p3w := pos3 dxw dpz
  have p3v := pos3 dxv (by rw [hxv]; exact dpy)
  -- the three distances
  unfold Stereo.dist
  rw [hz, mobiusAdd_eq dpz, mobiusAdd_eq dpx, mobiusAdd_eq dpy]
  have hR : nrm (mAdd k (-p) (mAdd k x (s • v))) ≤ max (nrm (mAdd k (-p) x)) (nrm (mAdd k (-p) y)) := by
    obtain ⟨R, hR⟩ : ∃ R, R = max (nrm (mAdd k (-p) x)) (nrm (mAdd k (-p) y)) := ⟨_, rfl⟩
    rw [← hR]
    have hR1 : nrm (mAdd k (-p) x) ≤ R := hR ▸ le_max_left _ _
    have hR2 : nrm (mAdd k (-p) y) ≤ R := hR ▸ le_max_right _ _
    have hR0 : 0 ≤ R := (nrm_nonneg _).trans hR1
    have sq : ∀ {a : Vec n}, nrm a ≤ R → 1 + k * R ^ 2 ≤ 1 + k * (a ⬝ᵥ a) := by
      intro a ha
      have : a ⬝ᵥ a ≤ R ^ 2 := by rw [← nrm_sq]; exact pow_le_pow_left₀ (nrm_nonneg _) ha 2
      nlinarith
    have hρ : 0 < 1 + k * R ^ 2 := by
      have hb : ∀ {a : Vec n}, OpenBall k a → 0 < 1 + k * nrm a ^ 2 := by
        intro a ha
        have : -k * (a ⬝ᵥ a) < 1 := ha
        rw [nrm_sq]; linarith
      rw [hR]
      rcases max_choice (nrm (mAdd k (-p) x)) (nrm (mAdd k (-p) y)) with h | h <;> rw [h]
      · exact hb (openBall_mAdd hk0.le (openBall_neg.2 bp) bx)
      · exact hb (openBall_mAdd hk0.le (openBall_neg.2 bp) hy)
    have e0 := one_add_mAdd_self (k := k) (x := -p) (y := x) (by linarith)
    have e1 := one_add_three (k := k) (p := p) (x := x) (w := v) (by linarith) p3v.ne'
    have es := one_add_three (k := k) (p := p) (x := x) (w := s • v) (by linarith) p3w.ne'
    rw [hxv] at e1
    simp only [neg_dotProduct, dotProduct_neg, neg_neg] at e0
    have c0 := sq hR1
    have c1 := sq hR2
    rw [e0, le_div_iff₀ (by linarith)] at c0
    rw [e1, le_div_iff₀ p3v] at c1
    have hvv := dot_self_nonneg v
    have hpx := dot_self_nonneg (p - x)
    have := core (σ := -1) (k := k) (ρ := 1 + k * R ^ 2) (s := s) (p := p) (x := x) (v := v) (by
      have a1 : 0 ≤ (1 + k * (p ⬝ᵥ p)) * (1 + k * (x ⬝ᵥ x)) * -k * (v ⬝ᵥ v) :=
        mul_nonneg (mul_nonneg (mul_pos hP hX).le (by linarith)) hvv
      have a2 : 0 ≤ (1 + k * R ^ 2) * (k ^ 2 * (v ⬝ᵥ v) * ((p - x) ⬝ᵥ (p - x))) := by positivity
      linarith) (by linarith) (by linarith) hs0 hs1
    rw [nrm_le_iff hR0]
    have h3 : 1 + k * R ^ 2 ≤ 1 + k * (mAdd k (-p) (mAdd k x (s • v)) ⬝ᵥ mAdd k (-p) (mAdd k x (s • v))) := by
      rw [es, le_div_iff₀ p3w]; linarith
    nlinarith
  have hσ := kSqrt_pos hη hk0.ne
  have mono : ∀ {a b : ℝ}, a ≤ b → 2.0 * artanK η k a ≤ 2.0 * artanK η k b := by
    intro a b h
    rw [artanK_neg_curv hk, artanK_neg_curv hk]
    have := artanhC_mono (mul_le_mul_of_nonneg_right h hσ.le)
    have := mul_le_mul_of_nonneg_left this (inv_nonneg.2 hσ.le)
    linarith
  rcases le_max_iff.1 hR with h | h
  · exact le_max_of_le_left (mono h)
  · exact le_max_of_le_right (mono h)

/-- Three different points of the Poincaré disk. -/
example : Valid codeEta .f32 (-1) (![1 / 2, 0] : Vec 2) ∧ Valid codeEta .f32 (-1) (![0, 1 / 2] : Vec 2) ∧
    OpenBall (-1) (![1 / 2, 1 / 2] : Vec 2) := by
  refine ⟨valid_of_sq codeEta_nonneg (by norm_num) ?_, valid_of_sq codeEta_nonneg (by norm_num) ?_, ?_⟩ <;>
    norm_num [dotProduct, Fin.sum_univ_two, projEps, codeEta, OpenBall]

/-- For positive curvature, balls of radius up to a quarter of a great circle are convex, as long as no
divisor is below the floor `1e-15` (the points involved are not antipodal and the point of the geodesic is
not at infinity). -/
theorem C133_projected_sphere {η k : ℝ} (hη : 0 ≤ η) (hk : 1e-8 < k) {p x y : Vec n}
    (dxy : 1e-15 ≤ mobDenom k (-x) y) (dpx : 1e-15 ≤ mobDenom k (-p) x)
    (dpy : 1e-15 ≤ mobDenom k (-p) y) {t : ℝ} (ht0 : 0 ≤ t) (ht1 : t ≤ 1)
    (dxw : 1e-15 ≤ mobDenom k x (mobiusScalarMul η k t (mobiusAdd k (-x) y))) {r : ℝ}
    (hr : r ≤ Real.pi / (2 * Real.sqrt (|k| + η))) (h0 : dist η k p x ≤ r) (h1 : dist η k p y ≤ r) :
    dist η k p (geodesic η k t x y) ≤ r := by
  have hk0 : 0 < k := lt_trans (by norm_num) hk
  have hP : 0 < 1 + k * (p ⬝ᵥ p) := by have := dot_self_nonneg p; positivity
  have hX : 0 < 1 + k * (x ⬝ᵥ x) := by have := dot_self_nonneg x; positivity
  have e15 : (0 : ℝ) < 1e-15 := by norm_num
  obtain ⟨v, hv⟩ : ∃ v, v = mAdd k (-x) y := ⟨_, rfl⟩
  obtain ⟨s, hs0, hs1, hs⟩ := scalar_between hη (Or.inr hk) ht0 ht1 v
  rw [mobiusAdd_eq dxy, ← hv, hs] at dxw
  have hxv : mAdd k x v = y := hv ▸ mAdd_neg_cancel (by linarith) hX.ne'
  have dxv : 0 < mobDenom k x v := by
    have := mobDenom_neg_mAdd (k := k) (x := -x) (y := y) (by linarith)
    rw [neg_neg, ← hv, neg_dotProduct, dotProduct_neg, neg_neg] at this
    rw [this]
    exact div_pos (pow_pos hX 2) (by linarith)
  have hz : geodesic η k t x y = mAdd k x (s • v) := by
    rw [geodesic, mobiusAdd_eq dxy, ← hv, hs, mobiusAdd_eq dxw]
  have p3v : 0 < den3 k (-p) x v := by
    have h2 := dpy
    rw [← hxv, den3_left dxv.ne'] at h2
    exact (div_pos_iff_of_pos_right dxv).1 (by linarith)
  -- the radius
  have hσ := kSqrt_pos hη hk0.ne'
  have hσ2 := kSqrt_sq hη k
  rw [abs_of_pos hk0] at hσ2
  obtain ⟨R, hR⟩ : ∃ R, R = max (nrm (mAdd k (-p) x)) (nrm (mAdd k (-p) y)) := ⟨_, rfl⟩
  have hR1 : nrm (mAdd k (-p) x) ≤ R := hR ▸ le_max_left _ _
  have hR2 : nrm (mAdd k (-p) y) ≤ R := hR ▸ le_max_right _ _
  have hR0 : 0 ≤ R := (nrm_nonneg _).trans hR1
  have hdR : 2.0 * artanK η k R ≤ r := by
    unfold Stereo.dist at h0 h1
    rw [mobiusAdd_eq dpx] at h0
    rw [mobiusAdd_eq dpy] at h1
    rw [hR]
    rcases max_choice (nrm (mAdd k (-p) x)) (nrm (mAdd k (-p) y)) with h | h <;> rw [h] <;> assumption
  have hkR : k * R ^ 2 ≤ 1 := by
    have h2 := hdR.trans hr
    rw [artanK_pos_curv hk, show (2.0 : ℝ) = 2 by norm_num] at h2
    have h3 : Real.arctan (R * kSqrt η k) ≤ Real.arctan 1 := by
      rw [Real.arctan_one]
      have e : Real.pi / (2 * Real.sqrt (|k| + η)) = 2 * ((kSqrt η k)⁻¹ * (Real.pi / 4)) := by
        show Real.pi / (2 * kSqrt η k) = _
        field_simp; ring
      rw [e] at h2
      exact le_of_mul_le_mul_left (by linarith) (inv_pos.2 hσ)
    have h4 : R * kSqrt η k ≤ 1 := Real.arctan_strictMono.le_iff_le.1 h3
    have h5 : (R * kSqrt η k) ^ 2 ≤ 1 := pow_le_one₀ (mul_nonneg hR0 hσ.le) h4
    rw [mul_pow, hσ2] at h5
    nlinarith [mul_nonneg hη (sq_nonneg R)]
  have sq : ∀ {a : Vec n}, nrm a ≤ R → 1 + k * (a ⬝ᵥ a) ≤ 1 + k * R ^ 2 := by
    intro a ha
    have : a ⬝ᵥ a ≤ R ^ 2 := by rw [← nrm_sq]; exact pow_le_pow_left₀ (nrm_nonneg _) ha 2
    nlinarith
  have e0 := one_add_mAdd_self (k := k) (x := -p) (y := x) (by linarith)
  have e1 := one_add_three (k := k) (p := p) (x := x) (w := v) dxv.ne' p3v.ne'
  rw [hxv] at e1
  simp only [neg_dotProduct, dotProduct_neg, neg_neg] at e0
  have c0 := sq hR1
  have c1 := sq hR2
  rw [e0, div_le_iff₀ (by linarith)] at c0
  rw [e1, div_le_iff₀ p3v] at c1
  have hvv := dot_self_nonneg v
  have hww := dot_self_nonneg (s • v)
  have hρ : 0 < 1 + k * R ^ 2 := by positivity
  have hgap : (1 + k * R ^ 2) * (k * ((p - x) ⬝ᵥ (p - x))) ≤ (1 + k * (p ⬝ᵥ p)) * (1 + k * (x ⬝ᵥ x)) := by
    -- `k |p - x|² = k |-p ⊕ x|² D ≤ k R² D`
    have hm := mAdd_self (k := k) (x := -p) (y := x) (by linarith)
    have hn : nrm (mAdd k (-p) x) ^ 2 ≤ R ^ 2 := pow_le_pow_left₀ (nrm_nonneg _) hR1 2
    rw [nrm_sq, hm, div_le_iff₀ (by linarith)] at hn
    have e2 : -p ⬝ᵥ -p + 2 * (-p ⬝ᵥ x) + x ⬝ᵥ x = (p - x) ⬝ᵥ (p - x) := by
      dots; rw [dotProduct_comm x p]; ring
    rw [e2] at hn
    have e3 : (1 + k * (p ⬝ᵥ p)) * (1 + k * (x ⬝ᵥ x)) = mobDenom k (-p) x + k * ((p - x) ⬝ᵥ (p - x)) := by
      unfold mobDenom; dots; rw [dotProduct_comm x p]; ring
    rw [e3]
    obtain ⟨q, hq⟩ : ∃ q, q = k * ((p - x) ⬝ᵥ (p - x)) := ⟨_, rfl⟩
    have hqD : q ≤ k * R ^ 2 * mobDenom k (-p) x := by rw [hq]; nlinarith
    rw [← hq]
    have hD : 0 < mobDenom k (-p) x := by linarith
    have h6 : k * R ^ 2 * q ≤ mobDenom k (-p) x := by
      have hnn : 0 ≤ k * R ^ 2 := by positivity
      calc k * R ^ 2 * q ≤ k * R ^ 2 * (k * R ^ 2 * mobDenom k (-p) x) :=
            mul_le_mul_of_nonneg_left hqD hnn
        _ = (k * R ^ 2) ^ 2 * mobDenom k (-p) x := by ring
        _ ≤ 1 * mobDenom k (-p) x := mul_le_mul_of_nonneg_right (pow_le_one₀ hnn hkR) hD.le
        _ = _ := one_mul _
    linarith
  have hc := core (σ := 1) (k := k) (ρ := 1 + k * R ^ 2) (s := s) (p := p) (x := x) (v := v) (by
    have := mul_nonneg (mul_nonneg hk0.le hvv) (sub_nonneg.2 hgap)
    refine le_trans this (le_of_eq ?_)
    ring) (by linarith) (by linarith) hs0 hs1
  have hPXW : 0 < (1 + k * (p ⬝ᵥ p)) * (1 + k * (x ⬝ᵥ x)) * (1 + k * ((s • v) ⬝ᵥ (s • v))) := by
    positivity
  have p3w : 0 < den3 k (-p) x (s • v) := by
    by_contra h
    have := mul_nonpos_of_nonneg_of_nonpos hρ.le (not_lt.1 h)
    linarith
  have es := one_add_three (k := k) (p := p) (x := x) (w := s • v) (by linarith) p3w.ne'
  have hfin : 1 + k * (mAdd k (-p) (mAdd k x (s • v)) ⬝ᵥ mAdd k (-p) (mAdd k x (s • v))) ≤
      1 + k * R ^ 2 := by
    rw [es, div_le_iff₀ p3w]; linarith
  have dpz0 : 0 < mobDenom k (-p) (mAdd k x (s • v)) := by
    rw [den3_left (by linarith)]; exact div_pos p3w (by linarith)
  have dpz : 1e-15 ≤ mobDenom k (-p) (mAdd k x (s • v)) := by
    have ez := one_add_mAdd_self dpz0.ne'
    rw [ez, div_le_iff₀ dpz0] at hfin
    have h7 : 1 ≤ (1 + k * (-p ⬝ᵥ -p)) * (1 + k * (mAdd k x (s • v) ⬝ᵥ mAdd k x (s • v))) := by
      have a1 : 1 ≤ 1 + k * (-p ⬝ᵥ -p) := by
        have := mul_nonneg hk0.le (dot_self_nonneg (-p)); linarith
      have a2 : 1 ≤ 1 + k * (mAdd k x (s • v) ⬝ᵥ mAdd k x (s • v)) := by
        have := mul_nonneg hk0.le (dot_self_nonneg (mAdd k x (s • v))); linarith
      exact one_le_mul_of_one_le_of_one_le a1 a2
    have h8 : 1 ≤ 2 * mobDenom k (-p) (mAdd k x (s • v)) :=
      (h7.trans hfin).trans (mul_le_mul_of_nonneg_right (by linarith) dpz0.le)
    linarith [show (1e-15 : ℝ) ≤ 1 / 2 by norm_num]
  unfold Stereo.dist
  rw [hz, mobiusAdd_eq dpz]
  refine le_trans ?_ hdR
  have hnR : nrm (mAdd k (-p) (mAdd k x (s • v))) ≤ R := by
    rw [nrm_le_iff hR0]
    exact le_of_mul_le_mul_left (by linarith) hk0
  rw [artanK_pos_curv hk, artanK_pos_curv hk]
  have h9 := Real.arctan_strictMono.monotone (mul_le_mul_of_nonneg_right hnR hσ.le)
  have := mul_le_mul_of_nonneg_left h9 (inv_nonneg.2 hσ.le)
  linarith

/-- Three points on a sphere that meet the hypotheses for all times. -/
example (t : ℝ) : ∃ p x y : Vec 2, p ≠ x ∧ p ≠ y ∧ x ≠ y ∧ 1e-15 ≤ mobDenom 1 (-x) y ∧
    1e-15 ≤ mobDenom 1 (-p) x ∧ 1e-15 ≤ mobDenom 1 (-p) y ∧
    1e-15 ≤ mobDenom 1 x (mobiusScalarMul 0 1 t (mobiusAdd 1 (-x) y)) ∧
    Stereo.dist 0 1 p x ≤ Real.pi / (2 * Real.sqrt (|1| + 0)) ∧
    Stereo.dist 0 1 p y ≤ Real.pi / (2 * Real.sqrt (|1| + 0)) := by
  have key : ∀ p y : Vec 2, 1e-15 ≤ mobDenom 1 (-p) y →
      -p ⬝ᵥ -p + 2 * (-p ⬝ᵥ y) + y ⬝ᵥ y ≤ mobDenom 1 (-p) y →
      Stereo.dist 0 1 p y ≤ Real.pi / (2 * Real.sqrt (|1| + 0)) := by
    intro p y h h2
    have h0 : 0 < mobDenom 1 (-p) y := lt_of_lt_of_le (by norm_num) h
    rw [Stereo.dist, mobiusAdd_eq h, artanK_pos_curv (by norm_num)]
    have h3 : nrm (mAdd 1 (-p) y) ≤ 1 := by
      rw [nrm_le_iff zero_le_one, mAdd_self h0.ne', div_le_iff₀ h0]; linarith
    have h4 : kSqrt 0 1 = 1 := by unfold kSqrt sabs; simp
    have h5 := Real.arctan_strictMono.monotone h3
    rw [Real.arctan_one] at h5
    rw [h4, abs_one, add_zero, Real.sqrt_one, show (2.0 : ℝ) = 2 by norm_num]
    rw [inv_one, one_mul, mul_one]
    linarith
  refine ⟨![1 / 2, 0], 0, ![0, 1 / 2], ?_, ?_, ?_, ?_, ?_, ?_, ?_, key _ _ ?_ ?_, key _ _ ?_ ?_⟩
  · intro h; have := congrFun h 0; simp at this
  · intro h; have := congrFun h 0; simp at this
  · intro h; have := congrFun h 1; simp at this
  all_goals norm_num [mobDenom, dotProduct, Fin.sum_univ_two]

end stereo
end Geoopt.C133
