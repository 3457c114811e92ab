import Verif.Lemmas.Target
import Verif.Props.C106
import Verif.Props.C112
import Mathlib.Analysis.SpecialFunctions.Trigonometric.Arctan

/-!
# C113 training on the squared distance to a target converges at a linear rate

`RiemannianSGD` on the loss `dist(x, y)²` moves `x` along the geodesic to `y`, because the gradient is
`-2 · log_x(y)` (C112).  A step with learning rate `lr` covers the fraction `2·lr` of the way, so the distance
is multiplied by `|1 - 2·lr|` until the clamps inside `dist` take over.
-/

namespace Geoopt
open Matrix Filter Topology Geoopt.Optim
variable {n : ℕ}

namespace Sphere
variable {S : Set (Vec n)} {P : Option (Matrix (Fin n) (Fin n) ℝ)} (hP : Projects S P)

lemma sqrt_eps_le (dt : DType) : Real.sqrt (2 * eps dt) ≤ Real.arccos (1 - eps dt) := by
  have h0 := eps_pos dt
  have h4 := eps_small dt
  have hs : 0 ≤ Real.sqrt (2 * eps dt) := Real.sqrt_nonneg _
  have hsq : Real.sqrt (2 * eps dt) ^ 2 = 2 * eps dt := Real.sq_sqrt (by linarith)
  have h1 : Real.sqrt (2 * eps dt) ≤ Real.pi := by
    refine le_trans ?_ Real.pi_gt_three.le
    rw [Real.sqrt_le_left (by norm_num)]
    norm_num at h4 ⊢; linarith
  have hc := Real.one_sub_sq_div_two_le_cos (x := Real.sqrt (2 * eps dt))
  rw [hsq] at hc
  rw [← Real.arccos_cos hs h1]
  exact Real.arccos_le_arccos (by linarith)

/-- where the clamp switches, the squared distance has no gradient -/
lemma no_grad_at_clamp {dt : DType} {x y g : Vec n} (hy : y ⬝ᵥ y = 1) (h : x ⬝ᵥ y = 1 - eps dt) :
    ¬ HasGrad (fun z => dist dt z y ^ 2) g x := by
  intro hg
  have h0 := eps_pos dt
  have h4 := eps_small dt
  have h4' : eps dt < 1 / 2 := by norm_num at h4 ⊢; linarith
  have hcurve : HasDerivAt (fun s : ℝ => x + s • y) y 0 := by
    have := ((hasDerivAt_id (0:ℝ)).smul_const y).const_add x
    simpa using this
  have hd : HasDerivAt (fun s : ℝ => dist dt (x + s • y) y ^ 2) (dotL g y) 0 := by
    have h1 := hasGrad_iff.1 hg
    have h2 : HasFDerivAt (fun z => dist dt z y ^ 2) (dotL g) (x + (0:ℝ) • y) := by
      rwa [zero_smul, add_zero]
    exact h2.comp_hasDerivAt 0 hcurve
  have hin : ∀ s : ℝ, (x + s • y) ⬝ᵥ y = 1 - eps dt + s := fun s => by
    rw [add_dotProduct, smul_dotProduct, hy, h]; simp
  -- from the right: constant
  have hr : HasDerivWithinAt (fun s : ℝ => dist dt (x + s • y) y ^ 2) 0 (Set.Ici 0) 0 := by
    refine (hasDerivWithinAt_const (0:ℝ) (Set.Ici 0) (Real.arccos (1 - eps dt) ^ 2)).congr ?_ ?_
    · intro s hs
      rw [Set.mem_Ici] at hs
      rw [dist, inner, hin, clamp, max_eq_left (by linarith), min_eq_right (by linarith)]
    · rw [dist, inner, hin, clamp, max_eq_left (by linarith), min_eq_right (by linarith)]
  -- from the left: the arccosine
  have hl : HasDerivWithinAt (fun s : ℝ => dist dt (x + s • y) y ^ 2)
      (2 * Real.arccos (1 - eps dt) * (-(1 / Real.sqrt (1 - (1 - eps dt) ^ 2)))) (Set.Iic 0) 0 := by
    have ha : HasDerivAt (fun s : ℝ => 1 - eps dt + s) 1 0 := by
      simpa using (hasDerivAt_id (0:ℝ)).const_add (1 - eps dt)
    have hb := Real.hasDerivAt_arccos (x := 1 - eps dt + 0) (by linarith) (by linarith)
    have hc := ((hb.comp (0:ℝ) ha).pow 2).hasDerivWithinAt (s := Set.Iic 0)
    rw [add_zero] at hc
    have hn : Set.Iic (0:ℝ) ∩ Set.Ici (-1 / 2) ∈ 𝓝[Set.Iic 0] (0:ℝ) :=
      inter_mem_nhdsWithin _ (Ici_mem_nhds (by norm_num))
    refine ((hc.congr_of_eventuallyEq (f₁ := fun s : ℝ => dist dt (x + s • y) y ^ 2) ?_ ?_)).congr_deriv ?_
    · filter_upwards [hn] with s hs
      have hs1 : s ≤ 0 := hs.1
      have hs2 : -1 / 2 ≤ s := hs.2
      simp only [Function.comp, Pi.pow_apply]
      rw [dist, inner, hin, clamp, max_eq_left (by linarith), min_eq_left (by linarith)]
    · simp only [Function.comp, Pi.pow_apply]
      rw [dist, inner, hin, clamp, max_eq_left (by linarith), min_eq_left (by linarith)]
    · simp [Function.comp]
  have e1 := (uniqueDiffWithinAt_Ici (0:ℝ)).eq_deriv _ hd.hasDerivWithinAt hr
  have e2 := (uniqueDiffWithinAt_Iic (0:ℝ)).eq_deriv _ hd.hasDerivWithinAt hl
  rw [e1] at e2
  have hap : 0 < Real.arccos (1 - eps dt) := Real.arccos_pos.2 (by linarith)
  have hsp : 0 < Real.sqrt (1 - (1 - eps dt) ^ 2) := Real.sqrt_pos.2 (by nlinarith)
  have : 0 < 2 * Real.arccos (1 - eps dt) * (1 / Real.sqrt (1 - (1 - eps dt) ^ 2)) := by positivity
  linarith

/-- what `arccos` does to the clamp -/
lemma dist_eq_max {dt : DType} {x y : Vec n} (h : -1 + eps dt ≤ x ⬝ᵥ y) :
    dist dt x y = max (Real.arccos (x ⬝ᵥ y)) (Real.arccos (1 - eps dt)) := by
  rw [dist, inner, clamp, max_eq_left h]
  rcases le_total (x ⬝ᵥ y) (1 - eps dt) with h' | h'
  · rw [min_eq_left h', max_eq_left (Real.arccos_le_arccos h')]
  · rw [min_eq_right h', max_eq_right (Real.arccos_le_arccos h')]

/-- the dot products that determine the step -/
lemma log_facts {dt : DType} {x y : Vec n} (hx : OnSphere S x) (hy : OnSphere S y)
    (h : |x ⬝ᵥ y| ≤ 1 - eps dt) (hP : Projects S P) :
    x ⬝ᵥ y = Real.cos (Real.arccos (x ⬝ᵥ y)) ∧
    logmap P dt x y ⬝ᵥ y = Real.arccos (x ⬝ᵥ y) * Real.sin (Real.arccos (x ⬝ᵥ y)) := by
  have h1 := abs_le.1 (abs_dot_le_one hx.1 hy.1)
  have hsp : 0 < Real.sin (Real.arccos (x ⬝ᵥ y)) := lt_of_lt_of_le (eps_pos dt) (acos_sin_ge h)
  have hc := Real.cos_arccos h1.1 h1.2
  refine ⟨hc.symm, ?_⟩
  rw [logmap_value hP hx hy h, smul_dotProduct, sub_dotProduct, smul_dotProduct, hy.1, smul_eq_mul,
    smul_eq_mul]
  have hss := Real.sin_sq_add_cos_sq (Real.arccos (x ⬝ᵥ y))
  rw [hc] at hss
  have : 1 - x ⬝ᵥ y * x ⬝ᵥ y = Real.sin (Real.arccos (x ⬝ᵥ y)) ^ 2 := by linarith
  rw [this]
  field_simp

include hP in
/-- the default retraction turns by `arctan` of the length -/
lemma retr_log_dot {dt : DType} {x y : Vec n} (hx : OnSphere S x) (hy : OnSphere S y)
    (h : |x ⬝ᵥ y| ≤ 1 - eps dt) (s : ℝ) (hs : 0 ≤ s) :
    retr P x (s • logmap P dt x y) ⬝ᵥ y =
      Real.cos (Real.arccos (x ⬝ᵥ y) - Real.arctan (s * Real.arccos (x ⬝ᵥ y))) := by
  obtain ⟨f1, f2⟩ := log_facts hx hy h hP
  have hl := C22_log_tangent hP dt hx y
  have hu : Tangent S x (s • logmap P dt x y) :=
    ⟨by rw [dotProduct_smul, hl.1, smul_zero], smul_mem hP hl.2 _⟩
  have hm : x + s • logmap P dt x y ∈ S := add_mem hP hx.2 hu.2
  have hnl : nrm (logmap P dt x y) = Real.arccos (x ⬝ᵥ y) := by
    rw [C22_norm_log hP hx hy h, C22_dist_eq_arccos h]
  have hn : nrm (x + s • logmap P dt x y) = Real.sqrt (1 + (s * Real.arccos (x ⬝ᵥ y)) ^ 2) := by
    have hxu := hu.1
    have hnu : nrm (s • logmap P dt x y) = s * Real.arccos (x ⬝ᵥ y) := by
      rw [nrm_smul, hnl, abs_of_nonneg hs]
    rw [← hnu, nrm_sq]
    unfold nrm
    congr 1
    rw [add_dotProduct, dotProduct_add, dotProduct_add, hx.1, hxu, dotProduct_comm _ x, hxu]
    ring
  rw [retr, projx, pos_fix hP hm, hn, smul_dotProduct, add_dotProduct, smul_dotProduct, f2,
    Real.cos_sub, Real.cos_arctan, Real.sin_arctan, ← f1]
  simp only [smul_eq_mul]
  have : 0 < Real.sqrt (1 + (s * Real.arccos (x ⬝ᵥ y)) ^ 2) := Real.sqrt_pos.2 (by positivity)
  field_simp

include hP in
/-- the exponential map turns by the length -/
lemma exp_log_dot {dt : DType} {x y : Vec n} (hx : OnSphere S x) (hy : OnSphere S y)
    (h : |x ⬝ᵥ y| ≤ 1 - eps dt) {s : ℝ} (hs : 0 ≤ s) (hb : eps dt < s * Real.arccos (x ⬝ᵥ y)) :
    expmap P dt x (s • logmap P dt x y) ⬝ᵥ y =
      Real.cos (Real.arccos (x ⬝ᵥ y) - s * Real.arccos (x ⬝ᵥ y)) := by
  obtain ⟨f1, f2⟩ := log_facts hx hy h hP
  have hnu : nrm (s • logmap P dt x y) = s * Real.arccos (x ⬝ᵥ y) := by
    rw [nrm_smul, C22_norm_log hP hx hy h, C22_dist_eq_arccos h, abs_of_nonneg hs]
  have hpos : 0 < s * Real.arccos (x ⬝ᵥ y) := (eps_pos dt).trans hb
  rw [expmap, hnu, if_pos hb, add_dotProduct, smul_dotProduct, smul_dotProduct, smul_dotProduct, f2,
    Real.cos_sub, ← f1]
  simp only [smul_eq_mul]
  have hne := hpos.ne'
  have : Real.sin (s * Real.arccos (x ⬝ᵥ y)) / (s * Real.arccos (x ⬝ᵥ y)) *
      (s * (Real.arccos (x ⬝ᵥ y) * Real.sin (Real.arccos (x ⬝ᵥ y)))) =
      Real.sin (Real.arccos (x ⬝ᵥ y)) * Real.sin (s * Real.arccos (x ⬝ᵥ y)) := by
    rw [← mul_assoc s]
    generalize s * Real.arccos (x ⬝ᵥ y) = a at hne ⊢
    field_simp
  rw [this]; ring

include hP in
/-- **C113, `SphereExact`, one step.**  Where the clamp of `dist` is inactive a step of `RiemannianSGD` with
learning rate `0 < lr < 1` (not so small that the step is below the threshold of `expmap`) on the squared
distance to `y` multiplies the distance by `|1 - 2·lr|`, down to the smallest value `dist` can return. -/
theorem C113_sphere_exact_step {dt : DType} {x y : Vec n} (hx : OnSphere S x) (hy : OnSphere S y)
    (h : |x ⬝ᵥ y| < 1 - eps dt) {g : Vec n} (hg : HasGrad (fun z => dist dt z y ^ 2) g x) {lr : ℝ}
    (h0 : 0 < lr) (h1 : lr < 1) (hb : eps dt < 2 * lr * dist dt x y) :
    OnSphere S (Exact.retr P dt x (-lr • egrad2rgrad P x g)) ∧
    Real.arccos (Exact.retr P dt x (-lr • egrad2rgrad P x g) ⬝ᵥ y) =
      |1 - 2 * lr| * Real.arccos (x ⬝ᵥ y) ∧
    dist dt (Exact.retr P dt x (-lr • egrad2rgrad P x g)) y =
      max (|1 - 2 * lr| * dist dt x y) (Real.arccos (1 - eps dt)) := by
  obtain ⟨g', hg', e⟩ := C112_sphere hP (dt := dt) hx hy h
  cases hg.unique hg'
  have e' : -lr • egrad2rgrad P x g = (2 * lr) • logmap P dt x y := by
    rw [e, smul_smul]; congr 1; ring
  rw [e']
  have hl := C22_log_tangent hP dt hx y
  have hu : Tangent S x ((2 * lr) • logmap P dt x y) :=
    ⟨by rw [dotProduct_smul, hl.1, smul_zero], smul_mem hP hl.2 _⟩
  have hd := C22_dist_eq_arccos h.le
  rw [hd] at hb
  have hdot := exp_log_dot hP hx hy h.le (by linarith : 0 ≤ 2 * lr) hb
  have hθ0 := Real.arccos_nonneg (x ⬝ᵥ y)
  have hθ1 := Real.arccos_le_pi (x ⬝ᵥ y)
  have habs : |1 - 2 * lr| ≤ 1 := abs_le.2 ⟨by linarith, by linarith⟩
  have hang : Real.arccos (Exact.retr P dt x ((2 * lr) • logmap P dt x y) ⬝ᵥ y) =
      |1 - 2 * lr| * Real.arccos (x ⬝ᵥ y) := by
    rw [Exact.retr, hdot, ← one_sub_mul, ← Real.cos_abs, abs_mul, abs_of_nonneg hθ0]
    exact Real.arccos_cos (by positivity) ((mul_le_of_le_one_left hθ0 habs).trans hθ1)
  refine ⟨(C20_expmap_on_sphere hP dt hx hu).2, hang, ?_⟩
  rw [dist_eq_max, hang, hd]
  -- the new point is not in the clamp around the antipode
  have h2 : Real.cos (Real.arccos (x ⬝ᵥ y)) ≤ Real.cos (|1 - 2 * lr| * Real.arccos (x ⬝ᵥ y)) :=
    Real.cos_le_cos_of_nonneg_of_le_pi (by positivity) hθ1 (mul_le_of_le_one_left hθ0 habs)
  rw [Exact.retr, hdot, ← one_sub_mul, ← Real.cos_abs, abs_mul, abs_of_nonneg hθ0]
  have h3 := abs_lt.1 h
  have h4 := abs_le.1 (abs_dot_le_one hx.1 hy.1)
  rw [Real.cos_arccos h4.1 h4.2] at h2
  linarith

include hP in
/-- inside the clamp the gradient vanishes and the point stays -/
lemma stays {dt : DType} {x y g : Vec n} (hx : OnSphere S x) (h : 1 - eps dt < x ⬝ᵥ y)
    (hg : HasGrad (fun z => dist dt z y ^ 2) g x) (lr : ℝ) :
    retr P x (-lr • egrad2rgrad P x g) = x ∧ Exact.retr P dt x (-lr • egrad2rgrad P x g) = x := by
  cases hg.unique (C112_counterexample_sphere h)
  have e : -lr • egrad2rgrad P x 0 = (0 : Vec n) := by
    have h0 := pos_linear (P := P) 0 0 (0 : Vec n) 0
    simp only [zero_smul, add_zero] at h0
    rw [egrad2rgrad, proju, dotProduct_zero, zero_smul, sub_zero, h0, smul_zero]
  have hr : retr P x 0 = x := by rw [retr, add_zero, C20_projx_fixes hP hx]
  have hn : ¬ nrm (0 : Vec n) > eps dt := by rw [nrm_zero]; exact (eps_pos dt).le.not_gt
  rw [e]
  exact ⟨hr, by rw [Exact.retr, expmap, if_neg hn, add_zero, C20_projx_fixes hP hx]⟩

/-- the induction shared by both spheres -/
lemma run {dt : DType} {y : Vec n} (hy : OnSphere S y) {ρ : ℝ} (hρ0 : 0 ≤ ρ) (hρ1 : ρ ≤ 1)
    {x : ℕ → Vec n} (hx : OnSphere S (x 0)) (hanti : -1 + eps dt < x 0 ⬝ᵥ y)
    (hstep : ∀ t, OnSphere S (x t) → |x t ⬝ᵥ y| < 1 - eps dt →
      OnSphere S (x (t + 1)) ∧ Real.arccos (x (t + 1) ⬝ᵥ y) ≤ ρ * Real.arccos (x t ⬝ᵥ y))
    (hclamp : ∀ t, OnSphere S (x t) → 1 - eps dt ≤ x t ⬝ᵥ y → x (t + 1) = x t) (t : ℕ) :
    OnSphere S (x t) ∧
    dist dt (x t) y ≤ max (ρ ^ t * dist dt (x 0) y) (Real.arccos (1 - eps dt)) := by
  have h0 := eps_pos dt
  have h4 := eps_small dt
  have h4' : eps dt < 1 / 2 := by norm_num at h4 ⊢; linarith
  have hinv : ∀ t, OnSphere S (x t) ∧ -1 + eps dt < x t ⬝ᵥ y := by
    intro t
    induction t with
    | zero => exact ⟨hx, hanti⟩
    | succ t ih =>
      rcases lt_or_ge (x t ⬝ᵥ y) (1 - eps dt) with h | h
      · have hab : |x t ⬝ᵥ y| < 1 - eps dt := abs_lt.2 ⟨by linarith [ih.2], h⟩
        obtain ⟨k1, k2⟩ := hstep t ih.1 hab
        refine ⟨k1, ?_⟩
        have hle : Real.arccos (x (t + 1) ⬝ᵥ y) ≤ Real.arccos (x t ⬝ᵥ y) :=
          k2.trans (mul_le_of_le_one_left (Real.arccos_nonneg _) hρ1)
        have b1 := abs_le.1 (abs_dot_le_one k1.1 hy.1)
        have b2 := abs_le.1 (abs_dot_le_one ih.1.1 hy.1)
        have := Real.cos_le_cos_of_nonneg_of_le_pi (Real.arccos_nonneg _) (Real.arccos_le_pi _) hle
        rw [Real.cos_arccos b1.1 b1.2, Real.cos_arccos b2.1 b2.2] at this
        linarith [ih.2]
      · rw [hclamp t ih.1 h]; exact ih
  refine ⟨(hinv t).1, ?_⟩
  have key := shrink (f := fun t => Real.arccos (x t ⬝ᵥ y)) (r := Real.arccos (1 - eps dt))
    (fun t => Real.arccos_nonneg _) hρ0 hρ1
    (fun t h => by
      have b2 := abs_le.1 (abs_dot_le_one (hinv t).1.1 hy.1)
      have hc : 1 - eps dt ≤ x t ⬝ᵥ y := by
        have := Real.cos_le_cos_of_nonneg_of_le_pi (Real.arccos_nonneg _) (Real.arccos_le_pi _) h
        rwa [Real.cos_arccos (by linarith) (by linarith), Real.cos_arccos b2.1 b2.2] at this
      simp only [hclamp t (hinv t).1 hc]; exact h)
    (fun t h _ => by
      have hc : x t ⬝ᵥ y < 1 - eps dt := by
        by_contra hcon
        exact absurd (Real.arccos_le_arccos (not_lt.1 hcon)) h.not_ge
      have hab : |x t ⬝ᵥ y| < 1 - eps dt := abs_lt.2 ⟨by linarith [(hinv t).2], hc⟩
      exact (hstep t (hinv t).1 hab).2) t
  rw [dist_eq_max (hinv t).2.le]
  refine max_le (key.trans (max_le_max ?_ le_rfl)) (le_max_right _ _)
  refine mul_le_mul_of_nonneg_left ?_ (pow_nonneg hρ0 t)
  rw [dist_eq_max hanti.le]
  exact le_max_left _ _

include hP in
/-- **C113, `SphereExact`.**  Training on the squared distance to `y` with learning rates in `(0, 1)` that
satisfy `|1 - 2·lr| ≤ ρ` (and are not below the threshold of `expmap`), from a point outside the clamp around
the antipode of `y`: after `t` steps the distance is at most `ρ^t` times the initial one, or the smallest
value `dist` can return, if that is larger. -/
theorem C113_sphere_exact {dt : DType} {y : Vec n} (hy : OnSphere S y) {ρ : ℝ} (hρ1 : ρ ≤ 1) {lr : ℕ → ℝ}
    (hlr : ∀ t, 0 < lr t ∧ lr t < 1 ∧ |1 - 2 * lr t| ≤ ρ ∧ eps dt < 8 * lr t ^ 2) {x : ℕ → Vec n}
    (hrun : Descends (sphereExact P dt) (HasGrad fun z => dist dt z y ^ 2) lr x)
    (hx : OnSphere S (x 0)) (hanti : -1 + eps dt < x 0 ⬝ᵥ y) (t : ℕ) :
    OnSphere S (x t) ∧
    dist dt (x t) y ≤ max (ρ ^ t * dist dt (x 0) y) (Real.arccos (1 - eps dt)) := by
  have h0 := eps_pos dt
  refine run hy ((abs_nonneg _).trans (hlr 0).2.2.1) hρ1 hx hanti (fun t hs h => ?_) (fun t hs h => ?_) t
  · obtain ⟨g, hg, e⟩ := hrun.next t
    obtain ⟨l0, l1, l2, l3⟩ := hlr t
    have hb : eps dt < 2 * lr t * dist dt (x t) y := by
      have hr := sqrt_eps_le dt
      have hge : Real.arccos (1 - eps dt) ≤ dist dt (x t) y := by
        rw [C22_dist_eq_arccos h.le]; exact Real.arccos_le_arccos (abs_le.1 h.le).2
      refine lt_of_lt_of_le ?_ (mul_le_mul_of_nonneg_left (hr.trans hge) (by linarith))
      refine lt_of_pow_lt_pow_left₀ 2 (by positivity) ?_
      rw [mul_pow, Real.sq_sqrt (by linarith)]
      nlinarith
    obtain ⟨k1, k2, -⟩ := C113_sphere_exact_step hP hs hy h hg l0 l1 hb
    have e2 : x (t + 1) = Exact.retr P dt (x t) (-lr t • egrad2rgrad P (x t) g) := by
      rcases e with e | e
      · exact e
      · exact e.trans (C20_projx_fixes hP k1)
    rw [e2]
    exact ⟨k1, k2.trans_le (mul_le_mul_of_nonneg_right l2 (Real.arccos_nonneg _))⟩
  · obtain ⟨g, hg, e⟩ := hrun.next t
    rcases h.lt_or_eq with h | h
    · have hst := (stays hP hs h hg (lr t)).2
      rcases e with e | e
      · exact e.trans hst
      · refine e.trans ?_
        simp only [sphereExact, hst]
        exact C20_projx_fixes hP hs
    · exact absurd hg (no_grad_at_clamp hy.1 h.symm)

lemma arctan_ge {s : ℝ} (hs : 0 ≤ s) : s / (1 + s ^ 2) ≤ Real.arctan s := by
  have h0 : 0 ≤ Real.arctan s := by rw [← Real.arctan_zero]; exact Real.arctan_mono hs
  have h1 := Real.sin_le (x := 2 * Real.arctan s) (by linarith)
  rw [Real.sin_two_mul, Real.sin_arctan, Real.cos_arctan] at h1
  have hp : 0 < 1 + s ^ 2 := by positivity
  have hq := Real.sq_sqrt hp.le
  have hqp := Real.sqrt_pos.2 hp
  have e : 2 * (s / Real.sqrt (1 + s ^ 2)) * (1 / Real.sqrt (1 + s ^ 2)) = 2 * (s / (1 + s ^ 2)) := by
    rw [mul_assoc, div_mul_div_comm, mul_one, ← sq, hq]
  rw [e] at h1
  linarith

lemma arctan_le_self {s : ℝ} (hs : 0 ≤ s) : Real.arctan s ≤ s := by
  rcases le_or_gt (Real.pi / 2) s with h | h
  · exact (Real.arctan_lt_pi_div_two s).le.trans h
  · have := Real.le_tan hs h
    have h2 := Real.arctan_mono this
    rwa [Real.arctan_tan (by linarith [Real.pi_pos]) h] at h2

include hP in
/-- **C113, `Sphere` (the default retraction `(x + u)/‖x + u‖`), one step.**  The step turns by
`arctan(2·lr·θ)` towards `y`, `θ` the angle between `x` and `y`. -/
theorem C113_sphere_step {dt : DType} {x y : Vec n} (hx : OnSphere S x) (hy : OnSphere S y)
    (h : |x ⬝ᵥ y| < 1 - eps dt) {g : Vec n} (hg : HasGrad (fun z => dist dt z y ^ 2) g x) {lr : ℝ}
    (h0 : 0 < lr) (h1 : lr < 1) :
    OnSphere S (retr P x (-lr • egrad2rgrad P x g)) ∧
    Real.arccos (retr P x (-lr • egrad2rgrad P x g) ⬝ᵥ y) =
      |Real.arccos (x ⬝ᵥ y) - Real.arctan (2 * lr * Real.arccos (x ⬝ᵥ y))| := by
  obtain ⟨g', hg', e⟩ := C112_sphere hP (dt := dt) hx hy h
  cases hg.unique hg'
  have e' : -lr • egrad2rgrad P x g = (2 * lr) • logmap P dt x y := by
    rw [e, smul_smul]; congr 1; ring
  rw [e']
  have hl := C22_log_tangent hP dt hx y
  have hu : Tangent S x ((2 * lr) • logmap P dt x y) :=
    ⟨by rw [dotProduct_smul, hl.1, smul_zero], smul_mem hP hl.2 _⟩
  refine ⟨C20_retr_on_sphere hP hx hu, ?_⟩
  rw [retr_log_dot hP hx hy h.le _ (by linarith), ← Real.cos_abs]
  have hθ0 := Real.arccos_nonneg (x ⬝ᵥ y)
  have hθ1 := Real.arccos_le_pi (x ⬝ᵥ y)
  have hs0 : 0 ≤ 2 * lr * Real.arccos (x ⬝ᵥ y) := mul_nonneg (by linarith) hθ0
  have hA0 : 0 ≤ Real.arctan (2 * lr * Real.arccos (x ⬝ᵥ y)) := by
    rw [← Real.arctan_zero]; exact Real.arctan_mono hs0
  have hA1 := (Real.arctan_lt_pi_div_two (2 * lr * Real.arccos (x ⬝ᵥ y))).le
  exact Real.arccos_cos (abs_nonneg _) (abs_le.2 ⟨by linarith [Real.pi_pos], by linarith⟩)

lemma turn_bound {a lr θ : ℝ} (ha : 0 < a) (h1 : a ≤ lr) (h2 : lr ≤ 1 - a) (hθ0 : 0 ≤ θ)
    (hθ : θ ≤ Real.pi) : |θ - Real.arctan (2 * lr * θ)| ≤ (1 - a / 21) * θ := by
  have hs0 : 0 ≤ 2 * lr * θ := mul_nonneg (by linarith) hθ0
  have g1 := arctan_ge hs0
  have g2 := arctan_le_self hs0
  have hpi := Real.pi_lt_d2
  have hs1 : 2 * lr * θ ≤ 6.3 := by nlinarith
  have g3 : 2 * lr * θ / 42 ≤ 2 * lr * θ / (1 + (2 * lr * θ) ^ 2) :=
    div_le_div_of_nonneg_left hs0 (by positivity) (by nlinarith)
  have g4 : a * θ ≤ lr * θ := mul_le_mul_of_nonneg_right h1 hθ0
  have g5 : lr * θ ≤ (1 - a) * θ := mul_le_mul_of_nonneg_right h2 hθ0
  have g6 : 0 ≤ a * θ := mul_nonneg ha.le hθ0
  rw [abs_le]
  constructor <;> nlinarith

include hP in
/-- **C113, `Sphere`.**  With learning rates in `[a, 1 - a]`, from a point outside the clamp around the
antipode of `y`, training on the squared distance converges at a linear rate, down to the smallest value
`dist` can return. -/
theorem C113_sphere {dt : DType} {y : Vec n} (hy : OnSphere S y) {a : ℝ} (ha : 0 < a) {lr : ℕ → ℝ}
    (hlr : ∀ t, a ≤ lr t ∧ lr t ≤ 1 - a) {x : ℕ → Vec n}
    (hrun : Descends (sphere P) (HasGrad fun z => dist dt z y ^ 2) lr x)
    (hx : OnSphere S (x 0)) (hanti : -1 + eps dt < x 0 ⬝ᵥ y) (t : ℕ) :
    OnSphere S (x t) ∧
    dist dt (x t) y ≤ max ((1 - a / 21) ^ t * dist dt (x 0) y) (Real.arccos (1 - eps dt)) := by
  have ha1 : a ≤ 1 := by linarith [(hlr 0).1.trans (hlr 0).2]
  refine run hy (by linarith) (by linarith) hx hanti (fun t hs h => ?_) (fun t hs h => ?_) t
  · obtain ⟨g, hg, e⟩ := hrun.next t
    obtain ⟨l0, l1⟩ := hlr t
    obtain ⟨k1, k2⟩ := C113_sphere_step hP hs hy h hg (lr := lr t) (by linarith) (by linarith)
    have e2 : x (t + 1) = retr P (x t) (-lr t • egrad2rgrad P (x t) g) := by
      rcases e with e | e
      · exact e
      · exact e.trans (C20_projx_fixes hP k1)
    rw [e2]
    exact ⟨k1, k2.trans_le (turn_bound ha l0 l1 (Real.arccos_nonneg _) (Real.arccos_le_pi _))⟩
  · obtain ⟨g, hg, e⟩ := hrun.next t
    rcases h.lt_or_eq with h | h
    · have hst := (stays hP hs h hg (lr t)).1
      rcases e with e | e
      · exact e.trans hst
      · refine e.trans ?_
        simp only [sphere, hst]
        exact C20_projx_fixes hP hs
    · exact absurd hg (no_grad_at_clamp hy.1 h.symm)

/-- A history: with learning rate `1/2` the target is reached in one step and kept. -/
example : ∃ x : ℕ → Vec 2, x 0 = ![1, 0] ∧
    Descends (sphereExact none .f64) (HasGrad fun z => dist .f64 z ![0, 1] ^ 2) (fun _ => 1 / 2) x ∧
    eps .f64 < 8 * (1 / 2) ^ 2 ∧ -1 + eps .f64 < x 0 ⬝ᵥ ![0, 1] := by
  have hx : OnSphere Set.univ (![1, 0] : Vec 2) := ⟨by simp [dotProduct, Fin.sum_univ_two], trivial⟩
  have hy : OnSphere Set.univ (![0, 1] : Vec 2) := ⟨by simp [dotProduct, Fin.sum_univ_two], trivial⟩
  have hxy : |(![1, 0] : Vec 2) ⬝ᵥ ![0, 1]| < 1 - eps .f64 := by
    simp [dotProduct, Fin.sum_univ_two, eps]; norm_num
  have hyy : 1 - eps .f64 < (![0, 1] : Vec 2) ⬝ᵥ ![0, 1] := by
    simp [dotProduct, Fin.sum_univ_two, eps]; norm_num
  obtain ⟨g, hg, -⟩ := C112_sphere (S := Set.univ) (P := none) rfl (dt := .f64) hx hy hxy
  refine ⟨fun t => if t = 0 then ![1, 0] else ![0, 1], rfl, fun t => ?_, by norm_num [eps], by
    simp [dotProduct, Fin.sum_univ_two, eps]; norm_num⟩
  cases t with
  | zero =>
    refine ⟨g, ⟨1 / 2, 0, 0, 0, false, none⟩, none, hg, rfl, rfl, rfl, Or.inl ?_⟩
    exact (C112_sphere_one_step (S := Set.univ) (P := none) rfl hx hy hxy hg _ rfl rfl rfl none).symm
  | succ t =>
    have hg0 := C112_counterexample_sphere hyy
    refine ⟨0, ⟨1 / 2, 0, 0, 0, false, none⟩, none, hg0, rfl, rfl, rfl, Or.inl ?_⟩
    have := (stays (S := Set.univ) (P := none) rfl hy hyy hg0 (1 / 2)).2
    simpa [sgdParam, sphereExact] using this.symm

end Sphere

namespace Lorentz

/-- `cosh` of the distance between two points of a geodesic. -/
theorem C113.ch_pt {k : ℝ} (hk : 0 < k) {x u : Vec (n + 1)} (hx : OnHyperboloid k x)
    (hu : Tangent x u) {r : ℝ} (hr : 0 < r) (hru : r ^ 2 = mink u u) (a b : ℝ) :
    ch k (C106.pt k r a x u) (C106.pt k r b x u) =
      Real.cosh b * Real.cosh a - Real.sinh b * Real.sinh a := by
  have hs : 0 < Real.sqrt k := Real.sqrt_pos.2 hk
  have hu' : mink x u = 0 := hu
  have hux : mink u x = 0 := by rw [mink_comm]; exact hu'
  unfold ch C106.pt
  minks
  rw [hx.1, hu', hux, ← hru]
  have hk2 : Real.sqrt k ^ 2 = k := Real.sq_sqrt hk.le
  generalize Real.sqrt k = s at *
  subst hk2
  field_simp
  ring

/-- The step goes to the point of the geodesic with the fraction `2·lr` of the way behind it. -/
theorem C113_lorentz_step {k : ℝ} (hk : 0 < k) {x y : Vec (n + 1)} (hx : OnHyperboloid k x)
    (hy : OnHyperboloid k y) (h : k ^ 2 * (1 + 1e-15) < mink x y ^ 2) (hd : 1e-4 ≤ dist k x y)
    {g : Vec (n + 1)} (hg : HasGrad (fun z => dist k z y ^ 2) g x) {lr : ℝ} (h0 : 0 < lr)
    (hb : 1e-4 ≤ 2 * lr * dist k x y) :
    OnHyperboloid k (expmap k x (-lr • (egrad2rgrad k x g).1)) ∧
    ch k (expmap k x (-lr • (egrad2rgrad k x g).1)) y =
      Real.cosh (|1 - 2 * lr| * dist k x y / Real.sqrt k) ∧
    (4e-8 * Real.sqrt k ≤ |1 - 2 * lr| * dist k x y →
      dist k (expmap k x (-lr • (egrad2rgrad k x g).1)) y = |1 - 2 * lr| * dist k x y) := by
  have hs : 0 < Real.sqrt k := Real.sqrt_pos.2 hk
  have hd0 : 0 < dist k x y := lt_of_lt_of_le (by norm_num) hd
  obtain ⟨g', hg', e⟩ := C112_lorentz hk hx hy h hd
  cases hg.unique hg'
  have e' : -lr • (egrad2rgrad k x g).1 = (2 * lr) • logmap k x y := by
    rw [e, smul_smul]; congr 1; ring
  rw [e']
  have hu := C37_log_tangent hk hx hy
  have hru := (far_facts hk hx hy h.le hd).2.2.symm
  have hlen : (1e-8 : ℝ) ≤ (2 * lr * dist k x y) ^ 2 := by
    calc (1e-8 : ℝ) = 1e-4 ^ 2 := by norm_num
      _ ≤ _ := pow_le_pow_left₀ (by norm_num) hb 2
  have hlen1 : (1e-8 : ℝ) ≤ (1 * dist k x y) ^ 2 := by
    rw [one_mul]
    calc (1e-8 : ℝ) = 1e-4 ^ 2 := by norm_num
      _ ≤ _ := pow_le_pow_left₀ (by norm_num) hd 2
  have e1 := C106.expmap_pt hk hx hu hd0 hru hlen
  have e2 := C106.expmap_pt hk hx hu hd0 hru hlen1
  rw [one_smul, C37_exp_log hk hx hy h.le hd, one_mul] at e2
  have hon := C106.pt_on hk hx hu hd0 hru (2 * lr * dist k x y / Real.sqrt k)
  rw [← e1] at hon
  have hch : ch k (expmap k x ((2 * lr) • logmap k x y)) y =
      Real.cosh (|1 - 2 * lr| * dist k x y / Real.sqrt k) := by
    rw [show |1 - 2 * lr| * dist k x y / Real.sqrt k =
        |dist k x y / Real.sqrt k - 2 * lr * dist k x y / Real.sqrt k| by
      rw [← sub_div, ← one_sub_mul, abs_div, abs_mul, abs_of_pos hs, abs_of_pos hd0], Real.cosh_abs,
      Real.cosh_sub, e1]
    have := C113.ch_pt hk hx hu hd0 hru (2 * lr * dist k x y / Real.sqrt k)
      (dist k x y / Real.sqrt k)
    rwa [← e2] at this
  refine ⟨hon, hch, fun hfl => ?_⟩
  have hz : 4e-8 ≤ |1 - 2 * lr| * dist k x y / Real.sqrt k := by rwa [le_div_iff₀ hs]
  have hz0 : 0 ≤ |1 - 2 * lr| * dist k x y / Real.sqrt k := le_trans (by norm_num) hz
  rw [dist_eq, hch, arcosh_eq, Real.arcosh_cosh hz0]
  · field_simp
  · rw [Real.cosh_sq]
    have := Real.self_le_sinh_iff.2 hz0
    have h2 : (4e-8 : ℝ) ^ 2 ≤ Real.sinh (|1 - 2 * lr| * dist k x y / Real.sqrt k) ^ 2 :=
      pow_le_pow_left₀ (by norm_num) (hz.trans this) 2
    norm_num at h2 ⊢
    linarith

lemma C113.floor_le {k c : ℝ} (hc : 1 ≤ c) (h : c ≤ Real.cosh 4e-8) :
    Real.sqrt k * arcosh c ≤ 4e-8 * Real.sqrt k := by
  rw [mul_comm]
  refine mul_le_mul_of_nonneg_right ?_ (Real.sqrt_nonneg k)
  have h0 : (0 : ℝ) ≤ Real.sinh 4e-8 := Real.sinh_nonneg_iff.2 (by norm_num)
  have h1 : Real.sqrt (max (c ^ 2 - 1.0) 1e-15) ≤ Real.sinh 4e-8 := by
    apply Real.sqrt_le_iff.2 ⟨h0, max_le ?_ ?_⟩
    · have h2 := Real.cosh_sq (4e-8 : ℝ)
      have h3 : c ^ 2 ≤ Real.cosh 4e-8 ^ 2 := pow_le_pow_left₀ (by linarith) h 2
      norm_num at *
      linarith
    · have h2 : (4e-8 : ℝ) ≤ Real.sinh 4e-8 := Real.self_le_sinh_iff.2 (by norm_num)
      calc (1e-15 : ℝ) ≤ 4e-8 ^ 2 := by norm_num
        _ ≤ _ := pow_le_pow_left₀ (by norm_num) h2 2
  rw [arcosh, ← Real.log_exp 4e-8]
  refine Real.log_le_log (by linarith [Real.sqrt_nonneg (max (c ^ 2 - 1.0) 1e-15)]) ?_
  rw [← Real.cosh_add_sinh]
  exact add_le_add h h1

lemma C113.off_floor {k : ℝ} (hk : 0 < k) {x y : Vec (n + 1)} (hx : OnHyperboloid k x)
    (hy : OnHyperboloid k y) (h : 4e-8 * Real.sqrt k < dist k x y) :
    k ^ 2 * (1 + 1e-15) < mink x y ^ 2 := by
  have hc := ch_ge_one hk hx hy
  have h1 : Real.cosh 4e-8 < ch k x y := by
    by_contra hcon
    exact absurd h (C113.floor_le hc (not_lt.1 hcon)).not_gt
  have h2 : (4e-8 : ℝ) ≤ Real.sinh 4e-8 := Real.self_le_sinh_iff.2 (by norm_num)
  have h3 : (4e-8 : ℝ) ^ 2 ≤ Real.sinh 4e-8 ^ 2 := pow_le_pow_left₀ (by norm_num) h2 2
  have h4 := Real.cosh_sq (4e-8 : ℝ)
  have h5 : Real.cosh 4e-8 ^ 2 ≤ ch k x y ^ 2 := pow_le_pow_left₀ (Real.cosh_pos _).le h1.le 2
  rw [mink_eq_ch hk x y, neg_sq, mul_pow]
  refine mul_lt_mul_of_pos_left ?_ (by positivity)
  norm_num at h3 ⊢
  linarith

/-- **C113**, hyperboloid: with learning rates for which `|1 - 2·lr| ≤ ρ`, the distance to the target
after `t` steps is at most `ρ ^ t` times the initial distance, unless the parameter has come within `δ`
of the target.  The bounds on `δ` keep the step clear of the floors of the code. -/
theorem C113_lorentz {k : ℝ} (hk : 0 < k) {y : Vec (n + 1)} (hy : OnHyperboloid k y) {ρ δ : ℝ}
    (hδ : 1e-4 ≤ δ) (hδk : 4e-8 * Real.sqrt k ≤ δ) {lr : ℕ → ℝ}
    (hlr : ∀ t, 0 < lr t ∧ |1 - 2 * lr t| ≤ ρ ∧ 1e-4 ≤ 2 * lr t * δ) {x : ℕ → Vec (n + 1)}
    (hrun : Descends (Optim.lorentz k) (HasGrad fun z => dist k z y ^ 2) lr x)
    (hx : OnHyperboloid k (x 0)) (t : ℕ) :
    (∃ s ≤ t, OnHyperboloid k (x s) ∧ dist k (x s) y ≤ δ) ∨
      OnHyperboloid k (x t) ∧ dist k (x t) y ≤ ρ ^ t * dist k (x 0) y := by
  have hρ : 0 ≤ ρ := (abs_nonneg _).trans (hlr 0).2.1
  induction t with
  | zero => right; simpa using hx
  | succ t ih =>
    rcases ih with ⟨s, hs, h⟩ | ⟨hxt, ih⟩
    · exact Or.inl ⟨s, hs.trans (Nat.le_succ t), h⟩
    rcases le_or_gt (dist k (x t) y) δ with h | h
    · exact Or.inl ⟨t, Nat.le_succ t, hxt, h⟩
    obtain ⟨g, hg, e⟩ := hrun.next t
    obtain ⟨l0, l1, l2⟩ := hlr t
    obtain ⟨k1, k2, k3⟩ := C113_lorentz_step hk hxt hy
      (C113.off_floor hk hxt hy (hδk.trans_lt h)) (hδ.trans h.le) hg l0
      (l2.trans (mul_le_mul_of_nonneg_left h.le (by linarith)))
    have e2 : x (t + 1) = expmap k (x t) (-lr t • (egrad2rgrad k (x t) g).1) := by
      rcases e with e | e
      · exact e
      · exact e.trans (C35_projx_fixes k1)
    rw [← e2] at k1 k2 k3
    have hdp : 0 ≤ dist k (x t) y := le_trans (by linarith [show (0 : ℝ) ≤ 1e-4 by norm_num]) h.le
    rcases le_or_gt (4e-8 * Real.sqrt k) (|1 - 2 * lr t| * dist k (x t) y) with h4 | h4
    · right
      refine ⟨k1, ?_⟩
      rw [k3 h4, pow_succ', mul_assoc]
      exact mul_le_mul l1 ih hdp hρ
    · left
      refine ⟨t + 1, le_rfl, k1, le_trans ?_ hδk⟩
      rw [dist_eq]
      refine C113.floor_le (ch_ge_one hk k1 hy) ?_
      rw [k2]
      have hs : 0 < Real.sqrt k := Real.sqrt_pos.2 hk
      have hz : 0 ≤ |1 - 2 * lr t| * dist k (x t) y / Real.sqrt k :=
        div_nonneg (mul_nonneg (abs_nonneg _) hdp) hs.le
      rw [Real.cosh_le_cosh, abs_of_nonneg hz, abs_of_nonneg (show (0 : ℝ) ≤ 4e-8 by norm_num),
        div_le_iff₀ hs]
      exact h4.le

/-- `C113_lorentz_step` at two points, with learning rate `1/4` -/
example : ∃ g : Vec 2, HasGrad (fun z => dist 1 z ![1, 0] ^ 2) g ![5 / 4, 3 / 4] ∧
    dist 1 (expmap 1 ![5 / 4, 3 / 4] (-(1 / 4 : ℝ) • (egrad2rgrad 1 ![5 / 4, 3 / 4] g).1)) ![1, 0] =
      1 / 2 * dist 1 (![5 / 4, 3 / 4] : Vec 2) ![1, 0] := by
  have hm : mink (![5 / 4, 3 / 4] : Vec 2) ![1, 0] = -(5 / 4) := by simp [mink]
  have hx : OnHyperboloid 1 (![5 / 4, 3 / 4] : Vec 2) := ⟨by simp [mink]; norm_num, by norm_num⟩
  have hy : OnHyperboloid 1 (![1, 0] : Vec 2) := ⟨by simp [mink], by norm_num⟩
  have hf : (1 : ℝ) ^ 2 * (1 + 1e-15) < mink (![5 / 4, 3 / 4] : Vec 2) ![1, 0] ^ 2 := by
    rw [hm]; norm_num
  have hd : (1 / 5 : ℝ) ≤ dist 1 (![5 / 4, 3 / 4] : Vec 2) ![1, 0] := by
    rw [dist_eq, ch, hm, arcosh, Real.sqrt_one, one_mul]
    have h1 : (1 / 5 : ℝ) ≤ 1 - (5 / 4 : ℝ)⁻¹ := by norm_num
    refine h1.trans ((Real.one_sub_inv_le_log_of_pos (by norm_num)).trans ?_)
    apply Real.log_le_log (by norm_num)
    norm_num
  have hd4 : (1e-4 : ℝ) ≤ dist 1 (![5 / 4, 3 / 4] : Vec 2) ![1, 0] := le_trans (by norm_num) hd
  obtain ⟨g, hg, -⟩ := C112_lorentz one_pos hx hy hf hd4
  have ea : |1 - 2 * (1 / 4 : ℝ)| = 1 / 2 := by norm_num [abs_of_nonneg]
  have := (C113_lorentz_step one_pos hx hy hf hd4 hg (lr := 1 / 4) (by norm_num)
    (by linarith [show (1e-4 : ℝ) ≤ 2 * (1 / 4) * (1 / 5) by norm_num])).2.2
  rw [ea] at this
  exact ⟨g, hg, this (by rw [Real.sqrt_one]; linarith [show (4e-8 : ℝ) * 1 ≤ 1 / 2 * (1 / 5) by norm_num])⟩

end Lorentz
end Geoopt
