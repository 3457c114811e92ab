import Verif.Model.Sphere
import Verif.Spec.Sphere
import Verif.Lemmas.Mobius
import Mathlib.Geometry.Euclidean.Angle.Unoriented.TriangleInequality
import Mathlib.Analysis.Real.Pi.Bounds
import Mathlib.Analysis.SpecialFunctions.Trigonometric.Bounds
import Mathlib.Analysis.InnerProductSpace.PiL2
import Mathlib.LinearAlgebra.Matrix.ToLin

/-!
# C20–C23 the sphere (and the sphere part of C19, C27)
-/

namespace Geoopt.Sphere
open Geoopt Matrix
variable {n : ℕ}

lemma pos_eq (P : Option (Matrix (Fin n) (Fin n) ℝ)) (x : Vec n) :
    projectOnSubspace P x = (match P with | some P => P *ᵥ x | none => x) := by
  cases P with
  | none => rfl
  | some P => simp [projectOnSubspace, vecMul_transpose]

section
variable {S : Set (Vec n)} {P : Option (Matrix (Fin n) (Fin n) ℝ)} (hP : Projects S P)
include hP

lemma pos_mem (x : Vec n) : projectOnSubspace P x ∈ S := by
  rw [pos_eq]
  cases P with
  | none => change S = Set.univ at hP; simp [hP]
  | some P => exact IsOrthProjector.mem hP x

lemma pos_fix {x : Vec n} (h : x ∈ S) : projectOnSubspace P x = x := by
  rw [pos_eq]
  cases P with
  | none => rfl
  | some P => exact IsOrthProjector.fix hP x h

lemma pos_dot {x y : Vec n} (hy : y ∈ S) : projectOnSubspace P x ⬝ᵥ y = x ⬝ᵥ y := by
  rw [pos_eq]
  cases P with
  | none => rfl
  | some P =>
    have h := IsOrthProjector.orth hP x y hy
    rw [sub_dotProduct] at h
    linarith

omit hP in
lemma pos_linear (a b : ℝ) (x y : Vec n) :
    projectOnSubspace P (a • x + b • y) = a • projectOnSubspace P x + b • projectOnSubspace P y := by
  rw [pos_eq, pos_eq, pos_eq]
  cases P with
  | none => rfl
  | some P => simp only [mulVec_add, mulVec_smul]

/-- a linear combination of elements of the subspace is in the subspace -/
lemma lin_mem {x y : Vec n} (hx : x ∈ S) (hy : y ∈ S) (a b : ℝ) : a • x + b • y ∈ S := by
  have h := pos_mem hP (a • x + b • y)
  rw [pos_linear, pos_fix hP hx, pos_fix hP hy] at h
  exact h

lemma add_mem {x y : Vec n} (hx : x ∈ S) (hy : y ∈ S) : x + y ∈ S := by
  simpa using lin_mem hP hx hy 1 1

lemma sub_mem {x y : Vec n} (hx : x ∈ S) (hy : y ∈ S) : x - y ∈ S := by
  have := lin_mem hP hx hy 1 (-1); simpa [sub_eq_add_neg] using this

lemma smul_mem {x : Vec n} (hx : x ∈ S) (a : ℝ) : a • x ∈ S := by
  simpa using lin_mem hP hx hx a 0

/-! ### C20 -/

/-- `projx` of anything whose part in the subspace is not zero is on the sphere. -/
theorem C20_projx_on_sphere {x : Vec n} (h : projectOnSubspace P x ≠ 0) :
    OnSphere S (projx P x) := by
  have hp := nrm_pos h
  refine ⟨?_, smul_mem hP (pos_mem hP x) _⟩
  simp only [projx, smul_dotProduct, dotProduct_smul, smul_eq_mul]
  rw [← nrm_sq]; field_simp

/-- Points of the sphere are not moved by `projx`. -/
theorem C20_projx_fixes {x : Vec n} (h : OnSphere S x) : projx P x = x := by
  have h1 : nrm x = 1 := nrm_eq_of_dot_eq one_pos.le (by rw [h.1]; norm_num)
  simp [projx, pos_fix hP h.2, h1]

lemma retr_arg_ne {x u : Vec n} (hx : OnSphere S x) (hu : Tangent S x u) :
    projectOnSubspace P (x + u) ≠ 0 := by
  rw [pos_fix hP (add_mem hP hx.2 hu.2)]
  intro h
  have := congrArg (fun v => x ⬝ᵥ v) h
  simp only [dotProduct_add, hx.1, hu.1, dotProduct_zero] at this
  norm_num at this

/-- The retraction of any tangent vector (any length) is on the sphere. -/
theorem C20_retr_on_sphere {x u : Vec n} (hx : OnSphere S x) (hu : Tangent S x u) :
    OnSphere S (retr P x u) :=
  C20_projx_on_sphere hP (retr_arg_ne hP hx hu)

/-- So is the exponential map, in both of its branches (this is also `SphereExact.retr`). -/
theorem C20_expmap_on_sphere {x u : Vec n} (dt : DType) (hx : OnSphere S x) (hu : Tangent S x u) :
    OnSphere S (expmap P dt x u) ∧ OnSphere S (Exact.retr P dt x u) := by
  have : OnSphere S (expmap P dt x u) := by
    unfold expmap
    split_ifs with h
    · have heps : 0 < eps dt := by cases dt <;> norm_num [eps]
      have hn : 0 < nrm u := lt_trans heps h
      refine ⟨?_, lin_mem hP hx.2 hu.2 _ _⟩
      have h2 := nrm_sq u
      have h3 := Real.sin_sq_add_cos_sq (nrm u)
      have hux : u ⬝ᵥ x = 0 := by rw [dotProduct_comm]; exact hu.1
      simp only [dotProduct_add, add_dotProduct, smul_dotProduct, dotProduct_smul, smul_eq_mul,
        hx.1, hu.1, hux, ← h2]
      field_simp
      linear_combination (nrm u) * h3
    · exact C20_projx_on_sphere hP (retr_arg_ne hP hx hu)
  exact ⟨this, this⟩

/-- and the samples of `random_uniform` are on the sphere, for every noise with non-zero
subspace part -/
theorem C74_sphere_random_uniform {noise : Vec n} (h : projectOnSubspace P noise ≠ 0) :
    OnSphere S (randomUniform P noise) := C20_projx_on_sphere hP h

/-- A point of the manifold passes `check_point_on_manifold` with any tolerances. -/
theorem C20_passes_check {x : Vec n} (h : OnSphere S x) {atol rtol : ℝ} (ha : 0 ≤ atol)
    (hr : 0 ≤ rtol) : CheckPoint P atol rtol x := by
  have h1 : nrm x = 1 := nrm_eq_of_dot_eq one_pos.le (by rw [h.1]; norm_num)
  refine ⟨by simp [h1]; positivity, fun i => ?_⟩
  rw [pos_fix hP h.2]; simp; positivity

/-! ### C21 -/

/-- `proju` gives tangent vectors. -/
theorem C21_proju_tangent {x : Vec n} (hx : OnSphere S x) (u : Vec n) :
    Tangent S x (proju P x u) := by
  refine ⟨?_, pos_mem hP _⟩
  rw [dotProduct_comm, proju, pos_dot hP hx.2, sub_dotProduct, smul_dotProduct, hx.1,
    dotProduct_comm u x]
  simp

/-- It fixes tangent vectors … -/
theorem C21_proju_fixes {x u : Vec n} (hu : Tangent S x u) : proju P x u = u := by
  rw [proju, hu.1, zero_smul, sub_zero, pos_fix hP hu.2]

/-- … hence it is idempotent. -/
theorem C21_proju_idempotent {x : Vec n} (hx : OnSphere S x) (u : Vec n) :
    proju P x (proju P x u) = proju P x u :=
  C21_proju_fixes hP (C21_proju_tangent hP hx u)

omit hP in
/-- It is linear in the vector. -/
theorem C21_proju_linear (a b : ℝ) (x u v : Vec n) :
    proju P x (a • u + b • v) = a • proju P x u + b • proju P x v := by
  unfold proju
  rw [← pos_linear]
  congr 1
  simp only [dotProduct_add, dotProduct_smul, smul_eq_mul]
  module

/-- What it removes is orthogonal to every tangent vector. -/
theorem C21_proju_normal {x u v : Vec n} (hv : Tangent S x v) :
    (u - proju P x u) ⬝ᵥ v = 0 := by
  rw [sub_dotProduct, proju, pos_dot hP hv.2, sub_dotProduct, smul_dotProduct, hv.1]
  simp

/-- `egrad2rgrad` is the Riemannian gradient: tangent, and it pairs with tangent vectors
like the Euclidean gradient. -/
theorem C19_sphere {x g : Vec n} (hx : OnSphere S x) :
    Tangent S x (egrad2rgrad P x g) ∧
    ∀ v, Tangent S x v → inner x (egrad2rgrad P x g) v = g ⬝ᵥ v := by
  refine ⟨C21_proju_tangent hP hx g, fun v hv => ?_⟩
  have := C21_proju_normal hP (u := g) hv
  rw [sub_dotProduct] at this
  unfold inner egrad2rgrad
  linarith

theorem C27_sphere {x : Vec n} (hx : OnSphere S x) (u : Vec n) :
    Tangent S x (proju P x u) ∧ proju P x (proju P x u) = proju P x u :=
  ⟨C21_proju_tangent hP hx u, C21_proju_idempotent hP hx u⟩

/-! ### C22 exp, log, dist -/

omit hP in
lemma eps_pos (dt : DType) : 0 < eps dt := by cases dt <;> norm_num [eps]
omit hP in
lemma eps_small (dt : DType) : eps dt ≤ 1e-4 := by cases dt <;> norm_num [eps]

omit hP in
/-- On the unclamped range the distance is the angle. -/
theorem C22_dist_eq_arccos {dt : DType} {x y : Vec n} (h : |x ⬝ᵥ y| ≤ 1 - eps dt) :
    dist dt x y = Real.arccos (x ⬝ᵥ y) := by
  have := abs_le.1 h
  rw [dist, inner, clamp_of_mem (by linarith) this.2]

omit hP in
/-- Symmetric on all pairs. -/
theorem C22_dist_symm (dt : DType) (x y : Vec n) : dist dt x y = dist dt y x := by
  rw [dist, dist, inner, inner, dotProduct_comm]

omit hP in
lemma arccos_eps_gt (dt : DType) : 1e-4 < Real.arccos (1 - eps dt) := by
  have h0 := eps_pos dt
  have h4 := eps_small dt
  by_contra hcon
  rw [not_lt] at hcon
  have h1 : Real.cos (1e-4) ≤ Real.cos (Real.arccos (1 - eps dt)) :=
    Real.cos_le_cos_of_nonneg_of_le_pi (Real.arccos_nonneg _)
      (by have := Real.pi_gt_three; norm_num; linarith) hcon
  rw [Real.cos_arccos (by linarith [show (1e-4:ℝ) < 1 by norm_num]) (by linarith)] at h1
  have h7 : 1e-7 ≤ eps dt := by cases dt <;> norm_num [eps]
  have h2 : 1 - (1e-4 : ℝ) ^ 2 / 2 ≤ Real.cos 1e-4 := Real.one_sub_sq_div_two_le_cos
  have : (1e-4 : ℝ) ^ 2 / 2 < 1e-7 := by norm_num
  linarith

omit hP in
/-- `dist(x,x)` is not `0` but the constant `arccos(1-EPS)`, more than `1e-4`: the clamp
that protects the gradient of `acos` is applied to the value. -/
theorem C22_counterexample_dist_self (dt : DType) {x : Vec n} (hx : x ⬝ᵥ x = 1) :
    dist dt x x = Real.arccos (1 - eps dt) ∧ 1e-4 < dist dt x x := by
  have h0 := eps_pos dt
  have h4 := eps_small dt
  have : dist dt x x = Real.arccos (1 - eps dt) := by
    rw [dist, inner, hx, clamp, max_eq_left (by linarith [show (1e-4:ℝ) < 1 by norm_num]),
      min_eq_right (by linarith)]
  exact ⟨this, this ▸ arccos_eps_gt dt⟩

omit hP in
lemma acos_sin_ge {dt : DType} {c : ℝ} (h : |c| ≤ 1 - eps dt) :
    eps dt ≤ Real.sin (Real.arccos c) := by
  have h0 := eps_pos dt
  have h4 := eps_small dt
  rw [Real.sin_arccos]
  apply Real.le_sqrt_of_sq_le
  have : c ^ 2 ≤ (1 - eps dt) ^ 2 := sq_le_sq' (by linarith [(abs_le.1 h).1]) (abs_le.1 h).2
  nlinarith [show (1e-4:ℝ) < 1 by norm_num]

omit hP in
lemma arccos_gt_eps {dt : DType} {c : ℝ} (h : |c| ≤ 1 - eps dt) : eps dt < Real.arccos c := by
  have h1 := arccos_eps_gt dt
  have h4 := eps_small dt
  have : Real.arccos (1 - eps dt) ≤ Real.arccos c :=
    Real.arccos_le_arccos (abs_le.1 h).2
  linarith

lemma proju_sub {x y : Vec n} (hx : OnSphere S x) (hy : OnSphere S y) :
    proju P x (y - x) = y - (x ⬝ᵥ y) • x := by
  rw [proju]
  have e : y - x - (x ⬝ᵥ (y - x)) • x = y - (x ⬝ᵥ y) • x := by
    rw [dotProduct_sub, hx.1]; module
  rw [e, pos_fix hP (sub_mem hP hy.2 (smul_mem hP hx.2 _))]

omit hP in
lemma proju_sub_dot {x y : Vec n} (hx : x ⬝ᵥ x = 1) (hy : y ⬝ᵥ y = 1) :
    (y - (x ⬝ᵥ y) • x) ⬝ᵥ (y - (x ⬝ᵥ y) • x) = 1 - (x ⬝ᵥ y) ^ 2 := by
  simp only [dotProduct_sub, sub_dotProduct, smul_dotProduct, dotProduct_smul, smul_eq_mul, hx, hy,
    dotProduct_comm y x]
  ring

omit hP in
lemma abs_dot_le_one {x y : Vec n} (hx : x ⬝ᵥ x = 1) (hy : y ⬝ᵥ y = 1) : |x ⬝ᵥ y| ≤ 1 := by
  have := abs_dot_le x y
  rwa [nrm, nrm, hx, hy, Real.sqrt_one, mul_one] at this

lemma logmap_value {dt : DType} {x y : Vec n} (hx : OnSphere S x) (hy : OnSphere S y)
    (h : |x ⬝ᵥ y| ≤ 1 - eps dt) :
    logmap P dt x y = (Real.arccos (x ⬝ᵥ y) / Real.sin (Real.arccos (x ⬝ᵥ y))) •
      (y - (x ⬝ᵥ y) • x) := by
  have hn : nrm (y - (x ⬝ᵥ y) • x) = Real.sin (Real.arccos (x ⬝ᵥ y)) := by
    rw [nrm, proju_sub_dot hx.1 hy.1, Real.sin_arccos]
  simp only [logmap]
  rw [C22_dist_eq_arccos h, if_pos (arccos_gt_eps h), proju_sub hP hx hy, hn,
    max_eq_left (acos_sin_ge h)]

/-- The logarithm is a tangent vector, for all pairs of points. -/
theorem C22_log_tangent (dt : DType) {x : Vec n} (hx : OnSphere S x) (y : Vec n) :
    Tangent S x (logmap P dt x y) := by
  have h := C21_proju_tangent hP hx (y - x)
  simp only [logmap]
  split_ifs
  · exact ⟨by rw [dotProduct_smul, h.1, smul_zero], smul_mem hP h.2 _⟩
  · exact h

/-- `exp_x(log_x y) = y` whenever the clamp of `dist` is inactive. -/
theorem C22_exp_log {dt : DType} {x y : Vec n} (hx : OnSphere S x) (hy : OnSphere S y)
    (h : |x ⬝ᵥ y| ≤ 1 - eps dt) : expmap P dt x (logmap P dt x y) = y := by
  have h0 := eps_pos dt
  have hs := acos_sin_ge h
  have ha := arccos_gt_eps h
  have hsp : 0 < Real.sin (Real.arccos (x ⬝ᵥ y)) := by linarith
  have hap : 0 < Real.arccos (x ⬝ᵥ y) := by linarith
  have hn : nrm (y - (x ⬝ᵥ y) • x) = Real.sin (Real.arccos (x ⬝ᵥ y)) := by
    rw [nrm, proju_sub_dot hx.1 hy.1, Real.sin_arccos]
  have h1 := abs_le.1 (abs_dot_le_one hx.1 hy.1)
  have hnl : nrm (logmap P dt x y) = Real.arccos (x ⬝ᵥ y) := by
    rw [logmap_value hP hx hy h, nrm_smul, hn, abs_of_pos (by positivity)]
    field_simp
  rw [expmap, hnl, if_pos ha, Real.cos_arccos h1.1 h1.2, logmap_value hP hx hy h, smul_smul]
  have : Real.sin (Real.arccos (x ⬝ᵥ y)) / Real.arccos (x ⬝ᵥ y) *
      (Real.arccos (x ⬝ᵥ y) / Real.sin (Real.arccos (x ⬝ᵥ y))) = 1 := by field_simp
  rw [this]
  module

/-- `‖log_x y‖ = dist(x,y)` on the same range. -/
theorem C22_norm_log {dt : DType} {x y : Vec n} (hx : OnSphere S x) (hy : OnSphere S y)
    (h : |x ⬝ᵥ y| ≤ 1 - eps dt) : nrm (logmap P dt x y) = dist dt x y := by
  have h0 := eps_pos dt
  have hs := acos_sin_ge h
  have ha := arccos_gt_eps h
  have hsp : 0 < Real.sin (Real.arccos (x ⬝ᵥ y)) := by linarith
  have hap : 0 < Real.arccos (x ⬝ᵥ y) := by linarith
  have hn : nrm (y - (x ⬝ᵥ y) • x) = Real.sin (Real.arccos (x ⬝ᵥ y)) := by
    rw [nrm, proju_sub_dot hx.1 hy.1, Real.sin_arccos]
  rw [logmap_value hP hx hy h, nrm_smul, hn, abs_of_pos (by positivity), C22_dist_eq_arccos h]
  field_simp

/-- `log_x(exp_x u) = u` for tangent vectors shorter than `π` (away from the clamps). -/
theorem C22_log_exp {dt : DType} {x u : Vec n} (hx : OnSphere S x) (hu : Tangent S x u)
    (h1 : Real.arccos (1 - eps dt) ≤ nrm u) (h2 : nrm u ≤ Real.pi - Real.arccos (1 - eps dt)) :
    logmap P dt x (expmap P dt x u) = u := by
  have h0 := eps_pos dt
  have h4 := eps_small dt
  have hag := arccos_eps_gt dt
  have hne : eps dt < nrm u := by linarith
  have hpos : 0 < nrm u := by linarith
  have hltpi : nrm u < Real.pi := by linarith
  have hexp : expmap P dt x u = Real.cos (nrm u) • x + (Real.sin (nrm u) / nrm u) • u := by
    rw [expmap, if_pos hne]
  have hdot : x ⬝ᵥ expmap P dt x u = Real.cos (nrm u) := by
    rw [hexp, dotProduct_add, dotProduct_smul, dotProduct_smul, hx.1, hu.1]; simp
  have hy := (C20_expmap_on_sphere hP dt hx hu).1
  have hcos1 : Real.cos (nrm u) ≤ 1 - eps dt := by
    have := Real.cos_le_cos_of_nonneg_of_le_pi (Real.arccos_nonneg _) hltpi.le h1
    rwa [Real.cos_arccos (by linarith [show (1e-4:ℝ) < 1 by norm_num]) (by linarith)] at this
  have hcos2 : -(1 - eps dt) ≤ Real.cos (nrm u) := by
    have := Real.cos_le_cos_of_nonneg_of_le_pi hpos.le (by linarith) h2
    rwa [Real.cos_pi_sub, Real.cos_arccos (by linarith [show (1e-4:ℝ) < 1 by norm_num])
      (by linarith)] at this
  have hin : |x ⬝ᵥ expmap P dt x u| ≤ 1 - eps dt := by rw [hdot]; exact abs_le.2 ⟨hcos2, hcos1⟩
  have hsin : 0 < Real.sin (nrm u) := Real.sin_pos_of_pos_of_lt_pi hpos hltpi
  rw [logmap_value hP hx hy hin, hdot, Real.arccos_cos hpos.le hltpi.le, hexp, add_sub_cancel_left,
    smul_smul, show nrm u / Real.sin (nrm u) * (Real.sin (nrm u) / nrm u) = 1 by field_simp,
    one_smul]

/-- Below the clamp the logarithm is wrong: for two different points closer than
`arccos(1-EPS)` (but with `sin θ ≥ EPS`) it has the constant length `arccos(1-EPS)` instead
of their angle `θ`, so `exp_x(log_x y)` overshoots `y`. -/
theorem C22_counterexample_log_overshoots {dt : DType} {x y : Vec n} (hx : OnSphere S x)
    (hy : OnSphere S y) (h1 : 1 - eps dt < x ⬝ᵥ y) (h2 : eps dt ^ 2 ≤ 1 - (x ⬝ᵥ y) ^ 2) :
    nrm (logmap P dt x y) = Real.arccos (1 - eps dt) ∧
    Real.arccos (x ⬝ᵥ y) < nrm (logmap P dt x y) ∧
    expmap P dt x (logmap P dt x y) ≠ y := by
  have h0 := eps_pos dt
  have h4 := eps_small dt
  have hag := arccos_eps_gt dt
  have hb := abs_le.1 (abs_dot_le_one hx.1 hy.1)
  have hd : dist dt x y = Real.arccos (1 - eps dt) := by
    rw [dist, inner, clamp, max_eq_left (by linarith [show (1e-4:ℝ) < 1 by norm_num]),
      min_eq_right h1.le]
  have hn : nrm (y - (x ⬝ᵥ y) • x) = Real.sqrt (1 - (x ⬝ᵥ y) ^ 2) := by
    rw [nrm, proju_sub_dot hx.1 hy.1]
  have hge : eps dt ≤ nrm (y - (x ⬝ᵥ y) • x) := by rw [hn]; exact Real.le_sqrt_of_sq_le h2
  have hnp : 0 < nrm (y - (x ⬝ᵥ y) • x) := by linarith
  have hlog : logmap P dt x y = (Real.arccos (1 - eps dt) / nrm (y - (x ⬝ᵥ y) • x)) •
      (y - (x ⬝ᵥ y) • x) := by
    simp only [logmap]
    rw [hd, if_pos (by linarith), proju_sub hP hx hy, max_eq_left hge]
  have hlen : nrm (logmap P dt x y) = Real.arccos (1 - eps dt) := by
    have : 0 < Real.arccos (1 - eps dt) := by linarith [show (0:ℝ) < 1e-4 by norm_num]
    rw [hlog, nrm_smul, abs_of_pos (by positivity)]
    field_simp
  refine ⟨hlen, ?_, ?_⟩
  · rw [hlen]
    exact Real.arccos_lt_arccos (by linarith [show (1e-4:ℝ) < 1 by norm_num]) h1 hb.2
  · intro he
    have hdot : x ⬝ᵥ expmap P dt x (logmap P dt x y) = 1 - eps dt := by
      have ht := (C22_log_tangent hP dt hx y).1
      rw [expmap, hlen, if_pos (by linarith), dotProduct_add, dotProduct_smul, dotProduct_smul, ht,
        hx.1, Real.cos_arccos (by linarith [show (1e-4:ℝ) < 1 by norm_num]) (by linarith)]
      simp
    rw [he] at hdot
    linarith

end

/-- such pairs exist: two points of the circle at the angle `1e-4` (float64), where the
logarithm is more than four times too long -/
example : ∃ x y : Vec 2, OnSphere Set.univ x ∧ OnSphere Set.univ y ∧ 1 - eps .f64 < x ⬝ᵥ y ∧
    eps .f64 ^ 2 ≤ 1 - (x ⬝ᵥ y) ^ 2 := by
  refine ⟨![1, 0], ![Real.cos 1e-4, Real.sin 1e-4], ⟨by simp [dotProduct, Fin.sum_univ_two], trivial⟩,
    ⟨?_, trivial⟩, ?_, ?_⟩
  · simp only [dotProduct, Fin.sum_univ_two, cons_val_zero, cons_val_one]
    have := Real.sin_sq_add_cos_sq 1e-4
    nlinarith
  · simp only [dotProduct, Fin.sum_univ_two, cons_val_zero, cons_val_one]
    have : 1 - (1e-4 : ℝ) ^ 2 / 2 ≤ Real.cos 1e-4 := Real.one_sub_sq_div_two_le_cos
    have e : (1e-4 : ℝ) ^ 2 / 2 < 1e-7 := by norm_num
    simp only [eps]
    linarith
  · simp only [dotProduct, Fin.sum_univ_two, cons_val_zero, cons_val_one, eps]
    have h1 := Real.sin_sq_add_cos_sq 1e-4
    have h2 : (1e-4 : ℝ) - 1e-4 ^ 3 / 6 < Real.sin 1e-4 := by
      exact Real.sin_gt_sub_cube (by norm_num)
    have h3 : (1e-7 : ℝ) ≤ 1e-4 - 1e-4 ^ 3 / 6 := by norm_num
    have h4 : (1e-7 : ℝ) ^ 2 ≤ Real.sin 1e-4 ^ 2 := pow_le_pow_left₀ (by norm_num) (by linarith) 2
    nlinarith

/-- Triangle inequality, clamps included, for all points of the sphere. -/
theorem C22_triangle (dt : DType) {x y z : Vec n} (hx : x ⬝ᵥ x = 1) (hy : y ⬝ᵥ y = 1)
    (hz : z ⬝ᵥ z = 1) : dist dt x z ≤ dist dt x y + dist dt y z := by
  have h0 := eps_pos dt
  have h4 := eps_small dt
  have h41 : (1e-4:ℝ) < 1 := by norm_num
  set a := Real.arccos (1 - eps dt) with ha
  have ha0 : 0 ≤ a := Real.arccos_nonneg _
  have hpa : Real.arccos (-1 + eps dt) = Real.pi - a := by
    rw [ha, ← Real.arccos_neg]; congr 1; ring
  have haM : a ≤ Real.pi - a := by
    rw [← hpa]; exact Real.arccos_le_arccos (by linarith)
  -- the clamped distance is the clamped angle
  have hcl : ∀ {x y : Vec n}, x ⬝ᵥ x = 1 → y ⬝ᵥ y = 1 →
      dist dt x y = min (max (Real.arccos (x ⬝ᵥ y)) a) (Real.pi - a) := by
    intro x y hx hy
    rw [dist, inner, clamp]
    rcases le_total (x ⬝ᵥ y) (-1 + eps dt) with h | h
    · rw [max_eq_right h, min_eq_left (by linarith), hpa]
      have := Real.arccos_le_arccos h
      rw [hpa] at this
      rw [min_eq_right (le_max_of_le_left this)]
    · rw [max_eq_left h]
      have hle := Real.arccos_le_arccos h
      rw [hpa] at hle
      rcases le_total (x ⬝ᵥ y) (1 - eps dt) with h' | h'
      · rw [min_eq_left h', max_eq_left (Real.arccos_le_arccos h'), min_eq_left hle]
      · rw [min_eq_right h', max_eq_right (Real.arccos_le_arccos h'), min_eq_left haM]
  -- the triangle inequality of angles
  have hang : Real.arccos (x ⬝ᵥ z) ≤ Real.arccos (x ⬝ᵥ y) + Real.arccos (y ⬝ᵥ z) := by
    have key : ∀ {u v : Vec n}, u ⬝ᵥ u = 1 → v ⬝ᵥ v = 1 → InnerProductGeometry.angle
        (WithLp.toLp 2 u : EuclideanSpace ℝ (Fin n)) (WithLp.toLp 2 v) = Real.arccos (u ⬝ᵥ v) := by
      intro u v hu hv
      have hi : ∀ a b : Vec n, @Inner.inner ℝ _ _ (WithLp.toLp 2 a : EuclideanSpace ℝ (Fin n))
          (WithLp.toLp 2 b) = a ⬝ᵥ b := by
        intro a b
        rw [EuclideanSpace.inner_eq_star_dotProduct]
        simp [dotProduct_comm]
      have hnm : ∀ a : Vec n, a ⬝ᵥ a = 1 → ‖(WithLp.toLp 2 a : EuclideanSpace ℝ (Fin n))‖ = 1 := by
        intro a h
        rw [norm_eq_sqrt_real_inner, hi, h, Real.sqrt_one]
      rw [InnerProductGeometry.angle, hi, hnm u hu, hnm v hv]
      norm_num
    have := InnerProductGeometry.angle_le_angle_add_angle
      (WithLp.toLp 2 x : EuclideanSpace ℝ (Fin n)) (WithLp.toLp 2 y) (WithLp.toLp 2 z)
    rwa [key hx hz, key hx hy, key hy hz] at this
  rw [hcl hx hz, hcl hx hy, hcl hy hz]
  have hM : 0 ≤ Real.pi - a := by linarith
  set p := max (Real.arccos (x ⬝ᵥ y)) a
  set q := max (Real.arccos (y ⬝ᵥ z)) a
  have hp : Real.arccos (x ⬝ᵥ y) ≤ p := le_max_left _ _
  have hq : Real.arccos (y ⬝ᵥ z) ≤ q := le_max_left _ _
  have hpa' : a ≤ p := le_max_right _ _
  have hqa' : a ≤ q := le_max_right _ _
  have h1 : max (Real.arccos (x ⬝ᵥ z)) a ≤ p + q := max_le (by linarith) (by linarith)
  rcases le_total p (Real.pi - a) with h | h
  · rcases le_total q (Real.pi - a) with h' | h'
    · rw [min_eq_left h, min_eq_left h']
      exact (min_le_left _ _).trans h1
    · rw [min_eq_right h', min_eq_left h]
      have := min_le_right (max (Real.arccos (x ⬝ᵥ z)) a) (Real.pi - a)
      linarith
  · rw [min_eq_right h]
    have := min_le_right (max (Real.arccos (x ⬝ᵥ z)) a) (Real.pi - a)
    have : 0 ≤ min q (Real.pi - a) := le_min (by linarith) hM
    linarith

/-! ### C23 the subspace projectors -/

lemma qr_mem {m : ℕ} {A Q : Matrix (Fin n) (Fin m) ℝ} {R : Matrix (Fin m) (Fin m) ℝ}
    (h : IsQR A Q R) (hinj : ∀ c, A *ᵥ c = 0 → c = 0) : colSpace A = colSpace Q := by
  have hR : ∀ c, R *ᵥ c = 0 → c = 0 := by
    intro c hc
    apply hinj
    rw [h.2, ← mulVec_mulVec, hc, mulVec_zero]
  have hu : IsUnit R := by
    rw [← Matrix.mulVec_injective_iff_isUnit]
    intro a b hab
    exact sub_eq_zero.1 (hR _ (by simpa [mulVec_sub, sub_eq_zero] using hab))
  have hdet : IsUnit R.det := (Matrix.isUnit_iff_isUnit_det R).1 hu
  ext v
  constructor
  · rintro ⟨c, rfl⟩
    exact ⟨R *ᵥ c, by simp [h.2]⟩
  · rintro ⟨c, rfl⟩
    refine ⟨R⁻¹ *ᵥ c, ?_⟩
    simp only [h.2, mulVec_mulVec, Matrix.mul_assoc, Matrix.mul_nonsing_inv R hdet, Matrix.mul_one]

/-- For a basis (linearly independent columns) of the subspace, `intersection=` stores the
orthogonal projector on its span. -/
theorem C23_intersection_projector {m : ℕ} {A Q : Matrix (Fin n) (Fin m) ℝ}
    {R : Matrix (Fin m) (Fin m) ℝ} (h : IsQR A Q R) (hinj : ∀ c, A *ᵥ c = 0 → c = 0) :
    Projects (colSpace A) (some (intersectionProjector Q)) := by
  rw [qr_mem h hinj]
  refine ⟨fun v => ⟨Qᵀ *ᵥ v, by simp [intersectionProjector]⟩, ?_, ?_⟩
  · rintro v ⟨c, rfl⟩
    simp only [intersectionProjector, mulVec_mulVec, Matrix.mul_assoc, h.1, Matrix.mul_one]
  · rintro v w ⟨c, rfl⟩
    have e : ∀ u : Vec n, u ⬝ᵥ (Q *ᵥ c) = (Qᵀ *ᵥ u) ⬝ᵥ c := by
      intro u; rw [dotProduct_mulVec, mulVec_transpose]
    have : Qᵀ *ᵥ (v - intersectionProjector Q *ᵥ v) = 0 := by
      rw [mulVec_sub, intersectionProjector, mulVec_mulVec, ← Matrix.mul_assoc, h.1, Matrix.one_mul,
        sub_self]
    rw [e, this, zero_dotProduct]

/-- `complement=` stores the orthogonal projector on the orthogonal complement. -/
theorem C23_complement_projector {m : ℕ} {A Q : Matrix (Fin n) (Fin m) ℝ}
    {R : Matrix (Fin m) (Fin m) ℝ} (h : IsQR A Q R) (hinj : ∀ c, A *ᵥ c = 0 → c = 0) :
    Projects (colOrth A) (some (complementProjector Q)) := by
  have hcs := qr_mem h hinj
  have hco : colOrth A = {v | Qᵀ *ᵥ v = 0} := by
    ext v
    constructor
    · intro hv
      apply dot_self_eq_zero.1
      have hq : Q *ᵥ (Qᵀ *ᵥ v) ∈ colSpace A := by rw [hcs]; exact ⟨_, rfl⟩
      obtain ⟨c, hc⟩ := hq
      have := hv c
      simp only at hc
      rw [hc, dotProduct_comm, dotProduct_mulVec, ← mulVec_transpose] at this
      exact this
    · intro hv c
      have hq : A *ᵥ c ∈ colSpace Q := by rw [← hcs]; exact ⟨_, rfl⟩
      obtain ⟨d, hd⟩ := hq
      simp only at hd
      rw [← hd, dotProduct_comm, dotProduct_mulVec, ← mulVec_transpose, hv, zero_dotProduct]
  have hcp : complementProjector Q = 1 - Q * Qᵀ := by
    ext i j
    simp only [complementProjector, Matrix.neg_apply, Matrix.sub_apply, Matrix.one_apply]
    ring
  rw [hco, hcp]
  refine ⟨fun v => ?_, fun v hv => ?_, fun v w hw => ?_⟩
  · change Qᵀ *ᵥ _ = 0
    rw [sub_mulVec, one_mulVec, mulVec_sub, mulVec_mulVec, ← Matrix.mul_assoc, h.1, Matrix.one_mul,
      sub_self]
  · rw [sub_mulVec, one_mulVec, ← mulVec_mulVec, show Qᵀ *ᵥ v = 0 from hv, mulVec_zero, sub_zero]
  · rw [sub_mulVec, one_mulVec, sub_sub_cancel, ← mulVec_mulVec, dotProduct_comm, dotProduct_mulVec,
      ← mulVec_transpose, show Qᵀ *ᵥ w = 0 from hw, zero_dotProduct]

/-- With linearly dependent columns the projector is too large: for the span of `e₁` given
by the two columns `e₁, e₁`, a legal QR gives a projector that keeps `e₂`. -/
theorem C23_counterexample_dependent_columns :
    ∃ (A Q : Matrix (Fin 3) (Fin 2) ℝ) (R : Matrix (Fin 2) (Fin 2) ℝ), IsQR A Q R ∧
      ¬ Projects (colSpace A) (some (intersectionProjector Q)) := by
  refine ⟨!![1, 1; 0, 0; 0, 0], !![1, 0; 0, 1; 0, 0], !![1, 1; 0, 0], ⟨?_, ?_⟩, ?_⟩
  · ext i j
    fin_cases i <;> fin_cases j <;> simp [Matrix.mul_apply, Fin.sum_univ_three]
  · ext i j
    fin_cases i <;> fin_cases j <;> simp [Matrix.mul_apply, Fin.sum_univ_two]
  · intro h
    obtain ⟨c, hc⟩ := IsOrthProjector.mem h ![0, 1, 0]
    have h1 := congrFun hc 1
    simp [intersectionProjector, mulVec, dotProduct, Fin.sum_univ_two, Fin.sum_univ_three,
      Matrix.mul_apply] at h1

/-- With either constraint every operation stays in the subspace. -/
theorem C23_operations_stay {S : Set (Vec n)} {P : Matrix (Fin n) (Fin n) ℝ}
    (hP : Projects S (some P)) (dt : DType) {x u : Vec n} (hx : OnSphere S x) (hu : Tangent S x u)
    (y w : Vec n) :
    projx (some P) y ∈ S ∧ proju (some P) y w ∈ S ∧ retr (some P) x u ∈ S ∧
    expmap (some P) dt x u ∈ S ∧ logmap (some P) dt x y ∈ S ∧ transp (some P) x y w ∈ S :=
  ⟨smul_mem hP (pos_mem hP y) _, pos_mem hP _, (C20_retr_on_sphere hP hx hu).2,
    (C20_expmap_on_sphere hP dt hx hu).1.2, (C22_log_tangent hP dt hx y).2, pos_mem hP _⟩

/-- The tangent check ignores the subspace: a vector outside of it is accepted. -/
theorem C23_tangent_check_ignores_subspace :
    ∃ (S : Set (Vec 3)) (P : Matrix (Fin 3) (Fin 3) ℝ) (x u : Vec 3),
      Projects S (some P) ∧ OnSphere S x ∧ CheckTangent 0 0 x u ∧ ¬ Tangent S x u := by
  refine ⟨{v | v 2 = 0}, !![1, 0, 0; 0, 1, 0; 0, 0, 0], ![1, 0, 0], ![0, 0, 1], ⟨?_, ?_, ?_⟩, ?_, ?_, ?_⟩
  · intro v; simp [mulVec, dotProduct, Fin.sum_univ_three]
  · intro v hv
    funext i
    have h : v 2 = 0 := hv
    fin_cases i <;> simp [mulVec, dotProduct, Fin.sum_univ_three, h]
  · intro v w hw
    have h : w 2 = 0 := hw
    simp [mulVec, dotProduct, Fin.sum_univ_three, h]
  · exact ⟨by simp [dotProduct, Fin.sum_univ_three], by simp⟩
  · simp [CheckTangent, inner, dotProduct, Fin.sum_univ_three]
  · rintro ⟨_, h⟩; simp at h

/-- Non-trivial instance of the hypotheses: the circle in the plane `z = 0`. -/
example : ∃ (A Q : Matrix (Fin 3) (Fin 2) ℝ) (R : Matrix (Fin 2) (Fin 2) ℝ) (x u : Vec 3),
    IsQR A Q R ∧ (∀ c, A *ᵥ c = 0 → c = 0) ∧ OnSphere (colSpace A) x ∧ Tangent (colSpace A) x u ∧
    u ≠ 0 := by
  refine ⟨!![1, 1; 0, 1; 0, 0], !![1, 0; 0, 1; 0, 0], !![1, 1; 0, 1], ![1, 0, 0], ![0, 2, 0],
    ⟨?_, ?_⟩, ?_, ⟨?_, ![1, 0], ?_⟩, ⟨?_, ![-2, 2], ?_⟩, ?_⟩
  · ext i j
    fin_cases i <;> fin_cases j <;> simp [Matrix.mul_apply, Fin.sum_univ_three]
  · ext i j
    fin_cases i <;> fin_cases j <;> simp [Matrix.mul_apply, Fin.sum_univ_two]
  · intro c hc
    have h0 := congrFun hc 0
    have h1 := congrFun hc 1
    simp [mulVec, dotProduct, Fin.sum_univ_two] at h0 h1
    funext i
    fin_cases i
    · simp; linarith
    · simpa using h1
  · simp [dotProduct, Fin.sum_univ_three]
  · funext i; fin_cases i <;> simp [mulVec, dotProduct, Fin.sum_univ_two]
  · simp [dotProduct, Fin.sum_univ_three]
  · funext i; fin_cases i <;> simp [mulVec, dotProduct, Fin.sum_univ_two]
  · intro h; have := congrFun h 1; simp at this

end Geoopt.Sphere
