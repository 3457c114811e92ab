import Verif.Model.Stereo
import Verif.Model.Sphere
import Verif.Model.Lorentz
import Verif.Spec.Stereo
import Verif.Spec.Lorentz
import Mathlib.Topology.Instances.Matrix
import Mathlib.Topology.Order.OrderClosed
import Mathlib.Analysis.SpecialFunctions.Trigonometric.Inverse
import Mathlib.Analysis.SpecialFunctions.Trigonometric.Bounds
import Mathlib.Analysis.Real.Pi.Bounds
import Verif.Lemmas.Lorentz
import Verif.Lemmas.Vec

/-!
# C129: the operations do not jump
-/

namespace Geoopt.C129

open Geoopt

variable {n : ℕ}

section
variable {X : Type} [TopologicalSpace X] {f g h : X → Vec n} {r s : X → ℝ}

@[fun_prop]
theorem c_dot (hf : Continuous f) (hg : Continuous g) : Continuous fun a => f a ⬝ᵥ g a :=
  hf.dotProduct hg

@[fun_prop]
theorem c_nrm (hf : Continuous f) : Continuous fun a => nrm (f a) := by
  unfold nrm; fun_prop

theorem max_ne (t : ℝ) : max t 1e-15 ≠ 0 :=
  ne_of_gt (lt_of_lt_of_le (by norm_num) (le_max_right _ _))

@[fun_prop]
theorem c_maxInv (hr : Continuous r) : Continuous fun a => (max (r a) 1e-15)⁻¹ :=
  (hr.max continuous_const).inv₀ fun a => max_ne _

end

/-! ## Stereographic -/

section stereo
open Geoopt.Stereo
variable {X : Type} [TopologicalSpace X] {f g h : X → Vec n} {r s : X → ℝ}

theorem lambdaX_ne (k : ℝ) (x : Vec n) : lambdaX k x ≠ 0 := div_ne_zero two_ne_zero (max_ne _)

@[fun_prop]
theorem c_lambdaX (k : ℝ) (hf : Continuous f) : Continuous fun a => lambdaX k (f a) := by
  unfold lambdaX
  simp only [div_eq_mul_inv]
  fun_prop

@[fun_prop]
theorem c_lambdaXInv (k : ℝ) (hf : Continuous f) : Continuous fun a => (lambdaX k (f a))⁻¹ :=
  (c_lambdaX k hf).inv₀ fun a => lambdaX_ne _ _

@[fun_prop]
theorem c_mobiusAdd (k : ℝ) (hf : Continuous f) (hg : Continuous g) :
    Continuous fun a => mobiusAdd k (f a) (g a) := by
  unfold mobiusAdd mobDenom
  fun_prop

@[fun_prop]
theorem c_gyration (k : ℝ) (hf : Continuous f) (hg : Continuous g) (hh : Continuous h) :
    Continuous fun a => gyration k (f a) (g a) (h a) := by
  unfold gyration
  fun_prop

@[fun_prop]
theorem c_artanK (η k : ℝ) (hr : Continuous r) : Continuous fun a => artanK η k (r a) := by
  unfold artanK
  split_ifs with h1 h2
  · unfold artanKTaylor; fun_prop
  · unfold artanhC
    refine continuous_const.mul (Continuous.mul (Continuous.sub ?_ ?_) continuous_const)
    all_goals
      refine Continuous.log (by unfold clamp; fun_prop) fun x => ne_of_gt ?_
      unfold clamp
    · have : (-1 + 1e-7 : ℝ) ≤ min (max (r x * kSqrt η k) (-1 + 1e-7)) (1 - 1e-7) :=
        le_min (le_max_right _ _) (by norm_num)
      linarith
    · have : min (max (r x * kSqrt η k) (-1 + 1e-7)) (1 - 1e-7) ≤ 1 - 1e-7 := min_le_right _ _
      linarith
  · exact continuous_const.mul (Real.continuous_arctan.comp (by fun_prop))

theorem c_tanK (η : ℝ) {k : ℝ} (hk : k ≤ 1e-8) (hr : Continuous r) :
    Continuous fun a => tanK η k (r a) := by
  unfold tanK
  split_ifs with h1 h2
  · unfold tanKTaylor; fun_prop
  · unfold tanhC clamp
    refine continuous_const.mul ?_
    simp only [Real.tanh_eq_sinh_div_cosh]
    exact Continuous.div (by fun_prop) (by fun_prop) fun x => ne_of_gt (Real.cosh_pos _)
  · exfalso; apply h1; unfold KZero; rw [abs_of_nonneg (not_lt.1 h2)]; exact hk

theorem c_project (η k : ℝ) (dt : DType) : Continuous fun x : Vec n => project η dt k x := by
  have h2 : Continuous fun x : Vec n => maxNorm η dt k • ((max (nrm x) 1e-15)⁻¹ • x) := by fun_prop
  have h3 : Continuous fun x : Vec n => max (nrm x) 1e-15 := by fun_prop
  have := Continuous.if_le (f' := fun x : Vec n => x) continuous_id h2 h3
    (continuous_const (y := maxNorm η dt k))
    (fun x hx => by rw [← hx, smul_smul, mul_inv_cancel₀ (max_ne _), one_smul])
  refine this.congr fun x => ?_
  unfold project
  simp only [gt_iff_lt]
  by_cases hx : max (nrm x) 1e-15 ≤ maxNorm η dt k
  · rw [if_pos hx, if_neg (not_lt.2 hx)]
  · rw [if_neg hx, if_pos (not_le.1 hx)]

/-- **C129.** The stereographic model, any curvature: inner products, norms, Möbius addition and
coaddition, gyration, distances, logarithms, parallel transports, gradients and the projection to the
ball are continuous in all arguments, everywhere. -/
theorem C129_stereographic (η k : ℝ) (dt : DType) :
    (Continuous fun p : Vec n × Vec n × Vec n => Stereo.inner k p.1 p.2.1 p.2.2) ∧
    (Continuous fun p : Vec n × Vec n => Stereo.norm k p.1 p.2) ∧
    (Continuous fun p : Vec n × Vec n => mobiusAdd k p.1 p.2) ∧
    (Continuous fun p : Vec n × Vec n => mobiusCoadd k p.1 p.2) ∧
    (Continuous fun p : Vec n × Vec n × Vec n => gyration k p.1 p.2.1 p.2.2) ∧
    (Continuous fun p : Vec n × Vec n => Stereo.dist η k p.1 p.2) ∧
    (Continuous fun x : Vec n => Stereo.dist0 η k x) ∧
    (Continuous fun p : Vec n × Vec n => Stereo.logmap η k p.1 p.2) ∧
    (Continuous fun y : Vec n => Stereo.logmap0 η k y) ∧
    (Continuous fun p : Vec n × Vec n × Vec n => Stereo.transp k p.1 p.2.1 p.2.2) ∧
    (Continuous fun p : Vec n × Vec n => Stereo.transp0 k p.1 p.2) ∧
    (Continuous fun p : Vec n × Vec n => Stereo.transp0back k p.1 p.2) ∧
    (Continuous fun p : Vec n × Vec n => Stereo.egrad2rgrad k p.1 p.2) ∧
    (Continuous fun x : Vec n => project η dt k x) := by
  refine ⟨?_, ?_, ?_, ?_, ?_, ?_, ?_, ?_, ?_, ?_, ?_, ?_, ?_, c_project η k dt⟩
  · unfold Stereo.inner; fun_prop
  · unfold Stereo.norm; fun_prop
  · fun_prop
  · unfold mobiusCoadd; fun_prop
  · fun_prop
  · unfold Stereo.dist; fun_prop
  · unfold Stereo.dist0; fun_prop
  · unfold Stereo.logmap
    simp only [mul_inv]
    fun_prop
  · unfold Stereo.logmap0; dsimp only; fun_prop
  · unfold Stereo.transp
    simp only [div_eq_mul_inv]
    fun_prop
  · unfold Stereo.transp0; fun_prop
  · unfold Stereo.transp0back; fun_prop
  · unfold Stereo.egrad2rgrad
    simp only [← inv_pow]
    fun_prop

/-- **C129.** The stereographic model with curvature at most `1e-8` (hyperbolic and flat): exponential
maps, geodesics and Möbius multiplication by numbers and matrices are continuous in all arguments,
everywhere. -/
theorem C129_stereographic_exp (η : ℝ) {k : ℝ} (hk : k ≤ 1e-8) {m : ℕ} :
    (Continuous fun p : Vec n × Vec n => Stereo.expmap η k p.1 p.2) ∧
    (Continuous fun u : Vec n => Stereo.expmap0 η k u) ∧
    (Continuous fun p : ℝ × Vec n => mobiusScalarMul η k p.1 p.2) ∧
    (Continuous fun p : ℝ × Vec n × Vec n => Stereo.geodesic η k p.1 p.2.1 p.2.2) ∧
    (Continuous fun p : ℝ × Vec n × Vec n => Stereo.geodesicUnit η k p.1 p.2.1 p.2.2) ∧
    (Continuous fun p : Matrix (Fin m) (Fin n) ℝ × Vec n => mobiusMatvec η k p.1 p.2) := by
  refine ⟨?_, ?_, ?_, ?_, ?_, ?_⟩
  · unfold Stereo.expmap
    refine c_mobiusAdd k (by fun_prop) (Continuous.smul (c_tanK η hk ?_) (by fun_prop))
    simp only [div_eq_mul_inv]
    fun_prop
  · unfold Stereo.expmap0
    exact Continuous.smul (c_tanK η hk (by fun_prop)) (by fun_prop)
  · unfold mobiusScalarMul
    exact Continuous.smul (c_tanK η hk (by fun_prop)) (by fun_prop)
  · unfold Stereo.geodesic mobiusScalarMul
    exact c_mobiusAdd k (by fun_prop) (Continuous.smul (c_tanK η hk (by fun_prop)) (by fun_prop))
  · unfold Stereo.geodesicUnit
    exact c_mobiusAdd k (by fun_prop) (Continuous.smul (c_tanK η hk (by fun_prop)) (by fun_prop))
  · have hmv : Continuous fun p : Matrix (Fin m) (Fin n) ℝ × Vec n => p.1.mulVec p.2 :=
      continuous_fst.matrix_mulVec continuous_snd
    have : Continuous fun p : Matrix (Fin m) (Fin n) ℝ × Vec n =>
        tanK η k (max (nrm (p.1.mulVec p.2)) 1e-15 / max (nrm p.2) 1e-15 *
          artanK η k (max (nrm p.2) 1e-15)) •
          ((max (nrm (p.1.mulVec p.2)) 1e-15)⁻¹ • p.1.mulVec p.2) := by
      simp only [div_eq_mul_inv]
      exact Continuous.smul (c_tanK η hk (by fun_prop)) (by fun_prop)
    refine this.congr fun p => ?_
    unfold mobiusMatvec
    dsimp only
    split_ifs with h
    · have h0 : p.1.mulVec p.2 = 0 := funext h
      rw [h0, smul_zero, smul_zero]
    · rfl

theorem c_tanK_on (η k : ℝ) {S : Set X} (hr : ContinuousOn r S)
    (hS : ∀ a ∈ S, |r a * kSqrt η k| < Real.pi / 2) : ContinuousOn (fun a => tanK η k (r a)) S := by
  by_cases hk : k ≤ 1e-8
  · exact (c_tanK η hk continuous_id).comp_continuousOn hr
  · have h1 : ¬ KZero k := by
      unfold KZero; intro h; exact hk ((le_abs_self k).trans h)
    have h2 : ¬ k < 0 := fun h => hk (h.le.trans (by norm_num))
    unfold tanK
    simp only [if_neg h1, if_neg h2]
    refine continuousOn_const.mul (Real.continuousOn_tan_Ioo.comp
      (ContinuousOn.inf (f := fun a => r a * kSqrt η k) (g := fun _ => (1e38 : ℝ))
        (hr.mul continuousOn_const) continuousOn_const) fun a ha => ?_)
    have := abs_lt.1 (hS a ha)
    refine ⟨lt_min this.1 (by have := Real.pi_pos; linarith), lt_of_le_of_lt (min_le_left _ _) this.2⟩

/-- **C129.** The stereographic model with any curvature: the exponential map is continuous up to the
distance at which its geodesics pass the point that the chart does not have (a quarter of a great circle, in the
angle `√k |u| λ(x)/2`). -/
theorem C129_stereographic_sphere (η k : ℝ) :
    (ContinuousOn (fun p : Vec n × Vec n => Stereo.expmap η k p.1 p.2)
      {p | |lambdaX k p.1 / 2 * max (nrm p.2) 1e-15 * kSqrt η k| < Real.pi / 2}) ∧
    (ContinuousOn (fun u : Vec n => Stereo.expmap0 η k u)
      {u | |max (nrm u) 1e-15 * kSqrt η k| < Real.pi / 2}) := by
  constructor
  · have h1 : ContinuousOn (fun p : Vec n × Vec n =>
        tanK η k (lambdaX k p.1 / 2.0 * max (nrm p.2) 1e-15))
        {p | |lambdaX k p.1 / 2 * max (nrm p.2) 1e-15 * kSqrt η k| < Real.pi / 2} := by
      refine c_tanK_on η k ?_ ?_
      · simp only [div_eq_mul_inv]
        exact Continuous.continuousOn (by fun_prop)
      · intro p hp
        rw [show (2.0 : ℝ) = 2 by norm_num]
        exact hp
    have h2 : Continuous fun q : Vec n × Vec n => mobiusAdd k q.1 q.2 := by fun_prop
    have h3 : Continuous fun p : Vec n × Vec n => (max (nrm p.2) 1e-15)⁻¹ • p.2 := by fun_prop
    have h5 : ContinuousOn (fun p : Vec n × Vec n =>
        (p.1, tanK η k (lambdaX k p.1 / 2.0 * max (nrm p.2) 1e-15) • ((max (nrm p.2) 1e-15)⁻¹ • p.2)))
        {p | |lambdaX k p.1 / 2 * max (nrm p.2) 1e-15 * kSqrt η k| < Real.pi / 2} :=
      continuousOn_fst.prodMk (h1.smul h3.continuousOn)
    have h6 := h2.comp_continuousOn h5
    exact h6
  · unfold Stereo.expmap0
    have h3 : Continuous fun p : Vec n => (max (nrm p) 1e-15)⁻¹ • p := by fun_prop
    exact (c_tanK_on η k (Continuous.continuousOn (by fun_prop)) fun a ha => ha).smul h3.continuousOn

theorem c_arsinK (η : ℝ) {k : ℝ} (hk : k ≤ 1e-8) (hr : Continuous r) :
    Continuous fun a => arsinK η k (r a) := by
  unfold arsinK
  by_cases h1 : KZero k
  · simp only [if_pos h1]
    unfold arsinKTaylor
    dsimp only
    fun_prop
  · have h2 : k < 0 := by
      by_contra h2
      refine h1 ?_
      unfold KZero
      rwa [abs_of_nonneg (not_lt.1 h2)]
    simp only [if_neg h1, if_pos h2]
    unfold arsinhC
    refine continuous_const.mul (Continuous.log (by fun_prop) fun a => ?_)
    exact ne_of_gt (lt_max_of_lt_right (by norm_num))

/-- **C129.** Curvatures that are not positive: the distance to a plane is continuous at all planes and points for which
`1 + k |−p ⊕ x|²` is not negative (in particular inside the ball). -/
theorem C129_dist2plane (η : ℝ) {k : ℝ} (hk : k ≤ 1e-8) (signed scaled : Bool) :
    ContinuousOn (fun q : Vec n × Vec n × Vec n => Stereo.dist2plane η k q.1 q.2.1 q.2.2 signed scaled)
      {q | 0 ≤ 1 + k * max (mobiusAdd k (-q.2.2) q.1 ⬝ᵥ mobiusAdd k (-q.2.2) q.1) 1e-15} := by
  have hden : Continuous fun q : Vec n × Vec n × Vec n =>
      (|(1 + k * max (mobiusAdd k (-q.2.2) q.1 ⬝ᵥ mobiusAdd k (-q.2.2) q.1) 1e-15) * nrm q.2.1| + 1e-15)⁻¹ := by
    refine Continuous.inv₀ (by fun_prop) fun q => ?_
    have := abs_nonneg ((1 + k * max (mobiusAdd k (-q.2.2) q.1 ⬝ᵥ mobiusAdd k (-q.2.2) q.1) 1e-15) * nrm q.2.1)
    exact ne_of_gt (by linarith [show (0 : ℝ) < 1e-15 by norm_num])
  have hs : Continuous fun q : Vec n × Vec n × Vec n =>
      (if signed = true then mobiusAdd k (-q.2.2) q.1 ⬝ᵥ q.2.1
        else |mobiusAdd k (-q.2.2) q.1 ⬝ᵥ q.2.1|) := by
    cases signed <;> simp <;> fun_prop
  have hd := c_arsinK η hk ((continuous_const (y := (2.0 : ℝ))).mul hs |>.mul hden)
  have hfin : Continuous fun q : Vec n × Vec n × Vec n =>
      (if scaled = true then arsinK η k (2.0 * (if signed = true then mobiusAdd k (-q.2.2) q.1 ⬝ᵥ q.2.1
        else |mobiusAdd k (-q.2.2) q.1 ⬝ᵥ q.2.1|) * (|(1 + k * max (mobiusAdd k (-q.2.2) q.1 ⬝ᵥ
          mobiusAdd k (-q.2.2) q.1) 1e-15) * nrm q.2.1| + 1e-15)⁻¹) * nrm q.2.1
      else arsinK η k (2.0 * (if signed = true then mobiusAdd k (-q.2.2) q.1 ⬝ᵥ q.2.1
        else |mobiusAdd k (-q.2.2) q.1 ⬝ᵥ q.2.1|) * (|(1 + k * max (mobiusAdd k (-q.2.2) q.1 ⬝ᵥ
          mobiusAdd k (-q.2.2) q.1) 1e-15) * nrm q.2.1| + 1e-15)⁻¹)) := by
    have hn : Continuous fun q : Vec n × Vec n × Vec n => nrm q.2.1 := by fun_prop
    cases scaled
    · exact hd
    · exact hd.mul hn
  refine hfin.continuousOn.congr fun q hq => ?_
  have hnn : 0 ≤ (1 + k * max (mobiusAdd k (-q.2.2) q.1 ⬝ᵥ mobiusAdd k (-q.2.2) q.1) 1e-15) * nrm q.2.1 :=
    mul_nonneg hq (Real.sqrt_nonneg _)
  unfold Stereo.dist2plane clampAbs sabs
  dsimp only
  rw [usign_of_nonneg hnn, one_mul, div_eq_mul_inv]

end stereo

/-! ## Sphere -/

section sphere
open Geoopt.Sphere Matrix

variable {X : Type} [TopologicalSpace X] {f g : X → Vec n}

@[fun_prop]
theorem c_subspace (P : Option (Matrix (Fin n) (Fin n) ℝ)) (hf : Continuous f) :
    Continuous fun a => projectOnSubspace P (f a) := by
  unfold projectOnSubspace
  cases P with
  | none => exact hf
  | some P => exact hf.matrix_vecMul continuous_const

@[fun_prop]
theorem c_proju (P : Option (Matrix (Fin n) (Fin n) ℝ)) (hf : Continuous f) (hg : Continuous g) :
    Continuous fun a => Sphere.proju P (f a) (g a) := by
  unfold Sphere.proju; fun_prop

theorem nrm_ne {x : Vec n} (h : x ≠ 0) : nrm x ≠ 0 := by
  unfold nrm
  have : 0 < x ⬝ᵥ x := by
    obtain ⟨i, hi⟩ := Function.ne_iff.1 h
    exact Finset.sum_pos' (fun i _ => mul_self_nonneg _) ⟨i, Finset.mem_univ _, mul_self_pos.2 hi⟩
  exact ne_of_gt (Real.sqrt_pos.2 this)

theorem eps_pos (dt : DType) : 0 < eps dt ∧ eps dt < 1 := by cases dt <;> norm_num [eps]

theorem eps_lt_arccos (dt : DType) : eps dt < Real.arccos (1 - eps dt) := by
  obtain ⟨h0, h1⟩ := eps_pos dt
  have h2 : 1 - eps dt < Real.cos (eps dt) := by
    have := Real.one_sub_sq_div_two_le_cos (x := eps dt)
    nlinarith
  have h3 : Real.arccos (Real.cos (eps dt)) = eps dt :=
    Real.arccos_cos h0.le (by linarith [Real.pi_gt_three])
  rw [← h3]
  conv_rhs => rw [h3]
  exact Real.strictAntiOn_arccos ⟨by linarith, by linarith⟩
    ⟨Real.neg_one_le_cos _, Real.cos_le_one _⟩ h2

theorem eps_lt_dist (dt : DType) (x y : Vec n) : eps dt < Sphere.dist dt x y := by
  refine (eps_lt_arccos dt).trans_le ?_
  unfold Sphere.dist clamp
  exact Real.arccos_le_arccos (min_le_right _ _)

/-- **C129.** The sphere, with or without a subspace: inner products, tangent projections, transports,
distances and logarithms are continuous everywhere, projections to the sphere and retractions wherever they do not
divide by zero, and the exponential map wherever the length of the vector is not exactly the threshold
`EPS` at which the code changes from the exponential map to the retraction. -/
theorem C129_sphere (P : Option (Matrix (Fin n) (Fin n) ℝ)) (dt : DType) :
    (Continuous fun p : Vec n × Vec n × Vec n => Sphere.inner p.1 p.2.1 p.2.2) ∧
    (Continuous fun p : Vec n × Vec n => Sphere.proju P p.1 p.2) ∧
    (Continuous fun p : Vec n × Vec n × Vec n => Sphere.transp P p.1 p.2.1 p.2.2) ∧
    (Continuous fun p : Vec n × Vec n => Sphere.dist dt p.1 p.2) ∧
    (Continuous fun p : Vec n × Vec n => Sphere.logmap P dt p.1 p.2) ∧
    (ContinuousOn (fun x : Vec n => Sphere.projx P x) {x | projectOnSubspace P x ≠ 0}) ∧
    (ContinuousOn (fun p : Vec n × Vec n => Sphere.retr P p.1 p.2)
      {p | projectOnSubspace P (p.1 + p.2) ≠ 0}) ∧
    (ContinuousOn (fun p : Vec n × Vec n => Sphere.expmap P dt p.1 p.2)
      {p | nrm p.2 ≠ eps dt ∧ projectOnSubspace P (p.1 + p.2) ≠ 0}) := by
  have hd : Continuous fun p : Vec n × Vec n => Sphere.dist dt p.1 p.2 := by
    unfold Sphere.dist clamp Sphere.inner
    exact Real.continuous_arccos.comp (by fun_prop)
  have hx : ContinuousOn (fun x : Vec n => Sphere.projx P x) {x | projectOnSubspace P x ≠ 0} := by
    have h1 : Continuous fun x : Vec n => nrm (projectOnSubspace P x) := by fun_prop
    have h2 : Continuous fun x : Vec n => projectOnSubspace P x := by fun_prop
    exact (h1.continuousOn.inv₀ fun x hx => nrm_ne hx).smul h2.continuousOn
  have hr : ContinuousOn (fun p : Vec n × Vec n => Sphere.retr P p.1 p.2)
      {p | projectOnSubspace P (p.1 + p.2) ≠ 0} :=
    hx.comp (Continuous.continuousOn (by fun_prop : Continuous fun p : Vec n × Vec n => p.1 + p.2))
      fun p hp => hp
  refine ⟨?_, ?_, ?_, hd, ?_, hx, hr, ?_⟩
  · unfold Sphere.inner; fun_prop
  · fun_prop
  · unfold Sphere.transp; fun_prop
  · have h1 : Continuous fun p : Vec n × Vec n =>
        (Sphere.dist dt p.1 p.2 / max (nrm (Sphere.proju P p.1 (p.2 - p.1))) (eps dt)) •
          Sphere.proju P p.1 (p.2 - p.1) := by
      refine Continuous.smul (hd.div (by fun_prop) fun p => ?_) (by fun_prop)
      exact ne_of_gt (lt_of_lt_of_le (eps_pos dt).1 (le_max_right _ _))
    refine h1.congr fun p => ?_
    unfold Sphere.logmap
    dsimp only
    rw [if_pos (eps_lt_dist dt p.1 p.2)]
  · intro p hp
    have hnc : Continuous fun q : Vec n × Vec n => nrm q.2 := by fun_prop
    rcases lt_or_gt_of_ne hp.1 with hlt | hgt
    · have hev : ∀ᶠ q in nhdsWithin p {p | nrm p.2 ≠ eps dt ∧ projectOnSubspace P (p.1 + p.2) ≠ 0},
          Sphere.retr P q.1 q.2 = Sphere.expmap P dt q.1 q.2 := by
        filter_upwards [nhdsWithin_le_nhds (hnc.continuousAt.eventually_lt continuousAt_const hlt)] with q hq
        unfold Sphere.expmap
        rw [if_neg (not_lt.2 hq.le)]
        rfl
      refine ContinuousWithinAt.congr_of_eventuallyEq ((hr p hp.2).mono fun q hq => hq.2)
        (hev.mono fun q hq => hq.symm) ?_
      unfold Sphere.expmap
      rw [if_neg (not_lt.2 hlt.le)]; rfl
    · have hev : ∀ᶠ q in nhdsWithin p {p | nrm p.2 ≠ eps dt ∧ projectOnSubspace P (p.1 + p.2) ≠ 0},
          Real.cos (nrm q.2) • q.1 + (Real.sin (nrm q.2) / nrm q.2) • q.2 =
            Sphere.expmap P dt q.1 q.2 := by
        filter_upwards [nhdsWithin_le_nhds (continuousAt_const.eventually_lt hnc.continuousAt hgt)] with q hq
        unfold Sphere.expmap
        rw [if_pos hq]
      have hc : ContinuousAt (fun q : Vec n × Vec n =>
          Real.cos (nrm q.2) • q.1 + (Real.sin (nrm q.2) / nrm q.2) • q.2) p := by
        have h1 : Continuous fun q : Vec n × Vec n => Real.cos (nrm q.2) • q.1 := by fun_prop
        have h2 : Continuous fun q : Vec n × Vec n => Real.sin (nrm q.2) := by fun_prop
        exact h1.continuousAt.add ((h2.continuousAt.div hnc.continuousAt
          (ne_of_gt ((eps_pos dt).1.trans hgt))).smul continuousAt_snd)
      refine ContinuousWithinAt.congr_of_eventuallyEq hc.continuousWithinAt
        (hev.mono fun q hq => hq.symm) ?_
      unfold Sphere.expmap
      rw [if_pos hgt]

end sphere

/-! ## Hyperboloid -/

section lorentz
open Geoopt.Lorentz Matrix

variable {X : Type} [TopologicalSpace X] {f g : X → Vec (n + 1)}

@[fun_prop]
theorem c_tail (hf : Continuous f) : Continuous fun a => (Fin.tail (f a) : Vec n) := by
  unfold Fin.tail; fun_prop

@[fun_prop]
theorem c_cons {r : X → ℝ} {t : X → Vec n} (hr : Continuous r) (ht : Continuous t) :
    Continuous fun a => (Fin.cons (r a) (t a) : Vec (n + 1)) := hr.finCons ht

@[fun_prop]
theorem c_inner (hf : Continuous f) (hg : Continuous g) :
    Continuous fun a => Lorentz.inner (f a) (g a) := by
  unfold Lorentz.inner; fun_prop

@[fun_prop]
theorem c_norm (hf : Continuous f) : Continuous fun a => Lorentz.norm (f a) := by
  unfold Lorentz.norm; fun_prop

theorem norm_ne (u : Vec (n + 1)) : Lorentz.norm u ≠ 0 := by
  unfold Lorentz.norm
  exact ne_of_gt (Real.sqrt_pos.2 (lt_max_of_lt_right (by norm_num)))

@[fun_prop]
theorem c_normInv (hf : Continuous f) : Continuous fun a => (Lorentz.norm (f a))⁻¹ :=
  (c_norm hf).inv₀ fun a => norm_ne _

@[fun_prop]
theorem c_lproject (k : ℝ) (hf : Continuous f) : Continuous fun a => Lorentz.project k (f a) := by
  unfold Lorentz.project; fun_prop

@[fun_prop]
theorem c_projectU (k : ℝ) (hf : Continuous f) (hg : Continuous g) :
    Continuous fun a => Lorentz.projectU k (f a) (g a) := by
  unfold Lorentz.projectU; fun_prop

@[fun_prop]
theorem c_expmapRaw (k : ℝ) (hf : Continuous f) (hg : Continuous g) :
    Continuous fun a => Lorentz.expmapRaw k (f a) (g a) := by
  unfold Lorentz.expmapRaw; dsimp only; simp only [div_eq_mul_inv]
  have := Real.continuous_cosh; have := Real.continuous_sinh
  fun_prop

@[fun_prop]
theorem c_expmap0Raw (k : ℝ) (hf : Continuous f) :
    Continuous fun a => Lorentz.expmap0Raw k (f a) := by
  unfold Lorentz.expmap0Raw; dsimp only; simp only [div_eq_mul_inv]
  fun_prop

theorem c_arcosh {r : X → ℝ} {S : Set X} (hr : ContinuousOn r S) (h1 : ∀ a ∈ S, 1 ≤ r a) :
    ContinuousOn (fun a => arcosh (r a)) S := by
  unfold arcosh
  refine ContinuousOn.log (hr.add ((Continuous.comp_continuousOn (g := fun x : ℝ =>
    Real.sqrt (max (x ^ 2 - 1.0) 1e-15)) (by fun_prop) hr))) fun a ha => ?_
  have := Real.sqrt_nonneg (max (r a ^ 2 - 1.0) 1e-15)
  have := h1 a ha
  exact ne_of_gt (by linarith)

theorem arcosh_pos {r : ℝ} (h : 1 ≤ r) : 0 < arcosh r := by
  unfold arcosh
  refine Real.log_pos ?_
  have : 0 < Real.sqrt (max (r ^ 2 - 1.0) 1e-15) :=
    Real.sqrt_pos.2 (lt_max_of_lt_right (by norm_num))
  linarith


/-- **C129.** The hyperboloid of any curvature: inner products, norms, projections, the exponential maps
with either value of their flags, and gradients are continuous everywhere; distances, logarithms and parallel
transports are continuous at all pairs of points of the manifold, equal points included. -/
theorem C129_lorentz {k : ℝ} (hk : 0 < k) (b c : Bool) :
    (Continuous fun p : Vec (n + 1) × Vec (n + 1) => Lorentz.inner p.1 p.2) ∧
    (Continuous fun u : Vec (n + 1) => Lorentz.norm u) ∧
    (Continuous fun x : Vec (n + 1) => Lorentz.projx k x) ∧
    (Continuous fun p : Vec (n + 1) × Vec (n + 1) => Lorentz.proju k p.1 p.2) ∧
    (Continuous fun p : Vec (n + 1) × Vec (n + 1) => Lorentz.expmap k p.1 p.2 b c) ∧
    (Continuous fun u : Vec (n + 1) => Lorentz.expmap0 k u c) ∧
    (Continuous fun p : ℝ × Vec (n + 1) × Vec (n + 1) =>
      Lorentz.geodesicUnit k p.1 p.2.1 p.2.2 c) ∧
    (Continuous fun p : Vec (n + 1) × Vec (n + 1) => (Lorentz.egrad2rgrad k p.1 p.2).1) ∧
    (ContinuousOn (fun p : Vec (n + 1) × Vec (n + 1) => Lorentz.dist k p.1 p.2)
      {p | OnHyperboloid k p.1 ∧ OnHyperboloid k p.2}) ∧
    (ContinuousOn (fun p : Vec (n + 1) × Vec (n + 1) => Lorentz.logmap k p.1 p.2)
      {p | OnHyperboloid k p.1 ∧ OnHyperboloid k p.2}) ∧
    (ContinuousOn (fun p : Vec (n + 1) × Vec (n + 1) × Vec (n + 1) =>
      Lorentz.transp k p.1 p.2.1 p.2.2)
      {p | OnHyperboloid k p.1 ∧ OnHyperboloid k p.2.1}) := by
  have hge : ∀ x y : Vec (n + 1), OnHyperboloid k x → OnHyperboloid k y →
      1 ≤ -Lorentz.inner x y / k := by
    intro x y hx hy
    rw [le_div_iff₀ hk, inner_eq, one_mul]
    exact mink_le hk hx hy
  have hd : ContinuousOn (fun p : Vec (n + 1) × Vec (n + 1) => Lorentz.dist k p.1 p.2)
      {p | OnHyperboloid k p.1 ∧ OnHyperboloid k p.2} := by
    unfold Lorentz.dist
    dsimp only
    refine continuousOn_const.mul (c_arcosh (Continuous.continuousOn ?_) fun p hp => hge _ _ hp.1 hp.2)
    fun_prop
  have hl : ContinuousOn (fun p : Vec (n + 1) × Vec (n + 1) => Lorentz.logmap k p.1 p.2)
      {p | OnHyperboloid k p.1 ∧ OnHyperboloid k p.2} := by
    unfold Lorentz.logmap
    dsimp only
    have h1 : Continuous fun p : Vec (n + 1) × Vec (n + 1) =>
        p.2 + (1.0 / k * Lorentz.inner p.1 p.2) • p.1 := by fun_prop
    exact (hd.div (c_norm h1).continuousOn fun p _ => norm_ne _).smul h1.continuousOn
  refine ⟨by fun_prop, by fun_prop, ?_, ?_, ?_, ?_, ?_, ?_, hd, hl, ?_⟩
  · unfold Lorentz.projx; fun_prop
  · unfold Lorentz.proju; fun_prop
  · unfold Lorentz.expmap Lorentz.proju; cases b <;> cases c <;> simp <;> fun_prop
  · unfold Lorentz.expmap0; cases c <;> simp <;> fun_prop
  · unfold Lorentz.geodesicUnit Lorentz.geodesicUnitRaw; cases c <;> simp <;> fun_prop
  · unfold Lorentz.egrad2rgrad; dsimp only; fun_prop
  · unfold Lorentz.transp
    dsimp only
    have hxy : Continuous fun p : Vec (n + 1) × Vec (n + 1) × Vec (n + 1) => (p.1, p.2.1) := by fun_prop
    have hyx : Continuous fun p : Vec (n + 1) × Vec (n + 1) × Vec (n + 1) => (p.2.1, p.1) := by fun_prop
    have hv : Continuous fun p : Vec (n + 1) × Vec (n + 1) × Vec (n + 1) => p.2.2 := by fun_prop
    have l1 : ContinuousOn (fun p : Vec (n + 1) × Vec (n + 1) × Vec (n + 1) =>
        Lorentz.logmap k p.1 p.2.1) {p | OnHyperboloid k p.1 ∧ OnHyperboloid k p.2.1} := by
      have h := hl.comp (hxy.continuousOn (s := {p : Vec (n + 1) × Vec (n + 1) × Vec (n + 1) | OnHyperboloid k p.1 ∧ OnHyperboloid k p.2.1}))
        (fun p hp => ⟨hp.1, hp.2⟩)
      exact h
    have l2 : ContinuousOn (fun p : Vec (n + 1) × Vec (n + 1) × Vec (n + 1) =>
        Lorentz.logmap k p.2.1 p.1) {p | OnHyperboloid k p.1 ∧ OnHyperboloid k p.2.1} := by
      have h := hl.comp (hyx.continuousOn (s := {p : Vec (n + 1) × Vec (n + 1) × Vec (n + 1) | OnHyperboloid k p.1 ∧ OnHyperboloid k p.2.1}))
        (fun p hp => ⟨hp.2, hp.1⟩)
      exact h
    have l3 : ContinuousOn (fun p : Vec (n + 1) × Vec (n + 1) × Vec (n + 1) =>
        Lorentz.dist k p.1 p.2.1) {p | OnHyperboloid k p.1 ∧ OnHyperboloid k p.2.1} := by
      have h := hd.comp (hxy.continuousOn (s := {p : Vec (n + 1) × Vec (n + 1) × Vec (n + 1) | OnHyperboloid k p.1 ∧ OnHyperboloid k p.2.1}))
        (fun p hp => ⟨hp.1, hp.2⟩)
      exact h
    have hi : Continuous fun q : Vec (n + 1) × Vec (n + 1) => Lorentz.inner q.1 q.2 := by fun_prop
    have l4 : ContinuousOn (fun p : Vec (n + 1) × Vec (n + 1) × Vec (n + 1) =>
        Lorentz.inner (Lorentz.logmap k p.1 p.2.1) p.2.2)
        {p | OnHyperboloid k p.1 ∧ OnHyperboloid k p.2.1} := by
      have l5 := l1.prodMk hv.continuousOn
      have l6 := hi.comp_continuousOn l5
      exact l6
    refine hv.continuousOn.sub ((l4.div (l3.pow 2) fun p hp => ?_).smul (l1.add l2))
    have : 0 < Lorentz.dist k p.1 p.2.1 :=
      mul_pos (Real.sqrt_pos.2 hk) (arcosh_pos (hge _ _ hp.1 hp.2))
    exact ne_of_gt (pow_pos this 2)

/-- Points of the hyperboloid of radius `2`, apart from each other. -/
example : OnHyperboloid 4 ![2, 0] ∧ OnHyperboloid 4 ![10 / 3, 8 / 3] ∧ (![2, 0] : Vec 2) ≠ ![10 / 3, 8 / 3] := by
  refine ⟨⟨?_, ?_⟩, ⟨?_, ?_⟩, fun h => ?_⟩
  · simp [mink]; norm_num
  · simp
  · simp [mink]; norm_num
  · simp
  · have := congrFun h 1
    norm_num at this

end lorentz

/-! ## Where the code jumps -/

/-- The code's exponential map of the sphere jumps: along the geodesic that starts at `(1,0)` in the direction `(0,1)`,
the second coordinate has the value of the retraction, `t/√(1+t²)`, up to `t = EPS` and the value of the
exponential map, `sin t`, beyond it. -/
theorem C129_counterexample_sphere (dt : DType) :
    ¬ Continuous fun t : ℝ => Sphere.expmap none dt ![1, 0] ![0, t] := by
  intro h
  obtain ⟨h0, h1⟩ := eps_pos dt
  have hn : ∀ t : ℝ, 0 ≤ t → nrm ![0, t] = t := by
    intro t ht
    unfold nrm
    simp [dotProduct, Fin.sum_univ_two, Real.sqrt_mul_self ht]
  have h2 : Continuous fun t : ℝ => Sphere.expmap none dt ![1, 0] ![0, t] 1 :=
    (continuous_apply 1).comp h
  have h3 : Sphere.expmap none dt ![1, 0] ![0, Sphere.eps dt] 1 =
      (Real.sqrt (1 + Sphere.eps dt ^ 2))⁻¹ * Sphere.eps dt := by
    unfold Sphere.expmap
    rw [hn _ h0.le, if_neg (lt_irrefl _)]
    unfold Sphere.projx Sphere.projectOnSubspace nrm
    simp [dotProduct, Fin.sum_univ_two, pow_two]
  have h4 : ∀ t ∈ Set.Ioi (Sphere.eps dt), Sphere.expmap none dt ![1, 0] ![0, t] 1 = Real.sin t := by
    intro t ht
    have ht : Sphere.eps dt < t := ht
    have htp : 0 < t := h0.trans ht
    unfold Sphere.expmap
    rw [hn _ htp.le, if_pos ht]
    simp
    field_simp
  have h5 : Filter.Tendsto Real.sin (nhdsWithin (Sphere.eps dt) (Set.Ioi (Sphere.eps dt)))
      (nhds ((Real.sqrt (1 + Sphere.eps dt ^ 2))⁻¹ * Sphere.eps dt)) := by
    rw [← h3]
    refine Filter.Tendsto.congr' ?_ ((h2.tendsto (Sphere.eps dt)).mono_left nhdsWithin_le_nhds)
    filter_upwards [self_mem_nhdsWithin] with t ht using h4 t ht
  have h6 : Real.sin (Sphere.eps dt) = (Real.sqrt (1 + Sphere.eps dt ^ 2))⁻¹ * Sphere.eps dt :=
    tendsto_nhds_unique ((Real.continuous_sin.tendsto _).mono_left nhdsWithin_le_nhds) h5
  have h7 := Real.sin_gt_sub_cube h0
  have h8 : (Real.sqrt (1 + Sphere.eps dt ^ 2))⁻¹ ≤ 1 - Sphere.eps dt ^ 2 / 4 := by
    generalize Sphere.eps dt = e at *
    have hs : 0 < 1 - e ^ 2 / 4 := by nlinarith
    rw [inv_le_comm₀ (Real.sqrt_pos.2 (by positivity)) hs]
    refine Real.le_sqrt_of_sq_le ?_
    rw [inv_pow, inv_le_comm₀ (by positivity) (by positivity)]
    rw [inv_le_iff_one_le_mul₀ (by positivity)]
    have : 0 ≤ e ^ 2 := by positivity
    have : e ^ 2 ≤ 1 := by nlinarith
    nlinarith [mul_nonneg ‹0 ≤ e ^ 2› (sub_nonneg.2 this), pow_nonneg ‹0 ≤ e ^ 2› 3]
  have h9 := mul_le_mul_of_nonneg_right h8 h0.le
  rw [← h6] at h9
  nlinarith

/-- Pointwise multiplication on the stereographic model jumps: with the curvature `0` and the weight `1` it is the
identity, but it returns `0` for all `x` with `|x| ≤ 1e-8`. -/
theorem C129_counterexample_pointwise (η : ℝ) :
    ¬ Continuous fun t : ℝ => Stereo.mobiusPointwiseMul η 0 ![1] ![t] := by
  intro h
  have hn : ∀ t : ℝ, 0 ≤ t → nrm ![t] = t := by
    intro t ht
    unfold nrm
    simp [dotProduct, Real.sqrt_mul_self ht]
  have h2 : Continuous fun t : ℝ => Stereo.mobiusPointwiseMul η 0 ![1] ![t] 0 :=
    (continuous_apply 0).comp h
  have h3 : Stereo.mobiusPointwiseMul η 0 ![1] ![(1e-8 : ℝ)] 0 = 0 := by
    unfold Stereo.mobiusPointwiseMul
    dsimp only
    rw [if_pos]
    · rfl
    · intro i; fin_cases i; norm_num
  have h4 : ∀ t ∈ Set.Ioi (1e-8 : ℝ), Stereo.mobiusPointwiseMul η 0 ![1] ![t] 0 = t := by
    intro t ht
    have ht : (1e-8 : ℝ) < t := ht
    have htp : 0 < t := lt_trans (by norm_num) ht
    have hw : (fun i => (![1] : Vec 1) i * ![t] i) = ![t] := by
      funext i; fin_cases i; simp
    have hm : max t 1e-15 = t := max_eq_left (le_trans (by norm_num) ht.le)
    unfold Stereo.mobiusPointwiseMul
    dsimp only
    rw [if_neg]
    · rw [hw, hn t htp.le, hm]
      have hz : Stereo.KZero 0 := by unfold Stereo.KZero; norm_num
      simp [Stereo.tanK, Stereo.artanK, hz, Stereo.tanKTaylor, Stereo.artanKTaylor, Stereo.absZeroGrad]
      field_simp
    · intro hh
      have := hh 0
      simp only [Matrix.cons_val_zero, one_mul] at this
      rw [abs_of_pos htp] at this
      exact absurd this (not_le.2 ht)
  have h5 : Filter.Tendsto (fun t : ℝ => t) (nhdsWithin (1e-8 : ℝ) (Set.Ioi (1e-8 : ℝ))) (nhds 0) := by
    rw [← h3]
    refine Filter.Tendsto.congr' ?_ ((h2.tendsto (1e-8 : ℝ)).mono_left nhdsWithin_le_nhds)
    filter_upwards [self_mem_nhdsWithin] with t ht using h4 t ht
  have h6 : (1e-8 : ℝ) = 0 :=
    tendsto_nhds_unique ((continuous_id.tendsto (1e-8 : ℝ)).mono_left nhdsWithin_le_nhds) h5
  norm_num at h6

end Geoopt.C129
