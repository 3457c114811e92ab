import Verif.Spec.Retraction
import Verif.Model.Fused
import Verif.Props.C20
import Verif.Props.C24
import Verif.Props.C28
import Mathlib.Analysis.Calculus.Deriv.Mul
import Mathlib.Analysis.Calculus.Deriv.Inv
import Mathlib.Analysis.Calculus.Deriv.Pow
import Mathlib.Analysis.SpecialFunctions.Sqrt
import Mathlib.Analysis.SpecialFunctions.Exponential
import Mathlib.Topology.Instances.Matrix

/-!
# C80: a retraction leaves its point in the direction it was given
-/

namespace Geoopt.C80
open Geoopt Geoopt.SpecRetr Matrix Filter Topology

variable {n m : ℕ}

/-! ## Calculus -/

lemma deriv_of_continuous {c : ℝ} {f : ℝ → ℝ} (hf : ContinuousAt f 0) :
    HasDerivAt (fun t => c + t * f t) (f 0) 0 := by
  rw [hasDerivAt_iff_tendsto_slope_zero]
  refine (hf.tendsto.mono_left nhdsWithin_le_nhds).congr' ?_
  filter_upwards [self_mem_nhdsWithin] with t ht
  have : t ≠ 0 := ht
  simp only [zero_add, zero_mul, add_zero, add_sub_cancel_left, smul_eq_mul]
  field_simp

lemma deriv_of_quadratic {g : ℝ → ℝ} {a c K : ℝ} (h : ∀ t, |g t - (a + t * c)| ≤ K * t ^ 2) :
    HasDerivAt g c 0 := by
  have h0 : g 0 = a := by
    have := h 0
    simp only [zero_mul, add_zero, ne_eq, OfNat.ofNat_ne_zero, not_false_eq_true, zero_pow,
      mul_zero] at this
    have := abs_nonpos_iff.1 this
    linarith
  rw [hasDerivAt_iff_isLittleO_nhds_zero]
  refine Asymptotics.IsBigO.trans_isLittleO (g := fun t : ℝ => t ^ 2) ?_ ?_
  · refine Asymptotics.IsBigO.of_bound K (Eventually.of_forall fun t => ?_)
    rw [zero_add, h0, Real.norm_eq_abs, Real.norm_eq_abs, abs_of_nonneg (sq_nonneg t), smul_eq_mul]
    have := h t
    rwa [← sub_sub] at this
  · exact Asymptotics.isLittleO_pow_id (by norm_num)

/-! ## Vectors -/

theorem C80_euclidean (x u : Vec n) : FirstOrder (Fused.euclidean n).retr x u := by
  refine ⟨by simp [Fused.euclidean, Fused.base], fun i => ?_⟩
  have := ((hasDerivAt_id (0:ℝ)).mul_const (u i)).const_add (x i)
  simpa [Fused.euclidean, Fused.base] using this

section sphere
open Sphere
variable {S : Set (Vec n)} {P : Option (Matrix (Fin n) (Fin n) ℝ)}

lemma sphere_retr_eq (hP : Projects S P) {x u : Vec n} (hx : OnSphere S x) (hu : Tangent S x u)
    (t : ℝ) (i : Fin n) :
    Sphere.retr P x (t • u) i = (Real.sqrt (1 + t ^ 2 * (u ⬝ᵥ u)))⁻¹ * (x i + t * u i) := by
  have e : nrm (x + t • u) = Real.sqrt (1 + t ^ 2 * (u ⬝ᵥ u)) := by
    unfold nrm
    congr 1
    have h1 := hx.1
    have h2 := hu.1
    simp only [add_dotProduct, dotProduct_add, smul_dotProduct, dotProduct_smul, smul_eq_mul,
      dotProduct_comm u x, h1, h2]
    ring
  simp [Sphere.retr, projx, pos_fix hP (add_mem hP hx.2 (smul_mem hP hu.2 t)), e, mul_add]

/-- **C80** for `Sphere`, with or without a subspace. -/
theorem C80_sphere (dt : DType) (hP : Projects S P) {x u : Vec n} (hx : OnSphere S x)
    (hu : Tangent S x u) : FirstOrder (Fused.sphere P dt).retr x u := by
  change FirstOrder (Sphere.retr P) x u
  constructor
  · funext i
    have := sphere_retr_eq hP hx hu 0 i
    simpa using this
  · intro i
    simp only [sphere_retr_eq hP hx hu]
    have h1 : HasDerivAt (fun t : ℝ => 1 + t ^ 2 * (u ⬝ᵥ u)) 0 0 := by
      have := ((hasDerivAt_pow 2 (0:ℝ)).mul_const (u ⬝ᵥ u)).const_add 1
      simpa using this
    have h2 : HasDerivAt (fun t : ℝ => (Real.sqrt (1 + t ^ 2 * (u ⬝ᵥ u)))⁻¹) 0 0 := by
      have := (h1.sqrt (by norm_num)).fun_inv (by norm_num)
      simpa using this
    have h3 : HasDerivAt (fun t : ℝ => x i + t * u i) (u i) 0 := by
      have := ((hasDerivAt_id (0:ℝ)).mul_const (u i)).const_add (x i)
      simpa using this
    simpa using h2.fun_mul h3

/-- **C80** for `SphereExact` (and for `Sphere.expmap`). -/
theorem C80_sphere_exact (dt : DType) (hP : Projects S P) {x u : Vec n} (hx : OnSphere S x)
    (hu : Tangent S x u) : FirstOrder (Fused.sphereExact P dt).retr x u := by
  change FirstOrder (Sphere.expmap P dt) x u
  have he : 0 < eps dt := by cases dt <;> norm_num [eps]
  obtain ⟨h0, hv⟩ := C80_sphere dt hP hx hu
  constructor
  · have : ¬ nrm (0 : Vec n) > eps dt := by simp [he.le]
    rw [Sphere.expmap, if_neg this]; exact h0
  · intro i
    refine (hv i).congr_of_eventuallyEq ?_
    have hc : Tendsto (fun t : ℝ => |t| * nrm u) (𝓝 0) (𝓝 0) := by
      have : Continuous fun t : ℝ => |t| * nrm u := by fun_prop
      simpa using this.tendsto 0
    filter_upwards [hc.eventually (gt_mem_nhds he)] with t ht
    have : ¬ nrm (t • u) > eps dt := by rw [nrm_smul]; exact not_lt.2 ht.le
    change Sphere.expmap P dt x (t • u) i = Sphere.retr P x (t • u) i
    rw [Sphere.expmap, if_neg this, Sphere.retr]

end sphere

/-- **C80** for the stereographic models: at every point strictly inside the region `projx` leaves
alone (every point of the ball but a thin shell). -/
theorem C80_stereographic (η : ℝ) (dt : DType) (k : ℝ) {x : Vec n}
    (hx : max (nrm x) 1e-15 < Stereo.maxNorm η dt k) (u : Vec n) :
    FirstOrder (Fused.stereographic η dt k).retr x u := by
  change FirstOrder (Stereo.M.retr η dt k) x u
  constructor
  · rw [Stereo.M.retr, add_zero, Stereo.project, if_neg (not_lt.2 hx.le)]
  · intro i
    have h3 : HasDerivAt (fun t : ℝ => x i + t * u i) (u i) 0 := by
      have := ((hasDerivAt_id (0:ℝ)).mul_const (u i)).const_add (x i)
      simpa using this
    refine h3.congr_of_eventuallyEq ?_
    have hc : Tendsto (fun t : ℝ => max (nrm (x + t • u)) 1e-15) (𝓝 0) (𝓝 (max (nrm x) 1e-15)) := by
      have : Continuous fun t : ℝ => max (nrm (x + t • u)) 1e-15 := by
        unfold nrm dotProduct; fun_prop
      simpa using this.tendsto 0
    filter_upwards [hc.eventually (gt_mem_nhds hx)] with t ht
    simp only [Stereo.M.retr, Stereo.project, if_neg (not_lt.2 ht.le), Pi.add_apply, Pi.smul_apply,
      smul_eq_mul]

/-! ## Matrices -/

section spd
open SPD Linalg

lemma matSymm {x : Matrix (Fin n) (Fin n) ℝ} (h : Symm x) : xᵀ = x := by
  ext i j; exact (h j i)

/-- **C80** for `SymmetricPositiveDefinite.retr`. -/
theorem C80_spd (E : Eigh n) {x u : Matrix (Fin n) (Fin n) ℝ} (hx : Symm x) (hu : Symm u) :
    MatFirstOrder (Fused.spd E).retr x u := by
  change MatFirstOrder SPD.retr x u
  have hx' := matSymm hx
  have hu' := matSymm hu
  have e : ∀ t : ℝ, SPD.retr x (t • u) = x + t • u + t ^ 2 • sym ((0.5 : ℝ) • u * x⁻¹ * u) := by
    intro t
    ext i j
    have h1 := congrFun (congrFun hx' i) j
    have h2 := congrFun (congrFun hu' i) j
    simp only [Matrix.transpose_apply] at h1 h2
    simp only [SPD.retr, symInvm, sym, Matrix.smul_mul, Matrix.mul_smul, Matrix.smul_apply,
      Matrix.add_apply, Matrix.transpose_apply, smul_eq_mul, h1, h2]
    norm_num
    ring
  constructor
  · have := e 0; simpa using this
  · intro i j
    simp only [e, Matrix.add_apply, Matrix.smul_apply, smul_eq_mul]
    have h1 : HasDerivAt (fun t : ℝ => x i j + t * u i j) (u i j) 0 := by
      have := ((hasDerivAt_id (0:ℝ)).mul_const (u i j)).const_add (x i j)
      simpa using this
    have h2 := (hasDerivAt_pow 2 (0:ℝ)).mul_const (sym ((0.5 : ℝ) • u * x⁻¹ * u) i j)
    simpa using h1.fun_add h2

end spd

section stiefel
open Stiefel Linalg

lemma amat_smul (x u : Matrix (Fin n) (Fin m) ℝ) (t : ℝ) :
    Canonical.amat x (t • u) = t • Canonical.amat x u := by
  simp [Canonical.amat, Matrix.smul_mul, Matrix.mul_smul, smul_sub]

lemma cay_smul {a : Matrix (Fin n) (Fin n) ℝ} (h : aᵀ = -a) (t : ℝ) :
    cay (t • a) = 1 + t • ((1 - (1 / 2 : ℝ) • t • a)⁻¹ * a) := by
  have hu : IsUnit (1 - (1 / 2 : ℝ) • t • a).det := by
    rw [smul_smul]; exact isUnit_skew h _
  have e : 1 + (1 / 2 : ℝ) • t • a = (1 - (1 / 2 : ℝ) • t • a) + t • a := by
    ext i j
    simp only [Matrix.add_apply, Matrix.sub_apply, Matrix.smul_apply, smul_eq_mul]
    ring
  rw [cay, e, Matrix.mul_add, Matrix.nonsing_inv_mul _ hu, Matrix.mul_smul]

lemma continuousAt_inv_entry (a : Matrix (Fin n) (Fin n) ℝ) (b : Matrix (Fin n) (Fin m) ℝ)
    (i : Fin n) (j : Fin m) :
    ContinuousAt (fun t : ℝ => ((1 - (1 / 2 : ℝ) • t • a)⁻¹ * b) i j) 0 := by
  have e : ∀ M : Matrix (Fin n) (Fin n) ℝ, M⁻¹ = (M.det)⁻¹ • M.adjugate := fun M => by
    rw [Matrix.inv_def, Ring.inverse_eq_inv']
  simp only [e]
  have hc : Continuous fun t : ℝ => (1 - (1 / 2 : ℝ) • t • a : Matrix (Fin n) (Fin n) ℝ) := by fun_prop
  have hd : ContinuousAt (fun t : ℝ => ((1 - (1 / 2 : ℝ) • t • a : Matrix (Fin n) (Fin n) ℝ).det)⁻¹) 0 :=
    (hc.matrix_det.continuousAt).inv₀ (by simp)
  have hm : Continuous fun t : ℝ =>
      ((1 - (1 / 2 : ℝ) • t • a : Matrix (Fin n) (Fin n) ℝ).adjugate * b) i j :=
    ((hc.matrix_adjugate).matrix_mul continuous_const).matrix_elem i j
  refine (hd.mul hm.continuousAt).congr (Eventually.of_forall fun t => ?_)
  simp [Matrix.smul_mul]

/-- The canonical Stiefel retraction leaves `x` with velocity `u + x xᵀ u`, not `u`. -/
theorem C80_canonical_stiefel_velocity {x u : Matrix (Fin n) (Fin m) ℝ} (hx : OnStiefel x)
    (hu : Tangent x u) :
    MatVelocity (fun t => Canonical.retr x (t • u)) (u + x * (xᵀ * u)) := by
  have hx' : xᵀ * x = 1 := hx
  have hux : uᵀ * x = -(xᵀ * u) := by
    rw [← (show (xᵀ * u)ᵀ = -(xᵀ * u) from hu), Matrix.transpose_mul, Matrix.transpose_transpose]
  have hs := amat_skew x u
  have ea : Canonical.amat x u * x = u + x * (xᵀ * u) := by
    rw [Canonical.amat, Matrix.sub_mul, Matrix.mul_assoc, hx', Matrix.mul_one, Matrix.mul_assoc,
      hux, Matrix.mul_neg, sub_neg_eq_add]
  intro i j
  have e : ∀ t : ℝ, Canonical.retr x (t • u) i j =
      x i j + t * ((1 - (1 / 2 : ℝ) • t • Canonical.amat x u)⁻¹ * (Canonical.amat x u * x)) i j := by
    intro t
    rw [Canonical.retr, transpFollowOne_eq, amat_smul, cay_smul hs, Matrix.add_mul, Matrix.one_mul,
      Matrix.smul_mul, Matrix.mul_assoc]
    rfl
  simp only [e]
  have := deriv_of_continuous (c := x i j)
    (continuousAt_inv_entry (Canonical.amat x u) (Canonical.amat x u * x) i j)
  simpa [ea] using this

/-- **C80** for the canonical Stiefel manifold, only for tangent vectors with `xᵀu = 0`.
Missing: the others, for which it is false. -/
theorem C80_canonical_stiefel_partial {x u : Matrix (Fin n) (Fin m) ℝ} (hx : OnStiefel x)
    (hu : xᵀ * u = 0) : MatFirstOrder (Fused.canonicalStiefel n m).retr x u := by
  refine ⟨C24_retr_zero x, ?_⟩
  have := C80_canonical_stiefel_velocity hx (u := u) (by simp [Tangent, hu])
  rw [hu, Matrix.mul_zero, add_zero] at this
  exact this

/-- On the orthogonal matrices it moves twice as fast as it is told to. -/
theorem C80_counterexample_canonical_stiefel :
    ∃ x u : Matrix (Fin 2) (Fin 2) ℝ, OnStiefel x ∧ Tangent x u ∧
      MatVelocity (fun t => (Fused.canonicalStiefel 2 2).retr x (t • u)) ((2 : ℝ) • u) ∧
      ¬ MatFirstOrder (Fused.canonicalStiefel 2 2).retr x u := by
  have hx : OnStiefel (1 : Matrix (Fin 2) (Fin 2) ℝ) := by simp [OnStiefel]
  have hu : Tangent (1 : Matrix (Fin 2) (Fin 2) ℝ) !![0, 1; -1, 0] := by
    unfold Tangent; ext i j; fin_cases i <;> fin_cases j <;> simp
  have h := C80_canonical_stiefel_velocity hx hu
  have e : !![0, 1; -1, (0:ℝ)] + 1 * (1ᵀ * !![0, 1; -1, (0:ℝ)]) = (2 : ℝ) • !![0, 1; -1, (0:ℝ)] := by
    simp [two_smul]
  rw [e] at h
  refine ⟨1, !![0, 1; -1, 0], hx, hu, h, fun h' => ?_⟩
  have := (h 0 1).unique (h'.2 0 1)
  norm_num at this

end stiefel

end Geoopt.C80
