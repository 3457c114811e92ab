import Verif.Props.C99
import Verif.Props.C55Manifolds
import Verif.Props.C09
import Mathlib.Analysis.SpecialFunctions.Pow.NNReal

/-!
# C99 on the manifolds of the library

The metrics and transports of the modelled manifolds meet the hypotheses of `C99_adam`;
`CanonicalStiefel.proju` does not.
-/

namespace Geoopt.C99
open Geoopt Geoopt.Optim C55 Matrix

theorem tri_of_disc {A B D : ℝ} (hD : 0 ≤ D) (h : ∀ c : ℝ, 0 ≤ A + 2 * c * B + c ^ 2 * D) :
    Real.sqrt (A + 2 * B + D) ≤ Real.sqrt A + Real.sqrt D := by
  have hA : 0 ≤ A := by simpa using h 0
  have hB : B ≤ Real.sqrt A * Real.sqrt D := by
    rw [← Real.sqrt_mul hA]
    apply Real.le_sqrt_of_sq_le
    rcases eq_or_lt_of_le hD with h0 | h0
    · rw [← h0] at h ⊢
      have hB0 : B = 0 := by
        by_contra hB
        have := h (-(A + 1) / (2 * B))
        have e : 2 * (-(A + 1) / (2 * B)) * B = -(A + 1) := by field_simp
        rw [e] at this
        linarith
      simp [hB0]
    · have := h (-B / D)
      have e : A + 2 * (-B / D) * B + (-B / D) ^ 2 * D = (A * D - B ^ 2) / D := by
        field_simp; ring
      rw [e] at this
      have := (div_nonneg_iff.1 this).resolve_right (by push Not; intro _; exact h0)
      linarith [this.1]
  apply Real.sqrt_le_iff.2
  refine ⟨by positivity, ?_⟩
  have := Real.sq_sqrt hA
  have := Real.sq_sqrt hD
  nlinarith

/-- One inner product for the whole parameter. -/
theorem contracting_of_form {ι : Type} {M : Manifold ι} {geo : Geometry M}
    (hblock : ∀ i j, geo.block i j) (B : (ι → ℝ) → (ι → ℝ) → (ι → ℝ) → ℝ)
    (hci : ∀ x u i, M.componentInner x u i = B x u u)
    (hadd : ∀ x u v w, B x (u + v) w = B x u w + B x v w)
    (hsmul : ∀ x c u w, B x (c • u) w = c * B x u w)
    (hsymm : ∀ x u w, B x u w = B x w u)
    (hpos : ∀ {x u}, geo.On x → u ∈ geo.Tan x → 0 ≤ B x u u)
    (htr : ∀ {x u v}, geo.On x → u ∈ geo.Tan x → v ∈ geo.Tan x →
      B (M.retrTransp x u v).1 (M.retrTransp x u v).2 (M.retrTransp x u v).2 ≤ B x v v)
    (hretr : ∀ {x u v}, geo.On x → u ∈ geo.Tan x → v ∈ geo.Tan x →
      (M.retrTransp x u v).1 = M.retr x u) : Contracting geo where
  nonneg i hx hu := by rw [hci]; exact hpos hx hu
  triangle {x u v} i hx hu hv := by
    rw [hci, hci, hci]
    have e : ∀ c : ℝ, B x (u + c • v) (u + c • v) = B x u u + 2 * c * B x u v + c ^ 2 * B x v v := by
      intro c
      rw [hadd, hsmul, hsymm x u, hsymm x v, hadd, hadd, hsmul, hsmul, hsymm x v u]
      ring
    have := tri_of_disc (A := B x u u) (B := B x u v) (D := B x v v) (hpos hx hv) fun c => by
      rw [← e c]
      exact hpos hx ((geo.Tan x).add_mem hu ((geo.Tan x).smul_mem c hv))
    have e1 := e 1
    rw [one_smul] at e1
    rw [e1]
    simpa using this
  scale {x u} w i hw hx hu := by
    rw [hci, hci]
    have : (fun j => w j * u j) = w i • u := by
      funext j
      rw [hw j i (hblock j i)]; rfl
    rw [this, hsmul, hsymm, hsmul]
    ring
  transp i hx hu hv := by rw [hci, hci]; exact htr hx hu hv
  retr := hretr

/-! ## Euclidean parameters -/

theorem C99_euclidean_contracting (ι : Type) : Contracting (euclideanGeometry ι) where
  nonneg _ _ _ := sq_nonneg _
  triangle i _ _ _ := by
    simp only [euclidean, Pi.add_apply, Real.sqrt_sq_eq_abs]
    exact abs_add_le _ _
  scale w i _ _ _ := by simp only [euclidean]; ring
  transp _ _ _ _ := le_rfl
  retr _ _ _ := rfl

theorem C99_euclidean_proj (ι : Type) : ProjContracts (euclideanGeometry ι) := fun _ _ _ => le_rfl

/-! ## Spheres -/

section Sphere
variable {n : ℕ} {S : Set (Vec n)} {Pr : Option (Matrix (Fin n) (Fin n) ℝ)}

theorem sphere_proju_le (hP : Sphere.Projects S Pr) {y v : Vec n} (hy : Sphere.OnSphere S y)
    (hv : v ∈ S) : Sphere.proju Pr y v ⬝ᵥ Sphere.proju Pr y v ≤ v ⬝ᵥ v := by
  have hm : v - (y ⬝ᵥ v) • y ∈ S := Sphere.sub_mem hP hv (Sphere.smul_mem hP hy.2 _)
  rw [Sphere.proju, Sphere.pos_fix hP hm]
  have e : (v - (y ⬝ᵥ v) • y) ⬝ᵥ (v - (y ⬝ᵥ v) • y) = v ⬝ᵥ v - (y ⬝ᵥ v) ^ 2 := by
    simp only [sub_dotProduct, dotProduct_sub, smul_dotProduct, dotProduct_smul, hy.1, smul_eq_mul]
    rw [dotProduct_comm v y]
    ring
  rw [e]
  nlinarith [sq_nonneg (y ⬝ᵥ v)]

theorem C99_sphere_contracting (hP : Sphere.Projects S Pr) : Contracting (sphereGeometry hP) :=
  contracting_of_form (fun _ _ => trivial) (fun _ u v => u ⬝ᵥ v) (fun _ _ _ => rfl)
    (fun _ _ _ _ => add_dotProduct _ _ _) (fun _ _ _ _ => smul_dotProduct _ _ _)
    (fun _ _ _ => dotProduct_comm _ _) (fun _ _ => by
      simp only [dotProduct]; exact Finset.sum_nonneg fun i _ => mul_self_nonneg _)
    (fun hx hu hv => sphere_proju_le hP (Sphere.C20_retr_on_sphere hP hx hu) hv.2)
    (fun _ _ _ => rfl)

theorem C99_sphere_proj (hP : Sphere.Projects S Pr) : ProjContracts (sphereGeometry hP) :=
  fun _ hx hu => sphere_proju_le hP hx hu.2

theorem C99_sphereExact_contracting (dt : DType) (hP : Sphere.Projects S Pr) :
    Contracting (sphereExactGeometry dt hP) :=
  contracting_of_form (fun _ _ => trivial) (fun _ u v => u ⬝ᵥ v) (fun _ _ _ => rfl)
    (fun _ _ _ _ => add_dotProduct _ _ _) (fun _ _ _ _ => smul_dotProduct _ _ _)
    (fun _ _ _ => dotProduct_comm _ _) (fun _ _ => by
      simp only [dotProduct]; exact Finset.sum_nonneg fun i _ => mul_self_nonneg _)
    (fun hx hu hv => sphere_proju_le hP (Sphere.C20_expmap_on_sphere hP dt hx hu).2 hv.2)
    (fun _ _ _ => rfl)

theorem C99_sphereExact_proj (dt : DType) (hP : Sphere.Projects S Pr) :
    ProjContracts (sphereExactGeometry dt hP) :=
  fun _ hx hu => sphere_proju_le hP hx hu.2

end Sphere

/-! ## The Poincaré ball -/

section Ball
variable {n : ℕ} {η k : ℝ} (hη : 0 ≤ η) (hη1 : η ≤ 1) (hk : k < 0) (hbig : |k| ≤ 1e29) (dt : DType)

theorem stereo_form_nonneg (k : ℝ) (x u : Vec n) : 0 ≤ Stereo.inner k x u u := by
  unfold Stereo.inner
  have : 0 ≤ u ⬝ᵥ u := by
    simp only [dotProduct]; exact Finset.sum_nonneg fun i _ => mul_self_nonneg _
  positivity

theorem C99_ball_contracting : Contracting (ballGeometry (n := n) hη hη1 hk hbig dt) :=
  contracting_of_form (fun _ _ => trivial) (fun x u v => Stereo.inner k x u v) (fun _ _ _ => rfl)
    (fun _ _ _ _ => by simp only [Stereo.inner, add_dotProduct, mul_add])
    (fun _ _ _ _ => by simp only [Stereo.inner, smul_dotProduct, smul_eq_mul]; ring)
    (fun _ _ _ => by simp only [Stereo.inner, dotProduct_comm])
    (fun _ _ => stereo_form_nonneg _ _ _)
    (fun hx _ _ => le_of_eq ((Stereo.C09_transport_ball hη hk hx (valid_project hη hk dt _)).1 _ _))
    (fun _ _ _ => rfl)

theorem C99_ball_proj : ProjContracts (ballGeometry (n := n) hη hη1 hk hbig dt) := fun _ _ _ => le_rfl

theorem C99_ballExact_contracting : Contracting (ballExactGeometry (n := n) hη hη1 hk hbig dt) :=
  contracting_of_form (fun _ _ => trivial) (fun x u v => Stereo.inner k x u v) (fun _ _ _ => rfl)
    (fun _ _ _ _ => by simp only [Stereo.inner, add_dotProduct, mul_add])
    (fun _ _ _ _ => by simp only [Stereo.inner, smul_dotProduct, smul_eq_mul]; ring)
    (fun _ _ _ => by simp only [Stereo.inner, dotProduct_comm])
    (fun _ _ => stereo_form_nonneg _ _ _)
    (fun hx _ _ => le_of_eq ((Stereo.C09_transport_ball hη hk hx (valid_project hη hk dt _)).1 _ _))
    (fun _ _ _ => rfl)

theorem C99_ballExact_proj : ProjContracts (ballExactGeometry (n := n) hη hη1 hk hbig dt) :=
  fun _ _ _ => le_rfl

end Ball

/-! ## Matrices -/

section Matrices
variable {n m : ℕ}

theorem trace_self_nonneg (r : Matrix (Fin n) (Fin m) ℝ) : 0 ≤ (rᵀ * r).trace := by
  rw [← Stiefel.frob_eq_trace]
  exact Finset.sum_nonneg fun i _ => Finset.sum_nonneg fun j _ => mul_self_nonneg _

theorem canonical_nonneg {x : Matrix (Fin n) (Fin m) ℝ} (hx : Stiefel.OnStiefel x)
    (u : Matrix (Fin n) (Fin m) ℝ) : 0 ≤ Stiefel.Canonical.inner x u u := by
  have hx' : xᵀ * x = 1 := hx
  have h1 := trace_self_nonneg (u - x * (xᵀ * u))
  have h2 := trace_self_nonneg (xᵀ * u)
  have e : (u - x * (xᵀ * u))ᵀ * (u - x * (xᵀ * u)) = uᵀ * u - (xᵀ * u)ᵀ * (xᵀ * u) := by
    simp only [Matrix.transpose_sub, Matrix.transpose_mul, Matrix.transpose_transpose,
      Matrix.sub_mul, Matrix.mul_sub, Matrix.mul_assoc]
    have : xᵀ * (x * (xᵀ * u)) = xᵀ * u := by rw [← Matrix.mul_assoc, hx', Matrix.one_mul]
    rw [this]
    abel
  rw [e, Matrix.trace_sub] at h1
  rw [Stiefel.C24_inner_formula, Stiefel.canonicalMetric]
  have e2 : (uᵀ * (1 - (2⁻¹ : ℝ) • (x * xᵀ)) * u).trace =
      (uᵀ * u).trace - 2⁻¹ * ((xᵀ * u)ᵀ * (xᵀ * u)).trace := by
    rw [Matrix.mul_sub, Matrix.sub_mul, Matrix.trace_sub, Matrix.mul_one, Matrix.mul_smul,
      Matrix.smul_mul, Matrix.trace_smul, smul_eq_mul]
    simp only [Matrix.transpose_mul, Matrix.transpose_transpose, Matrix.mul_assoc]
  have := e2 ▸ (by linarith : 0 ≤ (uᵀ * u).trace - 2⁻¹ * ((xᵀ * u)ᵀ * (xᵀ * u)).trace)
  simpa using this

theorem toMat_add (a b : Fin n × Fin m → ℝ) : toMat (a + b) = toMat a + toMat b := rfl
theorem toMat_smul (c : ℝ) (a : Fin n × Fin m → ℝ) : toMat (c • a) = c • toMat a := rfl
theorem toMat_ofMat (x : Matrix (Fin n) (Fin m) ℝ) : toMat (ofMat x) = x := rfl

theorem frob_add (a b c : Matrix (Fin n) (Fin m) ℝ) :
    Linalg.frob (a + b) c = Linalg.frob a c + Linalg.frob b c := by
  simp only [Stiefel.frob_eq_trace, Matrix.transpose_add, Matrix.add_mul, Matrix.trace_add]

theorem frob_smul (t : ℝ) (a c : Matrix (Fin n) (Fin m) ℝ) :
    Linalg.frob (t • a) c = t * Linalg.frob a c := by
  simp only [Stiefel.frob_eq_trace, Matrix.transpose_smul, Matrix.smul_mul, Matrix.trace_smul,
    smul_eq_mul]

theorem frob_comm (a c : Matrix (Fin n) (Fin m) ℝ) : Linalg.frob a c = Linalg.frob c a := by
  simp only [Linalg.frob, mul_comm]

theorem frob_add_right (a b c : Matrix (Fin n) (Fin m) ℝ) :
    Linalg.frob c (a + b) = Linalg.frob c a + Linalg.frob c b := by
  rw [frob_comm, frob_add, frob_comm a, frob_comm b]

theorem frob_smul_right (t : ℝ) (a c : Matrix (Fin n) (Fin m) ℝ) :
    Linalg.frob c (t • a) = t * Linalg.frob c a := by
  rw [frob_comm, frob_smul, frob_comm a]

/-- The canonical Stiefel manifold: the metric and the transport are fine. -/
theorem C99_stiefel_contracting (proj : Matrix (Fin n) (Fin m) ℝ → Matrix (Fin n) (Fin m) ℝ)
    (hproj : ∀ x, Stiefel.OnStiefel x → proj x = x) : Contracting (stiefelGeometry proj hproj) :=
  contracting_of_form (fun _ _ => trivial)
    (fun x u v => Stiefel.Canonical.inner (toMat x) (toMat u) (toMat v)) (fun _ _ _ => rfl)
    (fun _ _ _ _ => by
      simp only [toMat_add, Stiefel.Canonical.inner, Matrix.mul_add, frob_add, frob_add_right]; ring)
    (fun _ _ _ _ => by
      simp only [toMat_smul, Stiefel.Canonical.inner, Matrix.mul_smul, frob_smul, frob_smul_right]; ring)
    (fun _ _ _ => by simp only [Stiefel.Canonical.inner, frob_comm])
    (fun hx _ => canonical_nonneg hx _)
    (fun {x u v} _ _ _ => by
      have := Stiefel.C24_retr_transp (toMat x) (toMat u) (toMat v)
      simp only [canonicalStiefel, this, toMat_ofMat]
      exact le_of_eq (Stiefel.C24_transp_isometry _ _ _ _))
    (fun {x u v} _ _ _ => by
      have := Stiefel.C24_retr_transp (toMat x) (toMat u) (toMat v)
      simp only [canonicalStiefel, this])

/-- `EuclideanStiefel` is a geometry, for every QR decomposition and every `projx` that fixes its
points. -/
noncomputable def euclideanStiefelGeometry
    (qr : Matrix (Fin n) (Fin m) ℝ → Matrix (Fin n) (Fin m) ℝ × Matrix (Fin m) (Fin m) ℝ)
    (hqr : ∀ a, Linalg.IsQR a (qr a).1 (qr a).2)
    (proj : Matrix (Fin n) (Fin m) ℝ → Matrix (Fin n) (Fin m) ℝ)
    (hproj : ∀ x, Stiefel.OnStiefel x → proj x = x) : Geometry (euclideanStiefel qr proj) where
  On x := Stiefel.OnStiefel (toMat x)
  Tan := stiefelTan
  block _ _ := True
  egrad g hx := Stiefel.C26_proju_tangent hx (toMat g)
  retr _ _ := Stiefel.C26_retr_on_stiefel (hqr _)
  retrTransp_on _ _ _ := Stiefel.C26_retr_on_stiefel (hqr _)
  retrTransp_tan {x u v} _ _ _ :=
    Stiefel.C26_proju_tangent (Stiefel.C26_retr_on_stiefel (hqr (toMat x + toMat u))) (toMat v)
  projx {x} hx := by simp only [euclideanStiefel, hproj _ hx]; rfl
  proju u hx := Stiefel.C26_proju_tangent hx (toMat u)
  component _ _ _ _ _ := rfl
  scale w hw hv := scale_const _ w hw hv

/-- So is `EuclideanStiefelExact`. -/
noncomputable def euclideanStiefelExactGeometry
    (proj : Matrix (Fin n) (Fin m) ℝ → Matrix (Fin n) (Fin m) ℝ)
    (hproj : ∀ x, Stiefel.OnStiefel x → proj x = x) : Geometry (euclideanStiefelExact proj) where
  On x := Stiefel.OnStiefel (toMat x)
  Tan := stiefelTan
  block _ _ := True
  egrad g hx := Stiefel.C26_proju_tangent hx (toMat g)
  retr hx hu := Stiefel.C26_expmap_on_stiefel hx hu
  retrTransp_on _ hx hu := Stiefel.C26_expmap_on_stiefel hx hu
  retrTransp_tan {x u v} hx hu _ :=
    Stiefel.C26_proju_tangent (Stiefel.C26_expmap_on_stiefel hx hu) (toMat v)
  projx {x} hx := by simp only [euclideanStiefelExact, hproj _ hx]; rfl
  proju u hx := Stiefel.C26_proju_tangent hx (toMat u)
  component _ _ _ _ _ := rfl
  scale w hw hv := scale_const _ w hw hv

theorem euclidean_proju_le {y : Matrix (Fin n) (Fin m) ℝ} (hy : Stiefel.OnStiefel y)
    (v : Matrix (Fin n) (Fin m) ℝ) :
    Linalg.frob (Stiefel.Euclidean.proju y v) (Stiefel.Euclidean.proju y v) ≤ Linalg.frob v v := by
  have h := Stiefel.C26_proju_orthogonal (x := y) v (Stiefel.C26_proju_tangent hy v)
  have h' : Linalg.frob (v - Stiefel.Euclidean.proju y v) (Stiefel.Euclidean.proju y v) = 0 := by
    rw [Stiefel.frob_eq_trace]; exact h
  have h2 := trace_self_nonneg (v - Stiefel.Euclidean.proju y v)
  rw [← Stiefel.frob_eq_trace] at h2
  generalize Stiefel.Euclidean.proju y v = p at h' h2 ⊢
  have e1 : v = (v - p) + p := by abel
  have e2 : Linalg.frob v v = Linalg.frob (v - p) (v - p) + 2 * Linalg.frob (v - p) p +
      Linalg.frob p p := by
    conv_lhs => rw [e1]
    rw [frob_add, frob_comm (v - p) (v - p + p), frob_comm p (v - p + p), frob_add, frob_add,
      frob_comm p (v - p)]
    ring
  rw [e2, h']
  linarith

theorem frob_nonneg (u : Matrix (Fin n) (Fin m) ℝ) : 0 ≤ Linalg.frob u u := by
  rw [Stiefel.frob_eq_trace]; exact trace_self_nonneg u

theorem C99_euclideanStiefel_contracting
    (qr : Matrix (Fin n) (Fin m) ℝ → Matrix (Fin n) (Fin m) ℝ × Matrix (Fin m) (Fin m) ℝ)
    (hqr : ∀ a, Linalg.IsQR a (qr a).1 (qr a).2)
    (proj : Matrix (Fin n) (Fin m) ℝ → Matrix (Fin n) (Fin m) ℝ)
    (hproj : ∀ x, Stiefel.OnStiefel x → proj x = x) :
    Contracting (euclideanStiefelGeometry qr hqr proj hproj) ∧
    ProjContracts (euclideanStiefelGeometry qr hqr proj hproj) :=
  ⟨contracting_of_form (fun _ _ => trivial) (fun _ u v => Linalg.frob (toMat u) (toMat v))
    (fun _ _ _ => rfl) (fun _ _ _ _ => frob_add _ _ _) (fun _ _ _ _ => frob_smul _ _ _)
    (fun _ _ _ => frob_comm _ _) (fun _ _ => frob_nonneg _)
    (fun {x u v} _ _ _ => euclidean_proju_le
      (Stiefel.C26_retr_on_stiefel (hqr (toMat x + toMat u))) (toMat v))
    (fun _ _ _ => rfl),
   fun _ hx _ => euclidean_proju_le hx _⟩

theorem C99_euclideanStiefelExact_contracting
    (proj : Matrix (Fin n) (Fin m) ℝ → Matrix (Fin n) (Fin m) ℝ)
    (hproj : ∀ x, Stiefel.OnStiefel x → proj x = x) :
    Contracting (euclideanStiefelExactGeometry proj hproj) ∧
    ProjContracts (euclideanStiefelExactGeometry proj hproj) :=
  ⟨contracting_of_form (fun _ _ => trivial) (fun _ u v => Linalg.frob (toMat u) (toMat v))
    (fun _ _ _ => rfl) (fun _ _ _ _ => frob_add _ _ _) (fun _ _ _ _ => frob_smul _ _ _)
    (fun _ _ _ => frob_comm _ _) (fun _ _ => frob_nonneg _)
    (fun {_ _ v} hx hu _ => euclidean_proju_le
      (Stiefel.C26_expmap_on_stiefel hx hu) (toMat v))
    (fun _ _ _ => rfl),
   fun _ hx _ => euclidean_proju_le hx _⟩

theorem C99_spd_contracting (E : Linalg.Eigh n) :
    Contracting (spdGeometry E) ∧ ProjContracts (spdGeometry E) :=
  ⟨contracting_of_form (fun _ _ => trivial) (fun x u v => SPD.inner (toMat x) (toMat u) (toMat v))
    (fun _ _ _ => rfl)
    (fun _ _ _ _ => by
      simp only [SPD.inner, toMat_add, Linalg.trace, Matrix.mul_add, Matrix.add_mul,
        Matrix.add_apply, Finset.sum_add_distrib])
    (fun _ _ _ _ => by
      simp only [SPD.inner, toMat_smul, Linalg.trace, Matrix.mul_smul, Matrix.smul_mul,
        Matrix.smul_apply, smul_eq_mul, Finset.mul_sum])
    (fun _ _ _ => SPD.C32_inner_symm _ _ _) (fun hx hu => (SPD.C32_inner_pos hx hu).1)
    (fun {x u v} hx hu hv => by
      simp only [spd, toMat_ofMat]
      exact le_of_eq (SPD.C32_isometry E hx (SPD.C28_retr_spd hx hu) hv hv))
    (fun _ _ _ => rfl),
   fun {x u} i hx hu => by
    have := (SPD.C27_spd (toMat x) (toMat u)).2.2 hu
    simp only [spd, toMat_ofMat, this, le_refl]⟩

end Matrices

/-- A batch of contracting elements. -/
theorem C99_batch_contracting (β : Type) {ι : Type} {M : Manifold ι} {geo : Geometry M}
    (hc : Contracting geo) : Contracting (batchGeometry β geo) where
  nonneg i hx hu := hc.nonneg i.2 (hx i.1) ((Submodule.mem_iInf _).1 hu i.1)
  triangle i hx hu hv := hc.triangle i.2 (hx i.1) ((Submodule.mem_iInf _).1 hu i.1)
    ((Submodule.mem_iInf _).1 hv i.1)
  scale w i hw hx hu := hc.scale (fun j => w (i.1, j)) i.2
    (fun j k hjk => hw (i.1, j) (i.1, k) ⟨rfl, hjk⟩) (hx i.1) ((Submodule.mem_iInf _).1 hu i.1)
  transp i hx hu hv := hc.transp i.2 (hx i.1) ((Submodule.mem_iInf _).1 hu i.1)
    ((Submodule.mem_iInf _).1 hv i.1)
  retr hx hu hv := by
    funext i
    exact congrFun (hc.retr (hx i.1) ((Submodule.mem_iInf _).1 hu i.1)
      ((Submodule.mem_iInf _).1 hv i.1)) i.2

theorem C99_batch_proj (β : Type) {ι : Type} {M : Manifold ι} {geo : Geometry M}
    (hp : ProjContracts geo) : ProjContracts (batchGeometry β geo) :=
  fun i hx hu => hp i.2 (hx i.1) ((Submodule.mem_iInf _).1 hu i.1)

end Geoopt.C99
