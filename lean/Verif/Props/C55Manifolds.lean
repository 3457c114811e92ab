import Verif.Props.C55
import Verif.Props.C20
import Verif.Props.C01
import Verif.Props.C35
import Verif.Props.C24
import Verif.Props.C28
import Verif.Model.OptimManifolds

/-!
# C55, C56 on the manifolds of the library

The geometries of the modelled manifolds: the hypotheses of `C55_*` and `C56_adam` are met by them,
and one counterexample shows what the raw gradient in the momentum buffer does on the sphere.
-/

open Geoopt Geoopt.Optim Matrix

namespace C55

/-- Euclidean parameters: every entry is its own element. -/
def euclideanGeometry (ι : Type) : Geometry (euclidean ι) where
  On _ := True
  Tan _ := ⊤
  block i j := i = j
  egrad _ _ := trivial
  retr _ _ := trivial
  retrTransp_on _ _ _ := trivial
  retrTransp_tan _ _ _ := trivial
  projx _ := rfl
  proju _ _ := trivial
  component := by rintro x u i j rfl; rfl
  scale _ _ _ := trivial

theorem scale_const {ι : Type} (T : Submodule ℝ (ι → ℝ)) {v : ι → ℝ} (w : ι → ℝ)
    (hw : ∀ i j : ι, True → w i = w j) (hv : v ∈ T) : (fun i => w i * v i) ∈ T := by
  by_cases hi : Nonempty ι
  · obtain ⟨i0⟩ := hi
    have : (fun i => w i * v i) = w i0 • v := by
      funext i
      rw [hw i i0 trivial]; rfl
    rw [this]
    exact T.smul_mem _ hv
  · have : (fun i => w i * v i) = 0 := by
      funext i
      exact absurd ⟨i⟩ hi
    rw [this]
    exact T.zero_mem

section Sphere
variable {n : ℕ} {S : Set (Vec n)} {Pr : Option (Matrix (Fin n) (Fin n) ℝ)}

/-- The tangent space of the sphere in a subspace. -/
def sphereTan (hP : Sphere.Projects S Pr) (x : Vec n) : Submodule ℝ (Fin n → ℝ) where
  carrier := {u | Sphere.Tangent S x u}
  add_mem' := by
    rintro a b ⟨h1, h2⟩ ⟨h3, h4⟩
    exact ⟨by rw [dotProduct_add, h1, h3, add_zero], Sphere.add_mem hP h2 h4⟩
  zero_mem' := by
    refine ⟨by simp, ?_⟩
    have := Sphere.pos_mem hP (0 : Vec n)
    simpa using Sphere.smul_mem hP this 0
  smul_mem' := by
    rintro c a ⟨h1, h2⟩
    exact ⟨by rw [dotProduct_smul, h1, smul_zero], Sphere.smul_mem hP h2 c⟩

/-- The sphere (with or without subspace) is a geometry. -/
noncomputable def sphereGeometry (hP : Sphere.Projects S Pr) : Geometry (sphere Pr) where
  On := Sphere.OnSphere S
  Tan := sphereTan hP
  block _ _ := True
  egrad g hx := Sphere.C21_proju_tangent hP hx g
  retr hx hu := Sphere.C20_retr_on_sphere hP hx hu
  retrTransp_on _ hx hu := Sphere.C20_retr_on_sphere hP hx hu
  retrTransp_tan hx hu _ := Sphere.C21_proju_tangent hP (Sphere.C20_retr_on_sphere hP hx hu) _
  projx hx := Sphere.C20_projx_fixes hP hx
  proju u hx := Sphere.C21_proju_tangent hP hx u
  component _ _ _ _ _ := rfl
  scale w hw hv := scale_const _ w hw hv

/-- So is `SphereExact`. -/
noncomputable def sphereExactGeometry (dt : DType) (hP : Sphere.Projects S Pr) :
    Geometry (sphereExact Pr dt) where
  On := Sphere.OnSphere S
  Tan := sphereTan hP
  block _ _ := True
  egrad g hx := Sphere.C21_proju_tangent hP hx g
  retr hx hu := (Sphere.C20_expmap_on_sphere hP dt hx hu).2
  retrTransp_on _ hx hu := (Sphere.C20_expmap_on_sphere hP dt hx hu).2
  retrTransp_tan hx hu _ :=
    Sphere.C21_proju_tangent hP (Sphere.C20_expmap_on_sphere hP dt hx hu).2 _
  projx hx := Sphere.C20_projx_fixes hP hx
  proju u hx := Sphere.C21_proju_tangent hP hx u
  component _ _ _ _ _ := rfl
  scale w hw hv := scale_const _ w hw hv

end Sphere

theorem valid_project {n : ℕ} {η k : ℝ} (hη : 0 ≤ η) (hk : k < 0) (dt : DType) (z : Vec n) :
    Stereo.Valid η dt k (Stereo.project η dt k z) := by
  rw [Stereo.valid_iff hk]; exact Stereo.nrm_project_le hη dt z

/-- The Poincare ball is a geometry, every vector being a direction. -/
noncomputable def ballGeometry {n : ℕ} {η k : ℝ} (hη : 0 ≤ η) (hη1 : η ≤ 1) (hk : k < 0)
    (hbig : |k| ≤ 1e29) (dt : DType) : Geometry (stereographic (n := n) η dt k) where
  On := Stereo.Valid η dt k
  Tan _ := ⊤
  block _ _ := True
  egrad _ _ := trivial
  retr _ _ := valid_project hη hk dt _
  retrTransp_on _ _ _ := valid_project hη hk dt _
  retrTransp_tan _ _ _ := trivial
  projx hx := (Stereo.C02_projx_fixes_exactly_valid hη hη1 hk hbig dt _).2 hx
  proju _ _ := trivial
  component _ _ _ _ _ := rfl
  scale _ _ _ := trivial

/-- The same for `PoincareBallExact`. -/
noncomputable def ballExactGeometry {n : ℕ} {η k : ℝ} (hη : 0 ≤ η) (hη1 : η ≤ 1) (hk : k < 0)
    (hbig : |k| ≤ 1e29) (dt : DType) : Geometry (stereographicExact (n := n) η dt k) where
  On := Stereo.Valid η dt k
  Tan _ := ⊤
  block _ _ := True
  egrad _ _ := trivial
  retr _ _ := valid_project hη hk dt _
  retrTransp_on _ _ _ := valid_project hη hk dt _
  retrTransp_tan _ _ _ := trivial
  projx hx := (Stereo.C02_projx_fixes_exactly_valid hη hη1 hk hbig dt _).2 hx
  proju _ _ := trivial
  component _ _ _ _ _ := rfl
  scale _ _ _ := trivial

/-- The hyperboloid is a geometry: `retr` projects the direction and the result, so that every vector is
accepted. -/
noncomputable def lorentzGeometry {n : ℕ} {k : ℝ} (hk : 0 < k) : Geometry (lorentz (n := n) k) where
  On := Lorentz.OnHyperboloid k
  Tan _ := ⊤
  block _ _ := True
  egrad _ _ := trivial
  retr _ _ := Lorentz.C35_expmap_on hk _ _ _
  retrTransp_on _ _ _ := Lorentz.C35_expmap_on hk _ _ _
  retrTransp_tan _ _ _ := trivial
  projx hx := Lorentz.C35_projx_fixes hx
  proju _ _ := trivial
  component _ _ _ _ _ := rfl
  scale _ _ _ := trivial

section Matrices
variable {n m : ℕ}

/-- The tangent space of the Stiefel manifold. -/
def stiefelTan (x : Fin n × Fin m → ℝ) : Submodule ℝ (Fin n × Fin m → ℝ) where
  carrier := {u | Stiefel.Tangent (toMat x) (toMat u)}
  add_mem' := by
    intro a b h1 h2
    simp only [Set.mem_setOf_eq, Stiefel.Tangent] at *
    have : toMat (a + b) = toMat a + toMat b := rfl
    rw [this, Matrix.mul_add, Matrix.transpose_add, h1, h2]
    abel
  zero_mem' := by
    have : toMat (0 : Fin n × Fin m → ℝ) = 0 := rfl
    simp [Stiefel.Tangent, this]
  smul_mem' := by
    intro c a h1
    simp only [Set.mem_setOf_eq, Stiefel.Tangent] at *
    have : toMat (c • a) = c • toMat a := rfl
    rw [this, Matrix.mul_smul, Matrix.transpose_smul, h1, smul_neg]

/-- The canonical Stiefel manifold is a geometry, for every `projx` that fixes its points
(`C26_projx_fixes`). -/
noncomputable def stiefelGeometry (proj : Matrix (Fin n) (Fin m) ℝ → Matrix (Fin n) (Fin m) ℝ)
    (hproj : ∀ x, Stiefel.OnStiefel x → proj x = x) : Geometry (canonicalStiefel proj) where
  On x := Stiefel.OnStiefel (toMat x)
  Tan := stiefelTan
  block _ _ := True
  egrad g hx := Stiefel.C27_canonical_stiefel_tangent_partial hx (toMat g)
  retr hx _ := Stiefel.C24_retr_on_stiefel hx _
  retrTransp_on {x u} v hx _ := by
    have := Stiefel.C24_retr_transp (toMat x) (toMat u) (toMat v)
    simp only [canonicalStiefel, this]
    exact Stiefel.C24_retr_on_stiefel hx _
  retrTransp_tan {x u v} hx _ hv := by
    have := Stiefel.C24_retr_transp (toMat x) (toMat u) (toMat v)
    simp only [canonicalStiefel, this]
    exact Stiefel.C24_transp_tangent (toMat u) hv
  projx {x} hx := by
    simp only [canonicalStiefel, hproj _ hx]; rfl
  proju u hx := Stiefel.C27_canonical_stiefel_tangent_partial hx (toMat u)
  component _ _ _ _ _ := rfl
  scale w hw hv := scale_const _ w hw hv

/-- Symmetric matrices. -/
def symmTan : Submodule ℝ (Fin n × Fin n → ℝ) where
  carrier := {u | SPD.Symm (toMat u)}
  add_mem' := by
    intro a b h1 h2
    have : toMat (a + b) = toMat a + toMat b := rfl
    simp only [Set.mem_setOf_eq, SPD.symm_iff, this, Matrix.transpose_add] at *
    rw [h1, h2]
  zero_mem' := by
    have : toMat (0 : Fin n × Fin n → ℝ) = 0 := rfl
    simp [SPD.symm_iff, this]
  smul_mem' := by
    intro c a h1
    have : toMat (c • a) = c • toMat a := rfl
    simp only [Set.mem_setOf_eq, SPD.symm_iff, this, Matrix.transpose_smul] at *
    rw [h1]

/-- SPD matrices are a geometry. -/
noncomputable def spdGeometry (E : Linalg.Eigh n) : Geometry (spd E) where
  On x := SPD.OnSPD (toMat x)
  Tan _ := symmTan
  block _ _ := True
  egrad g hx := (SPD.C19_spd (g := toMat g) (v := 0) hx (SPD.symm_iff.2 (by simp))).2
  retr hx hu := SPD.C28_retr_spd hx hu
  retrTransp_on _ hx hu := SPD.C28_retr_spd hx hu
  retrTransp_tan hx hu _ := SPD.C32_transp_symm (E := E) hx (SPD.C28_retr_spd hx hu) _
  projx {x} hx := by
    have := SPD.C28_projx_fixes (E := E) hx
    simp only [spd, this]; rfl
  proju {x} u _ := (SPD.C27_spd (toMat x) (toMat u)).1
  component _ _ _ _ _ := rfl
  scale w hw hv := scale_const _ w hw hv

end Matrices

/-- A batch of elements of a geometry is a geometry, with one block per element and block of it. -/
def batchGeometry (β : Type) {ι : Type} {M : Manifold ι} (geo : Geometry M) :
    Geometry (batch β M) where
  On x := ∀ b, geo.On fun i => x (b, i)
  Tan x := ⨅ b, (geo.Tan fun i => x (b, i)).comap
    (LinearMap.funLeft ℝ ℝ (fun i => (b, i)) : (β × ι → ℝ) →ₗ[ℝ] (ι → ℝ))
  block p q := p.1 = q.1 ∧ geo.block p.2 q.2
  egrad g hx := by
    rw [Submodule.mem_iInf]
    exact fun b => geo.egrad (fun i => g (b, i)) (hx b)
  retr hx hu b := geo.retr (hx b) ((Submodule.mem_iInf _).1 hu b)
  retrTransp_on v hx hu b := geo.retrTransp_on (fun i => v (b, i)) (hx b) ((Submodule.mem_iInf _).1 hu b)
  retrTransp_tan hx hu hv := by
    rw [Submodule.mem_iInf]
    exact fun b => geo.retrTransp_tan (hx b) ((Submodule.mem_iInf _).1 hu b)
      ((Submodule.mem_iInf _).1 hv b)
  projx hx := by
    funext p
    exact congrFun (geo.projx (hx p.1)) p.2
  proju u hx := by
    rw [Submodule.mem_iInf]
    exact fun b => geo.proju (fun i => u (b, i)) (hx b)
  component := by
    rintro x u ⟨a, i⟩ ⟨b, j⟩ ⟨h1, h2⟩
    dsimp only at h1 h2
    subst h1
    exact geo.component _ _ i j h2
  scale w hw hv := by
    rw [Submodule.mem_iInf] at hv ⊢
    exact fun b => geo.scale (fun i => w (b, i)) (fun i j hij => hw (b, i) (b, j) ⟨rfl, hij⟩) (hv b)

/-- **C55 fails on the sphere with momentum.** At `x = (1, 0)` with gradient `(1, 0)` (no tangential
part, so nothing should move), momentum `1/2` and learning rate `2`, the first step stores the raw gradient
as momentum and retracts `x + u = 0`: the division by its norm gives `nan` in floating point, and the
parameter is not on the sphere afterwards. -/
theorem C55_counterexample_momentum :
    let x : Fin 2 → ℝ := ![1, 0]
    let h : SGDHyper := ⟨2, 1 / 2, 0, 0, false, none⟩
    Sphere.OnSphere Set.univ x ∧ Sphere.egrad2rgrad none x x = 0 ∧
    (∃ u, x + u = 0 ∧ (sgdParam (sphere none) h ⟨x, .dense x, none⟩).1.point = Sphere.retr none x u) ∧
    ¬ Sphere.OnSphere Set.univ (sgdParam (sphere none) h ⟨x, .dense x, none⟩).1.point := by
  intro x h
  have hx : x ⬝ᵥ x = 1 := by simp [x, dotProduct, Fin.sum_univ_two]
  have he : Sphere.egrad2rgrad none x x = 0 := by
    funext i
    fin_cases i <;> simp [Sphere.egrad2rgrad, Sphere.proju, Sphere.projectOnSubspace, hx]
  have hm : (0 : ℝ) < h.momentum := by norm_num [h]
  have hwd : x + h.weightDecay • x = x := by simp [h]
  have hp : (sgdParam (sphere none) h ⟨x, .dense x, none⟩).1.point = Sphere.retr none x (-x) := by
    have e : (sphere (none : Option (Matrix (Fin 2) (Fin 2) ℝ))).egrad2rgrad x x = ⟨0, x, false⟩ := by
      simp only [sphere, he]
    unfold sgdParam
    simp only [hwd, e, if_pos hm]
    have : -h.lr • (if h.nesterov = true then (0 : Fin 2 → ℝ) + h.momentum • (h.momentum • x +
        (1 - h.dampening) • (0 : Fin 2 → ℝ)) else h.momentum • x + (1 - h.dampening) • 0) = -x := by
      simp only [h]
      funext i
      simp
    simp only [this]
    rfl
  refine ⟨⟨hx, trivial⟩, he, ⟨-x, by simp, hp⟩, ?_⟩
  rw [hp]
  rintro ⟨h1, -⟩
  simp [Sphere.retr, Sphere.projx, Sphere.projectOnSubspace] at h1

/-- The theorems apply: a batch of `b` points of the sphere and a Euclidean weight vector under
`RiemannianAdam`, over every history. -/
example (b n d : ℕ) (o₀ o : Adam Bool fun a => if a then Fin b × Fin n else Fin d)
    (P : Params Bool fun a => if a then Fin b × Fin n else Fin d)
    (h1 : P.manifold true = batch (Fin b) (sphere none)) (h2 : P.manifold false = euclidean (Fin d))
    (h0 : (∀ i, Sphere.OnSphere Set.univ fun j => (o₀.par true).point (i, j)) ∧
      ∀ a, (o₀.par a).state = none) (hr : AdamReach P o₀ o) :
    ∀ i, Sphere.OnSphere Set.univ fun j => (o.par true).point (i, j) := by
  let geo : ∀ a, Geometry (P.manifold a) := fun a => match a with
    | true => h1 ▸ batchGeometry (Fin b) (sphereGeometry (S := Set.univ) rfl)
    | false => h2 ▸ euclideanGeometry (Fin d)
  have hOn : ∀ x, (geo true).On x ↔ ∀ i, Sphere.OnSphere Set.univ fun j => x (i, j) := by
    intro x
    have : ∀ (M : Manifold (Fin b × Fin n)) (h : M = batch (Fin b) (sphere none)),
        (h ▸ batchGeometry (Fin b) (sphereGeometry (S := Set.univ) rfl) : Geometry M).On x ↔
          ∀ i, Sphere.OnSphere Set.univ fun j => x (i, j) := by
      rintro M rfl; rfl
    exact this _ h1
  have := C56_adam geo o₀ o (fun a => ⟨?_, h0.2 a⟩) hr true
  · exact (hOn _).1 this.1
  · cases a with
    | true => exact (hOn _).2 h0.1
    | false =>
      have : ∀ (M : Manifold (Fin d)) (h : M = euclidean (Fin d)) (x : Fin d → ℝ),
          (h ▸ euclideanGeometry (Fin d) : Geometry M).On x := by
        rintro M rfl x; trivial
      exact this _ h2 _

end C55
