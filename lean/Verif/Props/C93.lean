import Verif.Spec.Rotation
import Verif.Props.C92
import Verif.Props.C33
import Verif.Model.OptimManifolds

/-!
# C93: the operations do not depend on the choice of orthonormal coordinates

Rotating or reflecting the arguments rotates or reflects the results, and leaves the numbers as they
are.  This covers the clamps, floors and branches of the code.
-/

namespace Geoopt.C93
open Geoopt Geoopt.Rotation Matrix
variable {n m : ℕ}

section Vec
variable {Q : Matrix (Fin n) (Fin n) ℝ}

theorem dot_rot (hQ : Orthogonal Q) (x y : Vec n) : (Q *ᵥ x) ⬝ᵥ (Q *ᵥ y) = x ⬝ᵥ y := by
  rw [Matrix.dotProduct_mulVec, Matrix.vecMul_mulVec, hQ, Matrix.vecMul_one]

theorem nrm_rot (hQ : Orthogonal Q) (x : Vec n) : nrm (Q *ᵥ x) = nrm x := by
  unfold nrm; rw [dot_rot hQ]

theorem neg_rot (x : Vec n) : -(Q *ᵥ x) = Q *ᵥ (-x) := (Matrix.mulVec_neg _ _).symm

/-! ### Stereographic model -/
section Stereo
variable (hQ : Orthogonal Q) (η : ℝ) (dt : DType) (k r t : ℝ) (x y u v w p a : Vec n)
include hQ

theorem project_rot : Stereo.project η dt k (Q *ᵥ x) = Q *ᵥ Stereo.project η dt k x := by
  unfold Stereo.project; simp only [nrm_rot hQ]; split_ifs <;> simp only [Matrix.mulVec_smul]

theorem lambdaX_rot : Stereo.lambdaX k (Q *ᵥ x) = Stereo.lambdaX k x := by
  unfold Stereo.lambdaX; rw [dot_rot hQ]

theorem mobiusAdd_rot : Stereo.mobiusAdd k (Q *ᵥ x) (Q *ᵥ y) = Q *ᵥ Stereo.mobiusAdd k x y := by
  unfold Stereo.mobiusAdd Stereo.mobDenom
  simp only [dot_rot hQ, Matrix.mulVec_smul, Matrix.mulVec_add]

theorem gyration_rot : Stereo.gyration k (Q *ᵥ u) (Q *ᵥ v) (Q *ᵥ w) = Q *ᵥ Stereo.gyration k u v w := by
  unfold Stereo.gyration
  simp only [dot_rot hQ, Matrix.mulVec_smul, Matrix.mulVec_add]

theorem mobiusScalarMul_rot :
    Stereo.mobiusScalarMul η k r (Q *ᵥ x) = Q *ᵥ Stereo.mobiusScalarMul η k r x := by
  unfold Stereo.mobiusScalarMul; simp only [nrm_rot hQ, Matrix.mulVec_smul]

theorem expmap_rot : Stereo.expmap η k (Q *ᵥ x) (Q *ᵥ u) = Q *ᵥ Stereo.expmap η k x u := by
  unfold Stereo.expmap
  simp only [nrm_rot hQ, lambdaX_rot hQ, ← Matrix.mulVec_smul, mobiusAdd_rot hQ]

theorem geodesicUnit_rot :
    Stereo.geodesicUnit η k t (Q *ᵥ x) (Q *ᵥ u) = Q *ᵥ Stereo.geodesicUnit η k t x u := by
  unfold Stereo.geodesicUnit
  simp only [nrm_rot hQ, ← Matrix.mulVec_smul, mobiusAdd_rot hQ]

theorem logmap_rot : Stereo.logmap η k (Q *ᵥ x) (Q *ᵥ y) = Q *ᵥ Stereo.logmap η k x y := by
  unfold Stereo.logmap
  simp only [neg_rot, mobiusAdd_rot hQ, nrm_rot hQ, lambdaX_rot hQ, Matrix.mulVec_smul]

theorem transp_rot : Stereo.transp k (Q *ᵥ x) (Q *ᵥ y) (Q *ᵥ u) = Q *ᵥ Stereo.transp k x y u := by
  unfold Stereo.transp
  simp only [neg_rot, gyration_rot hQ, lambdaX_rot hQ, Matrix.mulVec_smul]

theorem dist_rot : Stereo.dist η k (Q *ᵥ x) (Q *ᵥ y) = Stereo.dist η k x y := by
  unfold Stereo.dist; rw [neg_rot, mobiusAdd_rot hQ, nrm_rot hQ]

theorem antipode_rot : Stereo.antipode η k (Q *ᵥ x) = Q *ᵥ Stereo.antipode η k x := by
  unfold Stereo.antipode
  split_ifs
  · exact neg_rot x
  · rw [nrm_rot hQ, ← Matrix.mulVec_smul, geodesicUnit_rot hQ]

theorem egrad2rgrad_rot : Stereo.egrad2rgrad k (Q *ᵥ x) (Q *ᵥ u) = Q *ᵥ Stereo.egrad2rgrad k x u := by
  unfold Stereo.egrad2rgrad; rw [lambdaX_rot hQ, Matrix.mulVec_smul]

theorem withProject_rot (b : Bool) :
    Stereo.withProject b η dt k (Q *ᵥ x) = Q *ᵥ Stereo.withProject b η dt k x := by
  unfold Stereo.withProject; split_ifs <;> simp only [project_rot hQ]

end Stereo

end Vec

section Stereographic
variable {Q : Matrix (Fin n) (Fin n) ℝ}

/-- **C93.** `PoincareBall`, `SphereProjection`, `Stereographic`: the numbers do not depend on the
orthonormal coordinates. -/
theorem C93_stereographic_numbers (hQ : Orthogonal Q) (η k : ℝ) (x y u v p a : Vec n)
    (signed scaled : Bool) :
    Stereo.M.dist η k (Q *ᵥ x) (Q *ᵥ y) = Stereo.M.dist η k x y ∧
    Stereo.dist0 η k (Q *ᵥ x) = Stereo.dist0 η k x ∧
    Stereo.inner k (Q *ᵥ x) (Q *ᵥ u) (Q *ᵥ v) = Stereo.inner k x u v ∧
    Stereo.norm k (Q *ᵥ x) (Q *ᵥ u) = Stereo.norm k x u ∧
    Stereo.lambdaX k (Q *ᵥ x) = Stereo.lambdaX k x ∧
    Stereo.dist2plane η k (Q *ᵥ x) (Q *ᵥ a) (Q *ᵥ p) signed scaled =
      Stereo.dist2plane η k x a p signed scaled := by
  refine ⟨dist_rot hQ η k x y, ?_, ?_, ?_, lambdaX_rot hQ k x, ?_⟩
  · unfold Stereo.dist0; rw [nrm_rot hQ]
  · unfold Stereo.inner; rw [lambdaX_rot hQ, dot_rot hQ]
  · unfold Stereo.norm; rw [lambdaX_rot hQ, nrm_rot hQ]
  · unfold Stereo.dist2plane; simp only [neg_rot, mobiusAdd_rot hQ, dot_rot hQ, nrm_rot hQ]

/-- **C93.** ... and the points and vectors follow them: gyrovector operations. -/
theorem C93_stereographic_gyro (hQ : Orthogonal Q) (b : Bool) (η : ℝ) (dt : DType) (k r : ℝ)
    (x y z : Vec n) :
    Stereo.M.mobiusAdd b η dt k (Q *ᵥ x) (Q *ᵥ y) = Q *ᵥ Stereo.M.mobiusAdd b η dt k x y ∧
    Stereo.M.mobiusSub b η dt k (Q *ᵥ x) (Q *ᵥ y) = Q *ᵥ Stereo.M.mobiusSub b η dt k x y ∧
    Stereo.M.mobiusCoadd b η dt k (Q *ᵥ x) (Q *ᵥ y) = Q *ᵥ Stereo.M.mobiusCoadd b η dt k x y ∧
    Stereo.M.mobiusCosub b η dt k (Q *ᵥ x) (Q *ᵥ y) = Q *ᵥ Stereo.M.mobiusCosub b η dt k x y ∧
    Stereo.M.mobiusScalarMul b η dt k r (Q *ᵥ x) = Q *ᵥ Stereo.M.mobiusScalarMul b η dt k r x ∧
    Stereo.gyration k (Q *ᵥ x) (Q *ᵥ y) (Q *ᵥ z) = Q *ᵥ Stereo.gyration k x y z ∧
    Stereo.antipode η k (Q *ᵥ x) = Q *ᵥ Stereo.antipode η k x := by
  unfold Stereo.M.mobiusAdd Stereo.M.mobiusSub Stereo.M.mobiusCoadd Stereo.M.mobiusCosub
    Stereo.M.mobiusScalarMul Stereo.mobiusSub Stereo.mobiusCosub Stereo.mobiusCoadd
  simp only [neg_rot, mobiusAdd_rot hQ, gyration_rot hQ, withProject_rot hQ,
    mobiusScalarMul_rot hQ, antipode_rot hQ, and_self]

/-- **C93.** ... maps and transports. -/
theorem C93_stereographic_maps (hQ : Orthogonal Q) (b : Bool) (η : ℝ) (dt : DType) (k t : ℝ)
    (x y u v : Vec n) :
    Stereo.M.projx η dt k (Q *ᵥ x) = Q *ᵥ Stereo.M.projx η dt k x ∧
    Stereo.M.expmap b η dt k (Q *ᵥ x) (Q *ᵥ u) = Q *ᵥ Stereo.M.expmap b η dt k x u ∧
    Stereo.M.expmap0 b η dt k (Q *ᵥ u) = Q *ᵥ Stereo.M.expmap0 b η dt k u ∧
    Stereo.M.logmap η k (Q *ᵥ x) (Q *ᵥ y) = Q *ᵥ Stereo.M.logmap η k x y ∧
    Stereo.logmap0 η k (Q *ᵥ y) = Q *ᵥ Stereo.logmap0 η k y ∧
    Stereo.M.retr η dt k (Q *ᵥ x) (Q *ᵥ u) = Q *ᵥ Stereo.M.retr η dt k x u ∧
    Stereo.geodesic η k t (Q *ᵥ x) (Q *ᵥ y) = Q *ᵥ Stereo.geodesic η k t x y ∧
    Stereo.M.geodesicUnit b η dt k t (Q *ᵥ x) (Q *ᵥ u) = Q *ᵥ Stereo.M.geodesicUnit b η dt k t x u ∧
    Stereo.transp k (Q *ᵥ x) (Q *ᵥ y) (Q *ᵥ v) = Q *ᵥ Stereo.transp k x y v ∧
    Stereo.transp0 k (Q *ᵥ y) (Q *ᵥ v) = Q *ᵥ Stereo.transp0 k y v ∧
    Stereo.transp0back k (Q *ᵥ x) (Q *ᵥ v) = Q *ᵥ Stereo.transp0back k x v ∧
    Stereo.egrad2rgrad k (Q *ᵥ x) (Q *ᵥ u) = Q *ᵥ Stereo.egrad2rgrad k x u := by
  refine ⟨project_rot hQ η dt k x, ?_, ?_, logmap_rot hQ η k x y, ?_, ?_, ?_, ?_,
    transp_rot hQ k x y v, ?_, ?_, egrad2rgrad_rot hQ k x u⟩
  · unfold Stereo.M.expmap; rw [expmap_rot hQ, withProject_rot hQ]
  · unfold Stereo.M.expmap0 Stereo.expmap0
    simp only [nrm_rot hQ, ← Matrix.mulVec_smul, withProject_rot hQ]
  · unfold Stereo.logmap0; simp only [nrm_rot hQ, Matrix.mulVec_smul]
  · unfold Stereo.M.retr; rw [← Matrix.mulVec_add, project_rot hQ]
  · unfold Stereo.geodesic
    simp only [neg_rot, mobiusAdd_rot hQ, mobiusScalarMul_rot hQ]
  · unfold Stereo.M.geodesicUnit; rw [geodesicUnit_rot hQ, withProject_rot hQ]
  · unfold Stereo.transp0; rw [dot_rot hQ, Matrix.mulVec_smul]
  · unfold Stereo.transp0back; rw [dot_rot hQ, Matrix.mulVec_smul]

/-- **C93.** ... and the weighted midpoint of any family of points. -/
theorem C93_stereographic_midpoint (hQ : Orthogonal Q) (b : Bool) (η : ℝ) (dt : DType) (k : ℝ)
    (xs : Fin m → Vec n) (w : Fin m → ℝ) (lincomb posweight : Bool) :
    Stereo.M.weightedMidpoint b η dt k (fun j => Q *ᵥ xs j) w lincomb posweight =
      Q *ᵥ Stereo.M.weightedMidpoint b η dt k xs w lincomb posweight := by
  unfold Stereo.M.weightedMidpoint
  rw [← withProject_rot hQ]
  congr 1
  unfold Stereo.weightedMidpoint
  have hs : ∀ f : Fin m → Vec n, ∑ j, Q *ᵥ f j = Q *ᵥ ∑ j, f j := fun f =>
    (map_sum (Matrix.mulVecLin Q) f _).symm
  by_cases hp : posweight = true ∧ ∃ j, w j < 0
  · simp only [hp, and_self, if_true, antipode_rot hQ, ← apply_ite (fun z => Q *ᵥ z), lambdaX_rot hQ,
      ← Matrix.mulVec_smul, hs, mobiusScalarMul_rot hQ, dist_rot hQ]
  · simp only [hp, if_false, antipode_rot hQ, lambdaX_rot hQ,
      ← Matrix.mulVec_smul, hs, mobiusScalarMul_rot hQ, dist_rot hQ]
    split_ifs <;> simp only [mobiusScalarMul_rot hQ]

end Stereographic

/-! ### Sphere -/

section Sphere
variable {Q : Matrix (Fin n) (Fin n) ℝ}

/-- The projector of the subspace in the new coordinates. -/
def rotP (Q : Matrix (Fin n) (Fin n) ℝ) (P : Option (Matrix (Fin n) (Fin n) ℝ)) :
    Option (Matrix (Fin n) (Fin n) ℝ) := P.map fun P => Q * P * Qᵀ

theorem subspace_rot (hQ : Orthogonal Q) (P : Option (Matrix (Fin n) (Fin n) ℝ)) (x : Vec n) :
    Sphere.projectOnSubspace (rotP Q P) (Q *ᵥ x) = Q *ᵥ Sphere.projectOnSubspace P x := by
  cases P with
  | none => rfl
  | some P =>
    simp only [rotP, Option.map_some, Sphere.projectOnSubspace, Matrix.vecMul_transpose,
      Matrix.mulVec_mulVec]
    rw [Matrix.mul_assoc _ Qᵀ, hQ, Matrix.mul_one]

theorem sphere_projx_rot (hQ : Orthogonal Q) (P : Option (Matrix (Fin n) (Fin n) ℝ)) (x : Vec n) :
    Sphere.projx (rotP Q P) (Q *ᵥ x) = Q *ᵥ Sphere.projx P x := by
  unfold Sphere.projx; simp only [subspace_rot hQ, nrm_rot hQ, Matrix.mulVec_smul]

theorem sphere_proju_rot (hQ : Orthogonal Q) (P : Option (Matrix (Fin n) (Fin n) ℝ)) (x u : Vec n) :
    Sphere.proju (rotP Q P) (Q *ᵥ x) (Q *ᵥ u) = Q *ᵥ Sphere.proju P x u := by
  unfold Sphere.proju
  rw [dot_rot hQ, ← Matrix.mulVec_smul, ← Matrix.mulVec_sub, subspace_rot hQ]

theorem sphere_expmap_rot (hQ : Orthogonal Q) (P : Option (Matrix (Fin n) (Fin n) ℝ)) (dt : DType)
    (x u : Vec n) :
    Sphere.expmap (rotP Q P) dt (Q *ᵥ x) (Q *ᵥ u) = Q *ᵥ Sphere.expmap P dt x u := by
  unfold Sphere.expmap
  simp only [nrm_rot hQ, ← Matrix.mulVec_add, sphere_projx_rot hQ]
  split_ifs
  · simp only [← Matrix.mulVec_smul, ← Matrix.mulVec_add]
  · rfl

/-- **C93.** `Sphere` and `SphereExact`, with or without a subspace (which is rotated as well). -/
theorem C93_sphere (hQ : Orthogonal Q) (P : Option (Matrix (Fin n) (Fin n) ℝ)) (dt : DType)
    (x y u v : Vec n) :
    Sphere.inner (Q *ᵥ x) (Q *ᵥ u) (Q *ᵥ v) = Sphere.inner x u v ∧
    Sphere.dist dt (Q *ᵥ x) (Q *ᵥ y) = Sphere.dist dt x y ∧
    Sphere.projx (rotP Q P) (Q *ᵥ x) = Q *ᵥ Sphere.projx P x ∧
    Sphere.proju (rotP Q P) (Q *ᵥ x) (Q *ᵥ u) = Q *ᵥ Sphere.proju P x u ∧
    Sphere.egrad2rgrad (rotP Q P) (Q *ᵥ x) (Q *ᵥ u) = Q *ᵥ Sphere.egrad2rgrad P x u ∧
    Sphere.retr (rotP Q P) (Q *ᵥ x) (Q *ᵥ u) = Q *ᵥ Sphere.retr P x u ∧
    Sphere.expmap (rotP Q P) dt (Q *ᵥ x) (Q *ᵥ u) = Q *ᵥ Sphere.expmap P dt x u ∧
    Sphere.transp (rotP Q P) (Q *ᵥ x) (Q *ᵥ y) (Q *ᵥ v) = Q *ᵥ Sphere.transp P x y v ∧
    Sphere.logmap (rotP Q P) dt (Q *ᵥ x) (Q *ᵥ y) = Q *ᵥ Sphere.logmap P dt x y := by
  have hd : Sphere.dist dt (Q *ᵥ x) (Q *ᵥ y) = Sphere.dist dt x y := by
    unfold Sphere.dist Sphere.inner; rw [dot_rot hQ]
  refine ⟨dot_rot hQ u v, hd, sphere_projx_rot hQ P x, sphere_proju_rot hQ P x u,
    sphere_proju_rot hQ P x u, ?_, sphere_expmap_rot hQ P dt x u, sphere_proju_rot hQ P y v, ?_⟩
  · unfold Sphere.retr; rw [← Matrix.mulVec_add, sphere_projx_rot hQ]
  · unfold Sphere.logmap
    simp only [hd, ← Matrix.mulVec_sub, sphere_proju_rot hQ, nrm_rot hQ]
    split_ifs
    · rw [Matrix.mulVec_smul]
    · rfl

end Sphere

/-! ### Lorentz model -/

section Lorentz
variable {Q : Matrix (Fin n) (Fin n) ℝ}

theorem spatial_mulVec (x : Vec (n + 1)) :
    spatial Q *ᵥ x = Fin.cons (x 0) (Q *ᵥ Fin.tail x) := by
  funext i
  refine Fin.cases ?_ (fun i => ?_) i
  · simp [spatial, Matrix.mulVec, dotProduct, Fin.sum_univ_succ]
  · simp [spatial, Matrix.mulVec, dotProduct, Fin.sum_univ_succ, Fin.tail]

theorem spatial_zero (x : Vec (n + 1)) : (spatial Q *ᵥ x) 0 = x 0 := by
  rw [spatial_mulVec]; rfl

theorem spatial_tail (x : Vec (n + 1)) : Fin.tail (spatial Q *ᵥ x) = Q *ᵥ Fin.tail x := by
  rw [spatial_mulVec, Fin.tail_cons]

theorem spatial_cons (a : ℝ) (w : Vec n) :
    (Fin.cons a (Q *ᵥ w) : Vec (n + 1)) = spatial Q *ᵥ (Fin.cons a w : Vec (n + 1)) := by
  rw [spatial_mulVec]; rfl

theorem spatial_orth (hQ : Orthogonal Q) : Orthogonal (spatial Q) := by
  unfold Orthogonal
  ext i j
  rw [Matrix.mul_apply, Fin.sum_univ_succ]
  refine Fin.cases ?_ (fun i => ?_) i <;> refine Fin.cases ?_ (fun j => ?_) j
  · simp [spatial]
  · simp [spatial, (Fin.succ_ne_zero j).symm]
  · simp [spatial]
  · have := congrFun (congrFun hQ i) j
    rw [Matrix.mul_apply] at this
    simpa [spatial, Matrix.one_apply, Fin.succ_inj] using this

theorem l_inner_rot (hQ : Orthogonal Q) (u v : Vec (n + 1)) :
    Lorentz.inner (spatial Q *ᵥ u) (spatial Q *ᵥ v) = Lorentz.inner u v := by
  unfold Lorentz.inner; rw [spatial_zero, spatial_zero, spatial_tail, spatial_tail, dot_rot hQ]

theorem l_norm_rot (hQ : Orthogonal Q) (u : Vec (n + 1)) :
    Lorentz.norm (spatial Q *ᵥ u) = Lorentz.norm u := by
  unfold Lorentz.norm; rw [l_inner_rot hQ]

theorem l_dist_rot (hQ : Orthogonal Q) (k : ℝ) (x y : Vec (n + 1)) :
    Lorentz.dist k (spatial Q *ᵥ x) (spatial Q *ᵥ y) = Lorentz.dist k x y := by
  unfold Lorentz.dist; rw [l_inner_rot hQ]

theorem l_project_rot (hQ : Orthogonal Q) (k : ℝ) (x : Vec (n + 1)) :
    Lorentz.project k (spatial Q *ᵥ x) = spatial Q *ᵥ Lorentz.project k x := by
  unfold Lorentz.project; rw [spatial_tail, nrm_rot hQ, spatial_cons]

theorem l_proju_rot (hQ : Orthogonal Q) (k : ℝ) (x v : Vec (n + 1)) :
    Lorentz.proju k (spatial Q *ᵥ x) (spatial Q *ᵥ v) = spatial Q *ᵥ Lorentz.proju k x v := by
  unfold Lorentz.proju Lorentz.projectU
  simp only [l_inner_rot hQ, ← Matrix.mulVec_smul, ← Matrix.mulVec_add]

theorem l_expmapRaw_rot (hQ : Orthogonal Q) (k : ℝ) (x u : Vec (n + 1)) :
    Lorentz.expmapRaw k (spatial Q *ᵥ x) (spatial Q *ᵥ u) = spatial Q *ᵥ Lorentz.expmapRaw k x u := by
  unfold Lorentz.expmapRaw
  simp only [l_norm_rot hQ, ← Matrix.mulVec_smul, ← Matrix.mulVec_add]

theorem l_expmap_rot (hQ : Orthogonal Q) (k : ℝ) (x u : Vec (n + 1)) (b c : Bool) :
    Lorentz.expmap k (spatial Q *ᵥ x) (spatial Q *ᵥ u) b c = spatial Q *ᵥ Lorentz.expmap k x u b c := by
  unfold Lorentz.expmap
  cases b <;> cases c <;>
    simp only [l_proju_rot hQ, l_expmapRaw_rot hQ, l_project_rot hQ, if_true, if_false,
      Bool.false_eq_true]

theorem l_logmap_rot (hQ : Orthogonal Q) (k : ℝ) (x y : Vec (n + 1)) :
    Lorentz.logmap k (spatial Q *ᵥ x) (spatial Q *ᵥ y) = spatial Q *ᵥ Lorentz.logmap k x y := by
  unfold Lorentz.logmap
  simp only [l_dist_rot hQ, l_inner_rot hQ, l_norm_rot hQ, ← Matrix.mulVec_smul, ← Matrix.mulVec_add]

theorem l_transp_rot (hQ : Orthogonal Q) (k : ℝ) (x y v : Vec (n + 1)) :
    Lorentz.transp k (spatial Q *ᵥ x) (spatial Q *ᵥ y) (spatial Q *ᵥ v) =
      spatial Q *ᵥ Lorentz.transp k x y v := by
  unfold Lorentz.transp
  simp only [l_logmap_rot hQ, l_dist_rot hQ, l_inner_rot hQ, ← Matrix.mulVec_smul,
    ← Matrix.mulVec_add, ← Matrix.mulVec_sub]

theorem l_inner0_rot (k : ℝ) (v : Vec (n + 1)) :
    Lorentz.inner0 k (spatial Q *ᵥ v) = Lorentz.inner0 k v := by
  unfold Lorentz.inner0; rw [spatial_zero]

theorem l_dist0_rot (k : ℝ) (v : Vec (n + 1)) :
    Lorentz.dist0 k (spatial Q *ᵥ v) = Lorentz.dist0 k v := by
  unfold Lorentz.dist0; rw [l_inner0_rot]

theorem l_logmap0_rot (hQ : Orthogonal Q) (k : ℝ) (y : Vec (n + 1)) :
    Lorentz.logmap0 k (spatial Q *ᵥ y) = spatial Q *ᵥ Lorentz.logmap0 k y := by
  unfold Lorentz.logmap0
  simp only [l_dist0_rot, l_inner0_rot, spatial_zero, spatial_tail, spatial_cons, l_norm_rot hQ,
    Matrix.mulVec_smul]

theorem l_logmap0back_rot (hQ : Orthogonal Q) (k : ℝ) (y : Vec (n + 1)) :
    Lorentz.logmap0back k (spatial Q *ᵥ y) = spatial Q *ᵥ Lorentz.logmap0back k y := by
  unfold Lorentz.logmap0back
  simp only [l_dist0_rot, l_inner0_rot, ← Matrix.mulVec_smul, spatial_zero, spatial_tail,
    spatial_cons, l_norm_rot hQ]

theorem l_egrad_rot (hQ : Orthogonal Q) (k : ℝ) (x g : Vec (n + 1)) :
    Lorentz.egrad2rgrad k (spatial Q *ᵥ x) (spatial Q *ᵥ g) =
      (spatial Q *ᵥ (Lorentz.egrad2rgrad k x g).1, spatial Q *ᵥ (Lorentz.egrad2rgrad k x g).2) := by
  unfold Lorentz.egrad2rgrad
  simp only [spatial_zero, spatial_tail, spatial_cons, l_inner_rot hQ, ← Matrix.mulVec_smul,
    ← Matrix.mulVec_add]

/-- **C93.** `Lorentz`: rotations of the spatial coordinates.  `egrad2rgrad` returns its result and
what it leaves in its argument. -/
theorem C93_lorentz (hQ : Orthogonal Q) (k t : ℝ) (x y u v : Vec (n + 1)) (b c : Bool) :
    Lorentz.inner (spatial Q *ᵥ u) (spatial Q *ᵥ v) = Lorentz.inner u v ∧
    Lorentz.norm (spatial Q *ᵥ u) = Lorentz.norm u ∧
    Lorentz.dist k (spatial Q *ᵥ x) (spatial Q *ᵥ y) = Lorentz.dist k x y ∧
    Lorentz.dist0 k (spatial Q *ᵥ x) = Lorentz.dist0 k x ∧
    Lorentz.projx k (spatial Q *ᵥ x) = spatial Q *ᵥ Lorentz.projx k x ∧
    Lorentz.proju k (spatial Q *ᵥ x) (spatial Q *ᵥ u) = spatial Q *ᵥ Lorentz.proju k x u ∧
    Lorentz.expmap k (spatial Q *ᵥ x) (spatial Q *ᵥ u) b c =
      spatial Q *ᵥ Lorentz.expmap k x u b c ∧
    Lorentz.expmap0 k (spatial Q *ᵥ u) c = spatial Q *ᵥ Lorentz.expmap0 k u c ∧
    Lorentz.logmap k (spatial Q *ᵥ x) (spatial Q *ᵥ y) = spatial Q *ᵥ Lorentz.logmap k x y ∧
    Lorentz.logmap0 k (spatial Q *ᵥ y) = spatial Q *ᵥ Lorentz.logmap0 k y ∧
    Lorentz.transp k (spatial Q *ᵥ x) (spatial Q *ᵥ y) (spatial Q *ᵥ v) =
      spatial Q *ᵥ Lorentz.transp k x y v ∧
    Lorentz.transp0 k (spatial Q *ᵥ y) (spatial Q *ᵥ v) = spatial Q *ᵥ Lorentz.transp0 k y v ∧
    Lorentz.transp0back k (spatial Q *ᵥ x) (spatial Q *ᵥ v) =
      spatial Q *ᵥ Lorentz.transp0back k x v ∧
    Lorentz.geodesicUnit k t (spatial Q *ᵥ x) (spatial Q *ᵥ u) c =
      spatial Q *ᵥ Lorentz.geodesicUnit k t x u c ∧
    Lorentz.toPoincare k (spatial Q *ᵥ x) = Q *ᵥ Lorentz.toPoincare k x ∧
    Lorentz.egrad2rgrad k (spatial Q *ᵥ x) (spatial Q *ᵥ u) =
      (spatial Q *ᵥ (Lorentz.egrad2rgrad k x u).1, spatial Q *ᵥ (Lorentz.egrad2rgrad k x u).2) := by
  refine ⟨l_inner_rot hQ u v, l_norm_rot hQ u, l_dist_rot hQ k x y, l_dist0_rot k x,
    l_project_rot hQ k x, l_proju_rot hQ k x u, l_expmap_rot hQ k x u b c, ?_,
    l_logmap_rot hQ k x y, l_logmap0_rot hQ k y, l_transp_rot hQ k x y v, ?_, ?_, ?_, ?_,
    l_egrad_rot hQ k x u⟩
  · unfold Lorentz.expmap0 Lorentz.expmap0Raw
    simp only [l_norm_rot hQ, ← Matrix.mulVec_smul, spatial_zero, spatial_tail, spatial_cons,
      l_project_rot hQ]
    split_ifs <;> rfl
  · unfold Lorentz.transp0
    simp only [l_logmap0_rot hQ, l_logmap0back_rot hQ, l_dist0_rot, l_inner_rot hQ,
      ← Matrix.mulVec_smul, ← Matrix.mulVec_add, ← Matrix.mulVec_sub]
  · unfold Lorentz.transp0back
    simp only [l_logmap0_rot hQ, l_logmap0back_rot hQ, l_dist0_rot, l_inner_rot hQ,
      ← Matrix.mulVec_smul, ← Matrix.mulVec_add, ← Matrix.mulVec_sub]
  · unfold Lorentz.geodesicUnit Lorentz.geodesicUnitRaw
    simp only [← Matrix.mulVec_smul, ← Matrix.mulVec_add, l_project_rot hQ]
    split_ifs <;> rfl
  · unfold Lorentz.toPoincare; rw [spatial_zero, spatial_tail, Matrix.mulVec_smul]

end Lorentz

/-! ### Stiefel manifolds -/

section Stiefel
variable {Q : Matrix (Fin n) (Fin n) ℝ}

theorem gram_rot (hQ : Orthogonal Q) (x y : Matrix (Fin n) (Fin m) ℝ) :
    (Q * x)ᵀ * (Q * y) = xᵀ * y := by
  rw [Matrix.transpose_mul, Matrix.mul_assoc, ← Matrix.mul_assoc Qᵀ, hQ, Matrix.one_mul]

theorem frob_eq (u v : Matrix (Fin n) (Fin m) ℝ) : Linalg.frob u v = (uᵀ * v).trace := by
  unfold Linalg.frob Matrix.trace
  simp only [Matrix.diag, Matrix.mul_apply, Matrix.transpose_apply]
  exact Finset.sum_comm

theorem frob_rot (hQ : Orthogonal Q) (u v : Matrix (Fin n) (Fin m) ℝ) :
    Linalg.frob (Q * u) (Q * v) = Linalg.frob u v := by
  rw [frob_eq, frob_eq, gram_rot hQ]

theorem onStiefel_rot (hQ : Orthogonal Q) {x : Matrix (Fin n) (Fin m) ℝ} (h : Stiefel.OnStiefel x) :
    Stiefel.OnStiefel (Q * x) := by
  unfold Stiefel.OnStiefel; rw [gram_rot hQ]; exact h

theorem euclid_proju_rot (hQ : Orthogonal Q) (x u : Matrix (Fin n) (Fin m) ℝ) :
    Stiefel.Euclidean.proju (Q * x) (Q * u) = Q * Stiefel.Euclidean.proju x u := by
  unfold Stiefel.Euclidean.proju
  rw [gram_rot hQ, Matrix.mul_assoc, ← Matrix.mul_sub]

theorem canon_proju_rot (hQ : Orthogonal Q) (x u : Matrix (Fin n) (Fin m) ℝ) :
    Stiefel.Canonical.proju (Q * x) (Q * u) = Q * Stiefel.Canonical.proju x u := by
  unfold Stiefel.Canonical.proju
  rw [Matrix.mul_assoc, gram_rot hQ, Matrix.mul_assoc, ← Matrix.mul_sub, Matrix.mul_assoc]

theorem euclid_expmap_rot (hQ : Orthogonal Q) (x u : Matrix (Fin n) (Fin m) ℝ) :
    Stiefel.Euclidean.expmap (Q * x) (Q * u) = Q * Stiefel.Euclidean.expmap x u := by
  unfold Stiefel.Euclidean.expmap
  simp only [gram_rot hQ]
  rw [← Matrix.mul_fromCols]
  simp only [Matrix.mul_assoc]

theorem orth' (hQ : Orthogonal Q) : Q * Qᵀ = 1 := mul_eq_one_comm.1 hQ

theorem follow_rot {κ : Type} [Fintype κ] (hQ : Orthogonal Q) (x u : Matrix (Fin n) (Fin m) ℝ) (v : Matrix (Fin n) κ ℝ) :
    Stiefel.Canonical.transpFollowOne (Q * x) (Q * v) (Q * u) =
      Q * Stiefel.Canonical.transpFollowOne x v u := by
  have ha : Stiefel.Canonical.amat (Q * x) (Q * u) = Q * Stiefel.Canonical.amat x u * Qᵀ := by
    unfold Stiefel.Canonical.amat
    simp only [Matrix.transpose_mul, Matrix.mul_sub, Matrix.sub_mul, Matrix.mul_assoc]
  have hl : ∀ x u : Matrix (Fin n) (Fin m) ℝ, Stiefel.Canonical.lhs x u =
      (-1 / 2 : ℝ) • Stiefel.Canonical.amat x u + 1 := by
    intro x u; ext i j; simp [Stiefel.Canonical.lhs, Matrix.one_apply]
  have h1 : Stiefel.Canonical.lhs (Q * x) (Q * u) = Q * Stiefel.Canonical.lhs x u * Qᵀ := by
    rw [hl, hl, ha, Matrix.mul_add, Matrix.add_mul, Matrix.mul_one, orth' hQ, Matrix.mul_smul,
      Matrix.smul_mul]
  unfold Stiefel.Canonical.transpFollowOne
  simp only [h1, ha]
  have hi : Q⁻¹ = Qᵀ := Matrix.inv_eq_left_inv hQ
  have hi' : Qᵀ⁻¹ = Q := Matrix.inv_eq_left_inv (orth' hQ)
  rw [Matrix.mul_inv_rev, Matrix.mul_inv_rev, hi, hi']
  have h2 : Q * Stiefel.Canonical.amat x u * Qᵀ * (Q * v) = Q * (Stiefel.Canonical.amat x u * v) := by
    rw [Matrix.mul_assoc, ← Matrix.mul_assoc Qᵀ, hQ, Matrix.one_mul, Matrix.mul_assoc]
  rw [h2, ← Matrix.mul_smul, ← Matrix.mul_add, Matrix.mul_assoc, Matrix.mul_assoc,
    ← Matrix.mul_assoc Qᵀ, hQ, Matrix.one_mul]

theorem retrTransp_rot (hQ : Orthogonal Q) (x u v : Matrix (Fin n) (Fin m) ℝ) :
    Stiefel.Canonical.retrTransp (Q * x) (Q * u) (Q * v) =
      (Q * (Stiefel.Canonical.retrTransp x u v).1, Q * (Stiefel.Canonical.retrTransp x u v).2) := by
  unfold Stiefel.Canonical.retrTransp
  simp only
  rw [← Matrix.mul_fromCols, follow_rot hQ]
  rfl

/-- **C93.** `CanonicalStiefel`: left multiplication by an orthogonal matrix. -/
theorem C93_canonical_stiefel (hQ : Orthogonal Q) (x u v : Matrix (Fin n) (Fin m) ℝ) :
    Stiefel.Canonical.inner (Q * x) (Q * u) (Q * v) = Stiefel.Canonical.inner x u v ∧
    Stiefel.Canonical.proju (Q * x) (Q * u) = Q * Stiefel.Canonical.proju x u ∧
    Stiefel.Canonical.retr (Q * x) (Q * u) = Q * Stiefel.Canonical.retr x u ∧
    Stiefel.Canonical.transpFollowRetr (Q * x) (Q * u) (Q * v) =
      Q * Stiefel.Canonical.transpFollowRetr x u v ∧
    Stiefel.Canonical.retrTransp (Q * x) (Q * u) (Q * v) =
      (Q * (Stiefel.Canonical.retrTransp x u v).1, Q * (Stiefel.Canonical.retrTransp x u v).2) := by
  refine ⟨?_, canon_proju_rot hQ x u, follow_rot hQ x u x, follow_rot hQ x u v,
    retrTransp_rot hQ x u v⟩
  unfold Stiefel.Canonical.inner
  simp only [gram_rot hQ, frob_rot hQ]

/-- **C93.** `EuclideanStiefel` and `EuclideanStiefelExact`.  `retr` is computed from any QR
decompositions of the arguments. -/
theorem C93_euclidean_stiefel (hQ : Orthogonal Q) (x y u v : Matrix (Fin n) (Fin m) ℝ) :
    Stiefel.Euclidean.inner (Q * x) (Q * u) (Q * v) = Stiefel.Euclidean.inner x u v ∧
    Stiefel.Euclidean.proju (Q * x) (Q * u) = Q * Stiefel.Euclidean.proju x u ∧
    Stiefel.Euclidean.transp (Q * x) (Q * y) (Q * v) = Q * Stiefel.Euclidean.transp x y v ∧
    Stiefel.Euclidean.expmap (Q * x) (Q * u) = Q * Stiefel.Euclidean.expmap x u ∧
    (Stiefel.OnStiefel x → Stiefel.Tangent x u → ∀ q r q' r',
      Linalg.IsQR (x + u) q r → Linalg.IsQR (Q * x + Q * u) q' r' →
      Stiefel.Euclidean.retr q' r' = Q * Stiefel.Euclidean.retr q r) := by
  refine ⟨frob_rot hQ u v, euclid_proju_rot hQ x u, euclid_proju_rot hQ y v,
    euclid_expmap_rot hQ x u, fun hx hu q r q' r' h h' => ?_⟩
  have h2 : Linalg.IsQR (Q * x + Q * u) (Q * q) r :=
    ⟨by rw [← Matrix.mul_add, h.eq, Matrix.mul_assoc], by rw [gram_rot hQ]; exact h.orth, h.upper⟩
  rw [Stiefel.C26_retr_unique (onStiefel_rot hQ hx)
    (by unfold Stiefel.Tangent at *; rw [gram_rot hQ]; exact hu) h' h2]
  unfold Stiefel.Euclidean.retr
  ext i j
  rw [Matrix.mul_apply]
  simp only [Finset.sum_mul, mul_assoc]
  rfl

open SpecNearest in
/-- **C93.** `projx` of the Stiefel manifolds, from any singular value decompositions, when the matrix
has full rank. -/
theorem C93_stiefel_projx (hQ : Orthogonal Q) {x U U' : Matrix (Fin n) (Fin m) ℝ} {S S' : Fin m → ℝ}
    {V V' : Matrix (Fin m) (Fin m) ℝ} (h : Linalg.IsSVD x U S V) (hS : ∀ i, 0 < S i)
    (h' : Linalg.IsSVD (Q * x) U' S' V') : Stiefel.projx U' V' = Q * Stiefel.projx U V := by
  have h1 := C92.C92_stiefel_only h hS
  have h2 := C92.C92_stiefel h'
  have hsq : ∀ a b : Matrix (Fin n) (Fin m) ℝ, sqMat (Q * a) (Q * b) = sqMat a b := by
    intro a b
    have : ∀ a b : Matrix (Fin n) (Fin m) ℝ, sqMat a b = Linalg.frob (a - b) (a - b) := by
      intro a b; simp only [sqMat, Linalg.frob, Matrix.sub_apply, sq]
    rw [this, this, ← Matrix.mul_sub, frob_rot hQ]
  have hQt : Orthogonal Qᵀ := by unfold Orthogonal; rw [Matrix.transpose_transpose]; exact orth' hQ
  have hback : ∀ z : Matrix (Fin n) (Fin m) ℝ, Q * (Qᵀ * z) = z := fun z => by
    rw [← Matrix.mul_assoc, orth' hQ, Matrix.one_mul]
  by_contra hne
  have h3 := h1.2 (Qᵀ * Stiefel.projx U' V') (onStiefel_rot hQt h2.1) (fun e => hne (by
    rw [← e, hback]))
  have h4 := h2.2 (Q * Stiefel.projx U V) (onStiefel_rot hQ h1.1)
  rw [hsq] at h4
  rw [← hsq x (Qᵀ * _), hback] at h3
  linarith

end Stiefel

/-! ### Symmetric positive definite matrices -/

section SPD
open Geoopt.SPD Geoopt.Linalg
variable {Q : Matrix (Fin n) (Fin n) ℝ}

theorem cj_mul (hQ : Orthogonal Q) (x y : Mat n) : Q * x * Qᵀ * (Q * y * Qᵀ) = Q * (x * y) * Qᵀ := by
  calc Q * x * Qᵀ * (Q * y * Qᵀ) = Q * x * (Qᵀ * Q) * y * Qᵀ := by simp only [Matrix.mul_assoc]
    _ = _ := by rw [hQ, Matrix.mul_one]; simp only [Matrix.mul_assoc]

theorem cj_tr (x : Mat n) : (Q * x * Qᵀ)ᵀ = Q * xᵀ * Qᵀ := by
  simp only [Matrix.transpose_mul, Matrix.transpose_transpose, Matrix.mul_assoc]

theorem cj_add (x y : Mat n) : Q * x * Qᵀ + Q * y * Qᵀ = Q * (x + y) * Qᵀ := by
  rw [Matrix.mul_add, Matrix.add_mul]

theorem cj_sub (x y : Mat n) : Q * x * Qᵀ - Q * y * Qᵀ = Q * (x - y) * Qᵀ := by
  rw [Matrix.mul_sub, Matrix.sub_mul]

theorem cj_smul (c : ℝ) (x : Mat n) : c • (Q * x * Qᵀ) = Q * (c • x) * Qᵀ := by
  rw [Matrix.mul_smul, Matrix.smul_mul]

theorem cj_inv (hQ : Orthogonal Q) (x : Mat n) : (Q * x * Qᵀ)⁻¹ = Q * x⁻¹ * Qᵀ := by
  have hi : Q⁻¹ = Qᵀ := Matrix.inv_eq_left_inv hQ
  have hi' : Qᵀ⁻¹ = Q := Matrix.inv_eq_left_inv (orth' hQ)
  rw [Matrix.mul_inv_rev, Matrix.mul_inv_rev, hi, hi', Matrix.mul_assoc]

theorem cj_exp (hQ : Orthogonal Q) (x : Mat n) :
    NormedSpace.exp (Q * x * Qᵀ) = Q * NormedSpace.exp x * Qᵀ := by
  have hi : Q⁻¹ = Qᵀ := Matrix.inv_eq_left_inv hQ
  rw [← hi]
  exact Matrix.exp_conj Q x ((Matrix.isUnit_iff_isUnit_det _).2
    (Matrix.isUnit_det_of_left_inverse hQ))

theorem cj_sym (x : Mat n) : sym (Q * x * Qᵀ) = Q * sym x * Qᵀ := by
  unfold sym; rw [cj_tr, cj_add, cj_smul]

theorem cj_fn (hQ : Orthogonal Q) (E : Eigh n) (f : ℝ → ℝ) {x : Mat n} (hx : xᵀ = x) :
    symFuncm E f (Q * x * Qᵀ) = Q * symFuncm E f x * Qᵀ := by
  have h := eigh_dec E hx
  have h2 : Dec (Q * x * Qᵀ) (E.e x) (Q * E.v x) := by
    constructor
    · rw [gram_rot hQ]; exact h.orth
    · conv_lhs => rw [h.eq]
      rw [Matrix.transpose_mul]; simp only [Matrix.mul_assoc]
  rw [symFuncm_eq E f h2 (by rw [cj_tr, hx]), symFuncm_eq_fn]
  unfold fn
  rw [Matrix.transpose_mul]; simp only [Matrix.mul_assoc]

theorem cj_roots (hQ : Orthogonal Q) (E : Eigh n) {x : Mat n} (hx : xᵀ = x) :
    symInvSqrtm2 E (Q * x * Qᵀ) =
      (Q * (symInvSqrtm2 E x).1 * Qᵀ, Q * (symInvSqrtm2 E x).2 * Qᵀ) :=
  Prod.ext (cj_fn hQ E (fun t => (Real.sqrt t)⁻¹) hx) (cj_fn hQ E Real.sqrt hx)

theorem roots_symm (E : Eigh n) (x : Mat n) :
    (symInvSqrtm2 E x).1ᵀ = (symInvSqrtm2 E x).1 ∧ (symInvSqrtm2 E x).2ᵀ = (symInvSqrtm2 E x).2 :=
  ⟨fn_symm (fun t => (Real.sqrt t)⁻¹) _ _, fn_symm Real.sqrt _ _⟩

theorem mid_symm {p y : Mat n} (hp : pᵀ = p) (hy : yᵀ = y) : (p * y * p)ᵀ = p * y * p := by
  rw [Matrix.transpose_mul, Matrix.transpose_mul, hp, hy, Matrix.mul_assoc]

theorem cj_frobNorm (hQ : Orthogonal Q) (x : Mat n) : frobNorm (Q * x * Qᵀ) = frobNorm x := by
  unfold frobNorm
  have h1 : ∀ y : Mat n, frob yᵀ yᵀ = frob y y := by
    intro y; unfold frob; rw [Finset.sum_comm]; rfl
  rw [Matrix.mul_assoc, frob_rot hQ, ← h1, Matrix.transpose_mul, Matrix.transpose_transpose,
    frob_rot hQ, h1]

theorem spd_egrad_rot (hQ : Orthogonal Q) (x u : Mat n) :
    SPD.egrad2rgrad (Q * x * Qᵀ) (Q * u * Qᵀ) = Q * SPD.egrad2rgrad x u * Qᵀ := by
  unfold SPD.egrad2rgrad SPD.proju
  rw [cj_tr, cj_sym, cj_mul hQ, cj_mul hQ]

theorem spd_retr_rot (hQ : Orthogonal Q) (x u : Mat n) :
    SPD.retr (Q * x * Qᵀ) (Q * u * Qᵀ) = Q * SPD.retr x u * Qᵀ := by
  unfold SPD.retr symInvm
  simp only
  rw [cj_inv hQ, cj_add, cj_smul, cj_mul hQ, cj_mul hQ, cj_add, cj_sym]

theorem spd_transp_rot (hQ : Orthogonal Q) (E : Eigh n) {x y : Mat n} (hx : xᵀ = x) (hy : yᵀ = y)
    (v : Mat n) :
    SPD.transp E (Q * x * Qᵀ) (Q * y * Qᵀ) (Q * v * Qᵀ) = Q * SPD.transp E x y v * Qᵀ := by
  unfold SPD.transp
  have hr := roots_symm E x
  simp only [cj_roots hQ E hx, cj_mul hQ]
  rw [show symLogm E _ = _ from cj_fn hQ E Real.log (mid_symm hr.1 hy), cj_smul, symExpm, cj_exp hQ,
    cj_sym]
  simp only [cj_mul hQ]
  rfl

/-- **C93.** `SymmetricPositiveDefinite`, `x ↦ Q x Qᵀ`; `x` and `y` are symmetric, for any
implementation of the eigendecomposition. -/
theorem C93_spd (hQ : Orthogonal Q) (E : Eigh n) (M : SPD.Metric) {x y : Mat n} (hx : xᵀ = x)
    (hy : yᵀ = y) (u v : Mat n) :
    SPD.dist E M (Q * x * Qᵀ) (Q * y * Qᵀ) = SPD.dist E M x y ∧
    SPD.inner (Q * x * Qᵀ) (Q * u * Qᵀ) (Q * v * Qᵀ) = SPD.inner x u v ∧
    SPD.projx E (Q * v * Qᵀ) = Q * SPD.projx E v * Qᵀ ∧
    SPD.proju (Q * x * Qᵀ) (Q * v * Qᵀ) = Q * SPD.proju x v * Qᵀ ∧
    SPD.egrad2rgrad (Q * x * Qᵀ) (Q * v * Qᵀ) = Q * SPD.egrad2rgrad x v * Qᵀ ∧
    SPD.retr (Q * x * Qᵀ) (Q * v * Qᵀ) = Q * SPD.retr x v * Qᵀ ∧
    SPD.expmap E (Q * x * Qᵀ) (Q * v * Qᵀ) = Q * SPD.expmap E x v * Qᵀ ∧
    SPD.logmap E (Q * x * Qᵀ) (Q * y * Qᵀ) = Q * SPD.logmap E x y * Qᵀ ∧
    SPD.transp E (Q * x * Qᵀ) (Q * y * Qᵀ) (Q * v * Qᵀ) = Q * SPD.transp E x y v * Qᵀ := by
  have hr := roots_symm E x
  have htr : ∀ z : Mat n, Linalg.trace (Q * z * Qᵀ) = Linalg.trace z := by
    intro z
    show Matrix.trace (Q * z * Qᵀ) = Matrix.trace z
    rw [Matrix.trace_mul_comm, ← Matrix.mul_assoc, hQ, Matrix.one_mul]
  have hdet : ∀ z : Mat n, (Q * z * Qᵀ).det = z.det := by
    intro z
    rw [Matrix.det_mul, Matrix.det_mul, mul_right_comm, ← Matrix.det_mul, orth' hQ, Matrix.det_one,
      one_mul]
  refine ⟨?_, ?_, ?_, cj_sym v, spd_egrad_rot hQ x v, spd_retr_rot hQ x v, ?_, ?_,
    spd_transp_rot hQ E hx hy v⟩
  · cases M with
    | AIM =>
      have h1 : symInvSqrtm1 E (Q * x * Qᵀ) = Q * symInvSqrtm1 E x * Qᵀ := cj_fn hQ E _ hx
      have h2 : (symInvSqrtm1 E x)ᵀ = symInvSqrtm1 E x := fn_symm (fun t => t ^ (-0.5 : ℝ)) _ _
      simp only [SPD.dist, SPD.affineInvariant]
      rw [h1, cj_mul hQ, cj_mul hQ, show symLogm E _ = _ from cj_fn hQ E Real.log (mid_symm h2 hy),
        cj_frobNorm hQ]
      rfl
    | SM =>
      simp only [SPD.dist, SPD.stein]
      rw [cj_add, cj_smul, hdet, cj_mul hQ, hdet]
    | LEM =>
      simp only [SPD.dist, SPD.logEuclidean]
      rw [show symLogm E (Q * x * Qᵀ) = _ from cj_fn hQ E Real.log hx,
        show symLogm E (Q * y * Qᵀ) = _ from cj_fn hQ E Real.log hy, cj_sub, cj_frobNorm hQ]
      rfl
  · unfold SPD.inner symInvm
    simp only
    rw [cj_inv hQ, cj_mul hQ, cj_mul hQ, cj_mul hQ, htr]
  · unfold SPD.projx
    rw [cj_sym, cj_fn hQ E _ (sym_symm v)]
  · unfold SPD.expmap symExpm
    simp only [cj_roots hQ E hx, cj_mul hQ, cj_exp hQ]
  · unfold SPD.logmap
    simp only [cj_roots hQ E hx, cj_mul hQ]
    rw [show symLogm E _ = _ from cj_fn hQ E Real.log (mid_symm hr.1 hy), cj_mul hQ, cj_mul hQ]
    rfl

end SPD

/-! ### Birkhoff polytope -/

section Birkhoff
open Geoopt.Birkhoff
variable {ι : Type*} (σ τ : ι → Equiv.Perm (Fin n))

theorem rOf_perm (eps : ℝ) (x : Matrix (Fin n) (Fin n) ℝ) (c : Fin n → ℝ) (s t : Equiv.Perm (Fin n)) :
    rOf eps (x.submatrix s t) (c ∘ t) = rOf eps x c ∘ s := by
  funext i
  simp only [rOf, Matrix.submatrix_apply, Function.comp_apply]
  rw [Equiv.sum_comp t fun j => x (s i) j * c j]

/-- The loop state for permuted rows and columns. -/
def permSink (s t : Equiv.Perm (Fin n)) (z : Sink n) : Sink n := ⟨z.c ∘ t, z.r ∘ s⟩

theorem sinkInit_perm (eps : ℝ) (x : Matrix (Fin n) (Fin n) ℝ) (s t : Equiv.Perm (Fin n)) :
    sinkInit eps (x.submatrix s t) = permSink s t (sinkInit eps x) := by
  have hc : (fun j => 1.0 / ((∑ i, x.submatrix s t i j) + eps)) =
      (fun j => 1.0 / ((∑ i, x i j) + eps)) ∘ t := by
    funext j
    simp only [Matrix.submatrix_apply, Function.comp_apply]
    rw [Equiv.sum_comp s fun i => x i (t j)]
  simp only [sinkInit, permSink, hc, rOf_perm]

theorem cinv_perm (x : Matrix (Fin n) (Fin n) ℝ) (z : Sink n) (s t : Equiv.Perm (Fin n)) :
    cinv (x.submatrix s t) (permSink s t z) = cinv x z ∘ t := by
  funext j
  simp only [cinv, permSink, Matrix.submatrix_apply, Function.comp_apply]
  rw [Equiv.sum_comp s fun i => z.r i * x i (t j)]

theorem sinkStep_perm (eps : ℝ) (x : Matrix (Fin n) (Fin n) ℝ) (z : Sink n)
    (s t : Equiv.Perm (Fin n)) :
    sinkStep eps (x.submatrix s t) (permSink s t z) = permSink s t (sinkStep eps x z) := by
  have hc : (fun j => 1.0 / (cinv (x.submatrix s t) (permSink s t z) j + eps)) =
      (fun j => 1.0 / (cinv x z j + eps)) ∘ t := by
    rw [cinv_perm]; rfl
  unfold sinkStep
  simp only [hc, rOf_perm]
  rfl

theorem sinkLoop_perm (eps tol : ℝ) (x : ι → Matrix (Fin n) (Fin n) ℝ) (k : ℕ) (z : ι → Sink n) :
    sinkLoop eps tol (fun b => (x b).submatrix (σ b) (τ b)) k
        (fun b => permSink (σ b) (τ b) (z b)) =
      (fun b => permSink (σ b) (τ b) ((sinkLoop eps tol x k z).1 b), (sinkLoop eps tol x k z).2) := by
  induction k generalizing z with
  | zero => rfl
  | succ k ih =>
    have hst : Stop tol (fun b => (x b).submatrix (σ b) (τ b))
        (fun b => permSink (σ b) (τ b) (z b)) ↔ Stop tol x z := by
      unfold Stop
      refine forall_congr' fun b => ?_
      rw [cinv_perm]
      exact (τ b).forall_congr (fun j => Iff.rfl)
    unfold sinkLoop
    by_cases h : Stop tol x z
    · rw [if_pos h, if_pos (hst.2 h)]
    · rw [if_neg h, if_neg (fun h' => h (hst.1 h')), ← ih]
      congr 1
      funext b
      exact sinkStep_perm eps (x b) (z b) (σ b) (τ b)

theorem projx_perm (cfg : Config) (x : ι → Matrix (Fin n) (Fin n) ℝ) :
    projx cfg (fun b => (x b).submatrix (σ b) (τ b)) =
      fun b => (projx cfg x b).submatrix (σ b) (τ b) := by
  unfold projx projRun
  simp only [sinkInit_perm, sinkLoop_perm]
  funext b
  ext i j
  simp [assemble, permSink]

/-- **C93.** `BirkhoffPolytope`: permutations of the rows and columns, a different one for each element
of a batch. -/
theorem C93_birkhoff (cfg : Config) (x u : ι → Matrix (Fin n) (Fin n) ℝ) :
    projx cfg (fun b => (x b).submatrix (σ b) (τ b)) =
      (fun b => (projx cfg x b).submatrix (σ b) (τ b)) ∧
    retr cfg (fun b => (x b).submatrix (σ b) (τ b)) (fun b => (u b).submatrix (σ b) (τ b)) =
      (fun b => (retr cfg x u b).submatrix (σ b) (τ b)) ∧
    ∀ b, Birkhoff.inner ((x b).submatrix (σ b) (τ b)) ((u b).submatrix (σ b) (τ b))
      ((u b).submatrix (σ b) (τ b)) = Birkhoff.inner (x b) (u b) (u b) := by
  refine ⟨projx_perm σ τ cfg x, ?_, fun b => ?_⟩
  · unfold retr
    have := projx_perm σ τ cfg fun b => Matrix.of fun i j => x b i j * Real.exp (u b i j / x b i j)
    funext b
    ext i j
    exact congrArg (fun t => max t 1e-12) (congrFun (congrFun (congrFun this b) i) j)
  · unfold Birkhoff.inner
    simp only [Matrix.submatrix_apply]
    congr 1
    rw [Equiv.sum_comp (σ b) fun i => ∑ j, u b i (τ b j) * u b i (τ b j) / x b i (τ b j)]
    refine Finset.sum_congr rfl fun i _ => ?_
    rw [Equiv.sum_comp (τ b) fun j => u b i j * u b i j / x b i j]

/-- **C93.** ... `proju`, `egrad2rgrad` and `transp` at doubly stochastic matrices, although the linear
system that the code solves treats the first row in a special way. -/
theorem C93_birkhoff_proju {x : Matrix (Fin (n + 1)) (Fin (n + 1)) ℝ} (hx : DoublyStochastic x)
    (u : Matrix (Fin (n + 1)) (Fin (n + 1)) ℝ) (s t : Equiv.Perm (Fin (n + 1))) :
    Birkhoff.proju (x.submatrix s t) (u.submatrix s t) = (Birkhoff.proju x u).submatrix s t := by
  have hx' : DoublyStochastic (x.submatrix s t) := by
    refine ⟨fun i j => hx.pos _ _, fun i => ?_, fun j => ?_⟩
    · exact (Equiv.sum_comp t fun j => x (s i) j).trans (hx.row (s i))
    · exact (Equiv.sum_comp s fun i => x i (t j)).trans (hx.col (t j))
  have ht := C34_tangent hx u
  have e : (Birkhoff.proju x u).submatrix s t = Matrix.of fun i j =>
      x.submatrix s t i j * u.submatrix s t i j -
        ((alpha x u ∘ s) i + (beta x u ∘ t) j) * x.submatrix s t i j := rfl
  rw [e]
  refine C34_characterisation hx' _ ?_
  rw [← e]
  refine ⟨fun i => ?_, fun j => ?_⟩
  · exact (Equiv.sum_comp t fun j => Birkhoff.proju x u (s i) j).trans (ht.row (s i))
  · exact (Equiv.sum_comp s fun i => Birkhoff.proju x u i (t j)).trans (ht.col (t j))

end Birkhoff

/-- A rotation of the plane: the hypothesis is met by a matrix that mixes the coordinates. -/
example : Orthogonal !![(3 / 5 : ℝ), -4 / 5; 4 / 5, 3 / 5] ∧
    Stereo.mobiusAdd (-1) (!![(3 / 5 : ℝ), -4 / 5; 4 / 5, 3 / 5] *ᵥ ![0.5, 0])
      (!![(3 / 5 : ℝ), -4 / 5; 4 / 5, 3 / 5] *ᵥ ![0, 0.5]) =
      !![(3 / 5 : ℝ), -4 / 5; 4 / 5, 3 / 5] *ᵥ Stereo.mobiusAdd (-1) ![0.5, 0] ![0, 0.5] := by
  have h : Orthogonal !![(3 / 5 : ℝ), -4 / 5; 4 / 5, 3 / 5] := by
    unfold Orthogonal
    ext i j
    fin_cases i <;> fin_cases j <;> simp [Matrix.mul_apply, Fin.sum_univ_two] <;> norm_num
  exact ⟨h, mobiusAdd_rot h _ _ _⟩

end Geoopt.C93
