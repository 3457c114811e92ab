import Verif.Model.Autograd
import Verif.Props.C15

/-!
# The traced computations compute the same results, and when they are finite
-/

namespace Geoopt.Grad
open Geoopt Matrix
variable {n : ℕ}

section basic
variable {α β : Type}
@[simp] lemma bind_val (a : Tr α) (f : α → Tr β) : (a >>= f).val = (f a.val).val := rfl
@[simp] lemma bind_fin (a : Tr α) (f : α → Tr β) : (a >>= f).fin = (a.fin ∧ (f a.val).fin) := rfl
@[simp] lemma pure_val (a : α) : (pure a : Tr α).val = a := rfl
@[simp] lemma pure_fin (a : α) : (pure a : Tr α).fin = True := rfl
@[simp] lemma ite_val (c : Prop) [Decidable c] (a b : Tr α) :
    (if c then a else b).val = if c then a.val else b.val := apply_ite _ _ _ _
@[simp] lemma ite_fin (c : Prop) [Decidable c] (a b : Tr α) :
    (if c then a else b).fin = if c then a.fin else b.fin := apply_ite _ _ _ _
@[simp] lemma each_val {m : ℕ} (f : Fin m → Tr α) : (each f).val = fun j => (f j).val := rfl
@[simp] lemma each_fin {m : ℕ} (f : Fin m → Tr α) : (each f).fin = ∀ j, (f j).fin := rfl
end basic

attribute [simp] div divV recip sqrt powHalf log tan asin acos where_

namespace Stereo
open Geoopt.Stereo (KZero tanKTaylor artanKTaylor arsinKTaylor sinKTaylor tanhC projEps piLit)

@[simp] lemma kSqrt_val (η k : ℝ) : (kSqrt η k).val = Geoopt.Stereo.kSqrt η k := rfl
@[simp] lemma artanhC_val (x : ℝ) : (artanhC x).val = Geoopt.Stereo.artanhC x := rfl
@[simp] lemma arsinhC_val (x : ℝ) : (arsinhC x).val = Geoopt.Stereo.arsinhC x := rfl
@[simp] lemma tanK_val (η k x : ℝ) : (tanK η k x).val = Geoopt.Stereo.tanK η k x := by
  simp [tanK, Geoopt.Stereo.tanK]
@[simp] lemma artanK_val (η k x : ℝ) : (artanK η k x).val = Geoopt.Stereo.artanK η k x := by
  simp [artanK, Geoopt.Stereo.artanK]
@[simp] lemma arsinK_val (η k x : ℝ) : (arsinK η k x).val = Geoopt.Stereo.arsinK η k x := by
  simp [arsinK, Geoopt.Stereo.arsinK]
@[simp] lemma sinK_val (η k x : ℝ) : (sinK η k x).val = Geoopt.Stereo.sinK η k x := by
  simp [sinK, Geoopt.Stereo.sinK]
@[simp] lemma project_val (η : ℝ) (dt : DType) (k : ℝ) (x : Vec n) :
    (project η dt k x).val = Geoopt.Stereo.project η dt k x := by
  simp [project, Geoopt.Stereo.project, Geoopt.Stereo.maxNorm]
@[simp] lemma lambdaX_val (k : ℝ) (x : Vec n) : (lambdaX k x).val = Geoopt.Stereo.lambdaX k x := rfl
@[simp] lemma inner_val (k : ℝ) (x u v : Vec n) :
    (inner k x u v).val = Geoopt.Stereo.inner k x u v := rfl
@[simp] lemma norm_val (k : ℝ) (x u : Vec n) : (norm k x u).val = Geoopt.Stereo.norm k x u := rfl
@[simp] lemma mobiusAdd_val (k : ℝ) (x y : Vec n) :
    (mobiusAdd k x y).val = Geoopt.Stereo.mobiusAdd k x y := rfl
@[simp] lemma mobiusSub_val (k : ℝ) (x y : Vec n) :
    (mobiusSub k x y).val = Geoopt.Stereo.mobiusSub k x y := rfl
@[simp] lemma gyration_val (k : ℝ) (u v w : Vec n) :
    (gyration k u v w).val = Geoopt.Stereo.gyration k u v w := by
  simp [gyration, Geoopt.Stereo.gyration]
@[simp] lemma mobiusCoadd_val (k : ℝ) (x y : Vec n) :
    (mobiusCoadd k x y).val = Geoopt.Stereo.mobiusCoadd k x y := by
  simp [mobiusCoadd, Geoopt.Stereo.mobiusCoadd]
@[simp] lemma mobiusCosub_val (k : ℝ) (x y : Vec n) :
    (mobiusCosub k x y).val = Geoopt.Stereo.mobiusCosub k x y := by
  simp [mobiusCosub, Geoopt.Stereo.mobiusCosub]
@[simp] lemma mobiusScalarMul_val (η k r : ℝ) (x : Vec n) :
    (mobiusScalarMul η k r x).val = Geoopt.Stereo.mobiusScalarMul η k r x := by
  simp [mobiusScalarMul, Geoopt.Stereo.mobiusScalarMul]
@[simp] lemma dist_val (η k : ℝ) (x y : Vec n) : (dist η k x y).val = Geoopt.Stereo.dist η k x y := by
  simp [dist, Geoopt.Stereo.dist]
@[simp] lemma dist0_val (η k : ℝ) (x : Vec n) : (dist0 η k x).val = Geoopt.Stereo.dist0 η k x := by
  simp [dist0, Geoopt.Stereo.dist0]
@[simp] lemma geodesic_val (η k t : ℝ) (x y : Vec n) :
    (geodesic η k t x y).val = Geoopt.Stereo.geodesic η k t x y := by
  simp [geodesic, Geoopt.Stereo.geodesic]
@[simp] lemma expmap_val (η k : ℝ) (x u : Vec n) :
    (expmap η k x u).val = Geoopt.Stereo.expmap η k x u := by
  simp [expmap, Geoopt.Stereo.expmap]
@[simp] lemma expmap0_val (η k : ℝ) (u : Vec n) :
    (expmap0 η k u).val = Geoopt.Stereo.expmap0 η k u := by
  simp [expmap0, Geoopt.Stereo.expmap0]
@[simp] lemma geodesicUnit_val (η k t : ℝ) (x u : Vec n) :
    (geodesicUnit η k t x u).val = Geoopt.Stereo.geodesicUnit η k t x u := by
  simp [geodesicUnit, Geoopt.Stereo.geodesicUnit]
@[simp] lemma logmap_val (η k : ℝ) (x y : Vec n) :
    (logmap η k x y).val = Geoopt.Stereo.logmap η k x y := by
  simp [logmap, Geoopt.Stereo.logmap]
@[simp] lemma logmap0_val (η k : ℝ) (y : Vec n) :
    (logmap0 η k y).val = Geoopt.Stereo.logmap0 η k y := by
  simp [logmap0, Geoopt.Stereo.logmap0]
@[simp] lemma mobiusMatvec_val {m : ℕ} (η k : ℝ) (M : Matrix (Fin m) (Fin n) ℝ) (x : Vec n) :
    (mobiusMatvec η k M x).val = Geoopt.Stereo.mobiusMatvec η k M x := by
  simp [mobiusMatvec, Geoopt.Stereo.mobiusMatvec]
@[simp] lemma mobiusPointwiseMul_val (η k : ℝ) (w x : Vec n) :
    (mobiusPointwiseMul η k w x).val = Geoopt.Stereo.mobiusPointwiseMul η k w x := by
  simp [mobiusPointwiseMul, Geoopt.Stereo.mobiusPointwiseMul]
@[simp] lemma dist2plane_val (η k : ℝ) (x a p : Vec n) (s t : Bool) :
    (dist2plane η k x a p s t).val = Geoopt.Stereo.dist2plane η k x a p s t := by
  simp [dist2plane, Geoopt.Stereo.dist2plane]
@[simp] lemma transp_val (k : ℝ) (x y u : Vec n) :
    (transp k x y u).val = Geoopt.Stereo.transp k x y u := by
  simp [transp, Geoopt.Stereo.transp]
@[simp] lemma transp0_val (k : ℝ) (x y : Vec n) : (transp0 k x y).val = Geoopt.Stereo.transp0 k x y := rfl
@[simp] lemma transp0back_val (k : ℝ) (x y : Vec n) :
    (transp0back k x y).val = Geoopt.Stereo.transp0back k x y := rfl
@[simp] lemma egrad2rgrad_val (k : ℝ) (x y : Vec n) :
    (egrad2rgrad k x y).val = Geoopt.Stereo.egrad2rgrad k x y := rfl
@[simp] lemma sproj_val (η k : ℝ) (x : Vec (n + 1)) :
    (sproj η k x).val = Geoopt.Stereo.sproj η k x := by
  simp [sproj, Geoopt.Stereo.sproj]
@[simp] lemma invSproj_val (η k : ℝ) (x : Vec n) :
    (invSproj η k x).val = Geoopt.Stereo.invSproj η k x := by
  simp [invSproj, Geoopt.Stereo.invSproj]
@[simp] lemma antipode_val (η k : ℝ) (x : Vec n) :
    (antipode η k x).val = Geoopt.Stereo.antipode η k x := by
  by_cases h : k ≤ 0 <;> simp [antipode, Geoopt.Stereo.antipode, h]
@[simp] lemma weightedMidpoint_val {m : ℕ} (η k : ℝ) (xs : Fin m → Vec n) (w : Fin m → ℝ) (l p : Bool) :
    (weightedMidpoint η k xs w l p).val = Geoopt.Stereo.weightedMidpoint η k xs w l p := by
  unfold weightedMidpoint Geoopt.Stereo.weightedMidpoint
  by_cases hp : p = true ∧ ∃ j, w j < 0 <;> by_cases hk : 0 < k <;> cases l <;>
    simp [hp, hk]

end Stereo

namespace Sphere
variable (P : Option (Matrix (Fin n) (Fin n) ℝ)) (dt : DType)
@[simp] lemma projx_val (x : Vec n) : (projx P x).val = Geoopt.Sphere.projx P x := rfl
@[simp] lemma proju_val (x u : Vec n) : (proju P x u).val = Geoopt.Sphere.proju P x u := rfl
@[simp] lemma retr_val (x u : Vec n) : (retr P x u).val = Geoopt.Sphere.retr P x u := rfl
@[simp] lemma expmap_val (x u : Vec n) : (expmap P dt x u).val = Geoopt.Sphere.expmap P dt x u := by
  simp [expmap, Geoopt.Sphere.expmap, smul_smul, div_eq_inv_mul]
@[simp] lemma dist_val (x y : Vec n) : (dist dt x y).val = Geoopt.Sphere.dist dt x y := rfl
@[simp] lemma logmap_val (x y : Vec n) : (logmap P dt x y).val = Geoopt.Sphere.logmap P dt x y := by
  unfold Geoopt.Sphere.logmap
  by_cases h : Geoopt.Sphere.dist dt x y > Geoopt.Sphere.eps dt
  · refine Eq.trans (if_pos h) ?_
    dsimp only
    rw [if_pos h, div_eq_inv_mul, ← smul_smul]
    rfl
  · refine Eq.trans (if_neg h) ?_
    dsimp only
    rw [if_neg h]
    rfl
end Sphere

namespace Lorentz
@[simp] lemma arcosh_val (x : ℝ) : (arcosh x).val = Geoopt.Lorentz.arcosh x := rfl
@[simp] lemma inner0_val (k : ℝ) (v : Vec (n + 1)) : (inner0 k v).val = Geoopt.Lorentz.inner0 k v := rfl
@[simp] lemma dist_val (k : ℝ) (x y : Vec (n + 1)) : (dist k x y).val = Geoopt.Lorentz.dist k x y := rfl
@[simp] lemma dist0_val (k : ℝ) (x : Vec (n + 1)) : (dist0 k x).val = Geoopt.Lorentz.dist0 k x := rfl
@[simp] lemma project_val (k : ℝ) (x : Vec (n + 1)) :
    (project k x).val = Geoopt.Lorentz.project k x := rfl
@[simp] lemma projectU_val (k : ℝ) (x v : Vec (n + 1)) :
    (projectU k x v).val = Geoopt.Lorentz.projectU k x v := rfl
@[simp] lemma norm_val (u : Vec (n + 1)) : (norm u).val = Geoopt.Lorentz.norm u := rfl
@[simp] lemma expmapRaw_val (k : ℝ) (x u : Vec (n + 1)) :
    (expmapRaw k x u).val = Geoopt.Lorentz.expmapRaw k x u := rfl
@[simp] lemma expmap0Raw_val (k : ℝ) (u : Vec (n + 1)) :
    (expmap0Raw k u).val = Geoopt.Lorentz.expmap0Raw k u := rfl
@[simp] lemma logmap_val (k : ℝ) (x y : Vec (n + 1)) :
    (logmap k x y).val = Geoopt.Lorentz.logmap k x y := rfl
@[simp] lemma logmap0_val (k : ℝ) (y : Vec (n + 1)) :
    (logmap0 k y).val = Geoopt.Lorentz.logmap0 k y := rfl
@[simp] lemma logmap0back_val (k : ℝ) (y : Vec (n + 1)) :
    (logmap0back k y).val = Geoopt.Lorentz.logmap0back k y := rfl
@[simp] lemma transp_val (k : ℝ) (x y v : Vec (n + 1)) :
    (transp k x y v).val = Geoopt.Lorentz.transp k x y v := rfl
@[simp] lemma transp0_val (k : ℝ) (y v : Vec (n + 1)) :
    (transp0 k y v).val = Geoopt.Lorentz.transp0 k y v := rfl
@[simp] lemma transp0back_val (k : ℝ) (y v : Vec (n + 1)) :
    (transp0back k y v).val = Geoopt.Lorentz.transp0back k y v := rfl
@[simp] lemma geodesicUnitRaw_val (k t : ℝ) (x v : Vec (n + 1)) :
    (geodesicUnitRaw k t x v).val = Geoopt.Lorentz.geodesicUnitRaw k t x v := rfl
@[simp] lemma toPoincare_val (k : ℝ) (x : Vec (n + 1)) :
    (toPoincare k x).val = Geoopt.Lorentz.toPoincare k x := rfl
@[simp] lemma ofPoincare_val (k e : ℝ) (x : Vec n) :
    (ofPoincare k e x).val = Geoopt.Lorentz.ofPoincare k e x := rfl
@[simp] lemma expmap_val (k : ℝ) (x u : Vec (n + 1)) (a b : Bool) :
    (expmap k x u a b).val = Geoopt.Lorentz.expmap k x u a b := by
  cases a <;> cases b <;> rfl
@[simp] lemma expmap0_val (k : ℝ) (u : Vec (n + 1)) (b : Bool) :
    (expmap0 k u b).val = Geoopt.Lorentz.expmap0 k u b := by
  cases b <;> rfl
end Lorentz

namespace SPD
open Geoopt.Linalg (Eigh)
variable (E : Eigh n) (x y u v : Matrix (Fin n) (Fin n) ℝ)
lemma dist_val (m : Geoopt.SPD.Metric) : (dist E m x y).val = Geoopt.SPD.dist E m x y := by
  cases m <;> rfl
lemma projx_val : (projx E x).val = Geoopt.SPD.projx E x := rfl
lemma inner_val : (inner x u v).val = Geoopt.SPD.inner x u v := rfl
lemma retr_val : (retr x u).val = Geoopt.SPD.retr x u := rfl
lemma expmap_val : (expmap E x u).val = Geoopt.SPD.expmap E x u := rfl
lemma logmap_val : (logmap E x y).val = Geoopt.SPD.logmap E x y := rfl
lemma transp_val : (transp E x y v).val = Geoopt.SPD.transp E x y v := rfl
end SPD
end Geoopt.Grad
