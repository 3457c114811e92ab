import Verif.Spec.Gradient
import Mathlib.Analysis.Calculus.FDeriv.Add
import Mathlib.Analysis.Calculus.FDeriv.Mul
import Mathlib.Analysis.Calculus.FDeriv.Prod
import Mathlib.Analysis.Calculus.FDeriv.Pi
import Mathlib.Analysis.Calculus.Deriv.Comp
import Mathlib.Analysis.Normed.Lp.PiLp

/-! Rules for `HasGrad`. -/

namespace Geoopt
open Matrix Filter Topology
variable {n : ℕ}

/-- the functional `v ↦ g · v` -/
noncomputable def dotL (g : Vec n) : Vec n →L[ℝ] ℝ :=
  LinearMap.toContinuousLinearMap
    { toFun := fun v => g ⬝ᵥ v
      map_add' := fun a b => dotProduct_add _ _ _
      map_smul' := fun a b => by simp [dotProduct_smul] }

lemma dotL_apply (g v : Vec n) : dotL g v = g ⬝ᵥ v := rfl

lemma hasGrad_iff {F : Vec n → ℝ} {g x : Vec n} : HasGrad F g x ↔ HasFDerivAt F (dotL g) x := by
  constructor
  · rintro ⟨L, h, e⟩
    have : L = dotL g := ContinuousLinearMap.ext e
    rwa [← this]
  · exact fun h => ⟨_, h, fun _ => rfl⟩

theorem HasGrad.unique {F : Vec n → ℝ} {g g' x : Vec n} (h : HasGrad F g x) (h' : HasGrad F g' x) :
    g = g' := by
  rw [hasGrad_iff] at h h'
  have e := h.unique h'
  funext i
  have := congrArg (fun L : Vec n →L[ℝ] ℝ => L (Pi.single i 1)) e
  simpa [dotL_apply] using this

theorem HasGrad.congr {F G : Vec n → ℝ} {g x : Vec n} (h : HasGrad F g x) (e : G =ᶠ[𝓝 x] F) :
    HasGrad G g x := by
  rw [hasGrad_iff] at *
  exact h.congr_of_eventuallyEq e

theorem HasGrad.congr_grad {F : Vec n → ℝ} {g g' x : Vec n} (h : HasGrad F g x) (e : g' = g) :
    HasGrad F g' x := e ▸ h

theorem hasGrad_const (c : ℝ) (x : Vec n) : HasGrad (fun _ => c) 0 x := by
  rw [hasGrad_iff]
  exact (hasFDerivAt_const c x).congr_fderiv (ContinuousLinearMap.ext fun v => by simp [dotL_apply])

theorem hasGrad_dot (y x : Vec n) : HasGrad (fun z => z ⬝ᵥ y) y x := by
  rw [hasGrad_iff]
  have h := (dotL y).hasFDerivAt (x := x)
  refine h.congr_of_eventuallyEq (Eventually.of_forall fun z => ?_)
  change z ⬝ᵥ y = y ⬝ᵥ z
  exact dotProduct_comm _ _

theorem hasGrad_apply (i : Fin n) (x : Vec n) : HasGrad (fun z => z i) (Pi.single i 1) x := by
  refine (hasGrad_dot (Pi.single i 1) x).congr (Eventually.of_forall fun z => ?_)
  simp

theorem HasGrad.add {F G : Vec n → ℝ} {f g x : Vec n} (hF : HasGrad F f x) (hG : HasGrad G g x) :
    HasGrad (fun z => F z + G z) (f + g) x := by
  rw [hasGrad_iff] at *
  exact (HasFDerivAt.add hF hG).congr_fderiv (ContinuousLinearMap.ext fun v => by
    simp [dotL_apply, add_dotProduct])

theorem HasGrad.mul {F G : Vec n → ℝ} {f g x : Vec n} (hF : HasGrad F f x) (hG : HasGrad G g x) :
    HasGrad (fun z => F z * G z) (F x • g + G x • f) x := by
  rw [hasGrad_iff] at *
  exact (HasFDerivAt.mul hF hG).congr_fderiv (ContinuousLinearMap.ext fun v => by
    simp [dotL_apply, add_dotProduct, smul_dotProduct])

theorem HasGrad.comp {F : Vec n → ℝ} {f x : Vec n} {φ : ℝ → ℝ} {d : ℝ} (hF : HasGrad F f x)
    (hφ : HasDerivAt φ d (F x)) : HasGrad (fun z => φ (F z)) (d • f) x := by
  rw [hasGrad_iff] at *
  exact (hφ.comp_hasFDerivAt x hF).congr_fderiv (ContinuousLinearMap.ext fun v => by
    simp [dotL_apply, smul_dotProduct])

theorem HasGrad.const_mul {F : Vec n → ℝ} {f x : Vec n} (hF : HasGrad F f x) (c : ℝ) :
    HasGrad (fun z => c * F z) (c • f) x := by
  have := (hasGrad_const c x).mul hF
  simpa using this

theorem HasGrad.sum {ι : Type*} (s : Finset ι) {F : ι → Vec n → ℝ} {f : ι → Vec n} {x : Vec n}
    (h : ∀ i ∈ s, HasGrad (F i) (f i) x) : HasGrad (fun z => ∑ i ∈ s, F i z) (∑ i ∈ s, f i) x := by
  classical
  induction s using Finset.induction with
  | empty => simpa using hasGrad_const 0 x
  | insert a s ha ih =>
    have := (h a (Finset.mem_insert_self a s)).add (ih fun i hi => h i (Finset.mem_insert_of_mem hi))
    simpa [Finset.sum_insert ha] using this

theorem hasGrad_self_dot (x : Vec n) : HasGrad (fun z => z ⬝ᵥ z) ((2 : ℝ) • x) x := by
  have h : HasGrad (fun z : Vec n => ∑ i, z i * z i)
      (∑ i, (x i • Pi.single i 1 + x i • Pi.single i 1)) x :=
    HasGrad.sum _ fun i _ => (hasGrad_apply i x).mul (hasGrad_apply i x)
  refine h.congr_grad ?_
  funext j
  simp [Finset.sum_add_distrib, Pi.single_apply]
  ring

theorem HasGrad.continuousAt {F : Vec n → ℝ} {f x : Vec n} (h : HasGrad F f x) :
    ContinuousAt F x := by
  rw [hasGrad_iff] at h; exact h.continuousAt

end Geoopt
