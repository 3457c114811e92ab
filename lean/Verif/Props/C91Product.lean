import Verif.Props.C91
import Verif.Model.OptimProduct
import Mathlib.Tactic

/-!
# C91, continued: descent on products and on scaled manifolds
-/

namespace Geoopt.C91
open Geoopt Geoopt.Optim Geoopt.SpecRetr

/-- A small step on a product decreases the loss if it does on the components. -/
theorem C91_product {J : Type} [Fintype J] {ι : J → Type} [∀ j, Fintype (ι j)]
    (Ms : ∀ j, Optim.Manifold (ι j)) (x g : (Σ j, ι j) → ℝ)
    (h : ∀ j, Descends (Ms j) (fun i => x ⟨j, i⟩) fun i => g ⟨j, i⟩) : Descends (product Ms) x g := by
  choose h0 w hw hle hlt using h
  refine ⟨funext fun p => congrFun (h0 p.1) p.2, fun p => w p.1 p.2, fun p => hw p.1 p.2, ?_, ?_⟩
  · rw [Fintype.sum_sigma]
    exact Finset.sum_nonpos fun j _ => hle j
  · intro hne
    obtain ⟨p, hp⟩ := Function.ne_iff.1 hne
    rw [Fintype.sum_sigma]
    refine Finset.sum_neg' (fun j _ => hle j) ⟨p.1, Finset.mem_univ _, hlt p.1 fun h => hp ?_⟩
    exact congrFun h p.2

/-- A small step on `Scaled(M, s)` with positive scale decreases the loss if it does on `M`. -/
theorem C91_scaled {ι : Type} [Fintype ι] (M : Optim.Manifold ι) (inner : (ι → ℝ) → (ι → ℝ) → ι → ℝ)
    (s : ℝ) (hs : 0 < s) (x g : ι → ℝ) (h : Descends M x g) : Descends (scaled M inner s) x g := by
  obtain ⟨h0, w, hw, hle, hlt⟩ := h
  have e : ∑ i, g i * (s⁻¹ • w) i = s⁻¹ * ∑ i, g i * w i := by
    rw [Finset.mul_sum]
    refine Finset.sum_congr rfl fun i _ => ?_
    simp only [Pi.smul_apply, smul_eq_mul]
    ring
  refine ⟨by simpa [scaled] using h0, s⁻¹ • w, fun i => ?_, ?_, ?_⟩
  · have h1 : HasDerivAt (fun t : ℝ => s⁻¹ * t) s⁻¹ 0 := by
      simpa using (hasDerivAt_id' (0 : ℝ)).const_mul s⁻¹
    have h2 := HasDerivAt.comp (h := fun t : ℝ => s⁻¹ * t)
      (h₂ := fun t : ℝ => M.retr x (-t • (M.egrad2rgrad x g).value) i) 0 (by simpa using hw i) h1
    refine (h2.congr_deriv (mul_comm _ _)).congr_of_eventuallyEq (Filter.Eventually.of_forall fun t => ?_)
    simp [scaled, smul_smul]
  · rw [e]
    exact mul_nonpos_of_nonneg_of_nonpos (inv_pos.2 hs).le hle
  · intro hne
    rw [e]
    exact mul_neg_of_pos_of_neg (inv_pos.2 hs) (hlt hne)

/-- With a negative scale, which the class accepts, small steps increase the loss. -/
theorem C91_counterexample_negative_scale (s : ℝ) (hs : s < 0) :
    let M := scaled (Optim.euclidean (Fin 1)) (fun _ u _ => u 0 ^ 2) s
    let F : (Fin 1 → ℝ) → ℝ := fun x => x 0
    ∀ lr : ℝ, 0 < lr → F 0 < F (M.retr 0 (-lr • (M.egrad2rgrad 0 1).value)) := by
  intro M F lr hlr
  simp only [M, F, scaled, Optim.euclidean]
  have : s⁻¹ < 0 := inv_lt_zero.2 hs
  simpa using mul_neg_of_neg_of_pos this hlr

/-- Training a radius-2 sphere together with a point of the Poincaré ball as one product: small steps
decrease the loss. -/
example (x g : (Σ j : Bool, Fin (cond j 3 2)) → ℝ)
    (h1 : Sphere.OnSphere Set.univ fun i => x ⟨true, i⟩) (hP : Sphere.Projects Set.univ
      (none : Option (Matrix (Fin 3) (Fin 3) ℝ)))
    (h2 : max (nrm fun i => x ⟨false, i⟩) 1e-15 < Stereo.maxNorm 1e-15 .f64 (-1)) :
    Descends (product fun j : Bool => (match j with
      | true => scaled (Optim.sphere none) (fun x u _ => Sphere.inner x u u) 2
      | false => Optim.stereographic 1e-15 .f64 (-1) : Optim.Manifold (Fin (cond j 3 2)))) x g := by
  refine C91_product _ x g fun j => ?_
  cases j with
  | true => exact C91_scaled _ _ 2 (by norm_num) _ _ (C91_sphere hP h1 _)
  | false => exact C91_stereographic _ _ _ h2 _

end Geoopt.C91
