import Verif.Props.C55Manifolds
import Verif.Props.C76

/-!
# C63, C64, C76 for the manifolds of the library

The conditions on the manifold hold for every geometry of C55: spheres, the Poincaré ball, the
Lorentz model, Stiefel and symmetric positive definite matrices, and batches of them.
-/

open Geoopt Geoopt.Optim

namespace C63Manifolds

/-- A manifold as the line search sees it.  `transp_follow_retr` is the second part of `retr_transp`
(`geoopt/manifolds/base.py:533-556`; `stiefel.py:185-198`, `stereographic/manifold.py:197-210`). -/
def ofOptim {ι : Type} (M : Optim.Manifold ι) (inner : (ι → ℝ) → (ι → ℝ) → (ι → ℝ) → ℝ) :
    LineSearch.Manifold ι where
  egrad2rgrad x g := (M.egrad2rgrad x g).value
  retr := M.retr
  retrTransp := M.retrTransp
  transpFollowRetr x u v := (M.retrTransp x u v).2
  projx := M.projx
  proju := M.proju
  inner := inner

theorem retraction {ι : Type} {M : Optim.Manifold ι} (geo : Geometry M)
    (inner : (ι → ℝ) → (ι → ℝ) → (ι → ℝ) → ℝ)
    (h : ∀ x u v, (M.retrTransp x u v).1 = M.retr x u) :
    LineSearch.Retraction (ofOptim M inner) geo.On fun x u => u ∈ geo.Tan x where
  lin b hu hv := Submodule.add_mem _ hu (Submodule.smul_mem _ b hv)
  smul b hu := Submodule.smul_mem _ b hu
  grad g hx := geo.egrad g hx
  eq v _ _ := h _ _ v
  on hx hu := geo.retr hx hu
  follow {x u v} hx hu hv := by
    have := geo.retrTransp_tan hx hu hv
    rw [h] at this
    exact this
  fix hx := geo.projx hx

/-- `retr_transp` moves the point as `retr` does. -/
example {n : ℕ} (P : Option (Matrix (Fin n) (Fin n) ℝ)) (x u v) :
    ((sphere P).retrTransp x u v).1 = (sphere P).retr x u := rfl
example {n : ℕ} (η : ℝ) (dt : DType) (k : ℝ) (x u v) :
    ((stereographic (n := n) η dt k).retrTransp x u v).1 = (stereographic η dt k).retr x u := rfl
example {n : ℕ} (k : ℝ) (x u v) :
    ((lorentz (n := n) k).retrTransp x u v).1 = (lorentz k).retr x u := rfl
example {n m : ℕ} (proj : Matrix (Fin n) (Fin m) ℝ → Matrix (Fin n) (Fin m) ℝ) (x u v) :
    ((canonicalStiefel proj).retrTransp x u v).1 = (canonicalStiefel proj).retr x u := rfl

/-- Steepest descent with Armijo backtracking on a sphere: the parameter stays on the sphere and the loss
never increases. -/
example {n : ℕ} (f : LineSearch.Closure Unit fun _ => Fin n) (x₀ : Unit → Fin n → ℝ)
    (h₀ : Sphere.OnSphere Set.univ (x₀ ())) {s : LineSearch.LS Unit fun _ => Fin n}
    (hs : LineSearch.Reach
      { man := fun _ => ofOptim (sphere none) Sphere.inner, isManifold := fun _ => true,
        method := LineSearch.armijoBacktracking C76.twice (1 / 10000) 0 none,
        cg := LineSearch.cgConstant 0, computeDerphi := false, transportGrad := false,
        transportSearchDirection := false, fallbackStepsize := 1, stabilize := none } f x₀ s) :
    f.loss s.points ≤ f.loss x₀ := by
  refine C76_monotone (On := fun _ => Sphere.OnSphere Set.univ)
    (Tan := fun _ x u => u ∈ (C55.sphereGeometry (n := n) (Pr := none) (S := Set.univ) rfl).Tan x)
    (fun _ => retraction (C55.sphereGeometry (Pr := none) (S := Set.univ) rfl) _ fun _ _ _ => rfl)
    (c1 := 1 / 10000) (amin := 0) (amax := none) (by norm_num) (by simp)
    (fun p0 δ α0 h => C76.twice_armijo p0 δ _ _ α0 h) (Or.inl fun _ => rfl) (fun _ => rfl)
    (fun _ => h₀) (fun _ x g _ => ?_) (fun _ x g _ => ?_) hs
  · simp [ofOptim, Sphere.inner]
  · simp only [ofOptim, Sphere.inner, dotProduct]
    exact Finset.sum_nonneg fun i _ => mul_self_nonneg _

end C63Manifolds
