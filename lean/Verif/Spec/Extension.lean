import Verif.Spec.Optim
import Verif.Spec.Samplers
import Mathlib.Analysis.Calculus.FDeriv.Basic
import Mathlib.Topology.Algebra.Module.FiniteDimension

/-! Vocabulary: losses that are the same on the manifolds but not elsewhere, and their gradients. -/

namespace Geoopt.Extension
open Geoopt.Optim

/-- `g` is what `backward()` leaves in `.grad` for the loss `F` at `x`: `F` is differentiable there and its
derivative in the direction `v` is `Σ gᵢ vᵢ`. -/
def IsGrad {ι : Type} [Fintype ι] (F : (ι → ℝ) → ℝ) (x g : ι → ℝ) : Prop :=
  ∃ L : (ι → ℝ) →L[ℝ] ℝ, HasFDerivAt F L x ∧ ∀ v, L v = ∑ i, g i * v i

/-- `egrad2rgrad` depends on the values of the loss at points of the manifold only: two losses that are the same
there have the same Riemannian gradient, whatever their Euclidean gradients are. -/
def SeesOnly {ι : Type} [Fintype ι] (M : Manifold ι) (On : (ι → ℝ) → Prop) : Prop :=
  ∀ (F F' : (ι → ℝ) → ℝ) (x g g' : ι → ℝ), On x → (∀ y, On y → F y = F' y) → IsGrad F x g → IsGrad F' x g' →
    (M.egrad2rgrad x g).value = (M.egrad2rgrad x g').value

section
variable {κ : Type} [DecidableEq κ] {ι : κ → Type} [∀ a, Fintype (ι a)]

/-- Two losses of all parameters are the same when every parameter is on its manifold. -/
def SameOn (On : ∀ a, (ι a → ℝ) → Prop) (F F' : (∀ a, ι a → ℝ) → ℝ) : Prop :=
  ∀ x, (∀ a, On a (x a)) → F x = F' x

/-- `g` gives the gradients of the loss `F` at points of the manifolds; the parameters that the loss depends on
are given by `dep`, the others have no gradient. -/
def GradOf (On : ∀ a, (ι a → ℝ) → Prop) (dep : κ → Bool) (F : (∀ a, ι a → ℝ) → ℝ)
    (g : (∀ a, ι a → ℝ) → ∀ a, Grad (ι a)) : Prop :=
  ∀ x, (∀ a, On a (x a)) → ∀ a,
    (dep a = true → ∃ v, g x a = .dense v ∧ IsGrad (fun y => F (Function.update x a y)) (x a) v) ∧
    (dep a = false → g x a = .none)

/-- The closure of a sampler computes the gradients of its log-probability at points of the manifolds. -/
def ClosureOf (On : ∀ a, (ι a → ℝ) → Prop) (f : Samplers.Closure κ ι) : Prop :=
  ∀ x, (∀ a, On a (x a)) → ∀ a, f.dep a = true →
    IsGrad (fun y => f.logp (Function.update x a y)) (x a) (f.grad x a)

end
end Geoopt.Extension
