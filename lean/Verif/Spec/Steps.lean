import Verif.Spec.Optim
import Mathlib.Analysis.SpecialFunctions.Pow.NNReal
import Mathlib.Algebra.BigOperators.Group.Finset.Basic

/-! Vocabulary for the length of optimiser steps. -/

namespace Geoopt.Optim

/-- The squared lengths `component_inner(x, u)` come from a seminorm on the tangent space, and the
transport that goes with the retraction does not make vectors longer. -/
structure Contracting {ι : Type} {M : Manifold ι} (geo : Geometry M) : Prop where
  nonneg : ∀ {x u} i, geo.On x → u ∈ geo.Tan x → 0 ≤ M.componentInner x u i
  triangle : ∀ {x u v} i, geo.On x → u ∈ geo.Tan x → v ∈ geo.Tan x →
    Real.sqrt (M.componentInner x (u + v) i) ≤
      Real.sqrt (M.componentInner x u i) + Real.sqrt (M.componentInner x v i)
  scale : ∀ {x u} (w : ι → ℝ) i, (∀ i j, geo.block i j → w i = w j) → geo.On x → u ∈ geo.Tan x →
    M.componentInner x (fun j => w j * u j) i = w i ^ 2 * M.componentInner x u i
  transp : ∀ {x u v} i, geo.On x → u ∈ geo.Tan x → v ∈ geo.Tan x →
    M.componentInner (M.retrTransp x u v).1 (M.retrTransp x u v).2 i ≤ M.componentInner x v i
  retr : ∀ {x u v}, geo.On x → u ∈ geo.Tan x → v ∈ geo.Tan x → (M.retrTransp x u v).1 = M.retr x u

/-- `proju` does not make tangent vectors longer. -/
def ProjContracts {ι : Type} {M : Manifold ι} (geo : Geometry M) : Prop :=
  ∀ {x u} i, geo.On x → u ∈ geo.Tan x → M.componentInner x (M.proju x u) i ≤ M.componentInner x u i

/-- The coefficients of `betas` in the groups that hold parameter `a` are `β₁ a` and `β₂ a`. -/
def FixedBetas {κ : Type} {ι : κ → Type} (β₁ β₂ : κ → ℝ) (o : Adam κ ι) : Prop :=
  ∀ G ∈ o.groups, ∀ a ∈ G.2, G.1.beta1 = β₁ a ∧ G.1.beta2 = β₂ a

/-- How much longer than the learning rate step number `t` may be. -/
noncomputable def adamFactor (β₁ β₂ : ℝ) (t : ℕ) : ℝ :=
  (1 - β₁) * Real.sqrt ((1 - β₂ ^ t) / (1 - β₂) * ∑ j ∈ Finset.range t, (β₁ ^ 2 / β₂) ^ j) /
    (1 - β₁ ^ t)

/-- The number of steps a parameter has seen. -/
def AdamParam.steps {ι : Type} (s : AdamParam ι) : ℕ :=
  match s.state with
  | none => 0
  | some st => st.step

/-- A call of `RiemannianSGD.step()` with momentum `μ a`, dampening between 0 and 2, and Riemannian
gradients (with weight decay) no longer than `Γ a`, for every parameter `a` in a group.  The first gradient
of a parameter with momentum, which `step()` stores unchanged in the momentum buffer, is tangent and
no longer than `Γ a / (1 - μ a)`. -/
def GradientsBounded {κ : Type} {ι : κ → Type} {P : Params κ ι}
    (geo : ∀ a, Geometry (P.manifold a)) (μ Γ : κ → ℝ) (o : SGD κ ι) : Prop :=
  (o.groups.flatMap Group.params).Nodup ∧ ∀ G ∈ o.groups, ∀ a ∈ G.params,
    G.hyper.momentum = μ a ∧ |1 - G.hyper.dampening| ≤ 1 ∧
    ∀ g, (o.par a).grad = .dense g → ∀ i,
      (P.manifold a).componentInner (o.par a).point ((P.manifold a).egrad2rgrad (o.par a).point
        (g + G.hyper.weightDecay • (o.par a).point)).value i ≤ Γ a ^ 2 ∧
      (0 < μ a → (o.par a).buf = none → g ∈ (geo a).Tan (o.par a).point ∧
        (P.manifold a).componentInner (o.par a).point g i ≤ (Γ a / (1 - μ a)) ^ 2)

/-- `d` is a distance (up to symmetry) in which a step along a tangent vector is no longer than the tangent
vector. -/
structure StepDistance {ι : Type} {M : Manifold ι} (geo : Geometry M)
    (d : (ι → ℝ) → (ι → ℝ) → ℝ) : Prop where
  self : ∀ {x}, geo.On x → d x x ≤ 0
  triangle : ∀ {x y z}, geo.On x → geo.On y → geo.On z → d x z ≤ d x y + d y z
  step : ∀ {x u} {C : ℝ}, geo.On x → u ∈ geo.Tan x → 0 ≤ C → (∀ i, M.componentInner x u i ≤ C ^ 2) →
    d x (M.retr x u) ≤ C

/-- The coefficients of `betas` are `β₁` and `β₂`, `eps` is positive and learning rates are at most `L`
in absolute value, in all groups that hold parameter `a`. -/
def RatesBounded {κ : Type} {ι : κ → Type} (β₁ β₂ L : κ → ℝ) (o : Adam κ ι) : Prop :=
  FixedBetas β₁ β₂ o ∧ ∀ G ∈ o.groups, ∀ a ∈ G.2, 0 < G.1.eps ∧ |G.1.lr| ≤ L a

end Geoopt.Optim
