import Verif.Model.LineSearch

/-! Vocabulary for the line search: when the retraction is consistent, which line search methods only
return step sizes they have tried, and the histories of an optimiser. -/

namespace Geoopt.LineSearch

/-- `On` is a set of points and `Tan x` a linear space of tangent vectors at each of them such that
Riemannian gradients are tangent, `retr` and the point of `retr_transp` agree, `retr` stays in the set,
`transp_follow_retr` gives tangent vectors at the new point, and `projx` does not move the points. -/
structure Retraction {ι : Type} (M : Manifold ι) (On : (ι → ℝ) → Prop)
    (Tan : (ι → ℝ) → (ι → ℝ) → Prop) : Prop where
  lin : ∀ {x} {u v} (b : ℝ), Tan x u → Tan x v → Tan x (u + b • v)
  smul : ∀ {x} {u} (b : ℝ), Tan x u → Tan x (b • u)
  grad : ∀ {x} g, On x → Tan x (M.egrad2rgrad x g)
  eq : ∀ {x u} v, On x → Tan x u → (M.retrTransp x u v).1 = M.retr x u
  on : ∀ {x u}, On x → Tan x u → On (M.retr x u)
  follow : ∀ {x u v}, On x → Tan x u → Tan x v → Tan (M.retr x u) (M.transpFollowRetr x u v)
  fix : ∀ {x}, On x → M.projx x = x

/-- The method tries at least one step size, and a step size that it returns is one that it has tried
(through `phi` or `derphi`); `tried` are the ones tried so far. -/
def Search.Honest : List ℝ → Search → Prop
  | tried, .done r => tried ≠ [] ∧ ∀ α, r = some α → α ∈ tried
  | tried, .phi α next => ∀ v, (next v).Honest (α :: tried)
  | tried, .derphi α next => ∀ v, (next v).Honest (α :: tried)

/-- The method never gives up, it always returns a step size. -/
def Search.Succeeds : Search → Prop
  | .done r => r ≠ none
  | .phi _ next => ∀ v, (next v).Succeeds
  | .derphi _ next => ∀ v, (next v).Succeeds

/-- When the search directions stay tangent: for steepest descent; or if the old direction is transported
with the step and either no derivatives are computed during the search or the search never fails (a
failed search leaves a direction transported to a point that is not taken); or if every vector is
tangent, as for plain parameters. -/
def KeepsTangent {κ : Type} {ι : κ → Type} (C : Config κ ι)
    (Tan : ∀ a, (ι a → ℝ) → (ι a → ℝ) → Prop) : Prop :=
  (∀ p, C.cg p = .ok 0) ∨
  (C.transportSearchDirection = true ∧
    (C.computeDerphi = false ∨ ∀ i, (C.method i).Succeeds)) ∨
  ∀ a x u, Tan a x u

/-- A fresh optimiser, `rlinesearch.py:222-231`: the parameters are at `x₀`. -/
def fresh {κ : Type} {ι : κ → Type} (x₀ : ∀ a, ι a → ℝ) : LS κ ι := { par := fun a => ⟨x₀ a, none,
  none, none, none, none, none, none, none⟩ }

/-- The states reached by successful calls of `step` with the same closure, without `no_step` and
`force_step`. -/
inductive Reach {κ : Type} [Fintype κ] {ι : κ → Type} (C : Config κ ι) (f : Closure κ ι)
    (x₀ : ∀ a, ι a → ℝ) : LS κ ι → Prop
  | start : Reach C f x₀ (fresh x₀)
  | step {s s' : LS κ ι} (recompute : Bool) {r : Option ℝ} : Reach C f x₀ s →
      step C f false recompute false s = (s', .ok r) → Reach C f x₀ s'

/-- The contract of a scalar search for the Armijo condition `phi(α) ≤ phi0 + c1 α derphi0`: it
evaluates `phi` at least once, and a step size that it returns is not negative, was evaluated, and met the
condition.  `tried` are the evaluations so far. -/
def Search.Armijo (phi0 derphi0 c1 : ℝ) : List (ℝ × ℝ) → Search → Prop
  | tried, .done r => tried ≠ [] ∧ ∀ α, r = some α →
      ∃ v, (α, v) ∈ tried ∧ 0 ≤ α ∧ v ≤ phi0 + c1 * α * derphi0
  | tried, .phi α next => ∀ v, (next v).Armijo phi0 derphi0 c1 ((α, v) :: tried)
  | _, .derphi _ _ => False

/-- The step sizes evaluated so far, the last one first, after `α` has been asked for: asking again does not
evaluate again. -/
noncomputable def touch (α : ℝ) (keys : List ℝ) : List ℝ :=
  open Classical in if α ∈ keys then keys else α :: keys

/-- The contract of a scalar search for the strong Wolfe conditions `phi(α) ≤ phi0 + c1 α phi'(0)` and
`|phi'(α)| ≤ c2 |phi'(0)|`: it asks for the derivative only at step sizes that are new or were evaluated
last, and a step size that it returns is not negative and met the conditions, for the values it was given.
`keys` are the step sizes evaluated so far, `vals` and `ders` the answers. -/
def Search.Wolfe (phi0 c1 c2 : ℝ) : List ℝ → List (ℝ × ℝ) → List (ℝ × ℝ) → Search → Prop
  | keys, vals, ders, .done r => keys ≠ [] ∧ ∀ α, r = some α → ∃ v δ₀ δ, (α, v) ∈ vals ∧
      (0, δ₀) ∈ ders ∧ (α, δ) ∈ ders ∧ 0 ≤ α ∧ v ≤ phi0 + c1 * α * δ₀ ∧ |δ| ≤ c2 * |δ₀|
  | keys, vals, ders, .phi α next => ∀ v, (next v).Wolfe phi0 c1 c2 (touch α keys) ((α, v) :: vals) ders
  | keys, vals, ders, .derphi α next => (α ∉ keys ∨ keys.head? = some α) ∧
      ∀ v, (next v).Wolfe phi0 c1 c2 (touch α keys) vals ((α, v) :: ders)

/-- `phi'(α)` as documented, `rlinesearch.py:35-42`: the inner product, at the point that the step size `α`
leads to, of the gradient there and the transported search direction. -/
noncomputable def lineDeriv {κ : Type} [Fintype κ] {ι : κ → Type} (C : Config κ ι) (f : Closure κ ι)
    (x d : ∀ a, ι a → ℝ) (α : ℝ) : ℝ :=
  let y := fun a => (C.man a).retr (x a) (α • d a)
  ∑ a, (C.man a).inner (y a) ((C.man a).egrad2rgrad (y a) (f.grad y a))
    ((C.man a).proju (y a) ((C.man a).retrTransp (x a) (α • d a) (d a)).2)

end Geoopt.LineSearch
