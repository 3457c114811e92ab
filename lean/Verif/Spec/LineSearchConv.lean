import Verif.Spec.LineSearch

/-! Vocabulary for the convergence of training with a line search. -/

namespace Geoopt.LineSearch

variable {κ : Type} [Fintype κ] {ι : κ → Type}

/-- The derivative of the loss along `d`: the inner product of the Riemannian gradient with `d`, summed over
the parameters. -/
def slopeAlong (C : Config κ ι) (f : Closure κ ι) (x d : ∀ a, ι a → ℝ) : ℝ :=
  ∑ a, (C.man a).inner (x a) ((C.man a).egrad2rgrad (x a) (f.grad x a)) (d a)

/-- The squared length of `d`, summed over the parameters. -/
def sqLength (C : Config κ ι) (x d : ∀ a, ι a → ℝ) : ℝ := ∑ a, (C.man a).inner (x a) (d a) (d a)

/-- The squared length of the Riemannian gradient, summed over the parameters. -/
def sqGrad (C : Config κ ι) (f : Closure κ ι) (x : ∀ a, ι a → ℝ) : ℝ :=
  sqLength C x fun a => (C.man a).egrad2rgrad (x a) (f.grad x a)

/-- A history of `step(closure)` calls, none of which raises, with the same closure and without `no_step` and
`force_step`: `s t` is the state before call number `t`, `d t` the search direction of this call and
`found t` the step size, `none` if the search found none. -/
structure Run (C : Config κ ι) (f : Closure κ ι) (x₀ : ∀ a, ι a → ℝ) (s : ℕ → LS κ ι)
    (d : ℕ → ∀ a, ι a → ℝ) (found : ℕ → Option ℝ) : Prop where
  start : s 0 = fresh x₀
  next : ∀ t, ∃ recompute out, step C f false recompute false (s t) = (s (t + 1), .ok out)
  dir : ∀ t a, ((s (t + 1)).par a).searchDir = some (d t a)
  size : ∀ t, (s (t + 1)).history = (s t).history ++ [found t]

/-- The derivative of the loss along a line changes at most in proportion to the step. -/
def LineSmooth (C : Config κ ι) (f : Closure κ ι) (On : ∀ a, (ι a → ℝ) → Prop)
    (Tan : ∀ a, (ι a → ℝ) → (ι a → ℝ) → Prop) (L : ℝ) : Prop :=
  ∀ x d : ∀ a, ι a → ℝ, (∀ a, On a (x a)) → (∀ a, Tan a (x a) (d a)) → ∀ α : ℝ, 0 ≤ α →
    lineDeriv C f x d α ≤ slopeAlong C f x d + L * α * sqLength C x d

end Geoopt.LineSearch
