import Verif.Spec.Invariant

/-!
# The response of an oscillator with friction

Vocabulary for C125: how a push at one time acts on the position later.
-/

namespace Geoopt.Samplers

/-- How far a particle that starts at rest in the centre with unit velocity is after `t` rounds: in each round the
position changes by the velocity, then the velocity is reduced to the fraction `1 - α` and pulled back by `b`
times the old position. -/
noncomputable def drift (α b : ℝ) : ℕ → ℝ
  | 0 => 0
  | 1 => 1
  | t + 2 => (2 - α) * drift α b (t + 1) - (1 - α + b) * drift α b t

/-- Where a particle that starts at distance 1 without velocity is after `t` rounds. -/
noncomputable def decay (α b : ℝ) (t : ℕ) : ℝ := drift α b (t + 1) - (1 - α) * drift α b t

/-- The sampler `SGRHMC` after `t` calls of `step` from the parameters `x₀`; `draw` is the stream of random tensors: a
call takes `n_steps + 2` of them, the first for the velocities and one for each of its `n_steps + 1` rounds. -/
noncomputable def SGRHMC.run {κ : Type} [DecidableEq κ] {ι : κ → Type} (C : Config κ ι) (α : κ → ℝ)
    (f : Closure κ ι) (x₀ : ∀ a, ι a → ℝ) (draw : ℕ → ∀ a, ι a → ℝ) : ℕ → SGRHMC κ ι × Option PyErr
  | 0 => ({ par := fun a => { point := x₀ a } }, none)
  | t + 1 =>
    SGRHMC.step C α f (draw (t * (C.nSteps + 2)))
      ((List.range (C.nSteps + 1)).map fun j => draw (t * (C.nSteps + 2) + (j + 1)))
      (SGRHMC.run C α f x₀ draw t).1

end Geoopt.Samplers
