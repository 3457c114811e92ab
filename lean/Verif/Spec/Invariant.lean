import Verif.Spec.Samplers
import Mathlib.MeasureTheory.Constructions.Pi
import Mathlib.MeasureTheory.Measure.Lebesgue.Basic
import Mathlib.Probability.Distributions.Gaussian.Real

/-!
Vocabulary for the distribution of the samples: the laws of the random draws, the law of the
parameters after a step, and the distribution the user wants to sample from.
-/

namespace Geoopt.Samplers
open MeasureTheory ProbabilityTheory

variable {κ : Type} [Fintype κ] {ι : κ → Type} [∀ a, Fintype (ι a)]

/-- What `normal_()` and `randn_like` draw: independent standard normal entries. -/
noncomputable def stdNormal (ι : κ → Type) [∀ a, Fintype (ι a)] : Measure (∀ a, ι a → ℝ) :=
  Measure.pi fun a => Measure.pi fun _ : ι a => gaussianReal 0 1

/-- What `np.random.rand(1)` draws: a number uniform in `[0, 1)`. -/
noncomputable def uniform01 : Measure ℝ := volume.restrict (Set.Ico 0 1)

/-- The distribution with the log-density `logp` that the closure returns (not normalised). -/
noncomputable def target (f : Closure κ ι) : Measure (∀ a, ι a → ℝ) :=
  volume.withDensity fun x => ENNReal.ofReal (Real.exp (f.logp x))

/-- The parameters after the first `step` of an `RHMC` sampler, as a function of the parameters
before it and of the draws. -/
noncomputable def rhmcMoves (C : Config κ ι) (f : Closure κ ι)
    (z : (∀ a, ι a → ℝ) × (∀ a, ι a → ℝ) × ℝ) : ∀ a, ι a → ℝ :=
  contents (RHMC.step C f z.2.1 z.2.2 { par := at' z.1 }).1.par

/-- A step of `RHMC` from parameters distributed according to the target gives parameters
distributed according to the target.  (The first clause makes the second meaningful.) -/
def SamplesTarget (C : Config κ ι) (f : Closure κ ι) : Prop :=
  AEMeasurable (rhmcMoves C f) ((target f).prod ((stdNormal ι).prod uniform01)) ∧
    ((target f).prod ((stdNormal ι).prod uniform01)).map (rhmcMoves C f) = target f

/-- The sampler `RSGLD` after `t` steps from the parameters `x₀`; `noise s` is drawn in step `s`. -/
noncomputable def RSGLD.run [DecidableEq κ] (C : Config κ ι) (f : Closure κ ι) (x₀ : ∀ a, ι a → ℝ)
    (noise : ℕ → ∀ a, ι a → ℝ) : ℕ → RSGLD κ ι
  | 0 => { par := fun a => (x₀ a, none) }
  | t + 1 => ((RSGLD.run C f x₀ noise t).step C f (noise t)).1

/-- The log-probability of independent normal entries with the given means and variances (up to a
constant), and its gradient. -/
structure IsGaussian (f : Closure κ ι) (mean var : ∀ a, ι a → ℝ) : Prop where
  logp : ∀ x, f.logp x = -∑ a, ∑ i, (x a i - mean a i) ^ 2 / (2 * var a i)
  grad : ∀ x a i, f.grad x a i = -(x a i - mean a i) / var a i
  dep : ∀ a, f.dep a = true

/-- The proposed parameters and the momenta at the end of the trajectory, as a function of the
parameters and of the draws for the momenta. -/
noncomputable def trajectory (C : Config κ ι) (f : Closure κ ι)
    (z : (∀ a, ι a → ℝ) × (∀ a, ι a → ℝ)) : (∀ a, ι a → ℝ) × (∀ a, ι a → ℝ) :=
  (contents (propose C f z.2 (backward f (at' z.1))).2,
    fun a => momentum ((propose C f z.2 (backward f (at' z.1))).2 a))

/-- The mean squared length of the tangent vector that the samplers draw at `x` (`egrad2rgrad` of
standard normal noise), measured by the given inner product of the manifold. -/
noncomputable def meanSquare {ι : Type} [Fintype ι] (M : Geoopt.Optim.Manifold ι)
    (inner : (ι → ℝ) → (ι → ℝ) → (ι → ℝ) → ℝ) (x : ι → ℝ) : ℝ :=
  ∫ n, inner x (M.egrad2rgrad x n).value (M.egrad2rgrad x n).value
    ∂(Measure.pi fun _ : ι => gaussianReal 0 1)

end Geoopt.Samplers
