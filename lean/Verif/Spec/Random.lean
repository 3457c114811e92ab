import Mathlib.MeasureTheory.Constructions.Pi
import Mathlib.Data.Matrix.Basic
import Mathlib.Probability.Distributions.Gaussian.Real

/-! Vocabulary for the distribution of random points. -/

namespace Geoopt.Random
open MeasureTheory ProbabilityTheory

/-- What `torch.randn` draws: independent standard normal entries. -/
noncomputable def randn (ι : Type) [Fintype ι] : Measure (ι → ℝ) :=
  Measure.pi fun _ => gaussianReal 0 1

/-- Moving the random point `sample` by `move` does not change the probability of any event. -/
def Invariant {ι : Type} [Fintype ι] {X : Type} (sample : (ι → ℝ) → X) (move : X → X) : Prop :=
  ∀ A : Set X, randn ι {z | move (sample z) ∈ A} = randn ι {z | sample z ∈ A}

/-- The matrix of the entries of a draw. -/
def mat {n m : ℕ} (z : Fin n × Fin m → ℝ) : Matrix (Fin n) (Fin m) ℝ := Matrix.of fun i j => z (i, j)

/-- What `torch.randn` makes of independent standard normal numbers for a complex `dtype`: real and
imaginary parts have variance `1/2`. -/
noncomputable def cmat {n m : ℕ} (z : Bool × Fin n × Fin m → ℝ) : Matrix (Fin n) (Fin m) ℂ :=
  Matrix.of fun i j => ⟨z (false, i, j) / Real.sqrt 2, z (true, i, j) / Real.sqrt 2⟩

end Geoopt.Random
