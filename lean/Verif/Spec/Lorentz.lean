import Verif.Model.Vec
import Mathlib.Algebra.BigOperators.Fin
import Mathlib.Analysis.SpecialFunctions.Trigonometric.DerivHyp

/-! Vocabulary for the hyperboloid model. -/

namespace Geoopt.Lorentz
open Geoopt
variable {n : ℕ}

/-- The Minkowski form `-u₀v₀ + u₁v₁ + ... + uₙvₙ`. -/
def mink (u v : Vec (n + 1)) : ℝ := -(u 0 * v 0) + ∑ i : Fin n, u i.succ * v i.succ

/-- The upper sheet of the hyperboloid `⟨x,x⟩ = -k`. -/
def OnHyperboloid (k : ℝ) (x : Vec (n + 1)) : Prop := mink x x = -k ∧ 0 < x 0

/-- Tangent vectors are Minkowski-orthogonal to the point. -/
def Tangent (x u : Vec (n + 1)) : Prop := mink x u = 0

/-- `d` is the geodesic distance `√k · arcosh(-⟨x,y⟩/k)`: it is non-negative and its
hyperbolic cosine is the right one (`cosh` is injective on non-negative numbers). -/
def IsGeodesicDist (k : ℝ) (x y : Vec (n + 1)) (d : ℝ) : Prop :=
  0 ≤ d ∧ k * Real.cosh (d / Real.sqrt k) = -mink x y

end Geoopt.Lorentz
