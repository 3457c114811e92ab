import Mathlib.Algebra.Module.Basic
import Mathlib.Data.Real.Basic

/-! Vocabulary for C106: walking along a geodesic in two legs. -/

namespace Geoopt.Flow

/-- Walking from `x` with velocity `u` for time `s`, carrying the velocity along, and then on for time `t`
with the velocity carried there, leads to the same place as walking for time `s + t` at once.
`exp x u` stands for `expmap(x, u)` and `follow x w u` for `transp_follow_expmap(x, w, u)`. -/
def TwoLegs {E : Type} [AddCommGroup E] [Module ℝ E] (exp : E → E → E) (follow : E → E → E → E)
    (x u : E) (s t : ℝ) : Prop :=
  exp (exp x (s • u)) (t • follow x (s • u) u) = exp x ((s + t) • u)

/-- The velocity carried along in two legs is the velocity carried along at once. -/
def SameVelocity {E : Type} [AddCommGroup E] [Module ℝ E] (exp : E → E → E) (follow : E → E → E → E)
    (x u : E) (s t : ℝ) : Prop :=
  follow (exp x (s • u)) (t • follow x (s • u) u) (follow x (s • u) u) = follow x ((s + t) • u) u

end Geoopt.Flow
