import Verif.Model.Vec
import Mathlib.Analysis.Calculus.Deriv.Basic
import Mathlib.Data.Matrix.Basic

/-!
# What a retraction is

A retraction sends the zero vector at `x` to `x`, and the curve `t ↦ retr(x, t u)` leaves `x`
with velocity `u`.
-/

namespace Geoopt.SpecRetr
open Geoopt

/-- The curve `γ` passes at time `0` with velocity `u` (entrywise derivative). -/
def Velocity {ι : Type*} (γ : ℝ → ι → ℝ) (u : ι → ℝ) : Prop :=
  ∀ i, HasDerivAt (fun t => γ t i) (u i) 0

/-- The same for a curve of matrices. -/
def MatVelocity {ι κ : Type*} (γ : ℝ → Matrix ι κ ℝ) (u : Matrix ι κ ℝ) : Prop :=
  ∀ i j, HasDerivAt (fun t => γ t i j) (u i j) 0

/-- `R` is a retraction at `x` in direction `u`. -/
def FirstOrder {n : ℕ} (R : Vec n → Vec n → Vec n) (x u : Vec n) : Prop :=
  R x 0 = x ∧ Velocity (fun t => R x (t • u)) u

/-- The same for matrices. -/
def MatFirstOrder {ι κ : Type*} (R : Matrix ι κ ℝ → Matrix ι κ ℝ → Matrix ι κ ℝ)
    (x u : Matrix ι κ ℝ) : Prop :=
  R x 0 = x ∧ MatVelocity (fun t => R x (t • u)) u

end Geoopt.SpecRetr
