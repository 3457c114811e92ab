import Verif.Model.Stereo
import Verif.Spec.Lorentz
import Mathlib.Analysis.Calculus.Deriv.Basic
import Mathlib.Analysis.Calculus.Deriv.Prod

/-! Vocabulary for motions of the whole space: a map of points and what it does to tangent vectors.
Nothing here refers to how the code computes its results. -/

namespace Geoopt.Isometry
open Geoopt
variable {n : ℕ}

/-- `D` is what the map `F` does to the velocities of the lines through `x`. -/
def DerivAt (F : Vec n → Vec n) (x : Vec n) (D : Vec n → Vec n) : Prop :=
  ∀ u, HasDerivAt (fun s : ℝ => F (x + s • u)) (D u) 0

/-- `g` is the gradient at `x` of a loss whose gradient at the image of `x` is `g'`, when `D` is what
the map does to velocities (chain rule). -/
def PulledBack (D : Vec n → Vec n) (g' g : Vec n) : Prop := ∀ u, g ⬝ᵥ u = g' ⬝ᵥ D u

open Matrix Lorentz in
/-- A Lorentz transformation of space-time: it keeps the Minkowski form and the direction of time. -/
structure LorentzMap (Λ : Matrix (Fin (n + 1)) (Fin (n + 1)) ℝ) : Prop where
  form : ∀ u v : Vec (n + 1), mink (Λ *ᵥ u) (Λ *ᵥ v) = mink u v
  future : ∀ x : Vec (n + 1), mink x x < 0 → 0 < x 0 → 0 < (Λ *ᵥ x) 0

open Stereo in
/-- No denominator that the translation by `a`, and the operations between `x` and `y` or between
their images, divide by is below the floor `1e-15` of the code. -/
structure OffFloors (k : ℝ) (a x y : Vec n) : Prop where
  ax : 1e-15 < mobDenom k a x
  ay : 1e-15 < mobDenom k a y
  xy : 1e-15 ≤ mobDenom k (-x) y
  im : 1e-15 ≤ mobDenom k (-mobiusAdd k a x) (mobiusAdd k a y)
  lx : 1e-15 ≤ 1 + k * (x ⬝ᵥ x)
  ly : 1e-15 ≤ 1 + k * (y ⬝ᵥ y)
  lax : 1e-15 ≤ 1 + k * (mobiusAdd k a x ⬝ᵥ mobiusAdd k a x)
  lay : 1e-15 ≤ 1 + k * (mobiusAdd k a y ⬝ᵥ mobiusAdd k a y)

end Geoopt.Isometry
