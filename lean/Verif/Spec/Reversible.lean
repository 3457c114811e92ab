import Verif.Model.OptimProduct

/-! Vocabulary for C105: following a velocity and coming back. -/

namespace Geoopt.Reversible
open Geoopt.Optim

variable {ι : Type}

/-- One free move of a sampler: the point moves along `ε r`, the velocity `r` is carried along
(`retr_transp(x, ε r, r)`). -/
def move (M : Manifold ι) (ε : ℝ) (x r : ι → ℝ) : (ι → ℝ) × (ι → ℝ) := M.retrTransp x (ε • r) r

/-- Moving, turning the velocity round and moving again for as long leads back to the starting point, with
the starting velocity turned round. -/
def GoesBack (M : Manifold ι) (ε : ℝ) (x r : ι → ℝ) : Prop :=
  move M ε (move M ε x r).1 (-(move M ε x r).2) = (x, -r)

end Geoopt.Reversible
