import Verif.Model.Vec
import Mathlib.Data.Matrix.Mul

/-! Vocabulary for the sphere: what a point, a tangent vector and a subspace are. -/

namespace Geoopt.Sphere
open Geoopt Matrix
variable {n : ℕ}

/-- The unit sphere intersected with a subspace `S`. -/
def OnSphere (S : Set (Vec n)) (x : Vec n) : Prop := x ⬝ᵥ x = 1 ∧ x ∈ S

/-- Tangent vectors at `x`: orthogonal to `x` and inside the subspace. -/
def Tangent (S : Set (Vec n)) (x u : Vec n) : Prop := x ⬝ᵥ u = 0 ∧ u ∈ S

/-- `P` is the orthogonal projector on `S`: values in `S`, the rest is orthogonal to `S`,
and `S` is a linear subspace (closed under linear combinations). -/
structure IsOrthProjector (S : Set (Vec n)) (P : Matrix (Fin n) (Fin n) ℝ) : Prop where
  mem : ∀ v, P *ᵥ v ∈ S
  fix : ∀ v ∈ S, P *ᵥ v = v
  orth : ∀ v, ∀ w ∈ S, (v - P *ᵥ v) ⬝ᵥ w = 0

/-- The subspace the manifold is restricted to: given by the stored projector, everything
when there is none. -/
def Projects (S : Set (Vec n)) : Option (Matrix (Fin n) (Fin n) ℝ) → Prop
  | some P => IsOrthProjector S P
  | none => S = Set.univ

/-- the column space of a matrix -/
def colSpace {m : ℕ} (A : Matrix (Fin n) (Fin m) ℝ) : Set (Vec n) := Set.range fun c => A *ᵥ c

/-- the vectors orthogonal to all columns of a matrix -/
def colOrth {m : ℕ} (A : Matrix (Fin n) (Fin m) ℝ) : Set (Vec n) := {v | ∀ c, (A *ᵥ c) ⬝ᵥ v = 0}

end Geoopt.Sphere
