import Verif.Model.Autograd
import Verif.Model.Birkhoff
import Verif.Model.Stiefel

/-!
# What automatic differentiation sees, for the polytope and the Stiefel manifold

The continuation of `Verif/Model/Autograd.lean`, with the same conventions.
-/

namespace Geoopt.Grad
open Geoopt Matrix
variable {n m : ℕ}

/-- A batch: every element is recorded. -/
def every {ι α : Type} (f : ι → Tr α) : Tr (ι → α) := ⟨fun b => (f b).val, ∀ b, (f b).fin⟩

/-- `torch.linalg.solve(a, b)`: the derivative is `a⁻¹ (db - da a⁻¹ b)`. -/
noncomputable def solve {κ μ : Type} [Fintype κ] [DecidableEq κ] (a : Matrix κ κ ℝ) (b : Matrix κ μ ℝ) :
    Tr (Matrix κ μ ℝ) := ⟨a⁻¹ * b, a.det ≠ 0⟩

/-! ### `geoopt/manifolds/birkhoff_polytope.py` -/

namespace Birkhoff
open Geoopt.Birkhoff (Sink Config Stop cinv)

/-- `birkhoff_polytope.py:207`, `:214` `1.0 / ((x @ c.T) + eps)`. -/
noncomputable def rOf (eps : ℝ) (x : Matrix (Fin n) (Fin n) ℝ) (c : Fin n → ℝ) : Tr (Fin n → ℝ) :=
  each fun i => div 1.0 ((∑ j, x i j * c j) + eps)

/-- `birkhoff_polytope.py:206-207`. -/
noncomputable def sinkInit (eps : ℝ) (x : Matrix (Fin n) (Fin n) ℝ) : Tr (Sink n) := do
  let c ← each fun j => div 1.0 ((∑ i, x i j) + eps)
  let r ← rOf eps x c
  pure ⟨c, r⟩

/-- `birkhoff_polytope.py:213-214`. -/
noncomputable def sinkStep (eps : ℝ) (x : Matrix (Fin n) (Fin n) ℝ) (s : Sink n) : Tr (Sink n) := do
  let c ← each fun j => div 1.0 (cinv x s j + eps)
  let r ← rOf eps x c
  pure ⟨c, r⟩

open Classical in
/-- `birkhoff_polytope.py:208-214`: the loop; only the rounds that are run are recorded. -/
noncomputable def sinkLoop {ι : Type} (eps tol : ℝ) (x : ι → Matrix (Fin n) (Fin n) ℝ) :
    ℕ → (ι → Sink n) → Tr (ι → Sink n)
  | 0, s => pure s
  | k + 1, s => if Stop tol x s then pure s else do
      let s' ← every fun b => sinkStep eps (x b) (s b)
      sinkLoop eps tol x k s'

/-- `birkhoff_polytope.py:104-107`, `202-215` `projx`. -/
noncomputable def projx {ι : Type} (cfg : Config) (x : ι → Matrix (Fin n) (Fin n) ℝ) :
    Tr (ι → Matrix (Fin n) (Fin n) ℝ) := do
  let s ← every fun b => sinkInit cfg.eps (x b)
  let s' ← sinkLoop cfg.eps cfg.tol x cfg.maxIter s
  pure fun b => Geoopt.Birkhoff.assemble (x b) (s' b)

/-- `birkhoff_polytope.py:114-121` `retr`, `expmap`; `exp` and `max` have finite derivatives. -/
noncomputable def retr {ι : Type} (cfg : Config) (x u : ι → Matrix (Fin n) (Fin n) ℝ) :
    Tr (ι → Matrix (Fin n) (Fin n) ℝ) := do
  let k ← every fun b => each fun i => each fun j => div (u b i j) (x b i j)
  let y ← projx cfg fun b => Matrix.of fun i j => x b i j * Real.exp (k b i j)
  pure fun b => Matrix.of fun i j => max (y b i j) 1e-12

/-- `birkhoff_polytope.py:123-127` `inner`. -/
noncomputable def inner (x u v : Matrix (Fin n) (Fin n) ℝ) : Tr ℝ := do
  let q ← each fun i => each fun j => div (u i j * v i j) (x i j)
  div (∑ i, ∑ j, q i j) n

/-- `birkhoff_polytope.py:218-258` `proj_tangent`. -/
noncomputable def proju (x u : Matrix (Fin (n + 1)) (Fin (n + 1)) ℝ) :
    Tr (Matrix (Fin (n + 1)) (Fin (n + 1)) ℝ) := do
  let z ← solve (Geoopt.Birkhoff.lhs x) (Matrix.of fun i (_ : Unit) => Geoopt.Birkhoff.rhs x u i)
  let alpha : Fin (n + 1) → ℝ := Fin.cons 1 fun i => z (Sum.inl i) ()
  let beta : Fin (n + 1) → ℝ := fun j => z (Sum.inr j) ()
  pure (Matrix.of fun i j => Geoopt.Birkhoff.mu x u i j - (alpha i + beta j) * x i j)

end Birkhoff

/-! ### `geoopt/manifolds/stiefel.py` -/

namespace Stiefel

/-- `stiefel.py:175-183` `_transp_follow_one`. -/
noncomputable def transpFollowOne {κ : Type} (x : Matrix (Fin n) (Fin m) ℝ) (v : Matrix (Fin n) κ ℝ)
    (u : Matrix (Fin n) (Fin m) ℝ) : Tr (Matrix (Fin n) κ ℝ) :=
  solve (Geoopt.Stiefel.Canonical.lhs x u)
    (v + (1 / 2 : ℝ) • (Geoopt.Stiefel.Canonical.amat x u * v))

/-- `stiefel.py:209-212` `CanonicalStiefel.retr`, `expmap`. -/
noncomputable def retr (x u : Matrix (Fin n) (Fin m) ℝ) : Tr (Matrix (Fin n) (Fin m) ℝ) :=
  transpFollowOne x x u

/-- `stiefel.py:185-190` `CanonicalStiefel.transp_follow_retr`. -/
noncomputable def transpFollowRetr (x u v : Matrix (Fin n) (Fin m) ℝ) : Tr (Matrix (Fin n) (Fin m) ℝ) :=
  transpFollowOne x v u

/-- `stiefel.py:192-202` `CanonicalStiefel.retr_transp`. -/
noncomputable def retrTransp (x u v : Matrix (Fin n) (Fin m) ℝ) :
    Tr (Matrix (Fin n) (Fin m) ℝ × Matrix (Fin n) (Fin m) ℝ) := do
  let q ← transpFollowOne x (fromCols x v) u
  pure (q.toCols₁, q.toCols₂)

/-- `stiefel.py:85-87` `projx`, with the result `u s v` of `torch.linalg.svd`.  Its derivative divides
by the differences of the squares of the singular values and, for a matrix that is not square, by the
singular values. -/
def projx (u : Matrix (Fin n) (Fin m) ℝ) (s : Fin m → ℝ) (v : Matrix (Fin m) (Fin m) ℝ) :
    Tr (Matrix (Fin n) (Fin m) ℝ) :=
  ⟨u * v, (∀ i j, i ≠ j → s j ^ 2 - s i ^ 2 ≠ 0) ∧ (n ≠ m → ∀ i, s i ≠ 0)⟩

end Stiefel
end Geoopt.Grad
