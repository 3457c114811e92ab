import Verif.Model.OptimManifolds
import Verif.Model.Birkhoff

/-!
# `BirkhoffPolytope` as the optimisers see it

The operations act on the whole parameter, a batch indexed by `β` (one matrix: `β = Unit`), because the
loop of `projx` stops for all matrices of the batch together.
-/

namespace Geoopt.Optim

/-- The matrices of a parameter of shape `(β, n, n)`. -/
def toMats {β : Type} {n : ℕ} (x : β × Fin n × Fin n → ℝ) : β → Matrix (Fin n) (Fin n) ℝ :=
  fun b => Matrix.of fun i j => x (b, i, j)

/-- The parameter with these matrices. -/
def ofMats {β : Type} {n : ℕ} (x : β → Matrix (Fin n) (Fin n) ℝ) : β × Fin n × Fin n → ℝ :=
  fun p => x p.1 p.2.1 p.2.2

/-- `geoopt/manifolds/birkhoff_polytope.py:104-136`: `projx`, `proju`, `egrad2rgrad = proju`, `retr`,
`inner`, `retr_transp`; `component_inner` is that of `geoopt/manifolds/base.py`, one number for each
matrix of the batch. -/
noncomputable def birkhoff (β : Type) {n : ℕ} (cfg : Birkhoff.Config) :
    Manifold (β × Fin (n + 1) × Fin (n + 1)) where
  egrad2rgrad x g := ⟨ofMats fun b => Birkhoff.proju (toMats x b) (toMats g b), g, false⟩
  retr x u := ofMats (Birkhoff.retr cfg (toMats x) (toMats u))
  retrTransp x u v :=
    let y := Birkhoff.retr cfg (toMats x) (toMats u)
    (ofMats y, ofMats fun b => Birkhoff.transp (toMats x b) (y b) (toMats v b))
  projx x := ofMats (Birkhoff.projx cfg (toMats x))
  proju x u := ofMats fun b => Birkhoff.proju (toMats x b) (toMats u b)
  componentInner x u := fun p => Birkhoff.inner (toMats x p.1) (toMats u p.1) (toMats u p.1)

end Geoopt.Optim
