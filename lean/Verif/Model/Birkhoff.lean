import Verif.Model.Linalg
import Mathlib.Data.Matrix.Block
import Mathlib.Analysis.SpecialFunctions.Exp

/-!
# `geoopt/manifolds/birkhoff_polytope.py`
-/

namespace Geoopt.Birkhoff
open Matrix

variable {n : ℕ}

/-- `birkhoff_polytope.py:51-55` constructor arguments. -/
structure Config where
  maxIter : ℕ
  tol : ℝ
  eps : ℝ

/-- The defaults of `__init__`. -/
noncomputable def Config.default : Config := ⟨100, 1e-5, 1e-12⟩

/-- Loop state of `proj_doubly_stochastic`: the row `c` and the column `r`. -/
structure Sink (n : ℕ) where
  c : Fin n → ℝ
  r : Fin n → ℝ

/-- `birkhoff_polytope.py:207`, `:214` `r = 1.0 / ((x @ c.T) + eps)`. -/
noncomputable def rOf (eps : ℝ) (x : Matrix (Fin n) (Fin n) ℝ) (c : Fin n → ℝ) : Fin n → ℝ :=
  fun i => 1.0 / ((∑ j, x i j * c j) + eps)

/-- `birkhoff_polytope.py:206-207`: the values before the loop. -/
noncomputable def sinkInit (eps : ℝ) (x : Matrix (Fin n) (Fin n) ℝ) : Sink n :=
  let c := fun j => 1.0 / ((∑ i, x i j) + eps)
  ⟨c, rOf eps x c⟩

/-- `birkhoff_polytope.py:210` `cinv = r.T @ x`. -/
def cinv (x : Matrix (Fin n) (Fin n) ℝ) (s : Sink n) : Fin n → ℝ := fun j => ∑ i, s.r i * x i j

/-- `birkhoff_polytope.py:213-214`: one update. -/
noncomputable def sinkStep (eps : ℝ) (x : Matrix (Fin n) (Fin n) ℝ) (s : Sink n) : Sink n :=
  let c := fun j => 1.0 / (cinv x s j + eps)
  ⟨c, rOf eps x c⟩

/-- `birkhoff_polytope.py:211` `torch.max(torch.abs(cinv * c - 1)) <= tol`.  The maximum runs over
the whole batch `ι`. -/
def Stop {ι : Type*} (tol : ℝ) (x : ι → Matrix (Fin n) (Fin n) ℝ) (s : ι → Sink n) : Prop :=
  ∀ b j, |cinv (x b) (s b) j * (s b).c j - 1| ≤ tol

open Classical in
/-- `birkhoff_polytope.py:208-214`: the loop with `k` iterations left; the flag says whether it was
left through `break`. -/
noncomputable def sinkLoop {ι : Type*} (eps tol : ℝ) (x : ι → Matrix (Fin n) (Fin n) ℝ) :
    ℕ → (ι → Sink n) → (ι → Sink n) × Bool
  | 0, s => (s, false)
  | k + 1, s => if Stop tol x s then (s, true)
      else sinkLoop eps tol x k fun b => sinkStep eps (x b) (s b)

/-- `birkhoff_polytope.py:215` `x * (r @ c)`. -/
def assemble (x : Matrix (Fin n) (Fin n) ℝ) (s : Sink n) : Matrix (Fin n) (Fin n) ℝ :=
  Matrix.of fun i j => x i j * (s.r i * s.c j)

/-- `birkhoff_polytope.py:202-215` `proj_doubly_stochastic` on a batch, and whether it stopped by
tolerance. -/
noncomputable def projRun {ι : Type*} (cfg : Config) (x : ι → Matrix (Fin n) (Fin n) ℝ) :
    (ι → Matrix (Fin n) (Fin n) ℝ) × Bool :=
  let out := sinkLoop cfg.eps cfg.tol x cfg.maxIter fun b => sinkInit cfg.eps (x b)
  (fun b => assemble (x b) (out.1 b), out.2)

/-- `birkhoff_polytope.py:104-107` `projx` of a batch. -/
noncomputable def projx {ι : Type*} (cfg : Config) (x : ι → Matrix (Fin n) (Fin n) ℝ) :
    ι → Matrix (Fin n) (Fin n) ℝ := (projRun cfg x).1

/-- `projx` of a single matrix: a batch of one. -/
noncomputable def projx1 (cfg : Config) (x : Matrix (Fin n) (Fin n) ℝ) :
    Matrix (Fin n) (Fin n) ℝ := projx cfg (fun _ : Unit => x) ()

/-- `birkhoff_polytope.py:114-119` `retr`, `expmap` on a batch. -/
noncomputable def retr {ι : Type*} (cfg : Config) (x u : ι → Matrix (Fin n) (Fin n) ℝ) :
    ι → Matrix (Fin n) (Fin n) ℝ :=
  let y := fun b => Matrix.of fun i j => x b i j * Real.exp (u b i j / x b i j)
  fun b => Matrix.of fun i j => max (projx cfg y b i j) 1e-12

/-- `birkhoff_polytope.py:123-127` `inner`. -/
noncomputable def inner (x u v : Matrix (Fin n) (Fin n) ℝ) : ℝ :=
  (∑ i, ∑ j, u i j * v i j / x i j) / n

/-- `torch.allclose` against a constant. -/
def Close (atol rtol c a : ℝ) : Prop := |a - c| ≤ atol + rtol * |c|

/-- `birkhoff_polytope.py:74-91` `_check_point_on_manifold`. -/
def CheckPoint (atol rtol : ℝ) (x : Matrix (Fin n) (Fin n) ℝ) : Prop :=
  (∀ i, Close atol rtol 1 (∑ j, x i j)) ∧ ∀ j, Close atol rtol 1 (∑ i, x i j)

/-- `birkhoff_polytope.py:93-102` `_check_vector_on_tangent`. -/
def CheckTangent (atol rtol : ℝ) (u : Matrix (Fin n) (Fin n) ℝ) : Prop :=
  (∀ i, Close atol rtol 0 (∑ j, u i j)) ∧ ∀ j, Close atol rtol 0 (∑ i, u i j)

/-- `birkhoff_polytope.py:233` `A = [[I, x], [xᵀ, I]]`. -/
def amat (x : Matrix (Fin (n + 1)) (Fin (n + 1)) ℝ) :
    Matrix (Fin (n + 1) ⊕ Fin (n + 1)) (Fin (n + 1) ⊕ Fin (n + 1)) ℝ := fromBlocks 1 x xᵀ 1

/-- Position of the columns `1:` of the concatenated index. -/
def skip : Fin n ⊕ Fin (n + 1) → Fin (n + 1) ⊕ Fin (n + 1) := Sum.map Fin.succ id

/-- `birkhoff_polytope.py:235` `B = A[:, :, 1:]`. -/
def bmat (x : Matrix (Fin (n + 1)) (Fin (n + 1)) ℝ) :
    Matrix (Fin (n + 1) ⊕ Fin (n + 1)) (Fin n ⊕ Fin (n + 1)) ℝ := (amat x).submatrix id skip

/-- `birkhoff_polytope.py:245` `lhs = Bᵀ B`. -/
def lhs (x : Matrix (Fin (n + 1)) (Fin (n + 1)) ℝ) :
    Matrix (Fin n ⊕ Fin (n + 1)) (Fin n ⊕ Fin (n + 1)) ℝ := (bmat x)ᵀ * bmat x

/-- `birkhoff_polytope.py:231` `mu = x * u`. -/
def mu (x u : Matrix (Fin (n + 1)) (Fin (n + 1)) ℝ) : Matrix (Fin (n + 1)) (Fin (n + 1)) ℝ :=
  Matrix.of fun i j => x i j * u i j

/-- `birkhoff_polytope.py:237-243` `b`. -/
def bvec (x u : Matrix (Fin (n + 1)) (Fin (n + 1)) ℝ) : Fin (n + 1) ⊕ Fin (n + 1) → ℝ :=
  Sum.elim (fun i => ∑ j, mu x u i j) fun j => ∑ i, mu x u i j

/-- `birkhoff_polytope.py:244` `rhs = Bᵀ (b - A[:, :, 0:1])`. -/
def rhs (x u : Matrix (Fin (n + 1)) (Fin (n + 1)) ℝ) : Fin n ⊕ Fin (n + 1) → ℝ :=
  (bmat x)ᵀ *ᵥ fun k => bvec x u k - amat x k (Sum.inl 0)

/-- `birkhoff_polytope.py:246` `zeta = torch.linalg.solve(lhs, rhs)` (raises when `lhs` is singular;
Mathlib's inverse is `0` there). -/
noncomputable def zeta (x u : Matrix (Fin (n + 1)) (Fin (n + 1)) ℝ) : Fin n ⊕ Fin (n + 1) → ℝ :=
  (lhs x)⁻¹ *ᵥ rhs x u

/-- `birkhoff_polytope.py:247-253` `alpha`. -/
noncomputable def alpha (x u : Matrix (Fin (n + 1)) (Fin (n + 1)) ℝ) : Fin (n + 1) → ℝ :=
  Fin.cons 1 fun i => zeta x u (Sum.inl i)

/-- `birkhoff_polytope.py:254` `beta`. -/
noncomputable def beta (x u : Matrix (Fin (n + 1)) (Fin (n + 1)) ℝ) : Fin (n + 1) → ℝ :=
  fun j => zeta x u (Sum.inr j)

/-- `birkhoff_polytope.py:218-258` `proj_tangent`; `proju`, `egrad2rgrad` (`:109-112`).  The size is
written `n+1` since the code addresses column `0`. -/
noncomputable def proju (x u : Matrix (Fin (n + 1)) (Fin (n + 1)) ℝ) :
    Matrix (Fin (n + 1)) (Fin (n + 1)) ℝ :=
  Matrix.of fun i j => mu x u i j - (alpha x u i + beta x u j) * x i j

/-- `birkhoff_polytope.py:129-130` `transp`. -/
noncomputable def transp (_x y v : Matrix (Fin (n + 1)) (Fin (n + 1)) ℝ) :
    Matrix (Fin (n + 1)) (Fin (n + 1)) ℝ := proju y v

/-- `birkhoff_polytope.py:168-171` `random_naive`; `z` is the draw. -/
noncomputable def random {ι : Type*} (cfg : Config) (z : ι → Matrix (Fin n) (Fin n) ℝ) :
    ι → Matrix (Fin n) (Fin n) ℝ := projx cfg fun b => Matrix.of fun i j => |z b i j|

/-- `birkhoff_polytope.py:175-198` `origin`. -/
def origin : Matrix (Fin n) (Fin n) ℝ := 1

end Geoopt.Birkhoff
