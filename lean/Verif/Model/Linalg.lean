import Verif.Model.Utils
import Mathlib.LinearAlgebra.Matrix.NonsingularInverse
import Mathlib.LinearAlgebra.Matrix.Trace
import Mathlib.Data.Matrix.ColumnRowPartitioned
import Mathlib.Analysis.Normed.Algebra.MatrixExponential
import Mathlib.Analysis.SpecialFunctions.Log.Basic
import Mathlib.Analysis.SpecialFunctions.Pow.Real

/-!
# `geoopt/linalg/batch_linalg.py`

Matrices are Mathlib matrices over `ℝ`, one per batch element.  Factorisations computed by
torch are described by what torch promises about their result.
-/

namespace Geoopt.Linalg
open Matrix

variable {n m : ℕ}

/-- `batch_linalg.py:26-27` `sym`. -/
noncomputable def sym (x : Matrix (Fin n) (Fin n) ℝ) : Matrix (Fin n) (Fin n) ℝ :=
  (0.5 : ℝ) • (xᵀ + x)

/-- `batch_linalg.py:31-32` `extract_diag`. -/
def extractDiag (x : Matrix (Fin n) (Fin n) ℝ) : Fin n → ℝ := fun i => x i i

/-- `batch_linalg.py:52-67` `trace`. -/
def trace (x : Matrix (Fin n) (Fin n) ℝ) : ℝ := ∑ i, x i i

/-- `(u * v).sum([-1, -2])`: entrywise product, summed over both matrix axes. -/
def frob (u v : Matrix (Fin n) (Fin m) ℝ) : ℝ := ∑ i, ∑ j, u i j * v i j

/-- The contract of `torch.linalg.qr(A)` for `n ≥ m` (`batch_linalg.py:213`): `A = Q R`, `Q` has
orthonormal columns, `R` is upper triangular. -/
structure IsQR (A Q : Matrix (Fin n) (Fin m) ℝ) (R : Matrix (Fin m) (Fin m) ℝ) : Prop where
  eq : A = Q * R
  orth : Qᵀ * Q = 1
  upper : ∀ i j, j < i → R i j = 0

/-- The contract of `torch.linalg.svd(A, full_matrices=False)` for `n ≥ m`
(`batch_linalg.py:215`): `A = U diag(S) V`, `U` has orthonormal columns, `V` is orthogonal,
`S ≥ 0`. -/
structure IsSVD (A U : Matrix (Fin n) (Fin m) ℝ) (S : Fin m → ℝ) (V : Matrix (Fin m) (Fin m) ℝ) :
    Prop where
  eq : A = U * diagonal S * V
  orthU : Uᵀ * U = 1
  orthV : V * Vᵀ = 1
  nonneg : ∀ i, 0 ≤ S i

/-- The symmetric matrix `torch.linalg.eigh(x, "U")` looks at: only the upper triangle of `x` is
read. -/
def upper (x : Matrix (Fin n) (Fin n) ℝ) : Matrix (Fin n) (Fin n) ℝ :=
  Matrix.of fun i j => if i ≤ j then x i j else x j i

/-- Any implementation of `torch.linalg.eigh(x, "U")` (`batch_linalg.py:74`, `:202`): for every
input, eigenvalues `e` and an orthogonal matrix `v` of eigenvectors of the symmetric matrix in the
upper triangle.  Theorems hold for every such implementation (the order of the eigenvalues and the
choice of eigenvectors are not used). -/
structure Eigh (n : ℕ) where
  e : Matrix (Fin n) (Fin n) ℝ → Fin n → ℝ
  v : Matrix (Fin n) (Fin n) ℝ → Matrix (Fin n) (Fin n) ℝ
  orth : ∀ x, (v x)ᵀ * v x = 1
  eq : ∀ x, upper x = v x * diagonal (e x) * (v x)ᵀ

/-- `batch_linalg.py:71-98` `_sym_funcm_impl`, `sym_funcm`. -/
def symFuncm (E : Eigh n) (f : ℝ → ℝ) (x : Matrix (Fin n) (Fin n) ℝ) : Matrix (Fin n) (Fin n) ℝ :=
  E.v x * diagonal (fun i => f (E.e x i)) * (E.v x)ᵀ

/-- `batch_linalg.py:101-118` `sym_expm`: `torch.matrix_exp`. -/
noncomputable def symExpm (x : Matrix (Fin n) (Fin n) ℝ) : Matrix (Fin n) (Fin n) ℝ :=
  NormedSpace.exp x

/-- `batch_linalg.py:121-134` `sym_logm`.  (`torch.log` of a non-positive number is `nan` or `-inf`,
`Real.log` is a finite junk value there; no theorem uses it outside positive eigenvalues.) -/
noncomputable def symLogm (E : Eigh n) (x : Matrix (Fin n) (Fin n) ℝ) : Matrix (Fin n) (Fin n) ℝ :=
  symFuncm E Real.log x

/-- `batch_linalg.py:137-150` `sym_sqrtm`. -/
noncomputable def symSqrtm (E : Eigh n) (x : Matrix (Fin n) (Fin n) ℝ) :
    Matrix (Fin n) (Fin n) ℝ := symFuncm E Real.sqrt x

/-- `batch_linalg.py:153-170` `sym_invm`: `torch.matrix_power(x, -1)` (which raises when `x` is
singular; Mathlib's inverse is `0` there). -/
noncomputable def symInvm (x : Matrix (Fin n) (Fin n) ℝ) : Matrix (Fin n) (Fin n) ℝ := x⁻¹

/-- `batch_linalg.py:173-186` `sym_inv_sqrtm1`: `pow(·, -0.5)` on the eigenvalues. -/
noncomputable def symInvSqrtm1 (E : Eigh n) (x : Matrix (Fin n) (Fin n) ℝ) :
    Matrix (Fin n) (Fin n) ℝ := symFuncm E (fun t => t ^ (-0.5 : ℝ)) x

/-- `batch_linalg.py:189-209` `sym_inv_sqrtm2`: the pair `(x^{-1/2}, x^{1/2})` from one
decomposition, with `reciprocal(sqrt(e))`. -/
noncomputable def symInvSqrtm2 (E : Eigh n) (x : Matrix (Fin n) (Fin n) ℝ) :
    Matrix (Fin n) (Fin n) ℝ × Matrix (Fin n) (Fin n) ℝ :=
  (E.v x * diagonal (fun i => (Real.sqrt (E.e x i))⁻¹) * (E.v x)ᵀ,
   E.v x * diagonal (fun i => Real.sqrt (E.e x i)) * (E.v x)ᵀ)

end Geoopt.Linalg
