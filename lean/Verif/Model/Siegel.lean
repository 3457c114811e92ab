import Verif.Model.Linalg
import Verif.Model.Shapes
import Mathlib.Data.Complex.Basic
import Mathlib.LinearAlgebra.Matrix.ConjTranspose
import Mathlib.Data.Fin.Tuple.Basic

/-!
# `geoopt/manifolds/siegel/`

Complex symmetric matrices.  Matrices are Mathlib matrices over `ℂ`, one per batch element.
`torch.linalg.inv` raises on a singular matrix, so functions that invert return `Except`.
`torch.linalg.eigh` and `eigvalsh` are described by what torch promises about their result.
-/

namespace Geoopt.Siegel
open Matrix Geoopt Geoopt.Linalg

variable {n m : ℕ}

abbrev RMat (n : ℕ) := Matrix (Fin n) (Fin n) ℝ
abbrev CMat (n : ℕ) := Matrix (Fin n) (Fin n) ℂ

/-! ## `csym_math.py` -/

/-- The real dtypes with an entry in `EPS`. -/
inductive RealDtype
  | float32
  | float64

/-- `csym_math.py:5` `EPS`. -/
noncomputable def EPS : RealDtype → ℝ
  | .float32 => 4e-3
  | .float64 => 1e-5

/-- `z.real`. -/
def reM (z : CMat n) : RMat n := Matrix.of fun i j => (z i j).re

/-- `z.imag`. -/
def imM (z : CMat n) : RMat n := Matrix.of fun i j => (z i j).im

/-- `csym_math.py:7` `to_complex`: `torch.complex(re, im)`. -/
def toComplex (a b : RMat n) : CMat n := Matrix.of fun i j => ⟨a i j, b i j⟩

/-- `t.type_as(z)` for a real matrix `t` and a complex `z`. -/
def asComplex (a : RMat n) : CMat n := Matrix.of fun i j => (a i j : ℂ)

/-- `z.conj()`. -/
def conjM (z : CMat n) : CMat n := Matrix.of fun i j => star (z i j)

/-- `csym_math.py:8` `inverse`: `torch.linalg.inv` raises (`LinAlgError`, a `RuntimeError`) for a
singular matrix. -/
noncomputable def inverse (z : CMat n) : Except PyErr (CMat n) :=
  open Classical in if IsUnit z.det then .ok z⁻¹ else .error .runtimeError

/-- The symmetric matrix `torch.linalg.eigh(x)` looks at: by default (`UPLO="L"`) only the lower
triangle of `x` is read. -/
def lower (x : RMat n) : RMat n := Matrix.of fun i j => if j ≤ i then x i j else x j i

/-- `csym_math.py:9` `eigh`: any implementation of `torch.linalg.eigh(x)` on real matrices.
Eigenvalues in ascending order and an orthogonal matrix of eigenvectors. -/
structure EighL (n : ℕ) where
  e : RMat n → Fin n → ℝ
  v : RMat n → RMat n
  mono : ∀ x, Monotone (e x)
  orth : ∀ x, (v x)ᵀ * v x = 1
  eq : ∀ x, lower x = v x * diagonal (e x) * (v x)ᵀ

/-- `csym_math.py:10` `eigvalsh`: any implementation of `torch.linalg.eigvalsh(x)` on real
matrices.  The eigenvalues in ascending order. -/
structure EigvalsL (n : ℕ) where
  e : RMat n → Fin n → ℝ
  mono : ∀ x, Monotone (e x)
  eq : ∀ x, ∃ v : RMat n, vᵀ * v = 1 ∧ lower x = v * diagonal (e x) * vᵀ

/-- The Hermitian matrix `torch.linalg.eigvalsh(x)` looks at when `x` is complex: the strictly
lower triangle and the real part of the diagonal. -/
def lowerH (x : CMat n) : CMat n :=
  Matrix.of fun i j => if j < i then x i j else if i = j then ((x i j).re : ℂ) else star (x j i)

/-- `csym_math.py:10` `eigvalsh` on complex matrices. -/
structure EigvalsH (n : ℕ) where
  e : CMat n → Fin n → ℝ
  mono : ∀ x, Monotone (e x)
  eq : ∀ x, ∃ v : CMat n, vᴴ * v = 1 ∧ lowerH x = v * diagonal (fun i => (e x i : ℂ)) * vᴴ

/-- `torch.cat([a, b], dim=-1)`. -/
def catCols {k l : ℕ} (a : Matrix (Fin m) (Fin k) ℝ) (b : Matrix (Fin m) (Fin l) ℝ) :
    Matrix (Fin m) (Fin (k + l)) ℝ :=
  Matrix.of fun i => Fin.append (a i) (b i)

/-- `torch.cat([a, b], dim=-2)`. -/
def catRows {k l : ℕ} (a : Matrix (Fin k) (Fin m) ℝ) (b : Matrix (Fin l) (Fin m) ℝ) :
    Matrix (Fin (k + l)) (Fin m) ℝ :=
  Matrix.of fun i j => Fin.append (fun r => a r j) (fun r => b r j) i

/-- `batch_linalg.py:41-48` `block_matrix` for two rows of two blocks. -/
def blockMatrix (a b c d : RMat n) : RMat (n + n) := catRows (catCols a b) (catCols c d)

/-- `csym_math.py:196-217` `to_compound_symmetric`. -/
def toCompoundSymmetric (z : CMat n) : RMat (n + n) :=
  let a := reM z
  let b := imM z
  blockMatrix a b b (-a)

/-- `csym_math.py:220-234` `identity_like`. -/
def identityLike (_z : CMat n) : CMat n := 1

/-- `csym_math.py:237-251` `multiply_by_i`. -/
def multiplyByI (z : CMat n) : CMat n := toComplex (-(imM z)) (reM z)

/-- `torch.chunk(q, 2, dim=-1)[-1]` of a matrix with `2 n` columns. -/
def chunkLastCols (q : RMat (n + n)) : Matrix (Fin (n + n)) (Fin n) ℝ :=
  Matrix.of fun i j => q i (Fin.natAdd n j)

/-- `torch.chunk(t, 2, dim=-2)` of a matrix with `2 n` rows. -/
def chunkRows (t : Matrix (Fin (n + n)) (Fin n) ℝ) : RMat n × RMat n :=
  (Matrix.of fun i j => t (Fin.castAdd n i) j, Matrix.of fun i j => t (Fin.natAdd n i) j)

/-- `csym_math.py:13-64` `takagi_eig`. -/
def takagiEig (E : EighL (n + n)) (z : CMat n) : (Fin n → ℝ) × CMat n :=
  let compound := toCompoundSymmetric z
  let evalues := E.e compound
  let q := E.v compound
  let right := chunkLastCols q
  let realU := (chunkRows right).1
  let minusImagU := (chunkRows right).2
  let u := toComplex realU (-minusImagU)
  (fun j => evalues (Fin.natAdd n j), u)

/-- `csym_math.py:67-107` `takagi_eigvals`. -/
def takagiEigvals (E : EigvalsL (n + n)) (z : CMat n) : Fin n → ℝ :=
  let evalues := E.e (toCompoundSymmetric z)
  fun j => evalues (Fin.natAdd n j)

/-- `csym_math.py:110-138` `cayley_transform`. -/
noncomputable def cayleyTransform (z : CMat n) : Except PyErr (CMat n) := do
  let identity := identityLike z
  let iZPlusId := multiplyByI (identity + z)
  let invZMinusId ← inverse (identity - z)
  .ok (iZPlusId * invZMinusId)

/-- `csym_math.py:141-169` `inverse_cayley_transform`. -/
noncomputable def inverseCayleyTransform (z : CMat n) : Except PyErr (CMat n) := do
  let identity := identityLike z
  let iIdentity := multiplyByI identity
  let zMinusId := z - iIdentity
  let invZPlusId ← inverse (z + iIdentity)
  .ok (zMinusId * invZPlusId)

/-- `torch.allclose(a, b, atol, rtol)` on real matrices. -/
def allclose (a b : RMat n) (atol rtol : ℝ) : Prop :=
  ∀ i j, |a i j - b i j| ≤ atol + rtol * |b i j|

/-- `csym_math.py:172-193` `is_complex_symmetric`. -/
def isComplexSymmetric (z : CMat n) (atol rtol : ℝ) : Prop :=
  allclose (reM z) (reM z)ᵀ atol rtol ∧ allclose (imM z) (imM z)ᵀ atol rtol

/-- `csym_math.py:254-277` `positive_conjugate_projection`. -/
noncomputable def positiveConjugateProjection (d : RealDtype) (E : EighL n) (y : RMat n) : RMat n :=
  let s := E.v y
  let evalues := fun i => max (E.e y i) (EPS d)
  let yTilde := s * diagonal evalues * sᵀ
  open Classical in if ∀ i, evalues i > EPS d then y else yTilde

/-- `batch_linalg.py:26-27` `sym` on complex matrices. -/
noncomputable def symC (x : CMat n) : CMat n := (0.5 : ℂ) • (xᵀ + x)

/-- `batch_linalg.py:52-67` `trace` on complex matrices. -/
def traceC (x : CMat n) : ℂ := ∑ i, x i i

/-! ## `siegel.py` and `vvd_metrics.py` -/

/-- `vvd_metrics.py:6-13` `SiegelMetricType`. -/
inductive MetricType
  | riemannian
  | finslerOne
  | finslerInfinity
  | finslerMinimum
  | weightedSum

/-- The metric objects.  The weighted sum carries its learnable parameter of shape `(1, rank)`. -/
inductive Metric
  | riemannian
  | finslerOne
  | finslerInfinity
  | finslerMinimum (rank : ℕ)
  | weightedSum (rank : ℕ) (weights : Fin rank → ℝ)

/-- `rank is None or rank < 2` (`vvd_metrics.py:106`, `:136`). -/
def checkRank (rank : Option ℤ) : Except PyErr ℕ :=
  match rank with
  | none => .error .valueError
  | some r => if r < 2 then .error .valueError else .ok r.toNat

/-- `vvd_metrics.py:172-174` `SiegelMetricFactory.get`, with the constructors `:33-34`,
`:104-111`, `:133-138` (the initial weights are `torch.ones((1, rank))`). -/
def Metric.get (t : MetricType) (rank : Option ℤ) : Except PyErr Metric :=
  match t with
  | .riemannian => .ok .riemannian
  | .finslerOne => .ok .finslerOne
  | .finslerInfinity => .ok .finslerInfinity
  | .finslerMinimum => (checkRank rank).map .finslerMinimum
  | .weightedSum => (checkRank rank).map fun r => .weightedSum r fun _ => 1

/-- `vvd_metrics.py:109-111`: `2 * (rank + 1 - arange(rank + 1, 1, -1))`; the `i`-th entry
(counting from zero) of `arange(rank + 1, 1, -1)` is `rank + 1 - i`. -/
def minimumWeights (rank : ℕ) : Fin rank → ℝ :=
  fun i => 2 * ((rank : ℝ) + 1 - ((rank : ℝ) + 1 - (i.val : ℝ)))

/-- `torch.sum(w * v, dim=-1)` for `w` of shape `(1, rank)` and a row `v` with `n` entries: torch
broadcasts when the sizes agree or when one of them is one, and raises otherwise. -/
def weightedRow {rank : ℕ} (w : Fin rank → ℝ) (v : Fin n → ℝ) : Except PyErr ℝ :=
  if h : rank = n then .ok (∑ i, w i * v (Fin.cast h i))
  else if h1 : n = 1 then .ok (∑ i, w i * v ⟨0, by omega⟩)
  else if h2 : rank = 1 then .ok (∑ i, w ⟨0, by omega⟩ * v i)
  else .error .runtimeError

/-- `compute_metric` on one row `v` of the vector-valued distance (`vvd_metrics.py:57-58`, `:77-78`,
`:97-100`, `:128-129`, `:157-160`). -/
noncomputable def Metric.row (μ : Metric) (v : Fin n → ℝ) : Except PyErr ℝ :=
  match μ with
  | .riemannian => .ok (Real.sqrt (∑ i, v i ^ 2))
  | .finslerOne => .ok (∑ i, v i)
  | .finslerInfinity => if h : 0 < n then .ok (v ⟨n - 1, by omega⟩) else .error .indexError
  | .finslerMinimum rank => weightedRow (minimumWeights rank) v
  | .weightedSum _ weights => weightedRow (fun i => max (weights i) 0) v

/-- The default of the argument `keepdim` of `compute_metric` (`vvd_metrics.py:42`, `:62`, `:82`,
`:113`, `:140`). -/
def Metric.keepdimDefault : Metric → Bool
  | .riemannian => false
  | _ => true

/-- The shape of `compute_metric(v, keepdim)` for `v` of shape `bs + (n,)` and metrics whose rank
is `n`: multiplying by weights of shape `(1, rank)` adds an axis when `bs` is empty. -/
def Metric.outShape (μ : Metric) (bs : List ℕ) (keepdim : Bool) : List ℕ :=
  let bs' := match μ with
    | .finslerMinimum _ => if bs = [] then [1] else bs
    | .weightedSum _ _ => if bs = [] then [1] else bs
    | _ => bs
  bs' ++ (if keepdim then [1] else [])

/-- `siegel.py:72-79`: the two assertions and the vector-valued distance. -/
noncomputable def vvdOf (d : RealDtype) (evalues : Fin n → ℝ) : Except PyErr (Fin n → ℝ) :=
  let eps := EPS d
  open Classical in
  if ∀ i, evalues i ≥ 0 - eps then
    if ∀ i, evalues i ≤ 1.01 then
      .ok fun i => Real.log ((1 + evalues i) / max (1 - evalues i) eps)
    else .error .assertionError
  else .error .assertionError

/-- `siegel.py:40-81` `dist`, up to the vector-valued distance.  `Eu` is `torch.linalg.eigh` inside
`lalg.sym_inv_sqrtm1`. -/
noncomputable def upperVvd (Eu : Eigh n) (Ev : EigvalsL (n + n)) (d : RealDtype) (z1 z2 : CMat n) :
    Except PyErr (Fin n → ℝ) := do
  let x := asComplex (reM z1)
  let y := imM z1
  let invSqrtY := asComplex (symInvSqrtm1 Eu y)
  let z3 := invSqrtY * (z2 - x) * invSqrtY
  let w ← inverseCayleyTransform z3
  let evalues := takagiEigvals Ev w
  vvdOf d evalues

/-- `siegel.py:40-81` `dist` (inherited by `UpperHalf`), for one pair of points.  The argument
`keepdim` of `dist` is not used by the code. -/
noncomputable def upperDist (Eu : Eigh n) (Ev : EigvalsL (n + n)) (d : RealDtype) (μ : Metric)
    (z1 z2 : CMat n) : Except PyErr ℝ := do
  let vvd ← upperVvd Eu Ev d z1 z2
  μ.row vvd

/-- The shape of `dist(z1, z2, keepdim=keepdim)` (`siegel.py:80`: `compute_metric(vvd)` with its own
default) for points whose batch axes broadcast to `bs`. -/
def distShape (μ : Metric) (bs : List ℕ) (_keepdim : Bool) : List ℕ :=
  μ.outShape bs μ.keepdimDefault

/-- `bounded_domain.py:39-65` `dist`. -/
noncomputable def boundedDist (Eu : Eigh n) (Ev : EigvalsL (n + n)) (d : RealDtype) (μ : Metric)
    (z1 z2 : CMat n) : Except PyErr ℝ := do
  let w1 ← cayleyTransform z1
  let w2 ← cayleyTransform z2
  upperDist Eu Ev d μ w1 w2

/-- `siegel.py:109-110` `projx` of the base class. -/
noncomputable def baseProjx (x : CMat n) : CMat n := symC x

/-- `siegel.py:115-116` `transp`. -/
def transp (_x _y v : CMat n) : CMat n := v

/-! ## `upper_half.py` -/

/-- `upper_half.py:39-69` `egrad2rgrad`. -/
noncomputable def upperEgrad2rgrad (z u : CMat n) : CMat n :=
  let realGrad := reM u
  let imagGrad := imM u
  let y := imM z
  let realGrad := y * realGrad * y
  let imagGrad := y * imagGrad * y
  symC (toComplex realGrad imagGrad)

/-- `upper_half.py:71-94` `projx`. -/
noncomputable def upperProjx (d : RealDtype) (E : EighL n) (z : CMat n) : CMat n :=
  let z := baseProjx z
  let y := positiveConjugateProjection d E (imM z)
  toComplex (reM z) y

/-- `siegel.py:83-86` `retr` on the upper half space. -/
noncomputable def upperRetr (d : RealDtype) (E : EighL n) (x u : CMat n) : CMat n :=
  let approx := x + u
  upperProjx d E approx

/-- `siegel.py:112-113` `proju` on the upper half space. -/
noncomputable def upperProju (x u : CMat n) : CMat n := upperEgrad2rgrad x u

/-- `upper_half.py:96-129` `inner`: the result is complex.  `sm.inverse` raises for a singular
imaginary part. -/
noncomputable def upperInner (z u : CMat n) (v : Option (CMat n)) : Except PyErr ℂ := do
  let v := v.getD u
  let invY ← inverse (asComplex (imM z))
  let res := invY * u * invY * conjM v
  .ok (traceC res)

/-- `upper_half.py:131-141` `_check_point_on_manifold` (the boolean). -/
def upperCheckPoint (E : EigvalsL n) (z : CMat n) (atol rtol : ℝ) : Prop :=
  isComplexSymmetric z atol rtol ∧ ∀ i, E.e (imM z) i > 0

/-- `siegel.py:124-135` `_check_vector_on_tangent` (the boolean): `torch.allclose` on complex
numbers compares moduli. -/
def checkVector (u : CMat n) (atol rtol : ℝ) : Prop :=
  ∀ i j, Real.sqrt (Complex.normSq (u i j - u j i)) ≤
    atol + rtol * Real.sqrt (Complex.normSq (u j i))

/-- `upper_half.py:143-151` `random`, as a function of the draws of `torch.randn`. -/
noncomputable def upperRandom (draw : CMat n) : CMat n :=
  let tens := (0.5 : ℂ) • draw
  let tens := symC tens
  toComplex (reM tens) (NormedSpace.exp (imM tens))

/-- `upper_half.py:182`: the shape of `torch.eye(*size[:-1])`, which takes one or two sizes and
raises `TypeError` for any other number. -/
def upperOriginShape (size : List ℕ) : Except PyErr (List ℕ) :=
  match size.dropLast with
  | [a] => .ok [a, a]
  | [a, b] => .ok [a, b]
  | _ => .error .typeError

/-- `upper_half.py:153-185` `origin`: the entry at row `i`, column `j` of the result. -/
def upperOriginEntry (i j : ℕ) : ℂ := ⟨0, if i = j then 1 else 0⟩

/-! ## `bounded_domain.py` -/

/-- `bounded_domain.py:220-222` `get_id_minus_conjugate_z_times_z`. -/
def idMinusConjZZ (z : CMat n) : CMat n := identityLike z - conjM z * z

/-- `bounded_domain.py:67-92` `egrad2rgrad`. -/
noncomputable def boundedEgrad2rgrad (z u : CMat n) : CMat n :=
  let a := idMinusConjZZ z
  symC (a * u * a)

/-- `siegel.py:112-113` `proju` on the bounded domain. -/
noncomputable def boundedProju (x u : CMat n) : CMat n := boundedEgrad2rgrad x u

/-- `bounded_domain.py:94-129` `projx`. -/
noncomputable def boundedProjx (d : RealDtype) (E : EighL (n + n)) (z : CMat n) : CMat n :=
  let z := baseProjx z
  let evalues := (takagiEig E z).1
  let s := (takagiEig E z).2
  let eps := EPS d
  let evaluesTilde := fun j => min (evalues j) (1 - eps)
  let diagTilde := asComplex (diagonal evaluesTilde)
  let zTilde := conjM s * diagTilde * (conjM s)ᵀ
  open Classical in if ∀ j, evalues j < 1 - eps then z else zTilde

/-- `siegel.py:83-86` `retr` on the bounded domain. -/
noncomputable def boundedRetr (d : RealDtype) (E : EighL (n + n)) (x u : CMat n) : CMat n :=
  let approx := x + u
  boundedProjx d E approx

/-- `bounded_domain.py:131-168` `inner`: the result is complex. -/
noncomputable def boundedInner (z u : CMat n) (v : Option (CMat n)) : Except PyErr ℂ := do
  let v := v.getD u
  let identity := identityLike z
  let conjZ := conjM z
  let inv1 ← inverse (identity - conjZ * z)
  let inv2 ← inverse (identity - z * conjZ)
  let res := inv1 * u * inv2 * conjM v
  .ok (traceC res)

/-- `bounded_domain.py:170-178` `_check_point_on_manifold` (the boolean). -/
def boundedCheckPoint (E : EigvalsH n) (z : CMat n) (atol rtol : ℝ) : Prop :=
  isComplexSymmetric z atol rtol ∧ ∀ i, E.e (idMinusConjZZ z) i > 0

/-- `bounded_domain.py:180-182` `random`, as a function of the draws of `torch.randn`. -/
noncomputable def boundedRandom (draw : CMat n) : Except PyErr (CMat n) :=
  inverseCayleyTransform (upperRandom draw)

/-- `bounded_domain.py:184-217` `origin`: `torch.zeros(*size)`; the shape is `size`. -/
def boundedOrigin (n : ℕ) : CMat n := 0

end Geoopt.Siegel
