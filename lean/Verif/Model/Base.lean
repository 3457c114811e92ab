import Verif.Model.Shapes
import Mathlib.Data.Real.Basic

/-!
# `geoopt/manifolds/base.py`: the checks, and `origin`

`T` is the type of tensors.  A check returns a verdict and a reason, or raises.
-/

namespace Geoopt.Base

/-- What the private checks return. -/
abbrev Verdict := Except PyErr (Bool × Option String)

/-- The parts of a manifold that the public checks use: the shape of a tensor, `_check_shape(shape,
name)`, `_check_point_on_manifold(x, atol, rtol)` and `_check_vector_on_tangent(x, u, atol, rtol)`. -/
structure Checks (T : Type) where
  shape : T → List ℕ
  checkShape : List ℕ → String → Verdict
  checkPoint : T → ℝ → ℝ → Verdict
  checkTangent : T → T → ℝ → ℝ → Verdict

variable {T : Type} (M : Checks T)

/-- `check_point(x, explain=True)`, `geoopt/manifolds/base.py:139-163`. -/
def checkPointExplain (x : T) : Verdict := do
  let (ok, reason) ← M.checkShape (M.shape x) "x"
  return (ok, reason)

/-- `check_point(x)`, `geoopt/manifolds/base.py:139-165`. -/
def checkPoint (x : T) : Except PyErr Bool := do
  let (ok, _) ← M.checkShape (M.shape x) "x"
  return ok

/-- `assert_check_point(x)`, `geoopt/manifolds/base.py:167-186`. -/
def assertCheckPoint (x : T) : Except PyErr Unit := do
  let (ok, _) ← M.checkShape (M.shape x) "x"
  if !ok then throw .valueError

/-- `check_vector(u, explain=True)`, `geoopt/manifolds/base.py:188-210`. -/
def checkVectorExplain (u : T) : Verdict := do
  let (ok, reason) ← M.checkShape (M.shape u) "u"
  return (ok, reason)

/-- `check_vector(u)`, `geoopt/manifolds/base.py:188-212`. -/
def checkVector (u : T) : Except PyErr Bool := do
  let (ok, _) ← M.checkShape (M.shape u) "u"
  return ok

/-- `assert_check_vector(u)`, `geoopt/manifolds/base.py:214-233`. -/
def assertCheckVector (u : T) : Except PyErr Unit := do
  let (ok, _) ← M.checkShape (M.shape u) "u"
  if !ok then throw .valueError

/-- `check_point_on_manifold(x, explain=True)`, `geoopt/manifolds/base.py:235-265`. -/
def checkPointOnManifoldExplain (x : T) (atol rtol : ℝ) : Verdict := do
  let (ok, reason) ← M.checkShape (M.shape x) "x"
  if ok then
    let (ok, reason) ← M.checkPoint x atol rtol
    return (ok, reason)
  else return (ok, reason)

/-- `check_point_on_manifold(x)`, `geoopt/manifolds/base.py:235-267`. -/
def checkPointOnManifold (x : T) (atol rtol : ℝ) : Except PyErr Bool := do
  let (ok, _) ← M.checkShape (M.shape x) "x"
  if ok then
    let (ok, _) ← M.checkPoint x atol rtol
    return ok
  else return ok

/-- `assert_check_point_on_manifold(x)`, `geoopt/manifolds/base.py:269-288`. -/
def assertCheckPointOnManifold (x : T) (atol rtol : ℝ) : Except PyErr Unit := do
  assertCheckPoint M x
  let (ok, _) ← M.checkPoint x atol rtol
  if !ok then throw .valueError

/-- The verdict computed by `check_vector_on_tangent` and by its assertion,
`geoopt/manifolds/base.py:323-333` and `358-368` (the same code twice). -/
def tangentVerdict (x u : T) (okPoint : Bool) (atol rtol : ℝ) : Verdict := do
  let (ok, reason) ←
    if !okPoint then do
      let (ok, reason) ← M.checkShape (M.shape x) "x"
      let (ok, reason) ← if ok then M.checkShape (M.shape u) "u" else pure (ok, reason)
      if ok then M.checkPoint x atol rtol else pure (ok, reason)
    else pure (true, none)
  if ok then M.checkTangent x u atol rtol else pure (ok, reason)

/-- `check_vector_on_tangent(x, u, ok_point, explain=True)`, `geoopt/manifolds/base.py:290-335`. -/
def checkVectorOnTangentExplain (x u : T) (okPoint : Bool) (atol rtol : ℝ) : Verdict := do
  let (ok, reason) ← tangentVerdict M x u okPoint atol rtol
  return (ok, reason)

/-- `check_vector_on_tangent(x, u, ok_point)`, `geoopt/manifolds/base.py:290-337`. -/
def checkVectorOnTangent (x u : T) (okPoint : Bool) (atol rtol : ℝ) : Except PyErr Bool := do
  let (ok, _) ← tangentVerdict M x u okPoint atol rtol
  return ok

/-- `assert_check_vector_on_tangent(x, u, ok_point)`, `geoopt/manifolds/base.py:339-375`. -/
def assertCheckVectorOnTangent (x u : T) (okPoint : Bool) (atol rtol : ℝ) : Except PyErr Unit := do
  let (ok, _) ← tangentVerdict M x u okPoint atol rtol
  if !ok then throw .valueError

/-! ### The shape checks of the classes -/

/-- `shape[-i]` of a tuple, `IndexError` if it is too short (`i ≥ 1`). -/
def fromEnd (s : List ℕ) (i : ℕ) : Except PyErr ℕ :=
  match s.reverse[i - 1]? with
  | some d => .ok d
  | none => .error .indexError

/-- `Manifold._check_shape`, `geoopt/manifolds/base.py:738-768`; inherited by Euclidean,
Stereographic, Lorentz, SPD and the Siegel manifolds. -/
def baseCheckShape (ndim : ℕ) (s : List ℕ) (_name : String) : Verdict :=
  if ndim ≤ s.length then .ok (true, none) else .ok (false, some "requires more dims")

/-- `Sphere._check_shape`, `geoopt/manifolds/sphere.py:67-89`; `projector` is the shape of the
projector of the subspace, if there is one. -/
def sphereCheckShape (projector : Option (List ℕ)) (s : List ℕ) (name : String) : Verdict := do
  let (ok, reason) ← baseCheckShape 1 s name
  match ok, projector with
  | true, some p =>
    let ok := decide (s.length < p.length - 1)
    let reason := if !ok then some "should have at least n dimensions" else reason
    let ok := decide ((← fromEnd s 1) = (← fromEnd p 2))
    let reason := if !ok then some "The [-2] shape of `span` does not match" else reason
    return (ok, reason)
  | true, none =>
    let ok := decide ((← fromEnd s 1) ≠ 1)
    let reason := if !ok then some "Manifold only consists of isolated points" else reason
    return (ok, reason)
  | false, _ => return (false, reason)

/-- `Stiefel._check_shape`, `geoopt/manifolds/stiefel.py:49-63`. -/
def stiefelCheckShape (s : List ℕ) (name : String) : Verdict := do
  let (ok, reason) ← baseCheckShape 2 s name
  if !ok then return (false, reason)
  else if ¬ (← fromEnd s 1) ≤ (← fromEnd s 2) then
    return (false, some "should have shape[-1] <= shape[-2]")
  else return (true, none)

/-- `BirkhoffPolytope._check_shape`, `geoopt/manifolds/birkhoff_polytope.py:57-72`. -/
def birkhoffCheckShape (s : List ℕ) (name : String) : Verdict := do
  let (ok, reason) ← baseCheckShape 2 s name
  if !ok then return (false, reason)
  else if ¬ (← fromEnd s 1) = (← fromEnd s 2) then
    return (false, some "should have shape[-1] == shape[-2]")
  else return (true, none)

/-- `ProductManifold._check_shape`, `geoopt/manifolds/product.py:112-121`. -/
def productCheckShape (nElements : ℕ) (s : List ℕ) (_name : String) : Verdict := do
  let ok := decide ((← fromEnd s 1) = nElements)
  if !ok then return (ok, some "The last dimension should be equal to n_elements")
  else return (ok, none)

/-! ### `origin` and the random number generators -/

/-- The global random state: the CPU generator and the generators of the accelerator. -/
structure World (G H : Type) where
  cpu : G
  cuda : H

/-- A computation that may draw random numbers and may raise. -/
abbrev Rand (G H α : Type) := World G H → Except PyErr α × World G H

/-- `torch.random.manual_seed(seed)`: seeds the CPU generator and all accelerator generators. -/
def manualSeed {G H : Type} (seedG : ℕ → G) (seedH : ℕ → H) (s : ℕ) (_w : World G H) : World G H :=
  ⟨seedG s, seedH s⟩

/-- `torch.random.get_rng_state()`: the state of the CPU generator. -/
def getRngState {G H : Type} (w : World G H) : G := w.cpu

/-- `torch.random.set_rng_state(state)`: sets the CPU generator. -/
def setRngState {G H : Type} (g : G) (w : World G H) : World G H := { w with cpu := g }

/-- Python `try: return body finally: fin`. -/
def pyTryFinally {G H α : Type} (body : Rand G H α) (fin : World G H → World G H) : Rand G H α :=
  fun w =>
    match body w with
    | (.ok a, w') => (.ok a, fin w')
    | (.error e, w') => (.error e, fin w')

/-- `Manifold.origin(*size, seed)`, `geoopt/manifolds/base.py:913-952`; `random` is
`self.random(*size, dtype, device)`.  Used by Sphere and BoundedDomain; the other manifolds
override it with a constant. -/
def origin {G H α : Type} (seedG : ℕ → G) (seedH : ℕ → H) (random : Rand G H α)
    (seed : Option ℕ) : Rand G H α :=
  match seed with
  | some s => fun w =>
    let state := getRngState w
    let w := manualSeed seedG seedH s w
    pyTryFinally random (setRngState state) w
  | none => random

end Geoopt.Base
