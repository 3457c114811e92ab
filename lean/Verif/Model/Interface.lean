import Verif.Model.Scaled

/-!
# The signatures of the manifold interface

`geoopt/manifolds/base.py` declares the operations every manifold has; the classes override them.  Here are
the signatures (without `self`) and how Python binds the arguments of a call to them (`Scaled.Method.bind`).
Only signatures are listed; the bodies are modelled elsewhere.

Not listed: `random` (its keyword arguments depend on the class), properties, private methods, and `Scaled`,
which forwards calls (`Model/Scaled.lean`).
-/

namespace Geoopt.Interface
open Geoopt.Scaled

variable {E : Type}

/-- A signature: positional parameters, keyword-only parameters, defaults, whether there is `*args`.  None of
the operations has `**kwargs`.  The body is irrelevant. -/
def sg (params kwonly : List String) (defaults : List (String × Val E)) (varPos : Bool) : Method E :=
  ⟨params, kwonly, defaults, varPos, false, fun _ => .error .notImplementedError⟩

/-- The operations of the interface, `geoopt/manifolds/base.py:136-1011`. -/
inductive Op
  | checkPoint
  | assertCheckPoint
  | checkVector
  | assertCheckVector
  | checkPointOnManifold
  | assertCheckPointOnManifold
  | checkVectorOnTangent
  | assertCheckVectorOnTangent
  | dist
  | dist2
  | retr
  | expmap
  | logmap
  | expmapTransp
  | retrTransp
  | transpFollowRetr
  | transpFollowExpmap
  | transp
  | inner
  | componentInner
  | norm
  | proju
  | egrad2rgrad
  | projx
  | unpackTensor
  | packPoint
  | origin

/-- The signatures of the base class `Manifold`. -/
def baseSig : Op → Method E
  -- base.py:139
  | .checkPoint => sg ["x"] ["explain"] [("explain", pyFalse)] false
  -- base.py:167
  | .assertCheckPoint => sg ["x"] [] [] false
  -- base.py:188
  | .checkVector => sg ["u"] ["explain"] [("explain", pyFalse)] false
  -- base.py:214
  | .assertCheckVector => sg ["u"] [] [] false
  -- base.py:235
  | .checkPointOnManifold =>
      sg ["x"] ["explain", "atol", "rtol"] [("explain", pyFalse), ("atol", .num 1e-5), ("rtol",
        .num 1e-5)] false
  -- base.py:269
  | .assertCheckPointOnManifold =>
      sg ["x"] ["atol", "rtol"] [("atol", .num 1e-5), ("rtol", .num 1e-5)] false
  -- base.py:290
  | .checkVectorOnTangent =>
      sg ["x", "u"] ["ok_point", "explain", "atol", "rtol"] [("ok_point", pyFalse), ("explain", pyFalse),
        ("atol", .num 1e-5), ("rtol", .num 1e-5)] false
  -- base.py:339
  | .assertCheckVectorOnTangent =>
      sg ["x", "u"] ["ok_point", "atol", "rtol"] [("ok_point", pyFalse), ("atol", .num 1e-5), ("rtol",
        .num 1e-5)] false
  -- base.py:378
  | .dist => sg ["x", "y"] ["keepdim"] [("keepdim", pyFalse)] false
  -- base.py:399
  | .dist2 => sg ["x", "y"] ["keepdim"] [("keepdim", pyFalse)] false
  -- base.py:421
  | .retr => sg ["x", "u"] [] [] false
  -- base.py:441
  | .expmap => sg ["x", "u"] [] [] false
  -- base.py:460
  | .logmap => sg ["x", "y"] [] [] false
  -- base.py:479
  | .expmapTransp => sg ["x", "u", "v"] [] [] false
  -- base.py:504
  | .retrTransp => sg ["x", "u", "v"] [] [] false
  -- base.py:533
  | .transpFollowRetr => sg ["x", "u", "v"] [] [] false
  -- base.py:559
  | .transpFollowExpmap => sg ["x", "u", "v"] [] [] false
  -- base.py:586
  | .transp => sg ["x", "y", "v"] [] [] false
  -- base.py:607
  | .inner => sg ["x", "u", "v"] ["keepdim"] [("v", pyNone), ("keepdim", pyFalse)] false
  -- base.py:631
  | .componentInner => sg ["x", "u", "v"] [] [("v", pyNone)] false
  -- base.py:663
  | .norm => sg ["x", "u"] ["keepdim"] [("keepdim", pyFalse)] false
  -- base.py:684
  | .proju => sg ["x", "u"] [] [] false
  -- base.py:703
  | .egrad2rgrad => sg ["x", "u"] [] [] false
  -- base.py:722
  | .projx => sg ["x"] [] [] false
  -- base.py:866
  | .unpackTensor => sg ["tensor"] [] [] false
  -- base.py:885
  | .packPoint => sg [] [] [] true
  -- base.py:913
  | .origin =>
      sg [] ["dtype", "device", "seed"] [("dtype", pyNone), ("device", pyNone), ("seed", .num 42)] true

/-- The concrete manifold classes. -/
inductive Cls
  | birkhoff
  | euclidean
  | lorentz
  | productManifold
  | stereographicProductManifold
  | boundedDomain
  | upperHalf
  | sphere
  | sphereExact
  | stereographic
  | stereographicExact
  | poincareBall
  | poincareBallExact
  | sphereProjection
  | sphereProjectionExact
  | canonicalStiefel
  | euclideanStiefel
  | euclideanStiefelExact
  | symmetricPositiveDefinite

/-- `class Lorentz`, `geoopt/manifolds/lorentz/__init__.py`. -/
def lorentzSig : Op → Option (Method E)
  -- lorentz/__init__.py:70
  | .dist => some (sg ["x", "y"] ["keepdim", "dim"] [("keepdim", pyFalse), ("dim", .num (-1))] false)
  -- lorentz/__init__.py:92
  | .retr =>
      some (sg ["x", "u"] ["norm_tan", "project", "dim"] [("norm_tan", pyTrue), ("project", pyTrue),
        ("dim", .num (-1))] false)
  -- lorentz/__init__.py:92
  | .expmap =>
      some (sg ["x", "u"] ["norm_tan", "project", "dim"] [("norm_tan", pyTrue), ("project", pyTrue),
        ("dim", .num (-1))] false)
  -- lorentz/__init__.py:111
  | .logmap => some (sg ["x", "y"] ["dim"] [("dim", .num (-1))] false)
  -- lorentz/__init__.py:158
  | .transpFollowExpmap =>
      some (sg ["x", "u", "v"] ["dim", "project"] [("dim", .num (-1)), ("project", pyTrue)] false)
  -- lorentz/__init__.py:147
  | .transp => some (sg ["x", "y", "v"] ["dim"] [("dim", .num (-1))] false)
  -- lorentz/__init__.py:121
  | .inner =>
      some (sg ["x", "u", "v"] ["keepdim", "dim"] [("v", pyNone), ("keepdim", pyFalse), ("dim",
        .num (-1))] false)
  -- lorentz/__init__.py:79
  | .norm => some (sg ["u"] ["keepdim", "dim"] [("keepdim", pyFalse), ("dim", .num (-1))] false)
  -- lorentz/__init__.py:88
  | .proju => some (sg ["x", "v"] ["dim"] [("dim", .num (-1))] false)
  -- lorentz/__init__.py:144
  | .egrad2rgrad => some (sg ["x", "u"] ["dim"] [("dim", .num (-1))] false)
  -- lorentz/__init__.py:85
  | .projx => some (sg ["x"] ["dim"] [("dim", .num (-1))] false)
  | _ => none

/-- `class BoundedDomain`, `geoopt/manifolds/siegel/bounded_domain.py`. -/
def boundedDomainSig : Op → Option (Method E)
  -- siegel/bounded_domain.py:39
  | .dist => some (sg ["z1", "z2"] ["keepdim"] [("keepdim", pyFalse)] false)
  -- siegel/bounded_domain.py:131
  | .inner => some (sg ["z", "u", "v"] ["keepdim"] [("v", pyNone), ("keepdim", pyFalse)] false)
  -- siegel/bounded_domain.py:67
  | .egrad2rgrad => some (sg ["z", "u"] [] [] false)
  -- siegel/bounded_domain.py:94
  | .projx => some (sg ["z"] [] [] false)
  | _ => none

/-- `class UpperHalf`, `geoopt/manifolds/siegel/upper_half.py`. -/
def upperHalfSig : Op → Option (Method E)
  -- siegel/siegel.py:40
  | .dist => some (sg ["z1", "z2"] ["keepdim"] [("keepdim", pyFalse)] false)
  -- siegel/upper_half.py:96
  | .inner => some (sg ["z", "u", "v"] ["keepdim"] [("v", pyNone), ("keepdim", pyFalse)] false)
  -- siegel/upper_half.py:39
  | .egrad2rgrad => some (sg ["z", "u"] [] [] false)
  -- siegel/upper_half.py:71
  | .projx => some (sg ["z"] [] [] false)
  | _ => none

/-- `class Stereographic`, `geoopt/manifolds/stereographic/manifold.py`. -/
def stereographicSig : Op → Option (Method E)
  -- stereographic/manifold.py:139
  | .dist => some (sg ["x", "y"] ["keepdim", "dim"] [("keepdim", pyFalse), ("dim", .num (-1))] false)
  -- stereographic/manifold.py:144
  | .dist2 => some (sg ["x", "y"] ["keepdim", "dim"] [("keepdim", pyFalse), ("dim", .num (-1))] false)
  -- stereographic/manifold.py:152
  | .retr => some (sg ["x", "u"] ["dim"] [("dim", .num (-1))] false)
  -- stereographic/manifold.py:182
  | .expmap => some (sg ["x", "u"] ["project", "dim"] [("project", pyTrue), ("dim", .num (-1))] false)
  -- stereographic/manifold.py:191
  | .logmap => some (sg ["x", "y"] ["dim"] [("dim", .num (-1))] false)
  -- stereographic/manifold.py:215
  | .expmapTransp =>
      some (sg ["x", "u", "v"] ["dim", "project"] [("dim", .num (-1)), ("project", pyTrue)] false)
  -- stereographic/manifold.py:228
  | .retrTransp => some (sg ["x", "u", "v"] ["dim"] [("dim", .num (-1))] false)
  -- stereographic/manifold.py:197
  | .transpFollowRetr => some (sg ["x", "u", "v"] ["dim"] [("dim", .num (-1))] false)
  -- stereographic/manifold.py:203
  | .transpFollowExpmap =>
      some (sg ["x", "u", "v"] ["dim", "project"] [("dim", .num (-1)), ("project", pyTrue)] false)
  -- stereographic/manifold.py:194
  | .transp => some (sg ["x", "y", "v"] ["dim"] [("dim", .num (-1))] false)
  -- stereographic/manifold.py:164
  | .inner =>
      some (sg ["x", "u", "v"] ["keepdim", "dim"] [("v", pyNone), ("keepdim", pyFalse), ("dim",
        .num (-1))] false)
  -- stereographic/manifold.py:177
  | .norm => some (sg ["x", "u"] ["keepdim", "dim"] [("keepdim", pyFalse), ("dim", .num (-1))] false)
  -- stereographic/manifold.py:160
  | .proju => some (sg ["x", "u"] ["dim"] [("dim", .num (-1))] false)
  -- stereographic/manifold.py:149
  | .egrad2rgrad => some (sg ["x", "u"] ["dim"] [("dim", .num (-1))] false)
  -- stereographic/manifold.py:157
  | .projx => some (sg ["x"] ["dim"] [("dim", .num (-1))] false)
  | _ => none

/-- `class StereographicExact`, `geoopt/manifolds/stereographic/manifold.py:560-582`: three methods are
replaced. -/
def stereographicExactSig : Op → Option (Method E)
  | .retr => stereographicSig .expmap
  | .retrTransp => stereographicSig .expmapTransp
  | .transpFollowRetr => stereographicSig .transpFollowExpmap
  | op => stereographicSig op

/-- `class SymmetricPositiveDefinite`, `geoopt/manifolds/symmetric_positive_definite.py`. -/
def spdSig : Op → Option (Method E)
  -- symmetric_positive_definite.py:171
  | .dist => some (sg ["x", "y", "keepdim"] [] [("keepdim", pyFalse)] false)
  -- symmetric_positive_definite.py:247
  | .logmap => some (sg ["x", "u"] [] [] false)
  -- symmetric_positive_definite.py:200
  | .inner => some (sg ["x", "u", "v", "keepdim"] [] [("v", pyNone), ("keepdim", pyFalse)] false)
  | _ => none

/-- Where a class has a signature of its own (or inherits one), that signature.  The other classes override
methods without changing signatures. -/
def override : Cls → Op → Option (Method E)
  | .lorentz => lorentzSig
  | .boundedDomain => boundedDomainSig
  | .upperHalf => upperHalfSig
  | .stereographic => stereographicSig
  | .poincareBall => stereographicSig
  | .sphereProjection => stereographicSig
  | .stereographicExact => stereographicExactSig
  | .poincareBallExact => stereographicExactSig
  | .sphereProjectionExact => stereographicExactSig
  | .symmetricPositiveDefinite => spdSig
  | _ => fun _ => none

/-- The signature with which a class implements an operation. -/
def sigOf (c : Cls) (op : Op) : Method E := (override c op).getD (baseSig op)

/-- The attribute `reversible`: `base.py:101` (unset), `birkhoff_polytope.py:48`, `euclidean.py:25`,
`lorentz/__init__.py:33`, `siegel/siegel.py:32`, `sphere.py:42` (inherited by `SphereExact`),
`stereographic/manifold.py:108` and `576` (the exact classes), `stiefel.py:150` and `224` (inherited by
`EuclideanStiefelExact`), `symmetric_positive_definite.py:46`.  For `ProductManifold` it is computed from the
components (`Model/Product.lean`); here `none`. -/
def reversibleAttr : Cls → Option Bool
  | .birkhoff => some false
  | .euclidean => some true
  | .lorentz => some false
  | .productManifold => none
  | .stereographicProductManifold => none
  | .boundedDomain => some false
  | .upperHalf => some false
  | .sphere => some false
  | .sphereExact => some false
  | .stereographic => some false
  | .stereographicExact => some true
  | .poincareBall => some false
  | .poincareBallExact => some true
  | .sphereProjection => some false
  | .sphereProjectionExact => some true
  | .canonicalStiefel => some true
  | .euclideanStiefel => some false
  | .euclideanStiefelExact => some false
  | .symmetricPositiveDefinite => some false

end Geoopt.Interface
