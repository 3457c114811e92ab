import Verif.Model.Shapes
import Mathlib.Data.Real.Basic
import Mathlib.Algebra.Module.Basic
import Mathlib.Analysis.SpecialFunctions.Exp
import Mathlib.Analysis.SpecialFunctions.Log.Basic

/-!
# `geoopt/manifolds/scaled.py`: the `Scaled` wrapper, and the `__scaling__` tables

A manifold object is either an instance of an ordinary class (a table of methods and its
`__scaling__` dictionary) or a `Scaled` object around another manifold.  Attribute lookup, the
binding of arguments and the rescaling of arguments and results follow the Python code.
`E` is the space of tensors.

Not modelled: the tensor broadcasting inside `value * scale ** power` (the scale is one real
number), autograd, devices, `__repr__`, `__dir__`.
-/

namespace Geoopt.Scaled

/-- A Python value handed to or returned by a manifold method: a number, a tensor, or something
that cannot be multiplied by a number (`None`, a `dtype`, a callable; booleans are listed here
too, no rescaled argument is one). -/
inductive Val (E : Type)
  | num (r : ℝ)
  | vec (v : E)
  | other (n : ℕ)

/-- What a method returns: one value or a tuple. -/
inductive Res (E : Type)
  | one (v : Val E)
  | tup (l : List (Val E))

/-- `ScalingInfo`, `geoopt/manifolds/base.py:9-31`: `NotCompatible`, or the powers for keyword
arguments and for the results. -/
inductive Rule
  | notCompatible
  | info (results : List ℤ) (kwargs : List (String × ℤ))

/-- The result of `inspect.Signature.bind(...)` followed by `apply_defaults()`: the named
arguments, the surplus positional ones (`*size`) and the surplus keyword ones (`**kwargs`). -/
structure Bound (E : Type) where
  named : List (String × Val E)
  varargs : List (Val E)
  extra : List (String × Val E)

/-- A Python function with its signature (without `self`). -/
structure Method (E : Type) where
  /-- positional-or-keyword parameters -/
  params : List String
  /-- keyword-only parameters -/
  kwonly : List String
  /-- default values -/
  defaults : List (String × Val E)
  varPos : Bool
  varKw : Bool
  /-- the body, on bound arguments -/
  run : Bound E → Except PyErr (Res E)

variable {E : Type}

/-- `signature.bind(...)` + `apply_defaults()`: Python's rules for one parameter. -/
def bindOne (m : Method E) (byPos : List (String × Val E)) (kw : List (String × Val E))
    (p : String) : Except PyErr (String × Val E) :=
  match byPos.lookup p, kw.lookup p, m.defaults.lookup p with
  | some _, some _, _ => .error .typeError
  | some v, none, _ => .ok (p, v)
  | none, some v, _ => .ok (p, v)
  | none, none, some v => .ok (p, v)
  | none, none, none => .error .typeError

/-- `signature.bind(self, *pos, **kw)` and `apply_defaults()`. -/
def Method.bind (m : Method E) (pos : List (Val E)) (kw : List (String × Val E)) :
    Except PyErr (Bound E) :=
  if m.params.length < pos.length ∧ m.varPos = false then .error .typeError
  else
    let byPos := m.params.zip pos
    let names := m.params ++ m.kwonly
    let extra := kw.filter fun q => !names.contains q.1
    if extra ≠ [] ∧ m.varKw = false then .error .typeError
    else
      match names.mapM (bindOne m byPos kw) with
      | .error e => .error e
      | .ok named => .ok ⟨named, pos.drop m.params.length, extra⟩

/-- Calling a method. -/
def Method.call (m : Method E) (pos : List (Val E)) (kw : List (String × Val E)) :
    Except PyErr (Res E) :=
  match m.bind pos kw with
  | .error e => .error e
  | .ok b => m.run b

variable [AddCommGroup E] [Module ℝ E]

/-- `geoopt/manifolds/scaled.py:13-14` `rescale_value(value, scaling, power)`. -/
noncomputable def rescaleValue (v : Val E) (scaling : ℝ) (power : ℤ) : Except PyErr (Val E) :=
  if power = 0 then .ok v
  else match v with
    | .num r => .ok (.num (r * scaling ^ power))
    | .vec x => .ok (.vec (scaling ^ power • x))
    | .other _ => .error .typeError

/-- The effect of the loop over `scaling_info.kwargs` on one argument. -/
noncomputable def rescaleArg (kwargs : List (String × ℤ)) (s : ℝ) (q : String × Val E) :
    Except PyErr (String × Val E) :=
  match kwargs.lookup q.1 with
  | none => .ok q
  | some p => (rescaleValue q.2 s p).map fun v => (q.1, v)

/-- The loop over `scaling_info.kwargs`, `geoopt/manifolds/scaled.py:33-34`; a missing name
raises `KeyError`.  (The keys of a dictionary are distinct, so one pass over the arguments is the
same as one pass over the powers.) -/
noncomputable def rescaleArgs (kwargs : List (String × ℤ)) (s : ℝ) (named : List (String × Val E)) :
    Except PyErr (List (String × Val E)) :=
  if kwargs.all fun q => (named.map Prod.fst).contains q.1 then
    named.mapM (rescaleArg kwargs s)
  else .error .keyError

/-- `itertools.zip_longest(results, powers, fillvalue=0)` and `rescale_value`,
`geoopt/manifolds/scaled.py:43-46`. -/
noncomputable def rescaleList (s : ℝ) : List (Val E) → List ℤ → Except PyErr (List (Val E))
  | [], [] => .ok []
  | v :: vs, [] => do return (← rescaleValue v s 0) :: (← rescaleList s vs [])
  | [], p :: ps => do return (← rescaleValue (.num 0) s p) :: (← rescaleList s [] ps)
  | v :: vs, p :: ps => do return (← rescaleValue v s p) :: (← rescaleList s vs ps)

/-- `geoopt/manifolds/scaled.py:37-51`: rescaling of the results. -/
noncomputable def rescaleRes (s : ℝ) (powers : List ℤ) (r : Res E) : Except PyErr (Res E) :=
  if powers = [] then .ok r
  else match r with
    | .one v =>
      match rescaleList s [v] powers with
      | .error e => .error e
      | .ok [] => .error .indexError
      | .ok (w :: _) => .ok (.one w)
    | .tup l => (rescaleList s l powers).map .tup

/-- `geoopt/manifolds/scaled.py:17-54` `rescale(function, scaling_info)`, bound to an object whose
scale is `s`.  The wrapped function keeps the signature of the original (`functools.wraps`). -/
noncomputable def rescale (m : Method E) (rule : Rule) (s : ℝ) : Method E :=
  match rule with
  | .notCompatible =>
    { params := [], kwonly := [], defaults := [], varPos := true, varKw := true,
      run := fun _ => .error .notImplementedError }
  | .info results kwargs =>
    { m with
      run := fun b =>
        match rescaleArgs kwargs s b.named with
        | .error e => .error e
        | .ok named =>
          match m.run { b with named := named } with
          | .error e => .error e
          | .ok r => rescaleRes s results r }

/-- An ordinary manifold class: its public methods (own and inherited), the `__scaling__`
dictionary, `reversible` and `ndim`. -/
structure Cls (E : Type) where
  methods : String → Option (Method E)
  scaling : List (String × Rule)
  reversible : Bool
  ndim : ℕ
  /-- identity of the class, for `isinstance` -/
  clsId : ℕ

/-- A manifold object. -/
inductive Man (E : Type)
  | base (c : Cls E)
  | scaled (b : Man E) (scale : ℝ)

/-- The `__scaling__` attribute; `Scaled` forwards it, `geoopt/manifolds/scaled.py:115`. -/
def Man.scaling : Man E → List (String × Rule)
  | .base c => c.scaling
  | .scaled b _ => b.scaling

/-- The `reversible` attribute; `Scaled` forwards it, `geoopt/manifolds/scaled.py:112`. -/
def Man.reversible : Man E → Bool
  | .base c => c.reversible
  | .scaled b _ => b.reversible

/-- The `ndim` attribute; `Scaled` forwards it, `geoopt/manifolds/scaled.py:113`. -/
def Man.ndim : Man E → ℕ
  | .base c => c.ndim
  | .scaled b _ => b.ndim

/-- The value of a bound argument. -/
def Bound.get (b : Bound E) (k : String) : List (Val E) := (b.named.lookup k).toList

/-- `None` and `False`/`True` as opaque values. -/
def pyNone : Val E := .other 0
def pyFalse : Val E := .other 1
def pyTrue : Val E := .other 2

/-- A signature `(params, *size, kwonly, **kwargs)` of a forwarding method. -/
structure Sig (E : Type) where
  params : List String
  kwonly : List String
  defaults : List (String × Val E)
  varPos : Bool

/-- A forwarding method `def f(self, params, *, kwonly, **kwargs): return self.base.f(params,
kwonly=kwonly, **kwargs)`. -/
def forwarder (g : Sig E) (target : Except PyErr (Method E)) : Method E :=
  { params := g.params, kwonly := g.kwonly, defaults := g.defaults, varPos := g.varPos,
    varKw := true,
    run := fun b =>
      match target with
      | .error e => .error e
      | .ok m => m.call (g.params.flatMap b.get ++ b.varargs)
          (b.named.filter (fun q => g.kwonly.contains q.1) ++ b.extra) }

/-- The methods that `Scaled` forwards explicitly, with their signatures,
`geoopt/manifolds/scaled.py:166-198`. -/
def forwardSig (name : String) : Option (Sig E) :=
  if name = "inner" then
    some ⟨["x", "u", "v"], ["keepdim"], [("v", pyNone), ("keepdim", pyFalse)], false⟩
  else if name = "norm" then some ⟨["x", "u"], ["keepdim"], [("keepdim", pyFalse)], false⟩
  else if name = "proju" then some ⟨["x", "u"], [], [], false⟩
  else if name = "projx" then some ⟨["x"], [], [], false⟩
  else if name = "egrad2rgrad" then some ⟨["x", "u"], [], [], false⟩
  else if name = "transp" then some ⟨["x", "y", "v"], [], [], false⟩
  else if name = "random" then
    some ⟨[], ["dtype", "device"], [("dtype", pyNone), ("device", pyNone)], true⟩
  else none

/-- The methods of `Manifold` that `Scaled` neither rescales nor forwards, so that Python finds
the default implementation in the class `Manifold`, with `self` the `Scaled` object:
`component_inner` (`geoopt/manifolds/base.py:631-661`), `unpack_tensor` (`:866-883`), `pack_point`
(`:885-902`), `origin` (`:913-952`; only the call of `self.random` is modelled here, the seeding
is in `Verif/Model/Base.lean`).  `inner` and `random` are the methods found on the `Scaled`
object. -/
def manifoldDefault (name : String) (inner random : Except PyErr (Method E)) :
    Option (Method E) :=
  if name = "component_inner" then
    some { params := ["x", "u", "v"], kwonly := [], defaults := [("v", pyNone)], varPos := false,
           varKw := false,
           run := fun b =>
             match inner with
             | .error e => .error e
             | .ok m => m.call (b.get "x" ++ b.get "u" ++ b.get "v") [("keepdim", pyTrue)] }
  else if name = "unpack_tensor" then
    some { params := ["tensor"], kwonly := [], defaults := [], varPos := false, varKw := false,
           run := fun b =>
             match b.named.lookup "tensor" with
             | some v => .ok (.one v)
             | none => .error .typeError }
  else if name = "pack_point" then
    some { params := [], kwonly := [], defaults := [], varPos := true, varKw := false,
           run := fun b =>
             match b.varargs with
             | [v] => .ok (.one v)
             | _ => .error .valueError }
  else if name = "origin" then
    some { params := [], kwonly := ["dtype", "device", "seed"],
           defaults := [("dtype", pyNone), ("device", pyNone), ("seed", .num 42)],
           varPos := true, varKw := false,
           run := fun b =>
             match random with
             | .error e => .error e
             | .ok m => m.call b.varargs
                 (b.named.filter fun q => ["dtype", "device"].contains q.1) }
  else none

/-- Attribute lookup for the methods that do not depend on other methods of the same `Scaled`
object: rescaled ones are instance attributes set in `__init__` (`geoopt/manifolds/scaled.py:90-95`)
and shadow everything else, then the forwarders of the class, then `__getattr__`
(`geoopt/manifolds/scaled.py:121-132`), which asks the base. -/
noncomputable def Man.getattr' : Man E → String → Except PyErr (Method E)
  | .base c, name =>
    match c.methods name with
    | some m => .ok m
    | none => .error .attributeError
  | .scaled b s, name =>
    match b.scaling.lookup name with
    | some rule =>
      match b.getattr' name with
      | .error e => .error e
      | .ok m => .ok (rescale m rule s)
    | none =>
      match forwardSig name with
      | some g => .ok (forwarder g (b.getattr' name))
      | none => b.getattr' name

/-- Attribute lookup `manifold.name`. -/
noncomputable def Man.getattr (m : Man E) (name : String) : Except PyErr (Method E) :=
  match m with
  | .base _ => m.getattr' name
  | .scaled b _ =>
    match b.scaling.lookup name, manifoldDefault name (m.getattr' "inner") (m.getattr' "random") with
    | none, some d => .ok d
    | _, _ => m.getattr' name

/-- `manifold.name(*pos, **kw)`. -/
noncomputable def Man.call (m : Man E) (name : String) (pos : List (Val E))
    (kw : List (String × Val E)) : Except PyErr (Res E) :=
  match m.getattr name with
  | .error e => .error e
  | .ok f => f.call pos kw

/-- `Scaled(manifold, scale)`, `geoopt/manifolds/scaled.py:77-95`: fails when a name of the
`__scaling__` table is not an attribute of the manifold. -/
noncomputable def mkScaled (m : Man E) (s : ℝ) : Except PyErr (Man E) :=
  if m.scaling.all fun q => (m.getattr q.1).isOk then .ok (.scaled m s) else .error .attributeError

/-- The stored parameter of `Scaled(manifold, scale, learnable)`: the scale in a buffer or its
logarithm in a parameter, `geoopt/manifolds/scaled.py:80-87`. -/
inductive ScaleStore
  | buffer (scale : ℝ)
  | parameter (logScale : ℝ)

noncomputable def mkStore (scale : ℝ) (learnable : Bool) : ScaleStore :=
  if learnable then .parameter (Real.log scale) else .buffer scale

/-- The property `scale`, `geoopt/manifolds/scaled.py:97-102`. -/
noncomputable def ScaleStore.scale : ScaleStore → ℝ
  | .buffer s => s
  | .parameter l => Real.exp l

/-- The property `log_scale`, `geoopt/manifolds/scaled.py:104-109`. -/
noncomputable def ScaleStore.logScale : ScaleStore → ℝ
  | .buffer s => Real.log s
  | .parameter l => l

/-- The `__scaling__` table of `Manifold`, `geoopt/manifolds/base.py:377-558`. -/
def manifoldScaling : List (String × Rule) :=
  [("dist", .info [1] []), ("dist2", .info [2] []),
   ("retr", .info [] [("u", -1)]), ("expmap", .info [] [("u", -1)]),
   ("logmap", .info [1] []),
   ("expmap_transp", .info [] [("u", -1)]), ("retr_transp", .info [] [("u", -1)]),
   ("transp_follow_retr", .info [] [("u", -1)]), ("transp_follow_expmap", .info [] [("u", -1)])]

/-- The table of `Euclidean`, `geoopt/manifolds/euclidean.py:22,110`. -/
def euclideanScaling : List (String × Rule) :=
  manifoldScaling ++ [("random_normal", .info [] [("std", -1)]), ("random", .info [] [("std", -1)])]

/-- The table of `Lorentz`, `geoopt/manifolds/lorentz/__init__.py:35,75,103,114,164,174`. -/
def lorentzScaling : List (String × Rule) :=
  manifoldScaling ++ [("dist0", .info [1] []), ("expmap0", .info [] [("u", -1)]),
    ("logmap0", .info [1] []), ("geodesic_unit", .info [] [("t", -1)]),
    ("random_normal", .info [] [("std", -1)]), ("random", .info [] [("std", -1)])]

/-- The table of `Stereographic`, `geoopt/manifolds/stereographic/manifold.py:110,303,322,326,334,
352,376,393,403,452`. -/
def stereographicScaling : List (String × Rule) :=
  manifoldScaling ++ [("geodesic_unit", .info [] [("t", -1)]), ("dist0", .info [1] []),
    ("expmap0", .info [] [("u", -1)]), ("logmap0", .info [1] []), ("dist2plane", .info [1] []),
    ("mobius_fn_apply", .notCompatible), ("mobius_fn_apply_chain", .notCompatible),
    ("random_normal", .info [] [("std", -1)]), ("random", .info [] [("std", -1)]),
    ("wrapped_normal", .info [] [("std", -1)])]

/-- `Manifold.random`, `geoopt/manifolds/base.py:904-911`: signature
`(*size, dtype=None, device=None, **kwargs)`, raises. -/
def manifoldRandom : Method E :=
  { params := [], kwonly := ["dtype", "device"], defaults := [("dtype", pyNone), ("device", pyNone)],
    varPos := true, varKw := true, run := fun _ => .error .notImplementedError }

/-- `Python` `isinstance(manifold, cls)` for a class given by its set of subclasses;
`Scaled` itself is the class number `scaledId`. -/
def Man.isinstance (scaledId : ℕ) (sub : ℕ → Bool) : Man E → Bool
  | .base c => sub c.clsId
  | .scaled _ _ => sub scaledId

/-- `geoopt/utils.py:164-181` `canonical_manifold(manifold)`. -/
def canonicalManifold : Man E → Man E
  | .scaled b _ => canonicalManifold b
  | .base c => .base c

/-- A Python object given to `ismanifold`: a manifold or anything else. -/
inductive Obj (E : Type)
  | manifold (m : Man E)
  | somethingElse

/-- The `while` loop of `ismanifold`, `geoopt/utils.py:159-160`. -/
def unwrapLoop : Man E → Man E
  | .scaled b _ => unwrapLoop b
  | .base c => .base c

/-- `geoopt/utils.py:137-161` `ismanifold(instance, cls)`; `clsOk` is
`issubclass(cls, Manifold)`, `sub` the set of subclasses of `cls`. -/
def ismanifold (scaledId : ℕ) (clsOk : Bool) (sub : ℕ → Bool) (o : Obj E) : Except PyErr Bool :=
  if clsOk then
    match o with
    | .somethingElse => .ok false
    | .manifold m => .ok ((unwrapLoop m).isinstance scaledId sub)
  else .error .typeError

end Geoopt.Scaled
