import Verif.Model.Scaled

/-!
# The dictionaries of scaling rules, `geoopt/manifolds/base.py:33-95`

A manifold class has an attribute `__scaling__`, a dictionary from method names to scaling rules. The class `Manifold`
makes a fresh one, some classes copy that of another class, the others inherit the *object* of their base class. The model
keeps a heap of dictionaries and, for every class, the address of its dictionary.

Simplifications: a class has one base class (`PoincareBallExact` and `SphereProjectionExact` have two, but both use the
dictionary of `Stereographic`), and the attribute `__scaling__` itself
is not rebound after the class statement, so the address can be looked up when the class is made.
-/

namespace Geoopt.Scaling
open Geoopt.Scaled (Rule)

/-- The contents of a `ScalingStorage`: a Python dictionary, in order of insertion. -/
abbrev Table := List (String × Rule)

/-- `d[k] = v` of a Python dictionary. -/
def setItem (k : String) (v : Rule) : Table → Table
  | [] => [(k, v)]
  | q :: t => if q.1 = k then (k, v) :: t else q :: setItem k v t

/-- `@__scaling__(info, *aliases)` in front of `def fn`. -/
structure Decl where
  info : Rule
  fn : String
  aliases : List String := []

/-- `geoopt/manifolds/base.py:85-92` `ScalingStorage.__call__` and the inner function `register`: the effect on the
dictionary. (The decorated function is returned as it is.) -/
def register (t : Table) (d : Decl) : Table :=
  d.aliases.foldl (fun t a => setItem a d.info t) (setItem d.fn d.info t)

/-- The line about `__scaling__` in a class statement. -/
inductive Source
  /-- `__scaling__ = ScalingStorage()`, `geoopt/manifolds/base.py:98` -/
  | fresh
  /-- `__scaling__ = Other.__scaling__.copy()`, for instance `geoopt/manifolds/euclidean.py:22` -/
  | copy (other : String)
  /-- no line: the attribute of the base class is found -/
  | inherit (parent : String)

/-- What a program does with the rules: it defines classes, and may declare a rule through an existing class,
`C.__scaling__(info, *aliases)(fn)`. -/
inductive Op
  | cls (name : String) (src : Source) (decls : List Decl)
  | declare (name : String) (d : Decl)

/-- Dictionaries, and the address of the dictionary of every class. -/
structure State where
  heap : List Table
  classes : List (String × ℕ)

inductive Err
  | nameError

/-- One operation. A decorator `@__scaling__` in a class body without an assignment to `__scaling__` raises `NameError`,
because names of a base class are not visible in a class body. `copy` is `ScalingStorage.copy`,
`geoopt/manifolds/base.py:94-95`: a new dictionary with the same contents. -/
def step (s : State) : Op → Except Err State
  | .cls name .fresh decls =>
    .ok { heap := s.heap ++ [decls.foldl register []], classes := (name, s.heap.length) :: s.classes }
  | .cls name (.copy other) decls =>
    match s.classes.lookup other with
    | none => .error .nameError
    | some r =>
      .ok { heap := s.heap ++ [decls.foldl register (s.heap.getD r [])],
            classes := (name, s.heap.length) :: s.classes }
  | .cls name (.inherit parent) [] =>
    match s.classes.lookup parent with
    | none => .error .nameError
    | some r => .ok { s with classes := (name, r) :: s.classes }
  | .cls _ (.inherit _) (_ :: _) => .error .nameError
  | .declare name d =>
    match s.classes.lookup name with
    | none => .error .nameError
    | some r => .ok { s with heap := s.heap.set r (register (s.heap.getD r []) d) }

/-- A program. -/
def run (s : State) : List Op → Except Err State
  | [] => .ok s
  | o :: os => match step s o with
    | .error e => .error e
    | .ok s' => run s' os

/-- Before any class is defined. -/
def State.empty : State := ⟨[], []⟩

/-- `C.__scaling__`. -/
def State.table (s : State) (c : String) : Option Table := (s.classes.lookup c).map fun r => s.heap.getD r []

/-- The class statements of the library that make or inherit a dictionary, `geoopt/manifolds/base.py:98,377-558`,
`euclidean.py:22,110`, `stiefel.py`, `sphere.py`, `birkhoff_polytope.py`, `symmetric_positive_definite.py:43`,
`siegel/siegel.py:29`, `stereographic/manifold.py:110,303-452`, `product.py:456,615`, `lorentz/__init__.py:35,75-174`. -/
def library : List Op :=
  [.cls "Manifold" .fresh
     [⟨.info [1] [], "dist", []⟩, ⟨.info [2] [], "dist2", []⟩, ⟨.info [] [("u", -1)], "retr", []⟩,
      ⟨.info [] [("u", -1)], "expmap", []⟩, ⟨.info [1] [], "logmap", []⟩, ⟨.info [] [("u", -1)], "expmap_transp", []⟩,
      ⟨.info [] [("u", -1)], "retr_transp", []⟩, ⟨.info [] [("u", -1)], "transp_follow_retr", []⟩,
      ⟨.info [] [("u", -1)], "transp_follow_expmap", []⟩],
   .cls "Euclidean" (.copy "Manifold") [⟨.info [] [("std", -1)], "random_normal", ["random"]⟩],
   .cls "Stiefel" (.inherit "Manifold") [],
   .cls "CanonicalStiefel" (.inherit "Stiefel") [],
   .cls "EuclideanStiefel" (.inherit "Stiefel") [],
   .cls "EuclideanStiefelExact" (.inherit "EuclideanStiefel") [],
   .cls "Sphere" (.inherit "Manifold") [],
   .cls "SphereExact" (.inherit "Sphere") [],
   .cls "BirkhoffPolytope" (.inherit "Manifold") [],
   .cls "SymmetricPositiveDefinite" (.copy "Manifold") [],
   .cls "SiegelManifold" (.copy "Manifold") [],
   .cls "UpperHalf" (.inherit "SiegelManifold") [],
   .cls "BoundedDomain" (.inherit "SiegelManifold") [],
   .cls "Stereographic" (.copy "Manifold")
     [⟨.info [] [("t", -1)], "geodesic_unit", []⟩, ⟨.info [1] [], "dist0", []⟩, ⟨.info [] [("u", -1)], "expmap0", []⟩,
      ⟨.info [1] [], "logmap0", []⟩, ⟨.info [1] [], "dist2plane", []⟩, ⟨.notCompatible, "mobius_fn_apply", []⟩,
      ⟨.notCompatible, "mobius_fn_apply_chain", []⟩, ⟨.info [] [("std", -1)], "random_normal", ["random"]⟩,
      ⟨.info [] [("std", -1)], "wrapped_normal", []⟩],
   .cls "StereographicExact" (.inherit "Stereographic") [],
   .cls "PoincareBall" (.inherit "Stereographic") [],
   .cls "PoincareBallExact" (.inherit "PoincareBall") [],
   .cls "SphereProjection" (.inherit "Stereographic") [],
   .cls "SphereProjectionExact" (.inherit "SphereProjection") [],
   .cls "ProductManifold" (.inherit "Manifold") [],
   .cls "StereographicProductManifold" (.copy "Stereographic") [⟨.info [] [("std", -1)], "wrapped_normal", []⟩],
   .cls "Lorentz" (.copy "Manifold")
     [⟨.info [1] [], "dist0", []⟩, ⟨.info [] [("u", -1)], "expmap0", []⟩, ⟨.info [1] [], "logmap0", []⟩,
      ⟨.info [] [("t", -1)], "geodesic_unit", []⟩, ⟨.info [] [("std", -1)], "random_normal", ["random"]⟩]]

end Geoopt.Scaling
