import Verif.Model.ScalingStorage

/-!
# Specification of the rules of a class (C139)
-/

namespace Geoopt.Scaling
open Geoopt.Scaled (Rule)

/-- The names a declaration speaks about: the function and the aliases. -/
def Decl.names (d : Decl) : List String := d.fn :: d.aliases

/-- The rule that a list of declarations, read from top to bottom, gives to the method `m`: that of the last one that
mentions it. -/
def lastRule (m : String) : List Decl → Option Rule
  | [] => none
  | d :: ds => (lastRule m ds).or (if m ∈ d.names then some d.info else none)

/-- The class whose dictionary a class uses, after the operations in the list, *latest first*: itself if its statement
assigns `__scaling__`, else that of its base class. -/
def owner : List Op → String → String
  | [], c => c
  | .cls name (.inherit parent) _ :: os, c => if c = name then owner os parent else owner os c
  | .cls name _ _ :: os, c => if c = name then name else owner os c
  | .declare _ _ :: os, c => owner os c

/-- The classes a program defines. -/
def defined : List Op → List String
  | [] => []
  | .cls name _ _ :: os => name :: defined os
  | .declare _ _ :: os => defined os

end Geoopt.Scaling
