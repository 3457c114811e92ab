import Verif.Model.Interface

/-! Vocabulary for the compatibility of signatures. -/

namespace Geoopt.Interface
open Geoopt.Scaled

variable {E : Type}

/-- The names of the parameters of a function. -/
def names (m : Method E) : List String := m.params ++ m.kwonly

/-- Every call that the signature `base` accepts is accepted by `sub` too, as long as the renamed parameters
are not passed by keyword, and then the parameters receive the same values: parameter `p` of `base`
corresponds to `σ p` of `sub`.  Further parameters of `sub` have their default values. -/
def Accepts (σ : String → String) (base sub : Method E) : Prop :=
  ∀ pos kw b, (∀ q ∈ kw, σ q.1 = q.1) → base.bind pos kw = .ok b →
    ∃ b', sub.bind pos kw = .ok b' ∧ (∀ p ∈ names base, b'.named.lookup (σ p) = b.named.lookup p) ∧
      (∀ p ∈ names sub, p ∉ (names base).map σ → b'.named.lookup p = sub.defaults.lookup p) ∧
      b'.varargs = b.varargs ∧ b'.extra = b.extra

/-- How classes rename the parameters of an operation. -/
def rename : Cls → Op → String → String
  | .lorentz, .proju, "u" => "v"
  | .boundedDomain, .dist, "x" => "z1"
  | .boundedDomain, .dist, "y" => "z2"
  | .boundedDomain, .inner, "x" => "z"
  | .boundedDomain, .egrad2rgrad, "x" => "z"
  | .boundedDomain, .projx, "x" => "z"
  | .upperHalf, .dist, "x" => "z1"
  | .upperHalf, .dist, "y" => "z2"
  | .upperHalf, .inner, "x" => "z"
  | .upperHalf, .egrad2rgrad, "x" => "z"
  | .upperHalf, .projx, "x" => "z"
  | .symmetricPositiveDefinite, .logmap, "y" => "u"
  | _, _, p => p

/-- The operations in which a class renames a parameter. -/
def Renames : Cls → Op → Prop
  | .lorentz, .proju => True
  | .boundedDomain, op => op = .dist ∨ op = .inner ∨ op = .egrad2rgrad ∨ op = .projx
  | .upperHalf, op => op = .dist ∨ op = .inner ∨ op = .egrad2rgrad ∨ op = .projx
  | .symmetricPositiveDefinite, .logmap => True
  | _, _ => False

end Geoopt.Interface
