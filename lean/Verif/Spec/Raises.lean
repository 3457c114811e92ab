import Verif.Model.OptimSparse
import Verif.Model.LineSearch

/-!
# Steps that raise

What an optimiser would have been with fewer parameters: the vocabulary in which the effect of a step
that stops half way is stated (C124).
-/

namespace Geoopt.Optim

variable {κ : Type} {ι : κ → Type}

/-- The optimiser `o` with the groups `Gs` and, of the group `G`, only the parameters `as`, without
stabilisation of that last group. -/
def SGD.cut (o : SGD κ ι) (Gs : List (Group SGDHyper κ)) (G : Group SGDHyper κ) (as : List κ) :
    SGD κ ι :=
  ⟨o.par, Gs ++ [⟨{ G.hyper with stabilize := none }, G.step, as⟩]⟩

/-- The same for `RiemannianAdam`. -/
def Adam.cut (o : Adam κ ι) (Gs : List (AdamHyper × List κ)) (G : AdamHyper × List κ) (as : List κ) :
    Adam κ ι :=
  ⟨o.par, Gs ++ [({ G.1 with stabilize := none }, as)]⟩

end Geoopt.Optim

namespace Geoopt.LineSearch

variable {κ : Type} {ι : κ → Type}

/-- The point that the line search tries from `x` with step size `α` along `d`: the retraction, put back on the manifold when
derivatives are computed. -/
def trial (C : Config κ ι) (d : ∀ a, ι a → ℝ) (α : ℝ) (x : ∀ a, ι a → ℝ) : ∀ a, ι a → ℝ := fun a =>
  if C.computeDerphi then (C.man a).projx ((C.man a).retrTransp (x a) (α • d a) (d a)).1
  else (C.man a).retr (x a) (α • d a)

end Geoopt.LineSearch
