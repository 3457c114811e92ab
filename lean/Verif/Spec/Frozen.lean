import Verif.Spec.Optim

/-! Vocabulary for parameters that training should leave alone. -/

namespace Geoopt.Optim

/-- Moving from `x` by the zero vector leads to `x`, with `retr` and with `retr_transp`, and `projx` leaves
`x` alone. -/
structure Rests {ι : Type} (M : Manifold ι) (x : ι → ℝ) : Prop where
  retr : M.retr x 0 = x
  retrTransp : ∀ v, (M.retrTransp x 0 v).1 = x
  projx : M.projx x = x

/-- Parameter `a` has learning rate zero in every group of the optimiser that holds it. -/
def SGD.Frozen {κ : Type} {ι : κ → Type} (a : κ) (o : SGD κ ι) : Prop :=
  ∀ G ∈ o.groups, a ∈ G.params → G.hyper.lr = 0

/-- The same for `RiemannianAdam`. -/
def Adam.Frozen {κ : Type} {ι : κ → Type} (a : κ) (o : Adam κ ι) : Prop :=
  ∀ G ∈ o.groups, a ∈ G.2 → G.1.lr = 0

end Geoopt.Optim
