import Verif.Model.Optim

/-! Training one parameter towards a target. -/

namespace Geoopt.Optim

/-- A history of training one parameter with `RiemannianSGD`, without momentum and weight decay: `x t` is the
parameter before step number `t`, which uses the learning rate `lr t` and a gradient `g` that satisfies
`IsGrad g (x t)`.  After a step the parameter may be projected to the manifold (`stabilize`). -/
def Descends {ι : Type} (M : Manifold ι) (IsGrad : (ι → ℝ) → (ι → ℝ) → Prop) (lr : ℕ → ℝ)
    (x : ℕ → ι → ℝ) : Prop :=
  ∀ t, ∃ (g : ι → ℝ) (H : SGDHyper) (b : Option (ι → ℝ)), IsGrad g (x t) ∧
    H.lr = lr t ∧ H.momentum = 0 ∧ H.weightDecay = 0 ∧
    (x (t + 1) = (sgdParam M H ⟨x t, .dense g, b⟩).1.point ∨
      x (t + 1) = M.projx (sgdParam M H ⟨x t, .dense g, b⟩).1.point)

end Geoopt.Optim
