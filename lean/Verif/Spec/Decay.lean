import Verif.Model.Checkpoint

/-! Vocabulary: weight decay and the scale of the loss. -/

namespace Geoopt.Optim

/-- Adding a multiple of the point to a gradient at `x` does not change the Riemannian gradient. -/
def DecayFree {ι : Type} (M : Manifold ι) (x : ι → ℝ) : Prop :=
  ∀ (g : ι → ℝ) (c : ℝ), (M.egrad2rgrad x (g + c • x)).value = (M.egrad2rgrad x g).value

/-- No operation of the optimisers leaves the set `K`, whatever the direction. -/
structure Kept {ι : Type} (M : Manifold ι) (K : (ι → ℝ) → Prop) : Prop where
  retr : ∀ x u, K x → K (M.retr x u)
  retrTransp : ∀ x u v, K x → K (M.retrTransp x u v).1
  projx : ∀ x, K x → K (M.projx x)

/-- The same optimiser with the weight decay of every group replaced, as a function of its options. -/
def SGD.withDecay {κ : Type} {ι : κ → Type} (c : SGDHyper → ℝ) (o : SGD κ ι) : SGD κ ι :=
  { o with groups := o.groups.map fun G => { G with hyper := { G.hyper with weightDecay := c G.hyper } } }

/-- The same optimiser with the weight decay of every group replaced, as a function of its options. -/
def Adam.withDecay {κ : Type} {ι : κ → Type} (c : AdamHyper → ℝ) (o : Adam κ ι) : Adam κ ι :=
  { o with groups := o.groups.map fun G => ({ G.1 with weightDecay := c G.1 }, G.2) }

/-- The gradient of `c` times the loss. -/
def Grad.scale {ι : Type} (c : ℝ) : Grad ι → Grad ι
  | .none => .none
  | .dense g => .dense (c • g)
  | .sparse => .sparse

/-- `RiemannianSGD` for `c` times the loss: the learning rate divided by `c`, the weight decay multiplied by `c`. -/
noncomputable def SGDHyper.rescale (c : ℝ) (h : SGDHyper) : SGDHyper :=
  { h with lr := h.lr / c, weightDecay := c * h.weightDecay }

/-- `RiemannianAdam` for `c` times the loss: `eps` and the weight decay multiplied by `c`. -/
noncomputable def AdamHyper.rescale (c : ℝ) (h : AdamHyper) : AdamHyper :=
  { h with eps := c * h.eps, weightDecay := c * h.weightDecay }

/-- The moments that belong to `c` times the loss. -/
noncomputable def AdamState.rescale {ι : Type} (c : ℝ) (st : AdamState ι) : AdamState ι :=
  ⟨st.step, c • st.expAvg, c ^ 2 • st.expAvgSq, st.maxExpAvgSq.map (c ^ 2 • ·)⟩

/-- What the optimisers use of a manifold is linear in the vectors, and the metric quadratic. -/
structure Homogeneous {ι : Type} (M : Manifold ι) : Prop where
  egrad : ∀ x g (c : ℝ), (M.egrad2rgrad x (c • g)).value = c • (M.egrad2rgrad x g).value
  transp : ∀ x u v (c : ℝ), M.retrTransp x u (c • v) = ((M.retrTransp x u v).1, c • (M.retrTransp x u v).2)
  proju : ∀ x u (c : ℝ), M.proju x (c • u) = c • M.proju x u
  metric : ∀ x u (c : ℝ), M.componentInner x (c • u) = c ^ 2 • M.componentInner x u

end Geoopt.Optim
