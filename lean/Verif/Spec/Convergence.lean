import Verif.Spec.Optim
import Mathlib.Analysis.Calculus.FDeriv.Basic

/-! Vocabulary for the convergence of training. -/

namespace Geoopt.Optim

/-- The squared Euclidean length. -/
def sqLen {ι : Type} [Fintype ι] (u : ι → ℝ) : ℝ := ∑ i, u i ^ 2

/-- The Riemannian gradient that goes with the Euclidean gradient `g` at `x`. -/
def rgrad {ι : Type} (M : Manifold ι) (x g : ι → ℝ) : ι → ℝ := (M.egrad2rgrad x g).value

/-- Where gradient descent with learning rate `lr` goes from `x`. -/
noncomputable def gradStep {ι : Type} (M : Manifold ι) (x g : ι → ℝ) (lr : ℝ) : ι → ℝ :=
  M.retr x (-lr • rgrad M x g)

/-- What a manifold has to satisfy for gradient descent to make progress.  For gradients allowed by `Gr` and
learning rates up to `δ`, the upper bound for the change of the loss, when gradients have Lipschitz constant
`L`, is at most `-prog`. -/
def Progress {ι : Type} [Fintype ι] (M : Manifold ι) (On Gr : (ι → ℝ) → Prop) (L δ : ℝ)
    (prog : (ι → ℝ) → (ι → ℝ) → ℝ → ℝ) : Prop :=
  ∀ x g lr, On x → Gr g → 0 < lr → lr ≤ δ →
    ∑ i, g i * (gradStep M x g lr i - x i) + L / 2 * sqLen (gradStep M x g lr - x) ≤ -prog x g lr

/-- Progress measured by the Riemannian gradient: half the learning rate times its squared length. -/
noncomputable def gradProgress {ι : Type} [Fintype ι] (M : Manifold ι) (x g : ι → ℝ) (lr : ℝ) : ℝ :=
  lr / 2 * sqLen (rgrad M x g)

/-- Progress measured by the step: `c / lr` times its squared Euclidean length. -/
noncomputable def stepProgress {ι : Type} [Fintype ι] (M : Manifold ι) (c : ℝ) (x g : ι → ℝ) (lr : ℝ) : ℝ :=
  c / lr * sqLen (gradStep M x g lr - x)

/-- A bounded manifold on which gradient descent makes the progress `prog` for all small learning rates,
however large the gradients and their Lipschitz constant are. -/
structure Trainable {ι : Type} [Fintype ι] {M : Manifold ι} (geo : Geometry M)
    (prog : (ι → ℝ) → (ι → ℝ) → ℝ → ℝ) : Prop where
  bounded : ∃ R, ∀ x, geo.On x → ∀ i, |x i| ≤ R
  nonneg : ∀ x g lr, 0 < lr → 0 ≤ prog x g lr
  progress : ∀ L B : ℝ, 0 ≤ L → 0 ≤ B → ∃ δ > 0, Progress M geo.On (fun g => sqLen g ≤ B ^ 2) L δ prog

section
variable {κ : Type} {ι : κ → Type} [Fintype κ] [∀ a, Fintype (ι a)]

/-- `F` has the partial derivatives `g` at `x`: this is what `backward()` leaves in `.grad`. -/
def Gradient (F : (∀ a, ι a → ℝ) → ℝ) (g x : ∀ a, ι a → ℝ) : Prop :=
  ∃ D : (∀ a, ι a → ℝ) →L[ℝ] ℝ, HasFDerivAt F D x ∧ ∀ v, D v = ∑ a, ∑ i, g a i * v a i

/-- The loss with the penalty of weight decay. -/
noncomputable def penalised (F : (∀ a, ι a → ℝ) → ℝ) (wd : κ → ℝ) (x : ∀ a, ι a → ℝ) : ℝ :=
  F x + ∑ a, wd a / 2 * sqLen (x a)

end

/-- The current parameters. -/
def SGD.points {κ : Type} {ι : κ → Type} (o : SGD κ ι) : ∀ a, ι a → ℝ := fun a => (o.par a).point

/-- A history of full-batch training: `o t` is the state in which step number `t` is called.  The gradients
`G x` at the current parameters `x` have been written; parameter `a` is in exactly one group, which has
learning rate `lr t a`, weight decay `wd a`, no momentum, and `stabilize` not zero.  Between the steps the
user changes no parameters. -/
structure FullBatch {κ : Type} [DecidableEq κ] {ι : κ → Type} (P : Params κ ι) (o : ℕ → SGD κ ι)
    (G : (∀ a, ι a → ℝ) → ∀ a, ι a → ℝ) (wd : κ → ℝ) (lr : ℕ → κ → ℝ) : Prop where
  next : ∀ t, (o (t + 1)).points = (sgdStep P (o t)).1.points
  grads : ∀ t a, ((o t).par a).grad = .dense (G (o t).points a)
  nodup : ∀ t, ((o t).groups.flatMap Group.params).Nodup
  all : ∀ t a, a ∈ (o t).groups.flatMap Group.params
  hyper : ∀ t, ∀ H ∈ (o t).groups, H.hyper.momentum = 0 ∧ H.hyper.stabilize ≠ some 0 ∧
    ∀ a ∈ H.params, H.hyper.lr = lr t a ∧ H.hyper.weightDecay = wd a

/-- `optimizer.zero_grad(); loss().backward()` for a loss with gradients `G`. -/
def SGD.backward {κ : Type} {ι : κ → Type} (G : (∀ a, ι a → ℝ) → ∀ a, ι a → ℝ) (o : SGD κ ι) : SGD κ ι :=
  ⟨fun a => { o.par a with grad := .dense (G o.points a) }, o.groups⟩

/-- The training loop `for t in ...: zero_grad(); loss().backward(); optimizer.step()`: the state in which
`step()` is called for the `t`-th time. -/
noncomputable def trained {κ : Type} [DecidableEq κ] {ι : κ → Type} (P : Params κ ι)
    (G : (∀ a, ι a → ℝ) → ∀ a, ι a → ℝ) (o : SGD κ ι) : ℕ → SGD κ ι
  | 0 => o.backward G
  | t + 1 => (sgdStep P (trained P G o t)).1.backward G

end Geoopt.Optim
