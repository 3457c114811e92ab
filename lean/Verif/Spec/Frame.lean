import Verif.Spec.Rotation

/-! Vocabulary for linear changes of variables that are not orthogonal: points and tangent vectors move
with `A`, gradients with the inverse transpose `B` of `A`. -/

namespace Geoopt.Frame
open Matrix Geoopt.Optim Geoopt.Rotation

section
variable {ι : Type} [Fintype ι]

/-- `s` has one value on each manifold element; `same i j`: the entries `i` and `j` belong to the same
element. -/
def OneEach (same : ι → ι → Prop) (s : ι → ℝ) : Prop := ∀ i j, same i j → s i = s j

/-- What `RiemannianSGD` without momentum uses of a manifold commutes with the change of variables, at
the points `On` and for the steps `Tan`; it does not leave them.  `M'` is the manifold in the new
variables. -/
structure SGDFrame (A B : Matrix ι ι ℝ) (M M' : Manifold ι) (On : (ι → ℝ) → Prop)
    (Tan : (ι → ℝ) → (ι → ℝ) → Prop) : Prop where
  egrad : ∀ x g, On x → M'.egrad2rgrad (A *ᵥ x) (B *ᵥ g) =
    ⟨A *ᵥ (M.egrad2rgrad x g).value, B *ᵥ (M.egrad2rgrad x g).arg, (M.egrad2rgrad x g).isView⟩ ∧
    Tan x (M.egrad2rgrad x g).value
  smul : ∀ x u (c : ℝ), On x → Tan x u → Tan x (c • u)
  retr : ∀ x u, On x → Tan x u → M'.retr (A *ᵥ x) (A *ᵥ u) = A *ᵥ M.retr x u ∧ On (M.retr x u)
  projx : ∀ x, On x → M'.projx (A *ᵥ x) = A *ᵥ M.projx x ∧ On (M.projx x)

/-- What `RiemannianAdam` uses of it besides. -/
structure AdamFrame (A : Matrix ι ι ℝ) (same : ι → ι → Prop) (M M' : Manifold ι)
    (On : (ι → ℝ) → Prop) (Tan : (ι → ℝ) → (ι → ℝ) → Prop) : Prop where
  mixes : ∀ i j, A i j ≠ 0 → same i j
  zero : ∀ x, On x → Tan x 0
  add : ∀ x u v, On x → Tan x u → Tan x v → Tan x (u + v)
  scale : ∀ x u s, On x → Tan x u → OneEach same s → Tan x fun i => u i * s i
  retrTransp : ∀ x u v, On x → Tan x u → Tan x v →
    M'.retrTransp (A *ᵥ x) (A *ᵥ u) (A *ᵥ v) =
      (A *ᵥ (M.retrTransp x u v).1, A *ᵥ (M.retrTransp x u v).2) ∧
    On (M.retrTransp x u v).1 ∧ Tan (M.retrTransp x u v).1 (M.retrTransp x u v).2
  proju : ∀ x y u, On x → On y → Tan x u → M'.proju (A *ᵥ y) (A *ᵥ u) = A *ᵥ M.proju y u ∧
    Tan y (M.proju y u)
  inner : ∀ x u, On x → Tan x u → M'.componentInner (A *ᵥ x) (A *ᵥ u) = M.componentInner x u ∧
    OneEach same (M.componentInner x u)

/-- A parameter of `RiemannianSGD` in the new variables. -/
def moveSGD (A B : Matrix ι ι ℝ) (s : SGDParam ι) : SGDParam ι :=
  ⟨A *ᵥ s.point, rotGrad B s.grad, s.buf.map (A *ᵥ ·)⟩

/-- A parameter of `RiemannianAdam` in the new variables: the second moments are the same. -/
def moveAdam (A B : Matrix ι ι ℝ) (s : AdamParam ι) : AdamParam ι :=
  ⟨A *ᵥ s.point, rotGrad B s.grad,
    s.state.map fun st => ⟨st.step, A *ᵥ st.expAvg, st.expAvgSq, st.maxExpAvgSq⟩⟩

/-- A parameter on the manifold, with a tangent first moment and one second moment for each element.
A parameter that has no state yet is one as soon as it is on the manifold. -/
def GoodAdam (same : ι → ι → Prop) (On : (ι → ℝ) → Prop) (Tan : (ι → ℝ) → (ι → ℝ) → Prop)
    (s : AdamParam ι) : Prop :=
  On s.point ∧ ∀ st ∈ s.state, Tan s.point st.expAvg ∧ OneEach same st.expAvgSq ∧
    ∀ v ∈ st.maxExpAvgSq, OneEach same v

end

section
variable {κ : Type} {ι : κ → Type} [∀ a, Fintype (ι a)]

/-- All parameters and gradients in the new variables: options and counters stay. -/
def moveSGDAll (A B : ∀ a, Matrix (ι a) (ι a) ℝ) (o : SGD κ ι) : SGD κ ι :=
  ⟨fun a => moveSGD (A a) (B a) (o.par a), o.groups⟩

/-- All parameters and gradients in the new variables: options stay. -/
def moveAdamAll (A B : ∀ a, Matrix (ι a) (ι a) ℝ) (o : Adam κ ι) : Adam κ ι :=
  ⟨fun a => moveAdam (A a) (B a) (o.par a), o.groups⟩

/-- `g'` gives the gradients that `g` gives on the manifold, in the new variables. -/
def SameLoss (A B : ∀ a, Matrix (ι a) (ι a) ℝ) (On : ∀ a, (ι a → ℝ) → Prop)
    (g g' : (∀ a, ι a → ℝ) → ∀ a, Grad (ι a)) : Prop :=
  ∀ x, (∀ a, On a (x a)) → g' (fun a => A a *ᵥ x a) = fun a => rotGrad (B a) (g x a)

end

end Geoopt.Frame
