import Verif.Model.Optim
import Mathlib.Algebra.Module.Submodule.Basic

/-! Vocabulary for the optimisers: what a geometry is, what the user may do between steps, and the
Euclidean optimisers of torch. -/

namespace Geoopt.Optim

/-- A geometry for a manifold: its points, and for every point the directions of the tangent space.
The operations respect them.  `block` partitions the entries into the elements of the manifold
(the rows of a batch, the components of a product, single entries of a Euclidean parameter); the
component-wise inner product has one value on each. -/
structure Geometry {ι : Type} (M : Manifold ι) where
  On : (ι → ℝ) → Prop
  Tan : (ι → ℝ) → Submodule ℝ (ι → ℝ)
  block : ι → ι → Prop
  egrad : ∀ {x} g, On x → (M.egrad2rgrad x g).value ∈ Tan x
  retr : ∀ {x u}, On x → u ∈ Tan x → On (M.retr x u)
  retrTransp_on : ∀ {x u} v, On x → u ∈ Tan x → On (M.retrTransp x u v).1
  retrTransp_tan : ∀ {x u v}, On x → u ∈ Tan x → v ∈ Tan x →
    (M.retrTransp x u v).2 ∈ Tan (M.retrTransp x u v).1
  projx : ∀ {x}, On x → M.projx x = x
  proju : ∀ {x} u, On x → M.proju x u ∈ Tan x
  component : ∀ x u i j, block i j → M.componentInner x u i = M.componentInner x u j
  scale : ∀ {x v} (w : ι → ℝ), (∀ i j, block i j → w i = w j) → v ∈ Tan x →
    (fun i => w i * v i) ∈ Tan x

section History
variable {κ : Type} [DecidableEq κ] {ι : κ → Type}

/-- The states `RiemannianSGD` can reach when between its steps the user (closures, schedulers,
backward passes) sets gradients, hyper-parameters and groups freely, calls `stabilize()`, and calls
`step()` in states satisfying `Allowed`. -/
inductive SGDReach (P : Params κ ι) (Allowed : SGD κ ι → Prop) (o₀ : SGD κ ι) : SGD κ ι → Prop
  | start : SGDReach P Allowed o₀ o₀
  | user {o o'} : SGDReach P Allowed o₀ o →
      (∀ a, (o'.par a).point = (o.par a).point ∧ (o'.par a).buf = (o.par a).buf) →
      SGDReach P Allowed o₀ o'
  | step {o} : SGDReach P Allowed o₀ o → Allowed o → SGDReach P Allowed o₀ (sgdStep P o).1
  | stabilize {o} : SGDReach P Allowed o₀ o → SGDReach P Allowed o₀ (sgdStabilize P o)

/-- The same for `RiemannianAdam`, with no condition on when `step()` is called. -/
inductive AdamReach (P : Params κ ι) (o₀ : Adam κ ι) : Adam κ ι → Prop
  | start : AdamReach P o₀ o₀
  | user {o o'} : AdamReach P o₀ o →
      (∀ a, (o'.par a).point = (o.par a).point ∧ (o'.par a).state = (o.par a).state) →
      AdamReach P o₀ o'
  | step {o} : AdamReach P o₀ o → AdamReach P o₀ (adamStep P o).1
  | stabilize {o} : AdamReach P o₀ o → AdamReach P o₀ (adamStabilize P o)

/-- The same with conditions: `step()` is called in states satisfying `Allowed`, and `stabilize()` only
if `CanStab` holds. -/
inductive AdamReachIf (P : Params κ ι) (Allowed : Adam κ ι → Prop) (CanStab : Prop)
    (o₀ : Adam κ ι) : Adam κ ι → Prop
  | start : AdamReachIf P Allowed CanStab o₀ o₀
  | user {o o'} : AdamReachIf P Allowed CanStab o₀ o →
      (∀ a, (o'.par a).point = (o.par a).point ∧ (o'.par a).state = (o.par a).state) →
      AdamReachIf P Allowed CanStab o₀ o'
  | step {o} : AdamReachIf P Allowed CanStab o₀ o → Allowed o →
      AdamReachIf P Allowed CanStab o₀ (adamStep P o).1
  | stabilize {o} : AdamReachIf P Allowed CanStab o₀ o → CanStab →
      AdamReachIf P Allowed CanStab o₀ (adamStabilize P o)

/-- A history of `RiemannianSGD`: `o t` is the state in which step number `t` is called.  Between the
steps the user may change gradients, hyper-parameters and groups, but not parameters and state.
No step raises. -/
structure SGDRun (P : Params κ ι) (o : ℕ → SGD κ ι) : Prop where
  nodup : ∀ t, ((o t).groups.flatMap Group.params).Nodup
  ok : ∀ t, (sgdStep P (o t)).2 = none
  next : ∀ t a, ((o (t + 1)).par a).point = ((sgdStep P (o t)).1.par a).point ∧
    ((o (t + 1)).par a).buf = ((sgdStep P (o t)).1.par a).buf

/-- The same for `RiemannianAdam`. -/
structure AdamRun (P : Params κ ι) (o : ℕ → Adam κ ι) : Prop where
  nodup : ∀ t, ((o t).groups.flatMap Prod.snd).Nodup
  ok : ∀ t, (adamStep P (o t)).2 = none
  next : ∀ t a, ((o (t + 1)).par a).point = ((adamStep P (o t)).1.par a).point ∧
    ((o (t + 1)).par a).state = ((adamStep P (o t)).1.par a).state

end History

/-! The optimisers of torch on one dense parameter, as documented for `torch.optim.SGD` and
`torch.optim.Adam` (`maximize=False`). -/

/-- One step of `torch.optim.SGD`: parameter and momentum buffer. -/
noncomputable def torchSGD {ι : Type} (h : SGDHyper) (s : (ι → ℝ) × Option (ι → ℝ)) (g : ι → ℝ) :
    (ι → ℝ) × Option (ι → ℝ) :=
  let g := g + h.weightDecay • s.1
  if h.momentum = 0 then (s.1 - h.lr • g, s.2)
  else
    let b := match s.2 with
      | none => g
      | some b => h.momentum • b + (1 - h.dampening) • g
    let d := if h.nesterov then g + h.momentum • b else b
    (s.1 - h.lr • d, some b)

/-- The state of `torch.optim.Adam` for one parameter. -/
structure TorchAdam (ι : Type) where
  step : ℕ
  param : ι → ℝ
  m : ι → ℝ
  v : ι → ℝ
  vmax : ι → ℝ

/-- One step of `torch.optim.Adam`. -/
noncomputable def torchAdam {ι : Type} (h : AdamHyper) (s : TorchAdam ι) (g : ι → ℝ) :
    TorchAdam ι :=
  let g := g + h.weightDecay • s.param
  let t := s.step + 1
  let m := h.beta1 • s.m + (1 - h.beta1) • g
  let v : ι → ℝ := fun i => h.beta2 * s.v i + (1 - h.beta2) * g i * g i
  let vmax : ι → ℝ := fun i => max (s.vmax i) (v i)
  let denom : ι → ℝ := fun i =>
    Real.sqrt ((if h.amsgrad then vmax else v) i) / Real.sqrt (1 - h.beta2 ^ t) + h.eps
  { step := t, m := m, v := v, vmax := if h.amsgrad then vmax else s.vmax,
    param := fun i => s.param i - h.lr / (1 - h.beta1 ^ t) * (m i / denom i) }

end Geoopt.Optim
