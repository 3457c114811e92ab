import Verif.Model.Shapes
import Verif.Model.Vec
import Mathlib.Data.Real.Sqrt
import Mathlib.Data.Matrix.Mul

/-!
# The optimisers: `geoopt/optim/rsgd.py`, `radam.py`, `sparse_rsgd.py`, `sparse_radam.py`, `mixin.py`

A parameter with index set `ι` is a function `ι → ℝ`.  The parameters of an optimiser are named by a
type `κ`; parameter `a` has index set `ι a`.  A step is a function on the contents of all parameters,
their gradients and their state; an exception aborts it and leaves what was written before.
-/

namespace Geoopt.Optim

/-- What `egrad2rgrad(point, grad)` does to the buffer it is given: the result, the contents of the
argument afterwards, and whether the result is a view of the argument. -/
structure Egrad (ι : Type) where
  value : ι → ℝ
  arg : ι → ℝ
  isView : Bool

/-- What the optimisers use of a manifold. -/
structure Manifold (ι : Type) where
  egrad2rgrad : (ι → ℝ) → (ι → ℝ) → Egrad ι
  retr : (ι → ℝ) → (ι → ℝ) → (ι → ℝ)
  retrTransp : (ι → ℝ) → (ι → ℝ) → (ι → ℝ) → (ι → ℝ) × (ι → ℝ)
  projx : (ι → ℝ) → (ι → ℝ)
  proju : (ι → ℝ) → (ι → ℝ) → (ι → ℝ)
  componentInner : (ι → ℝ) → (ι → ℝ) → (ι → ℝ)

/-- `OptimMixin._default_manifold = Euclidean()`, `geoopt/optim/mixin.py:6`; the operations are
`geoopt/manifolds/euclidean.py:41-42,60-69,77-82,99-101,106-108` for arguments of the same shape, and
`retr_transp` of `geoopt/manifolds/base.py`.  `egrad2rgrad` returns `u.expand(...)`, a view of its
argument. -/
def euclidean (ι : Type) : Manifold ι where
  egrad2rgrad _ g := ⟨g, g, true⟩
  retr x u := x + u
  retrTransp x u v := (x + u, v)
  projx x := x
  proju _ u := u
  componentInner _ u := fun i => u i ^ 2

/-- The `.grad` of a parameter: `None`, a dense or a sparse tensor. -/
inductive Grad (ι : Type)
  | none
  | dense (g : ι → ℝ)
  | sparse

/-! ## Loops over parameters and groups -/

section Loop
variable {κ : Type} [DecidableEq κ] {S : κ → Type}

/-- The loop `for point in group["params"]` common to the optimisers: `f` is the body for one
parameter; it may set the local variable `stabilize` and may raise, which ends the loop. -/
def forParams (f : ∀ a, S a → S a × Bool × Option PyErr) :
    List κ → (∀ a, S a) → (∀ a, S a) × Bool × Option PyErr
  | [], w => (w, false, none)
  | a :: as, w =>
    match f a (w a) with
    | (s, b, some e) => (Function.update w a s, b, some e)
    | (s, b, none) =>
      match forParams f as (Function.update w a s) with
      | (w', b', e) => (w', b || b', e)

/-- The loop of `stabilize_group`. -/
def stabParams (f : ∀ a, S a → S a) (as : List κ) (w : ∀ a, S a) : ∀ a, S a :=
  as.foldl (fun w a => Function.update w a (f a (w a))) w

/-- The loop `for group in self.param_groups` common to the optimisers; `f` is the body for one
group, it may change the group (its step counter) and may raise, which ends the loop. -/
def forGroups {H : Type} (f : (∀ a, S a) → H → (∀ a, S a) × H × Option PyErr) :
    List H → (∀ a, S a) → (∀ a, S a) × List H × Option PyErr
  | [], w => (w, [], none)
  | G :: Gs, w =>
    match f w G with
    | (w', G', some e) => (w', G' :: Gs, some e)
    | (w', G', none) =>
      match forGroups f Gs w' with
      | (w'', Gs', e) => (w'', G' :: Gs', e)

/-- `step % stabilize == 0` in Python. -/
def isMultiple (step stabilize : ℕ) : Except PyErr Bool :=
  if stabilize = 0 then .error .zeroDivisionError else .ok (step % stabilize == 0)

/-- A parameter group with its step counter (0 when the key is missing). -/
structure Group (H κ : Type) where
  hyper : H
  step : ℕ
  params : List κ

/-- One group in the step of the two SGD variants, `geoopt/optim/rsgd.py:68-120` and
`sparse_rsgd.py:65-122`: count, run the loop body `body` over the parameters, stabilize when the counter
is a multiple of the period. -/
def counterGroup {H : Type} (body : H → ∀ a, S a → S a × Bool × Option PyErr)
    (stab : H → ∀ a, S a → S a) (period : H → Option ℕ) (w : ∀ a, S a) (G : Group H κ) :
    (∀ a, S a) × Group H κ × Option PyErr :=
  let G' := { G with step := G.step + 1 }
  match forParams (body G.hyper) G.params w with
  | (w', _, some e) => (w', G', some e)
  | (w', _, none) =>
    match period G.hyper with
    | none => (w', G', none)
    | some k =>
      match isMultiple G'.step k with
      | .error e => (w', G', some e)
      | .ok false => (w', G', none)
      | .ok true => (stabParams (stab G.hyper) G.params w', G', none)

/-- One group in the step of the two Adam variants, `geoopt/optim/radam.py:51-122` and
`sparse_radam.py:69-145`: run the loop body over the parameters, stabilize when one of them asked for
it. -/
def flagGroup {H : Type} (body : H → ∀ a, S a → S a × Bool × Option PyErr)
    (stab : H → ∀ a, S a → S a) (w : ∀ a, S a) (G : H × List κ) :
    (∀ a, S a) × (H × List κ) × Option PyErr :=
  match forParams (body G.1) G.2 w with
  | (w', _, some e) => (w', G, some e)
  | (w', b, none) => if b then (stabParams (stab G.1) G.2 w', G, none) else (w', G, none)

end Loop

/-! ## RiemannianSGD -/

/-- The options of a parameter group, `geoopt/optim/rsgd.py:52-58`, `geoopt/optim/mixin.py:12-14`.
A negative `stabilize` is not modelled. -/
structure SGDHyper where
  lr : ℝ
  momentum : ℝ
  dampening : ℝ
  weightDecay : ℝ
  nesterov : Bool
  stabilize : Option ℕ

open Classical in
/-- The constructor checks `geoopt/optim/rsgd.py:45-50,59-60`. -/
noncomputable def sgdInit (h : SGDHyper) : Except PyErr SGDHyper :=
  if h.lr < 0 then .error .valueError
  else if h.momentum < 0 then .error .valueError
  else if h.weightDecay < 0 then .error .valueError
  else if h.nesterov = true ∧ (h.momentum ≤ 0 ∨ h.dampening ≠ 0) then .error .valueError
  else .ok h

/-- A parameter under `RiemannianSGD`: its contents, gradient and `momentum_buffer`
(`none` when the state is empty: this is the only key). -/
structure SGDParam (ι : Type) where
  point : ι → ℝ
  grad : Grad ι
  buf : Option (ι → ℝ)

open Classical in
/-- The loop body of `RiemannianSGD.step`, `geoopt/optim/rsgd.py:77-114`. -/
noncomputable def sgdParam {ι : Type} (M : Manifold ι) (h : SGDHyper) (s : SGDParam ι) :
    SGDParam ι × Bool × Option PyErr :=
  match s.grad with
  | .none => (s, false, none)
  | .sparse => (s, false, some .runtimeError)
  | .dense g =>
    -- state initialisation
    let buf0 := match s.buf with
      | none => if 0 < h.momentum then some g else none
      | some b => some b
    -- grad.add_(point, alpha=weight_decay) in place
    let g1 := g + h.weightDecay • s.point
    let r := M.egrad2rgrad s.point g1
    if 0 < h.momentum then
      match buf0 with
      | none => (s, false, some .keyError)
      | some b0 =>
        let b := h.momentum • b0 + (1 - h.dampening) • r.value
        -- nesterov: grad.add_(momentum_buffer, alpha=momentum), in place
        let v := r.value + h.momentum • b
        let dir := if h.nesterov then v else b
        let gbuf := if h.nesterov && r.isView then v else r.arg
        let y := M.retrTransp s.point (-h.lr • dir) b
        (⟨y.1, .dense gbuf, some y.2⟩, false, none)
    else
      (⟨M.retr s.point (-h.lr • r.value), .dense r.arg, buf0⟩, false, none)

open Classical in
/-- The body of `RiemannianSGD.stabilize_group`, `geoopt/optim/rsgd.py:124-138`. -/
noncomputable def sgdStab {ι : Type} (isManifold : Bool) (M : Manifold ι) (h : SGDHyper)
    (s : SGDParam ι) : SGDParam ι :=
  if isManifold = false then s
  else
    let x := M.projx s.point
    if 0 < h.momentum then ⟨x, s.grad, s.buf.map (M.proju x)⟩ else ⟨x, s.grad, s.buf⟩

/-- The manifolds of the parameters: `point.manifold` for manifold parameters. -/
structure Params (κ : Type) (ι : κ → Type) where
  isManifold : κ → Bool
  man : ∀ a, Manifold (ι a)

/-- `manifold = point.manifold` or `self._default_manifold`, `geoopt/optim/rsgd.py:91-94`,
`radam.py:62-65`. -/
def Params.manifold {κ : Type} {ι : κ → Type} (P : Params κ ι) (a : κ) : Manifold (ι a) :=
  if P.isManifold a then P.man a else euclidean (ι a)

section SGD
variable {κ : Type} [DecidableEq κ] {ι : κ → Type} (P : Params κ ι)

/-- Contents of all parameters and the groups. -/
structure SGD (κ : Type) (ι : κ → Type) where
  par : ∀ a, SGDParam (ι a)
  groups : List (Group SGDHyper κ)

/-- One group in `RiemannianSGD.step`, `geoopt/optim/rsgd.py:68-120`. -/
noncomputable def sgdGroup : (∀ a, SGDParam (ι a)) → Group SGDHyper κ →
    (∀ a, SGDParam (ι a)) × Group SGDHyper κ × Option PyErr :=
  counterGroup (fun h a => sgdParam (P.manifold a) h)
    (fun h a => sgdStab (P.isManifold a) (P.man a) h) SGDHyper.stabilize

/-- `RiemannianSGD.step()` after the closure, `geoopt/optim/rsgd.py:63-121`. -/
noncomputable def sgdStep (o : SGD κ ι) : SGD κ ι × Option PyErr :=
  match forGroups (sgdGroup P) o.groups o.par with
  | (w, Gs, e) => (⟨w, Gs⟩, e)

/-- `OptimMixin.stabilize()`, `geoopt/optim/mixin.py:19-22`. -/
noncomputable def sgdStabilize (o : SGD κ ι) : SGD κ ι :=
  { o with par := o.groups.foldl (fun w G =>
      stabParams (fun a => sgdStab (P.isManifold a) (P.man a) G.hyper) G.params w) o.par }

end SGD

/-! ## RiemannianAdam -/

/-- The options of a group of `RiemannianAdam` (those of `torch.optim.Adam`, and `stabilize`). -/
structure AdamHyper where
  lr : ℝ
  beta1 : ℝ
  beta2 : ℝ
  eps : ℝ
  weightDecay : ℝ
  amsgrad : Bool
  stabilize : Option ℕ

/-- The state of a parameter, `geoopt/optim/radam.py:73-82`. -/
structure AdamState (ι : Type) where
  step : ℕ
  expAvg : ι → ℝ
  expAvgSq : ι → ℝ
  maxExpAvgSq : Option (ι → ℝ)

/-- A parameter under `RiemannianAdam`. -/
structure AdamParam (ι : Type) where
  point : ι → ℝ
  grad : Grad ι
  state : Option (AdamState ι)

/-- State initialisation, `geoopt/optim/radam.py:72-83`. -/
def adamInit {ι : Type} (amsgrad : Bool) : Option (AdamState ι) → AdamState ι
  | some st => st
  | none => ⟨0, 0, 0, if amsgrad then some 0 else none⟩

/-- `direction`, `geoopt/optim/radam.py:93-107`: bias corrections, denominator from the second moment
`norm`, and the quotient. -/
noncomputable def adamDirection {ι : Type} (h : AdamHyper) (t : ℕ) (m norm : ι → ℝ) : ι → ℝ :=
  let c1 := 1 - h.beta1 ^ t
  let c2 := 1 - h.beta2 ^ t
  let denom : ι → ℝ := fun i => Real.sqrt (norm i / c2)
  fun i => m i / c1 / (denom i + h.eps)

/-- The end of the loop body, `geoopt/optim/radam.py:116-120`: is it time to stabilize? -/
def adamFlag (stabilize : Option ℕ) (t : ℕ) : Bool × Option PyErr :=
  match stabilize with
  | none => (false, none)
  | some k =>
    match isMultiple t k with
    | .error e => (false, some e)
    | .ok b => (b, none)

/-- The loop body of `RiemannianAdam.step`, `geoopt/optim/radam.py:58-120`.  `amsgrad` switched on
after the state was created raises `KeyError` after the moments were updated. -/
noncomputable def adamParam {ι : Type} (M : Manifold ι) (h : AdamHyper) (s : AdamParam ι) :
    AdamParam ι × Bool × Option PyErr :=
  match s.grad with
  | .none => (s, false, none)
  | .sparse => (s, false, some .runtimeError)
  | .dense g =>
    let st := adamInit h.amsgrad s.state
    let t := st.step + 1
    -- grad.add_(point, alpha=weight_decay) in place
    let r := M.egrad2rgrad s.point (g + h.weightDecay • s.point)
    let m := h.beta1 • st.expAvg + (1 - h.beta1) • r.value
    let v := h.beta2 • st.expAvgSq + (1 - h.beta2) • M.componentInner s.point r.value
    match h.amsgrad, st.maxExpAvgSq with
    | true, none => (⟨s.point, .dense r.arg, some ⟨t, m, v, none⟩⟩, false, some .keyError)
    | true, some vm =>
      let vm' : ι → ℝ := fun i => max (vm i) (v i)
      let y := M.retrTransp s.point (-h.lr • adamDirection h t m vm') m
      (⟨y.1, .dense r.arg, some ⟨t, y.2, v, some vm'⟩⟩, adamFlag h.stabilize t)
    | false, vm =>
      let y := M.retrTransp s.point (-h.lr • adamDirection h t m v) m
      (⟨y.1, .dense r.arg, some ⟨t, y.2, v, vm⟩⟩, adamFlag h.stabilize t)

/-- The body of `RiemannianAdam.stabilize_group`, `geoopt/optim/radam.py:126-136`. -/
def adamStab {ι : Type} (isManifold : Bool) (M : Manifold ι) (s : AdamParam ι) : AdamParam ι :=
  if isManifold = false then s
  else match s.state with
    | none => s
    | some st => let x := M.projx s.point
      ⟨x, s.grad, some { st with expAvg := M.proju x st.expAvg }⟩

section Adam
variable {κ : Type} [DecidableEq κ] {ι : κ → Type} (P : Params κ ι)

/-- Contents of all parameters and the groups (no step counter per group). -/
structure Adam (κ : Type) (ι : κ → Type) where
  par : ∀ a, AdamParam (ι a)
  groups : List (AdamHyper × List κ)

/-- One group in `RiemannianAdam.step`, `geoopt/optim/radam.py:50-122`. -/
noncomputable def adamGroup : (∀ a, AdamParam (ι a)) → AdamHyper × List κ →
    (∀ a, AdamParam (ι a)) × (AdamHyper × List κ) × Option PyErr :=
  flagGroup (fun h a => adamParam (P.manifold a) h) (fun _ a => adamStab (P.isManifold a) (P.man a))

/-- `RiemannianAdam.step()` after the closure, `geoopt/optim/radam.py:46-123`. -/
noncomputable def adamStep (o : Adam κ ι) : Adam κ ι × Option PyErr :=
  match forGroups (adamGroup P) o.groups o.par with
  | (w, Gs, e) => (⟨w, Gs⟩, e)

/-- `OptimMixin.stabilize()`, `geoopt/optim/mixin.py:19-22`. -/
def adamStabilize (o : Adam κ ι) : Adam κ ι :=
  { o with par := o.groups.foldl (fun w G =>
      stabParams (fun a => adamStab (P.isManifold a) (P.man a)) G.2 w) o.par }

end Adam

end Geoopt.Optim
