import Verif.Model.Shapes
import Mathlib.Data.Real.Basic
import Mathlib.Algebra.Module.Pi
import Mathlib.Algebra.BigOperators.Group.Finset.Basic

/-!
# `geoopt/optim/rlinesearch.py`: `RiemannianLineSearch`

The parameters are named by a finite type `κ`; parameter `a` has entries `ι a`.  The loops over the
parameters treat each one independently, so they are written as functions of `a`.  The state of the
optimiser holds the per-parameter dictionaries (a missing key is `none`), the attributes and the
contents of the parameters.

Simplifications: one parameter group; every parameter receives a gradient from the closure (otherwise
`_init_loss` raises); the closure resets the gradients itself, as documented; `egrad2rgrad` is only its
result; `prev_grad`, which no built-in rule reads, is left out.
-/

namespace Geoopt.LineSearch

/-- What the line search uses of a manifold; `inner x u v` is `torch.sum(manifold.inner(x, u, v))`. -/
structure Manifold (ι : Type) where
  egrad2rgrad : (ι → ℝ) → (ι → ℝ) → (ι → ℝ)
  retr : (ι → ℝ) → (ι → ℝ) → (ι → ℝ)
  retrTransp : (ι → ℝ) → (ι → ℝ) → (ι → ℝ) → (ι → ℝ) × (ι → ℝ)
  transpFollowRetr : (ι → ℝ) → (ι → ℝ) → (ι → ℝ) → (ι → ℝ)
  projx : (ι → ℝ) → (ι → ℝ)
  proju : (ι → ℝ) → (ι → ℝ) → (ι → ℝ)
  inner : (ι → ℝ) → (ι → ℝ) → (ι → ℝ) → ℝ

/-- `Euclidean()`, used for plain parameters, `geoopt/manifolds/euclidean.py`. -/
def euclidean (ι : Type) [Fintype ι] : Manifold ι where
  egrad2rgrad _ g := g
  retr x u := x + u
  retrTransp x u v := (x + u, v)
  transpFollowRetr _ _ v := v
  projx x := x
  proju _ u := u
  inner _ u v := ∑ i, u i * v i

/-- A parameter and its `state` dictionary. -/
structure Par (ι : Type) where
  point : ι → ℝ
  searchDir : Option (ι → ℝ) := none
  searchTransported : Option (ι → ℝ) := none
  newPoint : Option (ι → ℝ) := none
  newGrad : Option (ι → ℝ) := none
  grad : Option (ι → ℝ) := none
  gradTransported : Option (ι → ℝ) := none
  derPhi : Option ℝ := none
  prevGradNormSq : Option ℝ := none

variable {κ : Type} [Fintype κ] {ι : κ → Type}

/-- The closure: the loss and the gradients as functions of the parameters. -/
structure Closure (κ : Type) (ι : κ → Type) where
  loss : (∀ a, ι a → ℝ) → ℝ
  grad : (∀ a, ι a → ℝ) → ∀ a, ι a → ℝ

/-- A line search method in terms of what it does with `phi` and `derphi`: it asks for values, one
after another, and finally returns a step size or `None`. -/
inductive Search
  | done (stepSize : Option ℝ)
  | phi (stepSize : ℝ) (next : ℝ → Search)
  | derphi (stepSize : ℝ) (next : ℝ → Search)

/-- `phi_information`, `rlinesearch.py:448-454`. -/
structure Info where
  phi0 : Option ℝ
  derphi0 : ℝ
  oldPhi0 : Option ℝ
  oldDerphi0 : Option ℝ
  oldStepSize : Option ℝ

/-- The attributes fixed by `__init__`, `rlinesearch.py:142-231`.  `cg` is any rule for the conjugate
gradient coefficient, it sees the parameters and their states. -/
structure Config (κ : Type) (ι : κ → Type) where
  man : ∀ a, Manifold (ι a)
  isManifold : κ → Bool
  method : Info → Search
  cg : (∀ a, Par (ι a)) → Except PyErr ℝ
  computeDerphi : Bool
  transportGrad : Bool
  transportSearchDirection : Bool
  fallbackStepsize : ℝ
  stabilize : Option ℕ

/-- The optimiser. -/
structure LS (κ : Type) (ι : κ → Type) where
  par : ∀ a, Par (ι a)
  gradsComputed : Bool := false
  lastStep : Option ℝ := none
  stepSizeDic : List (ℝ × ℝ) := []
  prevLoss : Option ℝ := none
  oldPhi0 : Option ℝ := none
  oldDerphi0 : Option ℝ := none
  lastStepSize : Option ℝ := none
  history : List (Option ℝ) := []
  groupStep : ℕ := 0

/-- The contents of the parameters. -/
def LS.points (s : LS κ ι) : ∀ a, ι a → ℝ := fun a => (s.par a).point

open Classical in
/-- `dict.get` for the dictionary of trial values. -/
noncomputable def dicGet (d : List (ℝ × ℝ)) (α : ℝ) : Option ℝ :=
  (d.find? fun e => e.1 = α).map Prod.snd

/-- The first loop of `_phi` for one parameter, `rlinesearch.py:241-266`: move it along its search
direction. -/
def moveTrial {ι : Type} (M : Manifold ι) (computeDerphi : Bool) (α : ℝ) (p : Par ι) (d : ι → ℝ) :
    Par ι :=
  if computeDerphi then
    let r := M.retrTransp p.point (α • d) d
    let newPoint := M.projx r.1
    { p with point := newPoint, searchTransported := some (M.proju newPoint r.2) }
  else { p with point := M.retr p.point (α • d) }

/-- The second loop of `_phi` for one parameter, `rlinesearch.py:271-290`; `g` is `point.grad`. -/
def storeGrad {ι : Type} (M : Manifold ι) (p : Par ι) (g : ι → ℝ) : Par ι :=
  let grad := M.egrad2rgrad p.point g
  { p with newGrad := some grad,
           derPhi := p.searchTransported.map fun t => M.inner p.point grad t }

/-- `_phi(step_size)`, `rlinesearch.py:233-304`.  (A missing search direction raises; the parameters
moved before that stay moved in the code and are left alone here: a search direction exists whenever a
line search method runs.) -/
noncomputable def phi (C : Config κ ι) (f : Closure κ ι) (α : ℝ) (s : LS κ ι) :
    LS κ ι × Except PyErr ℝ :=
  match dicGet s.stepSizeDic α with
  | some v => (s, .ok v)
  | none =>
    open Classical in
    if ∃ a, (s.par a).searchDir = none then (s, .error .valueError)
    else
      let moved := fun a => moveTrial (C.man a) C.computeDerphi α (s.par a)
        ((s.par a).searchDir.getD 0)
      let at' : ∀ a, ι a → ℝ := fun a => (moved a).point
      -- phi = self.closure()
      let v := f.loss at'
      let graded := fun a => if C.computeDerphi then storeGrad (C.man a) (moved a) (f.grad at' a)
        else moved a
      -- roll back
      let rolled := fun a => { graded a with newPoint := some (graded a).point,
                                             point := (s.par a).point }
      ({ s with par := rolled, gradsComputed := s.gradsComputed || C.computeDerphi,
                stepSizeDic := (α, v) :: s.stepSizeDic, lastStep := some α }, .ok v)

/-- `_derphi(step_size)`, `rlinesearch.py:306-330`. -/
noncomputable def derphi (C : Config κ ι) (f : Closure κ ι) (α : ℝ) (s : LS κ ι) :
    LS κ ι × Except PyErr ℝ :=
  if C.computeDerphi = false then (s, .error .valueError)
  else
    match phi C f α s with
    | (s', .error e) => (s', .error e)
    | (s', .ok _) => (s', .ok (∑ a, ((s'.par a).derPhi.getD 0)))

/-- Running a line search method. -/
noncomputable def runSearch (C : Config κ ι) (f : Closure κ ι) :
    Search → LS κ ι → LS κ ι × Except PyErr (Option ℝ)
  | .done r, s => (s, .ok r)
  | .phi α next, s =>
    match phi C f α s with
    | (s', .error e) => (s', .error e)
    | (s', .ok v) => runSearch C f (next v) s'
  | .derphi α next, s =>
    match derphi C f α s with
    | (s', .error e) => (s', .error e)
    | (s', .ok v) => runSearch C f (next v) s'

/-- The new search direction of one parameter, `rlinesearch.py:389-397`; `beta ≠ 0` needs the
transported old direction (`KeyError`). -/
noncomputable def cgDirection {ι : Type} (beta : ℝ) (g : ι → ℝ) (p : Par ι) :
    Except PyErr (ι → ℝ) :=
  open Classical in
  if beta ≠ 0 then
    match p.searchTransported with
    | none => .error .keyError
    | some t => .ok (-g + beta • t)
  else .ok (-g)

/-- The derivative at zero, `rlinesearch.py:399-409`. -/
def slope (C : Config κ ι) (s : LS κ ι) (g d : ∀ a, ι a → ℝ) : ℝ :=
  ∑ a, (C.man a).inner (s.par a).point (g a) (d a)

/-- The directions before the check for descent, `rlinesearch.py:379-397`. -/
noncomputable def proposeDirection (C : Config κ ι) (s : LS κ ι) (g : ∀ a, ι a → ℝ) :
    Except PyErr (∀ a, ι a → ℝ) :=
  open Classical in
  if ∃ a, (s.par a).searchDir = none then
    -- first time: only the missing ones are set
    .ok fun a => ((s.par a).searchDir).getD (-(g a))
  else
    match C.cg s.par with
    | .error e => .error e
    | .ok beta =>
      if beta ≠ 0 ∧ ∃ a, (s.par a).searchTransported = none then .error .keyError
      else .ok fun a => match cgDirection beta (g a) (s.par a) with
        | .ok d => d
        | .error _ => 0

/-- `_compute_search_direction()`, `rlinesearch.py:373-423`; `g` are the gradients just stored in the
states. -/
noncomputable def computeSearchDirection (C : Config κ ι) (s : LS κ ι) (g : ∀ a, ι a → ℝ) :
    LS κ ι × Except PyErr ℝ :=
  match proposeDirection C s g with
  | .error e => (s, .error e)
  | .ok d =>
    let derphi0 := slope C s g d
    open Classical in
    if 0 ≤ derphi0 then
      -- revert to the gradient
      ({ s with par := fun a => { s.par a with searchDir := some (-(g a)) } },
        .ok (-∑ a, (C.man a).inner (s.par a).point (g a) (g a)))
    else ({ s with par := fun a => { s.par a with searchDir := some (d a) } }, .ok derphi0)

/-- The loss and the gradients that `_init_loss` starts from, `rlinesearch.py:339-358`: recomputed or
taken from the last trial. -/
noncomputable def startGrads (C : Config κ ι) (f : Closure κ ι) (recompute : Bool) (s : LS κ ι) :
    Except PyErr (Option ℝ × (∀ a, ι a → ℝ)) :=
  if recompute || !s.gradsComputed then
    .ok (some (f.loss s.points), fun a => (C.man a).egrad2rgrad (s.par a).point (f.grad s.points a))
  else
    open Classical in
    if ∃ a, (s.par a).newGrad = none then .error .keyError
    else .ok (s.prevLoss, fun a => (s.par a).newGrad.getD 0)

/-- `_init_loss(recompute_gradients)`, `rlinesearch.py:332-371`. -/
noncomputable def initLoss (C : Config κ ι) (f : Closure κ ι) (recompute : Bool) (s : LS κ ι) :
    LS κ ι × Except PyErr (Option ℝ × ℝ) :=
  match startGrads C f recompute s with
  | .error e => (s, .error e)
  | .ok (loss, g) =>
    let s1 := { s with
      stepSizeDic := [],
      par := fun a =>
        { s.par a with
          prevGradNormSq := match (s.par a).grad with
            | some old => some ((C.man a).inner (s.par a).point old old)
            | none => (s.par a).prevGradNormSq
          grad := some (g a) } }
    match computeSearchDirection C s1 g with
    | (s2, .error e) => (s2, .error e)
    | (s2, .ok derphi0) => ({ s2 with gradsComputed := true }, .ok (loss, derphi0))

/-- The move of one parameter, `rlinesearch.py:489-519`. -/
def moveParam {ι : Type} (M : Manifold ι) (transportSearch transportGrad redo : Bool) (α : ℝ)
    (p : Par ι) : Except PyErr (Par ι) :=
  match p.searchDir with
  | none => .ok p
  | some d =>
    match (if redo then some (M.retr p.point (α • d)) else p.newPoint) with
    | none => .error .keyError
    | some newPoint =>
      let p1 := if transportSearch then
        { p with searchTransported := some (M.transpFollowRetr p.point (α • d) d) } else p
      if transportGrad then
        match p.grad with
        | none => .error .keyError
        | some g => .ok { p1 with gradTransported := some (M.transpFollowRetr p.point (α • d) g),
                                  point := newPoint }
      else .ok { p1 with point := newPoint }

/-- The loop that moves the parameters, `rlinesearch.py:486-519`.  (When one of them raises the
parameters before it have moved; that partial state is not modelled.) -/
noncomputable def moveAll (C : Config κ ι) (redo : Bool) (α : ℝ) (s : LS κ ι) :
    Except PyErr (LS κ ι) :=
  let moved := fun a => moveParam (C.man a) C.transportSearchDirection C.transportGrad redo α (s.par a)
  open Classical in
  if ∃ a, ∃ e, moved a = .error e then .error .keyError
  else .ok { s with par := fun a => match moved a with
    | .ok p => p
    | .error _ => s.par a }

/-- `stabilize_group` inside `step`, `rlinesearch.py:521-527,537-545`: `p.copy_` on a parameter that
requires a gradient, outside of `torch.no_grad()`, raises. -/
noncomputable def stabilizeAfter (C : Config κ ι) (s : LS κ ι) : LS κ ι × Option PyErr :=
  let s := { s with groupStep := s.groupStep + 1 }
  match C.stabilize with
  | none => (s, none)
  | some 0 => (s, some .zeroDivisionError)
  | some (k + 1) =>
    open Classical in
    if s.groupStep % (k + 1) = 0 ∧ ∃ a, C.isManifold a = true then (s, some .runtimeError)
    else (s, none)

/-- The bookkeeping after the line search method has returned, `rlinesearch.py:459-484`: the new
state, the step size to take and `redo_retract`. -/
noncomputable def afterSearch (C : Config κ ι) (force : Bool) (phi0 : Option ℝ) (derphi0 : ℝ)
    (stepSize : Option ℝ) (s : LS κ ι) : LS κ ι × Option ℝ × Bool :=
  open Classical in
  let redo := decide (s.lastStep ≠ stepSize)
  let s := { s with
    history := s.history ++ [stepSize], lastStepSize := stepSize,
    oldPhi0 := phi0, oldDerphi0 := some derphi0,
    gradsComputed := if redo || !C.computeDerphi then false else s.gradsComputed }
  match stepSize with
  | some α => (s, some α, redo)
  | none =>
    if force then ({ s with gradsComputed := false }, some C.fallbackStepsize, redo)
    else (s, none, redo)

/-- The move, `rlinesearch.py:486-519`. -/
noncomputable def commit (C : Config κ ι) (noStep redo : Bool) (stepSize : Option ℝ) (s : LS κ ι) :
    Except PyErr (LS κ ι) :=
  match stepSize with
  | none => .ok s
  | some α => if noStep then .ok s else moveAll C redo α s

/-- The returned loss, `rlinesearch.py:529-535`. -/
noncomputable def report (C : Config κ ι) (f : Closure κ ι) (stepSize : Option ℝ) (s : LS κ ι) :
    LS κ ι × Except PyErr (Option ℝ) :=
  match stepSize with
  | none => (s, .ok s.prevLoss)
  | some α =>
    match phi C f α s with
    | (s, .error e) => (s, .error e)
    | (s, .ok v) => ({ s with prevLoss := some v }, .ok (some v))

/-- The second half of `step`, after the line search method has returned `stepSize`,
`rlinesearch.py:459-535`. -/
noncomputable def conclude (C : Config κ ι) (f : Closure κ ι) (force noStep : Bool)
    (phi0 : Option ℝ) (derphi0 : ℝ) (stepSize : Option ℝ) (s : LS κ ι) :
    LS κ ι × Except PyErr (Option ℝ) :=
  match afterSearch C force phi0 derphi0 stepSize s with
  | (s, α, redo) =>
    match commit C noStep redo α s with
    | .error e => (s, .error e)
    | .ok s =>
      match stabilizeAfter C s with
      | (s, some e) => (s, .error e)
      | (s, none) => report C f α s

/-- `step(closure, force_step, recompute_gradients, no_step)`, `rlinesearch.py:425-535`. -/
noncomputable def step (C : Config κ ι) (f : Closure κ ι) (force recompute noStep : Bool)
    (s : LS κ ι) : LS κ ι × Except PyErr (Option ℝ) :=
  match initLoss C f recompute s with
  | (s, .error e) => (s, .error e)
  | (s, .ok (phi0, derphi0)) =>
    match runSearch C f (C.method ⟨phi0, derphi0, s.oldPhi0, s.oldDerphi0, s.lastStepSize⟩)
        { s with stepSizeDic := [] } with
    | (s, .error e) => (s, .error e)
    | (s, .ok stepSize) => conclude C f force noStep phi0 derphi0 stepSize s

/-! ### The conjugate gradient rules -/

/-- `cg_constant`, `rlinesearch.py:553-556`. -/
def cgConstant (alpha : ℝ) (_ : ∀ a, Par (ι a)) : Except PyErr ℝ := .ok alpha

/-- `cg_fletcher_reeves`, `rlinesearch.py:559-588`. -/
noncomputable def cgFletcherReeves (man : ∀ a, Manifold (ι a)) (p : ∀ a, Par (ι a)) :
    Except PyErr ℝ :=
  open Classical in
  if ∃ a, (p a).prevGradNormSq = none then .ok 0
  else
    let num := ∑ a, (man a).inner (p a).point ((p a).grad.getD 0) ((p a).grad.getD 0)
    let den := ∑ a, (p a).prevGradNormSq.getD 0
    if den = 0 then .ok 0 else .ok (num / den)

/-- `cg_polak_ribiere`, `rlinesearch.py:591-625`. -/
noncomputable def cgPolakRibiere (man : ∀ a, Manifold (ι a)) (p : ∀ a, Par (ι a)) :
    Except PyErr ℝ :=
  open Classical in
  if ∃ a, (p a).gradTransported = none then .ok 0
  else
    let num := ∑ a, (man a).inner (p a).point ((p a).grad.getD 0)
      ((p a).grad.getD 0 - (p a).gradTransported.getD 0)
    let den := ∑ a, (p a).prevGradNormSq.getD 0
    if den = 0 then .ok 0 else .ok (num / den)

/-! ### The line search methods -/

/-- The first step size that `armijo_backtracking` tries, `rlinesearch.py:698-705`. -/
noncomputable def armijoStart (phi0 derphi0 : ℝ) (oldPhi0 amax : Option ℝ) : ℝ :=
  open Classical in
  let alpha0 := match oldPhi0 with
    | some old => if derphi0 ≠ 0 then 1.01 * 2 * (phi0 - old) / derphi0 else 1
    | none => 1
  let alpha0 := if alpha0 ≤ 0 then 1 else alpha0
  match amax with
  | some m => min alpha0 m
  | none => alpha0

/-- `armijo_backtracking`, `rlinesearch.py:675-711`.  `scalar phi0 derphi0 c1 alpha0 amin` is SciPy's
`scalar_search_armijo`, outside of the code base.  (`phi0` is `None` only after a step that found no
step size, and then SciPy raises; the model stops without a step size.) -/
noncomputable def armijoBacktracking (scalar : ℝ → ℝ → ℝ → ℝ → ℝ → Search) (c1 amin : ℝ)
    (amax : Option ℝ) (i : Info) : Search :=
  match i.phi0 with
  | none => .done none
  | some phi0 => scalar phi0 i.derphi0 c1 (armijoStart phi0 i.derphi0 i.oldPhi0 amax) amin

/-- `strong_wolfe_line_search`, `rlinesearch.py:633-672`.  `scalar phi0 old_phi0 c1 c2 amax` is SciPy's
`scalar_search_wolfe2`, outside of the code base; it is not given `derphi0`. -/
def strongWolfeLineSearch (scalar : Option ℝ → Option ℝ → ℝ → ℝ → Option ℝ → Search) (c1 c2 : ℝ)
    (amax : Option ℝ) (i : Info) : Search :=
  scalar i.phi0 i.oldPhi0 c1 c2 amax

/-! ### The constructor -/

/-- The argument `line_search_method`. -/
inductive MethodArg
  | wolfe
  | armijo
  | callable (m : Info → Search)
  | other

/-- The argument `cg_method`; `constant alpha` stands for `"steepest"` and `"constant"` with
`cg_kwargs = {"alpha": alpha}`. -/
inductive CgArg (κ : Type) (ι : κ → Type)
  | constant (alpha : ℝ)
  | fr
  | pr
  | callable (c : (∀ a, Par (ι a)) → Except PyErr ℝ)
  | other

/-- `__init__`, `rlinesearch.py:142-231`: which method, rule and flags an optimiser gets.  `wolfe` and
`armijo` are the two methods with their `line_search_params`. -/
noncomputable def init (man : ∀ a, Manifold (ι a)) (isManifold : κ → Bool)
    (wolfe armijo : Info → Search) (method : MethodArg) (cg : CgArg κ ι)
    (computeDerphi transportGrad transportSearchDirection : Bool) (fallbackStepsize : ℝ)
    (stabilize : Option ℕ) : Except PyErr (Config κ ι) :=
  let C : Config κ ι :=
    { man := man, isManifold := isManifold, method := fun _ => .done none, cg := cgConstant 0,
      computeDerphi := computeDerphi, transportGrad := transportGrad,
      transportSearchDirection := transportSearchDirection, fallbackStepsize := fallbackStepsize,
      stabilize := stabilize }
  match (match method with
    | .wolfe => .ok { C with method := wolfe, computeDerphi := true }
    | .armijo => .ok { C with method := armijo, computeDerphi := false }
    | .callable m => .ok { C with method := m }
    | .other => .error .valueError : Except PyErr (Config κ ι)) with
  | .error e => .error e
  | .ok C =>
    match cg with
    | .constant alpha => .ok { C with cg := cgConstant alpha, transportSearchDirection := false }
    | .fr => .ok { C with cg := cgFletcherReeves man }
    | .pr => .ok { C with cg := cgPolakRibiere man, transportGrad := true }
    | .callable c => .ok { C with cg := c }
    | .other => .error .valueError

end Geoopt.LineSearch
