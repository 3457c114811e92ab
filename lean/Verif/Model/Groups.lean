import Verif.Model.Optim
import Verif.Model.LineSearch
import Verif.Model.Samplers

/-!
# Constructors and `add_param_group`

A parameter group is a Python dictionary that the user makes and the optimiser keeps: both refer to the
same object.  Dictionaries are therefore kept in a memory, by address.  `torch.optim.Optimizer.__init__`
and `torch.optim.Optimizer.add_param_group` are outside of the code base; what they do is stated in the
comments of the definitions that use them.  Parameters are named by `κ`.
-/

namespace Geoopt.Groups

open Geoopt.Optim

/-! ## RiemannianSGD -/

/-- A parameter group as a dictionary: the keys of `geoopt/optim/rsgd.py:52-58`, `stabilize`
(`geoopt/optim/mixin.py:13`) and `step` (`rsgd.py:69-70`).  `none` is a missing key, so that
`stabilize = some none` is the entry `"stabilize": None`. -/
structure Dict (κ : Type) where
  params : List κ
  lr : Option ℝ := none
  momentum : Option ℝ := none
  dampening : Option ℝ := none
  weightDecay : Option ℝ := none
  nesterov : Option Bool := none
  stabilize : Option (Option ℕ) := none
  step : Option ℕ := none

/-- `d.setdefault(key, v)`. -/
def setdefault {α : Type} (entry : Option α) (v : α) : Option α := some (entry.getD v)

/-- What `OptimMixin.add_param_group`, `geoopt/optim/mixin.py:13`, and torch's `add_param_group` (its
loop over `self.defaults`) write into the dictionary: the defaults of the constructor for the keys that are
missing. -/
def fill {κ : Type} (d : SGDHyper) (g : Dict κ) : Dict κ :=
  { g with
    lr := setdefault g.lr d.lr, momentum := setdefault g.momentum d.momentum,
    dampening := setdefault g.dampening d.dampening,
    weightDecay := setdefault g.weightDecay d.weightDecay,
    nesterov := setdefault g.nesterov d.nesterov,
    stabilize := setdefault g.stabilize d.stabilize }

/-- The dictionaries of the program, by address. -/
abbrev Mem (κ : Type) := ℕ → Dict κ

/-- The options in a filled dictionary, as `step` reads them, `geoopt/optim/rsgd.py:71-75,116`. -/
def hyper {κ : Type} (g : Dict κ) : SGDHyper :=
  ⟨g.lr.getD 0, g.momentum.getD 0, g.dampening.getD 0, g.weightDecay.getD 0, g.nesterov.getD false,
    g.stabilize.getD none⟩

section
variable {κ : Type} [DecidableEq κ]

/-- `add_param_group(param_group)` of an optimiser with the groups `gs`, `geoopt/optim/mixin.py:12-14`:
fill in the dictionary, then torch compares the parameters with those of the groups it has and raises
`ValueError` when one appears twice, else appends the dictionary itself. -/
def addParamGroup (d : SGDHyper) (a : ℕ) (gs : List ℕ) (m : Mem κ) :
    Mem κ × List ℕ × Option PyErr :=
  let m' := Function.update m a (fill d (m a))
  if (m a).params.any (fun p => gs.any fun b => (m b).params.contains p) then
    (m', gs, some .valueError)
  else (m', gs ++ [a], none)

/-- torch's loop `for param_group in param_groups: self.add_param_group(param_group)`. -/
def addAll (d : SGDHyper) : List ℕ → List ℕ → Mem κ → Mem κ × List ℕ × Option PyErr
  | [], gs, m => (m, gs, none)
  | a :: as, gs, m =>
    match addParamGroup d a gs m with
    | (m', gs', some e) => (m', gs', some e)
    | (m', gs', none) => addAll d as gs' m'

/-- `RiemannianSGD(groups, **defaults)`, `geoopt/optim/rsgd.py:35-61`: the checks of the defaults, then
torch's constructor, which raises `ValueError` for an empty list and adds the groups one by one.  `none` in place of the
groups: no optimiser was made. -/
noncomputable def sgdNew (d : SGDHyper) (as : List ℕ) (m : Mem κ) :
    Mem κ × Except PyErr (List ℕ) :=
  match sgdInit d with
  | .error e => (m, .error e)
  | .ok d =>
    if as = [] then (m, .error .valueError)
    else
      match addAll d as [] m with
      | (m', _, some e) => (m', .error e)
      | (m', gs, none) => (m', .ok gs)

variable {ι : κ → Type}

/-- A dictionary as a group of `Verif.Model.Optim`. -/
def toGroup (g : Dict κ) : Group SGDHyper κ := ⟨hyper g, g.step.getD 0, g.params⟩

/-- The dictionaries after a step that left the counters `Gs`. -/
def writeSteps : List ℕ → List (Group SGDHyper κ) → Mem κ → Mem κ
  | a :: as, G :: Gs, m => writeSteps as Gs (Function.update m a { m a with step := some G.step })
  | _, _, m => m

/-- `step()` of the optimiser with the groups `gs`, `geoopt/optim/rsgd.py:63-121`, with the dictionaries
in the memory.  The addresses in `gs` are taken to be different. -/
noncomputable def stepMem (P : Params κ ι) (gs : List ℕ) (m : Mem κ) (w : ∀ a, SGDParam (ι a)) :
    Mem κ × (∀ a, SGDParam (ι a)) × Option PyErr :=
  match sgdStep P ⟨w, gs.map fun a => toGroup (m a)⟩ with
  | (o, e) => (writeSteps gs o.groups m, o.par, e)

end

/-! ## SparseRiemannianSGD -/

open Classical in
/-- The constructor checks `geoopt/optim/sparse_rsgd.py:48-51,59-60`; there is no weight decay. -/
noncomputable def sparseSgdInit (h : SGDHyper) : Except PyErr SGDHyper :=
  if h.lr < 0 then .error .valueError
  else if h.momentum < 0 then .error .valueError
  else if h.nesterov = true ∧ (h.momentum ≤ 0 ∨ h.dampening ≠ 0) then .error .valueError
  else .ok h

/-! ## RiemannianLineSearch -/

/-- A group of the line search: its parameters and the key `step`. -/
structure LSGroup (κ : Type) where
  params : List κ
  step : Option ℕ

/-- The optimiser: `self._params` and `self.param_groups`. -/
structure LSObj (κ : Type) where
  searched : List κ
  groups : List (LSGroup κ)

/-- The constructor, `geoopt/optim/rlinesearch.py:168-174`. -/
def lsNew {κ : Type} (gs : List (LSGroup κ)) : LSObj κ :=
  let gs' := gs.map fun g => { g with step := setdefault g.step 0 }
  ⟨gs'.flatMap LSGroup.params, gs'⟩

/-- `add_param_group` after construction: torch's, by `geoopt/optim/mixin.py:12-14`; the class does not
override it. -/
def LSObj.add {κ : Type} (o : LSObj κ) (g : LSGroup κ) : LSObj κ :=
  { o with groups := o.groups ++ [g] }

/-- The counters, `geoopt/optim/rlinesearch.py:521-522`: `group["step"] += 1` for every group. -/
def bump {κ : Type} : List (LSGroup κ) → List (LSGroup κ) × Option PyErr
  | [] => ([], none)
  | g :: gs =>
    match g.step with
    | none => (g :: gs, some .keyError)
    | some k =>
      match bump gs with
      | (gs', e) => ({ g with step := some (k + 1) } :: gs', e)

section
open Geoopt.LineSearch
variable {κ : Type} [Fintype κ] {ι : κ → Type}

/-- `LineSearch.conclude` for an optimiser that may have groups added after construction, `added`:
`geoopt/optim/rlinesearch.py:459-535`.  The groups of the constructor, counted and stabilized by
`stabilizeAfter`, come first in the loop of lines 521-527.  Simplification: an added group has no period
`stabilize` when it has the key `step`. -/
noncomputable def concludeAdded (C : Config κ ι) (f : LineSearch.Closure κ ι) {θ : Type}
    (added : List (LSGroup θ)) (force noStep : Bool) (phi0 : Option ℝ) (derphi0 : ℝ)
    (stepSize : Option ℝ) (s : LS κ ι) : LS κ ι × Except PyErr (Option ℝ) :=
  match afterSearch C force phi0 derphi0 stepSize s with
  | (s, α, redo) =>
    match commit C noStep redo α s with
    | .error e => (s, .error e)
    | .ok s =>
      match stabilizeAfter C s with
      | (s, some e) => (s, .error e)
      | (s, none) =>
        match bump added with
        | (_, some e) => (s, .error e)
        | (_, none) => report C f α s

/-- `step(closure, force_step, recompute_gradients, no_step)` with groups added after construction,
`geoopt/optim/rlinesearch.py:425-535`; `κ` are the parameters in `self._params`. -/
noncomputable def stepAdded (C : Config κ ι) (f : LineSearch.Closure κ ι) {θ : Type}
    (added : List (LSGroup θ)) (force recompute noStep : Bool) (s : LS κ ι) :
    LS κ ι × Except PyErr (Option ℝ) :=
  match initLoss C f recompute s with
  | (s, .error e) => (s, .error e)
  | (s, .ok (phi0, derphi0)) =>
    match runSearch C f (C.method ⟨phi0, derphi0, s.oldPhi0, s.oldDerphi0, s.lastStepSize⟩)
        { s with stepSizeDic := [] } with
    | (s, .error e) => (s, .error e)
    | (s, .ok stepSize) => concludeAdded C f added force noStep phi0 derphi0 stepSize s

end

/-! ## Samplers -/

/-- `Sampler.__init__`, `geoopt/samplers/base.py:11-26`: the parameters of all groups are checked. -/
def samplerNew (gs : List (List (Option Bool))) : Except PyErr (List (List (Option Bool))) :=
  match Samplers.samplerInit gs.flatten with
  | .error e => .error e
  | .ok () => .ok gs

/-- `add_param_group` of a sampler: that of `geoopt/optim/mixin.py:12-14`, without the check. -/
def samplerAdd (gs : List (List (Option Bool))) (g : List (Option Bool)) :
    Except PyErr (List (List (Option Bool))) := .ok (gs ++ [g])

end Geoopt.Groups
