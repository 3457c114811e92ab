import Verif.Model.Optim
import Verif.Model.OptimSparse
import Verif.Model.LineSearch

/-!
# Saving and restoring optimisers

`state_dict()` and `load_state_dict()` are torch's; what they save is what the optimisers of geoopt put
in `self.state` and `self.param_groups` (`geoopt/optim/rsgd.py:68-87`, `radam.py:72-84`,
`sparse_rsgd.py:65-91`, `sparse_radam.py:89-101`, `mixin.py:12-14`), and nothing else.  All parameters
have the same index set here, so that the state of one can be given to another, as torch does.
-/

namespace Geoopt.Optim

/-- What `torch.optim.Optimizer.state_dict()` returns: for every group its options (everything in the
dictionary except `"params"`) and how many parameters it has, and the states of the parameters in the
order of the groups. -/
structure StateDict (H S : Type) where
  groups : List (H × ℕ)
  state : List S

section Torch
variable {κ H S : Type} [DecidableEq κ]

/-- `state_dict()` of an optimiser with these groups (options and parameters) and states. -/
def stateDict (groups : List (H × List κ)) (st : κ → S) : StateDict H S :=
  ⟨groups.map fun G => (G.1, G.2.length), (groups.flatMap Prod.snd).map st⟩

/-- `load_state_dict(d)`: the groups must match in number and size; the options of the groups are
replaced by the saved ones, and the saved states are given to the parameters in order.  `empty` is the
state of a parameter without an entry. -/
def loadStateDict (empty : S) (groups : List (H × List κ)) (d : StateDict H S) :
    Except PyErr (List (H × List κ) × (κ → S)) :=
  if groups.length ≠ d.groups.length then .error .valueError
  else if groups.map (fun G => G.2.length) ≠ d.groups.map Prod.snd then .error .valueError
  else .ok (List.zipWith (fun G g => (g.1, G.2)) groups d.groups,
    fun a => (((groups.flatMap Prod.snd).zip d.state).lookup a).getD empty)

end Torch

section Dense
variable {κ ι : Type} [DecidableEq κ]

/-! ### RiemannianSGD -/

/-- The checkpoint of a training run: the contents of the parameters (`model.state_dict()`) and
`optimizer.state_dict()`.  The options of a group include its step counter, `rsgd.py:69-76`; the state
of a parameter is its momentum buffer. -/
def sgdSave (o : SGD κ fun _ => ι) :
    (κ → ι → ℝ) × StateDict (SGDHyper × ℕ) (Option (ι → ℝ)) :=
  (fun a => (o.par a).point,
    stateDict (o.groups.map fun G => ((G.hyper, G.step), G.params)) fun a => (o.par a).buf)

/-- Restoring a checkpoint in a new process, with a newly constructed optimiser `o`. -/
def sgdLoad (o : SGD κ fun _ => ι)
    (c : (κ → ι → ℝ) × StateDict (SGDHyper × ℕ) (Option (ι → ℝ))) :
    Except PyErr (SGD κ fun _ => ι) :=
  match loadStateDict none (o.groups.map fun G => ((G.hyper, G.step), G.params)) c.2 with
  | .error e => .error e
  | .ok (gs, st) => .ok ⟨fun a => ⟨c.1 a, (o.par a).grad, st a⟩,
      gs.map fun G => ⟨G.1.1, G.1.2, G.2⟩⟩

/-- One iteration of training: `zero_grad()`, `backward()` and `step()`; `g` gives the gradients as a
function of the parameters. -/
noncomputable def sgdTrain {ι : κ → Type} (P : Params κ ι)
    (g : (∀ a, ι a → ℝ) → ∀ a, Grad (ι a)) (o : SGD κ ι) : SGD κ ι × Option PyErr :=
  sgdStep P { o with par := fun a => { o.par a with grad := g (fun a => (o.par a).point) a } }

/-! ### RiemannianAdam -/

/-- The checkpoint of a training run with `RiemannianAdam`; its step counters are in the states,
`radam.py:75-84`. -/
def adamSave (o : Adam κ fun _ => ι) : (κ → ι → ℝ) × StateDict AdamHyper (Option (AdamState ι)) :=
  (fun a => (o.par a).point, stateDict o.groups fun a => (o.par a).state)

/-- Restoring it. -/
def adamLoad (o : Adam κ fun _ => ι)
    (c : (κ → ι → ℝ) × StateDict AdamHyper (Option (AdamState ι))) :
    Except PyErr (Adam κ fun _ => ι) :=
  match loadStateDict none o.groups c.2 with
  | .error e => .error e
  | .ok (gs, st) => .ok ⟨fun a => ⟨c.1 a, (o.par a).grad, st a⟩, gs⟩

/-- One iteration of training. -/
noncomputable def adamTrain {ι : κ → Type} (P : Params κ ι)
    (g : (∀ a, ι a → ℝ) → ∀ a, Grad (ι a)) (o : Adam κ ι) : Adam κ ι × Option PyErr :=
  adamStep P { o with par := fun a => { o.par a with grad := g (fun a => (o.par a).point) a } }

end Dense

section Sparse
variable {κ ρ ι : Type} [DecidableEq κ] [DecidableEq ρ]

/-! ### The sparse optimisers -/

/-- The checkpoint of a training run with `SparseRiemannianSGD`, `sparse_rsgd.py:65-91`. -/
def sparseSgdSave (o : SparseSGD κ (fun _ => ρ) fun _ => ι) :
    (κ → ρ → ι → ℝ) × StateDict (SGDHyper × ℕ) (Option (ρ → ι → ℝ)) :=
  (fun a => (o.par a).point,
    stateDict (o.groups.map fun G => ((G.hyper, G.step), G.params)) fun a => (o.par a).buf)

/-- Restoring it. -/
def sparseSgdLoad (o : SparseSGD κ (fun _ => ρ) fun _ => ι)
    (c : (κ → ρ → ι → ℝ) × StateDict (SGDHyper × ℕ) (Option (ρ → ι → ℝ))) :
    Except PyErr (SparseSGD κ (fun _ => ρ) fun _ => ι) :=
  match loadStateDict none (o.groups.map fun G => ((G.hyper, G.step), G.params)) c.2 with
  | .error e => .error e
  | .ok (gs, st) => .ok ⟨fun a => ⟨c.1 a, (o.par a).grad, st a⟩,
      gs.map fun G => ⟨G.1.1, G.1.2, G.2⟩⟩

/-- One iteration of training. -/
noncomputable def sparseSgdTrain (P : Params κ fun _ => ι) (g : (κ → ρ → ι → ℝ) → κ → SGrad ρ ι)
    (o : SparseSGD κ (fun _ => ρ) fun _ => ι) :
    SparseSGD κ (fun _ => ρ) (fun _ => ι) × Option PyErr :=
  sparseSgdStep P { o with par := fun a => { o.par a with grad := g (fun a => (o.par a).point) a } }

/-- The checkpoint of a training run with `SparseRiemannianAdam`, `sparse_radam.py:89-101`. -/
def sparseAdamSave (o : SparseAdam κ (fun _ => ρ) fun _ => ι) :
    (κ → ρ → ι → ℝ) × StateDict AdamHyper (Option (SparseAdamState ρ ι)) :=
  (fun a => (o.par a).point, stateDict o.groups fun a => (o.par a).state)

/-- Restoring it; `__setstate__`, `sparse_radam.py:59-62`, only adds a missing `amsgrad` option, which
checkpoints of this version have. -/
def sparseAdamLoad (o : SparseAdam κ (fun _ => ρ) fun _ => ι)
    (c : (κ → ρ → ι → ℝ) × StateDict AdamHyper (Option (SparseAdamState ρ ι))) :
    Except PyErr (SparseAdam κ (fun _ => ρ) fun _ => ι) :=
  match loadStateDict none o.groups c.2 with
  | .error e => .error e
  | .ok (gs, st) => .ok ⟨fun a => ⟨c.1 a, (o.par a).grad, st a⟩, gs⟩

/-- One iteration of training. -/
noncomputable def sparseAdamTrain (P : Params κ fun _ => ι) (g : (κ → ρ → ι → ℝ) → κ → SGrad ρ ι)
    (o : SparseAdam κ (fun _ => ρ) fun _ => ι) :
    SparseAdam κ (fun _ => ρ) (fun _ => ι) × Option PyErr :=
  sparseAdamStep P { o with par := fun a => { o.par a with grad := g (fun a => (o.par a).point) a } }

end Sparse

end Geoopt.Optim

namespace Geoopt.LineSearch
variable {κ ι : Type}

/-! ### RiemannianLineSearch -/

/-- The checkpoint of a training run with `RiemannianLineSearch`: the parameters with their states and
the step counter of the group.  The loss, step size and slope of the last step are attributes of the
optimiser, `rlinesearch.py:223-231`, and are not saved.  (One order of parameters only; the states are
saved and restored under their names.) -/
def save (s : LS κ fun _ => ι) : (κ → Par ι) × ℕ := (s.par, s.groupStep)

/-- Restoring it in a newly constructed optimiser, `rlinesearch.py:223-231`.  The line search method,
the conjugate gradient rule and the flags stay those of the constructor. -/
def load (c : (κ → Par ι) × ℕ) : LS κ fun _ => ι := { par := c.1, groupStep := c.2 }

end Geoopt.LineSearch
