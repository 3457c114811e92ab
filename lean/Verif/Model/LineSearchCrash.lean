import Verif.Model.LineSearch

/-!
# `RiemannianLineSearch.step` with a closure that raises

The closure answers `n` more times and then raises (an interrupt, a lack of memory, an error in the user's
code).  The functions are those of `Verif.Model.LineSearch` with the number of remaining answers threaded
through; the outcome `none` is the exception of the closure, which `step` does not catch.  They return the state at that
moment.
-/

namespace Geoopt.LineSearch

variable {κ : Type} [Fintype κ] {ι : κ → Type}

/-- What a call gives: `none` when the closure raised, else the result or an exception of the
library. -/
abbrev Outcome (α : Type) := Option (Except PyErr α)

/-- `_phi(step_size)`, `rlinesearch.py:233-304`: the closure is called at line 269, after the parameters
have been moved (lines 241-266) and before they are rolled back (lines 294-300). -/
noncomputable def phiUntil (C : Config κ ι) (f : Closure κ ι) (α : ℝ) (n : ℕ) (s : LS κ ι) :
    LS κ ι × ℕ × Outcome ℝ :=
  match dicGet s.stepSizeDic α with
  | some v => (s, n, some (.ok v))
  | none =>
    open Classical in
    if ∃ a, (s.par a).searchDir = none then (s, n, some (.error .valueError))
    else
      let moved := fun a => moveTrial (C.man a) C.computeDerphi α (s.par a)
        ((s.par a).searchDir.getD 0)
      match n with
      | 0 => ({ s with par := moved }, 0, none)
      | n + 1 => match phi C f α s with
        | (s', r) => (s', n, some r)

/-- `_derphi(step_size)`, `rlinesearch.py:306-330`. -/
noncomputable def derphiUntil (C : Config κ ι) (f : Closure κ ι) (α : ℝ) (n : ℕ) (s : LS κ ι) :
    LS κ ι × ℕ × Outcome ℝ :=
  if C.computeDerphi = false then (s, n, some (.error .valueError))
  else
    match phiUntil C f α n s with
    | (s', m, none) => (s', m, none)
    | (s', m, some (.error e)) => (s', m, some (.error e))
    | (s', m, some (.ok _)) => (s', m, some (.ok (∑ a, ((s'.par a).derPhi.getD 0))))

/-- Running a line search method. -/
noncomputable def runSearchUntil (C : Config κ ι) (f : Closure κ ι) :
    Search → ℕ → LS κ ι → LS κ ι × ℕ × Outcome (Option ℝ)
  | .done r, n, s => (s, n, some (.ok r))
  | .phi α next, n, s =>
    match phiUntil C f α n s with
    | (s', m, none) => (s', m, none)
    | (s', m, some (.error e)) => (s', m, some (.error e))
    | (s', m, some (.ok v)) => runSearchUntil C f (next v) m s'
  | .derphi α next, n, s =>
    match derphiUntil C f α n s with
    | (s', m, none) => (s', m, none)
    | (s', m, some (.error e)) => (s', m, some (.error e))
    | (s', m, some (.ok v)) => runSearchUntil C f (next v) m s'

/-- `_init_loss(recompute_gradients)`, `rlinesearch.py:332-371`: the closure is called first, if at
all. -/
noncomputable def initLossUntil (C : Config κ ι) (f : Closure κ ι) (recompute : Bool) (n : ℕ)
    (s : LS κ ι) : LS κ ι × ℕ × Outcome (Option ℝ × ℝ) :=
  if recompute || !s.gradsComputed then
    match n with
    | 0 => (s, 0, none)
    | n + 1 => match initLoss C f recompute s with
      | (s', r) => (s', n, some r)
  else match initLoss C f recompute s with
    | (s', r) => (s', n, some r)

/-- The returned loss, `rlinesearch.py:529-535`. -/
noncomputable def reportUntil (C : Config κ ι) (f : Closure κ ι) (stepSize : Option ℝ) (n : ℕ)
    (s : LS κ ι) : LS κ ι × ℕ × Outcome (Option ℝ) :=
  match stepSize with
  | none => (s, n, some (.ok s.prevLoss))
  | some α =>
    match phiUntil C f α n s with
    | (s, m, none) => (s, m, none)
    | (s, m, some (.error e)) => (s, m, some (.error e))
    | (s, m, some (.ok v)) => ({ s with prevLoss := some v }, m, some (.ok (some v)))

/-- The second half of `step`, `rlinesearch.py:459-535`. -/
noncomputable def concludeUntil (C : Config κ ι) (f : Closure κ ι) (force noStep : Bool)
    (phi0 : Option ℝ) (derphi0 : ℝ) (stepSize : Option ℝ) (n : ℕ) (s : LS κ ι) :
    LS κ ι × ℕ × Outcome (Option ℝ) :=
  match afterSearch C force phi0 derphi0 stepSize s with
  | (s, α, redo) =>
    match commit C noStep redo α s with
    | .error e => (s, n, some (.error e))
    | .ok s =>
      match stabilizeAfter C s with
      | (s, some e) => (s, n, some (.error e))
      | (s, none) => reportUntil C f α n s

/-- `step(closure, force_step, recompute_gradients, no_step)`, `rlinesearch.py:425-535`. -/
noncomputable def stepUntil (C : Config κ ι) (f : Closure κ ι) (force recompute noStep : Bool) (n : ℕ)
    (s : LS κ ι) : LS κ ι × ℕ × Outcome (Option ℝ) :=
  match initLossUntil C f recompute n s with
  | (s, m, none) => (s, m, none)
  | (s, m, some (.error e)) => (s, m, some (.error e))
  | (s, m, some (.ok (phi0, derphi0))) =>
    match runSearchUntil C f (C.method ⟨phi0, derphi0, s.oldPhi0, s.oldDerphi0, s.lastStepSize⟩) m
        { s with stepSizeDic := [] } with
    | (s, m, none) => (s, m, none)
    | (s, m, some (.error e)) => (s, m, some (.error e))
    | (s, m, some (.ok stepSize)) => concludeUntil C f force noStep phi0 derphi0 stepSize m s

end Geoopt.LineSearch
