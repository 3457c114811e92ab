import Verif.Model.Optim
import Mathlib.Analysis.SpecialFunctions.Log.Basic
import Mathlib.Algebra.BigOperators.Group.Finset.Basic

/-!
# `geoopt/samplers`: `Sampler`, `RHMC`, `RSGLD`, `SGRHMC`

The parameters of a sampler are named by a finite type `κ`, parameter `a` has the entries `ι a`; the
loops over groups and parameters treat every parameter on its own, so they are functions of `a`.
Random draws are arguments.  Simplification: which parameters the closure differentiates does not depend
on their values.
-/

namespace Geoopt.Samplers

open Geoopt.Optim (Manifold)

/-- `Sampler.__init__`, `geoopt/samplers/base.py:11-26`: each parameter is plain (`none`) or has a
manifold with the given `reversible`. -/
def samplerInit (params : List (Option Bool)) : Except PyErr Unit :=
  match params with
  | [] => .ok ()
  | none :: ps => samplerInit ps
  | some b :: ps => if !b then .error .valueError else samplerInit ps

/-- The log-probability, its gradient, and the parameters it depends on. -/
structure Closure (κ : Type) (ι : κ → Type) where
  logp : (∀ a, ι a → ℝ) → ℝ
  grad : (∀ a, ι a → ℝ) → ∀ a, ι a → ℝ
  dep : κ → Bool

/-! ## RHMC -/

/-- The state dictionary of a parameter, `geoopt/samplers/rhmc.py:65-68`. -/
structure Mom (ι : Type) where
  oldP : ι → ℝ
  oldR : ι → ℝ
  r : ι → ℝ

/-- A parameter, its `.grad` and its state. -/
structure Par (ι : Type) where
  point : ι → ℝ
  grad : Option (ι → ℝ) := none
  mom : Option (Mom ι) := none

/-- The manifolds, the `epsilon` of the group of every parameter, the order of the parameters over all
groups, and `n_steps`. -/
structure Config (κ : Type) (ι : κ → Type) where
  man : ∀ a, Manifold (ι a)
  eps : κ → ℝ
  order : List κ
  nSteps : ℕ

/-- The sampler. -/
structure RHMC (κ : Type) (ι : κ → Type) where
  par : ∀ a, Par (ι a)
  nRejected : ℕ := 0
  steps : ℕ := 0
  burnin : Bool := true
  logProbs : List ℝ := []
  acceptanceProbs : List ℝ := []

section
variable {κ : Type} {ι : κ → Type}

/-- The contents of the parameters. -/
def contents (w : ∀ a, Par (ι a)) : ∀ a, ι a → ℝ := fun a => (w a).point

/-- `rejection_rate`, `geoopt/samplers/base.py:28-33`. -/
noncomputable def rejectionRate (s : RHMC κ ι) : ℝ :=
  if s.steps > 0 then s.nRejected / s.steps else 0

/-- `closure().backward()`: gradients are accumulated. -/
def backward (f : Closure κ ι) (w : ∀ a, Par (ι a)) : ∀ a, Par (ι a) := fun a =>
  if f.dep a then { w a with grad := some ((w a).grad.getD 0 + f.grad (contents w) a) } else w a

/-- The new momentum of one parameter, `rhmc.py:53-77`; `noise` is what `normal_()` draws. -/
def refresh {ι : Type} (M : Manifold ι) (noise : ι → ℝ) (p : Par ι) : Par ι :=
  match p.grad with
  | none => p
  | some _ =>
    let r := (M.egrad2rgrad p.point noise).value
    { p with mom := some ⟨p.point, r, r⟩ }

/-- `_step(p, r, epsilon)` and `p.grad.zero_()`, `rhmc.py:31-43,79-81,87-93`. -/
def leap {ι : Type} (M : Manifold ι) (ε : ℝ) (p : Par ι) : Par ι :=
  match p.grad, p.mom with
  | some g, some m =>
    let r := m.r + ε • (M.egrad2rgrad p.point g).value
    let pr := M.retrTransp p.point (ε • r) r
    { point := pr.1, grad := some 0, mom := some { m with r := pr.2 } }
  | _, _ => p

/-- The last update of the momentum, `rhmc.py:101-115`; `ε` is the value the local variable `epsilon`
has been left with. -/
noncomputable def lastKick {ι : Type} (M : Manifold ι) (ε : ℝ) (p : Par ι) : Par ι :=
  match p.grad, p.mom with
  | some g, some m =>
    { p with grad := some 0,
             mom := some { m with r := m.r + (0.5 * ε) • (M.egrad2rgrad p.point g).value } }
  | _, _ => p

/-- Restoring one parameter after a rejection, `rhmc.py:129-137`. -/
def restore {ι : Type} (p : Par ι) : Par ι :=
  match p.grad, p.mom with
  | some _, some m => { p with point := m.oldP, mom := some { m with r := m.oldR } }
  | _, _ => p

/-- The value left in `epsilon` by the first loop, `rhmc.py:79`: that of the last parameter with a
gradient. -/
noncomputable def leakedEps (C : Config κ ι) (w : ∀ a, Par (ι a)) : ℝ :=
  ((C.order.filter fun a => (w a).grad.isSome).getLast?.map C.eps).getD 0

/-- The largest argument for which `math.exp` does not raise `OverflowError` (up to rounding): the
logarithm of the largest double. -/
noncomputable def expMax : ℝ := Real.log ((2 - 1 / 2 ^ 52) * 2 ^ 1023)

variable [Fintype κ] [∀ a, Fintype (ι a)]

/-- The sum of `0.5 * (r * r).sum()` over the parameters with a gradient, `rhmc.py:74,117`. -/
noncomputable def kinetic (w : ∀ a, Par (ι a)) : ℝ :=
  ∑ a, match (w a).grad, (w a).mom with
    | some _, some m => 0.5 * ∑ i, m.r i * m.r i
    | _, _ => 0

/-- One round of the inner loop, `rhmc.py:83-93`. -/
def roundOf (C : Config κ ι) (f : Closure κ ι) (w : ∀ a, Par (ι a)) : ∀ a, Par (ι a) := fun a =>
  leap (C.man a) (C.eps a) (backward f w a)

/-- The proposal, `rhmc.py:46-117`, after the first `backward`: the states after the momenta are drawn,
and at the end of the trajectory. -/
noncomputable def propose (C : Config κ ι) (f : Closure κ ι) (noise : ∀ a, ι a → ℝ)
    (w : ∀ a, Par (ι a)) : (∀ a, Par (ι a)) × (∀ a, Par (ι a)) :=
  let w1 : ∀ a, Par (ι a) := fun a => refresh (C.man a) (noise a) (w a)
  let w2 : ∀ a, Par (ι a) := fun a => leap (C.man a) (C.eps a) (w1 a)
  let w3 := backward f ((roundOf C f)^[C.nSteps - 1] w2)
  (w1, fun a => lastKick (C.man a) (leakedEps C w) (w3 a))

/-- `step(closure)`, `rhmc.py:45-141`; `u` is `np.random.rand(1)`. -/
noncomputable def RHMC.step (C : Config κ ι) (f : Closure κ ι) (noise : ∀ a, ι a → ℝ) (u : ℝ)
    (s : RHMC κ ι) : RHMC κ ι × Option PyErr :=
  let w := backward f s.par
  let oldLogp := f.logp (contents s.par)
  let pr := propose C f noise w
  let oldH := -oldLogp + kinetic pr.1
  let newLogp := f.logp (contents pr.2)
  let newH := -newLogp + kinetic pr.2
  open Classical in
  if expMax < oldH - newH then ({ s with par := pr.2 }, some .overflowError)
  else
    let rho := min 1 (Real.exp (oldH - newH))
    let s := if s.burnin then { s with par := pr.2 }
      else { s with par := pr.2, steps := s.steps + 1, acceptanceProbs := s.acceptanceProbs ++ [rho] }
    if rho ≤ u then
      ({ s with nRejected := if s.burnin then s.nRejected else s.nRejected + 1,
                par := fun a => restore (s.par a),
                logProbs := s.logProbs ++ [oldLogp] }, none)
    else ({ s with logProbs := s.logProbs ++ [newLogp] }, none)

/-- `stabilize_group` for one parameter, `rhmc.py:143-152` (the identity for plain parameters). -/
def stabilizePar {ι : Type} (M : Manifold ι) (p : Par ι) : Par ι :=
  { p with point := M.projx p.point, mom := p.mom.map fun m => { m with oldP := M.projx m.oldP } }

end

/-! ## RSGLD -/

/-- `RSGLD.step` for one parameter with gradient `g`, `geoopt/samplers/rsgld.py:31-46`; `noise` is
`randn_like(p)`.  (`math.sqrt` raises for a negative `epsilon`, `0.5 * epsilon * None` for a missing
gradient.) -/
noncomputable def rsgldParam {ι : Type} (M : Manifold ι) (ε : ℝ) (noise : ι → ℝ)
    (p : (ι → ℝ) × Option (ι → ℝ)) : ((ι → ℝ) × Option (ι → ℝ)) × Bool × Option PyErr :=
  open Classical in
  if ε < 0 then (p, false, some .valueError)
  else
    match p.2 with
    | none => (p, false, some .typeError)
    | some g =>
      let n := Real.sqrt ε • noise
      let r := (M.egrad2rgrad p.1 ((0.5 * ε) • g + n)).value
      ((M.retr p.1 r, some 0), false, none)

/-- The sampler: contents and gradients of the parameters, and the counters. -/
structure RSGLD (κ : Type) (ι : κ → Type) where
  par : ∀ a, (ι a → ℝ) × Option (ι a → ℝ)
  steps : ℕ := 0
  burnin : Bool := true
  logProbs : List ℝ := []

/-- `step(closure)`, `rsgld.py:27-50`. -/
noncomputable def RSGLD.step {κ : Type} [DecidableEq κ] {ι : κ → Type} (C : Config κ ι)
    (f : Closure κ ι) (noise : ∀ a, ι a → ℝ) (s : RSGLD κ ι) : RSGLD κ ι × Option PyErr :=
  let x : ∀ a, ι a → ℝ := fun a => (s.par a).1
  let logp := f.logp x
  let w : ∀ a, (ι a → ℝ) × Option (ι a → ℝ) := fun a =>
    if f.dep a then (x a, some ((s.par a).2.getD 0 + f.grad x a)) else s.par a
  match Optim.forParams (fun a => rsgldParam (C.man a) (C.eps a) (noise a)) C.order w with
  | (w', _, some e) => ({ s with par := w' }, some e)
  | (w', _, none) =>
    if s.burnin then ({ s with par := w' }, none)
    else ({ s with par := w', steps := s.steps + 1, logProbs := s.logProbs ++ [logp] }, none)

/-- `stabilize_group` for one parameter, `rsgld.py:52-57`. -/
def rsgldStabilize {ι : Type} (M : Manifold ι) (p : (ι → ℝ) × Option (ι → ℝ)) :
    (ι → ℝ) × Option (ι → ℝ) := (M.projx p.1, p.2)

/-! ## SGRHMC -/

/-- A parameter, its gradient and the velocity in its state. -/
structure VPar (ι : Type) where
  point : ι → ℝ
  grad : Option (ι → ℝ) := none
  v : ι → ℝ := 0

/-- The body of the inner loop for one parameter, `geoopt/samplers/sgrhmc.py:55-77`; `noise` is
`randn_like(v)`. -/
noncomputable def sgrhmcParam {ι : Type} (M : Manifold ι) (ε α : ℝ) (noise : ι → ℝ) (p : VPar ι) :
    VPar ι × Bool × Option PyErr :=
  let pv := M.retrTransp p.point p.v p.v
  let n := (M.egrad2rgrad pv.1 noise).value
  match p.grad with
  | none => ({ p with point := pv.1, v := (1 - α) • pv.2 }, false, some .typeError)
  | some g =>
    let v := (1 - α) • pv.2 + ε • g
    open Classical in
    if 2 * α * ε < 0 then ({ p with point := pv.1, v := v }, false, some .valueError)
    else ({ point := pv.1, grad := some 0, v := v + Real.sqrt (2 * α * ε) • n }, false, none)

/-- The sampler. -/
structure SGRHMC (κ : Type) (ι : κ → Type) where
  par : ∀ a, VPar (ι a)
  steps : ℕ := 0
  burnin : Bool := true
  logProbs : List ℝ := []

/-- The rounds of `step`, `sgrhmc.py:50-77`, one for each draw of the noise; the result also has the
log-probability of the last round. -/
noncomputable def sgrhmcRounds {κ : Type} [DecidableEq κ] {ι : κ → Type} (C : Config κ ι)
    (α : κ → ℝ) (f : Closure κ ι) : List (∀ a, ι a → ℝ) → Option ℝ → (∀ a, VPar (ι a)) →
    (∀ a, VPar (ι a)) × Option ℝ × Option PyErr
  | [], l, w => (w, l, none)
  | noise :: ns, _, w =>
    let x : ∀ a, ι a → ℝ := fun a => (w a).point
    let w1 : ∀ a, VPar (ι a) := fun a =>
      if f.dep a then { w a with grad := some ((w a).grad.getD 0 + f.grad x a) } else w a
    match Optim.forParams (fun a => sgrhmcParam (C.man a) (C.eps a) (α a) (noise a)) C.order w1 with
    | (w2, _, some e) => (w2, some (f.logp x), some e)
    | (w2, _, none) => sgrhmcRounds C α f ns (some (f.logp x)) w2

/-- `step(closure)`, `sgrhmc.py:32-84`; `start` is the noise for the velocities, `noises` holds
`n_steps + 1` draws.  (The energies that the code sums up are not used by it.) -/
noncomputable def SGRHMC.step {κ : Type} [DecidableEq κ] {ι : κ → Type} (C : Config κ ι)
    (α : κ → ℝ) (f : Closure κ ι) (start : ∀ a, ι a → ℝ) (noises : List (∀ a, ι a → ℝ))
    (s : SGRHMC κ ι) : SGRHMC κ ι × Option PyErr :=
  let w : ∀ a, VPar (ι a) := fun a => { s.par a with v := C.eps a • start a }
  match sgrhmcRounds C α f noises none w with
  | (w', _, some e) => ({ s with par := w' }, some e)
  | (w', l, none) =>
    if s.burnin then ({ s with par := w' }, none)
    else ({ s with par := w', steps := s.steps + 1, logProbs := s.logProbs ++ [l.getD 0] }, none)

/-- `stabilize_group` for one parameter, `sgrhmc.py:86-98`. -/
def sgrhmcStabilize {ι : Type} (M : Manifold ι) (p : VPar ι) : VPar ι :=
  { p with point := M.projx p.point, v := M.proju (M.projx p.point) p.v }

end Geoopt.Samplers
