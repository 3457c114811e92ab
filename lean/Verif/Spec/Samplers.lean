import Verif.Model.Samplers

/-! Vocabulary for the samplers: energies, histories, reversible integrators. -/

namespace Geoopt.Samplers

variable {κ : Type} [Fintype κ] {ι : κ → Type} [∀ a, Fintype (ι a)]

/-- The momentum of a parameter; a parameter that takes no part in the motion has none. -/
def momentum {ι : Type} (p : Par ι) : ι → ℝ :=
  match p.grad, p.mom with
  | some _, some m => m.r
  | _, _ => 0

/-- The energy of a state: minus the log-probability plus half the squared length of all momenta. -/
noncomputable def energy (f : Closure κ ι) (w : ∀ a, Par (ι a)) : ℝ :=
  -f.logp (contents w) + (∑ a, ∑ i, momentum (w a) i ^ 2) / 2

/-- The histories of an `RHMC` sampler: the user calls `step` with any closure (any draws), and in between
changes `burnin` and the parameters and their gradients at will; a step may raise and be followed by
others.  `n` counts the calls of `step` that returned. -/
inductive RHMC.Reach (C : Config κ ι) : RHMC κ ι → ℕ → Prop
  | start (w : ∀ a, Par (ι a)) : RHMC.Reach C { par := w } 0
  | user {s : RHMC κ ι} {n : ℕ} (w : ∀ a, Par (ι a)) (b : Bool) : RHMC.Reach C s n →
      RHMC.Reach C { s with par := w, burnin := b } n
  | step {s : RHMC κ ι} {n : ℕ} (f : Closure κ ι) (noise : ∀ a, ι a → ℝ) (u : ℝ) :
      RHMC.Reach C s n → RHMC.Reach C (s.step C f noise u).1
        (if (s.step C f noise u).2 = none then n + 1 else n)

end Geoopt.Samplers

namespace Geoopt.Samplers

variable {κ : Type} [Fintype κ] {ι : κ → Type} [∀ a, Fintype (ι a)]

/-- A sampler that has not taken a step, at the parameters `x`. -/
def at' (x : ∀ a, ι a → ℝ) : ∀ a, Par (ι a) := fun a => { point := x a }

/-- From the parameters `x` with drawn momenta `r` the proposal is `x'` with final momenta `r'`. -/
def Ends (C : Config κ ι) (f : Closure κ ι) (x r x' r' : ∀ a, ι a → ℝ) : Prop :=
  ∃ noise : ∀ a, ι a → ℝ, (∀ a, ((C.man a).egrad2rgrad (x a) (noise a)).value = r a) ∧
    contents (propose C f noise (backward f (at' x))).2 = x' ∧
    ∀ a, ((propose C f noise (backward f (at' x))).2 a).mom.map Mom.r = some (r' a)

/-- The proposal is time-reversible: from the proposed parameters with negated momenta it leads back;
`On` are the manifolds. -/
def Reversible (C : Config κ ι) (f : Closure κ ι) (On : ∀ a, (ι a → ℝ) → Prop) : Prop :=
  ∀ x r x' r', (∀ a, On a (x a)) → Ends C f x r x' r' →
    Ends C f x' (fun a => -(r' a)) x fun a => -(r a)

/-- `r` can be drawn as momentum at the point `x`. -/
def Drawn {ι : Type} (M : Optim.Manifold ι) (On : (ι → ℝ) → Prop) (x r : ι → ℝ) : Prop :=
  On x ∧ ∃ g, (M.egrad2rgrad x g).value = r

/-- The motion without forces is reversible: following a vector and then following back the
transported and negated one. -/
structure FlowReversible {ι : Type} (M : Optim.Manifold ι) (On : (ι → ℝ) → Prop) (ε : ℝ) : Prop where
  back : ∀ {x r}, Drawn M On x r →
    M.retrTransp (M.retrTransp x (ε • r) r).1 (ε • -(M.retrTransp x (ε • r) r).2)
      (-(M.retrTransp x (ε • r) r).2) = (x, -r)
  tan : ∀ {x r}, Drawn M On x r →
    Drawn M On (M.retrTransp x (ε • r) r).1 (M.retrTransp x (ε • r) r).2
  neg : ∀ {x r}, Drawn M On x r → Drawn M On x (-r)
  zero : ∀ x, (M.egrad2rgrad x 0).value = 0

end Geoopt.Samplers

namespace Geoopt.Samplers

variable {κ : Type} [Fintype κ] [DecidableEq κ] {ι : κ → Type} [∀ a, Fintype (ι a)]

/-- The histories of a sampler of each kind from the parameters `x₀`, for a given configuration (the
manifolds, step sizes and number of steps): between the steps, which may raise, the user sets gradients
and counters and may call `stabilize()`, but does not write to the parameters. -/
inductive RHMC.Hist (C : Config κ ι) (x₀ : ∀ a, ι a → ℝ) : RHMC κ ι → Prop
  | start : RHMC.Hist C x₀ { par := at' x₀ }
  | user {s s' : RHMC κ ι} : RHMC.Hist C x₀ s →
      (∀ a, (s'.par a).point = (s.par a).point ∧ (s'.par a).mom = (s.par a).mom) → RHMC.Hist C x₀ s'
  | step {s : RHMC κ ι} (f : Closure κ ι) (noise : ∀ a, ι a → ℝ) (u : ℝ) :
      RHMC.Hist C x₀ s → RHMC.Hist C x₀ (s.step C f noise u).1
  | stabilize {s : RHMC κ ι} : RHMC.Hist C x₀ s →
      RHMC.Hist C x₀ { s with par := fun a => stabilizePar (C.man a) (s.par a) }

omit [Fintype κ] [∀ a, Fintype (ι a)] in
/-- See `RHMC.Hist`. -/
inductive RSGLD.Hist (C : Config κ ι) (x₀ : ∀ a, ι a → ℝ) : RSGLD κ ι → Prop
  | start : RSGLD.Hist C x₀ { par := fun a => (x₀ a, none) }
  | user {s s' : RSGLD κ ι} : RSGLD.Hist C x₀ s →
      (∀ a, (s'.par a).1 = (s.par a).1) → RSGLD.Hist C x₀ s'
  | step {s : RSGLD κ ι} (f : Closure κ ι) (noise : ∀ a, ι a → ℝ) :
      RSGLD.Hist C x₀ s → RSGLD.Hist C x₀ (s.step C f noise).1
  | stabilize {s : RSGLD κ ι} : RSGLD.Hist C x₀ s →
      RSGLD.Hist C x₀ { s with par := fun a => rsgldStabilize (C.man a) (s.par a) }

omit [Fintype κ] [∀ a, Fintype (ι a)] in
/-- See `RHMC.Hist`. -/
inductive SGRHMC.Hist (C : Config κ ι) (x₀ : ∀ a, ι a → ℝ) : SGRHMC κ ι → Prop
  | start : SGRHMC.Hist C x₀ { par := fun a => { point := x₀ a } }
  | user {s s' : SGRHMC κ ι} : SGRHMC.Hist C x₀ s →
      (∀ a, (s'.par a).point = (s.par a).point) → SGRHMC.Hist C x₀ s'
  | step {s : SGRHMC κ ι} (α : κ → ℝ) (f : Closure κ ι) (start : ∀ a, ι a → ℝ)
      (noises : List (∀ a, ι a → ℝ)) :
      SGRHMC.Hist C x₀ s → SGRHMC.Hist C x₀ (s.step C α f start noises).1
  | stabilize {s : SGRHMC κ ι} : SGRHMC.Hist C x₀ s →
      SGRHMC.Hist C x₀ { s with par := fun a => sgrhmcStabilize (C.man a) (s.par a) }

end Geoopt.Samplers
