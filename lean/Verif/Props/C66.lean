import Verif.Props.C65
import Verif.Props.C24
import Verif.Model.OptimManifolds

/-!
# C66, C67: time reversal of the RHMC proposal, and which manifolds samplers accept
-/

open Geoopt Geoopt.Samplers

/-- **C67.** Constructing a sampler raises exactly if some parameter lives on a manifold without
reversible retraction. -/
theorem C67_sampler_init (params : List (Option Bool)) :
    (samplerInit params = .ok () ↔ some false ∉ params) ∧
    (samplerInit params = .error .valueError ↔ some false ∈ params) := by
  induction params with
  | nil => simp [samplerInit]
  | cons p ps ih =>
    rcases p with _ | b
    · simpa [samplerInit] using ih
    · cases b <;> simp [samplerInit, ih]

example : samplerInit [none, some true] = .ok () ∧
    samplerInit [none, some true, some false] = .error .valueError := ⟨rfl, rfl⟩

namespace C66

/-- One real parameter, step size `ε`, one step. -/
def conf (ε : ℝ) : Config Unit (fun _ => Unit) := ⟨fun _ => Optim.euclidean Unit, fun _ => ε, [()], 1⟩

/-- A linear log-probability with slope `b`. -/
noncomputable def linear (b : ℝ) : Closure Unit (fun _ => Unit) :=
  ⟨fun x => b * x () (), fun _ _ _ => b, fun _ => true⟩

theorem linear_ends (ε b x r : ℝ) (x' r' : Unit → Unit → ℝ) :
    Ends (conf ε) (linear b) (fun _ _ => x) (fun _ _ => r) x' r' ↔
      x' () () = x + ε * (r + ε * b) ∧ r' () () = r + ε * b + 0.5 * ε * b := by
  constructor
  · rintro ⟨noise, h1, h2, h3⟩
    have e1 : noise () () = r := congrFun (h1 ()) ()
    have e2 := congrFun (congrFun h2 ()) ()
    have e3 := h3 ()
    simp [contents, propose, refresh, leap, lastKick, backward, leakedEps, conf, linear, at',
      Optim.euclidean] at e2 e3
    have e4 := congrFun e3 ()
    simp at e4
    rw [e1] at e2 e4
    exact ⟨by linarith, by linarith⟩
  · rintro ⟨h1, h2⟩
    refine ⟨fun _ _ => r, fun _ => rfl, ?_, fun a => ?_⟩
    · funext a i
      simp [contents, propose, refresh, leap, lastKick, backward, leakedEps, conf, linear, at',
        Optim.euclidean]
      rw [h1]; ring
    · simp [contents, propose, refresh, leap, lastKick, backward, leakedEps, conf, linear, at',
        Optim.euclidean]
      funext i
      simp
      rw [h2]

end C66

/-- **C66 is false.** For a linear log-probability on the real line the proposal is not time-reversible,
whatever the step size: the first update of the momentum is a full step instead of half a step.  Only
slope zero is reversible. -/
theorem C66_counterexample_linear (ε b : ℝ) (hε : ε ≠ 0) :
    Reversible (C66.conf ε) (C66.linear b) (fun _ _ => True) ↔ b = 0 := by
  constructor
  · intro h
    have h1 := (C66.linear_ends ε b 0 0 (fun _ _ => ε * (ε * b)) (fun _ _ => 1.5 * ε * b)).2
      ⟨by ring, by ring⟩
    have h2 := h _ _ _ _ (fun _ => trivial) h1
    have h3 := ((C66.linear_ends ε b (ε * (ε * b)) (-(1.5 * ε * b)) _ _).1 h2).1
    have h4 : ε * (ε * b) = 0 := by linarith
    simpa [hε] using h4
  · rintro rfl x r x' r' - h
    have ex : x = fun _ _ => x () () := rfl
    have er : r = fun _ _ => r () () := rfl
    have ex' : x' = fun _ _ => x' () () := rfl
    have er' : (fun a => -(r' a)) = fun _ _ => -(r' () ()) := rfl
    rw [ex, er] at h
    obtain ⟨h1, h2⟩ := (C66.linear_ends ε 0 _ _ _ _).1 h
    rw [ex', er', C66.linear_ends, h1, h2]
    refine ⟨by ring, ?_⟩
    simp

namespace C66
variable {κ : Type} [Fintype κ] {ι : κ → Type} [∀ a, Fintype (ι a)] {C : Config κ ι} {f : Closure κ ι}

/-- The motion without forces of one parameter. -/
def free {ι : Type} (M : Optim.Manifold ι) (ε : ℝ) (q : (ι → ℝ) × (ι → ℝ)) : (ι → ℝ) × (ι → ℝ) :=
  M.retrTransp q.1 (ε • q.2) q.2

/-- The part of the state that moves. -/
def Is {ι : Type} (p : Par ι) (q : (ι → ℝ) × (ι → ℝ)) : Prop :=
  p.point = q.1 ∧ p.grad = some 0 ∧ ∃ m, p.mom = some m ∧ m.r = q.2

theorem backward_is (hdep : ∀ a, f.dep a = true) (hf : ∀ x a, f.grad x a = 0) {w : ∀ a, Par (ι a)}
    {q : ∀ a, (ι a → ℝ) × (ι a → ℝ)} (h : ∀ a, Is (w a) (q a)) (a : κ) : Is (backward f w a) (q a) := by
  unfold backward
  rw [if_pos (hdep a)]
  refine ⟨(h a).1, ?_, (h a).2.2⟩
  simp [(h a).2.1, hf]

theorem leap_is {ι : Type} {M : Optim.Manifold ι} {ε : ℝ} (h0 : ∀ x, (M.egrad2rgrad x 0).value = 0)
    {p : Par ι} {q : (ι → ℝ) × (ι → ℝ)} (h : Is p q) : Is (leap M ε p) (free M ε q) := by
  obtain ⟨h1, h2, m, h3, h4⟩ := h
  unfold leap
  rw [h2, h3]
  dsimp only
  rw [h0, smul_zero, add_zero, h1, h4]
  exact ⟨rfl, rfl, _, rfl, rfl⟩

theorem lastKick_is {ι : Type} {M : Optim.Manifold ι} {ε : ℝ}
    (h0 : ∀ x, (M.egrad2rgrad x 0).value = 0) {p : Par ι} {q : (ι → ℝ) × (ι → ℝ)} (h : Is p q) :
    Is (lastKick M ε p) q := by
  obtain ⟨h1, h2, m, h3, h4⟩ := h
  unfold lastKick
  rw [h2, h3]
  dsimp only
  rw [h0, smul_zero, add_zero]
  exact ⟨h1, rfl, _, rfl, h4⟩

theorem rounds_is (hdep : ∀ a, f.dep a = true) (hf : ∀ x a, f.grad x a = 0)
    (h0 : ∀ a x, ((C.man a).egrad2rgrad x 0).value = 0) (n : ℕ) : ∀ {w : ∀ a, Par (ι a)}
    {q : ∀ a, (ι a → ℝ) × (ι a → ℝ)}, (∀ a, Is (w a) (q a)) →
    ∀ a, Is ((roundOf C f)^[n] w a) ((free (C.man a) (C.eps a))^[n] (q a)) := by
  induction n with
  | zero => intro w q h; exact h
  | succ n ih =>
    intro w q h a
    rw [Function.iterate_succ_apply, Function.iterate_succ_apply]
    exact ih (q := fun a => free (C.man a) (C.eps a) (q a))
      (fun a => leap_is (h0 a) (backward_is hdep hf h a)) a

/-- On a flat target the proposal is the motion without forces, `max n_steps 1` times. -/
theorem propose_is (hdep : ∀ a, f.dep a = true) (hf : ∀ x a, f.grad x a = 0)
    (h0 : ∀ a x, ((C.man a).egrad2rgrad x 0).value = 0) (x noise : ∀ a, ι a → ℝ) (a : κ) :
    Is ((propose C f noise (backward f (at' x))).2 a)
      ((free (C.man a) (C.eps a))^[C.nSteps - 1 + 1]
        (x a, ((C.man a).egrad2rgrad (x a) (noise a)).value)) := by
  have h1 : ∀ a, Is (refresh (C.man a) (noise a) (backward f (at' x) a))
      (x a, ((C.man a).egrad2rgrad (x a) (noise a)).value) := by
    intro a
    unfold backward
    rw [if_pos (hdep a)]
    refine ⟨rfl, ?_, _, rfl, rfl⟩
    simp [refresh, at', hf]
  have h2 := fun a => leap_is (ε := C.eps a) (h0 a) (h1 a)
  have h3 := rounds_is hdep hf h0 (C.nSteps - 1) h2
  rw [Function.iterate_succ_apply]
  exact lastKick_is (h0 a) (backward_is hdep hf h3 a)

/-- Reflecting the momentum. -/
def flip {ι : Type} (q : (ι → ℝ) × (ι → ℝ)) : (ι → ℝ) × (ι → ℝ) := (q.1, -q.2)

theorem iterate_drawn {ι : Type} {M : Optim.Manifold ι} {On : (ι → ℝ) → Prop} {ε : ℝ}
    (hM : FlowReversible M On ε) (n : ℕ) :
    ∀ {q : (ι → ℝ) × (ι → ℝ)}, Drawn M On q.1 q.2 →
    Drawn M On ((free M ε)^[n] q).1 ((free M ε)^[n] q).2 := by
  induction n with
  | zero => intro q h; exact h
  | succ n ih => intro q h; exact ih (hM.tan h)

theorem iterate_back {ι : Type} {M : Optim.Manifold ι} {On : (ι → ℝ) → Prop} {ε : ℝ}
    (hM : FlowReversible M On ε) (n : ℕ) :
    ∀ {q : (ι → ℝ) × (ι → ℝ)}, Drawn M On q.1 q.2 →
    (free M ε)^[n] (flip ((free M ε)^[n] q)) = flip q := by
  induction n with
  | zero => intro q _; rfl
  | succ n ih =>
    intro q h
    rw [Function.iterate_succ_apply' (f := free M ε) (n := n) (x := q),
      Function.iterate_succ_apply]
    have h1 : free M ε (flip (free M ε ((free M ε)^[n] q))) = flip ((free M ε)^[n] q) :=
      hM.back (iterate_drawn hM n h)
    rw [h1]
    exact ih h

end C66

/-- For a constant log-probability the proposal is time-reversible on every manifold whose motion without
forces is, for every number of steps.  Missing: every other log-probability, for which it is false in
general. -/
theorem C66_flat_partial {κ : Type} [Fintype κ] {ι : κ → Type} [∀ a, Fintype (ι a)] {C : Config κ ι}
    {f : Closure κ ι} (hdep : ∀ a, f.dep a = true) (hf : ∀ x a, f.grad x a = 0)
    {On : ∀ a, (ι a → ℝ) → Prop} (hM : ∀ a, FlowReversible (C.man a) (On a) (C.eps a)) :
    Reversible C f On := by
  rintro x r x' r' hx ⟨noise, h1, h2, h3⟩
  have h0 := fun a => (hM a).zero
  have hd : ∀ a, Drawn (C.man a) (On a) (x a) (r a) := fun a => ⟨hx a, noise a, h1 a⟩
  have hfin : ∀ a, (C66.free (C.man a) (C.eps a))^[C.nSteps - 1 + 1] (x a, r a) = (x' a, r' a) := by
    intro a
    obtain ⟨e1, -, m, e2, e3⟩ := C66.propose_is hdep hf h0 x noise a
    have e4 := h3 a
    rw [e2, Option.map_some, Option.some.injEq, e3, h1 a] at e4
    have e5 := congrFun h2 a
    rw [contents, e1, h1 a] at e5
    exact Prod.ext e5 e4
  have hd' : ∀ a, Drawn (C.man a) (On a) (x' a) (-(r' a)) := by
    intro a
    have := C66.iterate_drawn (hM a) (C.nSteps - 1 + 1) (q := (x a, r a)) (hd a)
    rw [hfin a] at this
    exact (hM a).neg this
  choose noise' hn using fun a => (hd' a).2
  have hback : ∀ a, (C66.free (C.man a) (C.eps a))^[C.nSteps - 1 + 1] (x' a, -(r' a)) =
      (x a, -(r a)) := by
    intro a
    have := C66.iterate_back (hM a) (C.nSteps - 1 + 1) (q := (x a, r a)) (hd a)
    rw [hfin a] at this
    exact this
  refine ⟨noise', hn, ?_, fun a => ?_⟩
  · funext a
    have e1 := (C66.propose_is hdep hf h0 x' noise' a).1
    have e2 := hn a
    rw [e2, hback a] at e1
    exact e1
  · obtain ⟨-, -, m, e2, e3⟩ := C66.propose_is hdep hf h0 x' noise' a
    have e4 := hn a
    rw [e2, Option.map_some, e3, e4, hback a]

/-- The condition holds for plain parameters. -/
theorem C66_euclidean_flow (ι : Type) (ε : ℝ) :
    FlowReversible (Optim.euclidean ι) (fun _ => True) ε where
  back := by
    rintro x r -
    simp [Optim.euclidean]
  tan {x r} _ := ⟨trivial, r, rfl⟩
  neg {x r} _ := ⟨trivial, -r, rfl⟩
  zero _ := rfl

/-- Two plain parameters in groups with different step sizes, five steps. -/
example : Reversible (κ := Bool) (ι := fun _ => Fin 3)
    ⟨fun _ => Optim.euclidean _, fun b => if b then 0.1 else 0.2, [true, false], 5⟩
    ⟨fun _ => 7, fun _ _ => 0, fun _ => true⟩ (fun _ _ => True) :=
  C66_flat_partial (fun _ => rfl) (fun _ _ => rfl) fun _ => C66_euclidean_flow _ _

open Geoopt.Stiefel Geoopt.Optim in
theorem C66.stiefel_flow_eq {n m : ℕ} (proj : Matrix (Fin n) (Fin m) ℝ → Matrix (Fin n) (Fin m) ℝ)
    (x u r : Fin n × Fin m → ℝ) : (canonicalStiefel proj).retrTransp x u r =
      (ofMat (cay (Canonical.amat (toMat x) (toMat u)) * toMat x),
       ofMat (cay (Canonical.amat (toMat x) (toMat u)) * toMat r)) := by
  simp only [canonicalStiefel, C24_retr_transp, Canonical.retr, Canonical.transpFollowRetr,
    transpFollowOne_eq]

open Geoopt.Stiefel Geoopt.Optim in
/-- It holds for the Stiefel manifold with its canonical metric. -/
theorem C66_stiefel_flow {n m : ℕ} (proj : Matrix (Fin n) (Fin m) ℝ → Matrix (Fin n) (Fin m) ℝ)
    (ε : ℝ) : FlowReversible (Optim.canonicalStiefel proj) (fun x => OnStiefel (Optim.toMat x)) ε where
  back := by
    intro x r _
    have hs := amat_skew (toMat x) (toMat (ε • r))
    rw [C66.stiefel_flow_eq proj x (ε • r) r]
    dsimp only
    have hr : (Optim.canonicalStiefel proj).retrTransp
        (ofMat (cay (Canonical.amat (toMat x) (toMat (ε • r))) * toMat x))
        (ε • -ofMat (cay (Canonical.amat (toMat x) (toMat (ε • r))) * toMat r))
        (-ofMat (cay (Canonical.amat (toMat x) (toMat (ε • r))) * toMat r)) =
        (ofMat (cay (-Canonical.amat (toMat x) (toMat (ε • r))) *
          (cay (Canonical.amat (toMat x) (toMat (ε • r))) * toMat x)),
         ofMat (cay (-Canonical.amat (toMat x) (toMat (ε • r))) *
          -(cay (Canonical.amat (toMat x) (toMat (ε • r))) * toMat r))) := by
      rw [C66.stiefel_flow_eq]
      have ea : Canonical.amat (toMat (ofMat (cay (Canonical.amat (toMat x) (toMat (ε • r))) * toMat x)))
          (toMat (ε • -ofMat (cay (Canonical.amat (toMat x) (toMat (ε • r))) * toMat r))) =
          -Canonical.amat (toMat x) (toMat (ε • r)) := by
        have e1 : toMat (ε • -ofMat (cay (Canonical.amat (toMat x) (toMat (ε • r))) * toMat r)) =
            -(cay (Canonical.amat (toMat x) (toMat (ε • r))) * toMat (ε • r)) := by
          have : toMat (ε • r) = ε • toMat r := rfl
          rw [this, Matrix.mul_smul]
          ext i j
          simp [toMat, ofMat]
        rw [e1]
        change Canonical.amat (cay (Canonical.amat (toMat x) (toMat (ε • r))) * toMat x) _ = _
        have eo : cay (Canonical.amat (toMat x) (toMat (ε • r))) *
            (cay (Canonical.amat (toMat x) (toMat (ε • r)))).transpose = 1 :=
          mul_eq_one_comm.1 (cay_orth _ hs)
        rw [amat_neg_right, amat_conj, cay_comm_self _ hs, Matrix.mul_assoc, eo, Matrix.mul_one]
      rw [ea]
      rfl
    rw [hr, Matrix.mul_neg, ← Matrix.mul_assoc, ← Matrix.mul_assoc, cay_neg_mul _ hs, Matrix.one_mul,
      Matrix.one_mul]
    rfl
  tan := by
    rintro x r ⟨h, g, hg⟩
    have hs := amat_skew (toMat x) (toMat (ε • r))
    rw [C66.stiefel_flow_eq]
    refine ⟨?_, ofMat (cay (Canonical.amat (toMat x) (toMat (ε • r))) * toMat g), ?_⟩
    · have := C24_retr_on_stiefel h (toMat (ε • r))
      rwa [Canonical.retr, transpFollowOne_eq] at this
    · have e : toMat r = Canonical.proju (toMat x) (toMat g) := by
        rw [← hg]; rfl
      rw [e]
      change ofMat (Canonical.proju (cay (Canonical.amat (toMat x) (toMat (ε • r))) * toMat x)
        (cay (Canonical.amat (toMat x) (toMat (ε • r))) * toMat g)) = _
      dsimp only
      congr 1
      generalize Canonical.amat (toMat x) (toMat (ε • r)) = a at hs
      have ho := cay_orth _ hs
      unfold Canonical.proju
      rw [Matrix.transpose_mul, Matrix.mul_sub]
      congr 1
      calc cay a * toMat x * ((toMat g).transpose * (cay a).transpose) * (cay a * toMat x)
          = cay a * (toMat x * (toMat g).transpose * ((cay a).transpose * cay a * toMat x)) := by
            simp only [Matrix.mul_assoc]
        _ = _ := by rw [ho, Matrix.one_mul]
  neg := by
    rintro x r ⟨h, g, hg⟩
    refine ⟨h, -g, ?_⟩
    rw [← hg]
    change ofMat (Canonical.proju (toMat x) (-(toMat g))) = -ofMat (Canonical.proju (toMat x) (toMat g))
    have : Canonical.proju (toMat x) (-(toMat g)) = -Canonical.proju (toMat x) (toMat g) := by
      unfold Canonical.proju
      rw [Matrix.transpose_neg, Matrix.mul_neg, Matrix.neg_mul]
      abel
    rw [this]; rfl
  zero x := by
    change ofMat (Canonical.proju (toMat x) 0) = 0
    have : Canonical.proju (toMat x) 0 = 0 := by
      unfold Canonical.proju; simp
    rw [this]; rfl
