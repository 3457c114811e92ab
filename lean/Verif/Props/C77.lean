import Verif.Props.C66
import Verif.Props.C55Manifolds
import Verif.Lemmas.Optim

/-!
# C77: the samplers keep their parameters on the manifolds
-/

open Geoopt Geoopt.Samplers Geoopt.Optim

namespace C77

/-- What RHMC maintains for a parameter: it is on the manifold, its momentum is tangent, and so are the
saved copies. -/
def Ok {ι : Type} {M : Manifold ι} (geo : Geometry M) (p : Par ι) : Prop :=
  geo.On p.point ∧ ∀ m, p.mom = some m →
    m.r ∈ geo.Tan p.point ∧ geo.On m.oldP ∧ m.oldR ∈ geo.Tan m.oldP

section
variable {ι : Type} {M : Manifold ι} {geo : Geometry M} {p : Par ι}

theorem ok_refresh (noise : ι → ℝ) (h : Ok geo p) : Ok geo (refresh M noise p) := by
  unfold refresh
  split
  · exact h
  · refine ⟨h.1, fun m hm => ?_⟩
    simp only [Option.some.injEq] at hm
    subst hm
    exact ⟨geo.egrad noise h.1, h.1, geo.egrad noise h.1⟩

theorem ok_leap (ε : ℝ) (h : Ok geo p) : Ok geo (leap M ε p) := by
  unfold leap
  split
  · rename_i g m hg hm
    obtain ⟨h1, h2, h3⟩ := h.2 m hm
    have hr : m.r + ε • (M.egrad2rgrad p.point g).value ∈ geo.Tan p.point :=
      Submodule.add_mem _ h1 (Submodule.smul_mem _ _ (geo.egrad g h.1))
    have hu := Submodule.smul_mem _ ε hr
    refine ⟨geo.retrTransp_on _ h.1 hu, fun m' hm' => ?_⟩
    simp only [Option.some.injEq] at hm'
    subst hm'
    exact ⟨geo.retrTransp_tan h.1 hu hr, h2, h3⟩
  · exact h

theorem ok_lastKick (ε : ℝ) (h : Ok geo p) : Ok geo (lastKick M ε p) := by
  unfold lastKick
  split
  · rename_i g m hg hm
    obtain ⟨h1, h2, h3⟩ := h.2 m hm
    refine ⟨h.1, fun m' hm' => ?_⟩
    simp only [Option.some.injEq] at hm'
    subst hm'
    exact ⟨Submodule.add_mem _ h1 (Submodule.smul_mem _ _ (geo.egrad g h.1)), h2, h3⟩
  · exact h

theorem ok_restore (h : Ok geo p) : Ok geo (restore p) := by
  unfold restore
  split
  · rename_i g m hg hm
    obtain ⟨h1, h2, h3⟩ := h.2 m hm
    refine ⟨h2, fun m' hm' => ?_⟩
    simp only [Option.some.injEq] at hm'
    subst hm'
    exact ⟨h3, h2, h3⟩
  · exact h

theorem ok_stabilize (h : Ok geo p) : Ok geo (stabilizePar M p) := by
  have e := geo.projx h.1
  refine ⟨by rw [stabilizePar, e]; exact h.1, fun m hm => ?_⟩
  simp only [stabilizePar, Option.map_eq_some_iff] at hm
  obtain ⟨m', hm', rfl⟩ := hm
  obtain ⟨h1, h2, h3⟩ := h.2 m' hm'
  have e' := geo.projx h2
  simp only [stabilizePar, e, e']
  exact ⟨h1, h2, h3⟩

end

section
variable {κ : Type} {ι : κ → Type} {C : Config κ ι} {geo : ∀ a, Geometry (C.man a)}

theorem ok_backward (f : Closure κ ι) {w : ∀ a, Par (ι a)} (h : ∀ a, Ok (geo a) (w a)) (a : κ) :
    Ok (geo a) (backward f w a) := by
  unfold backward
  split_ifs
  · exact h a
  · exact h a

theorem ok_rounds (f : Closure κ ι) (n : ℕ) : ∀ {w : ∀ a, Par (ι a)}, (∀ a, Ok (geo a) (w a)) →
    ∀ a, Ok (geo a) ((roundOf C f)^[n] w a) := by
  induction n with
  | zero => intro w h; exact h
  | succ n ih =>
    intro w h
    rw [Function.iterate_succ_apply]
    exact ih fun a => ok_leap _ (ok_backward f h a)

theorem ok_propose (f : Closure κ ι) (noise : ∀ a, ι a → ℝ) {w : ∀ a, Par (ι a)}
    (h : ∀ a, Ok (geo a) (w a)) (a : κ) : Ok (geo a) ((propose C f noise w).2 a) :=
  ok_lastKick _ (ok_backward f (ok_rounds f _ fun a => ok_leap _ (ok_refresh _ (h a))) a)

theorem ok_step [Fintype κ] [∀ a, Fintype (ι a)] (f : Closure κ ι) (noise : ∀ a, ι a → ℝ) (u : ℝ)
    {s : RHMC κ ι} (h : ∀ a, Ok (geo a) (s.par a)) (a : κ) :
    Ok (geo a) ((s.step C f noise u).1.par a) := by
  have hp := ok_propose f noise (fun a => ok_backward f h a)
  unfold RHMC.step
  dsimp only
  split_ifs
  · exact hp a
  · exact ok_restore (hp a)
  · exact ok_restore (hp a)
  · exact hp a
  · exact hp a

end

end C77

section
variable {κ : Type} [Fintype κ] [DecidableEq κ] {ι : κ → Type} [∀ a, Fintype (ι a)]

/-- **C77, RHMC.** Over every history the parameters stay on their manifolds: after accepted and rejected
steps, and after steps that raised. -/
theorem C77_rhmc (C : Config κ ι) (geo : ∀ a, Geometry (C.man a)) {x₀ : ∀ a, ι a → ℝ}
    (h₀ : ∀ a, (geo a).On (x₀ a)) {s : RHMC κ ι} (h : RHMC.Hist C x₀ s) (a : κ) :
    (geo a).On (s.par a).point := by
  have key : ∀ a, C77.Ok (geo a) (s.par a) := by
    induction h with
    | start => exact fun a => ⟨h₀ a, fun m hm => absurd hm (by simp [at'])⟩
    | user _ hu ih =>
      intro a
      unfold C77.Ok
      rw [(hu a).1, (hu a).2]
      exact ih a
    | step f noise u _ ih => exact C77.ok_step f noise u ih
    | stabilize _ ih => exact fun a => C77.ok_stabilize (ih a)
  exact (key a).1

omit [Fintype κ] [DecidableEq κ] [∀ a, Fintype (ι a)] in
/-- **C77, `stabilize()`.** Whatever the parameters have become (rounding, values written by the user),
after `stabilize()` they are on their manifolds, and so is the copy that `RHMC` saves; the momenta and
gradients are left alone. -/
theorem C77_stabilize (C : Config κ ι) (geo : ∀ a, Geometry (C.man a)) (a : κ)
    (hproj : ∀ x, (geo a).On ((C.man a).projx x)) (p : Par (ι a)) (q : (ι a → ℝ) × Option (ι a → ℝ))
    (v : VPar (ι a)) :
    ((geo a).On (stabilizePar (C.man a) p).point ∧
      (stabilizePar (C.man a) p).grad = p.grad ∧
      (∀ m, p.mom = some m → ∃ m', (stabilizePar (C.man a) p).mom = some m' ∧ (geo a).On m'.oldP ∧
        m'.r = m.r ∧ m'.oldR = m.oldR)) ∧
    ((geo a).On (rsgldStabilize (C.man a) q).1 ∧ (rsgldStabilize (C.man a) q).2 = q.2) ∧
    ((geo a).On (sgrhmcStabilize (C.man a) v).point ∧
      (sgrhmcStabilize (C.man a) v).grad = v.grad ∧
      (sgrhmcStabilize (C.man a) v).v =
        (C.man a).proju (sgrhmcStabilize (C.man a) v).point v.v) := by
  refine ⟨⟨hproj _, rfl, fun m hm => ⟨{ m with oldP := (C.man a).projx m.oldP },
    by simp only [stabilizePar, hm, Option.map_some], hproj _, rfl, rfl⟩⟩, ⟨hproj _, rfl⟩, hproj _, rfl, rfl⟩

omit [Fintype κ] [∀ a, Fintype (ι a)] in
/-- **C77, RSGLD.** -/
theorem C77_rsgld (C : Config κ ι) (geo : ∀ a, Geometry (C.man a)) {x₀ : ∀ a, ι a → ℝ}
    (h₀ : ∀ a, (geo a).On (x₀ a)) {s : RSGLD κ ι} (h : RSGLD.Hist C x₀ s) :
    ∀ a, (geo a).On (s.par a).1 := by
  induction h with
  | start => exact h₀
  | user _ hu ih => intro a; rw [hu a]; exact ih a
  | @step s f noise _ ih =>
    have key := forParams_inv' (fun a => rsgldParam (C.man a) (C.eps a) (noise a))
      (fun a (p : (ι a → ℝ) × Option (ι a → ℝ)) => (geo a).On p.1) C.order
      (fun a _ p hp => by
        unfold rsgldParam
        split_ifs
        · exact hp
        · split
          · exact hp
          · exact (geo a).retr hp ((geo a).egrad _ hp))
      (fun a => if f.dep a then ((s.par a).1, some ((s.par a).2.getD 0 + f.grad (fun a => (s.par a).1) a))
        else s.par a)
      (fun a => by split_ifs <;> exact ih a)
    unfold RSGLD.step
    dsimp only
    split
    · rename_i w' _ e he
      rw [he] at key
      exact key
    · rename_i w' _ he
      rw [he] at key
      split_ifs <;> exact key
  | stabilize _ ih =>
    intro a
    simp only [rsgldStabilize]
    rw [(geo a).projx (ih a)]
    exact ih a

omit [Fintype κ] [∀ a, Fintype (ι a)] in
/-- **C77, SGRHMC.** Its velocities are not tangent (neither the initial noise nor the gradient is
projected), so the retractions have to accept every vector; those of all manifolds that samplers
accept do. -/
theorem C77_sgrhmc (C : Config κ ι) (geo : ∀ a, Geometry (C.man a))
    (hall : ∀ a x u v, (geo a).On x → (geo a).On ((C.man a).retrTransp x u v).1)
    {x₀ : ∀ a, ι a → ℝ} (h₀ : ∀ a, (geo a).On (x₀ a)) {s : SGRHMC κ ι} (h : SGRHMC.Hist C x₀ s) :
    ∀ a, (geo a).On (s.par a).point := by
  have rounds : ∀ (α : κ → ℝ) (f : Closure κ ι) (ns : List (∀ a, ι a → ℝ)) (l : Option ℝ)
      (w : ∀ a, VPar (ι a)), (∀ a, (geo a).On (w a).point) →
      ∀ a, (geo a).On ((sgrhmcRounds C α f ns l w).1 a).point := by
    intro α f ns
    induction ns with
    | nil => intro l w h; exact h
    | cons noise ns ih =>
      intro l w hw
      have key := forParams_inv' (fun a => sgrhmcParam (C.man a) (C.eps a) (α a) (noise a))
        (fun a (p : VPar (ι a)) => (geo a).On p.point) C.order
        (fun a _ p hp => by
          unfold sgrhmcParam
          dsimp only
          split
          · exact hall a _ _ _ hp
          · split_ifs <;> exact hall a _ _ _ hp)
        (fun a => if f.dep a then
          { w a with grad := some ((w a).grad.getD 0 + f.grad (fun a => (w a).point) a) } else w a)
        (fun a => by dsimp only; split_ifs <;> exact hw a)
      rw [sgrhmcRounds]
      dsimp only
      split
      · rename_i w' _ e he
        rw [he] at key
        exact key
      · rename_i w' _ he
        rw [he] at key
        exact ih _ _ key
  induction h with
  | start => exact h₀
  | user _ hu ih => intro a; rw [hu a]; exact ih a
  | @step s α f start noises _ ih =>
    have key := rounds α f noises none (fun a => { s.par a with v := C.eps a • start a }) ih
    unfold SGRHMC.step
    dsimp only
    split
    · rename_i w' _ e he
      rw [he] at key
      exact key
    · rename_i w' _ he
      rw [he] at key
      split_ifs <;> exact key
  | stabilize _ ih =>
    intro a
    simp only [sgrhmcStabilize]
    rw [(geo a).projx (ih a)]
    exact ih a

end

/-! The three families of manifolds that samplers accept meet the hypotheses. -/

example (ι : Type) (x u v : ι → ℝ) : (C55.euclideanGeometry ι).On x →
    (C55.euclideanGeometry ι).On ((euclidean ι).retrTransp x u v).1 := fun _ => trivial

example {n : ℕ} {η k : ℝ} (hη : 0 ≤ η) (hη1 : η ≤ 1) (hk : k < 0) (hbig : |k| ≤ 1e29) (dt : DType)
    (x u v : Fin n → ℝ) : (C55.ballExactGeometry hη hη1 hk hbig dt).On x →
    (C55.ballExactGeometry hη hη1 hk hbig dt).On ((stereographicExact η dt k).retrTransp x u v).1 :=
  fun _ => C55.valid_project hη hk dt _

example {n m : ℕ} (proj : Matrix (Fin n) (Fin m) ℝ → Matrix (Fin n) (Fin m) ℝ)
    (hproj : ∀ x, Stiefel.OnStiefel x → proj x = x) (x u v : Fin n × Fin m → ℝ) :
    (C55.stiefelGeometry proj hproj).On x →
    (C55.stiefelGeometry proj hproj).On ((canonicalStiefel proj).retrTransp x u v).1 := by
  intro hx
  have := Stiefel.C24_retr_transp (toMat x) (toMat u) (toMat v)
  change Stiefel.OnStiefel (toMat (ofMat (Stiefel.Canonical.retrTransp (toMat x) (toMat u) (toMat v)).1))
  rw [this]
  exact Stiefel.C24_retr_on_stiefel hx _

/-- The projection of the Poincaré ball is on the ball for every input, as `C77_stabilize` asks. -/
example {n : ℕ} {η k : ℝ} (hη : 0 ≤ η) (hη1 : η ≤ 1) (hk : k < 0) (hbig : |k| ≤ 1e29) (dt : DType)
    (x : Fin n → ℝ) : (C55.ballExactGeometry hη hη1 hk hbig dt).On ((stereographicExact η dt k).projx x) :=
  C55.valid_project hη hk dt _
