import Verif.Props.C136
import Verif.Props.C77

/-!
C136 for the samplers: two log-probabilities that are the same on the manifolds give the same chains.
-/

namespace Geoopt.C136
open Geoopt.Optim Geoopt.Extension Geoopt.Samplers Matrix

set_option linter.unusedDecidableInType false

/-- Two parameters that differ in the gradient only, with the same Riemannian gradient. -/
def Alike {ι : Type} (M : Manifold ι) (p p' : Par ι) : Prop :=
  p'.point = p.point ∧ p'.mom = p.mom ∧ ((p.grad = none ∧ p'.grad = none) ∨
    ∃ g g', p.grad = some g ∧ p'.grad = some g' ∧ (M.egrad2rgrad p.point g').value = (M.egrad2rgrad p.point g).value)

/-- No gradient is left over from before. -/
def Clean {ι : Type} (p : Par ι) : Prop := p.grad = none ∨ p.grad = some 0

section
variable {ι : Type} {M : Manifold ι} {p p' : Par ι}

theorem alike_refresh (noise : ι → ℝ) (h : Alike M p p') :
    Alike M (refresh M noise p) (refresh M noise p') ∧
    ((refresh M noise p).grad ≠ none → (refresh M noise p).mom ≠ none) ∧ (refresh M noise p).grad = p.grad := by
  obtain ⟨x, g, m⟩ := p
  obtain ⟨x', g', m'⟩ := p'
  obtain ⟨e1, e2, h⟩ := h
  obtain rfl : x' = x := e1
  obtain rfl : m' = m := e2
  rcases h with ⟨e, e'⟩ | ⟨v, v', e, e', h⟩
  · obtain rfl : g = none := e
    obtain rfl : g' = none := e'
    exact ⟨⟨rfl, rfl, .inl ⟨rfl, rfl⟩⟩, fun h => absurd rfl h, rfl⟩
  · obtain rfl : g = some v := e
    obtain rfl : g' = some v' := e'
    exact ⟨⟨rfl, rfl, .inr ⟨v, v', rfl, rfl, h⟩⟩, fun _ h => by simp [refresh] at h, rfl⟩

theorem alike_leap (ε : ℝ) (h : Alike M p p') (hm : p.grad ≠ none → p.mom ≠ none) :
    leap M ε p' = leap M ε p ∧ Clean (leap M ε p) ∧ ((leap M ε p).grad = none ↔ p.grad = none) ∧
    ((leap M ε p).mom = none ↔ p.mom = none) := by
  obtain ⟨x, g, m⟩ := p
  obtain ⟨x', g', m'⟩ := p'
  obtain ⟨e1, e2, h⟩ := h
  obtain rfl : x' = x := e1
  obtain rfl : m' = m := e2
  rcases h with ⟨e, e'⟩ | ⟨v, v', e, e', h⟩
  · obtain rfl : g = none := e
    obtain rfl : g' = none := e'
    exact ⟨rfl, .inl rfl, Iff.rfl, Iff.rfl⟩
  · obtain rfl : g = some v := e
    obtain rfl : g' = some v' := e'
    cases m' with
    | none => exact absurd rfl (hm (by simp))
    | some m =>
      unfold leap
      dsimp only at h ⊢
      rw [h]
      exact ⟨rfl, .inr rfl, by simp, by simp⟩

theorem alike_lastKick (ε : ℝ) (h : Alike M p p') (hm : p.grad ≠ none → p.mom ≠ none) :
    lastKick M ε p' = lastKick M ε p ∧ Clean (lastKick M ε p) := by
  obtain ⟨x, g, m⟩ := p
  obtain ⟨x', g', m'⟩ := p'
  obtain ⟨e1, e2, h⟩ := h
  obtain rfl : x' = x := e1
  obtain rfl : m' = m := e2
  rcases h with ⟨e, e'⟩ | ⟨v, v', e, e', h⟩
  · obtain rfl : g = none := e
    obtain rfl : g' = none := e'
    exact ⟨rfl, .inl rfl⟩
  · obtain rfl : g = some v := e
    obtain rfl : g' = some v' := e'
    cases m' with
    | none => exact absurd rfl (hm (by simp))
    | some m =>
      unfold lastKick
      dsimp only at h ⊢
      rw [h]
      exact ⟨rfl, .inr rfl⟩

theorem clean_restore (h : Clean p) : Clean (restore p) := by
  obtain ⟨x, g, m⟩ := p
  cases g <;> cases m <;> exact h

end

section
variable {κ : Type} [Fintype κ] [DecidableEq κ] {ι : κ → Type} [∀ a, Fintype (ι a)]

/-- Two closures with log-probabilities that are the same on the manifolds, and their gradients. -/
structure SameClosure (On : ∀ a, (ι a → ℝ) → Prop) (f f' : Closure κ ι) : Prop where
  dep : f'.dep = f.dep
  same : SameOn On f.logp f'.logp
  left : ClosureOf On f
  right : ClosureOf On f'

variable {C : Config κ ι} {geo : ∀ a, Geometry (C.man a)}

omit [Fintype κ] in
theorem sees_at (hs : ∀ a, SeesOnly (C.man a) (geo a).On) {f f' : Closure κ ι}
    (hf : SameClosure (fun a => (geo a).On) f f') {x : ∀ a, ι a → ℝ} (hx : ∀ a, (geo a).On (x a)) (a : κ)
    (y : ι a → ℝ) (hy : (geo a).On y) :
    f.logp (Function.update x a y) = f'.logp (Function.update x a y) :=
  hf.same _ fun b => by
    by_cases hb : b = a
    · subst hb; rwa [Function.update_self]
    · rw [Function.update_of_ne hb]; exact hx b

omit [Fintype κ] in
theorem alike_backward (hs : ∀ a, SeesOnly (C.man a) (geo a).On) {f f' : Closure κ ι}
    (hf : SameClosure (fun a => (geo a).On) f f') {w : ∀ a, Par (ι a)} (hw : ∀ a, C77.Ok (geo a) (w a))
    (hc : ∀ a, Clean (w a)) (a : κ) :
    Alike (C.man a) (backward f w a) (backward f' w a) ∧ (backward f w a).mom = (w a).mom ∧
    ((backward f w a).grad = none → (w a).grad = none) ∧ ((backward f w a).grad ≠ none → (w a).grad ≠ none ∨ f.dep a = true) := by
  unfold backward
  rw [hf.dep]
  cases hd : f.dep a with
  | false =>
    refine ⟨⟨rfl, rfl, ?_⟩, rfl, id, .inl⟩
    rcases hc a with h | h
    · exact .inl ⟨h, h⟩
    · exact .inr ⟨0, 0, h, h, rfl⟩
  | true =>
    have z : (w a).grad.getD 0 = 0 := by rcases hc a with h | h <;> simp [h]
    refine ⟨⟨rfl, rfl, .inr ⟨_, _, rfl, rfl, ?_⟩⟩, rfl, fun h => by simp at h, fun _ => .inr rfl⟩
    rw [z, zero_add, zero_add]
    exact (hs a _ _ (contents w a) _ _ (hw a).1 (sees_at hs hf (fun a => (hw a).1) a) (hf.left _ (fun a => (hw a).1) a hd)
      (hf.right _ (fun a => (hw a).1) a (hf.dep ▸ hd))).symm

omit [Fintype κ] in
theorem alike_rounds (hs : ∀ a, SeesOnly (C.man a) (geo a).On) {f f' : Closure κ ι}
    (hf : SameClosure (fun a => (geo a).On) f f') (n : ℕ) : ∀ {w : ∀ a, Par (ι a)}, (∀ a, C77.Ok (geo a) (w a)) →
    (∀ a, Clean (w a)) → (∀ a, (w a).grad ≠ none ∨ f.dep a = true → (w a).mom ≠ none) →
    (roundOf C f')^[n] w = (roundOf C f)^[n] w ∧ (∀ a, Clean ((roundOf C f)^[n] w a)) ∧
    ∀ a, ((roundOf C f)^[n] w a).grad ≠ none ∨ f.dep a = true → ((roundOf C f)^[n] w a).mom ≠ none := by
  induction n with
  | zero => intro w _ h2 h3; exact ⟨rfl, h2, h3⟩
  | succ n ih =>
    intro w h1 h2 h3
    rw [Function.iterate_succ_apply, Function.iterate_succ_apply]
    have hb := alike_backward hs hf h1 h2
    have hl := fun a => alike_leap (C.eps a) (hb a).1 fun h => by
      rw [(hb a).2.1]; exact h3 a ((hb a).2.2.2 h)
    have e : roundOf C f' w = roundOf C f w := funext fun a => (hl a).1
    rw [e]
    refine ih (fun a => C77.ok_leap _ (C77.ok_backward f h1 a)) (fun a => (hl a).2.1) fun a h => ?_
    change (leap _ _ _).mom ≠ none
    rw [Ne, (hl a).2.2.2, (hb a).2.1]
    refine h3 a (h.elim (fun h => ?_) .inr)
    exact (hb a).2.2.2 fun q => h ((hl a).2.2.1.2 q)

/-- One step of `RHMC`, starting on the manifolds with tangent momenta and no left-over gradients: the same new
state, and the same exception if there is one. -/
theorem rhmc_step (hs : ∀ a, SeesOnly (C.man a) (geo a).On) {f f' : Closure κ ι}
    (hf : SameClosure (fun a => (geo a).On) f f') (noise : ∀ a, ι a → ℝ) (u : ℝ) {s : RHMC κ ι}
    (hw : ∀ a, C77.Ok (geo a) (s.par a)) (hc : ∀ a, Clean (s.par a)) :
    s.step C f' noise u = s.step C f noise u ∧ ∀ a, Clean ((s.step C f noise u).1.par a) := by
  have hb := alike_backward hs hf hw hc
  have ob := fun a => C77.ok_backward f hw a
  have hr := fun a => alike_refresh (noise a) (hb a).1
  have hl := fun a => alike_leap (C.eps a) (hr a).1 (hr a).2.1
  have dep : ∀ a, f.dep a = true → (backward f s.par a).grad ≠ none := fun a h => by
    unfold backward; rw [if_pos h]; simp
  obtain ⟨e3, c3, m3⟩ := alike_rounds hs hf (C.nSteps - 1)
    (w := fun a => leap (C.man a) (C.eps a) (refresh (C.man a) (noise a) (backward f s.par a)))
    (fun a => C77.ok_leap _ (C77.ok_refresh _ (ob a))) (fun a => (hl a).2.1) (fun a h => by
      rw [Ne, (hl a).2.2.2]
      refine (hr a).2.1 ?_
      rcases h with h | h
      · rwa [Ne, (hl a).2.2.1] at h
      · rw [(hr a).2.2]; exact dep a h)
  have o3 := C77.ok_rounds f (C.nSteps - 1) fun a => C77.ok_leap (C.eps a) (C77.ok_refresh (noise a) (ob a))
  have hb3 := alike_backward hs hf o3 c3
  have e2 : (fun a => leap (C.man a) (C.eps a) (refresh (C.man a) (noise a) (backward f' s.par a))) =
      fun a => leap (C.man a) (C.eps a) (refresh (C.man a) (noise a) (backward f s.par a)) := funext fun a => (hl a).1
  have el : leakedEps C (backward f' s.par) = leakedEps C (backward f s.par) := by
    unfold leakedEps
    have : ∀ a, ((backward f' s.par) a).grad.isSome = ((backward f s.par) a).grad.isSome := fun a => by
      rcases (hb a).1.2.2 with ⟨h, h'⟩ | ⟨_, _, h, h', _⟩ <;> rw [h, h'] <;> rfl
    simp only [this]
  have hk := fun a => alike_lastKick (leakedEps C (backward f s.par)) (hb3 a).1 fun h => by
    rw [(hb3 a).2.1]; exact m3 a ((hb3 a).2.2.2 h)
  have ep : (propose C f' noise (backward f' s.par)).2 = (propose C f noise (backward f s.par)).2 := by
    unfold propose
    dsimp only
    rw [el, e2, e3]
    exact funext fun a => (hk a).1
  have ek : kinetic (propose C f' noise (backward f' s.par)).1 = kinetic (propose C f noise (backward f s.par)).1 := by
    unfold kinetic propose
    refine Finset.sum_congr rfl fun a _ => ?_
    dsimp only
    rw [(hr a).1.2.1]
    rcases (hr a).1.2.2 with ⟨h, h'⟩ | ⟨_, _, h, h', _⟩
    · rw [h, h']
    · rw [h, h']
      cases (refresh (C.man a) (noise a) (backward f s.par a)).mom <;> rfl
  have cp : ∀ a, Clean ((propose C f noise (backward f s.par)).2 a) := fun a => (hk a).2
  have l0 : f'.logp (contents s.par) = f.logp (contents s.par) := (hf.same _ fun a => (hw a).1).symm
  have l1 : f'.logp (contents (propose C f noise (backward f s.par)).2) =
      f.logp (contents (propose C f noise (backward f s.par)).2) :=
    (hf.same _ fun a => (C77.ok_propose f noise ob a).1).symm
  constructor
  · unfold RHMC.step
    dsimp only
    rw [ek, ep, l0, l1]
  · intro a
    unfold RHMC.step
    dsimp only
    split_ifs
    · exact cp a
    · exact clean_restore (cp a)
    · exact clean_restore (cp a)
    · exact cp a
    · exact cp a

/-- **C136, `RHMC`.**  Two chains from the same points of the manifolds, with the same random numbers, for
log-probabilities that are the same on the manifolds: they are the same chain, with the same counters, acceptance
probabilities and exceptions. -/
theorem C136_rhmc (hs : ∀ a, SeesOnly (C.man a) (geo a).On) {f f' : ℕ → Closure κ ι}
    (hf : ∀ t, SameClosure (fun a => (geo a).On) (f t) (f' t)) (noise : ℕ → ∀ a, ι a → ℝ) (u : ℕ → ℝ)
    {x₀ : ∀ a, ι a → ℝ} (hx : ∀ a, (geo a).On (x₀ a)) {s s' : ℕ → RHMC κ ι}
    (h0 : s 0 = { par := at' x₀ }) (h0' : s' 0 = { par := at' x₀ })
    (h : ∀ t, s (t + 1) = ((s t).step C (f t) (noise t) (u t)).1)
    (h' : ∀ t, s' (t + 1) = ((s' t).step C (f' t) (noise t) (u t)).1) (t : ℕ) :
    s' t = s t ∧ ((s' t).step C (f' t) (noise t) (u t)).2 = ((s t).step C (f t) (noise t) (u t)).2 := by
  have key : ∀ t, s' t = s t ∧ (∀ a, C77.Ok (geo a) ((s t).par a)) ∧ ∀ a, Clean ((s t).par a) := by
    intro t
    induction t with
    | zero =>
      rw [h0, h0']
      exact ⟨rfl, fun a => ⟨hx a, fun m hm => absurd hm (by simp [at'])⟩, fun a => .inl rfl⟩
    | succ t ih =>
      obtain ⟨i1, i2, i3⟩ := ih
      have q := rhmc_step hs (hf t) (noise t) (u t) i2 i3
      rw [h, h', i1, q.1]
      exact ⟨rfl, C77.ok_step _ _ _ i2, q.2⟩
  obtain ⟨i1, i2, i3⟩ := key t
  rw [i1, (rhmc_step hs (hf t) (noise t) (u t) i2 i3).1]
  exact ⟨rfl, rfl⟩

omit [Fintype κ] in
theorem IsGrad.affine {ι : Type} [Fintype ι] {F : (ι → ℝ) → ℝ} {x g : ι → ℝ} (h : IsGrad F x g) (c : ℝ) (n : ι → ℝ) :
    IsGrad (fun y => c * F y + ∑ i, n i * y i) x (c • g + n) := by
  obtain ⟨L, hL, eL⟩ := h
  have h2 := (hL.const_mul c).add (HasFDerivAt.fun_sum fun i (_ : i ∈ Finset.univ) =>
    (hasFDerivAt_apply (𝕜 := ℝ) i x).const_mul (n i))
  refine ⟨_, h2, fun v => ?_⟩
  simp only [ContinuousLinearMap.add_apply, ContinuousLinearMap.smul_apply, ContinuousLinearMap.sum_apply,
    ContinuousLinearMap.proj_apply, smul_eq_mul, eL, Pi.add_apply, Pi.smul_apply]
  rw [Finset.mul_sum, ← Finset.sum_add_distrib]
  exact Finset.sum_congr rfl fun i _ => by ring

omit [Fintype κ] in
/-- One step of `RSGLD` that does not raise, on parameters without left-over gradients, all of which belong to the
sampler. -/
theorem rsgld_step (hs : ∀ a, SeesOnly (C.man a) (geo a).On) {f f' : Closure κ ι}
    (hf : SameClosure (fun a => (geo a).On) f f') (hC : C.order.Nodup ∧ ∀ a, f.dep a = true → a ∈ C.order)
    (noise : ∀ a, ι a → ℝ) {s : RSGLD κ ι}
    (hw : ∀ a, (geo a).On (s.par a).1) (hc : ∀ a, (s.par a).2 = none ∨ (s.par a).2 = some 0)
    (hok : (s.step C f noise).2 = none) :
    s.step C f' noise = s.step C f noise ∧
    ∀ a, ((s.step C f noise).1.par a).2 = none ∨ ((s.step C f noise).1.par a).2 = some 0 := by
  obtain ⟨x, hx⟩ : ∃ x : ∀ a, ι a → ℝ, x = fun a => (s.par a).1 := ⟨_, rfl⟩
  obtain ⟨w, hw1⟩ : ∃ w : ∀ a, (ι a → ℝ) × Option (ι a → ℝ), w = fun a =>
    if f.dep a then (x a, some ((s.par a).2.getD 0 + f.grad x a)) else s.par a := ⟨_, rfl⟩
  obtain ⟨w', hw1'⟩ : ∃ w : ∀ a, (ι a → ℝ) × Option (ι a → ℝ), w = fun a =>
    if f'.dep a then (x a, some ((s.par a).2.getD 0 + f'.grad x a)) else s.par a := ⟨_, rfl⟩
  have hon : ∀ a, (geo a).On (x a) := by rw [hx]; exact hw
  have unf : ∀ (f : Closure κ ι) (w : ∀ a, (ι a → ℝ) × Option (ι a → ℝ)),
      (w = fun a => if f.dep a then (x a, some ((s.par a).2.getD 0 + f.grad x a)) else s.par a) →
      s.step C f noise = match Optim.forParams (fun a => rsgldParam (C.man a) (C.eps a) (noise a)) C.order w with
        | (w', _, some e) => ({ s with par := w' }, some e)
        | (w', _, none) =>
          if s.burnin then ({ s with par := w' }, none)
          else ({ s with par := w', steps := s.steps + 1, logProbs := s.logProbs ++ [f.logp x] }, none) := by
    rintro f w rfl
    rw [hx]
    rfl
  have u1 := unf f w hw1
  have u2 := unf f' w' hw1'
  have hl : f'.logp x = f.logp x := (hf.same x hon).symm
  have noerr : (Optim.forParams (fun a => rsgldParam (C.man a) (C.eps a) (noise a)) C.order w).2.2 = none := by
    rw [u1] at hok
    revert hok
    generalize Optim.forParams (fun a => rsgldParam (C.man a) (C.eps a) (noise a)) C.order w = r
    obtain ⟨r1, r2, r3⟩ := r
    cases r3 with
    | none => exact fun _ => rfl
    | some e => exact fun h => by simp at h
  have one : ∀ a, rsgldParam (C.man a) (C.eps a) (noise a) (w a) = rsgldParam (C.man a) (C.eps a) (noise a) (w' a) ∨
      (rsgldParam (C.man a) (C.eps a) (noise a) (w a)).2.2 ≠ none := by
    intro a
    rw [hw1, hw1']
    dsimp only
    rw [hf.dep]
    cases hd : f.dep a with
    | false => exact .inl rfl
    | true =>
      have z : (s.par a).2.getD 0 = 0 := by rcases hc a with h | h <;> simp [h]
      simp only [if_true, z, zero_add]
      unfold rsgldParam
      by_cases hε : C.eps a < 0
      · exact .inr (by simp [hε])
      · left
        simp only [if_neg hε]
        have := hs a _ _ (x a) _ _ (hon a)
          (fun y hy => by rw [sees_at hs hf hon a y hy])
          (IsGrad.affine (hf.left x hon a hd) (0.5 * C.eps a) (Real.sqrt (C.eps a) • noise a))
          (IsGrad.affine (hf.right x hon a (hf.dep ▸ hd)) (0.5 * C.eps a) (Real.sqrt (C.eps a) • noise a))
        rw [this]
  have k1 := forParams_ok' _ _ hC.1 w noerr
  have eqv : ∀ a ∈ C.order, rsgldParam (C.man a) (C.eps a) (noise a) (w' a) =
      rsgldParam (C.man a) (C.eps a) (noise a) (w a) := fun a ha =>
    ((one a).resolve_right (not_not.2 (k1 a ha))).symm
  obtain ⟨m1, m2, -⟩ := forParams_ok (fun a => rsgldParam (C.man a) (C.eps a) (noise a)) C.order hC.1 w' fun a ha => by
    rw [eqv a ha]; exact k1 a ha
  obtain ⟨-, n2, -⟩ := forParams_ok (fun a => rsgldParam (C.man a) (C.eps a) (noise a)) C.order hC.1 w k1
  have out : ∀ a, a ∉ C.order → w a = s.par a ∧ w' a = s.par a := fun a ha => by
    have hd : f.dep a = false := by
      cases hd : f.dep a with
      | false => rfl
      | true => exact absurd (hC.2 a hd) ha
    rw [hw1, hw1']
    simp [hf.dep, hd]
  have ew : (Optim.forParams (fun a => rsgldParam (C.man a) (C.eps a) (noise a)) C.order w').1 =
      (Optim.forParams (fun a => rsgldParam (C.man a) (C.eps a) (noise a)) C.order w).1 := by
    funext a
    by_cases ha : a ∈ C.order
    · rw [m2 a ha, n2 a ha, eqv a ha]
    · rw [forParams_of_notMem _ _ _ ha, forParams_of_notMem _ _ _ ha, (out a ha).1, (out a ha).2]
  have cl : ∀ a, ((Optim.forParams (fun a => rsgldParam (C.man a) (C.eps a) (noise a)) C.order w).1 a).2 = none ∨
      ((Optim.forParams (fun a => rsgldParam (C.man a) (C.eps a) (noise a)) C.order w).1 a).2 = some 0 := by
    intro a
    by_cases ha : a ∈ C.order
    · rw [n2 a ha]
      have q := k1 a ha
      unfold rsgldParam at q ⊢
      by_cases hε : C.eps a < 0
      · simp [hε] at q
      · simp only [if_neg hε] at q ⊢
        generalize w a = p at q ⊢
        obtain ⟨p1, p2⟩ := p
        cases p2 with
        | none => simp at q
        | some g => exact .inr rfl
    · rw [forParams_of_notMem _ _ _ ha, (out a ha).1]
      exact hc a
  rw [u2, u1, hl]
  generalize Optim.forParams (fun a => rsgldParam (C.man a) (C.eps a) (noise a)) C.order w = r at noerr ew cl ⊢
  generalize Optim.forParams (fun a => rsgldParam (C.man a) (C.eps a) (noise a)) C.order w' = r' at m1 ew ⊢
  obtain ⟨r1, r2, r3⟩ := r
  obtain ⟨r1', r2', r3'⟩ := r'
  obtain rfl : r3 = none := noerr
  obtain rfl : r3' = none := m1
  obtain rfl : r1' = r1 := ew
  refine ⟨rfl, fun a => ?_⟩
  dsimp only
  split_ifs <;> exact cl a

omit [Fintype κ] in
/-- **C136, `RSGLD`.** -/
theorem C136_rsgld (hs : ∀ a, SeesOnly (C.man a) (geo a).On) {f f' : ℕ → Closure κ ι}
    (hf : ∀ t, SameClosure (fun a => (geo a).On) (f t) (f' t))
    (hC : C.order.Nodup ∧ ∀ t a, (f t).dep a = true → a ∈ C.order) (noise : ℕ → ∀ a, ι a → ℝ)
    {s s' : ℕ → RSGLD κ ι} (hx : ∀ a, (geo a).On ((s 0).par a).1 ∧ ((s 0).par a).2 = none) (h0 : s' 0 = s 0)
    (h : ∀ t, (s t).step C (f t) (noise t) = (s (t + 1), none))
    (h' : ∀ t, s' (t + 1) = ((s' t).step C (f' t) (noise t)).1) (t : ℕ) :
    s' t = s t ∧ ((s' t).step C (f' t) (noise t)).2 = none := by
  have key : ∀ t, s' t = s t ∧ (∀ a, (geo a).On ((s t).par a).1) ∧
      ∀ a, ((s t).par a).2 = none ∨ ((s t).par a).2 = some 0 := by
    intro t
    induction t with
    | zero => exact ⟨h0, fun a => (hx a).1, fun a => .inl (hx a).2⟩
    | succ t ih =>
      obtain ⟨i1, i2, i3⟩ := ih
      have q := rsgld_step hs (hf t) ⟨hC.1, hC.2 t⟩ (noise t) i2 i3 (by rw [h t])
      have e : s (t + 1) = ((s t).step C (f t) (noise t)).1 := by rw [h t]
      refine ⟨?_, ?_, ?_⟩
      · rw [h', i1, q.1, e]
      · have inv := forParams_inv' (fun a => rsgldParam (C.man a) (C.eps a) (noise t a))
          (fun a (p : (ι a → ℝ) × Option (ι a → ℝ)) => (geo a).On p.1) C.order
          (fun a _ p hp => by
            unfold rsgldParam
            split_ifs
            · exact hp
            · split
              · exact hp
              · exact (geo a).retr hp ((geo a).egrad _ hp))
          (fun a => if (f t).dep a then (((s t).par a).1, some (((s t).par a).2.getD 0 + (f t).grad (fun a => ((s t).par a).1) a))
            else (s t).par a)
          (fun a => by split_ifs <;> exact i2 a)
        rw [e]
        unfold RSGLD.step
        dsimp only
        split
        · rename_i w' _ e he
          rw [he] at inv
          exact inv
        · rename_i w' _ he
          rw [he] at inv
          split_ifs <;> exact inv
      · rw [e]; exact q.2
  obtain ⟨i1, i2, i3⟩ := key t
  rw [i1, (rsgld_step hs (hf t) ⟨hC.1, hC.2 t⟩ (noise t) i2 i3 (by rw [h t])).1, h t]
  exact ⟨rfl, rfl⟩

/-- The log-probabilities `0` and `1 - |x|²` on the circle. -/
example : ∃ (C : Config Unit fun _ => Fin 2) (f f' : Closure Unit fun _ => Fin 2) (geo : ∀ a, Geometry (C.man a)),
    (∀ a, SeesOnly (C.man a) (geo a).On) ∧ SameClosure (fun a => (geo a).On) f f' ∧
    (geo ()).On ![1, 0] ∧ f.grad (fun _ => ![1, 0]) ≠ f'.grad (fun _ => ![1, 0]) := by
  have hP : Sphere.Projects (Set.univ : Set (Vec 2)) none := rfl
  obtain ⟨q1, q2, q3⟩ := circle_losses
  refine ⟨⟨fun _ => sphere none, fun _ => 1, [()], 3⟩, ⟨fun _ => 0, fun _ _ => 0, fun _ => true⟩,
    ⟨fun x => ∑ i, x () i ^ 2 - 1, fun x _ => (2 : ℝ) • x (), fun _ => true⟩, fun _ => C55.sphereGeometry hP,
    fun _ => C136_sphere hP, ⟨rfl, q1, fun x hx a h => ?_, fun x hx a h => ?_⟩,
    ⟨by simp [dotProduct, Fin.sum_univ_two], trivial⟩, fun h => ?_⟩
  · obtain ⟨v, e, hv⟩ := (q2 x hx a).1 rfl
    cases e
    exact hv
  · obtain ⟨v, e, hv⟩ := (q3 x hx a).1 rfl
    cases e
    exact hv
  · have := congrFun (congrFun h ()) 0
    norm_num at this

/-! ### SGRHMC -/

/-- Two rounds of `SGRHMC` with full friction and no noise: the second round moves along the gradient at the first
point. -/
theorem sgrhmc_two {ι : Type} (M : Manifold ι) (F : (Unit → ι → ℝ) → ℝ) (g : (Unit → ι → ℝ) → Unit → ι → ℝ)
    (x v : ι → ℝ) (h0 : ∀ x, (M.egrad2rgrad x 0).value = 0) :
    ((({ par := fun _ => { point := x } } : SGRHMC Unit fun _ => ι).step ⟨fun _ => M, fun _ => 1, [()], 1⟩
      (fun _ => 1) ⟨F, g, fun _ => true⟩ (fun _ => v) [0, 0]).1.par ()).point =
    (M.retrTransp (M.retrTransp x v v).1 (g (fun _ => x) ()) (g (fun _ => x) ())).1 := by
  have n2 : ¬ (2 : ℝ) < 0 := by norm_num
  simp [SGRHMC.step, sgrhmcRounds, Optim.forParams, sgrhmcParam, h0, n2]

theorem retr_of {x u y : Matrix (Fin 2) (Fin 1) ℝ} {c : ℝ} (hc : c = (u 1 0 * x 0 0 - x 1 0 * u 0 0) / 2)
    (h0 : y 0 0 + c * y 1 0 = x 0 0 - c * x 1 0) (h1 : y 1 0 - c * y 0 0 = x 1 0 + c * x 0 0) :
    Stiefel.Canonical.retr x u = y := by
  have a : ∀ i j, Stiefel.Canonical.amat x u i j = u i 0 * x j 0 - x i 0 * u j 0 := fun i j => by
    simp [Stiefel.Canonical.amat, Matrix.mul_apply]
  have l : ∀ i j, Stiefel.Canonical.lhs x u i j = -1 / 2 * (u i 0 * x j 0 - x i 0 * u j 0) + if i = j then 1 else 0 :=
    fun i j => by rw [Stiefel.Canonical.lhs, a]
  have hd : (Stiefel.Canonical.lhs x u).det ≠ 0 := by
    rw [Matrix.det_fin_two, l, l, l, l]
    have : (0 : ℝ) < 1 + c ^ 2 := by positivity
    have e : (-1 / 2 * (u 0 0 * x 0 0 - x 0 0 * u 0 0) + if (0 : Fin 2) = 0 then 1 else 0) *
        (-1 / 2 * (u 1 0 * x 1 0 - x 1 0 * u 1 0) + if (1 : Fin 2) = 1 then 1 else 0) -
        (-1 / 2 * (u 0 0 * x 1 0 - x 0 0 * u 1 0) + if (0 : Fin 2) = 1 then 1 else 0) *
        (-1 / 2 * (u 1 0 * x 0 0 - x 1 0 * u 0 0) + if (1 : Fin 2) = 0 then (1 : ℝ) else 0) = 1 + c ^ 2 := by
      rw [hc]; simp; ring
    rw [e]; exact this.ne'
  have h : Stiefel.Canonical.lhs x u * y = x + (1 / 2 : ℝ) • (Stiefel.Canonical.amat x u * x) := by
    ext i j
    obtain rfl : j = 0 := Subsingleton.elim _ _
    rw [Matrix.add_apply, Matrix.smul_apply, Matrix.mul_apply, Matrix.mul_apply, Fin.sum_univ_two, Fin.sum_univ_two,
      l, l, a, a, smul_eq_mul]
    rw [hc] at h0 h1
    fin_cases i
    · simp; linarith
    · simp; linarith
  unfold Stiefel.Canonical.retr Stiefel.Canonical.transpFollowOne
  dsimp only
  rw [← h, ← Matrix.mul_assoc, Matrix.nonsing_inv_mul _ (isUnit_iff_ne_zero.2 hd), Matrix.one_mul]

/-- `SGRHMC` on `CanonicalStiefel` (the circle): two log-probabilities that are 0 on the circle, the same random
numbers, and after one step with two rounds the points are different.  The velocity is changed by the Euclidean
gradient, taken at the point before the move. -/
theorem C136_counterexample_sgrhmc (proj : Matrix (Fin 2) (Fin 1) ℝ → Matrix (Fin 2) (Fin 1) ℝ) :
    ∃ (C : Config Unit fun _ => Fin 2 × Fin 1) (f f' : Closure Unit fun _ => Fin 2 × Fin 1)
      (s : SGRHMC Unit fun _ => Fin 2 × Fin 1) (start : Unit → Fin 2 × Fin 1 → ℝ)
      (noises : List (Unit → Fin 2 × Fin 1 → ℝ)),
      (∀ a, C.man a = canonicalStiefel proj) ∧ Stiefel.OnStiefel (toMat (s.par ()).point) ∧
      SameClosure (fun _ x => Stiefel.OnStiefel (toMat x)) f f' ∧
      ((s.step C (fun _ => 1) f start noises).1.par ()).point ≠ ((s.step C (fun _ => 1) f' start noises).1.par ()).point := by
  have h0 : ∀ x : Fin 2 × Fin 1 → ℝ, IsGrad (fun _ => (0 : ℝ)) x 0 := fun x => ⟨0, hasFDerivAt_const _ _, fun v => by simp⟩
  have z : ∀ x, ((canonicalStiefel proj).egrad2rgrad x 0).value = 0 := fun x => by
    funext p
    simp [canonicalStiefel, ofMat, toMat, Stiefel.Canonical.proju, Matrix.mul_apply]
  refine ⟨⟨fun _ => canonicalStiefel proj, fun _ => 1, [()], 1⟩, ⟨fun _ => 0, fun _ _ => 0, fun _ => true⟩,
    ⟨fun x => ∑ i, x () i ^ 2 - 1, fun x _ => (2 : ℝ) • x (), fun _ => true⟩,
    { par := fun _ => { point := ofMat !![1; 0] } }, fun _ => ofMat !![0; 1], [0, 0], fun _ => rfl, ?_,
    ⟨rfl, fun x hx => ?_, fun x _ a _ => h0 _, fun x _ a _ => ?_⟩, ?_⟩
  · change (!![1; 0] : Matrix (Fin 2) (Fin 1) ℝ)ᵀ * !![1; 0] = 1
    ext i j; fin_cases i; fin_cases j; simp [Matrix.mul_apply, Fin.sum_univ_two]
  · have e : (toMat (x ()))ᵀ * toMat (x ()) = 1 := hx ()
    have e1 := congrFun (congrFun e 0) 0
    simp only [Matrix.mul_apply, Matrix.transpose_apply, toMat, Matrix.one_apply_eq] at e1
    change (0 : ℝ) = ∑ i, x () i ^ 2 - 1
    rw [Fintype.sum_prod_type, ← e1]
    simp [sq]
  · obtain ⟨L, hL, eL⟩ := (h0 (x ())).decay 2
    refine ⟨L, ?_, by simpa using eL⟩
    have := hL.sub_const 1
    refine this.congr_of_eventuallyEq (Filter.Eventually.of_forall fun y => ?_)
    simp
  · rw [sgrhmc_two _ _ _ _ _ z, sgrhmc_two _ _ _ _ _ z]
    have m : ∀ x : Matrix (Fin 2) (Fin 1) ℝ, toMat (ofMat x) = x := fun x => rfl
    have r1 : Stiefel.Canonical.retr (!![1; 0] : Matrix (Fin 2) (Fin 1) ℝ) !![0; 1] = !![3/5; 4/5] := by
      refine retr_of (c := 1 / 2) ?_ ?_ ?_ <;> simp <;> norm_num
    have r2 : Stiefel.Canonical.retr (!![3/5; 4/5] : Matrix (Fin 2) (Fin 1) ℝ) 0 = !![3/5; 4/5] := by
      refine retr_of (c := 0) ?_ ?_ ?_ <;> simp
    have r3 : Stiefel.Canonical.retr (!![3/5; 4/5] : Matrix (Fin 2) (Fin 1) ℝ) !![2; 0] = !![187/205; -84/205] := by
      refine retr_of (c := -4 / 5) ?_ ?_ ?_ <;> simp <;> norm_num
    have e2 : toMat ((2 : ℝ) • ofMat (!![1; 0] : Matrix (Fin 2) (Fin 1) ℝ)) = !![2; 0] := by
      ext i j
      fin_cases j
      fin_cases i <;> simp [toMat, ofMat]
    intro h
    simp only [canonicalStiefel, Stiefel.C24_retr_transp, m, r1, e2] at h
    have h' := congrFun h (0, 0)
    change Stiefel.Canonical.retr _ 0 0 0 = Stiefel.Canonical.retr _ _ 0 0 at h'
    rw [r2, r3] at h'
    norm_num at h'

end
end Geoopt.C136
