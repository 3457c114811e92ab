import Verif.Props.C93
import Verif.Props.C90
import Verif.Props.C91

/-!
# C94: training does not depend on the choice of orthonormal coordinates

Run `RiemannianSGD` (with momentum, Nesterov momentum, weight decay, stabilization) or
`RiemannianAdam` twice: once on given parameters, once on the same parameters in rotated coordinates,
with the gradients of the same loss in those coordinates.  After any number of iterations the second
run is the first one in rotated coordinates.  For `RiemannianAdam` this needs one second moment per
manifold element, which `component_inner` of the manifolds gives; Euclidean parameters have one per
entry, and there it fails.
-/

namespace Geoopt.C94
open Geoopt Geoopt.Optim Geoopt.Rotation Geoopt.C93 Matrix

/-! ### Loops -/

section Loop
variable {κ : Type} [DecidableEq κ] {S : κ → Type} (R : ∀ a, S a → S a) (I : ∀ a, S a → Prop)

/-- `f'` does in the new coordinates what `f` does, and `f` keeps `I`. -/
def Commutes (f f' : ∀ a, S a → S a × Bool × Option PyErr) : Prop :=
  ∀ a s, I a s → f' a (R a s) = (R a (f a s).1, (f a s).2) ∧ I a (f a s).1

theorem rot_update (w : ∀ a, S a) (a : κ) (s : S a) :
    Function.update (fun b => R b (w b)) a (R a s) = fun b => R b (Function.update w a s b) := by
  funext b
  by_cases h : b = a
  · subst h; simp
  · simp [Function.update_of_ne h]

theorem inv_update {w : ∀ a, S a} (hw : ∀ a, I a (w a)) {a : κ} {s : S a} (hs : I a s) (b : κ) :
    I b (Function.update w a s b) := by
  by_cases h : b = a
  · subst h; simpa using hs
  · simpa [Function.update_of_ne h] using hw b

theorem forParams_rot {f f' : ∀ a, S a → S a × Bool × Option PyErr} (hf : Commutes R I f f')
    (as : List κ) (w : ∀ a, S a) (hw : ∀ a, I a (w a)) :
    forParams f' as (fun a => R a (w a)) =
      (fun a => R a ((forParams f as w).1 a), (forParams f as w).2) ∧
    ∀ a, I a ((forParams f as w).1 a) := by
  induction as generalizing w with
  | nil => exact ⟨rfl, hw⟩
  | cons a as ih =>
    obtain ⟨h1, h2⟩ := hf a (w a) (hw a)
    simp only [forParams, h1]
    rcases hfa : f a (w a) with ⟨s, b, e⟩
    rw [hfa] at h2
    cases e with
    | some e => exact ⟨by simp only [rot_update], inv_update I hw h2⟩
    | none =>
      have := ih (Function.update w a s) (inv_update I hw h2)
      simp only [rot_update, this.1]
      exact ⟨by trivial, this.2⟩

theorem stabParams_rot {f f' : ∀ a, S a → S a}
    (hf : ∀ a s, I a s → f' a (R a s) = R a (f a s) ∧ I a (f a s))
    (as : List κ) (w : ∀ a, S a) (hw : ∀ a, I a (w a)) :
    stabParams f' as (fun a => R a (w a)) = (fun a => R a (stabParams f as w a)) ∧
    ∀ a, I a (stabParams f as w a) := by
  induction as generalizing w with
  | nil => exact ⟨rfl, hw⟩
  | cons a as ih =>
    obtain ⟨h1, h2⟩ := hf a (w a) (hw a)
    have := ih (Function.update w a (f a (w a))) (inv_update I hw h2)
    unfold stabParams at this ⊢
    simp only [List.foldl_cons, h1, rot_update]
    exact this

theorem forGroups_rot {H : Type} {f f' : (∀ a, S a) → H → (∀ a, S a) × H × Option PyErr}
    (hf : ∀ w G, (∀ a, I a (w a)) →
      f' (fun a => R a (w a)) G = (fun a => R a ((f w G).1 a), (f w G).2) ∧ ∀ a, I a ((f w G).1 a))
    (Gs : List H) (w : ∀ a, S a) (hw : ∀ a, I a (w a)) :
    forGroups f' Gs (fun a => R a (w a)) =
      (fun a => R a ((forGroups f Gs w).1 a), (forGroups f Gs w).2) ∧
    ∀ a, I a ((forGroups f Gs w).1 a) := by
  induction Gs generalizing w with
  | nil => exact ⟨rfl, hw⟩
  | cons G Gs ih =>
    obtain ⟨h1, h2⟩ := hf w G hw
    simp only [forGroups, h1]
    rcases hfa : f w G with ⟨s, b, e⟩
    rw [hfa] at h2
    cases e with
    | some e => exact ⟨rfl, h2⟩
    | none =>
      have := ih s h2
      simp only [this.1]
      exact ⟨by trivial, this.2⟩

theorem counterGroup_rot {H : Type} {body body' : H → ∀ a, S a → S a × Bool × Option PyErr}
    {stab stab' : H → ∀ a, S a → S a} (period : H → Option ℕ)
    (hb : ∀ h, Commutes R I (body h) (body' h))
    (hs : ∀ h a s, I a s → stab' h a (R a s) = R a (stab h a s) ∧ I a (stab h a s))
    (w : ∀ a, S a) (G : Group H κ) (hw : ∀ a, I a (w a)) :
    counterGroup body' stab' period (fun a => R a (w a)) G =
      (fun a => R a ((counterGroup body stab period w G).1 a),
        (counterGroup body stab period w G).2) ∧
    ∀ a, I a ((counterGroup body stab period w G).1 a) := by
  obtain ⟨h1, h2⟩ := forParams_rot R I (hb G.hyper) G.params w hw
  unfold counterGroup
  simp only [h1]
  rcases hf : forParams (body G.hyper) G.params w with ⟨w', b, e⟩
  rw [hf] at h2
  cases e with
  | some e => exact ⟨rfl, h2⟩
  | none =>
    cases hp : period G.hyper with
    | none => exact ⟨rfl, h2⟩
    | some k =>
      simp only
      rcases hm : isMultiple (G.step + 1) k with e | b
      · exact ⟨rfl, h2⟩
      · cases b
        · exact ⟨rfl, h2⟩
        · have := stabParams_rot R I (hs G.hyper) G.params w' h2
          simp only [this.1]
          exact ⟨by trivial, this.2⟩

theorem flagGroup_rot {H : Type} {body body' : H → ∀ a, S a → S a × Bool × Option PyErr}
    {stab stab' : H → ∀ a, S a → S a}
    (hb : ∀ h, Commutes R I (body h) (body' h))
    (hs : ∀ h a s, I a s → stab' h a (R a s) = R a (stab h a s) ∧ I a (stab h a s))
    (w : ∀ a, S a) (G : H × List κ) (hw : ∀ a, I a (w a)) :
    flagGroup body' stab' (fun a => R a (w a)) G =
      (fun a => R a ((flagGroup body stab w G).1 a), (flagGroup body stab w G).2) ∧
    ∀ a, I a ((flagGroup body stab w G).1 a) := by
  obtain ⟨h1, h2⟩ := forParams_rot R I (hb G.1) G.2 w hw
  unfold flagGroup
  simp only [h1]
  rcases hf : forParams (body G.1) G.2 w with ⟨w', b, e⟩
  rw [hf] at h2
  cases e with
  | some e => exact ⟨rfl, h2⟩
  | none =>
    cases b
    · exact ⟨rfl, h2⟩
    · have := stabParams_rot R I (hs G.1) G.2 w' h2
      simp only [if_true, this.1]
      exact ⟨by trivial, this.2⟩

end Loop

/-! ### One parameter -/

section Param
variable {ι : Type} [Fintype ι] {A : Matrix ι ι ℝ} {M M' : Manifold ι} {On : (ι → ℝ) → Prop}

theorem sgdParam_rot (hM : Equivariant A M M' On) (h : SGDHyper) (s : SGDParam ι)
    (hs : On s.point) :
    sgdParam M' h (rotSGD A s) = (rotSGD A (sgdParam M h s).1, (sgdParam M h s).2) ∧
    On (sgdParam M h s).1.point := by
  rcases s with ⟨x, g, b⟩
  simp only at hs
  unfold sgdParam rotSGD
  cases g with
  | none => exact ⟨rfl, hs⟩
  | sparse => exact ⟨rfl, hs⟩
  | dense g =>
    simp only [rotGrad, ← Matrix.mulVec_smul, ← Matrix.mulVec_add, hM.egrad x _ hs]
    set r := M.egrad2rgrad x (g + h.weightDecay • x)
    by_cases hm : 0 < h.momentum
    · simp only [hm, if_true]
      have key : ∀ b0 : ι → ℝ, _ := fun b0 => hM.retrTransp x
        (-h.lr • if h.nesterov = true then
            r.value + h.momentum • (h.momentum • b0 + (1 - h.dampening) • r.value)
          else h.momentum • b0 + (1 - h.dampening) • r.value)
        (h.momentum • b0 + (1 - h.dampening) • r.value) hs
      cases b with
      | none =>
        simp only [Option.map_none]
        have := key g
        simp only [← Matrix.mulVec_smul, ← Matrix.mulVec_add, ← apply_ite (fun z => A *ᵥ z), this.1]
        exact ⟨by trivial, this.2⟩
      | some b0 =>
        simp only [Option.map_some]
        have := key b0
        simp only [← Matrix.mulVec_smul, ← Matrix.mulVec_add, ← apply_ite (fun z => A *ᵥ z), this.1]
        exact ⟨by trivial, this.2⟩
    · simp only [hm, if_false]
      have := hM.retr x (-h.lr • r.value) hs
      simp only [← Matrix.mulVec_smul, this.1]
      refine ⟨?_, this.2⟩
      cases b <;> rfl

theorem sgdStab_rot (hM : Equivariant A M M' On) (m : Bool) (h : SGDHyper) (s : SGDParam ι)
    (hs : On s.point) :
    sgdStab m M' h (rotSGD A s) = rotSGD A (sgdStab m M h s) ∧ On (sgdStab m M h s).point := by
  rcases s with ⟨x, g, b⟩
  simp only at hs
  have hp := hM.projx x hs
  unfold sgdStab rotSGD
  cases m with
  | false => exact ⟨rfl, hs⟩
  | true =>
    simp only [Bool.true_eq_false, if_false, hp.1]
    by_cases hm : 0 < h.momentum
    · simp only [hm, if_true]
      refine ⟨?_, hp.2⟩
      cases b with
      | none => rfl
      | some b => simp only [Option.map_some, hM.proju _ _ hp.2]
    · simp only [hm, if_false]
      exact ⟨trivial, hp.2⟩

theorem scale_rot {s : ι → ℝ} (hs : ConstOnMixed A s) (m : ι → ℝ) :
    (fun i => (A *ᵥ m) i * s i) = A *ᵥ fun i => m i * s i := by
  funext i
  simp only [Matrix.mulVec, dotProduct, Finset.sum_mul]
  refine Finset.sum_congr rfl fun j _ => ?_
  by_cases h : A i j = 0
  · simp [h]
  · rw [hs i j h, mul_assoc]

theorem direction_rot {v : ι → ℝ} (hv : ConstOnMixed A v) (h : AdamHyper) (t : ℕ) (m : ι → ℝ) :
    adamDirection h t (A *ᵥ m) v = A *ᵥ adamDirection h t m v := by
  have hs : ConstOnMixed A fun i =>
      (1 - h.beta1 ^ t)⁻¹ * (Real.sqrt (v i / (1 - h.beta2 ^ t)) + h.eps)⁻¹ := by
    intro i j hij; simp only [hv i j hij]
  have := scale_rot hs m
  unfold adamDirection
  simp only [div_eq_mul_inv, mul_assoc] at this ⊢
  exact this

theorem const_moment {h : AdamHyper} {v c : ι → ℝ} (hv : ConstOnMixed A v) (hc : ConstOnMixed A c) :
    ConstOnMixed A (h.beta2 • v + (1 - h.beta2) • c) := by
  intro i j hij
  simp only [Pi.add_apply, Pi.smul_apply, hv i j hij, hc i j hij]

theorem adamInit_const {s : Option (AdamState ι)} {b : Bool}
    (hs : ∀ st ∈ s, ConstOnMixed A st.expAvgSq ∧ ∀ v ∈ st.maxExpAvgSq, ConstOnMixed A v) :
    ConstOnMixed A (adamInit b s).expAvgSq ∧
      ∀ v ∈ (adamInit b s).maxExpAvgSq, ConstOnMixed A v := by
  cases s with
  | none =>
    refine ⟨fun _ _ _ => rfl, ?_⟩
    cases b
    · simp [adamInit]
    · intro v hv
      simp only [adamInit, if_true, Option.mem_def, Option.some.injEq] at hv
      subst hv; exact fun _ _ _ => rfl
  | some st => exact hs st rfl

theorem adamInit_rot (s : Option (AdamState ι)) (b : Bool) :
    adamInit b (s.map fun st => ⟨st.step, A *ᵥ st.expAvg, st.expAvgSq, st.maxExpAvgSq⟩) =
      ⟨(adamInit b s).step, A *ᵥ (adamInit b s).expAvg, (adamInit b s).expAvgSq,
        (adamInit b s).maxExpAvgSq⟩ := by
  cases s with
  | none => simp [adamInit]
  | some st => rfl

theorem adamParam_rot (hM : Equivariant A M M' On) (hI : InnerInvariant A M M' On) (h : AdamHyper)
    (s : AdamParam ι) (hs : On s.point ∧ MomentsConst A s) :
    adamParam M' h (rotAdam A s) = (rotAdam A (adamParam M h s).1, (adamParam M h s).2) ∧
    On (adamParam M h s).1.point ∧ MomentsConst A (adamParam M h s).1 := by
  rcases s with ⟨x, g, st⟩
  obtain ⟨hs, hst⟩ := hs
  simp only at hs
  cases g with
  | none => exact ⟨rfl, hs, hst⟩
  | sparse => exact ⟨rfl, hs, hst⟩
  | dense g =>
    obtain ⟨hc, hcm⟩ := adamInit_const (b := h.amsgrad) (s := st) hst
    unfold adamParam rotAdam
    simp only [rotGrad, adamInit_rot, ← Matrix.mulVec_smul, ← Matrix.mulVec_add, hM.egrad x _ hs,
      hI.inner x _ hs]
    set r := M.egrad2rgrad x (g + h.weightDecay • x)
    set st' := adamInit h.amsgrad st
    set m := h.beta1 • st'.expAvg + (1 - h.beta1) • r.value
    set v := h.beta2 • st'.expAvgSq + (1 - h.beta2) • M.componentInner x r.value with hv
    have hvc : ConstOnMixed A v := const_moment hc (hI.mixed x r.value hs)
    cases hamsg : h.amsgrad with
    | false =>
      have := hM.retrTransp x (-h.lr • adamDirection h (st'.step + 1) m v) m hs
      simp only [direction_rot hvc, ← Matrix.mulVec_smul, this.1]
      refine ⟨rfl, this.2, ?_⟩
      rintro st2 hst2
      simp only [Option.mem_def, Option.some.injEq] at hst2
      subst hst2
      exact ⟨hvc, hcm⟩
    | true =>
      rcases hvm : st'.maxExpAvgSq with _ | vm
      · refine ⟨rfl, hs, ?_⟩
        rintro st2 hst2
        simp only [Option.mem_def, Option.some.injEq] at hst2
        subst hst2
        exact ⟨hvc, by simp⟩
      · have hmc : ConstOnMixed A fun i => max (vm i) (v i) := by
          intro i j hij; simp only [hcm vm hvm i j hij, hvc i j hij]
        have := hM.retrTransp x
          (-h.lr • adamDirection h (st'.step + 1) m fun i => max (vm i) (v i)) m hs
        simp only [direction_rot hmc, ← Matrix.mulVec_smul, this.1]
        refine ⟨rfl, this.2, ?_⟩
        rintro st2 hst2
        simp only [Option.mem_def, Option.some.injEq] at hst2
        subst hst2
        exact ⟨hvc, by rintro _ ⟨⟩; exact hmc⟩

theorem adamStab_rot (hM : Equivariant A M M' On) (m : Bool) (s : AdamParam ι)
    (hs : On s.point ∧ MomentsConst A s) :
    adamStab m M' (rotAdam A s) = rotAdam A (adamStab m M s) ∧
    On (adamStab m M s).point ∧ MomentsConst A (adamStab m M s) := by
  rcases s with ⟨x, g, st⟩
  obtain ⟨hs, hst⟩ := hs
  simp only at hs
  have hp := hM.projx x hs
  unfold adamStab rotAdam
  cases m with
  | false => exact ⟨rfl, hs, hst⟩
  | true =>
    cases st with
    | none => exact ⟨rfl, hs, hst⟩
    | some st =>
      simp only [Bool.true_eq_false, if_false, hp.1, Option.map_some, hM.proju _ _ hp.2]
      refine ⟨trivial, hp.2, ?_⟩
      rintro st2 hst2
      simp only [Option.mem_def, Option.some.injEq] at hst2
      subst hst2
      exact hst st rfl

end Param

/-! ### Training -/

section Train
variable {κ : Type} [DecidableEq κ] {ι : κ → Type} [∀ a, Fintype (ι a)]
  {A : ∀ a, Matrix (ι a) (ι a) ℝ} {P P' : Params κ ι} {On : ∀ a, (ι a → ℝ) → Prop}

/-- `g'` gives the gradients that `g` gives, in the new coordinates. -/
def SameGradients (A : ∀ a, Matrix (ι a) (ι a) ℝ) (g g' : (∀ a, ι a → ℝ) → ∀ a, Grad (ι a)) : Prop :=
  ∀ x, g' (fun a => A a *ᵥ x a) = fun a => rotGrad (A a) (g x a)

/-- The whole optimiser in the new coordinates: options and counters stay. -/
def rotSGDAll (A : ∀ a, Matrix (ι a) (ι a) ℝ) (o : SGD κ ι) : SGD κ ι :=
  ⟨fun a => rotSGD (A a) (o.par a), o.groups⟩

/-- The whole optimiser in the new coordinates. -/
def rotAdamAll (A : ∀ a, Matrix (ι a) (ι a) ℝ) (o : Adam κ ι) : Adam κ ι :=
  ⟨fun a => rotAdam (A a) (o.par a), o.groups⟩

theorem man_of_manifold (hP : P'.isManifold = P.isManifold)
    (hM : ∀ a, Equivariant (A a) (P.manifold a) (P'.manifold a) (On a)) {a : κ}
    (h : P.isManifold a = true) : Equivariant (A a) (P.man a) (P'.man a) (On a) := by
  have := hM a
  unfold Params.manifold at this
  rw [hP] at this
  simpa only [h, if_true] using this

theorem sgdStep_rot (hP : P'.isManifold = P.isManifold)
    (hM : ∀ a, Equivariant (A a) (P.manifold a) (P'.manifold a) (On a)) (o : SGD κ ι)
    (ho : ∀ a, On a (o.par a).point) :
    sgdStep P' (rotSGDAll A o) = (rotSGDAll A (sgdStep P o).1, (sgdStep P o).2) ∧
    ∀ a, On a ((sgdStep P o).1.par a).point := by
  have hg : ∀ w (G : Group SGDHyper κ), (∀ a, On a (w a).point) →
      sgdGroup P' (fun a => rotSGD (A a) (w a)) G =
        (fun a => rotSGD (A a) ((sgdGroup P w G).1 a), (sgdGroup P w G).2) ∧
      ∀ a, On a ((sgdGroup P w G).1 a).point := by
    intro w G hw
    refine counterGroup_rot (fun a => rotSGD (A a)) (fun a s => On a s.point) SGDHyper.stabilize
      (fun h a s hs => sgdParam_rot (hM a) h s hs) (fun h a s hs => ?_) w G hw
    cases hm : P.isManifold a with
    | true => rw [hP, hm]; exact sgdStab_rot (man_of_manifold hP hM hm) true h s hs
    | false => rw [hP, hm]; exact ⟨by unfold sgdStab; simp, by unfold sgdStab; simpa using hs⟩
  have := forGroups_rot (fun a => rotSGD (A a)) (fun a s => On a s.point) hg o.groups o.par ho
  unfold sgdStep rotSGDAll
  simp only [this.1]
  exact ⟨by trivial, this.2⟩

theorem adamStep_rot (hP : P'.isManifold = P.isManifold)
    (hM : ∀ a, Equivariant (A a) (P.manifold a) (P'.manifold a) (On a))
    (hI : ∀ a, InnerInvariant (A a) (P.manifold a) (P'.manifold a) (On a)) (o : Adam κ ι)
    (ho : ∀ a, On a (o.par a).point ∧ MomentsConst (A a) (o.par a)) :
    adamStep P' (rotAdamAll A o) = (rotAdamAll A (adamStep P o).1, (adamStep P o).2) ∧
    ∀ a, On a ((adamStep P o).1.par a).point ∧ MomentsConst (A a) ((adamStep P o).1.par a) := by
  have hg : ∀ w (G : AdamHyper × List κ), (∀ a, On a (w a).point ∧ MomentsConst (A a) (w a)) →
      adamGroup P' (fun a => rotAdam (A a) (w a)) G =
        (fun a => rotAdam (A a) ((adamGroup P w G).1 a), (adamGroup P w G).2) ∧
      ∀ a, On a ((adamGroup P w G).1 a).point ∧ MomentsConst (A a) ((adamGroup P w G).1 a) := by
    intro w G hw
    refine flagGroup_rot (fun a => rotAdam (A a)) (fun a s => On a s.point ∧ MomentsConst (A a) s)
      (fun h a s hs => adamParam_rot (hM a) (hI a) h s hs) (fun h a s hs => ?_) w G hw
    cases hm : P.isManifold a with
    | true => rw [hP, hm]; exact adamStab_rot (man_of_manifold hP hM hm) true s hs
    | false => rw [hP, hm]; exact ⟨by unfold adamStab; simp, by unfold adamStab; simpa using hs⟩
  have := forGroups_rot (fun a => rotAdam (A a)) (fun a s => On a s.point ∧ MomentsConst (A a) s)
    hg o.groups o.par ho
  unfold adamStep rotAdamAll
  simp only [this.1]
  exact ⟨by trivial, this.2⟩

/-- **C94.** `RiemannianSGD`, any number of iterations, any options: the run in the new coordinates is
the run in the old ones, parameters, gradients, momentum buffers, counters and exceptions. -/
theorem C94_sgd (hP : P'.isManifold = P.isManifold)
    (hM : ∀ a, Equivariant (A a) (P.manifold a) (P'.manifold a) (On a))
    {gs gs' : List ((∀ a, ι a → ℝ) → ∀ a, Grad (ι a))} (hg : List.Forall₂ (SameGradients A) gs gs')
    (o : SGD κ ι) (ho : ∀ a, On a (o.par a).point) :
    C90.run (sgdTrain P') gs' (rotSGDAll A o) =
      (rotSGDAll A (C90.run (sgdTrain P) gs o).1, (C90.run (sgdTrain P) gs o).2) := by
  induction hg generalizing o with
  | nil => rfl
  | @cons g g' gs gs' h _ ih =>
    have e : (⟨fun a => { (rotSGDAll A o).par a with
        grad := g' (fun a => ((rotSGDAll A o).par a).point) a }, (rotSGDAll A o).groups⟩ : SGD κ ι) =
        rotSGDAll A ⟨fun a => { o.par a with grad := g (fun a => (o.par a).point) a }, o.groups⟩ := by
      unfold rotSGDAll rotSGD
      simp only [h (fun a => (o.par a).point)]
    have hs := sgdStep_rot hP hM
      ⟨fun a => { o.par a with grad := g (fun a => (o.par a).point) a }, o.groups⟩ ho
    have e2 : sgdTrain P' g' (rotSGDAll A o) =
        (rotSGDAll A (sgdTrain P g o).1, (sgdTrain P g o).2) := by
      unfold sgdTrain
      rw [e]
      exact hs.1
    simp only [C90.run, e2]
    rw [ih (sgdTrain P g o).1 hs.2]

/-- **C94.** `RiemannianAdam` (also with `amsgrad`), when the second moments are one number for each
manifold element. -/
theorem C94_adam (hP : P'.isManifold = P.isManifold)
    (hM : ∀ a, Equivariant (A a) (P.manifold a) (P'.manifold a) (On a))
    (hI : ∀ a, InnerInvariant (A a) (P.manifold a) (P'.manifold a) (On a))
    {gs gs' : List ((∀ a, ι a → ℝ) → ∀ a, Grad (ι a))} (hg : List.Forall₂ (SameGradients A) gs gs')
    (o : Adam κ ι) (ho : ∀ a, On a (o.par a).point) (hm : ∀ a, MomentsConst (A a) (o.par a)) :
    C90.run (adamTrain P') gs' (rotAdamAll A o) =
      (rotAdamAll A (C90.run (adamTrain P) gs o).1, (C90.run (adamTrain P) gs o).2) := by
  induction hg generalizing o with
  | nil => rfl
  | @cons g g' gs gs' h _ ih =>
    have e : (⟨fun a => { (rotAdamAll A o).par a with
        grad := g' (fun a => ((rotAdamAll A o).par a).point) a }, (rotAdamAll A o).groups⟩ :
          Adam κ ι) =
        rotAdamAll A ⟨fun a => { o.par a with grad := g (fun a => (o.par a).point) a }, o.groups⟩ := by
      unfold rotAdamAll rotAdam
      simp only [h (fun a => (o.par a).point)]
    have hs := adamStep_rot hP hM hI
      ⟨fun a => { o.par a with grad := g (fun a => (o.par a).point) a }, o.groups⟩
      fun a => ⟨ho a, hm a⟩
    have e2 : adamTrain P' g' (rotAdamAll A o) =
        (rotAdamAll A (adamTrain P g o).1, (adamTrain P g o).2) := by
      unfold adamTrain
      rw [e]
      exact hs.1
    simp only [C90.run, e2]
    rw [ih (adamTrain P g o).1 (fun a => (hs.2 a).1) fun a => (hs.2 a).2]

/-- A new optimiser has no moments. -/
theorem C94_new (s : AdamParam (ι a)) (h : s.state = none) : MomentsConst (A a) s := by
  intro st hst; rw [h] at hst; cases hst

/-- **C94.** The gradients of the same loss: if `F'` is the loss `F` written in the new coordinates,
its gradients are the old ones in the new coordinates. -/
theorem C94_gradients [Fintype κ] [∀ a, DecidableEq (ι a)] (hA : ∀ a, Orthogonal (A a))
    {F F' : (∀ a, ι a → ℝ) → ℝ} (hF : ∀ x, F' (fun a => A a *ᵥ x a) = F x) {g x : ∀ a, ι a → ℝ}
    (h : C91.HasGradient F g x) :
    C91.HasGradient F' (fun a => A a *ᵥ g a) (fun a => A a *ᵥ x a) := by
  obtain ⟨L, hL, hg⟩ := h
  have hA' : ∀ a, A a * (A a)ᵀ = 1 := fun a => mul_eq_one_comm.1 (hA a)
  let B : (∀ a, ι a → ℝ) →L[ℝ] (∀ a, ι a → ℝ) := LinearMap.toContinuousLinearMap
    (LinearMap.pi fun a => (Matrix.mulVecLin (A a)ᵀ).comp (LinearMap.proj a))
  have hB : ∀ y a, B y a = (A a)ᵀ *ᵥ y a := fun y a => rfl
  have hBx : B (fun a => A a *ᵥ x a) = x := by
    funext a; rw [hB, Matrix.mulVec_mulVec, hA a, Matrix.one_mulVec]
  have e : F' = F ∘ B := by
    funext y
    rw [Function.comp_apply, ← hF]
    congr 1
    funext a
    rw [hB, Matrix.mulVec_mulVec, hA' a, Matrix.one_mulVec]
  refine ⟨L.comp B, ?_, fun v => ?_⟩
  · rw [e]
    exact HasFDerivAt.comp _ (by rw [hBx]; exact hL) (B.hasFDerivAt :)
  · rw [ContinuousLinearMap.comp_apply, hg]
    refine Finset.sum_congr rfl fun a _ => ?_
    have : g a ⬝ᵥ ((A a)ᵀ *ᵥ v a) = (A a *ᵥ g a) ⬝ᵥ v a := by
      rw [Matrix.dotProduct_mulVec, Matrix.vecMul_transpose]
    exact this

end Train

/-! ### The manifolds -/

section Manifolds
variable {n m : ℕ} {Q : Matrix (Fin n) (Fin n) ℝ}

/-- **C94.** Euclidean parameters satisfy the hypothesis of `C94_sgd` for every change of
coordinates. -/
theorem C94_euclidean {ι : Type} [Fintype ι] (A : Matrix ι ι ℝ) :
    Equivariant A (euclidean ι) (euclidean ι) fun _ => True where
  egrad _ _ _ := rfl
  retr _ _ _ := ⟨(Matrix.mulVec_add _ _ _).symm, trivial⟩
  retrTransp _ _ _ _ := ⟨by simp only [euclidean, Matrix.mulVec_add], trivial⟩
  projx _ _ := ⟨rfl, trivial⟩
  proju _ _ _ := rfl

/-- **C94.** The sphere. -/
theorem C94_sphere (hQ : Orthogonal Q) (P : Option (Matrix (Fin n) (Fin n) ℝ)) :
    Equivariant Q (sphere P) (sphere (rotP Q P)) (fun _ => True) ∧
    InnerInvariant Q (sphere P) (sphere (rotP Q P)) fun _ => True := by
  have hr : ∀ x u, Sphere.retr (rotP Q P) (Q *ᵥ x) (Q *ᵥ u) = Q *ᵥ Sphere.retr P x u :=
    fun x u => (C93_sphere hQ P .f32 x x u u).2.2.2.2.2.1
  refine ⟨⟨fun x g _ => ?_, fun x u _ => ⟨hr x u, trivial⟩, fun x u v _ => ⟨?_, trivial⟩,
    fun x _ => ⟨sphere_projx_rot hQ P x, trivial⟩, fun x u _ => sphere_proju_rot hQ P x u⟩,
    ⟨fun x u _ => ?_, fun _ _ _ _ _ _ => rfl⟩⟩
  · simp only [sphere, Sphere.egrad2rgrad, sphere_proju_rot hQ]
  · simp only [sphere, hr, Sphere.transp, sphere_proju_rot hQ]
  · simp only [sphere, Sphere.inner, dot_rot hQ]

/-- **C94.** The sphere with the exact retraction. -/
theorem C94_sphere_exact (hQ : Orthogonal Q) (P : Option (Matrix (Fin n) (Fin n) ℝ)) (dt : DType) :
    Equivariant Q (sphereExact P dt) (sphereExact (rotP Q P) dt) (fun _ => True) ∧
    InnerInvariant Q (sphereExact P dt) (sphereExact (rotP Q P) dt) fun _ => True := by
  have hr : ∀ x u, Sphere.Exact.retr (rotP Q P) dt (Q *ᵥ x) (Q *ᵥ u) =
    Q *ᵥ Sphere.Exact.retr P dt x u := fun x u => sphere_expmap_rot hQ P dt x u
  refine ⟨⟨fun x g _ => ?_, fun x u _ => ⟨hr x u, trivial⟩, fun x u v _ => ⟨?_, trivial⟩,
    fun x _ => ⟨sphere_projx_rot hQ P x, trivial⟩, fun x u _ => sphere_proju_rot hQ P x u⟩,
    ⟨fun x u _ => ?_, fun _ _ _ _ _ _ => rfl⟩⟩
  · simp only [sphereExact, Sphere.egrad2rgrad, sphere_proju_rot hQ]
  · simp only [sphereExact, hr, Sphere.transp, sphere_proju_rot hQ]
  · simp only [sphereExact, Sphere.inner, dot_rot hQ]

/-- **C94.** `Stereographic`, `PoincareBall`, `SphereProjection`, of any curvature. -/
theorem C94_stereographic (hQ : Orthogonal Q) (η : ℝ) (dt : DType) (k : ℝ) :
    Equivariant Q (stereographic η dt k) (stereographic η dt k) (fun _ => True) ∧
    InnerInvariant Q (stereographic η dt k) (stereographic η dt k) fun _ => True := by
  have hr : ∀ x u, Stereo.M.retr η dt k (Q *ᵥ x) (Q *ᵥ u) = Q *ᵥ Stereo.M.retr η dt k x u :=
    fun x u => (C93_stereographic_maps hQ false η dt k 0 x x u u).2.2.2.2.2.1
  refine ⟨⟨fun x g _ => ?_, fun x u _ => ⟨hr x u, trivial⟩, fun x u v _ => ⟨?_, trivial⟩,
    fun x _ => ⟨project_rot hQ η dt k x, trivial⟩, fun x u _ => rfl⟩,
    ⟨fun x u _ => ?_, fun _ _ _ _ _ _ => rfl⟩⟩
  · simp only [stereographic, egrad2rgrad_rot hQ]
  · simp only [stereographic, Stereo.M.retrTransp, hr, transp_rot hQ]
  · simp only [stereographic, (C93_stereographic_numbers hQ η k x x u u x x true true).2.2.1]

/-- **C94.** `StereographicExact`, `PoincareBallExact`, `SphereProjectionExact`. -/
theorem C94_stereographic_exact (hQ : Orthogonal Q) (η : ℝ) (dt : DType) (k : ℝ) :
    Equivariant Q (stereographicExact η dt k) (stereographicExact η dt k) (fun _ => True) ∧
    InnerInvariant Q (stereographicExact η dt k) (stereographicExact η dt k) fun _ => True := by
  have hr : ∀ x u, Stereo.M.expmap true η dt k (Q *ᵥ x) (Q *ᵥ u) =
      Q *ᵥ Stereo.M.expmap true η dt k x u :=
    fun x u => (C93_stereographic_maps hQ true η dt k 0 x x u u).2.1
  refine ⟨⟨fun x g _ => ?_, fun x u _ => ⟨hr x u, trivial⟩, fun x u v _ => ⟨?_, trivial⟩,
    fun x _ => ⟨project_rot hQ η dt k x, trivial⟩, fun x u _ => rfl⟩,
    ⟨fun x u _ => ?_, fun _ _ _ _ _ _ => rfl⟩⟩
  · simp only [stereographicExact, egrad2rgrad_rot hQ]
  · simp only [stereographicExact, Stereo.M.expmapTransp, hr, transp_rot hQ]
  · simp only [stereographicExact, (C93_stereographic_numbers hQ η k x x u u x x true true).2.2.1]

/-- **C94.** `Lorentz`, rotations of space.  What `egrad2rgrad` leaves in the gradient is rotated as
well. -/
theorem C94_lorentz (hQ : Orthogonal Q) (k : ℝ) :
    Equivariant (spatial Q) (lorentz k) (lorentz k) (fun _ => True) ∧
    InnerInvariant (spatial Q) (lorentz k) (lorentz k) fun _ => True := by
  refine ⟨⟨fun x g _ => ?_, fun x u _ => ⟨l_expmap_rot hQ k x u true true, trivial⟩,
    fun x u v _ => ⟨?_, trivial⟩, fun x _ => ⟨l_project_rot hQ k x, trivial⟩,
    fun x u _ => l_proju_rot hQ k x u⟩, ⟨fun x u _ => ?_, fun _ _ _ _ _ _ => rfl⟩⟩
  · simp only [lorentz, l_egrad_rot hQ]
  · simp only [lorentz, l_expmap_rot hQ, l_transp_rot hQ]
  · simp only [lorentz, l_inner_rot hQ]

theorem left_mulVec (x : Fin n × Fin m → ℝ) : left Q *ᵥ x = ofMat (Q * toMat x) := by
  funext p
  simp only [Matrix.mulVec, dotProduct, left, ofMat, Matrix.mul_apply, toMat, Fintype.sum_prod_type,
    ite_mul, zero_mul]
  refine Finset.sum_congr rfl fun i _ => ?_
  simp

theorem toMat_left (x : Fin n × Fin m → ℝ) : toMat (left Q *ᵥ x) = Q * toMat x := by
  rw [left_mulVec]; rfl

theorem ofMat_left (x : Matrix (Fin n) (Fin m) ℝ) : ofMat (Q * x) = left Q *ᵥ ofMat x := by
  rw [left_mulVec]; rfl

theorem conj_mulVec (x : Fin n × Fin n → ℝ) : Rotation.conj Q *ᵥ x = ofMat (Q * toMat x * Qᵀ) := by
  funext p
  simp only [Matrix.mulVec, dotProduct, Rotation.conj, ofMat, Matrix.mul_apply, toMat,
    Fintype.sum_prod_type, Matrix.transpose_apply, Finset.sum_mul]
  rw [Finset.sum_comm]
  refine Finset.sum_congr rfl fun i _ => Finset.sum_congr rfl fun j _ => ?_
  ring

theorem toMat_conj (x : Fin n × Fin n → ℝ) :
    toMat (Rotation.conj Q *ᵥ x) = Q * toMat x * Qᵀ := by
  rw [conj_mulVec]; rfl

theorem ofMat_conj (x : Matrix (Fin n) (Fin n) ℝ) :
    ofMat (Q * x * Qᵀ) = Rotation.conj Q *ᵥ ofMat x := by
  rw [conj_mulVec]; rfl

/-- **C94.** `CanonicalStiefel`.  `proj` and `proj'` are `projx` in the two runs, they are used only to
stabilize (see `C93_stiefel_projx`). -/
theorem C94_canonical_stiefel (hQ : Orthogonal Q)
    {proj proj' : Matrix (Fin n) (Fin m) ℝ → Matrix (Fin n) (Fin m) ℝ}
    (hp : ∀ x, proj' (Q * x) = Q * proj x) :
    Equivariant (left Q) (canonicalStiefel proj) (canonicalStiefel proj') (fun _ => True) ∧
    InnerInvariant (left Q) (canonicalStiefel proj) (canonicalStiefel proj') fun _ => True := by
  refine ⟨⟨fun x g _ => ?_, fun x u _ => ⟨?_, trivial⟩, fun x u v _ => ⟨?_, trivial⟩,
    fun x _ => ⟨?_, trivial⟩, fun x u _ => ?_⟩, ⟨fun x u _ => ?_, fun _ _ _ _ _ _ => rfl⟩⟩
  · simp only [canonicalStiefel, toMat_left, canon_proju_rot hQ, ofMat_left]
  · simp only [canonicalStiefel, toMat_left, Stiefel.Canonical.retr, follow_rot hQ, ofMat_left]
  · simp only [canonicalStiefel, toMat_left, retrTransp_rot hQ, ofMat_left]
  · simp only [canonicalStiefel, toMat_left, hp, ofMat_left]
  · simp only [canonicalStiefel, toMat_left, canon_proju_rot hQ, ofMat_left]
  · simp only [canonicalStiefel, toMat_left, (C93_canonical_stiefel hQ _ _ _).1]

/-- **C94.** `EuclideanStiefelExact`. -/
theorem C94_euclidean_stiefel_exact (hQ : Orthogonal Q)
    {proj proj' : Matrix (Fin n) (Fin m) ℝ → Matrix (Fin n) (Fin m) ℝ}
    (hp : ∀ x, proj' (Q * x) = Q * proj x) :
    Equivariant (left Q) (euclideanStiefelExact proj) (euclideanStiefelExact proj')
      (fun _ => True) ∧
    InnerInvariant (left Q) (euclideanStiefelExact proj) (euclideanStiefelExact proj')
      fun _ => True := by
  refine ⟨⟨fun x g _ => ?_, fun x u _ => ⟨?_, trivial⟩, fun x u v _ => ⟨?_, trivial⟩,
    fun x _ => ⟨?_, trivial⟩, fun x u _ => ?_⟩, ⟨fun x u _ => ?_, fun _ _ _ _ _ _ => rfl⟩⟩
  · simp only [euclideanStiefelExact, toMat_left, euclid_proju_rot hQ, ofMat_left]
  · simp only [euclideanStiefelExact, toMat_left, euclid_expmap_rot hQ, ofMat_left]
  · simp only [euclideanStiefelExact, toMat_left, euclid_expmap_rot hQ, Stiefel.Euclidean.transp,
      euclid_proju_rot hQ, ofMat_left]
  · simp only [euclideanStiefelExact, toMat_left, hp, ofMat_left]
  · simp only [euclideanStiefelExact, toMat_left, euclid_proju_rot hQ, ofMat_left]
  · simp only [euclideanStiefelExact, toMat_left, Stiefel.Euclidean.inner, frob_rot hQ]

/-- **C94.** `SymmetricPositiveDefinite`, at symmetric matrices. -/
theorem C94_spd (hQ : Orthogonal Q) (E : Linalg.Eigh n) :
    Equivariant (Rotation.conj Q) (spd E) (spd E) (fun x => (toMat x)ᵀ = toMat x) ∧
    InnerInvariant (Rotation.conj Q) (spd E) (spd E) fun x => (toMat x)ᵀ = toMat x := by
  have hs : ∀ x u : Matrix (Fin n) (Fin n) ℝ, (SPD.retr x u)ᵀ = SPD.retr x u := fun x u =>
    SPD.sym_symm _
  refine ⟨⟨fun x g _ => ?_, fun x u _ => ⟨?_, hs _ _⟩, fun x u v hx => ⟨?_, hs _ _⟩,
    fun x _ => ⟨?_, SPD.fn_symm _ _ _⟩, fun x u _ => ?_⟩,
    ⟨fun x u hx => ?_, fun _ _ _ _ _ _ => rfl⟩⟩
  · simp only [spd, toMat_conj, spd_egrad_rot hQ, ofMat_conj]
  · simp only [spd, toMat_conj, spd_retr_rot hQ, ofMat_conj]
  · simp only [spd, toMat_conj, spd_retr_rot hQ, spd_transp_rot hQ E hx (hs _ _), ofMat_conj]
  · simp only [spd, toMat_conj, SPD.projx, cj_sym, cj_fn hQ E _ (SPD.sym_symm _), ofMat_conj]
  · simp only [spd, toMat_conj, SPD.proju, cj_sym, ofMat_conj]
  · simp only [spd, toMat_conj, (C93_spd hQ E .AIM hx hx _ _).2.1]

theorem rows_mulVec {β ι : Type} [Fintype β] [DecidableEq β] [Fintype ι] (A : β → Matrix ι ι ℝ)
    (x : β × ι → ℝ) (b : β) :
    (fun i => (rows A *ᵥ x) (b, i)) = A b *ᵥ fun i => x (b, i) := by
  funext i
  simp only [Matrix.mulVec, dotProduct, rows, Fintype.sum_prod_type, ite_mul, zero_mul]
  rw [Finset.sum_eq_single b]
  · simp
  · intro c _ hc
    simp [hc.symm]
  · simp

theorem rows_family {β ι : Type} [Fintype β] [DecidableEq β] [Fintype ι] (A : β → Matrix ι ι ℝ)
    (f : β → ι → ℝ) :
    (fun p : β × ι => (A p.1 *ᵥ f p.1) p.2) = rows A *ᵥ fun p => f p.1 p.2 := by
  funext p
  exact (congrFun (rows_mulVec A (fun p => f p.1 p.2) p.1) p.2).symm

/-- **C94.** Batches: every element may have its own coordinates. -/
theorem C94_batch {β ι : Type} [Fintype β] [DecidableEq β] [Fintype ι] {A : β → Matrix ι ι ℝ}
    {M M' : Manifold ι} {On : (ι → ℝ) → Prop}
    (hv : (M'.egrad2rgrad 0 0).isView = (M.egrad2rgrad 0 0).isView)
    (hM : ∀ b, Equivariant (A b) M M' On) :
    Equivariant (rows A) (batch β M) (batch β M') (fun x => ∀ b, On fun i => x (b, i)) := by
  refine ⟨fun x g hx => ?_, fun x u hx => ⟨?_, fun b =>
    ((hM b).retr (fun i => x (b, i)) (fun i => u (b, i)) (hx b)).2⟩,
    fun x u v hx => ⟨?_, fun b =>
      ((hM b).retrTransp (fun i => x (b, i)) (fun i => u (b, i)) (fun i => v (b, i)) (hx b)).2⟩,
    fun x hx => ⟨?_, fun b => ((hM b).projx (fun i => x (b, i)) (hx b)).2⟩, fun x u hx => ?_⟩
  · simp only [batch, rows_mulVec, (hM _).egrad _ _ (hx _), hv]
    congr 1
    · exact rows_family A fun b => (M.egrad2rgrad (fun i => x (b, i)) fun i => g (b, i)).value
    · exact rows_family A fun b => (M.egrad2rgrad (fun i => x (b, i)) fun i => g (b, i)).arg
  · simp only [batch, rows_mulVec, ((hM _).retr _ _ (hx _)).1]
    exact rows_family A fun b => M.retr (fun i => x (b, i)) fun i => u (b, i)
  · simp only [batch, rows_mulVec, ((hM _).retrTransp _ _ _ (hx _)).1]
    congr 1
    · exact rows_family A fun b =>
        (M.retrTransp (fun i => x (b, i)) (fun i => u (b, i)) fun i => v (b, i)).1
    · exact rows_family A fun b =>
        (M.retrTransp (fun i => x (b, i)) (fun i => u (b, i)) fun i => v (b, i)).2
  · simp only [batch, rows_mulVec, ((hM _).projx _ (hx _)).1]
    exact rows_family A fun b => M.projx fun i => x (b, i)
  · simp only [batch, rows_mulVec, (hM _).proju _ _ (hx _)]
    exact rows_family A fun b => M.proju (fun i => x (b, i)) fun i => u (b, i)

/-- **C94.** ... with one second moment for each element. -/
theorem C94_batch_inner {β ι : Type} [Fintype β] [DecidableEq β] [Fintype ι] {A : β → Matrix ι ι ℝ}
    {M M' : Manifold ι} {On : (ι → ℝ) → Prop} (hM : ∀ b, InnerInvariant (A b) M M' On) :
    InnerInvariant (rows A) (batch β M) (batch β M') (fun x => ∀ b, On fun i => x (b, i)) := by
  refine ⟨fun x u hx => ?_, fun x u hx p q hpq => ?_⟩
  · simp only [batch, rows_mulVec, (hM _).inner _ _ (hx _)]
  · rcases p with ⟨b, i⟩
    rcases q with ⟨c, j⟩
    by_cases h : b = c
    · subst h
      simp only [rows, if_true] at hpq
      exact (hM b).mixed _ _ (hx b) i j hpq
    · simp [rows, h] at hpq

end Manifolds

/-! ### Adam on Euclidean parameters -/

/-- One iteration of `RiemannianAdam` with the default options on a Euclidean parameter at `0`. -/
theorem adam_first (g : Fin 2 → ℝ) (i : Fin 2) :
    ((adamTrain (⟨fun _ => false, fun _ => euclidean _⟩ : Params Unit fun _ => Fin 2)
      (fun _ _ => .dense g) ⟨fun _ => ⟨0, .none, none⟩,
        [(⟨1e-3, 0.9, 0.999, 1e-8, 0, false, none⟩, [()])]⟩).1.par ()).point i =
      -1e-3 * (g i / (|g i| + 1e-8)) := by
  simp only [adamTrain, adamStep, forGroups, adamGroup, flagGroup, forParams, adamParam, adamInit,
    Params.manifold, Bool.false_eq_true, if_false, adamFlag, euclidean, adamDirection, Pi.add_apply, Pi.smul_apply, smul_eq_mul, Pi.zero_apply, mul_zero, zero_add,
    add_zero]
  norm_num [Real.sqrt_sq_eq_abs]

/-- **C94.** `RiemannianAdam` is `torch.optim.Adam` on Euclidean parameters, which keeps a second
moment for each entry: one iteration with the default options, gradient `(1, 1)`, goes in another
direction in rotated coordinates. -/
theorem C94_counterexample_adam_euclidean :
    let Q : Matrix (Fin 2) (Fin 2) ℝ := !![3 / 5, -4 / 5; 4 / 5, 3 / 5]
    let P : Params Unit fun _ => Fin 2 := ⟨fun _ => false, fun _ => euclidean _⟩
    let o : Adam Unit fun _ => Fin 2 :=
      ⟨fun _ => ⟨0, .none, none⟩, [(⟨1e-3, 0.9, 0.999, 1e-8, 0, false, none⟩, [()])]⟩
    ∃ g g' : (Unit → Fin 2 → ℝ) → Unit → Grad (Fin 2),
      Orthogonal Q ∧ SameGradients (fun _ => Q) g g' ∧
      ((adamTrain P g' (rotAdamAll (fun _ => Q) o)).1.par ()).point ≠
        ((rotAdamAll (fun _ => Q) (adamTrain P g o).1).par ()).point := by
  intro Q P o
  refine ⟨fun _ _ => .dense ![1, 1], fun _ _ => .dense (Q *ᵥ ![1, 1]), ?_, ?_, ?_⟩
  · unfold Orthogonal
    ext i j
    fin_cases i <;> fin_cases j <;> simp [Q, Matrix.mul_apply, Fin.sum_univ_two] <;> norm_num
  · intro x; rfl
  · intro h
    have h0 := congrFun h 0
    have e0 : rotAdamAll (fun _ => Q) o = o := by
      unfold rotAdamAll rotAdam; simp [o, rotGrad]
    have hq : (Q *ᵥ ![1, 1]) 0 = -1 / 5 := by
      simp [Q, Matrix.mulVec, dotProduct, Fin.sum_univ_two]; norm_num
    rw [e0, adam_first, hq] at h0
    have e1 : ((rotAdamAll (fun _ => Q) (adamTrain P (fun _ _ => .dense ![1, 1]) o).1).par ()).point 0 =
        3 / 5 * ((adamTrain P (fun _ _ => .dense ![1, 1]) o).1.par ()).point 0 +
        -4 / 5 * ((adamTrain P (fun _ _ => .dense ![1, 1]) o).1.par ()).point 1 := by
      simp [rotAdamAll, rotAdam, Q, dotProduct, Fin.sum_univ_two]
    rw [e1, adam_first, adam_first] at h0
    norm_num [abs_of_pos, abs_of_neg] at h0

/-- Two parameters, a batch of two points of the Poincaré ball and an SPD matrix, with Nesterov momentum
and stabilization: the hypotheses of `C94_sgd` are met; the gradients are those of a linear loss. -/
example (E : Linalg.Eigh 2) (k : ℕ) :
    let Q : Matrix (Fin 2) (Fin 2) ℝ := !![3 / 5, -4 / 5; 4 / 5, 3 / 5]
    let A : Bool → Matrix (Fin 2 × Fin 2) (Fin 2 × Fin 2) ℝ := fun b =>
      if b then rows (fun _ => Q) else Rotation.conj Q
    let P : Params Bool fun _ => Fin 2 × Fin 2 := ⟨fun _ => true, fun b => if b then
      batch (Fin 2) (stereographic 0 .f64 (-1)) else spd E⟩
    let g : (Bool → Fin 2 × Fin 2 → ℝ) → Bool → Grad (Fin 2 × Fin 2) := fun _ _ => .dense 1
    let g' : (Bool → Fin 2 × Fin 2 → ℝ) → Bool → Grad (Fin 2 × Fin 2) := fun _ b =>
      .dense (A b *ᵥ 1)
    let o : SGD Bool fun _ => Fin 2 × Fin 2 := ⟨fun _ => ⟨ofMat 1, .none, none⟩,
      [⟨⟨0.1, 0.9, 0, 0, true, some 10⟩, 0, [true, false]⟩]⟩
    C90.run (sgdTrain P) (List.replicate k g') (rotSGDAll A o) =
      (rotSGDAll A (C90.run (sgdTrain P) (List.replicate k g) o).1,
        (C90.run (sgdTrain P) (List.replicate k g) o).2) := by
  intro Q A P g g' o
  have hQ : Orthogonal Q := by
    unfold Orthogonal
    ext i j
    fin_cases i <;> fin_cases j <;> simp [Q, Matrix.mul_apply, Fin.sum_univ_two] <;> norm_num
  have hg : SameGradients A g g' := fun _ => rfl
  refine C94_sgd (On := fun b => if b then fun x => ∀ _ : Fin 2, True else
    fun x => (toMat x)ᵀ = toMat x) rfl (fun b => ?_) ?_ o fun b => ?_
  · cases b
    · exact (C94_spd hQ E).1
    · exact C94_batch rfl fun _ => (C94_stereographic hQ 0 .f64 (-1)).1
  · rw [List.forall₂_iff_get]
    simp [hg]
  · cases b
    · show (1 : Matrix (Fin 2) (Fin 2) ℝ)ᵀ = 1
      exact Matrix.transpose_one
    · exact fun _ => trivial

end Geoopt.C94
