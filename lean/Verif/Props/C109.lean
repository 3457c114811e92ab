import Verif.Props.C94
import Verif.Props.C108
import Verif.Spec.Frame

/-!
# C109: training positive definite matrices does not depend on the frame

A loss of covariance matrices may be written in any frame of the data: `x ↦ g x gᵀ` for an invertible
`g`, not only for orthogonal ones (C94).  Gradients then move with the inverse transpose.  Train the
loss and the same loss in another frame with `RiemannianSGD` (without momentum and weight decay) or
`RiemannianAdam` (without weight decay): after any number of iterations the second run is the first one
in the other frame.  Momentum of `RiemannianSGD` and weight decay break this.
-/

namespace Geoopt.C109
open Geoopt Geoopt.Optim Geoopt.Rotation Geoopt.Frame Geoopt.C94 Matrix

/-! ### One parameter -/

section Param
variable {ι : Type} [Fintype ι] {A B : Matrix ι ι ℝ} {same : ι → ι → Prop} {M M' : Manifold ι}
  {On : (ι → ℝ) → Prop} {Tan : (ι → ℝ) → (ι → ℝ) → Prop}

theorem decay_move {w : ℝ} (hw : w = 0 ∨ A = B) (x g : ι → ℝ) :
    B *ᵥ g + w • A *ᵥ x = B *ᵥ (g + w • x) := by
  rcases hw with rfl | rfl
  · simp
  · rw [Matrix.mulVec_add, Matrix.mulVec_smul]

theorem sgdParam_move (hM : SGDFrame A B M M' On Tan) {h : SGDHyper} (h0 : h.momentum = 0)
    (hw : h.weightDecay = 0 ∨ A = B) (s : SGDParam ι) (hs : On s.point) :
    sgdParam M' h (moveSGD A B s) = (moveSGD A B (sgdParam M h s).1, (sgdParam M h s).2) ∧
    On (sgdParam M h s).1.point := by
  rcases s with ⟨x, g, b⟩
  simp only at hs
  unfold sgdParam moveSGD
  cases g with
  | none => exact ⟨rfl, hs⟩
  | sparse => exact ⟨rfl, hs⟩
  | dense g =>
    obtain ⟨e, ht⟩ := hM.egrad x (g + h.weightDecay • x) hs
    have := hM.retr x (-h.lr • (M.egrad2rgrad x (g + h.weightDecay • x)).value) hs
      (hM.smul _ _ _ hs ht)
    simp only [rotGrad, h0, decay_move hw, lt_irrefl, if_false, e]
    simp only [← Matrix.mulVec_smul, this.1]
    refine ⟨?_, this.2⟩
    cases b <;> rfl

theorem sgdStab_move (hM : SGDFrame A B M M' On Tan) (m : Bool) {h : SGDHyper}
    (h0 : h.momentum = 0) (s : SGDParam ι) (hs : On s.point) :
    sgdStab m M' h (moveSGD A B s) = moveSGD A B (sgdStab m M h s) ∧
    On (sgdStab m M h s).point := by
  rcases s with ⟨x, g, b⟩
  simp only at hs
  have hp := hM.projx x hs
  unfold sgdStab moveSGD
  cases m with
  | false => exact ⟨rfl, hs⟩
  | true =>
    simp only [Bool.true_eq_false, if_false, hp.1, h0, lt_irrefl]
    exact ⟨trivial, hp.2⟩

theorem mixed_of_one (hA : AdamFrame A same M M' On Tan) {s : ι → ℝ} (hs : OneEach same s) :
    ConstOnMixed A s := fun i j h => hs i j (hA.mixes i j h)

theorem tan_direction (hM : SGDFrame A B M M' On Tan) (hA : AdamFrame A same M M' On Tan)
    {x m v : ι → ℝ} (hx : On x) (hm : Tan x m) (hv : OneEach same v) (h : AdamHyper) (t : ℕ) :
    Tan x (-h.lr • adamDirection h t m v) := by
  refine hM.smul _ _ _ hx ?_
  have := hA.scale x m
    (fun i => (1 - h.beta1 ^ t)⁻¹ * (Real.sqrt (v i / (1 - h.beta2 ^ t)) + h.eps)⁻¹) hx hm
    fun i j hij => by simp only [hv i j hij]
  unfold adamDirection
  simp only [div_eq_mul_inv, mul_assoc] at this ⊢
  exact this

theorem init_good (hA : AdamFrame A same M M' On Tan) {x : ι → ℝ} (hx : On x)
    {s : Option (AdamState ι)} {b : Bool}
    (hs : ∀ st ∈ s, Tan x st.expAvg ∧ OneEach same st.expAvgSq ∧
      ∀ v ∈ st.maxExpAvgSq, OneEach same v) :
    Tan x (adamInit b s).expAvg ∧ OneEach same (adamInit b s).expAvgSq ∧
      ∀ v ∈ (adamInit b s).maxExpAvgSq, OneEach same v := by
  cases s with
  | none =>
    refine ⟨hA.zero x hx, fun _ _ _ => rfl, ?_⟩
    cases b
    · simp [adamInit]
    · intro v hv
      simp only [adamInit, if_true, Option.mem_def, Option.some.injEq] at hv
      subst hv; exact fun _ _ _ => rfl
  | some st => exact hs st rfl

theorem adamParam_move (hM : SGDFrame A B M M' On Tan) (hA : AdamFrame A same M M' On Tan)
    {h : AdamHyper} (hw : h.weightDecay = 0 ∨ A = B) (s : AdamParam ι) (hs : GoodAdam same On Tan s) :
    adamParam M' h (moveAdam A B s) = (moveAdam A B (adamParam M h s).1, (adamParam M h s).2) ∧
    GoodAdam same On Tan (adamParam M h s).1 := by
  rcases s with ⟨x, g, st⟩
  obtain ⟨hs, hst⟩ := hs
  simp only at hs
  cases g with
  | none => exact ⟨rfl, hs, hst⟩
  | sparse => exact ⟨rfl, hs, hst⟩
  | dense g =>
    obtain ⟨ht, hc, hcm⟩ := init_good hA hs (b := h.amsgrad) (s := st) hst
    obtain ⟨e, hr⟩ := hM.egrad x (g + h.weightDecay • x) hs
    obtain ⟨ei, hi⟩ := hA.inner x _ hs hr
    unfold adamParam moveAdam
    simp only [rotGrad, adamInit_rot, decay_move hw, e, ei]
    simp only [← Matrix.mulVec_smul, ← Matrix.mulVec_add]
    set r := M.egrad2rgrad x (g + h.weightDecay • x)
    set st' := adamInit h.amsgrad st
    have hm : Tan x (h.beta1 • st'.expAvg + (1 - h.beta1) • r.value) :=
      hA.add _ _ _ hs (hM.smul _ _ _ hs ht) (hM.smul _ _ _ hs hr)
    set m := h.beta1 • st'.expAvg + (1 - h.beta1) • r.value
    have hvc : OneEach same (h.beta2 • st'.expAvgSq + (1 - h.beta2) • M.componentInner x r.value) := by
      intro i j hij
      simp only [Pi.add_apply, Pi.smul_apply, hc i j hij, hi i j hij]
    set v := h.beta2 • st'.expAvgSq + (1 - h.beta2) • M.componentInner x r.value
    cases hamsg : h.amsgrad with
    | false =>
      have := hA.retrTransp x (-h.lr • adamDirection h (st'.step + 1) m v) m hs
        (tan_direction hM hA hs hm hvc _ _) hm
      simp only [direction_rot (mixed_of_one hA hvc), ← Matrix.mulVec_smul, this.1]
      refine ⟨rfl, this.2.1, ?_⟩
      rintro st2 hst2
      simp only [Option.mem_def, Option.some.injEq] at hst2
      subst hst2
      exact ⟨this.2.2, hvc, hcm⟩
    | true =>
      rcases hvm : st'.maxExpAvgSq with _ | vm
      · refine ⟨rfl, hs, ?_⟩
        rintro st2 hst2
        simp only [Option.mem_def, Option.some.injEq] at hst2
        subst hst2
        exact ⟨hm, hvc, by simp⟩
      · have hmc : OneEach same fun i => max (vm i) (v i) := by
          intro i j hij; simp only [hcm vm hvm i j hij, hvc i j hij]
        have := hA.retrTransp x
          (-h.lr • adamDirection h (st'.step + 1) m fun i => max (vm i) (v i)) m hs
          (tan_direction hM hA hs hm hmc _ _) hm
        simp only [direction_rot (mixed_of_one hA hmc), ← Matrix.mulVec_smul, this.1]
        refine ⟨rfl, this.2.1, ?_⟩
        rintro st2 hst2
        simp only [Option.mem_def, Option.some.injEq] at hst2
        subst hst2
        exact ⟨this.2.2, hvc, by rintro _ ⟨⟩; exact hmc⟩

theorem adamStab_move (hM : SGDFrame A B M M' On Tan) (hA : AdamFrame A same M M' On Tan) (m : Bool)
    (s : AdamParam ι) (hs : GoodAdam same On Tan s) :
    adamStab m M' (moveAdam A B s) = moveAdam A B (adamStab m M s) ∧
    GoodAdam same On Tan (adamStab m M s) := by
  rcases s with ⟨x, g, st⟩
  obtain ⟨hs, hst⟩ := hs
  simp only at hs
  have hp := hM.projx x hs
  unfold adamStab moveAdam
  cases m with
  | false => exact ⟨rfl, hs, hst⟩
  | true =>
    cases st with
    | none => exact ⟨rfl, hs, hst⟩
    | some st =>
      have hst := hst st rfl
      have hu := hA.proju x _ st.expAvg hs hp.2 hst.1
      simp only [Bool.true_eq_false, if_false, hp.1, Option.map_some, hu.1]
      refine ⟨trivial, hp.2, ?_⟩
      rintro st2 hst2
      simp only [Option.mem_def, Option.some.injEq] at hst2
      subst hst2
      exact ⟨hu.2, hst.2⟩

end Param

/-! ### Training -/

theorem forGroups_move {κ : Type} {S : κ → Type} (R : ∀ a, S a → S a) (I : ∀ a, S a → Prop) {H : Type}
    {f f' : (∀ a, S a) → H → (∀ a, S a) × H × Option PyErr} (Gs : List H)
    (hf : ∀ w, ∀ G ∈ Gs, (∀ a, I a (w a)) →
      f' (fun a => R a (w a)) G = (fun a => R a ((f w G).1 a), (f w G).2) ∧ ∀ a, I a ((f w G).1 a))
    (w : ∀ a, S a) (hw : ∀ a, I a (w a)) :
    forGroups f' Gs (fun a => R a (w a)) =
      (fun a => R a ((forGroups f Gs w).1 a), (forGroups f Gs w).2) ∧
    ∀ a, I a ((forGroups f Gs w).1 a) := by
  induction Gs generalizing w with
  | nil => exact ⟨rfl, hw⟩
  | cons G Gs ih =>
    obtain ⟨h1, h2⟩ := hf w G (by simp) hw
    simp only [forGroups, h1]
    rcases hfa : f w G with ⟨s, b, e⟩
    rw [hfa] at h2
    cases e with
    | some e => exact ⟨rfl, h2⟩
    | none =>
      have := ih (fun w G hG => hf w G (List.mem_cons_of_mem _ hG)) s h2
      simp only [this.1]
      exact ⟨by trivial, this.2⟩

section Train
variable {κ : Type} [DecidableEq κ] {ι : κ → Type} [∀ a, Fintype (ι a)]
  {A B : ∀ a, Matrix (ι a) (ι a) ℝ} {P P' : Params κ ι} {On : ∀ a, (ι a → ℝ) → Prop}
  {Tan : ∀ a, (ι a → ℝ) → (ι a → ℝ) → Prop} {same : ∀ a, ι a → ι a → Prop}

theorem sgdFrame_man (hP : P'.isManifold = P.isManifold)
    (hM : ∀ a, SGDFrame (A a) (B a) (P.manifold a) (P'.manifold a) (On a) (Tan a)) {a : κ}
    (h : P.isManifold a = true) : SGDFrame (A a) (B a) (P.man a) (P'.man a) (On a) (Tan a) := by
  have := hM a
  unfold Params.manifold at this
  rw [hP] at this
  simpa only [h, if_true] using this

theorem adamFrame_man (hP : P'.isManifold = P.isManifold)
    (hM : ∀ a, AdamFrame (A a) (same a) (P.manifold a) (P'.manifold a) (On a) (Tan a)) {a : κ}
    (h : P.isManifold a = true) : AdamFrame (A a) (same a) (P.man a) (P'.man a) (On a) (Tan a) := by
  have := hM a
  unfold Params.manifold at this
  rw [hP] at this
  simpa only [h, if_true] using this

/-- No momentum in any group, and no weight decay unless gradients move as points do. -/
def Plain (A B : ∀ a, Matrix (ι a) (ι a) ℝ) (o : SGD κ ι) : Prop :=
  ∀ G ∈ o.groups, G.hyper.momentum = 0 ∧ (G.hyper.weightDecay = 0 ∨ ∀ a, A a = B a)

/-- No weight decay in any group, unless gradients move as points do. -/
def NoDecay (A B : ∀ a, Matrix (ι a) (ι a) ℝ) (o : Adam κ ι) : Prop :=
  ∀ G ∈ o.groups, G.1.weightDecay = 0 ∨ ∀ a, A a = B a

omit [∀ a, Fintype (ι a)] in
theorem plain_step {o : SGD κ ι} (ho : Plain A B o) : Plain A B (sgdStep P o).1 := by
  have e : (sgdStep P o).1.groups.map Group.hyper = o.groups.map Group.hyper := by
    unfold sgdStep
    refine C90.forGroups_map Group.hyper _ (fun w G => ?_) _ _
    unfold sgdGroup counterGroup
    simp only
    split
    · rfl
    · split
      · rfl
      · split <;> rfl
  intro G hG
  have : G.hyper ∈ o.groups.map Group.hyper := e ▸ List.mem_map_of_mem hG
  obtain ⟨G', h1, h2⟩ := List.mem_map.1 this
  rw [← h2]
  exact ho G' h1

theorem sgdStep_move (hP : P'.isManifold = P.isManifold)
    (hM : ∀ a, SGDFrame (A a) (B a) (P.manifold a) (P'.manifold a) (On a) (Tan a)) (o : SGD κ ι)
    (hh : Plain A B o) (ho : ∀ a, On a (o.par a).point) :
    sgdStep P' (moveSGDAll A B o) = (moveSGDAll A B (sgdStep P o).1, (sgdStep P o).2) ∧
    ∀ a, On a ((sgdStep P o).1.par a).point := by
  have hg : ∀ w, ∀ G ∈ o.groups, (∀ a, On a (w a).point) →
      sgdGroup P' (fun a => moveSGD (A a) (B a) (w a)) G =
        (fun a => moveSGD (A a) (B a) ((sgdGroup P w G).1 a), (sgdGroup P w G).2) ∧
      ∀ a, On a ((sgdGroup P w G).1 a).point := by
    intro w G hG hw
    obtain ⟨h0, hwd⟩ := hh G hG
    refine counterGroup_rot (fun a => moveSGD (A a) (B a)) (fun a s => On a s.point)
      (body := fun _ a => sgdParam (P.manifold a) G.hyper)
      (body' := fun _ a => sgdParam (P'.manifold a) G.hyper)
      (stab := fun _ a => sgdStab (P.isManifold a) (P.man a) G.hyper)
      (stab' := fun _ a => sgdStab (P'.isManifold a) (P'.man a) G.hyper) SGDHyper.stabilize
      (fun h a s hs => sgdParam_move (hM a) h0 (hwd.imp_right (· a)) s hs) (fun h a s hs => ?_) w G hw
    cases hm : P.isManifold a with
    | true => simp only [hP, hm]; exact sgdStab_move (sgdFrame_man hP hM hm) true h0 s hs
    | false => simp only [hP, hm]; exact ⟨by unfold sgdStab; simp, by unfold sgdStab; simpa using hs⟩
  have := forGroups_move (fun a => moveSGD (A a) (B a)) (fun a s => On a s.point) o.groups hg o.par ho
  unfold sgdStep moveSGDAll
  simp only [this.1]
  exact ⟨by trivial, this.2⟩

theorem adamStep_move (hP : P'.isManifold = P.isManifold)
    (hM : ∀ a, SGDFrame (A a) (B a) (P.manifold a) (P'.manifold a) (On a) (Tan a))
    (hA : ∀ a, AdamFrame (A a) (same a) (P.manifold a) (P'.manifold a) (On a) (Tan a)) (o : Adam κ ι)
    (hh : NoDecay A B o) (ho : ∀ a, GoodAdam (same a) (On a) (Tan a) (o.par a)) :
    adamStep P' (moveAdamAll A B o) = (moveAdamAll A B (adamStep P o).1, (adamStep P o).2) ∧
    ∀ a, GoodAdam (same a) (On a) (Tan a) ((adamStep P o).1.par a) := by
  have hg : ∀ w, ∀ G ∈ o.groups, (∀ a, GoodAdam (same a) (On a) (Tan a) (w a)) →
      adamGroup P' (fun a => moveAdam (A a) (B a) (w a)) G =
        (fun a => moveAdam (A a) (B a) ((adamGroup P w G).1 a), (adamGroup P w G).2) ∧
      ∀ a, GoodAdam (same a) (On a) (Tan a) ((adamGroup P w G).1 a) := by
    intro w G hG hw
    refine flagGroup_rot (fun a => moveAdam (A a) (B a))
      (fun a s => GoodAdam (same a) (On a) (Tan a) s)
      (body := fun _ a => adamParam (P.manifold a) G.1)
      (body' := fun _ a => adamParam (P'.manifold a) G.1)
      (stab := fun _ a => adamStab (P.isManifold a) (P.man a))
      (stab' := fun _ a => adamStab (P'.isManifold a) (P'.man a))
      (fun h a s hs => adamParam_move (hM a) (hA a) ((hh G hG).imp_right (· a)) s hs) (fun h a s hs => ?_) w G hw
    cases hm : P.isManifold a with
    | true =>
      simp only [hP, hm]
      exact adamStab_move (sgdFrame_man hP hM hm) (adamFrame_man hP hA hm) true s hs
    | false => simp only [hP, hm]; exact ⟨by unfold adamStab; simp, by unfold adamStab; simpa using hs⟩
  have := forGroups_move (fun a => moveAdam (A a) (B a))
    (fun a s => GoodAdam (same a) (On a) (Tan a) s) o.groups hg o.par ho
  unfold adamStep moveAdamAll
  simp only [this.1]
  exact ⟨by trivial, this.2⟩

/-- **C109.** `RiemannianSGD` without momentum and weight decay, any number of iterations and parameter
groups, with or without stabilization: the run in the new variables is the run in the old ones. -/
theorem C109_sgd (hP : P'.isManifold = P.isManifold)
    (hM : ∀ a, SGDFrame (A a) (B a) (P.manifold a) (P'.manifold a) (On a) (Tan a))
    {gs gs' : List ((∀ a, ι a → ℝ) → ∀ a, Grad (ι a))} (hg : List.Forall₂ (SameLoss A B On) gs gs')
    (o : SGD κ ι) (hh : Plain A B o) (ho : ∀ a, On a (o.par a).point) :
    C90.run (sgdTrain P') gs' (moveSGDAll A B o) =
      (moveSGDAll A B (C90.run (sgdTrain P) gs o).1, (C90.run (sgdTrain P) gs o).2) ∧
    ∀ a, On a (((C90.run (sgdTrain P) gs o).1.par a).point) := by
  induction hg generalizing o with
  | nil => exact ⟨rfl, ho⟩
  | @cons g g' gs gs' h _ ih =>
    have e : (⟨fun a => { (moveSGDAll A B o).par a with
        grad := g' (fun a => ((moveSGDAll A B o).par a).point) a }, (moveSGDAll A B o).groups⟩ :
          SGD κ ι) =
        moveSGDAll A B
          ⟨fun a => { o.par a with grad := g (fun a => (o.par a).point) a }, o.groups⟩ := by
      unfold moveSGDAll moveSGD
      simp only [h (fun a => (o.par a).point) ho]
    have hs := sgdStep_move hP hM
      ⟨fun a => { o.par a with grad := g (fun a => (o.par a).point) a }, o.groups⟩ hh ho
    have e2 : sgdTrain P' g' (moveSGDAll A B o) =
        (moveSGDAll A B (sgdTrain P g o).1, (sgdTrain P g o).2) := by
      unfold sgdTrain
      rw [e]
      exact hs.1
    simp only [C90.run, e2]
    have := ih (sgdTrain P g o).1 (plain_step hh) hs.2
    rw [this.1]
    exact ⟨rfl, this.2⟩

/-- **C109.** `RiemannianAdam`, also with `amsgrad`, without weight decay. -/
theorem C109_adam (hP : P'.isManifold = P.isManifold)
    (hM : ∀ a, SGDFrame (A a) (B a) (P.manifold a) (P'.manifold a) (On a) (Tan a))
    (hA : ∀ a, AdamFrame (A a) (same a) (P.manifold a) (P'.manifold a) (On a) (Tan a))
    {gs gs' : List ((∀ a, ι a → ℝ) → ∀ a, Grad (ι a))} (hg : List.Forall₂ (SameLoss A B On) gs gs')
    (o : Adam κ ι) (hh : NoDecay A B o) (ho : ∀ a, GoodAdam (same a) (On a) (Tan a) (o.par a)) :
    C90.run (adamTrain P') gs' (moveAdamAll A B o) =
      (moveAdamAll A B (C90.run (adamTrain P) gs o).1, (C90.run (adamTrain P) gs o).2) ∧
    ∀ a, On a (((C90.run (adamTrain P) gs o).1.par a).point) := by
  induction hg generalizing o with
  | nil => exact ⟨rfl, fun a => (ho a).1⟩
  | @cons g g' gs gs' h _ ih =>
    have e : (⟨fun a => { (moveAdamAll A B o).par a with
        grad := g' (fun a => ((moveAdamAll A B o).par a).point) a }, (moveAdamAll A B o).groups⟩ :
          Adam κ ι) =
        moveAdamAll A B
          ⟨fun a => { o.par a with grad := g (fun a => (o.par a).point) a }, o.groups⟩ := by
      unfold moveAdamAll moveAdam
      simp only [h (fun a => (o.par a).point) fun a => (ho a).1]
    have hs := adamStep_move hP hM hA
      ⟨fun a => { o.par a with grad := g (fun a => (o.par a).point) a }, o.groups⟩ hh ho
    have e2 : adamTrain P' g' (moveAdamAll A B o) =
        (moveAdamAll A B (adamTrain P g o).1, (adamTrain P g o).2) := by
      unfold adamTrain
      rw [e]
      exact hs.1
    simp only [C90.run, e2]
    have hh' : NoDecay A B (adamTrain P g o).1 := by
      intro G hG
      have e3 : (adamTrain P g o).1.groups.map id = o.groups.map id := by
        unfold adamTrain adamStep
        exact C90.forGroups_map id (adamGroup P)
          (fun w G => by unfold adamGroup; exact C90.flagGroup_params _ _ w G) _ _
      simp only [List.map_id] at e3
      exact hh G (e3 ▸ hG)
    have := ih (adamTrain P g o).1 hh' hs.2
    rw [this.1]
    exact ⟨rfl, this.2⟩

omit [DecidableEq κ] in
/-- **C109.** The gradients of the same loss: if `F'` is the loss `F` in the new variables, its
gradients are the old ones moved by the inverse transpose `B` of `A`. -/
theorem C109_gradients [Fintype κ] [∀ a, DecidableEq (ι a)] (hA : ∀ a, (A a)ᵀ * B a = 1)
    {F F' : (∀ a, ι a → ℝ) → ℝ} (hF : ∀ x, F' (fun a => A a *ᵥ x a) = F x) {g x : ∀ a, ι a → ℝ}
    (h : C91.HasGradient F g x) :
    C91.HasGradient F' (fun a => B a *ᵥ g a) (fun a => A a *ᵥ x a) := by
  obtain ⟨L, hL, hg⟩ := h
  have hA' : ∀ a, (B a)ᵀ * A a = 1 := fun a => by
    rw [← Matrix.transpose_one, ← hA a, transpose_mul, transpose_transpose]
  have hA2 : ∀ a, A a * (B a)ᵀ = 1 := fun a => mul_eq_one_comm.1 (hA' a)
  let C : (∀ a, ι a → ℝ) →L[ℝ] (∀ a, ι a → ℝ) := LinearMap.toContinuousLinearMap
    (LinearMap.pi fun a => (Matrix.mulVecLin (B a)ᵀ).comp (LinearMap.proj a))
  have hC : ∀ y a, C y a = (B a)ᵀ *ᵥ y a := fun y a => rfl
  have hCx : C (fun a => A a *ᵥ x a) = x := by
    funext a; rw [hC, Matrix.mulVec_mulVec, hA' a, Matrix.one_mulVec]
  have e : F' = F ∘ C := by
    funext y
    rw [Function.comp_apply, ← hF]
    congr 1
    funext a
    rw [hC, Matrix.mulVec_mulVec, hA2 a, Matrix.one_mulVec]
  refine ⟨L.comp C, ?_, fun v => ?_⟩
  · rw [e]
    exact HasFDerivAt.comp _ (by rw [hCx]; exact hL) (C.hasFDerivAt :)
  · rw [ContinuousLinearMap.comp_apply, hg]
    refine Finset.sum_congr rfl fun a _ => ?_
    have : g a ⬝ᵥ ((B a)ᵀ *ᵥ v a) = (B a *ᵥ g a) ⬝ᵥ v a := by
      rw [Matrix.dotProduct_mulVec, Matrix.vecMul_transpose]
    exact this

end Train

/-! ### Positive definite matrices -/

section SPD
variable {n : ℕ} {g : Matrix (Fin n) (Fin n) ℝ}

/-- The inverse transpose of a congruence is the congruence with the inverse transpose. -/
theorem conj_inv (hg : IsUnit g.det) : (Rotation.conj g)ᵀ * Rotation.conj (g⁻¹)ᵀ = 1 := by
  have h : ∀ i j, ∑ k, g k i * (g⁻¹) j k = if i = j then 1 else 0 := fun i j => by
    have := congrFun (congrFun (Matrix.nonsing_inv_mul g hg) j) i
    rw [Matrix.mul_apply, Matrix.one_apply] at this
    simp only [eq_comm (a := i)]
    rw [← this]
    exact Finset.sum_congr rfl fun k _ => mul_comm _ _
  ext p q
  rw [Matrix.mul_apply, Fintype.sum_prod_type]
  simp only [Rotation.conj, Matrix.transpose_apply]
  have : ∀ a b, g a p.1 * g b p.2 * ((g⁻¹) q.1 a * (g⁻¹) q.2 b) =
      (g a p.1 * (g⁻¹) q.1 a) * (g b p.2 * (g⁻¹) q.2 b) := fun a b => by ring
  simp only [this, ← Finset.mul_sum, h, ← Finset.sum_mul]
  rw [Matrix.one_apply]
  rcases p with ⟨a, b⟩
  rcases q with ⟨c, d⟩
  by_cases h1 : a = c <;> by_cases h2 : b = d <;> simp [h1, h2]

theorem spd_egrad_move (hg : IsUnit g.det) (x u : Matrix (Fin n) (Fin n) ℝ) :
    SPD.egrad2rgrad (g * x * gᵀ) ((g⁻¹)ᵀ * u * (g⁻¹)ᵀᵀ) = g * SPD.egrad2rgrad x u * gᵀ := by
  have c1 : g⁻¹ * g = 1 := Matrix.nonsing_inv_mul _ hg
  have c2 : gᵀ * (g⁻¹)ᵀ = 1 := by rw [← transpose_mul, c1, transpose_one]
  have hs : Linalg.sym ((g⁻¹)ᵀ * u * g⁻¹) = (g⁻¹)ᵀ * Linalg.sym u * g⁻¹ := by
    simp only [Linalg.sym, transpose_mul, transpose_transpose, Matrix.mul_smul, Matrix.smul_mul,
      mul_add, add_mul, Matrix.mul_assoc]
  unfold SPD.egrad2rgrad SPD.proju
  rw [transpose_transpose, hs]
  calc _ = g * x * (gᵀ * (g⁻¹)ᵀ) * Linalg.sym u * (g⁻¹ * g) * xᵀ * gᵀ := by
        simp only [transpose_mul, transpose_transpose, Matrix.mul_assoc]
    _ = _ := by rw [c1, c2]; simp only [Matrix.mul_assoc, mul_one, one_mul]

/-- **C109.** `SymmetricPositiveDefinite` with any congruence meets the hypotheses of `C109_sgd` and
`C109_adam`. -/
theorem C109_spd_frame (E : Linalg.Eigh n) (hg : IsUnit g.det) :
    SGDFrame (Rotation.conj g) (Rotation.conj (g⁻¹)ᵀ) (spd E) (spd E)
      (fun x => SPD.OnSPD (toMat x)) (fun _ u => SPD.Symm (toMat u)) ∧
    AdamFrame (Rotation.conj g) (fun _ _ => True) (spd E) (spd E)
      (fun x => SPD.OnSPD (toMat x)) (fun _ u => SPD.Symm (toMat u)) := by
  have hretr : ∀ x u : Fin n × Fin n → ℝ, SPD.OnSPD (toMat x) →
      SPD.retr (g * toMat x * gᵀ) (g * toMat u * gᵀ) = g * SPD.retr (toMat x) (toMat u) * gᵀ :=
    fun x u hx => (SPD.C108_spd E hg hx hx (toMat u) (toMat u)).2.2.2.2.2.1
  refine ⟨⟨fun x u hx => ⟨?_, ?_⟩, fun x u c _ hu i j => ?_, fun x u hx hu => ⟨?_, ?_⟩,
    fun x hx => ⟨?_, ?_⟩⟩, ⟨fun _ _ _ => trivial, fun _ _ _ _ => rfl, fun x u v _ hu hv i j => ?_,
    fun x u s _ hu hs i j => ?_, fun x u v hx hu hv => ⟨?_, ?_, ?_⟩,
    fun x y u _ _ _ => ⟨?_, SPD.symm_iff.2 (SPD.sym_symm _)⟩,
    fun x u hx hu => ⟨?_, fun _ _ _ => rfl⟩⟩⟩
  · simp only [spd, toMat_conj, spd_egrad_move hg, ofMat_conj]
  · show SPD.Symm (SPD.egrad2rgrad (toMat x) (toMat u))
    refine SPD.symm_iff.2 ?_
    unfold SPD.egrad2rgrad SPD.proju
    rw [transpose_mul, transpose_mul, transpose_transpose, SPD.sym_symm, Matrix.mul_assoc]
  · show c * u (i, j) = c * u (j, i)
    exact congrArg _ (hu i j)
  · simp only [spd, toMat_conj, hretr x u hx, ofMat_conj]
  · exact SPD.C28_retr_spd hx hu
  · simp only [spd, toMat_conj]
    rw [SPD.C28_projx_fixes E (hx.congr hg), SPD.C28_projx_fixes E hx, ofMat_conj]
  · show SPD.OnSPD (SPD.projx E (toMat x))
    rw [SPD.C28_projx_fixes E hx]; exact hx
  · show u (i, j) + v (i, j) = u (j, i) + v (j, i)
    exact congrArg₂ _ (hu i j) (hv i j)
  · show u (i, j) * s (i, j) = u (j, i) * s (j, i)
    exact congrArg₂ _ (hu i j) (hs _ _ trivial)
  · have hy := SPD.C28_retr_spd hx hu
    simp only [spd, toMat_conj, hretr x u hx, ofMat_conj,
      (SPD.C108_spd E hg hx hy (toMat u) (toMat v)).2.2.2.2.2.2.2.2.1]
  · exact SPD.C28_retr_spd hx hu
  · exact SPD.C32_transp_symm E hx (SPD.C28_retr_spd hx hu) _
  · simp only [spd, toMat_conj, ← ofMat_conj, SPD.proju]
    congr 1
    simp only [Linalg.sym, transpose_mul, transpose_transpose, Matrix.mul_smul, Matrix.smul_mul,
      mul_add, add_mul, Matrix.mul_assoc]
  · simp only [spd, toMat_conj, (SPD.C108_spd E hg hx hx (toMat u) (toMat u)).2.2.2.1]

end SPD

section
variable {κ : Type} [Fintype κ] {n : κ → ℕ}

/-- Families of matrices, of any sizes, as parameters. -/
abbrev Mats (n : κ → ℕ) := ∀ a, Fin (n a) × Fin (n a) → ℝ

/-- `G` gives the gradients of `F` at positive definite matrices. -/
def Backward (F : Mats n → ℝ) (G : Mats n → Mats n) : Prop :=
  ∀ x, (∀ a, SPD.OnSPD (toMat (x a))) → C91.HasGradient F (G x) x

/-- The same matrices in another frame. -/
def reframe (g : ∀ a, Matrix (Fin (n a)) (Fin (n a)) ℝ) (x : Mats n) : Mats n :=
  fun a => ofMat (g a * toMat (x a) * (g a)ᵀ)

/-- `p` and `p'` are a loss and its gradient in the two frames. -/
def TwoFrames (g : ∀ a, Matrix (Fin (n a)) (Fin (n a)) ℝ)
    (p p' : (Mats n → ℝ) × (Mats n → Mats n)) : Prop :=
  (∀ x, p'.1 (reframe g x) = p.1 x) ∧ Backward p.1 p.2 ∧ Backward p'.1 p'.2

/-- What `loss.backward()` leaves in the parameters. -/
def feed (ps : List ((Mats n → ℝ) × (Mats n → Mats n))) :
    List (Mats n → ∀ a, Grad (Fin (n a) × Fin (n a))) :=
  ps.map fun p x a => .dense (p.2 x a)

theorem gradient_unique {ι : κ → Type} [∀ a, Fintype (ι a)] {F : (∀ a, ι a → ℝ) → ℝ}
    {g g' x : ∀ a, ι a → ℝ} (h : C91.HasGradient F g x) (h' : C91.HasGradient F g' x) : g = g' := by
  classical
  obtain ⟨L, hL, e⟩ := h
  obtain ⟨L', hL', e'⟩ := h'
  have hLL := hL.unique hL'
  have key : ∀ (g : ∀ a, ι a → ℝ) a i,
      ∑ b, ∑ j, g b j * (Pi.single a (Pi.single i 1) : ∀ a, ι a → ℝ) b j = g a i := by
    intro g a i
    rw [Finset.sum_eq_single a]
    · simp [Pi.single_apply]
    · intro b _ hb
      simp [Pi.single_eq_of_ne hb]
    · simp
  funext a i
  rw [← key g a i, ← key g' a i, ← e, ← e', hLL]

theorem reframe_eq (g : ∀ a, Matrix (Fin (n a)) (Fin (n a)) ℝ) (x : Mats n) :
    reframe g x = fun a => Rotation.conj (g a) *ᵥ x a := by
  funext a
  rw [conj_mulVec]; rfl

theorem sameLoss {g : ∀ a, Matrix (Fin (n a)) (Fin (n a)) ℝ} (hg : ∀ a, IsUnit (g a).det)
    {ps ps' : List ((Mats n → ℝ) × (Mats n → Mats n))} (h : List.Forall₂ (TwoFrames g) ps ps') :
    List.Forall₂ (SameLoss (fun a => Rotation.conj (g a)) (fun a => Rotation.conj ((g a)⁻¹)ᵀ)
      fun a x => SPD.OnSPD (toMat x)) (feed ps) (feed ps') := by
  unfold feed
  rw [List.forall₂_map_left_iff, List.forall₂_map_right_iff]
  refine h.imp fun p p' ⟨h1, h2, h3⟩ x hx => ?_
  have e := C109_gradients (fun a => conj_inv (hg a)) (F := p.1) (F' := p'.1)
    (fun x => by rw [← reframe_eq]; exact h1 x) (h2 x hx)
  have e' := h3 (fun a => Rotation.conj (g a) *ᵥ x a) fun a => by
    rw [toMat_conj]; exact (hx a).congr (hg a)
  have := gradient_unique e' e
  funext a
  simp only [this, rotGrad]

variable [DecidableEq κ]

/-- **C109.** Train losses `ps` of positive definite matrices with `RiemannianSGD` without momentum and
weight decay, from `x`; train the same losses written in another frame, from `x` in that frame.  After
any number of iterations the parameters are the same matrices in the two frames, and the same exceptions
were raised. -/
theorem C109_spd_sgd (E : ∀ a, Linalg.Eigh (n a)) {g : ∀ a, Matrix (Fin (n a)) (Fin (n a)) ℝ}
    (hg : ∀ a, IsUnit (g a).det) {ps ps' : List ((Mats n → ℝ) × (Mats n → Mats n))}
    (h : List.Forall₂ (TwoFrames g) ps ps') {x : Mats n} (hx : ∀ a, SPD.OnSPD (toMat (x a)))
    (groups : List (Group SGDHyper κ))
    (hh : ∀ G ∈ groups, G.hyper.momentum = 0 ∧ G.hyper.weightDecay = 0) :
    let P : Params κ fun a => Fin (n a) × Fin (n a) := ⟨fun _ => true, fun a => spd (E a)⟩
    let r := C90.run (sgdTrain P) (feed ps) ⟨fun a => ⟨x a, .none, none⟩, groups⟩
    let r' := C90.run (sgdTrain P) (feed ps') ⟨fun a => ⟨reframe g x a, .none, none⟩, groups⟩
    (fun a => (r'.1.par a).point) = reframe g (fun a => (r.1.par a).point) ∧ r'.2 = r.2 ∧
    ∀ a, SPD.OnSPD (toMat (r.1.par a).point) := by
  intro P r r'
  have key := C109_sgd (P := P) (P' := P) (A := fun a => Rotation.conj (g a))
    (B := fun a => Rotation.conj ((g a)⁻¹)ᵀ) (On := fun a x => SPD.OnSPD (toMat x))
    (Tan := fun a _ u => SPD.Symm (toMat u)) rfl
    (fun a => (C109_spd_frame (E a) (hg a)).1) (sameLoss hg h)
    ⟨fun a => ⟨x a, .none, none⟩, groups⟩ (fun G hG => ⟨(hh G hG).1, .inl (hh G hG).2⟩) hx
  have e : (moveSGDAll (fun a => Rotation.conj (g a)) (fun a => Rotation.conj ((g a)⁻¹)ᵀ)
      ⟨fun a => ⟨x a, .none, none⟩, groups⟩ : SGD κ fun a => Fin (n a) × Fin (n a)) =
      ⟨fun a => ⟨reframe g x a, .none, none⟩, groups⟩ := by
    rw [reframe_eq]; rfl
  rw [e] at key
  refine ⟨?_, (congrArg Prod.snd key.1 :), key.2⟩
  rw [reframe_eq]
  funext a
  exact congrArg (fun o : SGD κ fun a => Fin (n a) × Fin (n a) => (o.par a).point)
    (congrArg Prod.fst key.1)

/-- **C109.** The same for `RiemannianAdam`, also with `amsgrad`, without weight decay. -/
theorem C109_spd_adam (E : ∀ a, Linalg.Eigh (n a)) {g : ∀ a, Matrix (Fin (n a)) (Fin (n a)) ℝ}
    (hg : ∀ a, IsUnit (g a).det) {ps ps' : List ((Mats n → ℝ) × (Mats n → Mats n))}
    (h : List.Forall₂ (TwoFrames g) ps ps') {x : Mats n} (hx : ∀ a, SPD.OnSPD (toMat (x a)))
    (groups : List (AdamHyper × List κ)) (hh : ∀ G ∈ groups, G.1.weightDecay = 0) :
    let P : Params κ fun a => Fin (n a) × Fin (n a) := ⟨fun _ => true, fun a => spd (E a)⟩
    let r := C90.run (adamTrain P) (feed ps) ⟨fun a => ⟨x a, .none, none⟩, groups⟩
    let r' := C90.run (adamTrain P) (feed ps') ⟨fun a => ⟨reframe g x a, .none, none⟩, groups⟩
    (fun a => (r'.1.par a).point) = reframe g (fun a => (r.1.par a).point) ∧ r'.2 = r.2 ∧
    ∀ a, SPD.OnSPD (toMat (r.1.par a).point) := by
  intro P r r'
  have key := C109_adam (P := P) (P' := P) (A := fun a => Rotation.conj (g a))
    (B := fun a => Rotation.conj ((g a)⁻¹)ᵀ) (On := fun a x => SPD.OnSPD (toMat x))
    (Tan := fun a _ u => SPD.Symm (toMat u)) (same := fun _ _ _ => True) rfl
    (fun a => (C109_spd_frame (E a) (hg a)).1) (fun a => (C109_spd_frame (E a) (hg a)).2)
    (sameLoss hg h) ⟨fun a => ⟨x a, .none, none⟩, groups⟩ (fun G hG => .inl (hh G hG))
    fun a => ⟨hx a, by rintro st ⟨⟩⟩
  have e : (moveAdamAll (fun a => Rotation.conj (g a)) (fun a => Rotation.conj ((g a)⁻¹)ᵀ)
      ⟨fun a => ⟨x a, .none, none⟩, groups⟩ : Adam κ fun a => Fin (n a) × Fin (n a)) =
      ⟨fun a => ⟨reframe g x a, .none, none⟩, groups⟩ := by
    rw [reframe_eq]; rfl
  rw [e] at key
  refine ⟨?_, (congrArg Prod.snd key.1 :), key.2⟩
  rw [reframe_eq]
  funext a
  exact congrArg (fun o : Adam κ fun a => Fin (n a) × Fin (n a) => (o.par a).point)
    (congrArg Prod.fst key.1)

end

/-! ### Positive numbers: momentum and weight decay -/

section Scalar
variable (E : Linalg.Eigh 1)

theorem toMat_const (c : ℝ) : toMat (fun _ : Fin 1 × Fin 1 => c) = c • (1 : Matrix (Fin 1) (Fin 1) ℝ) := by
  ext i j
  fin_cases i; fin_cases j
  simp [toMat]

theorem ofMat_const (c : ℝ) : ofMat (c • (1 : Matrix (Fin 1) (Fin 1) ℝ)) = fun _ => c := by
  funext p
  rcases p with ⟨i, j⟩
  fin_cases i; fin_cases j
  simp [ofMat]

theorem spd1_egrad (c g : ℝ) : (spd E).egrad2rgrad (fun _ => c) (fun _ => g) =
    ⟨fun _ => c * g * c, fun _ => g, false⟩ := by
  have : SPD.egrad2rgrad (c • (1 : Matrix (Fin 1) (Fin 1) ℝ)) (g • 1) = (c * g * c) • 1 := by
    unfold SPD.egrad2rgrad SPD.proju Linalg.sym
    rw [transpose_smul, transpose_smul, transpose_one, ← add_smul, smul_smul, smul_mul_smul,
      smul_mul_smul, one_mul, one_mul]
    congr 1
    ring
  simp only [spd, toMat_const, this, ofMat_const]

theorem spd1_retr {c : ℝ} (hc : c ≠ 0) (u : ℝ) :
    (spd E).retr (fun _ => c) (fun _ => u) = fun _ => c + u + u ^ 2 / (2 * c) := by
  have hi : (c • (1 : Matrix (Fin 1) (Fin 1) ℝ))⁻¹ = c⁻¹ • 1 :=
    Matrix.inv_eq_right_inv (by rw [smul_mul_smul, one_mul, mul_inv_cancel₀ hc, one_smul])
  have : SPD.retr (c • (1 : Matrix (Fin 1) (Fin 1) ℝ)) (u • 1) = (c + u + u ^ 2 / (2 * c)) • 1 := by
    unfold SPD.retr Linalg.symInvm Linalg.sym
    simp only [hi, smul_smul, smul_mul_smul, one_mul, ← add_smul, transpose_smul, transpose_one]
    congr 1
    field_simp
    norm_num
    ring
  simp only [spd, toMat_const, this, ofMat_const]

theorem spd1_retrTransp (x u v : Fin 1 × Fin 1 → ℝ) :
    ((spd E).retrTransp x u v).1 = (spd E).retr x u := rfl

/-- One iteration of `RiemannianSGD` on a positive number, with a constant gradient. -/
noncomputable def once (c d : ℝ) (h : SGDHyper) : Fin 1 × Fin 1 → ℝ :=
  ((sgdTrain (⟨fun _ => true, fun _ => spd E⟩ : Params Unit fun _ => Fin 1 × Fin 1)
    (fun _ _ => .dense fun _ => d) ⟨fun _ => ⟨fun _ => c, .none, none⟩, [⟨h, 0, [()]⟩]⟩).1.par ()).point

theorem once_decay {c : ℝ} (hc : c ≠ 0) (d lr wd : ℝ) :
    once E c d ⟨lr, 0, 0, wd, false, none⟩ = fun _ =>
      c + -lr * (c * (d + wd * c) * c) + (-lr * (c * (d + wd * c) * c)) ^ 2 / (2 * c) := by
  have e : (fun _ : Fin 1 × Fin 1 => d) + wd • (fun _ => c) = fun _ => d + wd * c := rfl
  have e2 : (-lr • fun _ : Fin 1 × Fin 1 => c * (d + wd * c) * c) =
    fun _ => -lr * (c * (d + wd * c) * c) := rfl
  simp only [once, sgdTrain, sgdStep, forGroups, sgdGroup, counterGroup, forParams, sgdParam,
    Params.manifold, if_true, lt_irrefl, if_false, Function.update_self, e, spd1_egrad, e2,
    spd1_retr E hc]

theorem once_momentum {c : ℝ} (hc : c ≠ 0) (d lr : ℝ) {μ : ℝ} (hμ : 0 < μ) :
    once E c d ⟨lr, μ, 0, 0, false, none⟩ = fun _ =>
      c + -lr * (μ * d + c * d * c) + (-lr * (μ * d + c * d * c)) ^ 2 / (2 * c) := by
  have e2 : (-lr • ((μ • fun _ : Fin 1 × Fin 1 => d) + (1 - 0 : ℝ) • fun _ => c * d * c)) =
    fun _ => -lr * (μ * d + c * d * c) := by
    funext p; simp
  simp only [once, sgdTrain, sgdStep, forGroups, sgdGroup, counterGroup, forParams, sgdParam,
    Params.manifold, if_true, hμ, zero_smul, add_zero, Function.update_self, spd1_egrad,
    Bool.false_eq_true, if_false, spd1_retrTransp, e2, spd1_retr E hc]

/-- `F(x) = x` and the same loss for the number `4 x`. -/
theorem linear_frames : TwoFrames (κ := Unit) (n := fun _ => 1) (fun _ => (2 : ℝ) • 1)
    (fun x => x () (0, 0), fun _ _ _ => 1) (fun x => x () (0, 0) / 4, fun _ _ _ => 1 / 4) := by
  have key : ∀ c : ℝ, Backward (κ := Unit) (n := fun _ => 1) (fun x => c * x () (0, 0))
      fun _ _ _ => c := by
    intro c x _
    let L : Mats (κ := Unit) (fun _ => 1) →L[ℝ] ℝ :=
      c • (ContinuousLinearMap.proj (R := ℝ) (φ := fun _ : Fin 1 × Fin 1 => ℝ) (0, 0)).comp
        (ContinuousLinearMap.proj (R := ℝ) (φ := fun _ : Unit => Fin 1 × Fin 1 → ℝ) ())
    refine ⟨L, L.hasFDerivAt, fun v => ?_⟩
    show c * v () (0, 0) = _
    rw [Fintype.sum_unique]
    show _ = ∑ p : Fin 1 × Fin 1, c * v () p
    rw [Fintype.sum_prod_type]
    simp
  refine ⟨fun x => ?_, ?_, ?_⟩
  · simp only [reframe, ofMat, transpose_smul, transpose_one, Matrix.mul_smul, mul_one,
      Matrix.smul_mul, one_mul, Matrix.smul_apply, toMat, smul_eq_mul]
    ring
  · simpa using key 1
  · have := key (1 / 4)
    simpa only [div_eq_inv_mul, mul_one] using this

/-- **C109.** Momentum: the first momentum buffer of `RiemannianSGD` is the Euclidean gradient, which
does not move like a tangent vector.  One iteration on the loss `F(x) = x`, from `1`, and on the same
loss of `4 x`, from `4`. -/
theorem C109_counterexample_momentum :
    once E 4 (1 / 4) ⟨0.1, 0.5, 0, 0, false, none⟩ ≠
      fun p => 4 * once E 1 1 ⟨0.1, 0.5, 0, 0, false, none⟩ p := by
  intro h
  have := congrFun h (0, 0)
  rw [once_momentum E (by norm_num) _ _ (by norm_num),
    once_momentum E (by norm_num) _ _ (by norm_num)] at this
  norm_num at this

/-- **C109.** Weight decay: the penalty `weight_decay / 2 * ‖x‖²` depends on the frame. -/
theorem C109_counterexample_weight_decay :
    once E 4 (1 / 4) ⟨0.1, 0, 0, 0.1, false, none⟩ ≠
      fun p => 4 * once E 1 1 ⟨0.1, 0, 0, 0.1, false, none⟩ p := by
  intro h
  have := congrFun h (0, 0)
  rw [once_decay E (by norm_num), once_decay E (by norm_num)] at this
  norm_num at this

/-- Without both, one iteration and its image agree. -/
example : once E 4 (1 / 4) ⟨0.1, 0, 0, 0, false, none⟩ =
    fun p => 4 * once E 1 1 ⟨0.1, 0, 0, 0, false, none⟩ p := by
  rw [once_decay E (by norm_num), once_decay E (by norm_num)]
  norm_num

/-- The hypotheses of `C109_spd_adam` are met: any number of iterations of `RiemannianAdam` with
`amsgrad` and stabilization on that loss. -/
example (k : ℕ) :
    let P : Params Unit fun _ => Fin 1 × Fin 1 := ⟨fun _ => true, fun _ => spd E⟩
    let G : List (AdamHyper × List Unit) := [(⟨1e-3, 0.9, 0.999, 1e-8, 0, true, some 10⟩, [()])]
    let r := C90.run (adamTrain P) (List.replicate k fun _ _ => .dense fun _ => 1)
      ⟨fun _ => ⟨fun _ => 1, .none, none⟩, G⟩
    let r' := C90.run (adamTrain P) (List.replicate k fun _ _ => .dense fun _ => 1 / 4)
      ⟨fun _ => ⟨fun _ => 4, .none, none⟩, G⟩
    (r'.1.par ()).point (0, 0) = 4 * (r.1.par ()).point (0, 0) := by
  intro P G r r'
  have key := C109_spd_adam (κ := Unit) (n := fun _ => 1) (fun _ => E) (g := fun _ => (2 : ℝ) • 1)
    (fun _ => by simp) (ps := List.replicate k (fun x => x () (0, 0), fun _ _ _ => 1))
    (ps' := List.replicate k (fun x => x () (0, 0) / 4, fun _ _ _ => 1 / 4))
    (by rw [List.forall₂_iff_get]; simpa using fun _ _ => by simpa using linear_frames) (x := fun _ _ => 1)
    (fun _ => by rw [toMat_const]; exact SPD.smul_one_spd one_pos) G (by simp [G])
  have hf : reframe (κ := Unit) (n := fun _ => 1) (fun _ => (2 : ℝ) • 1) (fun _ _ => 1) =
      fun _ _ => 4 := by
    funext a
    simp only [reframe, toMat_const, transpose_smul, transpose_one, smul_mul_smul, mul_one]
    norm_num [ofMat_const]
  simp only [feed, List.map_replicate, hf] at key
  have := congrFun (congrFun key.1 ()) (0, 0)
  refine this.trans ?_
  simp only [reframe, ofMat, transpose_smul, transpose_one, Matrix.mul_smul, mul_one,
    Matrix.smul_mul, one_mul, Matrix.smul_apply, toMat, smul_eq_mul]
  show 2 * (2 * (r.1.par ()).point (0, 0)) = _
  ring

end Scalar

/-! ### The Lorentz model -/

section Lorentz
open Geoopt.Isometry
variable {n : ℕ} {Λ : Matrix (Fin (n + 1)) (Fin (n + 1)) ℝ} {k : ℝ}

/-- The step of length `lr` against the gradient `d` at `x`. -/
noncomputable def lorentzStep (k lr : ℝ) (x d : Vec (n + 1)) : Vec (n + 1) :=
  -lr • (Lorentz.egrad2rgrad k x d).1

/-- No step of the run of gradient descent from `x` is shorter than the floor `1e-4` that the norm of
the Lorentz model has. -/
def LongSteps (k lr : ℝ) : List (Vec (n + 1) → Vec (n + 1)) → Vec (n + 1) → Prop
  | [], _ => True
  | G :: Gs, x => 1e-8 ≤ Lorentz.mink (lorentzStep k lr x (G x)) (lorentzStep k lr x (G x)) ∧
    LongSteps k lr Gs (Lorentz.expmap k x (lorentzStep k lr x (G x)))

/-- Training one parameter on the Lorentz model. -/
noncomputable def lorentzRun (k : ℝ) (Gs : List (Vec (n + 1) → Vec (n + 1)))
    (o : SGD Unit fun _ => Fin (n + 1)) : (SGD Unit fun _ => Fin (n + 1)) × List (Option PyErr) :=
  C90.run (sgdTrain ⟨fun _ => true, fun _ => lorentz k⟩)
    (Gs.map fun G x _ => Grad.dense (G (x ()))) o

theorem lorentz_train (hk : 0 < k) (h : SGDHyper) (h0 : h.momentum = 0) (hw : h.weightDecay = 0) :
    ∃ e : Option PyErr, ∀ (G : Vec (n + 1) → Vec (n + 1)) (x : Vec (n + 1)) (g0 : Grad (Fin (n + 1)))
      (b : Option (Vec (n + 1))) (s : ℕ), ∃ g1 b1,
    sgdTrain ⟨fun _ => true, fun _ => lorentz k⟩ (fun x _ => Grad.dense (G (x ())))
      (⟨fun _ => ⟨x, g0, b⟩, [⟨h, s, [()]⟩]⟩ : SGD Unit fun _ => Fin (n + 1)) =
      (⟨fun _ => ⟨Lorentz.expmap k x (lorentzStep k h.lr x (G x)), g1, b1⟩,
        [⟨h, s + 1, [()]⟩]⟩, e) := by
  rcases h with ⟨lr, mu, damp, wd, nest, stab⟩
  simp only at h0 hw
  subst h0 hw
  have hp : ∀ x u : Vec (n + 1), Lorentz.projx k (Lorentz.expmap k x u) = Lorentz.expmap k x u :=
    fun x u => Lorentz.C35_projx_fixes (Lorentz.C35_expmap_on hk x u true)
  have hu : ∀ (w : Unit → SGDParam (Fin (n + 1))) (p : SGDParam (Fin (n + 1))),
      Function.update w () p = fun _ => p := fun w p => by funext a; cases a; simp
  refine ⟨match stab with | some 0 => some .zeroDivisionError | _ => none,
    fun G x g0 b s => ⟨.dense (Lorentz.egrad2rgrad k x (G x)).2, b, ?_⟩⟩
  simp only [sgdTrain, sgdStep, forGroups, sgdGroup, counterGroup, forParams, sgdParam,
    Params.manifold, if_true, lt_irrefl, if_false, hu, zero_smul, add_zero, lorentzStep, lorentz,
    stabParams, List.foldl_cons, List.foldl_nil, sgdStab, hp, Bool.true_eq_false, isMultiple]
  rcases stab with _ | _ | m
  · cases b <;> rfl
  · cases b <;> rfl
  · simp only [Nat.succ_ne_zero, if_false]
    cases (s + 1) % (m + 1) == 0 <;> cases b <;> rfl

/-- **C109.** The Lorentz model, any Lorentz transformation: a rotation, a translation of hyperbolic
space or both.  `RiemannianSGD` without momentum and weight decay on one parameter, as long as no step of
the first run is shorter than the floor of the norm (below it the runs differ,
`C108_counterexample_lorentz`). -/
theorem C109_lorentz_partial (hΛ : LorentzMap Λ) (hk : 0 < k) {h : SGDHyper} (h0 : h.momentum = 0)
    (hw : h.weightDecay = 0) {Gs Gs' : List (Vec (n + 1) → Vec (n + 1))}
    (hG : List.Forall₂ (fun G G' => ∀ x, Lorentz.OnHyperboloid k x →
      PulledBack (Λ *ᵥ ·) (G' (Λ *ᵥ x)) (G x)) Gs Gs')
    {x : Vec (n + 1)} (hx : Lorentz.OnHyperboloid k x) (hl : LongSteps k h.lr Gs x)
    (g0 g0' : Grad (Fin (n + 1))) (b b' : Option (Vec (n + 1))) (s : ℕ) :
    let r := lorentzRun k Gs ⟨fun _ => ⟨x, g0, b⟩, [⟨h, s, [()]⟩]⟩
    let r' := lorentzRun k Gs' ⟨fun _ => ⟨Λ *ᵥ x, g0', b'⟩, [⟨h, s, [()]⟩]⟩
    (r'.1.par ()).point = Λ *ᵥ (r.1.par ()).point ∧ r'.2 = r.2 ∧
    Lorentz.OnHyperboloid k (r.1.par ()).point := by
  unfold lorentzRun
  obtain ⟨e, he⟩ := lorentz_train (n := n) hk h h0 hw
  induction hG generalizing x g0 g0' b b' s with
  | nil => exact ⟨rfl, rfl, hx⟩
  | @cons G G' Gs Gs' hg _ ih =>
    obtain ⟨g1, b1, e1⟩ := he G x g0 b s
    obtain ⟨g2, b2, e2⟩ := he G' (Λ *ᵥ x) g0' b' s
    simp only [List.map_cons, C90.run, e1, e2]
    have hstep : lorentzStep k h.lr (Λ *ᵥ x) (G' (Λ *ᵥ x)) = Λ *ᵥ lorentzStep k h.lr x (G x) := by
      unfold lorentzStep
      rw [(Lorentz.C108_lorentz hΛ k 0 x x x x true).2.2.2.2.2.2.2.2 _ _ (hg x hx), mulVec_smul]
    have htan : Lorentz.proju k x (lorentzStep k h.lr x (G x)) = lorentzStep k h.lr x (G x) := by
      refine Lorentz.C36_proju_fixes ?_
      have ht := Lorentz.C36_egrad2rgrad_tangent hk hx (G x)
      unfold Lorentz.Tangent at ht ⊢
      unfold lorentzStep
      rw [Lorentz.mink_smul_right, ht, mul_zero]
    have hexp : Lorentz.expmap k (Λ *ᵥ x) (lorentzStep k h.lr (Λ *ᵥ x) (G' (Λ *ᵥ x))) =
        Λ *ᵥ Lorentz.expmap k x (lorentzStep k h.lr x (G x)) := by
      rw [hstep]
      exact (Lorentz.C108_lorentz_projected_partial hΛ hk hx _ 0).1 (by rw [htan]; exact hl.1)
    rw [hexp]
    have := ih (Lorentz.C35_expmap_on hk x (lorentzStep k h.lr x (G x)) true) hl.2 g1 g2 b1 b2 (s + 1)
    exact ⟨this.1, by rw [this.2.1], this.2.2⟩

/-- A boost of the hyperbolic plane, any number of iterations of the loss `F(x) = x₁`, whose steps all
have length at least `0.1`. -/
example (m : ℕ) :
    let Λ : Matrix (Fin 2) (Fin 2) ℝ := !![5 / 4, 3 / 4; 3 / 4, 5 / 4]
    let h : SGDHyper := ⟨0.1, 0, 0, 0, false, some 10⟩
    let r := lorentzRun 1 (List.replicate m fun _ => ![0, 1])
      ⟨fun _ => ⟨Lorentz.origin 1, .none, none⟩, [⟨h, 0, [()]⟩]⟩
    let r' := lorentzRun 1 (List.replicate m fun _ => ![-3 / 4, 5 / 4])
      ⟨fun _ => ⟨Λ *ᵥ Lorentz.origin 1, .none, none⟩, [⟨h, 0, [()]⟩]⟩
    (r'.1.par ()).point = Λ *ᵥ (r.1.par ()).point := by
  intro Λ h r r'
  have hΛ : LorentzMap Λ := by
    constructor
    · intro u v
      simp [Λ, Lorentz.mink, mulVec, dotProduct, Fin.sum_univ_two]
      ring
    · intro x hx h0
      simp [Lorentz.mink] at hx
      have : -(x 0) < x 1 := by nlinarith
      simp [Λ, mulVec, dotProduct, Fin.sum_univ_two]
      linarith
  have hl : ∀ m (x : Vec 2), Lorentz.OnHyperboloid 1 x →
      LongSteps 1 0.1 (List.replicate m fun _ => ![0, 1]) x := by
    intro m
    induction m with
    | zero => exact fun _ _ => trivial
    | succ m ih =>
      intro x hx
      refine ⟨?_, ih _ (Lorentz.C35_expmap_on one_pos _ _ true)⟩
      have ht := Lorentz.C36_egrad2rgrad_tangent one_pos hx ![0, 1]
      have hr := Lorentz.C36_egrad2rgrad_represents (k := 1) ![0, 1] _ ht
      unfold lorentzStep
      rw [Lorentz.mink_smul_right, Lorentz.mink_smul_left, hr]
      simp [Fin.sum_univ_two, Lorentz.egrad2rgrad, Lorentz.inner, Fin.tail, dotProduct,
        vecHead, vecTail]
      nlinarith [sq_nonneg (x 1)]
  refine (C109_lorentz_partial hΛ one_pos (h := h) rfl rfl ?_ (Lorentz.C35_origin_on one_pos)
    (hl m _ (Lorentz.C35_origin_on one_pos)) .none .none none none 0).1
  rw [List.forall₂_iff_get]
  refine ⟨by simp, fun i _ _ x _ u => ?_⟩
  simp [Λ, mulVec, dotProduct, Fin.sum_univ_two]
  ring

end Lorentz

end Geoopt.C109
