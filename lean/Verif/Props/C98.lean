import Verif.Model.OptimProduct
import Verif.Spec.Training
import Mathlib.Analysis.Calculus.Deriv.Mul
import Mathlib.Tactic

/-!
# C98: training on `Scaled(M, s)` is training on `M` with the learning rate divided by `s`
-/

namespace Geoopt.C98

open Geoopt.Optim

theorem smul_lr {ι : Type} (lr s : ℝ) (d : ι → ℝ) : s⁻¹ • -lr • d = -(lr / s) • d := by
  rw [smul_smul]; congr 1; ring

theorem sgdParam_scaled {ι : Type} (M : Manifold ι) (inner : (ι → ℝ) → (ι → ℝ) → ι → ℝ) (s : ℝ)
    (h : SGDHyper) (p : SGDParam ι) :
    sgdParam (scaled M inner s) h p = sgdParam M { h with lr := h.lr / s } p := by
  unfold sgdParam scaled
  simp only [smul_lr]

theorem adamParam_scaled {ι : Type} (M : Manifold ι) (inner : (ι → ℝ) → (ι → ℝ) → ι → ℝ)
    (hM : M.componentInner = inner) (s : ℝ) (h : AdamHyper) (p : AdamParam ι) :
    adamParam (scaled M inner s) h p = adamParam M { h with lr := h.lr / s } p := by
  subst hM
  unfold adamParam scaled
  simp only [smul_lr]
  rfl

section Loops
variable {κ : Type} [DecidableEq κ] {S : κ → Type}

theorem forParams_body (f f' : ∀ a, S a → S a × Bool × Option PyErr) (as : List κ) (w : ∀ a, S a)
    (h : ∀ a ∈ as, ∀ s, f a s = f' a s) : forParams f as w = forParams f' as w := by
  induction as generalizing w with
  | nil => rfl
  | cons a as ih =>
    rw [forParams, forParams, h a (by simp)]
    rcases f' a (w a) with ⟨s, b, e⟩
    cases e with
    | some e => rfl
    | none => simp only; rw [ih _ fun b hb => h b (by simp [hb])]

theorem stabParams_body (f f' : ∀ a, S a → S a) (as : List κ) (w : ∀ a, S a)
    (h : ∀ a ∈ as, ∀ s, f a s = f' a s) : stabParams f as w = stabParams f' as w := by
  unfold stabParams
  induction as generalizing w with
  | nil => rfl
  | cons a as ih =>
    rw [List.foldl_cons, List.foldl_cons, h a (by simp), ih _ fun b hb => h b (by simp [hb])]

theorem forGroups_body {H : Type} (f f' : (∀ a, S a) → H → (∀ a, S a) × H × Option PyErr)
    (R : H → H → Prop) (Gs Gs' : List H) (hR : List.Forall₂ R Gs Gs') (w : ∀ a, S a)
    (h : ∀ G G' w, R G G' → (f w G).1 = (f' w G').1 ∧ R (f w G).2.1 (f' w G').2.1 ∧
      (f w G).2.2 = (f' w G').2.2) :
    (forGroups f Gs w).1 = (forGroups f' Gs' w).1 ∧
    List.Forall₂ R (forGroups f Gs w).2.1 (forGroups f' Gs' w).2.1 ∧
    (forGroups f Gs w).2.2 = (forGroups f' Gs' w).2.2 := by
  induction hR generalizing w with
  | nil => exact ⟨rfl, .nil, rfl⟩
  | @cons G G' Gs Gs' hG hGs ih =>
    obtain ⟨h1, h2, h3⟩ := h G G' w hG
    rw [forGroups, forGroups]
    rcases hf : f w G with ⟨w1, G1, e1⟩
    rcases hf' : f' w G' with ⟨w2, G2, e2⟩
    rw [hf, hf'] at h1 h2 h3
    simp only at h1 h2 h3
    subst h1 h3
    cases e1 with
    | some e => exact ⟨rfl, .cons h2 hGs, rfl⟩
    | none =>
      obtain ⟨k1, k2, k3⟩ := ih w1
      exact ⟨k1, .cons h2 k2, k3⟩

end Loops

section Train
variable {κ : Type} [DecidableEq κ] {ι : κ → Type}

/-- Parameter `a` on `Scaled(Ms a, σ a)`; a plain parameter if `isM a` is `false`. -/
noncomputable def scaledParams (isM : κ → Bool) (Ms : ∀ a, Manifold (ι a))
    (inner : ∀ a, (ι a → ℝ) → (ι a → ℝ) → ι a → ℝ) (σ : κ → ℝ) : Params κ ι :=
  ⟨isM, fun a => scaled (Ms a) (inner a) (σ a)⟩

/-- The same group for the unscaled manifolds: the learning rate is divided by the scale, which is the
same for all parameters of the group. -/
structure Rescaled (σ : κ → ℝ) (G G' : Group SGDHyper κ) : Prop where
  params : G'.params = G.params
  step : G'.step = G.step
  hyper : ∀ a ∈ G.params, G'.hyper = { G.hyper with lr := G.hyper.lr / σ a }
  /-- an empty group -/
  stab : G'.hyper.stabilize = G.hyper.stabilize

/-- The two optimisers correspond. -/
structure SameSGD (σ : κ → ℝ) (o o' : SGD κ ι) : Prop where
  par : o'.par = o.par
  groups : List.Forall₂ (Rescaled σ) o.groups o'.groups

/-- `loss.backward()`: gradients as a function of the round and of all points. -/
def feedSGD (L : ℕ → (∀ a, ι a → ℝ) → ∀ a, Grad (ι a)) (n : ℕ) (o : SGD κ ι) : SGD κ ι :=
  { o with par := fun a => { o.par a with grad := L n (fun a => (o.par a).point) a } }

variable (isM : κ → Bool) (Ms : ∀ a, Manifold (ι a)) (inner : ∀ a, (ι a → ℝ) → (ι a → ℝ) → ι a → ℝ)

theorem manifold_sgd (σ : κ → ℝ) (hσ : ∀ a, isM a = false → σ a = 1) (h : SGDHyper) (a : κ)
    (p : SGDParam (ι a)) :
    sgdParam ((scaledParams isM Ms inner σ).manifold a) h p =
      sgdParam ((⟨isM, Ms⟩ : Params κ ι).manifold a) { h with lr := h.lr / σ a } p := by
  unfold Params.manifold scaledParams
  simp only
  cases hm : isM a with
  | true => simp only [if_true]; exact sgdParam_scaled _ _ _ _ _
  | false => rw [hσ a hm, div_one]; rfl

/-- One step, from any state. -/
theorem sgd_step (σ : κ → ℝ) (hσ : ∀ a, isM a = false → σ a = 1) (o o' : SGD κ ι)
    (h : SameSGD σ o o') :
    (sgdStep (scaledParams isM Ms inner σ) o).2 = (sgdStep ⟨isM, Ms⟩ o').2 ∧
    SameSGD σ (sgdStep (scaledParams isM Ms inner σ) o).1 (sgdStep ⟨isM, Ms⟩ o').1 := by
  have key := forGroups_body (sgdGroup (scaledParams isM Ms inner σ)) (sgdGroup ⟨isM, Ms⟩)
    (Rescaled σ) o.groups o'.groups h.groups o.par (by
      rintro G G' w hG
      have hb : forParams (fun a => sgdParam ((scaledParams isM Ms inner σ).manifold a) G.hyper)
          G.params w = forParams (fun a => sgdParam ((⟨isM, Ms⟩ : Params κ ι).manifold a) G'.hyper)
          G'.params w := by
        rw [hG.params]
        refine forParams_body _ _ _ _ fun a ha s => ?_
        rw [hG.hyper a ha]
        exact manifold_sgd isM Ms inner σ hσ G.hyper a s
      have hst : ∀ w, stabParams (fun a => sgdStab ((scaledParams isM Ms inner σ).isManifold a)
          ((scaledParams isM Ms inner σ).man a) G.hyper) G.params w =
          stabParams (fun a => sgdStab (isM a) (Ms a) G'.hyper) G'.params w := by
        intro w
        rw [hG.params]
        refine stabParams_body _ _ _ _ fun a ha s => ?_
        rw [hG.hyper a ha]
        rfl
      have hres : Rescaled σ { G with step := G.step + 1 } { G' with step := G'.step + 1 } :=
        ⟨hG.params, by simp [hG.step], hG.hyper, hG.stab⟩
      unfold sgdGroup counterGroup
      simp only [hb, hG.stab, hG.step, hst]
      rcases forParams (fun a => sgdParam ((⟨isM, Ms⟩ : Params κ ι).manifold a) G'.hyper)
        G'.params w with ⟨w', b, e⟩
      rw [hG.step] at hres
      cases e with
      | some e => exact ⟨rfl, hres, rfl⟩
      | none =>
        simp only
        cases G.hyper.stabilize with
        | none => exact ⟨rfl, hres, rfl⟩
        | some k =>
          simp only
          cases isMultiple (G.step + 1) k with
          | error e => exact ⟨rfl, hres, rfl⟩
          | ok b => cases b <;> exact ⟨rfl, hres, rfl⟩)
  unfold sgdStep
  rw [h.par]
  obtain ⟨k1, k2, k3⟩ := key
  exact ⟨k3, ⟨k1.symm, k2⟩⟩

/-- **C98, RiemannianSGD.** Any manifolds, any options, several groups, any number of rounds: training on
`Scaled(M, s)` gives the same points, momentum buffers, gradients and exceptions as training on `M` with
the learning rate divided by `s`.  The scale may be any number, also zero or negative. -/
theorem C98_sgd (σ : κ → ℝ) (hσ : ∀ a, isM a = false → σ a = 1)
    (L : ℕ → (∀ a, ι a → ℝ) → ∀ a, Grad (ι a)) (o o' : SGD κ ι) (h : SameSGD σ o o') (n : ℕ) :
    (train (feedSGD L) (sgdStep (scaledParams isM Ms inner σ)) n o).2 =
      (train (feedSGD L) (sgdStep ⟨isM, Ms⟩) n o').2 ∧
    SameSGD σ (train (feedSGD L) (sgdStep (scaledParams isM Ms inner σ)) n o).1
      (train (feedSGD L) (sgdStep ⟨isM, Ms⟩) n o').1 := by
  induction n with
  | zero => exact ⟨rfl, h⟩
  | succ n ih =>
    obtain ⟨i1, i2⟩ := ih
    simp only [train]
    rcases h1 : train (feedSGD L) (sgdStep (scaledParams isM Ms inner σ)) n o with ⟨w, e⟩
    rcases h2 : train (feedSGD L) (sgdStep ⟨isM, Ms⟩) n o' with ⟨w', e'⟩
    rw [h1, h2] at i1 i2
    obtain rfl : e = e' := i1
    cases e with
    | some e => exact ⟨rfl, i2⟩
    | none =>
      refine sgd_step isM Ms inner σ hσ _ _ ⟨?_, i2.groups⟩
      have hp : w'.par = w.par := i2.par
      simp only [feedSGD, hp]

/-- The same group of Adam for the unscaled manifolds. -/
structure RescaledAdam (σ : κ → ℝ) (G G' : AdamHyper × List κ) : Prop where
  params : G'.2 = G.2
  hyper : ∀ a ∈ G.2, G'.1 = { G.1 with lr := G.1.lr / σ a }

/-- The two Adam optimisers correspond. -/
structure SameAdam (σ : κ → ℝ) (o o' : Adam κ ι) : Prop where
  par : o'.par = o.par
  groups : List.Forall₂ (RescaledAdam σ) o.groups o'.groups

/-- `loss.backward()`. -/
def feedAdam (L : ℕ → (∀ a, ι a → ℝ) → ∀ a, Grad (ι a)) (n : ℕ) (o : Adam κ ι) : Adam κ ι :=
  { o with par := fun a => { o.par a with grad := L n (fun a => (o.par a).point) a } }

theorem adam_step (hM : ∀ a, (Ms a).componentInner = inner a) (σ : κ → ℝ)
    (hσ : ∀ a, isM a = false → σ a = 1) (o o' : Adam κ ι) (h : SameAdam σ o o') :
    (adamStep (scaledParams isM Ms inner σ) o).2 = (adamStep ⟨isM, Ms⟩ o').2 ∧
    SameAdam σ (adamStep (scaledParams isM Ms inner σ) o).1 (adamStep ⟨isM, Ms⟩ o').1 := by
  have key := forGroups_body (adamGroup (scaledParams isM Ms inner σ)) (adamGroup ⟨isM, Ms⟩)
    (RescaledAdam σ) o.groups o'.groups h.groups o.par (by
      rintro G G' w hG
      have hb : forParams (fun a => adamParam ((scaledParams isM Ms inner σ).manifold a) G.1)
          G.2 w = forParams (fun a => adamParam ((⟨isM, Ms⟩ : Params κ ι).manifold a) G'.1)
          G'.2 w := by
        rw [hG.params]
        refine forParams_body _ _ _ _ fun a ha s => ?_
        rw [hG.hyper a ha]
        unfold Params.manifold scaledParams
        simp only
        cases hm : isM a with
        | true => simp only [if_true]; exact adamParam_scaled _ _ (hM a) _ _ _
        | false => rw [hσ a hm, div_one]; rfl
      have hst : ∀ w, stabParams (fun a => adamStab ((scaledParams isM Ms inner σ).isManifold a)
          ((scaledParams isM Ms inner σ).man a)) G.2 w =
          stabParams (fun a => adamStab (isM a) (Ms a)) G'.2 w := by
        intro w
        rw [hG.params]
        exact stabParams_body _ _ _ _ fun a ha s => rfl
      unfold adamGroup flagGroup
      simp only [hb, hst]
      rcases forParams (fun a => adamParam ((⟨isM, Ms⟩ : Params κ ι).manifold a) G'.1)
        G'.2 w with ⟨w', b, e⟩
      cases e with
      | some e => exact ⟨rfl, hG, rfl⟩
      | none => cases b <;> exact ⟨rfl, hG, rfl⟩)
  unfold adamStep
  rw [h.par]
  obtain ⟨k1, k2, k3⟩ := key
  exact ⟨k3, ⟨k1.symm, k2⟩⟩

/-- **C98, RiemannianAdam (partial).** The same for Adam and the manifolds whose `component_inner` is the
one of `Manifold`: the spheres, the stereographic, Lorentz, Stiefel, SPD and Birkhoff manifolds.  Missing:
`Euclidean` and `ProductManifold`, see the counterexamples. -/
theorem C98_adam_partial (hM : ∀ a, (Ms a).componentInner = inner a) (σ : κ → ℝ)
    (hσ : ∀ a, isM a = false → σ a = 1)
    (L : ℕ → (∀ a, ι a → ℝ) → ∀ a, Grad (ι a)) (o o' : Adam κ ι) (h : SameAdam σ o o') (n : ℕ) :
    (train (feedAdam L) (adamStep (scaledParams isM Ms inner σ)) n o).2 =
      (train (feedAdam L) (adamStep ⟨isM, Ms⟩) n o').2 ∧
    SameAdam σ (train (feedAdam L) (adamStep (scaledParams isM Ms inner σ)) n o).1
      (train (feedAdam L) (adamStep ⟨isM, Ms⟩) n o').1 := by
  induction n with
  | zero => exact ⟨rfl, h⟩
  | succ n ih =>
    obtain ⟨i1, i2⟩ := ih
    simp only [train]
    rcases h1 : train (feedAdam L) (adamStep (scaledParams isM Ms inner σ)) n o with ⟨w, e⟩
    rcases h2 : train (feedAdam L) (adamStep ⟨isM, Ms⟩) n o' with ⟨w', e'⟩
    rw [h1, h2] at i1 i2
    obtain rfl : e = e' := i1
    cases e with
    | some e => exact ⟨rfl, i2⟩
    | none =>
      refine adam_step isM Ms inner hM σ hσ _ _ ⟨?_, i2.groups⟩
      have hp : w'.par = w.par := i2.par
      simp only [feedAdam, hp]

end Train

/-! ### The hypotheses are met -/

/-- The hypothesis of `C98_adam_partial` for a batch of points of a sphere: `inner` per row. -/
example (β : Type) {n : ℕ} (P : Option (Matrix (Fin n) (Fin n) ℝ)) :
    (batch β (sphere P)).componentInner = fun x u p =>
      Sphere.inner (fun i => x (p.1, i)) (fun i => u (p.1, i)) (fun i => u (p.1, i)) := rfl
example {n : ℕ} (η : ℝ) (dt : DType) (k : ℝ) :
    (stereographic (n := n) η dt k).componentInner = fun x u _ => Stereo.inner k x u u := rfl
example {n : ℕ} (k : ℝ) :
    (lorentz (n := n) k).componentInner = fun _ u _ => Lorentz.inner u u := rfl

/-- A sphere of radius 2 (see the docstring of `Scaled`) and a plain parameter in two groups. -/
example (x : Bool → Fin 3 → ℝ) (n : ℕ) (L : ℕ → (Bool → Fin 3 → ℝ) → Bool → Grad (Fin 3)) :
    let σ : Bool → ℝ := fun a => if a then 2 else 1
    let o : SGD Bool fun _ => Fin 3 := ⟨fun a => ⟨x a, .none, none⟩,
      [⟨⟨0.1, 0.9, 0, 0.01, true, some 3⟩, 0, [true]⟩, ⟨⟨0.1, 0, 0, 0, false, none⟩, 0, [false]⟩]⟩
    let o' : SGD Bool fun _ => Fin 3 := ⟨fun a => ⟨x a, .none, none⟩,
      [⟨⟨0.05, 0.9, 0, 0.01, true, some 3⟩, 0, [true]⟩, ⟨⟨0.1, 0, 0, 0, false, none⟩, 0, [false]⟩]⟩
    ∀ a, ((train (feedSGD L) (sgdStep (scaledParams id (fun _ => sphere none)
        (fun _ x u _ => Sphere.inner x u u) σ)) n o).1.par a).point =
      ((train (feedSGD L) (sgdStep ⟨id, fun _ => sphere none⟩) n o').1.par a).point := by
  intro σ o o' a
  have h := C98_sgd id (fun _ => sphere none) (fun _ x u _ => Sphere.inner x u u) σ
    (fun a ha => by cases a <;> simp_all [σ]) L o o' ⟨rfl, .cons ⟨rfl, rfl, by simp [σ]; norm_num, rfl⟩
      (.cons ⟨rfl, rfl, by simp [σ], rfl⟩ .nil)⟩ n
  rw [h.2.par]

/-- A batch of five points on spheres of radius 2, trained by Adam with AMSGrad. -/
example (x : Fin 5 × Fin 3 → ℝ) (n : ℕ)
    (L : ℕ → (Unit → Fin 5 × Fin 3 → ℝ) → Unit → Grad (Fin 5 × Fin 3)) :
    let M : Manifold (Fin 5 × Fin 3) := batch (Fin 5) (sphere none)
    let o : Adam Unit fun _ => Fin 5 × Fin 3 :=
      ⟨fun _ => ⟨x, .none, none⟩, [(⟨0.1, 0.9, 0.999, 0, 1e-8, true, some 3⟩, [()])]⟩
    let o' : Adam Unit fun _ => Fin 5 × Fin 3 :=
      ⟨fun _ => ⟨x, .none, none⟩, [(⟨0.05, 0.9, 0.999, 0, 1e-8, true, some 3⟩, [()])]⟩
    ((train (feedAdam L) (adamStep (scaledParams (fun _ => true) (fun _ => M)
        (fun _ => M.componentInner) fun _ => 2)) n o).1.par ()).point =
      ((train (feedAdam L) (adamStep ⟨fun _ => true, fun _ => M⟩) n o').1.par ()).point := by
  intro M o o'
  have h := C98_adam_partial (fun _ => true) (fun _ => M) (fun _ => M.componentInner) (fun _ => rfl)
    (fun _ => 2) (fun a ha => by simp at ha) L o o'
    ⟨rfl, .cons ⟨rfl, by intro a _; simp; norm_num⟩ .nil⟩ n
  rw [h.2.par]

/-! ### Where the property fails -/

/-- `Scaled(Euclidean(1), 1)` scales by one, yet Adam does not treat it as `Euclidean(1)`: the first step
for the gradient `(3, 4)` divides every entry by the norm 5 of the vector instead of its own modulus.
(`Scaled` does not forward `component_inner`.) -/
theorem C98_counterexample_adam_euclidean :
    let h : AdamHyper := ⟨1, 0, 0, 0, 0, false, none⟩
    let g : Fin 2 → ℝ := ![3, 4]
    let inner : (Fin 2 → ℝ) → (Fin 2 → ℝ) → Fin 2 → ℝ := fun _ u _ => ∑ i, u i ^ 2
    (adamParam (Optim.euclidean (Fin 2)) h ⟨0, .dense g, none⟩).1.point = ![-1, -1] ∧
    (adamParam (scaled (Optim.euclidean (Fin 2)) inner 1) h ⟨0, .dense g, none⟩).1.point =
      ![-3 / 5, -4 / 5] := by
  have h25 : Real.sqrt 25 = 5 := by
    rw [show (25 : ℝ) = 5 ^ 2 by norm_num, Real.sqrt_sq (by norm_num)]
  have h9 : Real.sqrt 9 = 3 := by
    rw [show (9 : ℝ) = 3 ^ 2 by norm_num, Real.sqrt_sq (by norm_num)]
  have h16 : Real.sqrt 16 = 4 := by
    rw [show (16 : ℝ) = 4 ^ 2 by norm_num, Real.sqrt_sq (by norm_num)]
  constructor
  · funext i
    fin_cases i <;> simp [adamParam, Optim.euclidean, adamInit, adamDirection]
  · funext i
    fin_cases i <;>
      norm_num [adamParam, scaled, Optim.euclidean, adamInit, adamDirection, Fin.sum_univ_two, h25]

/-- The same for a product of two lines: on the product each factor has its own denominator, on
`Scaled(product, 1)` the factors share one (`inner` of a product is the sum). -/
theorem C98_counterexample_adam_product :
    let h : AdamHyper := ⟨1, 0, 0, 0, 0, false, none⟩
    let M := product fun _ : Fin 2 => Optim.euclidean (Fin 1)
    let g : (Σ _ : Fin 2, Fin 1) → ℝ := fun p => if p.1 = 0 then 3 else 4
    let inner : ((Σ _ : Fin 2, Fin 1) → ℝ) → ((Σ _ : Fin 2, Fin 1) → ℝ) →
      (Σ _ : Fin 2, Fin 1) → ℝ := fun _ u _ => ∑ j, ∑ i, u ⟨j, i⟩ ^ 2
    (adamParam M h ⟨0, .dense g, none⟩).1.point ⟨0, 0⟩ = -1 ∧
    (adamParam (scaled M inner 1) h ⟨0, .dense g, none⟩).1.point ⟨0, 0⟩ = -3 / 5 := by
  have h25 : Real.sqrt 25 = 5 := by
    rw [show (25 : ℝ) = 5 ^ 2 by norm_num, Real.sqrt_sq (by norm_num)]
  constructor
  · norm_num [adamParam, Optim.euclidean, product, adamInit, adamDirection]
  · norm_num [adamParam, scaled, product, Optim.euclidean, adamInit, adamDirection, Fin.sum_univ_two, h25]

/-- **C98, gradients.** Along the curves of `Scaled(M, s).retr` the loss changes `s` times slower than
along those of `M.retr`.  So when `egrad2rgrad` and `inner` of `M` give the slope of the loss, those of
`Scaled(M, s)`, which are the same, give `s` times the slope. -/
theorem C98_slope {ι : Type} (M : Manifold ι) (inner : (ι → ℝ) → (ι → ℝ) → ι → ℝ) (s : ℝ)
    (F : (ι → ℝ) → ℝ) (x u : ι → ℝ) (D : ℝ)
    (h : HasDerivAt (fun t : ℝ => F (M.retr x (t • u))) D 0) :
    HasDerivAt (fun t : ℝ => F ((scaled M inner s).retr x (t • u))) (D / s) 0 := by
  have h2 : HasDerivAt (fun t : ℝ => s⁻¹ * t) s⁻¹ 0 := by
    simpa using (hasDerivAt_id (0 : ℝ)).const_mul s⁻¹
  have h3 := HasDerivAt.comp (h := fun t : ℝ => s⁻¹ * t) (h₂ := fun t : ℝ => F (M.retr x (t • u))) 0
    (by simpa using h) h2
  rw [div_eq_mul_inv]
  refine h3.congr_deriv rfl |>.congr_of_eventuallyEq (Filter.Eventually.of_forall fun t => ?_)
  simp [scaled, smul_smul]

/-- The Riemannian gradient of `Scaled(M, s)` is not the gradient for its own metric and retraction unless
`s = 1`: for a linear loss on the line, `inner(egrad2rgrad(g), u)` is `g u`, the slope along
`retr(x, t u)` is `g u / s`.  The line search, which uses this number as the slope, gets it wrong by the
factor `s`. -/
theorem C98_counterexample_gradient (s : ℝ) (hs : s ≠ 1) :
    let M := scaled (Optim.euclidean (Fin 1)) (fun _ u _ => u 0 ^ 2) s
    let F : (Fin 1 → ℝ) → ℝ := fun x => x 0
    let rgrad := (M.egrad2rgrad 0 1).value
    rgrad 0 * (1 : ℝ) = 1 ∧ ¬ HasDerivAt (fun t : ℝ => F (M.retr 0 (t • 1))) 1 0 := by
  refine ⟨by simp [scaled, Optim.euclidean], fun h => ?_⟩
  have h1 := C98_slope (Optim.euclidean (Fin 1)) (fun _ u _ => u 0 ^ 2) s (fun x => x 0) 0 1 1 (by
    simpa [Optim.euclidean] using hasDerivAt_id' (0 : ℝ))
  have := h.unique h1
  rcases eq_or_ne s 0 with rfl | h0
  · simp at this
  · field_simp at this
    exact hs this

end Geoopt.C98
