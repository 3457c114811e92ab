import Verif.Lemmas.OptimStep

/-!
# C57: on Euclidean parameters the optimisers are those of torch
-/

open Geoopt Geoopt.Optim

namespace C57

variable {κ : Type} [DecidableEq κ] {ι : κ → Type} {P : Params κ ι}

/-- The gradient with which `torch.optim.SGD` is called: it skips missing gradients like geoopt. -/
noncomputable def torchSGD? {ι : Type} (h : SGDHyper) (s : (ι → ℝ) × Option (ι → ℝ)) :
    Grad ι → (ι → ℝ) × Option (ι → ℝ)
  | .dense g => torchSGD h s g
  | _ => s

/-- The same for `torch.optim.Adam`. -/
noncomputable def torchAdam? {ι : Type} (h : AdamHyper) (s : TorchAdam ι) : Grad ι → TorchAdam ι
  | .dense g => torchAdam h s g
  | _ => s

theorem manifold_cases (P : Params κ ι) (a : κ) (hE : P.manifold a = euclidean (ι a)) :
    P.isManifold a = false ∨ P.man a = euclidean (ι a) := by
  unfold Params.manifold at hE
  split_ifs at hE with h
  · exact Or.inr hE
  · left; simpa using h

theorem sgdStab_euclidean (P : Params κ ι) (a : κ) (hE : P.manifold a = euclidean (ι a))
    (h : SGDHyper) (s : SGDParam (ι a)) : sgdStab (P.isManifold a) (P.man a) h s = s := by
  rcases manifold_cases P a hE with h1 | h1
  · rw [h1]; rfl
  · rw [h1]
    unfold sgdStab
    split_ifs
    · rfl
    · obtain ⟨x, g, b⟩ := s
      cases b <;> rfl
    · rfl

theorem adamStab_euclidean (P : Params κ ι) (a : κ) (hE : P.manifold a = euclidean (ι a))
    (s : AdamParam (ι a)) : adamStab (P.isManifold a) (P.man a) s = s := by
  rcases manifold_cases P a hE with h1 | h1
  · rw [h1]; rfl
  · rw [h1]
    unfold adamStab
    split_ifs
    · rfl
    · obtain ⟨x, g, st⟩ := s
      cases st <;> rfl

theorem sgdParam_euclidean {ι : Type} (h : SGDHyper) (hm : 0 ≤ h.momentum) (s : SGDParam ι)
    (hok : (sgdParam (euclidean ι) h s).2.2 = none)
    (hfirst : h.momentum = 0 ∨ s.buf ≠ none ∨ (h.dampening = h.momentum ∧ h.weightDecay = 0)) :
    ((sgdParam (euclidean ι) h s).1.point, (sgdParam (euclidean ι) h s).1.buf) =
      torchSGD? h (s.point, s.buf) s.grad := by
  obtain ⟨x, g, b⟩ := s
  unfold sgdParam at *
  cases g with
  | none => rfl
  | sparse => cases hok
  | dense g =>
    unfold torchSGD? torchSGD
    dsimp only at hfirst ⊢
    by_cases hm0 : h.momentum = 0
    · have : ¬ 0 < h.momentum := by rw [hm0]; exact lt_irrefl _
      rw [if_neg this, if_pos hm0]
      cases b <;> simp only [euclidean, if_neg this, neg_smul, sub_eq_add_neg]
    · have hpos : 0 < h.momentum := lt_of_le_of_ne hm (Ne.symm hm0)
      rw [if_pos hpos, if_neg hm0]
      cases b with
      | some b =>
        simp only [euclidean, neg_smul, sub_eq_add_neg]
      | none =>
        rcases hfirst with h1 | h1 | ⟨h1, h2⟩
        · exact absurd h1 hm0
        · exact absurd rfl h1
        · have : h.momentum • g + (1 - h.dampening) • (g + h.weightDecay • x) =
              g + h.weightDecay • x := by
            rw [h1, h2]; funext i; simp only [Pi.add_apply, Pi.smul_apply, smul_eq_mul]; ring
          simp only [euclidean, if_pos hpos, this, neg_smul]
          simp only [sub_eq_add_neg]

/-- **C57 for RiemannianSGD.** On a parameter without manifold, or with the Euclidean one, every
history of gradients (including missing ones), hyper-parameters and stabilize settings gives the parameter
values and momentum buffers of `torch.optim.SGD`.  Excluded is only the step that creates the momentum buffer
(see `C57_counterexample_momentum`), unless dampening equals momentum and there is no weight decay. -/
theorem C57_sgd_partial (o : ℕ → SGD κ ι) (hr : SGDRun P o) (a : κ)
    (ha : P.manifold a = euclidean (ι a)) (G : ℕ → Group SGDHyper κ)
    (hG : ∀ t, G t ∈ (o t).groups ∧ a ∈ (G t).params) (hm : ∀ t, 0 ≤ (G t).hyper.momentum)
    (T : ℕ → (ι a → ℝ) × Option (ι a → ℝ))
    (hT0 : T 0 = (((o 0).par a).point, ((o 0).par a).buf))
    (hT : ∀ t, T (t + 1) = torchSGD? (G t).hyper (T t) ((o t).par a).grad)
    (hfirst : ∀ t, (G t).hyper.momentum = 0 ∨ (T t).2 ≠ none ∨
      ((G t).hyper.dampening = (G t).hyper.momentum ∧ (G t).hyper.weightDecay = 0)) :
    ∀ t, (((o t).par a).point, ((o t).par a).buf) = T t := by
  intro t
  induction t with
  | zero => exact hT0.symm
  | succ t ih =>
    obtain ⟨h1, h2⟩ := (sgdStep_ok P (o t) (hr.nodup t) (hr.ok t)).2 (G t) (hG t).1 a (hG t).2
    rw [sgdStab_euclidean P a ha, ite_self, ha] at h2
    rw [ha] at h1
    rw [(hr.next t a).1, (hr.next t a).2, h2, hT, ← ih]
    refine sgdParam_euclidean (G t).hyper (hm t) _ h1 ?_
    have := hfirst t
    rw [← ih] at this
    exact this

/-- Without momentum there is no exception: the parameter is that of `torch.optim.SGD`. -/
theorem C57_sgd_no_momentum (o : ℕ → SGD κ ι) (hr : SGDRun P o) (a : κ)
    (ha : P.manifold a = euclidean (ι a)) (G : ℕ → Group SGDHyper κ)
    (hG : ∀ t, G t ∈ (o t).groups ∧ a ∈ (G t).params) (hm : ∀ t, (G t).hyper.momentum = 0)
    (T : ℕ → (ι a → ℝ) × Option (ι a → ℝ))
    (hT0 : T 0 = (((o 0).par a).point, ((o 0).par a).buf))
    (hT : ∀ t, T (t + 1) = torchSGD? (G t).hyper (T t) ((o t).par a).grad) :
    ∀ t, ((o t).par a).point = (T t).1 := fun t =>
  congrArg Prod.fst (C57_sgd_partial o hr a ha G hG (fun t => (hm t).ge) T hT0 hT
    (fun t => Or.inl (hm t)) t)

/-- **C57 fails for the first step with momentum**: with momentum `1/2`, learning rate 1 and gradient 1
at 0, `torch.optim.SGD` moves to `-1` and `RiemannianSGD` to `-3/2`. -/
theorem C57_counterexample_momentum :
    let h : SGDHyper := ⟨1, 1 / 2, 0, 0, false, none⟩
    let P : Params Unit fun _ => Unit := ⟨fun _ => false, fun _ => euclidean Unit⟩
    let o : SGD Unit fun _ => Unit := ⟨fun _ => ⟨fun _ => 0, .dense fun _ => 1, none⟩, [⟨h, 0, [()]⟩]⟩
    (sgdStep P o).2 = none ∧
    ((sgdStep P o).1.par ()).point = (fun _ => -3 / 2) ∧
    (torchSGD h ((fun _ => 0 : Unit → ℝ), none) fun _ => 1).1 = fun _ => -1 := by
  intro h P o
  have hm : (0 : ℝ) < h.momentum := by norm_num [h]
  have e1 : sgdParam (P.manifold ()) h (o.par ()) =
      (⟨fun _ => -3 / 2, .dense fun _ => 1, some fun _ => 3 / 2⟩, false, none) := by
    simp only [sgdParam, o, Params.manifold, P, euclidean, if_pos hm, Bool.false_eq_true, if_false]
    simp only [h]
    congr 2
    · funext i
      norm_num
    · norm_num
    · congr 1
      funext i; norm_num
  have e2 : sgdStep P o = (⟨Function.update o.par () ⟨fun _ => -3 / 2, .dense fun _ => 1,
      some fun _ => 3 / 2⟩, [⟨h, 1, [()]⟩]⟩, none) := by
    simp only [sgdStep, o, forGroups, sgdGroup, counterGroup, forParams]
    have := e1
    simp only [o] at this
    rw [this]
  rw [e2]
  refine ⟨rfl, by simp, ?_⟩
  funext i
  simp [torchSGD, h]

/-- `RiemannianAdam`'s state of a parameter corresponds to torch's. -/
def Corresponds {ι : Type} (s : AdamParam ι) (T : TorchAdam ι) : Prop :=
  s.point = T.param ∧ match s.state with
    | none => T.step = 0 ∧ T.m = 0 ∧ T.v = 0 ∧ T.vmax = 0
    | some st => st.step = T.step ∧ st.expAvg = T.m ∧ st.expAvgSq = T.v ∧
        (st.maxExpAvgSq = none ∨ st.maxExpAvgSq = some T.vmax)

theorem direction_eq {ι : Type} (h : AdamHyper) (t : ℕ) (x m norm : ι → ℝ)
    (hb : 0 ≤ 1 - h.beta2 ^ t) :
    x + -h.lr • adamDirection h t m norm = fun i => x i - h.lr / (1 - h.beta1 ^ t) *
      (m i / (Real.sqrt (norm i) / Real.sqrt (1 - h.beta2 ^ t) + h.eps)) := by
  funext i
  simp only [Pi.add_apply, Pi.smul_apply, smul_eq_mul, adamDirection]
  rw [Real.sqrt_div' _ hb]
  ring

theorem adamParam_euclidean {ι : Type} (h : AdamHyper) (hb : 0 ≤ h.beta2 ∧ h.beta2 ≤ 1)
    (s : AdamParam ι) (hok : (adamParam (euclidean ι) h s).2.2 = none) (T : TorchAdam ι)
    (hc : Corresponds s T) :
    Corresponds (adamParam (euclidean ι) h s).1 (torchAdam? h T s.grad) := by
  have hb' : ∀ t, 0 ≤ 1 - h.beta2 ^ t := fun t => sub_nonneg.2 (pow_le_one₀ hb.1 hb.2)
  obtain ⟨x, g, st⟩ := s
  obtain ⟨hx, hst⟩ := hc
  dsimp only at hx hst
  subst hx
  unfold adamParam at *
  cases g with
  | none => exact ⟨rfl, hst⟩
  | sparse => cases hok
  | dense g =>
    dsimp only at hok ⊢
    obtain ⟨i1, i2, i3, i4⟩ : (adamInit h.amsgrad st).step = T.step ∧
        (adamInit h.amsgrad st).expAvg = T.m ∧ (adamInit h.amsgrad st).expAvgSq = T.v ∧
        ((adamInit h.amsgrad st).maxExpAvgSq = none ∨
          (adamInit h.amsgrad st).maxExpAvgSq = some T.vmax) := by
      cases st with
      | some st => exact hst
      | none =>
        obtain ⟨h1, h2, h3, h4⟩ := hst
        refine ⟨h1.symm, h2.symm, h3.symm, ?_⟩
        dsimp only [adamInit]
        split_ifs
        · right; rw [h4]
        · left; rfl
    generalize adamInit h.amsgrad st = st' at *
    obtain ⟨t, m, v, vm⟩ := st'
    dsimp only at i1 i2 i3 i4
    subst i1 i2 i3
    have ev : ∀ g' : ι → ℝ, (h.beta2 • T.v + (1 - h.beta2) • (euclidean ι).componentInner T.param g') =
        fun i => h.beta2 * T.v i + (1 - h.beta2) * g' i * g' i := by
      intro g'; funext i
      simp only [euclidean, Pi.add_apply, Pi.smul_apply, smul_eq_mul]; ring
    cases ham : h.amsgrad with
    | false =>
      unfold torchAdam? torchAdam
      dsimp only
      rw [ham]
      refine ⟨?_, ?_⟩
      · dsimp only
        simp only [euclidean] at ev ⊢
        rw [direction_eq _ _ _ _ _ (hb' _), ev]
        rfl
      · exact ⟨rfl, rfl, ev _, by simpa using i4⟩
    | true =>
      rcases i4 with i4 | i4
      · subst i4; rw [ham] at hok; cases hok
      · subst i4
        unfold torchAdam? torchAdam
        dsimp only
        rw [ham]
        refine ⟨?_, ?_⟩
        · dsimp only
          simp only [euclidean] at ev ⊢
          rw [direction_eq _ _ _ _ _ (hb' _), ev]
          rfl
        · exact ⟨rfl, rfl, ev _, by right; simp only [if_true]; rw [ev]; rfl⟩

/-- **C57 for RiemannianAdam.** On a Euclidean parameter every history of gradients and
hyper-parameters (with `betas` as the constructor accepts them) gives the parameter values of
`torch.optim.Adam` with the same options, including `amsgrad` and `weight_decay`. -/
theorem C57_adam (o : ℕ → Adam κ ι) (hr : AdamRun P o) (a : κ)
    (ha : P.manifold a = euclidean (ι a)) (G : ℕ → AdamHyper × List κ)
    (hG : ∀ t, G t ∈ (o t).groups ∧ a ∈ (G t).2) (hb : ∀ t, 0 ≤ (G t).1.beta2 ∧ (G t).1.beta2 < 1)
    (T : ℕ → TorchAdam (ι a)) (h0 : ((o 0).par a).state = none)
    (hT0 : T 0 = ⟨0, ((o 0).par a).point, 0, 0, 0⟩)
    (hT : ∀ t, T (t + 1) = torchAdam? (G t).1 (T t) ((o t).par a).grad) :
    ∀ t, ((o t).par a).point = (T t).param := by
  suffices ∀ t, Corresponds ((o t).par a) (T t) from fun t => (this t).1
  intro t
  induction t with
  | zero =>
    rw [hT0]
    refine ⟨rfl, ?_⟩
    rw [h0]
    exact ⟨rfl, rfl, rfl, rfl⟩
  | succ t ih =>
    obtain ⟨h1, h2⟩ := (adamStep_ok P (o t) (hr.nodup t) (hr.ok t)).2 (G t) (hG t).1 a (hG t).2
    rw [adamStab_euclidean P a ha, ite_self, ha] at h2
    rw [ha] at h1
    have := adamParam_euclidean (G t).1 ⟨(hb t).1, (hb t).2.le⟩ _ h1 _ ih
    unfold Corresponds at *
    rw [(hr.next t a).1, (hr.next t a).2, h2, hT]
    exact this

/-- A history meeting the hypotheses: one plain parameter with a fresh gradient `t + 1` at every
step. -/
example : ∃ o : ℕ → Adam Unit fun _ => Fin 2,
    AdamRun (⟨fun _ => false, fun _ => euclidean _⟩ : Params Unit fun _ => Fin 2) o ∧
    (∀ t, ((o t).par ()).grad = .dense fun _ => (t : ℝ) + 1) ∧ ((o 0).par ()).state = none ∧
    ∀ t, (o t).groups = [(⟨1 / 10, 9 / 10, 99 / 100, 1 / 100, 0, false, none⟩, [()])] := by
  let P : Params Unit fun _ => Fin 2 := ⟨fun _ => false, fun _ => euclidean _⟩
  let Gs : List (AdamHyper × List Unit) := [(⟨1 / 10, 9 / 10, 99 / 100, 1 / 100, 0, false, none⟩, [()])]
  let o : ℕ → Adam Unit fun _ => Fin 2 := fun t => Nat.rec
    ⟨fun _ => ⟨0, .dense fun _ => ((0 : ℕ) : ℝ) + 1, none⟩, Gs⟩
    (fun t o => ⟨fun a => { (adamStep P o).1.par a with grad := .dense fun _ => ((t + 1 : ℕ) : ℝ) + 1 },
      Gs⟩) t
  have hg : ∀ t, (o t).groups = Gs := fun t => by cases t <;> rfl
  have hgr : ∀ t, ((o t).par ()).grad = .dense fun _ => (t : ℝ) + 1 := fun t => by cases t <;> rfl
  refine ⟨o, ⟨fun t => ?_, fun t => ?_, fun t a => ⟨rfl, rfl⟩⟩, hgr, rfl, hg⟩
  · rw [hg]; simp [Gs]
  · have h1 := hgr t
    have h2 := hg t
    generalize o t = o' at h1 h2
    unfold adamStep
    rw [h2]
    simp only [Gs, forGroups, adamGroup, flagGroup, forParams, adamParam, h1, adamFlag]
    rfl

end C57
