import Verif.Lemmas.Optim

/-!
# C55, C56: the optimisers keep parameters on their manifolds
-/

open Geoopt Geoopt.Optim

namespace C55

variable {κ : Type} [DecidableEq κ] {ι : κ → Type} {P : Params κ ι}

/-- The parameter is on its manifold and, if it is used with momentum, its momentum is tangent. -/
def SGDOk {ι : Type} {M : Manifold ι} (geo : Geometry M) (mom : Bool) (s : SGDParam ι) : Prop :=
  geo.On s.point ∧ (mom = true → ∀ b, s.buf = some b → b ∈ geo.Tan s.point)

/-- What the first step with momentum needs: the raw gradient is stored in the momentum buffer, so it
has to be a tangent vector. -/
def FirstOk {ι : Type} {M : Manifold ι} (geo : Geometry M) (mom : Bool) (s : SGDParam ι) : Prop :=
  mom = true → s.buf = none → ∀ g, s.grad = .dense g → g ∈ geo.Tan s.point

theorem sgdParam_ok {ι : Type} {M : Manifold ι} (geo : Geometry M) (mom : Bool) (h : SGDHyper)
    (hmom : 0 < h.momentum ↔ mom = true) (s : SGDParam ι) (hs : SGDOk geo mom s)
    (hf : FirstOk geo mom s) : SGDOk geo mom (sgdParam M h s).1 := by
  unfold sgdParam
  cases hg : s.grad with
  | none => exact hs
  | sparse => exact hs
  | dense g =>
    have he := geo.egrad (g + h.weightDecay • s.point) hs.1
    dsimp only
    by_cases hm : 0 < h.momentum
    · rw [if_pos hm]
      have hm' := hmom.1 hm
      have main : ∀ b0 ∈ geo.Tan s.point, ∀ r : ι → ℝ, r ∈ geo.Tan s.point → ∀ (gb : ι → ℝ),
          SGDOk geo mom ⟨(M.retrTransp s.point (-h.lr • if h.nesterov = true then
              r + h.momentum • (h.momentum • b0 + (1 - h.dampening) • r)
            else h.momentum • b0 + (1 - h.dampening) • r)
            (h.momentum • b0 + (1 - h.dampening) • r)).1, .dense gb,
            some (M.retrTransp s.point (-h.lr • if h.nesterov = true then
              r + h.momentum • (h.momentum • b0 + (1 - h.dampening) • r)
            else h.momentum • b0 + (1 - h.dampening) • r)
            (h.momentum • b0 + (1 - h.dampening) • r)).2⟩ := by
        intro b0 hb0 r he gb
        have hb : h.momentum • b0 + (1 - h.dampening) • r ∈ geo.Tan s.point :=
          (geo.Tan _).add_mem ((geo.Tan _).smul_mem _ hb0) ((geo.Tan _).smul_mem _ he)
        have hd : (if h.nesterov = true then
              r + h.momentum • (h.momentum • b0 + (1 - h.dampening) • r)
            else h.momentum • b0 + (1 - h.dampening) • r) ∈ geo.Tan s.point := by
          split_ifs
          · exact (geo.Tan _).add_mem he ((geo.Tan _).smul_mem _ hb)
          · exact hb
        have hu := (geo.Tan _).smul_mem (-h.lr) hd
        refine ⟨geo.retrTransp_on _ hs.1 hu, ?_⟩
        rintro - b ⟨⟩
        exact geo.retrTransp_tan hs.1 hu hb
      cases hbuf : s.buf with
      | none =>
        simp only [if_pos hm]
        exact main g (hf hm' hbuf g hg) _ he _
      | some b => exact main b (hs.2 hm' b hbuf) _ he _
    · rw [if_neg hm]
      refine ⟨geo.retr hs.1 ((geo.Tan _).smul_mem _ he), fun h1 => absurd (hmom.2 h1) hm⟩

theorem sgdStab_ok {ι : Type} {M : Manifold ι} (geo : Geometry M) (mom isM : Bool) (h : SGDHyper)
    (s : SGDParam ι) (hs : SGDOk geo mom s) : SGDOk geo mom (sgdStab isM M h s) := by
  unfold sgdStab
  split_ifs with h1 h2
  · exact hs
  · dsimp only
    rw [geo.projx hs.1]
    refine ⟨hs.1, fun _ b hb => ?_⟩
    simp only [Option.map_eq_some_iff] at hb
    obtain ⟨c, -, rfl⟩ := hb
    exact geo.proju _ hs.1
  · dsimp only
    rw [geo.projx hs.1]
    exact hs

theorem manifold_of {a : κ} (h : P.isManifold a = true) : P.manifold a = P.man a := by
  unfold Params.manifold; rw [if_pos h]

theorem sgdStab_ok' (geo : ∀ a, Geometry (P.manifold a)) (mom : κ → Bool) (h : SGDHyper) (a : κ)
    (s : SGDParam (ι a)) (hs : SGDOk (geo a) (mom a) s) :
    SGDOk (geo a) (mom a) (sgdStab (P.isManifold a) (P.man a) h s) := by
  cases hM : P.isManifold a with
  | false => exact hs
  | true =>
    rw [← manifold_of hM]
    exact sgdStab_ok (geo a) (mom a) true h s hs

/-- The condition for a step: no parameter twice (torch refuses this), momentum is used for the same
parameters throughout, and the first gradient of a parameter with momentum is tangent. -/
def Allowed (geo : ∀ a, Geometry (P.manifold a)) (mom : κ → Bool) (o : SGD κ ι) : Prop :=
  (o.groups.flatMap Group.params).Nodup ∧
  ∀ G ∈ o.groups, ∀ a ∈ G.params, (0 < G.hyper.momentum ↔ mom a = true) ∧
    FirstOk (geo a) (mom a) (o.par a)

theorem sgdGroup_ok (geo : ∀ a, Geometry (P.manifold a)) (mom : κ → Bool)
    (w : ∀ a, SGDParam (ι a)) (G : Group SGDHyper κ) (hn : G.params.Nodup)
    (hG : ∀ a ∈ G.params, (0 < G.hyper.momentum ↔ mom a = true) ∧ FirstOk (geo a) (mom a) (w a))
    (hw : ∀ a, SGDOk (geo a) (mom a) (w a)) :
    (∀ a, SGDOk (geo a) (mom a) ((sgdGroup P w G).1 a)) ∧
    ∀ a, a ∉ G.params → (sgdGroup P w G).1 a = w a := by
  have h1 := forParams_inv (fun a => sgdParam (P.manifold a) G.hyper)
    (fun a => SGDOk (geo a) (mom a)) (fun a => FirstOk (geo a) (mom a)) G.params hn
    (fun a ha s hs hf => sgdParam_ok (geo a) (mom a) G.hyper (hG a ha).1 s hs hf) w hw
    (fun a ha => (hG a ha).2)
  have h2 : ∀ b, b ∉ G.params → (forParams (fun a => sgdParam (P.manifold a) G.hyper) G.params w).1 b
      = w b := fun b hb => forParams_of_notMem _ G.params b hb w
  unfold sgdGroup counterGroup
  rcases hf : forParams (fun a => sgdParam (P.manifold a) G.hyper) G.params w with ⟨w', b, e⟩
  rw [hf] at h1 h2
  cases e with
  | some e => exact ⟨h1, h2⟩
  | none =>
    dsimp only
    cases G.hyper.stabilize with
    | none => exact ⟨h1, h2⟩
    | some k =>
      dsimp only
      rcases isMultiple (G.step + 1) k with e | b
      · exact ⟨h1, h2⟩
      · cases b with
        | false => exact ⟨h1, h2⟩
        | true =>
          refine ⟨stabParams_inv _ (fun a => SGDOk (geo a) (mom a)) G.params
            (fun a _ s hs => sgdStab_ok' geo mom G.hyper a s hs) w' h1, fun a ha => ?_⟩
          dsimp only at h2 ⊢
          rw [stabParams_of_notMem _ G.params a ha, h2 a ha]

theorem sgdGroups_ok (geo : ∀ a, Geometry (P.manifold a)) (mom : κ → Bool)
    (Gs : List (Group SGDHyper κ)) (w : ∀ a, SGDParam (ι a))
    (hn : (Gs.flatMap Group.params).Nodup)
    (hG : ∀ G ∈ Gs, ∀ a ∈ G.params,
      (0 < G.hyper.momentum ↔ mom a = true) ∧ FirstOk (geo a) (mom a) (w a))
    (hw : ∀ a, SGDOk (geo a) (mom a) (w a)) :
    ∀ a, SGDOk (geo a) (mom a) ((forGroups (sgdGroup P) Gs w).1 a) := by
  induction Gs generalizing w with
  | nil => exact hw
  | cons G Gs ih =>
    rw [List.flatMap_cons, List.nodup_append] at hn
    obtain ⟨h1, h2⟩ := sgdGroup_ok geo mom w G hn.1 (hG G (by simp)) hw
    rw [forGroups]
    rcases hg : sgdGroup P w G with ⟨w', G', e⟩
    rw [hg] at h1 h2
    cases e with
    | some e => exact h1
    | none =>
      refine ih w' hn.2.1 (fun G2 hG2 a ha => ?_) h1
      have hna : a ∉ G.params := fun hc =>
        hn.2.2 a hc a (List.mem_flatMap.2 ⟨G2, hG2, ha⟩) rfl
      dsimp only at h2
      rw [h2 a hna]
      exact hG G2 (by simp [hG2]) a ha

/-- **C55 (with its condition).** Starting on the manifolds with fresh state, whatever gradients,
learning rates, weight decay, dampening, Nesterov and stabilize settings are used in whatever order, and
whether or not steps fail with an exception, every parameter is on its manifold after every prefix of the
history.  The condition (in `Allowed`) concerns momentum only: the raw gradient that `step()` stores as
first momentum must be tangent.  It is void without momentum. -/
theorem C55_sgd_partial (geo : ∀ a, Geometry (P.manifold a)) (mom : κ → Bool) (o₀ o : SGD κ ι)
    (h0 : ∀ a, (geo a).On (o₀.par a).point ∧ (o₀.par a).buf = none)
    (hr : SGDReach P (Allowed geo mom) o₀ o) :
    ∀ a, (geo a).On (o.par a).point ∧
      (mom a = true → ∀ b, (o.par a).buf = some b → b ∈ (geo a).Tan (o.par a).point) := by
  change ∀ a, SGDOk (geo a) (mom a) (o.par a)
  induction hr with
  | start =>
    intro a
    refine ⟨(h0 a).1, fun _ b hb => ?_⟩
    rw [(h0 a).2] at hb; cases hb
  | user _ h ih =>
    intro a
    obtain ⟨h1, h2⟩ := ih a
    refine ⟨by rw [(h a).1]; exact h1, fun hm b hb => ?_⟩
    rw [(h a).1]
    rw [(h a).2] at hb
    exact h2 hm b hb
  | @step o' _ h ih => exact sgdGroups_ok geo mom o'.groups o'.par h.1 h.2 ih
  | @stabilize o' _ ih =>
    have key : ∀ (Gs : List (Group SGDHyper κ)) (w : ∀ a, SGDParam (ι a)),
        (∀ a, SGDOk (geo a) (mom a) (w a)) → ∀ a, SGDOk (geo a) (mom a) (Gs.foldl (fun w G =>
          stabParams (fun a => sgdStab (P.isManifold a) (P.man a) G.hyper) G.params w) w a) := by
      intro Gs
      induction Gs with
      | nil => intro w hw; exact hw
      | cons G Gs ihG =>
        intro w hw
        exact ihG _ (stabParams_inv _ (fun a => SGDOk (geo a) (mom a)) G.params
          (fun a _ s hs => sgdStab_ok' geo mom G.hyper a s hs) w hw)
    exact key o'.groups o'.par ih

/-- **C55 without momentum**: no condition on the gradients at all. -/
theorem C55_sgd_no_momentum (geo : ∀ a, Geometry (P.manifold a)) (o₀ o : SGD κ ι)
    (h0 : ∀ a, (geo a).On (o₀.par a).point ∧ (o₀.par a).buf = none)
    (hr : SGDReach P (fun o => (o.groups.flatMap Group.params).Nodup ∧
      ∀ G ∈ o.groups, G.hyper.momentum = 0) o₀ o) :
    ∀ a, (geo a).On (o.par a).point := by
  have : SGDReach P (Allowed geo fun _ => false) o₀ o := by
    induction hr with
    | start => exact .start
    | user _ h ih => exact .user ih h
    | step _ h ih =>
      refine .step ih ⟨h.1, fun G hG a _ => ⟨?_, fun h => by cases h⟩⟩
      rw [h.2 G hG]; simp
    | stabilize _ ih => exact .stabilize ih
  exact fun a => (C55_sgd_partial geo _ o₀ o h0 this a).1

/-- **C55 with momentum** on manifolds whose retraction accepts every vector (Euclidean space, the
Poincare ball, the hyperboloid with its projecting `retr`): no condition on the gradients. -/
theorem C55_sgd_open (geo : ∀ a, Geometry (P.manifold a)) (hT : ∀ a x, (geo a).Tan x = ⊤)
    (mom : κ → Bool) (o₀ o : SGD κ ι)
    (h0 : ∀ a, (geo a).On (o₀.par a).point ∧ (o₀.par a).buf = none)
    (hr : SGDReach P (fun o => (o.groups.flatMap Group.params).Nodup ∧
      ∀ G ∈ o.groups, ∀ a ∈ G.params, (0 < G.hyper.momentum ↔ mom a = true)) o₀ o) :
    ∀ a, (geo a).On (o.par a).point := by
  have : SGDReach P (Allowed geo mom) o₀ o := by
    induction hr with
    | start => exact .start
    | user _ h ih => exact .user ih h
    | step _ h ih =>
      refine .step ih ⟨h.1, fun G hG a ha => ⟨h.2 G hG a ha, fun _ _ g _ => ?_⟩⟩
      rw [hT]; trivial
    | stabilize _ ih => exact .stabilize ih
  exact fun a => (C55_sgd_partial geo _ o₀ o h0 this a).1

/-! ## RiemannianAdam -/

/-- The parameter is on its manifold, its first moment is tangent, its second moments have one value per
element of the manifold. -/
def AdamOk {ι : Type} {M : Manifold ι} (geo : Geometry M) (s : AdamParam ι) : Prop :=
  geo.On s.point ∧ ∀ st, s.state = some st → st.expAvg ∈ geo.Tan s.point ∧
    (∀ i j, geo.block i j → st.expAvgSq i = st.expAvgSq j) ∧
    ∀ vm, st.maxExpAvgSq = some vm → ∀ i j, geo.block i j → vm i = vm j

theorem adamParam_ok {ι : Type} {M : Manifold ι} (geo : Geometry M) (h : AdamHyper)
    (s : AdamParam ι) (hs : AdamOk geo s) : AdamOk geo (adamParam M h s).1 := by
  unfold adamParam
  cases hg : s.grad with
  | none => exact hs
  | sparse => exact hs
  | dense g =>
    dsimp only
    obtain ⟨hm0, hv0, hvm0⟩ : (adamInit h.amsgrad s.state).expAvg ∈ geo.Tan s.point ∧
        (∀ i j, geo.block i j → (adamInit h.amsgrad s.state).expAvgSq i =
          (adamInit h.amsgrad s.state).expAvgSq j) ∧
        ∀ vm, (adamInit h.amsgrad s.state).maxExpAvgSq = some vm →
          ∀ i j, geo.block i j → vm i = vm j := by
      cases hst : s.state with
      | some st => exact hs.2 st hst
      | none =>
        refine ⟨(geo.Tan _).zero_mem, fun _ _ _ => rfl, fun vm hvm i j _ => ?_⟩
        dsimp only [adamInit] at hvm
        split_ifs at hvm
        cases hvm
        rfl
    generalize adamInit h.amsgrad s.state = st at hm0 hv0 hvm0 ⊢
    have he := geo.egrad (g + h.weightDecay • s.point) hs.1
    generalize M.egrad2rgrad s.point (g + h.weightDecay • s.point) = r at he ⊢
    have hmt : h.beta1 • st.expAvg + (1 - h.beta1) • r.value ∈ geo.Tan s.point :=
      (geo.Tan _).add_mem ((geo.Tan _).smul_mem _ hm0) ((geo.Tan _).smul_mem _ he)
    have hvb : ∀ i j, geo.block i j →
        (h.beta2 • st.expAvgSq + (1 - h.beta2) • M.componentInner s.point r.value) i =
        (h.beta2 • st.expAvgSq + (1 - h.beta2) • M.componentInner s.point r.value) j := by
      intro i j hij
      simp only [Pi.add_apply, Pi.smul_apply, smul_eq_mul]
      rw [hv0 i j hij, geo.component _ _ i j hij]
    generalize h.beta1 • st.expAvg + (1 - h.beta1) • r.value = m at hmt ⊢
    generalize h.beta2 • st.expAvgSq + (1 - h.beta2) • M.componentInner s.point r.value = v
      at hvb ⊢
    have fin : ∀ (vm : Option (ι → ℝ)) (norm : ι → ℝ), (∀ i j, geo.block i j → norm i = norm j) →
        (∀ w, vm = some w → ∀ i j, geo.block i j → w i = w j) →
        AdamOk geo ⟨(M.retrTransp s.point (-h.lr • adamDirection h (st.step + 1) m norm) m).1,
          .dense r.arg, some ⟨st.step + 1,
          (M.retrTransp s.point (-h.lr • adamDirection h (st.step + 1) m norm) m).2, v, vm⟩⟩ := by
      intro vm norm hnorm hvm
      have hd : adamDirection h (st.step + 1) m norm ∈ geo.Tan s.point := by
        have := geo.scale (fun i => ((1 - h.beta1 ^ (st.step + 1)))⁻¹ *
          (Real.sqrt (norm i / (1 - h.beta2 ^ (st.step + 1))) + h.eps)⁻¹)
          (fun i j hij => by simp only [hnorm i j hij]) hmt
        convert this using 1
        funext i
        simp only [adamDirection]
        rw [div_eq_mul_inv, div_eq_mul_inv]
        ring
      have hu := (geo.Tan _).smul_mem (-h.lr) hd
      refine ⟨geo.retrTransp_on _ hs.1 hu, ?_⟩
      rintro st' ⟨⟩
      exact ⟨geo.retrTransp_tan hs.1 hu hmt, hvb, hvm⟩
    cases h.amsgrad with
    | false => exact fin st.maxExpAvgSq v hvb hvm0
    | true =>
      cases hvm : st.maxExpAvgSq with
      | none =>
        refine ⟨hs.1, ?_⟩
        rintro st' ⟨⟩
        exact ⟨hmt, hvb, fun vm h => by cases h⟩
      | some vm =>
        have hmax : ∀ i j, geo.block i j → max (vm i) (v i) = max (vm j) (v j) := fun i j hij => by
          rw [hvm0 vm hvm i j hij, hvb i j hij]
        refine fin (some fun i => max (vm i) (v i)) (fun i => max (vm i) (v i)) hmax ?_
        rintro w ⟨⟩
        exact hmax

theorem adamStab_ok (geo : ∀ a, Geometry (P.manifold a)) (a : κ) (s : AdamParam (ι a))
    (hs : AdamOk (geo a) s) : AdamOk (geo a) (adamStab (P.isManifold a) (P.man a) s) := by
  cases hM : P.isManifold a with
  | false => exact hs
  | true =>
    rw [← manifold_of hM]
    unfold adamStab
    simp only [Bool.true_eq_false, if_false]
    cases hst : s.state with
    | none => exact hs
    | some st =>
      dsimp only
      rw [(geo a).projx hs.1]
      refine ⟨hs.1, ?_⟩
      rintro st' ⟨⟩
      exact ⟨(geo a).proju _ hs.1, (hs.2 st hst).2⟩

theorem adamGroups_ok (geo : ∀ a, Geometry (P.manifold a)) (Gs : List (AdamHyper × List κ))
    (w : ∀ a, AdamParam (ι a)) (hw : ∀ a, AdamOk (geo a) (w a)) :
    ∀ a, AdamOk (geo a) ((forGroups (adamGroup P) Gs w).1 a) := by
  induction Gs generalizing w with
  | nil => exact hw
  | cons G Gs ih =>
    have h1 := forParams_inv' (fun a => adamParam (P.manifold a) G.1) (fun a => AdamOk (geo a)) G.2
      (fun a _ s hs => adamParam_ok (geo a) G.1 s hs) w hw
    have h2 : ∀ a, AdamOk (geo a) ((adamGroup P w G).1 a) := by
      unfold adamGroup flagGroup
      rcases hf : forParams (fun a => adamParam (P.manifold a) G.1) G.2 w with ⟨w', b, e⟩
      rw [hf] at h1
      cases e with
      | some e => exact h1
      | none =>
        dsimp only
        split_ifs
        · exact stabParams_inv _ (fun a => AdamOk (geo a)) G.2
            (fun a _ s hs => adamStab_ok geo a s hs) w' h1
        · exact h1
    rw [forGroups]
    rcases hg : adamGroup P w G with ⟨w', G', e⟩
    rw [hg] at h2
    cases e with
    | some e => exact h2
    | none => exact ih w' h2

/-- **C56.** Starting on the manifolds with fresh state, for every history of gradients,
hyper-parameters, groups, `stabilize()` calls and failing steps, every parameter under `RiemannianAdam` is
on its manifold and its first moment `exp_avg` is tangent there. -/
theorem C56_adam (geo : ∀ a, Geometry (P.manifold a)) (o₀ o : Adam κ ι)
    (h0 : ∀ a, (geo a).On (o₀.par a).point ∧ (o₀.par a).state = none) (hr : AdamReach P o₀ o) :
    ∀ a, (geo a).On (o.par a).point ∧
      ∀ st, (o.par a).state = some st → st.expAvg ∈ (geo a).Tan (o.par a).point := by
  have : ∀ a, AdamOk (geo a) (o.par a) := by
    induction hr with
    | start =>
      intro a
      refine ⟨(h0 a).1, fun st hst => ?_⟩
      rw [(h0 a).2] at hst; cases hst
    | user _ h ih =>
      intro a
      obtain ⟨h1, h2⟩ := ih a
      refine ⟨by rw [(h a).1]; exact h1, fun st hst => ?_⟩
      rw [(h a).1]
      rw [(h a).2] at hst
      exact h2 st hst
    | @step o' _ ih => exact adamGroups_ok geo o'.groups o'.par ih
    | @stabilize o' _ ih =>
      have key : ∀ (Gs : List (AdamHyper × List κ)) (w : ∀ a, AdamParam (ι a)),
          (∀ a, AdamOk (geo a) (w a)) → ∀ a, AdamOk (geo a) (Gs.foldl (fun w G =>
            stabParams (fun a => adamStab (P.isManifold a) (P.man a)) G.2 w) w a) := by
        intro Gs
        induction Gs with
        | nil => intro w hw; exact hw
        | cons G Gs ihG =>
          intro w hw
          exact ihG _ (stabParams_inv _ (fun a => AdamOk (geo a)) G.2
            (fun a _ s hs => adamStab_ok geo a s hs) w hw)
      exact key o'.groups o'.par ih
  exact fun a => ⟨(this a).1, fun st hst => ((this a).2 st hst).1⟩

end C55
