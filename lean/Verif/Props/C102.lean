import Verif.Props.C99Cx
import Verif.Props.C100Cx
import Verif.Props.C101
import Verif.Props.C31Aim

/-!
# C102: training does not drift further than the learning rates allow
-/

namespace Geoopt.C102
open Geoopt Geoopt.Optim C55 C99

section Param
variable {ι : Type} {M : Manifold ι} {geo : Geometry M}

/-- `stabilize` does not matter for what the loop body does to the parameter. -/
theorem adamParam_stabilize (h : AdamHyper) (s : AdamParam ι) :
    (adamParam M h s).1 = (adamParam M { h with stabilize := none } s).1 := by
  unfold adamParam
  cases s.grad with
  | none => rfl
  | sparse => rfl
  | dense g =>
    dsimp only
    cases h.amsgrad with
    | false => rfl
    | true => cases (adamInit true s.state).maxExpAvgSq <;> rfl

/-- The loop body does not touch a parameter without gradient, and counts the others. -/
theorem adamParam_steps (h : AdamHyper) (s : AdamParam ι) :
    (adamParam M h s).1 = s ∨ ∃ g, s.grad = .dense g ∧
      (adamParam M h s).1.steps = s.steps + 1 := by
  have hstep : s.steps = (adamInit h.amsgrad s.state).step := by
    unfold AdamParam.steps
    cases s.state <;> rfl
  rw [hstep]
  unfold adamParam
  cases s.grad with
  | none => exact .inl rfl
  | sparse => exact .inl rfl
  | dense g =>
    refine .inr ⟨g, rfl, ?_⟩
    dsimp only
    cases h.amsgrad with
    | false => rfl
    | true => cases (adamInit true s.state).maxExpAvgSq <;> rfl

/-- Without stabilisation an error leaves the point where it was. -/
theorem adamParam_error {h : AdamHyper} (hn : h.stabilize = none) (s : AdamParam ι) :
    (adamParam M h s).2.2 = none ∨ (adamParam M h s).1.point = s.point := by
  unfold adamParam
  cases s.grad with
  | none => exact .inl rfl
  | sparse => exact .inr rfl
  | dense g =>
    dsimp only
    cases h.amsgrad with
    | false => left; simp only [hn, adamFlag]
    | true =>
      cases (adamInit true s.state).maxExpAvgSq with
      | none => exact .inr rfl
      | some v => left; simp only [hn, adamFlag]

/-- How far the first `n` steps can move a parameter. -/
noncomputable def budget (β₁ β₂ L : ℝ) (n : ℕ) : ℝ :=
  L * ∑ t ∈ Finset.range n, adamFactor β₁ β₂ (t + 1)

theorem adamFactor_nonneg {β₁ β₂ : ℝ} (h1 : 0 ≤ β₁) (h1' : β₁ < 1) {t : ℕ} :
    0 ≤ adamFactor β₁ β₂ t :=
  div_nonneg (mul_nonneg (by linarith) (Real.sqrt_nonneg _)) (sub_nonneg.2 (pow_le_one₀ h1 h1'.le))

theorem adamParam_drift (hc : Contracting geo) {d : (ι → ℝ) → (ι → ℝ) → ℝ} (hd : StepDistance geo d)
    {h : AdamHyper} {β₁ β₂ L : ℝ} (e1 : h.beta1 = β₁) (e2 : h.beta2 = β₂) (h1 : 0 ≤ β₁) (h1' : β₁ < 1)
    (h2 : 0 < β₂) (h2' : β₂ < 1) (he : 0 < h.eps) (hL : |h.lr| ≤ L) {x₀ : ι → ℝ} (hx₀ : geo.On x₀)
    {s : AdamParam ι} (hs : Bounded geo β₁ β₂ s) (hb : d x₀ s.point ≤ budget β₁ β₂ L s.steps) :
    d x₀ (adamParam M h s).1.point ≤ budget β₁ β₂ L (adamParam M h s).1.steps := by
  rcases adamParam_steps (M := M) h s with e | ⟨g, hg, e⟩
  · rw [e]; exact hb
  · rw [e]
    have hf := adamFactor_nonneg h1 h1' (β₂ := β₂) (t := s.steps + 1)
    have hL0 : 0 ≤ L := le_trans (abs_nonneg _) hL
    have hsucc : budget β₁ β₂ L (s.steps + 1) =
        budget β₁ β₂ L s.steps + L * adamFactor β₁ β₂ (s.steps + 1) := by
      unfold budget; rw [Finset.sum_range_succ, mul_add]
    rw [hsucc, adamParam_stabilize]
    have hpos : 0 ≤ L * adamFactor β₁ β₂ (s.steps + 1) := mul_nonneg hL0 hf
    rcases adamParam_error (M := M) (h := { h with stabilize := none }) rfl s with ok | ok
    · obtain ⟨j1, j2⟩ := adamParam_bounded (h := { h with stabilize := none }) hc e1 e2 h1 h1' h2 h2' hs
      obtain ⟨u, hu, hpt, hlen⟩ := j2 he ok g hg
      have hon := geo.retr hs.1.1 hu
      have := hd.triangle hx₀ hs.1.1 hon
      rw [hpt]
      have h3 : d s.point (M.retr s.point u) ≤ |h.lr| * adamFactor β₁ β₂ (s.steps + 1) := by
        refine hd.step hs.1.1 hu (mul_nonneg (abs_nonneg _) hf) fun i => le_trans (hlen i) (le_of_eq ?_)
        rw [mul_pow, mul_pow, sq_abs]
      have h4 := mul_le_mul_of_nonneg_right hL hf
      linarith
    · rw [ok]; linarith

end Param

section History
variable {κ : Type} [DecidableEq κ] {ι : κ → Type} {P : Params κ ι}

/-- What every loop body and every stabilisation preserves, `step()` preserves. -/
theorem adamGroups_inv (Q : ∀ a, AdamParam (ι a) → Prop) (Gs : List (AdamHyper × List κ))
    (hstep : ∀ G ∈ Gs, ∀ a ∈ G.2, ∀ s, Q a s → Q a (adamParam (P.manifold a) G.1 s).1)
    (hstab : ∀ a s, Q a s → Q a (adamStab (P.isManifold a) (P.man a) s))
    (w : ∀ a, AdamParam (ι a)) (hw : ∀ a, Q a (w a)) :
    ∀ a, Q a ((forGroups (adamGroup P) Gs w).1 a) := by
  induction Gs generalizing w with
  | nil => exact hw
  | cons G Gs ih =>
    have h1 := forParams_inv' (fun a => adamParam (P.manifold a) G.1) Q G.2
      (fun a ha s hs => hstep G (by simp) a ha s hs) w hw
    have h2 : ∀ a, Q a ((adamGroup P w G).1 a) := by
      unfold adamGroup flagGroup
      rcases hf : forParams (fun a => adamParam (P.manifold a) G.1) G.2 w with ⟨w', b, e⟩
      rw [hf] at h1
      cases e with
      | some e => exact h1
      | none =>
        dsimp only
        split_ifs
        · exact stabParams_inv _ Q G.2 (fun a _ s hs => hstab a s hs) w' h1
        · exact h1
    rw [forGroups]
    rcases hg : adamGroup P w G with ⟨w', G', e⟩
    rw [hg] at h2
    cases e with
    | some e => exact h2
    | none => exact ih (fun G hG' => hstep G (List.mem_cons_of_mem _ hG')) w' h2

/-- The same along a history. -/
theorem reach_inv (Q : ∀ a, AdamParam (ι a) → Prop) {Allowed : Adam κ ι → Prop} {CanStab : Prop}
    (hu : ∀ a s s', s'.point = s.point → s'.state = s.state → Q a s → Q a s')
    (hstep : ∀ o, Allowed o → ∀ G ∈ o.groups, ∀ a ∈ G.2, ∀ s, Q a s →
      Q a (adamParam (P.manifold a) G.1 s).1)
    (hstab : ∀ a s, Q a s → Q a (adamStab (P.isManifold a) (P.man a) s))
    {o₀ o : Adam κ ι} (h0 : ∀ a, Q a (o₀.par a)) (hr : AdamReachIf P Allowed CanStab o₀ o) :
    ∀ a, Q a (o.par a) := by
  induction hr with
  | start => exact h0
  | user _ h ih => exact fun a => hu a _ _ (h a).1 (h a).2 (ih a)
  | @step o' _ hal ih => exact adamGroups_inv Q o'.groups (hstep o' hal) hstab o'.par ih
  | @stabilize o' _ hcan ih =>
    have key : ∀ (Gs : List (AdamHyper × List κ)) (w : ∀ a, AdamParam (ι a)), (∀ a, Q a (w a)) →
        ∀ a, Q a (Gs.foldl (fun w G =>
          stabParams (fun a => adamStab (P.isManifold a) (P.man a)) G.2 w) w a) := by
      intro Gs
      induction Gs with
      | nil => intro w hw; exact hw
      | cons G Gs ihG =>
        intro w hw
        exact ihG _ (stabParams_inv _ Q G.2 (fun a _ s hs => hstab a s hs) w hw)
    exact key o'.groups o'.par ih

theorem adamStab_steps (b : Bool) {ι : Type} (M : Manifold ι) (s : AdamParam ι) :
    (adamStab b M s).steps = s.steps := by
  unfold adamStab AdamParam.steps
  split_ifs
  · rfl
  · cases h : s.state <;> simp [h]

/-- **C102.** After any history of `RiemannianAdam` in which `betas` were fixed and the learning rates at
most `L` (gradients, weight decay, `amsgrad`, groups, `stabilize()`, periods and raising steps are free),
a parameter that has seen `n` steps is within `L · Σ_{t ≤ n} adamFactor t` of where it started. -/
theorem C102_adam (geo : ∀ a, Geometry (P.manifold a)) (hc : ∀ a, Contracting (geo a))
    (hp : ∀ a, ProjContracts (geo a)) {β₁ β₂ L : κ → ℝ}
    (hβ : ∀ a, 0 ≤ β₁ a ∧ β₁ a < 1 ∧ 0 < β₂ a ∧ β₂ a < 1) {o₀ o : Adam κ ι}
    (h0 : ∀ a, (geo a).On (o₀.par a).point ∧ (o₀.par a).state = none)
    (hr : AdamReachIf P (RatesBounded β₁ β₂ L) True o₀ o) {a : κ}
    {d : (ι a → ℝ) → (ι a → ℝ) → ℝ} (hd : StepDistance (geo a) d) :
    d (o₀.par a).point (o.par a).point ≤
      L a * ∑ t ∈ Finset.range (o.par a).steps, adamFactor (β₁ a) (β₂ a) (t + 1) := by
  have key := reach_inv (P := P) (CanStab := True)
    (fun b s => Bounded (geo b) (β₁ b) (β₂ b) s ∧ ∀ d, StepDistance (geo b) d →
      d (o₀.par b).point s.point ≤ budget (β₁ b) (β₂ b) (L b) s.steps)
    (fun b s s' e1 e2 ⟨⟨⟨p1, p2⟩, p3⟩, q⟩ => by
      refine ⟨⟨⟨by rw [e1]; exact p1, fun st hst => ?_⟩, fun st hst => ?_⟩, fun d hd => ?_⟩
      · rw [e1]; rw [e2] at hst; exact p2 st hst
      · rw [e1]; rw [e2] at hst; exact p3 st hst
      · have : s'.steps = s.steps := by unfold AdamParam.steps; rw [e2]
        rw [e1, this]; exact q d hd)
    (fun o' hal G hG b hb s ⟨hs, q⟩ => by
      obtain ⟨e1, e2⟩ := hal.1 G hG b hb
      obtain ⟨he, hL⟩ := hal.2 G hG b hb
      obtain ⟨b1, b2, b3, b4⟩ := hβ b
      exact ⟨(adamParam_bounded (hc b) e1 e2 b1 b2 b3 b4 hs).1, fun d hd =>
        adamParam_drift (hc b) hd e1 e2 b1 b2 b3 b4 he hL (h0 b).1 hs (q d hd)⟩)
    (fun b s ⟨hs, q⟩ => by
      refine ⟨adamStab_bounded geo hp (hβ b).2.2.1 (hβ b).2.2.2 b s hs, fun d hd => ?_⟩
      rw [adamStab_point geo b s hs.1.1, adamStab_steps]
      exact q d hd)
    (fun b => by
      refine ⟨⟨⟨(h0 b).1, fun st hst => ?_⟩, fun st hst => ?_⟩, fun d hd => ?_⟩
      · rw [(h0 b).2] at hst; cases hst
      · rw [(h0 b).2] at hst; cases hst
      · refine le_trans (hd.self (h0 b).1) (le_of_eq ?_)
        unfold AdamParam.steps budget
        rw [(h0 b).2]
        simp) hr
  exact (key a).2 d hd

/-- **C102, one bound per step.** If `β₁² < β₂`, a parameter that has seen `n` steps is within
`n · L / √((1 - β₂)(1 - β₁²/β₂))` of where it started. -/
theorem C102_linear (geo : ∀ a, Geometry (P.manifold a)) (hc : ∀ a, Contracting (geo a))
    (hp : ∀ a, ProjContracts (geo a)) {β₁ β₂ L : κ → ℝ}
    (hβ : ∀ a, 0 ≤ β₁ a ∧ β₁ a < 1 ∧ β₁ a ^ 2 < β₂ a ∧ β₂ a < 1) {o₀ o : Adam κ ι}
    (h0 : ∀ a, (geo a).On (o₀.par a).point ∧ (o₀.par a).state = none)
    (hr : AdamReachIf P (RatesBounded β₁ β₂ L) True o₀ o) {a : κ} (hL : 0 ≤ L a)
    {d : (ι a → ℝ) → (ι a → ℝ) → ℝ} (hd : StepDistance (geo a) d) :
    d (o₀.par a).point (o.par a).point ≤
      L a * ((o.par a).steps * (1 / Real.sqrt ((1 - β₂ a) * (1 - β₁ a ^ 2 / β₂ a)))) := by
  refine le_trans (C102_adam geo hc hp (fun a => ⟨(hβ a).1, (hβ a).2.1,
    lt_of_le_of_lt (sq_nonneg _) (hβ a).2.2.1, (hβ a).2.2.2⟩) h0 hr hd)
    (mul_le_mul_of_nonneg_left ?_ hL)
  obtain ⟨b1, b2, b3, b4⟩ := hβ a
  refine le_trans (Finset.sum_le_sum fun t _ => (C99_uniform b1 b2 b4 b3 (Nat.succ_ne_zero t)).2) ?_
  rw [Finset.sum_const, Finset.card_range, nsmul_eq_mul]

/-- **C102, default `betas`.** No further than `73 · lr` per step. -/
theorem C102_default (geo : ∀ a, Geometry (P.manifold a)) (hc : ∀ a, Contracting (geo a))
    (hp : ∀ a, ProjContracts (geo a)) {L : κ → ℝ} {o₀ o : Adam κ ι}
    (h0 : ∀ a, (geo a).On (o₀.par a).point ∧ (o₀.par a).state = none)
    (hr : AdamReachIf P (RatesBounded (fun _ => 0.9) (fun _ => 0.999) L) True o₀ o) {a : κ}
    (hL : 0 ≤ L a) {d : (ι a → ℝ) → (ι a → ℝ) → ℝ} (hd : StepDistance (geo a) d) :
    d (o₀.par a).point (o.par a).point ≤ 73 * L a * (o.par a).steps := by
  refine le_trans (C102_adam geo hc hp (fun a => by norm_num) h0 hr hd) ?_
  have : ∑ t ∈ Finset.range (o.par a).steps, adamFactor 0.9 0.999 (t + 1) ≤
      (o.par a).steps * 73 := by
    refine le_trans (Finset.sum_le_sum fun t _ => C99_default (Nat.succ_ne_zero t)) ?_
    rw [Finset.sum_const, Finset.card_range, nsmul_eq_mul]
  have := mul_le_mul_of_nonneg_left this hL
  linarith

theorem sgdStab_point (geo : ∀ a, Geometry (P.manifold a)) (h : SGDHyper) (a : κ) (s : SGDParam (ι a))
    (hs : (geo a).On s.point) : (sgdStab (P.isManifold a) (P.man a) h s).point = s.point := by
  cases hM : P.isManifold a with
  | false => rfl
  | true =>
    rw [← manifold_of hM]
    unfold sgdStab
    simp only [Bool.true_eq_false, if_false, (geo a).projx hs]
    split_ifs <;> rfl

/-- **C102 for `RiemannianSGD` (with the condition of C100 on the first gradient).** If at step `t` the
learning rate is at most `L t`, the momentum is `μ < 1` and Riemannian gradients are no longer than `Γ`,
a parameter is after `T` steps within `Σ_{t < T} L t · Γ / (1 - μ)` of where it started. -/
theorem C102_sgd_partial [∀ a, Nonempty (ι a)] (geo : ∀ a, Geometry (P.manifold a))
    (hc : ∀ a, Contracting (geo a)) (hp : ∀ a, ProjContracts (geo a)) {μ Γ : κ → ℝ}
    (hμ : ∀ a, 0 ≤ μ a ∧ μ a < 1) (hΓ : ∀ a, 0 ≤ Γ a) {o : ℕ → SGD κ ι} (hr : SGDRun P o)
    (h0 : ∀ a, (geo a).On ((o 0).par a).point ∧ ((o 0).par a).buf = none)
    (hb : ∀ t, GradientsBounded geo μ Γ (o t)) {L : ℕ → ℝ} {a : κ} (hL0 : ∀ t, 0 ≤ L t)
    (hL : ∀ t, ∀ G ∈ (o t).groups, a ∈ G.params → |G.hyper.lr| ≤ L t)
    {d : (ι a → ℝ) → (ι a → ℝ) → ℝ} (hd : StepDistance (geo a) d) (T : ℕ) :
    d ((o 0).par a).point ((o T).par a).point ≤
      (∑ t ∈ Finset.range T, L t) * (Γ a / (1 - μ a)) := by
  have hD : 0 ≤ Γ a / (1 - μ a) := div_nonneg (hΓ a) (by linarith [(hμ a).2])
  have reach : ∀ t, SGDReach P (GradientsBounded geo μ Γ) (o 0) (o t) := by
    intro t
    induction t with
    | zero => exact .start
    | succ t ih => exact .user (.step ih (hb t)) (hr.next t)
  have move : ∀ t, (geo a).On ((o t).par a).point →
      ((o (t + 1)).par a).point = ((o t).par a).point ∨
      ∃ u ∈ (geo a).Tan ((o t).par a).point,
        ((o (t + 1)).par a).point = (P.manifold a).retr ((o t).par a).point u ∧
        ∀ i, (P.manifold a).componentInner ((o t).par a).point u i ≤ (L t * (Γ a / (1 - μ a))) ^ 2 := by
    intro t hon
    rw [(hr.next t a).1]
    by_cases hmem : ∃ G ∈ (o t).groups, a ∈ G.params
    · obtain ⟨G, hG, ha⟩ := hmem
      obtain ⟨k1, k2⟩ := (sgdStep_ok (P := P) (o t) (hr.nodup t) (hr.ok t)).2 G hG a ha
      cases hg : ((o t).par a).grad with
      | none =>
        left
        have e : (sgdParam (P.manifold a) G.hyper ((o t).par a)).1 = (o t).par a := by
          unfold sgdParam; rw [hg]
        rw [k2, e]
        split_ifs
        · exact sgdStab_point geo _ a _ hon
        · rfl
      | sparse =>
        unfold sgdParam at k1
        rw [hg] at k1
        cases k1
      | dense g =>
        right
        obtain ⟨u, hu, hpt, hlen⟩ := C100.C100_sgd_partial geo hc hp hμ hΓ h0 (reach t) (hb t) (hr.ok t)
          hG ha hg
        refine ⟨u, hu, hpt, fun i => le_trans (hlen i) ?_⟩
        rw [mul_pow, mul_pow]
        refine mul_le_mul_of_nonneg_right ?_ (sq_nonneg _)
        rw [← sq_abs]
        exact pow_le_pow_left₀ (abs_nonneg _) (hL t G hG ha) 2
    · left
      rw [sgdStep_notMem P (o t) a fun G hG ha => hmem ⟨G, hG, ha⟩]
  have main : ∀ T, (geo a).On ((o T).par a).point ∧ d ((o 0).par a).point ((o T).par a).point ≤
      (∑ t ∈ Finset.range T, L t) * (Γ a / (1 - μ a)) := by
    intro T
    induction T with
    | zero => exact ⟨(h0 a).1, le_trans (hd.self (h0 a).1) (by simp)⟩
    | succ T ih =>
      obtain ⟨hon, hle⟩ := ih
      rw [Finset.sum_range_succ, add_mul]
      have hpos := mul_nonneg (hL0 T) hD
      rcases move T hon with e | ⟨u, hu, e, hlen⟩
      · rw [e]
        exact ⟨hon, by linarith⟩
      · rw [e]
        have hon' := (geo a).retr hon hu
        refine ⟨hon', ?_⟩
        have h1 := hd.triangle (h0 a).1 hon hon'
        have h2 := hd.step hon hu hpos hlen
        linarith
  exact (main T).2

end History

/-! ## Distances -/

/-- Euclidean parameters, entry by entry. -/
theorem C102_euclidean_distance (ι : Type) (i : ι) :
    StepDistance (euclideanGeometry ι) fun x y => |x i - y i| where
  self _ := by simp
  triangle _ _ _ := abs_sub_le _ _ _
  step {x u C} _ _ hC h := by
    have := h i
    simp only [euclidean, Pi.add_apply] at this ⊢
    rw [sub_add_cancel_left, abs_neg]
    exact abs_le_of_sq_le_sq this hC

/-- SPD matrices with the affine invariant metric. -/
theorem C102_spd_distance {n : ℕ} (E : Linalg.Eigh n) :
    StepDistance (spdGeometry E) fun x y => SPD.dist E .AIM (toMat x) (toMat y) where
  self hx := ((SPD.C30_zero_iff E hx hx).2 rfl).le
  triangle hx hy hz := SPD.C30_triangle E hx hy hz
  step {x u C} hx hu hC h := by
    have h1 := SPD.C101_retr E hx (u := toMat u) hu
    have h2 : SPD.inner (toMat x) (toMat u) (toMat u) ≤ C ^ 2 := by
      rcases isEmpty_or_nonempty (Fin n) with hn | ⟨⟨i⟩⟩
      · refine le_trans (le_of_eq ?_) (sq_nonneg C)
        simp [SPD.inner, Linalg.trace]
      · exact h (i, i)
    exact le_trans (le_abs_self _) (abs_le_of_sq_le_sq (le_trans h1 h2) hC)

/-- The triangle inequality of angles. -/
theorem angle_triangle {n : ℕ} {x y z : Vec n} (hx : x ⬝ᵥ x = 1) (hy : y ⬝ᵥ y = 1) (hz : z ⬝ᵥ z = 1) :
    Real.arccos (x ⬝ᵥ z) ≤ Real.arccos (x ⬝ᵥ y) + Real.arccos (y ⬝ᵥ z) := by
  have key : ∀ {u v : Vec n}, u ⬝ᵥ u = 1 → v ⬝ᵥ v = 1 → InnerProductGeometry.angle
      (WithLp.toLp 2 u : EuclideanSpace ℝ (Fin n)) (WithLp.toLp 2 v) = Real.arccos (u ⬝ᵥ v) := by
    intro u v hu hv
    have hi : ∀ a b : Vec n, @Inner.inner ℝ _ _ (WithLp.toLp 2 a : EuclideanSpace ℝ (Fin n))
        (WithLp.toLp 2 b) = a ⬝ᵥ b := by
      intro a b
      rw [EuclideanSpace.inner_eq_star_dotProduct]
      simp [dotProduct_comm]
    have hnm : ∀ a : Vec n, a ⬝ᵥ a = 1 → ‖(WithLp.toLp 2 a : EuclideanSpace ℝ (Fin n))‖ = 1 := by
      intro a h
      rw [norm_eq_sqrt_real_inner, hi, h, Real.sqrt_one]
    rw [InnerProductGeometry.angle, hi, hnm u hu, hnm v hv]
    norm_num
  have := InnerProductGeometry.angle_le_angle_add_angle
    (WithLp.toLp 2 x : EuclideanSpace ℝ (Fin n)) (WithLp.toLp 2 y) (WithLp.toLp 2 z)
  rwa [key hx hz, key hx hy, key hy hz] at this

section Sphere
variable {n : ℕ} {S : Set (Vec n)} {Pr : Option (Matrix (Fin n) (Fin n) ℝ)}

theorem sphere_len {x u : Vec n} {C : ℝ} (hx : Sphere.OnSphere S x) (hC : 0 ≤ C)
    (h : Fin n → Sphere.inner x u u ≤ C ^ 2) : nrm u ≤ C := by
  rcases isEmpty_or_nonempty (Fin n) with hn | ⟨⟨i⟩⟩
  · have := hx.1
    simp [dotProduct] at this
  · exact Real.sqrt_le_iff.2 ⟨hC, h i⟩

/-- Spheres: the angle (`dist` without its clamps). -/
theorem C102_sphere_distance (hP : Sphere.Projects S Pr) :
    StepDistance (sphereGeometry hP) fun x y => Real.arccos (x ⬝ᵥ y) where
  self hx := by rw [hx.1, Real.arccos_one]
  triangle hx hy hz := angle_triangle hx.1 hy.1 hz.1
  step hx hu hC h := le_trans (Sphere.angle_retr_le hP hx hu) (sphere_len hx hC h)

theorem C102_sphereExact_distance (dt : DType) (hP : Sphere.Projects S Pr) :
    StepDistance (sphereExactGeometry dt hP) fun x y => Real.arccos (x ⬝ᵥ y) where
  self hx := by rw [hx.1, Real.arccos_one]
  triangle hx hy hz := angle_triangle hx.1 hy.1 hz.1
  step hx hu hC h := le_trans (Sphere.angle_expmap_le hP dt hx hu) (sphere_len hx hC h)

end Sphere

section Ball
open Stereo

theorem valid_zero {n : ℕ} {η k : ℝ} (hη : 0 ≤ η) (hk : k < 0) {dt : DType} {x : Vec n}
    (hx : Valid η dt k x) : Valid 0 dt k x := by
  rw [valid_iff hk] at hx ⊢
  refine le_trans hx ?_
  rw [maxNorm_neg hk, maxNorm_neg hk]
  refine div_le_div_of_nonneg_left ?_ (kSqrt_pos le_rfl hk.ne) (kSqrt_le le_rfl hη)
  cases dt <;> norm_num [projEps]

/-- The Poincaré ball with `retr = expmap`: the geodesic distance (`dist` with the exact square root of
the curvature). -/
theorem C102_ballExact_distance {n : ℕ} {η k : ℝ} (hη : 0 ≤ η) (hη1 : η ≤ 1) (hk : k < -1e-8)
    (hbig : |k| ≤ 1e29) (dt : DType) (hk0 : k < 0) :
    StepDistance (ballExactGeometry (n := n) hη hη1 hk0 hbig dt) (M.dist 0 k) where
  self _ := (C06_self 0 k _).le
  triangle hx hy hz := C06_triangle_exact hk (valid_zero hη hk0 hx) (valid_zero hη hk0 hy)
    (valid_zero hη hk0 hz)
  step {x u C} hx hu hC h := by
    refine le_trans (expmap_le le_rfl hη hη1 hk hbig hx u true) ?_
    have e : norm k x u ^ 2 = Stereo.inner k x u u := by
      unfold Stereo.norm Stereo.inner
      rw [mul_pow, nrm_sq]
    have h2 : Stereo.inner k x u u ≤ C ^ 2 := by
      rcases isEmpty_or_nonempty (Fin n) with hn | ⟨⟨i⟩⟩
      · refine le_trans (le_of_eq ?_) (sq_nonneg C)
        simp [Stereo.inner, dotProduct]
      · exact h i
    exact le_trans (le_abs_self _) (abs_le_of_sq_le_sq (e ▸ h2) hC)

end Ball

/-- Batches: each element moves within the bound. -/
theorem batch_distance (β : Type) {ι : Type} {M : Manifold ι} {geo : Geometry M}
    {d : (ι → ℝ) → (ι → ℝ) → ℝ} (hd : StepDistance geo d) (b : β) :
    StepDistance (batchGeometry β geo) fun x y => d (fun i => x (b, i)) fun i => y (b, i) where
  self hx := hd.self (hx b)
  triangle hx hy hz := hd.triangle (hx b) (hy b) (hz b)
  step {x u C} hx hu hC h :=
    hd.step (u := fun i => u (b, i)) (hx b) ((Submodule.mem_iInf _).1 hu b) hC fun i => h (b, i)

/-! ## Concrete manifolds -/

/-- An SPD matrix trained by `RiemannianAdam` with the default `betas` and learning rates up to `L` is
after `n` steps within `73 · L · n` of its first value. -/
theorem C102_spd {n : ℕ} (E : Linalg.Eigh n) {L : ℝ} (hL : 0 ≤ L) {o₀ o : Adam Unit fun _ => Fin n × Fin n}
    (h0 : SPD.OnSPD (toMat (o₀.par ()).point) ∧ (o₀.par ()).state = none)
    (hr : AdamReachIf (onM (spd E)) (RatesBounded (fun _ => 0.9) (fun _ => 0.999) fun _ => L) True o₀ o) :
    SPD.dist E .AIM (toMat (o₀.par ()).point) (toMat (o.par ()).point) ≤ 73 * L * (o.par ()).steps :=
  C102_default (P := onM (spd E)) (fun _ => spdGeometry E) (fun _ => (C99_spd_contracting E).1)
    (fun _ => (C99_spd_contracting E).2) (fun _ => h0) hr (a := ()) hL (C102_spd_distance E)

/-- A batch of points of `PoincareBallExact` trained likewise: every row, in the geodesic distance. -/
theorem C102_ball_exact {β : Type} {n : ℕ} {k : ℝ} (hk : k < -1e-8) (hbig : |k| ≤ 1e29) (dt : DType)
    {L : ℝ} (hL : 0 ≤ L) {o₀ o : Adam Unit fun _ => β × Fin n}
    (h0 : (∀ b, Stereo.Valid Stereo.codeEta dt k fun i => (o₀.par ()).point (b, i)) ∧
      (o₀.par ()).state = none)
    (hr : AdamReachIf (onM (batch β (stereographicExact Stereo.codeEta dt k)))
      (RatesBounded (fun _ => 0.9) (fun _ => 0.999) fun _ => L) True o₀ o) (b : β) :
    Stereo.M.dist 0 k (fun i => (o₀.par ()).point (b, i)) (fun i => (o.par ()).point (b, i)) ≤
      73 * L * (o.par ()).steps := by
  have hk0 : k < 0 := by have := Stereo.e8; linarith
  have hη : (0 : ℝ) ≤ Stereo.codeEta := by norm_num [Stereo.codeEta]
  have hη1 : (Stereo.codeEta : ℝ) ≤ 1 := by norm_num [Stereo.codeEta]
  exact C102_default (P := onM (batch β (stereographicExact Stereo.codeEta dt k)))
    (fun _ => batchGeometry β (ballExactGeometry (n := n) hη hη1 hk0 hbig dt))
    (fun _ => C99_batch_contracting _ (C99_ballExact_contracting _ _ _ _ _))
    (fun _ => C99_batch_proj _ (C99_ballExact_proj _ _ _ _ _)) (fun _ => h0) hr (a := ()) hL
    (batch_distance β (C102_ballExact_distance hη hη1 hk hbig dt hk0) b)

/-- The options of the counterexample: the defaults except for the learning rate. -/
noncomputable def hypB : AdamHyper := ⟨1.600000008, 0.9, 0.999, 1e-8, 0, false, none⟩

/-- **It fails for `PoincareBall`**, whose `retr` is not `expmap`: the first step from the origin, with the
default options and `lr` about 1.6, moves by more than `lr` (the bound for one step). -/
theorem C102_counterexample_ball (dt : DType) :
    let M : Manifold (Fin 1) := stereographic Stereo.codeEta dt (-1)
    let o : Adam Unit fun _ => Fin 1 := one hypB ⟨0, .dense fun _ => 4, none⟩
    (adamStep (onM M) o).2 = none ∧ adamFactor 0.9 0.999 1 = 1 ∧
    hypB.lr < Stereo.M.dist 0 (-1) 0 ((adamStep (onM M) o).1.par ()).point := by
  intro M o
  have hok : (adamParam M hypB ⟨0, .dense fun _ => 4, none⟩).2 = (false, none) := by
    simp [adamParam, adamInit, adamFlag, hypB]
  have hst := one_step M hypB ⟨0, .dense fun _ => 4, none⟩ (by rw [hok])
  refine ⟨by rw [hst], C99_first (by norm_num) (by norm_num), ?_⟩
  rw [hst, hok]
  have hη : (0 : ℝ) ≤ Stereo.codeEta := by norm_num [Stereo.codeEta]
  have hη1 : (Stereo.codeEta : ℝ) ≤ 1 := by norm_num [Stereo.codeEta]
  have hl : Stereo.lambdaX (-1) (0 : Vec 1) = 2 := by
    unfold Stereo.lambdaX
    rw [zero_dotProduct, mul_zero, add_zero, max_eq_left (by norm_num)]
    norm_num
  have hn : nrm (fun _ => -0.8 : Vec 1) = 0.8 :=
    nrm_eq_of_dot_eq (by norm_num) (by simp [dotProduct]; norm_num)
  have hv : Stereo.Valid Stereo.codeEta dt (-1) (fun _ => -0.8 : Vec 1) := by
    refine (Stereo.valid_iff (by norm_num)).2 ?_
    have h0 := Stereo.kSqrt_pos hη (show (-1 : ℝ) ≠ 0 by norm_num)
    have h2 := Stereo.kSqrt_sq hη (-1)
    rw [hn, Stereo.maxNorm_neg (by norm_num), le_div_iff₀ h0]
    have : Stereo.kSqrt Stereo.codeEta (-1) ≤ 1.2 := by
      rw [abs_neg, abs_one] at h2
      have he : Stereo.codeEta ≤ 0.1 := by norm_num [Stereo.codeEta]
      norm_num at he ⊢
      nlinarith
    cases dt <;> norm_num [Stereo.projEps] at this ⊢ <;> linarith
  have hdir : -hypB.lr • adamDirection hypB 1 ((0.1 : ℝ) • fun _ => (1 : ℝ))
      ((0.001 : ℝ) • fun _ => (4 : ℝ)) = (fun _ => -0.8 : Vec 1) := by
    funext i
    simp only [adamDirection, hypB, Pi.smul_apply, smul_eq_mul]
    rw [show (0.001 * 4 / (1 - 0.999 ^ 1) : ℝ) = 2 ^ 2 by norm_num, Real.sqrt_sq (by norm_num)]
    norm_num
  have hpt : (adamParam M hypB ⟨0, .dense fun _ => 4, none⟩).1.point = fun _ => -0.8 := by
    have hr : (M.egrad2rgrad 0 ((fun _ => 4) + (0 : ℝ) • (0 : Vec 1))).value = fun _ => 1 := by
      simp only [M, stereographic, Stereo.egrad2rgrad, hl]
      funext i
      simp
      norm_num
    have hc : M.componentInner 0 (fun _ => 1) = fun _ => 4 := by
      simp only [M, stereographic, Stereo.inner, hl, dotProduct]
      funext i
      simp
      norm_num
    have e1 : (0.9 : ℝ) • (0 : Vec 1) + (1 - 0.9 : ℝ) • (fun _ => (1 : ℝ)) = (0.1 : ℝ) • fun _ => (1 : ℝ) := by
      rw [smul_zero, zero_add]; norm_num
    have e2 : (0.999 : ℝ) • (0 : Vec 1) + (1 - 0.999 : ℝ) • (fun _ => (4 : ℝ)) =
        (0.001 : ℝ) • fun _ => (4 : ℝ) := by
      rw [smul_zero, zero_add]; norm_num
    have h0 : adamInit (ι := Fin 1) false none = ⟨0, 0, 0, none⟩ := rfl
    have key : (adamParam M hypB ⟨0, .dense fun _ => 4, none⟩).1.point =
        Stereo.M.retr Stereo.codeEta dt (-1) 0 (-hypB.lr • adamDirection hypB 1
          ((0.9 : ℝ) • (0 : Vec 1) + (1 - 0.9 : ℝ) •
            (M.egrad2rgrad 0 ((fun _ => 4) + (0 : ℝ) • (0 : Vec 1))).value)
          ((0.999 : ℝ) • (0 : Vec 1) + (1 - 0.999 : ℝ) •
            M.componentInner 0 (M.egrad2rgrad 0 ((fun _ => 4) + (0 : ℝ) • (0 : Vec 1))).value)) := rfl
    rw [key, hr, hc, e1, e2, hdir, Stereo.M.retr, zero_add]
    exact (Stereo.C02_projx_fixes_exactly_valid hη hη1 (by norm_num) (by norm_num) dt _).2 hv
  show hypB.lr < Stereo.M.dist 0 (-1) 0 (adamParam M hypB ⟨0, .dense fun _ => 4, none⟩).1.point
  rw [hpt]
  have hs : Stereo.kSqrt 0 (-1) = 1 := by
    have h2 := Stereo.kSqrt_sq (le_refl (0 : ℝ)) (-1)
    have h0 := Stereo.kSqrt_pos (le_refl (0 : ℝ)) (show (-1 : ℝ) ≠ 0 by norm_num)
    norm_num at h2
    rcases h2 with h | h
    · exact h
    · rw [h] at h0; norm_num at h0
  unfold Stereo.M.dist Stereo.dist
  rw [neg_zero, Stereo.C03_zero_add, Stereo.artanK_neg_curv (by norm_num), hs, hn, mul_one,
    Stereo.artanhC_eq (by norm_num) (by norm_num),
    Real.artanh_eq_half_log ⟨by norm_num, by norm_num⟩]
  have h9 : (2 : ℝ) ≤ Real.log ((1 + 0.8) / (1 - 0.8)) := by
    rw [Real.le_log_iff_exp_le (by norm_num)]
    have h1 := Real.exp_one_lt_d9
    rw [show (2 : ℝ) = 1 + 1 by norm_num, Real.exp_add]
    have h2 := Real.exp_pos 1
    norm_num at h1 ⊢
    nlinarith
  norm_num [hypB] at h9 ⊢
  linarith

/-- The hypotheses are met: the first step of a `2 × 2` SPD matrix. -/
example (g : Fin 2 × Fin 2 → ℝ) :
    let M := spd (SPD.someEigh 2)
    let h : AdamHyper := ⟨1e-3, 0.9, 0.999, 1e-8, 0, true, some 1⟩
    let o := one h ⟨ofMat SPD.sampleA, .dense g, none⟩
    SPD.dist (SPD.someEigh 2) .AIM SPD.sampleA (toMat ((adamStep (onM M) o).1.par ()).point) ≤
      73 * 1e-3 * ((adamStep (onM M) o).1.par ()).steps := by
  intro M h o
  refine C102_spd (SPD.someEigh 2) (by norm_num) (o₀ := o) ⟨SPD.sampleA_spd, rfl⟩
    (.step .start ⟨fun G hG a _ => ?_, fun G hG a _ => ?_⟩) <;>
  · simp only [o, one, List.mem_singleton] at hG
    subst hG
    norm_num [h]

end Geoopt.C102
