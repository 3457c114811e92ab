import Verif.Props.C99Manifolds

/-!
# C100: the length of the steps of `RiemannianSGD`

With momentum `μ < 1` and Riemannian gradients no longer than `Γ`, no step is longer than
`lr · Γ / (1 - μ)`, provided the first raw gradient, which becomes the first momentum, is not longer than
that either.  On the Poincaré ball it usually is.
-/

namespace Geoopt.C100
open Geoopt Geoopt.Optim C55 Geoopt.C99

section Param
variable {ι : Type} {M : Manifold ι} {geo : Geometry M}

theorem comb_len (hc : Contracting geo) {x b r : ι → ℝ} {α β B R : ℝ} (i : ι) (hx : geo.On x)
    (hb : b ∈ geo.Tan x) (hr : r ∈ geo.Tan x) (hB : 0 ≤ B) (hR : 0 ≤ R)
    (h1 : M.componentInner x b i ≤ B ^ 2) (h2 : M.componentInner x r i ≤ R ^ 2) :
    M.componentInner x (α • b + β • r) i ≤ (|α| * B + |β| * R) ^ 2 := by
  have ht := hc.triangle i hx ((geo.Tan x).smul_mem α hb) ((geo.Tan x).smul_mem β hr)
  rw [smul_len hc _ i hx hb, smul_len hc _ i hx hr, Real.sqrt_mul (sq_nonneg _),
    Real.sqrt_mul (sq_nonneg _), Real.sqrt_sq_eq_abs, Real.sqrt_sq_eq_abs] at ht
  have hin := hc.nonneg i hx ((geo.Tan x).add_mem ((geo.Tan x).smul_mem α hb)
    ((geo.Tan x).smul_mem β hr))
  have k1 : Real.sqrt (M.componentInner x b i) ≤ B := Real.sqrt_le_iff.2 ⟨hB, h1⟩
  have k2 : Real.sqrt (M.componentInner x r i) ≤ R := Real.sqrt_le_iff.2 ⟨hR, h2⟩
  rw [← Real.sq_sqrt hin]
  refine pow_le_pow_left₀ (Real.sqrt_nonneg _) (le_trans ht ?_) 2
  exact add_le_add (mul_le_mul_of_nonneg_left k1 (abs_nonneg _))
    (mul_le_mul_of_nonneg_left k2 (abs_nonneg _))

/-- The invariant of one parameter. -/
def Bnd (geo : Geometry M) (μ D : ℝ) (s : SGDParam ι) : Prop :=
  geo.On s.point ∧ ∀ b, s.buf = some b → 0 < μ ∧ b ∈ geo.Tan s.point ∧
    ∀ i, M.componentInner s.point b i ≤ D ^ 2

/-- What a call needs. -/
def Pre (geo : Geometry M) (h : SGDHyper) (μ Γ : ℝ) (s : SGDParam ι) : Prop :=
  ∀ g, s.grad = .dense g → ∀ i,
    M.componentInner s.point (M.egrad2rgrad s.point (g + h.weightDecay • s.point)).value i ≤ Γ ^ 2 ∧
    (0 < μ → s.buf = none → g ∈ geo.Tan s.point ∧
      M.componentInner s.point g i ≤ (Γ / (1 - μ)) ^ 2)

theorem sgdParam_len [Nonempty ι] (hc : Contracting geo) {h : SGDHyper} {μ Γ : ℝ} (hμ : 0 ≤ μ) (hμ1 : μ < 1)
    (hΓ : 0 ≤ Γ) (hm : h.momentum = μ) (hd : |1 - h.dampening| ≤ 1) {s : SGDParam ι}
    (hs : Bnd geo μ (Γ / (1 - μ)) s) (hp : Pre geo h μ Γ s) :
    Bnd geo μ (Γ / (1 - μ)) (sgdParam M h s).1 ∧
    ((sgdParam M h s).2.2 = none → ∀ g, s.grad = .dense g →
      ∃ u ∈ geo.Tan s.point, (sgdParam M h s).1.point = M.retr s.point u ∧
        ∀ i, M.componentInner s.point u i ≤ (h.lr * (Γ / (1 - μ))) ^ 2) := by
  have h1μ : 0 < 1 - μ := by linarith
  set D := Γ / (1 - μ) with hD
  have hD0 : 0 ≤ D := div_nonneg hΓ h1μ.le
  have hDΓ : μ * D + Γ = D := by rw [hD]; field_simp; ring
  have hΓD : Γ ≤ D := by nlinarith
  unfold sgdParam
  cases hg : s.grad with
  | none => exact ⟨hs, fun _ g h => by cases h⟩
  | sparse => exact ⟨hs, fun _ g h => by cases h⟩
  | dense g =>
    have he := geo.egrad (g + h.weightDecay • s.point) hs.1
    have hl := hp g hg
    dsimp only
    generalize hr : M.egrad2rgrad s.point (g + h.weightDecay • s.point) = r at he hl ⊢
    by_cases hmo : 0 < h.momentum
    · rw [if_pos hmo]
      have hμ' : 0 < μ := hm ▸ hmo
      have main : ∀ b0 ∈ geo.Tan s.point, (∀ i, M.componentInner s.point b0 i ≤ D ^ 2) →
          ∀ (gb : ι → ℝ) (f : Bool × Option PyErr),
          Bnd geo μ D ⟨(M.retrTransp s.point (-h.lr • if h.nesterov = true then
              r.value + h.momentum • (h.momentum • b0 + (1 - h.dampening) • r.value)
            else h.momentum • b0 + (1 - h.dampening) • r.value)
            (h.momentum • b0 + (1 - h.dampening) • r.value)).1, .dense gb,
            some (M.retrTransp s.point (-h.lr • if h.nesterov = true then
              r.value + h.momentum • (h.momentum • b0 + (1 - h.dampening) • r.value)
            else h.momentum • b0 + (1 - h.dampening) • r.value)
            (h.momentum • b0 + (1 - h.dampening) • r.value)).2⟩ ∧
          (f.2 = none → ∀ g', Grad.dense g = .dense g' → ∃ u ∈ geo.Tan s.point,
            (M.retrTransp s.point (-h.lr • if h.nesterov = true then
              r.value + h.momentum • (h.momentum • b0 + (1 - h.dampening) • r.value)
            else h.momentum • b0 + (1 - h.dampening) • r.value)
            (h.momentum • b0 + (1 - h.dampening) • r.value)).1 = M.retr s.point u ∧
            ∀ i, M.componentInner s.point u i ≤ (h.lr * D) ^ 2) := by
        intro b0 hb0 hb0l gb f
        have hb : h.momentum • b0 + (1 - h.dampening) • r.value ∈ geo.Tan s.point :=
          (geo.Tan _).add_mem ((geo.Tan _).smul_mem _ hb0) ((geo.Tan _).smul_mem _ he)
        have hbl : ∀ i, M.componentInner s.point
            (h.momentum • b0 + (1 - h.dampening) • r.value) i ≤ D ^ 2 := by
          intro i
          refine le_trans (comb_len hc i hs.1 hb0 he hD0 hΓ (hb0l i) (hl i).1) ?_
          refine pow_le_pow_left₀ (by positivity) ?_ 2
          rw [hm, abs_of_nonneg hμ]
          nlinarith
        generalize h.momentum • b0 + (1 - h.dampening) • r.value = b at hb hbl ⊢
        have hdir : (if h.nesterov = true then r.value + h.momentum • b else b) ∈ geo.Tan s.point := by
          split_ifs
          · exact (geo.Tan _).add_mem he ((geo.Tan _).smul_mem _ hb)
          · exact hb
        have hdl : ∀ i, M.componentInner s.point
            (if h.nesterov = true then r.value + h.momentum • b else b) i ≤ D ^ 2 := by
          intro i
          split_ifs
          · have := comb_len hc (α := 1) (β := h.momentum) i hs.1 he hb hΓ hD0 (hl i).1 (hbl i)
            rw [one_smul] at this
            refine le_trans this (pow_le_pow_left₀ (by positivity) ?_ 2)
            rw [hm, abs_of_nonneg hμ, abs_one]
            linarith
          · exact hbl i
        generalize (if h.nesterov = true then r.value + h.momentum • b else b) = d at hdir hdl ⊢
        have hu := (geo.Tan _).smul_mem (-h.lr) hdir
        refine ⟨⟨geo.retrTransp_on _ hs.1 hu, ?_⟩, fun _ _ _ => ⟨_, hu, hc.retr hs.1 hu hb, fun i => ?_⟩⟩
        · rintro b' ⟨⟩
          exact ⟨hμ', geo.retrTransp_tan hs.1 hu hb, fun i => le_trans (hc.transp i hs.1 hu hb) (hbl i)⟩
        · rw [smul_len hc _ i hs.1 hdir, mul_pow, neg_sq]
          exact mul_le_mul_of_nonneg_left (hdl i) (sq_nonneg _)
      cases hbuf : s.buf with
      | none =>
        simp only [if_pos hmo]
        obtain ⟨i0⟩ := ‹Nonempty ι›
        obtain ⟨p, q⟩ := main g ((hl i0).2 hμ' hbuf).1 (fun i => ((hl i).2 hμ' hbuf).2)
          (if (h.nesterov && r.isView) = true then
              r.value + h.momentum • (h.momentum • g + (1 - h.dampening) • r.value)
            else r.arg) (false, none)
        exact ⟨p, fun _ => q rfl⟩
      | some b =>
        obtain ⟨p, q⟩ := main b (hs.2 b hbuf).2.1 (hs.2 b hbuf).2.2
          (if (h.nesterov && r.isView) = true then
              r.value + h.momentum • (h.momentum • b + (1 - h.dampening) • r.value)
            else r.arg) (false, none)
        exact ⟨p, fun _ => q rfl⟩
    · rw [if_neg hmo]
      have hu := (geo.Tan _).smul_mem (-h.lr) he
      refine ⟨⟨geo.retr hs.1 hu, ?_⟩, fun _ _ _ => ⟨_, hu, rfl, fun i => ?_⟩⟩
      · intro b hb
        exfalso
        cases hbuf : s.buf with
        | none => rw [hbuf] at hb; simp only [if_neg hmo] at hb; cases hb
        | some b' => exact hmo (hm ▸ (hs.2 b' hbuf).1)
      · rw [smul_len hc _ i hs.1 he, mul_pow, neg_sq]
        exact mul_le_mul_of_nonneg_left (le_trans (hl i).1 (pow_le_pow_left₀ hΓ hΓD 2)) (sq_nonneg _)

end Param

section History
variable {κ : Type} [DecidableEq κ] {ι : κ → Type} [∀ a, Nonempty (ι a)] {P : Params κ ι}

omit [∀ a, Nonempty (ι a)] in
theorem sgdStab_len (geo : ∀ a, Geometry (P.manifold a)) (hp : ∀ a, ProjContracts (geo a))
    {μ D : ℝ} (h : SGDHyper) (a : κ) (s : SGDParam (ι a)) (hs : Bnd (geo a) μ D s) :
    Bnd (geo a) μ D (sgdStab (P.isManifold a) (P.man a) h s) ∧
    (sgdStab (P.isManifold a) (P.man a) h s).point = s.point := by
  cases hM : P.isManifold a with
  | false => exact ⟨hs, rfl⟩
  | true =>
    rw [← manifold_of hM]
    unfold sgdStab
    simp only [Bool.true_eq_false, if_false, (geo a).projx hs.1]
    split_ifs
    · refine ⟨⟨hs.1, fun b hb => ?_⟩, rfl⟩
      simp only [Option.map_eq_some_iff] at hb
      obtain ⟨c, hc, rfl⟩ := hb
      obtain ⟨k1, k2, k3⟩ := hs.2 c hc
      exact ⟨k1, (geo a).proju _ hs.1, fun i => le_trans (hp a i hs.1 k2) (k3 i)⟩
    · exact ⟨hs, rfl⟩

theorem sgdGroup_len (geo : ∀ a, Geometry (P.manifold a)) (hc : ∀ a, Contracting (geo a))
    (hp : ∀ a, ProjContracts (geo a)) {μ Γ : κ → ℝ} (hμ : ∀ a, 0 ≤ μ a ∧ μ a < 1)
    (hΓ : ∀ a, 0 ≤ Γ a) (w : ∀ a, SGDParam (ι a)) (G : Group SGDHyper κ) (hn : G.params.Nodup)
    (hG : ∀ a ∈ G.params, G.hyper.momentum = μ a ∧ |1 - G.hyper.dampening| ≤ 1 ∧
      Pre (geo a) G.hyper (μ a) (Γ a) (w a))
    (hw : ∀ a, Bnd (geo a) (μ a) (Γ a / (1 - μ a)) (w a)) :
    (∀ a, Bnd (geo a) (μ a) (Γ a / (1 - μ a)) ((sgdGroup P w G).1 a)) ∧
    ∀ a, a ∉ G.params → (sgdGroup P w G).1 a = w a := by
  have h1 := forParams_inv (fun a => sgdParam (P.manifold a) G.hyper)
    (fun a => Bnd (geo a) (μ a) (Γ a / (1 - μ a))) (fun a => Pre (geo a) G.hyper (μ a) (Γ a))
    G.params hn
    (fun a ha s hs hf => (sgdParam_len (hc a) (hμ a).1 (hμ a).2 (hΓ a) (hG a ha).1 (hG a ha).2.1
      hs hf).1) w hw (fun a ha => (hG a ha).2.2)
  have h2 : ∀ b, b ∉ G.params → (forParams (fun a => sgdParam (P.manifold a) G.hyper) G.params w).1 b
      = w b := fun b hb => forParams_of_notMem _ G.params b hb w
  unfold sgdGroup counterGroup
  rcases hf : forParams (fun a => sgdParam (P.manifold a) G.hyper) G.params w with ⟨w', b, e⟩
  rw [hf] at h1 h2
  cases e with
  | some e => exact ⟨h1, h2⟩
  | none =>
    dsimp only
    cases G.hyper.stabilize with
    | none => exact ⟨h1, h2⟩
    | some k =>
      dsimp only
      rcases isMultiple (G.step + 1) k with e | b
      · exact ⟨h1, h2⟩
      · cases b with
        | false => exact ⟨h1, h2⟩
        | true =>
          refine ⟨stabParams_inv _ (fun a => Bnd (geo a) (μ a) (Γ a / (1 - μ a))) G.params
            (fun a _ s hs => (sgdStab_len geo hp G.hyper a s hs).1) w' h1, fun a ha => ?_⟩
          dsimp only at h2 ⊢
          rw [stabParams_of_notMem _ G.params a ha, h2 a ha]

theorem sgdGroups_len (geo : ∀ a, Geometry (P.manifold a)) (hc : ∀ a, Contracting (geo a))
    (hp : ∀ a, ProjContracts (geo a)) {μ Γ : κ → ℝ} (hμ : ∀ a, 0 ≤ μ a ∧ μ a < 1)
    (hΓ : ∀ a, 0 ≤ Γ a) (Gs : List (Group SGDHyper κ)) (w : ∀ a, SGDParam (ι a))
    (hn : (Gs.flatMap Group.params).Nodup)
    (hG : ∀ G ∈ Gs, ∀ a ∈ G.params, G.hyper.momentum = μ a ∧ |1 - G.hyper.dampening| ≤ 1 ∧
      Pre (geo a) G.hyper (μ a) (Γ a) (w a))
    (hw : ∀ a, Bnd (geo a) (μ a) (Γ a / (1 - μ a)) (w a)) :
    ∀ a, Bnd (geo a) (μ a) (Γ a / (1 - μ a)) ((forGroups (sgdGroup P) Gs w).1 a) := by
  induction Gs generalizing w with
  | nil => exact hw
  | cons G Gs ih =>
    rw [List.flatMap_cons, List.nodup_append] at hn
    obtain ⟨h1, h2⟩ := sgdGroup_len geo hc hp hμ hΓ w G hn.1 (hG G (by simp)) hw
    rw [forGroups]
    rcases hg : sgdGroup P w G with ⟨w', G', e⟩
    rw [hg] at h1 h2
    cases e with
    | some e => exact h1
    | none =>
      refine ih w' hn.2.1 (fun G2 hG2 a ha => ?_) h1
      have hna : a ∉ G.params := fun hc =>
        hn.2.2 a hc a (List.mem_flatMap.2 ⟨G2, hG2, ha⟩) rfl
      dsimp only at h2
      rw [h2 a hna]
      exact hG G2 (by simp [hG2]) a ha

/-- **C100 (with its condition on the first gradient).** With momentum `μ < 1` and Riemannian gradients
no longer than `Γ`, in every history (learning rates, weight decay, dampening between 0 and 2, Nesterov,
groups, `stabilize()` and its period, steps that raise) every step of `RiemannianSGD` moves a parameter
from `x` to `retr x u` for a tangent vector `u` no longer than `lr · Γ / (1 - μ)`.  The condition (in
`GradientsBounded`) concerns the first gradient of parameters with momentum only. -/
theorem C100_sgd_partial (geo : ∀ a, Geometry (P.manifold a)) (hc : ∀ a, Contracting (geo a))
    (hp : ∀ a, ProjContracts (geo a)) {μ Γ : κ → ℝ} (hμ : ∀ a, 0 ≤ μ a ∧ μ a < 1)
    (hΓ : ∀ a, 0 ≤ Γ a) {o₀ o : SGD κ ι}
    (h0 : ∀ a, (geo a).On (o₀.par a).point ∧ (o₀.par a).buf = none)
    (hr : SGDReach P (GradientsBounded geo μ Γ) o₀ o) (hb : GradientsBounded geo μ Γ o)
    (hok : (sgdStep P o).2 = none) {G : Group SGDHyper κ} (hG : G ∈ o.groups) {a : κ}
    (ha : a ∈ G.params) {g : ι a → ℝ} (hg : (o.par a).grad = .dense g) :
    ∃ u ∈ (geo a).Tan (o.par a).point,
      ((sgdStep P o).1.par a).point = (P.manifold a).retr (o.par a).point u ∧
      ∀ i, (P.manifold a).componentInner (o.par a).point u i ≤
        (G.hyper.lr * (Γ a / (1 - μ a))) ^ 2 := by
  have inv : ∀ a, Bnd (geo a) (μ a) (Γ a / (1 - μ a)) (o.par a) := by
    clear hb hok hG ha hg
    induction hr with
    | start =>
      intro a
      refine ⟨(h0 a).1, fun b hb => ?_⟩
      rw [(h0 a).2] at hb; cases hb
    | user _ h ih =>
      intro a
      obtain ⟨h1, h2⟩ := ih a
      refine ⟨by rw [(h a).1]; exact h1, fun b hb => ?_⟩
      rw [(h a).1]
      rw [(h a).2] at hb
      exact h2 b hb
    | @step o' _ h ih => exact sgdGroups_len geo hc hp hμ hΓ o'.groups o'.par h.1 h.2 ih
    | @stabilize o' _ ih =>
      have key : ∀ (Gs : List (Group SGDHyper κ)) (w : ∀ a, SGDParam (ι a)),
          (∀ a, Bnd (geo a) (μ a) (Γ a / (1 - μ a)) (w a)) →
          ∀ a, Bnd (geo a) (μ a) (Γ a / (1 - μ a)) (Gs.foldl (fun w G =>
            stabParams (fun a => sgdStab (P.isManifold a) (P.man a) G.hyper) G.params w) w a) := by
        intro Gs
        induction Gs with
        | nil => intro w hw; exact hw
        | cons G Gs ihG =>
          intro w hw
          exact ihG _ (stabParams_inv _ (fun a => Bnd (geo a) (μ a) (Γ a / (1 - μ a))) G.params
            (fun a _ s hs => (sgdStab_len geo hp G.hyper a s hs).1) w hw)
      exact key o'.groups o'.par ih
  obtain ⟨k1, k2⟩ := (sgdStep_ok (P := P) o hb.1 hok).2 G hG a ha
  obtain ⟨j0, j1, j2⟩ := hb.2 G hG a ha
  obtain ⟨m1, m2⟩ := sgdParam_len (hc a) (hμ a).1 (hμ a).2 (hΓ a) j0 j1 (inv a) j2
  obtain ⟨u, hu, hpt, hlen⟩ := m2 k1 g hg
  refine ⟨u, hu, ?_, hlen⟩
  rw [k2]
  split_ifs
  · rw [(sgdStab_len geo hp G.hyper a _ m1).2, hpt]
  · exact hpt

end History
end Geoopt.C100
