import Verif.Spec.Steps
import Verif.Lemmas.OptimStep
import Verif.Props.C55
import Mathlib.Algebra.Order.Field.GeomSum
import Mathlib.Tactic.FieldSimp

/-!
# C99: the length of the steps of `RiemannianAdam`

The step is `retr x u` for a tangent vector `u` whose length in the metric of the manifold is at most the
learning rate times a factor that depends on `betas` and the number of the step only, whatever the
gradients.
-/

namespace Geoopt.C99
open Geoopt.Optim C55

/-- The bound of the squared first moment by the second. -/
noncomputable def bnd (β₁ β₂ : ℝ) (t : ℕ) : ℝ :=
  (1 - β₁) ^ 2 / (1 - β₂) * ∑ j ∈ Finset.range t, (β₁ ^ 2 / β₂) ^ j

theorem bnd_nonneg {β₁ β₂ : ℝ} (h2 : 0 < β₂) (h2' : β₂ < 1) (t : ℕ) : 0 ≤ bnd β₁ β₂ t := by
  unfold bnd
  have : 0 ≤ ∑ j ∈ Finset.range t, (β₁ ^ 2 / β₂) ^ j :=
    Finset.sum_nonneg fun j _ => by positivity
  have : 0 < 1 - β₂ := by linarith
  positivity

theorem bnd_succ {β₁ β₂ : ℝ} (t : ℕ) :
    bnd β₁ β₂ (t + 1) = (1 - β₁) ^ 2 / (1 - β₂) + β₁ ^ 2 / β₂ * bnd β₁ β₂ t := by
  unfold bnd
  rw [Finset.sum_range_succ', pow_zero, mul_add, mul_one, add_comm]
  congr 1
  simp only [pow_succ]
  rw [← Finset.sum_mul]
  ring

/-- One step of the two moving averages. -/
theorem moment_step {β₁ β₂ p q V C : ℝ} (h2 : 0 < β₂) (h2' : β₂ < 1) (hC : 0 ≤ C) (hV : 0 ≤ V)
    (hp : p ^ 2 ≤ C * V) :
    (β₁ * p + (1 - β₁) * q) ^ 2 ≤
      ((1 - β₁) ^ 2 / (1 - β₂) + β₁ ^ 2 / β₂ * C) * (β₂ * V + (1 - β₂) * q ^ 2) := by
  have h3 : 0 < 1 - β₂ := by linarith
  set b := 1 - β₂ with hb
  have e : ((1 - β₁) ^ 2 / b + β₁ ^ 2 / β₂ * C) * (β₂ * V + b * q ^ 2) =
      ((1 - β₁) * q) ^ 2 + β₁ ^ 2 * (C * V) + (1 - β₁) ^ 2 * (β₂ / b) * V +
        β₁ ^ 2 * (b / β₂) * C * q ^ 2 := by
    field_simp; ring
  rw [e]
  -- the cross term
  by_cases hC0 : C = 0
  · subst hC0
    have hp0 : p = 0 := by nlinarith [sq_nonneg p]
    subst hp0
    have : 0 ≤ (1 - β₁) ^ 2 * (β₂ / b) * V := by positivity
    nlinarith
  have hC' : 0 < C := lt_of_le_of_ne hC (Ne.symm hC0)
  have hV' : p ^ 2 / C ≤ V := by rw [div_le_iff₀ hC']; linarith
  have key : 2 * (β₁ * p) * ((1 - β₁) * q) ≤
      (1 - β₁) ^ 2 * (β₂ / b) * (p ^ 2 / C) + β₁ ^ 2 * (b / β₂) * C * q ^ 2 := by
    have : (1 - β₁) ^ 2 * (β₂ / b) * (p ^ 2 / C) + β₁ ^ 2 * (b / β₂) * C * q ^ 2 -
        2 * (β₁ * p) * ((1 - β₁) * q) =
        ((1 - β₁) * p * β₂ - β₁ * q * b * C) ^ 2 / (b * β₂ * C) := by
      field_simp
      ring
    have h4 : 0 ≤ ((1 - β₁) * p * β₂ - β₁ * q * b * C) ^ 2 / (b * β₂ * C) := by positivity
    linarith
  have h5 : (1 - β₁) ^ 2 * (β₂ / b) * (p ^ 2 / C) ≤ (1 - β₁) ^ 2 * (β₂ / b) * V :=
    mul_le_mul_of_nonneg_left hV' (by positivity)
  have h6 : β₁ ^ 2 * p ^ 2 ≤ β₁ ^ 2 * (C * V) := mul_le_mul_of_nonneg_left hp (sq_nonneg _)
  nlinarith

section Param
variable {ι : Type} {M : Manifold ι} {geo : Geometry M}

/-- The invariant of one parameter: the first moment is bounded by the second. -/
def Bounded (geo : Geometry M) (β₁ β₂ : ℝ) (s : AdamParam ι) : Prop :=
  AdamOk geo s ∧ ∀ st, s.state = some st → ∀ i, 0 ≤ st.expAvgSq i ∧
    M.componentInner s.point st.expAvg i ≤ bnd β₁ β₂ st.step * st.expAvgSq i

theorem smul_len (hc : Contracting geo) {x u : ι → ℝ} (c : ℝ) (i : ι) (hx : geo.On x)
    (hu : u ∈ geo.Tan x) : M.componentInner x (c • u) i = c ^ 2 * M.componentInner x u i :=
  hc.scale (fun _ => c) i (fun _ _ _ => rfl) hx hu

theorem zero_len (hc : Contracting geo) {x : ι → ℝ} (i : ι) (hx : geo.On x) :
    M.componentInner x 0 i = 0 := by
  have := smul_len hc 0 i hx (geo.Tan x).zero_mem
  simpa using this

/-- The moments after one more gradient. -/
theorem moments (hc : Contracting geo) {β₁ β₂ : ℝ} (h1 : 0 ≤ β₁) (h1' : β₁ ≤ 1) (h2 : 0 < β₂)
    (h2' : β₂ < 1) {x m r v : ι → ℝ} {t : ℕ} (hx : geo.On x) (hm : m ∈ geo.Tan x)
    (hr : r ∈ geo.Tan x) (i : ι) (hv : 0 ≤ v i)
    (hb : M.componentInner x m i ≤ bnd β₁ β₂ t * v i) :
    0 ≤ (β₂ • v + (1 - β₂) • M.componentInner x r) i ∧
    M.componentInner x (β₁ • m + (1 - β₁) • r) i ≤
      bnd β₁ β₂ (t + 1) * (β₂ • v + (1 - β₂) • M.componentInner x r) i := by
  simp only [Pi.add_apply, Pi.smul_apply, smul_eq_mul]
  have hr0 := hc.nonneg i hx hr
  have hm0 := hc.nonneg i hx hm
  have h3 : 0 ≤ 1 - β₁ := by linarith
  refine ⟨by have : 0 ≤ 1 - β₂ := by linarith
             positivity, ?_⟩
  have ht := hc.triangle i hx ((geo.Tan x).smul_mem β₁ hm) ((geo.Tan x).smul_mem (1 - β₁) hr)
  rw [smul_len hc _ i hx hm, smul_len hc _ i hx hr, Real.sqrt_mul (sq_nonneg _),
    Real.sqrt_mul (sq_nonneg _), Real.sqrt_sq h1, Real.sqrt_sq h3] at ht
  have hin := hc.nonneg i hx ((geo.Tan x).add_mem ((geo.Tan x).smul_mem β₁ hm)
    ((geo.Tan x).smul_mem (1 - β₁) hr))
  have hms := moment_step (β₁ := β₁) (q := Real.sqrt (M.componentInner x r i)) h2 h2'
    (bnd_nonneg (β₁ := β₁) h2 h2' t) hv (p := Real.sqrt (M.componentInner x m i))
    (by rw [Real.sq_sqrt hm0]; exact hb)
  rw [Real.sq_sqrt hr0] at hms
  rw [bnd_succ]
  refine le_trans ?_ hms
  rw [← Real.sq_sqrt hin]
  exact pow_le_pow_left₀ (Real.sqrt_nonneg _) ht 2

/-- The direction is not longer than the factor. -/
theorem direction_len (hc : Contracting geo) {h : AdamHyper} {β₁ β₂ : ℝ} (e1 : h.beta1 = β₁)
    (e2 : h.beta2 = β₂) (h1 : 0 ≤ β₁) (h1' : β₁ < 1) (h2 : 0 < β₂) (h2' : β₂ < 1) (he : 0 < h.eps)
    {x m v norm : ι → ℝ} {t : ℕ} (ht : t ≠ 0) (hx : geo.On x) (hm : m ∈ geo.Tan x)
    (hnb : ∀ i j, geo.block i j → norm i = norm j) (i : ι) (hv : 0 ≤ v i) (hvn : v i ≤ norm i)
    (hb : M.componentInner x m i ≤ bnd β₁ β₂ t * v i) :
    M.componentInner x (-h.lr • adamDirection h t m norm) i ≤ (h.lr * adamFactor β₁ β₂ t) ^ 2 := by
  have hc1 : 0 < 1 - β₁ ^ t := by
    have := pow_lt_one₀ h1 h1' ht
    linarith
  have hc2 : 0 < 1 - β₂ ^ t := by
    have := pow_lt_one₀ h2.le h2' ht
    linarith
  set d : ι → ℝ := fun j => Real.sqrt (norm j / (1 - β₂ ^ t)) + h.eps with hd
  have hdpos : ∀ j, 0 < d j := fun j => by
    have := Real.sqrt_nonneg (norm j / (1 - β₂ ^ t))
    simp only [hd]; linarith
  have hu : (-h.lr • adamDirection h t m norm) =
      fun j => (-h.lr * (1 - β₁ ^ t)⁻¹ * (d j)⁻¹) * m j := by
    funext j
    simp only [adamDirection, Pi.smul_apply, smul_eq_mul, e1, e2, hd, div_eq_mul_inv]
    ring
  rw [hu, hc.scale _ i (fun j k hjk => by simp only [hd, hnb j k hjk]) hx hm]
  have hd2 : v i ≤ (1 - β₂ ^ t) * d i ^ 2 := by
    have h0 : 0 ≤ norm i / (1 - β₂ ^ t) := div_nonneg (le_trans hv hvn) hc2.le
    have h3 : norm i / (1 - β₂ ^ t) ≤ d i ^ 2 := by
      have := Real.sq_sqrt h0
      have hs := Real.sqrt_nonneg (norm i / (1 - β₂ ^ t))
      simp only [hd]
      nlinarith
    rw [div_le_iff₀ hc2] at h3
    linarith
  have hB := bnd_nonneg (β₁ := β₁) h2 h2' t
  have h4 : M.componentInner x m i ≤ bnd β₁ β₂ t * ((1 - β₂ ^ t) * d i ^ 2) :=
    le_trans hb (mul_le_mul_of_nonneg_left hd2 hB)
  have hS : 0 ≤ (1 - β₂ ^ t) / (1 - β₂) * ∑ j ∈ Finset.range t, (β₁ ^ 2 / β₂) ^ j :=
    mul_nonneg (div_nonneg hc2.le (by linarith)) (Finset.sum_nonneg fun j _ => by positivity)
  have h5 : (h.lr * adamFactor β₁ β₂ t) ^ 2 =
      h.lr ^ 2 * ((1 - β₁ ^ t)⁻¹) ^ 2 * (bnd β₁ β₂ t * (1 - β₂ ^ t)) := by
    unfold adamFactor bnd
    rw [mul_pow, div_pow, mul_pow, Real.sq_sqrt hS, div_eq_mul_inv, inv_pow]
    ring
  rw [h5]
  have h6 : (-h.lr * (1 - β₁ ^ t)⁻¹ * (d i)⁻¹) ^ 2 * M.componentInner x m i ≤
      (-h.lr * (1 - β₁ ^ t)⁻¹ * (d i)⁻¹) ^ 2 * (bnd β₁ β₂ t * ((1 - β₂ ^ t) * d i ^ 2)) :=
    mul_le_mul_of_nonneg_left h4 (sq_nonneg _)
  refine le_trans h6 (le_of_eq ?_)
  have := (hdpos i).ne'
  field_simp

/-- What one call of the loop body does. -/
theorem adamParam_bounded (hc : Contracting geo) {h : AdamHyper} {β₁ β₂ : ℝ} (e1 : h.beta1 = β₁)
    (e2 : h.beta2 = β₂) (h1 : 0 ≤ β₁) (h1' : β₁ < 1) (h2 : 0 < β₂) (h2' : β₂ < 1)
    {s : AdamParam ι} (hs : Bounded geo β₁ β₂ s) :
    Bounded geo β₁ β₂ (adamParam M h s).1 ∧
    (0 < h.eps → (adamParam M h s).2.2 = none → ∀ g, s.grad = .dense g →
      ∃ u ∈ geo.Tan s.point, (adamParam M h s).1.point = M.retr s.point u ∧
        ∀ i, M.componentInner s.point u i ≤ (h.lr * adamFactor β₁ β₂ (s.steps + 1)) ^ 2) := by
  have hok := adamParam_ok geo h s hs.1
  unfold adamParam at hok ⊢
  cases hg : s.grad with
  | none =>
    refine ⟨?_, fun _ _ g hg => by cases hg⟩
    exact hs
  | sparse =>
    refine ⟨?_, fun _ _ g hg => by cases hg⟩
    exact hs
  | dense g =>
    rw [hg] at hok
    dsimp only at hok ⊢
    have hstep : s.steps = (adamInit h.amsgrad s.state).step := by
      unfold AdamParam.steps
      cases s.state <;> rfl
    obtain ⟨hm0, hv0, hvm0⟩ : (adamInit h.amsgrad s.state).expAvg ∈ geo.Tan s.point ∧
        (∀ i j, geo.block i j → (adamInit h.amsgrad s.state).expAvgSq i =
          (adamInit h.amsgrad s.state).expAvgSq j) ∧
        ∀ vm, (adamInit h.amsgrad s.state).maxExpAvgSq = some vm →
          ∀ i j, geo.block i j → vm i = vm j := by
      cases hst : s.state with
      | some st => exact hs.1.2 st hst
      | none =>
        refine ⟨(geo.Tan _).zero_mem, fun _ _ _ => rfl, fun vm hvm i j _ => ?_⟩
        dsimp only [adamInit] at hvm
        split_ifs at hvm
        cases hvm
        rfl
    have hbd : ∀ i, 0 ≤ (adamInit h.amsgrad s.state).expAvgSq i ∧
        M.componentInner s.point (adamInit h.amsgrad s.state).expAvg i ≤
          bnd β₁ β₂ (adamInit h.amsgrad s.state).step * (adamInit h.amsgrad s.state).expAvgSq i := by
      cases hst : s.state with
      | some st => exact hs.2 st hst
      | none =>
        intro i
        dsimp only [adamInit]
        rw [zero_len hc i hs.1.1]
        simp
    rw [hstep]
    generalize adamInit h.amsgrad s.state = st at hm0 hv0 hvm0 hbd hok ⊢
    have he := geo.egrad (g + h.weightDecay • s.point) hs.1.1
    generalize M.egrad2rgrad s.point (g + h.weightDecay • s.point) = r at he hok ⊢
    have hmt : h.beta1 • st.expAvg + (1 - h.beta1) • r.value ∈ geo.Tan s.point :=
      (geo.Tan _).add_mem ((geo.Tan _).smul_mem _ hm0) ((geo.Tan _).smul_mem _ he)
    have hvb : ∀ i j, geo.block i j →
        (h.beta2 • st.expAvgSq + (1 - h.beta2) • M.componentInner s.point r.value) i =
        (h.beta2 • st.expAvgSq + (1 - h.beta2) • M.componentInner s.point r.value) j := by
      intro i j hij
      simp only [Pi.add_apply, Pi.smul_apply, smul_eq_mul]
      rw [hv0 i j hij, geo.component _ _ i j hij]
    have hnew : ∀ i, 0 ≤ (h.beta2 • st.expAvgSq + (1 - h.beta2) • M.componentInner s.point r.value) i ∧
        M.componentInner s.point (h.beta1 • st.expAvg + (1 - h.beta1) • r.value) i ≤
          bnd β₁ β₂ (st.step + 1) *
          (h.beta2 • st.expAvgSq + (1 - h.beta2) • M.componentInner s.point r.value) i := by
      intro i
      rw [e1, e2]
      exact moments hc h1 h1'.le h2 h2' hs.1.1 hm0 he i (hbd i).1 (hbd i).2
    generalize h.beta1 • st.expAvg + (1 - h.beta1) • r.value = m at hmt hnew hok ⊢
    generalize h.beta2 • st.expAvgSq + (1 - h.beta2) • M.componentInner s.point r.value = v
      at hvb hnew hok ⊢
    have htan : ∀ norm : ι → ℝ, (∀ i j, geo.block i j → norm i = norm j) →
        -h.lr • adamDirection h (st.step + 1) m norm ∈ geo.Tan s.point := by
      intro norm hnorm
      refine (geo.Tan _).smul_mem (-h.lr) ?_
      have := geo.scale (fun i => ((1 - h.beta1 ^ (st.step + 1)))⁻¹ *
        (Real.sqrt (norm i / (1 - h.beta2 ^ (st.step + 1))) + h.eps)⁻¹)
        (fun i j hij => by simp only [hnorm i j hij]) hmt
      convert this using 1
      funext i
      simp only [adamDirection]
      rw [div_eq_mul_inv, div_eq_mul_inv]
      ring
    have fin : ∀ (vm : Option (ι → ℝ)) (norm : ι → ℝ), (∀ i j, geo.block i j → norm i = norm j) →
        (∀ i, v i ≤ norm i) → ∀ f : Bool × Option PyErr,
        AdamOk geo ⟨(M.retrTransp s.point (-h.lr • adamDirection h (st.step + 1) m norm) m).1,
          .dense r.arg, some ⟨st.step + 1,
          (M.retrTransp s.point (-h.lr • adamDirection h (st.step + 1) m norm) m).2, v, vm⟩⟩ →
        Bounded geo β₁ β₂ ⟨(M.retrTransp s.point (-h.lr • adamDirection h (st.step + 1) m norm) m).1,
          .dense r.arg, some ⟨st.step + 1,
          (M.retrTransp s.point (-h.lr • adamDirection h (st.step + 1) m norm) m).2, v, vm⟩⟩ ∧
        (0 < h.eps → f.2 = none → ∀ g' : ι → ℝ, Grad.dense g = Grad.dense g' →
          ∃ u ∈ geo.Tan s.point,
            (M.retrTransp s.point (-h.lr • adamDirection h (st.step + 1) m norm) m).1 =
              M.retr s.point u ∧
            ∀ i, M.componentInner s.point u i ≤
              (h.lr * adamFactor β₁ β₂ (st.step + 1)) ^ 2) := by
      intro vm norm hnorm hle f hAO
      have hu := htan norm hnorm
      refine ⟨⟨hAO, ?_⟩, fun he' _ _ _ => ⟨_, hu, hc.retr hs.1.1 hu hmt, fun i => ?_⟩⟩
      · rintro st' ⟨⟩ i
        exact ⟨(hnew i).1, le_trans (hc.transp i hs.1.1 hu hmt) (hnew i).2⟩
      · exact direction_len hc e1 e2 h1 h1' h2 h2' he' (Nat.succ_ne_zero _) hs.1.1 hmt hnorm i
          (hnew i).1 (hle i) (hnew i).2
    cases hams : h.amsgrad with
    | false =>
      rw [hams] at hok
      exact fin st.maxExpAvgSq v hvb (fun _ => le_rfl) _ hok
    | true =>
      rw [hams] at hok
      cases hvm : st.maxExpAvgSq with
      | none =>
        rw [hvm] at hok
        refine ⟨⟨hok, ?_⟩, fun _ h => by cases h⟩
        rintro st' ⟨⟩
        exact hnew
      | some vm =>
        rw [hvm] at hok
        have hmax : ∀ i j, geo.block i j → max (vm i) (v i) = max (vm j) (v j) := fun i j hij => by
          rw [hvm0 vm hvm i j hij, hvb i j hij]
        exact fin (some fun i => max (vm i) (v i)) (fun i => max (vm i) (v i)) hmax
          (fun i => le_max_right _ _) _ hok

end Param

section History
variable {κ : Type} [DecidableEq κ] {ι : κ → Type} {P : Params κ ι}

theorem adamStab_bounded (geo : ∀ a, Geometry (P.manifold a)) (hp : ∀ a, ProjContracts (geo a))
    {β₁ β₂ : ℝ} (h2 : 0 < β₂) (h2' : β₂ < 1) (a : κ) (s : AdamParam (ι a))
    (hs : Bounded (geo a) β₁ β₂ s) :
    Bounded (geo a) β₁ β₂ (adamStab (P.isManifold a) (P.man a) s) := by
  refine ⟨adamStab_ok geo a s hs.1, ?_⟩
  cases hM : P.isManifold a with
  | false => exact hs.2
  | true =>
    rw [← manifold_of hM]
    unfold adamStab
    simp only [Bool.true_eq_false, if_false]
    cases hst : s.state with
    | none => intro st h; rw [hst] at h; cases h
    | some st =>
      dsimp only
      rw [(geo a).projx hs.1.1]
      rintro st' ⟨⟩ i
      obtain ⟨k1, k2⟩ := hs.2 st hst i
      exact ⟨k1, le_trans (hp a i hs.1.1 (hs.1.2 st hst).1) k2⟩

theorem adamStab_point (geo : ∀ a, Geometry (P.manifold a)) (a : κ) (s : AdamParam (ι a))
    (hs : (geo a).On s.point) :
    (adamStab (P.isManifold a) (P.man a) s).point = s.point := by
  cases hM : P.isManifold a with
  | false => rfl
  | true =>
    rw [← manifold_of hM]
    unfold adamStab
    simp only [Bool.true_eq_false, if_false]
    cases hst : s.state with
    | none => rfl
    | some st => exact (geo a).projx hs

/-- Stabilisation is harmless here, or it does not happen. -/
def StabOk (geo : ∀ a, Geometry (P.manifold a)) (Gs : List (AdamHyper × List κ)) : Prop :=
  (∀ a, ProjContracts (geo a)) ∨ ∀ G ∈ Gs, G.1.stabilize = none

theorem adamParam_flag {ι : Type} {M : Manifold ι} {h : AdamHyper} (hn : h.stabilize = none)
    (s : AdamParam ι) : (adamParam M h s).2.1 = false := by
  unfold adamParam adamFlag
  rw [hn]
  cases s.grad with
  | none => rfl
  | sparse => rfl
  | dense g =>
    dsimp only
    cases h.amsgrad with
    | false => rfl
    | true => cases (adamInit true s.state).maxExpAvgSq <;> rfl

theorem forParams_flag {S : κ → Type} (f : ∀ a, S a → S a × Bool × Option PyErr)
    (hf : ∀ a s, (f a s).2.1 = false) (as : List κ) (w : ∀ a, S a) :
    (forParams f as w).2.1 = false := by
  induction as generalizing w with
  | nil => rfl
  | cons a as ih =>
    rw [forParams]
    rcases h1 : f a (w a) with ⟨s, b, e⟩
    have hb := hf a (w a)
    rw [h1] at hb
    cases hb
    cases e with
    | some e => rfl
    | none =>
      dsimp only
      have := ih (Function.update w a s)
      rcases h2 : forParams f as (Function.update w a s) with ⟨w', b, e⟩
      rw [h2] at this
      cases this
      rfl

theorem adamGroups_bounded (geo : ∀ a, Geometry (P.manifold a)) (hc : ∀ a, Contracting (geo a))
    {β₁ β₂ : κ → ℝ} (hβ : ∀ a, 0 ≤ β₁ a ∧ β₁ a < 1 ∧ 0 < β₂ a ∧ β₂ a < 1)
    (Gs : List (AdamHyper × List κ)) (hG : ∀ G ∈ Gs, ∀ a ∈ G.2, G.1.beta1 = β₁ a ∧ G.1.beta2 = β₂ a)
    (hst : StabOk geo Gs)
    (w : ∀ a, AdamParam (ι a)) (hw : ∀ a, Bounded (geo a) (β₁ a) (β₂ a) (w a)) :
    ∀ a, Bounded (geo a) (β₁ a) (β₂ a) ((forGroups (adamGroup P) Gs w).1 a) := by
  induction Gs generalizing w with
  | nil => exact hw
  | cons G Gs ih =>
    have h1 := forParams_inv' (fun a => adamParam (P.manifold a) G.1)
      (fun a => Bounded (geo a) (β₁ a) (β₂ a)) G.2
      (fun a ha s hs => (adamParam_bounded (hc a) (hG G (by simp) a ha).1 (hG G (by simp) a ha).2
        (hβ a).1 (hβ a).2.1 (hβ a).2.2.1 (hβ a).2.2.2 hs).1) w hw
    have hst' : StabOk geo Gs := by
      rcases hst with h | h
      · exact .inl h
      · exact .inr fun G hG => h G (List.mem_cons_of_mem _ hG)
    have h2 : ∀ a, Bounded (geo a) (β₁ a) (β₂ a) ((adamGroup P w G).1 a) := by
      have hfl : G.1.stabilize = none →
          (forParams (fun a => adamParam (P.manifold a) G.1) G.2 w).2.1 = false :=
        fun hn => forParams_flag _ (fun a s => adamParam_flag hn s) _ _
      unfold adamGroup flagGroup
      rcases hf : forParams (fun a => adamParam (P.manifold a) G.1) G.2 w with ⟨w', b, e⟩
      rw [hf] at h1 hfl
      cases e with
      | some e => exact h1
      | none =>
        dsimp only
        split_ifs with hb
        · rcases hst with h | h
          · exact stabParams_inv _ (fun a => Bounded (geo a) (β₁ a) (β₂ a)) G.2
              (fun a _ s hs => adamStab_bounded geo h (hβ a).2.2.1 (hβ a).2.2.2 a s hs) w' h1
          · have := hfl (h G (by simp))
            dsimp only at this
            rw [this] at hb
            cases hb
        · exact h1
    rw [forGroups]
    rcases hg : adamGroup P w G with ⟨w', G', e⟩
    rw [hg] at h2
    cases e with
    | some e => exact h2
    | none => exact ih (fun G hG' => hG G (List.mem_cons_of_mem _ hG')) hst' w' h2

/-- The invariant holds along every history. -/
theorem reach_bounded (geo : ∀ a, Geometry (P.manifold a)) (hc : ∀ a, Contracting (geo a))
    {β₁ β₂ : κ → ℝ} (hβ : ∀ a, 0 ≤ β₁ a ∧ β₁ a < 1 ∧ 0 < β₂ a ∧ β₂ a < 1)
    {Allowed : Adam κ ι → Prop} {CanStab : Prop}
    (hA : ∀ o, Allowed o → FixedBetas β₁ β₂ o ∧ StabOk geo o.groups)
    (hS : CanStab → ∀ a, ProjContracts (geo a)) {o₀ o : Adam κ ι}
    (h0 : ∀ a, (geo a).On (o₀.par a).point ∧ (o₀.par a).state = none)
    (hr : AdamReachIf P Allowed CanStab o₀ o) :
    ∀ a, Bounded (geo a) (β₁ a) (β₂ a) (o.par a) := by
  induction hr with
  | start =>
    intro a
    refine ⟨⟨(h0 a).1, fun st hst => ?_⟩, fun st hst => ?_⟩ <;>
    · rw [(h0 a).2] at hst; cases hst
  | user _ h ih =>
    intro a
    obtain ⟨⟨h1, h2⟩, h3⟩ := ih a
    refine ⟨⟨by rw [(h a).1]; exact h1, fun st hst => ?_⟩, fun st hst => ?_⟩
    · rw [(h a).1]
      rw [(h a).2] at hst
      exact h2 st hst
    · rw [(h a).1]
      rw [(h a).2] at hst
      exact h3 st hst
  | @step o' _ hal ih =>
    exact adamGroups_bounded geo hc hβ o'.groups (hA o' hal).1 (hA o' hal).2 o'.par ih
  | @stabilize o' _ hcan ih =>
    have key : ∀ (Gs : List (AdamHyper × List κ)) (w : ∀ a, AdamParam (ι a)),
        (∀ a, Bounded (geo a) (β₁ a) (β₂ a) (w a)) →
        ∀ a, Bounded (geo a) (β₁ a) (β₂ a) (Gs.foldl (fun w G =>
          stabParams (fun a => adamStab (P.isManifold a) (P.man a)) G.2 w) w a) := by
      intro Gs
      induction Gs with
      | nil => intro w hw; exact hw
      | cons G Gs ihG =>
        intro w hw
        exact ihG _ (stabParams_inv _ (fun a => Bounded (geo a) (β₁ a) (β₂ a)) G.2
          (fun a _ s hs =>
            adamStab_bounded geo (hS hcan) (hβ a).2.2.1 (hβ a).2.2.2 a s hs) w hw)
    exact key o'.groups o'.par ih

theorem step_len (geo : ∀ a, Geometry (P.manifold a)) (hc : ∀ a, Contracting (geo a))
    {β₁ β₂ : κ → ℝ} (hβ : ∀ a, 0 ≤ β₁ a ∧ β₁ a < 1 ∧ 0 < β₂ a ∧ β₂ a < 1)
    {o : Adam κ ι} (hinv : ∀ a, Bounded (geo a) (β₁ a) (β₂ a) (o.par a)) (hb : FixedBetas β₁ β₂ o)
    (hn : (o.groups.flatMap Prod.snd).Nodup) (hok : (adamStep P o).2 = none)
    {G : AdamHyper × List κ} (hG : G ∈ o.groups) (he : 0 < G.1.eps) {a : κ} (ha : a ∈ G.2)
    {g : ι a → ℝ} (hg : (o.par a).grad = .dense g) :
    ∃ u ∈ (geo a).Tan (o.par a).point,
      ((adamStep P o).1.par a).point = (P.manifold a).retr (o.par a).point u ∧
      ∀ i, (P.manifold a).componentInner (o.par a).point u i ≤
        (G.1.lr * adamFactor (β₁ a) (β₂ a) ((o.par a).steps + 1)) ^ 2 := by
  obtain ⟨k1, k2⟩ := (adamStep_ok (P := P) o hn hok).2 G hG a ha
  obtain ⟨j1, j2⟩ := adamParam_bounded (hc a) (hb G hG a ha).1 (hb G hG a ha).2 (hβ a).1 (hβ a).2.1
    (hβ a).2.2.1 (hβ a).2.2.2 (hinv a)
  obtain ⟨u, hu, hpt, hlen⟩ := j2 he k1 g hg
  refine ⟨u, hu, ?_, hlen⟩
  rw [k2]
  split_ifs
  · rw [adamStab_point geo a _ j1.1.1, hpt]
  · exact hpt

/-- **C99.** With `betas` fixed, `0 ≤ β₁ < 1` and `0 < β₂ < 1`, and everything else free (gradients,
learning rates, weight decay, `amsgrad`, the composition of the groups, `stabilize()` and the period of the
stabilisation, steps that raise), step number `t` of `RiemannianAdam` moves a parameter from `x` to
`retr x u` for a tangent vector `u` no longer than `lr` times `adamFactor β₁ β₂ t`, whatever the
gradients were. -/
theorem C99_adam (geo : ∀ a, Geometry (P.manifold a)) (hc : ∀ a, Contracting (geo a))
    (hp : ∀ a, ProjContracts (geo a)) {β₁ β₂ : κ → ℝ}
    (hβ : ∀ a, 0 ≤ β₁ a ∧ β₁ a < 1 ∧ 0 < β₂ a ∧ β₂ a < 1) {o₀ o : Adam κ ι}
    (h0 : ∀ a, (geo a).On (o₀.par a).point ∧ (o₀.par a).state = none)
    (hr : AdamReachIf P (FixedBetas β₁ β₂) True o₀ o) (hb : FixedBetas β₁ β₂ o)
    (hn : (o.groups.flatMap Prod.snd).Nodup) (hok : (adamStep P o).2 = none)
    {G : AdamHyper × List κ} (hG : G ∈ o.groups) (he : 0 < G.1.eps) {a : κ} (ha : a ∈ G.2)
    {g : ι a → ℝ} (hg : (o.par a).grad = .dense g) :
    ∃ u ∈ (geo a).Tan (o.par a).point,
      ((adamStep P o).1.par a).point = (P.manifold a).retr (o.par a).point u ∧
      ∀ i, (P.manifold a).componentInner (o.par a).point u i ≤
        (G.1.lr * adamFactor (β₁ a) (β₂ a) ((o.par a).steps + 1)) ^ 2 :=
  step_len geo hc hβ (reach_bounded geo hc hβ (fun o h => ⟨h, .inl hp⟩) (fun _ => hp) h0 hr) hb hn
    hok hG he ha hg

/-- **C99 without stabilisation.** The same where `proju` may lengthen tangent vectors
(`CanonicalStiefel`), for histories without `stabilize()` and with `stabilize=None`. -/
theorem C99_adam_unstabilized_partial (geo : ∀ a, Geometry (P.manifold a))
    (hc : ∀ a, Contracting (geo a)) {β₁ β₂ : κ → ℝ}
    (hβ : ∀ a, 0 ≤ β₁ a ∧ β₁ a < 1 ∧ 0 < β₂ a ∧ β₂ a < 1) {o₀ o : Adam κ ι}
    (h0 : ∀ a, (geo a).On (o₀.par a).point ∧ (o₀.par a).state = none)
    (hr : AdamReachIf P (fun o => FixedBetas β₁ β₂ o ∧ ∀ G ∈ o.groups, G.1.stabilize = none) False
      o₀ o) (hb : FixedBetas β₁ β₂ o)
    (hn : (o.groups.flatMap Prod.snd).Nodup) (hok : (adamStep P o).2 = none)
    {G : AdamHyper × List κ} (hG : G ∈ o.groups) (he : 0 < G.1.eps) {a : κ} (ha : a ∈ G.2)
    {g : ι a → ℝ} (hg : (o.par a).grad = .dense g) :
    ∃ u ∈ (geo a).Tan (o.par a).point,
      ((adamStep P o).1.par a).point = (P.manifold a).retr (o.par a).point u ∧
      ∀ i, (P.manifold a).componentInner (o.par a).point u i ≤
        (G.1.lr * adamFactor (β₁ a) (β₂ a) ((o.par a).steps + 1)) ^ 2 :=
  step_len geo hc hβ (reach_bounded geo hc hβ (fun o h => ⟨h.1, .inr h.2⟩) (fun h => h.elim) h0 hr)
    hb hn hok hG he ha hg

end History

/-- The first step is not longer than the learning rate. -/
theorem C99_first {β₁ β₂ : ℝ} (h1' : β₁ < 1) (h2' : β₂ < 1) : adamFactor β₁ β₂ 1 = 1 := by
  have h3 : 0 < 1 - β₁ := by linarith
  have h4 : 0 < 1 - β₂ := by linarith
  unfold adamFactor
  simp only [Finset.range_one, Finset.sum_singleton, pow_zero, pow_one, mul_one]
  rw [div_self h4.ne', Real.sqrt_one, mul_one, div_self h3.ne']

/-- If `β₁² < β₂` (the defaults 0.9 and 0.999 are such), the factor has one bound for all steps. -/
theorem C99_uniform {β₁ β₂ : ℝ} (h1 : 0 ≤ β₁) (h1' : β₁ < 1) (h2' : β₂ < 1)
    (h : β₁ ^ 2 < β₂) {t : ℕ} (ht : t ≠ 0) :
    0 ≤ adamFactor β₁ β₂ t ∧
    adamFactor β₁ β₂ t ≤ 1 / Real.sqrt ((1 - β₂) * (1 - β₁ ^ 2 / β₂)) := by
  have h2 : 0 < β₂ := lt_of_le_of_lt (sq_nonneg _) h
  have h3 : 0 < 1 - β₁ := by linarith
  have h4 : 0 < 1 - β₂ := by linarith
  have hq0 : 0 ≤ β₁ ^ 2 / β₂ := by positivity
  have hq1 : β₁ ^ 2 / β₂ < 1 := by rw [div_lt_one h2]; exact h
  have hp1 : β₁ ^ t ≤ β₁ := pow_le_of_le_one h1 h1'.le ht
  have hp2 : 0 ≤ β₂ ^ t := by positivity
  have hp2' : β₂ ^ t ≤ 1 := pow_le_one₀ h2.le h2'.le
  have hs : ∑ j ∈ Finset.range t, (β₁ ^ 2 / β₂) ^ j ≤ (1 - β₁ ^ 2 / β₂)⁻¹ := by
    have e := mul_neg_geom_sum (β₁ ^ 2 / β₂) t
    have : 0 ≤ (β₁ ^ 2 / β₂) ^ t := by positivity
    rw [← one_div, le_div_iff₀ (by linarith), mul_comm, e]
    linarith
  have hs0 : 0 ≤ ∑ j ∈ Finset.range t, (β₁ ^ 2 / β₂) ^ j := Finset.sum_nonneg fun j _ => by positivity
  have hq : 0 < 1 - β₁ ^ 2 / β₂ := by linarith
  unfold adamFactor
  refine ⟨div_nonneg (mul_nonneg h3.le (Real.sqrt_nonneg _)) (by linarith), ?_⟩
  rw [div_le_iff₀ (by linarith)]
  have hle : (1 - β₂ ^ t) / (1 - β₂) * ∑ j ∈ Finset.range t, (β₁ ^ 2 / β₂) ^ j ≤
      1 / ((1 - β₂) * (1 - β₁ ^ 2 / β₂)) := by
    have : (1 - β₂ ^ t) / (1 - β₂) ≤ 1 / (1 - β₂) := by
      apply div_le_div_of_nonneg_right _ h4.le
      linarith
    calc _ ≤ 1 / (1 - β₂) * (1 - β₁ ^ 2 / β₂)⁻¹ := mul_le_mul this hs hs0 (by positivity)
      _ = _ := by field_simp
  have hsq := Real.sqrt_le_sqrt hle
  rw [Real.sqrt_div zero_le_one, Real.sqrt_one] at hsq
  have hr : 0 ≤ 1 / Real.sqrt ((1 - β₂) * (1 - β₁ ^ 2 / β₂)) := by positivity
  calc _ ≤ (1 - β₁) * (1 / Real.sqrt ((1 - β₂) * (1 - β₁ ^ 2 / β₂))) :=
        mul_le_mul_of_nonneg_left hsq h3.le
    _ = 1 / Real.sqrt ((1 - β₂) * (1 - β₁ ^ 2 / β₂)) * (1 - β₁) := mul_comm _ _
    _ ≤ _ := mul_le_mul_of_nonneg_left (by linarith) hr

/-- With the default `betas` no step is longer than 73 times the learning rate. -/
theorem C99_default {t : ℕ} (ht : t ≠ 0) : adamFactor 0.9 0.999 t ≤ 73 := by
  refine le_trans (C99_uniform (by norm_num) (by norm_num) (by norm_num) (by norm_num) ht).2 ?_
  rw [div_le_iff₀ (Real.sqrt_pos.2 (by norm_num))]
  have : (1 / 73 : ℝ) ≤ Real.sqrt ((1 - 0.999) * (1 - 0.9 ^ 2 / 0.999)) :=
    Real.le_sqrt_of_sq_le (by norm_num)
  linarith

end Geoopt.C99
