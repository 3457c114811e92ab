import Verif.Props.C100
import Verif.Props.C99Cx

/-!
# C100: special cases without the condition, the counterexample, and a concrete history
-/

namespace Geoopt.C100
open Geoopt Geoopt.Optim C55 Geoopt.C99

section History
variable {κ : Type} [DecidableEq κ] {ι : κ → Type} [∀ a, Nonempty (ι a)] {P : Params κ ι}

/-- **C100 without momentum.** No condition on the first gradient: gradients no longer than `Γ` give
steps no longer than `lr · Γ`. -/
theorem C100_no_momentum (geo : ∀ a, Geometry (P.manifold a)) (hc : ∀ a, Contracting (geo a))
    (hp : ∀ a, ProjContracts (geo a)) {Γ : κ → ℝ} (hΓ : ∀ a, 0 ≤ Γ a) {o₀ o : SGD κ ι}
    (h0 : ∀ a, (geo a).On (o₀.par a).point ∧ (o₀.par a).buf = none)
    (hr : SGDReach P (fun o => (o.groups.flatMap Group.params).Nodup ∧
      ∀ G ∈ o.groups, ∀ a ∈ G.params, G.hyper.momentum = 0 ∧ |1 - G.hyper.dampening| ≤ 1 ∧
        ∀ g, (o.par a).grad = .dense g → ∀ i, (P.manifold a).componentInner (o.par a).point
          ((P.manifold a).egrad2rgrad (o.par a).point
            (g + G.hyper.weightDecay • (o.par a).point)).value i ≤ Γ a ^ 2) o₀ o)
    (hn : (o.groups.flatMap Group.params).Nodup)
    (hb : ∀ G ∈ o.groups, ∀ a ∈ G.params, G.hyper.momentum = 0 ∧ |1 - G.hyper.dampening| ≤ 1 ∧
      ∀ g, (o.par a).grad = .dense g → ∀ i, (P.manifold a).componentInner (o.par a).point
        ((P.manifold a).egrad2rgrad (o.par a).point
          (g + G.hyper.weightDecay • (o.par a).point)).value i ≤ Γ a ^ 2)
    (hok : (sgdStep P o).2 = none) {G : Group SGDHyper κ} (hG : G ∈ o.groups) {a : κ}
    (ha : a ∈ G.params) {g : ι a → ℝ} (hg : (o.par a).grad = .dense g) :
    ∃ u ∈ (geo a).Tan (o.par a).point,
      ((sgdStep P o).1.par a).point = (P.manifold a).retr (o.par a).point u ∧
      ∀ i, (P.manifold a).componentInner (o.par a).point u i ≤ (G.hyper.lr * Γ a) ^ 2 := by
  have key : ∀ o : SGD κ ι, ((o.groups.flatMap Group.params).Nodup ∧
      ∀ G ∈ o.groups, ∀ a ∈ G.params, G.hyper.momentum = 0 ∧ |1 - G.hyper.dampening| ≤ 1 ∧
        ∀ g, (o.par a).grad = .dense g → ∀ i, (P.manifold a).componentInner (o.par a).point
          ((P.manifold a).egrad2rgrad (o.par a).point
            (g + G.hyper.weightDecay • (o.par a).point)).value i ≤ Γ a ^ 2) →
      GradientsBounded geo (fun _ => 0) Γ o := fun o h =>
    ⟨h.1, fun G hG a ha => ⟨(h.2 G hG a ha).1, (h.2 G hG a ha).2.1, fun g hg i =>
      ⟨(h.2 G hG a ha).2.2 g hg i, fun h0 => absurd h0 (lt_irrefl _)⟩⟩⟩
  have hr' : SGDReach P (GradientsBounded geo (fun _ => 0) Γ) o₀ o := by
    clear hn hb hok hG ha hg
    induction hr with
    | start => exact .start
    | user _ h ih => exact .user ih h
    | step _ h ih => exact .step ih (key _ h)
    | stabilize _ ih => exact .stabilize ih
  have := C100_sgd_partial geo hc hp (fun _ => ⟨le_refl _, one_pos⟩) hΓ h0 hr' (key o ⟨hn, hb⟩) hok
    hG ha hg
  simpa using this

end History

/-! ## Euclidean parameters: the first gradient is a Riemannian gradient -/

/-- **C100 for Euclidean parameters without weight decay**: no condition on the first gradient.
Every component of the parameter moves by at most `lr · Γ / (1 - μ)` when no component of a gradient
exceeds `Γ`. -/
theorem C100_euclidean {κ : Type} [DecidableEq κ] {ι : κ → Type} [∀ a, Nonempty (ι a)]
    {P : Params κ ι} (hP : ∀ a, P.manifold a = euclidean (ι a)) {μ Γ : κ → ℝ}
    (hμ : ∀ a, 0 ≤ μ a ∧ μ a < 1) (hΓ : ∀ a, 0 ≤ Γ a) {o₀ o : SGD κ ι}
    (h0 : ∀ a, (o₀.par a).buf = none)
    (hr : SGDReach P (fun o => (o.groups.flatMap Group.params).Nodup ∧ ∀ G ∈ o.groups, ∀ a ∈ G.params,
      G.hyper.momentum = μ a ∧ G.hyper.weightDecay = 0 ∧ |1 - G.hyper.dampening| ≤ 1 ∧
      ∀ g, (o.par a).grad = .dense g → ∀ i, |g i| ≤ Γ a) o₀ o)
    (hn : (o.groups.flatMap Group.params).Nodup)
    (hb : ∀ G ∈ o.groups, ∀ a ∈ G.params,
      G.hyper.momentum = μ a ∧ G.hyper.weightDecay = 0 ∧ |1 - G.hyper.dampening| ≤ 1 ∧
      ∀ g, (o.par a).grad = .dense g → ∀ i, |g i| ≤ Γ a)
    (hok : (sgdStep P o).2 = none) {G : Group SGDHyper κ} (hG : G ∈ o.groups) {a : κ}
    (ha : a ∈ G.params) {g : ι a → ℝ} (hg : (o.par a).grad = .dense g) (i : ι a) :
    |((sgdStep P o).1.par a).point i - (o.par a).point i| ≤ |G.hyper.lr| * (Γ a / (1 - μ a)) := by
  have geo : ∀ a, ∃ geo : Geometry (P.manifold a), Contracting geo ∧ ProjContracts geo ∧
      (∀ x, geo.On x) ∧ ∀ x, geo.Tan x = ⊤ := by
    intro a
    rw [hP a]
    exact ⟨euclideanGeometry _, C99_euclidean_contracting _, C99_euclidean_proj _, fun _ => trivial,
      fun _ => rfl⟩
  choose geo hc hp hon htan using geo
  have key : ∀ o : SGD κ ι, ((o.groups.flatMap Group.params).Nodup ∧ ∀ G ∈ o.groups, ∀ a ∈ G.params,
      G.hyper.momentum = μ a ∧ G.hyper.weightDecay = 0 ∧ |1 - G.hyper.dampening| ≤ 1 ∧
      ∀ g, (o.par a).grad = .dense g → ∀ i, |g i| ≤ Γ a) → GradientsBounded geo μ Γ o := by
    intro o h
    refine ⟨h.1, fun G hG a ha => ?_⟩
    obtain ⟨h1, h2, h3, h4⟩ := h.2 G hG a ha
    refine ⟨h1, h3, fun g hg i => ?_⟩
    have hgi := h4 g hg i
    have h5 : g i ^ 2 ≤ Γ a ^ 2 := sq_le_sq' (by linarith [(abs_le.1 hgi).1]) (abs_le.1 hgi).2
    refine ⟨?_, fun hm _ => ⟨by rw [htan]; trivial, ?_⟩⟩
    · rw [hP a, h2]
      simpa [euclidean] using h5
    · rw [hP a]
      refine le_trans (by simpa [euclidean] using h5) (pow_le_pow_left₀ (hΓ a) ?_ 2)
      rw [le_div_iff₀ (by linarith [(hμ a).2])]
      nlinarith [hΓ a]
  have hr' : SGDReach P (GradientsBounded geo μ Γ) o₀ o := by
    clear hn hb hok hG ha hg
    induction hr with
    | start => exact .start
    | user _ h ih => exact .user ih h
    | step _ h ih => exact .step ih (key _ h)
    | stabilize _ ih => exact .stabilize ih
  obtain ⟨u, -, h1, h2⟩ := C100_sgd_partial geo hc hp hμ hΓ (fun a => ⟨hon a _, h0 a⟩) hr'
    (key o ⟨hn, hb⟩) hok hG ha hg
  have h3 := h2 i
  rw [h1]
  rw [hP a] at h3 ⊢
  simp only [euclidean, Pi.add_apply, add_sub_cancel_left] at h3 ⊢
  have h4 : 0 ≤ Γ a / (1 - μ a) := div_nonneg (hΓ a) (by linarith [(hμ a).2])
  have := sq_le_sq.1 h3
  rwa [abs_mul, abs_of_nonneg h4] at this

/-! ## The Poincaré ball: the first gradient is not a Riemannian gradient -/

/-- One parameter in one group. -/
def oneS {ι : Type} (h : SGDHyper) (s : SGDParam ι) : SGD Unit fun _ => ι := ⟨fun _ => s, [⟨h, 0, [()]⟩]⟩

theorem oneS_step {ι : Type} (M : Manifold ι) (h : SGDHyper) (s : SGDParam ι)
    (hst : h.stabilize = none) (hok : (sgdParam M h s).2.2 = none) :
    (sgdStep (onM M) (oneS h s)).2 = none ∧
    (sgdStep (onM M) (oneS h s)).1.par () = (sgdParam M h s).1 := by
  unfold sgdStep oneS
  simp only [forGroups, sgdGroup, counterGroup, forParams, onM_manifold]
  rcases e : sgdParam M h s with ⟨s', b, e'⟩
  rw [e] at hok
  cases hok
  simp only [hst]
  exact ⟨trivial, by simp⟩

/-- **The condition on the first gradient is needed.** On the Poincaré ball (`k = -1`) at the point 0.99,
with `momentum=0.5` and a gradient whose Riemannian length is 1, the first step of `RiemannianSGD` is more
than 1000 times longer than `lr · Γ / (1 - μ) = 2 lr`: the momentum starts with the raw gradient. -/
theorem C100_counterexample_first_gradient (dt : DType) : ∃ lr c : ℝ, 0 < lr ∧
    let x : Fin 1 → ℝ := fun _ => 0.99
    let M : Manifold (Fin 1) := stereographic Stereo.codeEta dt (-1)
    let o : SGD Unit fun _ => Fin 1 := oneS ⟨lr, 1 / 2, 0, 0, false, none⟩ ⟨x, .dense fun _ => c, none⟩
    Stereo.Valid Stereo.codeEta dt (-1) x ∧
    Stereo.inner (-1) x (M.egrad2rgrad x fun _ => c).value (M.egrad2rgrad x fun _ => c).value = 1 ∧
    (sgdStep (onM M) o).2 = none ∧
    ∀ u, Stereo.inner (-1) x u u ≤ (1000 * (lr * (1 / (1 - 1 / 2)))) ^ 2 →
      ((sgdStep (onM M) o).1.par ()).point ≠ M.retr x u := by
  refine ⟨0.99 / (10000 / 199 + 199 / 20000), 20000 / 199, by norm_num, ?_⟩
  intro x M o
  set lr : ℝ := 0.99 / (10000 / 199 + 199 / 20000) with hlr
  have hl : Stereo.lambdaX (-1) x = 20000 / 199 := by
    unfold Stereo.lambdaX
    have : x ⬝ᵥ x = 0.9801 := by simp [x, dotProduct]; norm_num
    rw [this, max_eq_left (by norm_num)]
    norm_num
  have he : M.egrad2rgrad x (fun _ => 20000 / 199) = ⟨fun _ => 199 / 20000, fun _ => 20000 / 199, false⟩ := by
    simp only [M, stereographic, Stereo.egrad2rgrad, hl]
    congr 1
    funext i
    simp only [Pi.smul_apply, smul_eq_mul]
    norm_num
  have hproj0 : ∀ z : Fin 1 → ℝ, Stereo.project Stereo.codeEta dt (-1) z = 0 → z = 0 := by
    intro z hz
    unfold Stereo.project at hz
    dsimp only at hz
    split_ifs at hz with h
    · have hm : 0 < Stereo.maxNorm Stereo.codeEta dt (-1) := by
        unfold Stereo.maxNorm
        rw [if_pos (by norm_num)]
        refine div_pos (by cases dt <;> norm_num [Stereo.projEps]) (Real.rpow_pos_of_pos ?_ _)
        norm_num [sabs, Stereo.codeEta]
      rcases smul_eq_zero.1 hz with h1 | h1
      · exact absurd h1 hm.ne'
      · rcases smul_eq_zero.1 h1 with h2 | h2
        · have := lt_of_lt_of_le (by norm_num : (0:ℝ) < 1e-15) (le_max_right (nrm z) 1e-15)
          exact absurd h2 (inv_ne_zero this.ne')
        · exact h2
    · exact hz
  have hpt : ((sgdParam M ⟨lr, 1 / 2, 0, 0, false, none⟩ ⟨x, .dense fun _ => 20000 / 199, none⟩).2.2 =
      none) ∧ (sgdParam M ⟨lr, 1 / 2, 0, 0, false, none⟩
        ⟨x, .dense fun _ => 20000 / 199, none⟩).1.point = 0 := by
    have hh : (0 : ℝ) < 1 / 2 := by norm_num
    unfold sgdParam
    simp only [zero_smul, add_zero, he, if_pos hh]
    refine ⟨trivial, ?_⟩
    have e : x + -lr • ((1 / 2 : ℝ) • (fun _ : Fin 1 => (20000 / 199 : ℝ)) +
        (1 - 0 : ℝ) • fun _ : Fin 1 => (199 / 20000 : ℝ)) = 0 := by
      funext i
      simp only [x, Pi.add_apply, Pi.smul_apply, smul_eq_mul, Pi.zero_apply, hlr]
      norm_num
    have e2 : Stereo.project Stereo.codeEta dt (-1) (0 : Fin 1 → ℝ) = 0 := by
      unfold Stereo.project
      dsimp only
      split_ifs <;> simp
    simp only [Bool.false_eq_true, if_false]
    simp only [M, stereographic, Stereo.M.retrTransp, Stereo.M.retr, e, e2]
  obtain ⟨s1, s2⟩ := oneS_step M ⟨lr, 1 / 2, 0, 0, false, none⟩ ⟨x, .dense fun _ => 20000 / 199, none⟩
    rfl hpt.1
  refine ⟨?_, ?_, s1, ?_⟩
  · unfold Stereo.Valid
    have hn : nrm x = 0.99 := by
      have : x ⬝ᵥ x = 0.99 ^ 2 := by simp [x, dotProduct]; norm_num
      unfold nrm
      rw [this, Real.sqrt_sq (by norm_num)]
    rw [hn, le_div_iff₀ (Real.sqrt_pos.2 (by norm_num [Stereo.codeEta]))]
    have : Real.sqrt (|(-1 : ℝ)| + Stereo.codeEta) ≤ 1.001 := by
      refine Real.sqrt_le_iff.2 ⟨by norm_num, ?_⟩
      norm_num [Stereo.codeEta]
    cases dt <;> norm_num at this ⊢ <;> linarith
  · rw [he]
    unfold Stereo.inner
    rw [hl]
    simp [dotProduct]
    norm_num
  · intro u hu
    rw [s2, hpt.2]
    intro h0
    have h1 : x + u = 0 := hproj0 _ (by simpa [M, stereographic, Stereo.M.retr] using h0.symm)
    have h2 := congrFun h1 0
    simp only [Pi.add_apply, x, Pi.zero_apply] at h2
    have h3 : u 0 = -0.99 := by linarith
    unfold Stereo.inner at hu
    rw [hl] at hu
    simp only [dotProduct, Finset.univ_unique, Fin.default_eq_zero, Finset.sum_singleton, h3, hlr] at hu
    norm_num at hu

/-- The theorem applies with momentum on a ball: at the origin, where the conformal factor is 2, a gradient
whose Riemannian length is 1 has length 4 in the metric, so momentum 3/4 is allowed. -/
example (dt : DType) (lr : ℝ) (i : Fin 1) :
    let M : Manifold (Fin 1) := stereographic Stereo.codeEta dt (-1)
    let o : SGD Unit fun _ => Fin 1 := oneS ⟨lr, 3 / 4, 0, 0, true, none⟩ ⟨0, .dense fun _ => 2, none⟩
    ∃ u, ((sgdStep (onM M) o).1.par ()).point = M.retr 0 u ∧
      Stereo.inner (-1) (0 : Fin 1 → ℝ) u u ≤ (lr * (1 / (1 - 3 / 4))) ^ 2 := by
  intro M o
  have hη : (0 : ℝ) ≤ Stereo.codeEta := by norm_num [Stereo.codeEta]
  have hη1 : Stereo.codeEta ≤ 1 := by norm_num [Stereo.codeEta]
  have hl : Stereo.lambdaX (-1) (0 : Fin 1 → ℝ) = 2 := by
    unfold Stereo.lambdaX
    rw [zero_dotProduct, max_eq_left (by norm_num)]
    norm_num
  have hv : Stereo.Valid Stereo.codeEta dt (-1) (0 : Fin 1 → ℝ) := by
    unfold Stereo.Valid
    rw [nrm_zero]
    exact div_nonneg (by cases dt <;> norm_num) (Real.sqrt_nonneg _)
  have hb : GradientsBounded (P := onM M) (fun _ => ballGeometry hη hη1 (by norm_num) (by norm_num) dt)
      (fun _ => 3 / 4) (fun _ => 1) o := by
    refine ⟨by simp [o, oneS], fun G hG a _ => ?_⟩
    simp only [o, oneS, List.mem_singleton] at hG
    subst hG
    refine ⟨rfl, by norm_num, fun g hg i => ?_⟩
    simp only [o, oneS, Grad.dense.injEq] at hg
    subst hg
    refine ⟨?_, fun _ _ => ⟨trivial, ?_⟩⟩
    · change Stereo.inner (-1) (0 : Fin 1 → ℝ) (Stereo.egrad2rgrad (-1) 0 ((fun _ => 2) + (0 : ℝ) • 0))
        (Stereo.egrad2rgrad (-1) 0 ((fun _ => 2) + (0 : ℝ) • 0)) ≤ 1 ^ 2
      simp only [Stereo.inner, Stereo.egrad2rgrad, hl]
      simp [dotProduct]
      norm_num
    · change Stereo.inner (-1) (0 : Fin 1 → ℝ) (fun _ => 2) (fun _ => 2) ≤ (1 / (1 - 3 / 4)) ^ 2
      simp only [Stereo.inner, hl]
      simp [dotProduct]
      norm_num
  obtain ⟨u, -, h1, h2⟩ := C100_sgd_partial (P := onM M)
    (fun _ => ballGeometry hη hη1 (by norm_num) (by norm_num) dt) (fun _ => C99_ball_contracting _ _ _ _ _)
    (fun _ => C99_ball_proj _ _ _ _ _) (μ := fun _ => 3 / 4) (Γ := fun _ => 1)
    (fun _ => by norm_num) (fun _ => by norm_num) (o₀ := o) (o := o) (fun _ => ⟨hv, rfl⟩) .start hb
    (oneS_step M _ _ rfl (by
      unfold sgdParam
      have hh : (0 : ℝ) < 3 / 4 := by norm_num
      simp only [if_pos hh])).1
    (G := ⟨⟨lr, 3 / 4, 0, 0, true, none⟩, 0, [()]⟩) (by simp [o, oneS]) (a := ()) (by simp)
    (g := fun _ => 2) rfl
  exact ⟨u, h1, h2 i⟩

end Geoopt.C100
