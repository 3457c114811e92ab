import Verif.Spec.Convergence
import Verif.Lemmas.OptimNoerr
import Verif.Lemmas.OptimStep
import Verif.Props.C55
import Mathlib.Analysis.Calculus.Deriv.MeanValue
import Mathlib.Analysis.Calculus.MeanValue
import Mathlib.Analysis.Calculus.ContDiff.Operations
import Mathlib.Analysis.Calculus.FDeriv.Prod
import Mathlib.Analysis.Calculus.FDeriv.Pow
import Mathlib.Analysis.Calculus.Deriv.Pow
import Mathlib.Topology.Algebra.InfiniteSum.Real

/-!
# C103: full-batch training with `RiemannianSGD` converges to critical points
-/

namespace Geoopt.C103
open Geoopt Geoopt.Optim Filter Topology

variable {κ : Type} [Fintype κ] {ι : κ → Type} [∀ a, Fintype (ι a)]

/-! ### Calculus -/

/-- The squared length of all parameters together. -/
def total (u : ∀ a, ι a → ℝ) : ℝ := ∑ a, sqLen (u a)

theorem sqLen_nonneg {ι : Type} [Fintype ι] (u : ι → ℝ) : 0 ≤ sqLen u :=
  Finset.sum_nonneg fun _ _ => sq_nonneg _

theorem total_nonneg (u : ∀ a, ι a → ℝ) : 0 ≤ total u := Finset.sum_nonneg fun _ _ => sqLen_nonneg _

theorem sqLen_smul {ι : Type} [Fintype ι] (c : ℝ) (u : ι → ℝ) : sqLen (c • u) = c ^ 2 * sqLen u := by
  simp only [sqLen, Pi.smul_apply, smul_eq_mul, mul_pow, Finset.mul_sum]

theorem total_smul (c : ℝ) (u : ∀ a, ι a → ℝ) : total (c • u) = c ^ 2 * total u := by
  simp only [total, Pi.smul_apply, sqLen_smul, Finset.mul_sum]

theorem cauchy (u v : ∀ a, ι a → ℝ) :
    (∑ a, ∑ i, u a i * v a i) ^ 2 ≤ total u * total v := by
  have h := Finset.sum_mul_sq_le_sq_mul_sq (Finset.univ : Finset (Σ a, ι a)) (fun p => u p.1 p.2)
    (fun p => v p.1 p.2)
  simp only [Fintype.sum_sigma] at h
  exact h

theorem cauchy_le {u v : ∀ a, ι a → ℝ} {p q : ℝ} (hp : 0 ≤ p) (hq : 0 ≤ q) (hu : total u ≤ p ^ 2)
    (hv : total v ≤ q ^ 2) : ∑ a, ∑ i, u a i * v a i ≤ p * q := by
  refine abs_le_of_sq_le_sq' ?_ (mul_nonneg hp hq) |>.2
  refine le_trans (cauchy u v) ?_
  rw [mul_pow]
  exact mul_le_mul hu hv (total_nonneg _) (sq_nonneg _)

/-- The inequality behind gradient descent. -/
theorem quadratic_bound {F : (∀ a, ι a → ℝ) → ℝ} {G : (∀ a, ι a → ℝ) → ∀ a, ι a → ℝ}
    {K : Set (∀ a, ι a → ℝ)} (hK : Convex ℝ K) (hF : ∀ x ∈ K, Gradient F (G x) x) {L : ℝ} (hL : 0 ≤ L)
    (hG : ∀ x ∈ K, ∀ y ∈ K, total (G y - G x) ≤ L ^ 2 * total (y - x)) {x y : ∀ a, ι a → ℝ}
    (hx : x ∈ K) (hy : y ∈ K) :
    F y ≤ F x + ∑ a, ∑ i, G x a i * (y a i - x a i) + L / 2 * total (y - x) := by
  set d := y - x with hd
  set γ : ℝ → ∀ a, ι a → ℝ := fun t => x + t • d with hγ
  have hmem : ∀ t ∈ Set.Icc (0 : ℝ) 1, γ t ∈ K := fun t ht => by
    have := hK hx hy (a := 1 - t) (b := t) (by linarith [ht.2]) ht.1 (by ring)
    have e : γ t = (1 - t) • x + t • y := by
      simp only [hγ, hd]; module
    rw [e]; exact this
  have hder : ∀ t, HasDerivAt γ d t := fun t => by
    have := ((hasDerivAt_id t).smul_const d).const_add x
    rw [one_smul] at this
    exact this
  set φ : ℝ → ℝ := fun t => F (γ t) - t * (∑ a, ∑ i, G x a i * d a i) - t ^ 2 * (L / 2 * total d)
    with hφ
  have hφd : ∀ t ∈ Set.Icc (0 : ℝ) 1, HasDerivAt φ ((∑ a, ∑ i, G (γ t) a i * d a i) -
      (∑ a, ∑ i, G x a i * d a i) - 2 * t * (L / 2 * total d)) t := fun t ht => by
    obtain ⟨D, hD, e⟩ := hF _ (hmem t ht)
    have h1 := hD.comp_hasDerivAt t (hder t)
    rw [e] at h1
    have h2 := (hasDerivAt_id t).mul_const (∑ a, ∑ i, G x a i * d a i)
    have h3 := (hasDerivAt_pow 2 t).mul_const (L / 2 * total d)
    have := (h1.sub h2).sub h3
    simp only [one_mul, Nat.cast_ofNat, Nat.add_one_sub_one, pow_one] at this
    exact this
  have hanti : AntitoneOn φ (Set.Icc 0 1) := by
    refine antitoneOn_of_hasDerivWithinAt_nonpos (convex_Icc 0 1)
      (fun t ht => (hφd t ht).continuousAt.continuousWithinAt)
      (fun t ht => (hφd t (interior_subset ht)).hasDerivWithinAt) fun t ht => ?_
    have ht' := interior_subset ht
    have ht0 : 0 ≤ t := ht'.1
    have h1 : total (G (γ t) - G x) ≤ (L * t * Real.sqrt (total d)) ^ 2 := by
      refine le_trans (hG x hx _ (hmem t ht')) (le_of_eq ?_)
      have e : γ t - x = t • d := by simp [hγ]
      rw [e, total_smul, mul_pow, mul_pow, Real.sq_sqrt (total_nonneg _)]
      ring
    have h2 := cauchy_le (u := G (γ t) - G x) (v := d) (q := Real.sqrt (total d))
      (by have := Real.sqrt_nonneg (total d); positivity) (Real.sqrt_nonneg _) h1
      (by rw [Real.sq_sqrt (total_nonneg _)])
    have h3 : ∑ a, ∑ i, (G (γ t) - G x) a i * d a i =
        ∑ a, ∑ i, G (γ t) a i * d a i - ∑ a, ∑ i, G x a i * d a i := by
      simp only [Pi.sub_apply, sub_mul, Finset.sum_sub_distrib]
    rw [h3] at h2
    have h4 : L * t * Real.sqrt (total d) * Real.sqrt (total d) = L * t * total d := by
      rw [mul_assoc, Real.mul_self_sqrt (total_nonneg _)]
    rw [h4] at h2
    linarith
  have := hanti (Set.left_mem_Icc.2 zero_le_one) (Set.right_mem_Icc.2 zero_le_one) zero_le_one
  simp only [hφ, hγ, one_smul, zero_smul, add_zero, zero_mul, one_mul, one_pow, sub_zero] at this
  have e : x + d = y := by simp [hd]
  rw [e] at this
  simp only [ne_eq, OfNat.ofNat_ne_zero, not_false_eq_true, zero_pow, zero_mul, sub_zero] at this
  have e2 : ∑ a, ∑ i, G x a i * d a i = ∑ a, ∑ i, G x a i * (y a i - x a i) := rfl
  rw [e2] at this
  linarith

/-- One step of gradient descent. -/
theorem descent_step {P : Params κ ι} {F : (∀ a, ι a → ℝ) → ℝ}
    {G : (∀ a, ι a → ℝ) → ∀ a, ι a → ℝ} {K : Set (∀ a, ι a → ℝ)} (hK : Convex ℝ K)
    (hF : ∀ x ∈ K, Gradient F (G x) x) {L : ℝ} (hL : 0 ≤ L)
    (hG : ∀ x ∈ K, ∀ y ∈ K, total (G y - G x) ≤ L ^ 2 * total (y - x))
    {On Gr : ∀ a, (ι a → ℝ) → Prop} {δ : κ → ℝ} {prog : ∀ a, (ι a → ℝ) → (ι a → ℝ) → ℝ → ℝ}
    (hp : ∀ a, Progress (P.manifold a) (On a) (Gr a) L (δ a) (prog a)) {x : ∀ a, ι a → ℝ}
    (hon : ∀ a, On a (x a)) (hgr : ∀ a, Gr a (G x a)) (hx : x ∈ K) {lr : κ → ℝ}
    (hl : ∀ a, 0 < lr a ∧ lr a ≤ δ a) (hy : (fun a => gradStep (P.manifold a) (x a) (G x a) (lr a)) ∈ K) :
    F (fun a => gradStep (P.manifold a) (x a) (G x a) (lr a)) +
      ∑ a, prog a (x a) (G x a) (lr a) ≤ F x := by
  have h1 := quadratic_bound hK hF hL hG hx hy
  have h2 := Finset.sum_le_sum fun a (_ : a ∈ Finset.univ) =>
    hp a (x a) (G x a) (lr a) (hon a) (hgr a) (hl a).1 (hl a).2
  rw [Finset.sum_add_distrib, ← Finset.mul_sum, Finset.sum_neg_distrib] at h2
  have h3 : total ((fun a => gradStep (P.manifold a) (x a) (G x a) (lr a)) - x) =
    ∑ a, sqLen (gradStep (P.manifold a) (x a) (G x a) (lr a) - x a) := rfl
  rw [h3] at h1
  linarith

/-! ### The optimiser -/

section Run
variable [DecidableEq κ] {P : Params κ ι} {o : ℕ → SGD κ ι} {G : (∀ a, ι a → ℝ) → ∀ a, ι a → ℝ}
  {wd : κ → ℝ} {lr : ℕ → κ → ℝ}

omit [Fintype κ] [∀ a, Fintype (ι a)] in
/-- A step does not raise and takes every parameter to `gradStep`. -/
theorem run_step (geo : ∀ a, Geometry (P.manifold a)) (h : FullBatch P o G wd lr) (t : ℕ)
    (hon : ∀ a, (geo a).On ((o t).points a)) :
    (sgdStep P (o t)).2 = none ∧ ∀ a, (geo a).On ((o (t + 1)).points a) ∧
      (o (t + 1)).points a = gradStep (P.manifold a) ((o t).points a)
        (G (o t).points a + wd a • (o t).points a) (lr t a) := by
  have hbody : ∀ H ∈ (o t).groups, ∀ a ∈ H.params, ∃ s,
      sgdParam (P.manifold a) H.hyper ((o t).par a) = (s, false, none) ∧
      s.point = gradStep (P.manifold a) ((o t).points a)
        (G (o t).points a + wd a • (o t).points a) (lr t a) := by
    intro H hH a ha
    obtain ⟨hm, -, h3⟩ := h.hyper t H hH
    obtain ⟨h4, h5⟩ := h3 a ha
    unfold sgdParam
    rw [h.grads t a]
    simp only [hm, lt_irrefl, if_false]
    refine ⟨_, rfl, ?_⟩
    rw [h4, h5]
    rfl
  have hno : (sgdStep P (o t)).2 = none := by
    refine sgdStep_noerr P _ (h.nodup t) (fun H hH => (h.hyper t H hH).2.1) fun H hH a ha => ?_
    obtain ⟨s, e, -⟩ := hbody H hH a ha
    rw [e]
  refine ⟨hno, fun a => ?_⟩
  obtain ⟨H, hH, ha⟩ := List.mem_flatMap.1 (h.all t a)
  obtain ⟨-, h2⟩ := (sgdStep_ok P (o t) (h.nodup t) hno).2 H hH a ha
  obtain ⟨s, e, hs⟩ := hbody H hH a ha
  have hons : (geo a).On s.point := by
    rw [hs]
    exact (geo a).retr (hon a) (Submodule.smul_mem _ _ ((geo a).egrad _ (hon a)))
  have hpt : (o (t + 1)).points a = s.point := by
    rw [h.next t]
    show ((sgdStep P (o t)).1.par a).point = _
    rw [h2, e]
    split_ifs
    · unfold sgdStab
      cases hM : P.isManifold a with
      | false => simp
      | true =>
        have := (geo a).projx hons
        rw [C55.manifold_of hM] at this
        simp only [Bool.true_eq_false, if_false]
        split_ifs <;> exact this
    · rfl
  rw [hpt]
  exact ⟨hons, hs⟩

/-- **C103, general form.** The loss with its penalty has gradients with Lipschitz constant `L` on a convex
set that contains the manifolds; on every manifold steps of the learning rates make progress.  Then no step
raises, the parameters stay on the manifolds, and the loss goes down by the progress of all steps. -/
theorem C103_sgd (geo : ∀ a, Geometry (P.manifold a)) (F : (∀ a, ι a → ℝ) → ℝ)
    {K : Set (∀ a, ι a → ℝ)} (hK : Convex ℝ K) (hKon : ∀ x, (∀ a, (geo a).On (x a)) → x ∈ K)
    (hF : ∀ x ∈ K, Gradient F (fun a => G x a + wd a • x a) x) {L : ℝ} (hL : 0 ≤ L)
    (hG : ∀ x ∈ K, ∀ y ∈ K,
      total ((fun a => G y a + wd a • y a) - fun a => G x a + wd a • x a) ≤ L ^ 2 * total (y - x))
    {Gr : ∀ a, (ι a → ℝ) → Prop} {δ : κ → ℝ} {prog : ∀ a, (ι a → ℝ) → (ι a → ℝ) → ℝ → ℝ}
    (hp : ∀ a, Progress (P.manifold a) (geo a).On (Gr a) L (δ a) (prog a))
    (hgr : ∀ x, (∀ a, (geo a).On (x a)) → ∀ a, Gr a (G x a + wd a • x a))
    (hl : ∀ t a, 0 < lr t a ∧ lr t a ≤ δ a) (h : FullBatch P o G wd lr)
    (h0 : ∀ a, (geo a).On ((o 0).points a)) (N : ℕ) :
    (sgdStep P (o N)).2 = none ∧ (∀ a, (geo a).On ((o N).points a)) ∧
    F (o N).points + ∑ t ∈ Finset.range N, ∑ a, prog a ((o t).points a)
        (G (o t).points a + wd a • (o t).points a) (lr t a) ≤ F (o 0).points := by
  have hon : ∀ N, ∀ a, (geo a).On ((o N).points a) := by
    intro N
    induction N with
    | zero => exact h0
    | succ N ih => exact fun a => ((run_step geo h N ih).2 a).1
  refine ⟨(run_step geo h N (hon N)).1, hon N, ?_⟩
  induction N with
  | zero => simp
  | succ N ih =>
    have h1 := (run_step geo h N (hon N)).2
    have h2 : (o (N + 1)).points = fun a => gradStep (P.manifold a) ((o N).points a)
        (G (o N).points a + wd a • (o N).points a) (lr N a) := funext fun a => (h1 a).2
    have h3 := descent_step (P := P) (G := fun x a => G x a + wd a • x a) hK hF hL hG hp (hon N)
      (hgr _ (hon N)) (hKon _ (hon N)) (hl N) (by
        have := hKon _ (hon (N + 1)); rw [h2] at this; exact this)
    rw [Finset.sum_range_succ, h2]
    linarith

end Run

/-! ### Twice continuously differentiable losses on bounded manifolds -/

section Smooth

theorem sqLen_le {ι : Type} [Fintype ι] {u : ι → ℝ} {B : ℝ} (h : ∀ i, |u i| ≤ B) :
    sqLen u ≤ Fintype.card ι * B ^ 2 := by
  have : sqLen u ≤ ∑ _i : ι, B ^ 2 := Finset.sum_le_sum fun i _ => by
    rw [← sq_abs]; exact pow_le_pow_left₀ (abs_nonneg _) (h i) 2
  simpa using this

/-- The number of entries of all parameters. -/
def size (ι : κ → Type) [∀ a, Fintype (ι a)] : ℝ := ∑ a, (Fintype.card (ι a) : ℝ)

theorem size_nonneg : 0 ≤ size ι := Finset.sum_nonneg fun _ _ => Nat.cast_nonneg _

theorem total_le {u : ∀ a, ι a → ℝ} {B : ℝ} (h : ∀ a i, |u a i| ≤ B) : total u ≤ size ι * B ^ 2 := by
  unfold total size
  rw [Finset.sum_mul]
  exact Finset.sum_le_sum fun a _ => sqLen_le (h a)

theorem sqLen_le_total (u : ∀ a, ι a → ℝ) (a : κ) : sqLen (u a) ≤ total u :=
  Finset.single_le_sum (f := fun a => sqLen (u a)) (fun _ _ => sqLen_nonneg _) (Finset.mem_univ a)

theorem norm_sq_le_total (u : ∀ a, ι a → ℝ) : ‖u‖ ^ 2 ≤ total u := by
  have : ‖u‖ ≤ Real.sqrt (total u) := by
    rw [pi_norm_le_iff_of_nonneg (Real.sqrt_nonneg _)]
    intro a
    rw [pi_norm_le_iff_of_nonneg (Real.sqrt_nonneg _)]
    intro i
    refine Real.le_sqrt_of_sq_le ?_
    rw [Real.norm_eq_abs, sq_abs]
    refine le_trans ?_ (sqLen_le_total u a)
    exact Finset.single_le_sum (f := fun i => u a i ^ 2) (fun _ _ => sq_nonneg _) (Finset.mem_univ i)
  calc ‖u‖ ^ 2 ≤ Real.sqrt (total u) ^ 2 := pow_le_pow_left₀ (norm_nonneg _) this 2
    _ = total u := Real.sq_sqrt (total_nonneg _)

theorem gradient_penalty {F : (∀ a, ι a → ℝ) → ℝ} {g x : ∀ a, ι a → ℝ} (hF : Gradient F g x)
    (wd : κ → ℝ) : Gradient (penalised F wd) (fun a => g a + wd a • x a) x := by
  obtain ⟨L, hL, e⟩ := hF
  let pr : ∀ a, ι a → (∀ a, ι a → ℝ) →L[ℝ] ℝ := fun a i =>
    (ContinuousLinearMap.proj (R := ℝ) (φ := fun _ : ι a => ℝ) i).comp
      (ContinuousLinearMap.proj (R := ℝ) (φ := fun a => ι a → ℝ) a)
  have hpr : ∀ a i v, pr a i v = v a i := fun a i v => rfl
  have h1 : ∀ a i, HasFDerivAt (fun y : ∀ a, ι a → ℝ => y a i) (pr a i) x := fun a i =>
    (pr a i).hasFDerivAt
  have h2 : HasFDerivAt (fun y : ∀ a, ι a → ℝ => ∑ a, wd a / 2 * ∑ i, y a i ^ 2)
      (∑ a, (wd a / 2) • ∑ i, ((2 : ℕ) • x a i ^ (2 - 1)) • pr a i) x :=
    HasFDerivAt.fun_sum fun a _ => HasFDerivAt.const_mul
      (HasFDerivAt.fun_sum fun i _ => HasFDerivAt.pow (h1 a i) 2) _
  refine ⟨_, hL.add h2, fun v => ?_⟩
  simp only [ContinuousLinearMap.add_apply, e, ContinuousLinearMap.sum_apply,
    ContinuousLinearMap.smul_apply, hpr,
    Pi.add_apply, Pi.smul_apply, smul_eq_mul, add_mul, Finset.sum_add_distrib, Finset.mul_sum]
  congr 1
  refine Finset.sum_congr rfl fun a _ => Finset.sum_congr rfl fun i _ => ?_
  simp
  ring

theorem contDiff_penalised {F : (∀ a, ι a → ℝ) → ℝ} (hF : ContDiff ℝ 2 F) (wd : κ → ℝ) :
    ContDiff ℝ 2 (penalised F wd) := by
  refine hF.add (ContDiff.sum fun a _ => contDiff_const.mul (ContDiff.sum fun i _ => ContDiff.pow ?_ 2))
  exact ((ContinuousLinearMap.proj (R := ℝ) (φ := fun _ : ι a => ℝ) i).comp
    (ContinuousLinearMap.proj (R := ℝ) (φ := fun a => ι a → ℝ) a)).contDiff

/-- What a loss with continuous second derivatives gives on a box: Lipschitz and bounded gradients, and a
lower bound. -/
theorem smooth_bounds {F : (∀ a, ι a → ℝ) → ℝ} (hF : ContDiff ℝ 2 F)
    {g : (∀ a, ι a → ℝ) → ∀ a, ι a → ℝ} (hg : ∀ x, Gradient F (g x) x) (R : ℝ) :
    ∃ L B m : ℝ, 0 ≤ L ∧ 0 ≤ B ∧
      (∀ x ∈ Metric.closedBall (0 : ∀ a, ι a → ℝ) R, ∀ y ∈ Metric.closedBall (0 : ∀ a, ι a → ℝ) R,
        total (g y - g x) ≤ L ^ 2 * total (y - x)) ∧
      (∀ x ∈ Metric.closedBall (0 : ∀ a, ι a → ℝ) R, ∀ a, sqLen (g x a) ≤ B ^ 2) ∧
      ∀ x ∈ Metric.closedBall (0 : ∀ a, ι a → ℝ) R, m ≤ F x := by
  classical
  have hK : IsCompact (Metric.closedBall (0 : ∀ a, ι a → ℝ) R) := isCompact_closedBall _ _
  have hD : ContDiff ℝ 1 (fderiv ℝ F) := hF.fderiv_right (by norm_num)
  obtain ⟨C, hC⟩ := hK.exists_bound_of_continuousOn
    (hD.continuous_fderiv (by norm_num)).continuousOn
  obtain ⟨B, hB⟩ := hK.exists_bound_of_continuousOn hD.continuous.continuousOn
  obtain ⟨m, hm⟩ := hK.bddBelow_image hF.continuous.continuousOn
  let e : ∀ a, ι a → ∀ a, ι a → ℝ := fun a i => Pi.single a (Pi.single i 1)
  have he : ∀ a i, ‖e a i‖ ≤ 1 := by
    intro a i
    rw [pi_norm_le_iff_of_nonneg zero_le_one]
    intro b
    rw [pi_norm_le_iff_of_nonneg zero_le_one]
    intro j
    by_cases hb : b = a
    · subst hb
      simp only [e, Pi.single_eq_same]
      by_cases hj : j = i
      · subst hj; simp
      · simp [hj]
    · simp [e, hb]
  have hgv : ∀ x a i, g x a i = fderiv ℝ F x (e a i) := by
    intro x a i
    obtain ⟨D, hD, h⟩ := hg x
    rw [hD.fderiv, h, Finset.sum_eq_single a, Finset.sum_eq_single i]
    · simp [e]
    · intro j _ hj; simp [e, hj]
    · simp
    · intro b _ hb; simp [e, hb]
    · simp
  refine ⟨Real.sqrt (size ι) * |C|, Real.sqrt (size ι) * |B|, m, by positivity, by positivity, ?_, ?_, ?_⟩
  · intro x hx y hy
    have h1 := (convex_closedBall (0 : ∀ a, ι a → ℝ) R).norm_image_sub_le_of_norm_fderiv_le
      (𝕜 := ℝ) (fun z _ => (hD.differentiable (by norm_num)).differentiableAt) hC hx hy
    have h2 : ∀ a i, |(g y - g x) a i| ≤ |C| * ‖y - x‖ := by
      intro a i
      have : (g y - g x) a i = (fderiv ℝ F y - fderiv ℝ F x) (e a i) := by
        simp [hgv]
      rw [this, ← Real.norm_eq_abs]
      refine le_trans (ContinuousLinearMap.le_opNorm _ _) ?_
      calc _ ≤ ‖fderiv ℝ F y - fderiv ℝ F x‖ * 1 :=
            mul_le_mul_of_nonneg_left (he a i) (norm_nonneg _)
        _ ≤ C * ‖y - x‖ := by rw [mul_one]; exact h1
        _ ≤ |C| * ‖y - x‖ := mul_le_mul_of_nonneg_right (le_abs_self _) (norm_nonneg _)
    refine le_trans (total_le h2) ?_
    rw [mul_pow, mul_pow, Real.sq_sqrt size_nonneg, mul_assoc]
    exact mul_le_mul_of_nonneg_left (mul_le_mul_of_nonneg_left (norm_sq_le_total _) (sq_nonneg _))
      size_nonneg
  · intro x hx a
    refine le_trans (sqLen_le_total (g x) a) ?_
    rw [mul_pow, Real.sq_sqrt size_nonneg]
    refine total_le fun a i => ?_
    rw [hgv, ← Real.norm_eq_abs]
    refine le_trans (ContinuousLinearMap.le_opNorm _ _) ?_
    calc _ ≤ ‖fderiv ℝ F x‖ * 1 := mul_le_mul_of_nonneg_left (he a i) (norm_nonneg _)
      _ ≤ |B| := by rw [mul_one]; exact le_trans (hB x hx) (le_abs_self _)
  · intro x hx
    exact hm ⟨x, hx, rfl⟩

/-- **C103.** All parameters on bounded manifolds on which gradient descent makes progress (`Trainable`, see
`C103Manifolds`), a loss with continuous second derivatives, gradients from `backward()`, any weight decay,
any period of stabilisation.  There is a threshold for the learning rates, valid for all starting points,
histories and schedules below it: no step raises; parameters stay on the manifolds; every step decreases the
loss with its penalty by at least its progress; and the progress of all steps together is bounded by a
constant, the same for all of these. -/
theorem C103_compact [DecidableEq κ] {P : Params κ ι} (geo : ∀ a, Geometry (P.manifold a))
    {prog : ∀ a, (ι a → ℝ) → (ι a → ℝ) → ℝ → ℝ}
    (ht : ∀ a, Trainable (geo a) (prog a)) (F : (∀ a, ι a → ℝ) → ℝ) (hF : ContDiff ℝ 2 F)
    (G : (∀ a, ι a → ℝ) → ∀ a, ι a → ℝ) (hG : ∀ x, Gradient F (G x) x) (wd : κ → ℝ) :
    ∃ δ > 0, ∃ C : ℝ, ∀ (lr : ℕ → κ → ℝ) (o : ℕ → SGD κ ι), (∀ t a, 0 < lr t a ∧ lr t a ≤ δ) →
      FullBatch P o G wd lr → (∀ a, (geo a).On ((o 0).points a)) →
      (∀ t, (sgdStep P (o t)).2 = none) ∧ (∀ t a, (geo a).On ((o t).points a)) ∧
      (∀ t, penalised F wd (o (t + 1)).points + ∑ a, prog a ((o t).points a)
          (G (o t).points a + wd a • (o t).points a) (lr t a) ≤ penalised F wd (o t).points) ∧
      ∀ N a, ∑ t ∈ Finset.range N, prog a ((o t).points a)
          (G (o t).points a + wd a • (o t).points a) (lr t a) ≤ C := by
  choose R hR using fun a => (ht a).bounded
  set R' : ℝ := ∑ a, |R a| with hR'
  have hR0 : 0 ≤ R' := Finset.sum_nonneg fun _ _ => abs_nonneg _
  have hmem : ∀ x, (∀ a, (geo a).On (x a)) → x ∈ Metric.closedBall (0 : ∀ a, ι a → ℝ) R' := by
    intro x hx
    rw [mem_closedBall_zero_iff, pi_norm_le_iff_of_nonneg hR0]
    intro a
    rw [pi_norm_le_iff_of_nonneg hR0]
    intro i
    refine le_trans (hR a _ (hx a) i) (le_trans (le_abs_self _) ?_)
    exact Finset.single_le_sum (f := fun a => |R a|) (fun _ _ => abs_nonneg _) (Finset.mem_univ a)
  have hpen := contDiff_penalised hF wd
  have hgp : ∀ x, Gradient (penalised F wd) (fun a => G x a + wd a • x a) x := fun x =>
    gradient_penalty (hG x) wd
  obtain ⟨L, B, m, hL, hB, h1, h2, h3⟩ := smooth_bounds hpen hgp R'
  obtain ⟨M, hM⟩ := (isCompact_closedBall (0 : ∀ a, ι a → ℝ) R').bddAbove_image
    hpen.continuous.continuousOn
  choose δ hδ hp using fun a => (ht a).progress L B hL hB
  obtain ⟨δ', hδ', hle⟩ : ∃ δ' > 0, ∀ a, δ' ≤ δ a := by
    by_cases hκ : Nonempty κ
    · obtain ⟨a, -, ha⟩ := Finset.exists_min_image Finset.univ δ Finset.univ_nonempty
      exact ⟨δ a, hδ a, fun b => ha b (Finset.mem_univ b)⟩
    · exact ⟨1, one_pos, fun a => absurd ⟨a⟩ hκ⟩
  refine ⟨δ', hδ', M - m, fun lr o hlr h h0 => ?_⟩
  have main := C103_sgd geo (penalised F wd) (convex_closedBall _ R') hmem (fun x _ => hgp x) hL h1 hp
    (fun x hx => h2 x (hmem x hx)) (fun t a => ⟨(hlr t a).1, le_trans (hlr t a).2 (hle a)⟩) h h0
  have hon : ∀ t a, (geo a).On ((o t).points a) := fun t => (main t).2.1
  refine ⟨fun t => (main t).1, hon, fun t => ?_, fun N a => ?_⟩
  · have e := funext fun a => ((run_step geo h t (hon t)).2 a).2
    have := descent_step (P := P) (G := fun x a => G x a + wd a • x a) (convex_closedBall _ R')
      (fun x _ => hgp x) hL h1 hp (hon t) (h2 _ (hmem _ (hon t))) (hmem _ (hon t))
      (fun a => ⟨(hlr t a).1, le_trans (hlr t a).2 (hle a)⟩) (by
        have := hmem _ (hon (t + 1)); rw [e] at this; exact this)
    rw [e]; exact this
  · have h4 := (main N).2.2
    have h5 : penalised F wd (o 0).points ≤ M := hM ⟨_, hmem _ (hon 0), rfl⟩
    have h6 := h3 _ (hmem _ (hon N))
    have h7 : ∑ t ∈ Finset.range N, prog a ((o t).points a)
          (G (o t).points a + wd a • (o t).points a) (lr t a) ≤
        ∑ t ∈ Finset.range N, ∑ a, prog a ((o t).points a)
          (G (o t).points a + wd a • (o t).points a) (lr t a) :=
      Finset.sum_le_sum fun t _ => Finset.single_le_sum
        (f := fun a => prog a ((o t).points a) (G (o t).points a + wd a • (o t).points a) (lr t a))
        (fun b _ => (ht b).nonneg _ _ _ (hlr t b).1) (Finset.mem_univ a)
    linarith

/-- A sequence with bounded sums tends to zero, and has small entries early. -/
theorem vanish {r : ℕ → ℝ} (hr : ∀ t, 0 ≤ r t) {C : ℝ} (h : ∀ N, ∑ t ∈ Finset.range N, r t ≤ C) :
    Tendsto r atTop (𝓝 0) ∧ ∀ N > 0, ∃ t < N, r t ≤ C / N := by
  refine ⟨(summable_of_sum_range_le hr h).tendsto_atTop_zero, fun N hN => ?_⟩
  by_contra hc
  push Not at hc
  have hN' : (0 : ℝ) < N := by exact_mod_cast hN
  have h4 := Finset.sum_lt_sum_of_nonempty (s := Finset.range N) (f := fun _ => C / N)
    (by simpa using hN.ne') (fun t ht => hc t (Finset.mem_range.1 ht))
  simp only [Finset.sum_const, Finset.card_range, nsmul_eq_mul] at h4
  rw [mul_div_cancel₀ _ hN'.ne'] at h4
  linarith [h N]

/-- **C103, the gradients.** If progress is measured by the Riemannian gradients and the learning rates are at
least `ℓ`, then from every starting point the Riemannian gradients tend to zero, and among the first `N` of
a parameter there is one of squared length at most `2 C / (ℓ N)`. -/
theorem C103_gradients [DecidableEq κ] {P : Params κ ι} (geo : ∀ a, Geometry (P.manifold a))
    (ht : ∀ a, Trainable (geo a) (gradProgress (P.manifold a))) (F : (∀ a, ι a → ℝ) → ℝ)
    (hF : ContDiff ℝ 2 F) (G : (∀ a, ι a → ℝ) → ∀ a, ι a → ℝ) (hG : ∀ x, Gradient F (G x) x)
    (wd : κ → ℝ) :
    ∃ δ > 0, ∃ C : ℝ, ∀ (lr : ℕ → κ → ℝ) (o : ℕ → SGD κ ι) (ℓ : ℝ), 0 < ℓ →
      (∀ t a, ℓ ≤ lr t a ∧ lr t a ≤ δ) →
      FullBatch P o G wd lr → (∀ a, (geo a).On ((o 0).points a)) → ∀ a,
        Tendsto (fun t => sqLen (rgrad (P.manifold a) ((o t).points a)
          (G (o t).points a + wd a • (o t).points a))) atTop (𝓝 0) ∧
        ∀ N > 0, ∃ t < N, sqLen (rgrad (P.manifold a) ((o t).points a)
          (G (o t).points a + wd a • (o t).points a)) ≤ 2 * C / ℓ / N := by
  obtain ⟨δ, hδ, C, h⟩ := C103_compact geo ht F hF G hG wd
  refine ⟨δ, hδ, C, fun lr o ℓ hℓ hlr hb h0 a => ?_⟩
  obtain ⟨-, -, -, h4⟩ := h lr o (fun t a => ⟨lt_of_lt_of_le hℓ (hlr t a).1, (hlr t a).2⟩) hb h0
  refine vanish (fun t => sqLen_nonneg _) fun N => ?_
  rw [le_div_iff₀ hℓ, Finset.sum_mul]
  have h5 := h4 N a
  have h6 : ∑ t ∈ Finset.range N, sqLen (rgrad (P.manifold a) ((o t).points a)
        (G (o t).points a + wd a • (o t).points a)) * ℓ ≤
      ∑ t ∈ Finset.range N, 2 * gradProgress (P.manifold a) ((o t).points a)
        (G (o t).points a + wd a • (o t).points a) (lr t a) := by
    refine Finset.sum_le_sum fun t _ => ?_
    unfold gradProgress
    have := mul_le_mul_of_nonneg_left (hlr t a).1 (sqLen_nonneg (rgrad (P.manifold a) ((o t).points a)
        (G (o t).points a + wd a • (o t).points a)))
    linarith
  rw [← Finset.mul_sum] at h6
  linarith

/-- **C103, the steps.** If the progress of a parameter is measured by its steps then from every starting
point the steps of this parameter tend to zero. -/
theorem C103_steps [DecidableEq κ] {P : Params κ ι} (geo : ∀ a, Geometry (P.manifold a))
    {prog : ∀ a, (ι a → ℝ) → (ι a → ℝ) → ℝ → ℝ}
    (ht : ∀ a, Trainable (geo a) (prog a)) (F : (∀ a, ι a → ℝ) → ℝ)
    (hF : ContDiff ℝ 2 F) (G : (∀ a, ι a → ℝ) → ∀ a, ι a → ℝ) (hG : ∀ x, Gradient F (G x) x)
    (wd : κ → ℝ) {a : κ} {c : ℝ} (hc : 0 < c) (ha : prog a = stepProgress (P.manifold a) c) :
    ∃ δ > 0, ∃ C : ℝ, ∀ (lr : ℕ → κ → ℝ) (o : ℕ → SGD κ ι),
      (∀ t a, 0 < lr t a ∧ lr t a ≤ δ) →
      FullBatch P o G wd lr → (∀ a, (geo a).On ((o 0).points a)) →
        Tendsto (fun t => sqLen ((o (t + 1)).points a - (o t).points a)) atTop (𝓝 0) ∧
        ∀ N > 0, ∃ t < N, sqLen ((o (t + 1)).points a - (o t).points a) ≤ C / N := by
  obtain ⟨δ, hδ, C, h⟩ := C103_compact geo ht F hF G hG wd
  refine ⟨δ, hδ, C * (δ / c), fun lr o hlr hb h0 => ?_⟩
  obtain ⟨-, hon, -, h4⟩ := h lr o hlr hb h0
  refine vanish (fun t => sqLen_nonneg _) fun N => ?_
  have h5 := h4 N a
  have h6 : ∑ t ∈ Finset.range N, sqLen ((o (t + 1)).points a - (o t).points a) ≤
      ∑ t ∈ Finset.range N, prog a ((o t).points a)
        (G (o t).points a + wd a • (o t).points a) (lr t a) * (δ / c) := by
    refine Finset.sum_le_sum fun t _ => ?_
    rw [((run_step geo hb t (hon t)).2 a).2, ha]
    unfold stepProgress
    have h7 := sqLen_nonneg (gradStep (P.manifold a) ((o t).points a)
        (G (o t).points a + wd a • (o t).points a) (lr t a) - (o t).points a)
    have h8 : c / lr t a * (δ / c) = δ / lr t a := by field_simp
    have h9 : 1 ≤ δ / lr t a := (one_le_div₀ (hlr t a).1).2 (hlr t a).2
    calc _ ≤ _ * (δ / lr t a) := le_mul_of_one_le_right h7 h9
      _ = _ := by rw [← h8]; ring
  rw [← Finset.sum_mul] at h6
  exact le_trans h6 (mul_le_mul_of_nonneg_right h5 (by positivity))

end Smooth

/-! ### The training loop -/

theorem forGroups_keep {κ : Type} [DecidableEq κ] {S : κ → Type} {H : Type}
    {f : (∀ a, S a) → Group H κ → (∀ a, S a) × Group H κ × Option PyErr}
    (hf : ∀ w K, (f w K).2.1.hyper = K.hyper ∧ (f w K).2.1.params = K.params) :
    ∀ (Gs : List (Group H κ)) (w : ∀ a, S a),
      (forGroups f Gs w).2.1.map (fun K => (K.hyper, K.params)) = Gs.map fun K => (K.hyper, K.params)
  | [], w => rfl
  | K :: Gs, w => by
    have h := hf w K
    unfold forGroups
    rcases e : f w K with ⟨w', K', _ | er⟩
    · rw [e] at h
      obtain ⟨h1, h2⟩ : K'.hyper = K.hyper ∧ K'.params = K.params := h
      simp only [List.map_cons, forGroups_keep hf Gs w', h1, h2]
    · rw [e] at h
      obtain ⟨h1, h2⟩ : K'.hyper = K.hyper ∧ K'.params = K.params := h
      simp only [List.map_cons, h1, h2]

omit [Fintype κ] [∀ a, Fintype (ι a)] in
theorem step_groups [DecidableEq κ] (P : Params κ ι) (o : SGD κ ι) :
    (sgdStep P o).1.groups.map (fun K => (K.hyper, K.params)) =
      o.groups.map fun K => (K.hyper, K.params) := by
  refine forGroups_keep (fun w K => ?_) o.groups o.par
  unfold sgdGroup counterGroup
  simp only
  split
  · exact ⟨rfl, rfl⟩
  · split
    · exact ⟨rfl, rfl⟩
    · split <;> exact ⟨rfl, rfl⟩

omit [Fintype κ] [∀ a, Fintype (ι a)] in
/-- **The usual training loop is full-batch training**, when every parameter is in exactly one group and
the groups use no momentum. -/
theorem C103_loop [DecidableEq κ] (P : Params κ ι) (G : (∀ a, ι a → ℝ) → ∀ a, ι a → ℝ) (o : SGD κ ι)
    {lr wd : κ → ℝ} (hn : (o.groups.flatMap Group.params).Nodup)
    (ha : ∀ a, a ∈ o.groups.flatMap Group.params)
    (hh : ∀ H ∈ o.groups, H.hyper.momentum = 0 ∧ H.hyper.stabilize ≠ some 0 ∧
      ∀ a ∈ H.params, H.hyper.lr = lr a ∧ H.hyper.weightDecay = wd a) :
    FullBatch P (trained P G o) G wd fun _ => lr := by
  have hg : ∀ t, (trained P G o t).groups.map (fun K => (K.hyper, K.params)) =
      o.groups.map fun K => (K.hyper, K.params) := by
    intro t
    induction t with
    | zero => rfl
    | succ t ih => rw [← ih]; exact step_groups P _
  have hp : ∀ t, (trained P G o t).groups.flatMap Group.params = o.groups.flatMap Group.params := by
    intro t
    have := congrArg (List.flatMap Prod.snd) (hg t)
    simpa [List.flatMap_map] using this
  refine ⟨fun t => rfl, fun t a => ?_, fun t => by rw [hp]; exact hn, fun t a => by rw [hp]; exact ha a,
    fun t H hH => ?_⟩
  · cases t <;> rfl
  · have h1 : (H.hyper, H.params) ∈ o.groups.map fun K => (K.hyper, K.params) := by
      rw [← hg t]; exact List.mem_map_of_mem hH
    obtain ⟨K, hK, e⟩ := List.mem_map.1 h1
    obtain ⟨e1, e2⟩ := Prod.mk.inj e
    rw [← e1, ← e2]
    exact hh K hK

/-- **C103, where training ends.** On compact manifolds with continuous Riemannian gradient: whatever
accumulation point the parameters have, it is a critical point of the penalised loss, and there is one. -/
theorem C103_critical [DecidableEq κ] {P : Params κ ι} (geo : ∀ a, Geometry (P.manifold a))
    (ht : ∀ a, Trainable (geo a) (gradProgress (P.manifold a)))
    (hc : ∀ a, Continuous fun p : (ι a → ℝ) × (ι a → ℝ) => rgrad (P.manifold a) p.1 p.2)
    (F : (∀ a, ι a → ℝ) → ℝ)
    (hF : ContDiff ℝ 2 F) (G : (∀ a, ι a → ℝ) → ∀ a, ι a → ℝ) (hG : ∀ x, Gradient F (G x) x)
    (wd : κ → ℝ) :
    ∃ δ > 0, ∀ (lr : ℕ → κ → ℝ) (o : ℕ → SGD κ ι) (ℓ : ℝ), 0 < ℓ →
      (∀ t a, ℓ ≤ lr t a ∧ lr t a ≤ δ) →
      FullBatch P o G wd lr → (∀ a, (geo a).On ((o 0).points a)) →
        (∃ x, MapClusterPt x atTop fun t => (o t).points) ∧
        ∀ x, MapClusterPt x atTop (fun t => (o t).points) → ∀ a,
          rgrad (P.manifold a) (x a) (G x a + wd a • x a) = 0 := by
  classical
  obtain ⟨δ, hδ, C, h⟩ := C103_gradients geo ht F hF G hG wd
  obtain ⟨δ', hδ', C', h'⟩ := C103_compact geo ht F hF G hG wd
  refine ⟨min δ δ', lt_min hδ hδ', fun lr o ℓ hℓ hlr hb h0 => ⟨?_, fun x hx a => ?_⟩⟩
  · obtain ⟨-, hon, -, -⟩ := h' lr o (fun t a => ⟨lt_of_lt_of_le hℓ (hlr t a).1,
      le_trans (hlr t a).2 (min_le_right _ _)⟩) hb h0
    choose R hR using fun a => (ht a).bounded
    have hK : IsCompact (Metric.closedBall (0 : ∀ a, ι a → ℝ) (∑ a, |R a|)) := isCompact_closedBall _ _
    have hR0 : 0 ≤ ∑ a, |R a| := Finset.sum_nonneg fun _ _ => abs_nonneg _
    obtain ⟨x, -, hx⟩ := hK.exists_mapClusterPt (f := atTop) (u := fun t => (o t).points)
      (tendsto_principal.2 (Eventually.of_forall fun t => by
        rw [mem_closedBall_zero_iff, pi_norm_le_iff_of_nonneg hR0]
        intro a
        rw [pi_norm_le_iff_of_nonneg hR0]
        intro i
        refine le_trans (hR a _ (hon t a) i) (le_trans (le_abs_self _) ?_)
        exact Finset.single_le_sum (f := fun a => |R a|) (fun _ _ => abs_nonneg _) (Finset.mem_univ a)))
    exact ⟨x, hx⟩
  · obtain ⟨h1, -⟩ := h lr o ℓ hℓ (fun t a => ⟨(hlr t a).1, le_trans (hlr t a).2 (min_le_left _ _)⟩) hb h0 a
    have hgc : Continuous fun x => G x a := by
      refine continuous_pi fun i => ?_
      have hgv : ∀ x, G x a i = fderiv ℝ F x (Pi.single a (Pi.single i 1)) := by
        intro x
        obtain ⟨D, hD, h⟩ := hG x
        rw [hD.fderiv, h, Finset.sum_eq_single a, Finset.sum_eq_single i]
        · simp
        · intro j _ hj; simp [hj]
        · simp
        · intro b _ hb; simp [hb]
        · simp
      simp only [hgv]
      exact (hF.continuous_fderiv (by norm_num)).clm_apply continuous_const
    have hcont : Continuous fun x : ∀ a, ι a → ℝ =>
        sqLen (rgrad (P.manifold a) (x a) (G x a + wd a • x a)) := by
      have h2 : Continuous fun u : ι a → ℝ => sqLen u := by unfold sqLen; fun_prop
      exact h2.comp ((hc a).comp ((continuous_apply a).prodMk
        (hgc.add ((continuous_apply a).const_smul (wd a)))))
    have h3 : MapClusterPt (sqLen (rgrad (P.manifold a) (x a) (G x a + wd a • x a))) atTop
        (fun t => sqLen (rgrad (P.manifold a) ((o t).points a)
          (G (o t).points a + wd a • (o t).points a))) :=
      hx.continuousAt_comp (f := fun x : ∀ a, ι a → ℝ =>
        sqLen (rgrad (P.manifold a) (x a) (G x a + wd a • x a))) hcont.continuousAt
    have h4 : sqLen (rgrad (P.manifold a) (x a) (G x a + wd a • x a)) = 0 := by
      by_contra hne
      exact (disjoint_nhds_nhds.2 hne).le_bot |> fun h => h3.ne (le_bot_iff.1 (le_trans
        (inf_le_inf_left _ h1) h))
    funext i
    have h5 := Finset.sum_eq_zero_iff_of_nonneg (fun i _ => sq_nonneg
      (rgrad (P.manifold a) (x a) (G x a + wd a • x a) i)) |>.1 h4 i (Finset.mem_univ i)
    exact pow_eq_zero_iff (two_ne_zero) |>.1 h5

end Geoopt.C103
