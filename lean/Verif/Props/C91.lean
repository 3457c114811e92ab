import Verif.Model.OptimManifolds
import Verif.Lemmas.OptimStep
import Verif.Props.C80Exact
import Verif.Props.C09
import Verif.Props.C33
import Verif.Props.C35
import Mathlib.Analysis.Calculus.FDeriv.Prod
import Mathlib.Analysis.Calculus.FDeriv.Pow
import Mathlib.Analysis.Calculus.Deriv.Prod
import Mathlib.Analysis.Calculus.Deriv.Slope
import Mathlib.Analysis.Calculus.Deriv.Comp

/-!
# C91: a RiemannianSGD step with a small enough learning rate decreases the loss

For every loss that is differentiable at the current parameters, parameters on any of the manifolds,
gradients computed by autograd: unless all Riemannian gradients vanish, all learning rates below some
threshold decrease the loss (with weight decay: the loss plus the penalty).
-/

namespace Geoopt.C91
open Geoopt Geoopt.Optim Geoopt.SpecRetr Filter Topology Matrix

variable {κ : Type} [DecidableEq κ] [Fintype κ] {ι : κ → Type} [∀ a, Fintype (ι a)]

/-- `F` is differentiable at `x` and its partial derivatives there are `g`: this is what `backward()`
leaves in `.grad`. -/
def HasGradient (F : (∀ a, ι a → ℝ) → ℝ) (g x : ∀ a, ι a → ℝ) : Prop :=
  ∃ L : (∀ a, ι a → ℝ) →L[ℝ] ℝ, HasFDerivAt F L x ∧ ∀ v, L v = ∑ a, ∑ i, g a i * v a i

/-- The first order behaviour of a manifold at `x` with gradient `g`: not moving is staying, and the
curve that a step follows has a velocity that decreases the loss to first order, strictly unless the
Riemannian gradient is zero. -/
def Descends {ι : Type} [Fintype ι] (M : Optim.Manifold ι) (x g : ι → ℝ) : Prop :=
  M.retr x 0 = x ∧ ∃ w, Velocity (fun t => M.retr x (-t • (M.egrad2rgrad x g).value)) w ∧
    ∑ i, g i * w i ≤ 0 ∧ ((M.egrad2rgrad x g).value ≠ 0 → ∑ i, g i * w i < 0)

/-! ### Calculus -/

omit [DecidableEq κ] in
theorem descent {F : (∀ a, ι a → ℝ) → ℝ} {g x w : ∀ a, ι a → ℝ} (hF : HasGradient F g x)
    {γ : ℝ → ∀ a, ι a → ℝ} (h0 : γ 0 = x) (hγ : ∀ a, Velocity (fun t => γ t a) (w a))
    (hneg : ∑ a, ∑ i, g a i * w a i < 0) : ∃ δ > 0, ∀ t, 0 < t → t < δ → F (γ t) < F x := by
  obtain ⟨L, hL, e⟩ := hF
  have h1 : HasDerivAt γ w 0 := hasDerivAt_pi.2 fun a => hasDerivAt_pi.2 fun i => hγ a i
  have h2 : HasDerivAt (fun t => F (γ t)) (L w) 0 := by
    have : HasFDerivAt F L (γ 0) := by rw [h0]; exact hL
    exact this.comp_hasDerivAt 0 h1
  rw [e w] at h2
  have h3 := (hasDerivAt_iff_tendsto_slope.1 h2).eventually (gt_mem_nhds hneg)
  rw [eventually_nhdsWithin_iff, Metric.eventually_nhds_iff] at h3
  obtain ⟨δ, hδ, h4⟩ := h3
  refine ⟨δ, hδ, fun t ht htd => ?_⟩
  have h5 := h4 (by rw [Real.dist_eq, sub_zero, abs_of_pos ht]; exact htd) (by simpa using ht.ne')
  rw [slope_def_field, sub_zero, div_lt_iff₀ ht, zero_mul, h0] at h5
  linarith

omit [DecidableEq κ] in
/-- The gradient of the loss with the penalty of weight decay. -/
theorem hasGradient_penalty {F : (∀ a, ι a → ℝ) → ℝ} {g x : ∀ a, ι a → ℝ} (hF : HasGradient F g x)
    (wd : κ → ℝ) :
    HasGradient (fun y => F y + ∑ a, wd a / 2 * ∑ i, y a i ^ 2) (fun a => g a + wd a • x a) x := by
  obtain ⟨L, hL, e⟩ := hF
  let pr : ∀ a, ι a → (∀ a, ι a → ℝ) →L[ℝ] ℝ := fun a i =>
    (ContinuousLinearMap.proj (R := ℝ) (φ := fun _ : ι a => ℝ) i).comp
      (ContinuousLinearMap.proj (R := ℝ) (φ := fun a => ι a → ℝ) a)
  have hpr : ∀ a i v, pr a i v = v a i := fun a i v => rfl
  have h1 : ∀ a i, HasFDerivAt (fun y : ∀ a, ι a → ℝ => y a i) (pr a i) x := fun a i =>
    (pr a i).hasFDerivAt
  have h2 : HasFDerivAt (fun y : ∀ a, ι a → ℝ => ∑ a, wd a / 2 * ∑ i, y a i ^ 2)
      (∑ a, (wd a / 2) • ∑ i, ((2 : ℕ) • x a i ^ (2 - 1)) • pr a i) x :=
    HasFDerivAt.fun_sum fun a _ => HasFDerivAt.const_mul
      (HasFDerivAt.fun_sum fun i _ => HasFDerivAt.pow (h1 a i) 2) _
  refine ⟨_, hL.add h2, fun v => ?_⟩
  simp only [ContinuousLinearMap.add_apply, e, ContinuousLinearMap.sum_apply,
    ContinuousLinearMap.smul_apply, hpr,
    Pi.add_apply, Pi.smul_apply, smul_eq_mul, add_mul, Finset.sum_add_distrib, Finset.mul_sum]
  congr 1
  refine Finset.sum_congr rfl fun a _ => Finset.sum_congr rfl fun i _ => ?_
  simp
  ring

/-! ### The step -/

section Step
variable (P : Params κ ι)

omit [DecidableEq κ] [Fintype κ] [∀ a, Fintype (ι a)] in
theorem forParams_none [DecidableEq κ] {S : κ → Type} (f : ∀ a, S a → S a × Bool × Option PyErr)
    (Q : ∀ a, S a → Prop) (hf : ∀ a s, Q a s → (f a s).2.2 = none ∧ Q a (f a s).1) (as : List κ)
    (w : ∀ a, S a) (hw : ∀ a, Q a (w a)) :
    (forParams f as w).2.2 = none ∧ ∀ a, Q a ((forParams f as w).1 a) := by
  induction as generalizing w with
  | nil => exact ⟨rfl, hw⟩
  | cons b as ih =>
    obtain ⟨h1, h2⟩ := hf b (w b) (hw b)
    have h3 : ∀ a, Q a (Function.update w b (f b (w b)).1 a) := by
      intro a
      by_cases h : a = b
      · subst h; simpa using h2
      · simpa [Function.update_of_ne h] using hw a
    unfold forParams
    rcases hfb : f b (w b) with ⟨s, b', _ | e⟩
    · rw [hfb] at h3
      exact ih _ h3
    · rw [hfb] at h1; cases h1

/-- The same optimiser with the learning rate `lr` in all groups. -/
def setLr (lr : ℝ) (o : SGD κ ι) : SGD κ ι :=
  { o with groups := o.groups.map fun G => { G with hyper := { G.hyper with lr := lr } } }

omit [Fintype κ] [∀ a, Fintype (ι a)] in
theorem sgdStep_noerr (o : SGD κ ι) (hg : ∀ a, ∃ g, (o.par a).grad = .dense g)
    (hh : ∀ G ∈ o.groups, G.hyper.momentum = 0 ∧ G.hyper.stabilize = none) :
    (sgdStep P o).2 = none := by
  have key : ∀ (Gs : List (Group SGDHyper κ)) (w : ∀ a, SGDParam (ι a)),
      (∀ G ∈ Gs, G.hyper.momentum = 0 ∧ G.hyper.stabilize = none) →
      (∀ a, ∃ g, (w a).grad = .dense g) → (forGroups (sgdGroup P) Gs w).2.2 = none := by
    intro Gs
    induction Gs with
    | nil => intro w _ _; rfl
    | cons G Gs ih =>
      intro w hG hw
      obtain ⟨hm, hs⟩ := hG G (by simp)
      have h1 := forParams_none (fun a => sgdParam (P.manifold a) G.hyper)
        (fun a s => ∃ g, s.grad = .dense g) (fun a s ⟨g, hsg⟩ => by
          unfold sgdParam
          simp [hsg, hm]) G.params w hw
      have h2 : ∃ w', (∀ a, ∃ g, (w' a).grad = .dense g) ∧
          sgdGroup P w G = (w', { G with step := G.step + 1 }, none) := by
        unfold sgdGroup counterGroup
        rcases hfp : forParams (fun a => sgdParam (P.manifold a) G.hyper) G.params w with ⟨w', b, e⟩
        rw [hfp] at h1
        obtain ⟨h1, h1'⟩ := h1
        simp only at h1
        subst h1
        exact ⟨w', h1', by simp [hs]⟩
      obtain ⟨w', hw', e⟩ := h2
      unfold forGroups
      rw [e]
      exact ih w' (fun G' h => hG G' (by simp [h])) hw'
  have := key o.groups o.par hh hg
  unfold sgdStep
  exact this

omit [Fintype κ] [∀ a, Fintype (ι a)] in
theorem sgdStep_point (o : SGD κ ι) (g : ∀ a, ι a → ℝ) (wd : κ → ℝ) (lr : ℝ)
    (hg : ∀ a, (o.par a).grad = .dense (g a))
    (hn : (o.groups.flatMap Group.params).Nodup) (hall : ∀ a, a ∈ o.groups.flatMap Group.params)
    (hh : ∀ G ∈ o.groups, G.hyper.momentum = 0 ∧ G.hyper.stabilize = none ∧
      ∀ a ∈ G.params, G.hyper.weightDecay = wd a) :
    (sgdStep P (setLr lr o)).2 = none ∧
    ∀ a, ((sgdStep P (setLr lr o)).1.par a).point = (P.manifold a).retr (o.par a).point
      (-lr • ((P.manifold a).egrad2rgrad (o.par a).point (g a + wd a • (o.par a).point)).value) := by
  have hno : (sgdStep P (setLr lr o)).2 = none := by
    refine sgdStep_noerr P _ (fun a => ⟨g a, hg a⟩) ?_
    intro G hG
    simp only [setLr, List.mem_map] at hG
    obtain ⟨G', hG', rfl⟩ := hG
    exact ⟨(hh G' hG').1, (hh G' hG').2.1⟩
  refine ⟨hno, fun a => ?_⟩
  obtain ⟨G, hG, ha⟩ := List.mem_flatMap.1 (hall a)
  have := (sgdStep_ok P (setLr lr o) (by simpa [setLr, List.flatMap_map] using hn) hno).2
    { G with hyper := { G.hyper with lr := lr } }
    (by simp only [setLr, List.mem_map]; exact ⟨G, hG, rfl⟩) a ha
  obtain ⟨-, h3⟩ := this
  rw [h3]
  obtain ⟨hm, hs, hwd⟩ := hh G hG
  have hga : (o.par a).grad = .dense (g a) := hg a
  simp only [hs, due]
  simp only [setLr, sgdParam]
  rw [hga]
  simp [hm, hwd a ha]

/-- **C91.** A loss `F`, differentiable at the current parameters, with its gradients in `.grad`; no
momentum, no stabilisation, weight decay `wd a` for parameter `a`; every parameter in exactly one group.
If some Riemannian gradient is not zero then every small enough learning rate gives a step, without an
exception, after which the loss with the weight decay penalty is smaller. -/
theorem C91_sgd (o : SGD κ ι) (F : (∀ a, ι a → ℝ) → ℝ) (g : ∀ a, ι a → ℝ) (wd : κ → ℝ)
    (hF : HasGradient F g fun a => (o.par a).point) (hg : ∀ a, (o.par a).grad = .dense (g a))
    (hn : (o.groups.flatMap Group.params).Nodup) (hall : ∀ a, a ∈ o.groups.flatMap Group.params)
    (hh : ∀ G ∈ o.groups, G.hyper.momentum = 0 ∧ G.hyper.stabilize = none ∧
      ∀ a ∈ G.params, G.hyper.weightDecay = wd a)
    (hd : ∀ a, Descends (P.manifold a) (o.par a).point (g a + wd a • (o.par a).point))
    (hne : ∃ a, ((P.manifold a).egrad2rgrad (o.par a).point
      (g a + wd a • (o.par a).point)).value ≠ 0) :
    ∃ δ > 0, ∀ lr, 0 < lr → lr < δ →
      (sgdStep P (setLr lr o)).2 = none ∧
      F (fun a => ((sgdStep P (setLr lr o)).1.par a).point) +
          ∑ a, wd a / 2 * ∑ i, ((sgdStep P (setLr lr o)).1.par a).point i ^ 2 <
        F (fun a => (o.par a).point) + ∑ a, wd a / 2 * ∑ i, (o.par a).point i ^ 2 := by
  set x : ∀ a, ι a → ℝ := fun a => (o.par a).point with hx
  choose h0 w hw hle hlt using hd
  have hneg : ∑ a, ∑ i, (g a + wd a • x a) i * w a i < 0 := by
    obtain ⟨a, ha⟩ := hne
    exact Finset.sum_neg' (fun a _ => hle a) ⟨a, Finset.mem_univ a, hlt a ha⟩
  obtain ⟨δ, hδ, h⟩ := descent (hasGradient_penalty hF wd) (w := w)
    (γ := fun t a => (P.manifold a).retr (x a)
      (-t • ((P.manifold a).egrad2rgrad (x a) (g a + wd a • x a)).value))
    (by funext a; simp [h0, hx]) hw hneg
  refine ⟨δ, hδ, fun lr hp hl => ?_⟩
  obtain ⟨hno, hpt⟩ := sgdStep_point P o g wd lr hg hn hall hh
  refine ⟨hno, ?_⟩
  simp only [hpt]
  exact h lr hp hl

omit [Fintype κ] in
/-- At a stationary point of the loss with the penalty, a step of any length stays. -/
theorem C91_stationary (o : SGD κ ι) (g : ∀ a, ι a → ℝ) (wd : κ → ℝ) (lr : ℝ)
    (hg : ∀ a, (o.par a).grad = .dense (g a))
    (hn : (o.groups.flatMap Group.params).Nodup) (hall : ∀ a, a ∈ o.groups.flatMap Group.params)
    (hh : ∀ G ∈ o.groups, G.hyper.momentum = 0 ∧ G.hyper.stabilize = none ∧
      ∀ a ∈ G.params, G.hyper.weightDecay = wd a)
    (hd : ∀ a, Descends (P.manifold a) (o.par a).point (g a + wd a • (o.par a).point))
    (hz : ∀ a, ((P.manifold a).egrad2rgrad (o.par a).point
      (g a + wd a • (o.par a).point)).value = 0) (a : κ) :
    ((sgdStep P (setLr lr o)).1.par a).point = (o.par a).point := by
  rw [(sgdStep_point P o g wd lr hg hn hall hh).2 a, hz a, smul_zero]
  exact (hd a).1

end Step

/-! ### The manifolds -/

omit [DecidableEq κ] [Fintype κ] [∀ a, Fintype (ι a)] in
/-- A retraction along the Riemannian gradient. -/
theorem descends_of {ι : Type} [Fintype ι] {M : Optim.Manifold ι} {x g : ι → ℝ} (h0 : M.retr x 0 = x)
    {r : ι → ℝ} (hr : (M.egrad2rgrad x g).value = r) {w : ι → ℝ}
    (hv : Velocity (fun t => M.retr x (t • -r)) w) {q : ℝ} (hq : ∑ i, g i * w i = -q)
    (hpos : r ≠ 0 → 0 < q) : Descends M x g := by
  refine ⟨h0, w, ?_, ?_, ?_⟩
  · rw [hr]
    have e : (fun t : ℝ => M.retr x (-t • r)) = fun t => M.retr x (t • -r) := by
      funext t; rw [smul_neg, neg_smul]
    rw [e]; exact hv
  · by_cases h : r = 0
    · subst h
      have : w = 0 := by
        funext i
        have h1 : HasDerivAt (fun t : ℝ => M.retr x (t • -(0 : ι → ℝ)) i) 0 0 := by
          simp only [neg_zero, smul_zero]; exact hasDerivAt_const _ _
        exact (hv i).unique h1
      simp [this]
    · rw [hq]; linarith [hpos h]
  · intro h
    rw [hr] at h
    rw [hq]; linarith [hpos h]

/-- Plain parameters and the Euclidean manifold. -/
theorem C91_euclidean {n : ℕ} (x g : Vec n) : Descends (Optim.euclidean (Fin n)) x g := by
  obtain ⟨h0, hv⟩ := C80.C80_euclidean x (-g)
  refine descends_of (M := Optim.euclidean (Fin n)) h0 rfl hv (q := g ⬝ᵥ g) ?_ ?_
  · simp [dotProduct]
  · intro h
    exact lt_of_le_of_ne (dot_self_nonneg g) fun e => h (dot_self_eq_zero.1 e.symm)

section Sphere
variable {n : ℕ} {S : Set (Vec n)} {P : Option (Matrix (Fin n) (Fin n) ℝ)}
open Sphere

theorem sphere_aux (hP : Projects S P) {x : Vec n} (hx : OnSphere S x) (g : Vec n) :
    Tangent S x (-(Sphere.egrad2rgrad P x g)) ∧
    ∑ i, g i * (-(Sphere.egrad2rgrad P x g)) i =
      -(Sphere.egrad2rgrad P x g ⬝ᵥ Sphere.egrad2rgrad P x g) ∧
    (Sphere.egrad2rgrad P x g ≠ 0 → 0 < Sphere.egrad2rgrad P x g ⬝ᵥ Sphere.egrad2rgrad P x g) := by
  obtain ⟨h1, h2⟩ := C19_sphere hP hx (g := g)
  set r := Sphere.egrad2rgrad P x g with hr
  have e : g ⬝ᵥ r = r ⬝ᵥ r := (h2 r h1).symm
  refine ⟨?_, ?_, fun h => ?_⟩
  · have : -r = Sphere.egrad2rgrad P x (-g) := by
      have := C21_proju_linear (P := P) (-1) 0 x g 0
      simp only [neg_smul, one_smul, zero_smul, add_zero] at this
      rw [hr]; exact this.symm
    rw [this]
    exact (C19_sphere hP hx (g := -g)).1
  · simp only [Pi.neg_apply, mul_neg, Finset.sum_neg_distrib]
    rw [← e]; rfl
  · exact lt_of_le_of_ne (dot_self_nonneg r) fun e => h (dot_self_eq_zero.1 e.symm)

/-- The sphere, with any subspace. -/
theorem C91_sphere (hP : Projects S P) {x : Vec n} (hx : OnSphere S x) (g : Vec n) :
    Descends (Optim.sphere P) x g := by
  obtain ⟨h1, h2, h3⟩ := sphere_aux hP hx g
  obtain ⟨h0, hv⟩ := C80.C80_sphere .f64 hP hx h1
  exact descends_of (M := Optim.sphere P) h0 rfl hv h2 h3

/-- The sphere whose retraction is the exponential map. -/
theorem C91_sphere_exact (dt : DType) (hP : Projects S P) {x : Vec n} (hx : OnSphere S x) (g : Vec n) :
    Descends (Optim.sphereExact P dt) x g := by
  obtain ⟨h1, h2, h3⟩ := sphere_aux hP hx g
  obtain ⟨h0, hv⟩ := C80.C80_sphere_exact dt hP hx h1
  exact descends_of (M := Optim.sphereExact P dt) h0 rfl hv h2 h3

end Sphere

/-- The stereographic model of any curvature, at points not on the clipped boundary. -/
theorem C91_stereographic {n : ℕ} (η : ℝ) (dt : DType) (k : ℝ) {x : Vec n}
    (hx : max (nrm x) 1e-15 < Stereo.maxNorm η dt k) (g : Vec n) :
    Descends (Optim.stereographic η dt k) x g := by
  set r := Stereo.egrad2rgrad k x g with hr
  obtain ⟨h0, hv⟩ := C80.C80_stereographic η dt k hx (-r)
  refine descends_of (M := Optim.stereographic η dt k) h0 hr.symm hv (q := g ⬝ᵥ r) ?_ ?_
  · simp [dotProduct]
  · intro h
    have hg : g ≠ 0 := by rintro rfl; exact h (by rw [hr, Stereo.egrad2rgrad, smul_zero])
    have := Stereo.C19_stereographic_descent k x g hg
    rw [dotProduct_neg] at this
    linarith

/-- The stereographic model whose retraction is the exponential map; its step is scaled by the factor
`stereoSpeed`, see C80. -/
theorem C91_stereographic_exact {n : ℕ} (η : ℝ) (dt : DType) (k : ℝ) {x : Vec n}
    (hx : max (nrm x) 1e-15 < Stereo.maxNorm η dt k) (hl : 1e-15 ≤ 1 + k * (x ⬝ᵥ x))
    (hs : 0 < C80.stereoSpeed η k x) (g : Vec n) :
    Descends (Optim.stereographicExact η dt k) x g := by
  set r := Stereo.egrad2rgrad k x g with hr
  obtain ⟨h0, hv⟩ := C80.C80_stereographic_exact_partial η dt k hx hl (-r)
  refine descends_of (M := Optim.stereographicExact η dt k) h0 hr.symm hv
    (q := C80.stereoSpeed η k x * (g ⬝ᵥ r)) ?_ ?_
  · simp only [Pi.smul_apply, Pi.neg_apply, smul_eq_mul, dotProduct, Finset.mul_sum,
      ← Finset.sum_neg_distrib]
    exact Finset.sum_congr rfl fun i _ => by ring
  · intro h
    have hg : g ≠ 0 := by rintro rfl; exact h (by rw [hr, Stereo.egrad2rgrad, smul_zero])
    have := Stereo.C19_stereographic_descent k x g hg
    rw [dotProduct_neg] at this
    exact mul_pos hs (by linarith)

/-- For the Poincaré ball the factor is positive. -/
theorem C91_poincare_exact {n : ℕ} {η : ℝ} (hη : 0 ≤ η) (dt : DType) {k : ℝ} (hk : k < -1e-8) {x : Vec n}
    (hx : max (nrm x) 1e-15 < Stereo.maxNorm η dt k) (hl : 1e-15 ≤ 1 + k * (x ⬝ᵥ x))
    (ha : Stereo.lambdaX k x / 2 * 1e-15 * Stereo.kSqrt η k ≤ 15) (g : Vec n) :
    Descends (Optim.stereographicExact η dt k) x g := by
  refine C91_stereographic_exact η dt k hx hl (lt_of_lt_of_le ?_
    (C80.C80_stereographic_speed_hyperbolic hη hk x ha).1) g
  have : 0 < Stereo.lambdaX k x := Stereo.lambdaX_pos' k x
  have : 0 ≤ Stereo.kSqrt η k := Real.sqrt_nonneg _
  positivity

section Mat
variable {n m : ℕ}

theorem sum_trace (g w : Fin n × Fin m → ℝ) :
    ∑ p, g p * w p = ((toMat g).transpose * toMat w).trace := by
  simp only [Matrix.trace, Matrix.diag, Matrix.mul_apply, Matrix.transpose_apply, toMat,
    Fintype.sum_prod_type]
  rw [Finset.sum_comm]

theorem trace_pos {r : Matrix (Fin n) (Fin m) ℝ} (h : r ≠ 0) : 0 < (r.transpose * r).trace := by
  have e : (r.transpose * r).trace = ∑ j, ∑ i, r i j * r i j := by
    simp only [Matrix.trace, Matrix.diag, Matrix.mul_apply, Matrix.transpose_apply]
  have hnn : ∀ j i, 0 ≤ r i j * r i j := fun j i => mul_self_nonneg _
  rw [e]
  refine lt_of_le_of_ne (Finset.sum_nonneg fun j _ => Finset.sum_nonneg fun i _ => hnn j i) fun h0 => h ?_
  ext i j
  have h1 := (Finset.sum_eq_zero_iff_of_nonneg
    (fun j _ => Finset.sum_nonneg fun i _ => hnn j i)).1 h0.symm j (Finset.mem_univ j)
  have h2 := (Finset.sum_eq_zero_iff_of_nonneg (fun i _ => hnn j i)).1 h1 i (Finset.mem_univ i)
  simpa using h2

theorem ofMat_ne {r : Matrix (Fin n) (Fin m) ℝ} (h : ofMat r ≠ 0) : r ≠ 0 := by
  rintro rfl; exact h rfl

end Mat

section Stiefel
variable {n m : ℕ} {proj : Matrix (Fin n) (Fin m) ℝ → Matrix (Fin n) (Fin m) ℝ}
open Stiefel Matrix

theorem tangent_neg {x u : Matrix (Fin n) (Fin m) ℝ} (h : Stiefel.Tangent x u) :
    Stiefel.Tangent x (-u) := by
  unfold Stiefel.Tangent at *
  rw [Matrix.mul_neg, Matrix.transpose_neg, h]

/-- The canonical Stiefel manifold (whose retraction is not first order exact, C80). -/
theorem C91_canonical_stiefel {x : Fin n × Fin m → ℝ} (hx : OnStiefel (toMat x))
    (g : Fin n × Fin m → ℝ) : Descends (Optim.canonicalStiefel proj) x g := by
  set X := toMat x with hX
  set R := Canonical.proju X (toMat g) with hR
  have hx' : Xᵀ * X = 1 := hx
  have ht : Stiefel.Tangent X R := (C19_canonical_stiefel hx (toMat g) 0 (by simp [Stiefel.Tangent])).1
  have hv := C80.C80_canonical_stiefel_velocity hx (tangent_neg ht)
  set W := -R + X * (Xᵀ * -R) with hW
  have hXW : Xᵀ * W = (2 : ℝ) • (Xᵀ * -R) := by
    rw [hW, Matrix.mul_add, ← Matrix.mul_assoc, hx', Matrix.one_mul, two_smul]
  have htW : Stiefel.Tangent X W := by
    have := tangent_neg ht
    unfold Stiefel.Tangent at *
    rw [hXW, Matrix.transpose_smul, this, smul_neg]
  have hpair := (C19_canonical_stiefel hx (toMat g) W htW).2
  have hmet : canonicalMetric X R W = -(Rᵀ * R).trace := by
    have e : Rᵀ * (1 - (2⁻¹ : ℝ) • (X * Xᵀ)) * W = -(Rᵀ * R) := by
      have e1 : (1 - (2⁻¹ : ℝ) • (X * Xᵀ)) * W = -R := by
        rw [Matrix.sub_mul, Matrix.one_mul, Matrix.smul_mul, Matrix.mul_assoc, hXW, Matrix.mul_smul,
          smul_smul, hW]
        norm_num
      rw [Matrix.mul_assoc, e1, Matrix.mul_neg]
    rw [canonicalMetric, e, Matrix.trace_neg]
  refine descends_of (M := Optim.canonicalStiefel proj) (r := ofMat R) (w := ofMat W)
    (q := (Rᵀ * R).trace) ?_ rfl ?_ ?_ ?_
  · have := C24_retr_zero X
    change ofMat (Canonical.retr X 0) = x
    rw [this]; rfl
  · rintro ⟨i, j⟩
    exact hv i j
  · rw [sum_trace]
    change ((toMat g)ᵀ * W).trace = _
    rw [← hpair, ← hmet]
  · exact fun h => trace_pos (ofMat_ne h)

/-- The part common to the two Euclidean Stiefel manifolds. -/
theorem euclidean_stiefel_aux {x : Matrix (Fin n) (Fin m) ℝ} (hx : OnStiefel x)
    (g : Fin n × Fin m → ℝ) :
    Stiefel.Tangent x (-(Euclidean.proju x (toMat g))) ∧
    ∑ p, g p * ofMat (-(Euclidean.proju x (toMat g))) p =
      -((Euclidean.proju x (toMat g))ᵀ * Euclidean.proju x (toMat g)).trace := by
  have h := C19_euclidean_stiefel hx (toMat g) 0 (by simp [Stiefel.Tangent])
  have h2 := (C19_euclidean_stiefel hx (toMat g) _ h.1).2
  refine ⟨tangent_neg h.1, ?_⟩
  rw [sum_trace]
  change ((toMat g)ᵀ * -(Euclidean.proju x (toMat g))).trace = _
  rw [Matrix.mul_neg, Matrix.trace_neg, ← h2]
  rfl

/-- The Euclidean Stiefel manifold with the QR retraction. -/
theorem C91_euclidean_stiefel {x : Fin n × Fin m → ℝ} (hx : OnStiefel (toMat x))
    (qr : Matrix (Fin n) (Fin m) ℝ → Matrix (Fin n) (Fin m) ℝ × Matrix (Fin m) (Fin m) ℝ)
    (hqr : ∀ a, Linalg.IsQR a (qr a).1 (qr a).2) (g : Fin n × Fin m → ℝ) :
    Descends (Optim.euclideanStiefel qr proj) x g := by
  obtain ⟨h1, h2⟩ := euclidean_stiefel_aux hx g
  obtain ⟨h0, hv⟩ := C80.C80_euclidean_stiefel hx h1 qr fun t => hqr _
  refine descends_of (M := Optim.euclideanStiefel qr proj)
    (r := ofMat (Euclidean.proju (toMat x) (toMat g))) ?_ rfl
    (w := ofMat (-(Euclidean.proju (toMat x) (toMat g)))) ?_ h2 fun h => trace_pos (ofMat_ne h)
  · funext p; exact congrFun (congrFun h0 p.1) p.2
  · rintro ⟨i, j⟩
    exact hv i j

/-- The Euclidean Stiefel manifold with the exponential map. -/
theorem C91_euclidean_stiefel_exact {x : Fin n × Fin m → ℝ} (hx : OnStiefel (toMat x))
    (g : Fin n × Fin m → ℝ) : Descends (Optim.euclideanStiefelExact proj) x g := by
  obtain ⟨h1, h2⟩ := euclidean_stiefel_aux hx g
  obtain ⟨h0, hv⟩ := C80.C80_euclidean_stiefel_exact (x := toMat x)
    (u := -(Euclidean.proju (toMat x) (toMat g)))
  refine descends_of (M := Optim.euclideanStiefelExact proj)
    (r := ofMat (Euclidean.proju (toMat x) (toMat g))) ?_ rfl
    (w := ofMat (-(Euclidean.proju (toMat x) (toMat g)))) ?_ h2 fun h => trace_pos (ofMat_ne h)
  · funext p; exact congrFun (congrFun h0 p.1) p.2
  · rintro ⟨i, j⟩
    exact hv i j

end Stiefel

/-- Symmetric positive definite matrices. -/
theorem C91_spd {n : ℕ} (E : Linalg.Eigh n) {x : Fin n × Fin n → ℝ} (hx : SPD.OnSPD (toMat x))
    (g : Fin n × Fin n → ℝ) : Descends (Optim.spd E) x g := by
  set R := SPD.egrad2rgrad (toMat x) (toMat g) with hR
  have hs : SPD.Symm R := (SPD.C19_spd (v := 0) hx (by simp [SPD.Symm])).2
  have hp := (SPD.C19_spd (g := toMat g) hx hs).1
  have hs' : SPD.Symm (-R) := by
    intro i j; simp [hs i j]
  obtain ⟨h0, hv⟩ := C80.C80_spd E hx.1 hs'
  refine descends_of (M := Optim.spd E) (r := ofMat R) (w := ofMat (-R))
    (q := SPD.inner (toMat x) R R) ?_ rfl ?_ ?_ ?_
  · funext p; exact congrFun (congrFun h0 p.1) p.2
  · rintro ⟨i, j⟩
    exact hv i j
  · rw [hp, Fintype.sum_prod_type]
    simp [ofMat, toMat]
  · intro h
    obtain ⟨h1, h2⟩ := SPD.C32_inner_pos hx hs
    exact lt_of_le_of_ne h1 fun e => ofMat_ne h (h2 e.symm)

/-- A batch of points. -/
theorem C91_batch {β ι : Type} [Fintype β] [Fintype ι] {M : Optim.Manifold ι} {x g : β × ι → ℝ}
    (h : ∀ b, Descends M (fun i => x (b, i)) fun i => g (b, i)) : Descends (Optim.batch β M) x g := by
  choose h0 w hv hle hlt using h
  refine ⟨?_, fun p => w p.1 p.2, ?_, ?_, ?_⟩
  · funext p
    exact congrFun (h0 p.1) p.2
  · rintro ⟨b, i⟩
    exact hv b i
  · rw [Fintype.sum_prod_type]
    exact Finset.sum_nonpos fun b _ => hle b
  · intro hne
    rw [Fintype.sum_prod_type]
    have : ∃ b, (M.egrad2rgrad (fun i => x (b, i)) fun i => g (b, i)).value ≠ 0 := by
      by_contra hc
      push Not at hc
      exact hne (by funext p; exact congrFun (hc p.1) p.2)
    obtain ⟨b, hb⟩ := this
    exact Finset.sum_neg' (fun b _ => hle b) ⟨b, Finset.mem_univ b, hlt b hb⟩

/-- The conclusion holds for two groups: a point of the unit circle without, and a plain parameter with
weight decay. -/
example : ∃ (P : Params Bool fun _ => Fin 2) (o : SGD Bool fun _ => Fin 2),
    P.manifold true = Optim.sphere none ∧ P.manifold false = Optim.euclidean (Fin 2) ∧
    (o.par true).point = ![1, 0] ∧ (o.par false).point = ![3, 4] ∧
    ∃ δ > 0, ∀ lr, 0 < lr → lr < δ → (sgdStep P (setLr lr o)).2 = none ∧
      ((sgdStep P (setLr lr o)).1.par true).point 1 + ((sgdStep P (setLr lr o)).1.par false).point 0 +
        0.5 / 2 * (((sgdStep P (setLr lr o)).1.par false).point 0 ^ 2 +
          ((sgdStep P (setLr lr o)).1.par false).point 1 ^ 2) < 0 + 3 + 0.5 / 2 * (3 ^ 2 + 4 ^ 2) := by
  let P : Params Bool fun _ => Fin 2 := ⟨id, fun _ => Optim.sphere none⟩
  let g : Bool → Fin 2 → ℝ := fun b => cond b ![0, 1] ![1, 0]
  let o : SGD Bool fun _ => Fin 2 :=
    ⟨fun b => ⟨cond b ![1, 0] ![3, 4], .dense (g b), none⟩,
      [⟨⟨1, 0, 0, 0, false, none⟩, 0, [true]⟩, ⟨⟨1, 0, 0, 0.5, false, none⟩, 0, [false]⟩]⟩
  let F : (Bool → Fin 2 → ℝ) → ℝ := fun y => y true 1 + y false 0
  let wd : Bool → ℝ := fun b => cond b 0 0.5
  have hF : HasGradient F g fun a => (o.par a).point := by
    let pr : Bool → Fin 2 → (Bool → Fin 2 → ℝ) →L[ℝ] ℝ := fun a i =>
      (ContinuousLinearMap.proj (R := ℝ) (φ := fun _ : Fin 2 => ℝ) i).comp
        (ContinuousLinearMap.proj (R := ℝ) (φ := fun _ : Bool => Fin 2 → ℝ) a)
    refine ⟨pr true 1 + pr false 0, ((pr true 1 + pr false 0).hasFDerivAt :), fun v => ?_⟩
    change v true 1 + v false 0 = _
    simp [g]
  have hd : ∀ a, Descends (P.manifold a) (o.par a).point (g a + wd a • (o.par a).point) := by
    rintro (_ | _)
    · exact C91_euclidean (n := 2) _ _
    · refine C91_sphere (S := Set.univ) ?_ ?_ _
      · rfl
      · refine ⟨?_, Set.mem_univ _⟩
        change (![1, 0] : Fin 2 → ℝ) ⬝ᵥ ![1, 0] = 1
        simp
  obtain ⟨δ, hδ, h⟩ := C91_sgd P o F g wd hF (fun _ => rfl) (by simp [o]) (by simp [o])
    (by simp [o, wd]) hd ⟨false, by
      change g false + wd false • (![3, 4] : Fin 2 → ℝ) ≠ 0
      intro h
      have := congrFun h 0
      norm_num [g, wd] at this⟩
  refine ⟨P, o, rfl, rfl, rfl, rfl, δ, hδ, fun lr h0 h1 => ?_⟩
  obtain ⟨h2, h3⟩ := h lr h0 h1
  refine ⟨h2, ?_⟩
  simp only [Fintype.sum_bool, Fin.sum_univ_two] at h3
  norm_num [F, wd] at h3 ⊢
  have e1 : (o.par true).point 1 = 0 := rfl
  have e2 : (o.par false).point 0 = 3 := rfl
  have e3 : (o.par false).point 1 = 4 := rfl
  rw [e1, e2, e3] at h3
  norm_num at h3
  exact h3

/-! ### Where it does not hold -/

/-- A point of the hyperboloid `-x₀² + x₁² = -1`. -/
noncomputable def hp : Fin 2 → ℝ := ![Real.sqrt 2, 1]

/-- One parameter on the Lorentz manifold with `k = 1`. -/
noncomputable def lorentzParams : Params Unit fun _ => Fin 2 := ⟨fun _ => true, fun _ => Optim.lorentz 1⟩

/-- Plain gradient descent at that point, for the loss `x₁`. -/
noncomputable def lorentzSGD : SGD Unit fun _ => Fin 2 :=
  ⟨fun _ => ⟨hp, .dense ![0, 1], none⟩, [⟨⟨1, 0, 0, 0, false, none⟩, 0, [()]⟩]⟩

theorem hp_on : Lorentz.OnHyperboloid (n := 1) 1 hp := by
  have h2 : Real.sqrt 2 * Real.sqrt 2 = 2 := Real.mul_self_sqrt (by norm_num)
  refine ⟨?_, ?_⟩
  · simp only [Lorentz.mink, hp, Finset.univ_unique, Finset.sum_singleton, Fin.default_eq_zero,
      Fin.succ_zero_eq_one, Matrix.cons_val_zero, Matrix.cons_val_one, h2]
    norm_num
  · simp only [hp, Matrix.cons_val_zero]
    positivity

theorem lorentz_inner2 (u v : Fin 2 → ℝ) : Lorentz.inner (n := 1) u v = -(u 0 * v 0) + u 1 * v 1 := by
  simp only [Lorentz.inner, Fin.tail, dotProduct, Finset.univ_unique, Finset.sum_singleton,
    Fin.default_eq_zero, Fin.succ_zero_eq_one]

theorem lorentz_rgrad : (Lorentz.egrad2rgrad (n := 1) 1 hp ![0, 1]).1 = ![Real.sqrt 2, 2] := by
  have e : (Fin.cons ((![0, 1] : Fin 2 → ℝ) 0 * -1) (Fin.tail (![0, 1] : Fin 2 → ℝ)) : Fin 2 → ℝ) =
      ![0, 1] := by
    funext i
    fin_cases i
    · change (![0, 1] : Fin 2 → ℝ) 0 * -1 = _
      simp
    · rfl
  simp only [Lorentz.egrad2rgrad]
  rw [e, lorentz_inner2]
  funext i
  fin_cases i
  · simp [hp]
  · simp [hp]; norm_num

/-- Where the step with learning rate `lr ≤ 1e-5` arrives. -/
theorem lorentz_step {lr : ℝ} (h0 : 0 < lr) (h1 : lr < 1e-5) :
    (Lorentz.expmap (n := 1) 1 hp (-lr • ![Real.sqrt 2, 2]) : Fin 2 → ℝ) 1 =
      Real.cosh 1e-4 - Real.sinh 1e-4 / 1e-4 * (2 * lr) := by
  have h2 : Real.sqrt 2 * Real.sqrt 2 = 2 := Real.mul_self_sqrt (by norm_num)
  have et : Lorentz.inner (n := 1) hp (-lr • ![Real.sqrt 2, 2]) = 0 := by
    rw [lorentz_inner2]
    simp [hp]
    linear_combination lr * h2
  have en : Lorentz.norm (n := 1) (-lr • ![Real.sqrt 2, 2]) = 1e-4 := by
    have : Lorentz.inner (n := 1) (-lr • ![Real.sqrt 2, 2]) (-lr • ![Real.sqrt 2, 2]) = 2 * lr ^ 2 := by
      rw [lorentz_inner2]
      simp
      linear_combination (-lr ^ 2) * h2
    rw [Lorentz.norm, this, max_eq_right (by norm_num at h1 ⊢; nlinarith),
      show (1e-8 : ℝ) = 1e-4 ^ 2 by norm_num, Real.sqrt_sq (by norm_num)]
  have ep : ∀ y : Fin 2 → ℝ, Lorentz.project (n := 1) 1 y 1 = y 1 := fun y => rfl
  simp only [Lorentz.expmap, Lorentz.proju, Lorentz.projectU, if_true, et, zero_smul, add_zero, ep,
    Lorentz.expmapRaw, en, Real.sqrt_one, div_one, Pi.add_apply, Pi.smul_apply, smul_eq_mul]
  simp [hp]
  ring

/-- On the Lorentz manifold every sufficiently small learning rate makes the loss larger: the
exponential map clamps the length of the step from below (C37). -/
theorem C91_counterexample_lorentz :
    ∃ (P : Params Unit fun _ => Fin 2) (o : SGD Unit fun _ => Fin 2)
      (F : (Unit → Fin 2 → ℝ) → ℝ) (g : Unit → Fin 2 → ℝ),
      (∀ a, P.manifold a = Optim.lorentz (n := 1) 1) ∧
      (∀ a, Lorentz.OnHyperboloid (n := 1) 1 (o.par a).point) ∧
      HasGradient F g (fun a => (o.par a).point) ∧ (∀ a, (o.par a).grad = .dense (g a)) ∧
      (∀ a, ((P.manifold a).egrad2rgrad (o.par a).point (g a)).value ≠ 0) ∧
      ∃ δ > 0, ∀ lr, 0 < lr → lr < δ →
        F (fun a => (o.par a).point) < F (fun a => ((sgdStep P (setLr lr o)).1.par a).point) := by
  refine ⟨lorentzParams, lorentzSGD, fun y => y () 1, fun _ => ![0, 1], fun _ => rfl, fun _ => ?_, ?_,
    fun _ => rfl, fun _ => ?_, ?_⟩
  · exact hp_on
  · refine ⟨(ContinuousLinearMap.proj (R := ℝ) (φ := fun _ : Fin 2 => ℝ) 1).comp
      (ContinuousLinearMap.proj (R := ℝ) (φ := fun _ : Unit => Fin 2 → ℝ) ()),
      (ContinuousLinearMap.hasFDerivAt ((ContinuousLinearMap.proj (R := ℝ) (φ := fun _ : Fin 2 => ℝ) 1).comp
      (ContinuousLinearMap.proj (R := ℝ) (φ := fun _ : Unit => Fin 2 → ℝ) ())) :), fun v => ?_⟩
    simp
  · change (Lorentz.egrad2rgrad (n := 1) 1 hp ![0, 1]).1 ≠ 0
    rw [lorentz_rgrad]
    intro h
    have := congrFun h 1
    norm_num at this
  · have hc : 1 < Real.cosh 1e-4 := Real.one_lt_cosh.2 (by norm_num)
    have hs : 0 < Real.sinh 1e-4 / 1e-4 := div_pos (Real.sinh_pos_iff.2 (by norm_num)) (by norm_num)
    refine ⟨min 1e-5 ((Real.cosh 1e-4 - 1) / (2 * (Real.sinh 1e-4 / 1e-4))),
      lt_min (by norm_num) (div_pos (by linarith) (by linarith)), fun lr h0 h1 => ?_⟩
    obtain ⟨h1, h2⟩ := lt_min_iff.1 h1
    have e : ((sgdStep lorentzParams (setLr lr lorentzSGD)).1.par ()).point =
        Lorentz.expmap (n := 1) 1 hp (-lr • ![Real.sqrt 2, 2]) := by
      rw [← lorentz_rgrad]
      simp [sgdStep, setLr, lorentzSGD, forGroups, sgdGroup, counterGroup, forParams, sgdParam,
        lorentzParams, Optim.lorentz, Params.manifold]
    change hp 1 < ((sgdStep lorentzParams (setLr lr lorentzSGD)).1.par ()).point 1
    rw [e, lorentz_step h0 h1]
    change (![Real.sqrt 2, 1] : Fin 2 → ℝ) 1 < _
    rw [lt_div_iff₀ (by linarith)] at h2
    simp only [Matrix.cons_val_one, Matrix.cons_val_zero]
    linarith

end Geoopt.C91
