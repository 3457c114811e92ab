import Verif.Model.OptimBirkhoff
import Verif.Props.C91

/-!
# C91 for `BirkhoffPolytope`

With `eps = 0` a small step decreases the loss.  With the default `eps = 1e-12` it need not: a step of
length zero already moves the parameter (C80).
-/

namespace Geoopt.C91
open Geoopt Geoopt.Optim Geoopt.SpecRetr Geoopt.Birkhoff Filter Topology Matrix

variable {β : Type} [Fintype β] {n : ℕ}

theorem birkhoff_pos {x v : Matrix (Fin (n + 1)) (Fin (n + 1)) ℝ} (hx : DoublyStochastic x)
    (hv : v ≠ 0) : 0 < Birkhoff.inner x v v := by
  unfold Birkhoff.inner
  refine div_pos ?_ (by positivity)
  obtain ⟨i, j, h⟩ : ∃ i j, v i j ≠ 0 := by
    by_contra h
    push Not at h
    exact hv (by ext i j; exact h i j)
  have h0 : ∀ i j, 0 ≤ v i j * v i j / x i j := fun i j =>
    div_nonneg (mul_self_nonneg _) (hx.pos i j).le
  exact Finset.sum_pos' (fun i _ => Finset.sum_nonneg fun j _ => h0 i j)
    ⟨i, Finset.mem_univ _, Finset.sum_pos' (fun j _ => h0 i j)
      ⟨j, Finset.mem_univ _, div_pos (mul_self_pos.2 h) (hx.pos i j)⟩⟩

theorem tangent_neg' {v : Matrix (Fin (n + 1)) (Fin (n + 1)) ℝ} (h : Birkhoff.Tangent v) :
    Birkhoff.Tangent (-v) := by
  constructor
  · intro i
    have := h.row i
    simp only [rowSum] at this
    simp [rowSum, this]
  · intro i
    have := h.col i
    simp only [colSum] at this
    simp [colSum, this]

omit [Fintype β] in
/-- Where a step of length `t` along minus the Riemannian gradient goes, to first order. -/
theorem birkhoff_velocity [Finite β] (cfg : Config) (he : 0 ≤ cfg.eps)
    (htol : 1 - C80.sinkScale cfg.eps < cfg.tol) {x : β × Fin (n + 1) × Fin (n + 1) → ℝ}
    (hx : ∀ b, DoublyStochastic (toMats x b))
    (hb : ∀ p, 1e-12 < x p * C80.sinkScale cfg.eps) (g : β × Fin (n + 1) × Fin (n + 1) → ℝ) :
    (Optim.birkhoff β cfg).retr x 0 = C80.sinkScale cfg.eps • x ∧
    Velocity (fun t => (Optim.birkhoff β cfg).retr x
        (t • -((Optim.birkhoff β cfg).egrad2rgrad x g).value))
      (-C80.sinkScale cfg.eps • ((Optim.birkhoff β cfg).egrad2rgrad x g).value) := by
  have h := fun b => C80.C80_birkhoff_partial cfg he htol hx
    (u := fun b => -Birkhoff.proju (toMats x b) (toMats g b))
    (fun b => tangent_neg' (C34_tangent (hx b) _)) (fun b i j => hb (b, i, j)) b
  constructor
  · funext p
    exact congrFun (congrFun (h p.1).1 p.2.1) p.2.2
  · rintro ⟨b, i, j⟩
    refine ((h b).2 i j).congr_deriv ?_
    simp [Optim.birkhoff, ofMats]

/-- **C91**, doubly stochastic matrices with entries above the clamp `1e-12` of `retr`, for a manifold
made with `eps = 0`. -/
theorem C91_birkhoff (cfg : Config) (he : cfg.eps = 0) (htol : 0 < cfg.tol)
    {x : β × Fin (n + 1) × Fin (n + 1) → ℝ} (hx : ∀ b, DoublyStochastic (toMats x b))
    (hb : ∀ p, 1e-12 < x p) (g : β × Fin (n + 1) × Fin (n + 1) → ℝ) :
    Descends (Optim.birkhoff β cfg) x g := by
  have hs : C80.sinkScale cfg.eps = 1 := by simp [C80.sinkScale, he]
  obtain ⟨h0, hv⟩ := birkhoff_velocity cfg he.ge (by rw [hs]; simpa using htol) hx
    (by simpa [hs] using hb) g
  rw [hs, one_smul] at h0
  rw [hs] at hv
  let R : β → Matrix (Fin (n + 1)) (Fin (n + 1)) ℝ := fun b => Birkhoff.proju (toMats x b) (toMats g b)
  have hq : ∀ b, Birkhoff.inner (toMats x b) (R b) (R b) * ((n + 1 : ℕ) : ℝ) =
      ∑ i, ∑ j, toMats g b i j * R b i j := fun b => by
    rw [C19_birkhoff (hx b) (toMats g b) (C34_tangent (hx b) _), div_mul_cancel₀]
    positivity
  refine descends_of h0 rfl hv (q := ∑ b, Birkhoff.inner (toMats x b) (R b) (R b) * ((n + 1 : ℕ) : ℝ))
    ?_ ?_
  · simp only [hq, Fintype.sum_prod_type, ← Finset.sum_neg_distrib]
    refine Finset.sum_congr rfl fun b _ => Finset.sum_congr rfl fun i _ =>
      Finset.sum_congr rfl fun j _ => ?_
    simp [Optim.birkhoff, ofMats, toMats, R]
  · intro h
    have hne : ∃ b, R b ≠ 0 := by
      by_contra hc
      push Not at hc
      exact h (by funext p; exact congrFun (congrFun (hc p.1) p.2.1) p.2.2)
    obtain ⟨b, hb⟩ := hne
    have hn : (0 : ℝ) < ((n + 1 : ℕ) : ℝ) := by positivity
    refine Finset.sum_pos' (fun b _ => mul_nonneg ?_ hn.le)
      ⟨b, Finset.mem_univ _, mul_pos (birkhoff_pos (hx b) hb) hn⟩
    by_cases hz : R b = 0
    · simp [hz, Birkhoff.inner]
    · exact (birkhoff_pos (hx b) hz).le

/-! ### Two by two matrices -/

/-- The centre of the polytope. -/
noncomputable def centre : Unit × Fin 2 × Fin 2 → ℝ := fun _ => 1 / 2

/-- The gradient of the loss `-(x₀₁ + x₁₀ + x₁₁)`. -/
noncomputable def centreGrad : Unit × Fin 2 × Fin 2 → ℝ := fun p => if p.2 = (0, 0) then 0 else -1

theorem centre_on (b : Unit) : DoublyStochastic (toMats centre b) := by
  refine ⟨fun i j => ?_, fun i => ?_, fun j => ?_⟩ <;>
  simp [toMats, centre, rowSum, colSum]

theorem centre_rgrad (cfg : Config) :
    ((Optim.birkhoff Unit (n := 1) cfg).egrad2rgrad centre centreGrad).value ≠ 0 := by
  intro h
  have ht : Birkhoff.Tangent (!![1, -1; -1, 1] : Matrix (Fin 2) (Fin 2) ℝ) := by
    constructor
    · intro i; fin_cases i <;> simp [rowSum, Fin.sum_univ_two]
    · intro i; fin_cases i <;> simp [colSum, Fin.sum_univ_two]
  have h1 := C19_birkhoff (centre_on ()) (toMats centreGrad ()) ht
  have h2 : Birkhoff.proju (toMats centre ()) (toMats centreGrad ()) = 0 := by
    ext i j
    exact congrFun h ((), i, j)
  rw [h2] at h1
  simp [Birkhoff.inner, toMats, centreGrad, Fin.sum_univ_two] at h1

/-- Non-vacuity: the loss `-(x₀₁ + x₁₀ + x₁₁)` at the centre. -/
example : Descends (Optim.birkhoff Unit (n := 1) ⟨100, 1e-5, 0⟩) centre centreGrad ∧
    ((Optim.birkhoff Unit (n := 1) ⟨100, 1e-5, 0⟩).egrad2rgrad centre centreGrad).value ≠ 0 :=
  ⟨C91_birkhoff _ rfl (by norm_num) centre_on (fun p => by norm_num [centre]) _, centre_rgrad _⟩

/-- One parameter on the Birkhoff polytope with the default arguments. -/
noncomputable def birkhoffParams : Params Unit fun _ => Unit × Fin 2 × Fin 2 :=
  ⟨fun _ => true, fun _ => Optim.birkhoff Unit Config.default⟩

/-- Plain gradient descent at the centre. -/
noncomputable def birkhoffSGD : SGD Unit fun _ => Unit × Fin 2 × Fin 2 :=
  ⟨fun _ => ⟨centre, .dense centreGrad, none⟩, [⟨⟨1, 0, 0, 0, false, none⟩, 0, [()]⟩]⟩

/-- With the default `eps = 1e-12` every sufficiently small learning rate can make the loss larger,
although the Riemannian gradient is not zero. -/
theorem C91_counterexample_birkhoff :
    ∃ (P : Params Unit fun _ => Unit × Fin 2 × Fin 2) (o : SGD Unit fun _ => Unit × Fin 2 × Fin 2)
      (F : (Unit → Unit × Fin 2 × Fin 2 → ℝ) → ℝ) (g : Unit → Unit × Fin 2 × Fin 2 → ℝ),
      (∀ a, P.manifold a = Optim.birkhoff Unit (n := 1) Config.default) ∧
      (∀ a b, DoublyStochastic (toMats (o.par a).point b)) ∧
      HasGradient F g (fun a => (o.par a).point) ∧ (∀ a, (o.par a).grad = .dense (g a)) ∧
      (∀ a, ((P.manifold a).egrad2rgrad (o.par a).point (g a)).value ≠ 0) ∧
      ∃ δ > 0, ∀ lr, 0 < lr → lr < δ →
        F (fun a => (o.par a).point) < F (fun a => ((sgdStep P (setLr lr o)).1.par a).point) := by
  let pr : Fin 2 × Fin 2 → (Unit → Unit × Fin 2 × Fin 2 → ℝ) →L[ℝ] ℝ := fun q =>
    (ContinuousLinearMap.proj (R := ℝ) (φ := fun _ : Unit × Fin 2 × Fin 2 => ℝ) ((), q)).comp
      (ContinuousLinearMap.proj (R := ℝ) (φ := fun _ : Unit => Unit × Fin 2 × Fin 2 → ℝ) ())
  let L : (Unit → Unit × Fin 2 × Fin 2 → ℝ) →L[ℝ] ℝ := -(pr (0, 1) + pr (1, 0) + pr (1, 1))
  have hL : ∀ y, L y = -(y () ((), 0, 1) + y () ((), 1, 0) + y () ((), 1, 1)) := fun y => rfl
  refine ⟨birkhoffParams, birkhoffSGD, L, fun _ => centreGrad, fun _ => rfl, fun _ => centre_on,
    ⟨L, L.hasFDerivAt, fun v => ?_⟩, fun _ => rfl, fun _ => centre_rgrad _, ?_⟩
  · rw [hL]
    simp [centreGrad, Fintype.sum_prod_type, Fin.sum_univ_two]
    ring
  set c := C80.sinkScale Config.default.eps with hc
  have hc1 : c < 1 ∧ 0.99 < c := by
    rw [hc]; norm_num [C80.sinkScale, Config.default]
  have hc2 : 1 - c < 1e-5 := by
    rw [hc]; norm_num [C80.sinkScale, Config.default]
  obtain ⟨h0, hv⟩ := birkhoff_velocity (β := Unit) (n := 1) Config.default (by norm_num [Config.default])
    hc2 centre_on (fun p => by simp only [centre]; linarith [hc1.2]) centreGrad
  have e : ∀ lr, ((sgdStep birkhoffParams (setLr lr birkhoffSGD)).1.par ()).point =
      (Optim.birkhoff Unit (n := 1) Config.default).retr centre
        (lr • -((Optim.birkhoff Unit (n := 1) Config.default).egrad2rgrad centre centreGrad).value) := by
    intro lr
    simp [sgdStep, setLr, birkhoffSGD, forGroups, sgdGroup, counterGroup, forParams, sgdParam,
      birkhoffParams, Params.manifold]
  have hcont : ∀ p, ContinuousAt (fun t : ℝ => (Optim.birkhoff Unit (n := 1) Config.default).retr centre
      (t • -((Optim.birkhoff Unit (n := 1) Config.default).egrad2rgrad centre centreGrad).value) p) 0 :=
    fun p => (hv p).continuousAt
  have hev := ((((hcont ((), 0, 1)).add (hcont ((), 1, 0))).add (hcont ((), 1, 1))).neg).eventually
    (lt_mem_nhds (a := -(3 / 2)) ?_)
  · obtain ⟨δ, hδ, h⟩ := Metric.eventually_nhds_iff.1 hev
    refine ⟨δ, hδ, fun lr hp hl => ?_⟩
    have h1 := h (y := lr) (by rw [Real.dist_eq, sub_zero, abs_of_pos hp]; exact hl)
    rw [hL, hL]
    simp only [Pi.neg_apply, Pi.add_apply] at h1
    simp only [e lr]
    refine lt_of_eq_of_lt ?_ h1
    change -((1 : ℝ) / 2 + 1 / 2 + 1 / 2) = _
    norm_num
  · simp only [Pi.neg_apply, Pi.add_apply, zero_smul, h0, ← hc, Pi.smul_apply, smul_eq_mul, centre]
    linarith [hc1.1]

end Geoopt.C91
