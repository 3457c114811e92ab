import Verif.Spec.LineSearchConv
import Verif.Props.C86
import Verif.Props.C76
import Verif.Props.C103
import Verif.Props.C63Manifolds
import Verif.Props.C63Cx

/-!
C115: training with a line search converges to critical points.
-/

open Geoopt Geoopt.LineSearch Filter Topology

section
variable {κ : Type} [Fintype κ] {ι : κ → Type} {C : Config κ ι} {f : Closure κ ι}
variable {On : ∀ a, (ι a → ℝ) → Prop} {Tan : ∀ a, (ι a → ℝ) → (ι a → ℝ) → Prop}

namespace C115

theorem reach {x₀ : ∀ a, ι a → ℝ} {s : ℕ → LS κ ι} {d : ℕ → ∀ a, ι a → ℝ} {found : ℕ → Option ℝ}
    (h : Run C f x₀ s d found) (t : ℕ) : Reach C f x₀ (s t) := by
  induction t with
  | zero => rw [h.start]; exact .start
  | succ t ih =>
    obtain ⟨rc, out, e⟩ := h.next t
    exact .step rc ih e

/-- What every step knows about its direction. -/
theorem direction (hR : ∀ a, Retraction (C.man a) (On a) (Tan a))
    (hm : ∀ i, i.phi0 ≠ none → (C.method i).Honest []) (hK : KeepsTangent C Tan)
    {x₀ : ∀ a, ι a → ℝ} (h₀ : ∀ a, On a (x₀ a))
    (hneg : ∀ a x g, On a x → (C.man a).inner x ((C.man a).egrad2rgrad x g)
      (-((C.man a).egrad2rgrad x g)) = -(C.man a).inner x ((C.man a).egrad2rgrad x g)
        ((C.man a).egrad2rgrad x g))
    (hpos : ∀ a x g, On a x → 0 ≤ (C.man a).inner x ((C.man a).egrad2rgrad x g)
      ((C.man a).egrad2rgrad x g))
    {s s' : LS κ ι} (hs : Reach C f x₀ s) {rc : Bool} {out : Option ℝ}
    (h : step C f false rc false s = (s', .ok out)) {d : ∀ a, ι a → ℝ}
    (hd : ∀ a, (s'.par a).searchDir = some (d a)) :
    (∀ a, On a (s.points a)) ∧ (∀ a, Tan a (s.points a) (d a)) ∧ slopeAlong C f s.points d ≤ 0 := by
  have hc := C63.reach_consistent hR hm hK h₀ hs
  obtain ⟨s1, δ, d1, r, h1, hd1, hd', -⟩ := C85.step_full hR hm hK hc h
  have e : d1 = d := by
    funext a
    have := (hd' a).symm.trans (hd a)
    exact Option.some.inj this
  subst e
  obtain ⟨-, -, -, -, -, -, -, d2, hd2, hT, hδ⟩ := C63.initLoss_state hR hc h1
  have e : d2 = d1 := by
    funext a
    exact Option.some.inj ((hd2 a).symm.trans (hd1 a))
  subst e
  refine ⟨hc.on, hT, ?_⟩
  rcases hδ with ⟨e, hlt⟩ | ⟨rfl, e⟩
  · exact (le_of_eq e.symm).trans hlt.le
  · unfold slopeAlong
    refine Finset.sum_nonpos fun a _ => ?_
    have := hneg a (s.points a) (f.grad s.points a) (hc.on a)
    have h2 := hpos a (s.points a) (f.grad s.points a) (hc.on a)
    change (C.man a).inner (s.points a) ((C.man a).egrad2rgrad (s.points a) (f.grad s.points a))
      (-((C.man a).egrad2rgrad (s.points a) (f.grad s.points a))) ≤ 0
    linarith

theorem telescope {F q : ℕ → ℝ} {m : ℝ} (hm : ∀ t, m ≤ F t) (h : ∀ t, q t ≤ F t - F (t + 1)) (N : ℕ) :
    ∑ t ∈ Finset.range N, q t ≤ F 0 - m := by
  have : ∑ t ∈ Finset.range N, q t ≤ F 0 - F N := by
    induction N with
    | zero => simp
    | succ N ih => rw [Finset.sum_range_succ]; linarith [h N]
  linarith [hm N]

end C115

/-- **C115**, Armijo backtracking.  The decrease that the Armijo condition promises, added up over all steps that
found a step size, is at most the distance of the initial loss from a lower bound of the loss. -/
theorem C115_armijo (hR : ∀ a, Retraction (C.man a) (On a) (Tan a))
    {scalar : ℝ → ℝ → ℝ → ℝ → ℝ → Search} {c1 amin : ℝ} {amax : Option ℝ} (hc1 : 0 < c1)
    (hm : ∀ m, amax = some m → 0 < m)
    (hscalar : ∀ p0 δ α0, 0 < α0 → (scalar p0 δ c1 α0 amin).Armijo p0 δ c1 [])
    (hK : KeepsTangent C Tan) (hmeth : ∀ i, C.method i = armijoBacktracking scalar c1 amin amax i)
    {x₀ : ∀ a, ι a → ℝ} (h₀ : ∀ a, On a (x₀ a))
    (hneg : ∀ a x g, On a x → (C.man a).inner x ((C.man a).egrad2rgrad x g)
      (-((C.man a).egrad2rgrad x g)) = -(C.man a).inner x ((C.man a).egrad2rgrad x g)
        ((C.man a).egrad2rgrad x g))
    (hpos : ∀ a x g, On a x → 0 ≤ (C.man a).inner x ((C.man a).egrad2rgrad x g)
      ((C.man a).egrad2rgrad x g))
    {s : ℕ → LS κ ι} {d : ℕ → ∀ a, ι a → ℝ} {found : ℕ → Option ℝ} (hrun : Run C f x₀ s d found)
    {m : ℝ} (hb : ∀ x, m ≤ f.loss x) (N : ℕ) :
    ∑ t ∈ Finset.range N, (found t).getD 0 * |slopeAlong C f (s t).points (d t)| ≤
      (f.loss x₀ - m) / c1 := by
  rw [le_div_iff₀ hc1, Finset.sum_mul]
  have hm' : ∀ i, i.phi0 ≠ none → (C.method i).Honest [] := by
    intro i hi
    rw [hmeth]
    unfold armijoBacktracking
    cases hp : i.phi0 with
    | none => exact absurd hp hi
    | some p0 => exact C76.honest_of_armijo _ (hscalar p0 _ _ (C76_start _ _ _ _ hm).1)
  have h0 : f.loss x₀ = f.loss (s 0).points := by rw [hrun.start]; rfl
  rw [h0]
  refine C115.telescope (F := fun t => f.loss (s t).points) (fun t => hb _) (fun t => ?_) N
  obtain ⟨rc, out, e⟩ := hrun.next t
  obtain ⟨-, -, h3⟩ := C115.direction hR hm' hK h₀ hneg hpos (C115.reach hrun t) e (hrun.dir t)
  obtain ⟨hle, d', r, hd', hr, -, hα⟩ := C76_armijo_descent hR hc1.le hm hscalar hK hmeth h₀ hneg hpos
    (C115.reach hrun t) e
  have ed : d' = d t := by
    funext a
    exact Option.some.inj ((hd' a).symm.trans (hrun.dir t a))
  have er : r = found t := by
    have := hr.symm.trans (hrun.size t)
    simpa using this
  subst ed er
  cases hf : found t with
  | none => simpa using hle
  | some α =>
    obtain ⟨p1, -, -, p4⟩ := hα α hf
    change _ ≤ f.loss (s t).points + c1 * α * slopeAlong C f (s t).points (d t) at p4
    rw [abs_of_nonpos h3, Option.getD_some]
    linarith

/-- **C115**, strong Wolfe line search (Zoutendijk's condition).  Along every history, the squared slopes along the
search directions divided by the squared lengths of these, added up over all steps that found a step size,
are at most a constant that depends only on the smoothness of the loss, the two parameters of the search,
and the distance of the initial loss from a lower bound. -/
theorem C115_wolfe (hR : ∀ a, Retraction (C.man a) (On a) (Tan a))
    {scalar : Option ℝ → Option ℝ → ℝ → ℝ → Option ℝ → Search} {c1 c2 : ℝ} {amax : Option ℝ}
    (hscalar : ∀ p0 old, (scalar (some p0) old c1 c2 amax).Wolfe p0 c1 c2 [] [] []) (hc1 : 0 < c1)
    (hc2 : c2 < 1) (hK : KeepsTangent C Tan) (hmeth : C.method = strongWolfeLineSearch scalar c1 c2 amax)
    (hc : C.computeDerphi = true) {x₀ : ∀ a, ι a → ℝ} (h₀ : ∀ a, On a (x₀ a))
    (hneg : ∀ a x g, On a x → (C.man a).inner x ((C.man a).egrad2rgrad x g)
      (-((C.man a).egrad2rgrad x g)) = -(C.man a).inner x ((C.man a).egrad2rgrad x g)
        ((C.man a).egrad2rgrad x g))
    (hpos : ∀ a x u, On a x → Tan a x u → 0 ≤ (C.man a).inner x u u)
    (hzero : ∀ x d : ∀ a, ι a → ℝ, (∀ a, On a (x a)) → (∀ a, Tan a (x a) (d a)) →
      lineDeriv C f x d 0 = slopeAlong C f x d)
    {L : ℝ} (hL : 0 < L) (hsmooth : LineSmooth C f On Tan L)
    {s : ℕ → LS κ ι} {d : ℕ → ∀ a, ι a → ℝ} {found : ℕ → Option ℝ} (hrun : Run C f x₀ s d found)
    {m : ℝ} (hb : ∀ x, m ≤ f.loss x) (N : ℕ) :
    ∑ t ∈ Finset.range N, (if found t = none then 0 else
        slopeAlong C f (s t).points (d t) ^ 2 / sqLength C (s t).points (d t)) ≤
      L * (f.loss x₀ - m) / (c1 * (1 - c2)) := by
  have hc2' : 0 < 1 - c2 := by linarith
  rw [le_div_iff₀ (by positivity), Finset.sum_mul, mul_comm L, ← div_le_iff₀ hL, Finset.sum_div]
  have hm' : ∀ i, i.phi0 ≠ none → (C.method i).Honest [] := by
    intro i hi
    rw [hmeth]
    unfold strongWolfeLineSearch
    cases hp : i.phi0 with
    | none => exact absurd hp hi
    | some p0 => exact C86.honest_of_wolfe _ (hscalar p0 _) (by simp) (by simp)
  have h0 : f.loss x₀ = f.loss (s 0).points := by rw [hrun.start]; rfl
  rw [h0]
  refine C115.telescope (F := fun t => f.loss (s t).points) (fun t => hb _) (fun t => ?_) N
  obtain ⟨rc, out, e⟩ := hrun.next t
  obtain ⟨h1, h2, h3⟩ := C115.direction hR hm' hK h₀ hneg (fun a x g hx => hpos a x _ hx ((hR a).grad g hx))
    (C115.reach hrun t) e (hrun.dir t)
  obtain ⟨d', r, hd', hr, hn, hα⟩ := C86_strong_wolfe hR hscalar hK hmeth hc h₀ (C115.reach hrun t) e
  have ed : d' = d t := by
    funext a
    exact Option.some.inj ((hd' a).symm.trans (hrun.dir t a))
  have er : r = found t := by
    have := hr.symm.trans (hrun.size t)
    simpa using this
  subst ed er
  cases hf : found t with
  | none =>
    have := hn hf
    simp [this]
  | some α =>
    obtain ⟨p1, -, -, p4, p5⟩ := hα α hf
    rw [hzero _ _ h1 h2] at p4 p5
    have hsm := hsmooth _ _ h1 h2 α p1
    have hlen : 0 ≤ sqLength C (s t).points (d t) :=
      Finset.sum_nonneg fun a _ => hpos a _ _ (h1 a) (h2 a)
    rw [abs_of_nonpos h3] at p5
    have p6 := (abs_le.1 p5).1
    rw [if_neg (by simp)]
    generalize slopeAlong C f (s t).points (d t) = σ at *
    generalize sqLength C (s t).points (d t) = ℓ at *
    -- the step is not short
    have key : (1 - c2) * -σ ≤ L * α * ℓ := by linarith
    rcases hlen.lt_or_eq with hl | hl
    · have k1 : σ ^ 2 / ℓ * (c1 * (1 - c2)) / L = c1 * -σ * ((1 - c2) * -σ / (L * ℓ)) := by
        field_simp
      have k2 : (1 - c2) * -σ / (L * ℓ) ≤ α := by
        rw [div_le_iff₀ (by positivity)]; linarith
      rw [k1]
      have k3 := mul_le_mul_of_nonneg_left k2 (mul_nonneg hc1.le (neg_nonneg.2 h3))
      linarith
    · rw [← hl, div_zero, zero_mul, zero_div]
      have : c1 * α * σ ≤ 0 := mul_nonpos_of_nonneg_of_nonpos (mul_nonneg hc1.le p1) h3
      linarith

/-- **C115**, steepest descent with the strong Wolfe line search.  If every search finds a step size, the squared
lengths of the Riemannian gradients have a finite sum, so they tend to zero, and among the first `N` there is
one of at most `1/N` of the bound for the sum. -/
theorem C115_wolfe_steepest (hR : ∀ a, Retraction (C.man a) (On a) (Tan a))
    {scalar : Option ℝ → Option ℝ → ℝ → ℝ → Option ℝ → Search} {c1 c2 : ℝ} {amax : Option ℝ}
    (hscalar : ∀ p0 old, (scalar (some p0) old c1 c2 amax).Wolfe p0 c1 c2 [] [] []) (hc1 : 0 < c1)
    (hc2 : c2 < 1) (hmeth : C.method = strongWolfeLineSearch scalar c1 c2 amax)
    (hcg : C.cg = cgConstant 0)
    (hc : C.computeDerphi = true) {x₀ : ∀ a, ι a → ℝ} (h₀ : ∀ a, On a (x₀ a))
    (hneg : ∀ a x u v, On a x → (C.man a).inner x u (-v) = -(C.man a).inner x u v ∧
      (C.man a).inner x (-u) v = -(C.man a).inner x u v)
    (hpos : ∀ a x u, On a x → Tan a x u → 0 ≤ (C.man a).inner x u u)
    (hzero : ∀ x d : ∀ a, ι a → ℝ, (∀ a, On a (x a)) → (∀ a, Tan a (x a) (d a)) →
      lineDeriv C f x d 0 = slopeAlong C f x d)
    {L : ℝ} (hL : 0 < L) (hsmooth : LineSmooth C f On Tan L)
    {s : ℕ → LS κ ι} {d : ℕ → ∀ a, ι a → ℝ} {found : ℕ → Option ℝ} (hrun : Run C f x₀ s d found)
    (hfound : ∀ t, found t ≠ none) {m : ℝ} (hb : ∀ x, m ≤ f.loss x) :
    (∀ N, ∑ t ∈ Finset.range N, sqGrad C f (s t).points ≤ L * (f.loss x₀ - m) / (c1 * (1 - c2))) ∧
    Tendsto (fun t => sqGrad C f (s t).points) atTop (𝓝 0) ∧
    ∀ N > 0, ∃ t < N, sqGrad C f (s t).points ≤ L * (f.loss x₀ - m) / (c1 * (1 - c2)) / N := by
  have hK : KeepsTangent C Tan := Or.inl fun p => by rw [hcg]; rfl
  have hm' : ∀ i, i.phi0 ≠ none → (C.method i).Honest [] := by
    intro i hi
    rw [hmeth]
    unfold strongWolfeLineSearch
    cases hp : i.phi0 with
    | none => exact absurd hp hi
    | some p0 => exact C86.honest_of_wolfe _ (hscalar p0 _) (by simp) (by simp)
  have hon : ∀ t a, On a ((s t).points a) := fun t =>
    (C63.reach_consistent hR hm' hK h₀ (C115.reach hrun t)).on
  have hnn : ∀ t, 0 ≤ sqGrad C f (s t).points := fun t =>
    Finset.sum_nonneg fun a _ => hpos a _ _ (hon t a) ((hR a).grad _ (hon t a))
  have hdir : ∀ t a, d t a = -((C.man a).egrad2rgrad ((s t).points a) (f.grad (s t).points a)) := by
    intro t a
    obtain ⟨rc, out, e⟩ := hrun.next t
    exact Option.some.inj ((hrun.dir t a).symm.trans
      (C85_steepest hR hm' hcg h₀ (C115.reach hrun t) e a))
  have h1 : ∀ t, slopeAlong C f (s t).points (d t) = -sqGrad C f (s t).points := by
    intro t
    unfold slopeAlong sqGrad sqLength
    rw [← Finset.sum_neg_distrib]
    refine Finset.sum_congr rfl fun a _ => ?_
    rw [hdir, (hneg a _ _ _ (hon t a)).1]
  have h2 : ∀ t, sqLength C (s t).points (d t) = sqGrad C f (s t).points := by
    intro t
    unfold sqGrad sqLength
    refine Finset.sum_congr rfl fun a _ => ?_
    rw [hdir, (hneg a _ _ _ (hon t a)).1, (hneg a _ _ _ (hon t a)).2, neg_neg]
  have hsum : ∀ N, ∑ t ∈ Finset.range N, sqGrad C f (s t).points ≤
      L * (f.loss x₀ - m) / (c1 * (1 - c2)) := by
    intro N
    refine le_of_eq_of_le (Finset.sum_congr rfl fun t _ => ?_)
      (C115_wolfe hR hscalar hc1 hc2 hK hmeth hc h₀ (fun a x g hx => (hneg a x _ _ hx).1) hpos hzero hL
        hsmooth hrun hb N)
    rw [if_neg (hfound t), h1, h2, neg_sq, pow_two, mul_self_div_self]
  obtain ⟨h4, h5⟩ := Geoopt.C103.vanish hnn hsum
  exact ⟨hsum, h4, h5⟩
end

/-! ### Euclidean parameters -/

section
variable {κ : Type} [Fintype κ] {ι : κ → Type} [∀ a, Fintype (ι a)]

namespace C115

theorem euclid_zero {C : Config κ ι} (hC : ∀ a, C.man a = euclidean (ι a)) (f : Closure κ ι)
    (x d : ∀ a, ι a → ℝ) : lineDeriv C f x d 0 = slopeAlong C f x d :=
  C86_slope (fun a => by rw [hC]; simp [euclidean]) (fun a => by rw [hC]; simp [euclidean])

theorem nn (u : ∀ a, ι a → ℝ) : 0 ≤ ∑ a, u a ⬝ᵥ u a :=
  Finset.sum_nonneg fun a _ => Finset.sum_nonneg fun i _ => mul_self_nonneg _

theorem cauchy (u v : ∀ a, ι a → ℝ) :
    ∑ a, u a ⬝ᵥ v a ≤ √(∑ a, u a ⬝ᵥ u a) * √(∑ a, v a ⬝ᵥ v a) := by
  have := Finset.sum_mul_sq_le_sq_mul_sq (Finset.univ : Finset (Σ a, ι a)) (fun i => u i.1 i.2)
    (fun i => v i.1 i.2)
  rw [← Real.sqrt_mul (nn u)]
  refine Real.le_sqrt_of_sq_le ?_
  simpa only [Fintype.sum_sigma, dotProduct, ← pow_two] using this

theorem lipschitz {g h : ∀ a, ι a → ℝ} {e d : ∀ a, ι a → ℝ} {L α : ℝ} (hL : 0 ≤ L) (hα : 0 ≤ α)
    (hf : √(∑ a, (h a - g a) ⬝ᵥ (h a - g a)) ≤ L * √(∑ a, e a ⬝ᵥ e a))
    (he : ∑ a, e a ⬝ᵥ e a ≤ α ^ 2 * ∑ a, d a ⬝ᵥ d a) :
    ∑ a, (h a - g a) ⬝ᵥ d a ≤ L * α * ∑ a, d a ⬝ᵥ d a := by
  have h1 := cauchy (fun a => h a - g a) d
  have h2 : √(∑ a, e a ⬝ᵥ e a) ≤ α * √(∑ a, d a ⬝ᵥ d a) := by
    refine (Real.sqrt_le_sqrt he).trans ?_
    rw [Real.sqrt_mul (sq_nonneg α), Real.sqrt_sq hα]
  have h3 := Real.mul_self_sqrt (nn d)
  have h4 : √(∑ a, (h a - g a) ⬝ᵥ (h a - g a)) ≤ L * (α * √(∑ a, d a ⬝ᵥ d a)) :=
    hf.trans (mul_le_mul_of_nonneg_left h2 hL)
  have h5 := mul_le_mul_of_nonneg_right h4 (Real.sqrt_nonneg (∑ a, d a ⬝ᵥ d a))
  calc _ ≤ _ := h1
    _ ≤ _ := h5
    _ = L * α * (√(∑ a, d a ⬝ᵥ d a) * √(∑ a, d a ⬝ᵥ d a)) := by ring
    _ = _ := by rw [h3]

end C115

/-- For parameters that are not on a manifold the smoothness condition is met if the gradient of the loss is
Lipschitz with constant `L`. -/
theorem C115_smooth_euclidean {C : Config κ ι} (hC : ∀ a, C.man a = euclidean (ι a)) {f : Closure κ ι} {L : ℝ}
    (hL : 0 ≤ L) (hf : ∀ x y : ∀ a, ι a → ℝ, √(∑ a, (f.grad y a - f.grad x a) ⬝ᵥ (f.grad y a - f.grad x a)) ≤
      L * √(∑ a, (y a - x a) ⬝ᵥ (y a - x a))) :
    LineSmooth C f (fun _ _ => True) (fun _ _ _ => True) L := by
  intro x d _ _ α hα
  have h := C115.lipschitz (e := fun a => (x a + α • d a) - x a) (d := d) hL hα
    (hf x fun a => x a + α • d a) (by simp [Finset.mul_sum, pow_two, mul_assoc])
  have e1 : slopeAlong C f x d = ∑ a, f.grad x a ⬝ᵥ d a := by
    simp only [slopeAlong, hC]; rfl
  have e2 : sqLength C x d = ∑ a, d a ⬝ᵥ d a := by
    simp only [sqLength, hC]; rfl
  have e3 : lineDeriv C f x d α = ∑ a, f.grad (fun a => x a + α • d a) a ⬝ᵥ d a := by
    simp only [lineDeriv, hC]; rfl
  rw [e1, e2, e3]
  simp only [sub_dotProduct, Finset.sum_sub_distrib] at h
  linarith

end

section
variable {κ : Type} [Fintype κ] {ι : κ → Type} [∀ a, Fintype (ι a)]

/-- **C115** for parameters that are not on a manifold. -/
theorem C115_euclidean {C : Config κ ι} (hC : ∀ a, C.man a = euclidean (ι a)) {f : Closure κ ι} {L : ℝ}
    (hL : 0 < L) (hf : ∀ x y : ∀ a, ι a → ℝ,
      √(∑ a, (f.grad y a - f.grad x a) ⬝ᵥ (f.grad y a - f.grad x a)) ≤ L * √(∑ a, (y a - x a) ⬝ᵥ (y a - x a)))
    {scalar : Option ℝ → Option ℝ → ℝ → ℝ → Option ℝ → Search} {c1 c2 : ℝ} {amax : Option ℝ}
    (hscalar : ∀ p0 old, (scalar (some p0) old c1 c2 amax).Wolfe p0 c1 c2 [] [] []) (hc1 : 0 < c1)
    (hc2 : c2 < 1) (hmeth : C.method = strongWolfeLineSearch scalar c1 c2 amax)
    (hcg : C.cg = cgConstant 0) (hc : C.computeDerphi = true) {x₀ : ∀ a, ι a → ℝ}
    {s : ℕ → LS κ ι} {d : ℕ → ∀ a, ι a → ℝ} {found : ℕ → Option ℝ}
    (hrun : Run C f x₀ s d found) (hfound : ∀ t, found t ≠ none) {m : ℝ} (hb : ∀ x, m ≤ f.loss x) :
    Tendsto (fun t => ∑ a, f.grad (s t).points a ⬝ᵥ f.grad (s t).points a) atTop (𝓝 0) ∧
    ∀ N > 0, ∃ t < N, ∑ a, f.grad (s t).points a ⬝ᵥ f.grad (s t).points a ≤
      L * (f.loss x₀ - m) / (c1 * (1 - c2)) / N := by
  have e : ∀ x, sqGrad C f x = ∑ a, f.grad x a ⬝ᵥ f.grad x a := fun x => by
    simp only [sqGrad, sqLength, hC]; rfl
  simp only [← e]
  refine (C115_wolfe_steepest (On := fun _ _ => True) (Tan := fun _ _ _ => True) (fun a => ?_) hscalar hc1 hc2
    hmeth hcg hc (fun a => trivial) (fun a x u v _ => ?_) (fun a x u _ _ => ?_)
    (fun x d _ _ => C115.euclid_zero hC f x d) hL (C115_smooth_euclidean hC hL.le hf) hrun hfound hb).2
  · rw [hC]; exact C63Cx.euclidean_retraction _
  · rw [hC]; simp [euclidean]
  · rw [hC]; exact Finset.sum_nonneg fun i _ => mul_self_nonneg _

end

/-! ### Spheres -/

section
variable {κ : Type} [Fintype κ] {n : κ → ℕ}

namespace C115

/-- The sphere as the line search sees it. -/
noncomputable abbrev sph (n : ℕ) : LineSearch.Manifold (Fin n) :=
  C63Manifolds.ofOptim (Optim.sphere none) Sphere.inner

theorem retr_facts {n : ℕ} {x u : Fin n → ℝ} (hx : x ⬝ᵥ x = 1) (hu : x ⬝ᵥ u = 0) :
    ∃ r : ℝ, 1 ≤ r ∧ r ^ 2 = 1 + u ⬝ᵥ u ∧ Sphere.retr none x u = r⁻¹ • (x + u) := by
  have h0 : 0 ≤ u ⬝ᵥ u := Finset.sum_nonneg fun i _ => mul_self_nonneg _
  have h1 : (x + u) ⬝ᵥ (x + u) = 1 + u ⬝ᵥ u := by
    rw [add_dotProduct, dotProduct_add, dotProduct_add, hx, hu, dotProduct_comm u x, hu]; ring
  refine ⟨√(1 + u ⬝ᵥ u), ?_, Real.sq_sqrt (by linarith), ?_⟩
  · rw [Real.le_sqrt (by norm_num) (by linarith)]; linarith
  · rw [← h1]; rfl

theorem retr_near {n : ℕ} {x u : Fin n → ℝ} (hx : x ⬝ᵥ x = 1) (hu : x ⬝ᵥ u = 0) :
    (Sphere.retr none x u - x) ⬝ᵥ (Sphere.retr none x u - x) ≤ u ⬝ᵥ u := by
  obtain ⟨r, h1, h2, e⟩ := retr_facts hx hu
  have hr : r ≠ 0 := by linarith
  rw [e]
  simp only [sub_dotProduct, dotProduct_sub, smul_dotProduct, dotProduct_smul, add_dotProduct, dotProduct_add,
    hx, hu, dotProduct_comm u x, smul_eq_mul]
  have e2 : r⁻¹ * (r⁻¹ * (1 + u ⬝ᵥ u)) = 1 := by
    rw [← h2]; field_simp
  have e3 : r⁻¹ = 1 / r := (one_div r).symm
  have h3 : 1 - (u ⬝ᵥ u) / 2 ≤ r⁻¹ := by
    rw [e3, le_div_iff₀ (by linarith), show u ⬝ᵥ u = r ^ 2 - 1 by rw [h2]; ring]
    nlinarith [mul_nonneg (sub_nonneg.2 h1) (sub_nonneg.2 h1), mul_nonneg (sub_nonneg.2 h1) (sq_nonneg (r - 1))]
  linarith

theorem retr_along {n : ℕ} {x d : Fin n → ℝ} (hx : x ⬝ᵥ x = 1) (hd : x ⬝ᵥ d = 0) {α : ℝ} (hα : 0 ≤ α) :
    |Sphere.retr none x (α • d) ⬝ᵥ d| ≤ α * d ⬝ᵥ d := by
  obtain ⟨r, h1, h2, e⟩ := retr_facts (u := α • d) hx (by rw [dotProduct_smul, hd, smul_zero])
  have h0 : 0 ≤ d ⬝ᵥ d := Finset.sum_nonneg fun i _ => mul_self_nonneg _
  rw [e, smul_dotProduct, add_dotProduct, hd, zero_add, smul_dotProduct, smul_eq_mul, smul_eq_mul,
    abs_of_nonneg (by have := inv_nonneg.2 (zero_le_one.trans h1); positivity)]
  calc r⁻¹ * (α * d ⬝ᵥ d) ≤ 1 * (α * d ⬝ᵥ d) :=
        mul_le_mul_of_nonneg_right (inv_le_one_of_one_le₀ h1) (by positivity)
    _ = _ := one_mul _

theorem proj_self {n : ℕ} {y : Fin n → ℝ} (hy : y ⬝ᵥ y = 1) (g d : Fin n → ℝ) :
    Sphere.proju none y g ⬝ᵥ Sphere.proju none y (Sphere.proju none y d) =
      g ⬝ᵥ d - (y ⬝ᵥ g) * (y ⬝ᵥ d) := by
  simp only [Sphere.proju, Sphere.projectOnSubspace, sub_dotProduct, dotProduct_sub, smul_dotProduct,
    dotProduct_smul, hy, smul_eq_mul, dotProduct_comm g y]
  ring

end C115

/-- On spheres the smoothness condition is met with `L + B`, if the Euclidean gradient of the loss is on the spheres
Lipschitz with constant `L` and its radial components are at most `B`. -/
theorem C115_smooth_sphere {C : Config κ fun a => Fin (n a)} (hC : ∀ a, C.man a = C115.sph (n a))
    {f : Closure κ fun a => Fin (n a)} {L B : ℝ} (hL : 0 ≤ L)
    (hf : ∀ x y : ∀ a, Fin (n a) → ℝ, (∀ a, x a ⬝ᵥ x a = 1) → (∀ a, y a ⬝ᵥ y a = 1) →
      √(∑ a, (f.grad y a - f.grad x a) ⬝ᵥ (f.grad y a - f.grad x a)) ≤
        L * √(∑ a, (y a - x a) ⬝ᵥ (y a - x a)))
    (hB : ∀ y : ∀ a, Fin (n a) → ℝ, (∀ a, y a ⬝ᵥ y a = 1) → ∀ a, |y a ⬝ᵥ f.grad y a| ≤ B) :
    LineSmooth C f (fun _ => Sphere.OnSphere Set.univ) (fun _ => Sphere.Tangent Set.univ) (L + B) := by
  intro x d hx hd α hα
  have hy : ∀ a, Sphere.retr none (x a) (α • d a) ⬝ᵥ Sphere.retr none (x a) (α • d a) = 1 := fun a =>
    (Sphere.C20_retr_on_sphere (P := none) (S := Set.univ) rfl (hx a)
      (Submodule.smul_mem (C55.sphereTan (S := Set.univ) (Pr := none) rfl (x a)) α (hd a))).1
  obtain ⟨y, ey⟩ : ∃ y : ∀ a, Fin (n a) → ℝ, y = fun a => Sphere.retr none (x a) (α • d a) := ⟨_, rfl⟩
  have hd0 : ∀ a, x a ⬝ᵥ (α • d a) = 0 := fun a => by rw [dotProduct_smul, (hd a).1, smul_zero]
  have h := C115.lipschitz (e := fun a => y a - x a) (d := d) hL hα
    (hf x y (fun a => (hx a).1) (by rw [ey]; exact hy)) (by
      rw [Finset.mul_sum]
      refine Finset.sum_le_sum fun a _ => ?_
      have := C115.retr_near (hx a).1 (hd0 a)
      rw [ey]
      refine this.trans (le_of_eq ?_)
      rw [dotProduct_smul, smul_dotProduct, smul_eq_mul, smul_eq_mul]; ring)
  have e1 : slopeAlong C f x d = ∑ a, f.grad x a ⬝ᵥ d a := by
    simp only [slopeAlong, hC]
    refine Finset.sum_congr rfl fun a _ => ?_
    change Sphere.proju none (x a) (f.grad x a) ⬝ᵥ d a = _
    simp [Sphere.proju, Sphere.projectOnSubspace, sub_dotProduct, (hd a).1]
  have e2 : sqLength C x d = ∑ a, d a ⬝ᵥ d a := by
    simp only [sqLength, hC]; rfl
  have e3 : lineDeriv C f x d α = ∑ a, (f.grad y a ⬝ᵥ d a - (y a ⬝ᵥ f.grad y a) * (y a ⬝ᵥ d a)) := by
    simp only [lineDeriv, hC]
    refine Finset.sum_congr rfl fun a _ => ?_
    rw [ey]
    exact C115.proj_self (hy a) _ _
  have e4 : -∑ a, (y a ⬝ᵥ f.grad y a) * (y a ⬝ᵥ d a) ≤ B * α * ∑ a, d a ⬝ᵥ d a := by
    rw [← Finset.sum_neg_distrib, Finset.mul_sum]
    refine Finset.sum_le_sum fun a _ => ?_
    have k1 := hB y (by rw [ey]; exact hy) a
    have k2 : |y a ⬝ᵥ d a| ≤ α * d a ⬝ᵥ d a := by
      rw [ey]; exact C115.retr_along (hx a).1 (hd a).1 hα
    have k3 := neg_le_abs ((y a ⬝ᵥ f.grad y a) * (y a ⬝ᵥ d a))
    rw [abs_mul] at k3
    have k4 := mul_le_mul k1 k2 (abs_nonneg _) ((abs_nonneg _).trans k1)
    linarith
  rw [e1, e2, e3, Finset.sum_sub_distrib]
  simp only [sub_dotProduct, Finset.sum_sub_distrib] at h
  linarith

/-- **C115** for spheres: steepest descent with the strong Wolfe line search drives the Riemannian gradient to
zero from every starting point. -/
theorem C115_sphere {C : Config κ fun a => Fin (n a)} (hC : ∀ a, C.man a = C115.sph (n a))
    {f : Closure κ fun a => Fin (n a)} {L B : ℝ} (hL : 0 < L) (hB0 : 0 ≤ B)
    (hf : ∀ x y : ∀ a, Fin (n a) → ℝ, (∀ a, x a ⬝ᵥ x a = 1) → (∀ a, y a ⬝ᵥ y a = 1) →
      √(∑ a, (f.grad y a - f.grad x a) ⬝ᵥ (f.grad y a - f.grad x a)) ≤
        L * √(∑ a, (y a - x a) ⬝ᵥ (y a - x a)))
    (hB : ∀ y : ∀ a, Fin (n a) → ℝ, (∀ a, y a ⬝ᵥ y a = 1) → ∀ a, |y a ⬝ᵥ f.grad y a| ≤ B)
    {scalar : Option ℝ → Option ℝ → ℝ → ℝ → Option ℝ → Search} {c1 c2 : ℝ} {amax : Option ℝ}
    (hscalar : ∀ p0 old, (scalar (some p0) old c1 c2 amax).Wolfe p0 c1 c2 [] [] []) (hc1 : 0 < c1)
    (hc2 : c2 < 1) (hmeth : C.method = strongWolfeLineSearch scalar c1 c2 amax)
    (hcg : C.cg = cgConstant 0) (hc : C.computeDerphi = true)
    {x₀ : ∀ a, Fin (n a) → ℝ} (h₀ : ∀ a, x₀ a ⬝ᵥ x₀ a = 1)
    {s : ℕ → LS κ fun a => Fin (n a)} {d : ℕ → ∀ a, Fin (n a) → ℝ} {found : ℕ → Option ℝ}
    (hrun : Run C f x₀ s d found) (hfound : ∀ t, found t ≠ none) {m : ℝ} (hb : ∀ x, m ≤ f.loss x) :
    Tendsto (fun t => sqGrad C f (s t).points) atTop (𝓝 0) ∧
    ∀ N > 0, ∃ t < N, sqGrad C f (s t).points ≤ (L + B) * (f.loss x₀ - m) / (c1 * (1 - c2)) / N := by
  refine (C115_wolfe_steepest (On := fun _ => Sphere.OnSphere Set.univ)
    (Tan := fun _ => Sphere.Tangent Set.univ) (L := L + B) (fun a => ?_) hscalar hc1 hc2 hmeth hcg hc
    (fun a => ⟨h₀ a, trivial⟩) (fun a x u v _ => ?_) (fun a x u _ _ => ?_) (fun x d hx hd => ?_) (by linarith)
    (C115_smooth_sphere hC hL.le hf hB) hrun hfound hb).2
  · rw [hC]
    exact C63Manifolds.retraction (C55.sphereGeometry (Pr := none) (S := Set.univ) rfl) _ fun _ _ _ => rfl
  · rw [hC]
    simp [C63Manifolds.ofOptim, Sphere.inner]
  · rw [hC]
    exact Finset.sum_nonneg (s := Finset.univ) fun i _ => mul_self_nonneg (u i)
  · have hr : ∀ a, Sphere.retr none (x a) 0 = x a := fun a => by
      have := Sphere.C20_projx_fixes (P := none) (S := Set.univ) rfl (hx a)
      simpa [Sphere.retr] using this
    have hp : ∀ a, Sphere.proju none (x a) (d a) = d a := fun a => by
      simp [Sphere.proju, Sphere.projectOnSubspace, (hd a).1]
    refine C86_slope (fun a => ?_) fun a => ?_
    · rw [hC]; exact hr a
    · rw [hC]
      change Sphere.proju none (x a) (Sphere.proju none (Sphere.retr none (x a) 0) (d a)) = d a
      rw [hr, hp, hp]

end

/-! ### The conditions are met -/

namespace C115

/-- Steepest descent on `x²/2` with a search that keeps the contract. -/
noncomputable abbrev cfg : Config Unit fun _ => Unit :=
  C63Cx.conf (strongWolfeLineSearch C86.once (1 / 10000) (9 / 10) none) true

/-- The states of the optimiser after it has reached the minimum. -/
def settled (u g : Unit → ℝ) (dic : List (ℝ × ℝ)) (p q w : Option ℝ) (h : List (Option ℝ)) (k : ℕ) :
    LS Unit fun _ => Unit where
  par _ := { point := 0, searchDir := some u, searchTransported := some u, newPoint := some 0,
             newGrad := some fun _ => 0, grad := some g, derPhi := some 0, prevGradNormSq := w }
  gradsComputed := true
  lastStep := some 1
  stepSizeDic := dic
  prevLoss := some 0
  oldPhi0 := p
  oldDerphi0 := q
  lastStepSize := some 1
  history := h
  groupStep := k

theorem first : step cfg C63Cx.quad false false false (fresh fun _ _ => 1) =
    (settled (-fun _ => 1) (fun _ => 1) [(1, 0), (0, 2⁻¹)] (some 2⁻¹) (some (-1)) none [some 1] 1,
      .ok (some 0)) := by
  have e1 : (10000⁻¹ : ℝ) ≤ 2⁻¹ := by norm_num
  have e2 : (0 : ℝ) ≤ 9 / 10 := by norm_num
  simp [settled, step, initLoss, startGrads, fresh, LS.points, computeSearchDirection, proposeDirection, LineSearch.slope,
    C63Cx.conf, euclidean, C63Cx.quad, runSearch, conclude, afterSearch, commit, strongWolfeLineSearch, C86.once,
    moveAll, moveParam, stabilizeAfter, report, phi, derphi, dicGet, moveTrial, storeGrad, e1, e2]

theorem later (u g : Unit → ℝ) (dic : List (ℝ × ℝ)) (p q w : Option ℝ) (h : List (Option ℝ)) (k : ℕ) :
    step cfg C63Cx.quad false false false (settled u g dic p q w h k) =
    (settled (-fun _ => 0) (fun _ => 0) [(1, 0), (0, 0)] (some 0) (some 0)
      (some (g PUnit.unit * g PUnit.unit)) (h ++ [some 1]) (k + 1), .ok (some 0)) := by
  have z : (-fun _ : Unit => (0 : ℝ)) = 0 := by funext; simp
  simp [z, settled, step, initLoss, startGrads, computeSearchDirection, proposeDirection, LineSearch.slope,
    cgConstant, cgDirection, C63Cx.conf, euclidean, C63Cx.quad, runSearch, conclude, afterSearch, commit,
    strongWolfeLineSearch, C86.once, moveAll, moveParam, stabilizeAfter, report, phi, derphi, dicGet, moveTrial,
    storeGrad]

theorem settled_run (t : ℕ) : ∃ u g dic p q w h k,
    (fun s => (step cfg C63Cx.quad false false false s).1)^[t + 1] (fresh fun _ _ => 1) =
      settled u g dic p q w h k := by
  induction t with
  | zero => exact ⟨_, _, _, _, _, _, _, _, congrArg Prod.fst first⟩
  | succ t ih =>
    obtain ⟨u, g, dic, p, q, w, h, k, e⟩ := ih
    have := congrArg Prod.fst (later u g dic p q w h k)
    rw [← e] at this
    exact ⟨_, _, _, _, _, _, _, _, (Function.iterate_succ_apply' _ _ _).trans this⟩

end C115

/-- The conditions of `C115_euclidean` are met by an optimiser that moves from 1 to the minimum 0. -/
example : ∃ s d found, Run C115.cfg C63Cx.quad (fun _ _ => 1) s d found ∧ (∀ t, found t ≠ none) ∧
    (s 0).points ≠ (s 1).points ∧ (∀ a, C115.cfg.man a = euclidean Unit) ∧ C115.cfg.cg = cgConstant 0 ∧
    C115.cfg.computeDerphi = true ∧ (∀ x, 0 ≤ C63Cx.quad.loss x) ∧
    (∀ p0 old, (C86.once (some p0) old (1 / 10000) (9 / 10) none).Wolfe p0 (1 / 10000) (9 / 10) [] [] []) ∧
    ∀ x y : Unit → Unit → ℝ, √(∑ a, (C63Cx.quad.grad y a - C63Cx.quad.grad x a) ⬝ᵥ
        (C63Cx.quad.grad y a - C63Cx.quad.grad x a)) ≤ 1 * √(∑ a, (y a - x a) ⬝ᵥ (y a - x a)) := by
  obtain ⟨s, hs⟩ : ∃ s : ℕ → LS Unit fun _ => Unit, s = fun t =>
    (fun s => (step C115.cfg C63Cx.quad false false false s).1)^[t] (fresh fun _ _ => 1) := ⟨_, rfl⟩
  have hn : ∀ t, s (t + 1) = (step C115.cfg C63Cx.quad false false false (s t)).1 := fun t => by
    rw [hs]; exact Function.iterate_succ_apply' _ _ _
  have h0 : s 0 = fresh fun _ _ => 1 := by rw [hs]; rfl
  have hst : ∀ t, ∃ u g dic p q w h k, s (t + 1) = C115.settled u g dic p q w h k := by
    rw [hs]; exact C115.settled_run
  have hok : ∀ t, (step C115.cfg C63Cx.quad false false false (s t)).2 = .ok (some 0) ∧
      (s (t + 1)).history = (s t).history ++ [some 1] := by
    intro t
    rw [hn]
    cases t with
    | zero => rw [h0, C115.first]; exact ⟨rfl, rfl⟩
    | succ t =>
      obtain ⟨u, g, dic, p, q, w, h, k, e⟩ := hst t
      rw [e, C115.later]; exact ⟨rfl, rfl⟩
  refine ⟨s, fun t a => ((s (t + 1)).par a).searchDir.getD 0, fun _ => some 1,
    ⟨h0, fun t => ⟨false, some 0, ?_⟩, fun t a => ?_, fun t => (hok t).2⟩, by simp, ?_, fun _ => rfl, rfl, rfl,
    fun x => ?_, fun p0 old => C86.once_wolfe p0 old _ _ _, fun x y => ?_⟩
  · rw [hn, ← (hok t).1]
  · obtain ⟨u, g, dic, p, q, w, h, k, e⟩ := hst t
    rw [e]; rfl
  · intro e
    have h1 : (s 1).points () () = 0 := by rw [hn, h0, C115.first]; rfl
    have h2 : (s 0).points () () = 1 := by rw [h0]; rfl
    rw [e, h1] at h2
    exact zero_ne_one h2
  · simp only [C63Cx.quad]; positivity
  · rw [one_mul]; exact le_of_eq rfl
