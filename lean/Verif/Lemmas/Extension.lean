import Verif.Spec.Extension
import Mathlib.Analysis.Calculus.Deriv.Comp
import Mathlib.Analysis.Calculus.Deriv.Add
import Mathlib.Analysis.Calculus.Deriv.Mul
import Mathlib.Analysis.Calculus.Deriv.Prod
import Mathlib.Analysis.Calculus.Deriv.Pow

/-! Losses that agree on a set have the same derivative along curves in that set. -/

namespace Geoopt.Extension
open Geoopt.Optim

variable {ι : Type} [Fintype ι]

/-- A curve that starts at `x` with velocity `u` and stays in the set for a while. -/
def Leaves (On : (ι → ℝ) → Prop) (x u : ι → ℝ) : Prop :=
  ∃ γ : ℝ → ι → ℝ, γ 0 = x ∧ (∀ i, HasDerivWithinAt (fun s => γ s i) (u i) (Set.Ici 0) 0) ∧
    ∃ δ > 0, ∀ s, 0 ≤ s → s < δ → On (γ s)

theorem leaves_of {On : (ι → ℝ) → Prop} {x u : ι → ℝ} (γ : ℝ → ι → ℝ) (h0 : γ 0 = x)
    (hd : ∀ i, HasDerivAt (fun s => γ s i) (u i) 0) (h : ∀ s, On (γ s)) : Leaves On x u :=
  ⟨γ, h0, fun i => (hd i).hasDerivWithinAt, 1, one_pos, fun s _ _ => h s⟩

theorem grad_along {On : (ι → ℝ) → Prop} {F F' : (ι → ℝ) → ℝ} {x g g' u : ι → ℝ} (hF : ∀ y, On y → F y = F' y)
    (hg : IsGrad F x g) (hg' : IsGrad F' x g') (h : Leaves On x u) : ∑ i, (g i - g' i) * u i = 0 := by
  obtain ⟨γ, h0, hd, δ, hδ, hon⟩ := h
  obtain ⟨L, hL, eL⟩ := hg
  obtain ⟨L', hL', eL'⟩ := hg'
  have hd : HasDerivWithinAt γ u (Set.Ici 0) 0 := hasDerivWithinAt_pi.2 hd
  subst h0
  have h1 : HasDerivWithinAt (fun s => F (γ s) - F' (γ s)) (L u - L' u) (Set.Ici 0) 0 :=
    (hL.comp_hasDerivWithinAt 0 hd).sub (hL'.comp_hasDerivWithinAt 0 hd)
  have h2 : HasDerivWithinAt (fun s => F (γ s) - F' (γ s)) 0 (Set.Ici 0) 0 := by
    refine (hasDerivWithinAt_const (0 : ℝ) (Set.Ici (0 : ℝ)) (0 : ℝ)).congr_of_eventuallyEq ?_ ?_
    · filter_upwards [self_mem_nhdsWithin, mem_nhdsWithin_of_mem_nhds (Iio_mem_nhds hδ)] with s h1 h2
      rw [hF _ (hon s h1 h2), sub_self]
    · rw [hF _ (hon 0 le_rfl hδ), sub_self]
  have e := (uniqueDiffOn_Ici (0 : ℝ) 0 Set.self_mem_Ici).eq_deriv _ h1 h2
  rw [eL, eL', ← Finset.sum_sub_distrib] at e
  rw [← e]
  exact Finset.sum_congr rfl fun i _ => by ring

/-- The criterion: enough curves, and a gradient that vanishes along all of them has no Riemannian gradient. -/
theorem seesOnly_of {M : Manifold ι} {On : (ι → ℝ) → Prop}
    (lin : ∀ x g g', (M.egrad2rgrad x (g - g')).value = (M.egrad2rgrad x g).value - (M.egrad2rgrad x g').value)
    (zero : ∀ x g, On x → (∀ u, Leaves On x u → ∑ i, g i * u i = 0) → (M.egrad2rgrad x g).value = 0) :
    SeesOnly M On := by
  intro F F' x g g' hx hF hg hg'
  rw [← sub_eq_zero, ← lin]
  exact zero x (g - g') hx fun u hu => grad_along hF hg hg' hu

/-- The gradient of the loss with weight decay. -/
theorem IsGrad.decay {F : (ι → ℝ) → ℝ} {x g : ι → ℝ} (h : IsGrad F x g) (c : ℝ) :
    IsGrad (fun y => F y + c / 2 * ∑ i, y i ^ 2) x (g + c • x) := by
  obtain ⟨L, hL, eL⟩ := h
  have h1 : ∀ i : ι, HasFDerivAt (fun y : ι → ℝ => y i ^ 2) ((2 * x i) • ContinuousLinearMap.proj (R := ℝ)
      (φ := fun _ : ι => ℝ) i) x := fun i => by
    have := (hasFDerivAt_apply (𝕜 := ℝ) i x).pow 2
    simpa using this
  have h2 := hL.add ((HasFDerivAt.fun_sum fun i (_ : i ∈ Finset.univ) => h1 i).const_mul (c / 2))
  refine ⟨_, h2, fun v => ?_⟩
  simp only [ContinuousLinearMap.add_apply, ContinuousLinearMap.smul_apply, ContinuousLinearMap.sum_apply,
    ContinuousLinearMap.proj_apply, smul_eq_mul, eL, Pi.add_apply, Pi.smul_apply]
  rw [Finset.mul_sum, ← Finset.sum_add_distrib]
  exact Finset.sum_congr rfl fun i _ => by ring

theorem SeesOnly.decay {M : Manifold ι} {On : (ι → ℝ) → Prop} (h : SeesOnly M On) {F F' : (ι → ℝ) → ℝ}
    {x g g' : ι → ℝ} (hx : On x) (hF : ∀ y, On y → F y = F' y) (hg : IsGrad F x g) (hg' : IsGrad F' x g') (c : ℝ) :
    (M.egrad2rgrad x (g + c • x)).value = (M.egrad2rgrad x (g' + c • x)).value :=
  h _ _ x _ _ hx (fun y hy => by rw [hF y hy]) (hg.decay c) (hg'.decay c)

/-- On a convex set that contains the origin and a ball around it. -/
theorem zero_of_convex {On : (ι → ℝ) → Prop} {x g : ι → ℝ} (hc : ∀ y (s : ℝ), On y → 0 ≤ s → s ≤ 1 →
      On (x + s • (y - x))) (h0 : On 0) {c : ℝ} (hcpos : 0 < c) (hcg : On (c • g))
    (h : ∀ u, Leaves On x u → ∑ i, g i * u i = 0) : g = 0 := by
  have key : ∀ y, On y → ∑ i, g i * (y - x) i = 0 := fun y hy => by
    refine h _ ⟨fun s => x + s • (y - x), by simp, fun i => ?_, 1, one_pos, fun s h1 h2 => hc y s hy h1 h2.le⟩
    have := ((hasDerivAt_id (0 : ℝ)).mul_const ((y - x) i)).const_add (x i)
    simpa using this.hasDerivWithinAt (s := Set.Ici 0)
  have h1 := key 0 h0
  have h2 := key _ hcg
  have h3 : c * ∑ i, g i ^ 2 = 0 := by
    have e : c * ∑ i, g i ^ 2 = ∑ i, g i * (c • g - x) i - ∑ i, g i * (0 - x) i := by
      rw [Finset.mul_sum, ← Finset.sum_sub_distrib]
      exact Finset.sum_congr rfl fun i _ => by simp only [Pi.sub_apply, Pi.smul_apply, smul_eq_mul, Pi.zero_apply]; ring
    rw [e, h1, h2, sub_zero]
  have h4 := (mul_eq_zero.1 h3).resolve_left hcpos.ne'
  funext i
  exact pow_eq_zero_iff (two_ne_zero) |>.1 ((Finset.sum_eq_zero_iff_of_nonneg fun i _ => sq_nonneg (g i)).1 h4 i
    (Finset.mem_univ i))

end Geoopt.Extension
