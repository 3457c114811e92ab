import Verif.Spec.Target
import Mathlib.Data.Real.Basic

/-! Training one parameter towards a target: what one step does, and the bound that results. -/

namespace Geoopt.Optim

theorem Descends.next {ι : Type} {M : Manifold ι} {IsGrad : (ι → ℝ) → (ι → ℝ) → Prop} {lr : ℕ → ℝ}
    {x : ℕ → ι → ℝ} (h : Descends M IsGrad lr x) (t : ℕ) :
    ∃ g, IsGrad g (x t) ∧ (x (t + 1) = M.retr (x t) (-lr t • (M.egrad2rgrad (x t) g).value) ∨
      x (t + 1) = M.projx (M.retr (x t) (-lr t • (M.egrad2rgrad (x t) g).value))) := by
  obtain ⟨g, H, b, hg, hl, hm, hw, e⟩ := h t
  refine ⟨g, hg, ?_⟩
  simpa only [sgdParam, hm, hw, hl, lt_irrefl, if_false, zero_smul, add_zero] using e

/-- A quantity that shrinks by the factor `ρ` while it is above `r`, and never leaves `[0, r]`. -/
theorem shrink {f : ℕ → ℝ} {r ρ : ℝ} (hf : ∀ t, 0 ≤ f t) (hρ : 0 ≤ ρ) (hρ1 : ρ ≤ 1)
    (hin : ∀ t, f t ≤ r → f (t + 1) ≤ r) (hout : ∀ t, r < f t → f t ≤ f 0 → f (t + 1) ≤ ρ * f t) (t : ℕ) :
    f t ≤ max (ρ ^ t * f 0) r := by
  induction t with
  | zero => simp
  | succ t ih =>
    rcases le_or_gt (f t) r with h | h
    · exact (hin t h).trans (le_max_right _ _)
    · have h1 : f t ≤ ρ ^ t * f 0 := by
        rcases le_max_iff.1 ih with h' | h'
        · exact h'
        · exact absurd h' h.not_ge
      have h2 : f t ≤ f 0 := h1.trans (mul_le_of_le_one_left (hf 0) (pow_le_one₀ hρ hρ1))
      refine le_trans (hout t h h2) (le_trans (mul_le_mul_of_nonneg_left h1 hρ) (le_trans (le_of_eq ?_)
        (le_max_left _ _)))
      ring

end Geoopt.Optim
