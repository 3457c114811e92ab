import Verif.Lemmas.Extension
import Verif.Model.OptimBirkhoff
import Verif.Props.C33

/-!
C136 for the Birkhoff polytope.
-/

namespace Geoopt.C136
open Geoopt.Optim Geoopt.Extension Geoopt.Birkhoff

/-- `BirkhoffPolytope`, at doubly stochastic matrices (positive entries, row and column sums 1). -/
theorem C136_birkhoff {β : Type} [Fintype β] {n : ℕ} (cfg : Birkhoff.Config) :
    SeesOnly (birkhoff β (n := n) cfg) (fun x => ∀ b, DoublyStochastic (toMats x b)) := by
  intro F F' x g g' hx hF hg hg'
  obtain ⟨w, hw⟩ : ∃ w : β × Fin (n + 1) × Fin (n + 1) → ℝ, w = ofMats fun b =>
    proju (toMats x b) (toMats g b) - proju (toMats x b) (toMats g' b) := ⟨_, rfl⟩
  have tr : ∀ b i, ∑ j, w (b, i, j) = 0 := fun b i => by
    have h1 := (C34_tangent (hx b) (toMats g b)).row i
    have h2 := (C34_tangent (hx b) (toMats g' b)).row i
    unfold rowSum at h1 h2
    rw [hw]
    simp only [ofMats, Matrix.sub_apply, Finset.sum_sub_distrib, h1, h2, sub_zero]
  have tc : ∀ b j, ∑ i, w (b, i, j) = 0 := fun b j => by
    have h1 := (C34_tangent (hx b) (toMats g b)).col j
    have h2 := (C34_tangent (hx b) (toMats g' b)).col j
    unfold colSum at h1 h2
    rw [hw]
    simp only [ofMats, Matrix.sub_apply, Finset.sum_sub_distrib, h1, h2, sub_zero]
  -- the curve
  have lv : Leaves (fun x => ∀ b, DoublyStochastic (toMats x b)) x w := by
    have ev : ∀ᶠ s : ℝ in nhds 0, ∀ p, 0 < x p + s * w p := by
      rw [Filter.eventually_all]
      intro p
      have hc : Continuous fun s : ℝ => x p + s * w p := by fun_prop
      refine hc.continuousAt.eventually (lt_mem_nhds ?_)
      have := (hx p.1).pos p.2.1 p.2.2
      simpa [toMats] using this
    obtain ⟨δ, hδ, hb⟩ := Metric.eventually_nhds_iff.1 ev
    refine ⟨fun s => x + s • w, by simp, fun i => ?_, δ, hδ, fun s h1 h2 b => ⟨fun i j => ?_, fun i => ?_, fun j => ?_⟩⟩
    · have := ((hasDerivAt_id (0 : ℝ)).mul_const (w i)).const_add (x i)
      simpa using this.hasDerivWithinAt (s := Set.Ici 0)
    · exact hb (by rw [Real.dist_eq, sub_zero, abs_of_nonneg h1]; exact h2) (b, i, j)
    · have := (hx b).row i
      unfold rowSum at this ⊢
      simp only [toMats, Matrix.of_apply, Pi.add_apply, Pi.smul_apply, smul_eq_mul, Finset.sum_add_distrib,
        ← Finset.mul_sum, tr] at this ⊢
      simpa using this
    · have := (hx b).col j
      unfold colSum at this ⊢
      simp only [toMats, Matrix.of_apply, Pi.add_apply, Pi.smul_apply, smul_eq_mul, Finset.sum_add_distrib,
        ← Finset.mul_sum, tc] at this ⊢
      simpa using this
  have key := grad_along hF hg hg' lv
  -- the coefficients
  obtain ⟨a, ha⟩ : ∃ a : β → Fin (n + 1) → ℝ, a = fun b i => alpha (toMats x b) (toMats g b) i -
    alpha (toMats x b) (toMats g' b) i := ⟨_, rfl⟩
  obtain ⟨c, hc⟩ : ∃ c : β → Fin (n + 1) → ℝ, c = fun b j => beta (toMats x b) (toMats g b) j -
    beta (toMats x b) (toMats g' b) j := ⟨_, rfl⟩
  have ew : ∀ b i j, w (b, i, j) = x (b, i, j) * (g (b, i, j) - g' (b, i, j) - (a b i + c b j)) := fun b i j => by
    rw [hw, ha, hc]
    simp only [ofMats, proju, mu, toMats, Matrix.sub_apply, Matrix.of_apply]
    ring
  have z : ∀ b, ∑ i, ∑ j, (a b i + c b j) * w (b, i, j) = 0 := fun b => by
    have e1 : ∑ i, ∑ j, a b i * w (b, i, j) = 0 := Finset.sum_eq_zero fun i _ => by rw [← Finset.mul_sum, tr, mul_zero]
    have e2 : ∑ i, ∑ j, c b j * w (b, i, j) = 0 := by
      rw [Finset.sum_comm]
      exact Finset.sum_eq_zero fun i _ => by rw [← Finset.mul_sum, tc, mul_zero]
    simp only [add_mul, Finset.sum_add_distrib, e1, e2, add_zero]
  have sq0 : ∑ b, ∑ i, ∑ j, x (b, i, j) * (g (b, i, j) - g' (b, i, j) - (a b i + c b j)) ^ 2 = 0 := by
    rw [Fintype.sum_prod_type] at key
    simp only [Fintype.sum_prod_type] at key
    have z' : ∑ b, ∑ i, ∑ j, (a b i + c b j) * w (b, i, j) = 0 := Finset.sum_eq_zero fun b _ => z b
    refine Eq.trans ?_ (show ∑ b, ∑ i, ∑ j, (g (b, i, j) - g' (b, i, j)) * w (b, i, j) -
      ∑ b, ∑ i, ∑ j, (a b i + c b j) * w (b, i, j) = 0 by rw [key, z', sub_zero])
    rw [← Finset.sum_sub_distrib]
    refine Finset.sum_congr rfl fun b _ => ?_
    rw [← Finset.sum_sub_distrib]
    refine Finset.sum_congr rfl fun i _ => ?_
    rw [← Finset.sum_sub_distrib]
    refine Finset.sum_congr rfl fun j _ => ?_
    rw [ew]
    ring
  have nn : ∀ b i j, 0 ≤ x (b, i, j) * (g (b, i, j) - g' (b, i, j) - (a b i + c b j)) ^ 2 := fun b i j =>
    mul_nonneg ((hx b).pos i j).le (sq_nonneg _)
  funext p
  obtain ⟨b, i, j⟩ := p
  have h1 := (Finset.sum_eq_zero_iff_of_nonneg fun b _ => Finset.sum_nonneg fun i _ => Finset.sum_nonneg fun j _ =>
    nn b i j).1 sq0 b (Finset.mem_univ b)
  have h2 := (Finset.sum_eq_zero_iff_of_nonneg fun i _ => Finset.sum_nonneg fun j _ => nn b i j).1 h1 i (Finset.mem_univ i)
  have h3 := (Finset.sum_eq_zero_iff_of_nonneg fun j _ => nn b i j).1 h2 j (Finset.mem_univ j)
  have h4 : g (b, i, j) - g' (b, i, j) - (a b i + c b j) = 0 :=
    pow_eq_zero_iff two_ne_zero |>.1 ((mul_eq_zero.1 h3).resolve_left ((hx b).pos i j).ne')
  have h5 := ew b i j
  rw [h4, mul_zero, hw] at h5
  exact sub_eq_zero.1 h5

/-- A batch of one matrix meets the hypothesis. -/
example : ∀ b : Unit, DoublyStochastic (toMats (ofMats fun _ : Unit => !![1 / 4, 3 / 4; 3 / 4, (1 / 4 : ℝ)]) b) := by
  intro b
  refine ⟨fun i j => ?_, fun i => ?_, fun j => ?_⟩
  · fin_cases i <;> fin_cases j <;> simp [toMats, ofMats]
  · fin_cases i <;> simp [toMats, ofMats, rowSum, Fin.sum_univ_two] <;> norm_num
  · fin_cases j <;> simp [toMats, ofMats, colSum, Fin.sum_univ_two] <;> norm_num

end Geoopt.C136
