import Verif.Props.C136
import Verif.Model.OptimProduct

/-!
# C136 on products and scaled manifolds

A loss on a product sees each part through the others, which stay where they are: if on every part
`egrad2rgrad` depends only on the values of the loss on the manifold, so it does on the product.
-/

namespace Geoopt.C136

open Geoopt.Optim Geoopt.Extension

/-- `ProductManifold.egrad2rgrad`, `geoopt/manifolds/product.py:341-352`. -/
theorem C136_product {J : Type} [Fintype J] {ι : J → Type} [∀ j, Fintype (ι j)]
    {Ms : ∀ j, Manifold (ι j)} {On : ∀ j, (ι j → ℝ) → Prop} (h : ∀ j, SeesOnly (Ms j) (On j)) :
    SeesOnly (product Ms) (fun x => ∀ j, On j fun i => x ⟨j, i⟩) := by
  classical
  intro F F' x g g' hx hF hg hg'
  -- the loss as a function of one part
  have slice : ∀ {F : ((Σ j, ι j) → ℝ) → ℝ} {g : (Σ j, ι j) → ℝ}, IsGrad F x g → ∀ j, IsGrad
      (fun y : ι j → ℝ => F fun p => if hp : p.1 = j then y (hp ▸ p.2) else x p) (fun i => x ⟨j, i⟩)
      fun i => g ⟨j, i⟩ := by
    rintro F g ⟨L, hL, eL⟩ j
    let A : (ι j → ℝ) →L[ℝ] ((Σ j, ι j) → ℝ) := ContinuousLinearMap.pi fun p =>
      if hp : p.1 = j then ContinuousLinearMap.proj (R := ℝ) (φ := fun _ : ι j => ℝ) (hp ▸ p.2) else 0
    have hA : ∀ y p, A y p = if hp : p.1 = j then y (hp ▸ p.2) else 0 := fun y p => by
      simp only [A, ContinuousLinearMap.coe_pi', Function.comp]
      split_ifs <;> rfl
    have e : (fun y : ι j → ℝ => fun p : Σ j, ι j => if hp : p.1 = j then y (hp ▸ p.2) else x p) =
        fun y => A y + fun p : Σ j, ι j => if p.1 = j then 0 else x p := by
      funext y p
      rw [Pi.add_apply, hA]
      split_ifs <;> simp
    have e0 : (fun p : Σ j, ι j => if hp : p.1 = j then x ⟨j, hp ▸ p.2⟩ else x p) = x := by
      funext p
      obtain ⟨a, i⟩ := p
      split_ifs with hp
      · dsimp only at hp
        subst hp
        rfl
      · rfl
    have hd : HasFDerivAt (fun y : ι j → ℝ => fun p : Σ j, ι j => if hp : p.1 = j then y (hp ▸ p.2) else x p) A
        fun i => x ⟨j, i⟩ := by
      rw [e]; exact A.hasFDerivAt.add_const _
    refine ⟨L.comp A, HasFDerivAt.comp (fun i => x ⟨j, i⟩) (by rw [e0]; exact hL) hd, fun v => ?_⟩
    rw [ContinuousLinearMap.comp_apply, eL, Fintype.sum_sigma]
    simp only [hA]
    rw [Finset.sum_eq_single j]
    · simp
    · intro c _ hc; simp [hc]
    · simp
  funext p
  refine congrFun (h p.1 _ _ (fun i => x ⟨p.1, i⟩) (fun i => g ⟨p.1, i⟩) (fun i => g' ⟨p.1, i⟩) (hx p.1)
    (fun y hy => ?_) (slice hg p.1) (slice hg' p.1)) p.2
  refine hF _ fun b => ?_
  by_cases hb : b = p.1
  · subst hb
    simpa using hy
  · simpa [hb] using hx b

/-- `Scaled` leaves `egrad2rgrad` to its base, `geoopt/manifolds/scaled.py:180-187`. -/
theorem C136_scaled {ι : Type} [Fintype ι] {M : Manifold ι} {On : (ι → ℝ) → Prop} (h : SeesOnly M On)
    (inner : (ι → ℝ) → (ι → ℝ) → ι → ℝ) (s : ℝ) : SeesOnly (scaled M inner s) On :=
  h

/-- Spheres of dimensions one, two and three together. -/
example : SeesOnly (product (J := Fin 3) (ι := fun j => Fin (j + 2)) fun j => sphere (n := j + 2) none)
    (fun x => ∀ j, Sphere.OnSphere Set.univ fun i => x ⟨j, i⟩) :=
  C136_product fun _ => C136_sphere rfl

end Geoopt.C136
