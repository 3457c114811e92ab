import Verif.Model.OptimManifolds

/-!
# `ProductManifold` and `Scaled` as the optimisers see them

The entries of one element of a product with components `j : J` are indexed by `Σ j, ι j`: the slice
of component `j` in the last axis of the tensor, reshaped to the shape of the component
(`geoopt/manifolds/product.py:87-110`; that the operations act slice by slice on row-major buffers is
C42, `component_inner` is in `Verif/Model/ProductInner.lean`).
-/

namespace Geoopt.Optim

/-- Every operation part by part, `geoopt/manifolds/product.py:189-196` (`projx`), `198-207` (`proju`),
`220-229` (`retr`), `306-320` (`retr_transp`), `173-187` (`component_inner`, without `v`), `341-352`
(`egrad2rgrad`).  `egrad2rgrad` returns a new tensor (`torch.cat`), never a view of its argument; a
component that writes to its argument writes through the view taken by `narrow`. -/
def product {J : Type} {ι : J → Type} (Ms : ∀ j, Manifold (ι j)) : Manifold (Σ j, ι j) where
  egrad2rgrad x g :=
    ⟨fun p => ((Ms p.1).egrad2rgrad (fun i => x ⟨p.1, i⟩) (fun i => g ⟨p.1, i⟩)).value p.2,
      fun p => ((Ms p.1).egrad2rgrad (fun i => x ⟨p.1, i⟩) (fun i => g ⟨p.1, i⟩)).arg p.2, false⟩
  retr x u := fun p => (Ms p.1).retr (fun i => x ⟨p.1, i⟩) (fun i => u ⟨p.1, i⟩) p.2
  retrTransp x u v :=
    (fun p => ((Ms p.1).retrTransp (fun i => x ⟨p.1, i⟩) (fun i => u ⟨p.1, i⟩)
        (fun i => v ⟨p.1, i⟩)).1 p.2,
      fun p => ((Ms p.1).retrTransp (fun i => x ⟨p.1, i⟩) (fun i => u ⟨p.1, i⟩)
        (fun i => v ⟨p.1, i⟩)).2 p.2)
  projx x := fun p => (Ms p.1).projx (fun i => x ⟨p.1, i⟩) p.2
  proju x u := fun p => (Ms p.1).proju (fun i => x ⟨p.1, i⟩) (fun i => u ⟨p.1, i⟩) p.2
  componentInner x u := fun p => (Ms p.1).componentInner (fun i => x ⟨p.1, i⟩) (fun i => u ⟨p.1, i⟩) p.2

/-- `Scaled(M, s)`: the table `geoopt/manifolds/base.py:420,503` divides `u` by the scale in `retr` and
`retr_transp`; `egrad2rgrad`, `projx` and `proju` go to the base (`geoopt/manifolds/scaled.py:180-187`);
`component_inner` is the one of `Manifold` (`geoopt/manifolds/base.py:631-661`), which calls
`self.inner(x, u, v, keepdim=True)`, that is `inner` of the base (`scaled.py:166-175`), here `inner`,
broadcast to the entries of the tensor: for a single element one number at all entries, for a batch one
number per element. -/
noncomputable def scaled {ι : Type} (M : Manifold ι) (inner : (ι → ℝ) → (ι → ℝ) → ι → ℝ) (s : ℝ) :
    Manifold ι where
  egrad2rgrad := M.egrad2rgrad
  retr x u := M.retr x (s⁻¹ • u)
  retrTransp x u v := M.retrTransp x (s⁻¹ • u) v
  projx := M.projx
  proju := M.proju
  componentInner := inner

end Geoopt.Optim
