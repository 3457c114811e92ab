import Verif.Model.Optim
import Verif.Model.Sphere
import Verif.Model.StereoManifold
import Verif.Model.Lorentz
import Verif.Model.Stiefel
import Verif.Model.SPD

/-!
# The manifolds as the optimisers see them

Records of the modelled operations, on one manifold element; `batch` applies one to every row of a
batch.  `retr_transp` is the one of `geoopt/manifolds/base.py` (`retr`, then `transp` to the new point)
unless a class overrides it; `component_inner` is `inner(x, u, keepdim=True)`
(`geoopt/manifolds/base.py`), one number broadcast over the entries of the element.
-/

namespace Geoopt.Optim

/-- `geoopt/manifolds/sphere.py`, class `Sphere`, with the projector `P` of its subspace. -/
noncomputable def sphere {n : ℕ} (P : Option (Matrix (Fin n) (Fin n) ℝ)) : Manifold (Fin n) where
  egrad2rgrad x g := ⟨Sphere.egrad2rgrad P x g, g, false⟩
  retr := Sphere.retr P
  retrTransp x u v := (Sphere.retr P x u, Sphere.transp P x (Sphere.retr P x u) v)
  projx := Sphere.projx P
  proju := Sphere.proju P
  componentInner x u := fun _ => Sphere.inner x u u

/-- Class `SphereExact`, where `retr = expmap`. -/
noncomputable def sphereExact {n : ℕ} (P : Option (Matrix (Fin n) (Fin n) ℝ)) (dt : DType) :
    Manifold (Fin n) where
  egrad2rgrad x g := ⟨Sphere.egrad2rgrad P x g, g, false⟩
  retr := Sphere.Exact.retr P dt
  retrTransp x u v := (Sphere.Exact.retr P dt x u, Sphere.transp P x (Sphere.Exact.retr P dt x u) v)
  projx := Sphere.projx P
  proju := Sphere.proju P
  componentInner x u := fun _ => Sphere.inner x u u

/-- `geoopt/manifolds/stereographic/manifold.py`, curvature `k`. -/
noncomputable def stereographic {n : ℕ} (η : ℝ) (dt : DType) (k : ℝ) : Manifold (Fin n) where
  egrad2rgrad x g := ⟨Stereo.egrad2rgrad k x g, g, false⟩
  retr := Stereo.M.retr η dt k
  retrTransp := Stereo.M.retrTransp η dt k
  projx := Stereo.M.projx η dt k
  proju := Stereo.M.proju
  componentInner x u := fun _ => Stereo.inner k x u u

/-- `geoopt/manifolds/stereographic/manifold.py:560-582`, class `StereographicExact`, where `retr` is
`expmap`. -/
noncomputable def stereographicExact {n : ℕ} (η : ℝ) (dt : DType) (k : ℝ) : Manifold (Fin n) where
  egrad2rgrad x g := ⟨Stereo.egrad2rgrad k x g, g, false⟩
  retr := Stereo.M.expmap true η dt k
  retrTransp := Stereo.M.expmapTransp true η dt k
  projx := Stereo.M.projx η dt k
  proju := Stereo.M.proju
  componentInner x u := fun _ => Stereo.inner k x u u

/-- `geoopt/manifolds/lorentz/__init__.py`; `egrad2rgrad` writes to its argument. -/
noncomputable def lorentz {n : ℕ} (k : ℝ) : Manifold (Fin (n + 1)) where
  egrad2rgrad x g := ⟨(Lorentz.egrad2rgrad k x g).1, (Lorentz.egrad2rgrad k x g).2, false⟩
  retr x u := Lorentz.expmap k x u
  retrTransp x u v := (Lorentz.expmap k x u, Lorentz.transp k x (Lorentz.expmap k x u) v)
  projx := Lorentz.projx k
  proju := Lorentz.proju k
  componentInner _ u := fun _ => Lorentz.inner u u

/-- A matrix as a family indexed by pairs, and back. -/
def toMat {n m : ℕ} (x : Fin n × Fin m → ℝ) : Matrix (Fin n) (Fin m) ℝ := fun i j => x (i, j)
def ofMat {n m : ℕ} (x : Matrix (Fin n) (Fin m) ℝ) : Fin n × Fin m → ℝ := fun p => x p.1 p.2

/-- `geoopt/manifolds/stiefel.py`, class `CanonicalStiefel`; `proj` is `projx` for some
implementation of the singular value decomposition. -/
noncomputable def canonicalStiefel {n m : ℕ}
    (proj : Matrix (Fin n) (Fin m) ℝ → Matrix (Fin n) (Fin m) ℝ) : Manifold (Fin n × Fin m) where
  egrad2rgrad x g := ⟨ofMat (Stiefel.Canonical.proju (toMat x) (toMat g)), g, false⟩
  retr x u := ofMat (Stiefel.Canonical.retr (toMat x) (toMat u))
  retrTransp x u v :=
    (ofMat (Stiefel.Canonical.retrTransp (toMat x) (toMat u) (toMat v)).1,
      ofMat (Stiefel.Canonical.retrTransp (toMat x) (toMat u) (toMat v)).2)
  projx x := ofMat (proj (toMat x))
  proju x u := ofMat (Stiefel.Canonical.proju (toMat x) (toMat u))
  componentInner x u := fun _ => Stiefel.Canonical.inner (toMat x) (toMat u) (toMat u)

/-- `geoopt/manifolds/stiefel.py:215-256`, class `EuclideanStiefel`; `qr` is `linalg.qr` and `proj` is
`projx`. -/
noncomputable def euclideanStiefel {n m : ℕ}
    (qr : Matrix (Fin n) (Fin m) ℝ → Matrix (Fin n) (Fin m) ℝ × Matrix (Fin m) (Fin m) ℝ)
    (proj : Matrix (Fin n) (Fin m) ℝ → Matrix (Fin n) (Fin m) ℝ) : Manifold (Fin n × Fin m) where
  egrad2rgrad x g := ⟨ofMat (Stiefel.Euclidean.proju (toMat x) (toMat g)), g, false⟩
  retr x u := ofMat (Stiefel.Euclidean.retr (qr (toMat x + toMat u)).1 (qr (toMat x + toMat u)).2)
  retrTransp x u v :=
    let y := Stiefel.Euclidean.retr (qr (toMat x + toMat u)).1 (qr (toMat x + toMat u)).2
    (ofMat y, ofMat (Stiefel.Euclidean.transp (toMat x) y (toMat v)))
  projx x := ofMat (proj (toMat x))
  proju x u := ofMat (Stiefel.Euclidean.proju (toMat x) (toMat u))
  componentInner x u := fun _ => Stiefel.Euclidean.inner (toMat x) (toMat u) (toMat u)

/-- `geoopt/manifolds/stiefel.py:259-271`, class `EuclideanStiefelExact`, where `retr` is `expmap`. -/
noncomputable def euclideanStiefelExact {n m : ℕ}
    (proj : Matrix (Fin n) (Fin m) ℝ → Matrix (Fin n) (Fin m) ℝ) : Manifold (Fin n × Fin m) where
  egrad2rgrad x g := ⟨ofMat (Stiefel.Euclidean.proju (toMat x) (toMat g)), g, false⟩
  retr x u := ofMat (Stiefel.Euclidean.expmap (toMat x) (toMat u))
  retrTransp x u v :=
    let y := Stiefel.Euclidean.expmap (toMat x) (toMat u)
    (ofMat y, ofMat (Stiefel.Euclidean.transp (toMat x) y (toMat v)))
  projx x := ofMat (proj (toMat x))
  proju x u := ofMat (Stiefel.Euclidean.proju (toMat x) (toMat u))
  componentInner x u := fun _ => Stiefel.Euclidean.inner (toMat x) (toMat u) (toMat u)

/-- `geoopt/manifolds/symmetric_positive_definite.py`. -/
noncomputable def spd {n : ℕ} (E : Linalg.Eigh n) : Manifold (Fin n × Fin n) where
  egrad2rgrad x g := ⟨ofMat (SPD.egrad2rgrad (toMat x) (toMat g)), g, false⟩
  retr x u := ofMat (SPD.retr (toMat x) (toMat u))
  retrTransp x u v := (ofMat (SPD.retr (toMat x) (toMat u)),
    ofMat (SPD.transp E (toMat x) (SPD.retr (toMat x) (toMat u)) (toMat v)))
  projx x := ofMat (SPD.projx E (toMat x))
  proju x u := ofMat (SPD.proju (toMat x) (toMat u))
  componentInner x u := fun _ => SPD.inner (toMat x) (toMat u) (toMat u)

/-- A batch of elements: every operation row by row (the operations reduce over the manifold axes
only). -/
def batch (β : Type) {ι : Type} (M : Manifold ι) : Manifold (β × ι) where
  egrad2rgrad x g :=
    ⟨fun p => (M.egrad2rgrad (fun i => x (p.1, i)) (fun i => g (p.1, i))).value p.2,
      fun p => (M.egrad2rgrad (fun i => x (p.1, i)) (fun i => g (p.1, i))).arg p.2,
      (M.egrad2rgrad 0 0).isView⟩
  retr x u := fun p => M.retr (fun i => x (p.1, i)) (fun i => u (p.1, i)) p.2
  retrTransp x u v :=
    (fun p => (M.retrTransp (fun i => x (p.1, i)) (fun i => u (p.1, i)) (fun i => v (p.1, i))).1 p.2,
      fun p => (M.retrTransp (fun i => x (p.1, i)) (fun i => u (p.1, i)) (fun i => v (p.1, i))).2 p.2)
  projx x := fun p => M.projx (fun i => x (p.1, i)) p.2
  proju x u := fun p => M.proju (fun i => x (p.1, i)) (fun i => u (p.1, i)) p.2
  componentInner x u := fun p => M.componentInner (fun i => x (p.1, i)) (fun i => u (p.1, i)) p.2

end Geoopt.Optim
