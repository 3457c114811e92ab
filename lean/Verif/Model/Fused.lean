import Verif.Model.OptimManifolds
import Verif.Model.Birkhoff

/-!
# The methods that move and transport at once

`base.py:478-583` gives default implementations of `expmap_transp`, `retr_transp`,
`transp_follow_retr` and `transp_follow_expmap`; the classes override some of them or assign
methods of a base class under a new name.  One record per class, with the method that Python's
attribute lookup finds.
-/

namespace Geoopt.Fused
open Geoopt

/-- The methods of a manifold object that move a point, on points and vectors of type `X`;
`transp` is `none` for a class that does not implement it. -/
structure Ops (X : Type*) where
  retr : X → X → X
  expmap : X → X → X
  transp : Option (X → X → X → X)
  retrTransp : X → X → X → X × X
  expmapTransp : X → X → X → X × X
  transpFollowRetr : X → X → X → X
  transpFollowExpmap : X → X → X → X

variable {X : Type*}

/-- `base.py:478-502` `expmap_transp`. -/
def baseExpmapTransp (expmap : X → X → X) (transp : X → X → X → X) (x u v : X) : X × X :=
  let y := expmap x u
  (y, transp x y v)

/-- `base.py:503-531` `retr_transp`. -/
def baseRetrTransp (retr : X → X → X) (transp : X → X → X → X) (x u v : X) : X × X :=
  let y := retr x u
  (y, transp x y v)

/-- `base.py:532-556` `transp_follow_retr`. -/
def baseTranspFollowRetr (retr : X → X → X) (transp : X → X → X → X) (x u v : X) : X :=
  let y := retr x u
  transp x y v

/-- `base.py:558-583` `transp_follow_expmap`. -/
def baseTranspFollowExpmap (expmap : X → X → X) (transp : X → X → X → X) (x u v : X) : X :=
  let y := expmap x u
  transp x y v

/-- A class that overrides none of the four. -/
def base (retr expmap : X → X → X) (transp : X → X → X → X) : Ops X where
  retr := retr
  expmap := expmap
  transp := some transp
  retrTransp := baseRetrTransp retr transp
  expmapTransp := baseExpmapTransp expmap transp
  transpFollowRetr := baseTranspFollowRetr retr transp
  transpFollowExpmap := baseTranspFollowExpmap expmap transp

/-- A class derived from `base retr expmap transp` with `retr = Base.expmap`,
`retr_transp = Base.expmap_transp` and `transp_follow_retr = Base.transp_follow_expmap`
(`sphere.py:240-242`, `stiefel.py:269-271`).  The methods taken from the base class call
`self.expmap`. -/
def exact (expmap : X → X → X) (transp : X → X → X → X) : Ops X where
  retr := expmap
  expmap := expmap
  transp := some transp
  retrTransp := baseExpmapTransp expmap transp
  expmapTransp := baseExpmapTransp expmap transp
  transpFollowRetr := baseTranspFollowExpmap expmap transp
  transpFollowExpmap := baseTranspFollowExpmap expmap transp

/-- `euclidean.py:100-108`: `retr = expmap = x + u`; `transp` returns `v` (shapes agree). -/
def euclidean (n : ℕ) : Ops (Vec n) :=
  base (fun x u => x + u) (fun x u => x + u) (fun _ _ v => v)

/-- `sphere.py:30-176` class `Sphere`. -/
noncomputable def sphere {n : ℕ} (P : Option (Matrix (Fin n) (Fin n) ℝ)) (dt : DType) :
    Ops (Vec n) :=
  base (Sphere.retr P) (Sphere.expmap P dt) (Sphere.transp P)

/-- `sphere.py:225-246` class `SphereExact`. -/
noncomputable def sphereExact {n : ℕ} (P : Option (Matrix (Fin n) (Fin n) ℝ)) (dt : DType) :
    Ops (Vec n) :=
  exact (Sphere.expmap P dt) (Sphere.transp P)

/-- `stereographic/manifold.py:194-233`, class `Stereographic`, with the defaults of the
keyword arguments. -/
noncomputable def stereographic {n : ℕ} (η : ℝ) (dt : DType) (k : ℝ) : Ops (Vec n) where
  retr := Stereo.M.retr η dt k
  expmap := Stereo.M.expmap true η dt k
  transp := some (Stereo.transp k)
  retrTransp := Stereo.M.retrTransp η dt k
  expmapTransp := Stereo.M.expmapTransp true η dt k
  transpFollowRetr := Stereo.M.transpFollowRetr η dt k
  transpFollowExpmap := Stereo.M.transpFollowExpmap true η dt k

/-- `stereographic/manifold.py:560-582` class `StereographicExact` (and the exact Poincaré ball
and sphere). -/
noncomputable def stereographicExact {n : ℕ} (η : ℝ) (dt : DType) (k : ℝ) : Ops (Vec n) where
  retr := Stereo.M.expmap true η dt k
  expmap := Stereo.M.expmap true η dt k
  transp := some (Stereo.transp k)
  retrTransp := Stereo.M.expmapTransp true η dt k
  expmapTransp := Stereo.M.expmapTransp true η dt k
  transpFollowRetr := Stereo.M.transpFollowExpmap true η dt k
  transpFollowExpmap := Stereo.M.transpFollowExpmap true η dt k

/-- `lorentz/__init__.py:92-101, 147-162, 247` class `Lorentz`: `retr = expmap`,
`transp_follow_expmap` overridden, the other three from `base.py`. -/
noncomputable def lorentz {n : ℕ} (k : ℝ) : Ops (Vec (n + 1)) where
  retr := fun x u => Lorentz.expmap k x u
  expmap := fun x u => Lorentz.expmap k x u
  transp := some (Lorentz.transp k)
  retrTransp := baseRetrTransp (fun x u => Lorentz.expmap k x u) (Lorentz.transp k)
  expmapTransp := baseExpmapTransp (fun x u => Lorentz.expmap k x u) (Lorentz.transp k)
  transpFollowRetr := baseTranspFollowRetr (fun x u => Lorentz.expmap k x u) (Lorentz.transp k)
  transpFollowExpmap := Lorentz.transpFollowExpmap k

/-- `stiefel.py:116-212` class `CanonicalStiefel`: no `transp`. -/
noncomputable def canonicalStiefel (n m : ℕ) : Ops (Matrix (Fin n) (Fin m) ℝ) where
  retr := Stiefel.Canonical.retr
  expmap := Stiefel.Canonical.retr
  transp := none
  retrTransp := Stiefel.Canonical.retrTransp
  expmapTransp := Stiefel.Canonical.retrTransp
  transpFollowRetr := Stiefel.Canonical.transpFollowRetr
  transpFollowExpmap := Stiefel.Canonical.transpFollowRetr

/-- `stiefel.py:215-256` class `EuclideanStiefel`; `qr` is `linalg.qr`. -/
noncomputable def euclideanStiefel {n m : ℕ}
    (qr : Matrix (Fin n) (Fin m) ℝ → Matrix (Fin n) (Fin m) ℝ × Matrix (Fin m) (Fin m) ℝ) :
    Ops (Matrix (Fin n) (Fin m) ℝ) :=
  base (fun x u => Stiefel.Euclidean.retr (qr (x + u)).1 (qr (x + u)).2)
    Stiefel.Euclidean.expmap Stiefel.Euclidean.transp

/-- `stiefel.py:259-271` class `EuclideanStiefelExact`. -/
noncomputable def euclideanStiefelExact (n m : ℕ) : Ops (Matrix (Fin n) (Fin m) ℝ) :=
  exact Stiefel.Euclidean.expmap Stiefel.Euclidean.transp

/-- `symmetric_positive_definite.py:239-263`. -/
noncomputable def spd {n : ℕ} (E : Linalg.Eigh n) : Ops (Matrix (Fin n) (Fin n) ℝ) :=
  base SPD.retr (SPD.expmap E) (SPD.transp E)

/-- `birkhoff_polytope.py:114-145` on a batch: `expmap = retr`, `expmap_transp = retr_transp`,
all four written out in the class. -/
noncomputable def birkhoff {n : ℕ} {ι : Type} (cfg : Birkhoff.Config) :
    Ops (ι → Matrix (Fin (n + 1)) (Fin (n + 1)) ℝ) where
  retr := Birkhoff.retr cfg
  expmap := Birkhoff.retr cfg
  transp := some fun x y v b => Birkhoff.transp (x b) (y b) (v b)
  retrTransp x u v :=
    let y := Birkhoff.retr cfg x u
    (y, fun b => Birkhoff.transp (x b) (y b) (v b))
  expmapTransp x u v :=
    let y := Birkhoff.retr cfg x u
    (y, fun b => Birkhoff.transp (x b) (y b) (v b))
  transpFollowRetr x u v :=
    let y := Birkhoff.retr cfg x u
    fun b => Birkhoff.transp (x b) (y b) (v b)
  transpFollowExpmap x u v :=
    let y := Birkhoff.retr cfg x u
    fun b => Birkhoff.transp (x b) (y b) (v b)

end Geoopt.Fused
