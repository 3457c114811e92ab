import Verif.Model.StereoManifold
import Mathlib.Logic.Function.Basic

/-!
# The constructors of the manifolds with a curvature

`Stereographic`, `Lorentz`, `PoincareBall` and `SphereProjection` keep their curvature in a torch
parameter.  `torch.as_tensor` and `torch.nn.Parameter` do not copy a floating point tensor, so the
storage of the argument becomes that of the parameter.  The memory is a map from addresses of
storages to the number they hold; addresses below `next` are in use.  (One number per storage: for a
tensor of curvatures read every statement entry by entry.)
-/

namespace Geoopt.Curvature
open Geoopt.Stereo

/-- The storages. -/
structure Mem where
  next : ℕ
  cell : ℕ → ℝ

/-- The curvature argument of a constructor: a Python number, or a tensor with the given storage,
floating point or not. -/
inductive Arg
  | number (r : ℝ)
  | tensor (floating : Bool) (addr : ℕ)

/-- The value of the argument. -/
def Arg.value (h : Mem) : Arg → ℝ
  | .number r => r
  | .tensor _ a => h.cell a

/-- A new storage. -/
def alloc (h : Mem) (r : ℝ) : ℕ × Mem := (h.next, ⟨h.next + 1, Function.update h.cell h.next r⟩)

/-- `stereographic/manifold.py:116-121`, `lorentz/__init__.py:38-43`:
`k = torch.as_tensor(k)`, converted if not floating point, `torch.nn.Parameter(k)`. -/
def parameter (h : Mem) : Arg → ℕ × Mem
  | .number r => alloc h r
  | .tensor floating a => if !floating then alloc h (h.cell a) else (a, h)

/-- The classes: `Stereographic` and `Lorentz` (and their exact variants) keep the parameter,
`PoincareBall` and `SphereProjection` (and theirs) keep the inverse of softplus. -/
inductive Cls
  | stereographic
  | lorentz
  | poincareBall
  | sphereProjection

/-- A manifold object: its class and the storage of its parameter (`k`, `isp_c` or `isp_k`). -/
structure Obj where
  cls : Cls
  addr : ℕ

/-- `stereographic/manifold.py:116-121`, `:607-611`, `:650-654`, `lorentz/__init__.py:38-43`; the in
place operations `k.exp_().sub_(1).log_()` write into the storage of the parameter. -/
noncomputable def construct (h : Mem) (c : Cls) (arg : Arg) : Obj × Mem :=
  let (a, h) := parameter h arg
  match c with
  | .stereographic => (⟨c, a⟩, h)
  | .lorentz => (⟨c, a⟩, h)
  | .poincareBall => (⟨c, a⟩, { h with cell := Function.update h.cell a (ispInit (h.cell a)) })
  | .sphereProjection => (⟨c, a⟩, { h with cell := Function.update h.cell a (ispInit (h.cell a)) })

/-- The number the user thinks of as the curvature: `manifold.k`, for the Poincaré ball
`manifold.c` (`stereographic/manifold.py:599-605`, `:646-648`). -/
noncomputable def curvature (h : Mem) (o : Obj) : ℝ :=
  match o.cls with
  | .stereographic => h.cell o.addr
  | .lorentz => h.cell o.addr
  | .poincareBall => poincareC (h.cell o.addr)
  | .sphereProjection => sphereProjK (h.cell o.addr)

/-- `stereographic/manifold.py:112-114` `radius`. -/
noncomputable def radius (h : Mem) (o : Obj) : ℝ := (√|curvature h o|)⁻¹

/-- Several constructor calls, one after the other. -/
noncomputable def constructAll (h : Mem) : List (Cls × Arg) → Mem
  | [] => h
  | (c, a) :: l => constructAll (construct h c a).2 l

end Geoopt.Curvature
