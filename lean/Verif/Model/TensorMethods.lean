import Verif.Model.Scaled
import Verif.Model.ManifoldTensor
import Mathlib.Analysis.SpecialFunctions.Pow.Real

/-!
# The methods of `ManifoldTensor` (`geoopt/tensor.py:46-139`)

A tensor `t` carries its manifold `m`, an object of `Verif/Model/Scaled.lean`; its methods call the
methods of the manifold with the tensor itself as first argument.  Python's argument passing
(positions, keywords, defaults, `**kwargs`) is that of `Scaled.Method`.
-/

namespace Geoopt.TMethods
open Geoopt Geoopt.Scaled

variable {E : Type}

/-- One method of `ManifoldTensor`: its parameters (without `self`), the defaults, whether it takes
`**kwargs`, and whether it hands its arguments to the manifold by keyword. -/
structure Fwd (E : Type) where
  params : List String
  defaults : List (String × Val E)
  varKw : Bool
  byKeyword : Bool

/-- The forwarding methods, `geoopt/tensor.py:57-97` and `:121-123`, `:137-139`. -/
def fwdTable : List (String × Fwd E) :=
  [("retr", ⟨["u"], [], true, true⟩),
   ("expmap", ⟨["u"], [], true, true⟩),
   ("inner", ⟨["u", "v"], [("v", pyNone)], true, true⟩),
   ("proju", ⟨["u"], [], true, false⟩),
   ("transp", ⟨["y", "v"], [], true, false⟩),
   ("retr_transp", ⟨["u", "v"], [], true, false⟩),
   ("expmap_transp", ⟨["u", "v"], [], true, false⟩),
   ("transp_follow_expmap", ⟨["u", "v"], [], true, false⟩),
   ("transp_follow_retr", ⟨["u", "v"], [], true, false⟩),
   ("logmap", ⟨["y"], [], true, false⟩),
   ("unpack_tensor", ⟨[], [], false, false⟩)]

/-- Look a method of `ManifoldTensor` up by its name. -/
def fwd (name : String) : Option (Fwd E) := fwdTable.lookup name

variable [AddCommGroup E] [Module ℝ E]

/-- The body of a forwarding method on bound arguments: `self.manifold.name(self, u, v, **kwargs)`
or `self.manifold.name(self, u=u, v=v, **kwargs)`. -/
noncomputable def Fwd.method (g : Fwd E) (m : Man E) (self : E) (name : String) : Method E :=
  { params := g.params, kwonly := [], defaults := g.defaults, varPos := false, varKw := g.varKw,
    run := fun b =>
      if g.byKeyword then m.call name [.vec self] (b.named ++ b.extra)
      else m.call name (.vec self :: g.params.flatMap b.get) b.extra }

/-- `tensor.name(*pos, **kw)` for a `ManifoldTensor` with entries `self` on the manifold `m`. -/
noncomputable def call (m : Man E) (self : E) (name : String) (pos : List (Val E))
    (kw : List (String × Val E)) : Except PyErr (Res E) :=
  match fwd name with
  | none => .error .attributeError
  | some g => (g.method m self name).call pos kw

/-- The argument `p` of `ManifoldTensor.dist`: a number or a string. -/
inductive PArg
  | num (p : ℝ)
  | str (s : String)

/-- `torch.Tensor.dist(other, p)` for two tensors with `n` entries each and `0 < p < ∞`: the `p`-norm
of the difference of all entries. -/
noncomputable def torchDist {n : ℕ} (p : ℝ) (x y : Fin n → ℝ) : ℝ :=
  (∑ i, |x i - y i| ^ p) ^ (1 / p)

open Classical in
/-- `geoopt/tensor.py:99-119` `ManifoldTensor.dist(other, p=2, **kwargs)`; `super().dist(other)` uses
torch's default `p = 2`. -/
noncomputable def dist {n : ℕ} (m : Man (Fin n → ℝ)) (self other : Fin n → ℝ) (p : PArg)
    (kw : List (String × Val (Fin n → ℝ))) : Except PyErr (Res (Fin n → ℝ)) :=
  if p = .str "g" then m.call "dist" [.vec self, .vec other] kw
  else .ok (.one (.num (torchDist 2 self other)))

end Geoopt.TMethods

namespace Geoopt.MTensor

variable {V α : Type}

/-- `tensor.copy_(value)`: torch refuses an in-place operation on a leaf that requires a gradient
while gradients are recorded; otherwise it overwrites the storage.  Tensor objects made by the
constructors of `geoopt/tensor.py` are leaves that own their whole storage (views of a part of a
storage are not modelled). -/
def copyInto (gradMode : Bool) (h : Heap V α) (t : ℕ) (value : List α) :
    Except PyErr (Heap V α) :=
  if (h.tens t).requiresGrad && gradMode then .error .runtimeError
  else .ok { h with storages := Function.update h.storages (h.tens t).storage value }

/-- `geoopt/tensor.py:46-55` `ManifoldTensor.proj_()`; `projx v d` is `manifold.projx` on entries,
`gradMode` is `torch.is_grad_enabled()`. -/
def projInplace (projx : V → List α → List α) (gradMode : Bool) (h : Heap V α) (t : ℕ) :
    Except PyErr (ℕ × Heap V α) :=
  match copyInto gradMode h t
      (projx (h.mans (h.tens t).manifold) (h.storages (h.tens t).storage)) with
  | .error e => .error e
  | .ok h' => .ok (t, h')

end Geoopt.MTensor
