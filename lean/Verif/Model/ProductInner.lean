import Verif.Model.Product

/-!
# `ProductManifold.component_inner`, `geoopt/manifolds/product.py:173-187`
-/

namespace Geoopt.Buf

/-- Where the entry number `k` of a tensor expanded from shape `src` to shape `tgt` (the same number of
axes) comes from, both in row-major order: an axis of length 1 is read at 0. -/
def expandIdx : List ℕ → List ℕ → ℕ → ℕ
  | s :: ss, _ :: ts, k =>
    (if s = 1 then 0 else k / ts.prod) * ss.prod + expandIdx ss ts (k % ts.prod)
  | _, _, _ => 0

/-- `t.expand(s)`: new leading axes, axes of length 1 repeated; `RuntimeError` when another axis differs
or there are too few axes. -/
def expand (t : Tensor ℝ) (s : List ℕ) : Except PyErr (Tensor ℝ) :=
  let src := List.replicate (s.length - t.shape.length) 1 ++ t.shape
  if t.shape.length ≤ s.length ∧ ∀ p ∈ src.zip s, p.1 = 1 ∨ p.1 = p.2 then
    .ok ⟨s, (List.range s.prod).map fun k => t.data.getD (expandIdx src s k) 0, by simp⟩
  else .error .runtimeError

end Geoopt.Buf

namespace Geoopt.Product

open Buf

/-- `component_inner(x, u, v)`, `geoopt/manifolds/product.py:173-187`; `ci` is `component_inner` of the
components. -/
def componentInner (ci : Manifold → T → T → Option T → Except PyErr T) (P : Prod) (x u : T)
    (v : Option T) : Except PyErr T := do
  let products ← P.parts.mapM fun p => do
    let point ← takePart p x
    let uVec ← takePart p u
    let target ← broadcastShapes [point.shape, uVec.shape]
    let vVec ← takeOpt p v
    let inner ← ci p.man point uVec vVec
    expand inner target
  pack P products

end Geoopt.Product
