import Verif.Model.Product

/-!
# `StereographicProductManifold`, `geoopt/manifolds/product.py:443-763`

As in `Verif/Model/Product.lean` a component is a record of its methods on tensors.
-/

namespace Geoopt.SProduct

open Buf Product

/-- The methods of a component used by `StereographicProductManifold`, beside those of `Manifold`.
`project` is the keyword argument of that name. -/
structure Comp where
  base : Manifold
  /-- `geoopt.utils.ismanifold(man, Stereographic)` -/
  stereographic : Bool
  /-- `dist2plane(x, p, a, dim=-1, keepdim, signed, scaled)` -/
  dist2plane : (keepdim signed scaled : Bool) → T → T → T → Except PyErr T
  mobiusAdd : (project : Bool) → T → T → Except PyErr T
  mobiusCoadd : (project : Bool) → T → T → Except PyErr T
  mobiusSub : (project : Bool) → T → T → Except PyErr T
  mobiusCosub : (project : Bool) → T → T → Except PyErr T
  /-- `mobius_scalar_mul(r, x)` -/
  mobiusScalarMul : (project : Bool) → T → T → Except PyErr T
  mobiusPointwiseMul : (project : Bool) → T → T → Except PyErr T
  mobiusMatvec : (project : Bool) → T → T → Except PyErr T
  /-- `wrapped_normal(*size, mean=mean, std=std)`, for one draw of the noise -/
  wrappedNormal : List ℕ → T → T → Except PyErr T
  /-- `geodesic(t, x, y)` -/
  geodesic : T → T → T → Except PyErr T
  geodesicUnit : (project : Bool) → T → T → T → Except PyErr T
  dist0 : T → Except PyErr T
  expmap0 : (project : Bool) → T → Except PyErr T
  logmap0 : T → Except PyErr T
  transp0 : T → T → Except PyErr T
  transp0back : T → T → Except PyErr T
  gyration : T → T → T → Except PyErr T
  antipode : T → Except PyErr T
  /-- `mobius_fn_apply(fn, x)` -/
  mobiusFnApply : (project : Bool) → (T → Except PyErr T) → T → Except PyErr T
  mobiusFnApplyChain : (project : Bool) → T → List (T → Except PyErr T) → Except PyErr T

/-- A product: the layout, and the methods of the components in the same order. -/
structure SProd where
  prod : Prod
  comps : List Comp

/-- `__init__`, `geoopt/manifolds/product.py:458-465`: the constructor of the product, then the check
of the component types. -/
def init (cs : List (Comp × List ℕ)) : Except PyErr SProd := do
  let P ← Product.init (cs.map fun c => (c.1.base, c.2))
  if !(cs.all fun c => c.1.stereographic) then throw .typeError
  return ⟨P, cs.map _root_.Prod.fst⟩

/-- `enumerate(self.manifolds)` together with what `take_submanifold_value(.., i)` looks up. -/
def SProd.parts (P : SProd) : List (Part × Comp) := P.prod.parts.zip P.comps

/-- The body shared by the methods with one tensor of the product:
`pack_point(*[g(manifold, take_submanifold_value(x, i)) for ..])`. -/
def unary (g : Comp → T → Except PyErr T) (P : SProd) (x : T) : Except PyErr T := do
  let res ← P.parts.mapM fun (p, c) => do
    let x_ ← takePart p x
    g c x_
  pack P.prod res

/-- The body shared by the methods with two tensors of the product. -/
def binary (g : Comp → T → T → Except PyErr T) (P : SProd) (x y : T) : Except PyErr T := do
  let res ← P.parts.mapM fun (p, c) => do
    let x_ ← takePart p x
    let y_ ← takePart p y
    g c x_ y_
  pack P.prod res

/-- The body shared by the methods with three tensors of the product. -/
def ternary (g : Comp → T → T → T → Except PyErr T) (P : SProd) (x y z : T) : Except PyErr T := do
  let res ← P.parts.mapM fun (p, c) => do
    let x_ ← takePart p x
    let y_ ← takePart p y
    let z_ ← takePart p z
    g c x_ y_ z_
  pack P.prod res

/-- `_mobius_2_manifold_args`, `geoopt/manifolds/product.py:529-545`: the results are flattened before
they are packed. -/
def mobius2 (g : Comp → T → T → Except PyErr T) (P : SProd) (x y : T) : Except PyErr T := do
  let k := targetBatchDim [x.shape.length, y.shape.length]
  let mapped ← P.parts.mapM fun (p, c) => do
    let x_ ← takePart p x
    let y_ ← takePart p y
    let m ← g c x_ y_
    flattenTo k m
  pack P.prod mapped

/-- `mobius_add`, `geoopt/manifolds/product.py:493-500`. -/
def mobiusAdd (project : Bool) := mobius2 fun c => c.mobiusAdd project
/-- `mobius_coadd`, `geoopt/manifolds/product.py:502-509`. -/
def mobiusCoadd (project : Bool) := mobius2 fun c => c.mobiusCoadd project
/-- `mobius_sub`, `geoopt/manifolds/product.py:511-518`. -/
def mobiusSub (project : Bool) := mobius2 fun c => c.mobiusSub project
/-- `mobius_cosub`, `geoopt/manifolds/product.py:520-527`. -/
def mobiusCosub (project : Bool) := mobius2 fun c => c.mobiusCosub project

/-- `mobius_scalar_mul(r, x)`, `geoopt/manifolds/product.py:547-558`: the same `r` for all parts. -/
def mobiusScalarMul (project : Bool) (P : SProd) (r x : T) : Except PyErr T :=
  unary (fun c x_ => c.mobiusScalarMul project r x_) P x

/-- `mobius_pointwise_mul(w, x)`, `geoopt/manifolds/product.py:560-574`. -/
def mobiusPointwiseMul (project : Bool) := binary fun c => c.mobiusPointwiseMul project

/-- The rows `slc` of matrix `i` of a buffer of `h × w` matrices, cut to the columns `slc`. -/
def blockRows (start stop h w i : ℕ) (l : List ℝ) : List ℝ :=
  (List.range (min stop h - start)).flatMap fun r =>
    ((row w (i * h + (start + r)) l).drop start).take (stop - start)

theorem length_blockRows (start stop h w i k : ℕ) (l : List ℝ) (hl : l.length = k * (h * w))
    (hi : i < k) : (blockRows start stop h w i l).length =
      (min stop h - start) * (min stop w - start) := by
  unfold blockRows
  rw [length_flatMap_const _ _ (min stop w - start), List.length_range]
  intro r hr
  have hr' := List.mem_range.1 hr
  rw [List.length_take, List.length_drop, length_row w _ (k * h) l (by rw [hl]; ring)]
  · omega
  · have : (i + 1) * h ≤ k * h := Nat.mul_le_mul_right h hi
    have : (i + 1) * h = i * h + h := by ring
    omega

/-- `x[..., a:b, a:b]` for `a ≤ b`; Python clips slices that run past the end. -/
def sliceBlock (x : T) (start stop : ℕ) : Except PyErr T :=
  if hs : 2 ≤ x.shape.length then
    .ok ⟨x.shape.dropLast.dropLast ++
        [min stop (x.shape.dropLast.getLastD 1) - start, min stop x.last - start],
      (List.range x.shape.dropLast.dropLast.prod).flatMap fun i =>
        blockRows start stop (x.shape.dropLast.getLastD 1) x.last i x.data, by
      rw [length_flatMap_const _ _ ((min stop (x.shape.dropLast.getLastD 1) - start) *
        (min stop x.last - start)), List.length_range, List.prod_append]
      · simp
      · intro i hi
        apply length_blockRows _ _ _ _ _ _ _ _ (List.mem_range.1 hi)
        have h1 : x.shape ≠ [] := by rintro h; rw [h] at hs; simp at hs
        have h2 : x.shape.dropLast ≠ [] := by
          intro h
          have := congrArg List.length h
          rw [List.length_dropLast] at this
          simp at this
          omega
        rw [x.length_data h1]
        unfold Tensor.nrows
        conv_lhs => rw [← List.dropLast_append_getLast h2]
        rw [List.prod_append, List.prod_singleton, List.getLastD_eq_getLast?,
          List.getLast?_eq_some_getLast h2]
        simp [mul_assoc]⟩
  else .error .indexError

/-- `take_submanifold_matrix(x, i)`, `geoopt/manifolds/product.py:576-599`. -/
def takeMatrix (p : Part) (x : T) : Except PyErr T := do
  let part ← sliceBlock x p.start p.stop
  reshape part (part.shape.dropLast.dropLast ++ p.shape ++ p.shape)

/-- `mobius_matvec(m, x)`, `geoopt/manifolds/product.py:601-613`. -/
def mobiusMatvec (project : Bool) (P : SProd) (m x : T) : Except PyErr T := do
  let res ← P.parts.mapM fun (p, c) => do
    let m_ ← takeMatrix p m
    let x_ ← takePart p x
    c.mobiusMatvec project m_ x_
  pack P.prod res

/-- The argument `std` of `wrapped_normal`: a tensor or a Python number. -/
inductive Std where
  | tensor (t : T)
  | number (s : ℝ)

/-- `geoopt/manifolds/product.py:627-628`: a number becomes `torch.zeros(mean.shape[-1]) * std`. -/
def stdTensor (mean : T) : Std → Except PyErr T
  | .tensor t => .ok t
  | .number s =>
    match mean.shape.getLast? with
    | none => .error .indexError
    | some d => .ok ⟨[d], (List.replicate d (0 : ℝ)).map (· * s), by simp⟩

/-- `wrapped_normal`, `geoopt/manifolds/product.py:615-641`, for one draw of the noise of every
component. -/
def wrappedNormal (P : SProd) (shape : List ℕ) (mean : T) (std : Std) : Except PyErr T := do
  let ok ← checkShape P.prod shape
  if !ok then throw .valueError
  let std ← stdTensor mean std
  let points ← P.parts.mapM fun (p, c) => do
    let m_ ← takePart p mean
    let s_ ← takePart p std
    c.wrappedNormal (shape.dropLast ++ p.shape) m_ s_
  pack P.prod points

/-- `geodesic(t, x, y)`, `geoopt/manifolds/product.py:643-657`. -/
def geodesic (P : SProd) (t x y : T) : Except PyErr T := binary (fun c => c.geodesic t) P x y
/-- `geodesic_unit(t, x, u)`, `geoopt/manifolds/product.py:659-673`. -/
def geodesicUnit (project : Bool) (P : SProd) (t x u : T) : Except PyErr T :=
  binary (fun c => c.geodesicUnit project t) P x u
/-- `expmap0`, `geoopt/manifolds/product.py:685-690`. -/
def expmap0 (project : Bool) := unary fun c => c.expmap0 project
/-- `logmap0`, `geoopt/manifolds/product.py:692-697`; `project` is accepted and not used. -/
def logmap0 (_project : Bool) := unary fun c => c.logmap0
/-- `transp0`, `geoopt/manifolds/product.py:699-705`. -/
def transp0 := binary fun c => c.transp0
/-- `transp0back`, `geoopt/manifolds/product.py:707-713`. -/
def transp0back := binary fun c => c.transp0back
/-- `gyration`, `geoopt/manifolds/product.py:715-724`; `project` is accepted and not used. -/
def gyration (_project : Bool) := ternary fun c => c.gyration
/-- `antipode`, `geoopt/manifolds/product.py:726-731`; `project` is accepted and not used. -/
def antipode (_project : Bool) := unary fun c => c.antipode
/-- `mobius_fn_apply(fn, x)`, `geoopt/manifolds/product.py:733-744`; `args` and `kwargs` are part of
`fn` here. -/
def mobiusFnApply (project : Bool) (P : SProd) (fn : T → Except PyErr T) (x : T) : Except PyErr T :=
  unary (fun c => c.mobiusFnApply project fn) P x
/-- `mobius_fn_apply_chain(x, *fns)`, `geoopt/manifolds/product.py:746-763`. -/
def mobiusFnApplyChain (project : Bool) (P : SProd) (x : T) (fns : List (T → Except PyErr T)) :
    Except PyErr T :=
  unary (fun c x_ => c.mobiusFnApplyChain project x_ fns) P x

/-- `dist0`, `geoopt/manifolds/product.py:675-683`. -/
noncomputable def dist0 (P : SProd) (x : T) (keepdim : Bool) : Except PyErr T := do
  let res ← P.parts.mapM fun (p, c) => do
    let x_ ← takePart p x
    let d ← c.dist0 x_
    return Buf.map (fun a => a ^ 2) d
  let res ← pySum res
  let res := Buf.map (fun a => a ^ (0.5 : ℝ)) res
  return if keepdim then unsqueezeLast res else res

/-- `torch.stack(ts, -1)` followed by `** 2` and `.sum(axis=-1)`: `RuntimeError` for an empty list or
shapes that differ, otherwise the sum of the squares (`add` is for equal shapes). -/
noncomputable def stackSquares (ts : List T) : Except PyErr T :=
  match ts with
  | [] => .error .runtimeError
  | t :: ts =>
    (ts.map (Buf.map fun a => a ^ 2)).foldlM add (Buf.map (fun a => a ^ 2) t)

/-- `dist2plane`, `geoopt/manifolds/product.py:467-491`. -/
noncomputable def dist2plane (P : SProd) (x p a : T) (keepdim signed scaled : Bool) :
    Except PyErr T := do
  let dists ← P.parts.mapM fun (q, c) => do
    let x_ ← takePart q x
    let p_ ← takePart q p
    let a_ ← takePart q a
    c.dist2plane keepdim signed scaled x_ p_ a_
  let s ← stackSquares dists
  return Buf.map Real.sqrt s

end Geoopt.SProduct
