import Verif.Model.Optim

/-!
# The sparse optimisers: `geoopt/optim/sparse_rsgd.py`, `sparse_radam.py`

A parameter is a matrix (`SparseMixin.add_param_group`, `geoopt/optim/mixin.py:26-44`, refuses anything
else) with rows `ρ` and columns `ι`; its manifold acts on each row.  A sparse gradient is the list of its
(row, values) entries, not necessarily coalesced; gradients that are also sparse in the columns are the
same after `to_dense`.
-/

namespace Geoopt.Optim

/-- `param_group["params"]`: one tensor, a set, or another iterable; tensors given by their shapes. -/
inductive ParamsArg
  | tensor (shape : List ℕ)
  | set (shapes : List (List ℕ))
  | iterable (shapes : List (List ℕ))

/-- The loop over the parameters, `geoopt/optim/mixin.py:37-43`. -/
def checkMatrices : List (List ℕ) → Except PyErr Unit
  | [] => .ok ()
  | s :: ss => if s.length ≠ 2 then .error .valueError else checkMatrices ss

/-- `SparseMixin.add_param_group`, `geoopt/optim/mixin.py:26-44`; the result is the list of parameters
handed to torch. -/
def sparseAddParamGroup (params : ParamsArg) : Except PyErr (List (List ℕ)) :=
  match params with
  | .set _ => .error .typeError
  | .tensor s =>
    match checkMatrices [s] with
    | .error e => .error e
    | .ok () => .ok [s]
  | .iterable ss =>
    match checkMatrices ss with
    | .error e => .error e
    | .ok () => .ok ss

/-- The `.grad` of a parameter. -/
inductive SGrad (ρ ι : Type)
  | none
  | dense
  | sparse (entries : List (ρ × (ι → ℝ)))

section Rows
variable {ρ ι : Type} [DecidableEq ρ]

/-- `grad.coalesce().indices()[0].unique()`, `sparse_rsgd.py:82`, `sparse_radam.py:88`. -/
def gradRows (es : List (ρ × (ι → ℝ))) : List ρ := (es.map Prod.fst).dedup

/-- `grad.to_dense()`: duplicate entries add up. -/
def toDense (es : List (ρ × (ι → ℝ))) (r : ρ) : ι → ℝ :=
  ((es.filter fun e => e.1 = r).map Prod.snd).sum

/-- `x[rows] = values`. -/
def scatter {α : Type} (x : ρ → α) (rows : List ρ) (values : List α) : ρ → α :=
  (rows.zip values).foldl (fun x rv => Function.update x rv.1 rv.2) x

end Rows

/-! ## SparseRiemannianSGD -/

/-- A parameter under `SparseRiemannianSGD`. -/
structure SparseSGDParam (ρ ι : Type) where
  point : ρ → ι → ℝ
  grad : SGrad ρ ι
  buf : Option (ρ → ι → ℝ)

open Classical in
/-- The loop body of `SparseRiemannianSGD.step`, `geoopt/optim/sparse_rsgd.py:73-116`.  The tensor
operations on the selected rows are row by row.  `weight_decay` is not an option. -/
noncomputable def sparseSgdParam {ρ ι : Type} [DecidableEq ρ] (M : Manifold ι) (h : SGDHyper)
    (s : SparseSGDParam ρ ι) : SparseSGDParam ρ ι × Bool × Option PyErr :=
  match s.grad with
  | .none => (s, false, none)
  | .dense => (s, false, some .runtimeError)
  | .sparse es =>
    let rows := gradRows es
    -- state initialisation
    let buf0 := match s.buf with
      | none => if 0 < h.momentum then some (toDense es) else none
      | some b => some b
    -- grad.index_select(0, rows).to_dense(), point[rows]
    let r := fun i => (M.egrad2rgrad (s.point i) (toDense es i)).value
    if 0 < h.momentum then
      match buf0 with
      | none => (s, false, some .keyError)
      | some b0 =>
        let b := fun i => h.momentum • b0 i + (1 - h.dampening) • r i
        let dir := fun i => if h.nesterov then r i + h.momentum • b i else b i
        let y := fun i => M.retrTransp (s.point i) (-h.lr • dir i) (b i)
        (⟨scatter s.point rows (rows.map fun i => (y i).1), s.grad,
          some (scatter b0 rows (rows.map fun i => (y i).2))⟩, false, none)
    else
      (⟨scatter s.point rows (rows.map fun i => M.retr (s.point i) (-h.lr • r i)), s.grad, buf0⟩,
        false, none)

open Classical in
/-- The body of `SparseRiemannianSGD.stabilize_group`, `geoopt/optim/sparse_rsgd.py:126-139`: all
rows. -/
noncomputable def sparseSgdStab {ρ ι : Type} (isManifold : Bool) (M : Manifold ι) (h : SGDHyper)
    (s : SparseSGDParam ρ ι) : SparseSGDParam ρ ι :=
  if isManifold = false then s
  else
    let x := fun i => M.projx (s.point i)
    if 0 < h.momentum then ⟨x, s.grad, s.buf.map fun b i => M.proju (x i) (b i)⟩
    else ⟨x, s.grad, s.buf⟩

section SparseSGD
variable {κ : Type} [DecidableEq κ] {ρ ι : κ → Type} [∀ a, DecidableEq (ρ a)] (P : Params κ ι)

/-- Contents of all parameters and the groups. -/
structure SparseSGD (κ : Type) (ρ ι : κ → Type) where
  par : ∀ a, SparseSGDParam (ρ a) (ι a)
  groups : List (Group SGDHyper κ)

/-- `SparseRiemannianSGD.step()` after the closure, `geoopt/optim/sparse_rsgd.py:60-123`. -/
noncomputable def sparseSgdStep (o : SparseSGD κ ρ ι) : SparseSGD κ ρ ι × Option PyErr :=
  match forGroups (counterGroup (fun h a => sparseSgdParam (ρ := ρ a) (P.manifold a) h)
      (fun h a => sparseSgdStab (P.isManifold a) (P.man a) h) SGDHyper.stabilize) o.groups o.par with
  | (w, Gs, e) => (⟨w, Gs⟩, e)

end SparseSGD

/-! ## SparseRiemannianAdam -/

open Classical in
/-- The constructor checks `geoopt/optim/sparse_radam.py:47-57`.  The documented option `stabilize` is
not a parameter of the constructor: passing it raises `TypeError`. -/
noncomputable def sparseAdamInit (h : AdamHyper) (passStabilize : Bool) : Except PyErr AdamHyper :=
  if passStabilize then .error .typeError
  else if ¬ 0 ≤ h.lr then .error .valueError
  else if ¬ 0 ≤ h.eps then .error .valueError
  else if ¬ (0 ≤ h.beta1 ∧ h.beta1 < 1) then .error .valueError
  else if ¬ (0 ≤ h.beta2 ∧ h.beta2 < 1) then .error .valueError
  else .ok h

/-- The state of a parameter, `geoopt/optim/sparse_radam.py:91-100`. -/
structure SparseAdamState (ρ ι : Type) where
  step : ℕ
  expAvg : ρ → ι → ℝ
  expAvgSq : ρ → ι → ℝ
  maxExpAvgSq : Option (ρ → ι → ℝ)

/-- A parameter under `SparseRiemannianAdam`. -/
structure SparseAdamParam (ρ ι : Type) where
  point : ρ → ι → ℝ
  grad : SGrad ρ ι
  state : Option (SparseAdamState ρ ι)

/-- State initialisation, `geoopt/optim/sparse_radam.py:91-100`. -/
def sparseAdamInitState {ρ ι : Type} (amsgrad : Bool) :
    Option (SparseAdamState ρ ι) → SparseAdamState ρ ι
  | some st => st
  | none => ⟨0, fun _ _ => 0, fun _ _ => 0, if amsgrad then some fun _ _ => 0 else none⟩

/-- The loop body of `SparseRiemannianAdam.step`, `geoopt/optim/sparse_radam.py:75-143`.  With
`amsgrad`, `max_exp_avg_sq.div_(bias_correction2).sqrt_()` is in place, and the result is written back to
the state. -/
noncomputable def sparseAdamParam {ρ ι : Type} [DecidableEq ρ] (M : Manifold ι) (h : AdamHyper)
    (s : SparseAdamParam ρ ι) : SparseAdamParam ρ ι × Bool × Option PyErr :=
  match s.grad with
  | .none => (s, false, none)
  | .dense => (s, false, some .runtimeError)
  | .sparse es =>
    let rows := gradRows es
    let st := sparseAdamInitState h.amsgrad s.state
    let t := st.step + 1
    let r := fun i => (M.egrad2rgrad (s.point i) (toDense es i)).value
    let m := fun i => h.beta1 • st.expAvg i + (1 - h.beta1) • r i
    let v := fun i => h.beta2 • st.expAvgSq i + (1 - h.beta2) • M.componentInner (s.point i) (r i)
    let c1 := 1 - h.beta1 ^ t
    let c2 := 1 - h.beta2 ^ t
    -- the end of the loop body, from the denominator on
    let finish (denom : ρ → ι → ℝ) (vm : Option (ρ → ι → ℝ)) :
        SparseAdamParam ρ ι × Bool × Option PyErr :=
      let dir := fun i (j : ι) => m i j / c1 / (denom i j + h.eps)
      let y := fun i => M.retrTransp (s.point i) (-h.lr • dir i) (m i)
      (⟨scatter s.point rows (rows.map fun i => (y i).1), s.grad,
        some ⟨t, scatter st.expAvg rows (rows.map fun i => (y i).2),
          scatter st.expAvgSq rows (rows.map v), vm⟩⟩, adamFlag h.stabilize t)
    match h.amsgrad, st.maxExpAvgSq with
    | true, none => (⟨s.point, s.grad, some { st with step := t }⟩, false, some .keyError)
    | true, some vm =>
      let vm' := fun i j => Real.sqrt (max (vm i j) (v i j) / c2)
      finish vm' (some (scatter vm rows (rows.map vm')))
    | false, vm => finish (fun i j => Real.sqrt (v i j / c2)) vm

/-- The body of `SparseRiemannianAdam.stabilize_group`, `geoopt/optim/sparse_radam.py:149-158`. -/
def sparseAdamStab {ρ ι : Type} (isManifold : Bool) (M : Manifold ι) (s : SparseAdamParam ρ ι) :
    SparseAdamParam ρ ι :=
  if isManifold = false then s
  else match s.state with
    | none => s
    | some st => let x := fun i => M.projx (s.point i)
      ⟨x, s.grad, some { st with expAvg := fun i => M.proju (x i) (st.expAvg i) }⟩

section SparseAdam
variable {κ : Type} [DecidableEq κ] {ρ ι : κ → Type} [∀ a, DecidableEq (ρ a)] (P : Params κ ι)

/-- Contents of all parameters and the groups. -/
structure SparseAdam (κ : Type) (ρ ι : κ → Type) where
  par : ∀ a, SparseAdamParam (ρ a) (ι a)
  groups : List (AdamHyper × List κ)

/-- `SparseRiemannianAdam.step()` after the closure, `geoopt/optim/sparse_radam.py:64-146`. -/
noncomputable def sparseAdamStep (o : SparseAdam κ ρ ι) : SparseAdam κ ρ ι × Option PyErr :=
  match forGroups (flagGroup (fun h a => sparseAdamParam (ρ := ρ a) (P.manifold a) h)
      (fun _ a => sparseAdamStab (P.isManifold a) (P.man a))) o.groups o.par with
  | (w, Gs, e) => (⟨w, Gs⟩, e)

end SparseAdam

end Geoopt.Optim
