import Verif.Model.Shapes
import Mathlib.Algebra.BigOperators.Group.List.Basic
import Mathlib.Data.Real.Basic
import Mathlib.Tactic.Ring

/-!
# Dense tensors as row-major buffers

`geoopt/manifolds/product.py` moves data between tensors with `narrow(-1, ..)`, `reshape`, `view`
and `torch.cat(.., -1)`.  These torch operations are modelled here on row-major buffers.  Strides,
views and aliasing are not modelled (`view` of a non-contiguous tensor may raise in torch, here
`view` is `reshape`); neither is the legacy rule of `torch.cat` that skips tensors of shape `(0,)`.
-/

namespace Geoopt.Buf

/-- A tensor: its shape and its entries in row-major order. -/
@[ext] structure Tensor (α : Type) where
  shape : List ℕ
  data : List α
  wf : data.length = shape.prod

/-- Row `i` of a buffer with rows of length `n`. -/
def row {α : Type} (n i : ℕ) (l : List α) : List α := (l.drop (i * n)).take n

variable {α : Type}

/-- The number of rows of a tensor: the product of all axes but the last. -/
def Tensor.nrows (t : Tensor α) : ℕ := t.shape.dropLast.prod

/-- The length of the last axis. -/
def Tensor.last (t : Tensor α) : ℕ := t.shape.getLastD 1

/-- `t.reshape(s)` with explicit sizes: `RuntimeError` unless the number of entries agrees. -/
def reshape (t : Tensor α) (s : List ℕ) : Except PyErr (Tensor α) :=
  if h : t.shape.prod = s.prod then .ok ⟨s, t.data, t.wf.trans h⟩ else .error .runtimeError

/-- `t.reshape((*pre, -1))` and `t.view(*pre, -1)`: the last size is inferred.  When the product of
the known sizes is 0 torch refuses (`cannot reshape tensor of 0 elements into shape [0, -1]`). -/
def reshapeInfer (t : Tensor α) (pre : List ℕ) : Except PyErr (Tensor α) :=
  if h : pre.prod ≠ 0 ∧ t.shape.prod % pre.prod = 0 then
    .ok ⟨pre ++ [t.shape.prod / pre.prod], t.data, by
      rw [t.wf, List.prod_append, List.prod_singleton, Nat.mul_div_cancel' (Nat.dvd_of_mod_eq_zero h.2)]⟩
  else .error .runtimeError

theorem length_flatMap_const {β : Type} (l : List β) (f : β → List α) (m : ℕ)
    (h : ∀ b ∈ l, (f b).length = m) : (l.flatMap f).length = l.length * m := by
  induction l with
  | nil => simp
  | cons b l ih =>
    rw [List.flatMap_cons, List.length_append, h b (by simp), ih (fun c hc => h c (by simp [hc])),
      List.length_cons]
    ring

theorem length_row (n i k : ℕ) (l : List α) (hl : l.length = k * n) (hi : i < k) :
    (row n i l).length = n := by
  unfold row
  rw [List.length_take, List.length_drop, hl]
  have : (i + 1) * n ≤ k * n := Nat.mul_le_mul_right n hi
  have h2 : (i + 1) * n = i * n + n := by ring
  omega

theorem Tensor.length_data (t : Tensor α) (h : t.shape ≠ []) :
    t.data.length = t.nrows * t.last := by
  rw [t.wf, Tensor.nrows, Tensor.last]
  conv_lhs => rw [← List.dropLast_append_getLast h]
  rw [List.prod_append, List.prod_singleton, List.getLastD_eq_getLast?,
    List.getLast?_eq_some_getLast h]
  rfl

/-- `t.narrow(-1, start, len)`: raises on a 0-dimensional tensor or past the end. -/
def narrowLast (t : Tensor α) (start len : ℕ) : Except PyErr (Tensor α) :=
  if h : t.shape ≠ [] ∧ start + len ≤ t.last then
    .ok ⟨t.shape.dropLast ++ [len],
      (List.range t.nrows).flatMap fun i => ((row t.last i t.data).drop start).take len, by
        rw [length_flatMap_const _ _ len, List.length_range, List.prod_append, List.prod_singleton]
        · rfl
        · intro i hi
          rw [List.length_take, List.length_drop,
            length_row _ _ t.nrows _ (t.length_data h.1) (List.mem_range.1 hi)]
          omega⟩
  else .error .runtimeError

/-- The shapes can be concatenated along the last axis. -/
def catOk : List (Tensor α) → Bool
  | [] => false
  | t :: ts => decide (t.shape ≠ []) && (t :: ts).all fun s =>
      decide (s.shape ≠ []) && decide (s.shape.dropLast = t.shape.dropLast)

theorem sum_length_flatMap {β : Type} (l : List β) (f : β → List α) (g : β → ℕ)
    (h : ∀ b ∈ l, (f b).length = g b) : (l.flatMap f).length = (l.map g).sum := by
  induction l with
  | nil => simp
  | cons b l ih =>
    rw [List.flatMap_cons, List.length_append, h b (by simp), ih (fun c hc => h c (by simp [hc])),
      List.map_cons, List.sum_cons]

theorem catOk_spec {t : Tensor α} {ts : List (Tensor α)} (h : catOk (t :: ts) = true) :
    ∀ s ∈ t :: ts, s.shape ≠ [] ∧ s.shape.dropLast = t.shape.dropLast := by
  simp only [catOk, Bool.and_eq_true, List.all_eq_true, decide_eq_true_eq] at h
  exact h.2

/-- `torch.cat(ts, -1)`: `RuntimeError` for an empty list, a 0-dimensional tensor or leading axes
that differ. -/
def catLast (ts : List (Tensor α)) : Except PyErr (Tensor α) :=
  match ts with
  | [] => .error .runtimeError
  | t :: ts =>
    if h : catOk (t :: ts) = true then
      .ok ⟨t.shape.dropLast ++ [((t :: ts).map Tensor.last).sum],
        (List.range t.nrows).flatMap fun i => (t :: ts).flatMap fun s => row s.last i s.data, by
          rw [length_flatMap_const _ _ ((t :: ts).map Tensor.last).sum, List.length_range,
            List.prod_append, List.prod_singleton]
          · rfl
          · intro i hi
            apply sum_length_flatMap
            intro s hs
            have := catOk_spec h s hs
            apply length_row _ _ s.nrows _ (s.length_data this.1)
            rw [Tensor.nrows, this.2]
            exact List.mem_range.1 hi⟩
    else .error .runtimeError

/-- `t.sum(-1)` on a tensor with at least one axis. -/
def sumLast (t : Tensor ℝ) : Except PyErr (Tensor ℝ) :=
  if t.shape ≠ [] then
    .ok ⟨t.shape.dropLast, (List.range t.nrows).map fun i => (row t.last i t.data).sum, by
      rw [List.length_map, List.length_range]; rfl⟩
  else .error .indexError

/-- `a + b`.  Simplification: only for equal shapes; tensors that would be broadcast are outside the
model and raise. -/
def add (a b : Tensor ℝ) : Except PyErr (Tensor ℝ) :=
  if h : a.shape = b.shape then
    .ok ⟨a.shape, List.zipWith (· + ·) a.data b.data, by
      rw [List.length_zipWith, a.wf, b.wf, h, Nat.min_self]⟩
  else .error .runtimeError

/-- Python `sum(ts)` of a non-empty list of tensors (`0 + t` is `t`). -/
def pySum : List (Tensor ℝ) → Except PyErr (Tensor ℝ)
  | [] => .error .typeError
  | t :: ts => ts.foldlM add t

/-- `torch.unsqueeze(t, -1)`. -/
def unsqueezeLast (t : Tensor α) : Tensor α :=
  ⟨t.shape ++ [1], t.data, by rw [t.wf, List.prod_append]; simp⟩

/-- An elementwise function. -/
def map {β : Type} (f : α → β) (t : Tensor α) : Tensor β :=
  ⟨t.shape, t.data.map f, by rw [List.length_map, t.wf]⟩

end Geoopt.Buf
