import Verif.Model.Axis

/-!
# What a batched call should compute

Independent of the model of any function: a batched call computes, at every position of the
batch, the function of the vectors that the arguments have there.  Batch axes broadcast.

The statements take the function on whole tensors (`F`) and the function on single vectors
(`f`).  `d` is the manifold axis, a batch position `b` gives an index for each other axis.
-/

namespace Geoopt.SpecBatch
open Geoopt Geoopt.Axis
variable {m : ℕ}

/-- The vector of `t` at batch position `b` (a batch axis of size one is read at `0`). -/
def elemAt (d : Fin (m + 1)) (n : ℕ) (t : Tensor (m + 1)) (b : Fin m → ℕ) : Vec n :=
  fun j => t.get (d.insertNth (α := fun _ => ℕ) (j : ℕ) b)

/-- The number at batch position `b` of a tensor whose manifold axis has size one. -/
def numAt (d : Fin (m + 1)) (t : Tensor (m + 1)) (b : Fin m → ℕ) : ℝ :=
  t.get (d.insertNth (α := fun _ => ℕ) 0 b)

/-- Two sizes that torch can broadcast. -/
def SizeOk (a b : ℕ) : Prop := a = 1 ∨ b = 1 ∨ a = b

/-- The batch axes of two tensors can be broadcast. -/
def BatchOk (d : Fin (m + 1)) (x y : Tensor (m + 1)) : Prop :=
  ∀ k : Fin m, SizeOk (x.shape (d.succAbove k)) (y.shape (d.succAbove k))

/-- The sizes of the batch axes. -/
def batch (d : Fin (m + 1)) (x : Tensor (m + 1)) : Fin m → ℕ := fun k => x.shape (d.succAbove k)

/-- Broadcast of two lists of sizes. -/
def bcast (s t : Fin m → ℕ) : Fin m → ℕ := fun k => if s k = 1 then t k else s k

/-- A vector function of one vector, batched. -/
def Vec1 (d : Fin (m + 1)) (n p : ℕ) (F : Tensor (m + 1) → Tensor (m + 1))
    (f : Vec n → Vec p) : Prop :=
  ∀ x, x.shape d = n →
    (F x).shape d = p ∧ batch d (F x) = batch d x ∧
    ∀ b, elemAt d p (F x) b = f (elemAt d n x b)

/-- A vector function of two vectors, batched. -/
def Vec2 (d : Fin (m + 1)) (n : ℕ) (F : Tensor (m + 1) → Tensor (m + 1) → Tensor (m + 1))
    (f : Vec n → Vec n → Vec n) : Prop :=
  ∀ x y, x.shape d = n → y.shape d = n → BatchOk d x y →
    (F x y).shape d = n ∧ batch d (F x y) = bcast (batch d x) (batch d y) ∧
    ∀ b, elemAt d n (F x y) b = f (elemAt d n x b) (elemAt d n y b)

/-- A vector function of three vectors, batched. -/
def Vec3 (d : Fin (m + 1)) (n : ℕ)
    (F : Tensor (m + 1) → Tensor (m + 1) → Tensor (m + 1) → Tensor (m + 1))
    (f : Vec n → Vec n → Vec n → Vec n) : Prop :=
  ∀ x y z, x.shape d = n → y.shape d = n → z.shape d = n →
    BatchOk d x y → BatchOk d x z → BatchOk d y z →
    (F x y z).shape d = n ∧
    batch d (F x y z) = bcast (bcast (batch d x) (batch d y)) (batch d z) ∧
    ∀ b, elemAt d n (F x y z) b = f (elemAt d n x b) (elemAt d n y b) (elemAt d n z b)

/-- A vector function of a number (a tensor whose manifold axis has size one) and a vector. -/
def NumVec (d : Fin (m + 1)) (n : ℕ) (F : Tensor (m + 1) → Tensor (m + 1) → Tensor (m + 1))
    (f : ℝ → Vec n → Vec n) : Prop :=
  ∀ t x, t.shape d = 1 → x.shape d = n → BatchOk d t x →
    (F t x).shape d = n ∧ batch d (F t x) = bcast (batch d t) (batch d x) ∧
    ∀ b, elemAt d n (F t x) b = f (numAt d t b) (elemAt d n x b)

/-- A vector function of a number and two vectors. -/
def NumVec2 (d : Fin (m + 1)) (n : ℕ)
    (F : Tensor (m + 1) → Tensor (m + 1) → Tensor (m + 1) → Tensor (m + 1))
    (f : ℝ → Vec n → Vec n → Vec n) : Prop :=
  ∀ t x y, t.shape d = 1 → x.shape d = n → y.shape d = n →
    BatchOk d t x → BatchOk d t y → BatchOk d x y →
    (F t x y).shape d = n ∧
    batch d (F t x y) = bcast (bcast (batch d t) (batch d x)) (batch d y) ∧
    ∀ b, elemAt d n (F t x y) b = f (numAt d t b) (elemAt d n x b) (elemAt d n y b)

/-- A number for each vector: with `keepdim=True` the manifold axis has size one, with
`keepdim=False` the result has the sizes of the batch. -/
def Num1 (d : Fin (m + 1)) (n : ℕ) (FK : Tensor (m + 1) → Tensor (m + 1))
    (F : Tensor (m + 1) → Tensor m) (f : Vec n → ℝ) : Prop :=
  ∀ x, x.shape d = n →
    (FK x).shape d = 1 ∧ batch d (FK x) = batch d x ∧ (F x).shape = batch d x ∧
    ∀ b, numAt d (FK x) b = f (elemAt d n x b) ∧ (F x).get b = f (elemAt d n x b)

/-- A number for each pair of vectors. -/
def Num2 (d : Fin (m + 1)) (n : ℕ) (FK : Tensor (m + 1) → Tensor (m + 1) → Tensor (m + 1))
    (F : Tensor (m + 1) → Tensor (m + 1) → Tensor m) (f : Vec n → Vec n → ℝ) : Prop :=
  ∀ x y, x.shape d = n → y.shape d = n → BatchOk d x y →
    (FK x y).shape d = 1 ∧ batch d (FK x y) = bcast (batch d x) (batch d y) ∧
    (F x y).shape = bcast (batch d x) (batch d y) ∧
    ∀ b, numAt d (FK x y) b = f (elemAt d n x b) (elemAt d n y b) ∧
      (F x y).get b = f (elemAt d n x b) (elemAt d n y b)

/-- A number for each triple of vectors, with `keepdim=True`. -/
def NumK3 (d : Fin (m + 1)) (n : ℕ)
    (FK : Tensor (m + 1) → Tensor (m + 1) → Tensor (m + 1) → Tensor (m + 1))
    (f : Vec n → Vec n → Vec n → ℝ) : Prop :=
  ∀ x y z, x.shape d = n → y.shape d = n → z.shape d = n →
    BatchOk d x y → BatchOk d x z → BatchOk d y z →
    (FK x y z).shape d = 1 ∧
    batch d (FK x y z) = bcast (bcast (batch d x) (batch d y)) (batch d z) ∧
    ∀ b, numAt d (FK x y z) b = f (elemAt d n x b) (elemAt d n y b) (elemAt d n z b)

/-- A number for each triple of vectors, with `keepdim=False`. -/
def Num3 (d : Fin (m + 1)) (n : ℕ)
    (F : Tensor (m + 1) → Tensor (m + 1) → Tensor (m + 1) → Tensor m)
    (f : Vec n → Vec n → Vec n → ℝ) : Prop :=
  ∀ x y z, x.shape d = n → y.shape d = n → z.shape d = n →
    BatchOk d x y → BatchOk d x z → BatchOk d y z →
    (F x y z).shape = bcast (bcast (batch d x) (batch d y)) (batch d z) ∧
    ∀ b, (F x y z).get b = f (elemAt d n x b) (elemAt d n y b) (elemAt d n z b)

end Geoopt.SpecBatch
