import Verif.Spec.Batch

/-!
# What a call with a tensor of curvatures should compute

Independent of the model of any function.  `K` holds one curvature for each batch position (its
manifold axis has size one, a batch axis of size one stands for every position).  A call with `K`
should compute, at every batch position, the function with the curvature that `K` has there.
`F` is the function on whole tensors, `f` the function with one curvature on single vectors.
-/

namespace Geoopt.SpecBatchK
open Geoopt Geoopt.Axis Geoopt.SpecBatch
variable {m : ℕ}

/-- `b` is a batch position of `K`, up to broadcasting. -/
def PosOf (d : Fin (m + 1)) (K : Tensor (m + 1)) (b : Fin m → ℕ) : Prop :=
  ∀ k : Fin m, K.shape (d.succAbove k) = 1 ∨ b k < K.shape (d.succAbove k)

/-- A vector from one vector. -/
def CVec1 (d : Fin (m + 1)) (n : ℕ) (F : Tensor (m + 1) → Tensor (m + 1) → Tensor (m + 1))
    (f : ℝ → Vec n → Vec n) : Prop :=
  ∀ K x, K.shape d = 1 → x.shape d = n → (F K x).shape d = n ∧
    ∀ b, PosOf d K b → elemAt d n (F K x) b = f (numAt d K b) (elemAt d n x b)

/-- A vector from two vectors. -/
def CVec2 (d : Fin (m + 1)) (n : ℕ)
    (F : Tensor (m + 1) → Tensor (m + 1) → Tensor (m + 1) → Tensor (m + 1))
    (f : ℝ → Vec n → Vec n → Vec n) : Prop :=
  ∀ K x y, K.shape d = 1 → x.shape d = n → y.shape d = n → (F K x y).shape d = n ∧
    ∀ b, PosOf d K b →
      elemAt d n (F K x y) b = f (numAt d K b) (elemAt d n x b) (elemAt d n y b)

/-- A vector from three vectors. -/
def CVec3 (d : Fin (m + 1)) (n : ℕ)
    (F : Tensor (m + 1) → Tensor (m + 1) → Tensor (m + 1) → Tensor (m + 1) → Tensor (m + 1))
    (f : ℝ → Vec n → Vec n → Vec n → Vec n) : Prop :=
  ∀ K x y z, K.shape d = 1 → x.shape d = n → y.shape d = n → z.shape d = n →
    (F K x y z).shape d = n ∧
    ∀ b, PosOf d K b → elemAt d n (F K x y z) b =
      f (numAt d K b) (elemAt d n x b) (elemAt d n y b) (elemAt d n z b)

/-- A vector from a number and a vector. -/
def CNumVec (d : Fin (m + 1)) (n : ℕ)
    (F : Tensor (m + 1) → Tensor (m + 1) → Tensor (m + 1) → Tensor (m + 1))
    (f : ℝ → ℝ → Vec n → Vec n) : Prop :=
  ∀ K t x, K.shape d = 1 → t.shape d = 1 → x.shape d = n → (F K t x).shape d = n ∧
    ∀ b, PosOf d K b →
      elemAt d n (F K t x) b = f (numAt d K b) (numAt d t b) (elemAt d n x b)

/-- A vector from a number and two vectors. -/
def CNumVec2 (d : Fin (m + 1)) (n : ℕ)
    (F : Tensor (m + 1) → Tensor (m + 1) → Tensor (m + 1) → Tensor (m + 1) → Tensor (m + 1))
    (f : ℝ → ℝ → Vec n → Vec n → Vec n) : Prop :=
  ∀ K t x y, K.shape d = 1 → t.shape d = 1 → x.shape d = n → y.shape d = n →
    (F K t x y).shape d = n ∧
    ∀ b, PosOf d K b → elemAt d n (F K t x y) b =
      f (numAt d K b) (numAt d t b) (elemAt d n x b) (elemAt d n y b)

/-- A number from one vector, `keepdim=True`. -/
def CNum1 (d : Fin (m + 1)) (n : ℕ) (F : Tensor (m + 1) → Tensor (m + 1) → Tensor (m + 1))
    (f : ℝ → Vec n → ℝ) : Prop :=
  ∀ K x, K.shape d = 1 → x.shape d = n → (F K x).shape d = 1 ∧
    ∀ b, PosOf d K b → numAt d (F K x) b = f (numAt d K b) (elemAt d n x b)

/-- A number from two vectors, `keepdim=True`. -/
def CNum2 (d : Fin (m + 1)) (n : ℕ)
    (F : Tensor (m + 1) → Tensor (m + 1) → Tensor (m + 1) → Tensor (m + 1))
    (f : ℝ → Vec n → Vec n → ℝ) : Prop :=
  ∀ K x y, K.shape d = 1 → x.shape d = n → y.shape d = n → (F K x y).shape d = 1 ∧
    ∀ b, PosOf d K b →
      numAt d (F K x y) b = f (numAt d K b) (elemAt d n x b) (elemAt d n y b)

/-- A number from three vectors, `keepdim=True`. -/
def CNum3 (d : Fin (m + 1)) (n : ℕ)
    (F : Tensor (m + 1) → Tensor (m + 1) → Tensor (m + 1) → Tensor (m + 1) → Tensor (m + 1))
    (f : ℝ → Vec n → Vec n → Vec n → ℝ) : Prop :=
  ∀ K x y z, K.shape d = 1 → x.shape d = n → y.shape d = n → z.shape d = n →
    (F K x y z).shape d = 1 ∧
    ∀ b, PosOf d K b → numAt d (F K x y z) b =
      f (numAt d K b) (elemAt d n x b) (elemAt d n y b) (elemAt d n z b)

/-- A vector with `q` entries from a vector with `n` entries. -/
def CVecTo (d : Fin (m + 1)) (n q : ℕ) (F : Tensor (m + 1) → Tensor (m + 1) → Tensor (m + 1))
    (f : ℝ → Vec n → Vec q) : Prop :=
  ∀ K x, K.shape d = 1 → x.shape d = n → (F K x).shape d = q ∧
    ∀ b, PosOf d K b → elemAt d q (F K x) b = f (numAt d K b) (elemAt d n x b)

end Geoopt.SpecBatchK
