import Verif.Model.Optim
import Mathlib.Data.Matrix.Mul

/-! Vocabulary for changes of orthonormal coordinates. -/

namespace Geoopt.Rotation
open Matrix Geoopt.Optim

/-- A change of orthonormal coordinates: the columns of `Q` are orthonormal. -/
def Orthogonal {ι : Type} [Fintype ι] [DecidableEq ι] (Q : Matrix ι ι ℝ) : Prop := Qᵀ * Q = 1

/-- The change of coordinates `Q` of the spatial entries of a vector of the Lorentz model: the first
entry stays. -/
def spatial {n : ℕ} (Q : Matrix (Fin n) (Fin n) ℝ) : Matrix (Fin (n + 1)) (Fin (n + 1)) ℝ :=
  fun i j => Fin.cases (Fin.cases 1 (fun _ => 0) j) (fun i => Fin.cases 0 (fun j => Q i j) j) i

/-- `x ↦ Q x` for matrices `x` written as families indexed by pairs. -/
def left {n m : ℕ} (Q : Matrix (Fin n) (Fin n) ℝ) : Matrix (Fin n × Fin m) (Fin n × Fin m) ℝ :=
  fun p q => if p.2 = q.2 then Q p.1 q.1 else 0

/-- `x ↦ Q x Qᵀ` for matrices `x` written as families indexed by pairs. -/
def conj {n : ℕ} (Q : Matrix (Fin n) (Fin n) ℝ) : Matrix (Fin n × Fin n) (Fin n × Fin n) ℝ :=
  fun p q => Q p.1 q.1 * Q p.2 q.2

/-- A change of coordinates of its own for each element of a batch. -/
def rows {β ι : Type} [DecidableEq β] (A : β → Matrix ι ι ℝ) : Matrix (β × ι) (β × ι) ℝ :=
  fun p q => if p.1 = q.1 then A p.1 p.2 q.2 else 0

section
variable {ι : Type} [Fintype ι] (A : Matrix ι ι ℝ)

/-- What the optimisers use of a manifold commutes with the change of coordinates `A`, at the points
of `On`, which they do not leave; `M'` is the manifold in the new coordinates. -/
structure Equivariant (M M' : Manifold ι) (On : (ι → ℝ) → Prop) : Prop where
  egrad : ∀ x g, On x → M'.egrad2rgrad (A *ᵥ x) (A *ᵥ g) =
    ⟨A *ᵥ (M.egrad2rgrad x g).value, A *ᵥ (M.egrad2rgrad x g).arg, (M.egrad2rgrad x g).isView⟩
  retr : ∀ x u, On x → M'.retr (A *ᵥ x) (A *ᵥ u) = A *ᵥ M.retr x u ∧ On (M.retr x u)
  retrTransp : ∀ x u v, On x → M'.retrTransp (A *ᵥ x) (A *ᵥ u) (A *ᵥ v) =
    (A *ᵥ (M.retrTransp x u v).1, A *ᵥ (M.retrTransp x u v).2) ∧ On (M.retrTransp x u v).1
  projx : ∀ x, On x → M'.projx (A *ᵥ x) = A *ᵥ M.projx x ∧ On (M.projx x)
  proju : ∀ x u, On x → M'.proju (A *ᵥ x) (A *ᵥ u) = A *ᵥ M.proju x u

/-- `s` has one value on the entries that `A` mixes. -/
def ConstOnMixed (s : ι → ℝ) : Prop := ∀ i j, A i j ≠ 0 → s i = s j

/-- The component-wise inner product does not depend on the coordinates, and has one value on the
entries that `A` mixes. -/
structure InnerInvariant (M M' : Manifold ι) (On : (ι → ℝ) → Prop) : Prop where
  inner : ∀ x u, On x → M'.componentInner (A *ᵥ x) (A *ᵥ u) = M.componentInner x u
  mixed : ∀ x u, On x → ConstOnMixed A (M.componentInner x u)

/-- A gradient in the new coordinates. -/
def rotGrad : Grad ι → Grad ι
  | .none => .none
  | .dense g => .dense (A *ᵥ g)
  | .sparse => .sparse

/-- A parameter of `RiemannianSGD` in the new coordinates. -/
def rotSGD (s : SGDParam ι) : SGDParam ι := ⟨A *ᵥ s.point, rotGrad A s.grad, s.buf.map (A *ᵥ ·)⟩

/-- A parameter of `RiemannianAdam` in the new coordinates: the second moments are the same. -/
def rotAdam (s : AdamParam ι) : AdamParam ι :=
  ⟨A *ᵥ s.point, rotGrad A s.grad,
    s.state.map fun st => ⟨st.step, A *ᵥ st.expAvg, st.expAvgSq, st.maxExpAvgSq⟩⟩

/-- The second moments kept for a parameter have one value on the entries that `A` mixes. -/
def MomentsConst (s : AdamParam ι) : Prop :=
  ∀ st ∈ s.state, ConstOnMixed A st.expAvgSq ∧ ∀ v ∈ st.maxExpAvgSq, ConstOnMixed A v

end

end Geoopt.Rotation
