import Verif.Model.Euclidean
import Verif.Spec.Shapes

/-!
# Specification for the flat manifold

Results are described by their shape and by the entry read at every index `i` (counted from the
right, with broadcasting), `Ten.get`.
-/

namespace Geoopt.Eucl
open Geoopt Spec.Shapes

/-- The result is a tensor of shape `s` whose entries are `f`. -/
def Returns (r : Except PyErr Ten) (s : List ℕ) (f : (ℕ → ℕ) → ℝ) : Prop :=
  ∃ t, r = .ok t ∧ t.shape = s ∧ ∀ i, t.get i = f i

/-- The batch shape: without the last `nd` axes, or with size one there (`keepdim`). -/
def batchShape (nd : ℕ) (keepdim : Bool) (s : List ℕ) : List ℕ :=
  s.take (s.length - nd) ++ if keepdim then List.replicate nd 1 else []

/-- The index with position `J` along the last `nd` axes and `i` along the others. -/
def place (nd : ℕ) (keepdim : Bool) (J : Fin nd → ℕ) (i : ℕ → ℕ) : ℕ → ℕ := fun k =>
  if h : k < nd then J ⟨k, h⟩ else i (if keepdim then k else k - nd)

/-- Sum of `f` over the last `nd` axes of a tensor of shape `s`, at batch position `i`. -/
def blockSum (nd : ℕ) (keepdim : Bool) (s : List ℕ) (f : (ℕ → ℕ) → ℝ) (i : ℕ → ℕ) : ℝ :=
  ∑ J ∈ Fintype.piFinset (fun k : Fin nd => Finset.range (dimR s k)), f (place nd keepdim J i)

/-- Frobenius length over the last `nd` axes. -/
noncomputable def blockNorm (nd : ℕ) (keepdim : Bool) (s : List ℕ) (f : (ℕ → ℕ) → ℝ)
    (i : ℕ → ℕ) : ℝ := Real.sqrt (blockSum nd keepdim s (fun k => f k ^ 2) i)

end Geoopt.Eucl
