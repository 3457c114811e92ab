import Verif.Spec.Fused
import Verif.Props.C24

/-!
# C79: the fused operations agree with their parts

For every class of `geoopt/manifolds` with a modelled `retr`.
-/

namespace Geoopt.Fused
open Geoopt
variable {X : Type*}

theorem base_agree (r e : X → X → X) (t : X → X → X → X) : Agree (base r e t) :=
  ⟨fun _ _ _ => rfl, fun _ _ _ => rfl, fun t' h x u v => by
    cases Option.some.inj h; exact ⟨rfl, rfl⟩⟩

theorem exact_agree (e : X → X → X) (t : X → X → X → X) : Agree (exact e t) :=
  ⟨fun _ _ _ => rfl, fun _ _ _ => rfl, fun t' h x u v => by
    cases Option.some.inj h; exact ⟨rfl, rfl⟩⟩

/-- **C79** for the manifolds of vectors. -/
theorem C79_vectors {n : ℕ} (P : Option (Matrix (Fin n) (Fin n) ℝ)) (η k : ℝ) (dt : DType) :
    Agree (euclidean n) ∧ Agree (sphere P dt) ∧ Agree (sphereExact P dt) ∧
    Agree (stereographic (n := n) η dt k) ∧ Agree (stereographicExact (n := n) η dt k) ∧
    Agree (lorentz (n := n) k) := by
  refine ⟨base_agree _ _ _, base_agree _ _ _, exact_agree _ _, ?_, ?_, ?_⟩
  all_goals
    exact ⟨fun _ _ _ => rfl, fun _ _ _ => rfl, fun t' h x u v => by
      cases Option.some.inj h; exact ⟨rfl, rfl⟩⟩

/-- **C79** for the manifolds of matrices.  The canonical Stiefel manifold solves one linear
system for the point and the vector together. -/
theorem C79_matrices {n m : ℕ} {ι : Type}
    (qr : Matrix (Fin n) (Fin m) ℝ → Matrix (Fin n) (Fin m) ℝ × Matrix (Fin m) (Fin m) ℝ)
    (E : Linalg.Eigh n) (cfg : Birkhoff.Config) :
    Agree (canonicalStiefel n m) ∧ Agree (euclideanStiefel qr) ∧
    Agree (euclideanStiefelExact n m) ∧ Agree (spd E) ∧
    Agree (birkhoff (n := n) (ι := ι) cfg) := by
  refine ⟨⟨fun x u v => Stiefel.C24_retr_transp x u v, fun x u v => Stiefel.C24_retr_transp x u v,
    fun t h => by cases h⟩, base_agree _ _ _, exact_agree _ _, base_agree _ _ _, ?_⟩
  exact ⟨fun _ _ _ => rfl, fun _ _ _ => rfl, fun t' h x u v => by
      cases Option.some.inj h; exact ⟨rfl, rfl⟩⟩

/-- The exact variants retract with the exponential map, and only they. -/
theorem C79_exact_retr {n : ℕ} (P : Option (Matrix (Fin n) (Fin n) ℝ)) (η k : ℝ) (dt : DType) :
    (sphereExact P dt).retr = (sphere P dt).expmap ∧
    (stereographicExact (n := n) η dt k).retr = (stereographic η dt k).expmap ∧
    (lorentz (n := n) k).retr = (lorentz k).expmap ∧
    ∀ (m : ℕ) (qr : Matrix (Fin n) (Fin m) ℝ →
        Matrix (Fin n) (Fin m) ℝ × Matrix (Fin m) (Fin m) ℝ),
      (euclideanStiefelExact n m).retr = (euclideanStiefel qr).expmap :=
  ⟨rfl, rfl, rfl, fun _ _ => rfl⟩

/-! ## The hypotheses are met -/

/-- `transp` is there for the sphere. -/
example (dt : DType) : ∃ t, (sphere (n := 3) none dt).transp = some t := ⟨_, rfl⟩

end Geoopt.Fused
