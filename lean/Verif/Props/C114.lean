import Verif.Props.C20
import Verif.Props.C24
import Verif.Props.C33
import Verif.Spec.Nearest

/-!
C114: the transports that project (sphere, Stiefel manifold with the Euclidean metric) give the tangent vector
closest to the one transported; they do not lengthen vectors, and how much they shorten them is known.
-/

namespace Geoopt

open Matrix SpecNearest

namespace Sphere

variable {n : ℕ} {S : Set (Vec n)} {P : Option (Matrix (Fin n) (Fin n) ℝ)} (hP : Projects S P)
include hP

omit hP in
lemma C114.sq_eq (u v : Vec n) : sqVec u v = (u - v) ⬝ᵥ (u - v) := by
  simp only [sqVec, dotProduct, Pi.sub_apply, sq]

/-- **C114**, sphere: `transp(x, y, v)` is the only vector tangent at `y` that is closest to `v`. -/
theorem C114_sphere_closest (x : Vec n) {y : Vec n} (hy : OnSphere S y) (v : Vec n) :
    OnlyClosest sqVec (Tangent S y) v (transp P x y v) := by
  refine ⟨C21_proju_tangent hP hy v, fun w hw hne => ?_⟩
  have hT := C21_proju_tangent hP hy v
  have h0 := C21_proju_normal hP (u := v) hw
  have h1 := C21_proju_normal hP (u := v) hT
  rw [C114.sq_eq, C114.sq_eq]
  change (v - proju P y v) ⬝ᵥ (v - proju P y v) < _
  have hne' : proju P y v - w ≠ 0 := fun h => hne (sub_eq_zero.1 h).symm
  have hpos : 0 < (proju P y v - w) ⬝ᵥ (proju P y v - w) := by
    refine lt_of_le_of_ne (Finset.sum_nonneg fun i _ => mul_self_nonneg _) fun h => hne' ?_
    exact dotProduct_self_eq_zero.1 h.symm
  have e : v - w = (v - proju P y v) + (proju P y v - w) := by abel
  have h2 : (v - proju P y v) ⬝ᵥ (proju P y v - w) = 0 := by rw [dotProduct_sub, h0, h1, sub_zero]
  rw [e, add_dotProduct, dotProduct_add, dotProduct_add, h2, dotProduct_comm (proju P y v - w) (v - _), h2]
  linarith

omit hP in
/-- It is linear. -/
theorem C114_sphere_linear (a b : ℝ) (x y u v : Vec n) :
    transp P x y (a • u + b • v) = a • transp P x y u + b • transp P x y v := C21_proju_linear a b y u v

/-- A vector that is tangent at the target is not changed; so transport to the same point does nothing. -/
theorem C114_sphere_keeps {x y v : Vec n} (hv : Tangent S y v) : transp P x y v = v := C21_proju_fixes hP hv

/-- The squared length after transport: the part along `y` is lost. -/
theorem C114_sphere_sq {x y v : Vec n} (hx : OnSphere S x) (hy : OnSphere S y) (hv : Tangent S x v) :
    transp P x y v ⬝ᵥ transp P x y v = v ⬝ᵥ v - (y ⬝ᵥ v) ^ 2 := by
  have e : transp P x y v = v - (y ⬝ᵥ v) • y := by
    rw [transp, proju]
    refine pos_fix hP ?_
    have := (pos_linear (P := P) 1 (-(y ⬝ᵥ v)) v y)
    rw [pos_fix hP hv.2, pos_fix hP hy.2] at this
    have e2 : v - (y ⬝ᵥ v) • y = (1 : ℝ) • v + (-(y ⬝ᵥ v)) • y := by module
    rw [e2, ← this]
    exact pos_mem hP _
  rw [e, sub_dotProduct, dotProduct_sub, dotProduct_sub, smul_dotProduct, dotProduct_smul, smul_dotProduct,
    dotProduct_smul, hy.1, dotProduct_comm v y]
  simp only [smul_eq_mul]
  ring

/-- **C114**: transport does not lengthen a vector, and keeps at least the cosine of the angle between the
two points of its length. -/
theorem C114_sphere_length {x y v : Vec n} (hx : OnSphere S x) (hy : OnSphere S y) (hv : Tangent S x v) :
    |x ⬝ᵥ y| * nrm v ≤ nrm (transp P x y v) ∧ nrm (transp P x y v) ≤ nrm v := by
  have hs := C114_sphere_sq hP hx hy hv
  constructor
  · rw [nrm, nrm, ← Real.sqrt_sq_eq_abs, ← Real.sqrt_mul (sq_nonneg _)]
    refine Real.sqrt_le_sqrt ?_
    rw [hs]
    -- Bessel's inequality for `x` and `v`
    have hvv : 0 ≤ v ⬝ᵥ v := Finset.sum_nonneg fun i _ => mul_self_nonneg _
    have h := Finset.sum_nonneg fun i (_ : i ∈ Finset.univ) =>
      mul_self_nonneg (((v ⬝ᵥ v) • (y - (x ⬝ᵥ y) • x) - (y ⬝ᵥ v) • v) i)
    change 0 ≤ ((v ⬝ᵥ v) • (y - (x ⬝ᵥ y) • x) - (y ⬝ᵥ v) • v) ⬝ᵥ
      ((v ⬝ᵥ v) • (y - (x ⬝ᵥ y) • x) - (y ⬝ᵥ v) • v) at h
    have e : ((v ⬝ᵥ v) • (y - (x ⬝ᵥ y) • x) - (y ⬝ᵥ v) • v) ⬝ᵥ
        ((v ⬝ᵥ v) • (y - (x ⬝ᵥ y) • x) - (y ⬝ᵥ v) • v) =
        v ⬝ᵥ v * (v ⬝ᵥ v - (y ⬝ᵥ v) ^ 2 - (x ⬝ᵥ y) ^ 2 * v ⬝ᵥ v) := by
      simp only [sub_dotProduct, dotProduct_sub, smul_dotProduct, dotProduct_smul, smul_eq_mul, hx.1, hy.1,
        dotProduct_comm y x, dotProduct_comm v y, dotProduct_comm v x, hv.1]
      ring
    rw [e] at h
    rcases hvv.lt_or_eq with hp | hz
    · have := nonneg_of_mul_nonneg_right h hp
      linarith
    · have hv0 : v = 0 := dotProduct_self_eq_zero.1 hz.symm
      simp [hv0]
  · rw [nrm, nrm]
    refine Real.sqrt_le_sqrt ?_
    rw [hs]
    linarith [sq_nonneg (y ⬝ᵥ v)]

/-- **C114**: along the geodesic `cos(t)·x + sin(t)·u` the part of a vector across the geodesic is kept, and the
part along it is turned into the new direction `cos(t)·u - sin(t)·x`, multiplied by `cos(t)`; parallel
transport would not have this factor. -/
theorem C114_sphere_geodesic {x u w : Vec n} (hx : OnSphere S x) (hu : Tangent S x u) (hu1 : u ⬝ᵥ u = 1)
    (hw : Tangent S x w) (huw : u ⬝ᵥ w = 0) (a t : ℝ) :
    transp P x (Real.cos t • x + Real.sin t • u) (a • u + w) =
      (Real.cos t * a) • (Real.cos t • u - Real.sin t • x) + w := by
  have hxx := hx.1
  have hxu := hu.1
  have hxw := hw.1
  rw [transp, proju]
  have e : (a • u + w) - ((Real.cos t • x + Real.sin t • u) ⬝ᵥ (a • u + w)) •
      (Real.cos t • x + Real.sin t • u) =
      (Real.cos t * a) • (Real.cos t • u - Real.sin t • x) + w := by
    simp only [add_dotProduct, dotProduct_add, smul_dotProduct, dotProduct_smul, smul_eq_mul, hxu, hxw, hu1,
      huw]
    funext i
    simp only [Pi.sub_apply, Pi.add_apply, Pi.smul_apply, smul_eq_mul]
    have := Real.sin_sq_add_cos_sq t
    linear_combination (a * u i) * (-this)
  rw [e]
  refine pos_fix hP ?_
  have h1 := pos_linear (P := P) (Real.cos t * a * Real.cos t) (-(Real.cos t * a * Real.sin t)) u x
  have h2 := pos_linear (P := P) 1 1
    ((Real.cos t * a * Real.cos t) • u + (-(Real.cos t * a * Real.sin t)) • x) w
  rw [pos_fix hP hu.2, pos_fix hP hx.2] at h1
  rw [pos_fix hP hw.2, h1] at h2
  have e2 : (Real.cos t * a) • (Real.cos t • u - Real.sin t • x) + w =
      (1 : ℝ) • ((Real.cos t * a * Real.cos t) • u + (-(Real.cos t * a * Real.sin t)) • x) + (1 : ℝ) • w := by
    module
  rw [e2, ← h2]
  exact pos_mem hP _

omit hP in
/-- **Transport on the sphere is not an isometry**: a quarter turn along a tangent vector destroys it. -/
theorem C114_counterexample_sphere : ∃ x y v : Vec 2, OnSphere Set.univ x ∧ OnSphere Set.univ y ∧
    Tangent Set.univ x v ∧ nrm v = 1 ∧ transp none x y v = 0 := by
  refine ⟨![1, 0], ![0, 1], ![0, 1], ⟨by simp [dotProduct, Fin.sum_univ_two], trivial⟩,
    ⟨by simp [dotProduct, Fin.sum_univ_two], trivial⟩, ⟨by simp [dotProduct, Fin.sum_univ_two], trivial⟩,
    by simp [nrm, dotProduct, Fin.sum_univ_two], ?_⟩
  ext i
  fin_cases i <;> simp [transp, proju, projectOnSubspace, dotProduct, Fin.sum_univ_two]

omit hP in
/-- `C114_sphere_length` at two points with an angle of 60 degrees -/
example : |(![1, 0] : Vec 2) ⬝ᵥ ![1 / 2, Real.sqrt 3 / 2]| * nrm (![0, 1] : Vec 2) ≤
    nrm (transp none (![1, 0] : Vec 2) ![1 / 2, Real.sqrt 3 / 2] ![0, 1]) := by
  have h3 := Real.mul_self_sqrt (show (0 : ℝ) ≤ 3 by norm_num)
  refine (C114_sphere_length (S := Set.univ) (P := none) rfl
    ⟨by simp [dotProduct, Fin.sum_univ_two], trivial⟩ ⟨?_, trivial⟩
    ⟨by simp [dotProduct, Fin.sum_univ_two], trivial⟩).1
  simp only [dotProduct, Fin.sum_univ_two, cons_val_zero, cons_val_one]
  linarith

end Sphere

namespace Stiefel

variable {n m : ℕ}

lemma C114.sq_eq (u v : Matrix (Fin n) (Fin m) ℝ) : sqMat u v = euclideanMetric (u - v) (u - v) := by
  rw [← C26_inner_formula 0, Euclidean.inner, Linalg.frob]
  simp only [sqMat, Matrix.sub_apply, sq]

lemma C114.expand {y : Matrix (Fin n) (Fin m) ℝ} (hy : OnStiefel y) {w : Matrix (Fin n) (Fin m) ℝ}
    (hw : Tangent y w) (v : Matrix (Fin n) (Fin m) ℝ) :
    euclideanMetric (v - w) (v - w) =
      euclideanMetric (v - Euclidean.proju y v) (v - Euclidean.proju y v) +
        euclideanMetric (Euclidean.proju y v - w) (Euclidean.proju y v - w) := by
  have hT := C26_proju_tangent hy v
  have h0 := C26_proju_orthogonal v hw
  have h1 := C26_proju_orthogonal v hT
  have hsym : ∀ a b : Matrix (Fin n) (Fin m) ℝ, euclideanMetric a b = euclideanMetric b a := fun a b => by
    unfold euclideanMetric
    rw [← Matrix.trace_transpose, Matrix.transpose_mul, Matrix.transpose_transpose]
  have h2 : euclideanMetric (v - Euclidean.proju y v) (Euclidean.proju y v - w) = 0 := by
    unfold euclideanMetric at *
    rw [Matrix.mul_sub, Matrix.trace_sub, h0, h1, sub_zero]
  have h3 := hsym (Euclidean.proju y v - w) (v - Euclidean.proju y v)
  rw [h2] at h3
  have e : v - w = (v - Euclidean.proju y v) + (Euclidean.proju y v - w) := by abel
  rw [e]
  unfold euclideanMetric at *
  rw [Matrix.transpose_add, Matrix.add_mul, Matrix.mul_add, Matrix.mul_add, Matrix.trace_add,
    Matrix.trace_add, Matrix.trace_add, h2, h3]
  ring

/-- **C114**, Stiefel manifold with the Euclidean metric: `transp(x, y, v)` is the only vector tangent at `y` that
is closest to `v`. -/
theorem C114_stiefel_closest (x : Matrix (Fin n) (Fin m) ℝ) {y : Matrix (Fin n) (Fin m) ℝ} (hy : OnStiefel y)
    (v : Matrix (Fin n) (Fin m) ℝ) : OnlyClosest sqMat (Tangent y) v (Euclidean.transp x y v) := by
  refine ⟨C26_proju_tangent hy v, fun w hw hne => ?_⟩
  rw [C114.sq_eq v w, C114.expand hy hw v, C114.sq_eq]
  change euclideanMetric (v - Euclidean.proju y v) (v - Euclidean.proju y v) < _
  have hne' : ∃ i j, Euclidean.proju y v i j - w i j ≠ 0 := by
    by_contra hcon
    push Not at hcon
    exact hne (by ext i j; exact (sub_eq_zero.1 (hcon i j)).symm)
  obtain ⟨i, j, hij⟩ := hne'
  have hpos : 0 < euclideanMetric (Euclidean.proju y v - w) (Euclidean.proju y v - w) := by
    rw [← C114.sq_eq, sqMat]
    refine Finset.sum_pos' (fun i _ => Finset.sum_nonneg fun j _ => sq_nonneg _) ⟨i, Finset.mem_univ _, ?_⟩
    exact Finset.sum_pos' (fun j _ => sq_nonneg _) ⟨j, Finset.mem_univ _, by positivity⟩
  linarith

/-- It is linear. -/
theorem C114_stiefel_linear (a b : ℝ) (x y u v : Matrix (Fin n) (Fin m) ℝ) :
    Euclidean.transp x y (a • u + b • v) = a • Euclidean.transp x y u + b • Euclidean.transp x y v := by
  simp only [Euclidean.transp, Euclidean.proju, Linalg.sym, Matrix.mul_add, Matrix.mul_smul, Matrix.transpose_add,
    Matrix.transpose_smul, smul_add]
  module

/-- A vector that is tangent at the target is not changed; so transport to the same point does nothing. -/
theorem C114_stiefel_keeps {x y v : Matrix (Fin n) (Fin m) ℝ} (hv : Tangent y v) :
    Euclidean.transp x y v = v := C26_proju_fixes hv

/-- Transport does not lengthen a vector. -/
theorem C114_stiefel_length (x : Matrix (Fin n) (Fin m) ℝ) {y : Matrix (Fin n) (Fin m) ℝ} (hy : OnStiefel y)
    (v : Matrix (Fin n) (Fin m) ℝ) :
    euclideanMetric (Euclidean.transp x y v) (Euclidean.transp x y v) ≤ euclideanMetric v v := by
  have h0 : Tangent y (0 : Matrix (Fin n) (Fin m) ℝ) := by simp [Tangent]
  have h := C114.expand hy h0 v
  simp only [sub_zero] at h
  have h1 : 0 ≤ euclideanMetric (v - Euclidean.proju y v) (v - Euclidean.proju y v) := by
    rw [← C114.sq_eq]
    exact Finset.sum_nonneg fun i _ => Finset.sum_nonneg fun j _ => sq_nonneg _
  change euclideanMetric (Euclidean.proju y v) (Euclidean.proju y v) ≤ _
  linarith

/-- the hypothesis is met -/
example : OnStiefel (1 : Matrix (Fin 3) (Fin 3) ℝ) := by simp [OnStiefel]

end Stiefel

namespace Birkhoff

/-- **On the Birkhoff polytope transport to the same point changes a tangent vector**, because `proju` there is
not a projection (`C27_counterexample_birkhoff`). -/
theorem C114_counterexample_birkhoff : Tangent (!![1, -1; -1, 1] : Mat 2) ∧
    transp half half !![1, -1; -1, 1] = (1 / 2 : ℝ) • !![1, -1; -1, 1] :=
  ⟨C27_counterexample_birkhoff.1, C27_counterexample_birkhoff.2.1⟩

end Birkhoff
end Geoopt
