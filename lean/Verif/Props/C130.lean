import Verif.Lemmas.Gauss
import Verif.Props.C93
import Verif.Model.Siegel
import Mathlib.LinearAlgebra.Matrix.Permutation

/-!
# C130: random points have no preferred direction

The entries that `torch.randn` draws are independent standard normal numbers.  The point on the
sphere made of them is uniformly distributed: it falls into a set with the probability that is the
part of the unit ball seen in that direction.  The other random points have the same distribution
after a rotation or reflection about the origin.
-/

namespace Geoopt.C130
open MeasureTheory Geoopt Geoopt.Random Geoopt.Gauss Geoopt.Rotation Matrix Linalg
variable {n m d : ℕ}

/-- Equivariant samples of a rotated draw. -/
theorem invariant_of {ι : Type} [Fintype ι] [DecidableEq ι] {X : Type} {sample : (ι → ℝ) → X}
    {move : X → X} (M : Matrix ι ι ℝ) (hM : Mᵀ * M = 1)
    (h : ∀ z, sample (M *ᵥ z) = move (sample z)) : Invariant sample move := by
  intro A
  rw [← orth_randn M hM {z | sample z ∈ A}]
  simp only [Set.mem_setOf_eq, h]

/-! ### Sphere -/

theorem unit_cone (r : ℝ) (hr : 0 < r) (z : Vec n) : (nrm (r • z))⁻¹ • (r • z) = (nrm z)⁻¹ • z := by
  have h : nrm (r • z) = r * nrm z := by
    unfold nrm
    rw [smul_dotProduct, dotProduct_smul, smul_eq_mul, smul_eq_mul, ← mul_assoc,
      Real.sqrt_mul (mul_self_nonneg r), Real.sqrt_mul_self hr.le]
  rw [h, mul_inv, smul_smul, mul_assoc, mul_comm, mul_assoc, mul_inv_cancel₀ hr.ne', mul_one]

theorem measurable_unit : Measurable fun z : Vec n => (nrm z)⁻¹ • z := by
  have : Measurable fun z : Vec n => nrm z := measurable_dot.sqrt
  exact this.inv.smul measurable_id

/-- **C130.** `Sphere.random_uniform`: the point is in `A` with the probability that is the part of the
unit ball in the directions of `A`. -/
theorem C130_sphere (hn : 0 < n) {A : Set (Vec n)} (hA : MeasurableSet A) :
    randn (Fin n) {z | Sphere.randomUniform none z ∈ A} =
      volume {z : Vec n | z ⬝ᵥ z < 1 ∧ (nrm z)⁻¹ • z ∈ A} / volume {z : Vec n | z ⬝ᵥ z < 1} := by
  have : Nonempty (Fin n) := ⟨⟨0, hn⟩⟩
  exact randn_cone (C := {z | (nrm z)⁻¹ • z ∈ A}) (measurable_unit hA) fun r hr z => by
    simp only [Set.mem_setOf_eq, unit_cone r hr]

/-- **C130.** ... with the projector of a subspace, of which the columns of `B` are an orthonormal
basis, the point is uniformly distributed in the unit sphere of the subspace. -/
theorem C130_sphere_subspace (hd : 0 < d) (B : Matrix (Fin n) (Fin d) ℝ) (hB : Bᵀ * B = 1)
    {A : Set (Vec n)} (hA : MeasurableSet A) :
    randn (Fin n) {z | Sphere.randomUniform (some (B * Bᵀ)) z ∈ A} =
      volume {z : Vec d | z ⬝ᵥ z < 1 ∧ B *ᵥ ((nrm z)⁻¹ • z) ∈ A} /
        volume {z : Vec d | z ⬝ᵥ z < 1} := by
  have hm : ∀ {a b : ℕ} (N : Matrix (Fin a) (Fin b) ℝ), Measurable fun z : Vec b => N *ᵥ z := by
    intro a b N
    refine measurable_pi_iff.2 fun i => ?_
    simp only [Matrix.mulVec, dotProduct]
    fun_prop
  have hA' : MeasurableSet {z : Vec d | B *ᵥ z ∈ A} := hm B hA
  have h := C130_sphere hd hA'
  simp only [Set.mem_setOf_eq] at h
  have hS : MeasurableSet {z : Vec d | B *ᵥ Sphere.randomUniform none z ∈ A} := measurable_unit hA'
  rw [← h, ← map_randn (ι := Fin n) Bᵀ (by rw [Matrix.transpose_transpose, hB]),
    Measure.map_apply (hm Bᵀ) hS]
  congr 1
  ext z
  have hnrm : nrm ((B * Bᵀ) *ᵥ z) = nrm (Bᵀ *ᵥ z) := by
    unfold nrm
    rw [← Matrix.mulVec_mulVec, Matrix.dotProduct_mulVec, Matrix.vecMul_mulVec, hB, Matrix.vecMul_one]
  simp only [Set.mem_setOf_eq, Set.mem_preimage, Sphere.randomUniform, Sphere.projx,
    Sphere.projectOnSubspace, Matrix.vecMul_transpose, hnrm]
  rw [← Matrix.mulVec_mulVec, Matrix.mulVec_smul]

/-- **C130.** ... in particular for the intersection with the span of the columns of a matrix whose `QR`
decomposition has the factor `Q`. -/
theorem C130_sphere_intersection {Q : Matrix (Fin n) (Fin m) ℝ} {R : Matrix (Fin m) (Fin m) ℝ}
    {S : Matrix (Fin n) (Fin m) ℝ} (hm : 0 < m) (hQ : Sphere.IsQR S Q R) {A : Set (Vec n)}
    (hA : MeasurableSet A) :
    randn (Fin n) {z | Sphere.randomUniform (some (Sphere.intersectionProjector Q)) z ∈ A} =
      volume {z : Vec m | z ⬝ᵥ z < 1 ∧ Q *ᵥ ((nrm z)⁻¹ • z) ∈ A} /
        volume {z : Vec m | z ⬝ᵥ z < 1} :=
  C130_sphere_subspace hm Q hQ.1 hA

/-- An orthonormal basis of the complement. -/
theorem complement_basis {Q : Matrix (Fin n) (Fin m) ℝ} (hQ : Qᵀ * Q = 1) (hmn : m ≤ n) :
    ∃ B : Matrix (Fin n) (Fin (n - m)) ℝ, Bᵀ * B = 1 ∧ Qᵀ * B = 0 ∧
      Sphere.complementProjector Q = B * Bᵀ := by
  let v : Fin m ⊕ Fin (n - m) → EuclideanSpace ℝ (Fin n) :=
    Sum.elim (fun j => WithLp.toLp 2 fun i => Q i j) fun _ => 0
  have hv : Orthonormal ℝ ((Set.range Sum.inl).domRestrict v) := by
    rw [orthonormal_iff_ite]
    rintro ⟨_, j, rfl⟩ ⟨_, k, rfl⟩
    have := congrFun (congrFun hQ k) j
    rw [Matrix.mul_apply] at this
    simp only [Matrix.transpose_apply, Matrix.one_apply] at this
    simp only [Set.domRestrict_apply, v, Sum.elim_inl, PiLp.inner_apply, RCLike.inner_apply,
      conj_trivial]
    rw [this]
    by_cases h : k = j
    · subst h; simp
    · rw [if_neg h, if_neg]
      intro h'
      exact h (Sum.inl.inj (congrArg Subtype.val h')).symm
  obtain ⟨b, hb⟩ := hv.exists_orthonormalBasis_extension_of_card_eq
    (by simp [Nat.add_sub_cancel' hmn])
  have hbQ : ∀ j i, b (Sum.inl j) i = Q i j := fun j i => by
    rw [hb _ ⟨j, rfl⟩]; rfl
  have ho := orthonormal_iff_ite.1 b.orthonormal
  simp only [PiLp.inner_apply, RCLike.inner_apply, conj_trivial] at ho
  refine ⟨Matrix.of fun i j => b (Sum.inr j) i, ?_, ?_, ?_⟩
  · ext j k
    rw [Matrix.mul_apply, Matrix.one_apply]
    have h := ho (Sum.inr k) (Sum.inr j)
    refine h.trans ?_
    by_cases h : j = k
    · subst h; simp
    · rw [if_neg h, if_neg fun h' => h (Sum.inr.inj h').symm]
  · ext j k
    rw [Matrix.mul_apply, Matrix.zero_apply]
    have := ho (Sum.inr k) (Sum.inl j)
    simp only [reduceCtorEq, if_false] at this
    rw [← this]
    exact Finset.sum_congr rfl fun i _ => by rw [hbQ]; rfl
  · ext i k
    have h := b.sum_inner_mul_inner (EuclideanSpace.single i 1) (EuclideanSpace.single k 1)
    rw [Fintype.sum_sum_type] at h
    simp only [EuclideanSpace.inner_single_left, EuclideanSpace.inner_single_right, conj_trivial,
      one_mul, hbQ] at h
    simp only [Sphere.complementProjector, Matrix.neg_apply, Matrix.mul_apply, Matrix.transpose_apply,
      Matrix.of_apply]
    rw [PiLp.single_apply] at h
    by_cases hik : i = k
    · subst hik; rw [if_pos rfl] at h ⊢; linarith
    · rw [if_neg fun h' => hik h'.symm] at h
      rw [if_neg hik]; linarith

/-- **C130.** ... and for the complement: there is an orthonormal basis of the vectors orthogonal to
the columns of the matrix, in which the point is uniformly distributed. -/
theorem C130_sphere_complement {Q : Matrix (Fin n) (Fin m) ℝ} {R : Matrix (Fin m) (Fin m) ℝ}
    {S : Matrix (Fin n) (Fin m) ℝ} (hmn : m < n) (hQ : Sphere.IsQR S Q R) :
    ∃ B : Matrix (Fin n) (Fin (n - m)) ℝ, Bᵀ * B = 1 ∧ Sᵀ * B = 0 ∧
      ∀ A : Set (Vec n), MeasurableSet A →
      randn (Fin n) {z | Sphere.randomUniform (some (Sphere.complementProjector Q)) z ∈ A} =
        volume {z : Vec (n - m) | z ⬝ᵥ z < 1 ∧ B *ᵥ ((nrm z)⁻¹ • z) ∈ A} /
          volume {z : Vec (n - m) | z ⬝ᵥ z < 1} := by
  obtain ⟨B, h1, h2, h3⟩ := complement_basis hQ.1 hmn.le
  refine ⟨B, h1, ?_, fun A hA => ?_⟩
  · rw [hQ.2, Matrix.transpose_mul, Matrix.mul_assoc, h2, Matrix.mul_zero]
  · rw [h3]; exact C130_sphere_subspace (Nat.sub_pos_of_lt hmn) B h1 hA

/-! ### Stereographic model and Lorentz model -/

/-- **C130.** `random_normal` of the stereographic model (mean 0, the default): rotations and reflections
about the origin. -/
theorem C130_stereographic {Q : Matrix (Fin n) (Fin n) ℝ} (hQ : Orthogonal Q) (η : ℝ) (dt : DType)
    (k std : ℝ) :
    Invariant (fun z => Stereo.M.randomNormal η dt k 0 std z) (fun x => Q *ᵥ x) := by
  refine invariant_of Q hQ fun z => ?_
  unfold Stereo.M.randomNormal
  rw [← (C93.C93_stereographic_maps hQ true η dt k 0 0 0 _ 0).2.2.1]
  congr 1
  have h : ∀ w : Vec n, (fun i => w i * std / (n : ℝ) ^ (0.5 : ℝ) + 0) =
      (std / (n : ℝ) ^ (0.5 : ℝ)) • w := fun w => by
    funext i; simp only [Pi.smul_apply, smul_eq_mul]; ring
  rw [h, h, Matrix.mulVec_smul]

/-- **C130.** `wrapped_normal` around any point: rotations and reflections that leave the point where it
is. -/
theorem C130_stereographic_wrapped {Q : Matrix (Fin n) (Fin n) ℝ} (hQ : Orthogonal Q) (η : ℝ)
    (dt : DType) (k std : ℝ) (mean : Vec n) (hfix : Q *ᵥ mean = mean) :
    Invariant (fun z => Stereo.M.wrappedNormal η dt k mean std z) (fun x => Q *ᵥ x) := by
  refine invariant_of Q hQ fun z => ?_
  unfold Stereo.M.wrappedNormal
  rw [← (C93.C93_stereographic_maps hQ true η dt k 0 mean 0 _ 0).2.1, hfix, Matrix.mulVec_smul,
    Matrix.mulVec_smul]

/-- **C130.** `random_normal` of the Lorentz model (mean 0, the default): rotations and reflections of
the spatial coordinates. -/
theorem C130_lorentz {Q : Matrix (Fin n) (Fin n) ℝ} (hQ : Orthogonal Q) (k std : ℝ) :
    Invariant (fun z => Lorentz.randomNormal k 0 std z) (fun x => spatial Q *ᵥ x) := by
  have ho := C93.spatial_orth hQ
  refine invariant_of (spatial Q) ho fun z => ?_
  unfold Lorentz.randomNormal
  have h : ∀ w : Vec (n + 1), (fun i => w i * std + 0) = std • w := fun w => by
    funext i; simp only [Pi.smul_apply, smul_eq_mul]; ring
  simp only [h]
  rw [← (C93.C93_lorentz hQ k 0 0 0 _ 0 true true).2.2.2.2.2.2.2.1, ← Matrix.mulVec_smul,
    C93.nrm_rot ho, ← Matrix.mulVec_smul]

/-! ### Matrices -/

theorem conj_orth {Q : Matrix (Fin n) (Fin n) ℝ} (hQ : Orthogonal Q) :
    (Rotation.conj Q)ᵀ * Rotation.conj Q = 1 := by
  ext p q
  rw [Matrix.mul_apply, Fintype.sum_prod_type]
  have h := fun i j => congrFun (congrFun hQ i) j
  simp only [Matrix.mul_apply, Matrix.transpose_apply, Matrix.one_apply] at h
  have : ∀ a b, (Rotation.conj Q)ᵀ p (a, b) * Rotation.conj Q (a, b) q =
      (Q a p.1 * Q a q.1) * (Q b p.2 * Q b q.2) := fun a b => by
    simp only [Matrix.transpose_apply, Rotation.conj]; ring
  simp only [this]
  rw [← Finset.sum_mul_sum, h, h, Matrix.one_apply]
  by_cases h1 : p.1 = q.1 <;> by_cases h2 : p.2 = q.2 <;> simp [h1, h2, Prod.ext_iff]

theorem mat_conj (Q : Matrix (Fin n) (Fin n) ℝ) (z : Fin n × Fin n → ℝ) :
    mat (Rotation.conj Q *ᵥ z) = Q * mat z * Qᵀ := by
  ext i j
  simp only [mat, Matrix.of_apply, Matrix.mulVec, dotProduct, Rotation.conj, Matrix.mul_apply,
    Matrix.transpose_apply, Finset.sum_mul, Fintype.sum_prod_type]
  rw [Finset.sum_comm]
  refine Finset.sum_congr rfl fun a _ => Finset.sum_congr rfl fun b _ => by ring

/-- **C130.** `SymmetricPositiveDefinite.random`, for any implementation of the eigendecomposition:
`x ↦ Q x Qᵀ`. -/
theorem C130_spd {Q : Matrix (Fin n) (Fin n) ℝ} (hQ : Orthogonal Q) (E : Eigh n) :
    Invariant (fun z => SPD.random E (mat z)) (fun x => Q * x * Qᵀ) := by
  refine invariant_of (Rotation.conj Q) (conj_orth hQ) fun z => ?_
  unfold SPD.random
  rw [mat_conj, C93.cj_smul, C93.cj_sym, C93.cj_fn hQ E Real.exp (SPD.sym_symm _)]

/-- Real and imaginary parts of the conjugated matrix. -/
theorem re_conj (Q : Matrix (Fin n) (Fin n) ℝ) (z : Siegel.CMat n) :
    Siegel.reM (Siegel.asComplex Q * z * (Siegel.asComplex Q)ᵀ) = Q * Siegel.reM z * Qᵀ ∧
    Siegel.imM (Siegel.asComplex Q * z * (Siegel.asComplex Q)ᵀ) = Q * Siegel.imM z * Qᵀ := by
  constructor <;> ext i j <;>
    simp [Siegel.reM, Siegel.imM, Siegel.asComplex, Matrix.mul_apply, Complex.re_sum, Complex.im_sum]

theorem toComplex_conj (Q a b : Matrix (Fin n) (Fin n) ℝ) :
    Siegel.toComplex (Q * a * Qᵀ) (Q * b * Qᵀ) =
      Siegel.asComplex Q * Siegel.toComplex a b * (Siegel.asComplex Q)ᵀ := by
  have h := re_conj Q (Siegel.toComplex a b)
  ext i j
  refine Complex.ext ?_ ?_
  · exact (congrFun (congrFun h.1 i) j).symm
  · exact (congrFun (congrFun h.2 i) j).symm

theorem rows_orth {Q : Matrix (Fin n) (Fin n) ℝ} (hQ : Orthogonal Q) :
    (rows fun _ : Bool => Rotation.conj Q)ᵀ * (rows fun _ : Bool => Rotation.conj Q) = 1 := by
  ext ⟨a, p⟩ ⟨b, q⟩
  have h := congrFun (congrFun (conj_orth hQ) p) q
  rw [Matrix.mul_apply] at h
  rw [Matrix.mul_apply, Fintype.sum_prod_type]
  cases a <;> cases b <;> simp_all [rows, Matrix.one_apply]

theorem cmat_conj (Q : Matrix (Fin n) (Fin n) ℝ) (z : Bool × Fin n × Fin n → ℝ) :
    cmat ((rows fun _ : Bool => Rotation.conj Q) *ᵥ z) =
      Siegel.asComplex Q * cmat z * (Siegel.asComplex Q)ᵀ := by
  have hr : ∀ b p, ((rows fun _ : Bool => Rotation.conj Q) *ᵥ z) (b, p) =
      (Rotation.conj Q *ᵥ fun q => z (b, q)) p := by
    intro b p
    simp only [Matrix.mulVec, dotProduct, rows, Fintype.sum_prod_type (α₁ := Bool)]
    cases b <;> simp
  have hz : ∀ z : Bool × Fin n × Fin n → ℝ, cmat z = Siegel.toComplex
      ((Real.sqrt 2)⁻¹ • mat fun q => z (false, q)) ((Real.sqrt 2)⁻¹ • mat fun q => z (true, q)) := by
    intro z
    ext i j
    simp only [cmat, Siegel.toComplex, Matrix.of_apply, Matrix.smul_apply, mat, smul_eq_mul,
      div_eq_inv_mul]
  rw [hz, hz z, ← toComplex_conj, ← C93.cj_smul, ← C93.cj_smul, ← mat_conj, ← mat_conj]
  simp only [hr]

theorem upper_conj {Q : Matrix (Fin n) (Fin n) ℝ} (hQ : Orthogonal Q) (z : Siegel.CMat n) :
    Siegel.upperRandom (Siegel.asComplex Q * z * (Siegel.asComplex Q)ᵀ) =
      Siegel.asComplex Q * Siegel.upperRandom z * (Siegel.asComplex Q)ᵀ := by
  unfold Siegel.upperRandom
  have h1 : Siegel.symC ((0.5 : ℂ) • (Siegel.asComplex Q * z * (Siegel.asComplex Q)ᵀ)) =
      Siegel.asComplex Q * Siegel.symC ((0.5 : ℂ) • z) * (Siegel.asComplex Q)ᵀ := by
    unfold Siegel.symC
    simp only [Matrix.transpose_smul, Matrix.transpose_mul, Matrix.transpose_transpose,
      Matrix.mul_smul, Matrix.smul_mul, Matrix.mul_add, Matrix.add_mul, Matrix.mul_assoc]
  simp only [h1, (re_conj _ _).1, (re_conj _ _).2]
  rw [show NormedSpace.exp (Q * _ * Qᵀ) = _ from C93.cj_exp hQ _, toComplex_conj]

/-- **C130.** `UpperHalf.random`: `z ↦ Q z Qᵀ`. -/
theorem C130_upper {Q : Matrix (Fin n) (Fin n) ℝ} (hQ : Orthogonal Q) :
    Invariant (fun z => Siegel.upperRandom (cmat (n := n) z))
      (fun x => Siegel.asComplex Q * x * (Siegel.asComplex Q)ᵀ) :=
  invariant_of (rows fun _ : Bool => Rotation.conj Q) (rows_orth hQ) fun z => by
    rw [cmat_conj, upper_conj hQ]

theorem asComplex_orth {Q : Matrix (Fin n) (Fin n) ℝ} (hQ : Orthogonal Q) :
    (Siegel.asComplex Q)ᵀ * Siegel.asComplex Q = 1 := by
  ext i j
  have h := congrFun (congrFun hQ i) j
  rw [Matrix.mul_apply] at h
  rw [Matrix.mul_apply]
  simp only [Siegel.asComplex, Matrix.transpose_apply, Matrix.of_apply] at h ⊢
  simp only [← Complex.ofReal_mul, ← Complex.ofReal_sum, h, Matrix.one_apply]
  split_ifs <;> simp

/-- **C130.** `BoundedDomain.random`: `z ↦ Q z Qᵀ`; an exception is moved to itself. -/
theorem C130_bounded {Q : Matrix (Fin n) (Fin n) ℝ} (hQ : Orthogonal Q) :
    Invariant (fun z => Siegel.boundedRandom (cmat (n := n) z))
      (Except.map fun x => Siegel.asComplex Q * x * (Siegel.asComplex Q)ᵀ) := by
  refine invariant_of (rows fun _ : Bool => Rotation.conj Q) (rows_orth hQ) fun z => ?_
  have ho := asComplex_orth hQ
  have ho' := mul_eq_one_comm.1 ho
  unfold Siegel.boundedRandom Siegel.inverseCayleyTransform
  rw [cmat_conj, upper_conj hQ]
  generalize Siegel.upperRandom (cmat z) = w
  generalize Siegel.asComplex Q = P at ho ho'
  have hI : Siegel.multiplyByI (Siegel.identityLike w) = Complex.I • (1 : Siegel.CMat n) := by
    ext i j
    by_cases h : i = j <;>
      simp [Siegel.multiplyByI, Siegel.identityLike, Siegel.toComplex, Siegel.imM, Siegel.reM,
        Matrix.one_apply, h, Complex.ext_iff]
  have hI' : Siegel.multiplyByI (Siegel.identityLike (P * w * Pᵀ)) =
      P * (Complex.I • (1 : Siegel.CMat n)) * Pᵀ := by
    rw [Matrix.mul_smul, Matrix.smul_mul, Matrix.mul_one, ho']; exact hI
  have hadd : ∀ a b : Siegel.CMat n, P * a * Pᵀ + P * b * Pᵀ = P * (a + b) * Pᵀ := fun a b => by
    rw [Matrix.mul_add, Matrix.add_mul]
  have hsub : ∀ a b : Siegel.CMat n, P * a * Pᵀ - P * b * Pᵀ = P * (a - b) * Pᵀ := fun a b => by
    rw [Matrix.mul_sub, Matrix.sub_mul]
  have hdet : ∀ a : Siegel.CMat n, (P * a * Pᵀ).det = a.det := fun a => by
    rw [Matrix.det_mul, Matrix.det_mul, mul_right_comm, ← Matrix.det_mul, ho', Matrix.det_one, one_mul]
  have hinv : ∀ a : Siegel.CMat n, (P * a * Pᵀ)⁻¹ = P * a⁻¹ * Pᵀ := fun a => by
    rw [Matrix.mul_inv_rev, Matrix.mul_inv_rev, Matrix.inv_eq_left_inv ho, Matrix.inv_eq_left_inv ho',
      Matrix.mul_assoc]
  have hmul : ∀ a b : Siegel.CMat n, P * a * Pᵀ * (P * b * Pᵀ) = P * (a * b) * Pᵀ := fun a b => by
    calc P * a * Pᵀ * (P * b * Pᵀ) = P * a * (Pᵀ * P) * b * Pᵀ := by simp only [Matrix.mul_assoc]
      _ = _ := by rw [ho, Matrix.mul_one]; simp only [Matrix.mul_assoc]
  have hI2 : ∀ a : Siegel.CMat n, Siegel.inverse (P * a * Pᵀ) =
      (Siegel.inverse a).map fun x => P * x * Pᵀ := fun a => by
    unfold Siegel.inverse
    rw [hdet, hinv]
    split_ifs <;> rfl
  simp only [hI, hI', hadd, hsub, hI2]
  cases Siegel.inverse (w + Complex.I • (1 : Siegel.CMat n)) with
  | error e => rfl
  | ok a => simp only [bind, Except.bind, Except.map, hmul]

/-- **C130.** `BirkhoffPolytope.random`: permutations of the rows and columns, others for each element
of a batch. -/
theorem C130_birkhoff {β : Type} [Fintype β] [DecidableEq β] (cfg : Birkhoff.Config)
    (σ τ : β → Equiv.Perm (Fin n)) :
    Invariant (fun z : β × Fin n × Fin n → ℝ => Birkhoff.random cfg fun b => mat fun p => z (b, p))
      (fun x b => (x b).submatrix (σ b) (τ b)) := by
  let e : Equiv.Perm (β × Fin n × Fin n) :=
    { toFun := fun p => (p.1, σ p.1 p.2.1, τ p.1 p.2.2)
      invFun := fun p => (p.1, (σ p.1).symm p.2.1, (τ p.1).symm p.2.2)
      left_inv := fun p => by simp
      right_inv := fun p => by simp }
  refine invariant_of (e.permMatrix ℝ) ?_ fun z => ?_
  · rw [Matrix.transpose_permMatrix, ← Matrix.permMatrix_mul]
    simp
  · rw [Matrix.permMatrix_mulVec]
    exact C93.projx_perm σ τ cfg fun b => Matrix.of fun i j => |mat (fun p => z (b, p)) i j|

/-- The hypotheses are met: a quarter turn is orthogonal and moves points, and the octant is an event. -/
example : Orthogonal !![(0 : ℝ), -1; 1, 0] ∧ !![(0 : ℝ), -1; 1, 0] *ᵥ ![1, 0] ≠ ![1, 0] := by
  constructor
  · unfold Orthogonal
    ext i j
    fin_cases i <;> fin_cases j <;> simp [Matrix.mul_apply, Fin.sum_univ_two]
  · intro h
    have := congrFun h 0
    simp [Matrix.mulVec, dotProduct, Fin.sum_univ_two] at this

/-- A point in the plane is as likely on the right as above. -/
example (k std η : ℝ) (dt : DType) :
    randn (Fin 2) {z | 0 < Stereo.M.randomNormal η dt k 0 std z 0} =
      randn (Fin 2) {z | 0 < Stereo.M.randomNormal η dt k 0 std z 1} := by
  have hQ : Orthogonal !![(0 : ℝ), -1; 1, 0] := by
    unfold Orthogonal
    ext i j
    fin_cases i <;> fin_cases j <;> simp [Matrix.mul_apply, Fin.sum_univ_two]
  have h := C130_stereographic hQ η dt k std {x | 0 < x 1}
  simpa [Matrix.mulVec, dotProduct, Fin.sum_univ_two] using h

/-- The directions of the octant are a measurable set. -/
example : MeasurableSet {x : Vec 3 | ∀ i, 0 < x i} := by
  simp only [Set.setOf_forall]
  exact MeasurableSet.iInter fun i => measurableSet_lt measurable_const (measurable_pi_apply i)

end Geoopt.C130
