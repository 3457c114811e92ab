import Verif.Spec.Nearest
import Verif.Props.C01
import Verif.Props.C20
import Verif.Props.C24
import Verif.Props.C28
import Verif.Props.C33
import Verif.Props.C35
import Verif.Props.C70

/-!
# C126: what the checks accept is close to the manifold

`check_point_on_manifold` and `check_vector_on_tangent` with tolerances `atol`, `rtol`.

* With tolerances zero they accept exactly the points and exactly the tangent vectors.
* Whatever they accept with other tolerances is within a multiple of the tolerances of a point, or
  of a tangent vector.
* Tangent vectors are accepted with any tolerances (for points see C20, C26, C28, C35, C70).

Distances are those of `Spec/Nearest.lean`, or entry by entry.
-/

namespace Geoopt.C126
open Matrix Geoopt Geoopt.SpecNearest

variable {n m : ℕ}

theorem sqVec_eq (x y : Vec n) : sqVec x y = (x - y) ⬝ᵥ (x - y) := by
  simp [sqVec, dotProduct, sq]

/-! ## Sphere -/

section sphere
open Sphere
variable {S : Set (Vec n)} {P : Option (Matrix (Fin n) (Fin n) ℝ)}

theorem dot_self_iff {x : Vec n} : x ⬝ᵥ x = 1 ↔ nrm x = 1 := by
  rw [← nrm_sq]
  constructor
  · intro h
    have := nrm_nonneg x
    nlinarith
  · intro h; rw [h]; norm_num

/-- **C126.** With tolerances zero the sphere accepts exactly its points, also when it is
restricted to a subspace. -/
theorem C126_sphere_exact (hP : Projects S P) (x : Vec n) :
    CheckPoint P 0 0 x ↔ OnSphere S x := by
  constructor
  · rintro ⟨h1, h2⟩
    have h1' : nrm x = 1 := by
      have : |nrm x - 1| ≤ 0 := by simpa using h1
      linarith [abs_nonpos_iff.1 this]
    have h2' : projectOnSubspace P x = x := by
      ext i
      have : |projectOnSubspace P x i - x i| ≤ 0 := by simpa using h2 i
      linarith [abs_nonpos_iff.1 this]
    exact ⟨dot_self_iff.2 h1', h2' ▸ pos_mem hP x⟩
  · intro h
    exact C20_passes_check hP h le_rfl le_rfl

/-- **C126.** An accepted point of the whole sphere is within `atol + rtol` of the sphere. -/
theorem C126_sphere_near {atol rtol : ℝ} (ht : atol + rtol < 1) {x : Vec n}
    (h : CheckPoint none atol rtol x) :
    ∃ y, OnSphere Set.univ y ∧ sqVec x y ≤ (atol + rtol) ^ 2 := by
  have h1 : |nrm x - 1| ≤ atol + rtol := by simpa using h.1
  have hp : 0 < nrm x := by linarith [(abs_le.1 h1).1]
  have hx := nrm_sq x
  refine ⟨(nrm x)⁻¹ • x, ⟨?_, Set.mem_univ _⟩, ?_⟩
  · rw [smul_dotProduct, dotProduct_smul, ← hx]
    simp only [smul_eq_mul]
    field_simp
  · rw [sqVec_eq]
    have e : x - (nrm x)⁻¹ • x = (1 - (nrm x)⁻¹) • x := by rw [sub_smul, one_smul]
    rw [e, smul_dotProduct, dotProduct_smul, ← hx]
    simp only [smul_eq_mul]
    have : (1 - (nrm x)⁻¹) * ((1 - (nrm x)⁻¹) * nrm x ^ 2) = |nrm x - 1| ^ 2 := by
      rw [sq_abs]; field_simp
    rw [this]
    exact pow_le_pow_left₀ (abs_nonneg _) h1 2

/-- **C126.** On a subspace: an accepted point is within a multiple of the tolerances of a point of
the sphere in the subspace. -/
theorem C126_sphere_subspace_near (hP : Projects S P) {atol rtol b : ℝ} (ha : 0 ≤ atol)
    (hr : 0 ≤ rtol) (hb : b = atol + rtol * (1 + atol + rtol))
    (ht : atol + rtol + Real.sqrt n * b < 1) {x : Vec n} (h : CheckPoint P atol rtol x) :
    ∃ y, OnSphere S y ∧ sqVec x y ≤ n * b ^ 2 + (atol + rtol + Real.sqrt n * b) ^ 2 := by
  have h1 : |nrm x - 1| ≤ atol + rtol := by simpa using h.1
  obtain ⟨h1l, h1r⟩ := abs_le.1 h1
  have hb0 : 0 ≤ b := by rw [hb]; positivity
  obtain ⟨q, hq⟩ : ∃ q, q = projectOnSubspace P x := ⟨_, rfl⟩
  have hqS : q ∈ S := hq ▸ pos_mem hP x
  have hxq : x ⬝ᵥ q = q ⬝ᵥ q := by
    rw [hq, pos_dot hP (pos_mem hP x)]
  have hδ : sqVec x q ≤ n * b ^ 2 := by
    have : ∀ i, (x i - q i) ^ 2 ≤ b ^ 2 := by
      intro i
      have h2 := h.2 i
      rw [← hq] at h2
      have h3 : |x i| ≤ 1 + atol + rtol := by
        have h4 : x i ^ 2 ≤ x ⬝ᵥ x := by
          simp only [dotProduct, ← sq]
          exact Finset.single_le_sum (f := fun j => x j ^ 2) (fun j _ => sq_nonneg _)
            (Finset.mem_univ i)
        rw [← nrm_sq] at h4
        have h5 := abs_le_of_sq_le_sq h4 (nrm_nonneg x)
        linarith
      have h6 : |x i - q i| ≤ b := by
        rw [abs_sub_comm, hb]
        refine h2.trans ?_
        have := mul_le_mul_of_nonneg_left h3 hr
        linarith
      rw [← sq_abs]
      exact pow_le_pow_left₀ (abs_nonneg _) h6 2
    calc sqVec x q ≤ ∑ _i : Fin n, b ^ 2 := Finset.sum_le_sum fun i _ => this i
      _ = n * b ^ 2 := by simp
  have hsq : sqVec x q = nrm x ^ 2 - nrm q ^ 2 := by
    rw [sqVec_eq, nrm_sq, nrm_sq, sub_dotProduct, dotProduct_sub, dotProduct_sub, dotProduct_comm q x,
      hxq]
    ring
  have hn0 := nrm_nonneg x
  have hm0 := nrm_nonneg q
  have hs : Real.sqrt n ^ 2 = n := Real.sq_sqrt (Nat.cast_nonneg n)
  have hsn := Real.sqrt_nonneg (n : ℝ)
  have hd0 : 0 ≤ Real.sqrt n * b := mul_nonneg hsn hb0
  have hle : nrm x - nrm q ≤ Real.sqrt n * b := by
    by_contra hc
    push Not at hc
    have : (Real.sqrt n * b) ^ 2 < nrm x ^ 2 - nrm q ^ 2 := by nlinarith
    rw [mul_pow, hs] at this
    linarith
  have hge : nrm q ≤ nrm x := by
    have : 0 ≤ sqVec x q := Finset.sum_nonneg fun i _ => sq_nonneg _
    rw [hsq] at this
    nlinarith
  have hqp : 0 < nrm q := by linarith
  refine ⟨(nrm q)⁻¹ • q, ⟨?_, ?_⟩, ?_⟩
  · rw [smul_dotProduct, dotProduct_smul, ← nrm_sq]
    simp only [smul_eq_mul]
    field_simp
  · have : projx P x ∈ S := (C20_projx_on_sphere hP (by
      rw [← hq]; intro h0; rw [h0, nrm_zero] at hqp; exact lt_irrefl _ hqp)).2
    rwa [projx, ← hq] at this
  · have e : sqVec x ((nrm q)⁻¹ • q) = sqVec x q + (nrm q - 1) ^ 2 := by
      rw [sqVec_eq, sqVec_eq]
      simp only [sub_dotProduct, dotProduct_sub, smul_dotProduct, dotProduct_smul, smul_eq_mul,
        dotProduct_comm q x, hxq]
      rw [← nrm_sq q]
      field_simp
      ring
    rw [e]
    have : |nrm q - 1| ≤ atol + rtol + Real.sqrt n * b := abs_le.2 ⟨by linarith, by linarith⟩
    have := pow_le_pow_left₀ (abs_nonneg _) this 2
    rw [sq_abs] at this
    linarith

/-- **C126.** Without a subspace, the tangent check with tolerances zero accepts exactly the
tangent vectors … -/
theorem C126_sphere_tangent_exact (x u : Vec n) :
    Sphere.CheckTangent 0 0 x u ↔ Sphere.Tangent Set.univ x u := by
  simp [Sphere.CheckTangent, Sphere.Tangent, Sphere.inner]

/-- … and an accepted vector at a point is within `atol` of a tangent vector. -/
theorem C126_sphere_tangent_near {atol rtol : ℝ} {x u : Vec n} (hx : OnSphere Set.univ x)
    (h : Sphere.CheckTangent atol rtol x u) :
    ∃ v, Sphere.Tangent Set.univ x v ∧ sqVec u v ≤ atol ^ 2 := by
  have h1 : |x ⬝ᵥ u| ≤ atol := by simpa [Sphere.CheckTangent, Sphere.inner] using h
  refine ⟨u - (x ⬝ᵥ u) • x, ⟨?_, Set.mem_univ _⟩, ?_⟩
  · rw [dotProduct_sub, dotProduct_smul, hx.1]; simp
  · rw [sqVec_eq, sub_sub_cancel, smul_dotProduct, dotProduct_smul, hx.1]
    simp only [smul_eq_mul, mul_one]
    rw [← sq, ← sq_abs]
    exact pow_le_pow_left₀ (abs_nonneg _) h1 2

/-- **C126.** Tangent vectors are accepted with any tolerances, also on a subspace; the vectors
returned by `proju` are among them. -/
theorem C126_sphere_tangent_accepts (hP : Projects S P) {x : Vec n} (hx : OnSphere S x) (u : Vec n)
    {atol rtol : ℝ} (ha : 0 ≤ atol) :
    Sphere.CheckTangent atol rtol x (Sphere.proju P x u) := by
  have := (C21_proju_tangent hP hx u).1
  simpa [Sphere.CheckTangent, Sphere.inner, this] using ha

end sphere

/-! ## Stiefel -/

section stiefel
open Stiefel

theorem sqMat_eq (x y : Matrix (Fin n) (Fin m) ℝ) : sqMat x y = ((x - y)ᵀ * (x - y)).trace := by
  simp only [sqMat, Matrix.trace, Matrix.diag, Matrix.mul_apply, transpose_apply, Matrix.sub_apply]
  rw [Finset.sum_comm]
  exact Finset.sum_congr rfl fun i _ => Finset.sum_congr rfl fun j _ => by ring

/-- **C126.** With tolerances zero exactly the points and the tangent vectors of the Stiefel
manifolds are accepted. -/
theorem C126_stiefel_exact (x u : Matrix (Fin n) (Fin m) ℝ) :
    (Stiefel.CheckPoint 0 0 x ↔ OnStiefel x) ∧
      (Stiefel.CheckTangent 0 0 x u ↔ Stiefel.Tangent x u) := by
  constructor
  · constructor
    · intro h
      unfold OnStiefel
      ext i j
      have : |((xᵀ * x) i j - if i = j then 1 else 0) - 0| ≤ 0 := by simpa using h i j
      have := abs_nonpos_iff.1 this
      rw [Matrix.one_apply]; linarith
    · intro h i j
      have h' : xᵀ * x = 1 := h
      rw [h', Matrix.one_apply]; simp
  · have e : (xᵀ * u)ᵀ = uᵀ * x := by rw [transpose_mul, transpose_transpose]
    unfold Stiefel.Tangent
    rw [e]
    constructor
    · intro h
      ext i j
      have : |(uᵀ * x + xᵀ * u) i j - 0| ≤ 0 := by simpa using h i j
      have := abs_nonpos_iff.1 this
      rw [Matrix.add_apply] at this
      rw [Matrix.neg_apply]; linarith
    · intro h i j
      rw [h]; simp

/-- **C126.** An accepted matrix is within `m * atol` of the point `projx` returns for it. -/
theorem C126_stiefel_near {atol rtol : ℝ} {x U : Matrix (Fin n) (Fin m) ℝ} {S : Fin m → ℝ}
    {V : Matrix (Fin m) (Fin m) ℝ} (hs : Linalg.IsSVD x U S V) (h : Stiefel.CheckPoint atol rtol x) :
    OnStiefel (Stiefel.projx U V) ∧ sqMat x (Stiefel.projx U V) ≤ (m * atol) ^ 2 := by
  refine ⟨Stiefel.C26_projx_on_stiefel hs, ?_⟩
  have hV : Vᵀ * V = 1 := mul_eq_one_comm.1 hs.orthV
  have e1 : x - Stiefel.projx U V = U * diagonal (fun i => S i - 1) * V := by
    have : diagonal (fun i => S i - 1) = diagonal S - 1 := by
      rw [← diagonal_one, diagonal_sub]
    rw [this, hs.eq, Stiefel.projx, Matrix.mul_sub, Matrix.sub_mul, Matrix.mul_one]
  have e2 : sqMat x (Stiefel.projx U V) = ∑ i, (S i - 1) ^ 2 := by
    rw [sqMat_eq, e1]
    simp only [transpose_mul, diagonal_transpose]
    have : Vᵀ * (diagonal (fun i => S i - 1) * Uᵀ) * (U * diagonal (fun i => S i - 1) * V) =
        Vᵀ * (diagonal (fun i => (S i - 1) ^ 2) * V) := by
      have h2 : diagonal (fun i => (S i - 1) ^ 2) =
          diagonal (fun i => S i - 1) * diagonal (fun i => S i - 1) := by
        rw [diagonal_mul_diagonal]; simp only [sq]
      rw [h2]
      simp only [Matrix.mul_assoc]
      rw [← Matrix.mul_assoc Uᵀ U, hs.orthU, Matrix.one_mul]
    rw [this, trace_mul_comm, Matrix.mul_assoc, hs.orthV, Matrix.mul_one, trace_diagonal]
  have e3 : sqMat (xᵀ * x) 1 = ∑ i, (S i ^ 2 - 1) ^ 2 := by
    have hx : xᵀ * x - 1 = Vᵀ * diagonal (fun i => S i ^ 2 - 1) * V := by
      have h2 : diagonal (fun i => S i ^ 2 - 1) = diagonal S * diagonal S - 1 := by
        rw [← diagonal_one, diagonal_mul_diagonal, diagonal_sub]; simp only [sq]
      rw [h2, Matrix.mul_sub, Matrix.sub_mul, Matrix.mul_one, hV, hs.eq]
      simp only [transpose_mul, diagonal_transpose, Matrix.mul_assoc]
      rw [← Matrix.mul_assoc Uᵀ U, hs.orthU, Matrix.one_mul]
    rw [sqMat_eq, hx]
    simp only [transpose_mul, diagonal_transpose, transpose_transpose]
    have : Vᵀ * (diagonal (fun i => S i ^ 2 - 1) * V) * (Vᵀ * diagonal (fun i => S i ^ 2 - 1) * V) =
        Vᵀ * (diagonal (fun i => (S i ^ 2 - 1) ^ 2) * V) := by
      have h2 : diagonal (fun i => (S i ^ 2 - 1) ^ 2) =
          diagonal (fun i => S i ^ 2 - 1) * diagonal (fun i => S i ^ 2 - 1) := by
        rw [diagonal_mul_diagonal]; simp only [sq]
      rw [h2]
      simp only [Matrix.mul_assoc]
      rw [← Matrix.mul_assoc V Vᵀ, hs.orthV, Matrix.one_mul]
    rw [this, trace_mul_comm, Matrix.mul_assoc, hs.orthV, Matrix.mul_one, trace_diagonal]
  have e4 : sqMat (xᵀ * x) 1 ≤ (m * atol) ^ 2 := by
    have : ∀ i j, ((xᵀ * x) i j - (1 : Matrix (Fin m) (Fin m) ℝ) i j) ^ 2 ≤ atol ^ 2 := by
      intro i j
      have := h i j
      rw [sub_zero, abs_zero, mul_zero, add_zero, ← Matrix.one_apply] at this
      rw [← sq_abs]
      exact pow_le_pow_left₀ (abs_nonneg _) this 2
    calc sqMat (xᵀ * x) 1 ≤ ∑ _i : Fin m, ∑ _j : Fin m, atol ^ 2 :=
          Finset.sum_le_sum fun i _ => Finset.sum_le_sum fun j _ => this i j
      _ = (m * atol) ^ 2 := by simp; ring
  rw [e2]
  rw [e3] at e4
  refine le_trans (Finset.sum_le_sum fun i _ => ?_) e4
  have h0 := hs.nonneg i
  have : S i ^ 2 - 1 = (S i - 1) * (S i + 1) := by ring
  rw [this, mul_pow]
  exact le_mul_of_one_le_right (sq_nonneg _) (by nlinarith)

/-- **C126.** At a point, an accepted vector is within `m * atol / 2` of a tangent vector. -/
theorem C126_stiefel_tangent_near {atol rtol : ℝ} {x u : Matrix (Fin n) (Fin m) ℝ}
    (hx : OnStiefel x) (h : Stiefel.CheckTangent atol rtol x u) :
    ∃ v, Stiefel.Tangent x v ∧ sqMat u v ≤ (m * atol / 2) ^ 2 := by
  have hx' : xᵀ * x = 1 := hx
  obtain ⟨s, hs⟩ : ∃ s, s = (1 / 2 : ℝ) • (uᵀ * x + xᵀ * u) := ⟨_, rfl⟩
  have hst : sᵀ = s := by
    rw [hs]
    simp only [transpose_smul, transpose_add, transpose_mul, transpose_transpose]
    rw [add_comm]
  refine ⟨u - x * s, ?_, ?_⟩
  · unfold Stiefel.Tangent
    have e : xᵀ * (u - x * s) = xᵀ * u - s := by
      rw [Matrix.mul_sub, ← Matrix.mul_assoc, hx', Matrix.one_mul]
    rw [e, transpose_sub, hst, hs, transpose_mul, transpose_transpose]
    ext i j
    simp only [Matrix.sub_apply, Matrix.neg_apply, Matrix.smul_apply, Matrix.add_apply, smul_eq_mul]
    ring
  · have e : sqMat u (u - x * s) = sqMat s 0 := by
      rw [sqMat_eq, sqMat_eq, sub_sub_cancel, sub_zero, transpose_mul, Matrix.mul_assoc,
        ← Matrix.mul_assoc xᵀ, hx', Matrix.one_mul]
    rw [e]
    have : ∀ i j, (s i j - (0 : Matrix (Fin m) (Fin m) ℝ) i j) ^ 2 ≤ (atol / 2) ^ 2 := by
      intro i j
      have := h i j
      rw [sub_zero, abs_zero, mul_zero, add_zero] at this
      rw [Matrix.zero_apply, sub_zero, ← sq_abs, hs, Matrix.smul_apply, smul_eq_mul, abs_mul]
      refine pow_le_pow_left₀ (by positivity) ?_ 2
      rw [abs_of_pos (by norm_num : (0:ℝ) < 1 / 2)]
      linarith
    calc sqMat s 0 ≤ ∑ _i : Fin m, ∑ _j : Fin m, (atol / 2) ^ 2 :=
          Finset.sum_le_sum fun i _ => Finset.sum_le_sum fun j _ => this i j
      _ = (m * atol / 2) ^ 2 := by simp; ring

end stiefel

/-! ## Symmetric positive definite matrices -/

section spd
open SPD Linalg

/-- **C126.** With tolerances zero exactly the symmetric positive definite matrices and the
symmetric tangent vectors are accepted. -/
theorem C126_spd_exact (E : Eigh n) (x u : Matrix (Fin n) (Fin n) ℝ) :
    (SPD.CheckPoint E 0 0 x ↔ OnSPD x) ∧ (SPD.CheckTangent 0 0 u ↔ Symm u) := by
  have key : ∀ z : Matrix (Fin n) (Fin n) ℝ, AllClose 0 0 z zᵀ ↔ Symm z := by
    intro z
    constructor
    · intro h i j
      have : |z i j - zᵀ i j| ≤ 0 := by simpa using h i j
      have := abs_nonpos_iff.1 this
      rw [transpose_apply] at this; linarith
    · intro h i j
      rw [transpose_apply, h i j]; simp
  refine ⟨⟨fun h => ?_, fun h => C28_check_complete E le_rfl le_rfl h⟩, key u⟩
  have hs := (key x).1 h.1
  have hd := eigh_dec E (symm_iff.1 hs)
  have := onSPD_fn hd (fun t => t) (fun i => by simpa using h.2 i)
  rwa [fn_id hd] at this

/-- **C126.** An accepted matrix is, entry by entry, within the tolerances of a symmetric positive
definite matrix. -/
theorem C126_spd_near (E : Eigh n) {atol rtol : ℝ} (ha : 0 ≤ atol) (hr : 0 ≤ rtol)
    {x : Matrix (Fin n) (Fin n) ℝ} (h : SPD.CheckPoint E atol rtol x) :
    ∃ y, OnSPD y ∧ ∀ i j, |x i j - y i j| ≤ atol + rtol * |x i j| := by
  have hd : Dec (upper x) (E.e x) (E.v x) := ⟨E.orth x, E.eq x⟩
  have h1 := onSPD_fn hd (fun t => t + atol) (fun i => by have := h.2 i; linarith)
  have e : fn (fun t => t + atol) (E.e x) (E.v x) = upper x + atol • 1 := by
    rw [← fn_const hd atol, ← fn_id hd]
    simp only [fn]
    rw [← Matrix.add_mul, ← Matrix.mul_add, diagonal_add]
  rw [e] at h1
  refine ⟨_, h1, fun i j => ?_⟩
  have hx : 0 ≤ rtol * |x i j| := by positivity
  simp only [Matrix.add_apply, Matrix.smul_apply, smul_eq_mul, upper, of_apply]
  rcases lt_trichotomy i j with hij | hij | hij
  · rw [if_pos hij.le, Matrix.one_apply_ne hij.ne]; simp; linarith
  · subst hij
    simp [abs_of_nonneg ha]; positivity
  · rw [if_neg (not_le.2 hij), Matrix.one_apply_ne hij.ne', mul_zero, add_zero]
    have := h.1 j i
    rw [transpose_apply] at this
    rwa [abs_sub_comm]

/-- **C126.** An accepted vector is within half the tolerances of a symmetric one, and the vectors
returned by `proju` are accepted. -/
theorem C126_spd_tangent_near {atol rtol : ℝ} {u : Matrix (Fin n) (Fin n) ℝ}
    (h : SPD.CheckTangent atol rtol u) :
    ∃ v, Symm v ∧ ∀ i j, |u i j - v i j| ≤ (atol + rtol * |u i j|) / 2 := by
  refine ⟨Matrix.of fun i j => (u i j + u j i) / 2, fun i j => ?_, fun i j => ?_⟩
  · simp only [of_apply]; ring
  · have := h j i
    rw [transpose_apply] at this
    simp only [of_apply]
    rw [show u i j - (u i j + u j i) / 2 = -((u j i - u i j) / 2) by ring, abs_neg, abs_div,
      abs_of_pos (two_pos : (0:ℝ) < 2)]
    linarith

theorem C126_spd_tangent_accepts {atol rtol : ℝ} (ha : 0 ≤ atol) (hr : 0 ≤ rtol)
    (x u : Matrix (Fin n) (Fin n) ℝ) : SPD.CheckTangent atol rtol (SPD.proju x u) := by
  have hs : (SPD.proju x u)ᵀ = SPD.proju x u := sym_symm u
  intro i j
  rw [hs, sub_self, abs_zero]; positivity

end spd

/-! ## Lorentz -/

section lorentz
open Lorentz

theorem check_eq (k : ℝ) (x : Vec (n + 1)) :
    (-(x 0 ^ 2) + ∑ i, Fin.tail x i ^ 2) - (-k) = mink x x + k := by
  simp only [mink, Fin.tail, sq]; ring

/-- **C126.** With tolerances zero the points of both sheets of the hyperboloid are accepted, and
nothing else; at a point exactly the tangent vectors are accepted. -/
theorem C126_lorentz_exact {k : ℝ} (hk : 0 < k) (x u : Vec (n + 1)) :
    (Lorentz.CheckPoint k 0 0 x ↔ OnHyperboloid k x ∨ OnHyperboloid k (-x)) ∧
      (Lorentz.CheckTangent 0 0 x u ↔ Lorentz.Tangent x u) := by
  constructor
  · have hneg : mink (-x) (-x) = mink x x := by simp [mink]
    constructor
    · intro h
      have h1 : mink x x = -k := by
        have : |mink x x + k| ≤ 0 := by
          rw [← check_eq]; simpa [Lorentz.CheckPoint] using h
        linarith [abs_nonpos_iff.1 this]
      have h2 : x 0 ≠ 0 := by
        intro h0
        have : 0 ≤ mink x x := by
          simp only [mink, h0, mul_zero, neg_zero, zero_add]
          exact Finset.sum_nonneg fun i _ => mul_self_nonneg _
        linarith
      rcases lt_or_gt_of_ne h2 with h3 | h3
      · exact .inr ⟨by rw [hneg, h1], by simpa using h3⟩
      · exact .inl ⟨h1, h3⟩
    · intro h
      unfold Lorentz.CheckPoint
      have h1 : mink x x = -k := by
        rcases h with h | h
        · exact h.1
        · rw [← hneg]; exact h.1
      rw [check_eq, h1]; simp
  · have e : Lorentz.inner u x = mink x u := by
      simp only [Lorentz.inner, mink, dotProduct, Fin.tail]
      congr 1
      · ring
      · exact Finset.sum_congr rfl fun i _ => by ring
    simp [Lorentz.CheckTangent, Lorentz.Tangent, e]

/-- **C126.** An accepted vector with non-negative first coordinate is within
`(atol + rtol * k) / √k` of the point `projx` returns for it. -/
theorem C126_lorentz_near {k atol rtol : ℝ} (hk : 0 < k) {x : Vec (n + 1)} (h0 : 0 ≤ x 0)
    (h : Lorentz.CheckPoint k atol rtol x) :
    OnHyperboloid k (Lorentz.projx k x) ∧
      sqVec x (Lorentz.projx k x) ≤ ((atol + rtol * k) / Real.sqrt k) ^ 2 := by
  have hp := C35_projx_on hk x
  refine ⟨hp, ?_⟩
  have hs : 0 < Real.sqrt k := Real.sqrt_pos.2 hk
  obtain ⟨y0, hy0⟩ : ∃ y0, y0 = Real.sqrt (k + nrm (Fin.tail x) ^ 2) := ⟨_, rfl⟩
  have hy1 : y0 ^ 2 = k + nrm (Fin.tail x) ^ 2 := by
    rw [hy0]; exact Real.sq_sqrt (by positivity)
  have hy2 : Real.sqrt k ≤ y0 := by
    rw [hy0]; exact Real.sqrt_le_sqrt (by nlinarith [sq_nonneg (nrm (Fin.tail x))])
  have e : sqVec x (Lorentz.projx k x) = (x 0 - y0) ^ 2 := by
    unfold sqVec
    rw [Fin.sum_univ_succ]
    simp only [Lorentz.projx, Lorentz.project, Fin.cons_zero, Fin.cons_succ, Fin.tail, sub_self]
    rw [hy0]
    simp [Fin.tail]
  have h1 : |(x 0 - y0) * (x 0 + y0)| ≤ atol + rtol * k := by
    unfold Lorentz.CheckPoint at h
    rw [check_eq, abs_neg, abs_of_pos hk] at h
    have : (x 0 - y0) * (x 0 + y0) = -(mink x x + k) := by
      have ht : nrm (Fin.tail x) ^ 2 = ∑ i : Fin n, x i.succ * x i.succ := by
        rw [nrm_sq]; simp [dotProduct, Fin.tail]
      unfold mink
      rw [← ht]
      linear_combination (-1) * hy1
    rwa [this, abs_neg]
  rw [e, ← sq_abs]
  refine pow_le_pow_left₀ (abs_nonneg _) ?_ 2
  rw [le_div_iff₀ hs]
  rw [abs_mul, abs_of_pos (by linarith : 0 < x 0 + y0)] at h1
  refine le_trans ?_ h1
  exact mul_le_mul_of_nonneg_left (by linarith) (abs_nonneg _)

/-- **C126.** At a point, an accepted vector is within `atol / k` times the length of the point of a
tangent vector. -/
theorem C126_lorentz_tangent_near {k atol rtol : ℝ} (hk : 0 < k) {x u : Vec (n + 1)}
    (hx : OnHyperboloid k x) (h : Lorentz.CheckTangent atol rtol x u) :
    ∃ v, Lorentz.Tangent x v ∧ sqVec u v ≤ (atol / k) ^ 2 * (x ⬝ᵥ x) := by
  have e : Lorentz.inner u x = mink x u := by
    simp only [Lorentz.inner, mink, dotProduct, Fin.tail]
    congr 1
    · ring
    · exact Finset.sum_congr rfl fun i _ => by ring
  have h1 : |mink x u| ≤ atol := by simpa [Lorentz.CheckTangent, e] using h
  refine ⟨u + (mink x u / k) • x, ?_, ?_⟩
  · have : mink x (u + (mink x u / k) • x) = mink x u + (mink x u / k) * mink x x := by
      simp only [mink, Pi.add_apply, Pi.smul_apply, smul_eq_mul, mul_add, Finset.sum_add_distrib,
        Finset.mul_sum]
      rw [show ∀ a b c d : ℝ, -(a + b) + (c + d) = -a + c + (-b + d) by intros; ring]
      congr 1
      congr 1
      · ring
      · exact Finset.sum_congr rfl fun i _ => by ring
    unfold Lorentz.Tangent
    rw [this, hx.1]
    field_simp
    ring
  · rw [sqVec_eq, sub_add_cancel_left, neg_dotProduct_neg, smul_dotProduct, dotProduct_smul]
    simp only [smul_eq_mul]
    rw [← mul_assoc, ← sq, ← sq_abs, abs_div, abs_of_pos hk]
    refine mul_le_mul_of_nonneg_right ?_ (by rw [← nrm_sq]; positivity)
    exact pow_le_pow_left₀ (by positivity) (div_le_div_of_nonneg_right h1 hk.le) 2

/-- **C126.** At a point the vectors returned by `proju` are accepted with any tolerances. -/
theorem C126_lorentz_tangent_accepts {k atol rtol : ℝ} (hk : 0 < k) (ha : 0 ≤ atol)
    {x : Vec (n + 1)} (hx : OnHyperboloid k x) (u : Vec (n + 1)) :
    Lorentz.CheckTangent atol rtol x (Lorentz.proju k x u) := by
  have h := (((C126_lorentz_exact hk x (Lorentz.proju k x u)).2).2 (C36_proju_tangent hk hx u))
  unfold Lorentz.CheckTangent at *
  refine h.trans ?_
  simpa using ha

end lorentz

/-! ## Stereographic models -/

section stereo
open Stereo

/-- **C126.** With tolerances zero the Poincaré ball accepts exactly the points `projx` leaves
alone: those of norm at most `(1 - eps) / √|k|`. -/
theorem C126_stereographic_exact {η k : ℝ} (hη : 0 ≤ η) (hη1 : η ≤ 1) (hk : k < 0)
    (hbig : |k| ≤ 1e29) (dt : DType) (x : Vec n) :
    M.CheckPoint η dt k 0 0 x ↔ Valid η dt k x := by
  rw [← C02_projx_fixes_exactly_valid hη hη1 hk hbig dt x]
  constructor
  · intro h
    ext i
    have : |x i - project η dt k x i| ≤ 0 := by simpa using h i
    have := abs_nonpos_iff.1 this
    unfold M.projx; linarith
  · intro h i
    unfold M.projx at h
    rw [h]; simp

/-- **C126.** An accepted point is, entry by entry, within the tolerances of such a point. -/
theorem C126_stereographic_near {η k atol rtol : ℝ} (hη : 0 ≤ η) (hη1 : η ≤ 1) (hk : k < 0)
    (hbig : |k| ≤ 1e29) (dt : DType) {x : Vec n} (h : M.CheckPoint η dt k atol rtol x) :
    ∃ y, Valid η dt k y ∧ ∀ i, |x i - y i| ≤ atol + rtol * |y i| :=
  ⟨M.projx η dt k x, (C02_projx_fixes_exactly_valid hη hη1 hk hbig dt _).1
    (C02_projx_idempotent hη hη1 hk hbig dt x), h⟩

end stereo

/-! ## Birkhoff polytope -/

section birkhoff
open Birkhoff

theorem close_zero {c a : ℝ} : Close 0 0 c a ↔ a = c := by
  unfold Close
  rw [zero_mul, add_zero]
  constructor
  · intro h; linarith [abs_nonpos_iff.1 h]
  · intro h; rw [h]; simp

/-- **C126.** With tolerances zero a positive matrix is accepted exactly when it is doubly
stochastic, and a vector exactly when it is tangent. -/
theorem C126_birkhoff_exact (x u : Matrix (Fin n) (Fin n) ℝ) (hx : Positive x) :
    (Birkhoff.CheckPoint 0 0 x ↔ DoublyStochastic x) ∧
      (Birkhoff.CheckTangent 0 0 u ↔ Birkhoff.Tangent u) := by
  simp only [Birkhoff.CheckPoint, Birkhoff.CheckTangent, close_zero]
  exact ⟨⟨fun h => ⟨hx, h.1, h.2⟩, fun h => ⟨h.row, h.col⟩⟩,
    ⟨fun h => ⟨h.1, h.2⟩, fun h => ⟨h.row, h.col⟩⟩⟩

/-- **C126.** An accepted positive matrix is, entry by entry, within three times the tolerances of a
doubly stochastic matrix. -/
theorem C126_birkhoff_near {atol rtol : ℝ} (ha : 0 ≤ atol) (hr : 0 ≤ rtol)
    {x : Matrix (Fin n) (Fin n) ℝ} (hx : Positive x) (h : Birkhoff.CheckPoint atol rtol x) :
    ∃ y, DoublyStochastic y ∧ ∀ i j, |x i j - y i j| ≤ 3 * (atol + rtol) := by
  obtain ⟨t, ht⟩ : ∃ t, t = atol + rtol := ⟨_, rfl⟩
  have ht0 : 0 ≤ t := by rw [ht]; positivity
  have hrow : ∀ i, |∑ j, x i j - 1| ≤ t := fun i => by
    have := h.1 i; unfold Close at this; rw [ht]; simpa using this
  have hcol : ∀ j, |∑ i, x i j - 1| ≤ t := fun j => by
    have := h.2 j; unfold Close at this; rw [ht]; simpa using this
  have h1t : 0 < 1 + t := by linarith
  obtain ⟨a, hadef⟩ : ∃ a : Fin n → ℝ, a = fun i => 1 - (∑ j, x i j) / (1 + t) := ⟨_, rfl⟩
  obtain ⟨b, hbdef⟩ : ∃ b : Fin n → ℝ, b = fun j => 1 - (∑ i, x i j) / (1 + t) := ⟨_, rfl⟩
  have ha' : ∀ i, 0 ≤ a i ∧ a i ≤ 2 * t := fun i => by
    obtain ⟨h1, h2⟩ := abs_le.1 (hrow i)
    rw [hadef]
    constructor
    · rw [sub_nonneg, div_le_one h1t]; linarith
    · simp only
      rw [sub_le_iff_le_add, ← sub_le_iff_le_add', le_div_iff₀ h1t]
      nlinarith
  have hb' : ∀ j, 0 ≤ b j := fun j => by
    obtain ⟨h1, h2⟩ := abs_le.1 (hcol j)
    rw [hbdef]
    simp only
    rw [sub_nonneg, div_le_one h1t]; linarith
  have hsum : ∑ i, a i = ∑ j, b j := by
    rw [hadef, hbdef]
    simp only [Finset.sum_sub_distrib, ← Finset.sum_div]
    rw [Finset.sum_comm]
  obtain ⟨D, hD⟩ : ∃ D, D = ∑ j, b j := ⟨_, rfl⟩
  have hD0 : 0 ≤ D := by rw [hD]; exact Finset.sum_nonneg fun j _ => hb' j
  have hbD : ∀ j, b j ≤ D := fun j => by
    rw [hD]; exact Finset.single_le_sum (fun j _ => hb' j) (Finset.mem_univ j)
  have haD : ∀ i, a i ≤ D := fun i => by
    rw [hD, ← hsum]; exact Finset.single_le_sum (fun i _ => (ha' i).1) (Finset.mem_univ i)
  have haD' : ∀ i, a i * (D / D) = a i := fun i => by
    rcases eq_or_ne D 0 with h0 | h0
    · have : a i = 0 := le_antisymm (h0 ▸ haD i) (ha' i).1
      rw [this, zero_mul]
    · rw [div_self h0, mul_one]
  have hbD' : ∀ j, b j * (D / D) = b j := fun j => by
    rcases eq_or_ne D 0 with h0 | h0
    · have : b j = 0 := le_antisymm (h0 ▸ hbD j) (hb' j)
      rw [this, zero_mul]
    · rw [div_self h0, mul_one]
  have hex : ∀ i j, 0 ≤ a i * b j / D ∧ a i * b j / D ≤ 2 * t := fun i j => by
    refine ⟨div_nonneg (mul_nonneg (ha' i).1 (hb' j)) hD0, ?_⟩
    refine le_trans ?_ (ha' i).2
    rw [mul_div_assoc]
    refine mul_le_of_le_one_right (ha' i).1 ?_
    exact div_le_one_of_le₀ (hbD j) hD0
  refine ⟨Matrix.of fun i j => x i j / (1 + t) + a i * b j / D, ⟨fun i j => ?_, fun i => ?_,
    fun j => ?_⟩, fun i j => ?_⟩
  · have := div_pos (hx i j) h1t
    simp only [of_apply]
    linarith [(hex i j).1]
  · simp only [rowSum, of_apply, Finset.sum_add_distrib, ← Finset.sum_div, ← Finset.mul_sum]
    rw [← hD, mul_div_assoc, haD', hadef]
    ring
  · simp only [colSum, of_apply, Finset.sum_add_distrib, ← Finset.sum_div, ← Finset.sum_mul]
    rw [hsum, ← hD, mul_comm D, mul_div_assoc, hbD', hbdef]
    ring
  · have hle : x i j ≤ 1 + t := by
      have h1 : x i j ≤ ∑ j, x i j :=
        Finset.single_le_sum (f := fun j => x i j) (fun j _ => (hx i j).le) (Finset.mem_univ j)
      linarith [(abs_le.1 (hrow i)).2]
    have e : x i j - x i j / (1 + t) = x i j * t / (1 + t) := by field_simp; ring
    have h2 : x i j * t / (1 + t) ≤ t := by
      rw [div_le_iff₀ h1t]; nlinarith
    have h3 : 0 ≤ x i j * t / (1 + t) := div_nonneg (mul_nonneg (hx i j).le ht0) h1t.le
    simp only [of_apply]
    rw [← ht, ← sub_sub, e, abs_le]
    obtain ⟨h4, h5⟩ := hex i j
    constructor <;> linarith

/-- **C126.** An accepted vector is, entry by entry, within three times `atol` of a tangent
vector. -/
theorem C126_birkhoff_tangent_near {atol rtol : ℝ} {u : Matrix (Fin n) (Fin n) ℝ}
    (h : Birkhoff.CheckTangent atol rtol u) :
    ∃ v, Birkhoff.Tangent v ∧ ∀ i j, |u i j - v i j| ≤ 3 * atol := by
  rcases Nat.eq_zero_or_pos n with rfl | hn
  · exact ⟨0, ⟨fun i => i.elim0, fun i => i.elim0⟩, fun i => i.elim0⟩
  have hrow : ∀ i, |∑ j, u i j| ≤ atol := fun i => by
    have := h.1 i; unfold Close at this; simpa using this
  have hcol : ∀ j, |∑ i, u i j| ≤ atol := fun j => by
    have := h.2 j; unfold Close at this; simpa using this
  have hn' : (1 : ℝ) ≤ n := by exact_mod_cast hn
  have hn0 : (0 : ℝ) < n := by linarith
  obtain ⟨s, hs⟩ : ∃ s, s = ∑ i, ∑ j, u i j := ⟨_, rfl⟩
  have hs' : ∑ j, ∑ i, u i j = s := by rw [hs, Finset.sum_comm]
  have ha0 : 0 ≤ atol := (abs_nonneg _).trans (hrow ⟨0, hn⟩)
  have hsle : |s| ≤ n * atol := by
    rw [hs]
    calc |∑ i, ∑ j, u i j| ≤ ∑ i : Fin n, |∑ j, u i j| := Finset.abs_sum_le_sum_abs _ _
      _ ≤ ∑ _i : Fin n, atol := Finset.sum_le_sum fun i _ => hrow i
      _ = n * atol := by simp
  refine ⟨Matrix.of fun i j => u i j - (∑ j, u i j) / n - (∑ i, u i j) / n + s / n ^ 2,
    ⟨fun i => ?_, fun j => ?_⟩, fun i j => ?_⟩
  · simp only [rowSum, of_apply, Finset.sum_add_distrib, Finset.sum_sub_distrib, ← Finset.sum_div,
      Finset.sum_const, Finset.card_univ, Fintype.card_fin, nsmul_eq_mul, hs']
    field_simp
    ring
  · simp only [colSum, of_apply, Finset.sum_add_distrib, Finset.sum_sub_distrib, ← Finset.sum_div,
      Finset.sum_const, Finset.card_univ, Fintype.card_fin, nsmul_eq_mul, ← hs]
    field_simp
    ring
  · simp only [of_apply]
    have e : u i j - (u i j - (∑ j, u i j) / n - (∑ i, u i j) / n + s / n ^ 2) =
        (∑ j, u i j) / n + (∑ i, u i j) / n - s / n ^ 2 := by ring
    rw [e]
    have h1 : |(∑ j, u i j) / n| ≤ atol := by
      rw [abs_div, abs_of_pos hn0, div_le_iff₀ hn0]
      nlinarith [hrow i]
    have h2 : |(∑ i, u i j) / n| ≤ atol := by
      rw [abs_div, abs_of_pos hn0, div_le_iff₀ hn0]
      nlinarith [hcol j]
    have h3 : |s / n ^ 2| ≤ atol := by
      rw [abs_div, abs_of_pos (by positivity : (0:ℝ) < n ^ 2), div_le_iff₀ (by positivity)]
      refine hsle.trans ?_
      rw [mul_comm]
      exact mul_le_mul_of_nonneg_left (by nlinarith) ha0
    calc _ ≤ |(∑ j, u i j) / n + (∑ i, u i j) / n| + |s / n ^ 2| := abs_sub _ _
      _ ≤ |(∑ j, u i j) / n| + |(∑ i, u i j) / n| + |s / n ^ 2| := by
        linarith [abs_add_le ((∑ j, u i j) / n) ((∑ i, u i j) / n)]
      _ ≤ 3 * atol := by linarith

end birkhoff

/-! ## Siegel -/

section siegel
open Siegel

theorem symmetric_exact {z : CMat n} : isComplexSymmetric z 0 0 ↔ CSymm z := by
  constructor
  · rintro ⟨h1, h2⟩ i j
    have e1 : |reM z i j - (reM z)ᵀ i j| ≤ 0 := by simpa using h1 i j
    have e2 : |imM z i j - (imM z)ᵀ i j| ≤ 0 := by simpa using h2 i j
    have e1 := abs_nonpos_iff.1 e1
    have e2 := abs_nonpos_iff.1 e2
    simp only [reM, imM, of_apply, transpose_apply] at e1 e2
    exact Complex.ext (by linarith) (by linarith)
  · intro h
    exact symm_close h le_rfl le_rfl

/-- **C126.** With tolerances zero both Siegel manifolds accept exactly their points, and exactly
the symmetric tangent vectors. -/
theorem C126_siegel_exact (E : EigvalsL n) (E' : EigvalsH n) (z u : CMat n) :
    (upperCheckPoint E z 0 0 ↔ OnUpperHalf z) ∧ (boundedCheckPoint E' z 0 0 ↔ OnBounded z) ∧
      (Siegel.checkVector u 0 0 ↔ CSymm u) := by
  refine ⟨⟨fun h => ?_, fun h => ?_⟩, ⟨fun h => ?_, fun h => ?_⟩, ⟨fun h i j => ?_, fun h i j => ?_⟩⟩
  · exact (C70_upper_check E (symmetric_exact.1 h.1) le_rfl le_rfl).1 h
  · exact (C70_upper_check E h.1 le_rfl le_rfl).2 h
  · exact (C70_bounded_check E' (symmetric_exact.1 h.1) le_rfl le_rfl).1 h
  · exact (C70_bounded_check E' h.1 le_rfl le_rfl).2 h
  · have h1 : Real.sqrt (Complex.normSq (u i j - u j i)) ≤ 0 := by simpa using h i j
    have h2 := Real.sqrt_eq_zero'.1 (le_antisymm h1 (Real.sqrt_nonneg _))
    have h3 := le_antisymm h2 (Complex.normSq_nonneg _)
    exact sub_eq_zero.1 (Complex.normSq_eq_zero.1 h3)
  · rw [h i j]; simp

/-- **C126.** A matrix accepted by the upper half space is, entry by entry, within the tolerances of
a point. -/
theorem C126_upper_near (E : EigvalsL n) {atol rtol : ℝ} (ha : 0 ≤ atol) (hr : 0 ≤ rtol) {z : CMat n}
    (h : upperCheckPoint E z atol rtol) :
    ∃ y, OnUpperHalf y ∧ ∀ i j, |(z i j).re - (y i j).re| ≤ atol + rtol * |(z i j).re| ∧
      |(z i j).im - (y i j).im| ≤ atol + rtol * |(z i j).im| := by
  have hs : CSymm (Matrix.of fun i j => if j ≤ i then z i j else z j i : CMat n) := by
    intro i j
    simp only [of_apply]
    rcases lt_trichotomy i j with hij | hij | hij
    · rw [if_neg (not_le.2 hij), if_pos hij.le]
    · rw [hij]
    · rw [if_pos hij.le, if_neg (not_le.2 hij)]
  refine ⟨Matrix.of fun i j => if j ≤ i then z i j else z j i, ?_, fun i j => ?_⟩
  · rw [imM_onSPD hs]
    have e : imM (Matrix.of fun i j => if j ≤ i then z i j else z j i : CMat n) = lower (imM z) := by
      ext i j
      simp only [imM, lower, of_apply]
      split_ifs <;> rfl
    rw [e]
    obtain ⟨v, hv, hE⟩ := E.eq (imM z)
    have hd : SPD.Dec (lower (imM z)) (E.e (imM z)) v := ⟨hv, hE⟩
    have := SPD.onSPD_fn hd (fun t => t) h.2
    rwa [SPD.fn_id hd] at this
  · have h1 : 0 ≤ rtol * |(z i j).re| := by positivity
    have h2 : 0 ≤ rtol * |(z i j).im| := by positivity
    simp only [of_apply]
    split_ifs with hij
    · simp only [sub_self, abs_zero]
      constructor <;> linarith
    · have e1 := h.1.1 j i
      have e2 := h.1.2 j i
      simp only [reM, imM, of_apply, transpose_apply] at e1 e2
      rw [abs_sub_comm (z i j).re, abs_sub_comm (z i j).im]
      exact ⟨e1, e2⟩

/-- **C126.** An accepted vector is within half the tolerances of a symmetric one. -/
theorem C126_siegel_tangent_near {atol rtol : ℝ} {u : CMat n} (h : Siegel.checkVector u atol rtol) :
    ∃ v, CSymm v ∧ ∀ i j, ‖u i j - v i j‖ ≤ (atol + rtol * ‖u i j‖) / 2 := by
  refine ⟨Matrix.of fun i j => (u i j + u j i) / 2, fun i j => ?_, fun i j => ?_⟩
  · simp only [of_apply]; rw [add_comm]
  · have h1 := h j i
    have e : ∀ w : ℂ, Real.sqrt (Complex.normSq w) = ‖w‖ := fun w => rfl
    rw [e, e] at h1
    simp only [of_apply]
    rw [show u i j - (u i j + u j i) / 2 = -((u j i - u i j) / 2) by ring, norm_neg, norm_div]
    simp only [Complex.norm_ofNat]
    linarith

/-- **C126.** The vectors returned by `egrad2rgrad` and `proju` are accepted with any tolerances, and
so are transported accepted vectors. -/
theorem C126_siegel_tangent_accepts {atol rtol : ℝ} (ha : 0 ≤ atol) (hr : 0 ≤ rtol) (z y u : CMat n) :
    Siegel.checkVector (upperProju z u) atol rtol ∧ Siegel.checkVector (boundedProju z u) atol rtol ∧
      Siegel.checkVector (upperEgrad2rgrad z u) atol rtol ∧
      Siegel.checkVector (boundedEgrad2rgrad z u) atol rtol ∧
      (Siegel.checkVector u atol rtol → Siegel.checkVector (Siegel.transp z y u) atol rtol) := by
  have key : ∀ w : CMat n, Siegel.checkVector (symC w) atol rtol := by
    intro w i j
    rw [symC_symm w i j]
    simp only [sub_self, map_zero, Real.sqrt_zero]
    positivity
  exact ⟨key _, key _, key _, key _, fun h => h⟩

/-- **C126.** The origin of the bounded domain is accepted. -/
theorem C126_bounded_origin (E : EigvalsH n) {atol rtol : ℝ} (ha : 0 ≤ atol) (hr : 0 ≤ rtol) :
    boundedCheckPoint E (boundedOrigin n) atol rtol := by
  have hs : CSymm (boundedOrigin n) := fun i j => rfl
  refine (C70_bounded_check E hs ha hr).2 ⟨hs, fun w hw => ?_⟩
  have : len2 (boundedOrigin n *ᵥ w) = 0 := by simp [boundedOrigin, len2]
  rw [this]
  obtain ⟨i, hi⟩ := Function.ne_iff.1 hw
  exact Finset.sum_pos' (fun i _ => Complex.normSq_nonneg _)
    ⟨i, Finset.mem_univ _, Complex.normSq_pos.2 hi⟩

end siegel

/-! ## Where the checks accept what is far away -/

/-- **C126.** Three checks accept, with tolerances zero, what is as far from the manifold as one
likes: the check of the Birkhoff polytope does not look at the signs of the entries, the one of the
hyperboloid does not look at the sheet, and the tangent check of a sphere in a subspace does not look
at the subspace. -/
theorem C126_counterexample (R : ℝ) (hR : 0 < R) :
    (∃ x : Matrix (Fin 2) (Fin 2) ℝ, Birkhoff.CheckPoint 0 0 x ∧
      ∀ y : Matrix (Fin 2) (Fin 2) ℝ, Birkhoff.DoublyStochastic y → R < |x 0 1 - y 0 1|) ∧
    (∃ x : Vec 2, Lorentz.CheckPoint 1 0 0 x ∧
      ∀ y : Vec 2, Lorentz.OnHyperboloid 1 y → R < |x 0 - y 0|) ∧
    (∃ (S : Set (Vec 3)) (P : Matrix (Fin 3) (Fin 3) ℝ) (x u : Vec 3), Sphere.Projects S (some P) ∧
      Sphere.OnSphere S x ∧ Sphere.CheckTangent 0 0 x u ∧
      ∀ v, Sphere.Tangent S x v → R < |u 2 - v 2|) := by
  refine ⟨⟨!![1 + R, -R; -R, 1 + R], ?_, fun y hy => ?_⟩, ⟨![-(R + 1), Real.sqrt ((R + 1) ^ 2 - 1)],
    ?_, fun y hy => ?_⟩, ?_⟩
  · simp only [Birkhoff.CheckPoint, close_zero]
    refine ⟨fun i => ?_, fun j => ?_⟩
    · fin_cases i <;> simp [Fin.sum_univ_two]
    · fin_cases j <;> simp [Fin.sum_univ_two]
  · have := hy.pos 0 1
    rw [abs_sub_comm]
    refine lt_of_lt_of_le ?_ (le_abs_self _)
    simp; linarith
  · have h1 : 0 ≤ (R + 1) ^ 2 - 1 := by nlinarith
    unfold Lorentz.CheckPoint
    simp [Fin.tail, Real.sq_sqrt h1]
    ring
  · have := hy.2
    rw [abs_sub_comm]
    refine lt_of_lt_of_le ?_ (le_abs_self _)
    simp; linarith
  · refine ⟨{v | v 2 = 0}, !![1, 0, 0; 0, 1, 0; 0, 0, 0], ![1, 0, 0], ![0, 0, R + 1], ⟨?_, ?_, ?_⟩,
      ⟨?_, ?_⟩, ?_, fun v hv => ?_⟩
    · intro v
      simp [Matrix.mulVec, dotProduct, Fin.sum_univ_three]
    · intro v hv
      have hv' : v 2 = 0 := hv
      ext i
      fin_cases i <;> simp [Matrix.mulVec, dotProduct, Fin.sum_univ_three, hv']
    · intro v w hw
      have hw' : w 2 = 0 := hw
      simp [Matrix.mulVec, dotProduct, Fin.sum_univ_three, hw']
    · simp [dotProduct, Fin.sum_univ_three]
    · simp
    · simp [Sphere.CheckTangent, Sphere.inner, dotProduct, Fin.sum_univ_three]
    · have h2 : v 2 = 0 := hv.2
      rw [h2, sub_zero]
      refine lt_of_lt_of_le ?_ (le_abs_self _)
      simp

/-! ## the hypotheses are met -/

/-- a vector off the sphere that is accepted with tolerances -/
example : Sphere.CheckPoint none 0.01 0.01 (![0.99, 0] : Vec 2) ∧
    ¬ Sphere.OnSphere Set.univ (![0.99, 0] : Vec 2) := by
  have h : nrm (![0.99, 0] : Vec 2) = 0.99 :=
    nrm_eq_of_dot_eq (by norm_num) (by simp [dotProduct, Fin.sum_univ_two]; norm_num)
  refine ⟨⟨by rw [h]; norm_num [abs_le], fun i => ?_⟩, fun h1 => ?_⟩
  · simp only [Sphere.projectOnSubspace, sub_self, abs_zero]; positivity
  · have := dot_self_iff.1 h1.1
    rw [h] at this
    norm_num at this

/-- an accepted matrix of the Birkhoff polytope that is not doubly stochastic -/
example : Birkhoff.Positive (!![0.5, 0.51; 0.5, 0.5] : Matrix (Fin 2) (Fin 2) ℝ) ∧
    Birkhoff.CheckPoint 0.01 0.01 (!![0.5, 0.51; 0.5, 0.5] : Matrix (Fin 2) (Fin 2) ℝ) := by
  refine ⟨fun i j => ?_, fun i => ?_, fun j => ?_⟩
  · fin_cases i <;> fin_cases j <;> norm_num
  · fin_cases i <;> norm_num [Birkhoff.Close, Fin.sum_univ_two, abs_le]
  · fin_cases j <;> norm_num [Birkhoff.Close, Fin.sum_univ_two, abs_le]

/-- an accepted vector near the hyperboloid -/
example : Lorentz.CheckPoint 1 0.01 0.01 (![1.001, 0] : Vec 2) ∧
    (0:ℝ) ≤ (![1.001, 0] : Vec 2) 0 := by
  constructor
  · norm_num [Lorentz.CheckPoint, Fin.tail, abs_le]
  · norm_num

/-- an accepted 1×1 matrix of the Stiefel manifold with its singular value decomposition -/
example : Linalg.IsSVD (!![1.001] : Matrix (Fin 1) (Fin 1) ℝ) !![1] (fun _ => 1.001) !![1] ∧
    Stiefel.CheckPoint 0.01 0 (!![1.001] : Matrix (Fin 1) (Fin 1) ℝ) := by
  refine ⟨⟨?_, ?_, ?_, fun i => by norm_num⟩, fun i j => ?_⟩
  · ext i j; fin_cases i; fin_cases j; simp [Matrix.mul_apply]
  · ext i j; fin_cases i; fin_cases j; simp [Matrix.mul_apply]
  · ext i j; fin_cases i; fin_cases j; simp [Matrix.mul_apply]
  · fin_cases i; fin_cases j; norm_num [Matrix.mul_apply, abs_le]

end Geoopt.C126
