import Verif.Props.C103
import Verif.Props.C91
import Verif.Props.C99Manifolds

/-!
# C103 on the manifolds of the library
-/

namespace Geoopt.C103
open Geoopt Geoopt.Optim C55 Matrix

theorem sum_mul_le {ι : Type} [Fintype ι] (u v : ι → ℝ) {p q : ℝ} (hp : 0 ≤ p) (hq : 0 ≤ q)
    (hu : sqLen u ≤ p ^ 2) (hv : sqLen v ≤ q ^ 2) : ∑ i, u i * v i ≤ p * q := by
  refine (abs_le_of_sq_le_sq' ?_ (mul_nonneg hp hq)).2
  refine le_trans (Finset.sum_mul_sq_le_sq_mul_sq _ _ _) ?_
  rw [mul_pow]
  exact mul_le_mul hu hv (sqLen_nonneg _) (sq_nonneg _)

/-- A step that agrees with the Riemannian gradient to first order: the displacement is `-lr w + z`, where
`w` pairs with the gradient like the Riemannian gradient `r` with itself, the displacement is of order
`lr |r|` and the rest `z` of order `lr² |r|²`. -/
def SecondOrder {ι : Type} [Fintype ι] (M : Optim.Manifold ι) (On : (ι → ℝ) → Prop) (A B : ℝ) : Prop :=
  ∀ x g lr, On x → 0 < lr → ∃ w z : ι → ℝ, gradStep M x g lr - x = -lr • w + z ∧
    ∑ i, g i * w i = sqLen (rgrad M x g) ∧
    sqLen (gradStep M x g lr - x) ≤ A * (lr ^ 2 * sqLen (rgrad M x g)) ∧
    sqLen z ≤ B * (lr ^ 2 * sqLen (rgrad M x g)) ^ 2

theorem trainable_of {ι : Type} [Fintype ι] {M : Optim.Manifold ι} {geo : Geometry M}
    (hb : ∃ R, ∀ x, geo.On x → ∀ i, |x i| ≤ R) {A B : ℝ} (hA : 0 ≤ A) (hB : 0 ≤ B)
    (h : SecondOrder M geo.On A B) : Trainable geo (gradProgress M) := by
  refine ⟨hb, fun x g lr hlr => mul_nonneg (by linarith) (sqLen_nonneg _), fun L b hL hb => ?_⟩
  set D := b * Real.sqrt B + L / 2 * A with hD
  have hD0 : 0 ≤ D := by have := Real.sqrt_nonneg B; positivity
  refine ⟨1 / (2 * D + 1), by positivity, fun x g lr hx hg hlr hle => ?_⟩
  obtain ⟨w, z, h1, h2, h3, h4⟩ := h x g lr hx hlr
  set s := sqLen (rgrad M x g) with hs
  have hs0 : 0 ≤ s := sqLen_nonneg _
  have h5 : ∑ i, g i * (gradStep M x g lr i - x i) = -lr * s + ∑ i, g i * z i := by
    have e : ∀ i, gradStep M x g lr i - x i = -lr * w i + z i := fun i => congrFun h1 i
    simp only [e, mul_add, Finset.sum_add_distrib]
    rw [← h2, Finset.mul_sum]
    congr 1
    exact Finset.sum_congr rfl fun i _ => by ring
  have h6 : ∑ i, g i * z i ≤ b * (Real.sqrt B * (lr ^ 2 * s)) := by
    refine sum_mul_le g z hb (by have := Real.sqrt_nonneg B; positivity) hg ?_
    rw [mul_pow, Real.sq_sqrt hB]; exact h4
  have h7 : L / 2 * sqLen (gradStep M x g lr - x) ≤ L / 2 * (A * (lr ^ 2 * s)) :=
    mul_le_mul_of_nonneg_left h3 (by linarith)
  have h8 : lr * D ≤ 1 / 2 := by
    have : lr * (2 * D + 1) ≤ 1 := by
      rw [le_div_iff₀ (by linarith)] at hle; exact hle
    nlinarith
  have h9 : b * (Real.sqrt B * (lr ^ 2 * s)) + L / 2 * (A * (lr ^ 2 * s)) = (lr * D) * (lr * s) := by
    rw [hD]; ring
  have h10 : (lr * D) * (lr * s) ≤ 1 / 2 * (lr * s) :=
    mul_le_mul_of_nonneg_right h8 (mul_nonneg hlr.le hs0)
  rw [h5, gradProgress]
  linarith

theorem sqLen_eq_dot {n : ℕ} (u : Vec n) : sqLen u = u ⬝ᵥ u := by
  simp only [sqLen, dotProduct, sq]

section Sphere
variable {n : ℕ} {S : Set (Vec n)} {Pr : Option (Matrix (Fin n) (Fin n) ℝ)}

theorem sphere_bounded : ∃ R : ℝ, ∀ x : Vec n, Sphere.OnSphere S x → ∀ i, |x i| ≤ R := by
  refine ⟨1, fun x hx i => ?_⟩
  rw [← sq_le_one_iff_abs_le_one]
  have h1 : sqLen x = 1 := by rw [sqLen_eq_dot]; exact hx.1
  rw [← h1]
  exact Finset.single_le_sum (f := fun i => x i ^ 2) (fun _ _ => sq_nonneg _) (Finset.mem_univ i)

/-- The retraction of the sphere along a tangent vector. -/
theorem sphere_second (hP : Sphere.Projects S Pr) {x u : Vec n} (hx : Sphere.OnSphere S x)
    (hu : Sphere.Tangent S x u) :
    sqLen (Sphere.retr Pr x u - x) ≤ u ⬝ᵥ u ∧ sqLen (Sphere.retr Pr x u - x - u) ≤ (u ⬝ᵥ u) ^ 2 := by
  have hs0 : 0 ≤ u ⬝ᵥ u := dot_self_nonneg u
  have hn : nrm (x + u) ^ 2 = 1 + u ⬝ᵥ u := by
    rw [nrm_sq, add_dotProduct, dotProduct_add, dotProduct_add, hx.1, dotProduct_comm u x, hu.1]
    ring
  have hn0 : 0 ≤ nrm (x + u) := Real.sqrt_nonneg _
  have hr : Sphere.retr Pr x u = (nrm (x + u))⁻¹ • (x + u) := by
    simp only [Sphere.retr, Sphere.projx, Sphere.pos_fix hP (Sphere.add_mem hP hx.2 hu.2)]
  rw [hr]
  set q := nrm (x + u) with hq
  have hq1 : 1 ≤ q := by nlinarith
  have hqs : u ⬝ᵥ u = q ^ 2 - 1 := by linarith
  have hqi : q * q⁻¹ = 1 := mul_inv_cancel₀ (by linarith)
  set p := q⁻¹ with hp
  have hp0 : 0 < p := inv_pos.2 (by linarith)
  have hp1 : p ≤ 1 := inv_le_one_of_one_le₀ hq1
  constructor
  · rw [sqLen_eq_dot]
    have e : (p • (x + u) - x) ⬝ᵥ (p • (x + u) - x) = (p - 1) ^ 2 + p ^ 2 * (u ⬝ᵥ u) := by
      have : p • (x + u) - x = (p - 1) • x + p • u := by module
      rw [this]
      simp only [add_dotProduct, dotProduct_add, smul_dotProduct, dotProduct_smul, smul_eq_mul,
        hx.1, dotProduct_comm u x, hu.1]
      ring
    rw [e, hqs]
    have : (p - 1) ^ 2 + p ^ 2 * (q ^ 2 - 1) = 2 - 2 * p := by
      have : p ^ 2 * q ^ 2 = 1 := by rw [← mul_pow, mul_comm, hqi, one_pow]
      linarith [this]
    rw [this]
    have h1 : 1 - p ≤ q - 1 := by nlinarith
    nlinarith
  · rw [sqLen_eq_dot]
    have e : p • (x + u) - x - u = (p - 1) • (x + u) := by module
    rw [e, smul_dotProduct, dotProduct_smul, smul_eq_mul, smul_eq_mul, ← nrm_sq, ← hq, hqs]
    have h1 : (p - 1) * ((p - 1) * q ^ 2) = (q - 1) ^ 2 := by
      have : (p - 1) * q = 1 - q := by linarith
      calc (p - 1) * ((p - 1) * q ^ 2) = ((p - 1) * q) ^ 2 := by ring
        _ = _ := by rw [this]; ring
    rw [h1]
    have h2 : q ^ 2 - 1 = (q - 1) * (q + 1) := by ring
    rw [h2, mul_pow]
    have h3 : 1 ≤ (q + 1) ^ 2 := by nlinarith
    nlinarith [sq_nonneg (q - 1)]

/-- The exponential map along a tangent vector, both branches. -/
theorem sphere_exact_second (hP : Sphere.Projects S Pr) (dt : DType) {x u : Vec n}
    (hx : Sphere.OnSphere S x) (hu : Sphere.Tangent S x u) :
    sqLen (Sphere.expmap Pr dt x u - x) ≤ u ⬝ᵥ u ∧
    sqLen (Sphere.expmap Pr dt x u - x - u) ≤ 5 * (u ⬝ᵥ u) ^ 2 := by
  unfold Sphere.expmap
  split_ifs with h
  · have he : 0 < Sphere.eps dt := by cases dt <;> norm_num [Sphere.eps]
    set θ := nrm u with hθ
    have hθ0 : 0 < θ := lt_trans he h
    have hs : u ⬝ᵥ u = θ ^ 2 := (nrm_sq u).symm
    have key : ∀ a b : ℝ, sqLen (a • x + b • u) = a ^ 2 + b ^ 2 * θ ^ 2 := by
      intro a b
      rw [sqLen_eq_dot]
      simp only [add_dotProduct, dotProduct_add, smul_dotProduct, dotProduct_smul, smul_eq_mul,
        hx.1, dotProduct_comm u x, hu.1, hs]
      ring
    have e1 : Real.cos θ • x + (Real.sin θ / θ) • u - x = (Real.cos θ - 1) • x + (Real.sin θ / θ) • u := by
      module
    have e2 : Real.cos θ • x + (Real.sin θ / θ) • u - x - u =
        (Real.cos θ - 1) • x + (Real.sin θ / θ - 1) • u := by module
    rw [e2, e1, key, key, hs]
    have hcs := Real.cos_sq_add_sin_sq θ
    have hc := Real.one_sub_sq_div_two_le_cos (x := θ)
    have hc1 := Real.cos_le_one θ
    constructor
    · have : (Real.sin θ / θ) ^ 2 * θ ^ 2 = Real.sin θ ^ 2 := by field_simp
      rw [this]
      nlinarith
    · have : (Real.sin θ / θ - 1) ^ 2 * θ ^ 2 = (θ - Real.sin θ) ^ 2 := by field_simp; ring
      rw [this]
      have h1 : (Real.cos θ - 1) ^ 2 ≤ (θ ^ 2) ^ 2 := by
        rw [← neg_sq, neg_sub]
        exact pow_le_pow_left₀ (by linarith) (by nlinarith [sq_nonneg θ]) 2
      have h2 : (θ - Real.sin θ) ^ 2 ≤ (2 * θ ^ 2) ^ 2 := by
        have hle := (Real.sin_lt hθ0).le
        refine pow_le_pow_left₀ (by linarith) ?_ 2
        rcases le_or_gt θ 1 with h3 | h3
        · have h4 := Real.sin_gt_sub_cube hθ0
          nlinarith [pow_pos hθ0 2, pow_pos hθ0 3]
        · have := Real.neg_one_le_sin θ
          nlinarith
      nlinarith
  · obtain ⟨h1, h2⟩ := sphere_second hP hx hu
    exact ⟨h1, le_trans h2 (by nlinarith [sq_nonneg (u ⬝ᵥ u)])⟩

theorem sphere_smul {u x : Vec n} (hP : Sphere.Projects S Pr) (c : ℝ) (h : Sphere.Tangent S x u) :
    Sphere.Tangent S x (c • u) := (sphereTan hP x).smul_mem c h

/-- **C103 on the sphere**, with or without subspace. -/
theorem C103_sphere (hP : Sphere.Projects S Pr) :
    Trainable (sphereGeometry hP) (gradProgress (sphere Pr)) := by
  refine trainable_of sphere_bounded (A := 1) (B := 1) zero_le_one zero_le_one fun x g lr hx hlr => ?_
  obtain ⟨h1, h2⟩ := Sphere.C19_sphere hP hx (g := g)
  set r := Sphere.egrad2rgrad Pr x g with hr
  obtain ⟨h3, h4⟩ := sphere_second hP hx (sphere_smul hP (-lr) h1)
  have es : (-lr • r) ⬝ᵥ (-lr • r) = lr ^ 2 * sqLen r := by
    rw [sqLen_eq_dot, smul_dotProduct, dotProduct_smul, smul_eq_mul, smul_eq_mul]; ring
  rw [es] at h3 h4
  refine ⟨r, Sphere.retr Pr x (-lr • r) - x - -lr • r, ?_, ?_, ?_, ?_⟩
  · change Sphere.retr Pr x (-lr • r) - x = _
    abel
  · change g ⬝ᵥ r = sqLen r
    rw [sqLen_eq_dot]; exact (h2 r h1).symm
  · rw [one_mul]; exact h3
  · rw [one_mul]; exact h4

/-- **C103 on the sphere with the exponential map.** -/
theorem C103_sphere_exact (hP : Sphere.Projects S Pr) (dt : DType) :
    Trainable (sphereExactGeometry dt hP) (gradProgress (sphereExact Pr dt)) := by
  refine trainable_of sphere_bounded (A := 1) (B := 5) zero_le_one (by norm_num) fun x g lr hx hlr => ?_
  obtain ⟨h1, h2⟩ := Sphere.C19_sphere hP hx (g := g)
  set r := Sphere.egrad2rgrad Pr x g with hr
  obtain ⟨h3, h4⟩ := sphere_exact_second hP dt hx (sphere_smul hP (-lr) h1)
  have es : (-lr • r) ⬝ᵥ (-lr • r) = lr ^ 2 * sqLen r := by
    rw [sqLen_eq_dot, smul_dotProduct, dotProduct_smul, smul_eq_mul, smul_eq_mul]; ring
  rw [es] at h3 h4
  refine ⟨r, Sphere.expmap Pr dt x (-lr • r) - x - -lr • r, ?_, ?_, ?_, ?_⟩
  · change Sphere.expmap Pr dt x (-lr • r) - x = _
    abel
  · change g ⬝ᵥ r = sqLen r
    rw [sqLen_eq_dot]; exact (h2 r h1).symm
  · rw [one_mul]; exact h3
  · exact h4

end Sphere

section Stiefel
variable {n m p : ℕ}
open Stiefel Linalg

/-- The squared Frobenius norm. -/
def fro (z : Matrix (Fin n) (Fin m) ℝ) : ℝ := ∑ i, ∑ j, z i j ^ 2

theorem fro_nonneg (z : Matrix (Fin n) (Fin m) ℝ) : 0 ≤ fro z :=
  Finset.sum_nonneg fun _ _ => Finset.sum_nonneg fun _ _ => sq_nonneg _

theorem fro_eq (z : Matrix (Fin n) (Fin m) ℝ) : fro z = (zᵀ * z).trace := by
  simp only [fro, Matrix.trace, Matrix.diag, Matrix.mul_apply, Matrix.transpose_apply, sq]
  exact Finset.sum_comm

theorem sqLen_fro (u : Fin n × Fin m → ℝ) : sqLen u = fro (toMat u) := by
  simp only [sqLen, fro, toMat, Fintype.sum_prod_type]

theorem fro_transpose (z : Matrix (Fin n) (Fin m) ℝ) : fro zᵀ = fro z := by
  simp only [fro, Matrix.transpose_apply]
  exact Finset.sum_comm

theorem fro_smul (c : ℝ) (z : Matrix (Fin n) (Fin m) ℝ) : fro (c • z) = c ^ 2 * fro z := by
  simp only [fro, Matrix.smul_apply, smul_eq_mul, mul_pow, Finset.mul_sum]

theorem fro_add_le (a b : Matrix (Fin n) (Fin m) ℝ) : fro (a + b) ≤ 2 * fro a + 2 * fro b := by
  simp only [fro, Finset.mul_sum, ← Finset.sum_add_distrib, Matrix.add_apply]
  exact Finset.sum_le_sum fun i _ => Finset.sum_le_sum fun j _ => by nlinarith [sq_nonneg (a i j - b i j)]

theorem fro_neg (a : Matrix (Fin n) (Fin m) ℝ) : fro (-a) = fro a := by
  simp only [fro, Matrix.neg_apply, neg_sq]

theorem fro_mul_le (a : Matrix (Fin n) (Fin m) ℝ) (b : Matrix (Fin m) (Fin p) ℝ) :
    fro (a * b) ≤ fro a * fro b := by
  have h1 : ∀ i j, (a * b) i j ^ 2 ≤ (∑ k, a i k ^ 2) * ∑ k, b k j ^ 2 := fun i j => by
    rw [Matrix.mul_apply]
    exact Finset.sum_mul_sq_le_sq_mul_sq _ _ _
  calc fro (a * b) ≤ ∑ i, ∑ j, (∑ k, a i k ^ 2) * ∑ k, b k j ^ 2 :=
        Finset.sum_le_sum fun i _ => Finset.sum_le_sum fun j _ => h1 i j
    _ = fro a * fro b := by
        rw [← fro_transpose b]
        simp only [fro, Matrix.transpose_apply]
        rw [Finset.sum_mul]
        exact Finset.sum_congr rfl fun i _ => (Finset.mul_sum _ _ _).symm

theorem fro_on {x : Matrix (Fin n) (Fin m) ℝ} (hx : OnStiefel x) : fro x = m := by
  rw [fro_eq, show xᵀ * x = 1 from hx, Matrix.trace_one, Fintype.card_fin]

/-- Multiplication with orthonormal columns from the left. -/
theorem fro_isom {x : Matrix (Fin n) (Fin m) ℝ} (hx : OnStiefel x) (b : Matrix (Fin m) (Fin p) ℝ) :
    fro (x * b) = fro b := by
  rw [fro_eq, fro_eq, Matrix.transpose_mul, Matrix.mul_assoc, ← Matrix.mul_assoc xᵀ,
    show xᵀ * x = 1 from hx, Matrix.one_mul]

theorem stiefel_bounded : ∃ R : ℝ, ∀ x : Fin n × Fin m → ℝ, OnStiefel (toMat x) → ∀ i, |x i| ≤ R := by
  refine ⟨Real.sqrt m, fun x hx i => Real.abs_le_sqrt ?_⟩
  have h1 := fro_on hx
  rw [← sqLen_fro] at h1
  rw [← h1]
  exact Finset.single_le_sum (f := fun i => x i ^ 2) (fun _ _ => sq_nonneg _) (Finset.mem_univ i)

/-- `(1 - a/2)⁻¹` does not make vectors longer. -/
theorem fro_solve_le {a : Matrix (Fin n) (Fin n) ℝ} (ha : aᵀ = -a) (y : Matrix (Fin n) (Fin m) ℝ) :
    fro ((1 - (1 / 2 : ℝ) • a)⁻¹ * y) ≤ fro y := by
  obtain ⟨z, hz⟩ : ∃ z, z = (1 - (1 / 2 : ℝ) • a)⁻¹ * y := ⟨_, rfl⟩
  rw [← hz]
  have hy : y = z - (1 / 2 : ℝ) • (a * z) := by
    have : (1 - (1 / 2 : ℝ) • a) * z = y := by
      rw [hz, ← Matrix.mul_assoc, Matrix.mul_nonsing_inv _ (isUnit_skew ha _), Matrix.one_mul]
    rw [← this, Matrix.sub_mul, Matrix.one_mul, Matrix.smul_mul]
  have e : (zᵀ * (a * z)).trace = 0 := by
    have h1 : (zᵀ * (a * z)).trace = ((zᵀ * (a * z))ᵀ).trace := (Matrix.trace_transpose _).symm
    rw [Matrix.transpose_mul, Matrix.transpose_mul, Matrix.transpose_transpose, ha, Matrix.mul_neg,
      Matrix.neg_mul, Matrix.trace_neg, Matrix.mul_assoc] at h1
    linarith
  have e' : ((a * z)ᵀ * z).trace = 0 := by
    rw [← Matrix.trace_transpose, Matrix.transpose_mul, Matrix.transpose_transpose]; exact e
  have h2 : fro y = fro z + 1 / 4 * fro (a * z) := by
    rw [fro_eq y, hy, fro_eq z, fro_eq (a * z)]
    simp only [Matrix.transpose_sub, Matrix.transpose_smul, Matrix.sub_mul, Matrix.mul_sub,
      Matrix.smul_mul, Matrix.mul_smul, Matrix.trace_sub, Matrix.trace_smul, smul_eq_mul, e, e']
    ring
  have := fro_nonneg (a * z)
  linarith

/-- The Cayley retraction. -/
theorem cayley_second {x : Matrix (Fin n) (Fin m) ℝ} (hx : OnStiefel x) (u : Matrix (Fin n) (Fin m) ℝ) :
    fro (Canonical.retr x u - x) ≤ 4 * m * fro u ∧
    fro (Canonical.retr x u - x - Canonical.amat x u * x) ≤ 4 * m * fro u ^ 2 := by
  set a := Canonical.amat x u with ha
  have hs : aᵀ = -a := amat_skew x u
  have hx' : xᵀ * x = 1 := hx
  have hfa : fro a ≤ 4 * fro u := by
    have h1 : fro (x * uᵀ) = fro u := by rw [fro_isom hx, fro_transpose]
    have h2 : fro (u * xᵀ) = fro u := by
      rw [← fro_transpose, Matrix.transpose_mul, Matrix.transpose_transpose, h1]
    have := fro_add_le (u * xᵀ) (-(x * uᵀ))
    rw [fro_neg, h1, h2, ← sub_eq_add_neg] at this
    have e : a = u * xᵀ - x * uᵀ := rfl
    rw [e]; linarith
  have hd : Canonical.retr x u - x = (1 - (1 / 2 : ℝ) • a)⁻¹ * (a * x) := by
    have hu := isUnit_skew hs (1 / 2)
    rw [Canonical.retr, transpFollowOne_eq, ← ha, cay, Matrix.mul_assoc]
    have e : x = (1 - (1 / 2 : ℝ) • a)⁻¹ * ((1 - (1 / 2 : ℝ) • a) * x) := by
      rw [← Matrix.mul_assoc, Matrix.nonsing_inv_mul _ hu, Matrix.one_mul]
    nth_rewrite 2 [e]
    rw [← Matrix.mul_sub, Matrix.add_mul, Matrix.sub_mul, Matrix.one_mul, Matrix.smul_mul]
    congr 1
    module
  have hfd : fro (Canonical.retr x u - x) ≤ 4 * m * fro u := by
    rw [hd]
    refine le_trans (fro_solve_le hs _) (le_trans (fro_mul_le _ _) ?_)
    rw [fro_on hx]
    have : (0 : ℝ) ≤ m := Nat.cast_nonneg m
    nlinarith
  refine ⟨hfd, ?_⟩
  have hz : Canonical.retr x u - x - a * x = (1 / 2 : ℝ) • (a * (Canonical.retr x u - x)) := by
    have hu := isUnit_skew hs (1 / 2)
    have e : a * x = (1 - (1 / 2 : ℝ) • a) * (Canonical.retr x u - x) := by
      rw [hd, ← Matrix.mul_assoc, Matrix.mul_nonsing_inv _ hu, Matrix.one_mul]
    rw [e, Matrix.sub_mul, Matrix.one_mul, Matrix.smul_mul]
    abel
  rw [hz, fro_smul]
  have h1 := fro_mul_le a (Canonical.retr x u - x)
  have h2 := mul_le_mul hfa hfd (fro_nonneg _) (by have := fro_nonneg u; linarith)
  nlinarith

/-- **C103 on the canonical Stiefel manifold**, although its retraction is not first order exact (C80). -/
theorem C103_canonical_stiefel (proj : Matrix (Fin n) (Fin m) ℝ → Matrix (Fin n) (Fin m) ℝ)
    (hproj : ∀ x, OnStiefel x → proj x = x) :
    Trainable (stiefelGeometry proj hproj) (gradProgress (canonicalStiefel proj)) := by
  refine trainable_of stiefel_bounded (A := 4 * m) (B := 4 * m) (by positivity) (by positivity)
    fun x g lr hx hlr => ?_
  set X := toMat x with hX
  set R := Canonical.proju X (toMat g) with hR
  have hr : rgrad (canonicalStiefel proj) x g = ofMat R := rfl
  have hx' : Xᵀ * X = 1 := hx
  have ht : Stiefel.Tangent X R := C27_canonical_stiefel_tangent_partial hx (toMat g)
  obtain ⟨h1, h2⟩ := cayley_second hx (-lr • R)
  set y := Canonical.retr X (-lr • R) with hy
  have hstep : gradStep (canonicalStiefel proj) x g lr = ofMat y := rfl
  set W := R + X * (Xᵀ * R) with hW
  have hux : Rᵀ * X = -(Xᵀ * R) := by
    rw [← (show (Xᵀ * R)ᵀ = -(Xᵀ * R) from ht), Matrix.transpose_mul, Matrix.transpose_transpose]
  have ea : Canonical.amat X (-lr • R) * X = -lr • W := by
    rw [Canonical.amat, Matrix.sub_mul, Matrix.mul_assoc, hx', Matrix.mul_one, Matrix.mul_assoc,
      Matrix.transpose_smul, Matrix.smul_mul, hux, hW, Matrix.mul_smul, Matrix.mul_neg]
    module
  have es : sqLen (ofMat R) = fro R := sqLen_fro _
  rw [hr, hstep, es]
  have hfs : fro (-lr • R) = lr ^ 2 * fro R := by rw [fro_smul, neg_sq]
  rw [hfs] at h1 h2
  rw [ea] at h2
  refine ⟨ofMat W, ofMat (y - X - -lr • W), ?_, ?_, ?_, ?_⟩
  · funext p
    change y p.1 p.2 - x p = -lr * W p.1 p.2 + (y p.1 p.2 - X p.1 p.2 - -lr * W p.1 p.2)
    have : x p = X p.1 p.2 := rfl
    rw [this]; ring
  · rw [C91.sum_trace]
    change ((toMat g)ᵀ * W).trace = fro R
    have hXW : Xᵀ * W = (2 : ℝ) • (Xᵀ * R) := by
      rw [hW, Matrix.mul_add, ← Matrix.mul_assoc, hx', Matrix.one_mul, two_smul]
    have htW : Stiefel.Tangent X W := by
      have := ht
      unfold Stiefel.Tangent at *
      rw [hXW, Matrix.transpose_smul, this, smul_neg]
    have hpair := (C19_canonical_stiefel hx (toMat g) W htW).2
    have hmet : canonicalMetric X R W = (Rᵀ * R).trace := by
      have e : Rᵀ * (1 - (2⁻¹ : ℝ) • (X * Xᵀ)) * W = Rᵀ * R := by
        have e1 : (1 - (2⁻¹ : ℝ) • (X * Xᵀ)) * W = R := by
          rw [Matrix.sub_mul, Matrix.one_mul, Matrix.smul_mul, Matrix.mul_assoc, hXW, Matrix.mul_smul,
            smul_smul, hW]
          norm_num
        rw [Matrix.mul_assoc, e1]
      rw [canonicalMetric, e]
    rw [← hpair, fro_eq, ← hmet]
  · rw [sqLen_fro]; exact h1
  · rw [sqLen_fro]; exact h2

/-- The QR retraction. -/
theorem qr_second {x u q : Matrix (Fin n) (Fin m) ℝ} {r : Matrix (Fin m) (Fin m) ℝ} (hx : OnStiefel x)
    (hu : Stiefel.Tangent x u) (hq : IsQR (x + u) q r) :
    fro (Euclidean.retr q r - x - u) ≤ 4 * m ^ 2 * fro u ^ 2 := by
  have hx' : xᵀ * x = 1 := hx
  have hux : uᵀ * x = -(xᵀ * u) := by
    rw [← (show (xᵀ * u)ᵀ = -(xᵀ * u) from hu), Matrix.transpose_mul, Matrix.transpose_transpose]
  have hQ : OnStiefel (Euclidean.retr q r) := C26_retr_on_stiefel hq
  have hQ' : (Euclidean.retr q r)ᵀ * Euclidean.retr q r = 1 := hQ
  set D : Matrix (Fin m) (Fin m) ℝ := diagonal fun j => usign (r j j) with hD
  have hDD : D * D = 1 := by
    rw [hD, Matrix.diagonal_mul_diagonal, ← Matrix.diagonal_one]
    congr 1; funext j
    have := abs_usign (r j j)
    rw [← abs_mul_abs_self, this]; norm_num
  have hRe : Euclidean.retr q r = q * D := retr_eq q r
  set R := D * r with hR
  set Q := Euclidean.retr q r with hQd
  have hQR : Q * R = x + u := by
    rw [hRe, hR, Matrix.mul_assoc, ← Matrix.mul_assoc D, hDD, Matrix.one_mul, ← hq.eq]
  have hG : Rᵀ * R = 1 + uᵀ * u := by
    have e1 : Rᵀ * R = (Q * R)ᵀ * (Q * R) := by
      rw [Matrix.transpose_mul Q R, Matrix.mul_assoc, ← Matrix.mul_assoc Qᵀ, hQ', Matrix.one_mul]
    rw [e1, hQR, Matrix.transpose_add, Matrix.add_mul, Matrix.mul_add, Matrix.mul_add, hx', hux]
    abel
  have hF : ∀ v : Fin m → ℝ, 0 ≤ v ⬝ᵥ ((uᵀ * u) *ᵥ v) := by
    intro v
    rw [← Matrix.mulVec_mulVec, Matrix.dotProduct_mulVec, Matrix.vecMul_transpose]
    exact dot_self_nonneg _
  have hRu : ∀ i j, j < i → R i j = 0 := fun i j hij => by
    rw [hR, hD, Matrix.diagonal_mul, hq.upper i j hij, mul_zero]
  have hRd : ∀ j, 0 ≤ R j j := fun j => by
    rw [hR, hD, Matrix.diagonal_mul, mul_comm, mul_usign]; exact abs_nonneg _
  have hent : ∀ i j, |(uᵀ * u) i j| ≤ fro u := by
    intro i j
    rw [← fro_transpose]
    refine (abs_le_of_sq_le_sq ?_ (fro_nonneg _))
    have h1 : (uᵀ * u) i j ^ 2 ≤ fro (uᵀ * u) :=
      le_trans (Finset.single_le_sum (f := fun j => (uᵀ * u) i j ^ 2) (fun _ _ => sq_nonneg _)
        (Finset.mem_univ j)) (Finset.single_le_sum (f := fun i => ∑ j, (uᵀ * u) i j ^ 2)
        (fun _ _ => Finset.sum_nonneg fun _ _ => sq_nonneg _) (Finset.mem_univ i))
    refine le_trans h1 (le_trans (fro_mul_le _ _) ?_)
    rw [fro_transpose, sq]
  have hnear : ∀ i j, (R - 1) i j ^ 2 ≤ (2 * fro u) ^ 2 := by
    intro i j
    have := C80.factor_near_one hG hF hRu hRd i j
    rw [← fro_eq] at this
    rw [← sq_abs]
    refine pow_le_pow_left₀ (abs_nonneg _) ?_ 2
    rw [Matrix.sub_apply]
    linarith [hent i j]
  have hz : Q - x - u = -(Q * (R - 1)) := by
    rw [Matrix.mul_sub, hQR, Matrix.mul_one]; abel
  rw [hz, fro_neg, fro_isom hQ]
  calc fro (R - 1) ≤ ∑ _i : Fin m, ∑ _j : Fin m, (2 * fro u) ^ 2 :=
        Finset.sum_le_sum fun i _ => Finset.sum_le_sum fun j _ => hnear i j
    _ = _ := by simp; ring

/-- Near and far together: the displacement between points of the manifold. -/
theorem displacement_le {x y u : Matrix (Fin n) (Fin m) ℝ} (hx : OnStiefel x) (hy : OnStiefel y) {B : ℝ}
    (hB : 0 ≤ B) (h : fro (y - x - u) ≤ B * fro u ^ 2) : fro (y - x) ≤ (4 * m + 2 + 2 * B) * fro u := by
  have hm : (0 : ℝ) ≤ m := Nat.cast_nonneg m
  have h0 := fro_nonneg u
  rcases le_or_gt (fro u) 1 with h1 | h1
  · have h2 := fro_add_le (y - x - u) u
    rw [sub_add_cancel] at h2
    have h3 : fro u ^ 2 ≤ fro u := by nlinarith
    have h4 := mul_le_mul_of_nonneg_left h3 hB
    nlinarith
  · have h2 := fro_add_le y (-x)
    rw [← sub_eq_add_neg, fro_neg, fro_on hx, fro_on hy] at h2
    nlinarith

theorem euclidean_pair {x : Matrix (Fin n) (Fin m) ℝ} (hx : OnStiefel x) (g : Fin n × Fin m → ℝ) :
    Stiefel.Tangent x (Euclidean.proju x (toMat g)) ∧
    ∑ p, g p * ofMat (Euclidean.proju x (toMat g)) p = fro (Euclidean.proju x (toMat g)) := by
  obtain ⟨h1, h2⟩ := C91.euclidean_stiefel_aux hx g
  have ht := C26_proju_tangent hx (toMat g)
  refine ⟨ht, ?_⟩
  have e : ∑ p, g p * ofMat (-(Euclidean.proju x (toMat g))) p =
      -∑ p, g p * ofMat (Euclidean.proju x (toMat g)) p := by
    rw [← Finset.sum_neg_distrib]
    exact Finset.sum_congr rfl fun p _ => by
      change g p * -(Euclidean.proju x (toMat g) p.1 p.2) = _
      rw [mul_neg]; rfl
  rw [e, ← fro_eq] at h2
  linarith

theorem tangent_smul {x u : Matrix (Fin n) (Fin m) ℝ} (h : Stiefel.Tangent x u) (c : ℝ) :
    Stiefel.Tangent x (c • u) := by
  unfold Stiefel.Tangent at *
  rw [Matrix.mul_smul, Matrix.transpose_smul, h, smul_neg]

/-- **C103 on the Euclidean Stiefel manifold**, whatever QR decomposition torch returns. -/
theorem C103_euclidean_stiefel
    (qr : Matrix (Fin n) (Fin m) ℝ → Matrix (Fin n) (Fin m) ℝ × Matrix (Fin m) (Fin m) ℝ)
    (hqr : ∀ a, IsQR a (qr a).1 (qr a).2)
    (proj : Matrix (Fin n) (Fin m) ℝ → Matrix (Fin n) (Fin m) ℝ) (hproj : ∀ x, OnStiefel x → proj x = x) :
    Trainable (C99.euclideanStiefelGeometry qr hqr proj hproj) (gradProgress (euclideanStiefel qr proj)) := by
  refine trainable_of stiefel_bounded (A := 4 * m + 2 + 2 * (4 * m ^ 2)) (B := 4 * m ^ 2)
    (by positivity) (by positivity) fun x g lr hx hlr => ?_
  obtain ⟨ht, hp⟩ := euclidean_pair hx g
  set R := Euclidean.proju (toMat x) (toMat g) with hR
  have hq := hqr (toMat x + -lr • R)
  have h2 := qr_second hx (tangent_smul ht (-lr)) hq
  have h1 := displacement_le hx (C26_retr_on_stiefel hq) (by positivity) h2
  set y := Euclidean.retr (qr (toMat x + -lr • R)).1 (qr (toMat x + -lr • R)).2 with hy
  have hstep : gradStep (euclideanStiefel qr proj) x g lr = ofMat y := rfl
  have hr : rgrad (euclideanStiefel qr proj) x g = ofMat R := rfl
  have es : sqLen (ofMat R) = fro R := sqLen_fro _
  have hfs : fro (-lr • R) = lr ^ 2 * fro R := by rw [fro_smul, neg_sq]
  rw [hfs] at h1 h2
  rw [hr, hstep, es]
  refine ⟨ofMat R, ofMat (y - toMat x - -lr • R), ?_, hp, ?_, ?_⟩
  · funext p
    change y p.1 p.2 - x p = -lr * R p.1 p.2 + (y p.1 p.2 - x p - -lr * R p.1 p.2)
    ring
  · rw [sqLen_fro]; exact h1
  · rw [sqLen_fro]; exact h2

/-! ### The exponential map -/

/-- Derivatives of curves of matrices. -/
def MatDeriv {ι κ : Type} (c : ℝ → Matrix ι κ ℝ) (d : Matrix ι κ ℝ) (t : ℝ) : Prop :=
  ∀ i j, HasDerivAt (fun t => c t i j) (d i j) t

theorem deriv_mul {ι κ ν : Type} [Fintype κ] {a : ℝ → Matrix ι κ ℝ} {b : ℝ → Matrix κ ν ℝ}
    {a' : Matrix ι κ ℝ} {b' : Matrix κ ν ℝ} {t : ℝ} (ha : MatDeriv a a' t) (hb : MatDeriv b b' t) :
    MatDeriv (fun t => a t * b t) (a' * b t + a t * b') t := by
  intro i j
  simp only [Matrix.mul_apply, Matrix.add_apply]
  rw [← Finset.sum_add_distrib]
  exact HasDerivAt.fun_sum fun k _ => (ha i k).fun_mul (hb k j)

theorem deriv_exp {ι : Type} [Fintype ι] [DecidableEq ι] (M : Matrix ι ι ℝ) (t : ℝ) :
    MatDeriv (fun t : ℝ => NormedSpace.exp (t • M)) (NormedSpace.exp (t • M) * M) t := by
  open scoped Matrix.Norms.Operator in
  intro i j
  exact (LinearMap.toContinuousLinearMap (Matrix.entryLinearMap ℝ ℝ i j)).hasFDerivAt.comp_hasDerivAt
    t (hasDerivAt_exp_smul_const (𝕂 := ℝ) M t)

theorem exp_isom {a : Matrix (Fin m) (Fin m) ℝ} (ha : aᵀ = -a) : OnStiefel (NormedSpace.exp a) := by
  change (NormedSpace.exp a)ᵀ * NormedSpace.exp a = 1
  rw [← Matrix.exp_transpose, ha, Matrix.exp_neg]
  exact Matrix.nonsing_inv_mul _ ((Matrix.isUnit_iff_isUnit_det _).1 (Matrix.isUnit_exp a))

/-- Twice the mean value theorem. -/
theorem taylor {f f' : ℝ → ℝ} {f'' : ℝ → ℝ} {s : ℝ} (h1 : ∀ t, HasDerivAt f (f' t) t)
    (h2 : ∀ t, HasDerivAt f' (f'' t) t) (hs : ∀ t, |f'' t| ≤ s) : |f 1 - f 0 - f' 0| ≤ s := by
  have h3 : ∀ t ∈ Set.Icc (0 : ℝ) 1, |f' t - f' 0| ≤ s := by
    intro t ht
    have := Convex.norm_image_sub_le_of_norm_hasDerivWithin_le (f := f') (f' := f'') (C := s)
      (s := Set.Icc (0 : ℝ) 1) (fun x _ => (h2 x).hasDerivWithinAt) (fun x _ => hs x)
      (convex_Icc 0 1) (Set.left_mem_Icc.2 zero_le_one) ht
    simp only [Real.norm_eq_abs, sub_zero] at this
    refine this.trans ?_
    rw [abs_of_nonneg ht.1]
    exact mul_le_of_le_one_right (le_trans (abs_nonneg _) (hs 0)) ht.2
  have h4 := Convex.norm_image_sub_le_of_norm_hasDerivWithin_le (f := fun t => f t - t * f' 0)
    (f' := fun t => f' t - 1 * f' 0) (C := s) (s := Set.Icc (0 : ℝ) 1)
    (fun x _ => ((h1 x).sub ((hasDerivAt_id x).mul_const (f' 0))).hasDerivWithinAt)
    (fun x hx => by rw [one_mul]; exact h3 x hx) (convex_Icc 0 1) (Set.left_mem_Icc.2 zero_le_one)
    (Set.right_mem_Icc.2 zero_le_one)
  simp only [Real.norm_eq_abs, sub_zero, abs_one, mul_one, one_mul, zero_mul] at h4
  rwa [sub_right_comm] at h4

theorem expmap_second {x u : Matrix (Fin n) (Fin m) ℝ} (hx : OnStiefel x) (hu : Stiefel.Tangent x u) :
    fro (Euclidean.expmap x u - x - u) ≤ n * m * fro u ^ 2 := by
  set a := xᵀ * u with ha
  set S := uᵀ * u with hS
  have hsk : aᵀ = -a := hu
  set M : Matrix (Fin m ⊕ Fin m) (Fin m ⊕ Fin m) ℝ := fromBlocks a (-S) 1 a with hM
  set e : ℝ → Matrix (Fin m) (Fin m) ℝ := fun t => NormedSpace.exp (t • (-a)) with he
  set V := fromCols x u with hV
  set E : ℝ → Matrix (Fin m ⊕ Fin m) (Fin m ⊕ Fin m) ℝ := fun t => NormedSpace.exp (t • M) with hE
  set Y : ℝ → Matrix (Fin n) (Fin m) ℝ := fun t => V * E t * fromRows (e t) 0 with hY
  set Y' : ℝ → Matrix (Fin n) (Fin m) ℝ := fun t => V * E t * fromRows 0 (e t) with hY'
  have hYe : ∀ t, Euclidean.expmap x (t • u) = Y t := fun t => C80.expmap_curve x u t
  have hcomm : ∀ t, e t * a = a * e t := fun t => by
    have h : Commute a (t • (-a)) := ((Commute.refl a).neg_right).smul_right t
    open scoped Matrix.Norms.Operator in exact (h.exp_right).eq.symm
  have hVE : ∀ t, MatDeriv (fun t => V * E t) (V * E t * M) t := fun t => by
    have h := deriv_mul (a := fun _ => V) (a' := 0) (t := t) (fun _ _ => hasDerivAt_const _ _)
      (deriv_exp M t)
    rwa [Matrix.zero_mul, zero_add, ← Matrix.mul_assoc] at h
  have hd1 : ∀ t, MatDeriv Y (Y' t) t := by
    intro t
    have h : MatDeriv (fun t => fromRows (e t) (0 : Matrix (Fin m) (Fin m) ℝ))
        (fromRows (e t * (-a)) 0) t := by
      intro i j
      rcases i with i | i
      · exact deriv_exp (-a) t i j
      · exact hasDerivAt_const _ _
    have h2 := deriv_mul (hVE t) h
    have e1 : V * E t * M * fromRows (e t) 0 + V * E t * fromRows (e t * (-a)) 0 = Y' t := by
      rw [Matrix.mul_assoc (V * E t), ← Matrix.mul_add, hM, Matrix.fromBlocks_mul_fromRows]
      congr 1
      rw [Matrix.mul_neg, hcomm]
      ext i j
      rcases i with i | i <;> simp
    rwa [e1] at h2
  have hd2 : ∀ t, MatDeriv Y' (-(Y t * (NormedSpace.exp (t • a) * S * e t))) t := by
    intro t
    have h : MatDeriv (fun t => fromRows (0 : Matrix (Fin m) (Fin m) ℝ) (e t))
        (fromRows 0 (e t * (-a))) t := by
      intro i j
      rcases i with i | i
      · exact hasDerivAt_const _ _
      · exact deriv_exp (-a) t i j
    have h2 := deriv_mul (hVE t) h
    have hinv : e t * NormedSpace.exp (t • a) = 1 := by
      rw [he]
      simp only [smul_neg]
      rw [Matrix.exp_neg]
      exact Matrix.nonsing_inv_mul _ ((Matrix.isUnit_iff_isUnit_det _).1 (Matrix.isUnit_exp _))
    have e1 : V * E t * M * fromRows 0 (e t) + V * E t * fromRows 0 (e t * (-a)) =
        -(Y t * (NormedSpace.exp (t • a) * S * e t)) := by
      rw [Matrix.mul_assoc (V * E t), ← Matrix.mul_add, hM, Matrix.fromBlocks_mul_fromRows, hY]
      simp only
      rw [Matrix.mul_assoc (V * E t), Matrix.fromRows_mul, ← Matrix.mul_assoc, ← Matrix.mul_assoc, hinv,
        Matrix.one_mul, Matrix.mul_neg, hcomm, ← Matrix.mul_neg (V * E t)]
      congr 1
      ext i j
      rcases i with i | i <;> simp
    rwa [e1] at h2
  have hbound : ∀ t i j, |(-(Y t * (NormedSpace.exp (t • a) * S * e t))) i j| ≤ fro u := by
    intro t i j
    refine abs_le_of_sq_le_sq ?_ (fro_nonneg _)
    have hst : ∀ b : Matrix (Fin n) (Fin m) ℝ, b i j ^ 2 ≤ fro b := fun b =>
      le_trans (Finset.single_le_sum (f := fun j => b i j ^ 2) (fun _ _ => sq_nonneg _)
        (Finset.mem_univ j)) (Finset.single_le_sum (f := fun i => ∑ j, b i j ^ 2)
        (fun _ _ => Finset.sum_nonneg fun _ _ => sq_nonneg _) (Finset.mem_univ i))
    refine le_trans (hst _) ?_
    have hYt : OnStiefel (Y t) := by
      rw [← hYe]; exact C26_expmap_on_stiefel hx (tangent_smul hu t)
    have o1 : OnStiefel (NormedSpace.exp (t • a)) := exp_isom (by
      rw [Matrix.transpose_smul, hsk, smul_neg])
    have e3 : (e t)ᵀ = NormedSpace.exp (t • a) := by
      rw [he]
      simp only
      rw [← Matrix.exp_transpose, Matrix.transpose_smul, Matrix.transpose_neg, hsk, neg_neg]
    rw [fro_neg, fro_isom hYt, Matrix.mul_assoc, fro_isom o1, ← fro_transpose, Matrix.transpose_mul, e3,
      fro_isom o1, fro_transpose, hS]
    refine le_trans (fro_mul_le _ _) ?_
    rw [fro_transpose, sq]
  have h0 : Y 0 = x := by rw [← hYe, zero_smul, C26_expmap_zero]
  have h1 : Y 1 = Euclidean.expmap x u := by rw [← hYe, one_smul]
  have h0' : Y' 0 = u := by
    rw [hY', hE, he]
    simp only [zero_smul, NormedSpace.exp_zero, Matrix.mul_one]
    rw [hV, Matrix.fromCols_mul_fromRows]
    simp
  have hent : ∀ i j, (Euclidean.expmap x u - x - u) i j ^ 2 ≤ fro u ^ 2 := by
    intro i j
    have := taylor (fun t => hd1 t i j) (fun t => hd2 t i j) (fun t => hbound t i j)
    rw [h0, h1, h0'] at this
    rw [← sq_abs]
    exact pow_le_pow_left₀ (abs_nonneg _) this 2
  calc fro (Euclidean.expmap x u - x - u) ≤ ∑ _i : Fin n, ∑ _j : Fin m, fro u ^ 2 :=
        Finset.sum_le_sum fun i _ => Finset.sum_le_sum fun j _ => hent i j
    _ = _ := by simp; ring

/-- **C103 on the Euclidean Stiefel manifold with the exponential map.** -/
theorem C103_euclidean_stiefel_exact
    (proj : Matrix (Fin n) (Fin m) ℝ → Matrix (Fin n) (Fin m) ℝ) (hproj : ∀ x, OnStiefel x → proj x = x) :
    Trainable (C99.euclideanStiefelExactGeometry proj hproj)
      (gradProgress (euclideanStiefelExact proj)) := by
  refine trainable_of stiefel_bounded (A := 4 * m + 2 + 2 * (n * m)) (B := n * m)
    (by positivity) (by positivity) fun x g lr hx hlr => ?_
  obtain ⟨ht, hp⟩ := euclidean_pair hx g
  set R := Euclidean.proju (toMat x) (toMat g) with hR
  have h2 := expmap_second hx (tangent_smul ht (-lr))
  have h1 := displacement_le hx (C26_expmap_on_stiefel hx (tangent_smul ht (-lr))) (by positivity) h2
  set y := Euclidean.expmap (toMat x) (-lr • R) with hy
  have hstep : gradStep (euclideanStiefelExact proj) x g lr = ofMat y := rfl
  have hr : rgrad (euclideanStiefelExact proj) x g = ofMat R := rfl
  have es : sqLen (ofMat R) = fro R := sqLen_fro _
  have hfs : fro (-lr • R) = lr ^ 2 * fro R := by rw [fro_smul, neg_sq]
  rw [hfs] at h1 h2
  rw [hr, hstep, es]
  refine ⟨ofMat R, ofMat (y - toMat x - -lr • R), ?_, hp, ?_, ?_⟩
  · funext p
    change y p.1 p.2 - x p = -lr * R p.1 p.2 + (y p.1 p.2 - x p - -lr * R p.1 p.2)
    ring
  · rw [sqLen_fro]; exact h1
  · rw [sqLen_fro]; exact h2

end Stiefel

section Ball
variable {n : ℕ} {η k : ℝ} {dt : DType}
open Stereo

theorem radius_big (hη : 0 ≤ η) (hη1 : η ≤ 1) (hk : k < 0) (hbig : |k| ≤ 1e29) (dt : DType) :
    (1e-15 : ℝ) ≤ maxNorm η dt k := by
  rw [maxNorm_neg hk, le_div_iff₀ (kSqrt_pos hη hk.ne)]
  have h1 : kSqrt η k ≤ 9e14 := by
    rw [kSqrt, sabs, Real.sqrt_le_left (by norm_num)]
    calc |k| + η ≤ 1e29 + 1 := add_le_add hbig hη1
      _ ≤ 9e14 ^ 2 := by norm_num
  have h2 : (0.99 : ℝ) ≤ 1 - projEps dt := by cases dt <;> norm_num [projEps]
  linarith

/-- `project` is the projection onto a convex set. -/
theorem project_obtuse (h15 : (1e-15 : ℝ) ≤ maxNorm η dt k) {x : Vec n} (hx : nrm x ≤ maxNorm η dt k)
    (p : Vec n) : (p - project η dt k p) ⬝ᵥ (x - project η dt k p) ≤ 0 := by
  simp only [project]
  split_ifs with h
  · have hp : maxNorm η dt k < nrm p := by
      rcases max_cases (nrm p) (1e-15 : ℝ) with ⟨h1, -⟩ | ⟨h1, -⟩
      · rwa [h1] at h
      · rw [h1] at h; linarith
    rw [max_eq_left (by linarith)]
    set r := maxNorm η dt k with hr
    have hr0 : 0 < r := lt_of_lt_of_le (by norm_num) h15
    have hp0 : 0 < nrm p := hr0.trans hp
    rw [smul_smul]
    set c := r * (nrm p)⁻¹ with hc
    have hc1 : c ≤ 1 := by rw [hc, ← div_eq_mul_inv, div_le_one hp0]; exact hp.le
    have e1 : p - c • p = (1 - c) • p := by rw [sub_smul, one_smul]
    rw [e1, smul_dotProduct, dotProduct_sub, dotProduct_smul, smul_eq_mul, smul_eq_mul, ← nrm_sq]
    have h2 : p ⬝ᵥ x ≤ nrm p * r := by
      refine le_trans (le_abs_self _) (le_trans (abs_dot_le p x) ?_)
      exact mul_le_mul_of_nonneg_left hx hp0.le
    have h3 : c * nrm p ^ 2 = nrm p * r := by rw [hc]; field_simp
    rw [h3]
    exact mul_nonpos_of_nonneg_of_nonpos (by linarith) (by linarith)
  · rw [sub_self, zero_dotProduct]

/-- **C103 on the Poincaré ball**, including steps that the projection cuts off. -/
theorem C103_poincare (hη : 0 ≤ η) (hη1 : η ≤ 1) (hk : k < 0) (hbig : |k| ≤ 1e29) (dt : DType) :
    Trainable (ballGeometry (n := n) hη hη1 hk hbig dt)
      (stepProgress (Optim.stereographic (n := n) η dt k) 2) := by
  have h15 := radius_big hη hη1 hk hbig dt
  refine ⟨⟨maxNorm η dt k, fun x hx i => ?_⟩, fun x g lr hlr =>
    mul_nonneg (by positivity) (sqLen_nonneg _), fun L B hL hB =>
    ⟨4 / (L + 1), by positivity, fun x g lr hx _ hlr hle => ?_⟩⟩
  · have h1 : nrm x ≤ maxNorm η dt k := (valid_iff hk).1 hx
    refine le_trans (abs_le_of_sq_le_sq ?_ (nrm_nonneg x)) h1
    rw [nrm_sq, ← sqLen_eq_dot]
    exact Finset.single_le_sum (f := fun i => x i ^ 2) (fun _ _ => sq_nonneg _) (Finset.mem_univ i)
  · have h1 : nrm x ≤ maxNorm η dt k := (valid_iff hk).1 hx
    set ρ := (lambdaX k x ^ 2)⁻¹ with hρ
    have hl : 2 ≤ lambdaX k x := by
      rw [lambdaX, le_div_iff₀ (lt_of_lt_of_le (by norm_num) (le_max_right _ _))]
      have : max (1 + k * (x ⬝ᵥ x)) 1e-15 ≤ 1 :=
        max_le (by nlinarith [dot_self_nonneg x]) (by norm_num)
      linarith
    have hρ0 : 0 < ρ := by rw [hρ]; positivity
    have hρ4 : 4 * ρ ≤ 1 := by
      rw [hρ, ← div_eq_mul_inv, div_le_one (by positivity)]; nlinarith
    set y := gradStep (Optim.stereographic η dt k) x g lr with hy
    have hyp : y = project η dt k (x + -lr • (ρ • g)) := rfl
    have h2 := project_obtuse h15 h1 (x + -lr • (ρ • g))
    rw [← hyp] at h2
    set s := sqLen (y - x) with hs
    have hs0 : 0 ≤ s := sqLen_nonneg _
    have h3 : lr * ρ * ∑ i, g i * (y i - x i) ≤ -s := by
      have e : (x + -lr • (ρ • g) - y) ⬝ᵥ (x - y) = s + lr * ρ * ∑ i, g i * (y i - x i) := by
        simp only [dotProduct, hs, sqLen, Finset.mul_sum, ← Finset.sum_add_distrib, Pi.add_apply,
          Pi.sub_apply, Pi.smul_apply, smul_eq_mul]
        exact Finset.sum_congr rfl fun i _ => by ring
      linarith
    have h4 : ∑ i, g i * (y i - x i) ≤ 0 := by
      by_contra hc
      push Not at hc
      have := mul_pos (mul_pos hlr hρ0) hc
      linarith
    have h5 : lr * ∑ i, g i * (y i - x i) ≤ -4 * s := by
      have h6 : lr * (1 - 4 * ρ) * ∑ i, g i * (y i - x i) ≤ 0 :=
        mul_nonpos_of_nonneg_of_nonpos (mul_nonneg hlr.le (by linarith)) h4
      linarith
    have h6 : lr * (L + 1) ≤ 4 := by rwa [le_div_iff₀ (by linarith)] at hle
    rw [stepProgress, ← hy, ← hs]
    have h7 : lr * (∑ i, g i * (y i - x i) + L / 2 * s) ≤ lr * -(2 / lr * s) := by
      have e : lr * -(2 / lr * s) = -2 * s := by field_simp
      rw [e]
      nlinarith
    exact le_of_mul_le_mul_left h7 hlr

end Ball

/-- **C103 for ordinary parameters**: every gradient is allowed, but the parameters are not bounded, so that
only `C103_sgd` applies. -/
theorem C103_euclidean {ι : Type} [Fintype ι] {L : ℝ} (hL : 0 ≤ L) :
    Progress (Optim.euclidean ι) (fun _ => True) (fun _ => True) L (1 / (L + 1))
      (gradProgress (Optim.euclidean ι)) := by
  intro x g lr _ _ hlr hle
  have hr : rgrad (Optim.euclidean ι) x g = g := rfl
  have e : ∀ i, gradStep (Optim.euclidean ι) x g lr i - x i = -lr * g i := fun i => by
    change x i + -lr * g i - x i = _; ring
  have e' : gradStep (Optim.euclidean ι) x g lr - x = -lr • g := funext e
  have e2 : ∑ i, g i * (-lr * g i) = -lr * sqLen g := by
    rw [sqLen, Finset.mul_sum]; exact Finset.sum_congr rfl fun i _ => by ring
  have h6 : lr * (L + 1) ≤ 1 := by rwa [le_div_iff₀ (by linarith)] at hle
  have h7 := mul_nonneg hlr.le (sqLen_nonneg g)
  rw [e', gradProgress, hr, sqLen_smul]
  simp only [e, e2]
  nlinarith [mul_nonneg h7 (show 0 ≤ 1 - lr * L by linarith)]

/-- **C103 for batches**: tensors of points. -/
theorem batch_trainable (β : Type) [Fintype β] {ι : Type} [Fintype ι] {M : Optim.Manifold ι}
    {geo : Geometry M} {prog : (ι → ℝ) → (ι → ℝ) → ℝ → ℝ} (h : Trainable geo prog) :
    Trainable (batchGeometry β geo)
      (fun x g lr => ∑ b, prog (fun i => x (b, i)) (fun i => g (b, i)) lr) := by
  obtain ⟨R, hR⟩ := h.bounded
  refine ⟨⟨R, fun x hx p => hR _ (hx p.1) p.2⟩, fun x g lr hlr =>
    Finset.sum_nonneg fun b _ => h.nonneg _ _ _ hlr, fun L B hL hB => ?_⟩
  obtain ⟨δ, hδ, hp⟩ := h.progress L B hL hB
  refine ⟨δ, hδ, fun x g lr hx hg hlr hle => ?_⟩
  have hrow : ∀ b, sqLen (fun i => g (b, i)) ≤ B ^ 2 := fun b => by
    refine le_trans ?_ hg
    simp only [sqLen, Fintype.sum_prod_type]
    exact Finset.single_le_sum (f := fun b => ∑ i, g (b, i) ^ 2)
      (fun _ _ => Finset.sum_nonneg fun _ _ => sq_nonneg _) (Finset.mem_univ b)
  have := Finset.sum_le_sum fun b (_ : b ∈ Finset.univ) => hp (fun i => x (b, i)) (fun i => g (b, i)) lr
    (hx b) (hrow b) hlr hle
  rw [Finset.sum_neg_distrib, Finset.sum_add_distrib, ← Finset.mul_sum] at this
  refine le_trans (le_of_eq ?_) this
  simp only [sqLen, Fintype.sum_prod_type]
  rfl

theorem C103_batch (β : Type) [Fintype β] {ι : Type} [Fintype ι] {M : Optim.Manifold ι}
    {geo : Geometry M} (h : Trainable geo (gradProgress M)) :
    Trainable (batchGeometry β geo) (gradProgress (batch β M)) := by
  convert batch_trainable β h using 1
  funext x g lr
  simp only [gradProgress, ← Finset.mul_sum, sqLen, Fintype.sum_prod_type]
  rfl

theorem C103_batch_steps (β : Type) [Fintype β] {ι : Type} [Fintype ι] {M : Optim.Manifold ι}
    {geo : Geometry M} {c : ℝ} (h : Trainable geo (stepProgress M c)) :
    Trainable (batchGeometry β geo) (stepProgress (batch β M) c) := by
  convert batch_trainable β h using 1
  funext x g lr
  simp only [stepProgress, ← Finset.mul_sum, sqLen, Fintype.sum_prod_type]
  rfl

/-- The Riemannian gradient of the sphere is continuous. -/
theorem sphere_continuous {n : ℕ} : Continuous fun p : (Fin n → ℝ) × (Fin n → ℝ) =>
    rgrad (Optim.sphere (n := n) none) p.1 p.2 := by
  change Continuous fun p : (Fin n → ℝ) × (Fin n → ℝ) => Sphere.proju none p.1 p.2
  simp only [Sphere.proju, Sphere.projectOnSubspace, dotProduct]
  fun_prop

/-- A concrete case: maximising `⟨c, x⟩` over a unit vector `x` with the usual training loop.  For small
learning rates, from every starting point, every accumulation point is parallel to
`c`. -/
example {n : ℕ} (c : Fin n → ℝ) : ∃ δ > 0, ∀ lr, 0 < lr → lr ≤ δ → ∀ x₀ : Fin n → ℝ,
    Sphere.OnSphere Set.univ x₀ →
    let P : Params Unit fun _ => Fin n := ⟨fun _ => true, fun _ => Optim.sphere none⟩
    let o : SGD Unit fun _ => Fin n := ⟨fun _ => ⟨x₀, .none, none⟩, [⟨⟨lr, 0, 0, 0, false, none⟩, 0, [()]⟩]⟩
    let run := trained P (fun _ _ => -c) o
    (∃ x, MapClusterPt x Filter.atTop fun t => (run t).points) ∧
    ∀ x, MapClusterPt x Filter.atTop (fun t => (run t).points) → c = (x () ⬝ᵥ c) • x () := by
  obtain ⟨δ, hδ, h⟩ := C103_critical (κ := Unit) (ι := fun _ => Fin n)
    (P := ⟨fun _ => true, fun _ => Optim.sphere none⟩)
    (fun _ => sphereGeometry (S := Set.univ) (Pr := none) rfl) (fun _ => C103_sphere (S := Set.univ) (Pr := none) rfl)
    (fun _ => sphere_continuous) (fun x => ∑ i, -c i * x () i) (by fun_prop) (fun _ _ => -c)
    (fun x => ⟨∑ i, (-c i) • (ContinuousLinearMap.proj (R := ℝ) (φ := fun _ : Fin n => ℝ) i).comp
        (ContinuousLinearMap.proj (R := ℝ) (φ := fun _ : Unit => Fin n → ℝ) ()), by
      convert (∑ i, (-c i) • (ContinuousLinearMap.proj (R := ℝ) (φ := fun _ : Fin n => ℝ) i).comp
        (ContinuousLinearMap.proj (R := ℝ) (φ := fun _ : Unit => Fin n → ℝ) ())).hasFDerivAt using 1
      funext y
      simp, fun v => by simp⟩) (fun _ => 0)
  refine ⟨δ, hδ, ?_⟩
  intro lr hlr hle x₀ hx P o run
  obtain ⟨h1, h2⟩ := h (fun _ _ => lr) run lr hlr (fun _ _ => ⟨le_rfl, hle⟩)
    (C103_loop P _ o (by simp [o]) (by simp [o]) (by simp [o])) (fun _ => hx)
  refine ⟨h1, fun x hx => ?_⟩
  have h3 := h2 x hx ()
  have h4 : Sphere.proju none (x ()) (-c + (0 : ℝ) • x ()) = 0 := h3
  simp only [Sphere.proju, Sphere.projectOnSubspace, zero_smul, add_zero] at h4
  rw [dotProduct_neg, neg_smul, sub_neg_eq_add, neg_add_eq_zero] at h4
  exact h4

end Geoopt.C103
