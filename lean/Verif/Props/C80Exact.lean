import Verif.Props.C80
import Verif.Props.C35
import Verif.Lemmas.TanK
import Verif.Spec.Birkhoff

/-!
# C80, continued: QR retraction, exponential maps, Lorentz and Birkhoff
-/

namespace Geoopt.C80
open Geoopt Geoopt.SpecRetr Matrix Filter Topology

variable {n m : ℕ}

/-! ## Curves of matrices -/

lemma vel_mul {ι κ ν : Type*} [Fintype κ] {A : ℝ → Matrix ι κ ℝ} {B : ℝ → Matrix κ ν ℝ}
    {A' : Matrix ι κ ℝ} {B' : Matrix κ ν ℝ} (hA : MatVelocity A A') (hB : MatVelocity B B') :
    MatVelocity (fun t => A t * B t) (A' * B 0 + A 0 * B') := by
  intro i j
  simp only [Matrix.mul_apply, Matrix.add_apply]
  rw [← Finset.sum_add_distrib]
  exact HasDerivAt.fun_sum fun k _ => (hA i k).fun_mul (hB k j)

lemma vel_const {ι κ : Type*} (A : Matrix ι κ ℝ) : MatVelocity (fun _ => A) 0 :=
  fun _ _ => hasDerivAt_const _ _

lemma velocity_exp {ι : Type} [Fintype ι] [DecidableEq ι] (M : Matrix ι ι ℝ) :
    MatVelocity (fun t : ℝ => NormedSpace.exp (t • M)) M := by
  open scoped Matrix.Norms.Operator in
  intro i j
  have h := hasDerivAt_exp_smul_const (𝕂 := ℝ) M (0 : ℝ)
  simp only [zero_smul, NormedSpace.exp_zero, one_mul] at h
  exact (LinearMap.toContinuousLinearMap (Matrix.entryLinearMap ℝ ℝ i j)).hasFDerivAt.comp_hasDerivAt
    (0 : ℝ) h

/-! ## SPD -/

section spd
open SPD Linalg

/-- **C80** for the exponential map of the SPD manifold. -/
theorem C80_spd_expmap (E : Eigh n) {x : Matrix (Fin n) (Fin n) ℝ} (hx : OnSPD x)
    (u : Matrix (Fin n) (Fin n) ℝ) : MatFirstOrder (Fused.spd E).expmap x u := by
  change MatFirstOrder (SPD.expmap E) x u
  have r := roots (E := E) hx
  have e : ∀ t : ℝ, SPD.expmap E x (t • u) = (symInvSqrtm2 E x).2 *
      NormedSpace.exp (t • ((symInvSqrtm2 E x).1 * u * (symInvSqrtm2 E x).1)) *
        (symInvSqrtm2 E x).2 := by
    intro t; simp only [SPD.expmap, symExpm, Matrix.mul_smul, Matrix.smul_mul]
  constructor
  · have := e 0
    simp only [zero_smul, NormedSpace.exp_zero, Matrix.mul_one] at this
    rw [this]; exact r.ss
  · simp only [e]
    generalize (symInvSqrtm2 E x).1 = R at *
    generalize (symInvSqrtm2 E x).2 = S at *
    have h := vel_mul (vel_mul (vel_const S) (velocity_exp (R * u * R))) (vel_const S)
    simp only [Matrix.zero_mul, zero_add, Matrix.mul_zero, add_zero] at h
    have e2 : S * (R * u * R) * S = u := by
      calc S * (R * u * R) * S = (S * R) * u * (R * S) := by simp only [Matrix.mul_assoc]
        _ = u := by rw [r.sr, r.rs, Matrix.one_mul, Matrix.mul_one]
    rwa [e2] at h

end spd

section stiefel
open Stiefel Linalg

/-! ## Exponential map of the Euclidean Stiefel manifold -/

/-- The curve `t ↦ expmap(x, t u)` in closed form, with one exponential of a matrix linear
in `t`. -/
lemma expmap_curve (x u : Matrix (Fin n) (Fin m) ℝ) (t : ℝ) :
    Euclidean.expmap x (t • u) = fromCols x u *
      NormedSpace.exp (t • fromBlocks (xᵀ * u) (-(uᵀ * u)) 1 (xᵀ * u)) *
      fromRows (NormedSpace.exp (t • (-(xᵀ * u)))) (0 : Matrix (Fin m) (Fin m) ℝ) := by
  rcases eq_or_ne t 0 with rfl | ht
  · simp only [zero_smul, C26_expmap_zero, NormedSpace.exp_zero, Matrix.mul_one]
    rw [Matrix.fromCols_mul_fromRows]; simp
  have heye : (Matrix.of fun i j => 0 + if i = j then 1 else 0 : Matrix (Fin m) (Fin m) ℝ) = 1 := by
    ext i j; simp [Matrix.one_apply]
  simp only [Euclidean.expmap, heye]
  have e1 : xᵀ * t • u = t • (xᵀ * u) := by simp
  have e2 : (t • u)ᵀ * t • u = (t * t) • (uᵀ * u) := by simp [smul_smul]
  rw [e1, e2]
  generalize xᵀ * u = A
  generalize uᵀ * u = S
  set M : Matrix (Fin m ⊕ Fin m) (Fin m ⊕ Fin m) ℝ := fromBlocks A (-S) 1 A with hM
  set L : Matrix (Fin m ⊕ Fin m) (Fin m ⊕ Fin m) ℝ :=
    fromBlocks (t • A) (-((t * t) • S)) 1 (t • A) with hL
  set D : Matrix (Fin m ⊕ Fin m) (Fin m ⊕ Fin m) ℝ := fromBlocks (t • 1) 0 0 1 with hD
  have hsemi : SemiconjBy D (t • M) L := by
    unfold SemiconjBy
    rw [hD, hM, hL, Matrix.fromBlocks_smul, Matrix.fromBlocks_multiply, Matrix.fromBlocks_multiply]
    congr 1 <;> simp [smul_smul]
  have h1 : D * NormedSpace.exp (t • M) = NormedSpace.exp L * D := by
    have : SemiconjBy D (NormedSpace.exp (t • M)) (NormedSpace.exp L) := by
      open scoped Matrix.Norms.Operator in exact hsemi.exp_right
    exact this
  have hz : ∀ B : Matrix (Fin m) (Fin m) ℝ,
      D * fromRows B (0 : Matrix (Fin m) (Fin m) ℝ) = t • fromRows B 0 := by
    intro B
    rw [hD, Matrix.fromBlocks_mul_fromRows]
    ext i j; rcases i with i | i <;> simp
  have hc : fromCols x (t • u) * D = t • fromCols x u := by
    rw [hD, Matrix.fromCols_mul_fromBlocks]
    ext i j; rcases j with j | j <;> simp
  have key : t • (fromCols x (t • u) * NormedSpace.exp L *
        fromRows (NormedSpace.exp (-(t • A))) (0 : Matrix (Fin m) (Fin m) ℝ)) =
      t • (fromCols x u * NormedSpace.exp (t • M) *
        fromRows (NormedSpace.exp (-(t • A))) (0 : Matrix (Fin m) (Fin m) ℝ)) := by
    rw [← Matrix.mul_smul, ← hz, ← Matrix.mul_assoc, Matrix.mul_assoc (fromCols x (t • u)), ← h1,
      ← Matrix.mul_assoc, hc, Matrix.smul_mul, Matrix.smul_mul]
  rw [smul_neg]
  exact smul_right_injective _ ht key

/-- **C80** for `EuclideanStiefelExact.retr` (`EuclideanStiefel.expmap`). -/
theorem C80_euclidean_stiefel_exact {x u : Matrix (Fin n) (Fin m) ℝ} :
    MatFirstOrder (Fused.euclideanStiefelExact n m).retr x u := by
  change MatFirstOrder Euclidean.expmap x u
  refine ⟨C26_expmap_zero x, ?_⟩
  simp only [expmap_curve]
  have hr : MatVelocity (fun t : ℝ =>
      fromRows (NormedSpace.exp (t • (-(xᵀ * u)))) (0 : Matrix (Fin m) (Fin m) ℝ))
      (fromRows (-(xᵀ * u)) 0) := by
    intro i j
    rcases i with i | i
    · exact velocity_exp (-(xᵀ * u)) i j
    · exact hasDerivAt_const _ _
  have h := vel_mul (vel_mul (vel_const (fromCols x u))
    (velocity_exp (fromBlocks (xᵀ * u) (-(uᵀ * u)) 1 (xᵀ * u)))) hr
  simp only [Matrix.zero_mul, zero_add, zero_smul, NormedSpace.exp_zero, Matrix.mul_one] at h
  have e : fromCols x u * fromBlocks (xᵀ * u) (-(uᵀ * u)) 1 (xᵀ * u) *
      fromRows (1 : Matrix (Fin m) (Fin m) ℝ) (0 : Matrix (Fin m) (Fin m) ℝ) +
      fromCols x u * fromRows (-(xᵀ * u)) 0 = u := by
    rw [Matrix.fromCols_mul_fromBlocks, Matrix.fromCols_mul_fromRows, Matrix.fromCols_mul_fromRows]
    simp
  rwa [e] at h

/-! ## The QR retraction -/

/-- A Cholesky-like factor of a matrix above the identity is close to the identity: if
`RᵀR = 1 + F` with `F` positive semidefinite and `R` upper triangular with non-negative diagonal,
its diagonal is at least one. -/
lemma diag_ge_one {R F : Matrix (Fin m) (Fin m) ℝ} (h : Rᵀ * R = 1 + F)
    (hF : ∀ v : Fin m → ℝ, 0 ≤ v ⬝ᵥ (F *ᵥ v)) (hu : ∀ i j, j < i → R i j = 0)
    (hd : ∀ j, 0 ≤ R j j) (j : Fin m) : 1 ≤ R j j := by
  have hq : ∀ v : Fin m → ℝ, (R *ᵥ v) ⬝ᵥ (R *ᵥ v) = v ⬝ᵥ v + v ⬝ᵥ (F *ᵥ v) := by
    intro v
    have : (R *ᵥ v) ⬝ᵥ (R *ᵥ v) = v ⬝ᵥ ((Rᵀ * R) *ᵥ v) := by
      rw [← Matrix.mulVec_mulVec, Matrix.dotProduct_mulVec v, Matrix.vecMul_transpose]
    rw [this, h, Matrix.add_mulVec, Matrix.one_mulVec, dotProduct_add]
  have hdet : R.det ≠ 0 := by
    intro h0
    obtain ⟨v, hv, hv0⟩ := Matrix.exists_mulVec_eq_zero_iff.2 h0
    apply hv
    have := hq v
    rw [hv0, zero_dotProduct] at this
    have h1 := hF v
    have h2 := dot_self_nonneg v
    exact dot_self_eq_zero.1 (by linarith)
  have hU : IsUnit R.det := isUnit_iff_ne_zero.2 hdet
  have : Invertible R := Matrix.invertibleOfIsUnitDet R hU
  have hb : BlockTriangular R id := fun i j h1 => hu i j h1
  have hbi := blockTriangular_inv_of_blockTriangular hb
  have hji : R j j * R⁻¹ j j = 1 := by
    have e := congrFun (congrFun (Matrix.mul_nonsing_inv R hU) j) j
    rw [Matrix.mul_apply, Matrix.one_apply_eq, Finset.sum_eq_single j] at e
    · exact e
    · intro k _ hk
      rcases lt_or_gt_of_ne hk with h1 | h1
      · rw [hu j k h1, zero_mul]
      · rw [hbi (i := k) (j := j) h1, mul_zero]
    · simp
  have h1 := hq (R⁻¹ *ᵥ Pi.single j 1)
  rw [Matrix.mulVec_mulVec, Matrix.mul_nonsing_inv R hU, Matrix.one_mulVec] at h1
  have h2 := hF (R⁻¹ *ᵥ Pi.single j 1)
  have h3 : (Pi.single j (1:ℝ) : Fin m → ℝ) ⬝ᵥ Pi.single j 1 = 1 := by simp
  have h4 : (R⁻¹ j j) ^ 2 ≤ (R⁻¹ *ᵥ Pi.single j 1) ⬝ᵥ (R⁻¹ *ᵥ Pi.single j 1) := by
    have hs : (R⁻¹ *ᵥ Pi.single j 1) ⬝ᵥ (R⁻¹ *ᵥ Pi.single j 1) = ∑ i, (R⁻¹ i j) ^ 2 := by
      simp only [Matrix.mulVec_single_one, dotProduct, Matrix.col_apply, sq]
    rw [hs]
    exact Finset.single_le_sum (f := fun i => (R⁻¹ i j) ^ 2) (fun i _ => sq_nonneg _)
      (Finset.mem_univ j)
  have h5 : (R⁻¹ j j) ^ 2 ≤ 1 := by linarith
  have h6 := hd j
  by_contra hlt
  have hlt' := not_le.1 hlt
  have h7 : R⁻¹ j j ≤ 1 := by nlinarith
  nlinarith

/-- ... and so the factor differs from the identity by as little as `F` does. -/
lemma factor_near_one {R F : Matrix (Fin m) (Fin m) ℝ} (h : Rᵀ * R = 1 + F)
    (hF : ∀ v : Fin m → ℝ, 0 ≤ v ⬝ᵥ (F *ᵥ v)) (hu : ∀ i j, j < i → R i j = 0)
    (hd : ∀ j, 0 ≤ R j j) (i j : Fin m) : |R i j - (1 : Matrix (Fin m) (Fin m) ℝ) i j| ≤
      |F i j| + F.trace := by
  set S : Matrix (Fin m) (Fin m) ℝ := R - 1 with hS
  have hSu : ∀ i j, j < i → S i j = 0 := fun i j hij => by
    simp [hS, hu i j hij, Matrix.one_apply_ne hij.ne']
  have hSd : ∀ j, 0 ≤ S j j := fun j => by
    have := diag_ge_one h hF hu hd j
    simp only [hS, Matrix.sub_apply, Matrix.one_apply_eq]; linarith
  have hR : R = 1 + S := by rw [hS]; abel
  have eq : S + Sᵀ + Sᵀ * S = F := by
    have : Rᵀ * R - 1 = F := by rw [h]; abel
    rw [← this, hR, Matrix.transpose_add, Matrix.transpose_one]
    noncomm_ring
  have htr : (Sᵀ * S).trace ≤ F.trace := by
    rw [← eq, Matrix.trace_add, Matrix.trace_add, Matrix.trace_transpose]
    have : 0 ≤ S.trace := Finset.sum_nonneg fun j _ => hSd j
    linarith
  have hcol : ∀ j, (∑ k, S k j ^ 2) ≤ F.trace := by
    intro j
    refine le_trans ?_ htr
    have : (Sᵀ * S).trace = ∑ j, ∑ k, S k j ^ 2 := by
      simp only [Matrix.trace, Matrix.diag, Matrix.mul_apply, Matrix.transpose_apply, sq]
    rw [this]
    exact Finset.single_le_sum (f := fun j => ∑ k, S k j ^ 2)
      (fun j _ => Finset.sum_nonneg fun k _ => sq_nonneg _) (Finset.mem_univ j)
  have hent : ∀ i j, |(Sᵀ * S) i j| ≤ F.trace := by
    intro i j
    have h1 : |(Sᵀ * S) i j| ≤ ∑ k, (S k i ^ 2 + S k j ^ 2) / 2 := by
      rw [Matrix.mul_apply]
      refine (Finset.abs_sum_le_sum_abs _ _).trans (Finset.sum_le_sum fun k _ => ?_)
      rw [Matrix.transpose_apply, abs_mul]
      nlinarith [sq_nonneg (|S k i| - |S k j|), sq_abs (S k i), sq_abs (S k j)]
    have h2 : ∑ k, (S k i ^ 2 + S k j ^ 2) / 2 = ((∑ k, S k i ^ 2) + ∑ k, S k j ^ 2) / 2 := by
      rw [← Finset.sum_add_distrib, Finset.sum_div]
    have := hcol i
    have := hcol j
    linarith
  have hij := congrFun (congrFun eq i) j
  simp only [Matrix.add_apply, Matrix.transpose_apply] at hij
  have hb := hent i j
  have hsub : R i j - (1 : Matrix (Fin m) (Fin m) ℝ) i j = S i j := by simp [hS]
  rw [hsub]
  have htr0 : 0 ≤ F.trace := (abs_nonneg _).trans hb
  rcases lt_trichotomy i j with hlt | rfl | hgt
  · rw [hSu j i hlt, add_zero] at hij
    have : S i j = F i j - (Sᵀ * S) i j := by linarith
    rw [this]
    exact (abs_sub _ _).trans (by linarith)
  · have : S i i = (F i i - (Sᵀ * S) i i) / 2 := by linarith
    have h8 : |F i i - (Sᵀ * S) i i| ≤ |F i i| + F.trace := (abs_sub _ _).trans (by linarith)
    rw [this, abs_div, abs_of_pos (by norm_num : (0:ℝ) < 2)]
    have := abs_nonneg (F i i - (Sᵀ * S) i i)
    linarith
  · rw [hSu i j hgt, abs_zero]
    positivity

/-- **C80** for `EuclideanStiefel.retr`, whatever QR factorisation torch returns at each point. -/
theorem C80_euclidean_stiefel {x u : Matrix (Fin n) (Fin m) ℝ} (hx : OnStiefel x)
    (hu : Tangent x u)
    (qr : Matrix (Fin n) (Fin m) ℝ → Matrix (Fin n) (Fin m) ℝ × Matrix (Fin m) (Fin m) ℝ)
    (hqr : ∀ t : ℝ, IsQR (x + t • u) (qr (x + t • u)).1 (qr (x + t • u)).2) :
    MatFirstOrder (Fused.euclideanStiefel qr).retr x u := by
  change MatFirstOrder (fun x u => Euclidean.retr (qr (x + u)).1 (qr (x + u)).2) x u
  have hx' : xᵀ * x = 1 := hx
  have hux : uᵀ * x = -(xᵀ * u) := by
    rw [← (show (xᵀ * u)ᵀ = -(xᵀ * u) from hu), Matrix.transpose_mul, Matrix.transpose_transpose]
  have q0 : IsQR (x + 0) (qr (x + 0)).1 (qr (x + 0)).2 := by have := hqr 0; rwa [zero_smul] at this
  refine ⟨C26_retr_zero hx q0, fun i j => ?_⟩
  refine deriv_of_quadratic (a := x i j) (K := ∑ k, (|(uᵀ * u) k j| + (uᵀ * u).trace)) fun t => ?_
  change |Euclidean.retr (qr (x + t • u)).1 (qr (x + t • u)).2 i j - (x i j + t * u i j)| ≤ _
  have hq := hqr t
  generalize (qr (x + t • u)).1 = q at *
  generalize (qr (x + t • u)).2 = r at *
  have hQ : OnStiefel (Euclidean.retr q r) := C26_retr_on_stiefel hq
  have hQ' : (Euclidean.retr q r)ᵀ * Euclidean.retr q r = 1 := hQ
  set D : Matrix (Fin m) (Fin m) ℝ := diagonal fun j => usign (r j j) with hD
  have hDD : D * D = 1 := by
    rw [hD, Matrix.diagonal_mul_diagonal, ← Matrix.diagonal_one]
    congr 1; funext j
    have := abs_usign (r j j)
    rw [← abs_mul_abs_self, this]; norm_num
  have hRe : Euclidean.retr q r = q * D := retr_eq q r
  set R := D * r with hR
  set Q := Euclidean.retr q r with hQd
  have hQR : Q * R = x + t • u := by
    rw [hRe, hR, Matrix.mul_assoc, ← Matrix.mul_assoc D, hDD, Matrix.one_mul, ← hq.eq]
  have hG : Rᵀ * R = 1 + t ^ 2 • (uᵀ * u) := by
    have e1 : Rᵀ * R = (Q * R)ᵀ * (Q * R) := by
      rw [Matrix.transpose_mul Q R, Matrix.mul_assoc, ← Matrix.mul_assoc Qᵀ, hQ', Matrix.one_mul]
    rw [e1, hQR, Matrix.transpose_add, Matrix.transpose_smul, Matrix.add_mul, Matrix.mul_add,
      Matrix.mul_add, hx', Matrix.smul_mul, Matrix.mul_smul, Matrix.smul_mul, Matrix.mul_smul, hux,
      smul_smul, smul_neg, sq]
    abel
  have hF : ∀ v : Fin m → ℝ, 0 ≤ v ⬝ᵥ ((t ^ 2 • (uᵀ * u)) *ᵥ v) := by
    intro v
    rw [Matrix.smul_mulVec, dotProduct_smul, ← Matrix.mulVec_mulVec, Matrix.dotProduct_mulVec,
      Matrix.vecMul_transpose, smul_eq_mul]
    exact mul_nonneg (sq_nonneg t) (dot_self_nonneg _)
  have hRu : ∀ i j, j < i → R i j = 0 := fun i j hij => by
    rw [hR, hD, Matrix.diagonal_mul, hq.upper i j hij, mul_zero]
  have hRd : ∀ j, 0 ≤ R j j := fun j => by
    rw [hR, hD, Matrix.diagonal_mul, mul_comm, mul_usign]; exact abs_nonneg _
  have hQe : ∀ k, |Q i k| ≤ 1 := by
    intro k
    have h1 := congrFun (congrFun hQ' k) k
    rw [Matrix.mul_apply, Matrix.one_apply_eq] at h1
    have h2 : Q i k ^ 2 ≤ 1 := by
      rw [← h1, sq]
      exact Finset.single_le_sum (f := fun l => Qᵀ k l * Q l k)
        (fun l _ => mul_self_nonneg (Q l k)) (Finset.mem_univ i)
    exact (abs_le_one_iff_mul_self_le_one).2 (by rwa [← sq])
  have hdiff : Q i j - (x i j + t * u i j) = -∑ k, Q i k * (R k j - (1 : Matrix _ _ ℝ) k j) := by
    have h1 := congrFun (congrFun hQR i) j
    have h2 : ∑ k, Q i k * (R k j - (1 : Matrix (Fin m) (Fin m) ℝ) k j) = (Q * R) i j - Q i j := by
      simp only [mul_sub, Finset.sum_sub_distrib]
      congr 1
      have := congrFun (congrFun (Matrix.mul_one Q) i) j
      rwa [Matrix.mul_apply] at this
    rw [h2, h1, Matrix.add_apply, Matrix.smul_apply, smul_eq_mul]; ring
  rw [hdiff, abs_neg]
  refine (Finset.abs_sum_le_sum_abs _ _).trans ?_
  rw [Finset.sum_mul]
  refine Finset.sum_le_sum fun k _ => ?_
  have h3 := factor_near_one hG hF hRu hRd k j
  rw [Matrix.smul_apply, Matrix.trace_smul, smul_eq_mul, smul_eq_mul, abs_mul,
    abs_of_nonneg (sq_nonneg t)] at h3
  rw [abs_mul]
  calc |Q i k| * |R k j - (1 : Matrix (Fin m) (Fin m) ℝ) k j|
      ≤ 1 * |R k j - (1 : Matrix (Fin m) (Fin m) ℝ) k j| :=
        mul_le_mul_of_nonneg_right (hQe k) (abs_nonneg _)
    _ ≤ _ := by rw [one_mul]; linarith

end stiefel

/-! ## Exponential map of the stereographic models -/

section stereo
open Stereo

/-- The speed of `t ↦ expmap(x, t u)` at `0`, relative to `u`: the norm of `u` is clamped from
below by `1e-15`. -/
noncomputable def stereoSpeed (η k : ℝ) (x : Vec n) : ℝ :=
  tanK η k (lambdaX k x / 2 * 1e-15) / (lambdaX k x / 2 * 1e-15)

/-- **C80** for `StereographicExact.retr` (`Stereographic.expmap`): the velocity is a multiple of `u`.
Missing: that the factor is one, which holds only for `k = 0`; see the bounds below. -/
theorem C80_stereographic_exact_partial (η : ℝ) (dt : DType) (k : ℝ) {x : Vec n}
    (hx : max (nrm x) 1e-15 < Stereo.maxNorm η dt k) (hl : 1e-15 ≤ 1 + k * (x ⬝ᵥ x)) (u : Vec n) :
    (Fused.stereographicExact η dt k).retr x 0 = x ∧
    Velocity (fun t => (Fused.stereographicExact η dt k).retr x (t • u))
      (stereoSpeed η k x • u) := by
  set c : ℝ := tanK η k (lambdaX k x / 2 * 1e-15) * (1e-15)⁻¹ with hc
  set s : ℝ := x ⬝ᵥ u with hs
  set q : ℝ := u ⬝ᵥ u with hq
  set X : ℝ := x ⬝ᵥ x with hX
  -- the unprojected curve near zero
  have raw : ∀ t : ℝ, nrm (t • u) ≤ 1e-15 → 1e-15 ≤ mobDenom k x ((c * t) • u) →
      Stereo.expmap η k x (t • u) = (1 - 2 * k * (c * t * s) + k ^ 2 * X * ((c * t) ^ 2 * q))⁻¹ •
        ((1 - 2 * k * (c * t * s) - k * ((c * t) ^ 2 * q)) • x + ((1 + k * X) * (c * t)) • u) := by
    intro t h1 h2
    have e1 : tanK η k (lambdaX k x / 2.0 * 1e-15) • ((1e-15 : ℝ)⁻¹ • t • u) = (c * t) • u := by
      rw [smul_smul, smul_smul, hc, show (2.0 : ℝ) = 2 by norm_num]
    unfold Stereo.expmap
    simp only [max_eq_right h1, e1]
    rw [mobiusAdd, max_eq_left h2, mobDenom]
    simp only [dotProduct_smul, smul_dotProduct, smul_eq_mul, smul_smul]
    rw [← hs, ← hq, ← hX]
    congr 2 <;> ring_nf
  have hn0 : ∀ᶠ t : ℝ in 𝓝 0, nrm (t • u) ≤ 1e-15 := by
    have : Tendsto (fun t : ℝ => nrm (t • u)) (𝓝 0) (𝓝 0) := by
      have h : Continuous fun t : ℝ => nrm (t • u) := by unfold nrm dotProduct; fun_prop
      simpa using h.tendsto 0
    filter_upwards [this.eventually (gt_mem_nhds (show (0:ℝ) < 1e-15 by norm_num))] with t ht using ht.le
  have hd0 : ∀ᶠ t : ℝ in 𝓝 0, 1e-15 ≤ mobDenom k x ((c * t) • u) := by
    have : Tendsto (fun t : ℝ => mobDenom k x ((c * t) • u)) (𝓝 0) (𝓝 1) := by
      have h : Continuous fun t : ℝ => mobDenom k x ((c * t) • u) := by
        unfold mobDenom dotProduct; fun_prop
      simpa [mobDenom] using h.tendsto 0
    filter_upwards [this.eventually (lt_mem_nhds (show (1e-15:ℝ) < 1 by norm_num))] with t ht using ht.le
  -- the derivative of the explicit curve
  have hid := hasDerivAt_id (0 : ℝ)
  have hden : HasDerivAt (fun t : ℝ => 1 - 2 * k * (c * t * s) + k ^ 2 * X * ((c * t) ^ 2 * q))
      (-(2 * k * (c * s))) 0 := by
    have h1 : HasDerivAt (fun t : ℝ => c * t) c 0 := by simpa using hid.const_mul c
    have h2 := ((h1.mul_const s).const_mul (2 * k)).const_sub 1
    have h3 := ((h1.fun_pow 2).mul_const q).const_mul (k ^ 2 * X)
    simpa using h2.fun_add h3
  have hnum : HasDerivAt (fun t : ℝ => 1 - 2 * k * (c * t * s) - k * ((c * t) ^ 2 * q))
      (-(2 * k * (c * s))) 0 := by
    have h1 : HasDerivAt (fun t : ℝ => c * t) c 0 := by simpa using hid.const_mul c
    have h2 := ((h1.mul_const s).const_mul (2 * k)).const_sub 1
    have h3 := ((h1.fun_pow 2).mul_const q).const_mul k
    simpa using h2.fun_sub h3
  have hinv : HasDerivAt (fun t : ℝ => (1 - 2 * k * (c * t * s) + k ^ 2 * X * ((c * t) ^ 2 * q))⁻¹)
      (2 * k * (c * s)) 0 := by
    have := hden.fun_inv (by norm_num)
    simpa using this
  have hvel : ∀ i, HasDerivAt (fun t : ℝ =>
      (1 - 2 * k * (c * t * s) + k ^ 2 * X * ((c * t) ^ 2 * q))⁻¹ *
        ((1 - 2 * k * (c * t * s) - k * ((c * t) ^ 2 * q)) * x i + (1 + k * X) * (c * t) * u i))
      ((1 + k * X) * c * u i) 0 := by
    intro i
    have h1 : HasDerivAt (fun t : ℝ => (1 + k * X) * (c * t) * u i) ((1 + k * X) * c * u i) 0 := by
      simpa using ((hid.const_mul c).const_mul (1 + k * X)).mul_const (u i)
    have h2 := hinv.fun_mul ((hnum.mul_const (x i)).fun_add h1)
    simpa using h2
  have hraw0 : Stereo.expmap η k x 0 = x := by
    have := raw 0 (by norm_num) (by norm_num [mobDenom])
    simpa using this
  have hcont : Tendsto (fun t : ℝ => max (nrm (Stereo.expmap η k x (t • u))) 1e-15) (𝓝 0)
      (𝓝 (max (nrm x) 1e-15)) := by
    have hv : Tendsto (fun t : ℝ => Stereo.expmap η k x (t • u)) (𝓝 0) (𝓝 x) := by
      rw [tendsto_pi_nhds]
      intro i
      have := (hvel i).continuousAt.tendsto
      simp only [mul_zero, zero_mul, ne_eq, OfNat.ofNat_ne_zero, not_false_eq_true, zero_pow,
        sub_zero, add_zero, inv_one, one_mul] at this
      refine this.congr' ?_
      filter_upwards [hn0, hd0] with t h1 h2
      rw [raw t h1 h2]; simp
    have hc : Continuous fun v : Vec n => max (nrm v) 1e-15 := by unfold nrm dotProduct; fun_prop
    exact (hc.tendsto x).comp hv
  change M.expmap true η dt k x 0 = x ∧ Velocity (fun t => M.expmap true η dt k x (t • u)) _
  constructor
  · rw [M.expmap, withProject, hraw0]
    simp only [if_true]
    rw [project, if_neg (not_lt.2 hx.le)]
  · intro i
    have hsp : (stereoSpeed η k x • u) i = (1 + k * X) * c * u i := by
      have hlam : lambdaX k x / 2 = (1 + k * X)⁻¹ := by
        rw [lambdaX, max_eq_left hl, hX]; field_simp
      have hne : (1 + k * X) ≠ 0 := by
        have : (0:ℝ) < 1e-15 := by norm_num
        rw [hX]; linarith
      rw [Pi.smul_apply, smul_eq_mul, stereoSpeed, hc, hlam]
      field_simp
    rw [hsp]
    refine (hvel i).congr_of_eventuallyEq ?_
    filter_upwards [hn0, hd0, hcont.eventually (gt_mem_nhds hx)] with t h1 h2 h3
    have h4 : ¬ max (nrm (Stereo.expmap η k x (t • u))) 1e-15 > maxNorm η dt k := not_lt.2 h3.le
    simp only [M.expmap, withProject, if_true, project, if_neg h4]
    rw [raw t h1 h2]; simp

/-- For flat space the speed is exact. -/
theorem C80_stereographic_speed_flat (η : ℝ) (x : Vec n) : stereoSpeed η 0 x = 1 := by
  have h : KZero 0 := by norm_num [KZero]
  have hl : lambdaX 0 x / 2 * 1e-15 ≠ 0 := by norm_num [lambdaX]
  rw [stereoSpeed, tanK, if_pos h, tanKTaylor]
  simp only [absZeroGrad, zero_mul, mul_zero, add_zero]
  exact div_self hl

/-- For negative curvature the speed is at most one and no smaller than
`1 / (1 + 1e-15 · λ √|k| / 2)`. -/
theorem C80_stereographic_speed_hyperbolic {η k : ℝ} (hη : 0 ≤ η) (hk : k < -1e-8) (x : Vec n)
    (ha : lambdaX k x / 2 * 1e-15 * kSqrt η k ≤ 15) :
    (1 + lambdaX k x / 2 * 1e-15 * kSqrt η k)⁻¹ ≤ stereoSpeed η k x ∧ stereoSpeed η k x < 1 := by
  have hz : ¬ KZero k := by
    unfold KZero; rw [abs_of_neg (by norm_num at hk ⊢; linarith)]; norm_num at hk ⊢; linarith
  have hkn : k < 0 := by norm_num at hk ⊢; linarith
  have hlam : 0 < lambdaX k x := by
    unfold lambdaX
    have : (0:ℝ) < max (1 + k * (x ⬝ᵥ x)) 1e-15 := lt_max_of_lt_right (by norm_num)
    positivity
  have hs : 0 < kSqrt η k := by
    unfold kSqrt sabs
    apply Real.sqrt_pos.2
    have : 0 < |k| := abs_pos.2 hkn.ne
    positivity
  set a := lambdaX k x / 2 * 1e-15 with had
  have hap : 0 < a := by positivity
  rw [stereoSpeed, ← had, tanK, if_neg hz, if_pos hkn, tanhC_eq (by nlinarith) ha]
  set σ := kSqrt η k
  have hz2 : 0 < a * σ := by positivity
  constructor
  · have := tanh_ge hz2.le
    rw [le_div_iff₀ hap, inv_mul_eq_div, inv_mul_eq_div, le_div_iff₀ hs]
    calc a / (1 + a * σ) * σ = a * σ / (1 + a * σ) := by ring
      _ ≤ _ := this
  · rw [div_lt_one hap, inv_mul_lt_iff₀ hs, mul_comm σ a, Real.tanh_eq_sinh_div_cosh,
      div_lt_iff₀ (Real.cosh_pos _)]
    generalize a * σ = z at *
    have hd : ∀ w : ℝ, HasDerivAt (fun w => w * Real.cosh w - Real.sinh w) (w * Real.sinh w) w := by
      intro w
      have := ((hasDerivAt_id w).fun_mul (Real.hasDerivAt_cosh w)).fun_sub (Real.hasDerivAt_sinh w)
      simp only [id] at this
      rwa [show 1 * Real.cosh w + w * Real.sinh w - Real.cosh w = w * Real.sinh w by ring] at this
    have hm : StrictMonoOn (fun w => w * Real.cosh w - Real.sinh w) (Set.Ici 0) := by
      apply strictMonoOn_of_deriv_pos (convex_Ici 0)
      · fun_prop
      · intro w hw
        rw [interior_Ici] at hw
        rw [(hd w).deriv]
        exact mul_pos hw (Real.sinh_pos_iff.2 hw)
    have := hm (Set.mem_Ici.2 le_rfl) (Set.mem_Ici.2 hz2.le) hz2
    simp at this
    linarith

end stereo

/-! ## Lorentz -/

/-- The Lorentz exponential map, which is also its retraction, is no retraction at any point but
the origin: the zero vector does not stay. -/
theorem C80_counterexample_lorentz {k : ℝ} (hk : 0 < k) {x : Vec (n + 1)}
    (hx : Lorentz.OnHyperboloid k x) (h0 : Fin.tail x ≠ 0) (u : Vec (n + 1)) :
    ¬ FirstOrder (Fused.lorentz k).retr x u :=
  fun h => (Lorentz.C37_counterexample_exp_zero hk hx h0).2 h.1

/-! ## Birkhoff -/

section birkhoff
open Birkhoff

/-- The factor by which `retr` scales everything because of the `eps` in its divisions. -/
noncomputable def sinkScale (eps : ℝ) : ℝ := (1 + eps + eps ^ 2)⁻¹

/-- **C80** for `BirkhoffPolytope.retr`: near a doubly stochastic matrix with entries above the
clamp, the velocity is `u` scaled by `1 / (1 + eps + eps²)`, and the zero vector leads to the point
scaled in the same way.  Missing: that the factor is one, which is so only for `eps = 0`. -/
theorem C80_birkhoff_partial {ι : Type} [Finite ι] (cfg : Config) (he : 0 ≤ cfg.eps)
    (htol : 1 - sinkScale cfg.eps < cfg.tol)
    {x u : ι → Matrix (Fin (n + 1)) (Fin (n + 1)) ℝ} (hx : ∀ b, DoublyStochastic (x b))
    (hu : ∀ b, Tangent (u b)) (hb : ∀ b i j, 1e-12 < x b i j * sinkScale cfg.eps) (b : ι) :
    (Fused.birkhoff cfg).retr x 0 b = sinkScale cfg.eps • x b ∧
    MatVelocity (fun t : ℝ => (Fused.birkhoff cfg).retr x (t • u) b) (sinkScale cfg.eps • u b) := by
  change Birkhoff.retr cfg x 0 b = _ ∧ MatVelocity (fun t : ℝ => Birkhoff.retr cfg x (t • u) b) _
  set e := cfg.eps with hedef
  let Y : ℝ → ι → Matrix (Fin (n + 1)) (Fin (n + 1)) ℝ := fun t b =>
    Matrix.of fun i j => x b i j * Real.exp ((t • u) b i j / x b i j)
  let S : ℝ → ι → Sink (n + 1) := fun t b => sinkInit e (Y t b)
  have h1e : 0 < 1 + e := by linarith
  have h2e : 0 < 1 + e + e ^ 2 := by positivity
  have hY : ∀ b i j, HasDerivAt (fun t => Y t b i j) (u b i j) 0 := by
    intro b i j
    have hp := ((hx b).pos i j).ne'
    have h1 : HasDerivAt (fun t : ℝ => t * u b i j / x b i j) (u b i j / x b i j) 0 := by
      simpa using ((hasDerivAt_id (0:ℝ)).mul_const (u b i j)).div_const (x b i j)
    have h2 := h1.exp.const_mul (x b i j)
    simp only [zero_mul, zero_div, Real.exp_zero, one_mul] at h2
    rw [mul_div_cancel₀ _ hp] at h2
    exact h2
  have hY0 : ∀ b, Y 0 b = x b := fun b => by ext i j; simp [Y]
  have hc : ∀ b j, HasDerivAt (fun t => (S t b).c j) 0 0 := by
    intro b j
    have h1 := (HasDerivAt.fun_sum (u := Finset.univ) fun i _ => hY b i j).add_const e
    have hcol : ∑ i, u b i j = 0 := (hu b).col j
    have hcol' : ∑ i, Y 0 b i j = 1 := by rw [hY0]; exact (hx b).col j
    have h2 := (h1.fun_inv (by rw [hcol']; exact h1e.ne')).const_mul (1.0 : ℝ)
    rw [hcol] at h2
    simp only [neg_zero, zero_div, mul_zero] at h2
    simpa [S, sinkInit, div_eq_mul_inv] using h2
  have hc0 : ∀ b j, (S 0 b).c j = (1 + e)⁻¹ := by
    intro b j
    have hcol' : ∑ i, Y 0 b i j = 1 := by rw [hY0]; exact (hx b).col j
    simp only [S, sinkInit, hcol']; norm_num
  have hr0 : ∀ b i, (S 0 b).r i = (1 + e) * sinkScale e := by
    intro b i
    have : (S 0 b).r i = 1.0 / ((∑ j, Y 0 b i j * (S 0 b).c j) + e) := rfl
    rw [this]
    simp only [hc0]
    rw [← Finset.sum_mul, hY0, show ∑ j, x b i j = 1 from (hx b).row i, sinkScale]
    norm_num
    field_simp
    ring
  have hr : ∀ b i, HasDerivAt (fun t => (S t b).r i) 0 0 := by
    intro b i
    have h0 : (∑ j, Y 0 b i j * (S 0 b).c j) + e ≠ 0 := by
      simp only [hc0]
      rw [← Finset.sum_mul, hY0, show ∑ j, x b i j = 1 from (hx b).row i]
      positivity
    have h1 := (HasDerivAt.fun_sum (u := Finset.univ) fun j _ => (hY b i j).fun_mul (hc b j)).add_const e
    have h2 := (h1.fun_inv h0).const_mul (1.0 : ℝ)
    have hz : ∑ j, (u b i j * (S 0 b).c j + Y 0 b i j * 0) = 0 := by
      simp only [hc0, mul_zero, add_zero]
      rw [← Finset.sum_mul, show ∑ j, u b i j = 0 from (hu b).row i, zero_mul]
    rw [hz] at h2
    simp only [neg_zero, zero_div, mul_zero] at h2
    have hfun : (fun t => (S t b).r i) = fun t => 1.0 * ((∑ j, Y t b i j * (S t b).c j) + e)⁻¹ := by
      funext t; exact div_eq_mul_inv _ _
    rw [hfun]; exact h2
  have hass : ∀ b i j, HasDerivAt (fun t => assemble (Y t b) (S t b) i j) (sinkScale e * u b i j) 0 := by
    intro b i j
    have h1 := (hY b i j).fun_mul ((hr b i).fun_mul (hc b j))
    have hv : u b i j * ((S 0 b).r i * (S 0 b).c j) +
        Y 0 b i j * (0 * (S 0 b).c j + (S 0 b).r i * 0) = sinkScale e * u b i j := by
      rw [hc0, hr0]; field_simp; ring
    rw [hv] at h1
    exact h1
  have hass0 : ∀ b, assemble (Y 0 b) (S 0 b) = sinkScale e • x b := by
    intro b; ext i j
    have : assemble (Y 0 b) (S 0 b) i j = Y 0 b i j * ((S 0 b).r i * (S 0 b).c j) := rfl
    rw [this, hc0, hr0, hY0, Matrix.smul_apply, smul_eq_mul]; field_simp
  have hstop0 : ∀ b j, cinv (Y 0 b) (S 0 b) j * (S 0 b).c j = sinkScale e := by
    intro b j
    simp only [cinv, hr0, hc0]
    rw [← Finset.mul_sum, hY0, show ∑ i, x b i j = 1 from (hx b).col j]
    field_simp
  have hsc : sinkScale e ≤ 1 := by
    unfold sinkScale; apply inv_le_one_of_one_le₀; nlinarith
  have hst : ∀ᶠ t in 𝓝 (0:ℝ), Stop cfg.tol (Y t) (S t) := by
    unfold Stop
    rw [eventually_all]; intro b
    rw [eventually_all]; intro j
    have h1 : ContinuousAt (fun t => |cinv (Y t b) (S t b) j * (S t b).c j - 1|) 0 := by
      refine ContinuousAt.abs (ContinuousAt.sub (ContinuousAt.mul ?_ (hc b j).continuousAt)
        continuousAt_const)
      unfold cinv
      exact tendsto_finsetSum _ fun i _ => (hr b i).continuousAt.mul (hY b i j).continuousAt
    have h2 := h1.tendsto
    rw [hstop0, abs_of_nonpos (by linarith)] at h2
    filter_upwards [h2.eventually (gt_mem_nhds (show -(sinkScale e - 1) < cfg.tol by linarith))] with t ht
      using ht.le
  have hloop : ∀ t, Stop cfg.tol (Y t) (S t) →
      projx cfg (Y t) = fun b => assemble (Y t b) (S t b) := by
    intro t h
    unfold projx projRun
    have : (sinkLoop cfg.eps cfg.tol (Y t) cfg.maxIter fun b => sinkInit cfg.eps (Y t b)).1 = S t := by
      cases hM : cfg.maxIter with
      | zero => rfl
      | succ k =>
        have h' : Stop cfg.tol (Y t) (fun b => sinkInit cfg.eps (Y t b)) := h
        rw [sinkLoop, if_pos h']
    simp only [this]
  constructor
  · ext i j
    have h0 := hst.self_of_nhds
    have hz : (0 : ι → Matrix (Fin (n + 1)) (Fin (n + 1)) ℝ) = (0:ℝ) • u := by simp
    change max (projx cfg (fun b => Matrix.of fun i j =>
      x b i j * Real.exp ((0 : ι → Matrix (Fin (n + 1)) (Fin (n + 1)) ℝ) b i j / x b i j)) b i j) 1e-12 = _
    rw [hz]
    change max (projx cfg (Y 0) b i j) 1e-12 = _
    rw [hloop 0 h0]
    simp only [hass0]
    apply max_eq_left
    have := hb b i j
    rw [Matrix.smul_apply, smul_eq_mul]; linarith
  · intro i j
    rw [Matrix.smul_apply, smul_eq_mul]
    refine (hass b i j).congr_of_eventuallyEq ?_
    have h3 := (hass b i j).continuousAt.tendsto
    simp only [hass0, Matrix.smul_apply, smul_eq_mul] at h3
    have h4 := h3.eventually (lt_mem_nhds (show (1e-12:ℝ) < sinkScale e * x b i j by
      have := hb b i j; linarith))
    filter_upwards [hst, h4] with t h1 h2
    change max (projx cfg (Y t) b i j) 1e-12 = _
    rw [hloop t h1]
    exact max_eq_left h2.le

end birkhoff

/-! ## The hypotheses are met -/

/-- A QR factorisation of columns with two entries, and a tangent vector. -/
example : ∃ (x u : Matrix (Fin 2) (Fin 1) ℝ)
    (qr : Matrix (Fin 2) (Fin 1) ℝ → Matrix (Fin 2) (Fin 1) ℝ × Matrix (Fin 1) (Fin 1) ℝ),
    Stiefel.OnStiefel x ∧ Stiefel.Tangent x u ∧ u ≠ 0 ∧
    ∀ t : ℝ, Linalg.IsQR (x + t • u) (qr (x + t • u)).1 (qr (x + t • u)).2 := by
  refine ⟨!![1; 0], !![0; 1], fun a => ((Real.sqrt (a 0 0 ^ 2 + a 1 0 ^ 2))⁻¹ • a,
    !![Real.sqrt (a 0 0 ^ 2 + a 1 0 ^ 2)]), ?_, ?_, ?_, fun t => ⟨?_, ?_, ?_⟩⟩
  · unfold Stiefel.OnStiefel; ext i j; fin_cases i; fin_cases j
    simp [Matrix.mul_apply, Fin.sum_univ_two]
  · unfold Stiefel.Tangent; ext i j; fin_cases i; fin_cases j
    simp [Matrix.mul_apply, Fin.sum_univ_two]
  · intro h; have := congrFun (congrFun h 1) 0; simp at this
  · have hp : Real.sqrt (1 + t ^ 2) ≠ 0 := (Real.sqrt_pos.2 (by positivity)).ne'
    ext i j
    fin_cases i <;> fin_cases j <;> simp [Matrix.mul_apply]
    · rw [inv_mul_cancel₀ hp]
    · field_simp
  · have hp : 0 < 1 + t ^ 2 := by positivity
    have hs := Real.sq_sqrt hp.le
    have hp' := (Real.sqrt_pos.2 hp).ne'
    ext i j
    fin_cases i; fin_cases j
    simp [Matrix.mul_apply, Fin.sum_univ_two]
    field_simp
    rw [hs]
  · intro i j h
    fin_cases i; fin_cases j; simp at h

/-- The default configuration of the Birkhoff polytope and a doubly stochastic matrix. -/
example : 0 ≤ Birkhoff.Config.default.eps ∧
    1 - sinkScale Birkhoff.Config.default.eps < Birkhoff.Config.default.tol ∧
    Birkhoff.DoublyStochastic !![(1/4 : ℝ), 3/4; 3/4, 1/4] ∧
    Birkhoff.Tangent !![(1 : ℝ), -1; -1, 1] := by
  refine ⟨by norm_num [Birkhoff.Config.default], by norm_num [Birkhoff.Config.default, sinkScale],
    ⟨?_, ?_, ?_⟩, ⟨?_, ?_⟩⟩
  · intro i j; fin_cases i <;> fin_cases j <;> norm_num
  all_goals intro i; fin_cases i <;> norm_num [Birkhoff.rowSum, Birkhoff.colSum, Fin.sum_univ_two]

/-- A point of the Poincaré ball to which the stereographic theorems apply. -/
example : max (nrm (![0.5, 0] : Vec 2)) 1e-15 < Stereo.maxNorm 0 .f64 (-1) ∧
    (1e-15 : ℝ) ≤ 1 + (-1) * ((![0.5, 0] : Vec 2) ⬝ᵥ ![0.5, 0]) := by
  have h : nrm (![0.5, 0] : Vec 2) = 0.5 :=
    nrm_eq_of_dot_eq (by norm_num) (by simp [dotProduct, Fin.sum_univ_two]; norm_num)
  constructor
  · rw [h]; norm_num [Stereo.maxNorm, sabs, Stereo.projEps]
  · simp [dotProduct, Fin.sum_univ_two]; norm_num

end Geoopt.C80
