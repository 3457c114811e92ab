import Verif.Spec.Invariant
import Verif.Model.OptimManifolds
import Verif.Lemmas.Ball
import Verif.Lemmas.Stiefel
import Mathlib.Probability.Independence.Integration

/-!
# C121: the noise of the samplers is as long as the metric prescribes

`RHMC`, `RSGLD` and `SGRHMC` turn standard normal noise into tangent vectors with `egrad2rgrad`.  For
sampling, the tangent noise has to be standard normal with respect to the metric, so that its mean
squared length is the dimension of the manifold, at every point.
-/

open Geoopt Geoopt.Samplers Geoopt.Optim MeasureTheory ProbabilityTheory Matrix

namespace C121

/-- The moments of independent standard normal numbers. -/
theorem moments {ι : Type} [Fintype ι] [DecidableEq ι] (i j : ι) :
    Integrable (fun n : ι → ℝ => n i * n j) (Measure.pi fun _ : ι => gaussianReal 0 1) ∧
    ∫ n, n i * n j ∂(Measure.pi fun _ : ι => gaussianReal 0 1) = if i = j then 1 else 0 := by
  have hmp : ∀ i, MeasurePreserving (fun n : ι → ℝ => n i) (Measure.pi fun _ : ι => gaussianReal 0 1)
      (gaussianReal 0 1) := fun i => measurePreserving_eval (fun _ : ι => gaussianReal 0 1) i
  have hL2 : MemLp (fun y : ℝ => y) 2 (gaussianReal 0 1) := memLp_id_gaussianReal 2
  have hL1 : Integrable (fun y : ℝ => y) (gaussianReal 0 1) := hL2.integrable (by norm_num)
  have hsq : ∫ y, y * y ∂gaussianReal 0 1 = 1 := by
    have h := variance_fun_id_gaussianReal (μ := 0) (v := 1)
    rw [variance_of_integral_eq_zero (by fun_prop) (by rw [integral_id_gaussianReal])] at h
    simpa [pow_two] using h
  have hcomp : ∀ i (g : ℝ → ℝ), Measurable g →
      ∫ n : ι → ℝ, g (n i) ∂(Measure.pi fun _ : ι => gaussianReal 0 1) =
        ∫ y, g y ∂gaussianReal 0 1 := by
    intro i g hg
    conv_rhs => rw [← (hmp i).map_eq]
    exact (integral_map (measurable_pi_apply i).aemeasurable hg.aestronglyMeasurable).symm
  have hint : ∀ i, ∫ n : ι → ℝ, n i ∂(Measure.pi fun _ : ι => gaussianReal 0 1) = 0 := by
    intro i
    rw [hcomp i (fun y => y) measurable_id, integral_id_gaussianReal]
  by_cases h : i = j
  · subst h
    rw [if_pos rfl, hcomp i (fun y => y * y) (by fun_prop), hsq]
    refine ⟨?_, rfl⟩
    have : Integrable (fun y : ℝ => y * y) (gaussianReal 0 1) := by
      simpa [pow_two] using hL2.integrable_sq
    exact (hmp i).integrable_comp_of_integrable this
  · rw [if_neg h]
    have hind : IndepFun (fun n : ι → ℝ => n i) (fun n => n j)
        (Measure.pi fun _ : ι => gaussianReal 0 1) :=
      (iIndepFun_pi (X := fun _ y => y) (fun _ => aemeasurable_id)).indepFun h
    refine ⟨hind.integrable_mul ?_ ?_, ?_⟩
    · exact (hmp i).integrable_comp_of_integrable hL1
    · exact (hmp j).integrable_comp_of_integrable hL1
    · have := hind.integral_mul_eq_mul_integral (measurable_pi_apply i).aestronglyMeasurable
        (measurable_pi_apply j).aestronglyMeasurable
      rw [hint i, zero_mul] at this
      exact this

theorem mean_sq {ι : Type} [Fintype ι] (c : ℝ) :
    ∫ n : ι → ℝ, c * ∑ i, n i * n i ∂(Measure.pi fun _ : ι => gaussianReal 0 1) =
      c * Fintype.card ι := by
  classical
  rw [integral_const_mul, integral_finset_sum _ fun i _ => (moments i i).1]
  simp [(moments _ _).2]

end C121

/-- **C121** for plain parameters: the mean squared length of the noise is the dimension. -/
theorem C121_euclidean_partial {ι : Type} [Fintype ι] (x : ι → ℝ) :
    meanSquare (Optim.euclidean ι) (fun _ u v => ∑ i, u i * v i) x = Fintype.card ι := by
  have := C121.mean_sq (ι := ι) 1
  simpa [meanSquare, Optim.euclidean] using this

/-- The mean squared length of the noise in the stereographic models, for every curvature: the
dimension divided by the square of the conformal factor. -/
theorem C121_stereographic {n : ℕ} (η : ℝ) (dt : DType) (k : ℝ) (x : Fin n → ℝ) :
    meanSquare (Optim.stereographicExact η dt k) (Stereo.inner k) x =
      n / Stereo.lambdaX k x ^ 2 := by
  have h0 : Stereo.lambdaX k x ≠ 0 := by
    unfold Stereo.lambdaX
    have : (0 : ℝ) < max (1 + k * (x ⬝ᵥ x)) 1e-15 := lt_max_of_lt_right (by norm_num)
    positivity
  have := C121.mean_sq (ι := Fin n) (Stereo.lambdaX k x ^ 2)⁻¹
  rw [Fintype.card_fin] at this
  rw [div_eq_inv_mul, ← this]
  unfold meanSquare
  congr 1
  funext u
  simp only [Optim.stereographicExact, Stereo.egrad2rgrad, Stereo.inner, dotProduct_smul,
    smul_dotProduct, smul_eq_mul]
  rw [dotProduct]
  field_simp

/-- **C121 is false** in the Poincaré ball (which samplers accept as `PoincareBallExact`): in dimension
`n` the mean squared length is `n / 4` at the origin, and smaller everywhere else, with infimum zero. -/
theorem C121_counterexample_ball (n : ℕ) (hn : 0 < n) (η : ℝ) (dt : DType) :
    meanSquare (Optim.stereographicExact η dt (-1)) (Stereo.inner (-1)) (0 : Fin n → ℝ) = n / 4 ∧
    ∀ x : Fin n → ℝ, x ≠ 0 → x ⬝ᵥ x ≤ 1 - 1e-15 →
      meanSquare (Optim.stereographicExact η dt (-1)) (Stereo.inner (-1)) x =
        n / 4 * (1 - x ⬝ᵥ x) ^ 2 ∧
      meanSquare (Optim.stereographicExact η dt (-1)) (Stereo.inner (-1)) x < n / 4 := by
  have key : ∀ x : Fin n → ℝ, x ⬝ᵥ x ≤ 1 - 1e-15 →
      meanSquare (Optim.stereographicExact η dt (-1)) (Stereo.inner (-1)) x =
        n / 4 * (1 - x ⬝ᵥ x) ^ 2 := by
    intro x hx
    have h1 : Stereo.lambdaX (-1) x = 2 / (1 - x ⬝ᵥ x) := by
      unfold Stereo.lambdaX
      rw [max_eq_left (by linarith)]
      congr 1; ring
    have h2 : (1 : ℝ) - x ⬝ᵥ x ≠ 0 := by
      have : (0 : ℝ) < 1e-15 := by norm_num
      linarith [hx] |> ne_of_gt
    rw [C121_stereographic, h1]
    field_simp
    norm_num
  refine ⟨?_, fun x hx0 hx => ⟨key x hx, ?_⟩⟩
  · rw [key 0 (by simp; norm_num)]; simp
  · rw [key x hx]
    have h1 : 0 < x ⬝ᵥ x := by
      refine lt_of_le_of_ne (Finset.sum_nonneg fun i _ => mul_self_nonneg _) fun h => hx0 ?_
      exact dotProduct_self_eq_zero.1 h.symm
    have h2 : (1 - x ⬝ᵥ x) ^ 2 < 1 := by
      have : (0 : ℝ) < 1e-15 := by norm_num
      nlinarith
    have hn' : (0 : ℝ) < n / 4 := by positivity
    nlinarith

namespace C121
open Linalg (frob)

theorem frob_trace {n m : ℕ} (u v : Matrix (Fin n) (Fin m) ℝ) :
    frob u v = Matrix.trace (uᵀ * v) := by
  rw [frob, Matrix.trace, Finset.sum_comm]
  simp [Matrix.mul_apply]

theorem stiefel_inner {n m : ℕ} {x : Matrix (Fin n) (Fin m) ℝ} (hx : xᵀ * x = 1)
    (u : Matrix (Fin n) (Fin m) ℝ) :
    Stiefel.Canonical.inner x (Stiefel.Canonical.proju x u) (Stiefel.Canonical.proju x u) =
      Matrix.trace (uᵀ * u) - Matrix.trace (xᵀ * u * (xᵀ * u)) := by
  obtain ⟨A, hA⟩ : ∃ A, A = xᵀ * u := ⟨_, rfl⟩
  have hAt : uᵀ * x = Aᵀ := by rw [hA, transpose_mul, transpose_transpose]
  have h1 : xᵀ * Stiefel.Canonical.proju x u = A - Aᵀ := by
    rw [Stiefel.Canonical.proju, Matrix.mul_sub, ← hA, ← Matrix.mul_assoc, ← Matrix.mul_assoc, hx,
      Matrix.one_mul, hAt]
  have h2 : (Stiefel.Canonical.proju x u)ᵀ * Stiefel.Canonical.proju x u =
      uᵀ * u - Aᵀ * Aᵀ - A * A + A * Aᵀ := by
    have : (Stiefel.Canonical.proju x u)ᵀ = uᵀ - A * xᵀ := by
      rw [Stiefel.Canonical.proju, transpose_sub, transpose_mul, transpose_mul, transpose_transpose,
        hA, Matrix.mul_assoc]
    rw [this, Matrix.sub_mul, Matrix.mul_assoc, h1, Stiefel.Canonical.proju, Matrix.mul_sub,
      Matrix.mul_sub, Matrix.mul_assoc, hAt, ← Matrix.mul_assoc, hAt]
    abel
  unfold Stiefel.Canonical.inner
  dsimp only
  rw [frob_trace, frob_trace, h1, h2, ← hA]
  simp only [transpose_sub, transpose_transpose, Matrix.sub_mul, Matrix.mul_sub, trace_sub, trace_add]
  have e1 : trace (Aᵀ * Aᵀ) = trace (A * A) := by
    rw [← transpose_mul, trace_transpose]
  have e2 : trace (Aᵀ * A) = trace (A * Aᵀ) := trace_mul_comm _ _
  rw [e1, e2]
  ring

theorem stiefel_mean {n m : ℕ} {x : Matrix (Fin n) (Fin m) ℝ} (hx : xᵀ * x = 1) :
    Integrable (fun v : Fin n × Fin m → ℝ => Matrix.trace (xᵀ * toMat v * (xᵀ * toMat v)))
      (Measure.pi fun _ : Fin n × Fin m => gaussianReal 0 1) ∧
    ∫ v : Fin n × Fin m → ℝ, Matrix.trace (xᵀ * toMat v * (xᵀ * toMat v))
      ∂(Measure.pi fun _ : Fin n × Fin m => gaussianReal 0 1) = m := by
  have e : (fun v : Fin n × Fin m → ℝ => Matrix.trace (xᵀ * toMat v * (xᵀ * toMat v))) =
      fun v => ∑ i, ∑ j, ∑ k, ∑ l, x k i * x l j * (v (k, j) * v (l, i)) := by
    funext v
    simp only [Matrix.trace, diag_apply, Matrix.mul_apply, transpose_apply, toMat,
      Finset.sum_mul_sum]
    refine Finset.sum_congr rfl fun i _ => Finset.sum_congr rfl fun j _ =>
      Finset.sum_congr rfl fun k _ => Finset.sum_congr rfl fun l _ => by ring
  have hi : ∀ i j k l, Integrable (fun v : Fin n × Fin m → ℝ =>
      x k i * x l j * (v (k, j) * v (l, i))) (Measure.pi fun _ : Fin n × Fin m => gaussianReal 0 1) :=
    fun i j k l => (moments (k, j) (l, i)).1.const_mul _
  have hi1 := fun i j k => integrable_finset_sum Finset.univ fun l _ => hi i j k l
  have hi2 := fun i j => integrable_finset_sum Finset.univ fun k _ => hi1 i j k
  have hi3 := fun i => integrable_finset_sum Finset.univ fun j _ => hi2 i j
  rw [e]
  refine ⟨integrable_finset_sum Finset.univ fun i _ => hi3 i, ?_⟩
  rw [integral_finset_sum _ fun i _ => hi3 i]
  have hx' : ∀ i, ∑ k, x k i * x k i = 1 := by
    intro i
    have := congrFun (congrFun hx i) i
    simpa [Matrix.mul_apply] using this
  have : ∀ i, ∫ v : Fin n × Fin m → ℝ, ∑ j, ∑ k, ∑ l, x k i * x l j * (v (k, j) * v (l, i))
      ∂(Measure.pi fun _ : Fin n × Fin m => gaussianReal 0 1) = 1 := by
    intro i
    rw [integral_finset_sum _ fun j _ => hi2 i j]
    rw [Finset.sum_eq_single i]
    · rw [integral_finset_sum _ fun k _ => hi1 i i k, ← hx' i]
      refine Finset.sum_congr rfl fun k _ => ?_
      rw [integral_finset_sum _ fun l _ => hi i i k l, Finset.sum_eq_single k]
      · rw [integral_const_mul, (moments _ _).2, if_pos rfl, mul_one]
      · intro l _ hl
        rw [integral_const_mul, (moments _ _).2, if_neg (by simp [Ne.symm hl]), mul_zero]
      · simp
    · intro j _ hj
      rw [integral_finset_sum _ fun k _ => hi1 i j k]
      refine Finset.sum_eq_zero fun k _ => ?_
      rw [integral_finset_sum _ fun l _ => hi i j k l]
      refine Finset.sum_eq_zero fun l _ => ?_
      rw [integral_const_mul, (moments _ _).2, if_neg (by simp [hj]), mul_zero]
    · simp
  simp [this]

end C121

/-- The mean squared length of the noise on the canonical Stiefel manifold of `n × m` matrices:
`n m - m` at every point. -/
theorem C121_stiefel {n m : ℕ} (proj : Matrix (Fin n) (Fin m) ℝ → Matrix (Fin n) (Fin m) ℝ)
    (x : Fin n × Fin m → ℝ) (hx : (toMat x)ᵀ * toMat x = 1) :
    meanSquare (Optim.canonicalStiefel proj)
      (fun x u v => Stiefel.Canonical.inner (toMat x) (toMat u) (toMat v)) x = n * m - m := by
  have h1 : ∀ v : Fin n × Fin m → ℝ, Matrix.trace ((toMat v)ᵀ * toMat v) = 1 * ∑ p, v p * v p := by
    intro v
    rw [← C121.frob_trace, Linalg.frob, Fintype.sum_prod_type, one_mul]
    rfl
  have h2 := C121.mean_sq (ι := Fin n × Fin m) 1
  have h3 : Integrable (fun v : Fin n × Fin m → ℝ => 1 * ∑ p, v p * v p)
      (Measure.pi fun _ : Fin n × Fin m => gaussianReal 0 1) :=
    (integrable_finset_sum _ fun p _ => (C121.moments p p).1).const_mul 1
  unfold meanSquare
  have e : ∀ v : Fin n × Fin m → ℝ, Stiefel.Canonical.inner (toMat x)
      (toMat ((Optim.canonicalStiefel proj).egrad2rgrad x v).value)
      (toMat ((Optim.canonicalStiefel proj).egrad2rgrad x v).value) =
      1 * ∑ p, v p * v p - Matrix.trace ((toMat x)ᵀ * toMat v * ((toMat x)ᵀ * toMat v)) := by
    intro v
    rw [← h1, ← C121.stiefel_inner hx]
    rfl
  simp only [e]
  rw [integral_sub h3 (C121.stiefel_mean hx).1, h2, (C121.stiefel_mean hx).2]
  simp

/-- **C121 is false** on the canonical Stiefel manifold for matrices with at least two columns: the
mean squared length exceeds the dimension `n m - m (m + 1) / 2` by `m (m - 1) / 2`. -/
theorem C121_counterexample_stiefel {n m : ℕ} (hm : 2 ≤ m)
    (proj : Matrix (Fin n) (Fin m) ℝ → Matrix (Fin n) (Fin m) ℝ)
    (x : Fin n × Fin m → ℝ) (hx : (toMat x)ᵀ * toMat x = 1) :
    meanSquare (Optim.canonicalStiefel proj)
      (fun x u v => Stiefel.Canonical.inner (toMat x) (toMat u) (toMat v)) x =
      (n * m - m * (m + 1) / 2) + m * (m - 1) / 2 ∧ (0 : ℝ) < m * (m - 1) / 2 := by
  rw [C121_stiefel proj x hx]
  have : (2 : ℝ) ≤ m := by exact_mod_cast hm
  constructor
  · ring
  · have : (0 : ℝ) < m * (m - 1) := mul_pos (by linarith) (by linarith)
    linarith

/-- Such points exist: the identity matrix. -/
example : (toMat (ofMat (1 : Matrix (Fin 2) (Fin 2) ℝ)))ᵀ *
    toMat (ofMat (1 : Matrix (Fin 2) (Fin 2) ℝ)) = 1 := by
  show (1 : Matrix (Fin 2) (Fin 2) ℝ)ᵀ * 1 = 1
  simp
