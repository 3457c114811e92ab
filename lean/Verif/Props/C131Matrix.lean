import Verif.Lemmas.Autograd
import Verif.Model.AutogradMatrix
import Verif.Props.C131
import Verif.Props.C24
import Verif.Props.C33

/-!
# C131 – gradients through the operations are finite: the polytope and the Stiefel manifold
-/

namespace Geoopt.C131
open Geoopt Geoopt.Grad Matrix
variable {n m : ℕ}

/-! ### the Birkhoff polytope -/

section birkhoff
open Geoopt.Birkhoff (Sink Config Stop cinv DoublyStochastic Positive)
variable {ι : Type}

/-- No entry is negative. -/
def Nonneg (x : Matrix (Fin n) (Fin n) ℝ) : Prop := ∀ i j, 0 ≤ x i j

/-- The scalings of the loop are not negative. -/
def SinkNonneg (s : Sink n) : Prop := (∀ j, 0 ≤ s.c j) ∧ ∀ i, 0 ≤ s.r i

lemma one_div_nonneg' {t eps : ℝ} (ht : 0 ≤ t) (he : 0 < eps) : 0 ≤ (1.0 : ℝ) / (t + eps) :=
  div_nonneg (by norm_num) (by linarith)

lemma rOf_ok {eps : ℝ} (he : 0 < eps) {x : Matrix (Fin n) (Fin n) ℝ} (hx : Nonneg x) {c : Fin n → ℝ}
    (hc : ∀ j, 0 ≤ c j) : (Grad.Birkhoff.rOf eps x c).fin ∧ ∀ i, 0 ≤ Geoopt.Birkhoff.rOf eps x c i := by
  have h : ∀ i, 0 ≤ ∑ j, x i j * c j := fun i => Finset.sum_nonneg fun j _ => mul_nonneg (hx i j) (hc j)
  exact ⟨fun i => (add_pos_of_nonneg_of_pos (h i) he).ne', fun i => one_div_nonneg' (h i) he⟩

lemma init_ok {eps : ℝ} (he : 0 < eps) {x : Matrix (Fin n) (Fin n) ℝ} (hx : Nonneg x) :
    (Grad.Birkhoff.sinkInit eps x).fin ∧ SinkNonneg (Geoopt.Birkhoff.sinkInit eps x) := by
  have h : ∀ j, 0 ≤ ∑ i, x i j := fun j => Finset.sum_nonneg fun i _ => hx i j
  have hc : ∀ j, 0 ≤ (1.0 : ℝ) / ((∑ i, x i j) + eps) := fun j => one_div_nonneg' (h j) he
  have hr := rOf_ok he hx hc
  exact ⟨⟨fun j => (add_pos_of_nonneg_of_pos (h j) he).ne', hr.1, trivial⟩, hc, hr.2⟩

lemma step_ok {eps : ℝ} (he : 0 < eps) {x : Matrix (Fin n) (Fin n) ℝ} (hx : Nonneg x) {s : Sink n}
    (hs : SinkNonneg s) :
    (Grad.Birkhoff.sinkStep eps x s).fin ∧ SinkNonneg (Geoopt.Birkhoff.sinkStep eps x s) := by
  have h : ∀ j, 0 ≤ cinv x s j := fun j => Finset.sum_nonneg fun i _ => mul_nonneg (hs.2 i) (hx i j)
  have hc : ∀ j, 0 ≤ (1.0 : ℝ) / (cinv x s j + eps) := fun j => one_div_nonneg' (h j) he
  have hr := rOf_ok he hx hc
  exact ⟨⟨fun j => (add_pos_of_nonneg_of_pos (h j) he).ne', hr.1, trivial⟩, hc, hr.2⟩

lemma loop_ok {eps tol : ℝ} (he : 0 < eps) {x : ι → Matrix (Fin n) (Fin n) ℝ} (hx : ∀ b, Nonneg (x b))
    (k : ℕ) : ∀ s : ι → Sink n, (∀ b, SinkNonneg (s b)) →
      (Grad.Birkhoff.sinkLoop eps tol x k s).val = (Geoopt.Birkhoff.sinkLoop eps tol x k s).1 ∧
      (Grad.Birkhoff.sinkLoop eps tol x k s).fin := by
  induction k with
  | zero => intro s _; exact ⟨rfl, trivial⟩
  | succ k ih =>
    intro s hs
    by_cases h : Stop tol x s
    · simp only [Grad.Birkhoff.sinkLoop, Geoopt.Birkhoff.sinkLoop, if_pos h]
      exact ⟨rfl, trivial⟩
    · simp only [Grad.Birkhoff.sinkLoop, Geoopt.Birkhoff.sinkLoop, if_neg h]
      have h1 := ih (fun b => Geoopt.Birkhoff.sinkStep eps (x b) (s b)) fun b =>
        (step_ok he (hx b) (hs b)).2
      exact ⟨h1.1, fun b => (step_ok he (hx b) (hs b)).1, h1.2⟩

/-- The projection of every batch of matrices without negative entries, for every number of rounds and
every tolerance. -/
theorem C131_birkhoff_proj (cfg : Config) (he : 0 < cfg.eps) {x : ι → Matrix (Fin n) (Fin n) ℝ}
    (hx : ∀ b, ∀ i j, 0 ≤ x b i j) :
    Differentiable (Grad.Birkhoff.projx cfg x) (Geoopt.Birkhoff.projx cfg x) := by
  have h := loop_ok (tol := cfg.tol) he hx cfg.maxIter (fun b => Geoopt.Birkhoff.sinkInit cfg.eps (x b))
    fun b => (init_ok he (hx b)).2
  refine ⟨?_, fun b => (init_ok he (hx b)).1, h.2, trivial⟩
  funext b
  exact congrArg (fun s => Geoopt.Birkhoff.assemble (x b) (s b)) h.1

/-- The retraction, the metric and the projection of vectors at every point. -/
theorem C131_birkhoff (cfg : Config) (he : 0 < cfg.eps)
    {x : ι → Matrix (Fin (n + 1)) (Fin (n + 1)) ℝ} (hx : ∀ b, DoublyStochastic (x b))
    (u v : ι → Matrix (Fin (n + 1)) (Fin (n + 1)) ℝ) :
    Differentiable (Grad.Birkhoff.retr cfg x u) (Geoopt.Birkhoff.retr cfg x u) ∧
    ∀ b, Differentiable (Grad.Birkhoff.inner (x b) (u b) (v b)) (Geoopt.Birkhoff.inner (x b) (u b) (v b)) ∧
      Differentiable (Grad.Birkhoff.proju (x b) (u b)) (Geoopt.Birkhoff.proju (x b) (u b)) := by
  refine ⟨?_, fun b => ⟨⟨rfl, fun i j => ((hx b).pos i j).ne', ?_⟩, ⟨?_, ?_, trivial⟩⟩⟩
  · have h := C131_birkhoff_proj cfg he
      (x := fun b => Matrix.of fun i j => x b i j * Real.exp (u b i j / x b i j))
      fun b i j => (mul_pos ((hx b).pos i j) (Real.exp_pos _)).le
    refine ⟨?_, fun b i j => ((hx b).pos i j).ne', h.2, trivial⟩
    funext b
    exact congrArg (fun y => Matrix.of fun i j => max ((y : ι → Matrix _ _ ℝ) b i j) 1e-12) h.1
  · show ((n + 1 : ℕ) : ℝ) ≠ 0
    positivity
  · rfl
  · exact (Geoopt.Birkhoff.C34_system_nonsingular (hx b)).ne_zero

/-- At the matrix `origin` returns, the identity, the metric divides by zero: it has zero entries. -/
theorem C131_counterexample_birkhoff (u v : Matrix (Fin (n + 2)) (Fin (n + 2)) ℝ) :
    ¬ (Grad.Birkhoff.inner Geoopt.Birkhoff.origin u v).fin := by
  intro h
  exact h.1 0 1 (by simp [Geoopt.Birkhoff.origin])

/-- The matrix with equal entries. -/
example : DoublyStochastic (fun _ _ => 1 / 2 : Matrix (Fin 2) (Fin 2) ℝ) :=
  ⟨fun _ _ => by norm_num, fun i => by simp [Geoopt.Birkhoff.rowSum],
    fun j => by simp [Geoopt.Birkhoff.colSum]⟩

end birkhoff

/-! ### the Stiefel manifold -/

section stiefel
open Geoopt.Stiefel

/-- The Cayley retraction and its transports (`CanonicalStiefel`): all matrices `x`, `u`, `v`. -/
theorem C131_stiefel (x u v : Matrix (Fin n) (Fin m) ℝ) :
    Differentiable (Grad.Stiefel.retr x u) (Canonical.retr x u) ∧
    Differentiable (Grad.Stiefel.transpFollowRetr x u v) (Canonical.transpFollowRetr x u v) ∧
    Differentiable (Grad.Stiefel.retrTransp x u v) (Canonical.retrTransp x u v) := by
  have h : (Canonical.lhs x u).det ≠ 0 := by
    rw [lhs_eq]; exact skew_det_ne (amat_skew x u) _
  exact ⟨⟨rfl, h⟩, ⟨rfl, h⟩, rfl, h, trivial⟩

/-- The projection, exactly where the singular values are distinct (and, for a matrix that is not square,
positive), whatever decomposition torch returns. -/
theorem C131_stiefel_proj_partial {a u : Matrix (Fin n) (Fin m) ℝ} {s : Fin m → ℝ}
    {v : Matrix (Fin m) (Fin m) ℝ} (h : Linalg.IsSVD a u s v) :
    Differentiable (Grad.Stiefel.projx u s v) (Geoopt.Stiefel.projx u v) ↔
      Function.Injective s ∧ (n ≠ m → ∀ i, 0 < s i) := by
  constructor
  · rintro ⟨-, h1, h2⟩
    refine ⟨fun i j e => ?_, fun hn i => lt_of_le_of_ne (h.nonneg i) (h2 hn i).symm⟩
    by_contra hij
    exact h1 i j hij (by rw [e, sub_self])
  · rintro ⟨h1, h2⟩
    refine ⟨rfl, fun i j hij e => hij (h1 ?_), fun hn i => (h2 hn i).ne'⟩
    have := (sq_eq_sq₀ (h.nonneg j) (h.nonneg i)).1 (sub_eq_zero.1 e)
    exact this.symm

/-- At every matrix that already has orthonormal columns (two or more), all singular values are one: the
gradient of `projx` there is `nan`. -/
theorem C131_counterexample_stiefel {a u : Matrix (Fin n) (Fin m) ℝ} {s : Fin m → ℝ}
    {v : Matrix (Fin m) (Fin m) ℝ} (hm : 2 ≤ m) (ha : OnStiefel a) (h : Linalg.IsSVD a u s v) :
    ¬ (Grad.Stiefel.projx u s v).fin := by
  have ha' : aᵀ * a = 1 := ha
  have hvv : vᵀ * v = 1 := mul_eq_one_comm.1 h.orthV
  have e : diagonal (fun i => s i * s i) = (1 : Matrix (Fin m) (Fin m) ℝ) := by
    have h1 : v * (aᵀ * a) * vᵀ = diagonal (fun i => s i * s i) := by
      rw [h.eq, Matrix.transpose_mul, Matrix.transpose_mul, diagonal_transpose]
      calc v * (vᵀ * (diagonal s * uᵀ) * (u * diagonal s * v)) * vᵀ
          = (v * vᵀ) * diagonal s * (uᵀ * u) * diagonal s * (v * vᵀ) := by
            simp only [Matrix.mul_assoc]
        _ = _ := by rw [h.orthV, h.orthU]; simp
    rw [← h1, ha', Matrix.mul_one, h.orthV]
  have hs : ∀ i, s i ^ 2 = 1 := fun i => by
    have := congrFun (congrFun e i) i
    rw [diagonal_apply_eq, one_apply_eq] at this
    rw [sq, this]
  intro hf
  have h01 : (⟨0, by omega⟩ : Fin m) ≠ ⟨1, by omega⟩ := by simp
  exact hf.1 _ _ h01 (by rw [hs, hs, sub_self])

/-- A decomposition of a matrix with distinct singular values, and one of a matrix with orthonormal
columns. -/
example : Linalg.IsSVD (diagonal ![2, 1] : Matrix (Fin 2) (Fin 2) ℝ) 1 ![2, 1] 1 ∧
    Function.Injective (![2, 1] : Fin 2 → ℝ) ∧
    Linalg.IsSVD (1 : Matrix (Fin 2) (Fin 2) ℝ) 1 1 1 ∧ OnStiefel (1 : Matrix (Fin 2) (Fin 2) ℝ) := by
  refine ⟨⟨by simp, by simp, by simp, ?_⟩, ?_, ⟨by ext i j; fin_cases i <;> fin_cases j <;> simp,
    by simp, by simp, fun i => by simp⟩, by simp [OnStiefel]⟩
  · intro i; fin_cases i <;> simp
  · intro i j; fin_cases i <;> fin_cases j <;> simp

end stiefel
end Geoopt.C131
