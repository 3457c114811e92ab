import Verif.Model.Utils
import Mathlib.Algebra.Order.BigOperators.Ring.Finset
import Mathlib.LinearAlgebra.Matrix.DotProduct
import Mathlib.Tactic.Ring
import Mathlib.Tactic.Linarith
import Mathlib.Tactic.Positivity
import Mathlib.Tactic.FieldSimp
import Mathlib.Tactic.LinearCombination

namespace Geoopt
variable {n : ℕ}

lemma dot_self_nonneg (x : Vec n) : 0 ≤ x ⬝ᵥ x := by
  simp only [dotProduct]
  exact Finset.sum_nonneg fun i _ => mul_self_nonneg _

lemma dot_self_eq_zero {x : Vec n} : x ⬝ᵥ x = 0 ↔ x = 0 := by
  constructor
  · intro h
    simp only [dotProduct] at h
    rw [Finset.sum_eq_zero_iff_of_nonneg (fun i _ => mul_self_nonneg _)] at h
    funext i
    simpa using h i (Finset.mem_univ i)
  · rintro rfl; simp

lemma cauchy_sq (x y : Vec n) : (x ⬝ᵥ y) ^ 2 ≤ (x ⬝ᵥ x) * (y ⬝ᵥ y) := by
  simp only [dotProduct]
  have := Finset.sum_mul_sq_le_sq_mul_sq Finset.univ x y
  simpa [sq] using this

lemma nrm_nonneg (x : Vec n) : 0 ≤ nrm x := Real.sqrt_nonneg _

lemma nrm_sq (x : Vec n) : nrm x ^ 2 = x ⬝ᵥ x := Real.sq_sqrt (dot_self_nonneg x)

lemma nrm_mul_self (x : Vec n) : nrm x * nrm x = x ⬝ᵥ x := by rw [← nrm_sq]; ring

lemma abs_dot_le (x y : Vec n) : |x ⬝ᵥ y| ≤ nrm x * nrm y := by
  apply abs_le_of_sq_le_sq _ (mul_nonneg (nrm_nonneg x) (nrm_nonneg y))
  rw [mul_pow, nrm_sq, nrm_sq]
  exact cauchy_sq x y

lemma dot_le (x y : Vec n) : x ⬝ᵥ y ≤ nrm x * nrm y := (le_abs_self _).trans (abs_dot_le x y)

lemma neg_le_dot (x y : Vec n) : -(nrm x * nrm y) ≤ x ⬝ᵥ y :=
  neg_le_of_neg_le ((neg_le_abs _).trans (abs_dot_le x y))

lemma nrm_eq_zero {x : Vec n} : nrm x = 0 ↔ x = 0 := by
  rw [← dot_self_eq_zero, ← nrm_sq]; simp

@[simp] lemma nrm_zero : nrm (0 : Vec n) = 0 := nrm_eq_zero.2 rfl

lemma nrm_pos {x : Vec n} (h : x ≠ 0) : 0 < nrm x :=
  lt_of_le_of_ne (nrm_nonneg x) (fun e => h (nrm_eq_zero.1 e.symm))

@[simp] lemma nrm_neg (x : Vec n) : nrm (-x) = nrm x := by simp [nrm]

lemma nrm_smul (c : ℝ) (x : Vec n) : nrm (c • x) = |c| * nrm x := by
  simp only [nrm, smul_dotProduct, dotProduct_smul, smul_eq_mul]
  rw [show c * (c * (x ⬝ᵥ x)) = c ^ 2 * (x ⬝ᵥ x) by ring, Real.sqrt_mul (sq_nonneg c),
    Real.sqrt_sq_eq_abs]

lemma nrm_eq_of_dot_eq {x : Vec n} {a : ℝ} (ha : 0 ≤ a) (h : x ⬝ᵥ x = a ^ 2) : nrm x = a := by
  rw [nrm, h, Real.sqrt_sq ha]

lemma nrm_le_iff {x : Vec n} {a : ℝ} (ha : 0 ≤ a) : nrm x ≤ a ↔ x ⬝ᵥ x ≤ a ^ 2 := by
  rw [nrm, Real.sqrt_le_left ha]

lemma nrm_add_le (x y : Vec n) : nrm (x + y) ≤ nrm x + nrm y := by
  rw [nrm_le_iff (add_nonneg (nrm_nonneg _) (nrm_nonneg _))]
  simp only [dotProduct_add, add_dotProduct]
  have h := dot_le x y
  have e : y ⬝ᵥ x = x ⬝ᵥ y := dotProduct_comm _ _
  rw [add_sq, nrm_sq, nrm_sq, e]
  nlinarith

lemma usign_of_nonneg {x : ℝ} (h : 0 ≤ x) : usign x = 1 := by
  unfold usign tsign
  rcases h.lt_or_eq with h | h
  · rw [if_pos h, if_pos (by norm_num)]
  · subst h; norm_num

lemma usign_of_neg {x : ℝ} (h : x < 0) : usign x = -1 := by
  unfold usign tsign
  rw [if_neg h.not_gt, if_pos h]
  norm_num

lemma abs_usign (x : ℝ) : |usign x| = 1 := by
  rcases le_or_gt 0 x with h | h
  · simp [usign_of_nonneg h]
  · simp [usign_of_neg h]

lemma mul_usign (x : ℝ) : x * usign x = |x| := by
  rcases le_or_gt 0 x with h | h
  · simp [usign_of_nonneg h, abs_of_nonneg h]
  · simp [usign_of_neg h, abs_of_neg h]

lemma clamp_of_mem {lo hi x : ℝ} (h1 : lo ≤ x) (h2 : x ≤ hi) : clamp lo hi x = x := by
  rw [clamp, max_eq_left h1, min_eq_left h2]

lemma clamp_mem {lo hi x : ℝ} (h : lo ≤ hi) : lo ≤ clamp lo hi x ∧ clamp lo hi x ≤ hi := by
  unfold clamp
  exact ⟨le_min (le_max_right _ _) h, min_le_right _ _⟩

lemma clamp_mono {lo hi x y : ℝ} (h : x ≤ y) : clamp lo hi x ≤ clamp lo hi y := by
  unfold clamp
  exact min_le_min_right _ (max_le_max_right _ h)

end Geoopt
