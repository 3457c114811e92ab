import Verif.Lemmas.Vec
import Verif.Model.Stereo

/-! Algebra of Möbius addition without the numerical clamp. -/

namespace Geoopt.Stereo
open Geoopt
variable {n : ℕ}

/-- Möbius addition without the `clamp_min(1e-15)` on the denominator. -/
noncomputable def mAdd (k : ℝ) (x y : Vec n) : Vec n :=
  (mobDenom k x y)⁻¹ • ((1 - 2 * k * (x ⬝ᵥ y) - k * (y ⬝ᵥ y)) • x + (1 + k * (x ⬝ᵥ x)) • y)

/-- gyration without the clamp -/
noncomputable def mGyr (k : ℝ) (u v w : Vec n) : Vec n :=
  w + (mobDenom k u v)⁻¹ • ((2 : ℝ) •
    ((-k ^ 2 * (u ⬝ᵥ w) * (v ⬝ᵥ v) - k * (v ⬝ᵥ w) + 2 * k ^ 2 * (u ⬝ᵥ v) * (v ⬝ᵥ w)) • u
      + (-k ^ 2 * (v ⬝ᵥ w) * (u ⬝ᵥ u) + k * (u ⬝ᵥ w)) • v))

lemma mobiusAdd_eq {k : ℝ} {x y : Vec n} (h : 1e-15 ≤ mobDenom k x y) :
    mobiusAdd k x y = mAdd k x y := by
  rw [mobiusAdd, mAdd, max_eq_left h]

lemma gyration_eq {k : ℝ} {u v w : Vec n} (h : 1e-15 ≤ mobDenom k u v) :
    gyration k u v w = mGyr k u v w := by
  simp only [gyration, mGyr]
  unfold mobDenom at *
  rw [max_eq_left h]

lemma mobDenom_comm (k : ℝ) (x y : Vec n) : mobDenom k x y = mobDenom k y x := by
  unfold mobDenom; rw [dotProduct_comm x y]; ring

/-- dot-product expansion -/
macro "dots" : tactic => `(tactic| simp only [dotProduct_add, add_dotProduct, smul_dotProduct,
  dotProduct_smul, smul_eq_mul, neg_dotProduct, dotProduct_neg, sub_dotProduct, dotProduct_sub])

lemma mAdd_dot (k : ℝ) (x y z : Vec n) : mAdd k x y ⬝ᵥ z =
    ((1 - 2 * k * (x ⬝ᵥ y) - k * (y ⬝ᵥ y)) * (x ⬝ᵥ z) + (1 + k * (x ⬝ᵥ x)) * (y ⬝ᵥ z))
      / mobDenom k x y := by
  unfold mAdd; dots; ring

/-- norm of a Möbius sum -/
lemma mAdd_self {k : ℝ} {x y : Vec n} (h : mobDenom k x y ≠ 0) :
    mAdd k x y ⬝ᵥ mAdd k x y = (x ⬝ᵥ x + 2 * (x ⬝ᵥ y) + y ⬝ᵥ y) / mobDenom k x y := by
  unfold mAdd; dots
  rw [dotProduct_comm y x]
  field_simp
  unfold mobDenom
  ring

lemma one_add_mAdd_self {k : ℝ} {x y : Vec n} (h : mobDenom k x y ≠ 0) :
    1 + k * (mAdd k x y ⬝ᵥ mAdd k x y) =
      (1 + k * (x ⬝ᵥ x)) * (1 + k * (y ⬝ᵥ y)) / mobDenom k x y := by
  rw [mAdd_self h]; field_simp; unfold mobDenom; ring

lemma mobDenom_neg_mAdd {k : ℝ} {x y : Vec n} (h : mobDenom k x y ≠ 0) :
    mobDenom k (-x) (mAdd k x y) = (1 + k * (x ⬝ᵥ x)) ^ 2 / mobDenom k x y := by
  rw [mobDenom, neg_dotProduct, neg_dotProduct, dotProduct_neg, dotProduct_comm x (mAdd k x y),
    mAdd_dot, mAdd_self h, dotProduct_comm y x]
  field_simp
  unfold mobDenom
  ring

lemma mAdd_left_cancel {k : ℝ} {x y : Vec n} (h : mobDenom k x y ≠ 0)
    (hx : 1 + k * (x ⬝ᵥ x) ≠ 0) : mAdd k (-x) (mAdd k x y) = y := by
  have h2 : mobDenom k (-x) (mAdd k x y) = (1 + k * (x ⬝ᵥ x)) ^ 2 / mobDenom k x y :=
    mobDenom_neg_mAdd h
  rw [mAdd, h2, neg_dotProduct, neg_dotProduct, dotProduct_neg, dotProduct_comm x (mAdd k x y),
    mAdd_dot, mAdd_self h, dotProduct_comm y x]
  funext i
  simp only [Pi.smul_apply, Pi.add_apply, Pi.neg_apply, smul_eq_mul, mAdd]
  field_simp
  unfold mobDenom
  ring

lemma mGyr_dot (k : ℝ) (u v w z : Vec n) : mGyr k u v w ⬝ᵥ z = w ⬝ᵥ z + 2 *
    ((-k ^ 2 * (u ⬝ᵥ w) * (v ⬝ᵥ v) - k * (v ⬝ᵥ w) + 2 * k ^ 2 * (u ⬝ᵥ v) * (v ⬝ᵥ w)) * (u ⬝ᵥ z)
      + (-k ^ 2 * (v ⬝ᵥ w) * (u ⬝ᵥ u) + k * (u ⬝ᵥ w)) * (v ⬝ᵥ z)) / mobDenom k u v := by
  unfold mGyr; dots; ring

/-- gyrations preserve inner products -/
lemma mGyr_dot_mGyr {k : ℝ} {u v w z : Vec n} (h : mobDenom k u v ≠ 0) :
    mGyr k u v w ⬝ᵥ mGyr k u v z = w ⬝ᵥ z := by
  rw [mGyr_dot]
  rw [dotProduct_comm w, dotProduct_comm u (mGyr _ _ _ _), dotProduct_comm v (mGyr _ _ _ _)]
  rw [mGyr_dot, mGyr_dot, mGyr_dot]
  rw [dotProduct_comm z w, dotProduct_comm z u, dotProduct_comm z v, dotProduct_comm v u]
  field_simp
  unfold mobDenom
  ring

lemma mAdd_dot_mGyr {k : ℝ} {u v w : Vec n} (h : mobDenom k u v ≠ 0) :
    mAdd k u v ⬝ᵥ mGyr k u v w = mAdd k v u ⬝ᵥ w := by
  rw [mAdd_dot, mAdd_dot, dotProduct_comm u (mGyr _ _ _ _), dotProduct_comm v (mGyr _ _ _ _),
    mGyr_dot, mGyr_dot, mobDenom_comm k v u, dotProduct_comm w u, dotProduct_comm w v,
    dotProduct_comm v u]
  field_simp
  unfold mobDenom
  ring

/-- gyrocommutative law -/
lemma mGyr_comm {k : ℝ} {u v : Vec n} (h : mobDenom k u v ≠ 0) :
    mGyr k u v (mAdd k v u) = mAdd k u v := by
  have h' : mobDenom k v u ≠ 0 := by rwa [mobDenom_comm]
  funext i
  unfold mGyr
  rw [dotProduct_comm u (mAdd _ _ _), dotProduct_comm v (mAdd _ _ _), mAdd_dot, mAdd_dot,
    mobDenom_comm k v u, dotProduct_comm v u]
  simp only [mAdd, Pi.smul_apply, Pi.add_apply, smul_eq_mul, mobDenom_comm k v u]
  rw [dotProduct_comm v u]
  field_simp
  unfold mobDenom
  ring

/-- polynomial denominator of the three-fold sum -/
noncomputable def den3 (k : ℝ) (u v w : Vec n) : ℝ :=
  mobDenom k v w - 2 * k * ((1 - 2 * k * (v ⬝ᵥ w) - k * (w ⬝ᵥ w)) * (u ⬝ᵥ v)
    + (1 + k * (v ⬝ᵥ v)) * (u ⬝ᵥ w)) + k ^ 2 * (u ⬝ᵥ u) * (v ⬝ᵥ v + 2 * (v ⬝ᵥ w) + w ⬝ᵥ w)

lemma den3_left {k : ℝ} {u v w : Vec n} (h : mobDenom k v w ≠ 0) :
    mobDenom k u (mAdd k v w) = den3 k u v w / mobDenom k v w := by
  rw [mobDenom, dotProduct_comm u (mAdd _ _ _), mAdd_dot, mAdd_self h, dotProduct_comm v u,
    dotProduct_comm w u]
  unfold den3
  field_simp

lemma den3_right {k : ℝ} {u v w : Vec n} (h : mobDenom k u v ≠ 0) :
    mobDenom k (mAdd k u v) (mGyr k u v w) = den3 k u v w / mobDenom k u v := by
  rw [mobDenom, mAdd_dot_mGyr h, mAdd_dot, mobDenom_comm k v u, mAdd_self h, mGyr_dot_mGyr h,
    dotProduct_comm v u]
  unfold den3
  field_simp
  unfold mobDenom
  ring

/-- left gyroassociative law -/
lemma mAdd_assoc {k : ℝ} {u v w : Vec n} (huv : mobDenom k u v ≠ 0) (hvw : mobDenom k v w ≠ 0)
    (h3 : den3 k u v w ≠ 0) :
    mAdd k u (mAdd k v w) = mAdd k (mAdd k u v) (mGyr k u v w) := by
  have hD : mobDenom k v w ≠ 0 := hvw
  rw [mAdd, den3_left hvw, dotProduct_comm u (mAdd _ _ _), mAdd_dot, mAdd_self hvw]
  conv_rhs => rw [mAdd, den3_right huv, mAdd_dot_mGyr huv, mAdd_dot, mobDenom_comm k v u,
    mAdd_self huv, mGyr_dot_mGyr huv]
  funext i
  simp only [mAdd, mGyr, Pi.smul_apply, Pi.add_apply, smul_eq_mul]
  rw [dotProduct_comm v u, dotProduct_comm w u]
  field_simp
  unfold mobDenom
  ring

end Geoopt.Stereo
