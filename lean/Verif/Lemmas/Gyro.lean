import Verif.Lemmas.Mobius
import Mathlib.Topology.Instances.Matrix
import Mathlib.Topology.Algebra.Order.Field

/-! Identities of gyrations used for left translations: how a translated difference looks, how the
gyration of a transport looks from the starting point, and the cocycle identity. -/

namespace Geoopt.Stereo
open Geoopt
variable {n : ℕ}

lemma mGyr_add (k : ℝ) (u v w z : Vec n) : mGyr k u v (w + z) = mGyr k u v w + mGyr k u v z := by
  funext i
  simp only [mGyr, dotProduct_add, Pi.add_apply, Pi.smul_apply, smul_eq_mul]
  ring

lemma mGyr_smul (k c : ℝ) (u v w : Vec n) : mGyr k u v (c • w) = c • mGyr k u v w := by
  funext i
  simp only [mGyr, dotProduct_smul, Pi.add_apply, Pi.smul_apply, smul_eq_mul]
  ring

lemma mGyr_neg (k : ℝ) (u v w : Vec n) : mGyr k u v (-w) = -mGyr k u v w := by
  have := mGyr_smul k (-1) u v w
  simpa using this

/-- gyrations are automorphisms of the addition -/
lemma mGyr_mAdd {k : ℝ} {u v : Vec n} (h : mobDenom k u v ≠ 0) (x y : Vec n) :
    mGyr k u v (mAdd k x y) = mAdd k (mGyr k u v x) (mGyr k u v y) := by
  have hd : mobDenom k (mGyr k u v x) (mGyr k u v y) = mobDenom k x y := by
    simp only [mobDenom, mGyr_dot_mGyr h]
  simp only [mAdd, hd, mGyr_dot_mGyr h, mGyr_smul, mGyr_add]

lemma mobDenom_mGyr {k : ℝ} {u v : Vec n} (h : mobDenom k u v ≠ 0) (x y : Vec n) :
    mobDenom k (mGyr k u v x) (mGyr k u v y) = mobDenom k x y := by
  simp only [mobDenom, mGyr_dot_mGyr h]

/-- the gyration of the transport from `x` to `y`, seen from `x` -/
lemma mGyr_swap {k : ℝ} {x y : Vec n} (h : mobDenom k (-x) y ≠ 0) (hx : 1 + k * (x ⬝ᵥ x) ≠ 0)
    (w : Vec n) : mGyr k x (mAdd k (-x) y) w = mGyr k y (-x) w := by
  have hd : mobDenom k x (mAdd k (-x) y) = (1 + k * (x ⬝ᵥ x)) ^ 2 / mobDenom k (-x) y := by
    have := mobDenom_neg_mAdd (k := k) (x := -x) (y := y) h
    simpa using this
  have hc : mobDenom k y (-x) = mobDenom k (-x) y := mobDenom_comm _ _ _
  have e1 := mAdd_dot k (-x) y w
  have e2 := mAdd_dot k (-x) y x
  rw [dotProduct_comm] at e2
  have e3 := mAdd_self h
  funext i
  simp only [mGyr, hd, hc, e1, e2, e3]
  simp only [mAdd, Pi.smul_apply, Pi.add_apply, smul_eq_mul, Pi.neg_apply, dotProduct_neg,
    neg_dotProduct, neg_neg]
  rw [dotProduct_comm y x]
  field_simp
  unfold mobDenom
  simp only [dotProduct_neg, neg_dotProduct, neg_neg]
  ring

lemma mAdd_neg_cancel {k : ℝ} {x y : Vec n} (h : mobDenom k (-x) y ≠ 0)
    (hx : 1 + k * (x ⬝ᵥ x) ≠ 0) : mAdd k x (mAdd k (-x) y) = y := by
  have := mAdd_left_cancel (k := k) (x := -x) (y := y) h (by simpa using hx)
  simpa using this

lemma den3_ne {k : ℝ} {u v w : Vec n} (h : mobDenom k v w ≠ 0)
    (h' : mobDenom k u (mAdd k v w) ≠ 0) : den3 k u v w ≠ 0 := by
  rw [den3_left h] at h'
  intro e
  simp [e] at h'

/-- the difference of two translated points is the rotated difference -/
lemma mAdd_translate {k : ℝ} {a x w : Vec n} (hax : mobDenom k a x ≠ 0) (hxw : mobDenom k x w ≠ 0)
    (h3 : mobDenom k a (mAdd k x w) ≠ 0) (hl : 1 + k * (mAdd k a x ⬝ᵥ mAdd k a x) ≠ 0) :
    mAdd k (-mAdd k a x) (mAdd k a (mAdd k x w)) = mGyr k a x w := by
  have h := den3_ne hxw h3
  rw [mAdd_assoc hax hxw h]
  refine mAdd_left_cancel ?_ hl
  rw [den3_right hax]
  exact div_ne_zero h hax

/-- the cocycle identity, for a vector that keeps all denominators away from zero -/
lemma mGyr_cocycle_aux {k : ℝ} {a x t w : Vec n} (hax : mobDenom k a x ≠ 0)
    (hxt : mobDenom k x t ≠ 0) (ha : mobDenom k a (mAdd k x t) ≠ 0)
    (hP : 1 + k * (mAdd k a (mAdd k x t) ⬝ᵥ mAdd k a (mAdd k x t)) ≠ 0)
    (h1 : mobDenom k t w ≠ 0) (h2 : den3 k x t w ≠ 0)
    (h3 : den3 k a (mAdd k x t) (mGyr k x t w) ≠ 0) :
    mGyr k (mAdd k a x) (mGyr k a x t) (mGyr k a x w) =
      mGyr k a (mAdd k x t) (mGyr k x t w) := by
  have hw' : mobDenom k (mAdd k x t) (mGyr k x t w) ≠ 0 := by
    rw [den3_right hxt]; exact div_ne_zero h2 hxt
  have eA := mAdd_assoc hxt h1 h2
  have eB := mAdd_assoc ha hw' h3
  have hxs : mobDenom k x (mAdd k t w) ≠ 0 := by
    rw [den3_left h1]; exact div_ne_zero h2 h1
  have has : den3 k a x (mAdd k t w) ≠ 0 := by
    refine den3_ne hxs ?_
    rw [eA, den3_left hw']
    exact div_ne_zero h3 hw'
  have eC := mAdd_assoc hax hxs has
  have hat := den3_ne hxt ha
  have hLt : mobDenom k (mAdd k a x) (mGyr k a x t) ≠ 0 := by
    rw [den3_right hax]; exact div_ne_zero hat hax
  have hgw : mobDenom k (mGyr k a x t) (mGyr k a x w) ≠ 0 := by rwa [mobDenom_mGyr hax]
  have hE : den3 k (mAdd k a x) (mGyr k a x t) (mGyr k a x w) ≠ 0 := by
    refine den3_ne hgw ?_
    rw [← mGyr_mAdd hax, den3_right hax]
    exact div_ne_zero has hax
  have eE := mAdd_assoc hLt hgw hE
  have eP : mAdd k (mAdd k a x) (mGyr k a x t) = mAdd k a (mAdd k x t) :=
    (mAdd_assoc hax hxt hat).symm
  have key : mAdd k (mAdd k a (mAdd k x t)) (mGyr k (mAdd k a x) (mGyr k a x t) (mGyr k a x w)) =
      mAdd k (mAdd k a (mAdd k x t)) (mGyr k a (mAdd k x t) (mGyr k x t w)) := by
    rw [← eB, ← eA, eC, mGyr_mAdd hax, eE, eP]
  have n1 : mobDenom k (mAdd k a (mAdd k x t))
      (mGyr k (mAdd k a x) (mGyr k a x t) (mGyr k a x w)) ≠ 0 := by
    rw [← eP, den3_right hLt]; exact div_ne_zero hE hLt
  have n2 : mobDenom k (mAdd k a (mAdd k x t)) (mGyr k a (mAdd k x t) (mGyr k x t w)) ≠ 0 := by
    rw [den3_right ha]; exact div_ne_zero h3 ha
  rw [← mAdd_left_cancel n1 hP, key, mAdd_left_cancel n2 hP]

lemma mobDenom_smul (k e : ℝ) (u w : Vec n) : mobDenom k u (e • w) =
    1 - 2 * k * (e * (u ⬝ᵥ w)) + k ^ 2 * (u ⬝ᵥ u) * (e * (e * (w ⬝ᵥ w))) := by
  simp only [mobDenom, dotProduct_smul, smul_dotProduct, smul_eq_mul]

lemma eventually_ne_zero {f : ℝ → ℝ} (hf : Continuous f) (h : f 0 ≠ 0) :
    ∀ᶠ e in nhds (0 : ℝ), f e ≠ 0 := hf.continuousAt.eventually_ne h

lemma den3_zero (k : ℝ) (u v : Vec n) : den3 k u v 0 = mobDenom k u v := by
  simp only [den3, mobDenom, dotProduct_zero, mul_zero, add_zero, zero_add, zero_dotProduct,
    sub_zero]
  ring

lemma den3_continuous (k : ℝ) (u v w : Vec n) : Continuous fun e : ℝ => den3 k u v (e • w) := by
  simp only [den3, mobDenom, dotProduct_smul, smul_dotProduct, smul_eq_mul]
  fun_prop

/-- the cocycle identity of gyrations -/
lemma mGyr_cocycle {k : ℝ} {a x t : Vec n} (hax : mobDenom k a x ≠ 0)
    (hxt : mobDenom k x t ≠ 0) (ha : mobDenom k a (mAdd k x t) ≠ 0)
    (hP : 1 + k * (mAdd k a (mAdd k x t) ⬝ᵥ mAdd k a (mAdd k x t)) ≠ 0) (w : Vec n) :
    mGyr k (mAdd k a x) (mGyr k a x t) (mGyr k a x w) =
      mGyr k a (mAdd k x t) (mGyr k x t w) := by
  have h1 : ∀ᶠ e in nhds (0 : ℝ), mobDenom k t (e • w) ≠ 0 := by
    refine eventually_ne_zero ?_ ?_
    · simp only [mobDenom_smul]; fun_prop
    · simp [mobDenom]
  have h2 : ∀ᶠ e in nhds (0 : ℝ), den3 k x t (e • w) ≠ 0 := by
    refine eventually_ne_zero (den3_continuous _ _ _ _) ?_
    rw [zero_smul, den3_zero]; exact hxt
  have h3 : ∀ᶠ e in nhds (0 : ℝ), den3 k a (mAdd k x t) (e • mGyr k x t w) ≠ 0 := by
    refine eventually_ne_zero (den3_continuous _ _ _ _) ?_
    rw [zero_smul, den3_zero]; exact ha
  obtain ⟨δ, hδ, hh⟩ := Metric.eventually_nhds_iff.1 (h1.and (h2.and h3))
  obtain ⟨p1, p2, p3⟩ := @hh (δ / 2) (by
    rw [Real.dist_eq, sub_zero, abs_of_pos (by linarith)]; linarith)
  have hne : δ / 2 ≠ 0 := by linarith
  have := mGyr_cocycle_aux hax hxt ha hP p1 p2 (by rw [mGyr_smul]; exact p3)
  simp only [mGyr_smul] at this
  exact smul_right_injective _ hne this

end Geoopt.Stereo
