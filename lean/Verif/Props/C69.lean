import Verif.Lemmas.Siegel
import Mathlib.Tactic.NormNum
import Mathlib.Tactic.FieldSimp

/-!
# C69: the Cayley transform and its inverse

`OnUpperHalf` and `OnBounded` are in `Verif.Spec.Siegel`.
-/

namespace Geoopt.Siegel
open Matrix Geoopt

variable {n : ℕ}

theorem cayley_parts {z : CMat n} (h : IsUnit (1 - z).det) :
    (Complex.I • (1 + z)) * (1 - z)⁻¹ + iId n = (2 * Complex.I) • (1 - z)⁻¹ ∧
    (Complex.I • (1 + z)) * (1 - z)⁻¹ - iId n = (2 * Complex.I) • (z * (1 - z)⁻¹) := by
  have e : iId n = Complex.I • ((1 - z) * (1 - z)⁻¹) := by rw [mul_nonsing_inv _ h]
  constructor
  · rw [e, smul_mul_assoc, ← smul_add, ← add_mul]
    have : (1 + z + (1 - z)) = (2 : ℂ) • (1 : CMat n) := by rw [two_smul]; abel
    rw [this, smul_mul_assoc, one_mul, smul_smul, mul_comm]
  · rw [e, smul_mul_assoc, ← smul_sub, ← sub_mul]
    have : (1 + z - (1 - z)) = (2 : ℂ) • z := by rw [two_smul]; abel
    rw [this, smul_mul_assoc, smul_smul, mul_comm]

theorem inv_smul_inv {a : CMat n} (ha : IsUnit a.det) {c : ℂ} (hc : c ≠ 0) :
    (c • a⁻¹)⁻¹ = c⁻¹ • a := by
  apply Matrix.inv_eq_right_inv
  rw [smul_mul_smul_comm, nonsing_inv_mul _ ha, mul_inv_cancel₀ hc, one_smul]

theorem two_I_ne : (2 * Complex.I) ≠ 0 := by simp

theorem two_I_smul_cancel {a b : CMat n} (hb : IsUnit b.det) :
    ((2 * Complex.I) • (a * b⁻¹)) * ((2 * Complex.I)⁻¹ • b) = a := by
  rw [smul_mul_smul_comm, mul_inv_cancel₀ two_I_ne, one_smul, Matrix.mul_assoc,
    nonsing_inv_mul _ hb, mul_one]

/-- **C69.** Whenever the Cayley transform of `z` exists, the inverse transform exists there and
gives `z` back.  No symmetry is needed. -/
theorem C69_inverse_of_cayley {z w : CMat n} (h : cayleyTransform z = .ok w) :
    inverseCayleyTransform w = .ok z := by
  obtain ⟨hu, rfl⟩ := cayley_ok.1 h
  obtain ⟨h1, h2⟩ := cayley_parts hu
  rw [inverseCayley_ok, h1, h2]
  have hm : ((2 * Complex.I) • (1 - z)⁻¹) * ((2 * Complex.I)⁻¹ • (1 - z)) = 1 := by
    rw [smul_mul_smul_comm, mul_inv_cancel₀ two_I_ne, one_smul, nonsing_inv_mul _ hu]
  refine ⟨isUnit_det_of_mul hm, ?_⟩
  rw [inv_smul_inv hu two_I_ne, two_I_smul_cancel hu]

theorem inverseCayley_parts {w : CMat n} (h : IsUnit (w + iId n).det) :
    1 - (w - iId n) * (w + iId n)⁻¹ = (2 * Complex.I) • (w + iId n)⁻¹ ∧
    1 + (w - iId n) * (w + iId n)⁻¹ = (2 : ℂ) • (w * (w + iId n)⁻¹) := by
  constructor
  · have : ∀ a : CMat n, 1 - a = (w + iId n) * (w + iId n)⁻¹ - a := by
      intro a; rw [mul_nonsing_inv _ h]
    rw [this, ← sub_mul]
    have : (w + iId n - (w - iId n)) = (2 * Complex.I) • (1 : CMat n) := by
      rw [mul_smul, two_smul]; abel
    rw [this, smul_mul_assoc, one_mul]
  · have : ∀ a : CMat n, 1 + a = (w + iId n) * (w + iId n)⁻¹ + a := by
      intro a; rw [mul_nonsing_inv _ h]
    rw [this, ← add_mul]
    have : (w + iId n + (w - iId n)) = (2 : ℂ) • w := by rw [two_smul]; abel
    rw [this, smul_mul_assoc]

/-- **C69.** The other way round. -/
theorem C69_cayley_of_inverse {z w : CMat n} (h : inverseCayleyTransform w = .ok z) :
    cayleyTransform z = .ok w := by
  obtain ⟨hu, rfl⟩ := inverseCayley_ok.1 h
  obtain ⟨h1, h2⟩ := inverseCayley_parts hu
  rw [cayley_ok, h1, h2]
  have hm : ((2 * Complex.I) • (w + iId n)⁻¹) * ((2 * Complex.I)⁻¹ • (w + iId n)) = 1 := by
    rw [smul_mul_smul_comm, mul_inv_cancel₀ two_I_ne, one_smul, nonsing_inv_mul _ hu]
  refine ⟨isUnit_det_of_mul hm, ?_⟩
  rw [inv_smul_inv hu two_I_ne, smul_smul, mul_comm Complex.I 2, two_I_smul_cancel hu]

/-- **C69.** The transform raises exactly when `1` is an eigenvalue, the inverse transform exactly
when `-i` is one. -/
theorem C69_raises_iff (z : CMat n) :
    (cayleyTransform z = .error .runtimeError ↔ ∃ v, v ≠ 0 ∧ z *ᵥ v = v) ∧
    (inverseCayleyTransform z = .error .runtimeError ↔
      ∃ v, v ≠ 0 ∧ z *ᵥ v = -(Complex.I • v)) := by
  constructor
  · have e : (∃ v, v ≠ 0 ∧ z *ᵥ v = v) ↔ ¬ IsUnit (1 - z).det := by
      rw [isUnit_det_iff]
      push Not
      refine exists_congr fun v => ?_
      rw [sub_mulVec, one_mulVec, sub_eq_zero, and_comm, @eq_comm _ v]
    rw [e]
    constructor
    · intro h hu
      rw [(cayley_ok.2 ⟨hu, rfl⟩ : cayleyTransform z = _)] at h
      cases h
    · exact cayley_error
  · have e : (∃ v, v ≠ 0 ∧ z *ᵥ v = -(Complex.I • v)) ↔ ¬ IsUnit (z + iId n).det := by
      rw [isUnit_det_iff]
      push Not
      refine exists_congr fun v => ?_
      rw [add_mulVec, iId_mulVec, add_eq_zero_iff_eq_neg, and_comm]
    rw [e]
    constructor
    · intro h hu
      rw [(inverseCayley_ok.2 ⟨hu, rfl⟩ : inverseCayleyTransform z = _)] at h
      cases h
    · exact inverseCayley_error

theorem symm_mul_inv {a b : CMat n} (ha : aᵀ = a) (hb : bᵀ = b) (h : a * b = b * a)
    (hu : IsUnit b.det) : (a * b⁻¹)ᵀ = a * b⁻¹ := by
  rw [transpose_mul, transpose_nonsing_inv, ha, hb, comm_inv h hu]

/-- **C69.** The Cayley transform is defined on the whole bounded domain and maps it into the upper
half space. -/
theorem C69_bounded_to_upper {z : CMat n} (hz : OnBounded z) :
    ∃ w, cayleyTransform z = .ok w ∧ OnUpperHalf w := by
  have hu := unit_one_sub hz
  have hs := csymm_iff.1 hz.1
  refine ⟨_, cayley_ok.2 ⟨hu, rfl⟩, csymm_iff.2 ?_, ?_⟩
  · apply symm_mul_inv _ _ _ hu
    · rw [transpose_smul, transpose_add, transpose_one, hs]
    · rw [transpose_sub, transpose_one, hs]
    · rw [smul_mul_assoc, mul_smul_comm]
      congr 1
      noncomm_ring
  · intro x hx
    set W := (Complex.I • (1 + z)) * (1 - z)⁻¹ with hW
    have hWs : CSymm W := by
      apply csymm_iff.2
      apply symm_mul_inv _ _ _ hu
      · rw [transpose_smul, transpose_add, transpose_one, hs]
      · rw [transpose_sub, transpose_one, hs]
      · rw [smul_mul_assoc, mul_smul_comm]
        congr 1
        noncomm_ring
    set xc : Fin n → ℂ := fun i => (x i : ℂ) with hxc
    have h0 : imForm W x = imIp xc (W *ᵥ xc) := by
      rw [imIp_symm hWs]
      have e : imForm W (fun i => (xc i).im) = 0 := by
        simp [hxc, imForm]
      rw [e, add_zero]
      simp [hxc]
    set v := (1 - z)⁻¹ *ᵥ xc with hv
    have hx' : xc = v - z *ᵥ v := by
      have : (1 - z) *ᵥ v = xc := by
        rw [hv, mulVec_mulVec, mul_nonsing_inv _ hu, one_mulVec]
      rw [← this, sub_mulVec, one_mulVec]
    have hv0 : v ≠ 0 := by
      intro h
      rw [h, mulVec_zero, sub_zero] at hx'
      apply hx; ext i
      have := congrFun hx' i
      simpa [hxc] using this
    have hWx : W *ᵥ xc = Complex.I • (v + z *ᵥ v) := by
      rw [hW, ← mulVec_mulVec, ← hv, smul_mulVec, add_mulVec, one_mulVec]
    rw [h0, hWx, hx', imIp_diff]
    exact sub_pos.2 (hz.2 v hv0)

/-- **C69.** The inverse transform is defined on the whole upper half space and maps it into the
bounded domain. -/
theorem C69_upper_to_bounded {w : CMat n} (hw : OnUpperHalf w) :
    ∃ z, inverseCayleyTransform w = .ok z ∧ OnBounded z := by
  have hu := unit_add_i hw
  have hs := csymm_iff.1 hw.1
  refine ⟨_, inverseCayley_ok.2 ⟨hu, rfl⟩, csymm_iff.2 ?_, ?_⟩
  · apply symm_mul_inv _ _ _ hu
    · rw [transpose_sub, transpose_smul, transpose_one, hs]
    · rw [transpose_add, transpose_smul, transpose_one, hs]
    · have c : w * iId n = iId n * w := by simp
      rw [sub_mul, mul_add, mul_add, add_mul, mul_sub, mul_sub, c]
      abel
  · intro u hu0
    set v := (w + iId n)⁻¹ *ᵥ u with hv
    have hu' : u = w *ᵥ v + Complex.I • v := by
      have : (w + iId n) *ᵥ v = u := by
        rw [hv, mulVec_mulVec, mul_nonsing_inv _ hu, one_mulVec]
      rw [← this, add_mulVec, iId_mulVec]
    have hv0 : v ≠ 0 := by
      intro h
      rw [h, mulVec_zero, smul_zero, add_zero] at hu'
      exact hu0 hu'
    have hz : ((w - iId n) * (w + iId n)⁻¹) *ᵥ u = w *ᵥ v - Complex.I • v := by
      rw [← mulVec_mulVec, ← hv, sub_mulVec, iId_mulVec]
    rw [hz, hu']
    have := len2_cayley (w *ᵥ v) v
    have hp := imIp_pos hw hv0
    linarith

/-- **C69.** The two spaces are mapped onto each other: every point of the upper half space is the
Cayley transform of exactly one point of the bounded domain, and every point of the bounded domain
is the inverse transform of exactly one point of the upper half space. -/
theorem C69_bijection :
    (∀ w : CMat n, OnUpperHalf w → ∃! z, OnBounded z ∧ cayleyTransform z = .ok w) ∧
    (∀ z : CMat n, OnBounded z → ∃! w, OnUpperHalf w ∧ inverseCayleyTransform w = .ok z) := by
  constructor
  · intro w hw
    obtain ⟨z, hz, hb⟩ := C69_upper_to_bounded hw
    refine ⟨z, ⟨hb, C69_cayley_of_inverse hz⟩, ?_⟩
    rintro z' ⟨-, h'⟩
    have := C69_inverse_of_cayley h'
    rw [hz] at this
    cases this; rfl
  · intro z hz
    obtain ⟨w, hw, hb⟩ := C69_bounded_to_upper hz
    refine ⟨w, ⟨hb, C69_inverse_of_cayley hw⟩, ?_⟩
    rintro w' ⟨-, h'⟩
    have := C69_cayley_of_inverse h'
    rw [hw] at this
    cases this; rfl

/-- The origin of the bounded domain goes to `i Id`. -/
theorem C69_origin : cayleyTransform (0 : CMat n) = .ok (iId n) := by
  rw [cayley_ok]
  constructor
  · simp
  · simp

/-- The hypotheses are met: a real number below one, on the diagonal. -/
example : OnBounded (diagonal fun _ : Fin 2 => (1 / 2 : ℂ)) := by
  refine ⟨csymm_iff.2 (by simp), ?_⟩
  intro w hw
  have h : len2 ((diagonal fun _ : Fin 2 => (1 / 2 : ℂ)) *ᵥ w) = 1 / 4 * len2 w := by
    simp only [len2, mulVec_diagonal, Complex.normSq_mul, Finset.mul_sum]
    refine Finset.sum_congr rfl fun i _ => ?_
    congr 1
    norm_num [Complex.normSq_apply]
  rw [h]
  linarith [len2_pos hw]

end Geoopt.Siegel
