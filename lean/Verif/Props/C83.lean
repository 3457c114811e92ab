import Verif.Props.C82
import Mathlib.Analysis.Matrix.Order
import Mathlib.Analysis.Calculus.Deriv.Slope
import Mathlib.Topology.Instances.Matrix

/-!
# C83: gradients and inner products on the Siegel spaces

`OnUpperHalf`, `OnBounded`, `CSymm` and `pairing` are in `Verif.Spec.Siegel`.
-/

namespace Geoopt.Siegel
open Matrix Geoopt Geoopt.Linalg Geoopt.SPD
open scoped ComplexOrder MatrixOrder

variable {n : ℕ}

theorem traceC_eq (a : CMat n) : traceC a = a.trace := rfl

theorem symC_tr (a : CMat n) : (symC a)ᵀ = symC a := csymm_iff.1 (symC_symm a)

theorem conjM_eq_conjTranspose (v : CMat n) : conjM v = (vᵀ)ᴴ := by
  ext i j; simp [conjM]

/-! ## Positive definite weights -/

theorem trace_weighted {A B u : CMat n} (hA : A.PosDef) (hB : B.PosDef) (hu : u ≠ 0) :
    0 < (A * u * B * uᴴ).trace := by
  obtain ⟨a, ha, rfl⟩ := CStarAlgebra.isStrictlyPositive_iff_eq_star_mul_self.mp
    hA.isStrictlyPositive
  obtain ⟨b, hb, rfl⟩ := CStarAlgebra.isStrictlyPositive_iff_eq_star_mul_self.mp
    hB.isStrictlyPositive
  rw [star_eq_conjTranspose, star_eq_conjTranspose]
  have e : (aᴴ * a * u * (bᴴ * b) * uᴴ).trace = ((a * u * bᴴ) * (a * u * bᴴ)ᴴ).trace := by
    rw [conjTranspose_mul, conjTranspose_mul, conjTranspose_conjTranspose]
    calc (aᴴ * a * u * (bᴴ * b) * uᴴ).trace = (aᴴ * (a * u * (bᴴ * b) * uᴴ)).trace := by
          simp only [Matrix.mul_assoc]
      _ = _ := by rw [trace_mul_comm]; simp only [Matrix.mul_assoc]
  rw [e]
  have h0 : 0 ≤ ((a * u * bᴴ) * (a * u * bᴴ)ᴴ).trace :=
    (posSemidef_self_mul_conjTranspose _).trace_nonneg
  refine lt_of_le_of_ne h0 fun h => ?_
  rw [eq_comm, trace_mul_conjTranspose_self_eq_zero_iff] at h
  apply hu
  obtain ⟨a, rfl⟩ := ha
  have hb' : IsUnit bᴴ := by
    rw [← star_eq_conjTranspose]; exact hb.star
  obtain ⟨c, hc⟩ := hb'
  rw [← hc] at h
  calc u = (↑a⁻¹ * ↑a) * u * (↑c * ↑c⁻¹) := by simp
    _ = ↑a⁻¹ * (↑a * u * ↑c) * ↑c⁻¹ := by simp only [Matrix.mul_assoc]
    _ = 0 := by rw [h]; simp

theorem im_posDef {z : CMat n} (h : OnUpperHalf z) : (asComplex (imM z)).PosDef := by
  refine .of_dotProduct_mulVec_pos ?_ fun v hv => ?_
  · ext i j
    simp [asComplex, imM, h.1 i j]
  · have e : star v ⬝ᵥ (asComplex (imM z) *ᵥ v) = (imIp v (z *ᵥ v) : ℂ) := by
      rw [imIp_symm h.1]
      have hs : ∀ i j, (z i j).im = (z j i).im := fun i j => by rw [h.1 i j]
      apply Complex.ext
      · simp only [dotProduct, mulVec, Complex.re_sum, Finset.mul_sum, Complex.ofReal_re, imForm]
        rw [← Finset.sum_add_distrib]
        refine Finset.sum_congr rfl fun i _ => ?_
        rw [← Finset.sum_add_distrib]
        refine Finset.sum_congr rfl fun j _ => ?_
        simp [asComplex, imM, Complex.mul_re]
        ring
      · have hz : ∀ f : Fin n → Fin n → ℝ, (∀ i j, f i j = - f j i) → ∑ i, ∑ j, f i j = 0 := by
          intro f hf
          have h1 : ∑ i, ∑ j, f i j = -∑ i, ∑ j, f i j := by
            conv_lhs => rw [Finset.sum_comm]
            rw [← Finset.sum_neg_distrib]
            refine Finset.sum_congr rfl fun i _ => ?_
            rw [← Finset.sum_neg_distrib]
            exact Finset.sum_congr rfl fun j _ => hf j i
          linarith
        simp only [dotProduct, mulVec, Complex.im_sum, Finset.mul_sum, Complex.ofReal_im]
        apply hz
        intro i j
        simp [asComplex, imM, Complex.mul_im, hs i j]
        ring
    rw [e]
    exact_mod_cast imIp_pos h hv

theorem idMinus_posDef {z : CMat n} (h : OnBounded z) : (idMinusConjZZ z).PosDef := by
  refine .of_dotProduct_mulVec_pos ?_ fun v hv => ?_
  · rw [idMinus_eq h.1]
    exact (isHermitian_one).sub (isHermitian_conjTranspose_mul_self z)
  · rw [form_idMinus h.1]
    have := h.2 v hv
    exact_mod_cast sub_pos.2 this

theorem conj_bounded {z : CMat n} (h : OnBounded z) : OnBounded (conjM z) := by
  refine ⟨fun i j => by simp [conjM, h.1 i j], fun v hv => ?_⟩
  have hs : ∀ w : Fin n → ℂ, len2 (star w) = len2 w := by
    intro w; simp [len2]
  have : conjM z *ᵥ v = star (z *ᵥ star v) := by
    ext i; simp [mulVec, dotProduct, conjM]
  rw [this, hs, ← hs v]
  exact h.2 _ fun h0 => hv (by simpa using h0)

/-- `Id - z conj(z)`. -/
theorem idMinus_conj (z : CMat n) : conjM (idMinusConjZZ z) = idMinusConjZZ (conjM z) := by
  unfold idMinusConjZZ identityLike
  rw [conjM_sub, conjM_mul, conjM_one]

theorem boundedInner_ok {z : CMat n} (h : OnBounded z) (u v : CMat n) :
    boundedInner z u (some v) =
      .ok ((idMinusConjZZ z)⁻¹ * u * (idMinusConjZZ (conjM z))⁻¹ * conjM v).trace := by
  have h1 := (idMinus_posDef h).isUnit
  have h2 := (idMinus_posDef (conj_bounded h)).isUnit
  rw [isUnit_iff_isUnit_det] at h1 h2
  have e1 : inverse (identityLike z - conjM z * z) = .ok (idMinusConjZZ z)⁻¹ := inverse_of_unit h1
  have e2 : inverse (identityLike z - z * conjM z) = .ok (idMinusConjZZ (conjM z))⁻¹ := by
    have : identityLike z - z * conjM z = idMinusConjZZ (conjM z) := by
      unfold idMinusConjZZ; rw [conjM_conjM]; rfl
    rw [this]; exact inverse_of_unit h2
  unfold boundedInner
  simp only [e1, e2]
  rfl

theorem upperInner_ok {z : CMat n} (h : OnUpperHalf z) (u v : CMat n) :
    upperInner z u (some v) =
      .ok ((asComplex (imM z))⁻¹ * u * (asComplex (imM z))⁻¹ * conjM v).trace := by
  have h1 := (im_posDef h).isUnit
  rw [isUnit_iff_isUnit_det] at h1
  unfold upperInner
  simp only [inverse_of_unit h1]
  rfl

/-- The pairing as a trace. -/
theorem pairing_eq (g v : CMat n) : pairing g v = (g * (conjM v)ᵀ).trace.re := by
  unfold pairing
  simp only [Matrix.trace, Matrix.diag, mul_apply, Complex.re_sum]
  refine Finset.sum_congr rfl fun i _ => Finset.sum_congr rfl fun j _ => ?_
  simp [conjM, Complex.mul_re]

/-! ## The inner products -/

/-- **C83.** On both spaces the inner product is defined at every point, is Hermitian, and is
positive definite; leaving out the last argument means the square norm. -/
theorem C83_inner {z : CMat n} (u v : CMat n) :
    (OnUpperHalf z → ∃ c, upperInner z u (some v) = .ok c ∧ upperInner z v (some u) = .ok (star c)) ∧
    (OnBounded z → ∃ c, boundedInner z u (some v) = .ok c ∧
      boundedInner z v (some u) = .ok (star c)) := by
  have ht : ∀ a : CMat n, star a.trace = (conjM a).trace := by
    intro a; simp [Matrix.trace, Matrix.diag, conjM]
  have cyc : ∀ p q r s : CMat n, (p * q * r * s).trace = (r * s * p * q).trace := by
    intro p q r s
    rw [Matrix.mul_assoc (p * q), Matrix.trace_mul_comm]
    simp only [Matrix.mul_assoc]
  constructor
  · intro h
    refine ⟨_, upperInner_ok h u v, ?_⟩
    have h1 := (im_posDef h).isUnit
    rw [isUnit_iff_isUnit_det] at h1
    rw [upperInner_ok h v u, ht]
    simp only [conjM_mul, conjM_conjM, ← conjM_inv h1, conjM_asComplex]
    rw [cyc]
  · intro h
    refine ⟨_, boundedInner_ok h u v, ?_⟩
    have h1 := (idMinus_posDef h).isUnit
    have h2 := (idMinus_posDef (conj_bounded h)).isUnit
    rw [isUnit_iff_isUnit_det] at h1 h2
    rw [boundedInner_ok h v u, ht]
    simp only [conjM_mul, conjM_conjM, ← conjM_inv h1, ← conjM_inv h2, idMinus_conj]
    rw [cyc]

theorem conjM_of_symm {u : CMat n} (hu : CSymm u) : conjM u = uᴴ := by
  rw [conjM_eq_conjTranspose, csymm_iff.1 hu]

/-- **C83.** The square norm of a non-zero tangent vector is a positive real number. -/
theorem C83_positive {z u : CMat n} (hu : CSymm u) (h0 : u ≠ 0) :
    (OnUpperHalf z → ∃ r : ℝ, 0 < r ∧ upperInner z u none = .ok (r : ℂ)) ∧
    (OnBounded z → ∃ r : ℝ, 0 < r ∧ boundedInner z u none = .ok (r : ℂ)) := by
  have key : ∀ c : ℂ, 0 < c → ∃ r : ℝ, 0 < r ∧ c = (r : ℂ) := by
    intro c hc
    obtain ⟨h1, h2⟩ := Complex.lt_def.1 hc
    exact ⟨c.re, h1, Complex.ext rfl (by simpa using h2.symm)⟩
  constructor
  · intro h
    have hY := (im_posDef h).inv
    obtain ⟨r, hr, e⟩ := key _ (trace_weighted hY hY h0)
    refine ⟨r, hr, ?_⟩
    have : upperInner z u none = upperInner z u (some u) := rfl
    rw [this, upperInner_ok h, conjM_of_symm hu, e]
  · intro h
    obtain ⟨r, hr, e⟩ := key _ (trace_weighted (idMinus_posDef h).inv
      (idMinus_posDef (conj_bounded h)).inv h0)
    refine ⟨r, hr, ?_⟩
    have : boundedInner z u none = boundedInner z u (some u) := rfl
    rw [this, boundedInner_ok h, conjM_of_symm hu, e]

/-! ## Gradients -/

theorem upperEgrad2rgrad_eq {z : CMat n} (hz : CSymm z) (g : CMat n) :
    upperEgrad2rgrad z g = asComplex (imM z) * symC g * asComplex (imM z) := by
  have hy := imM_tr hz
  have e : ∀ a : CMat n, toComplex (imM z * reM a * imM z) (imM z * imM a * imM z) =
      asComplex (imM z) * a * asComplex (imM z) := by
    intro a
    have h1 : ∀ p q : RMat n, toComplex p q = asComplex p + Complex.I • asComplex q := by
      intro p q; ext i j
      apply Complex.ext <;> simp [toComplex, asComplex]
    rw [h1, asComplex_mul, asComplex_mul, asComplex_mul, asComplex_mul]
    conv_rhs => rw [← toComplex_re_im a, h1]
    simp only [mul_add, add_mul, mul_smul_comm, smul_mul_assoc]
  show symC (toComplex (imM z * reM g * imM z) (imM z * imM g * imM z)) = _
  rw [e]
  unfold symC
  rw [transpose_mul, transpose_mul, asComplex_tr, hy]
  simp only [mul_smul_comm, smul_mul_assoc, mul_add, add_mul, Matrix.mul_assoc]

theorem pairing_sym {g v : CMat n} (hv : CSymm v) :
    pairing (symC g) v = pairing g v := by
  unfold pairing
  have h1 : ∀ i j, (symC g i j).re = ((g i j).re + (g j i).re) / 2 := by
    intro i j; rw [symC_apply]; simp
  have h2 : ∀ i j, (symC g i j).im = ((g i j).im + (g j i).im) / 2 := by
    intro i j; rw [symC_apply]; simp
  have h3 : ∑ i, ∑ j, ((g j i).re * (v i j).re + (g j i).im * (v i j).im) =
      ∑ i, ∑ j, ((g i j).re * (v i j).re + (g i j).im * (v i j).im) := by
    rw [Finset.sum_comm]
    refine Finset.sum_congr rfl fun i _ => Finset.sum_congr rfl fun j _ => ?_
    rw [hv j i]
  have h4 : ∑ i, ∑ j, ((symC g i j).re * (v i j).re + (symC g i j).im * (v i j).im) =
      (∑ i, ∑ j, ((g i j).re * (v i j).re + (g i j).im * (v i j).im)) / 2 +
      (∑ i, ∑ j, ((g j i).re * (v i j).re + (g j i).im * (v i j).im)) / 2 := by
    rw [Finset.sum_div, Finset.sum_div, ← Finset.sum_add_distrib]
    refine Finset.sum_congr rfl fun i _ => ?_
    rw [Finset.sum_div, Finset.sum_div, ← Finset.sum_add_distrib]
    refine Finset.sum_congr rfl fun j _ => ?_
    rw [h1, h2]; ring
  rw [h4, h3]; ring

/-- **C83.** On the upper half space `egrad2rgrad` gives the Riemannian gradient: a symmetric matrix
whose inner product with every symmetric direction has real part the Euclidean pairing. -/
theorem C83_upper_gradient {z g v : CMat n} (h : OnUpperHalf z) (hv : CSymm v) :
    CSymm (upperEgrad2rgrad z g) ∧
    ∃ c, upperInner z (upperEgrad2rgrad z g) (some v) = .ok c ∧ c.re = pairing g v := by
  refine ⟨symC_symm _, _, upperInner_ok h _ v, ?_⟩
  have h1 := (im_posDef h).isUnit
  rw [isUnit_iff_isUnit_det] at h1
  rw [upperEgrad2rgrad_eq h.1, ← pairing_sym hv, pairing_eq, conjM_tr, csymm_iff.1 hv]
  congr 2
  set Y := asComplex (imM z)
  calc Y⁻¹ * (Y * symC g * Y) * Y⁻¹ * conjM v = (Y⁻¹ * Y) * symC g * (Y * Y⁻¹) * conjM v := by
        simp only [Matrix.mul_assoc]
    _ = _ := by rw [nonsing_inv_mul _ h1, mul_nonsing_inv _ h1, one_mul, mul_one]

/-- The gradient on the bounded domain for a symmetric Euclidean gradient. -/
theorem boundedEgrad2rgrad_eq {z : CMat n} (hz : CSymm z) (g : CMat n) :
    boundedEgrad2rgrad z g = (0.5 : ℂ) • (idMinusConjZZ (conjM z) * gᵀ * idMinusConjZZ (conjM z) +
      idMinusConjZZ z * g * idMinusConjZZ z) := by
  have ht : (idMinusConjZZ z)ᵀ = idMinusConjZZ (conjM z) := by
    unfold idMinusConjZZ identityLike
    rw [transpose_sub, transpose_one, transpose_mul, conjM_tr, csymm_iff.1 hz, conjM_conjM]
  show symC _ = _
  unfold symC
  rw [transpose_mul, transpose_mul, ht]
  simp only [Matrix.mul_assoc]

/-- **C83, the part that holds on the bounded domain.**  If `conj(z) z = z conj(z)` (in particular
for one row, for real `z` and for diagonal `z`), `egrad2rgrad` gives the Riemannian gradient. -/
theorem C83_bounded_gradient_partial {z g v : CMat n} (h : OnBounded z) (hv : CSymm v)
    (hc : conjM z * z = z * conjM z) :
    CSymm (boundedEgrad2rgrad z g) ∧
    ∃ c, boundedInner z (boundedEgrad2rgrad z g) (some v) = .ok c ∧ c.re = pairing g v := by
  refine ⟨symC_symm _, _, boundedInner_ok h _ v, ?_⟩
  have h1 := (idMinus_posDef h).isUnit
  rw [isUnit_iff_isUnit_det] at h1
  have hab : idMinusConjZZ (conjM z) = idMinusConjZZ z := by
    unfold idMinusConjZZ identityLike
    rw [conjM_conjM, hc]
  rw [boundedEgrad2rgrad_eq h.1, hab, ← pairing_sym hv, pairing_eq, conjM_tr, csymm_iff.1 hv]
  congr 2
  have e : symC g = (0.5 : ℂ) • (gᵀ + g) := rfl
  rw [e]
  set a := idMinusConjZZ z
  calc a⁻¹ * ((0.5 : ℂ) • (a * gᵀ * a + a * g * a)) * a⁻¹ * conjM v =
      (a⁻¹ * a) * ((0.5 : ℂ) • (gᵀ + g)) * (a * a⁻¹) * conjM v := by
        simp only [mul_smul_comm, smul_mul_assoc, mul_add, add_mul, Matrix.mul_assoc]
    _ = _ := by rw [nonsing_inv_mul _ h1, mul_nonsing_inv _ h1, one_mul, mul_one]

/-- **C83.** Against its own result the Euclidean gradient pairs positively, on both spaces: the
negative of `egrad2rgrad` is a direction of descent (for symmetric gradients). -/
theorem C83_descent {z g : CMat n} (hg : CSymm g) (h0 : g ≠ 0) :
    (OnUpperHalf z → 0 < pairing g (upperEgrad2rgrad z g)) ∧
    (OnBounded z → 0 < pairing g (boundedEgrad2rgrad z g)) := by
  have hs : ∀ a : CMat n, pairing g a = pairing a g := by
    intro a; unfold pairing
    exact Finset.sum_congr rfl fun i _ => Finset.sum_congr rfl fun j _ => by ring
  have hp : ∀ A : CMat n, A.PosDef → 0 < (A * g * A * gᴴ).trace.re := fun A hA =>
    (Complex.lt_def.1 (trace_weighted hA hA h0)).1
  constructor
  · intro h
    have hYt : asComplex (imM z) * g * asComplex (imM z) =
        asComplex (imM z) * symC g * asComplex (imM z) := by rw [symC_of_symm hg]
    rw [hs, upperEgrad2rgrad_eq h.1, ← hYt, pairing_eq, conjM_tr, csymm_iff.1 hg,
      conjM_of_symm hg]
    exact hp _ (im_posDef h)
  · intro h
    have : boundedEgrad2rgrad z g = symC (idMinusConjZZ z * g * idMinusConjZZ z) := rfl
    rw [hs, this, pairing_sym hg, pairing_eq, conjM_tr, csymm_iff.1 hg, conjM_of_symm hg]
    exact hp _ (idMinus_posDef h)

/-! ## The Cayley transform and the inner products -/

/-- The derivative of the Cayley transform at `z` in direction `u`. -/
noncomputable def dCayley (z u : CMat n) : CMat n :=
  (2 * Complex.I) • ((1 - z)⁻¹ * u * (1 - z)⁻¹)

theorem cayley_diff {z h : CMat n} (h1 : IsUnit (1 - z).det) (h2 : IsUnit (1 - (z + h)).det) :
    (Complex.I • (1 + (z + h))) * (1 - (z + h))⁻¹ - (Complex.I • (1 + z)) * (1 - z)⁻¹ =
      (2 * Complex.I) • ((1 - (z + h))⁻¹ * h * (1 - z)⁻¹) := by
  have e1 := (cayley_parts h1).1
  have e2 := (cayley_parts h2).1
  have : (Complex.I • (1 + (z + h))) * (1 - (z + h))⁻¹ - (Complex.I • (1 + z)) * (1 - z)⁻¹ =
      (2 * Complex.I) • ((1 - (z + h))⁻¹ - (1 - z)⁻¹) := by
    rw [smul_sub, ← e1, ← e2]; abel
  rw [this]
  congr 1
  calc (1 - (z + h))⁻¹ - (1 - z)⁻¹ =
      (1 - (z + h))⁻¹ * ((1 - z) * (1 - z)⁻¹) - ((1 - (z + h))⁻¹ * (1 - (z + h))) * (1 - z)⁻¹ := by
        rw [mul_nonsing_inv _ h1, nonsing_inv_mul _ h2, one_mul, mul_one]
    _ = (1 - (z + h))⁻¹ * ((1 - z) - (1 - (z + h))) * (1 - z)⁻¹ := by
        simp only [mul_sub, sub_mul, Matrix.mul_assoc]
    _ = _ := by
        congr 2
        abel

/-- **C83.** `dCayley` is the derivative of the transform along straight lines. -/
theorem C83_dCayley {z u : CMat n} (h : IsUnit (1 - z).det) (w : ℝ → CMat n)
    (hw : ∀ᶠ t : ℝ in nhds 0, cayleyTransform (z + (t : ℂ) • u) = .ok (w t)) (i j : Fin n) :
    HasDerivAt (fun t => w t i j) (dCayley z u i j) 0 := by
  have hw0 : w 0 = (Complex.I • (1 + z)) * (1 - z)⁻¹ := by
    have := hw.self_of_nhds
    simp only [Complex.ofReal_zero, zero_smul, add_zero] at this
    exact ((cayley_ok.1 this).2)
  have hcont : ContinuousAt (fun t : ℝ => ((2 * Complex.I) •
      ((1 - (z + (t : ℂ) • u))⁻¹ * u * (1 - z)⁻¹)) i j) 0 := by
    have hinv : ContinuousAt (fun t : ℝ => (1 - (z + (t : ℂ) • u))⁻¹) 0 := by
      have hd : Continuous fun t : ℝ => (1 - (z + (t : ℂ) • u)) := by fun_prop
      have h0 : (1 - (z + ((0 : ℝ) : ℂ) • u)).det ≠ 0 := by
        simpa using h.ne_zero
      have e : (fun t : ℝ => (1 - (z + (t : ℂ) • u))⁻¹) = fun t : ℝ =>
          ((1 - (z + (t : ℂ) • u)).det)⁻¹ • (1 - (z + (t : ℂ) • u)).adjugate := by
        ext t; rw [Matrix.inv_def, Ring.inverse_eq_inv']
      rw [e]
      exact (hd.matrix_det.continuousAt.inv₀ h0).smul hd.matrix_adjugate.continuousAt
    have h1 : ContinuousAt (fun t : ℝ => (2 * Complex.I) •
        ((1 - (z + (t : ℂ) • u))⁻¹ * u * (1 - z)⁻¹)) 0 := by
      fun_prop
    exact (continuous_apply_apply i j).continuousAt.comp h1
  rw [hasDerivAt_iff_tendsto_slope_zero]
  have hlim := hcont.tendsto
  simp only [Complex.ofReal_zero, zero_smul, add_zero] at hlim
  refine (hlim.mono_left nhdsWithin_le_nhds).congr' ?_
  filter_upwards [nhdsWithin_le_nhds hw, self_mem_nhdsWithin] with t ht ht0
  obtain ⟨hu, e⟩ := cayley_ok.1 ht
  have hd := cayley_diff h hu
  have e2 := congrFun (congrFun hd i) j
  rw [zero_add, e, hw0]
  rw [Matrix.sub_apply] at e2
  rw [e2]
  have ht0' : t ≠ 0 := ht0
  simp only [mul_smul_comm, smul_mul_assoc, Matrix.smul_apply, smul_eq_mul, Complex.real_smul]
  have : (t : ℂ) ≠ 0 := by exact_mod_cast ht0'
  push_cast
  field_simp

theorem conj_iId : conjM (iId n) = -iId n := by
  ext i j
  by_cases hij : i = j
  · subst hij; simp [conjM]
  · simp [conjM, hij]

/-- The imaginary part of the Cayley transform, in two ways. -/
theorem im_cayley {z w : CMat n} (h : OnBounded z) (hw : cayleyTransform z = .ok w) :
    asComplex (imM w) = (1 - z)⁻¹ * idMinusConjZZ (conjM z) * (1 - conjM z)⁻¹ ∧
    asComplex (imM w) = (1 - conjM z)⁻¹ * idMinusConjZZ z * (1 - z)⁻¹ := by
  have key : ∀ {z w : CMat n}, OnBounded z → cayleyTransform z = .ok w →
      asComplex (imM w) = (1 - z)⁻¹ * idMinusConjZZ (conjM z) * (1 - conjM z)⁻¹ := by
    intro z w h hw
    obtain ⟨hu, rfl⟩ := cayley_ok.1 hw
    have huc : IsUnit (1 - conjM z).det := by
      have := conjM_unit hu; rwa [conjM_sub, conjM_one] at this
    have e := (cayley_parts hu).1
    set w := (Complex.I • (1 + z)) * (1 - z)⁻¹
    have him : (2 * Complex.I) • asComplex (imM w) = w - conjM w := by
      ext i j
      apply Complex.ext <;> simp [asComplex, imM, conjM]
      ring
    have hc : conjM w = -(2 * Complex.I) • (1 - conjM z)⁻¹ + iId n := by
      have := congrArg conjM e
      have hadd : ∀ a b : CMat n, conjM (a + b) = conjM a + conjM b := by
        intro a b; simp only [conjM_eq, map_add]
      have hsm : ∀ (c : ℂ) (a : CMat n), conjM (c • a) = star c • conjM a := by
        intro c a; ext i j; simp [conjM]
      rw [hadd, conj_iId, hsm, ← conjM_inv hu, conjM_sub, conjM_one] at this
      rw [← sub_eq_iff_eq_add, sub_eq_add_neg, this]
      simp
    have hw' : w = (2 * Complex.I) • (1 - z)⁻¹ - iId n := by rw [← e]; abel
    have h2 : (2 * Complex.I) • asComplex (imM w) = (2 * Complex.I) •
        ((1 - z)⁻¹ + (1 - conjM z)⁻¹ - 1) := by
      rw [him, hc]
      conv_lhs => rw [hw']
      rw [smul_sub, smul_add, neg_smul, mul_smul 2 Complex.I (1 : CMat n), two_smul ℂ (Complex.I • (1 : CMat n))]
      abel
    have h3 := smul_right_injective _ two_I_ne h2
    rw [h3]
    set R := (1 - z)⁻¹
    set Rc := (1 - conjM z)⁻¹
    calc R + Rc - 1 = R * ((1 - conjM z) * Rc) + (R * (1 - z)) * Rc -
          (R * (1 - z)) * ((1 - conjM z) * Rc) := by
          rw [mul_nonsing_inv _ huc, nonsing_inv_mul _ hu, one_mul, mul_one, one_mul]
      _ = R * ((1 - conjM z) + (1 - z) - (1 - z) * (1 - conjM z)) * Rc := by
          simp only [mul_sub, sub_mul, mul_add, add_mul, Matrix.mul_assoc]
      _ = _ := by
          congr 2
          unfold idMinusConjZZ identityLike
          rw [conjM_conjM]
          noncomm_ring
  refine ⟨key h hw, ?_⟩
  have h1 := key h hw
  obtain ⟨w', e', hu'⟩ := C69_bounded_to_upper h
  rw [hw] at e'
  injection e' with e'
  subst e'
  have h2 := congrArg transpose h1
  rw [asComplex_tr, imM_tr hu'.1] at h2
  rw [h2, transpose_mul, transpose_mul, transpose_nonsing_inv, transpose_nonsing_inv,
    transpose_sub, transpose_sub, transpose_one, conjM_tr, csymm_iff.1 h.1, Matrix.mul_assoc]
  congr 2
  unfold idMinusConjZZ identityLike
  rw [transpose_sub, transpose_mul, transpose_one, conjM_conjM, conjM_tr, csymm_iff.1 h.1]

/-- The inner product of the upper half space, carried to the bounded domain. -/
theorem cayley_pullback {z w u v : CMat n} (h : OnBounded z) (hw : cayleyTransform z = .ok w) :
    upperInner w (dCayley z u) (some (dCayley z v)) =
      .ok (4 * ((idMinusConjZZ (conjM z))⁻¹ * u * (idMinusConjZZ z)⁻¹ * conjM v).trace) := by
  obtain ⟨w', e', hup⟩ := C69_bounded_to_upper h
  rw [hw] at e'
  injection e' with e'
  subst e'
  rw [upperInner_ok hup]
  obtain ⟨i1, i2⟩ := im_cayley h hw
  have hu := (cayley_ok.1 hw).1
  have huc : IsUnit (1 - conjM z).det := by
    have := conjM_unit hu; rwa [conjM_sub, conjM_one] at this
  have hY1 : (asComplex (imM w))⁻¹ =
      (1 - conjM z) * (idMinusConjZZ (conjM z))⁻¹ * (1 - z) := by
    rw [i1, Matrix.mul_inv_rev, Matrix.mul_inv_rev, nonsing_inv_nonsing_inv _ huc,
      nonsing_inv_nonsing_inv _ hu, Matrix.mul_assoc]
  have hY2 : (asComplex (imM w))⁻¹ = (1 - z) * (idMinusConjZZ z)⁻¹ * (1 - conjM z) := by
    rw [i2, Matrix.mul_inv_rev, Matrix.mul_inv_rev, nonsing_inv_nonsing_inv _ huc,
      nonsing_inv_nonsing_inv _ hu, Matrix.mul_assoc]
  have hc : conjM (dCayley z v) = -(2 * Complex.I) •
      ((1 - conjM z)⁻¹ * conjM v * (1 - conjM z)⁻¹) := by
    have hsm : ∀ (c : ℂ) (a : CMat n), conjM (c • a) = star c • conjM a := by
      intro c a; ext i j; simp [conjM]
    unfold dCayley
    rw [hsm, conjM_mul, conjM_mul, ← conjM_inv hu, conjM_sub, conjM_one]
    congr 1
    simp
  congr 1
  set Y := (asComplex (imM w))⁻¹ with hY
  set B := (idMinusConjZZ (conjM z))⁻¹
  set A := (idMinusConjZZ z)⁻¹
  have s1 : Y * dCayley z u = (2 * Complex.I) • ((1 - conjM z) * B * u * (1 - z)⁻¹) := by
    rw [hY1]
    unfold dCayley
    rw [mul_smul_comm]
    congr 1
    calc (1 - conjM z) * B * (1 - z) * ((1 - z)⁻¹ * u * (1 - z)⁻¹)
        = (1 - conjM z) * B * ((1 - z) * (1 - z)⁻¹) * u * (1 - z)⁻¹ := by
          simp only [Matrix.mul_assoc]
      _ = _ := by rw [mul_nonsing_inv _ hu, mul_one]
  have s2 : Y * conjM (dCayley z v) = -(2 * Complex.I) •
      ((1 - z) * A * conjM v * (1 - conjM z)⁻¹) := by
    rw [hY2, hc, mul_smul_comm]
    congr 1
    calc (1 - z) * A * (1 - conjM z) * ((1 - conjM z)⁻¹ * conjM v * (1 - conjM z)⁻¹)
        = (1 - z) * A * ((1 - conjM z) * (1 - conjM z)⁻¹) * conjM v * (1 - conjM z)⁻¹ := by
          simp only [Matrix.mul_assoc]
      _ = _ := by rw [mul_nonsing_inv _ huc, mul_one]
  have s3 : Y * dCayley z u * Y * conjM (dCayley z v) = (4 : ℂ) •
      ((1 - conjM z) * (B * u * A * conjM v * (1 - conjM z)⁻¹)) := by
    rw [Matrix.mul_assoc, s1, s2, smul_mul_smul_comm]
    have : 2 * Complex.I * -(2 * Complex.I) = 4 := by
      linear_combination (-4) * Complex.I_mul_I
    rw [this]
    congr 1
    calc (1 - conjM z) * B * u * (1 - z)⁻¹ * ((1 - z) * A * conjM v * (1 - conjM z)⁻¹)
        = (1 - conjM z) * B * u * ((1 - z)⁻¹ * (1 - z)) * A * conjM v * (1 - conjM z)⁻¹ := by
          simp only [Matrix.mul_assoc]
      _ = _ := by rw [nonsing_inv_mul _ hu, mul_one]; simp only [Matrix.mul_assoc]
  rw [s3, trace_smul, trace_mul_comm, smul_eq_mul]
  congr 2
  rw [Matrix.mul_assoc, nonsing_inv_mul _ huc, mul_one]

/-- **C83, the part that holds.**  If `conj(z) z = z conj(z)`, the Cayley transform carries four
times the inner product of the bounded domain to that of the upper half space. -/
theorem C83_cayley_isometry_partial {z w u v : CMat n} (h : OnBounded z)
    (hw : cayleyTransform z = .ok w) (hc : conjM z * z = z * conjM z) :
    ∃ c, boundedInner z u (some v) = .ok c ∧
      upperInner w (dCayley z u) (some (dCayley z v)) = .ok (4 * c) := by
  have hab : idMinusConjZZ (conjM z) = idMinusConjZZ z := by
    unfold idMinusConjZZ identityLike
    rw [conjM_conjM, hc]
  refine ⟨_, boundedInner_ok h u v, ?_⟩
  rw [cayley_pullback h hw, hab]

/-- The hypotheses are met by every matrix with one row, by real and by diagonal matrices. -/
example (z : CMat 1) : conjM z * z = z * conjM z := by
  ext i j; fin_cases i; fin_cases j; simp [mul_apply, conjM, mul_comm]

example (x : RMat n) : conjM (asComplex x) * asComplex x = asComplex x * conjM (asComplex x) := by
  rw [conjM_asComplex]

/-! ## What fails -/

/-- The witness. -/
noncomputable def zBad : CMat 2 := !![0, 1 / 2; 1 / 2, Complex.I / 2]

theorem zBad_len (w : Fin 2 → ℂ) : len2 w - len2 (zBad *ᵥ w) =
    3 / 4 * Complex.normSq (w 0) + 1 / 2 * Complex.normSq (w 1)
      - 1 / 2 * ((w 0).re * -(w 1).im + (w 0).im * (w 1).re) := by
  simp [len2, zBad, mulVec, dotProduct, Fin.sum_univ_two, Complex.normSq_apply]
  ring

theorem zBad_bounded : OnBounded zBad := by
  refine ⟨fun i j => by fin_cases i <;> fin_cases j <;> rfl, fun w hw => ?_⟩
  rw [← sub_pos, zBad_len]
  have hne : 0 < Complex.normSq (w 0) + Complex.normSq (w 1) := by
    rcases Classical.em (w 0 = 0) with h | h
    · rcases Classical.em (w 1 = 0) with h' | h'
      · exact absurd (by ext i; fin_cases i <;> assumption) hw
      · have := Complex.normSq_pos.2 h'; have := Complex.normSq_nonneg (w 0); linarith
    · have := Complex.normSq_pos.2 h; have := Complex.normSq_nonneg (w 1); linarith
  simp only [Complex.normSq_apply] at hne ⊢
  nlinarith [sq_nonneg ((w 0).re + (w 1).im), sq_nonneg ((w 0).im - (w 1).re)]

theorem zBad_a : idMinusConjZZ zBad = !![3 / 4, -Complex.I / 4; Complex.I / 4, 1 / 2] := by
  ext i j
  fin_cases i <;> fin_cases j <;> apply Complex.ext <;>
    simp [idMinusConjZZ, identityLike, conjM, zBad, mul_apply, Fin.sum_univ_two,
      Complex.conj_ofNat] <;> norm_num

theorem zBad_b : idMinusConjZZ (conjM zBad) = !![3 / 4, Complex.I / 4; -Complex.I / 4, 1 / 2] := by
  ext i j
  fin_cases i <;> fin_cases j <;> apply Complex.ext <;>
    simp [idMinusConjZZ, identityLike, conjM, zBad, mul_apply, Fin.sum_univ_two,
      Complex.conj_ofNat] <;> norm_num

theorem zBad_A : (idMinusConjZZ zBad)⁻¹ =
    !![8 / 5, 4 / 5 * Complex.I; -(4 / 5 * Complex.I), 12 / 5] := by
  apply Matrix.inv_eq_right_inv
  rw [zBad_a]
  ext i j
  fin_cases i <;> fin_cases j <;> apply Complex.ext <;>
    simp [mul_apply, Fin.sum_univ_two] <;> norm_num

theorem zBad_B : (idMinusConjZZ (conjM zBad))⁻¹ =
    !![8 / 5, -(4 / 5 * Complex.I); 4 / 5 * Complex.I, 12 / 5] := by
  apply Matrix.inv_eq_right_inv
  rw [zBad_b]
  ext i j
  fin_cases i <;> fin_cases j <;> apply Complex.ext <;>
    simp [mul_apply, Fin.sum_univ_two] <;> norm_num

/-- **C83, counterexample.** For `z = ((0, 1/2), (1/2, i/2))` the gradient of the bounded domain is
not the Riemannian gradient: its inner product with the direction `v = e₁ e₁ᵀ` is `7/5` of the
directional derivative. -/
theorem C83_counterexample_gradient :
    OnBounded zBad ∧ CSymm (!![1, 0; 0, 0] : CMat 2) ∧
    boundedInner zBad (boundedEgrad2rgrad zBad !![1, 0; 0, 0]) (some !![1, 0; 0, 0]) =
      .ok (7 / 5) ∧ pairing (!![1, 0; 0, 0] : CMat 2) !![1, 0; 0, 0] = 1 := by
  refine ⟨zBad_bounded, fun i j => by fin_cases i <;> fin_cases j <;> rfl, ?_, ?_⟩
  · have ht : (!![1, 0; 0, 0] : CMat 2)ᵀ = !![1, 0; 0, 0] := by
      ext i j; fin_cases i <;> fin_cases j <;> rfl
    rw [boundedInner_ok zBad_bounded, zBad_A, zBad_B, boundedEgrad2rgrad_eq zBad_bounded.1, ht, zBad_a,
      zBad_b]
    congr 1
    apply Complex.ext <;>
      simp [Matrix.trace, Matrix.diag, mul_apply, Fin.sum_univ_two, conjM] <;> norm_num
  · simp [pairing, Fin.sum_univ_two]

/-- **C83, counterexample.** The antisymmetric part of a Euclidean gradient says nothing about the
function on symmetric matrices, but it moves the gradient of the bounded domain. -/
theorem C83_counterexample_antisymmetric :
    (∀ v : CMat 2, CSymm v → pairing !![0, 1; -1, 0] v = 0) ∧
    boundedEgrad2rgrad zBad !![0, 1; -1, 0] ≠ 0 := by
  constructor
  · intro v hv
    simp [pairing, Fin.sum_univ_two, hv 0 1]
  · intro h
    have := congrArg Complex.im (congrFun (congrFun h 0) 0)
    have ht : (!![0, 1; -1, 0] : CMat 2)ᵀ = !![0, -1; 1, 0] := by
      ext i j; fin_cases i <;> fin_cases j <;> rfl
    rw [boundedEgrad2rgrad_eq zBad_bounded.1, ht, zBad_a, zBad_b] at this
    simp [mul_apply, Fin.sum_univ_two] at this
    norm_num at this

/-- **C83, counterexample.** The inner product of the bounded domain is not the one its distance
comes from: at `z = ((0, 1/2), (1/2, i/2))` the Cayley transform (which is an isometry for `dist`)
does not scale it by a constant. -/
theorem C83_counterexample_isometry : ∃ w, cayleyTransform zBad = .ok w ∧
    boundedInner zBad !![1, Complex.I; Complex.I, 0] none = .ok (32 / 5) ∧
    upperInner w (dCayley zBad !![1, Complex.I; Complex.I, 0]) none = .ok (4 * (416 / 25)) ∧
    boundedInner zBad !![1, 0; 0, 0] none = .ok (64 / 25) ∧
    upperInner w (dCayley zBad !![1, 0; 0, 0]) none = .ok (4 * (64 / 25)) := by
  obtain ⟨w, hw, -⟩ := C69_bounded_to_upper zBad_bounded
  have e1 : ∀ u, boundedInner zBad u none = boundedInner zBad u (some u) := fun u => rfl
  have e2 : ∀ u, upperInner w u none = upperInner w u (some u) := fun u => rfl
  refine ⟨w, hw, ?_, ?_, ?_, ?_⟩
  · rw [e1, boundedInner_ok zBad_bounded, zBad_A, zBad_B]
    congr 1
    apply Complex.ext <;>
      simp [Matrix.trace, Matrix.diag, mul_apply, Fin.sum_univ_two, conjM] <;> norm_num
  · rw [e2, cayley_pullback zBad_bounded hw, zBad_A, zBad_B]
    congr 2
    apply Complex.ext <;>
      simp [Matrix.trace, Matrix.diag, mul_apply, Fin.sum_univ_two, conjM] <;> norm_num
  · rw [e1, boundedInner_ok zBad_bounded, zBad_A, zBad_B]
    congr 1
    apply Complex.ext <;>
      simp [Matrix.trace, Matrix.diag, mul_apply, Fin.sum_univ_two, conjM] <;> norm_num
  · rw [e2, cayley_pullback zBad_bounded hw, zBad_A, zBad_B]
    congr 2
    apply Complex.ext <;>
      simp [Matrix.trace, Matrix.diag, mul_apply, Fin.sum_univ_two, conjM] <;> norm_num

/-- **C83, counterexample.** `proju` is not a projection: at `z = 2 i` it multiplies tangent vectors
by four on the upper half space, and at `z = 1/2` by `9/16` on the bounded domain. -/
theorem C83_counterexample_proju (u : CMat 1) :
    OnUpperHalf (!![2 * Complex.I] : CMat 1) ∧ upperProju !![2 * Complex.I] u = (4 : ℂ) • u ∧
    OnBounded (!![1 / 2] : CMat 1) ∧ boundedProju !![1 / 2] u = (9 / 16 : ℂ) • u := by
  refine ⟨⟨fun i j => by fin_cases i; fin_cases j; rfl, fun w hw => ?_⟩, ?_,
    ⟨fun i j => by fin_cases i; fin_cases j; rfl, fun w hw => ?_⟩, ?_⟩
  · have : w 0 ≠ 0 := fun h => hw (by ext i; fin_cases i; exact h)
    have := mul_self_pos.2 this
    simp [imForm]
    nlinarith
  · have hs : CSymm (!![2 * Complex.I] : CMat 1) := fun i j => by fin_cases i; fin_cases j; rfl
    have hu : CSymm u := fun i j => by fin_cases i; fin_cases j; rfl
    unfold upperProju
    rw [upperEgrad2rgrad_eq hs, symC_of_symm hu]
    ext i j; fin_cases i; fin_cases j
    simp [mul_apply, asComplex, imM]
    ring
  · have : w 0 ≠ 0 := fun h => hw (by ext i; fin_cases i; exact h)
    have := Complex.normSq_pos.2 this
    simp [len2, mulVec, dotProduct]
    linarith
  · have hs : CSymm (!![1 / 2] : CMat 1) := fun i j => by fin_cases i; fin_cases j; rfl
    unfold boundedProju
    rw [boundedEgrad2rgrad_eq hs]
    ext i j; fin_cases i; fin_cases j
    simp [mul_apply, idMinusConjZZ, identityLike, conjM]
    norm_num
    ring

theorem im_iId : imM (iId n) = 1 := by
  ext i j
  by_cases hij : i = j
  · subst hij; simp [imM]
  · simp [imM, hij]

/-- **C83.** Where `proju` is one: at the origin of each space. -/
theorem C83_proju_partial (u : CMat n) :
    upperProju (iId n) u = symC u ∧ boundedProju 0 u = symC u ∧
    (∀ z, CSymm (upperProju z u)) ∧ ∀ z, CSymm (boundedProju z u) := by
  refine ⟨?_, ?_, fun z => symC_symm _, fun z => symC_symm _⟩
  · unfold upperProju
    rw [upperEgrad2rgrad_eq iId_upper.1, im_iId, asComplex_one, one_mul, mul_one]
  · show symC _ = _
    have : idMinusConjZZ (0 : CMat n) = 1 := by simp [idMinusConjZZ, identityLike]
    rw [this, one_mul, mul_one]

/-- **C83.** `UpperHalf.origin` for one point is right. -/
theorem C83_origin_partial (n : ℕ) : upperOriginShape [n, n] = .ok [n, n] ∧
    OnUpperHalf (Matrix.of fun i j : Fin n => upperOriginEntry i j) := by
  refine ⟨rfl, ?_⟩
  have : (Matrix.of fun i j : Fin n => upperOriginEntry i j) = iId n := by
    ext i j
    by_cases hij : i = j
    · subst hij; apply Complex.ext <;> simp [upperOriginEntry]
    · have : (i : ℕ) ≠ j := fun h => hij (Fin.ext h)
      apply Complex.ext <;> simp [upperOriginEntry, hij, this]
  rw [this]
  exact iId_upper

/-- **C83, counterexample.** For a batch, `UpperHalf.origin` returns a matrix of the wrong shape or
raises. -/
theorem C83_counterexample_origin :
    (∀ b n : ℕ, upperOriginShape [b, n, n] = .ok [b, n]) ∧
    ∀ (a b : ℕ) (bs : List ℕ) (n : ℕ),
      upperOriginShape (a :: b :: bs ++ [n, n]) = .error .typeError := by
  refine ⟨fun b n => rfl, fun a b bs n => ?_⟩
  have : (a :: b :: bs ++ [n, n]).dropLast = a :: b :: (bs ++ [n]) := by
    have : a :: b :: bs ++ [n, n] = (a :: b :: (bs ++ [n])) ++ [n] := by simp
    rw [this, List.dropLast_concat]
  unfold upperOriginShape
  rw [this]
  cases bs <;> rfl

/-! ## C74 and C27 for the Siegel spaces -/

/-- **C74.** `UpperHalf.random` and `BoundedDomain.random` return points of their spaces for every
draw of the noise; the second never raises. -/
theorem C74_siegel_random (draw : CMat n) :
    OnUpperHalf (upperRandom draw) ∧ ∃ z, boundedRandom draw = .ok z ∧ OnBounded z := by
  have hs := symC_symm ((0.5 : ℂ) • draw)
  have ht : (imM (symC ((0.5 : ℂ) • draw)))ᵀ = imM (symC ((0.5 : ℂ) • draw)) := imM_tr hs
  have he := onSPD_exp ht
  have hsym : CSymm (upperRandom draw) := by
    intro i j
    show (⟨_, _⟩ : ℂ) = ⟨_, _⟩
    apply Complex.ext
    · show (symC ((0.5 : ℂ) • draw) i j).re = (symC ((0.5 : ℂ) • draw) j i).re
      rw [hs i j]
    · exact congrFun (congrFun (symm_iff.1 he.1) j) i
  have hu : OnUpperHalf (upperRandom draw) := by
    rw [imM_onSPD hsym]
    show OnSPD (imM (toComplex _ _))
    rw [im_toComplex]
    exact he
  refine ⟨hu, ?_⟩
  exact C69_upper_to_bounded hu

/-- **C27.** On the Siegel spaces `proju` always returns a symmetric matrix; that it is not a
projection is `C83_counterexample_proju`. -/
theorem C27_siegel_partial (z u : CMat n) : CSymm (upperProju z u) ∧ CSymm (boundedProju z u) :=
  ⟨symC_symm _, symC_symm _⟩

/-- **C27, counterexample.** `UpperHalf.proju` applied twice differs from `proju` applied once. -/
theorem C27_counterexample_siegel :
    OnUpperHalf (!![2 * Complex.I] : CMat 1) ∧
    upperProju !![2 * Complex.I] (upperProju !![2 * Complex.I] (1 : CMat 1)) ≠
      upperProju !![2 * Complex.I] (1 : CMat 1) := by
  refine ⟨(C83_counterexample_proju 1).1, ?_⟩
  rw [(C83_counterexample_proju _).2.1, (C83_counterexample_proju _).2.1]
  intro h
  have := congrFun (congrFun h 0) 0
  norm_num at this

end Geoopt.Siegel
