import Verif.Lemmas.SiegelDist
import Verif.Props.C71

/-!
# C82: the Siegel distance

`OnUpperHalf`, `OnBounded`, `Symplectic` and the action `act` are in `Verif.Spec.Siegel`.  The theorems hold for every
implementation of `eigh` and `eigvalsh`.
-/

namespace Geoopt.Siegel
open Matrix Geoopt Geoopt.Linalg Geoopt.SPD

variable {n : ℕ}

/-! ## The function of one singular value -/

theorem vvd_entry {eps σ : ℝ} (he : 0 < eps) (he1 : eps < 1) (h0 : 0 ≤ σ) (h1 : σ < 1) :
    0 ≤ Real.log ((1 + σ) / max (1 - σ) eps) ∧
    Real.log ((1 + σ) / max (1 - σ) eps) ≤ Real.log (2 / eps) ∧
    (Real.log ((1 + σ) / max (1 - σ) eps) = 0 → σ = 0) := by
  have hm : 0 < max (1 - σ) eps := lt_max_of_lt_right he
  have hle : max (1 - σ) eps ≤ 1 := max_le (by linarith) he1.le
  have hq : 1 ≤ (1 + σ) / max (1 - σ) eps := by
    rw [le_div_iff₀ hm]; linarith
  refine ⟨Real.log_nonneg hq, ?_, ?_⟩
  · apply Real.log_le_log (by positivity)
    exact div_le_div₀ (by norm_num) (by linarith) he (le_max_right _ _)
  · intro h
    have hq1 : (1 + σ) / max (1 - σ) eps = 1 := by
      rcases Real.log_eq_zero.1 h with h2 | h2 | h2 <;> linarith
    rw [div_eq_one_iff_eq hm.ne'] at hq1
    linarith

theorem vvdOf_ok (d : RealDtype) {σ : Fin n → ℝ} (h : ∀ j, 0 ≤ σ j ∧ σ j < 1) :
    vvdOf d σ = .ok fun i => Real.log ((1 + σ i) / max (1 - σ i) (EPS d)) := by
  unfold vvdOf
  simp only
  rw [if_pos fun i => ?_, if_pos fun i => ?_]
  · have := (h i).2; norm_num; linarith
  · have := (h i).1; have := EPS_pos d; linarith

theorem vvd_mono {eps σ τ : ℝ} (he : 0 < eps) (h0 : 0 ≤ σ) (h : σ ≤ τ) :
    Real.log ((1 + σ) / max (1 - σ) eps) ≤ Real.log ((1 + τ) / max (1 - τ) eps) := by
  have hm : 0 < max (1 - σ) eps := lt_max_of_lt_right he
  have hm' : 0 < max (1 - τ) eps := lt_max_of_lt_right he
  apply Real.log_le_log (by positivity)
  exact div_le_div₀ (by linarith) (by linarith) hm' (max_le_max (by linarith) le_rfl)

/-- **C82.** On the upper half space the vector-valued distance is always computed (no singular
matrix, no failed assertion); its entries are ascending and non-negative. -/
theorem C82_defined (Eu : Eigh n) (Ev : EigvalsL (n + n)) (d : RealDtype) {z1 z2 : CMat n}
    (h1 : OnUpperHalf z1) (h2 : OnUpperHalf z2) :
    ∃ v, upperVvd Eu Ev d z1 z2 = .ok v ∧ Monotone v ∧ ∀ i, 0 ≤ v i := by
  obtain ⟨w, hw⟩ := normalise Eu h1 h2
  have hr := takagi_range Ev hw.bounded
  refine ⟨_, (vvd_normalised Ev d hw).trans (vvdOf_ok d hr), fun i j hij => ?_, fun i => ?_⟩
  · exact vvd_mono (EPS_pos d) (hr i).1 (takagi_mono Ev w hij)
  · exact (vvd_entry (EPS_pos d) (EPS_lt_one d) (hr i).1 (hr i).2).1

/-- **C82.** The distance is non-negative, for every metric. -/
theorem C82_nonneg (Eu : Eigh n) (Ev : EigvalsL (n + n)) (d : RealDtype) (μ : Metric)
    {z1 z2 : CMat n} (h1 : OnUpperHalf z1) (h2 : OnUpperHalf z2) (r : ℝ)
    (h : upperDist Eu Ev d μ z1 z2 = .ok r) : 0 ≤ r := by
  obtain ⟨v, hv, -, hn⟩ := C82_defined Eu Ev d h1 h2
  unfold upperDist at h
  simp only [hv] at h
  exact C71_nonneg μ v hn r h

/-- **C82.** The vector-valued distance vanishes exactly when the points are equal. -/
theorem C82_vvd_zero_iff (Eu : Eigh n) (Ev : EigvalsL (n + n)) (d : RealDtype) {z1 z2 : CMat n}
    (h1 : OnUpperHalf z1) (h2 : OnUpperHalf z2) :
    upperVvd Eu Ev d z1 z2 = .ok 0 ↔ z1 = z2 := by
  obtain ⟨w, hw⟩ := normalise Eu h1 h2
  have hr := takagi_range Ev hw.bounded
  rw [vvd_normalised Ev d hw, vvdOf_ok d hr]
  constructor
  · intro h
    injection h with h
    have hz : ∀ j, takagiEigvals Ev w j = 0 := fun j =>
      (vvd_entry (EPS_pos d) (EPS_lt_one d) (hr j).1 (hr j).2).2.2 (congrFun h j)
    have hw0 := takagi_zero Ev hw.bounded.1 hz
    have hq := hw.eq
    rw [hw0] at hq
    set S := asComplex (symInvSqrtm1 Eu (imM z1))
    have hD : z2 - z1 = 0 := by
      have : S⁻¹ * (S * ((z2 - z1) * (z2 - conjM z1)⁻¹) * S⁻¹) * S * (z2 - conjM z1) = 0 := by
        rw [← hq]; simp
      calc z2 - z1 = (S⁻¹ * S) * (z2 - z1) * ((z2 - conjM z1)⁻¹ * ((S⁻¹ * S) * (z2 - conjM z1))) := by
            rw [nonsing_inv_mul _ hw.unitS, one_mul, one_mul, nonsing_inv_mul _ hw.unitE, mul_one]
        _ = 0 := by rw [← this]; simp only [Matrix.mul_assoc]
    exact (sub_eq_zero.1 hD).symm
  · rintro rfl
    have hw0 : w = 0 := by rw [hw.eq]; simp
    have hz : ∀ j, takagiEigvals Ev w j = 0 := by
      intro j
      obtain ⟨v, hd⟩ := eigvalsL_dec Ev (compound_symm hw.bounded.1)
      have hb : ∀ x, len2 (w *ᵥ x) ≤ (0 : ℝ) ^ 2 * len2 x := by
        intro x; rw [hw0]; simp [len2]
      have := abs_le_of_len hd le_rfl hb (Fin.natAdd n j)
      exact abs_eq_zero.1 (le_antisymm this (abs_nonneg _))
    congr 1
    ext j
    rw [hz j]
    have : max (1 - 0) (EPS d) = 1 := by rw [sub_zero]; exact max_eq_left (EPS_lt_one d).le
    rw [this]; simp

/-- **C82.** The distance of a point to itself is zero, for every metric of matching rank. -/
theorem C82_self (Eu : Eigh n) (Ev : EigvalsL (n + n)) (d : RealDtype) {z : CMat n}
    (h : OnUpperHalf z) (hn : 0 < n) (weights : Fin n → ℝ) (μ : Metric)
    (hμ : μ ∈ [Metric.riemannian, .finslerOne, .finslerInfinity, .finslerMinimum n,
      .weightedSum n weights]) : upperDist Eu Ev d μ z z = .ok 0 := by
  have h0 := (C82_vvd_zero_iff Eu Ev d h h).2 rfl
  unfold upperDist
  simp only [h0]
  show μ.row (0 : Fin n → ℝ) = .ok 0
  simp only [List.mem_cons, List.not_mem_nil, or_false] at hμ
  rcases hμ with rfl | rfl | rfl | rfl | rfl
  · simp [Metric.row]
  · simp [Metric.row]
  · simp [Metric.row, hn]
  · rw [C71_minimum]; simp
  · show weightedRow _ _ = _
    rw [weightedRow_self]; simp

/-- **C82.** Distance zero means equal points: Riemannian, Finsler one, Finsler infinity, and
minimum entropy (whose rank is at least two). -/
theorem C82_definite (Eu : Eigh n) (Ev : EigvalsL (n + n)) (d : RealDtype) {z1 z2 : CMat n}
    (h1 : OnUpperHalf z1) (h2 : OnUpperHalf z2) (hn : 2 ≤ n) (μ : Metric)
    (hμ : μ ∈ [Metric.riemannian, .finslerOne, .finslerInfinity, .finslerMinimum n]) :
    upperDist Eu Ev d μ z1 z2 = .ok 0 ↔ z1 = z2 := by
  rw [← C82_vvd_zero_iff Eu Ev d h1 h2]
  obtain ⟨v, hv, hm, hnn⟩ := C82_defined Eu Ev d h1 h2
  obtain ⟨a, b, c, e⟩ := C71_definite v hnn hm
  unfold upperDist
  simp only [hv]
  have : (Except.ok v : Except PyErr (Fin n → ℝ)) = .ok 0 ↔ v = 0 := by
    constructor
    · intro h; injection h
    · rintro rfl; rfl
  rw [this]
  simp only [List.mem_cons, List.not_mem_nil, or_false] at hμ
  rcases hμ with rfl | rfl | rfl | rfl
  · exact a
  · exact b
  · exact c (by omega)
  · exact e hn

/-- Symmetry of the cross ratio. -/
theorem cross_symm {z1 z2 : CMat n} (h1 : CSymm z1) (h2 : CSymm z2)
    (hu : IsUnit (z2 - conjM z1).det) : SameSpec (cross z1 z2) (cross z2 z1) := by
  have t1 := csymm_iff.1 h1
  have t2 := csymm_iff.1 h2
  set D := z2 - z1 with hD
  set E := z2 - conjM z1 with hE
  have hDt : Dᵀ = D := by rw [hD, transpose_sub, t1, t2]
  have hEt : Eᵀ = E := by rw [hE, transpose_sub, conjM_tr, t1, t2]
  have hD' : z1 - z2 = -D := by rw [hD]; abel
  have hE' : z1 - conjM z2 = -conjM E := by rw [hE, conjM_sub, conjM_conjM]; abel
  have c1 : cross z1 z2 = conjM D * ((conjM E)⁻¹ * D * E⁻¹) := by
    unfold cross; simp only [← hD, ← hE, Matrix.mul_assoc]
  have c2 : cross z2 z1 = conjM D * E⁻¹ * D * (conjM E)⁻¹ := by
    unfold cross
    rw [hD', hE', conjM_neg, conjM_neg, conjM_conjM]
    have hn : ∀ a : CMat n, IsUnit a.det → (-a)⁻¹ = -a⁻¹ := by
      intro a ha
      apply Matrix.inv_eq_right_inv
      rw [neg_mul_neg, mul_nonsing_inv _ ha]
    rw [hn _ hu, hn _ (conjM_unit hu)]
    simp only [neg_mul_neg, Matrix.mul_assoc]
  have c3 : (cross z2 z1)ᵀ = (conjM E)⁻¹ * D * E⁻¹ * conjM D := by
    rw [c2]
    simp only [transpose_mul, transpose_nonsing_inv, conjM_tr, hDt, hEt, Matrix.mul_assoc]
  have := (sameSpec_transpose (cross z2 z1)).symm
  rw [c3] at this
  refine SameSpec.trans ?_ this.symm
  rw [c1]
  exact sameSpec_mul_comm _ _

/-- **C82.** The distance is symmetric, for every metric. -/
theorem C82_symm (Eu : Eigh n) (Ev : EigvalsL (n + n)) (d : RealDtype) (μ : Metric)
    {z1 z2 : CMat n} (h1 : OnUpperHalf z1) (h2 : OnUpperHalf z2) :
    upperDist Eu Ev d μ z1 z2 = upperDist Eu Ev d μ z2 z1 := by
  obtain ⟨w, hw⟩ := normalise Eu h1 h2
  unfold upperDist
  rw [vvd_eq_of_spec (Eu' := Eu) Ev d h1 h2 h2 h1 (cross_symm h1.1 h2.1 hw.unitE)]

/-- **C82.** The distance does not depend on the choices `eigh` and `eigvalsh` make. -/
theorem C82_unique (Eu Eu' : Eigh n) (Ev Ev' : EigvalsL (n + n)) (d : RealDtype) (μ : Metric)
    {z1 z2 : CMat n} (h1 : OnUpperHalf z1) (h2 : OnUpperHalf z2) :
    upperDist Eu Ev d μ z1 z2 = upperDist Eu' Ev' d μ z1 z2 := by
  unfold upperDist
  rw [vvd_eq_of_spec (Eu' := Eu') Ev d h1 h2 h1 h2 (SameSpec.refl _)]
  obtain ⟨w, hw⟩ := normalise Eu' h1 h2
  rw [vvd_normalised Ev d hw, vvd_normalised Ev' d hw]
  have hs := hw.bounded.1
  rw [(C70_takagi (someEighL _) Ev hs).2.2.1, (C70_takagi (someEighL _) Ev' hs).2.2.1]

/-! ## Invariance under the symplectic group -/

theorem act_eq (A B C D : RMat n) (z : CMat n) : act A B C D z =
    (asComplex A * z + asComplex B) * (asComplex C * z + asComplex D)⁻¹ := rfl

theorem symplectic_identity {A B C D : RMat n} (h : Symplectic A B C D) (z1 z2 : CMat n) :
    (z1 * (asComplex C)ᵀ + (asComplex D)ᵀ) * (asComplex A * z2 + asComplex B) -
      (z1 * (asComplex A)ᵀ + (asComplex B)ᵀ) * (asComplex C * z2 + asComplex D) = z2 - z1 := by
  have hac : (asComplex C)ᵀ * asComplex A = (asComplex A)ᵀ * asComplex C := by
    simp only [asComplex_tr, ← asComplex_mul, h.ac]
  have hbd : (asComplex D)ᵀ * asComplex B = (asComplex B)ᵀ * asComplex D := by
    simp only [asComplex_tr, ← asComplex_mul, h.bd]
  have had : (asComplex C)ᵀ * asComplex B - (asComplex A)ᵀ * asComplex D = -1 := by
    have := congrArg (Complex.ofRealHom.mapMatrix (m := Fin n)) h.ad
    rw [map_sub, map_mul, map_mul, map_one] at this
    rw [← this, neg_sub]
    rfl
  have hda : (asComplex D)ᵀ * asComplex A - (asComplex B)ᵀ * asComplex C = 1 := by
    have := congrArg transpose had
    simp only [transpose_sub, transpose_mul, transpose_transpose, transpose_neg,
      transpose_one] at this
    rw [← neg_sub, this, neg_neg]
  calc _ = z1 * ((asComplex C)ᵀ * asComplex A - (asComplex A)ᵀ * asComplex C) * z2 +
        z1 * ((asComplex C)ᵀ * asComplex B - (asComplex A)ᵀ * asComplex D) +
        ((asComplex D)ᵀ * asComplex A - (asComplex B)ᵀ * asComplex C) * z2 +
        ((asComplex D)ᵀ * asComplex B - (asComplex B)ᵀ * asComplex D) := by noncomm_ring
    _ = z2 - z1 := by
        rw [hac, hbd, had, hda]; simp; abel

theorem imIp_eq (v p : Fin n → ℂ) : imIp v p = (star v ⬝ᵥ p).im := by
  simp only [imIp, dotProduct, Complex.im_sum]
  refine Finset.sum_congr rfl fun i _ => ?_
  simp [Complex.mul_im]
  ring

theorem conjM_eq_star {z : CMat n} (h : CSymm z) : conjM z = zᴴ := by
  ext i j; simp [conjM, conjTranspose_apply, h i j]

/-- The form of `Im z` moves with the action. -/
theorem act_form {A B C D : RMat n} (h : Symplectic A B C D) {z : CMat n} (hz : CSymm z)
    (v : Fin n → ℂ) :
    imIp ((asComplex C * z + asComplex D) *ᵥ v) ((asComplex A * z + asComplex B) *ᵥ v) =
      imIp v (z *ᵥ v) := by
  set P := asComplex C * z + asComplex D with hP
  set Q := asComplex A * z + asComplex B with hQ
  have hPH : Pᴴ = conjM z * (asComplex C)ᵀ + (asComplex D)ᵀ := by
    rw [hP, conjTranspose_add, conjTranspose_mul, conjM_eq_star hz]
    have : ∀ a : RMat n, (asComplex a)ᴴ = (asComplex a)ᵀ := by
      intro a; ext i j; simp [asComplex]
    rw [this, this]
  have hQH : Qᴴ = conjM z * (asComplex A)ᵀ + (asComplex B)ᵀ := by
    rw [hQ, conjTranspose_add, conjTranspose_mul, conjM_eq_star hz]
    have : ∀ a : RMat n, (asComplex a)ᴴ = (asComplex a)ᵀ := by
      intro a; ext i j; simp [asComplex]
    rw [this, this]
  have hid := symplectic_identity h (conjM z) z
  rw [← hPH, ← hQH, ← hP, ← hQ, conjM_eq_star hz] at hid
  have key : ∀ M : CMat n, ∀ a : ℂ, a = star v ⬝ᵥ (M *ᵥ v) →
      star v ⬝ᵥ ((M - Mᴴ) *ᵥ v) = 2 * Complex.I * (a.im : ℂ) := by
    intro M a ha
    have hb : star v ⬝ᵥ (Mᴴ *ᵥ v) = star a := by
      rw [ha, star_dotProduct, dotProduct_comm, star_mulVec, dotProduct_mulVec]
      simp [dotProduct_comm]
    rw [sub_mulVec, dotProduct_sub, ← ha, hb]
    apply Complex.ext <;> simp
    ring
  rw [imIp_eq, imIp_eq]
  have h1 := key (Pᴴ * Q) _ rfl
  have h2 := key z _ rfl
  rw [conjTranspose_mul, conjTranspose_conjTranspose, hid, h2] at h1
  have h3 : star (P *ᵥ v) ⬝ᵥ (Q *ᵥ v) = star v ⬝ᵥ ((Pᴴ * Q) *ᵥ v) := by
    rw [star_mulVec, ← mulVec_mulVec, dotProduct_mulVec (star v)]
  rw [h3]
  have h4 := mul_left_cancel₀ (two_I_ne) h1
  exact (Complex.ofReal_inj.1 h4).symm

theorem act_unit {A B C D : RMat n} (h : Symplectic A B C D) {z : CMat n} (hz : OnUpperHalf z) :
    IsUnit (asComplex C * z + asComplex D).det := by
  rw [isUnit_det_iff]
  intro v hv
  by_contra h0
  have h1 := act_form h hz.1 v
  rw [hv] at h1
  have := imIp_pos hz h0
  rw [← h1] at this
  simp [imIp] at this

theorem act_symm {A B C D : RMat n} (h : Symplectic A B C D) {z : CMat n} (hz : OnUpperHalf z) :
    CSymm (act A B C D z) := by
  have hu := act_unit h hz
  have hid := symplectic_identity h z z
  rw [sub_self, sub_eq_zero] at hid
  have ht := csymm_iff.1 hz.1
  apply csymm_iff.2
  rw [act_eq]
  set P := asComplex C * z + asComplex D with hP
  set Q := asComplex A * z + asComplex B with hQ
  have hPt : Pᵀ = z * (asComplex C)ᵀ + (asComplex D)ᵀ := by
    rw [hP, transpose_add, transpose_mul, ht]
  have hQt : Qᵀ = z * (asComplex A)ᵀ + (asComplex B)ᵀ := by
    rw [hQ, transpose_add, transpose_mul, ht]
  rw [← hPt, ← hQt] at hid
  have hut : IsUnit Pᵀ.det := by rwa [det_transpose]
  rw [transpose_mul, transpose_nonsing_inv]
  calc Pᵀ⁻¹ * Qᵀ = Pᵀ⁻¹ * (Qᵀ * P) * P⁻¹ := by
        rw [Matrix.mul_assoc, Matrix.mul_assoc, mul_nonsing_inv _ hu, mul_one]
    _ = Pᵀ⁻¹ * Pᵀ * Q * P⁻¹ := by rw [← hid]; simp only [Matrix.mul_assoc]
    _ = Q * P⁻¹ := by rw [nonsing_inv_mul _ hut, one_mul]

/-- **C82.** The symplectic group acts on the upper half space. -/
theorem C82_action {A B C D : RMat n} (h : Symplectic A B C D) {z : CMat n} (hz : OnUpperHalf z) :
    OnUpperHalf (act A B C D z) := by
  have hu := act_unit h hz
  have hs := act_symm h hz
  refine ⟨hs, fun x hx => ?_⟩
  set xc : Fin n → ℂ := fun i => (x i : ℂ) with hxc
  have h0 : imForm (act A B C D z) x = imIp xc (act A B C D z *ᵥ xc) := by
    rw [imIp_symm hs]
    have e : imForm (act A B C D z) (fun i => (xc i).im) = 0 := by simp [hxc, imForm]
    rw [e, add_zero]
    simp [hxc]
  set v := (asComplex C * z + asComplex D)⁻¹ *ᵥ xc with hv
  have hxv : xc = (asComplex C * z + asComplex D) *ᵥ v := by
    rw [hv, mulVec_mulVec, mul_nonsing_inv _ hu, one_mulVec]
  have hav : act A B C D z *ᵥ xc = (asComplex A * z + asComplex B) *ᵥ v := by
    rw [act_eq]
    rw [← mulVec_mulVec]
  have hv0 : v ≠ 0 := by
    intro h
    rw [h, mulVec_zero] at hxv
    apply hx; ext i
    have := congrFun hxv i
    simpa [hxc] using this
  rw [h0, hav]
  conv_rhs => rw [hxv]
  rw [act_form h hz.1]
  exact imIp_pos hz hv0

theorem act_conj {A B C D : RMat n} (h : Symplectic A B C D) {z : CMat n} (hz : OnUpperHalf z) :
    conjM (act A B C D z) = (asComplex A * conjM z + asComplex B) *
      (asComplex C * conjM z + asComplex D)⁻¹ := by
  have hu := act_unit h hz
  have hadd : ∀ a b : CMat n, conjM (a + b) = conjM a + conjM b := by
    intro a b; simp only [conjM_eq, map_add]
  rw [act_eq]
  rw [conjM_mul, ← conjM_inv hu, hadd, hadd, conjM_mul, conjM_mul]
  simp only [conjM_asComplex]

theorem act_sub {A B C D : RMat n} (h : Symplectic A B C D) {w1 w2 : CMat n}
    (ht : w1ᵀ = w1) (hu1 : IsUnit (asComplex C * w1 + asComplex D).det)
    (hs : ((asComplex A * w1 + asComplex B) * (asComplex C * w1 + asComplex D)⁻¹)ᵀ =
      (asComplex A * w1 + asComplex B) * (asComplex C * w1 + asComplex D)⁻¹)
    (hu2 : IsUnit (asComplex C * w2 + asComplex D).det) :
    (asComplex A * w2 + asComplex B) * (asComplex C * w2 + asComplex D)⁻¹ -
      (asComplex A * w1 + asComplex B) * (asComplex C * w1 + asComplex D)⁻¹ =
    ((asComplex C * w1 + asComplex D)ᵀ)⁻¹ * (w2 - w1) * (asComplex C * w2 + asComplex D)⁻¹ := by
  have hid := symplectic_identity h w1 w2
  set P1 := asComplex C * w1 + asComplex D with hP1
  set Q1 := asComplex A * w1 + asComplex B with hQ1
  set P2 := asComplex C * w2 + asComplex D with hP2
  set Q2 := asComplex A * w2 + asComplex B with hQ2
  have hPt : P1ᵀ = w1 * (asComplex C)ᵀ + (asComplex D)ᵀ := by
    rw [hP1, transpose_add, transpose_mul, ht]
  have hQt : Q1ᵀ = w1 * (asComplex A)ᵀ + (asComplex B)ᵀ := by
    rw [hQ1, transpose_add, transpose_mul, ht]
  rw [← hPt, ← hQt] at hid
  have hut : IsUnit P1ᵀ.det := by rwa [det_transpose]
  rw [← hid]
  rw [transpose_mul, transpose_nonsing_inv] at hs
  rw [← hs, mul_sub, sub_mul]
  congr 1
  · rw [← Matrix.mul_assoc, nonsing_inv_mul _ hut, one_mul]
  · rw [Matrix.mul_assoc, Matrix.mul_assoc, mul_nonsing_inv _ hu2, mul_one]

/-- **C82.** The distance is invariant under the symplectic group, for every metric. -/
theorem C82_invariant (Eu : Eigh n) (Ev : EigvalsL (n + n)) (d : RealDtype) (μ : Metric)
    {A B C D : RMat n} (h : Symplectic A B C D) {z1 z2 : CMat n} (h1 : OnUpperHalf z1)
    (h2 : OnUpperHalf z2) :
    upperDist Eu Ev d μ (act A B C D z1) (act A B C D z2) = upperDist Eu Ev d μ z1 z2 := by
  have hs1 := C82_action h h1
  have hs2 := C82_action h h2
  obtain ⟨w, hw⟩ := normalise Eu h1 h2
  have hE := hw.unitE
  set P1 := asComplex C * z1 + asComplex D with hP1
  set P2 := asComplex C * z2 + asComplex D with hP2
  have hu1 : IsUnit P1.det := act_unit h h1
  have hu2 : IsUnit P2.det := act_unit h h2
  have hadd : ∀ a b : CMat n, conjM (a + b) = conjM a + conjM b := by
    intro a b; simp only [conjM_eq, map_add]
  have hcP1 : conjM P1 = asComplex C * conjM z1 + asComplex D := by
    rw [hP1, hadd, conjM_mul, conjM_asComplex, conjM_asComplex]
  have huc1 : IsUnit (conjM P1).det := conjM_unit hu1
  have t1 := csymm_iff.1 h1.1
  have hD' : act A B C D z2 - act A B C D z1 = P1ᵀ⁻¹ * (z2 - z1) * P2⁻¹ :=
    act_sub h t1 hu1 (csymm_iff.1 hs1.1) hu2
  have hE' : act A B C D z2 - conjM (act A B C D z1) =
      (conjM P1)ᵀ⁻¹ * (z2 - conjM z1) * P2⁻¹ := by
    have hc := act_conj h h1
    have hs : (conjM (act A B C D z1))ᵀ = conjM (act A B C D z1) := by
      rw [conjM_tr, csymm_iff.1 hs1.1]
    rw [hc] at hs ⊢
    rw [hcP1]
    rw [hcP1] at huc1
    exact act_sub h (by rw [conjM_tr, t1]) huc1 hs hu2
  have hut1 : IsUnit P1ᵀ.det := by rwa [det_transpose]
  have huct1 : IsUnit (conjM P1)ᵀ.det := by rwa [det_transpose]
  -- one factor of the cross ratio
  have hF : (act A B C D z2 - act A B C D z1) * (act A B C D z2 - conjM (act A B C D z1))⁻¹ =
      P1ᵀ⁻¹ * ((z2 - z1) * (z2 - conjM z1)⁻¹) * (conjM P1)ᵀ := by
    rw [hD', hE', Matrix.mul_inv_rev, Matrix.mul_inv_rev, nonsing_inv_nonsing_inv _ huct1,
      nonsing_inv_nonsing_inv _ hu2]
    calc P1ᵀ⁻¹ * (z2 - z1) * P2⁻¹ * (P2 * ((z2 - conjM z1)⁻¹ * (conjM P1)ᵀ))
        = P1ᵀ⁻¹ * (z2 - z1) * (P2⁻¹ * P2) * ((z2 - conjM z1)⁻¹ * (conjM P1)ᵀ) := by
          simp only [Matrix.mul_assoc]
      _ = _ := by rw [nonsing_inv_mul _ hu2, mul_one]; simp only [Matrix.mul_assoc]
  have hEu' : IsUnit (act A B C D z2 - conjM (act A B C D z1)).det := by
    obtain ⟨w', hw'⟩ := normalise Eu hs1 hs2
    exact hw'.unitE
  have hcr : cross (act A B C D z1) (act A B C D z2) =
      (conjM P1)ᵀ⁻¹ * cross z1 z2 * ((conjM P1)ᵀ⁻¹)⁻¹ := by
    have e1 : cross (act A B C D z1) (act A B C D z2) =
        conjM ((act A B C D z2 - act A B C D z1) *
          (act A B C D z2 - conjM (act A B C D z1))⁻¹) *
        ((act A B C D z2 - act A B C D z1) * (act A B C D z2 - conjM (act A B C D z1))⁻¹) := by
      unfold cross
      rw [conjM_mul, conjM_inv hEu']
    have e2 : cross z1 z2 = conjM ((z2 - z1) * (z2 - conjM z1)⁻¹) *
        ((z2 - z1) * (z2 - conjM z1)⁻¹) := by
      unfold cross
      rw [conjM_mul, conjM_inv hE]
    rw [e1, e2, hF, nonsing_inv_nonsing_inv _ huct1]
    set F := (z2 - z1) * (z2 - conjM z1)⁻¹
    have hcP : conjM (P1ᵀ⁻¹ * F * (conjM P1)ᵀ) = (conjM P1)ᵀ⁻¹ * conjM F * P1ᵀ := by
      rw [conjM_mul, conjM_mul, ← conjM_inv hut1, conjM_tr, conjM_conjM]
    rw [hcP]
    calc (conjM P1)ᵀ⁻¹ * conjM F * P1ᵀ * (P1ᵀ⁻¹ * F * (conjM P1)ᵀ)
        = (conjM P1)ᵀ⁻¹ * conjM F * (P1ᵀ * P1ᵀ⁻¹) * F * (conjM P1)ᵀ := by
          simp only [Matrix.mul_assoc]
      _ = _ := by rw [mul_nonsing_inv _ hut1, mul_one]; simp only [Matrix.mul_assoc]
  unfold upperDist
  rw [vvd_eq_of_spec (Eu' := Eu) Ev d hs1 hs2 h1 h2]
  rw [hcr]
  apply sameSpec_conj
  rw [Matrix.det_nonsing_inv]
  exact isUnit_ringInverse.2 huct1

/-- Translations, congruences and the inversion are symplectic, so the hypotheses of
`C82_invariant` are met by non-trivial maps. -/
example {Bs : RMat n} (hB : Bsᵀ = Bs) : Symplectic 1 Bs 0 1 := ⟨by simp, by simp [hB], by simp⟩

example : Symplectic (0 : RMat n) 1 (-1) 0 := ⟨by simp, by simp, by simp⟩

/-! ## Saturation, and the bounded domain -/

/-- **C82.** The clamp of `1 - e` at `EPS` bounds every entry of the vector-valued distance: points
that are further apart than `log(2 / EPS)` get a distance that is too small. -/
theorem C82_saturates (Eu : Eigh n) (Ev : EigvalsL (n + n)) (d : RealDtype) {z1 z2 : CMat n}
    (h1 : OnUpperHalf z1) (h2 : OnUpperHalf z2) :
    ∃ v, upperVvd Eu Ev d z1 z2 = .ok v ∧ ∀ i, v i ≤ Real.log (2 / EPS d) := by
  obtain ⟨w, hw⟩ := normalise Eu h1 h2
  have hr := takagi_range Ev hw.bounded
  exact ⟨_, (vvd_normalised Ev d hw).trans (vvdOf_ok d hr), fun i =>
    (vvd_entry (EPS_pos d) (EPS_lt_one d) (hr i).1 (hr i).2).2.1⟩

/-- **C82.** The distance of the bounded domain: always the distance of two points of the upper half
space, so that the laws above hold for it. -/
theorem C82_bounded (Eu : Eigh n) (Ev : EigvalsL (n + n)) (d : RealDtype) (μ : Metric)
    {z1 z2 : CMat n} (h1 : OnBounded z1) (h2 : OnBounded z2) :
    boundedDist Eu Ev d μ z1 z2 = boundedDist Eu Ev d μ z2 z1 ∧
    (∀ r, boundedDist Eu Ev d μ z1 z2 = .ok r → 0 ≤ r) ∧
    (2 ≤ n → μ ∈ [Metric.riemannian, .finslerOne, .finslerInfinity, .finslerMinimum n] →
      (boundedDist Eu Ev d μ z1 z2 = .ok 0 ↔ z1 = z2)) := by
  obtain ⟨w1, e1, u1⟩ := C69_bounded_to_upper h1
  obtain ⟨w2, e2, u2⟩ := C69_bounded_to_upper h2
  have hd : boundedDist Eu Ev d μ z1 z2 = upperDist Eu Ev d μ w1 w2 := by
    unfold boundedDist; simp only [e1, e2]; rfl
  have hd' : boundedDist Eu Ev d μ z2 z1 = upperDist Eu Ev d μ w2 w1 := by
    unfold boundedDist; simp only [e1, e2]; rfl
  rw [hd, hd']
  refine ⟨C82_symm Eu Ev d μ u1 u2, fun r h => C82_nonneg Eu Ev d μ u1 u2 r h, fun hn hμ => ?_⟩
  rw [C82_definite Eu Ev d u1 u2 hn μ hμ]
  constructor
  · rintro rfl
    have a := C69_inverse_of_cayley e1
    rw [C69_inverse_of_cayley e2] at a
    injection a with a
    exact a.symm
  · rintro rfl
    rw [e1] at e2
    injection e2

/-- The matrix `i Id` is on the upper half space. -/
theorem iId_upper : OnUpperHalf (iId n) := by
  obtain ⟨w, hw, hu⟩ := C69_bounded_to_upper (z := (0 : CMat n)) ⟨fun i j => rfl, fun v hv => by
    simpa [len2] using len2_pos hv⟩
  rw [C69_origin] at hw
  injection hw with hw
  rw [hw]; exact hu

/-- **C82.** Distances from the origin of the bounded domain are given by the singular values of the
point: the entries of the vector-valued distance are `log((1 + σ) / (1 - σ))` as long as `σ` stays
below `1 - EPS`. -/
theorem C82_from_origin (Eu : Eigh n) (Ev : EigvalsL (n + n)) (d : RealDtype) (μ : Metric)
    {z : CMat n} (h : OnBounded z) (hσ : ∀ j, takagiEigvals Ev z j ≤ 1 - EPS d) :
    boundedDist Eu Ev d μ 0 z =
      μ.row fun j => Real.log ((1 + takagiEigvals Ev z j) / (1 - takagiEigvals Ev z j)) := by
  obtain ⟨w, hw, hu⟩ := C69_bounded_to_upper h
  obtain ⟨u, hn⟩ := normalise Eu (iId_upper (n := n)) hu
  have hspec : SameSpec (conjM u * u) (conjM z * z) := by
    refine hn.spec.trans ?_
    have hi : conjM (iId n) = -iId n := by
      ext i j
      by_cases hij : i = j
      · subst hij; simp [conjM]
      · simp [conjM, hij]
    have hE := hn.unitE
    have hz : z = (w - iId n) * (w + iId n)⁻¹ := (inverseCayley_ok.1 (C69_inverse_of_cayley hw)).2
    have hc : cross (iId n) w = conjM z * z := by
      unfold cross
      rw [conjM_inv hE, ← conjM_mul, hi, sub_neg_eq_add, ← hz]
    rw [hc]
    exact SameSpec.refl _
  have hr := takagi_range Ev hn.bounded
  have hv : upperVvd Eu Ev d (iId n) w = .ok fun j =>
      Real.log ((1 + takagiEigvals Ev z j) / (1 - takagiEigvals Ev z j)) := by
    rw [vvd_normalised Ev d hn, vvdOf_ok d hr,
      takagiEigvals_eq_of_spec Ev hn.bounded.1 h.1 hspec]
    congr 1
    ext j
    rw [max_eq_left]
    linarith [hσ j]
  unfold boundedDist upperDist
  simp only [C69_origin, hw]
  show (do let vvd ← upperVvd Eu Ev d (iId n) w; μ.row vvd) = _
  rw [hv]
  rfl

end Geoopt.Siegel
