import Verif.Lemmas.Takagi
import Verif.Props.C69
import Verif.Props.C70

/-! The singular values behind the Siegel distance depend only on a cross ratio. -/

namespace Geoopt.Siegel
open Matrix Geoopt Geoopt.Linalg Geoopt.SPD

variable {n : ℕ}

/-! ## Complex matrices as real ones -/

/-- The real `2n × 2n` matrix of a complex matrix. -/
def real2 (h : CMat n) : RMat (n + n) := blockMatrix (reM h) (imM h) (-(imM h)) (reM h)

theorem reM_mul (a b : CMat n) : reM (a * b) = reM a * reM b - imM a * imM b := by
  ext i j
  simp [reM, imM, Matrix.mul_apply, Complex.re_sum, ← Finset.sum_sub_distrib]

theorem imM_mul (a b : CMat n) : imM (a * b) = reM a * imM b + imM a * reM b := by
  ext i j
  simp [reM, imM, Matrix.mul_apply, Complex.im_sum, ← Finset.sum_add_distrib]

theorem real2_mul (a b : CMat n) : real2 (a * b) = real2 a * real2 b := by
  unfold real2
  rw [blockMatrix_mul, reM_mul, imM_mul]
  congr 1
  · rw [mul_neg, sub_eq_add_neg]
  · rw [neg_mul, mul_neg, neg_add, add_comm]
  · rw [neg_mul, sub_eq_add_neg, add_comm]

/-- Two complex matrices with the same eigenvalues (up to conjugation), expressed by the
characteristic polynomials of the real matrices. -/
def SameSpec (a b : CMat n) : Prop := (real2 a).charpoly = (real2 b).charpoly

theorem SameSpec.refl (a : CMat n) : SameSpec a a := rfl
theorem SameSpec.symm {a b : CMat n} (h : SameSpec a b) : SameSpec b a := Eq.symm h
theorem SameSpec.trans {a b c : CMat n} (h : SameSpec a b) (h' : SameSpec b c) : SameSpec a c :=
  Eq.trans h h'

theorem sameSpec_mul_comm (a b : CMat n) : SameSpec (a * b) (b * a) := by
  unfold SameSpec
  rw [real2_mul, real2_mul, Matrix.charpoly_mul_comm]

theorem sameSpec_conj {p : CMat n} (hp : IsUnit p.det) (a : CMat n) :
    SameSpec (p * a * p⁻¹) a := by
  have := sameSpec_mul_comm (p * a) p⁻¹
  rwa [← Matrix.mul_assoc, nonsing_inv_mul _ hp, one_mul] at this

theorem sameSpec_transpose (a : CMat n) : SameSpec aᵀ a := by
  unfold SameSpec
  have hK : blockMatrix (1 : RMat n) 0 0 (-1) * blockMatrix 1 0 0 (-1) = 1 := by
    rw [blockMatrix_mul, blockMatrix_one]; simp
  have h1 : real2 aᵀ = blockMatrix 1 0 0 (-1) * ((real2 a)ᵀ * blockMatrix 1 0 0 (-1)) := by
    unfold real2
    rw [blockMatrix_transpose, blockMatrix_mul, blockMatrix_mul]
    have hr : reM aᵀ = (reM a)ᵀ := rfl
    have hi : imM aᵀ = (imM a)ᵀ := rfl
    simp [hr, hi]
  rw [h1, Matrix.charpoly_mul_comm, Matrix.mul_assoc, hK, mul_one, Matrix.charpoly_transpose]

/-! ## Ring homomorphisms -/

theorem conjM_eq (z : CMat n) : conjM z = (starRingEnd ℂ).mapMatrix z := rfl

theorem conjM_mul (a b : CMat n) : conjM (a * b) = conjM a * conjM b := by
  simp only [conjM_eq, map_mul]

theorem conjM_one : conjM (1 : CMat n) = 1 := by simp only [conjM_eq, map_one]
theorem conjM_sub (a b : CMat n) : conjM (a - b) = conjM a - conjM b := by
  simp only [conjM_eq, map_sub]
theorem conjM_neg (a : CMat n) : conjM (-a) = -conjM a := by simp only [conjM_eq, map_neg]
theorem conjM_conjM (a : CMat n) : conjM (conjM a) = a := by ext i j; simp [conjM]
theorem conjM_tr (a : CMat n) : (conjM a)ᵀ = conjM aᵀ := rfl

theorem conjM_unit {a : CMat n} (h : IsUnit a.det) : IsUnit (conjM a).det := by
  have : conjM a * conjM a⁻¹ = 1 := by rw [← conjM_mul, mul_nonsing_inv _ h, conjM_one]
  exact isUnit_det_of_mul this

theorem conjM_inv {a : CMat n} (h : IsUnit a.det) : (conjM a)⁻¹ = conjM a⁻¹ := by
  apply Matrix.inv_eq_right_inv
  rw [← conjM_mul, mul_nonsing_inv _ h, conjM_one]

theorem asComplex_eq (a : RMat n) : asComplex a = Complex.ofRealHom.mapMatrix a := rfl
theorem asComplex_mul (a b : RMat n) : asComplex (a * b) = asComplex a * asComplex b := by
  simp only [asComplex_eq, map_mul]
theorem asComplex_one : asComplex (1 : RMat n) = 1 := by simp only [asComplex_eq, map_one]
theorem conjM_asComplex (a : RMat n) : conjM (asComplex a) = asComplex a := by
  ext i j; simp [conjM, asComplex]
theorem asComplex_tr (a : RMat n) : (asComplex a)ᵀ = asComplex aᵀ := rfl

theorem asComplex_unit {a : RMat n} (h : IsUnit a.det) : IsUnit (asComplex a).det := by
  have : asComplex a * asComplex a⁻¹ = 1 := by
    rw [← asComplex_mul, mul_nonsing_inv _ h, asComplex_one]
  exact isUnit_det_of_mul this

theorem eq_re_add_im (z : CMat n) : z = asComplex (reM z) + Complex.I • asComplex (imM z) := by
  ext i j; apply Complex.ext <;> simp [asComplex, reM, imM]

theorem conj_eq_re_sub_im (z : CMat n) :
    conjM z = asComplex (reM z) - Complex.I • asComplex (imM z) := by
  ext i j; apply Complex.ext <;> simp [asComplex, reM, imM, conjM]

/-! ## From spectra to singular values -/

theorem compound_sq (w : CMat n) :
    toCompoundSymmetric w * toCompoundSymmetric w = real2 (conjM w * w) := by
  rw [compound_eq, blockMatrix_mul, real2, reM_mul, imM_mul]
  have hr : reM (conjM w) = reM w := by ext i j; simp [reM, conjM]
  have hi : imM (conjM w) = -imM w := by ext i j; simp [imM, conjM]
  rw [hr, hi]
  congr 1 <;> noncomm_ring

theorem multiset_split (g : Fin (n + n) → ℝ) :
    (Finset.univ.val.map g : Multiset ℝ) =
      Finset.univ.val.map (fun j : Fin n => g (Fin.castAdd n j)) +
      Finset.univ.val.map (fun j : Fin n => g (Fin.natAdd n j)) := by
  rw [Fin.univ_val_map, Fin.univ_val_map, Fin.univ_val_map, Multiset.coe_add]
  congr 1
  rw [List.ofFn_add]
  rfl

/-- Singular values are determined by the eigenvalues of `conj(w) w`. -/
theorem takagiEigvals_eq_of_spec (Ev : EigvalsL (n + n)) {w w' : CMat n} (hw : CSymm w)
    (hw' : CSymm w') (h : SameSpec (conjM w * w) (conjM w' * w')) :
    takagiEigvals Ev w = takagiEigvals Ev w' := by
  obtain ⟨v, hd⟩ := eigvalsL_dec Ev (compound_symm hw)
  obtain ⟨v', hd'⟩ := eigvalsL_dec Ev (compound_symm hw')
  have hm := Ev.mono (toCompoundSymmetric w)
  have hm' := Ev.mono (toCompoundSymmetric w')
  set e := Ev.e (toCompoundSymmetric w) with he
  set e' := Ev.e (toCompoundSymmetric w') with he'
  have sqd : ∀ {x : RMat (n + n)} {e v}, Dec x e v → Dec (x * x) (fun i => e i * e i) v := by
    intro x e v hd
    refine ⟨hd.orth, ?_⟩
    have := fn_mul hd.orth (fun t => t) (fun t => t) e
    rw [fn_id hd] at this
    exact this
  have hms := multiset_of_charpoly (sqd hd) (sqd hd') (by rw [compound_sq, compound_sq]; exact h)
  have habs : (Finset.univ.val.map fun i => |e i| : Multiset ℝ) =
      Finset.univ.val.map fun i => |e' i| := by
    have h1 := congrArg (Multiset.map Real.sqrt) hms
    rw [Multiset.map_map, Multiset.map_map] at h1
    have h2 : ∀ e : Fin (n + n) → ℝ, (Real.sqrt ∘ fun i => e i * e i) = fun i => |e i| := by
      intro e; ext i; exact Real.sqrt_mul_self_eq_abs _
    rwa [h2, h2] at h1
  have top : ∀ {w : CMat n} {e v}, Dec (toCompoundSymmetric w) e v → Monotone e →
      (Finset.univ.val.map fun i => |e i| : Multiset ℝ) =
        Finset.univ.val.map (fun j : Fin n => e (Fin.natAdd n j)) +
        Finset.univ.val.map (fun j : Fin n => e (Fin.natAdd n j)) := by
    intro w e v hd hm
    rw [multiset_split]
    congr 1
    · rw [← multiset_rev fun j : Fin n => e (Fin.natAdd n j)]
      congr 1
      ext j
      have h1 := rev_neg hd hm (compound_charpoly w) (Fin.castAdd n j)
      have h2 : (Fin.castAdd n j).rev = Fin.natAdd n j.rev := by
        ext; simp only [Fin.val_rev, Fin.val_castAdd, Fin.val_natAdd]; omega
      rw [h2] at h1
      rw [abs_of_nonpos (compound_bottom hd hm j), h1]
    · congr 1
      ext j
      exact abs_of_nonneg (compound_top hd hm j)
  rw [top hd hm, top hd' hm'] at habs
  have hhalf : (Finset.univ.val.map (fun j : Fin n => e (Fin.natAdd n j)) : Multiset ℝ) =
      Finset.univ.val.map (fun j : Fin n => e' (Fin.natAdd n j)) := by
    ext t
    have := congrArg (Multiset.count t) habs
    rw [Multiset.count_add, Multiset.count_add] at this
    omega
  have mono_top : ∀ {e : Fin (n + n) → ℝ}, Monotone e → Monotone fun j : Fin n => e (Fin.natAdd n j) := by
    intro e hm a b hab
    apply hm
    show n + a.val ≤ n + b.val
    have : a.val ≤ b.val := hab
    omega
  exact mono_unique (mono_top hm) (mono_top hm') hhalf

/-! ## The cross ratio -/

/-- The cross ratio whose eigenvalues are the squared singular values. -/
noncomputable def cross (z1 z2 : CMat n) : CMat n :=
  conjM (z2 - z1) * (conjM (z2 - conjM z1))⁻¹ * ((z2 - z1) * (z2 - conjM z1)⁻¹)

/-- What the code computes before the singular values. -/
structure Normalised (Eu : Eigh n) (z1 z2 w : CMat n) : Prop where
  ok : inverseCayleyTransform (asComplex (symInvSqrtm1 Eu (imM z1)) *
    (z2 - asComplex (reM z1)) * asComplex (symInvSqrtm1 Eu (imM z1))) = .ok w
  bounded : OnBounded w
  eq : w = asComplex (symInvSqrtm1 Eu (imM z1)) * ((z2 - z1) * (z2 - conjM z1)⁻¹) *
    (asComplex (symInvSqrtm1 Eu (imM z1)))⁻¹
  unitS : IsUnit (asComplex (symInvSqrtm1 Eu (imM z1))).det
  unitE : IsUnit (z2 - conjM z1).det

theorem normalise (Eu : Eigh n) {z1 z2 : CMat n} (h1 : OnUpperHalf z1) (h2 : OnUpperHalf z2) :
    ∃ w, Normalised Eu z1 z2 w := by
  have hy := (imM_onSPD h1.1).1 h1
  have hr := roots (E := Eu) hy
  set r := symInvSqrtm1 Eu (imM z1) with hrd
  have hreq : r = (symInvSqrtm2 Eu (imM z1)).1 := symInvSqrtm1_eq hy
  rw [← hreq] at hr
  set S := asComplex r with hS
  have hSu : IsUnit S.det := asComplex_unit hr.unit_r
  set Y := asComplex (imM z1) with hY
  set Xr := asComplex (reM z1) with hX
  have hSYS : S * Y * S = 1 := by
    rw [hS, hY, ← asComplex_mul, ← asComplex_mul, hr.rxr, asComplex_one]
  set z3 := S * (z2 - Xr) * S with hz3
  have hz1 : z1 = Xr + Complex.I • Y := eq_re_add_im z1
  have hz1c : conjM z1 = Xr - Complex.I • Y := conj_eq_re_sub_im z1
  have hi : iId n = S * (Complex.I • Y) * S := by
    rw [mul_smul_comm, smul_mul_assoc, hSYS]
  have hplus : z3 + iId n = S * (z2 - conjM z1) * S := by
    rw [hi, hz3, hz1c, ← add_mul, ← mul_add]
    congr 2; abel
  have hminus : z3 - iId n = S * (z2 - z1) * S := by
    rw [hi, hz3, ← sub_mul, ← mul_sub]
    conv_rhs => rw [hz1]
    congr 2; abel
  have hSt : Sᵀ = S := by rw [hS, asComplex_tr, hr.rsymm]
  have hz3u : OnUpperHalf z3 := by
    have hsym : CSymm z3 := by
      apply csymm_iff.2
      have hXt : Xrᵀ = Xr := by
        rw [hX, asComplex_tr]
        congr 1
        ext i j; simp [reM, h1.1 j i]
      rw [hz3]
      simp only [transpose_mul, transpose_sub, hSt, csymm_iff.1 h2.1, hXt, Matrix.mul_assoc]
    rw [imM_onSPD hsym]
    have hreS : reM S = r := by ext i j; simp [hS, reM, asComplex]
    have himS : imM S = 0 := by ext i j; simp [hS, imM, asComplex]
    have himX : imM (z2 - Xr) = imM z2 := by ext i j; simp [hX, imM, asComplex]
    have : imM z3 = r * imM z2 * r := by
      rw [hz3, imM_mul, imM_mul, himS, hreS, himX]
      simp
    rw [this]
    exact hr.mid ((imM_onSPD h2.1).1 h2)
  obtain ⟨w, hw, hb⟩ := C69_upper_to_bounded hz3u
  obtain ⟨hu, hweq⟩ := inverseCayley_ok.1 hw
  have hEu : IsUnit (z2 - conjM z1).det := by
    rw [hplus, det_mul, det_mul] at hu
    exact isUnit_of_mul_isUnit_right (isUnit_of_mul_isUnit_left hu)
  refine ⟨w, hw, hb, ?_, hSu, hEu⟩
  rw [hweq, hplus, hminus, Matrix.mul_inv_rev, Matrix.mul_inv_rev]
  calc S * (z2 - z1) * S * (S⁻¹ * ((z2 - conjM z1)⁻¹ * S⁻¹))
      = S * (z2 - z1) * (S * S⁻¹) * ((z2 - conjM z1)⁻¹ * S⁻¹) := by simp only [Matrix.mul_assoc]
    _ = S * ((z2 - z1) * (z2 - conjM z1)⁻¹) * S⁻¹ := by rw [mul_nonsing_inv _ hSu, mul_one]; simp only [Matrix.mul_assoc]

theorem Normalised.spec {Eu : Eigh n} {z1 z2 w : CMat n} (h : Normalised Eu z1 z2 w) :
    SameSpec (conjM w * w) (cross z1 z2) := by
  set S := asComplex (symInvSqrtm1 Eu (imM z1)) with hS
  have hc : conjM S = S := conjM_asComplex _
  have hci : conjM S⁻¹ = S⁻¹ := by rw [← conjM_inv h.unitS, hc]
  have : conjM w * w = S * cross z1 z2 * S⁻¹ := by
    rw [h.eq, conjM_mul, conjM_mul, conjM_mul, hc, hci, ← conjM_inv h.unitE]
    unfold cross
    calc S * (conjM (z2 - z1) * (conjM (z2 - conjM z1))⁻¹) * S⁻¹ *
          (S * ((z2 - z1) * (z2 - conjM z1)⁻¹) * S⁻¹)
        = S * (conjM (z2 - z1) * (conjM (z2 - conjM z1))⁻¹) * (S⁻¹ * S) *
          ((z2 - z1) * (z2 - conjM z1)⁻¹) * S⁻¹ := by simp only [Matrix.mul_assoc]
      _ = _ := by rw [nonsing_inv_mul _ h.unitS, mul_one]; simp only [Matrix.mul_assoc]
  rw [this]
  exact sameSpec_conj h.unitS _

theorem vvd_normalised {Eu : Eigh n} (Ev : EigvalsL (n + n)) (d : RealDtype) {z1 z2 w : CMat n}
    (h : Normalised Eu z1 z2 w) :
    upperVvd Eu Ev d z1 z2 = vvdOf d (takagiEigvals Ev w) := by
  unfold upperVvd
  simp only [h.ok]
  rfl

/-- The vector-valued distance depends on the points only through the spectrum of the cross
ratio. -/
theorem vvd_eq_of_spec {Eu Eu' : Eigh n} (Ev : EigvalsL (n + n)) (d : RealDtype)
    {z1 z2 z1' z2' : CMat n} (h1 : OnUpperHalf z1) (h2 : OnUpperHalf z2) (h1' : OnUpperHalf z1')
    (h2' : OnUpperHalf z2') (h : SameSpec (cross z1 z2) (cross z1' z2')) :
    upperVvd Eu Ev d z1 z2 = upperVvd Eu' Ev d z1' z2' := by
  obtain ⟨w, hw⟩ := normalise Eu h1 h2
  obtain ⟨w', hw'⟩ := normalise Eu' h1' h2'
  rw [vvd_normalised Ev d hw, vvd_normalised Ev d hw',
    takagiEigvals_eq_of_spec Ev hw.bounded.1 hw'.bounded.1
      (hw.spec.trans (h.trans hw'.spec.symm))]

/-- Singular values of a point of the bounded domain. -/
theorem takagi_range (Ev : EigvalsL (n + n)) {w : CMat n} (hw : OnBounded w) (j : Fin n) :
    0 ≤ takagiEigvals Ev w j ∧ takagiEigvals Ev w j < 1 := by
  obtain ⟨v, hd⟩ := eigvalsL_dec Ev (compound_symm hw.1)
  refine ⟨compound_top hd (Ev.mono _) j, ?_⟩
  set i := Fin.natAdd n j
  obtain ⟨u, hu⟩ := split_surj (v *ᵥ Pi.single i 1)
  have h2 : vᵀ *ᵥ (v *ᵥ Pi.single i 1) = (Pi.single i 1 : Fin (n + n) → ℝ) := by
    rw [Matrix.mulVec_mulVec, hd.orth, Matrix.one_mulVec]
  have h3 : rlen2 (v *ᵥ Pi.single i 1) = 1 := by
    rw [← rlen2_orth hd.orth', h2]
    simp [rlen2, Pi.single_apply]
  have hu0 : u ≠ 0 := by
    intro h0
    have : len2 u = 1 := by rw [← rlen2_split, hu, h3]
    rw [h0] at this
    simp [len2] at this
  have h1 := hw.2 u hu0
  rw [← rlen2_compound, ← rlen2_split, hu, h3] at h1
  have h4 : rlen2 (toCompoundSymmetric w *ᵥ (v *ᵥ Pi.single i 1)) =
      Ev.e (toCompoundSymmetric w) i ^ 2 := by
    have h5 := rlen2_fn hd.orth (fun t => t) (Ev.e (toCompoundSymmetric w)) (v *ᵥ Pi.single i 1)
    rw [fn_id hd, h2] at h5
    rw [h5]
    simp [Pi.single_apply]
  rw [h4] at h1
  have h6 : 0 ≤ Ev.e (toCompoundSymmetric w) i := compound_top hd (Ev.mono _) j
  show Ev.e (toCompoundSymmetric w) i < 1
  nlinarith

theorem takagi_mono (Ev : EigvalsL (n + n)) (w : CMat n) : Monotone (takagiEigvals Ev w) := by
  intro a b hab
  apply Ev.mono
  show n + a.val ≤ n + b.val
  have : a.val ≤ b.val := hab
  omega

theorem takagi_zero (Ev : EigvalsL (n + n)) {w : CMat n} (hw : CSymm w)
    (h : ∀ j, takagiEigvals Ev w j = 0) : w = 0 := by
  obtain ⟨v, hd⟩ := eigvalsL_dec Ev (compound_symm hw)
  have he : Ev.e (toCompoundSymmetric w) = 0 := by
    ext i
    obtain ⟨j, hj⟩ := compound_abs hd (Ev.mono _) i
    have h1 : takagiEigvals Ev w j = 0 := h j
    have h2 : |Ev.e (toCompoundSymmetric w) i| = 0 := hj.trans h1
    exact abs_eq_zero.1 h2
  apply compound_inj
  rw [hd.eq, he]
  have : toCompoundSymmetric (0 : CMat n) = 0 := by
    rw [compound_eq]
    have hr : reM (0 : CMat n) = 0 := by ext i j; simp [reM]
    have hi : imM (0 : CMat n) = 0 := by ext i j; simp [imM]
    rw [hr, hi]
    ext i j
    refine Fin.addCases (fun i => ?_) (fun i => ?_) i <;>
      refine Fin.addCases (fun j => ?_) (fun j => ?_) j <;>
      simp [blockMatrix, catRows, catCols, -Fin.natAdd_eq_addNat]
  rw [this]
  simp

end Geoopt.Siegel
