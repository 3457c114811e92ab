import Verif.Props.C129Mat
import Verif.Props.C83
import Verif.Props.C70

/-!
# C129 for the Siegel spaces

An operation that may raise is shown to return, on its whole domain, the value of a function that is
continuous there.
-/

namespace Geoopt.C129
open Matrix Geoopt.Linalg Geoopt.SPD Geoopt.Siegel Topology
open scoped ComplexOrder

variable {n : ℕ}

/-- A solver that reads the lower triangle also solves the symmetric matrix in the upper triangle. -/
def eighOfL (E : EighL n) : Eigh n where
  e x := E.e (upper x)
  v x := E.v (upper x)
  orth x := E.orth (upper x)
  eq x := by rw [← E.eq (upper x), lower_of_symm (upper_symm x)]

theorem pcp_symFuncm (d : RealDtype) (E : EighL n) {y : Mat n} (h : yᵀ = y) :
    positiveConjugateProjection d E y = symFuncm (eighOfL E) (fun t => max t (EPS d)) y := by
  rw [pcp_eq d E h, symFuncm_eq _ _ (eighL_dec E h) h]

theorem s_re : Continuous (reM : CMat n → Mat n) :=
  continuous_pi fun i => continuous_pi fun j =>
    Complex.continuous_re.comp ((continuous_apply j).comp (continuous_apply i))

theorem s_im : Continuous (imM : CMat n → Mat n) :=
  continuous_pi fun i => continuous_pi fun j =>
    Complex.continuous_im.comp ((continuous_apply j).comp (continuous_apply i))

theorem s_conj : Continuous (conjM : CMat n → CMat n) :=
  continuous_pi fun i => continuous_pi fun j =>
    continuous_star.comp ((continuous_apply j).comp (continuous_apply i))

theorem s_sym : Continuous (symC : CMat n → CMat n) := by
  unfold symC
  have h1 : Continuous fun x : CMat n => x := continuous_id
  exact (h1.matrix_transpose.add h1).const_smul (0.5 : ℂ)

theorem s_cplx : Continuous fun p : Mat n × Mat n => toComplex p.1 p.2 := by
  refine continuous_pi fun i => continuous_pi fun j => ?_
  have e : (fun p : Mat n × Mat n => toComplex p.1 p.2 i j) =
      fun p => (p.1 i j : ℂ) + (p.2 i j : ℂ) * Complex.I := by
    funext p; apply Complex.ext <;> simp [toComplex]
  rw [e]
  have h1 : Continuous fun p : Mat n × Mat n => p.1 i j :=
    (continuous_apply j).comp ((continuous_apply i).comp continuous_fst)
  have h2 : Continuous fun p : Mat n × Mat n => p.2 i j :=
    (continuous_apply j).comp ((continuous_apply i).comp continuous_snd)
  exact (Complex.continuous_ofReal.comp h1).add ((Complex.continuous_ofReal.comp h2).mul continuous_const)

theorem s_as : Continuous (asComplex : Mat n → CMat n) :=
  continuous_pi fun i => continuous_pi fun j =>
    Complex.continuous_ofReal.comp ((continuous_apply j).comp (continuous_apply i))

theorem s_inv {X : Type} [TopologicalSpace X] {f : X → CMat n} {S : Set X} (hf : ContinuousOn f S)
    (h : ∀ a ∈ S, IsUnit (f a).det) : ContinuousOn (fun a => (f a)⁻¹) S := by
  simp only [Matrix.inv_def, Ring.inverse_eq_inv']
  have hd : Continuous fun x : CMat n => x.det := continuous_id.matrix_det
  have ha : Continuous fun x : CMat n => x.adjugate := continuous_id.matrix_adjugate
  exact ((hd.comp_continuousOn hf).inv₀ fun a h' => (h a h').ne_zero).smul (ha.comp_continuousOn hf)

theorem s_mul {X : Type} [TopologicalSpace X] {f g : X → CMat n} {S : Set X} (hf : ContinuousOn f S)
    (hg : ContinuousOn g S) : ContinuousOn (fun a => f a * g a) S := by
  have h : Continuous fun q : CMat n × CMat n => q.1 * q.2 := continuous_fst.mul continuous_snd
  exact h.comp_continuousOn (hf.prodMk hg)

/-- **C129** (`projx` and `retr` of the upper half space): continuous on all complex matrices, although
eigenvalues are clamped and eigenvectors are chosen by `torch`. -/
theorem C129_upper_projx (d : RealDtype) (E : EighL n) :
    Continuous (upperProjx d E) ∧
    Continuous (fun p : CMat n × CMat n => upperRetr d E p.1 p.2) := by
  have h : Continuous (upperProjx d E) := by
    have hs : Continuous fun z : CMat n => imM (symC z) := s_im.comp s_sym
    have hm : Continuous fun z : CMat n => positiveConjugateProjection d E (imM (symC z)) := by
      have e : (fun z : CMat n => positiveConjugateProjection d E (imM (symC z))) =
          fun z => symFuncm (eighOfL E) (fun t => max t (EPS d)) (imM (symC z)) := by
        funext z; exact pcp_symFuncm d E (imM_tr (symC_symm z))
      rw [e]
      exact (C129_funcm (eighOfL E) (continuous_id.max continuous_const)).comp_continuous hs
        fun z => imM_tr (symC_symm z)
    exact s_cplx.comp ((s_re.comp s_sym).prodMk hm)
  exact ⟨h, h.comp (continuous_fst.add continuous_snd)⟩

/-- **C129** (`projx` and `retr` of the bounded domain): continuous on all complex matrices, although the
Takagi vectors are not. -/
theorem C129_bounded_projx (d : RealDtype) (E : EighL (n + n)) :
    Continuous (boundedProjx d E) ∧
    Continuous (fun p : CMat n × CMat n => boundedRetr d E p.1 p.2) := by
  have h : Continuous (boundedProjx d E) := by
    have hb : Continuous fun z : CMat n => toCompoundSymmetric (symC z) := by
      have hr : Continuous fun z : CMat n => reM (symC z) := s_re.comp s_sym
      have hi : Continuous fun z : CMat n => imM (symC z) := s_im.comp s_sym
      have e : (fun z : CMat n => toCompoundSymmetric (symC z)) = fun z =>
          (fromBlocks (reM (symC z)) (imM (symC z)) (imM (symC z)) (-(reM (symC z)))).submatrix
            finSumFinEquiv.symm finSumFinEquiv.symm := by
        funext z; rw [compound_eq, blockMatrix_eq]
      rw [e]
      exact (hr.matrix_fromBlocks hi hi hr.neg).matrix_submatrix _ _
    have hf : Continuous (Siegel.clampAbs (1 - EPS d)) := by
      unfold Siegel.clampAbs
      exact continuous_const.max (continuous_id'.min continuous_const)
    have hm : Continuous fun z : CMat n => toCompoundSymmetric (boundedProjx d E z) := by
      have e : (fun z : CMat n => toCompoundSymmetric (boundedProjx d E z)) =
          fun z => symFuncm (eighOfL E) (Siegel.clampAbs (1 - EPS d)) (toCompoundSymmetric (symC z)) := by
        funext z
        have hs := compound_symm (symC_symm z)
        rw [compound_projx, symFuncm_eq _ _ (eighL_dec E hs) hs]
      rw [e]
      exact (C129_funcm (eighOfL E) hf).comp_continuous hb fun z => compound_symm (symC_symm z)
    have e : (boundedProjx d E) = fun z => toComplex
        (Matrix.of fun i j => toCompoundSymmetric (boundedProjx d E z) (Fin.castAdd n i) (Fin.castAdd n j))
        (Matrix.of fun i j =>
          toCompoundSymmetric (boundedProjx d E z) (Fin.castAdd n i) (Fin.natAdd n j)) := by
      funext z
      ext i j
      apply Complex.ext <;>
        simp [toComplex, toCompoundSymmetric, blockMatrix, catRows, catCols, reM, imM,
          -Fin.natAdd_eq_addNat]
    rw [e]
    have hc : ∀ i j, Continuous fun z : CMat n => toCompoundSymmetric (boundedProjx d E z) i j :=
      fun i j => (continuous_apply j).comp ((continuous_apply i).comp hm)
    exact s_cplx.comp ((continuous_pi fun i => continuous_pi fun j => hc _ _).prodMk
      (continuous_pi fun i => continuous_pi fun j => hc _ _))
  exact ⟨h, h.comp (continuous_fst.add continuous_snd)⟩

/-- **C129** (gradients and tangent projections of the Siegel spaces): continuous in the point and the
vector. -/
theorem C129_siegel_proju :
    Continuous (fun p : CMat n × CMat n => upperEgrad2rgrad p.1 p.2) ∧
    Continuous (fun p : CMat n × CMat n => upperProju p.1 p.2) ∧
    Continuous (fun p : CMat n × CMat n => boundedEgrad2rgrad p.1 p.2) ∧
    Continuous (fun p : CMat n × CMat n => boundedProju p.1 p.2) := by
  have h1 : Continuous (fun p : CMat n × CMat n => upperEgrad2rgrad p.1 p.2) := by
    have hy : Continuous fun p : CMat n × CMat n => imM p.1 := s_im.comp continuous_fst
    have hr : Continuous fun p : CMat n × CMat n => reM p.2 := s_re.comp continuous_snd
    have hi : Continuous fun p : CMat n × CMat n => imM p.2 := s_im.comp continuous_snd
    exact s_sym.comp (s_cplx.comp (((hy.matrix_mul hr).matrix_mul hy).prodMk
      ((hy.matrix_mul hi).matrix_mul hy)))
  have h2 : Continuous (fun p : CMat n × CMat n => boundedEgrad2rgrad p.1 p.2) := by
    have ha : Continuous fun p : CMat n × CMat n => idMinusConjZZ p.1 :=
      continuous_const.sub ((s_conj.comp continuous_fst).matrix_mul continuous_fst)
    exact s_sym.comp ((ha.matrix_mul continuous_snd).matrix_mul ha)
  exact ⟨h1, h1, h2, h2⟩

/-- **C129** (inner products of the Siegel spaces): at every point of the space `inner` returns, and what it
returns is continuous in the point and both vectors. -/
theorem C129_siegel_inner :
    (∃ g : CMat n × CMat n × CMat n → ℂ, ContinuousOn g {p | OnUpperHalf p.1} ∧
      ∀ z u v, OnUpperHalf z → upperInner z u (some v) = .ok (g (z, u, v))) ∧
    (∃ g : CMat n × CMat n × CMat n → ℂ, ContinuousOn g {p | OnBounded p.1} ∧
      ∀ z u v, OnBounded z → boundedInner z u (some v) = .ok (g (z, u, v))) := by
  have ht : Continuous fun a : CMat n => a.trace := continuous_id.matrix_trace
  have hu : Continuous fun p : CMat n × CMat n × CMat n => p.2.1 := continuous_fst.comp continuous_snd
  have hv : Continuous fun p : CMat n × CMat n × CMat n => conjM p.2.2 :=
    s_conj.comp (continuous_snd.comp continuous_snd)
  constructor
  · refine ⟨fun p => ((asComplex (imM p.1))⁻¹ * p.2.1 * (asComplex (imM p.1))⁻¹ * conjM p.2.2).trace, ?_,
      fun z u v h => upperInner_ok h u v⟩
    have hi : ContinuousOn (fun p : CMat n × CMat n × CMat n => (asComplex (imM p.1))⁻¹)
        {p | OnUpperHalf p.1} :=
      s_inv (s_as.comp (s_im.comp continuous_fst)).continuousOn fun p hp =>
        (isUnit_iff_isUnit_det _).1 (im_posDef hp).isUnit
    exact ht.comp_continuousOn (s_mul (s_mul (s_mul hi hu.continuousOn) hi) hv.continuousOn)
  · refine ⟨fun p => ((idMinusConjZZ p.1)⁻¹ * p.2.1 * (idMinusConjZZ (conjM p.1))⁻¹ * conjM p.2.2).trace, ?_,
      fun z u v h => boundedInner_ok h u v⟩
    have hc : Continuous fun z : CMat n => idMinusConjZZ z :=
      continuous_const.sub (s_conj.matrix_mul continuous_id)
    have h1 : ContinuousOn (fun p : CMat n × CMat n × CMat n => (idMinusConjZZ p.1)⁻¹)
        {p | OnBounded p.1} :=
      s_inv (hc.comp continuous_fst).continuousOn fun p hp =>
        (isUnit_iff_isUnit_det _).1 (idMinus_posDef hp).isUnit
    have h2 : ContinuousOn (fun p : CMat n × CMat n × CMat n => (idMinusConjZZ (conjM p.1))⁻¹)
        {p | OnBounded p.1} :=
      s_inv (hc.comp (s_conj.comp continuous_fst)).continuousOn fun p hp =>
        (isUnit_iff_isUnit_det _).1 (idMinus_posDef (conj_bounded hp)).isUnit
    exact ht.comp_continuousOn (s_mul (s_mul (s_mul h1 hu.continuousOn) h2) hv.continuousOn)

/-- **C129** (the Cayley transform and its inverse): wherever they return, they are continuous, and they
return on the whole of the bounded domain and of the upper half space. -/
theorem C129_cayley :
    (∃ g : CMat n → CMat n, ContinuousOn g {z | ∃ w, cayleyTransform z = .ok w} ∧
      ∀ z w, cayleyTransform z = .ok w → w = g z) ∧
    (∃ g : CMat n → CMat n, ContinuousOn g {w | ∃ z, inverseCayleyTransform w = .ok z} ∧
      ∀ w z, inverseCayleyTransform w = .ok z → z = g w) ∧
    (∀ z : CMat n, OnBounded z → ∃ w, cayleyTransform z = .ok w) ∧
    (∀ w : CMat n, OnUpperHalf w → ∃ z, inverseCayleyTransform w = .ok z) := by
  have hid : Continuous fun z : CMat n => z := continuous_id
  have h1 : Continuous fun z : CMat n => 1 + z := continuous_const.add hid
  have h2 : Continuous fun z : CMat n => Complex.I • (1 + z) := h1.const_smul Complex.I
  have h3 : Continuous fun z : CMat n => 1 - z := continuous_const.sub hid
  have h4 : Continuous fun z : CMat n => z - iId n := hid.sub continuous_const
  have h5 : Continuous fun z : CMat n => z + iId n := hid.add continuous_const
  refine ⟨⟨fun z => (Complex.I • (1 + z)) * (1 - z)⁻¹, ?_, fun z w h => (cayley_ok.1 h).2⟩,
    ⟨fun z => (z - iId n) * (z + iId n)⁻¹, ?_, fun z w h => (inverseCayley_ok.1 h).2⟩, ?_, ?_⟩
  · exact s_mul h2.continuousOn
      (s_inv h3.continuousOn fun z hz => (cayley_ok.1 hz.choose_spec).1)
  · exact s_mul h4.continuousOn
      (s_inv h5.continuousOn fun z hz =>
        (inverseCayley_ok.1 hz.choose_spec).1)
  · intro z hz
    obtain ⟨w, h, _⟩ := C69_bounded_to_upper hz
    exact ⟨w, h⟩
  · intro w hw
    obtain ⟨z, h, _⟩ := C69_upper_to_bounded hw
    exact ⟨z, h⟩

/-- The domains are not empty: `i` times the identity and zero. -/
example : OnUpperHalf (iId 2) ∧ OnBounded (0 : CMat 2) := by
  refine ⟨⟨?_, ?_⟩, ?_, ?_⟩
  · intro i j; simp [iId, Matrix.one_apply, eq_comm]
  · intro w hw
    have : imForm (iId 2) w = w 0 ^ 2 + w 1 ^ 2 := by
      simp [imForm, iId, Fin.sum_univ_two]; ring
    rw [this]
    by_contra h
    apply hw
    ext i
    fin_cases i <;> simp <;> nlinarith [sq_nonneg (w 0), sq_nonneg (w 1)]
  · intro i j; simp
  · intro w hw
    have h0 : len2 ((0 : CMat 2) *ᵥ w) = 0 := by simp [len2]
    rw [h0]
    obtain ⟨i, hi⟩ := Function.ne_iff.1 hw
    exact Finset.sum_pos' (fun j _ => Complex.normSq_nonneg _)
      ⟨i, Finset.mem_univ _, Complex.normSq_pos.2 hi⟩

end Geoopt.C129
