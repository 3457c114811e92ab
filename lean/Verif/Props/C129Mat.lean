import Verif.Props.C127
import Verif.Props.C24
import Mathlib.Topology.Instances.Matrix
import Mathlib.Topology.Algebra.Polynomial
import Mathlib.Topology.ContinuousMap.Weierstrass
import Mathlib.Topology.UniformSpace.UniformApproximation
import Mathlib.Analysis.SpecialFunctions.Log.Basic
import Mathlib.Analysis.Normed.Algebra.MatrixExponential

/-!
# C129 for matrices: the operations do not jump

Eigenvectors and singular vectors are not continuous, and `torch` may choose them as it likes.  The operations
that are computed from them are continuous all the same.
-/

namespace Geoopt.C129
open Matrix Geoopt.Linalg Geoopt.SPD Topology

variable {n m : ℕ} (E : Eigh n)

theorem v_le {v : Mat n} (h : vᵀ * v = 1) (i k : Fin n) : |v i k| ≤ 1 := by
  have h1 : ∑ j, v j k * v j k = 1 := by
    have := congrFun (congrFun h k) k
    simpa [Matrix.mul_apply] using this
  have h2 : v i k * v i k ≤ 1 := by
    rw [← h1]
    exact Finset.single_le_sum (f := fun j => v j k * v j k) (fun j _ => mul_self_nonneg _)
      (Finset.mem_univ i)
  exact abs_le_one_iff_mul_self_le_one.2 h2

/-- the eigenvalues are bounded by the entries -/
theorem e_le {x : Mat n} {e v} (h : Dec x e v) (k : Fin n) : |e k| ≤ ∑ i, ∑ j, |x i j| := by
  have h1 : vᵀ * x * v = diagonal e := by
    rw [h.eq]
    calc vᵀ * (v * diagonal e * vᵀ) * v = (vᵀ * v) * diagonal e * (vᵀ * v) := by
          simp only [Matrix.mul_assoc]
      _ = _ := by rw [h.orth, Matrix.one_mul, Matrix.mul_one]
  have h2 : e k = ∑ j, (∑ i, v i k * x i j) * v j k := by
    have := congrFun (congrFun h1 k) k
    simp only [Matrix.mul_apply, Matrix.transpose_apply, diagonal_apply_eq] at this
    exact this.symm
  rw [h2]
  calc |∑ j, (∑ i, v i k * x i j) * v j k| ≤ ∑ j, |(∑ i, v i k * x i j) * v j k| :=
        Finset.abs_sum_le_sum_abs _ _
    _ ≤ ∑ j, ∑ i, |x i j| := by
        refine Finset.sum_le_sum fun j _ => ?_
        rw [abs_mul]
        calc |∑ i, v i k * x i j| * |v j k| ≤ |∑ i, v i k * x i j| * 1 :=
              mul_le_mul_of_nonneg_left (v_le h.orth j k) (abs_nonneg _)
          _ ≤ ∑ i, |v i k * x i j| := by rw [mul_one]; exact Finset.abs_sum_le_sum_abs _ _
          _ ≤ ∑ i, |x i j| := by
              refine Finset.sum_le_sum fun i _ => ?_
              rw [abs_mul]
              calc |v i k| * |x i j| ≤ 1 * |x i j| :=
                    mul_le_mul_of_nonneg_right (v_le h.orth i k) (abs_nonneg _)
                _ = _ := one_mul _
    _ = _ := Finset.sum_comm

theorem fn_sub_le {v : Mat n} (h : vᵀ * v = 1) (e : Fin n → ℝ) (f g : ℝ → ℝ) {ε : ℝ}
    (hfg : ∀ k, |f (e k) - g (e k)| ≤ ε) (i j : Fin n) :
    |fn f e v i j - fn g e v i j| ≤ n * ε := by
  have hx : ∀ f : ℝ → ℝ, fn f e v i j = ∑ k, v i k * f (e k) * v j k := by
    intro f
    unfold fn
    rw [Matrix.mul_apply]
    refine Finset.sum_congr rfl fun k _ => ?_
    rw [Matrix.mul_diagonal, Matrix.transpose_apply]
  rw [hx, hx, ← Finset.sum_sub_distrib]
  refine (Finset.abs_sum_le_sum_abs _ _).trans ?_
  calc ∑ k, |v i k * f (e k) * v j k - v i k * g (e k) * v j k| ≤ ∑ _k : Fin n, ε := by
        refine Finset.sum_le_sum fun k _ => ?_
        rw [show v i k * f (e k) * v j k - v i k * g (e k) * v j k =
          v i k * (f (e k) - g (e k)) * v j k by ring, abs_mul, abs_mul]
        have h1 := v_le h i k
        have h2 := v_le h j k
        have h3 := hfg k
        have h4 := abs_nonneg (f (e k) - g (e k))
        calc |v i k| * |f (e k) - g (e k)| * |v j k| ≤ |v i k| * |f (e k) - g (e k)| * 1 :=
              mul_le_mul_of_nonneg_left h2 (by positivity)
          _ ≤ 1 * |f (e k) - g (e k)| * 1 := by gcongr
          _ ≤ ε := by linarith
    _ = n * ε := by simp

/-- Where all eigenvalues are in one interval, a function that is continuous on the interval gives a
continuous function of matrices. -/
theorem c_symFuncm_on {f : ℝ → ℝ} {a b : ℝ} (hf : ContinuousOn f (Set.Icc a b)) {S : Set (Mat n)}
    (hS : ∀ x ∈ S, xᵀ = x ∧ ∀ k, E.e x k ∈ Set.Icc a b) : ContinuousOn (symFuncm E f) S := by
  refine continuousOn_pi.2 fun i => continuousOn_pi.2 fun j => ?_
  refine continuousOn_of_uniform_approx_of_continuousOn fun u hu => ?_
  obtain ⟨ε, hε, hu⟩ := Metric.mem_uniformity_dist.1 hu
  have hn : (0 : ℝ) < n + 1 := by positivity
  obtain ⟨p, hp⟩ := exists_polynomial_near_of_continuousOn a b f hf (ε / (n + 1)) (by positivity)
  refine ⟨fun x => Polynomial.aeval x p i j, ?_, fun x hx => hu ?_⟩
  · have h1 : Continuous fun x : Mat n => Polynomial.aeval x p := p.continuous_aeval
    exact ((continuous_apply j).comp ((continuous_apply i).comp h1)).continuousOn
  · obtain ⟨hs, he⟩ := hS x hx
    change Dist.dist (symFuncm E f x i j) (Polynomial.aeval x p i j) < ε
    rw [← C127.C127_polynomial E p hs, Real.dist_eq, symFuncm_eq_fn, symFuncm_eq_fn]
    refine lt_of_le_of_lt (fn_sub_le (E.orth x) _ _ _ (ε := ε / (n + 1)) (fun k => ?_) i j) ?_
    · rw [abs_sub_comm]; exact (hp _ (he k)).le
    · rw [← mul_div_assoc, div_lt_iff₀ hn]; nlinarith

theorem c_sumAbs : Continuous fun x : Mat n => ∑ i, ∑ j, |x i j| := by
  refine continuous_finsetSum _ fun i _ => continuous_finsetSum _ fun j _ => ?_
  exact ((continuous_apply j).comp (continuous_apply i)).abs

/-- **C129.** Functions of symmetric matrices: if `f` is continuous, `sym_funcm(x, f)` is a continuous function of
the symmetric matrix `x`, whatever eigenvectors `eigh` chooses at each `x`. -/
theorem C129_funcm {f : ℝ → ℝ} (hf : Continuous f) :
    ContinuousOn (symFuncm E f) {x | xᵀ = x} := by
  intro x0 hx0
  have h := c_symFuncm_on E (f := f) (a := -(∑ i, ∑ j, |x0 i j| + 1)) (b := ∑ i, ∑ j, |x0 i j| + 1)
    hf.continuousOn (S := {x | xᵀ = x} ∩ {x | ∑ i, ∑ j, |x i j| < ∑ i, ∑ j, |x0 i j| + 1}) (by
      intro x hx
      refine ⟨hx.1, fun k => ?_⟩
      have := (e_le (eigh_dec E hx.1) k).trans (le_of_lt hx.2)
      exact ⟨(abs_le.1 this).1, (abs_le.1 this).2⟩)
  have ho : IsOpen {x : Mat n | ∑ i, ∑ j, |x i j| < ∑ i, ∑ j, |x0 i j| + 1} :=
    isOpen_lt c_sumAbs continuous_const
  have hm : x0 ∈ {x : Mat n | ∑ i, ∑ j, |x i j| < ∑ i, ∑ j, |x0 i j| + 1} := by
    show ∑ i, ∑ j, |x0 i j| < ∑ i, ∑ j, |x0 i j| + 1
    exact lt_add_one _
  exact (continuousWithinAt_inter (ho.mem_nhds hm)).1 (h x0 ⟨hx0, hm⟩)

/-- **C129.** If `f` is continuous on the positive numbers, `sym_funcm(x, f)` is continuous on the positive definite
matrices. -/
theorem C129_funcm_pos {f : ℝ → ℝ} (hf : ContinuousOn f (Set.Ioi 0)) :
    ContinuousOn (symFuncm E f) {x | OnSPD x} := by
  intro x0 hx0
  have hx0 : OnSPD x0 := hx0
  obtain ⟨B, hB⟩ : ∃ B, B = ∑ i, ∑ j, |x0 i j| + 1 := ⟨_, rfl⟩
  obtain ⟨C, hC⟩ : ∃ C, C = ∑ i, ∑ j, |x0⁻¹ i j| + 1 := ⟨_, rfl⟩
  have hC0 : 0 < C := by
    rw [hC]
    have : 0 ≤ ∑ i, ∑ j, |x0⁻¹ i j| := Finset.sum_nonneg fun i _ => Finset.sum_nonneg fun j _ => abs_nonneg _
    linarith
  have hsub : Set.Icc C⁻¹ B ⊆ Set.Ioi 0 := fun t ht => lt_of_lt_of_le (inv_pos.2 hC0) ht.1
  have h := c_symFuncm_on E (f := f) (a := C⁻¹) (b := B) (hf.mono hsub)
    (S := {x | OnSPD x} ∩ {x | ∑ i, ∑ j, |x i j| < B ∧ ∑ i, ∑ j, |x⁻¹ i j| < C}) (by
      intro x hx
      have hs : OnSPD x := hx.1
      have hd := eigh_dec E hs.tr
      refine ⟨hs.tr, fun k => ⟨?_, ?_⟩⟩
      · have hi : Dec x⁻¹ (fun i => (E.e x i)⁻¹) (E.v x) := by
          have h1 := fn_dec hd (fun t => t⁻¹)
          have h2 : fn (fun t => t⁻¹) (E.e x) (E.v x) = x⁻¹ := by
            symm
            refine Matrix.inv_eq_right_inv ?_
            have h3 := fn_mul hd.orth (fun t => t) (fun t => t⁻¹) (E.e x)
            rw [fn_id hd] at h3
            have h4 : fn (fun t => t * t⁻¹) (E.e x) (E.v x) = fn (fun _ => 1) (E.e x) (E.v x) :=
              fn_congr _ fun i => mul_inv_cancel₀ (hs.pos hd i).ne'
            rw [h3, h4, fn_const hd, one_smul]
          rwa [h2] at h1
        have h3 := (e_le hi k).trans hx.2.2.le
        have h4 := hs.pos hd k
        rw [abs_of_pos (inv_pos.2 h4)] at h3
        exact inv_le_of_inv_le₀ h4 h3
      · exact ((le_abs_self _).trans (e_le hd k)).trans hx.2.1.le)
  have hinv : ContinuousAt (fun x : Mat n => x⁻¹) x0 := by
    have hd0 : x0.det ≠ 0 := (det_ne_of_onSPD hx0).ne'
    simp only [Matrix.inv_def, Ring.inverse_eq_inv']
    exact (((continuous_id.matrix_det).continuousAt).inv₀ hd0).smul
      (continuous_id.matrix_adjugate).continuousAt
  have hev : {x : Mat n | ∑ i, ∑ j, |x i j| < B ∧ ∑ i, ∑ j, |x⁻¹ i j| < C} ∈ 𝓝 x0 := by
    have h1 : ∀ᶠ x in 𝓝 x0, ∑ i, ∑ j, |x i j| < B :=
      (c_sumAbs.continuousAt).eventually_lt continuousAt_const (by rw [hB]; exact lt_add_one _)
    have h2 : ∀ᶠ x : Mat n in 𝓝 x0, ∑ i, ∑ j, |x⁻¹ i j| < C :=
      (ContinuousAt.comp (g := fun x : Mat n => ∑ i, ∑ j, |x i j|) c_sumAbs.continuousAt hinv).eventually_lt
        continuousAt_const (by rw [hC]; exact lt_add_one _)
    exact h1.and h2
  exact (continuousWithinAt_inter hev).1 (h x0 ⟨hx0, mem_of_mem_nhds hev⟩)


theorem c_exp : Continuous (NormedSpace.exp : Mat n → Mat n) := by
  let : NormedRing (Mat n) := Matrix.linftyOpNormedRing
  let : NormedAlgebra ℝ (Mat n) := Matrix.linftyOpNormedAlgebra
  let : NormedAlgebra ℚ (Mat n) := .restrictScalars ℚ ℝ _
  exact NormedSpace.exp_continuous

variable {X : Type} [TopologicalSpace X]

theorem c_inv {f : X → Mat n} {S : Set X} (hf : ContinuousOn f S) (h : ∀ a ∈ S, (f a).det ≠ 0) :
    ContinuousOn (fun a => (f a)⁻¹) S := by
  simp only [Matrix.inv_def, Ring.inverse_eq_inv']
  have hd : Continuous fun x : Mat n => x.det := continuous_id.matrix_det
  have ha : Continuous fun x : Mat n => x.adjugate := continuous_id.matrix_adjugate
  exact ((hd.comp_continuousOn hf).inv₀ h).smul (ha.comp_continuousOn hf)

theorem c_mul {f g : X → Mat n} {S : Set X} (hf : ContinuousOn f S) (hg : ContinuousOn g S) :
    ContinuousOn (fun a => f a * g a) S := by
  have h : Continuous fun q : Mat n × Mat n => q.1 * q.2 := continuous_fst.mul continuous_snd
  exact h.comp_continuousOn (hf.prodMk hg)

theorem c_sym {f : X → Mat n} {S : Set X} (hf : ContinuousOn f S) :
    ContinuousOn (fun a => sym (f a)) S := by
  have h : Continuous fun x : Mat n => sym x := by
    unfold sym
    have h1 : Continuous fun x : Mat n => x := continuous_id
    exact (h1.matrix_transpose.add h1).const_smul (0.5 : ℝ)
  exact h.comp_continuousOn hf

theorem c_root : ContinuousOn (fun x => (symInvSqrtm2 E x).1) {x | OnSPD x} ∧
    ContinuousOn (fun x => (symInvSqrtm2 E x).2) {x | OnSPD x} := by
  constructor
  · exact C129_funcm_pos E (f := fun t => (Real.sqrt t)⁻¹)
      (Real.continuous_sqrt.continuousOn.inv₀ fun t ht => (Real.sqrt_pos.2 ht).ne')
  · exact C129_funcm_pos E (f := Real.sqrt) Real.continuous_sqrt.continuousOn

theorem c_log : ContinuousOn (symLogm E) {x | OnSPD x} :=
  C129_funcm_pos E (f := Real.log) (Real.continuousOn_log.mono fun t ht => ne_of_gt ht)

theorem c_trace : Continuous fun x : Mat n => Linalg.trace x :=
  continuous_finsetSum _ fun i _ => (continuous_apply i).comp (continuous_apply i)

theorem c_frobNorm : Continuous fun x : Mat n => frobNorm x := by
  unfold frobNorm frob
  refine Real.continuous_sqrt.comp ?_
  refine continuous_finsetSum _ fun i _ => continuous_finsetSum _ fun j _ => ?_
  have h : Continuous fun x : Mat n => x i j := (continuous_apply j).comp (continuous_apply i)
  exact h.mul h

/-- **C129.** Symmetric positive definite matrices, for every implementation of `eigh`: the projections are continuous
everywhere, and inner products, gradients, retractions, exponential maps, logarithms, transports and the three
distances are continuous on the manifold. -/
theorem C129_spd (met : Metric) :
    (Continuous fun x : Mat n => SPD.projx E x) ∧
    (Continuous fun p : Mat n × Mat n => SPD.proju p.1 p.2) ∧
    (Continuous fun p : Mat n × Mat n => SPD.egrad2rgrad p.1 p.2) ∧
    (ContinuousOn (fun p : Mat n × Mat n × Mat n => SPD.inner p.1 p.2.1 p.2.2) {p | OnSPD p.1}) ∧
    (ContinuousOn (fun p : Mat n × Mat n => SPD.retr p.1 p.2) {p | OnSPD p.1}) ∧
    (ContinuousOn (fun p : Mat n × Mat n => SPD.expmap E p.1 p.2) {p | OnSPD p.1}) ∧
    (ContinuousOn (fun p : Mat n × Mat n => SPD.logmap E p.1 p.2) {p | OnSPD p.1 ∧ OnSPD p.2}) ∧
    (ContinuousOn (fun p : Mat n × Mat n × Mat n => SPD.transp E p.1 p.2.1 p.2.2)
      {p | OnSPD p.1 ∧ OnSPD p.2.1}) ∧
    (ContinuousOn (fun p : Mat n × Mat n => SPD.dist E met p.1 p.2) {p | OnSPD p.1 ∧ OnSPD p.2}) := by
  have hsym : Continuous fun x : Mat n => sym x := by
    rw [← continuousOn_univ]; exact c_sym continuousOn_id
  have f1 : Continuous fun p : Mat n × Mat n => p.1 := continuous_fst
  have f2 : Continuous fun p : Mat n × Mat n => p.2 := continuous_snd
  have g1 : Continuous fun p : Mat n × Mat n × Mat n => p.1 := continuous_fst
  have g2 : Continuous fun p : Mat n × Mat n × Mat n => p.2.1 := continuous_fst.comp continuous_snd
  have g3 : Continuous fun p : Mat n × Mat n × Mat n => p.2.2 := continuous_snd.comp continuous_snd
  have r1 : ∀ {X : Type} [TopologicalSpace X] {f : X → Mat n} {S : Set X}, Continuous f →
      (∀ a ∈ S, OnSPD (f a)) → ContinuousOn (fun a => (symInvSqrtm2 E (f a)).1) S := by
    intro X _ f S hf h
    exact (c_root E).1.comp hf.continuousOn h
  have r2 : ∀ {X : Type} [TopologicalSpace X] {f : X → Mat n} {S : Set X}, Continuous f →
      (∀ a ∈ S, OnSPD (f a)) → ContinuousOn (fun a => (symInvSqrtm2 E (f a)).2) S := by
    intro X _ f S hf h
    exact (c_root E).2.comp hf.continuousOn h
  have lg : ∀ {X : Type} [TopologicalSpace X] {f : X → Mat n} {S : Set X}, ContinuousOn f S →
      (∀ a ∈ S, OnSPD (f a)) → ContinuousOn (fun a => symLogm E (f a)) S := by
    intro X _ f S hf h
    exact (c_log E).comp hf h
  have iv : ∀ {X : Type} [TopologicalSpace X] {f : X → Mat n} {S : Set X}, Continuous f →
      (∀ a ∈ S, OnSPD (f a)) → ContinuousOn (fun a => symInvm (f a)) S := by
    intro X _ f S hf h
    exact c_inv hf.continuousOn fun a ha => (det_ne_of_onSPD (h a ha)).ne'
  have ex : ∀ {X : Type} [TopologicalSpace X] {f : X → Mat n} {S : Set X}, ContinuousOn f S →
      ContinuousOn (fun a => symExpm (f a)) S := by
    intro X _ f S hf
    exact c_exp.comp_continuousOn hf
  refine ⟨?_, ?_, ?_, ?_, ?_, ?_, ?_, ?_, ?_⟩
  · rw [← continuousOn_univ]
    refine (C129_funcm E (f := fun t => |t|) continuous_abs).comp hsym.continuousOn fun x _ => ?_
    exact sym_symm x
  · exact hsym.comp f2
  · exact ((f1.mul (hsym.comp f2)).mul f1.matrix_transpose)
  · unfold SPD.inner
    have h := iv (S := {p : Mat n × Mat n × Mat n | OnSPD p.1}) g1 fun p hp => hp
    exact c_trace.comp_continuousOn
      (c_mul (c_mul (c_mul h g2.continuousOn) h) g3.continuousOn)
  · unfold SPD.retr
    have h := iv (S := {p : Mat n × Mat n | OnSPD p.1}) f1 fun p hp => hp
    have h2 : Continuous fun p : Mat n × Mat n => (0.5 : ℝ) • p.2 := f2.const_smul (0.5 : ℝ)
    exact c_sym ((f1.add f2).continuousOn.add (c_mul (c_mul h2.continuousOn h) f2.continuousOn))
  · unfold SPD.expmap
    have h1 := r1 (S := {p : Mat n × Mat n | OnSPD p.1}) f1 fun p hp => hp
    have h2 := r2 (S := {p : Mat n × Mat n | OnSPD p.1}) f1 fun p hp => hp
    exact c_mul (c_mul h2 (ex (c_mul (c_mul h1 f2.continuousOn) h1))) h2
  · unfold SPD.logmap
    have h1 := r1 (S := {p : Mat n × Mat n | OnSPD p.1 ∧ OnSPD p.2}) f1 fun p hp => hp.1
    have h2 := r2 (S := {p : Mat n × Mat n | OnSPD p.1 ∧ OnSPD p.2}) f1 fun p hp => hp.1
    exact c_mul (c_mul h2 (lg (c_mul (c_mul h1 f2.continuousOn) h1) fun p hp =>
      (roots hp.1).mid hp.2)) h2
  · unfold SPD.transp
    have h1 := r1 (S := {p : Mat n × Mat n × Mat n | OnSPD p.1 ∧ OnSPD p.2.1}) g1 fun p hp => hp.1
    have h2 := r2 (S := {p : Mat n × Mat n × Mat n | OnSPD p.1 ∧ OnSPD p.2.1}) g1 fun p hp => hp.1
    have h3 := ex ((lg (c_mul (c_mul h1 g2.continuousOn) h1) fun p hp =>
      (roots hp.1).mid hp.2).const_smul (0.5 : ℝ))
    exact c_mul (c_mul (c_mul (c_mul h2 h3) (c_sym (c_mul (c_mul h1 g3.continuousOn) h1))) h3) h2
  · have h1 := r1 (S := {p : Mat n × Mat n | OnSPD p.1 ∧ OnSPD p.2}) f1 fun p hp => hp.1
    cases met with
    | AIM =>
      have h2 : ContinuousOn (fun p : Mat n × Mat n => frobNorm (symLogm E
          ((symInvSqrtm2 E p.1).1 * p.2 * (symInvSqrtm2 E p.1).1)))
          {p : Mat n × Mat n | OnSPD p.1 ∧ OnSPD p.2} :=
        c_frobNorm.comp_continuousOn (lg (c_mul (c_mul h1 f2.continuousOn) h1) fun p hp =>
          (roots hp.1).mid hp.2)
      refine h2.congr fun p hp => ?_
      unfold SPD.dist SPD.affineInvariant
      dsimp only
      rw [symInvSqrtm1_eq hp.1]
    | SM =>
      unfold SPD.dist SPD.stein
      dsimp only
      have hd : Continuous fun x : Mat n => x.det := continuous_id.matrix_det
      refine ContinuousOn.sub (ContinuousOn.log (hd.comp ((f1.add f2).const_smul (0.5 : ℝ))).continuousOn
        fun p hp => ?_) (continuousOn_const.mul (ContinuousOn.log (hd.comp (f1.mul f2)).continuousOn fun p hp => ?_))
      · have hpp : OnSPD ((0.5 : ℝ) • (p.1 + p.2)) := by
          refine ⟨symm_iff.2 ?_, fun w hw => ?_⟩
          · rw [transpose_smul, transpose_add, hp.1.tr, hp.2.tr]
          · rw [smul_mulVec, dotProduct_smul, add_mulVec, dotProduct_add, smul_eq_mul]
            have := hp.1.2 w hw; have := hp.2.2 w hw
            have : (0 : ℝ) < 0.5 := by norm_num
            positivity
        exact (det_ne_of_onSPD hpp).ne'
      · show (p.1 * p.2).det ≠ 0
        rw [det_mul]
        exact mul_ne_zero (det_ne_of_onSPD hp.1).ne' (det_ne_of_onSPD hp.2).ne'
    | LEM =>
      exact c_frobNorm.comp_continuousOn
        ((lg f1.continuousOn fun p hp => hp.1).sub (lg f2.continuousOn fun p hp => hp.2))

/-! ## Stiefel -/

section stiefel
open Geoopt.Stiefel

abbrev RMat (n m : ℕ) := Matrix (Fin n) (Fin m) ℝ

theorem q_le {v : RMat n m} (h : vᵀ * v = 1) (i : Fin n) (k : Fin m) : |v i k| ≤ 1 := by
  have h1 : ∑ j, v j k * v j k = 1 := by
    have := congrFun (congrFun h k) k
    simpa [Matrix.mul_apply] using this
  have h2 : v i k * v i k ≤ 1 := by
    rw [← h1]
    exact Finset.single_le_sum (f := fun j => v j k * v j k) (fun j _ => mul_self_nonneg _)
      (Finset.mem_univ i)
  exact abs_le_one_iff_mul_self_le_one.2 h2

theorem compact_box : IsCompact {q : RMat n m | ∀ i j, q i j ∈ Set.Icc (-1 : ℝ) 1} := by
  have h := isCompact_univ_pi (ι := Fin n) (X := fun _ => Fin m → ℝ)
    (s := fun _ => Set.univ.pi fun _ => Set.Icc (-1 : ℝ) 1)
    fun i => isCompact_univ_pi fun j => isCompact_Icc
  have e : {q : RMat n m | ∀ i j, q i j ∈ Set.Icc (-1 : ℝ) 1} =
      Set.univ.pi fun _ => Set.univ.pi fun _ => Set.Icc (-1 : ℝ) 1 := by
    ext q
    exact ⟨fun h i _ j _ => h i j, fun h i j => h i trivial j trivial⟩
  rw [e]; exact h

/-- A function with orthonormal values whose graph is in a closed relation is continuous where the relation has one
solution. -/
theorem c_unique {f : RMat n m → RMat n m} {P : Set (RMat n m × RMat n m)} (hP : IsClosed P)
    (hf : ∀ x, (x, f x) ∈ P) (ho : ∀ x, (f x)ᵀ * f x = 1) {x0 : RMat n m}
    (hu : ∀ y, (x0, y) ∈ P → y = f x0) : ContinuousAt f x0 := by
  refine compact_box.tendsto_nhds_of_unique_mapClusterPt
    (Filter.Eventually.of_forall fun x i j => abs_le.1 (q_le (ho x) i j)) fun y _ hy => ?_
  obtain ⟨U, hU, hy⟩ := mapClusterPt_iff_ultrafilter.1 hy
  refine hu y (hP.mem_of_tendsto (f := fun x => (x, f x)) (b := (U : Filter (RMat n m)))
    ((Filter.tendsto_id.mono_right hU).prodMk_nhds hy) (Filter.Eventually.of_forall hf))

/-- Full column rank. -/
def FullRank (A : RMat n m) : Prop := ∀ c, A *ᵥ c = 0 → c = 0

theorem FullRank.det {A Q : RMat n m} {R : Mat m} (h : FullRank A) (e : A = Q * R) : R.det ≠ 0 := by
  intro hd
  obtain ⟨c, hc, h0⟩ := Matrix.exists_mulVec_eq_zero_iff.2 hd
  refine hc (h c ?_)
  rw [e, ← Matrix.mulVec_mulVec, h0, Matrix.mulVec_zero]

/-- Orthonormal `Q` such that `QᵀA` is upper triangular with a non-negative diagonal and `Q(QᵀA) = A`. -/
def QRRel : Set (RMat n m × RMat n m) :=
  {p | p.2ᵀ * p.2 = 1 ∧ p.2 * (p.2ᵀ * p.1) = p.1 ∧ (∀ i j, j < i → (p.2ᵀ * p.1) i j = 0) ∧
    ∀ i, 0 ≤ (p.2ᵀ * p.1) i i}

theorem c_at {f : X → RMat n m} (hf : Continuous f) (i : Fin n) (j : Fin m) :
    Continuous fun a => f a i j := (continuous_apply j).comp ((continuous_apply i).comp hf)

theorem qr_closed : IsClosed (QRRel (n := n) (m := m)) := by
  have h1 : Continuous fun p : RMat n m × RMat n m => p.1 := continuous_fst
  have h2 : Continuous fun p : RMat n m × RMat n m => p.2 := continuous_snd
  have h3 : Continuous fun p : RMat n m × RMat n m => p.2ᵀ * p.1 := h2.matrix_transpose.matrix_mul h1
  refine (isClosed_eq (h2.matrix_transpose.matrix_mul h2) continuous_const).inter
    ((isClosed_eq (h2.matrix_mul h3) h1).inter (IsClosed.inter ?_ ?_))
  · change IsClosed {p : RMat n m × RMat n m | ∀ i j, j < i → (p.2ᵀ * p.1) i j = 0}
    simp only [Set.setOf_forall]
    exact isClosed_iInter fun i => isClosed_iInter fun j => isClosed_iInter fun _ =>
      isClosed_eq (c_at h3 i j) continuous_const
  · change IsClosed {p : RMat n m × RMat n m | ∀ i, 0 ≤ (p.2ᵀ * p.1) i i}
    simp only [Set.setOf_forall]
    exact isClosed_iInter fun i => isClosed_le continuous_const (c_at h3 i i)

theorem qr_unique {A Q1 Q2 : RMat n m} (hA : FullRank A) (h1 : (A, Q1) ∈ QRRel)
    (h2 : (A, Q2) ∈ QRRel) : Q1 = Q2 := by
  obtain ⟨o1, e1, u1, p1⟩ := h1
  obtain ⟨o2, e2, u2, p2⟩ := h2
  dsimp only at o1 e1 u1 p1 o2 e2 u2 p2
  obtain ⟨R1, hR1⟩ : ∃ R, R = Q1ᵀ * A := ⟨_, rfl⟩
  obtain ⟨R2, hR2⟩ : ∃ R, R = Q2ᵀ * A := ⟨_, rfl⟩
  rw [← hR1] at e1 u1 p1
  rw [← hR2] at e2 u2 p2
  have d1 := hA.det e1.symm
  obtain ⟨T, hT⟩ : ∃ T, T = R2 * R1⁻¹ := ⟨_, rfl⟩
  have hQ : Q1 = Q2 * T := by
    have : Q1 * R1 * R1⁻¹ = Q2 * R2 * R1⁻¹ := by rw [e1, e2]
    rw [Matrix.mul_assoc, Matrix.mul_nonsing_inv _ d1.isUnit, Matrix.mul_one, Matrix.mul_assoc] at this
    rw [hT]; exact this
  have hTT : Tᵀ * T = 1 := by
    have h := o1
    rw [hQ, Matrix.transpose_mul, Matrix.mul_assoc, ← Matrix.mul_assoc Q2ᵀ, o2, Matrix.one_mul] at h
    exact h
  have b1 : BlockTriangular R1 id := fun i j h => u1 i j h
  have b2 : BlockTriangular R2 id := fun i j h => u2 i j h
  have hup : ∀ i j, j < i → T i j = 0 := by
    have : Invertible R1 := R1.invertibleOfIsUnitDet d1.isUnit
    have h := b2.mul (blockTriangular_inv_of_blockTriangular b1)
    rw [← hT] at h
    exact fun i j hij => h hij
  have hdg := orth_upper_diag hTT hup
  have hTR : T * R1 = R2 := by
    rw [hT, Matrix.mul_assoc, Matrix.nonsing_inv_mul _ d1.isUnit, Matrix.mul_one]
  have hj : ∀ j, T j j = 1 := by
    intro j
    have hne : R1 j j ≠ 0 := by
      have := d1
      rw [Matrix.det_of_upperTriangular b1] at this
      exact fun h0 => this (Finset.prod_eq_zero (Finset.mem_univ j) h0)
    have hpos : 0 < R1 j j := lt_of_le_of_ne (p1 j) hne.symm
    have hmul : T j j * R1 j j = R2 j j := by
      have := congrFun (congrFun hTR j) j
      rw [hdg, Matrix.diagonal_mul] at this
      exact this
    have hTp : 0 ≤ T j j := by
      by_contra hneg
      have := mul_neg_of_neg_of_pos (not_le.1 hneg) hpos
      rw [hmul] at this
      exact absurd (p2 j) (not_le.2 this)
    have hsq : T j j * T j j = 1 := by
      have := congrFun (congrFun hTT j) j
      rw [hdg, Matrix.diagonal_transpose, Matrix.diagonal_mul_diagonal, Matrix.diagonal_apply_eq,
        Matrix.one_apply_eq] at this
      exact this
    nlinarith
  rw [hQ, hdg]
  have : (fun j => T j j) = fun _ => 1 := funext hj
  rw [this, Matrix.diagonal_one, Matrix.mul_one]

theorem qr_mem {A Q : RMat n m} {R : Mat m} (h : IsQR A Q R) : (A, Euclidean.retr Q R) ∈ QRRel := by
  obtain ⟨D, hD⟩ : ∃ D : Mat m, D = diagonal (fun j => usign (R j j)) := ⟨_, rfl⟩
  have hDD : D * D = 1 := by
    rw [hD, Matrix.diagonal_mul_diagonal, ← Matrix.diagonal_one]
    congr 1; funext j
    rw [← abs_mul_abs_self, abs_usign]; norm_num
  have hDt : Dᵀ = D := by rw [hD, Matrix.diagonal_transpose]
  have e : Euclidean.retr Q R = Q * D := by rw [hD]; exact retr_eq Q R
  have hR : (Q * D)ᵀ * A = D * R := by
    rw [h.eq, Matrix.transpose_mul, hDt, Matrix.mul_assoc, ← Matrix.mul_assoc Qᵀ, h.orth, Matrix.one_mul]
  refine ⟨?_, ?_, ?_, ?_⟩ <;> simp only [e]
  · rw [Matrix.transpose_mul, hDt, Matrix.mul_assoc, ← Matrix.mul_assoc Qᵀ, h.orth, Matrix.one_mul, hDD]
  · rw [hR, Matrix.mul_assoc, ← Matrix.mul_assoc D, hDD, Matrix.one_mul, ← h.eq]
  · intro i j hij
    rw [hR, hD, Matrix.diagonal_mul, h.upper i j hij, mul_zero]
  · intro i
    rw [hR, hD, Matrix.diagonal_mul, mul_comm, mul_usign]
    exact abs_nonneg _

/-- Orthonormal `Y` such that `YᵀA` is positive semidefinite and `Y(YᵀA) = A`. -/
def PolarRel : Set (RMat n m × RMat n m) :=
  {p | p.2ᵀ * p.2 = 1 ∧ p.2 * (p.2ᵀ * p.1) = p.1 ∧ (p.2ᵀ * p.1)ᵀ = p.2ᵀ * p.1 ∧
    ∀ w : Fin m → ℝ, 0 ≤ w ⬝ᵥ ((p.2ᵀ * p.1) *ᵥ w)}

theorem polar_closed : IsClosed (PolarRel (n := n) (m := m)) := by
  have h1 : Continuous fun p : RMat n m × RMat n m => p.1 := continuous_fst
  have h2 : Continuous fun p : RMat n m × RMat n m => p.2 := continuous_snd
  have h3 : Continuous fun p : RMat n m × RMat n m => p.2ᵀ * p.1 := h2.matrix_transpose.matrix_mul h1
  refine (isClosed_eq (h2.matrix_transpose.matrix_mul h2) continuous_const).inter
    ((isClosed_eq (h2.matrix_mul h3) h1).inter ((isClosed_eq h3.matrix_transpose h3).inter ?_))
  change IsClosed {p : RMat n m × RMat n m | ∀ w : Fin m → ℝ, 0 ≤ w ⬝ᵥ ((p.2ᵀ * p.1) *ᵥ w)}
  simp only [Set.setOf_forall]
  exact isClosed_iInter fun w => isClosed_le continuous_const
    (continuous_const.dotProduct (h3.matrix_mulVec continuous_const))

theorem polar_unique {A Y1 Y2 : RMat n m} (hA : FullRank A) (h1 : (A, Y1) ∈ PolarRel)
    (h2 : (A, Y2) ∈ PolarRel) : Y1 = Y2 := by
  obtain ⟨o1, e1, s1, p1⟩ := h1
  obtain ⟨o2, e2, s2, p2⟩ := h2
  dsimp only at o1 e1 s1 p1 o2 e2 s2 p2
  have sq : ∀ Y : RMat n m, Y * (Yᵀ * A) = A → (Yᵀ * A)ᵀ = Yᵀ * A →
      (Yᵀ * A) * (Yᵀ * A) = Aᵀ * A := by
    intro Y e s
    calc (Yᵀ * A) * (Yᵀ * A) = (Yᵀ * A)ᵀ * (Yᵀ * A) := by rw [s]
      _ = Aᵀ * (Y * (Yᵀ * A)) := by
          rw [Matrix.transpose_mul, Matrix.transpose_transpose, Matrix.mul_assoc]
      _ = _ := by rw [e]
  have hx : OnSPSD (Aᵀ * A) := by
    refine ⟨symm_iff.2 ?_, fun w => ?_⟩
    · rw [Matrix.transpose_mul, Matrix.transpose_transpose]
    · rw [← Matrix.mulVec_mulVec, Matrix.dotProduct_mulVec, Matrix.vecMul_transpose]
      exact Finset.sum_nonneg fun i _ => mul_self_nonneg _
  have hh := (C127.C127_sqrt (someEigh m) hx).2
  have k1 := hh _ ⟨symm_iff.2 s1, p1⟩ (sq Y1 e1 s1)
  have k2 := hh _ ⟨symm_iff.2 s2, p2⟩ (sq Y2 e2 s2)
  have hd := hA.det e1.symm
  have h : Y1 * (Y1ᵀ * A) = Y2 * (Y1ᵀ * A) := by
    rw [e1]
    conv_lhs => rw [← e2]
    rw [k1, k2]
  have h' : Y1 * (Y1ᵀ * A) * (Y1ᵀ * A)⁻¹ = Y2 * (Y1ᵀ * A) * (Y1ᵀ * A)⁻¹ := by rw [h]
  rwa [Matrix.mul_assoc, Matrix.mul_nonsing_inv _ hd.isUnit, Matrix.mul_one, Matrix.mul_assoc,
    Matrix.mul_nonsing_inv _ hd.isUnit, Matrix.mul_one] at h'

theorem svd_mem {A U : RMat n m} {S : Fin m → ℝ} {V : Mat m} (h : IsSVD A U S V) :
    (A, Stiefel.projx U V) ∈ PolarRel := by
  have hV : Vᵀ * V = 1 := mul_eq_one_comm.1 h.orthV
  have hH : (U * V)ᵀ * A = Vᵀ * diagonal S * V := by
    rw [h.eq, Matrix.transpose_mul, Matrix.mul_assoc, Matrix.mul_assoc U, ← Matrix.mul_assoc Uᵀ, h.orthU,
      Matrix.one_mul, Matrix.mul_assoc]
  refine ⟨?_, ?_, ?_, ?_⟩ <;> simp only [Stiefel.projx]
  · rw [Matrix.transpose_mul, Matrix.mul_assoc, ← Matrix.mul_assoc Uᵀ, h.orthU, Matrix.one_mul, hV]
  · rw [hH, Matrix.mul_assoc, ← Matrix.mul_assoc V, ← Matrix.mul_assoc V, h.orthV, Matrix.one_mul, ← Matrix.mul_assoc,
      ← h.eq]
  · rw [hH, Matrix.transpose_mul, Matrix.transpose_mul, Matrix.diagonal_transpose,
      Matrix.transpose_transpose, Matrix.mul_assoc]
  · intro w
    rw [hH, ← Matrix.mulVec_mulVec, ← Matrix.mulVec_mulVec, Matrix.dotProduct_mulVec, Matrix.vecMul_transpose]
    refine Finset.sum_nonneg fun i _ => ?_
    rw [Matrix.mulVec_diagonal]
    have := h.nonneg i
    have := mul_self_nonneg ((V *ᵥ w) i)
    nlinarith

theorem tangent_fullRank {x u : RMat n m} (hx : OnStiefel x) (hu : Stiefel.Tangent x u) : FullRank (x + u) := by
  intro c hc
  have h1 : (x + u)ᵀ * (x + u) = 1 + uᵀ * u := by
    have : uᵀ * x = -(xᵀ * u) := by
      have := hu
      unfold Stiefel.Tangent at this
      rwa [Matrix.transpose_mul, Matrix.transpose_transpose] at this
    rw [Matrix.transpose_add, Matrix.add_mul, Matrix.mul_add, Matrix.mul_add, hx, this]
    abel
  have h2 : (x + u)ᵀ *ᵥ ((x + u) *ᵥ c) = 0 := by rw [hc, Matrix.mulVec_zero]
  rw [Matrix.mulVec_mulVec, h1, Matrix.add_mulVec, Matrix.one_mulVec] at h2
  have h3 : c ⬝ᵥ c + (u *ᵥ c) ⬝ᵥ (u *ᵥ c) = 0 := by
    have := congrArg (fun w => c ⬝ᵥ w) h2
    simp only [dotProduct_add, dotProduct_zero] at this
    rwa [← Matrix.mulVec_mulVec, Matrix.dotProduct_mulVec, Matrix.vecMul_transpose] at this
  have h4 : 0 ≤ (u *ᵥ c) ⬝ᵥ (u *ᵥ c) := Finset.sum_nonneg fun i _ => mul_self_nonneg _
  have h5 : 0 ≤ c ⬝ᵥ c := Finset.sum_nonneg fun i _ => mul_self_nonneg _
  exact dotProduct_self_eq_zero.1 (by linarith)

theorem c_frob {f g : X → RMat n m} (hf : Continuous f) (hg : Continuous g) :
    Continuous fun a => frob (f a) (g a) := by
  unfold frob
  exact continuous_finsetSum _ fun i _ => continuous_finsetSum _ fun j _ =>
    (c_at hf i j).mul (c_at hg i j)

theorem c_follow {κ : Type} [Fintype κ] {f g : X → RMat n m} {h : X → Matrix (Fin n) κ ℝ}
    (hf : Continuous f) (hh : Continuous h) (hg : Continuous g) :
    Continuous fun a => Canonical.transpFollowOne (f a) (h a) (g a) := by
  have ha : Continuous fun a => Canonical.amat (f a) (g a) :=
    (hg.matrix_mul hf.matrix_transpose).sub (hf.matrix_mul hg.matrix_transpose)
  have hl : Continuous fun a => Canonical.lhs (f a) (g a) :=
    continuous_pi fun i => continuous_pi fun j => (continuous_const.mul (c_at ha i j)).add continuous_const
  have hi : Continuous fun a => (Canonical.lhs (f a) (g a))⁻¹ := by
    rw [← continuousOn_univ]
    exact c_inv hl.continuousOn fun a _ => (C24_system_nonsingular (f a) (g a)).ne_zero
  exact hi.matrix_mul (hh.add ((ha.matrix_mul hh).const_smul (1 / 2 : ℝ)))

theorem c_exp' {κ : Type} [Fintype κ] [DecidableEq κ] :
    Continuous (NormedSpace.exp : Matrix κ κ ℝ → Matrix κ κ ℝ) := by
  let : NormedRing (Matrix κ κ ℝ) := Matrix.linftyOpNormedRing
  let : NormedAlgebra ℝ (Matrix κ κ ℝ) := Matrix.linftyOpNormedAlgebra
  let : NormedAlgebra ℚ (Matrix κ κ ℝ) := .restrictScalars ℚ ℝ _
  exact NormedSpace.exp_continuous

/-- **C129.** Stiefel matrices, canonical metric: everything is continuous everywhere (the linear system is never
singular). -/
theorem C129_stiefel_canonical :
    (Continuous fun p : RMat n m × RMat n m × RMat n m => Canonical.inner p.1 p.2.1 p.2.2) ∧
    (Continuous fun p : RMat n m × RMat n m => Canonical.proju p.1 p.2) ∧
    (Continuous fun p : RMat n m × RMat n m => Canonical.retr p.1 p.2) ∧
    (Continuous fun p : RMat n m × RMat n m × RMat n m =>
      Canonical.transpFollowRetr p.1 p.2.1 p.2.2) ∧
    (Continuous fun p : RMat n m × RMat n m × RMat n m => Canonical.retrTransp p.1 p.2.1 p.2.2) := by
  have g1 : Continuous fun p : RMat n m × RMat n m × RMat n m => p.1 := continuous_fst
  have g2 : Continuous fun p : RMat n m × RMat n m × RMat n m => p.2.1 :=
    continuous_fst.comp continuous_snd
  have g3 : Continuous fun p : RMat n m × RMat n m × RMat n m => p.2.2 :=
    continuous_snd.comp continuous_snd
  have f1 : Continuous fun p : RMat n m × RMat n m => p.1 := continuous_fst
  have f2 : Continuous fun p : RMat n m × RMat n m => p.2 := continuous_snd
  refine ⟨?_, ?_, ?_, ?_, ?_⟩
  · unfold Canonical.inner
    exact (c_frob g2 g3).sub (continuous_const.mul
      (c_frob (g1.matrix_transpose.matrix_mul g3) (g1.matrix_transpose.matrix_mul g2)))
  · exact f2.sub ((f1.matrix_mul f2.matrix_transpose).matrix_mul f1)
  · exact c_follow f1 f1 f2
  · exact c_follow g1 g3 g2
  · have h : Continuous fun p : RMat n m × RMat n m × RMat n m => fromCols p.1 p.2.2 :=
      continuous_pi fun i => continuous_pi fun j => by
        rcases j with j | j
        · exact c_at g1 i j
        · exact c_at g3 i j
    have h2 := c_follow g1 h g2
    refine Continuous.prodMk ?_ ?_
    · exact continuous_pi fun i => continuous_pi fun j =>
        (continuous_apply (Sum.inl j)).comp ((continuous_apply i).comp h2)
    · exact continuous_pi fun i => continuous_pi fun j =>
        (continuous_apply (Sum.inr j)).comp ((continuous_apply i).comp h2)

/-- **C129.** Stiefel matrices, Euclidean metric: inner products, projections and transports of tangent vectors and
the exponential map are continuous everywhere, and the retraction, whatever QR factorisations `torch` returns, is continuous
at all `x + u` of full rank, in particular at all tangent vectors `u`. -/
theorem C129_stiefel_euclidean (qr : RMat n m → RMat n m × Mat m)
    (hqr : ∀ a, IsQR a (qr a).1 (qr a).2) :
    (Continuous fun p : RMat n m × RMat n m × RMat n m => Euclidean.inner p.1 p.2.1 p.2.2) ∧
    (Continuous fun p : RMat n m × RMat n m => Euclidean.proju p.1 p.2) ∧
    (Continuous fun p : RMat n m × RMat n m × RMat n m => Euclidean.transp p.1 p.2.1 p.2.2) ∧
    (Continuous fun p : RMat n m × RMat n m => Euclidean.expmap p.1 p.2) ∧
    (∀ p : RMat n m × RMat n m, FullRank (p.1 + p.2) → ContinuousAt (fun p : RMat n m × RMat n m =>
      Euclidean.retr (qr (p.1 + p.2)).1 (qr (p.1 + p.2)).2) p) ∧
    (∀ x u : RMat n m, OnStiefel x → Stiefel.Tangent x u → FullRank (x + u)) := by
  have g2 : Continuous fun p : RMat n m × RMat n m × RMat n m => p.2.1 :=
    continuous_fst.comp continuous_snd
  have g3 : Continuous fun p : RMat n m × RMat n m × RMat n m => p.2.2 :=
    continuous_snd.comp continuous_snd
  have f1 : Continuous fun p : RMat n m × RMat n m => p.1 := continuous_fst
  have f2 : Continuous fun p : RMat n m × RMat n m => p.2 := continuous_snd
  have hp : ∀ {X : Type} [TopologicalSpace X] {f g : X → RMat n m}, Continuous f → Continuous g →
      Continuous fun a => Euclidean.proju (f a) (g a) := by
    intro X _ f g hf hg
    have hs : Continuous fun x : Mat m => sym x := by
      rw [← continuousOn_univ]; exact c_sym continuousOn_id
    exact hg.sub (hf.matrix_mul (hs.comp (hf.matrix_transpose.matrix_mul hg)))
  refine ⟨c_frob g2 g3, hp f1 f2, hp g2 g3, ?_, fun p hx => ?_, fun x u hx hu => tangent_fullRank hx hu⟩
  · unfold Euclidean.expmap
    dsimp only
    have h1 := f1.matrix_transpose.matrix_mul f2
    have h2 := f2.matrix_transpose.matrix_mul f2
    have hb := h1.matrix_fromBlocks h2.neg
      (continuous_const (y := (Matrix.of fun i j => 0 + if i = j then 1 else 0 : Mat m))) h1
    have hw : Continuous fun p : RMat n m × RMat n m => NormedSpace.exp (fromBlocks (p.1ᵀ * p.2)
        (-(p.2ᵀ * p.2)) (Matrix.of fun i j => 0 + if i = j then 1 else 0 : Mat m) (p.1ᵀ * p.2)) :=
      c_exp'.comp hb
    have hz : Continuous fun p : RMat n m × RMat n m =>
        fromRows (NormedSpace.exp (-(p.1ᵀ * p.2))) (0 : Mat m) := by
      have he : Continuous fun p : RMat n m × RMat n m => NormedSpace.exp (-(p.1ᵀ * p.2)) :=
        c_exp.comp h1.neg
      refine continuous_pi fun i => continuous_pi fun j => ?_
      rcases i with i | i
      · exact (continuous_apply j).comp ((continuous_apply i).comp he)
      · exact continuous_const
    have hc : Continuous fun p : RMat n m × RMat n m => fromCols p.1 p.2 :=
      continuous_pi fun i => continuous_pi fun j => by
        rcases j with j | j
        · exact c_at f1 i j
        · exact c_at f2 i j
    exact (hc.matrix_mul hw).matrix_mul hz
  · have h := c_unique qr_closed (f := fun a => Euclidean.retr (qr a).1 (qr a).2)
      (fun x => qr_mem (hqr x)) (fun x => (qr_mem (hqr x)).1)
      fun y hy => qr_unique hx hy (qr_mem (hqr (p.1 + p.2)))
    exact ContinuousAt.comp (g := fun a => Euclidean.retr (qr a).1 (qr a).2)
      (f := fun p : RMat n m × RMat n m => p.1 + p.2) h (f1.add f2).continuousAt

/-- **C129.** The projection to the Stiefel manifold, whatever singular vectors `torch` returns, is continuous at all matrices
of full rank, in particular at all points of the manifold. -/
theorem C129_stiefel_projx (svd : RMat n m → RMat n m × (Fin m → ℝ) × Mat m)
    (hsvd : ∀ a, IsSVD a (svd a).1 (svd a).2.1 (svd a).2.2) :
    (∀ x : RMat n m, FullRank x → ContinuousAt (fun x => Stiefel.projx (svd x).1 (svd x).2.2) x) ∧
    (∀ x : RMat n m, OnStiefel x → FullRank x) := by
  refine ⟨fun x hx => c_unique polar_closed (fun x => svd_mem (hsvd x)) (fun x => (svd_mem (hsvd x)).1)
    fun y hy => polar_unique hx hy (svd_mem (hsvd x)), fun x hx => ?_⟩
  have := tangent_fullRank hx (u := 0) (by unfold Stiefel.Tangent; simp)
  rwa [add_zero] at this

/-- There are factorisations as in the hypotheses, here for `1 × 1` matrices, and non-trivial matrices of full rank. -/
example : (∀ a : RMat 1 1, IsQR a (1 : RMat 1 1) (a : Mat 1)) ∧
    (∀ a : RMat 1 1, IsSVD a (Matrix.of fun _ _ => usign (a 0 0) : RMat 1 1) (fun _ => |a 0 0|) (1 : Mat 1)) ∧
    FullRank (!![1, 2; 0, 3; 0, 0] : RMat 3 2) := by
  refine ⟨fun a => ⟨by simp, by simp, fun i j h => ?_⟩, fun a => ⟨?_, ?_, by simp, fun i => abs_nonneg _⟩, ?_⟩
  · have : i = j := Subsingleton.elim _ _
    exact absurd h (by rw [this]; exact lt_irrefl _)
  · ext i j
    fin_cases i; fin_cases j
    have h1 := mul_usign (a 0 0)
    have h2 := abs_usign (a 0 0)
    have h3 : usign (a 0 0) * usign (a 0 0) = 1 := by rw [← abs_mul_abs_self, h2]; norm_num
    simp only [Matrix.mul_one, Matrix.mul_diagonal, Fin.zero_eta, Matrix.of_apply]
    rw [← h1]; linear_combination (-(a 0 0)) * h3
  · ext i j
    fin_cases i; fin_cases j
    have h2 := abs_usign (a 0 0)
    have h3 : usign (a 0 0) * usign (a 0 0) = 1 := by rw [← abs_mul_abs_self, h2]; norm_num
    simp [Matrix.mul_apply, h3]
  · intro c hc
    have h0 := congrFun hc 0
    have h1 := congrFun hc 1
    simp [Matrix.mulVec, dotProduct, Fin.sum_univ_two] at h0 h1
    ext i
    fin_cases i
    · simpa [h1] using h0
    · simpa using h1

end stiefel

end Geoopt.C129
