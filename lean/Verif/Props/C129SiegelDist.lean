import Verif.Props.C129Siegel
import Verif.Props.C82

/-!
# C129 for the distances of the Siegel spaces

Sorted eigenvalues of symmetric matrices are continuous; the distances are continuous functions of them.
-/

namespace Geoopt.C129
open Matrix Geoopt.Linalg Geoopt.SPD Geoopt.Siegel Topology

variable {n : ℕ}

theorem sum_cont (E : EigvalsL n) {f : ℝ → ℝ} (hf : Continuous f) :
    ContinuousOn (fun x : Mat n => ∑ i, f (E.e x i)) {x | xᵀ = x} := by
  have ht : Continuous fun a : Mat n => a.trace := continuous_id.matrix_trace
  refine (ht.comp_continuousOn (C129_funcm (someEigh n) hf)).congr fun x hx => ?_
  obtain ⟨v, hv⟩ := eigvalsL_dec E hx
  show _ = (symFuncm (someEigh n) f x).trace
  rw [symFuncm_eq _ _ hv hx, fn_trace hv.orth]

/-- If all sums of a continuous function over a sorted list are continuous, then so are the entries. -/
theorem sorted_cont {X : Type} [TopologicalSpace X] {e : X → Fin n → ℝ} {S : Set X}
    (hm : ∀ x, Monotone (e x))
    (hs : ∀ f : ℝ → ℝ, Continuous f → ContinuousOn (fun x => ∑ i, f (e x i)) S) (k : Fin n) :
    ContinuousOn (fun x => e x k) S := by
  intro x0 hx0
  refine tendsto_order.2 ⟨fun a ha => ?_, fun b hb => ?_⟩
  · change a < e x0 k at ha
    have hp : 0 < e x0 k - a := by linarith
    have hf : Continuous fun t : ℝ => max 0 (min 1 ((t - a) / (e x0 k - a))) := by fun_prop
    have hlt : ∑ i, (if k < i then (1 : ℝ) else 0) <
        ∑ i, max 0 (min 1 ((e x0 i - a) / (e x0 k - a))) := by
      refine Finset.sum_lt_sum (fun i _ => ?_) ⟨k, Finset.mem_univ k, ?_⟩
      · split_ifs with h
        · have h1 := hm x0 h.le
          have : 1 ≤ (e x0 i - a) / (e x0 k - a) := by rw [le_div_iff₀ hp]; linarith
          rw [min_eq_left this]; exact le_max_right _ _
        · exact le_max_left _ _
      · rw [if_neg (lt_irrefl k), div_self hp.ne']; simp
    filter_upwards [(tendsto_order.1 (hs _ hf x0 hx0)).1 _ hlt] with x hx
    by_contra hc
    rw [not_lt] at hc
    refine absurd hx (not_lt.2 (Finset.sum_le_sum fun i _ => ?_))
    split_ifs with h
    · exact max_le zero_le_one (min_le_left _ _)
    · have h1 := hm x (not_lt.1 h)
      have : (e x i - a) / (e x0 k - a) ≤ 0 := div_nonpos_of_nonpos_of_nonneg (by linarith) hp.le
      exact max_le le_rfl ((min_le_right _ _).trans this)
  · change e x0 k < b at hb
    have hp : 0 < b - e x0 k := by linarith
    have hf : Continuous fun t : ℝ => max 0 (min 1 ((b - t) / (b - e x0 k))) := by fun_prop
    have hlt : ∑ i, (if i < k then (1 : ℝ) else 0) <
        ∑ i, max 0 (min 1 ((b - e x0 i) / (b - e x0 k))) := by
      refine Finset.sum_lt_sum (fun i _ => ?_) ⟨k, Finset.mem_univ k, ?_⟩
      · split_ifs with h
        · have h1 := hm x0 h.le
          have : 1 ≤ (b - e x0 i) / (b - e x0 k) := by rw [le_div_iff₀ hp]; linarith
          rw [min_eq_left this]; exact le_max_right _ _
        · exact le_max_left _ _
      · rw [if_neg (lt_irrefl k), div_self hp.ne']; simp
    filter_upwards [(tendsto_order.1 (hs _ hf x0 hx0)).1 _ hlt] with x hx
    by_contra hc
    rw [not_lt] at hc
    refine absurd hx (not_lt.2 (Finset.sum_le_sum fun i _ => ?_))
    split_ifs with h
    · exact max_le zero_le_one (min_le_left _ _)
    · have h1 := hm x (not_lt.1 h)
      have : (b - e x i) / (b - e x0 k) ≤ 0 := div_nonpos_of_nonpos_of_nonneg (by linarith) hp.le
      exact max_le le_rfl ((min_le_right _ _).trans this)

/-- **C129** (eigenvalues): the eigenvalues that any implementation of `eigvalsh` returns are continuous on
symmetric matrices, also where they coincide. -/
theorem C129_eigenvalues (E : EigvalsL n) (k : Fin n) :
    ContinuousOn (fun x : Mat n => E.e x k) {x | xᵀ = x} :=
  sorted_cont E.mono (fun _ hf => sum_cont E hf) k

/-- **C129** (`takagi_eigvals`): singular values of symmetric complex matrices are continuous. -/
theorem C129_takagi (E : EigvalsL (n + n)) :
    ContinuousOn (takagiEigvals E) {z : CMat n | CSymm z} := by
  refine continuousOn_pi.2 fun k => ?_
  have hb : Continuous fun z : CMat n => toCompoundSymmetric z := by
    have e : (fun z : CMat n => toCompoundSymmetric z) = fun z =>
        (fromBlocks (reM z) (imM z) (imM z) (-(reM z))).submatrix
          finSumFinEquiv.symm finSumFinEquiv.symm := by
      funext z; rw [compound_eq, blockMatrix_eq]
    rw [e]
    exact (s_re.matrix_fromBlocks s_im s_im s_re.neg).matrix_submatrix _ _
  exact (C129_eigenvalues E (Fin.natAdd n k)).comp hb.continuousOn fun z hz => compound_symm hz

/-- What the code computes before the singular values. -/
noncomputable def normalised (Eu : Eigh n) (p : CMat n × CMat n) : CMat n :=
  asComplex (symInvSqrtm1 Eu (imM p.1)) * ((p.2 - p.1) * (p.2 - conjM p.1)⁻¹) *
    (asComplex (symInvSqrtm1 Eu (imM p.1)))⁻¹

theorem normalised_spec (Eu : Eigh n) {z1 z2 : CMat n} (h1 : OnUpperHalf z1) (h2 : OnUpperHalf z2) :
    Normalised Eu z1 z2 (normalised Eu (z1, z2)) := by
  obtain ⟨w, hw⟩ := normalise Eu h1 h2
  have : w = normalised Eu (z1, z2) := hw.eq
  exact this ▸ hw

theorem normalised_cont (Eu : Eigh n) :
    ContinuousOn (normalised Eu) {p | OnUpperHalf p.1 ∧ OnUpperHalf p.2} := by
  have f1 : Continuous fun p : CMat n × CMat n => p.1 := continuous_fst
  have f2 : Continuous fun p : CMat n × CMat n => p.2 := continuous_snd
  have hS : ContinuousOn (fun p : CMat n × CMat n => asComplex (symInvSqrtm1 Eu (imM p.1)))
      {p | OnUpperHalf p.1 ∧ OnUpperHalf p.2} := by
    have h := (c_root Eu).1.comp (s_im.comp f1).continuousOn
      (s := {p : CMat n × CMat n | OnUpperHalf p.1 ∧ OnUpperHalf p.2})
      fun p hp => (imM_onSPD hp.1.1).1 hp.1
    refine s_as.comp_continuousOn (h.congr fun p hp => ?_)
    exact symInvSqrtm1_eq ((imM_onSPD hp.1.1).1 hp.1)
  have h3 : Continuous fun p : CMat n × CMat n => p.2 - p.1 := f2.sub f1
  have h4 : Continuous fun p : CMat n × CMat n => p.2 - conjM p.1 := f2.sub (s_conj.comp f1)
  exact s_mul (s_mul hS (s_mul h3.continuousOn (s_inv h4.continuousOn fun p hp =>
    (normalised_spec Eu hp.1 hp.2).unitE))) (s_inv hS fun p hp => (normalised_spec Eu hp.1 hp.2).unitS)

theorem row_cont (μ : Siegel.Metric) : ∃ h : (Fin n → ℝ) → ℝ, Continuous h ∧
    ∀ v r, μ.row v = .ok r → r = h v := by
  have key : ∀ {rank : ℕ} (w : Fin rank → ℝ), ∃ h : (Fin n → ℝ) → ℝ, Continuous h ∧
      ∀ v r, weightedRow w v = .ok r → r = h v := by
    intro rank w
    unfold weightedRow
    split_ifs with h1 h2 h3
    · exact ⟨fun v => ∑ i, w i * v (Fin.cast h1 i), by fun_prop, fun v r h => by cases h; rfl⟩
    · exact ⟨fun v => ∑ i, w i * v ⟨0, by omega⟩, by fun_prop, fun v r h => by cases h; rfl⟩
    · exact ⟨fun v => ∑ i, w ⟨0, by omega⟩ * v i, by fun_prop, fun v r h => by cases h; rfl⟩
    · exact ⟨fun _ => 0, continuous_const, fun v r h => by cases h⟩
  cases μ with
  | riemannian =>
    refine ⟨fun v => Real.sqrt (∑ i, v i ^ 2), by fun_prop, fun v r h => ?_⟩
    have h : Except.ok (Real.sqrt (∑ i, v i ^ 2)) = (Except.ok r : Except PyErr ℝ) := h
    cases h; rfl
  | finslerOne =>
    refine ⟨fun v => ∑ i, v i, by fun_prop, fun v r h => ?_⟩
    have h : Except.ok (∑ i, v i) = (Except.ok r : Except PyErr ℝ) := h
    cases h; rfl
  | finslerInfinity =>
    by_cases hn : 0 < n
    · refine ⟨fun v => v ⟨n - 1, by omega⟩, by fun_prop, fun v r h => ?_⟩
      unfold Siegel.Metric.row at h
      simp only [dif_pos hn] at h
      cases h; rfl
    · refine ⟨fun _ => 0, continuous_const, fun v r h => ?_⟩
      unfold Siegel.Metric.row at h
      simp only [dif_neg hn] at h
      cases h
  | finslerMinimum rank => exact key _
  | weightedSum rank w => exact key _

/-- **C129** (distances of the Siegel spaces): the vector-valued distance of the upper half space is always
returned and continuous; with every metric the distances of the upper half space and of the bounded domain are
continuous, for all implementations of the two eigenvalue routines. -/
theorem C129_siegel_dist (Eu : Eigh n) (Ev : EigvalsL (n + n)) (d : RealDtype) (μ : Siegel.Metric) :
    (∃ g : CMat n × CMat n → Fin n → ℝ, ContinuousOn g {p | OnUpperHalf p.1 ∧ OnUpperHalf p.2} ∧
      ∀ z1 z2, OnUpperHalf z1 → OnUpperHalf z2 → upperVvd Eu Ev d z1 z2 = .ok (g (z1, z2))) ∧
    (∃ g : CMat n × CMat n → ℝ, ContinuousOn g {p | OnUpperHalf p.1 ∧ OnUpperHalf p.2} ∧
      ∀ z1 z2 r, OnUpperHalf z1 → OnUpperHalf z2 → upperDist Eu Ev d μ z1 z2 = .ok r →
        r = g (z1, z2)) ∧
    (∃ g : CMat n × CMat n → ℝ, ContinuousOn g {p | OnBounded p.1 ∧ OnBounded p.2} ∧
      ∀ z1 z2 r, OnBounded z1 → OnBounded z2 → boundedDist Eu Ev d μ z1 z2 = .ok r →
        r = g (z1, z2)) := by
  obtain ⟨g, hg, hv⟩ : ∃ g : CMat n × CMat n → Fin n → ℝ,
      ContinuousOn g {p | OnUpperHalf p.1 ∧ OnUpperHalf p.2} ∧
      ∀ z1 z2, OnUpperHalf z1 → OnUpperHalf z2 → upperVvd Eu Ev d z1 z2 = .ok (g (z1, z2)) := by
    refine ⟨fun p i => Real.log ((1 + takagiEigvals Ev (normalised Eu p) i) /
      max (1 - takagiEigvals Ev (normalised Eu p) i) (EPS d)), ?_, fun z1 z2 h1 h2 => ?_⟩
    · have ht := (C129_takagi Ev).comp (normalised_cont Eu) fun p hp =>
        (normalised_spec Eu hp.1 hp.2).bounded.1
      refine continuousOn_pi.2 fun i => ?_
      have hi : ContinuousOn (fun p => takagiEigvals Ev (normalised Eu p) i)
          {p | OnUpperHalf p.1 ∧ OnUpperHalf p.2} := continuousOn_pi.1 ht i
      have hmp : ∀ t : ℝ, 0 < max (1 - t) (EPS d) := fun t => lt_max_of_lt_right (EPS_pos d)
      have hmax : ContinuousOn (fun p => max (1 - takagiEigvals Ev (normalised Eu p) i) (EPS d))
          {p | OnUpperHalf p.1 ∧ OnUpperHalf p.2} :=
        (show Continuous fun t : ℝ => max (1 - t) (EPS d) by fun_prop).comp_continuousOn hi
      have hadd : ContinuousOn (fun p => 1 + takagiEigvals Ev (normalised Eu p) i)
          {p | OnUpperHalf p.1 ∧ OnUpperHalf p.2} := continuousOn_const.add hi
      refine ContinuousOn.log (hadd.div hmax fun p _ => (hmp _).ne') fun p hp => ?_
      have h0 := (takagi_range Ev (normalised_spec Eu hp.1 hp.2).bounded i).1
      exact (div_pos (by linarith) (hmp _)).ne'
    · have hw := normalised_spec Eu h1 h2
      exact (vvd_normalised Ev d hw).trans (vvdOf_ok d (takagi_range Ev hw.bounded))
  obtain ⟨h, hh, hr⟩ := row_cont (n := n) μ
  have hu : ContinuousOn (fun p => h (g p)) {p | OnUpperHalf p.1 ∧ OnUpperHalf p.2} :=
    hh.comp_continuousOn hg
  have hd : ∀ z1 z2 r, OnUpperHalf z1 → OnUpperHalf z2 → upperDist Eu Ev d μ z1 z2 = .ok r →
      r = h (g (z1, z2)) := by
    intro z1 z2 r h1 h2 e
    unfold upperDist at e
    simp only [hv z1 z2 h1 h2] at e
    exact hr _ _ e
  refine ⟨⟨g, hg, hv⟩, ⟨_, hu, hd⟩, ?_⟩
  obtain ⟨⟨c, hc, hce⟩, -⟩ := C129_cayley (n := n)
  have hmap : ∀ z, OnBounded z → cayleyTransform z = .ok (c z) ∧ OnUpperHalf (c z) := by
    intro z hz
    obtain ⟨w, e, hw⟩ := C69_bounded_to_upper hz
    have := hce z w e
    exact this ▸ ⟨e, hw⟩
  refine ⟨fun p => h (g (c p.1, c p.2)), ?_, fun z1 z2 r h1 h2 e => ?_⟩
  · have c1 : ContinuousOn (fun p : CMat n × CMat n => c p.1) {p | OnBounded p.1 ∧ OnBounded p.2} :=
      hc.comp continuous_fst.continuousOn fun p hp => ⟨_, (hmap _ hp.1).1⟩
    have c2 : ContinuousOn (fun p : CMat n × CMat n => c p.2) {p | OnBounded p.1 ∧ OnBounded p.2} :=
      hc.comp continuous_snd.continuousOn fun p hp => ⟨_, (hmap _ hp.2).1⟩
    exact hu.comp (c1.prodMk c2) fun p hp => ⟨(hmap _ hp.1).2, (hmap _ hp.2).2⟩
  · unfold boundedDist at e
    simp only [(hmap z1 h1).1, (hmap z2 h2).1] at e
    exact hd _ _ _ (hmap z1 h1).2 (hmap z2 h2).2 e

/-- With every metric whose rank fits, the distance is returned: the statements above are not about
nothing. -/
example (Eu : Eigh n) (Ev : EigvalsL (n + n)) (d : RealDtype) {z1 z2 : CMat n} (h1 : OnUpperHalf z1)
    (h2 : OnUpperHalf z2) : ∃ r, upperDist Eu Ev d .riemannian z1 z2 = .ok r := by
  obtain ⟨v, hv, -⟩ := C82_defined Eu Ev d h1 h2
  unfold upperDist
  simp only [hv]
  exact ⟨_, rfl⟩

end Geoopt.C129
