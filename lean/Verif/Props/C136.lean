import Verif.Lemmas.Extension
import Verif.Lemmas.OptimSim
import Verif.Props.C55Manifolds
import Verif.Props.C80
import Verif.Props.C117

/-!
C136: only the values of the loss on the manifold matter.
-/

namespace Geoopt.C136
open Geoopt.Optim Geoopt.Extension Matrix

set_option linter.unusedDecidableInType false

/-! ### `egrad2rgrad` -/

/-- Where the points fill the space (`Euclidean`, `Stereographic` with curvature not negative): the Euclidean
gradients are the same. -/
theorem C136_everywhere {ι : Type} [Fintype ι] (M : Manifold ι) : SeesOnly M fun _ => True := by
  intro F F' x g g' _ hF hg hg'
  have e : g - g' = 0 := zero_of_convex (On := fun _ => True) (x := x) (c := 1) (fun _ _ _ _ _ => trivial) trivial
    one_pos trivial fun u hu => grad_along hF hg hg' hu
  rw [sub_eq_zero.1 e]

/-- `Sphere`, with or without a subspace. -/
theorem C136_sphere {n : ℕ} {S : Set (Vec n)} {Pr : Option (Matrix (Fin n) (Fin n) ℝ)} (hP : Sphere.Projects S Pr) :
    SeesOnly (sphere Pr) (Sphere.OnSphere S) := by
  refine seesOnly_of (fun x g g' => ?_) fun x g hx h => ?_
  · have := Sphere.C21_proju_linear (P := Pr) 1 (-1) x g g'
    change Sphere.proju Pr x (g - g') = _ - _
    rw [one_smul, one_smul, neg_one_smul, neg_one_smul, ← sub_eq_add_neg, ← sub_eq_add_neg] at this
    exact this
  · change Sphere.proju Pr x g = 0
    have ht := Sphere.C21_proju_tangent hP hx g
    have h1 : g ⬝ᵥ Sphere.proju Pr x g = 0 := h _ (by
      obtain ⟨h0, hv⟩ := C80.C80_sphere .f64 hP hx ht
      exact leaves_of _ (by rw [zero_smul]; exact h0) hv fun s => Sphere.C20_retr_on_sphere hP hx
        ⟨by rw [dotProduct_smul, ht.1, smul_zero], Sphere.smul_mem hP ht.2 s⟩)
    have h2 := Sphere.C21_proju_normal hP (u := g) ht
    rw [sub_dotProduct, h1, zero_sub, neg_eq_zero] at h2
    exact dotProduct_self_eq_zero.1 h2

/-- `SphereExact`. -/
theorem C136_sphere_exact {n : ℕ} {S : Set (Vec n)} {Pr : Option (Matrix (Fin n) (Fin n) ℝ)} (dt : DType)
    (hP : Sphere.Projects S Pr) : SeesOnly (sphereExact Pr dt) (Sphere.OnSphere S) := C136_sphere hP

/-- `PoincareBall` (any negative curvature), at all points that `projx` leaves alone. -/
theorem C136_ball {n : ℕ} {η k : ℝ} (hη : 0 ≤ η) (hk : k < 0) (dt : DType) :
    SeesOnly (stereographic (n := n) η dt k) (Stereo.Valid η dt k) := by
  refine seesOnly_of (fun x g g' => smul_sub _ _ _) fun x g hx h => ?_
  obtain ⟨B, hB⟩ : ∃ B, B = (1 - (match dt with | .f32 => 4e-3 | .f64 => 1e-5) : ℝ) / Real.sqrt (|k| + η) := ⟨_, rfl⟩
  have hv : ∀ y : Vec n, Stereo.Valid η dt k y ↔ nrm y ≤ B := fun y => by rw [hB]; rfl
  have hb : 0 < B := by
    have h1 : 0 < |k| := abs_pos.2 hk.ne
    have : 0 < Real.sqrt (|k| + η) := Real.sqrt_pos.2 (by positivity)
    rw [hB]
    refine div_pos ?_ this
    clear * -
    cases dt <;> norm_num
  have e : g = 0 := zero_of_convex (x := x) (c := B / (nrm g + 1)) (fun y s hy h0 h1 => ?_) ?_
    (div_pos hb (by have := nrm_nonneg g; positivity)) ?_ h
  · rw [e]; exact smul_zero _
  · rw [hv] at hx hy ⊢
    have e : x + s • (y - x) = (1 - s) • x + s • y := by module
    rw [e]
    refine (nrm_add_le _ _).trans ?_
    rw [nrm_smul, nrm_smul, abs_of_nonneg h0, abs_of_nonneg (by linarith)]
    nlinarith
  · rw [hv, nrm_eq_zero.2 rfl]; exact hb.le
  · have := nrm_nonneg g
    rw [hv, nrm_smul, abs_of_pos (div_pos hb (by positivity)), div_mul_eq_mul_div, div_le_iff₀ (by positivity)]
    nlinarith

/-- `PoincareBallExact`. -/
theorem C136_ball_exact {n : ℕ} {η k : ℝ} (hη : 0 ≤ η) (hk : k < 0) (dt : DType) :
    SeesOnly (stereographicExact (n := n) η dt k) (Stereo.Valid η dt k) := C136_ball hη hk dt

theorem pairing {n m : ℕ} (g u : Fin n × Fin m → ℝ) : ∑ i, g i * u i = ((toMat g)ᵀ * toMat u).trace := by
  rw [Fintype.sum_prod_type, Finset.sum_comm]
  rfl

theorem stiefel_zero {n m : ℕ} {x g : Fin n × Fin m → ℝ} (hx : Stiefel.OnStiefel (toMat x))
    (h : ∀ u, Leaves (fun y => Stiefel.OnStiefel (toMat y)) x u → ∑ i, g i * u i = 0) :
    Stiefel.Canonical.proju (toMat x) (toMat g) = 0 := by
  have ht := Stiefel.C27_canonical_stiefel_tangent_partial hx (toMat g)
  obtain ⟨X, hX⟩ : ∃ X, X = toMat x := ⟨_, rfl⟩
  obtain ⟨G, hG⟩ : ∃ G, G = toMat g := ⟨_, rfl⟩
  obtain ⟨U, hU⟩ : ∃ U, U = Stiefel.Canonical.proju (toMat x) (toMat g) := ⟨_, rfl⟩
  rw [← hU] at ht ⊢
  rw [← hX] at ht hx
  have h1 := h (ofMat (U + X * (Xᵀ * U))) (leaves_of (fun s => ofMat (Stiefel.Canonical.retr X (s • U)))
    (by rw [zero_smul, Stiefel.C24_retr_zero, hX]; rfl) (fun p => C80.C80_canonical_stiefel_velocity hx ht p.1 p.2)
    fun s => Stiefel.C24_retr_on_stiefel hx _)
  rw [pairing, ← hG] at h1
  have hs : Uᵀ * X = -(Xᵀ * U) := by
    rw [← (show (Xᵀ * U)ᵀ = -(Xᵀ * U) from ht), Matrix.transpose_mul, Matrix.transpose_transpose]
  have e1 : (Gᵀ * (X * (Xᵀ * U))).trace = -(Xᵀ * G * (Xᵀ * U)).trace := by
    rw [← Matrix.trace_transpose, Matrix.transpose_mul, Matrix.transpose_mul, Matrix.transpose_mul,
      Matrix.transpose_transpose, Matrix.transpose_transpose, hs, Matrix.neg_mul, Matrix.neg_mul, Matrix.trace_neg,
      Matrix.mul_assoc, Matrix.trace_mul_comm]
  have e2 : (Uᵀ * U).trace = 0 := by
    have : Uᵀ = Gᵀ - Xᵀ * G * Xᵀ := by
      rw [hU, Stiefel.Canonical.proju, ← hX, ← hG]
      simp only [Matrix.transpose_sub, Matrix.transpose_mul, Matrix.transpose_transpose, Matrix.mul_assoc]
    conv_lhs => rw [this]
    rw [Matrix.sub_mul, Matrix.trace_sub, Matrix.mul_assoc (Xᵀ * G)]
    have h2 : (Gᵀ * (U + X * (Xᵀ * U))).trace = 0 := h1
    rw [Matrix.mul_add, Matrix.trace_add, e1] at h2
    linarith
  have e3 : ∑ j, ∑ i, U i j * U i j = 0 := e2
  ext i j
  have := (Finset.sum_eq_zero_iff_of_nonneg fun j _ => Finset.sum_nonneg fun i _ => mul_self_nonneg (U i j)).1 e3 j
    (Finset.mem_univ j)
  exact mul_self_eq_zero.1 ((Finset.sum_eq_zero_iff_of_nonneg fun i _ => mul_self_nonneg (U i j)).1 this i
    (Finset.mem_univ i))

/-- `CanonicalStiefel`. -/
theorem C136_stiefel {n m : ℕ} (proj : Matrix (Fin n) (Fin m) ℝ → Matrix (Fin n) (Fin m) ℝ) :
    SeesOnly (canonicalStiefel proj) (fun x => Stiefel.OnStiefel (toMat x)) := by
  refine seesOnly_of (fun x g g' => ?_) fun x g hx h => ?_
  · change ofMat (Stiefel.Canonical.proju (toMat x) (toMat g - toMat g')) = ofMat (Stiefel.Canonical.proju (toMat x) (toMat g) -
      Stiefel.Canonical.proju (toMat x) (toMat g'))
    congr 1
    unfold Stiefel.Canonical.proju
    rw [Matrix.transpose_sub, Matrix.mul_sub, Matrix.sub_mul]
    abel
  · change ofMat (Stiefel.Canonical.proju (toMat x) (toMat g)) = 0
    rw [stiefel_zero hx h]; rfl

theorem euclideanStiefel_sees {n m : ℕ}
    {M : Manifold (Fin n × Fin m)}
    (hM : ∀ x g, (M.egrad2rgrad x g).value = ofMat (Stiefel.Euclidean.proju (toMat x) (toMat g))) :
    SeesOnly M (fun x => Stiefel.OnStiefel (toMat x)) := by
  refine seesOnly_of (fun x g g' => ?_) fun x g hx h => ?_
  · rw [hM, hM, hM]
    change ofMat (Stiefel.Euclidean.proju (toMat x) (toMat g - toMat g')) = ofMat (Stiefel.Euclidean.proju (toMat x) (toMat g) -
      Stiefel.Euclidean.proju (toMat x) (toMat g'))
    congr 1
    unfold Stiefel.Euclidean.proju Linalg.sym
    rw [Matrix.mul_sub, Matrix.transpose_sub]
    simp only [Matrix.mul_smul, Matrix.mul_add, Matrix.mul_sub, smul_sub, smul_add]
    abel
  · rw [hM]
    have h0 := stiefel_zero hx h
    obtain ⟨X, hX⟩ : ∃ X, X = toMat x := ⟨_, rfl⟩
    obtain ⟨G, hG⟩ : ∃ G, G = toMat g := ⟨_, rfl⟩
    rw [← hX, ← hG] at h0 ⊢
    rw [← hX] at hx
    have h1 : G = X * Gᵀ * X := sub_eq_zero.1 h0
    have h2 : Xᵀ * G = Gᵀ * X := by
      conv_lhs => rw [h1, Matrix.mul_assoc, ← Matrix.mul_assoc, show Xᵀ * X = 1 from hx, Matrix.one_mul]
    have h3 : Linalg.sym (Xᵀ * G) = Gᵀ * X := by
      unfold Linalg.sym
      rw [h2, Matrix.transpose_mul, Matrix.transpose_transpose, h2]
      module
    have : Stiefel.Euclidean.proju X G = 0 := by
      unfold Stiefel.Euclidean.proju
      rw [h3, ← Matrix.mul_assoc]; exact h0
    rw [this]; rfl

/-- `EuclideanStiefel`. -/
theorem C136_euclidean_stiefel {n m : ℕ}
    (qr : Matrix (Fin n) (Fin m) ℝ → Matrix (Fin n) (Fin m) ℝ × Matrix (Fin m) (Fin m) ℝ)
    (proj : Matrix (Fin n) (Fin m) ℝ → Matrix (Fin n) (Fin m) ℝ) :
    SeesOnly (euclideanStiefel qr proj) (fun x => Stiefel.OnStiefel (toMat x)) :=
  euclideanStiefel_sees fun _ _ => rfl

/-- `EuclideanStiefelExact`. -/
theorem C136_euclidean_stiefel_exact {n m : ℕ} (proj : Matrix (Fin n) (Fin m) ℝ → Matrix (Fin n) (Fin m) ℝ) :
    SeesOnly (euclideanStiefelExact proj) (fun x => Stiefel.OnStiefel (toMat x)) :=
  euclideanStiefel_sees fun _ _ => rfl

/-- `SymmetricPositiveDefinite`. -/
theorem C136_spd {n : ℕ} (E : Linalg.Eigh n) : SeesOnly (spd E) (fun x => SPD.OnSPD (toMat x)) := by
  refine seesOnly_of (fun x g g' => ?_) fun x g hx h => ?_
  · change ofMat (SPD.egrad2rgrad (toMat x) (toMat g - toMat g')) = ofMat (SPD.egrad2rgrad (toMat x) (toMat g) -
      SPD.egrad2rgrad (toMat x) (toMat g'))
    congr 1
    unfold SPD.egrad2rgrad SPD.proju Linalg.sym
    rw [← Matrix.sub_mul, ← Matrix.mul_sub, Matrix.transpose_sub]
    congr 2
    module
  · change ofMat (SPD.egrad2rgrad (toMat x) (toMat g)) = 0
    obtain ⟨G, hG⟩ : ∃ G, G = toMat g := ⟨_, rfl⟩
    have hs : (Linalg.sym G)ᵀ = Linalg.sym G := by
      unfold Linalg.sym
      rw [Matrix.transpose_smul, Matrix.transpose_add, Matrix.transpose_transpose, add_comm]
    have hx' := hx
    have hv := C80.C80_spd E (x := toMat x) (u := Linalg.sym G) (SPD.symm_iff.2 hx.tr) (SPD.symm_iff.2 hs)
    have h1 := h (ofMat (Linalg.sym G)) (leaves_of (fun s => ofMat (SPD.retr (toMat x) (s • Linalg.sym G)))
      (by rw [zero_smul, SPD.C28_retr_zero hx]; rfl) (fun p => hv.2 p.1 p.2)
      fun s => SPD.C28_retr_spd hx' (SPD.symm_iff.2 (by rw [Matrix.transpose_smul, hs])))
    rw [pairing, ← hG] at h1
    obtain ⟨U, hU⟩ : ∃ U, U = Linalg.sym G := ⟨_, rfl⟩
    have h2 : (Gᵀ * U).trace = 0 := by rw [hU]; exact h1
    have h3 : (G * U).trace = 0 := by
      rw [← Matrix.trace_transpose, Matrix.transpose_mul, hU, hs, Matrix.trace_mul_comm, ← hU]; exact h2
    have e2 : (Uᵀ * U).trace = 0 := by
      have e : Uᵀ = (0.5 : ℝ) • (Gᵀ + G) := by rw [hU, hs, Linalg.sym]
      rw [e, Matrix.smul_mul, Matrix.add_mul, Matrix.trace_smul, Matrix.trace_add, h2, h3]
      simp
    have e3 : ∑ j, ∑ i, U i j * U i j = 0 := e2
    have e4 : U = 0 := by
      ext i j
      have := (Finset.sum_eq_zero_iff_of_nonneg fun j _ => Finset.sum_nonneg fun i _ => mul_self_nonneg (U i j)).1 e3 j
        (Finset.mem_univ j)
      exact mul_self_eq_zero.1 ((Finset.sum_eq_zero_iff_of_nonneg fun i _ => mul_self_nonneg (U i j)).1 this i
        (Finset.mem_univ i))
    rw [← hG, SPD.egrad2rgrad, SPD.proju, ← hU, e4, Matrix.mul_zero, Matrix.zero_mul]
    rfl

/-- `Lorentz`. -/
theorem C136_lorentz {n : ℕ} {k : ℝ} (hk : 0 < k) : SeesOnly (lorentz (n := n) k) (Lorentz.OnHyperboloid k) := by
  have val : ∀ x g : Fin (n + 1) → ℝ, ((lorentz k).egrad2rgrad x g).value =
      fun i => (Fin.cons (-g 0) (Fin.tail g) : Fin (n + 1) → ℝ) i + (∑ j, x j * g j) * k⁻¹ * x i := by
    intro x g
    funext i
    change (Fin.cons (g 0 * -1) (Fin.tail g) : Fin (n + 1) → ℝ) i + Lorentz.inner x _ * (k⁻¹ * x i) = _
    rw [Lorentz.inner_eq, Lorentz.mink, Fin.sum_univ_succ]
    simp only [Fin.cons_zero, Fin.cons_succ, Fin.tail, mul_neg, mul_one, neg_neg]
    ring
  refine seesOnly_of (fun x g g' => ?_) fun x g hx h => ?_
  · rw [val, val, val]
    funext i
    have e : ∑ j, x j * (g - g') j = ∑ j, x j * g j - ∑ j, x j * g' j := by
      rw [← Finset.sum_sub_distrib]
      exact Finset.sum_congr rfl fun j _ => by rw [Pi.sub_apply]; ring
    rw [e]
    refine Fin.cases ?_ (fun j => ?_) i
    · simp only [Fin.cons_zero, Pi.sub_apply]; ring
    · simp only [Fin.cons_succ, Fin.tail, Pi.sub_apply]; ring
  · have hmk : -(x 0 * x 0) + ∑ i : Fin n, x i.succ * x i.succ = -k := hx.1
    -- every tangent vector leaves along the curve that keeps the space coordinates straight
    have curve : ∀ u : Fin (n + 1) → ℝ, -(x 0 * u 0) + ∑ i : Fin n, x i.succ * u i.succ = 0 →
        Leaves (Lorentz.OnHyperboloid k) x u := by
      intro u hu
      have hpos : ∀ s : ℝ, 0 < k + ∑ i : Fin n, (x i.succ + s * u i.succ) ^ 2 := fun s =>
        add_pos_of_pos_of_nonneg hk (Finset.sum_nonneg fun i _ => sq_nonneg _)
      have e0 : k + ∑ i : Fin n, (x i.succ + 0 * u i.succ) ^ 2 = x 0 ^ 2 := by
        have : ∑ i : Fin n, (x i.succ + 0 * u i.succ) ^ 2 = ∑ i : Fin n, x i.succ * x i.succ :=
          Finset.sum_congr rfl fun i _ => by ring
        rw [this]; linarith [sq (x 0)]
      have hd : ∀ i : Fin n, HasDerivAt (fun s : ℝ => x i.succ + s * u i.succ) (u i.succ) 0 := fun i => by
        simpa using ((hasDerivAt_id (0 : ℝ)).mul_const (u i.succ)).const_add (x i.succ)
      refine leaves_of (fun s => Fin.cons (Real.sqrt (k + ∑ i : Fin n, (x i.succ + s * u i.succ) ^ 2))
        fun i : Fin n => x i.succ + s * u i.succ) ?_ (fun i => ?_) fun s => ⟨?_, ?_⟩
      · funext i
        refine Fin.cases ?_ (fun j => ?_) i
        · simp only [Fin.cons_zero]
          rw [e0, Real.sqrt_sq hx.2.le]
        · simp
      · refine Fin.cases ?_ (fun j => ?_) i
        · simp only [Fin.cons_zero]
          have h1 := (HasDerivAt.fun_sum fun i (_ : i ∈ Finset.univ) => (hd i).fun_pow 2).const_add k
          have h2 := h1.sqrt (hpos 0).ne'
          refine h2.congr_deriv ?_
          rw [e0, Real.sqrt_sq hx.2.le, div_eq_iff (by have := hx.2; positivity)]
          have e : ∀ i : Fin n, (2 : ℕ) * (x i.succ + 0 * u i.succ) ^ (2 - 1) * u i.succ =
              2 * (x i.succ * u i.succ) := fun i => by push_cast; ring
          simp only [e]
          rw [← Finset.mul_sum]
          linarith
        · simpa only [Fin.cons_succ] using hd j
      · change -(_ * _) + _ = -k
        simp only [Fin.cons_zero, Fin.cons_succ]
        rw [Real.mul_self_sqrt (hpos s).le]
        have : ∑ i : Fin n, (x i.succ + s * u i.succ) * (x i.succ + s * u i.succ) =
          ∑ i : Fin n, (x i.succ + s * u i.succ) ^ 2 := Finset.sum_congr rfl fun i _ => by ring
        rw [this]; ring
      · simp only [Fin.cons_zero]; exact Real.sqrt_pos.2 (hpos s)
    -- the Riemannian gradient is tangent, and pairs with itself like the Euclidean one
    obtain ⟨w, hw⟩ : ∃ w, w = ((lorentz k).egrad2rgrad x g).value := ⟨_, rfl⟩
    rw [← hw]
    rw [val] at hw
    obtain ⟨d, hd⟩ : ∃ d, d = ∑ j, x j * g j := ⟨_, rfl⟩
    have hdt : d = x 0 * g 0 + ∑ i : Fin n, x i.succ * g i.succ := by rw [hd, Fin.sum_univ_succ]
    have hw0 : w 0 = -g 0 + d * k⁻¹ * x 0 := by rw [hw, ← hd]; rfl
    have hws : ∀ i : Fin n, w i.succ = g i.succ + d * k⁻¹ * x i.succ := fun i => by rw [hw, ← hd]; rfl
    -- pair with `v + ⟨x,v⟩/k x` for `v` the reflection of `w`
    obtain ⟨c, hc⟩ : ∃ c, c = x 0 * w 0 + ∑ i : Fin n, x i.succ * w i.succ := ⟨_, rfl⟩
    have h1 := h (Fin.cons (-w 0 + c * k⁻¹ * x 0) fun i : Fin n => w i.succ + c * k⁻¹ * x i.succ) (curve _ (by
      simp only [Fin.cons_zero, Fin.cons_succ, mul_add, Finset.sum_add_distrib]
      have : ∑ i : Fin n, x i.succ * (c * k⁻¹ * x i.succ) = c * k⁻¹ * ∑ i : Fin n, x i.succ * x i.succ := by
        rw [Finset.mul_sum]; exact Finset.sum_congr rfl fun i _ => by ring
      rw [this]
      have hkk : k⁻¹ * k = 1 := inv_mul_cancel₀ hk.ne'
      have e1 : ∑ i : Fin n, x i.succ * x i.succ = x 0 * x 0 - k := by linarith
      have e2 : ∑ i : Fin n, x i.succ * w i.succ = c - x 0 * w 0 := by linarith
      rw [e1, e2]
      linear_combination (-c) * hkk))
    rw [Fin.sum_univ_succ] at h1
    simp only [Fin.cons_zero, Fin.cons_succ, mul_add, Finset.sum_add_distrib] at h1
    have e3 : ∑ i : Fin n, g i.succ * (c * k⁻¹ * x i.succ) = c * k⁻¹ * ∑ i : Fin n, x i.succ * g i.succ := by
      rw [Finset.mul_sum]; exact Finset.sum_congr rfl fun i _ => by ring
    have e4 : ∑ i : Fin n, g i.succ * w i.succ = ∑ i : Fin n, w i.succ ^ 2 -
        d * k⁻¹ * ∑ i : Fin n, x i.succ * w i.succ := by
      rw [Finset.mul_sum, ← Finset.sum_sub_distrib]
      exact Finset.sum_congr rfl fun i _ => by rw [hws]; ring
    have e5 : w 0 ^ 2 + ∑ i : Fin n, w i.succ ^ 2 = 0 := by
      have q1 : ∑ i : Fin n, x i.succ * g i.succ = d - x 0 * g 0 := by linarith
      have q2 : ∑ i : Fin n, x i.succ * w i.succ = c - x 0 * w 0 := by linarith
      have q3 : g 0 = d * k⁻¹ * x 0 - w 0 := by linarith
      rw [e3, e4, q1, q2] at h1
      rw [q3] at h1
      linarith
    have e6 : ∑ i, w i ^ 2 = 0 := by rw [Fin.sum_univ_succ]; exact e5
    funext i
    exact pow_eq_zero_iff two_ne_zero |>.1 ((Finset.sum_eq_zero_iff_of_nonneg fun i _ => sq_nonneg (w i)).1 e6 i
      (Finset.mem_univ i))

/-- A batch. -/
theorem C136_batch {β ι : Type} [Fintype β] [Fintype ι] {M : Manifold ι} {On : (ι → ℝ) → Prop}
    (h : SeesOnly M On) : SeesOnly (batch β M) (fun x => ∀ b, On fun i => x (b, i)) := by
  classical
  intro F F' x g g' hx hF hg hg'
  have slice : ∀ {F : (β × ι → ℝ) → ℝ} {g : β × ι → ℝ}, IsGrad F x g → ∀ b, IsGrad
      (fun y : ι → ℝ => F fun p => if p.1 = b then y p.2 else x p) (fun i => x (b, i)) fun i => g (b, i) := by
    rintro F g ⟨L, hL, eL⟩ b
    let A : (ι → ℝ) →L[ℝ] (β × ι → ℝ) := ContinuousLinearMap.pi fun p =>
      if p.1 = b then ContinuousLinearMap.proj (R := ℝ) (φ := fun _ : ι => ℝ) p.2 else 0
    have hA : ∀ y p, A y p = if p.1 = b then y p.2 else 0 := fun y p => by
      simp only [A, ContinuousLinearMap.coe_pi', Function.comp]
      split_ifs <;> rfl
    have e : (fun y : ι → ℝ => fun p : β × ι => if p.1 = b then y p.2 else x p) =
        fun y => A y + fun p : β × ι => if p.1 = b then 0 else x p := by
      funext y p
      rw [Pi.add_apply, hA]
      split_ifs <;> simp
    have e0 : (fun p : β × ι => if p.1 = b then x (b, p.2) else x p) = x := by
      funext p
      split_ifs with hp
      · rw [← hp]
      · rfl
    have hd : HasFDerivAt (fun y : ι → ℝ => fun p : β × ι => if p.1 = b then y p.2 else x p) A fun i => x (b, i) := by
      rw [e]; exact A.hasFDerivAt.add_const _
    refine ⟨L.comp A, HasFDerivAt.comp (fun i => x (b, i)) (by rw [e0]; exact hL) hd, fun v => ?_⟩
    rw [ContinuousLinearMap.comp_apply, eL, Fintype.sum_prod_type]
    simp only [hA]
    rw [Finset.sum_eq_single b]
    · simp
    · intro c _ hc; simp [hc]
    · simp
  funext p
  refine congrFun (h _ _ (fun i => x (p.1, i)) (fun i => g (p.1, i)) (fun i => g' (p.1, i)) (hx p.1) (fun y hy => ?_)
    (slice hg p.1) (slice hg' p.1)) p.2
  refine hF _ fun b => ?_
  by_cases hb : b = p.1
  · simpa [hb] using hy
  · simpa [hb] using hx b

/-! ### Training -/

section
variable {κ : Type} [DecidableEq κ] {ι : κ → Type} (P : Params κ ι)

/-- The gradients of two losses at one parameter: both missing, or with the same Riemannian gradient, whatever the
weight decay. -/
def Matches {ι : Type} (M : Manifold ι) (x : ι → ℝ) (g g' : Grad ι) : Prop :=
  (g = .none ∧ g' = .none) ∨ ∃ v v', g = .dense v ∧ g' = .dense v' ∧
    ∀ c : ℝ, (M.egrad2rgrad x (v + c • x)).value = (M.egrad2rgrad x (v' + c • x)).value

theorem matches_of [∀ a, Fintype (ι a)] {On : ∀ a, (ι a → ℝ) → Prop} (hs : ∀ a, SeesOnly (P.manifold a) (On a))
    {dep : κ → Bool} {F F' : (∀ a, ι a → ℝ) → ℝ} {g g' : (∀ a, ι a → ℝ) → ∀ a, Grad (ι a)} (hF : SameOn On F F')
    (hg : GradOf On dep F g) (hg' : GradOf On dep F' g') {x : ∀ a, ι a → ℝ} (hx : ∀ a, On a (x a)) (a : κ) :
    Matches (P.manifold a) (x a) (g x a) (g' x a) := by
  cases hd : dep a with
  | false => exact .inl ⟨(hg x hx a).2 hd, (hg' x hx a).2 hd⟩
  | true =>
    obtain ⟨v, e, h1⟩ := (hg x hx a).1 hd
    obtain ⟨v', e', h1'⟩ := (hg' x hx a).1 hd
    refine .inr ⟨v, v', e, e', fun c => (hs a).decay (hx a) (fun y hy => hF _ fun b => ?_) h1 h1' c⟩
    by_cases hb : b = a
    · subst hb; rwa [Function.update_self]
    · rw [Function.update_of_ne hb]; exact hx b

theorem sgdParam_sees {ι : Type} (M : Manifold ι) (h : SGDHyper) (s s' : SGDParam ι)
    (hm : h.momentum ≤ 0 ∨ s.buf ≠ none) (e1 : s'.point = s.point) (e2 : s'.buf = s.buf)
    (hg : Matches M s.point s.grad s'.grad) :
    (sgdParam M h s').2 = (sgdParam M h s).2 ∧ (sgdParam M h s').1.point = (sgdParam M h s).1.point ∧
    (sgdParam M h s').1.buf = (sgdParam M h s).1.buf := by
  obtain ⟨x, g, b⟩ := s
  obtain ⟨x', g', b'⟩ := s'
  obtain rfl : x' = x := e1
  obtain rfl : b' = b := e2
  rcases hg with ⟨rfl, rfl⟩ | ⟨v, v', rfl, rfl, hv⟩
  · exact ⟨rfl, rfl, rfl⟩
  · unfold sgdParam
    dsimp only
    rw [hv h.weightDecay]
    by_cases hp : 0 < h.momentum
    · cases b' with
      | none => exact absurd rfl (hm.resolve_left (not_le.2 hp))
      | some b => simp only [if_pos hp, and_self]
    · simp only [if_neg hp, and_self]

theorem adamParam_sees {ι : Type} (M : Manifold ι) (h : AdamHyper) (s s' : AdamParam ι)
    (e1 : s'.point = s.point) (e2 : s'.state = s.state) (hg : Matches M s.point s.grad s'.grad) :
    (adamParam M h s').2 = (adamParam M h s).2 ∧ (adamParam M h s').1.point = (adamParam M h s).1.point ∧
    (adamParam M h s').1.state = (adamParam M h s).1.state := by
  obtain ⟨x, g, b⟩ := s
  obtain ⟨x', g', b'⟩ := s'
  obtain rfl : x' = x := e1
  obtain rfl : b' = b := e2
  rcases hg with ⟨rfl, rfl⟩ | ⟨v, v', rfl, rfl, hv⟩
  · exact ⟨rfl, rfl, rfl⟩
  · unfold adamParam
    dsimp only
    rw [hv h.weightDecay]
    split <;> exact ⟨rfl, rfl, rfl⟩

variable [∀ a, Fintype (ι a)]

/-- **C136** for `RiemannianSGD`, without momentum or once the momentum buffers exist.  Two losses (they may change
from step to step) are the same on the manifolds; the gradients are theirs.  Then training with one proceeds like
training with the other: no step raises, and the parameters and momentum buffers are the same.  Missing: the first step
with momentum, for which it is false (`C136_counterexample_momentum`). -/
theorem C136_sgd_partial {On : ∀ a, (ι a → ℝ) → Prop} (hs : ∀ a, SeesOnly (P.manifold a) (On a))
    {dep : ℕ → κ → Bool} {F F' : ℕ → (∀ a, ι a → ℝ) → ℝ} {g g' : ℕ → (∀ a, ι a → ℝ) → ∀ a, Grad (ι a)}
    (hF : ∀ t, SameOn On (F t) (F' t)) (hg : ∀ t, GradOf On (dep t) (F t) (g t))
    (hg' : ∀ t, GradOf On (dep t) (F' t) (g' t)) {o o' : ℕ → SGD κ ι}
    (hn : ((o 0).groups.flatMap Group.params).Nodup) (h0 : o' 0 = o 0)
    (hm : ∀ t, ∀ G ∈ (o t).groups, ∀ a ∈ G.params, G.hyper.momentum ≤ 0 ∨ ((o t).par a).buf ≠ none)
    (hon : ∀ t a, On a ((o t).par a).point)
    (h : ∀ t, sgdTrain P (g t) (o t) = (o (t + 1), none))
    (h' : ∀ t, (sgdTrain P (g' t) (o' t)).1 = o' (t + 1)) (t : ℕ) :
    (sgdTrain P (g' t) (o' t)).2 = none ∧
    ∀ a, ((o' t).par a).point = ((o t).par a).point ∧ ((o' t).par a).buf = ((o t).par a).buf := by
  have step : ∀ t, ((o t).groups.flatMap Group.params).Nodup →
      (∀ a, ((o' t).par a).point = ((o t).par a).point ∧ ((o' t).par a).buf = ((o t).par a).buf) →
      (o' t).groups = (o t).groups →
      (sgdTrain P (g' t) (o' t)).2 = none ∧
      (∀ a, ((o' (t + 1)).par a).point = ((o (t + 1)).par a).point ∧
        ((o' (t + 1)).par a).buf = ((o (t + 1)).par a).buf) ∧
      ((o (t + 1)).groups.flatMap Group.params).Nodup ∧
      (o' (t + 1)).groups = (o (t + 1)).groups := by
    intro t hn e1 e2
    have k := h t
    unfold sgdTrain sgdStep at k
    simp only [Prod.mk.injEq] at k
    have ep : (fun a => ((o' t).par a).point) = fun a => ((o t).par a).point := funext fun a => (e1 a).1
    have hq := matches_of P hs (hF t) (hg t) (hg' t) (hon t)
    obtain ⟨r1, r2, r3, r4⟩ := counter_sim (fun h a => sgdParam (P.manifold a) h)
      (fun h a => sgdStab (P.isManifold a) (P.man a) h) SGDHyper.stabilize
      (fun h => h) (fun _ => rfl) (o t).groups hn
      (fun a => { (o t).par a with grad := g t (fun a => ((o t).par a).point) a })
      (fun a => { (o' t).par a with grad := g' t (fun a => ((o' t).par a).point) a })
      (fun a s s' => s'.point = s.point ∧ s'.buf = s.buf) e1
      (fun G hG a ha he => by
        have q := sgdParam_sees (P.manifold a) G.hyper
          { (o t).par a with grad := g t (fun a => ((o t).par a).point) a }
          { (o' t).par a with grad := g' t (fun a => ((o' t).par a).point) a } (hm t G hG a ha) (e1 a).1 (e1 a).2
          (by dsimp only; rw [ep]; exact hq a)
        exact ⟨by rw [q.1]; exact he, q.2⟩)
      (fun G _ a _ s s' ⟨q1, q2⟩ => by
        unfold sgdStab
        dsimp only
        split_ifs
        · exact ⟨q1, q2⟩
        · exact ⟨by rw [q1], by rw [q1, q2]⟩
        · exact ⟨by rw [q1], q2⟩) k.2
    have em : ((o t).groups.map fun G => { G with hyper := G.hyper }) = (o t).groups := List.map_id _
    rw [em] at r1 r2 r4
    have eg : (o (t + 1)).groups = (o t).groups.map fun G => { G with step := G.step + 1 } := by
      rw [← k.1]; exact r3
    have e3 : o' t = ⟨(o' t).par, (o t).groups⟩ := congrArg (SGD.mk (o' t).par) e2
    have e4 : sgdTrain P (g' t) (o' t) = (o' (t + 1), none) := by
      refine Prod.ext (h' t) ?_
      rw [e3]; exact r1
    have e5 : sgdTrain P (g' t) (o' t) = _ := congrArg (sgdTrain P (g' t)) e3
    refine ⟨by rw [e4], ?_, ?_, ?_⟩
    · rw [← h' t, ← k.1, e5]; exact r2
    · rw [eg]; simpa [List.flatMap_map] using hn
    · rw [← h' t, e5, eg]
      exact r4
  suffices ∀ t, ((o t).groups.flatMap Group.params).Nodup ∧
      (∀ a, ((o' t).par a).point = ((o t).par a).point ∧ ((o' t).par a).buf = ((o t).par a).buf) ∧
      (o' t).groups = (o t).groups from
    ⟨(step t (this t).1 (this t).2.1 (this t).2.2).1, (this t).2.1⟩
  intro t
  induction t with
  | zero => exact ⟨hn, fun a => by rw [h0]; exact ⟨rfl, rfl⟩, by rw [h0]⟩
  | succ t ih =>
    obtain ⟨-, h2, h3, h4⟩ := step t ih.1 ih.2.1 ih.2.2
    exact ⟨h3, h2, h4⟩

/-- **C136** for `RiemannianSGD` without momentum: it suffices to start on the manifolds. -/
theorem C136_sgd_no_momentum_partial (geo : ∀ a, Geometry (P.manifold a))
    (hs : ∀ a, SeesOnly (P.manifold a) (geo a).On)
    {dep : ℕ → κ → Bool} {F F' : ℕ → (∀ a, ι a → ℝ) → ℝ} {g g' : ℕ → (∀ a, ι a → ℝ) → ∀ a, Grad (ι a)}
    (hF : ∀ t, SameOn (fun a => (geo a).On) (F t) (F' t)) (hg : ∀ t, GradOf (fun a => (geo a).On) (dep t) (F t) (g t))
    (hg' : ∀ t, GradOf (fun a => (geo a).On) (dep t) (F' t) (g' t)) {o o' : ℕ → SGD κ ι}
    (hn : ((o 0).groups.flatMap Group.params).Nodup) (h0 : o' 0 = o 0)
    (hm : ∀ G ∈ (o 0).groups, G.hyper.momentum = 0)
    (hx : ∀ a, (geo a).On ((o 0).par a).point ∧ ((o 0).par a).buf = none)
    (h : ∀ t, sgdTrain P (g t) (o t) = (o (t + 1), none))
    (h' : ∀ t, (sgdTrain P (g' t) (o' t)).1 = o' (t + 1)) (t : ℕ) :
    (sgdTrain P (g' t) (o' t)).2 = none ∧
    ∀ a, ((o' t).par a).point = ((o t).par a).point ∧ ((o' t).par a).buf = ((o t).par a).buf := by
  have grp : ∀ t, ((o t).groups.flatMap Group.params).Nodup ∧ ∀ G ∈ (o t).groups, G.hyper.momentum = 0 := by
    intro t
    induction t with
    | zero => exact ⟨hn, hm⟩
    | succ t ih =>
      have := (sgdStep_ok P { o t with par := fun a =>
        { (o t).par a with grad := g t (fun a => ((o t).par a).point) a } } ih.1 (congrArg Prod.snd (h t))).1
      have e : (o (t + 1)).groups = _ := (congrArg (fun p => p.1.groups) (h t)).symm.trans this
      rw [e]
      refine ⟨by simpa [List.flatMap_map] using ih.1, fun G hG => ?_⟩
      obtain ⟨G1, hG1, rfl⟩ := List.mem_map.1 hG
      exact ih.2 G1 hG1
  have reach : ∀ t, SGDReach P (fun o => (o.groups.flatMap Group.params).Nodup ∧
      ∀ G ∈ o.groups, G.hyper.momentum = 0) (o 0) (o t) := by
    intro t
    induction t with
    | zero => exact .start
    | succ t ih =>
      have e : (o (t + 1)) = (sgdStep P { o t with par := fun a =>
        { (o t).par a with grad := g t (fun a => ((o t).par a).point) a } }).1 := (congrArg Prod.fst (h t)).symm
      rw [e]
      exact .step (.user ih fun a => ⟨rfl, rfl⟩) (grp t)
  exact C136_sgd_partial P hs hF hg hg' hn h0 (fun t G hG _ _ => .inl ((grp t).2 G hG).le)
    (fun t a => C55.C55_sgd_no_momentum geo _ _ hx (reach t) a) h h' t

/-- **C136** for `RiemannianAdam`: starting on the manifolds with fresh state. -/
theorem C136_adam (geo : ∀ a, Geometry (P.manifold a)) (hs : ∀ a, SeesOnly (P.manifold a) (geo a).On)
    {dep : ℕ → κ → Bool} {F F' : ℕ → (∀ a, ι a → ℝ) → ℝ} {g g' : ℕ → (∀ a, ι a → ℝ) → ∀ a, Grad (ι a)}
    (hF : ∀ t, SameOn (fun a => (geo a).On) (F t) (F' t)) (hg : ∀ t, GradOf (fun a => (geo a).On) (dep t) (F t) (g t))
    (hg' : ∀ t, GradOf (fun a => (geo a).On) (dep t) (F' t) (g' t)) {o o' : ℕ → Adam κ ι}
    (hn : ((o 0).groups.flatMap Prod.snd).Nodup) (h0 : o' 0 = o 0)
    (hx : ∀ a, (geo a).On ((o 0).par a).point ∧ ((o 0).par a).state = none)
    (h : ∀ t, adamTrain P (g t) (o t) = (o (t + 1), none))
    (h' : ∀ t, (adamTrain P (g' t) (o' t)).1 = o' (t + 1)) (t : ℕ) :
    (adamTrain P (g' t) (o' t)).2 = none ∧
    ∀ a, ((o' t).par a).point = ((o t).par a).point ∧ ((o' t).par a).state = ((o t).par a).state := by
  have reach : ∀ t, AdamReach P (o 0) (o t) := by
    intro t
    induction t with
    | zero => exact .start
    | succ t ih =>
      have e : (o (t + 1)) = (adamStep P { o t with par := fun a =>
        { (o t).par a with grad := g t (fun a => ((o t).par a).point) a } }).1 := (congrArg Prod.fst (h t)).symm
      rw [e]
      exact .step (.user ih fun a => ⟨rfl, rfl⟩)
  have hon : ∀ t a, (geo a).On ((o t).par a).point := fun t a => (C55.C56_adam geo _ _ hx (reach t) a).1
  have step : ∀ t, ((o t).groups.flatMap Prod.snd).Nodup →
      (∀ a, ((o' t).par a).point = ((o t).par a).point ∧ ((o' t).par a).state = ((o t).par a).state) →
      (o' t).groups = (o t).groups →
      (adamTrain P (g' t) (o' t)).2 = none ∧
      (∀ a, ((o' (t + 1)).par a).point = ((o (t + 1)).par a).point ∧
        ((o' (t + 1)).par a).state = ((o (t + 1)).par a).state) ∧
      ((o (t + 1)).groups.flatMap Prod.snd).Nodup ∧
      (o' (t + 1)).groups = (o (t + 1)).groups := by
    intro t hn e1 e2
    have k := h t
    unfold adamTrain adamStep at k
    simp only [Prod.mk.injEq] at k
    have ep : (fun a => ((o' t).par a).point) = fun a => ((o t).par a).point := funext fun a => (e1 a).1
    have hq := matches_of P hs (hF t) (hg t) (hg' t) (hon t)
    obtain ⟨r1, r2, r3, r4⟩ := flag_sim (fun (h : AdamHyper) a => adamParam (P.manifold a) h)
      (fun _ a => adamStab (P.isManifold a) (P.man a)) (fun h => h) (o t).groups hn
      (fun a => { (o t).par a with grad := g t (fun a => ((o t).par a).point) a })
      (fun a => { (o' t).par a with grad := g' t (fun a => ((o' t).par a).point) a })
      (fun a s s' => s'.point = s.point ∧ s'.state = s.state) e1
      (fun G _ a _ _ => adamParam_sees (P.manifold a) G.1
          { (o t).par a with grad := g t (fun a => ((o t).par a).point) a }
          { (o' t).par a with grad := g' t (fun a => ((o' t).par a).point) a } (e1 a).1 (e1 a).2
          (by dsimp only; rw [ep]; exact hq a))
      (fun G _ a _ s s' ⟨q1, q2⟩ => by
        unfold adamStab
        split_ifs
        · exact ⟨q1, q2⟩
        · rw [q2]
          split
          · exact ⟨q1, q2⟩
          · exact ⟨by dsimp only; rw [q1], by dsimp only; rw [q1]⟩) k.2
    have em : ((o t).groups.map fun G => (G.1, G.2)) = (o t).groups := List.map_id _
    rw [em] at r1 r2 r4
    have eg : (o (t + 1)).groups = (o t).groups := by
      rw [← k.1]; exact r3
    have e3 : o' t = ⟨(o' t).par, (o t).groups⟩ := congrArg (Adam.mk (o' t).par) e2
    have e4 : adamTrain P (g' t) (o' t) = (o' (t + 1), none) := by
      refine Prod.ext (h' t) ?_
      rw [e3]; exact r1
    have e5 : adamTrain P (g' t) (o' t) = _ := congrArg (adamTrain P (g' t)) e3
    refine ⟨by rw [e4], ?_, ?_, ?_⟩
    · rw [← h' t, ← k.1, e5]; exact r2
    · rw [eg]; exact hn
    · rw [← h' t, e5, eg]
      exact r4
  suffices ∀ t, ((o t).groups.flatMap Prod.snd).Nodup ∧
      (∀ a, ((o' t).par a).point = ((o t).par a).point ∧ ((o' t).par a).state = ((o t).par a).state) ∧
      (o' t).groups = (o t).groups from
    ⟨(step t (this t).1 (this t).2.1 (this t).2.2).1, (this t).2.1⟩
  intro t
  induction t with
  | zero => exact ⟨hn, fun a => by rw [h0]; exact ⟨rfl, rfl⟩, by rw [h0]⟩
  | succ t ih =>
    obtain ⟨-, h2, h3, h4⟩ := step t ih.1 ih.2.1 ih.2.2
    exact ⟨h3, h2, h4⟩

end

/-! ### Two losses that are the same on the circle -/

/-- The loss `0`, and the loss `|x|² - 1` with the gradient `2x`, on the unit circle. -/
theorem circle_losses : SameOn (κ := Unit) (ι := fun _ => Fin 2) (fun _ => Sphere.OnSphere Set.univ)
      (fun _ => 0) (fun x => ∑ i, x () i ^ 2 - 1) ∧
    GradOf (κ := Unit) (ι := fun _ => Fin 2) (fun _ => Sphere.OnSphere Set.univ) (fun _ => true)
      (fun _ => 0) (fun _ _ => .dense 0) ∧
    GradOf (κ := Unit) (ι := fun _ => Fin 2) (fun _ => Sphere.OnSphere Set.univ) (fun _ => true)
      (fun x => ∑ i, x () i ^ 2 - 1) (fun x _ => .dense ((2 : ℝ) • x ())) := by
  have h0 : ∀ x : Fin 2 → ℝ, IsGrad (fun _ => (0 : ℝ)) x 0 := fun x => ⟨0, hasFDerivAt_const _ _, fun v => by simp⟩
  refine ⟨fun x hx => ?_, fun x _ a => ⟨fun _ => ⟨0, rfl, h0 _⟩, fun h => by cases h⟩,
    fun x _ a => ⟨fun _ => ⟨_, rfl, ?_⟩, fun h => by cases h⟩⟩
  · have : x () ⬝ᵥ x () = 1 := (hx ()).1
    have e : ∑ i, x () i ^ 2 = x () ⬝ᵥ x () := Finset.sum_congr rfl fun i _ => sq _
    change (0 : ℝ) = ∑ i, x () i ^ 2 - 1
    rw [e, this, sub_self]
  · obtain ⟨L, hL, eL⟩ := (h0 (x ())).decay 2
    refine ⟨L, ?_, by simpa using eL⟩
    have := hL.sub_const 1
    refine this.congr_of_eventuallyEq (Filter.Eventually.of_forall fun y => ?_)
    simp

/-- `RiemannianSGD` with momentum on the circle: for the loss that is constant 0 the point rests; for a loss that is
0 on the circle as well, but not elsewhere, one step leads to the opposite point. -/
theorem C136_counterexample_momentum : ∃ (P : Params Unit fun _ => Fin 2) (o : SGD Unit fun _ => Fin 2)
    (F F' : (Unit → Fin 2 → ℝ) → ℝ) (g g' : (Unit → Fin 2 → ℝ) → Unit → Grad (Fin 2)),
    P = ⟨fun _ => true, fun _ => sphere none⟩ ∧ Sphere.OnSphere Set.univ (o.par ()).point ∧
    SameOn (fun _ => Sphere.OnSphere Set.univ) F F' ∧
    GradOf (fun _ => Sphere.OnSphere Set.univ) (fun _ => true) F g ∧
    GradOf (fun _ => Sphere.OnSphere Set.univ) (fun _ => true) F' g' ∧
    (sgdTrain P g o).2 = none ∧ (sgdTrain P g' o).2 = none ∧
    ((sgdTrain P g o).1.par ()).point = (o.par ()).point ∧
    ((sgdTrain P g' o).1.par ()).point = -(o.par ()).point := by
  let h : SGDHyper := ⟨2, 1 / 2, 0, 0, false, none⟩
  obtain ⟨q1, q2, q3⟩ := circle_losses
  have n1 : nrm (![1, 0] : Fin 2 → ℝ) = 1 := by simp [nrm, dotProduct, Fin.sum_univ_two]
  have n2 : nrm (![-1, 0] : Fin 2 → ℝ) = 1 := by simp [nrm, dotProduct, Fin.sum_univ_two]
  refine ⟨_, ⟨fun _ => ⟨![1, 0], .none, none⟩, [⟨h, 0, [()]⟩]⟩, _, _, _, _, rfl,
    ⟨by simp [dotProduct, Fin.sum_univ_two], trivial⟩, q1, q2, q3, ?_, ?_, ?_, ?_⟩
  · simp [sgdTrain, sgdStep, forGroups, sgdGroup, counterGroup, forParams, sgdParam, h]
  · simp [sgdTrain, sgdStep, forGroups, sgdGroup, counterGroup, forParams, sgdParam, h]
  · simp [sgdTrain, sgdStep, forGroups, sgdGroup, counterGroup, forParams, sgdParam, h, Params.manifold, sphere,
      Sphere.retr, Sphere.projx, Sphere.projectOnSubspace, Sphere.egrad2rgrad, Sphere.proju, n1]
  · simp only [sgdTrain, sgdStep, forGroups, sgdGroup, counterGroup, forParams, sgdParam, h, Params.manifold, sphere,
      Sphere.retr, Sphere.projx, Sphere.projectOnSubspace, Sphere.egrad2rgrad, Sphere.proju]
    have n3 : (1 : ℝ) + -2 = -1 := by norm_num
    simp [n3, n2]

/-- `C136_sgd_no_momentum_partial` on the circle: training with the loss `0` rests, so training with the loss
`|x|² - 1` rests, although its gradients are not zero. -/
example (o' : ℕ → SGD Unit fun _ => Fin 2)
    (h0 : o' 0 = ⟨fun _ => ⟨![1, 0], .none, none⟩, [⟨⟨2, 0, 0, 0, false, none⟩, 0, [()]⟩]⟩)
    (h' : ∀ t, (sgdTrain ⟨fun _ => true, fun _ => sphere none⟩ (fun x _ => .dense ((2 : ℝ) • x ())) (o' t)).1 =
      o' (t + 1)) (t : ℕ) : ((o' t).par ()).point = ![1, 0] := by
  have hP : Sphere.Projects (Set.univ : Set (Vec 2)) none := rfl
  obtain ⟨q1, q2, q3⟩ := circle_losses
  have n1 : nrm (![1, 0] : Fin 2 → ℝ) = 1 := by simp [nrm, dotProduct, Fin.sum_univ_two]
  refine ((C136_sgd_no_momentum_partial ⟨fun _ => true, fun _ => sphere none⟩
    (fun _ => C55.sphereGeometry hP) (fun _ => C136_sphere hP) (fun _ => q1) (fun _ => q2) (fun _ => q3)
    (o := fun t => ⟨fun _ => ⟨![1, 0], if t = 0 then .none else .dense 0, none⟩, [⟨⟨2, 0, 0, 0, false, none⟩, t, [()]⟩]⟩)
    (by simp) h0 (by simp) (fun _ => ⟨⟨by simp [dotProduct, Fin.sum_univ_two], trivial⟩, rfl⟩) (fun t => ?_)
    h' t).2 ()).1
  simp [sgdTrain, sgdStep, forGroups, sgdGroup, counterGroup, forParams, sgdParam, Params.manifold, sphere,
      Sphere.retr, Sphere.projx, Sphere.projectOnSubspace, Sphere.egrad2rgrad, Sphere.proju, n1]

end Geoopt.C136
