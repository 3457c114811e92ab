import Verif.Props.C99Manifolds

/-!
# C99: where the bound fails, and concrete histories

One parameter in one group, a first gradient, then zero gradients.
-/

namespace Geoopt.C99
open Geoopt Geoopt.Optim C55 Matrix

section One
variable {ι : Type}

/-- One parameter in one group. -/
def one (h : AdamHyper) (s : AdamParam ι) : Adam Unit fun _ => ι := ⟨fun _ => s, [(h, [()])]⟩

/-- One parameter on the manifold `M`. -/
def onM (M : Manifold ι) : Params Unit fun _ => ι := ⟨fun _ => true, fun _ => M⟩

theorem onM_manifold (M : Manifold ι) : (onM M).manifold () = M := rfl

theorem one_step (M : Manifold ι) (h : AdamHyper) (s : AdamParam ι)
    (hok : (adamParam M h s).2.2 = none) :
    adamStep (onM M) (one h s) = (one h (if (adamParam M h s).2.1 then
      adamStab true M (adamParam M h s).1 else (adamParam M h s).1), none) := by
  unfold adamStep one
  simp only [forGroups, adamGroup, flagGroup, forParams, onM_manifold]
  rcases e : adamParam M h s with ⟨s', b, e'⟩
  rw [e] at hok
  cases hok
  cases b with
  | false =>
    simp only [Bool.or_false, Bool.false_eq_true, if_false]
    congr 1
  | true =>
    simp only [Bool.or_false, if_true, stabParams]
    congr 1

end One

/-! ## `β₁² > β₂` -/

/-- The options of the counterexample: `lr = 1`, `betas = (1/2, 1/16)`, `eps = 1`. -/
noncomputable def hyp : AdamHyper := ⟨1, 1 / 2, 1 / 16, 1, 0, false, none⟩

/-- The state after the gradient `c` and `k` zero gradients. -/
noncomputable def stE (c : ℝ) (k : ℕ) : AdamState Unit :=
  ⟨k + 1, fun _ => (1 / 2) ^ (k + 1) * c, fun _ => 15 * (1 / 16) ^ (k + 1) * c ^ 2, none⟩

theorem stepE (c : ℝ) (k : ℕ) (x : Unit → ℝ) :
    (adamParam (euclidean Unit) hyp ⟨x, .dense 0, some (stE c k)⟩).2 = (false, none) ∧
    (adamParam (euclidean Unit) hyp ⟨x, .dense 0, some (stE c k)⟩).1.state = some (stE c (k + 1)) ∧
    (adamParam (euclidean Unit) hyp ⟨x, .dense 0, some (stE c k)⟩).1.point () =
      x () - (1 / 2) ^ (k + 2) * c / (1 - (1 / 2) ^ (k + 2)) /
        (Real.sqrt (15 * (1 / 16) ^ (k + 2) * c ^ 2 / (1 - (1 / 16) ^ (k + 2))) + 1) := by
  have em : (1 / 2 : ℝ) • (stE c k).expAvg + (1 - 1 / 2 : ℝ) • (0 : Unit → ℝ) =
      (stE c (k + 1)).expAvg := by
    funext i
    simp only [stE, Pi.add_apply, Pi.smul_apply, smul_eq_mul, Pi.zero_apply]
    ring
  have ev : (1 / 16 : ℝ) • (stE c k).expAvgSq + (1 - 1 / 16 : ℝ) • (fun i : Unit => (0 : Unit → ℝ) i ^ 2) =
      (stE c (k + 1)).expAvgSq := by
    funext i
    simp only [stE, Pi.add_apply, Pi.smul_apply, smul_eq_mul, Pi.zero_apply]
    ring
  unfold adamParam
  simp only [adamInit, hyp, euclidean, adamFlag, zero_smul, add_zero, em, ev]
  refine ⟨trivial, rfl, ?_⟩
  simp only [stE, adamDirection, Pi.add_apply, Pi.smul_apply, smul_eq_mul]
  ring

theorem reachE (c : ℝ) (k : ℕ) : ∃ x,
    AdamReachIf (onM (euclidean Unit)) (FixedBetas (fun _ => 1 / 2) fun _ => 1 / 16) True
      (one hyp ⟨0, .none, none⟩) (one hyp ⟨x, .dense 0, some (stE c k)⟩) := by
  have hfix : ∀ s : AdamParam Unit, FixedBetas (fun _ => 1 / 2) (fun _ => 1 / 16) (one hyp s) := by
    intro s G hG a _
    simp only [one, List.mem_singleton] at hG
    subst hG
    exact ⟨rfl, rfl⟩
  induction k with
  | zero =>
    have h1 : AdamReachIf (onM (euclidean Unit)) (FixedBetas (fun _ => 1 / 2) fun _ => 1 / 16) True
        (one hyp ⟨0, .none, none⟩) (one hyp ⟨0, .dense fun _ => c, none⟩) :=
      .user .start fun _ => ⟨rfl, rfl⟩
    have h2 := AdamReachIf.step h1 (hfix _)
    have e : (adamParam (euclidean Unit) hyp ⟨0, .dense fun _ => c, none⟩).2 = (false, none) ∧
        (adamParam (euclidean Unit) hyp ⟨0, .dense fun _ => c, none⟩).1.state = some (stE c 0) := by
      unfold adamParam
      simp only [adamInit, hyp, euclidean, adamFlag, zero_smul, add_zero]
      refine ⟨trivial, ?_⟩
      simp only [stE, Bool.false_eq_true, if_false, zero_add, pow_one]
      congr 2
      · funext i
        simp only [Pi.add_apply, Pi.smul_apply, smul_eq_mul, Pi.zero_apply]
        norm_num
      · funext i
        simp only [Pi.add_apply, Pi.smul_apply, smul_eq_mul, Pi.zero_apply]
        norm_num
    rw [one_step _ _ _ (by rw [e.1])] at h2
    rw [e.1] at h2
    simp only [Bool.false_eq_true, if_false] at h2
    exact ⟨(adamParam (euclidean Unit) hyp ⟨0, .dense fun _ => c, none⟩).1.point,
      .user h2 fun a => ⟨rfl, e.2.symm⟩⟩
  | succ k ih =>
    obtain ⟨x, hx⟩ := ih
    obtain ⟨e1, e2, -⟩ := stepE c k x
    have h2 := AdamReachIf.step hx (hfix _)
    rw [one_step _ _ _ (by rw [e1])] at h2
    rw [e1] at h2
    simp only [Bool.false_eq_true, if_false] at h2
    exact ⟨(adamParam (euclidean Unit) hyp ⟨x, .dense 0, some (stE c k)⟩).1.point,
      .user h2 fun a => ⟨rfl, e2.symm⟩⟩

/-- **The factor is not bounded without `β₁² < β₂`.** With `betas=(1/2, 1/16)`, which the constructor
accepts, a gradient followed by zero gradients makes a step of a Euclidean parameter longer than any
multiple of the learning rate (here 1). -/
theorem C99_counterexample_betas (B : ℝ) : ∃ o : Adam Unit fun _ => Unit,
    AdamReachIf (onM (euclidean Unit)) (FixedBetas (fun _ => 1 / 2) fun _ => 1 / 16) True
      (one hyp ⟨0, .none, none⟩) o ∧ o.groups = [(hyp, [()])] ∧
    (adamStep (onM (euclidean Unit)) o).2 = none ∧
    B < |((adamStep (onM (euclidean Unit)) o).1.par ()).point () - (o.par ()).point ()| := by
  obtain ⟨k, hk⟩ := pow_unbounded_of_one_lt (2 * B) (by norm_num : (1 : ℝ) < 2)
  set c : ℝ := 4 ^ (k + 2) with hc
  obtain ⟨x, hx⟩ := reachE c k
  obtain ⟨e1, e2, e3⟩ := stepE c k x
  refine ⟨_, hx, rfl, ?_, ?_⟩
  · rw [one_step _ _ _ (by rw [e1])]
  · rw [one_step _ _ _ (by rw [e1]), e1]
    simp only [Bool.false_eq_true, if_false, one]
    rw [e3]
    have hq : (1 / 16 : ℝ) ^ (k + 2) * c ^ 2 = 1 := by
      rw [hc, ← pow_mul, mul_comm (k + 2) 2, pow_mul, ← mul_pow]; norm_num
    have hm : (1 / 2 : ℝ) ^ (k + 2) * c = 2 ^ (k + 2) := by
      rw [hc, ← mul_pow]; norm_num
    have hp2 : (1 / 16 : ℝ) ^ (k + 2) ≤ 1 / 16 := by
      have : (1 / 16 : ℝ) ^ (k + 2) ≤ (1 / 16) ^ 1 :=
        pow_le_pow_of_le_one (by norm_num) (by norm_num) (by omega)
      simpa using this
    have hp1 : 0 < (1 / 2 : ℝ) ^ (k + 2) := by positivity
    have hp1' : (1 / 2 : ℝ) ^ (k + 2) < 1 := pow_lt_one₀ (by norm_num) (by norm_num) (by omega)
    have hs : Real.sqrt (15 * (1 / 16) ^ (k + 2) * c ^ 2 / (1 - (1 / 16) ^ (k + 2))) ≤ 4 := by
      rw [mul_assoc, hq]
      refine Real.sqrt_le_iff.2 ⟨by norm_num, ?_⟩
      rw [div_le_iff₀ (by linarith)]
      nlinarith
    have hs0 := Real.sqrt_nonneg (15 * (1 / 16) ^ (k + 2) * c ^ 2 / (1 - (1 / 16) ^ (k + 2)))
    rw [hm]
    set s := Real.sqrt (15 * (1 / 16) ^ (k + 2) * c ^ 2 / (1 - (1 / 16) ^ (k + 2)))
    have h1 : (2 : ℝ) ^ (k + 2) ≤ 2 ^ (k + 2) / (1 - (1 / 2) ^ (k + 2)) := by
      rw [le_div_iff₀ (by linarith)]
      nlinarith [pow_pos (by norm_num : (0 : ℝ) < 2) (k + 2)]
    have h2 : (2 : ℝ) ^ (k + 2) / 5 ≤ 2 ^ (k + 2) / (1 - (1 / 2) ^ (k + 2)) / (s + 1) := by
      refine div_le_div₀ (by positivity) h1 (by linarith) (by linarith)
    have h3 : (2 : ℝ) ^ (k + 2) = 4 * 2 ^ k := by ring
    have h4 : 0 < (2 : ℝ) ^ k := by positivity
    have h5 : x () - 2 ^ (k + 2) / (1 - (1 / 2) ^ (k + 2)) / (s + 1) - x () =
        -(2 ^ (k + 2) / (1 - (1 / 2) ^ (k + 2)) / (s + 1)) := by ring
    rw [h5, abs_neg]
    refine lt_of_lt_of_le ?_ (le_abs_self _)
    rw [h3] at h2 ⊢
    linarith

/-! ## `CanonicalStiefel` with stabilisation -/

section Stiefel
open Stiefel

/-- The options: the default `betas`, `eps`, and stabilisation in every step. -/
noncomputable def hypS (lr : ℝ) : AdamHyper := ⟨lr, 0.9, 0.999, 1e-8, 0, false, some 1⟩

/-- Square orthogonal matrices: `proju` doubles every tangent vector. -/
theorem square_proju {x u : Matrix (Fin 2) (Fin 2) ℝ} (hx : OnStiefel x) (hu : Tangent x u) :
    Canonical.proju x u = (2 : ℝ) • u := by
  have hx' : xᵀ * x = 1 := hx
  have hxx : x * xᵀ = 1 := mul_eq_one_comm.1 hx'
  rw [C27_canonical_stiefel_on_tangent hu, ← Matrix.mul_assoc, hxx, Matrix.one_mul, two_smul]

theorem cay_inj {a b : Matrix (Fin 2) (Fin 2) ℝ} (ha : aᵀ = -a) (hb : bᵀ = -b)
    (h : cay a = cay b) : a = b := by
  have ua := isUnit_skew ha (1 / 2)
  have ub := isUnit_skew hb (1 / 2)
  have key : ∀ c : Matrix (Fin 2) (Fin 2) ℝ, IsUnit (1 - (1 / 2 : ℝ) • c).det →
      cay c + 1 = (2 : ℝ) • (1 - (1 / 2 : ℝ) • c)⁻¹ := by
    intro c hc
    have e : cay c + 1 = (1 - (1 / 2 : ℝ) • c)⁻¹ *
        ((1 + (1 / 2 : ℝ) • c) + (1 - (1 / 2 : ℝ) • c)) := by
      rw [Matrix.mul_add, Matrix.nonsing_inv_mul _ hc, cay]
    rw [e]
    have : (1 + (1 / 2 : ℝ) • c) + (1 - (1 / 2 : ℝ) • c) = (2 : ℝ) • 1 := by
      rw [two_smul]; abel
    rw [this, Matrix.mul_smul, Matrix.mul_one]
  have h1 : (1 - (1 / 2 : ℝ) • a)⁻¹ = (1 - (1 / 2 : ℝ) • b)⁻¹ := by
    have := key a ua
    rw [h, key b ub] at this
    exact (smul_right_injective _ (two_ne_zero (α := ℝ)) this).symm
  have h2 : 1 - (1 / 2 : ℝ) • a = 1 - (1 / 2 : ℝ) • b := by
    rw [← Matrix.nonsing_inv_nonsing_inv _ ua, h1, Matrix.nonsing_inv_nonsing_inv _ ub]
  have h3 : (1 / 2 : ℝ) • a = (1 / 2 : ℝ) • b := sub_right_injective h2
  exact smul_right_injective _ (by norm_num : (1 / 2 : ℝ) ≠ 0) h3

/-- The retraction is injective on the tangent space of the square orthogonal matrices. -/
theorem square_retr_inj {x u v : Matrix (Fin 2) (Fin 2) ℝ} (hx : OnStiefel x) (hu : Tangent x u)
    (hv : Tangent x v) (h : Canonical.retr x u = Canonical.retr x v) : u = v := by
  have hx' : xᵀ * x = 1 := hx
  have hxx : x * xᵀ = 1 := mul_eq_one_comm.1 hx'
  simp only [Canonical.retr, transpFollowOne_eq] at h
  have h1 : cay (Canonical.amat x u) = cay (Canonical.amat x v) := by
    have := congrArg (· * xᵀ) h
    simpa only [Matrix.mul_assoc, hxx, Matrix.mul_one] using this
  have h2 := cay_inj (amat_skew x u) (amat_skew x v) h1
  have key : ∀ w, Tangent x w → Canonical.amat x w * x = (2 : ℝ) • w := by
    intro w hw
    have hw' : (xᵀ * w)ᵀ = -(xᵀ * w) := hw
    rw [Matrix.transpose_mul, Matrix.transpose_transpose] at hw'
    rw [Canonical.amat, Matrix.sub_mul, Matrix.mul_assoc, hx', Matrix.mul_one, Matrix.mul_assoc,
      hw', Matrix.mul_neg, ← Matrix.mul_assoc, hxx, Matrix.one_mul, sub_neg_eq_add, two_smul]
  have h3 := congrArg (· * x) h2
  simp only [key u hu, key v hv] at h3
  exact smul_right_injective _ (two_ne_zero (α := ℝ)) h3

variable (proj : Matrix (Fin 2) (Fin 2) ℝ → Matrix (Fin 2) (Fin 2) ℝ)
  (hproj : ∀ x, OnStiefel x → proj x = x)

/-- After the first gradient and `k` zero gradients: the squared length of the first moment has been
multiplied by `(2 · 0.9)²` in every step. -/
def SOk (k : ℕ) (s : AdamParam (Fin 2 × Fin 2)) : Prop :=
  ∃ st, s.state = some st ∧ st.step = k + 1 ∧ OnStiefel (toMat s.point) ∧
    Tangent (toMat s.point) (toMat st.expAvg) ∧
    Canonical.inner (toMat s.point) (toMat st.expAvg) (toMat st.expAvg) = 0.16 * 3.24 ^ k ∧
    st.expAvgSq = fun _ => 0.004 * 0.999 ^ k

include hproj in
/-- One step with first moment `m` and second moment `v`, and the stabilisation after it. -/
theorem stepS (lr : ℝ) (t : ℕ) {x m v : Fin 2 × Fin 2 → ℝ} (hx : OnStiefel (toMat x))
    (hm : Tangent (toMat x) (toMat m)) (c : ℝ) (hv : v = fun _ => c) (g : Grad (Fin 2 × Fin 2))
    (vm : Option (Fin 2 × Fin 2 → ℝ)) {s : AdamParam (Fin 2 × Fin 2)}
    (hs : s = adamStab true (canonicalStiefel proj)
      ⟨((canonicalStiefel proj).retrTransp x (-lr • adamDirection (hypS lr) t m v) m).1, g,
        some ⟨t, ((canonicalStiefel proj).retrTransp x (-lr • adamDirection (hypS lr) t m v) m).2,
          v, vm⟩⟩) :
    ∃ st, s.state = some st ∧ st.step = t ∧ OnStiefel (toMat s.point) ∧
      Tangent (toMat s.point) (toMat st.expAvg) ∧
      Canonical.inner (toMat s.point) (toMat st.expAvg) (toMat st.expAvg) =
        4 * Canonical.inner (toMat x) (toMat m) (toMat m) ∧ st.expAvgSq = v ∧
      s.point = (canonicalStiefel proj).retr x (-lr • adamDirection (hypS lr) t m v) := by
  let geo := stiefelGeometry proj hproj
  have hd : -lr • adamDirection (hypS lr) t m v ∈ geo.Tan x := by
    refine (geo.Tan x).smul_mem _ ?_
    have e : adamDirection (hypS lr) t m v =
        ((1 - (hypS lr).beta1 ^ t)⁻¹ * (Real.sqrt (c / (1 - (hypS lr).beta2 ^ t)) +
          (hypS lr).eps)⁻¹) • m := by
      funext i
      simp only [adamDirection, hv, Pi.smul_apply, smul_eq_mul, div_eq_mul_inv]
      ring
    rw [e]
    exact (geo.Tan x).smul_mem _ hm
  set u := -lr • adamDirection (hypS lr) t m v
  have h1 := geo.retrTransp_on m hx hd
  have h2 := geo.retrTransp_tan hx hd hm
  have h3 : Canonical.inner (toMat ((canonicalStiefel proj).retrTransp x u m).1)
      (toMat ((canonicalStiefel proj).retrTransp x u m).2)
      (toMat ((canonicalStiefel proj).retrTransp x u m).2) =
      Canonical.inner (toMat x) (toMat m) (toMat m) := by
    have := C24_retr_transp (toMat x) (toMat u) (toMat m)
    simp only [canonicalStiefel, this, toMat_ofMat]
    exact C24_transp_isometry _ _ _ _
  have h4 : ((canonicalStiefel proj).retrTransp x u m).1 = (canonicalStiefel proj).retr x u :=
    (C99_stiefel_contracting proj hproj).retr hx hd hm
  have hpx : (canonicalStiefel proj).projx ((canonicalStiefel proj).retrTransp x u m).1 =
      ((canonicalStiefel proj).retrTransp x u m).1 := geo.projx h1
  generalize ((canonicalStiefel proj).retrTransp x u m).1 = y at *
  generalize ((canonicalStiefel proj).retrTransp x u m).2 = m' at *
  have h1' : OnStiefel (toMat y) := h1
  have h2' : Tangent (toMat y) (toMat m') := h2
  simp only [adamStab, Bool.true_eq_false, if_false, hpx] at hs
  subst hs
  have e : toMat ((canonicalStiefel proj).proju y m') = (2 : ℝ) • toMat m' := by
    simp only [canonicalStiefel, toMat_ofMat]
    exact square_proju h1' h2'
  refine ⟨_, rfl, rfl, h1', ?_, ?_, rfl, h4⟩
  · dsimp only
    rw [e]
    have h5 : (toMat y)ᵀ * ((2 : ℝ) • toMat m') = (2 : ℝ) • ((toMat y)ᵀ * toMat m') :=
      Matrix.mul_smul _ _ _
    have h6 : ((toMat y)ᵀ * toMat m')ᵀ = -((toMat y)ᵀ * toMat m') := h2'
    unfold Tangent
    rw [h5, Matrix.transpose_smul, h6, smul_neg]
  · dsimp only
    rw [e, ← h3]
    simp only [Canonical.inner, Matrix.mul_smul, frob_smul, frob_smul_right]
    ring

theorem flag_one (t : ℕ) : adamFlag (some 1) t = (true, none) := by
  simp [adamFlag, isMultiple, Nat.mod_one]

theorem proju_zero (x : Fin 2 × Fin 2 → ℝ) : (canonicalStiefel proj).egrad2rgrad x 0 = ⟨0, 0, false⟩ := by
  simp only [canonicalStiefel, Canonical.proju]
  have : toMat (0 : Fin 2 × Fin 2 → ℝ) = 0 := rfl
  rw [this]
  congr 1
  funext p
  simp [ofMat]

theorem dirS (lr : ℝ) (t : ℕ) (m : Fin 2 × Fin 2 → ℝ) (c : ℝ) :
    (-lr • adamDirection (hypS lr) t m fun _ => c) =
      (-lr * ((1 - (0.9 : ℝ) ^ t)⁻¹ * (Real.sqrt (c / (1 - 0.999 ^ t)) + 1e-8)⁻¹)) • m := by
  funext i
  simp only [adamDirection, hypS, Pi.smul_apply, smul_eq_mul, div_eq_mul_inv]
  ring

include hproj in
/-- One step with a zero gradient. -/
theorem zeroS (lr : ℝ) {k : ℕ} {s : AdamParam (Fin 2 × Fin 2)} (hs : SOk k s)
    (hg : s.grad = .dense 0) :
    (adamParam (canonicalStiefel proj) (hypS lr) s).2 = (true, none) ∧
    SOk (k + 1) (adamStab true (canonicalStiefel proj)
      (adamParam (canonicalStiefel proj) (hypS lr) s).1) ∧
    ∃ u, Tangent (toMat s.point) (toMat u) ∧
      (adamStab true (canonicalStiefel proj)
        (adamParam (canonicalStiefel proj) (hypS lr) s).1).point =
        (canonicalStiefel proj).retr s.point u ∧
      lr ^ 2 * (3.24 ^ k * 0.03) ≤ Canonical.inner (toMat s.point) (toMat u) (toMat u) := by
  obtain ⟨st, h1, h2, h3, h4, h5, h6⟩ := hs
  have em : (0.9 : ℝ) • st.expAvg + (1 - 0.9 : ℝ) • (0 : Fin 2 × Fin 2 → ℝ) = (0.9 : ℝ) • st.expAvg := by
    rw [smul_zero, add_zero]
  have ev : (0.999 : ℝ) • st.expAvgSq + (1 - 0.999 : ℝ) •
      (canonicalStiefel proj).componentInner s.point 0 = fun _ => 0.004 * 0.999 ^ (k + 1) := by
    funext i
    have : toMat (0 : Fin 2 × Fin 2 → ℝ) = 0 := rfl
    simp only [h6, canonicalStiefel, Pi.add_apply, Pi.smul_apply, smul_eq_mul, this,
      Canonical.inner, Linalg.frob, Matrix.mul_zero, Matrix.zero_apply]
    simp
    ring
  have hstep : adamParam (canonicalStiefel proj) (hypS lr) s =
      (⟨((canonicalStiefel proj).retrTransp s.point (-lr • adamDirection (hypS lr) (k + 2)
          ((0.9 : ℝ) • st.expAvg) fun _ => 0.004 * 0.999 ^ (k + 1)) ((0.9 : ℝ) • st.expAvg)).1,
        .dense 0, some ⟨k + 2, ((canonicalStiefel proj).retrTransp s.point
          (-lr • adamDirection (hypS lr) (k + 2)
          ((0.9 : ℝ) • st.expAvg) fun _ => 0.004 * 0.999 ^ (k + 1)) ((0.9 : ℝ) • st.expAvg)).2,
          fun _ => 0.004 * 0.999 ^ (k + 1), st.maxExpAvgSq⟩⟩, true, none) := by
    unfold adamParam
    rw [hg, h1]
    simp only [adamInit, hypS, zero_smul, add_zero, proju_zero, em, ev, h2, flag_one]
  have hmt : Tangent (toMat s.point) (toMat ((0.9 : ℝ) • st.expAvg)) := by
    have h6 : ((toMat s.point)ᵀ * toMat st.expAvg)ᵀ = -((toMat s.point)ᵀ * toMat st.expAvg) := h4
    unfold Tangent
    rw [toMat_smul, Matrix.mul_smul, Matrix.transpose_smul, h6, smul_neg]
  have hmi : Canonical.inner (toMat s.point) (toMat ((0.9 : ℝ) • st.expAvg))
      (toMat ((0.9 : ℝ) • st.expAvg)) = 0.81 * (0.16 * 3.24 ^ k) := by
    rw [← h5, toMat_smul]
    simp only [Canonical.inner, Matrix.mul_smul, frob_smul, frob_smul_right]
    ring
  obtain ⟨st', k1, k2, k3, k4, k5, k6, k7⟩ := stepS proj hproj lr (k + 2) h3 hmt
    (0.004 * 0.999 ^ (k + 1)) rfl (.dense 0) st.maxExpAvgSq rfl
  rw [hstep]
  refine ⟨rfl, ⟨st', k1, k2, k3, k4, ?_, k6⟩, _, ?_, k7, ?_⟩
  · rw [k5, hmi]; ring
  · rw [dirS]
    rw [toMat_smul]
    have h6 : ((toMat s.point)ᵀ * toMat ((0.9 : ℝ) • st.expAvg))ᵀ =
      -((toMat s.point)ᵀ * toMat ((0.9 : ℝ) • st.expAvg)) := hmt
    unfold Tangent
    rw [Matrix.mul_smul, Matrix.transpose_smul, h6, smul_neg]
  · rw [dirS, toMat_smul]
    generalize hm' : toMat ((0.9 : ℝ) • st.expAvg) = m' at hmi ⊢
    have e : ∀ w : ℝ, Canonical.inner (toMat s.point) (w • m') (w • m') =
        w ^ 2 * Canonical.inner (toMat s.point) m' m' := by
      intro w
      simp only [Canonical.inner, Matrix.mul_smul, frob_smul, frob_smul_right]
      ring
    rw [e, hmi]
    have hp1 : (0.9 : ℝ) ^ (k + 2) < 1 := pow_lt_one₀ (by norm_num) (by norm_num) (by omega)
    have hp1' : 0 < (0.9 : ℝ) ^ (k + 2) := by positivity
    have hp2 : (0.999 : ℝ) ^ (k + 2) ≤ 0.999 := by
      have : (0.999 : ℝ) ^ (k + 2) ≤ 0.999 ^ 1 :=
        pow_le_pow_of_le_one (by norm_num) (by norm_num) (by omega)
      simpa using this
    have hp3 : (0.999 : ℝ) ^ (k + 1) ≤ 1 := pow_le_one₀ (by norm_num) (by norm_num)
    have hs : Real.sqrt (0.004 * 0.999 ^ (k + 1) / (1 - 0.999 ^ (k + 2))) ≤ 2 := by
      refine Real.sqrt_le_iff.2 ⟨by norm_num, ?_⟩
      rw [div_le_iff₀ (by linarith)]
      nlinarith
    have hs0 := Real.sqrt_nonneg (0.004 * 0.999 ^ (k + 1) / (1 - (0.999 : ℝ) ^ (k + 2)))
    set r := Real.sqrt (0.004 * 0.999 ^ (k + 1) / (1 - (0.999 : ℝ) ^ (k + 2)))
    have hD : 0 < (1 - (0.9 : ℝ) ^ (k + 2)) * (r + 1e-8) := mul_pos (by linarith) (by linarith)
    have hD' : (1 - (0.9 : ℝ) ^ (k + 2)) * (r + 1e-8) ≤ 2.00000001 := by
      nlinarith
    have hD2 : ((1 - (0.9 : ℝ) ^ (k + 2)) * (r + 1e-8)) ^ 2 ≤ 4.1 := by nlinarith
    have e3 : (-lr * ((1 - (0.9 : ℝ) ^ (k + 2))⁻¹ * (r + 1e-8)⁻¹)) ^ 2 =
        lr ^ 2 / ((1 - (0.9 : ℝ) ^ (k + 2)) * (r + 1e-8)) ^ 2 := by
      rw [← mul_inv, div_eq_mul_inv, mul_pow, inv_pow, neg_sq]
    rw [e3, div_mul_eq_mul_div, le_div_iff₀ (by positivity)]
    have h7 : 0 ≤ lr ^ 2 * (3.24 : ℝ) ^ k := by positivity
    nlinarith

include hproj in
theorem reachS (lr : ℝ) (k : ℕ) : ∃ s, SOk k s ∧ s.grad = .dense 0 ∧
    AdamReachIf (onM (canonicalStiefel proj)) (FixedBetas (fun _ => 0.9) fun _ => 0.999) True
      (one (hypS lr) ⟨ofMat 1, .none, none⟩) (one (hypS lr) s) := by
  have hfix : ∀ s, FixedBetas (fun _ => 0.9) (fun _ => 0.999)
      (one (ι := Fin 2 × Fin 2) (hypS lr) s) := by
    intro s G hG a _
    simp only [one, List.mem_singleton] at hG
    subst hG
    exact ⟨rfl, rfl⟩
  induction k with
  | zero =>
    have h1 : AdamReachIf (onM (canonicalStiefel proj)) (FixedBetas (fun _ => 0.9) fun _ => 0.999)
        True (one (hypS lr) ⟨ofMat 1, .none, none⟩)
        (one (hypS lr) ⟨ofMat 1, .dense (ofMat !![0, 1; -1, 0]), none⟩) :=
      .user .start fun _ => ⟨rfl, rfl⟩
    have h2 := AdamReachIf.step h1 (hfix _)
    have hx : OnStiefel (toMat (ofMat (1 : Matrix (Fin 2) (Fin 2) ℝ))) := by
      rw [toMat_ofMat]; simp [OnStiefel]
    have hmt : Tangent (toMat (ofMat (1 : Matrix (Fin 2) (Fin 2) ℝ)))
        (toMat (ofMat !![0, 0.2; -0.2, (0 : ℝ)])) := by
      rw [toMat_ofMat, toMat_ofMat]
      unfold Tangent; ext i j; fin_cases i <;> fin_cases j <;> simp
    have er : (canonicalStiefel proj).egrad2rgrad (ofMat 1) (ofMat !![0, 1; -1, (0 : ℝ)]) =
        ⟨ofMat !![0, 2; -2, 0], ofMat !![0, 1; -1, 0], false⟩ := by
      simp only [canonicalStiefel, toMat_ofMat]
      congr 2
      ext i j
      fin_cases i <;> fin_cases j <;> simp [Canonical.proju] <;> norm_num
    have em : (0.9 : ℝ) • (0 : Fin 2 × Fin 2 → ℝ) + (1 - 0.9 : ℝ) • ofMat !![0, 2; -2, (0 : ℝ)] =
        ofMat !![0, 0.2; -0.2, 0] := by
      funext ⟨i, j⟩
      fin_cases i <;> fin_cases j <;> simp [ofMat] <;> norm_num
    have ev : (0.999 : ℝ) • (0 : Fin 2 × Fin 2 → ℝ) + (1 - 0.999 : ℝ) •
        (canonicalStiefel proj).componentInner (ofMat 1) (ofMat !![0, 2; -2, (0 : ℝ)]) =
        fun _ => 0.004 := by
      funext i
      simp only [canonicalStiefel, Pi.add_apply, Pi.smul_apply, smul_eq_mul, toMat_ofMat,
        Canonical.inner, Linalg.frob, Fin.sum_univ_two, Matrix.transpose_one, Matrix.one_mul]
      simp
      norm_num
    have hstep : adamParam (canonicalStiefel proj) (hypS lr)
        ⟨ofMat 1, .dense (ofMat !![0, 1; -1, 0]), none⟩ =
      (⟨((canonicalStiefel proj).retrTransp (ofMat 1) (-lr • adamDirection (hypS lr) 1
          (ofMat !![0, 0.2; -0.2, 0]) fun _ => 0.004) (ofMat !![0, 0.2; -0.2, 0])).1,
        .dense (ofMat !![0, 1; -1, 0]), some ⟨1, ((canonicalStiefel proj).retrTransp (ofMat 1)
          (-lr • adamDirection (hypS lr) 1
          (ofMat !![0, 0.2; -0.2, 0]) fun _ => 0.004) (ofMat !![0, 0.2; -0.2, 0])).2,
          fun _ => 0.004, none⟩⟩, true, none) := by
      unfold adamParam
      simp only [adamInit, hypS, zero_smul, add_zero, er, em, ev, flag_one, Bool.false_eq_true,
        if_false, zero_add]
    obtain ⟨st', k1, k2, k3, k4, k5, k6, k7⟩ := stepS proj hproj lr 1 hx hmt
      0.004 rfl (.dense (ofMat !![0, 1; -1, 0])) none rfl
    rw [one_step _ _ _ (by rw [hstep])] at h2
    rw [hstep] at h2
    simp only [if_true] at h2
    refine ⟨⟨_, .dense 0, _⟩, ⟨st', k1, k2, k3, k4, ?_, ?_⟩, rfl, .user h2 fun a => ⟨rfl, rfl⟩⟩
    · refine k5.trans ?_
      simp only [toMat_ofMat, Canonical.inner, Linalg.frob, Fin.sum_univ_two,
        Matrix.transpose_one, Matrix.one_mul]
      simp
      norm_num
    · rw [k6]; simp
  | succ k ih =>
    obtain ⟨s, h1, h2, h3⟩ := ih
    obtain ⟨e1, e2, -⟩ := zeroS proj hproj lr h1 h2
    have h4 := AdamReachIf.step h3 (hfix _)
    rw [one_step _ _ _ (by rw [e1])] at h4
    rw [e1] at h4
    simp only [if_true] at h4
    obtain ⟨st, k1, k2⟩ := e2
    exact ⟨⟨_, .dense 0, _⟩, ⟨st, k1, k2⟩, rfl, .user h4 fun a => ⟨rfl, rfl⟩⟩

include hproj in
/-- **Stabilising `CanonicalStiefel` makes the steps explode.** `CanonicalStiefel.proju` is not a
projection: on square matrices it doubles tangent vectors.  With the default `betas`, any learning rate
and `stabilize=1`, one gradient followed by zero gradients makes `RiemannianAdam` take steps longer than any
multiple of the learning rate: every tangent vector leading to the new point is longer. -/
theorem C99_counterexample_canonical_stiefel {lr : ℝ} (hlr : 0 < lr) (B : ℝ) :
    ∃ o : Adam Unit fun _ => Fin 2 × Fin 2,
      AdamReachIf (onM (canonicalStiefel proj)) (FixedBetas (fun _ => 0.9) fun _ => 0.999) True
        (one (hypS lr) ⟨ofMat 1, .none, none⟩) o ∧ o.groups = [(hypS lr, [()])] ∧
      (adamStep (onM (canonicalStiefel proj)) o).2 = none ∧
      ∀ u, Tangent (toMat (o.par ()).point) (toMat u) →
        ((adamStep (onM (canonicalStiefel proj)) o).1.par ()).point =
          (canonicalStiefel proj).retr (o.par ()).point u →
        (lr * B) ^ 2 < (canonicalStiefel proj).componentInner (o.par ()).point u (0, 0) := by
  obtain ⟨k, hk⟩ := pow_unbounded_of_one_lt (B ^ 2 / 0.03) (by norm_num : (1 : ℝ) < 3.24)
  obtain ⟨s, h1, h2, h3⟩ := reachS proj hproj lr k
  obtain ⟨e1, e2, u, e3, e4, e5⟩ := zeroS proj hproj lr h1 h2
  refine ⟨_, h3, rfl, ?_, ?_⟩
  · rw [one_step _ _ _ (by rw [e1])]
  · intro u' hu' he
    rw [one_step _ _ _ (by rw [e1]), e1] at he
    simp only [if_true, one] at he hu' ⊢
    rw [e4] at he
    obtain ⟨st, -, -, hon, -⟩ := h1
    have : u = u' := by
      have h6 : Canonical.retr (toMat s.point) (toMat u) = Canonical.retr (toMat s.point) (toMat u') :=
        congrArg toMat he
      have h7 := square_retr_inj hon e3 hu' h6
      exact congrArg ofMat h7
    subst this
    refine lt_of_lt_of_le ?_ e5
    rw [div_lt_iff₀ (by norm_num)] at hk
    rw [mul_pow]
    exact mul_lt_mul_of_pos_left hk (by positivity)

end Stiefel

/-! ## The hypotheses of `C99_adam` are met -/

/-- A Euclidean parameter after a gradient `c` and `k` zero gradients. -/
example (c : ℝ) (k : ℕ) : ∃ x u : Unit → ℝ,
    ((adamStep (onM (euclidean Unit)) (one hyp ⟨x, .dense 0, some (stE c k)⟩)).1.par ()).point =
      x + u ∧ u () ^ 2 ≤ adamFactor (1 / 2) (1 / 16) (k + 2) ^ 2 := by
  obtain ⟨x, hx⟩ := reachE c k
  have hfix : FixedBetas (fun _ => 1 / 2) (fun _ => 1 / 16)
      (one hyp ⟨x, .dense 0, some (stE c k)⟩) := by
    intro G hG a _
    simp only [one, List.mem_singleton] at hG
    subst hG
    exact ⟨rfl, rfl⟩
  obtain ⟨u, -, h1, h2⟩ := C99_adam (P := onM (euclidean Unit)) (fun _ => euclideanGeometry Unit)
    (fun _ => C99_euclidean_contracting Unit) (fun _ => C99_euclidean_proj Unit)
    (β₁ := fun _ => 1 / 2) (β₂ := fun _ => 1 / 16) (fun _ => by norm_num)
    (fun _ => ⟨trivial, rfl⟩) hx hfix (by simp [one])
    (by rw [one_step _ _ _ (by rw [(stepE c k x).1])]) (G := (hyp, [()])) (by simp [one])
    (by simp [hyp]) (a := ()) (by simp) rfl
  refine ⟨x, u, h1, ?_⟩
  have := h2 ()
  simpa [hyp, AdamParam.steps, stE, one, onM, Params.manifold, euclidean] using this

/-- The first step of a batch of two points in the Poincaré ball: no row moves by more than `lr`. -/
example (dt : DType) (g : Fin 2 × Fin 3 → ℝ) (lr : ℝ) :
    let M := batch (Fin 2) (stereographic (n := 3) Stereo.codeEta dt (-1))
    let o := one ⟨lr, 0.9, 0.999, 1e-8, 0, true, some 10⟩ ⟨0, .dense g, none⟩
    ∃ u, ((adamStep (onM M) o).1.par ()).point = M.retr 0 u ∧
      ∀ b : Fin 2, Stereo.inner (-1) 0 (fun i : Fin 3 => u (b, i)) (fun i => u (b, i)) ≤ lr ^ 2 := by
  intro M o
  have hη : (0 : ℝ) ≤ Stereo.codeEta := by norm_num [Stereo.codeEta]
  have hη1 : (Stereo.codeEta : ℝ) ≤ 1 := by norm_num [Stereo.codeEta]
  have hb : |(-1 : ℝ)| ≤ 1e29 := by norm_num
  have h0 : Stereo.Valid Stereo.codeEta dt (-1) (0 : Vec 3) := by
    unfold Stereo.Valid
    rw [nrm_zero]
    exact div_nonneg (by cases dt <;> norm_num [Stereo.projEps]) (Real.sqrt_nonneg _)
  have hok : (adamParam M ⟨lr, 0.9, 0.999, 1e-8, 0, true, some 10⟩ ⟨0, .dense g, none⟩).2.2 = none := by
    simp [adamParam, adamInit, adamFlag, isMultiple]
  obtain ⟨u, -, h1, h2⟩ := C99_adam (P := onM M)
    (fun _ => batchGeometry (Fin 2) (ballGeometry (n := 3) hη hη1 (by norm_num) hb dt))
    (fun _ => C99_batch_contracting _ (C99_ball_contracting _ _ _ _ _))
    (fun _ => C99_batch_proj _ (C99_ball_proj _ _ _ _ _))
    (β₁ := fun _ => 0.9) (β₂ := fun _ => 0.999) (fun _ => by norm_num) (o₀ := o) (o := o)
    (fun _ => ⟨fun _ => h0, rfl⟩) .start
    (fun G hG a _ => by
      simp only [o, one, List.mem_singleton] at hG
      subst hG
      exact ⟨rfl, rfl⟩) (by simp [o, one])
    (by rw [one_step _ _ _ hok]) (G := (_, [()])) (by simp [o, one]; rfl)
    (by norm_num) (a := ()) (by simp) rfl
  refine ⟨u, h1, fun b => ?_⟩
  have := h2 (b, 0)
  have e : (o.par ()).steps = 0 := rfl
  rw [e, zero_add, C99_first (by norm_num) (by norm_num), mul_one] at this
  exact this

end Geoopt.C99
