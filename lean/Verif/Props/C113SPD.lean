import Verif.Lemmas.Target
import Verif.Model.OptimManifolds
import Verif.Props.C101
import Verif.Props.C112SPD

/-!
# C113 for SPD matrices

The default retraction of `SymmetricPositiveDefinite` is `x + u + u x⁻¹ u / 2`.  In the frame where `x` is
the identity and the target is `diag(exp ℓᵢ)`, a step with learning rate `lr` on the squared distance goes to
`diag(1 + s + s²/2)` with `s = 2·lr·ℓᵢ`.
-/

namespace Geoopt.SPD
open Matrix Geoopt.Linalg Geoopt.Optim
variable {n : ℕ} (E : Eigh n)

namespace C113

/-- the Taylor polynomial of the retraction -/
noncomputable def q (s : ℝ) : ℝ := 1 + s + s ^ 2 / 2

lemma q_pos (s : ℝ) : 0 < q s := by unfold q; nlinarith [sq_nonneg (s + 1)]

lemma fn_q {x : Mat n} {e v} (hd : Dec x e v) (f : ℝ → ℝ) :
    fn (fun t => q (f t)) e v = 1 + fn f e v + (1 / 2 : ℝ) • (fn f e v * fn f e v) := by
  rw [fn_mul hd.orth]
  have e2 : fn (fun t => q (f t)) e v =
      fn (fun _ => 1) e v + fn f e v + (1 / 2 : ℝ) • fn (fun t => f t * f t) e v := by
    unfold fn
    rw [← Matrix.add_mul, ← Matrix.mul_add, ← Matrix.smul_mul, ← Matrix.mul_smul, ← Matrix.add_mul,
      ← Matrix.mul_add]
    congr 2
    ext i j
    by_cases h : i = j
    · subst h; simp [q]; ring
    · simp [h]
  rw [e2, fn_const hd, one_smul]

lemma fn_smul (c : ℝ) (f : ℝ → ℝ) (e : Fin n → ℝ) (v : Mat n) :
    fn (fun t => c * f t) e v = c • fn f e v := by
  unfold fn
  rw [← Matrix.smul_mul, ← Matrix.mul_smul]
  congr 2
  ext i j
  by_cases h : i = j
  · subst h; simp
  · simp [h]

/-- The step, in the frame of `x`. -/
lemma retr_log {x y : Mat n} (hx : OnSPD x) (hy : OnSPD y) (s : ℝ) {e v}
    (hd : Dec ((symInvSqrtm2 E x).1 * y * (symInvSqrtm2 E x).1) e v) :
    (symInvSqrtm2 E x).1 * retr x (s • logmap E x y) * (symInvSqrtm2 E x).1 =
      fn (fun l => q (s * Real.log l)) e v := by
  have r := roots (E := E) hx
  have hl : logmap E x y = (symInvSqrtm2 E x).2 * fn Real.log e v * (symInvSqrtm2 E x).2 := by
    unfold logmap
    simp only
    rw [symLogm, symFuncm_eq E _ hd hd.symm]
  have hut : (s • logmap E x y)ᵀ = s • logmap E x y := by
    rw [transpose_smul, symm_iff.1 (C29_logmap_symm E hx)]
  have hxi : x⁻¹ᵀ = x⁻¹ := by rw [Matrix.transpose_nonsing_inv, hx.tr]
  obtain ⟨u, hu⟩ : ∃ u, u = s • logmap E x y := ⟨_, rfl⟩
  rw [← hu] at hut ⊢
  have hss : (x + u + (0.5 : ℝ) • u * x⁻¹ * u)ᵀ = x + u + (0.5 : ℝ) • u * x⁻¹ * u := by
    simp only [transpose_add, transpose_mul, transpose_smul, hx.tr, hut, hxi, Matrix.smul_mul,
      Matrix.mul_smul, Matrix.mul_assoc]
  have hret : retr x u = x + u + (1 / 2 : ℝ) • (u * ((symInvSqrtm2 E x).1 * (symInvSqrtm2 E x).1) * u) := by
    unfold retr symInvm
    simp only
    rw [sym_of_symm hss, r.inv, show (0.5 : ℝ) = 1 / 2 by norm_num]
    simp only [Matrix.smul_mul]
  rw [hret]
  rw [hl] at hu
  generalize (symInvSqrtm2 E x).1 = R at *
  generalize (symInvSqrtm2 E x).2 = S at *
  have hw : R * u * R = fn (fun t => s * Real.log t) e v := by
    rw [fn_smul, hu, Matrix.mul_smul, Matrix.smul_mul]
    congr 1
    calc R * (S * fn Real.log e v * S) * R = (R * S) * fn Real.log e v * (S * R) := by
          simp only [Matrix.mul_assoc]
      _ = _ := by rw [r.rs, r.sr, one_mul, mul_one]
  rw [fn_q hd (fun t => s * Real.log t), ← hw]
  have e1 : R * (x + u + (1 / 2 : ℝ) • (u * (R * R) * u)) * R =
      R * x * R + R * u * R + (1 / 2 : ℝ) • ((R * u * R) * (R * u * R)) := by
    simp only [Matrix.mul_add, Matrix.add_mul, Matrix.mul_smul, Matrix.smul_mul, Matrix.mul_assoc]
  rw [e1, r.rxr]

lemma frobNorm_sq (m : Mat n) : frobNorm m ^ 2 = frob m m :=
  Real.sq_sqrt (Finset.sum_nonneg fun i _ => Finset.sum_nonneg fun j _ => mul_self_nonneg _)

/-- Distance of two matrices with the same eigenvectors. -/
lemma dist_fn {x : Mat n} {e v} (hd : Dec x e v) {f g : ℝ → ℝ} (hf : ∀ i, 0 < f (e i))
    (hg : ∀ i, 0 < g (e i)) :
    dist E .AIM (fn f e v) (fn g e v) ^ 2 = ∑ i, (Real.log (g (e i)) - Real.log (f (e i))) ^ 2 := by
  have hX := onSPD_fn hd f hf
  have h1 : (symInvSqrtm2 E (fn f e v)).1 = fn (fun t => (Real.sqrt (f t))⁻¹) e v := by
    have := fn_unique (eigh_dec E hX.tr) (fn_dec hd f) fun t => (Real.sqrt t)⁻¹
    exact this
  have h2 : (symInvSqrtm2 E (fn f e v)).1 * fn g e v * (symInvSqrtm2 E (fn f e v)).1 =
      fn (fun t => (Real.sqrt (f t))⁻¹ * g t * (Real.sqrt (f t))⁻¹) e v := by
    rw [h1, fn_mul hd.orth, fn_mul hd.orth]
  have hdm := fn_dec hd fun t => (Real.sqrt (f t))⁻¹ * g t * (Real.sqrt (f t))⁻¹
  rw [aim_eq E hX, h2, frobNorm_sq, frob_symLogm E hdm]
  refine Finset.sum_congr rfl fun i _ => ?_
  have hs := Real.mul_self_sqrt (hf i).le
  have : (Real.sqrt (f (e i)))⁻¹ * g (e i) * (Real.sqrt (f (e i)))⁻¹ = g (e i) / f (e i) := by
    rw [div_eq_mul_inv, ← hs, mul_inv]
    rw [hs]; ring
  rw [this, Real.log_div (hg i).ne' (hf i).ne']

/-- Both distances to the target in terms of the same numbers. -/
lemma dist_step {x y : Mat n} (hx : OnSPD x) (hy : OnSPD y) (s : ℝ) :
    ∃ l : Fin n → ℝ, dist E .AIM x y ^ 2 = ∑ i, l i ^ 2 ∧
      dist E .AIM (retr x (s • logmap E x y)) y ^ 2 = ∑ i, (l i - Real.log (q (s * l i))) ^ 2 := by
  have r := roots (E := E) hx
  have hm := r.mid hy
  obtain ⟨e, v, hd⟩ := exists_dec hm.tr
  have hp := hm.pos hd
  have hR := C28_retr_spd hx (u := s • logmap E x y) (by
    rw [symm_iff, transpose_smul, symm_iff.1 (C29_logmap_symm E hx)])
  refine ⟨fun i => Real.log (e i), ?_, ?_⟩
  · rw [aim_eq E hx, frobNorm_sq, frob_symLogm E hd]
  · have hc := C30_congruence_invariant E hR hy r.unit_r
    rw [r.rsymm, retr_log E hx hy s hd] at hc
    rw [← hc]
    conv_lhs => rw [← fn_id hd]
    exact dist_fn E hd (fun i => q_pos _) hp

lemma log_q_le {s : ℝ} (hs : 0 ≤ s) : Real.log (q s) ≤ s := by
  rw [Real.log_le_iff_le_exp (q_pos s)]
  have := Real.quadratic_le_exp_of_nonneg hs
  unfold q; linarith

lemma le_log_q {s : ℝ} (hs : s ≤ 0) : s ≤ Real.log (q s) := by
  have h := log_q_le (s := -s) (by linarith)
  have hp := q_pos s
  have hp' := q_pos (-s)
  have : 1 ≤ q s * q (-s) := by
    have : q s * q (-s) = 1 + s ^ 4 / 4 := by unfold q; ring
    rw [this]; have : 0 ≤ s ^ 4 := by positivity
    linarith
  have h2 := Real.log_nonneg this
  rw [Real.log_mul hp.ne' hp'.ne'] at h2
  linarith

lemma half_le_log_q {s : ℝ} (h0 : 0 ≤ s) (h1 : s ≤ 1) : s / 2 ≤ Real.log (q s) := by
  rw [Real.le_log_iff_exp_le (q_pos s)]
  have h := Real.add_one_le_exp (-(s / 2))
  rw [Real.exp_neg] at h
  have hp := Real.exp_pos (s / 2)
  have h2 : Real.exp (s / 2) * (1 - s / 2) ≤ 1 := by
    calc Real.exp (s / 2) * (1 - s / 2) ≤ Real.exp (s / 2) * (Real.exp (s / 2))⁻¹ :=
          mul_le_mul_of_nonneg_left (by linarith) hp.le
      _ = 1 := mul_inv_cancel₀ hp.ne'
  have h3 : 1 ≤ q s * (1 - s / 2) := by
    have : q s * (1 - s / 2) = 1 + s * (1 / 2 - s ^ 2 / 4) := by unfold q; ring
    rw [this]
    have : 0 ≤ s * (1 / 2 - s ^ 2 / 4) := mul_nonneg h0 (by nlinarith)
    linarith
  exact le_of_mul_le_mul_right (h2.trans h3) (by linarith)

lemma log_q_le_half {s : ℝ} (h0 : s ≤ 0) (h1 : -1 ≤ s) : Real.log (q s) ≤ s / 2 := by
  rw [Real.log_le_iff_le_exp (q_pos s)]
  refine le_trans ?_ (Real.add_one_le_exp (s / 2))
  unfold q; nlinarith

/-- one eigenvalue -/
lemma contract {s l : ℝ} (hs0 : 0 < s) (hs1 : s ≤ 1) (hl : s * |l| ≤ 1) :
    (l - Real.log (q (s * l))) ^ 2 ≤ ((1 - s / 2) * l) ^ 2 := by
  rcases le_total 0 l with h | h
  · rw [abs_of_nonneg h] at hl
    have h0 : 0 ≤ s * l := by positivity
    have a1 := log_q_le h0
    have a2 := half_le_log_q h0 hl
    have : s * l ≤ l := mul_le_of_le_one_left h hs1
    exact pow_le_pow_left₀ (by linarith) (by linarith) 2
  · rw [abs_of_nonpos h] at hl
    have h0 : s * l ≤ 0 := mul_nonpos_of_nonneg_of_nonpos hs0.le h
    have a1 := le_log_q h0
    have a2 := log_q_le_half h0 (by linarith)
    have : l ≤ s * l := by nlinarith
    rw [← neg_sq, ← neg_sq ((1 - s / 2) * l)]
    exact pow_le_pow_left₀ (by linarith) (by linarith) 2

end C113

/-- **C113, SPD matrices, one step.**  With `0 < lr ≤ 1/2` and `2·lr·dist(x, y) ≤ 1` a step of
`RiemannianSGD` on the squared distance to `y` takes at least the fraction `lr` of the way to `y`. -/
theorem C113_spd_step {x y : Mat n} (hx : OnSPD x) (hy : OnSPD y) {lr : ℝ} (h0 : 0 < lr) (h1 : lr ≤ 1 / 2)
    (hd : 2 * lr * dist E .AIM x y ≤ 1) {G : Mat n}
    (hG : HasSymGrad (fun z => dist E .AIM z y ^ 2) G x) :
    OnSPD (retr x (-lr • egrad2rgrad x G)) ∧
    dist E .AIM (retr x (-lr • egrad2rgrad x G)) y ≤ (1 - lr) * dist E .AIM x y := by
  have e : -lr • egrad2rgrad x G = (2 * lr) • logmap E x y := by
    rw [(C112_spd E hx hy).2 G hG, smul_smul]; congr 1; ring
  rw [e]
  refine ⟨C28_retr_spd hx (by
    rw [symm_iff, transpose_smul, symm_iff.1 (C29_logmap_symm E hx)]), ?_⟩
  obtain ⟨l, hl, hl'⟩ := C113.dist_step E hx hy (2 * lr)
  have hD := C30_nonneg E x y
  refine le_of_sq_le_sq ?_ (mul_nonneg (by linarith) hD)
  rw [hl', mul_pow, hl, Finset.mul_sum]
  refine Finset.sum_le_sum fun i _ => ?_
  have hli : |l i| ≤ dist E .AIM x y := by
    refine abs_le_of_sq_le_sq ?_ hD
    rw [hl]
    exact Finset.single_le_sum (f := fun i => l i ^ 2) (fun j _ => sq_nonneg _) (Finset.mem_univ i)
  refine (C113.contract (by linarith) (by linarith) ?_).trans (le_of_eq ?_)
  · exact le_trans (mul_le_mul_of_nonneg_left hli (by linarith)) hd
  · rw [mul_pow]; congr 2; ring

/-- `backward()` of the squared distance to `y`. -/
def GradOfDist (y : Mat n) (g x : Fin n × Fin n → ℝ) : Prop :=
  HasSymGrad (fun z => dist E .AIM z y ^ 2) (Optim.toMat g) (Optim.toMat x)

lemma C113.next {y : Mat n} {lr : ℕ → ℝ} {x : ℕ → Fin n × Fin n → ℝ}
    (hrun : Descends (spd E) (GradOfDist E y) lr x) (t : ℕ) (hx : OnSPD (toMat (x t)))
    (hy : OnSPD y) : ∃ G, HasSymGrad (fun z => dist E .AIM z y ^ 2) G (toMat (x t)) ∧
      toMat (x (t + 1)) = retr (toMat (x t)) (-lr t • egrad2rgrad (toMat (x t)) G) := by
  obtain ⟨g, hg, h⟩ := hrun.next t
  refine ⟨toMat g, hg, ?_⟩
  have e : ∀ c : ℝ, ∀ m : Mat n, toMat (c • ofMat m) = c • m := fun c m => by
    ext i j; simp [toMat, ofMat]
  have e0 : ∀ m : Mat n, toMat (ofMat m) = m := fun m => by ext i j; simp [toMat, ofMat]
  have hs : OnSPD (retr (toMat (x t)) (-lr t • egrad2rgrad (toMat (x t)) (toMat g))) := by
    rw [(C112_spd E hx hy).2 _ hg]
    exact C28_retr_spd hx (by
      rw [symm_iff, transpose_smul, transpose_smul, symm_iff.1 (C29_logmap_symm E hx)])
  rcases h with h | h
  · rw [h]; simp only [spd, e, e0]
  · rw [h]; simp only [spd, e, e0]
    exact C28_projx_fixes E hs

/-- **C113, SPD matrices.**  With learning rates between `a > 0` and `1/2`, and `2·lr·dist ≤ 1` at the start,
training on the squared distance to `y` converges: after `t` steps the distance is at most `(1 - a)^t` times
the initial one. -/
theorem C113_spd {y : Mat n} (hy : OnSPD y) {a : ℝ} (ha : 0 < a) {lr : ℕ → ℝ}
    (hlr : ∀ t, a ≤ lr t ∧ lr t ≤ 1 / 2) {x : ℕ → Fin n × Fin n → ℝ}
    (hrun : Descends (spd E) (GradOfDist E y) lr x) (hx : OnSPD (toMat (x 0)))
    (hd : ∀ t, 2 * lr t * dist E .AIM (toMat (x 0)) y ≤ 1) (t : ℕ) :
    OnSPD (toMat (x t)) ∧
    dist E .AIM (toMat (x t)) y ≤ (1 - a) ^ t * dist E .AIM (toMat (x 0)) y := by
  have hD0 := C30_nonneg E (toMat (x 0)) y
  have ha1 : a ≤ 1 / 2 := (hlr 0).1.trans (hlr 0).2
  induction t with
  | zero => exact ⟨hx, by simp⟩
  | succ t ih =>
    obtain ⟨hs, hb⟩ := ih
    obtain ⟨G, hG, e⟩ := C113.next E hrun t hs hy
    have hp : (1 - a) ^ t ≤ 1 := pow_le_one₀ (by linarith) (by linarith)
    have hle : dist E .AIM (toMat (x t)) y ≤ dist E .AIM (toMat (x 0)) y :=
      hb.trans (mul_le_of_le_one_left hD0 hp)
    have h1 := hlr t
    have key := C113_spd_step E hs hy (lr := lr t) (by linarith) h1.2
      (le_trans (mul_le_mul_of_nonneg_left hle (by linarith)) (hd t)) hG
    rw [e]
    refine ⟨key.1, key.2.trans ?_⟩
    have hDt := C30_nonneg E (toMat (x t)) y
    calc (1 - lr t) * dist E .AIM (toMat (x t)) y ≤ (1 - a) * dist E .AIM (toMat (x t)) y :=
          mul_le_mul_of_nonneg_right (by linarith) hDt
      _ ≤ (1 - a) * ((1 - a) ^ t * dist E .AIM (toMat (x 0)) y) :=
          mul_le_mul_of_nonneg_left hb (by linarith)
      _ = _ := by ring

/-- Gradients exist at every SPD matrix, so from every start and for all learning rates there is a history
of training. -/
theorem C113_spd_exists {y : Mat n} (hy : OnSPD y) {x₀ : Mat n} (hx : OnSPD x₀) (lr : ℕ → ℝ) :
    ∃ x, x 0 = ofMat x₀ ∧ Descends (spd E) (GradOfDist E y) lr x := by
  classical
  have hex : ∀ z : Mat n, ∃ G, OnSPD z → HasSymGrad (fun z => dist E .AIM z y ^ 2) G z := fun z => by
    by_cases hz : OnSPD z
    · obtain ⟨G, hG⟩ := (C112_spd E hz hy).1
      exact ⟨G, fun _ => hG⟩
    · exact ⟨0, fun h => absurd h hz⟩
  choose G hG using hex
  let f : ℕ → Mat n := fun t => Nat.rec x₀ (fun t z => retr z (-lr t • egrad2rgrad z (G z))) t
  have hf : ∀ t, f (t + 1) = retr (f t) (-lr t • egrad2rgrad (f t) (G (f t))) := fun t => rfl
  have hs : ∀ t, OnSPD (f t) := by
    intro t
    induction t with
    | zero => exact hx
    | succ t ih =>
      rw [hf, (C112_spd E ih hy).2 _ (hG _ ih)]
      exact C28_retr_spd ih (by
        rw [symm_iff, transpose_smul, transpose_smul, symm_iff.1 (C29_logmap_symm E ih)])
  have e : ∀ c : ℝ, ∀ m : Mat n, toMat (c • ofMat m) = c • m := fun c m => by
    ext i j; simp [toMat, ofMat]
  have e0 : ∀ m : Mat n, toMat (ofMat m) = m := fun m => by ext i j; simp [toMat, ofMat]
  refine ⟨fun t => ofMat (f t), rfl, fun t => ⟨ofMat (G (f t)), ⟨lr t, 0, 0, 0, false, none⟩, none, ?_, rfl,
    rfl, rfl, Or.inl ?_⟩⟩
  · show HasSymGrad _ (toMat (ofMat (G (f t)))) (toMat (ofMat (f t)))
    rw [e0, e0]; exact hG _ (hs t)
  · simp only [sgdParam, lt_irrefl, if_false, zero_smul, add_zero, spd, e, e0]
    rw [hf]

namespace C113

/-- `y ≤ exp(-c) x` as quadratic forms bounds the relative eigenvalues. -/
lemma eig_le {x y : Mat n} (hx : OnSPD x) (hy : OnSPD y) {c : ℝ}
    (h : ∀ w : Fin n → ℝ, w ⬝ᵥ (y *ᵥ w) ≤ Real.exp (-c) * (w ⬝ᵥ (x *ᵥ w))) {e v}
    (hd : Dec ((symInvSqrtm2 E x).1 * y * (symInvSqrtm2 E x).1) e v) (i : Fin n) :
    Real.log (e i) ≤ -c := by
  have r := roots (E := E) hx
  have hp := (r.mid hy).pos hd
  generalize (symInvSqrtm2 E x).1 = R at *
  generalize (symInvSqrtm2 E x).2 = S at *
  have hq : ∀ m : Mat n, ∀ w : Fin n → ℝ, (R *ᵥ w) ⬝ᵥ (m *ᵥ (R *ᵥ w)) = w ⬝ᵥ ((R * m * R) *ᵥ w) := by
    intro m w
    rw [← Matrix.mulVec_mulVec, ← Matrix.mulVec_mulVec, Matrix.dotProduct_mulVec w,
      ← Matrix.mulVec_transpose, r.rsymm]
  have h1 := h (R *ᵥ (v *ᵥ Pi.single i 1))
  rw [hq, hq, r.rxr, Matrix.one_mulVec, ← fn_id hd, quad_fn, Matrix.mulVec_mulVec, hd.orth,
    Matrix.one_mulVec] at h1
  have h2 : (v *ᵥ Pi.single i 1) ⬝ᵥ (v *ᵥ Pi.single i 1) = 1 := by
    rw [Matrix.dotProduct_mulVec, ← Matrix.mulVec_transpose, Matrix.mulVec_mulVec, hd.orth,
      Matrix.one_mulVec]
    simp
  rw [h2, mul_one] at h1
  rw [Real.log_le_iff_le_exp (hp i)]
  refine le_trans (le_of_eq ?_) h1
  simp [Pi.single_apply]

/-- far above the target the step goes up -/
lemma up {x y : Mat n} (hx : OnSPD x) (hy : OnSPD y) {c s : ℝ} (hs : 0 < s) (hc : 3 ≤ s * c)
    (h : ∀ w : Fin n → ℝ, w ⬝ᵥ (y *ᵥ w) ≤ Real.exp (-c) * (w ⬝ᵥ (x *ᵥ w))) (w : Fin n → ℝ) :
    5 / 2 * (w ⬝ᵥ (x *ᵥ w)) ≤ w ⬝ᵥ (retr x (s • logmap E x y) *ᵥ w) := by
  have r := roots (E := E) hx
  obtain ⟨e, v, hd⟩ := exists_dec (r.mid hy).tr
  have hl := eig_le E hx hy h hd
  have hr := retr_log E hx hy s hd
  generalize retr x (s • logmap E x y) = z at *
  generalize (symInvSqrtm2 E x).1 = R at *
  generalize (symInvSqrtm2 E x).2 = S at *
  have hz : z = S * fn (fun l => q (s * Real.log l)) e v * S := by
    rw [← hr]
    calc z = (S * R) * z * (R * S) := by rw [r.sr, r.rs, one_mul, mul_one]
      _ = _ := by simp only [Matrix.mul_assoc]
  have hq : ∀ m : Mat n, w ⬝ᵥ ((S * m * S) *ᵥ w) = (S *ᵥ w) ⬝ᵥ (m *ᵥ (S *ᵥ w)) := by
    intro m
    rw [← Matrix.mulVec_mulVec, ← Matrix.mulVec_mulVec, Matrix.dotProduct_mulVec w,
      ← Matrix.mulVec_transpose, r.ssymm]
  have hxs : x = S * fn (fun _ => 1) e v * S := by
    rw [fn_const hd, one_smul, mul_one, r.ss]
  rw [hz, hq, quad_fn]
  conv_lhs => rw [hxs]
  rw [hq, quad_fn, Finset.mul_sum]
  refine Finset.sum_le_sum fun i _ => ?_
  have h3 : s * Real.log (e i) ≤ -3 := by
    have := mul_le_mul_of_nonneg_left (hl i) hs.le
    linarith
  have h4 : 5 / 2 ≤ q (s * Real.log (e i)) := by unfold q; nlinarith
  nlinarith [sq_nonneg ((vᵀ *ᵥ S *ᵥ w) i)]

end C113

/-- **C113 is false of SPD matrices that start far above the target.**  With learning rates of at least `a`
(for instance all equal to `a = 1/2`) training on the squared distance to `y` diverges from every `x` with
`y ≤ exp(-3/(2a))·x` as quadratic forms: every step multiplies the matrix by at least `5/2` and moves it
further away from `y`. -/
theorem C113_counterexample_spd (hn : 0 < n) {y : Mat n} (hy : OnSPD y) {a : ℝ} (ha : 0 < a) {lr : ℕ → ℝ}
    (hlr : ∀ t, a ≤ lr t) {x : ℕ → Fin n × Fin n → ℝ}
    (hrun : Descends (spd E) (GradOfDist E y) lr x) (hx : OnSPD (toMat (x 0)))
    (hfar : ∀ w : Fin n → ℝ, w ⬝ᵥ (y *ᵥ w) ≤ Real.exp (-(3 / (2 * a))) * (w ⬝ᵥ (toMat (x 0) *ᵥ w)))
    (t : ℕ) :
    (∀ w : Fin n → ℝ, (5 / 2) ^ t * (w ⬝ᵥ (toMat (x 0) *ᵥ w)) ≤ w ⬝ᵥ (toMat (x t) *ᵥ w)) ∧
    3 / (2 * a) + t * Real.log (5 / 2) ≤ dist E .AIM (toMat (x t)) y := by
  have hL : 0 < Real.log (5 / 2) := Real.log_pos (by norm_num)
  have key : OnSPD (toMat (x t)) ∧
      (∀ w : Fin n → ℝ, (5 / 2) ^ t * (w ⬝ᵥ (toMat (x 0) *ᵥ w)) ≤ w ⬝ᵥ (toMat (x t) *ᵥ w)) ∧
      ∀ w : Fin n → ℝ, w ⬝ᵥ (y *ᵥ w) ≤
        Real.exp (-(3 / (2 * a) + t * Real.log (5 / 2))) * (w ⬝ᵥ (toMat (x t) *ᵥ w)) := by
    induction t with
    | zero => exact ⟨hx, fun w => by simp, fun w => by simpa using hfar w⟩
    | succ t ih =>
      obtain ⟨hs, hg, hb⟩ := ih
      obtain ⟨G, hG, e⟩ := C113.next E hrun t hs hy
      have e' : -lr t • egrad2rgrad (toMat (x t)) G = (2 * lr t) • logmap E (toMat (x t)) y := by
        rw [(C112_spd E hs hy).2 G hG, smul_smul]; congr 1; ring
      rw [e'] at e
      have hlt := hlr t
      have h3 : 3 ≤ 2 * lr t * (3 / (2 * a) + t * Real.log (5 / 2)) := by
        have h4 : 2 * a * (3 / (2 * a)) = 3 := by field_simp
        have h5 : 0 < 3 / (2 * a) := by positivity
        have h6 : 2 * a * (3 / (2 * a)) ≤ 2 * lr t * (3 / (2 * a)) :=
          mul_le_mul_of_nonneg_right (by linarith) h5.le
        have h7 : 0 ≤ 2 * lr t * (t * Real.log (5 / 2)) :=
          mul_nonneg (by linarith) (mul_nonneg (Nat.cast_nonneg _) hL.le)
        linarith
      have hup := C113.up E hs hy (by linarith : 0 < 2 * lr t) h3 hb
      rw [← e] at hup
      refine ⟨?_, fun w => ?_, fun w => ?_⟩
      · rw [e]
        exact C28_retr_spd hs (by rw [symm_iff, transpose_smul, symm_iff.1 (C29_logmap_symm E hs)])
      · have h1 := hg w
        have h2 := hup w
        rw [pow_succ]; nlinarith
      · refine (hb w).trans ?_
        have h2 := hup w
        have e1 : Real.exp (-(3 / (2 * a) + t * Real.log (5 / 2))) =
            Real.exp (-(3 / (2 * a) + ((t + 1 : ℕ) : ℝ) * Real.log (5 / 2))) * (5 / 2) := by
          rw [← Real.exp_log (show (0:ℝ) < 5 / 2 by norm_num), ← Real.exp_add, Real.log_exp]
          congr 1; push_cast; ring
        rw [e1, mul_assoc]
        exact mul_le_mul_of_nonneg_left h2 (Real.exp_pos _).le
  obtain ⟨hs, hg, hb⟩ := key
  refine ⟨hg, ?_⟩
  have r := roots (E := E) hs
  obtain ⟨e, v, hd⟩ := exists_dec (r.mid hy).tr
  have hl := C113.eig_le E hs hy hb hd ⟨0, hn⟩
  have hc : 0 ≤ 3 / (2 * a) + t * Real.log (5 / 2) := by positivity
  refine le_of_sq_le_sq ?_ (C30_nonneg E _ _)
  rw [aim_eq E hs, C113.frobNorm_sq, frob_symLogm E hd]
  refine le_trans ?_ (Finset.single_le_sum (f := fun i => Real.log (e i) ^ 2) (fun j _ => sq_nonneg _)
    (Finset.mem_univ ⟨0, hn⟩))
  nlinarith

/-- The counterexample at the history with learning rate `1/2` from `1` to `exp(-3)·1`. -/
example (E : Eigh 2) : ∃ x, Descends (spd E) (GradOfDist E (Real.exp (-3) • (1 : Mat 2))) (fun _ => 1 / 2) x ∧
    ∀ t : ℕ, 3 + t * Real.log (5 / 2) ≤ dist E .AIM (toMat (x t)) (Real.exp (-3) • (1 : Mat 2)) := by
  have h1 : OnSPD (1 : Mat 2) := by simpa using smul_one_spd (n := 2) one_pos
  have hy : OnSPD (Real.exp (-3) • (1 : Mat 2)) := smul_one_spd (Real.exp_pos _)
  obtain ⟨x, h0, hr⟩ := C113_spd_exists E hy h1 (fun _ => 1 / 2)
  have e0 : toMat (x 0) = 1 := by rw [h0]; ext i j; simp [toMat, ofMat]
  refine ⟨x, hr, fun t => ?_⟩
  have := (C113_counterexample_spd E (by norm_num) hy (a := 1 / 2) (by norm_num) (fun _ => le_rfl) hr
    (e0 ▸ h1) (fun w => by
      rw [e0, Matrix.smul_mulVec, dotProduct_smul, smul_eq_mul]
      norm_num) t).2
  norm_num at this ⊢
  linarith

/-- The convergence theorem at a history with learning rate `1/4` from `1` to `exp(1/2)·1`. -/
example (E : Eigh 2) : ∃ x : ℕ → Fin 2 × Fin 2 → ℝ, x 0 = ofMat (1 : Mat 2) ∧
    Descends (spd E) (GradOfDist E (Real.exp (1 / 2) • (1 : Mat 2))) (fun _ => 1 / 4) x ∧ ∀ t : ℕ,
    dist E .AIM (toMat (x t)) (Real.exp (1 / 2) • (1 : Mat 2)) ≤ (3 / 4) ^ t := by
  have h1 : OnSPD (1 : Mat 2) := by simpa using smul_one_spd (n := 2) one_pos
  have hy : OnSPD (Real.exp (1 / 2) • (1 : Mat 2)) := smul_one_spd (Real.exp_pos _)
  obtain ⟨x, h0, hr⟩ := C113_spd_exists E hy h1 (fun _ => 1 / 4)
  have e0 : toMat (x 0) = 1 := by rw [h0]; ext i j; simp [toMat, ofMat]
  have hd : dist E .AIM (1 : Mat 2) (Real.exp (1 / 2) • (1 : Mat 2)) ≤ 1 := by
    have hdec : Dec (1 : Mat 2) (fun _ => 1) 1 := ⟨by simp, by simp⟩
    have h := C113.dist_fn E hdec (f := fun _ => 1) (g := fun _ => Real.exp (1 / 2))
      (fun _ => one_pos) (fun _ => Real.exp_pos _)
    rw [fn_const hdec, fn_const hdec, one_smul] at h
    refine le_of_sq_le_sq ?_ one_pos.le
    rw [h]
    norm_num [Fin.sum_univ_two]
  refine ⟨x, h0, hr, fun t => ?_⟩
  have := (C113_spd E hy (a := 1 / 4) (by norm_num) (fun _ => ⟨le_rfl, by norm_num⟩) hr (e0 ▸ h1)
    (fun t => by rw [e0]; linarith) t).2
  rw [e0] at this
  have hp : (0:ℝ) ≤ (1 - 1 / 4) ^ t := by positivity
  refine this.trans ((mul_le_of_le_one_right hp hd).trans (le_of_eq ?_))
  norm_num

end Geoopt.SPD
