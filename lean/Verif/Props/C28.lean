import Verif.Lemmas.Spectral
import Mathlib.Analysis.InnerProductSpace.PiL2

/-!
# C28–C32: symmetric positive definite matrices, and the SPD parts of C19, C27 and C74

`E` ranges over all implementations of `torch.linalg.eigh(·, "U")`.
-/

namespace Geoopt.SPD
open Matrix Geoopt.Linalg

variable {n : ℕ} (E : Eigh n)

/-! ## Sample matrices -/

/-- `[[2,1],[1,2]]`. -/
def sampleA : Mat 2 := !![2, 1; 1, 2]
/-- `[[1,0],[0,5]]`. -/
def sampleB : Mat 2 := !![1, 0; 0, 5]

theorem sampleA_spd : OnSPD sampleA := by
  refine ⟨fun i j => by fin_cases i <;> fin_cases j <;> simp [sampleA], fun w hw => ?_⟩
  have : w ⬝ᵥ (sampleA *ᵥ w) = (w 0) ^ 2 + (w 1) ^ 2 + (w 0 + w 1) ^ 2 := by
    simp [sampleA, dotProduct, Matrix.mulVec, Fin.sum_univ_two]; ring
  rw [this]
  by_contra hle
  apply hw
  ext i; fin_cases i <;> simp <;> nlinarith [sq_nonneg (w 0), sq_nonneg (w 1), sq_nonneg (w 0 + w 1)]

theorem sampleB_spd : OnSPD sampleB := by
  refine ⟨fun i j => by fin_cases i <;> fin_cases j <;> simp [sampleB], fun w hw => ?_⟩
  have : w ⬝ᵥ (sampleB *ᵥ w) = (w 0) ^ 2 + 5 * (w 1) ^ 2 := by
    simp [sampleB, dotProduct, Matrix.mulVec, Fin.sum_univ_two]; ring
  rw [this]
  by_contra hle
  apply hw
  ext i; fin_cases i <;> simp <;> nlinarith [sq_nonneg (w 0), sq_nonneg (w 1)]

theorem sample_ne : sampleA ≠ sampleB := fun h => by
  have := congrFun (congrFun h 0) 0; simp [sampleA, sampleB] at this

theorem smul_one_spd {c : ℝ} (hc : 0 < c) : OnSPD (c • (1 : Mat n)) := by
  refine ⟨symm_iff.2 (by simp), fun w hw => ?_⟩
  rw [Matrix.smul_mulVec, Matrix.one_mulVec, dotProduct_smul, smul_eq_mul]
  refine mul_pos hc ?_
  obtain ⟨i, hi⟩ := Function.ne_iff.1 hw
  refine Finset.sum_pos' (fun i _ => mul_self_nonneg _) ⟨i, Finset.mem_univ _, ?_⟩
  exact mul_self_pos.2 hi

/-! ## C28 -/

/-- `projx` of any matrix is symmetric positive semidefinite. -/
theorem C28_projx_semidefinite (x : Mat n) : OnSPSD (projx E x) :=
  onSPSD_fn _ fun _ => abs_nonneg _

/-- `projx(x)` is positive definite exactly when `sym(x)` is non-singular. -/
theorem C28_projx_definite_iff (x : Mat n) :
    OnSPD (projx E x) ↔ ((1 / 2 : ℝ) • (x + xᵀ)).det ≠ 0 := by
  have hs : (1 / 2 : ℝ) • (x + xᵀ) = sym x := by
    unfold sym; rw [add_comm]; congr 1; norm_num
  have h := eigh_dec E (sym_symm x)
  have hdet : (sym x).det = ∏ i, E.e (sym x) i := by
    conv_lhs => rw [← fn_id h]
    rw [fn_det h.orth]
  rw [hs, hdet, Finset.prod_ne_zero_iff]
  constructor
  · intro hp i _ h0
    have := hp.pos (fn_dec h (fun t => |t|)) i
    simp only [h0, abs_zero, lt_irrefl] at this
  · intro hne
    exact onSPD_fn h _ fun i => abs_pos.2 (hne i (Finset.mem_univ _))

/-- `projx` leaves SPD matrices unchanged. -/
theorem C28_projx_fixes {x : Mat n} (hx : OnSPD x) : projx E x = x := by
  unfold projx
  rw [sym_of_symm hx.tr]
  have h := eigh_dec E hx.tr
  rw [symFuncm_eq_fn, fn_congr (g := fun t => t) _ fun i => abs_of_pos (hx.pos h i), fn_id h]

/-- `projx` is idempotent on every matrix. -/
theorem C28_projx_idempotent (x : Mat n) : projx E (projx E x) = projx E x := by
  have h := eigh_dec E (sym_symm x)
  have hd := fn_dec h (fun t => |t|)
  have e1 : projx E x = fn (fun t => |t|) (E.e (sym x)) (E.v (sym x)) := rfl
  rw [e1]; unfold projx
  rw [sym_of_symm hd.symm, symFuncm_eq E _ hd hd.symm]
  unfold fn; simp only [abs_abs]

/-- `projx` does not always give a point of the manifold: the zero matrix is projected on itself. -/
theorem C28_counterexample_projx_zero : ¬ OnSPD (projx E (0 : Mat n)) ∨ n = 0 := by
  rcases Nat.eq_zero_or_pos n with h | h
  · exact Or.inr h
  · left
    rw [C28_projx_definite_iff]
    haveI : Nonempty (Fin n) := ⟨⟨0, h⟩⟩
    simp [Matrix.det_zero]

/-- `retr(x,u)` is SPD for every SPD `x` and symmetric `u`. -/
theorem C28_retr_spd {x u : Mat n} (hx : OnSPD x) (hu : Symm u) : OnSPD (retr x u) := by
  have hut := symm_iff.1 hu
  have hxi : x⁻¹ᵀ = x⁻¹ := by rw [Matrix.transpose_nonsing_inv, hx.tr]
  have hss : (x + u + (0.5 : ℝ) • u * x⁻¹ * u)ᵀ = x + u + (0.5 : ℝ) • u * x⁻¹ * u := by
    simp only [transpose_add, transpose_mul, transpose_smul, hx.tr, hut, hxi, Matrix.smul_mul,
      Matrix.mul_smul, Matrix.mul_assoc]
  have e : retr x u = (1 / 2 : ℝ) • x + (1 / 2 : ℝ) • ((x + u) * x⁻¹ * (x + u)ᵀ) := by
    unfold retr symInvm
    simp only
    rw [sym_of_symm hss, transpose_add, hx.tr, hut]
    have h1 : (x + u) * x⁻¹ * (x + u) = x + u + u + u * x⁻¹ * u := by
      simp only [Matrix.add_mul, Matrix.mul_add, Matrix.mul_nonsing_inv _ hx.unit, one_mul,
        Matrix.mul_assoc, Matrix.nonsing_inv_mul _ hx.unit, mul_one]
      abel
    rw [h1]
    simp only [smul_add, Matrix.smul_mul]
    rw [show (0.5 : ℝ) = 1 / 2 by norm_num]
    have half : ∀ z : Mat n, (1 / 2 : ℝ) • z + (1 / 2 : ℝ) • z = z := fun z => by
      rw [← add_smul]; norm_num
    have e1 : (1 / 2 : ℝ) • x + ((1 / 2 : ℝ) • x + (1 / 2 : ℝ) • u + (1 / 2 : ℝ) • u
        + (1 / 2 : ℝ) • (u * x⁻¹ * u)) = ((1 / 2 : ℝ) • x + (1 / 2 : ℝ) • x)
        + ((1 / 2 : ℝ) • u + (1 / 2 : ℝ) • u) + (1 / 2 : ℝ) • (u * x⁻¹ * u) := by abel
    rw [e1, half, half]
  rw [e]
  have hi : ∀ w, 0 ≤ w ⬝ᵥ (x⁻¹ *ᵥ w) := by
    intro w
    by_cases hw : w = 0
    · simp [hw]
    · have hv : x⁻¹ *ᵥ w ≠ 0 := fun h0 => hw (by
        have : x *ᵥ (x⁻¹ *ᵥ w) = 0 := by rw [h0, Matrix.mulVec_zero]
        rwa [Matrix.mulVec_mulVec, Matrix.mul_nonsing_inv _ hx.unit, Matrix.one_mulVec] at this)
      have := hx.2 _ hv
      rw [Matrix.mulVec_mulVec, Matrix.mul_nonsing_inv _ hx.unit, Matrix.one_mulVec,
        dotProduct_comm] at this
      exact this.le
  refine ⟨symm_iff.2 ?_, fun w hw => ?_⟩
  · simp only [transpose_add, transpose_smul, transpose_mul, transpose_transpose, hx.tr, hxi, hut,
      Matrix.mul_assoc]
  · rw [Matrix.add_mulVec, dotProduct_add, Matrix.smul_mulVec, Matrix.smul_mulVec, dotProduct_smul,
      dotProduct_smul]
    have h1 := hx.2 w hw
    have h2 := hi ((x + u)ᵀ *ᵥ w)
    have h3 : w ⬝ᵥ (((x + u) * x⁻¹ * (x + u)ᵀ) *ᵥ w)
        = ((x + u)ᵀ *ᵥ w) ⬝ᵥ (x⁻¹ *ᵥ ((x + u)ᵀ *ᵥ w)) := by
      rw [← Matrix.mulVec_mulVec, ← Matrix.mulVec_mulVec, Matrix.dotProduct_mulVec,
        ← Matrix.mulVec_transpose]
    rw [h3]
    simp only [smul_eq_mul]
    linarith

/-- `retr(x,0) = x`. -/
theorem C28_retr_zero {x : Mat n} (hx : OnSPD x) : retr x 0 = x := by
  unfold retr; simp [sym_of_symm hx.tr]

/-- `expmap(x,u)` is SPD for every SPD `x` and symmetric `u`. -/
theorem C28_expmap_spd {x u : Mat n} (hx : OnSPD x) (hu : Symm u) : OnSPD (expmap E x u) := by
  have r := roots (E := E) hx
  unfold expmap symExpm
  have h1 : ((symInvSqrtm2 E x).1 * u * (symInvSqrtm2 E x).1)ᵀ
      = (symInvSqrtm2 E x).1 * u * (symInvSqrtm2 E x).1 := by
    simp only [transpose_mul, r.rsymm, symm_iff.1 hu, Matrix.mul_assoc]
  have := (onSPD_exp h1).congr r.unit_s
  rwa [r.ssymm] at this

/-- The point check accepts matrices that are not positive definite, and even negative definite
ones: every scalar matrix `c·I` with `-atol < c ≤ 0` passes. -/
theorem C28_check_accepts_negative {atol rtol c : ℝ} (ha : 0 < atol) (hr : 0 ≤ rtol)
    (hc : -atol < c) (hc0 : c ≤ 0) (hn : 0 < n) :
    CheckPoint E atol rtol (c • (1 : Mat n)) ∧ ¬ OnSPD (c • (1 : Mat n)) := by
  have hs : (c • (1 : Mat n))ᵀ = c • 1 := by simp
  refine ⟨⟨fun i j => ?_, fun i => ?_⟩, fun h => ?_⟩
  · rw [hs, sub_self, abs_zero]; positivity
  · have h := eigh_dec E hs
    have hd : ∀ (e : Fin n → ℝ) (v : Mat n), Dec (c • (1 : Mat n)) e v →
        diagonal e = c • (1 : Mat n) := by
      intro e v h
      have h2 := congrArg (fun m => vᵀ * m * v) h.eq
      beta_reduce at h2
      rw [Matrix.mul_smul, mul_one, Matrix.smul_mul, h.orth] at h2
      rw [h2]
      calc _ = (vᵀ * v) * diagonal e * (vᵀ * v) := by rw [h.orth, one_mul, mul_one]
        _ = _ := by simp only [Matrix.mul_assoc]
    replace hd := hd _ _ h
    have := congrFun (congrFun hd i) i
    simp at this
    rw [this]; exact hc
  · have := h.2 (fun _ => 1) (fun h0 => by have := congrFun h0 ⟨0, hn⟩; simp at this)
    rw [Matrix.smul_mulVec, Matrix.one_mulVec, dotProduct_smul, smul_eq_mul] at this
    have hp : 0 ≤ (fun _ : Fin n => (1 : ℝ)) ⬝ᵥ (fun _ => 1) := by simp [dotProduct]
    nlinarith

/-- Exactly symmetric positive definite matrices pass the check with any tolerance. -/
theorem C28_check_complete {atol rtol : ℝ} (ha : 0 ≤ atol) (hr : 0 ≤ rtol) {x : Mat n}
    (hx : OnSPD x) : CheckPoint E atol rtol x := by
  refine ⟨fun i j => ?_, fun i => ?_⟩
  · rw [hx.tr, sub_self, abs_zero]; positivity
  · have := hx.pos (eigh_dec E hx.tr) i
    linarith

example : OnSPD (expmap (someEigh 2) sampleA sampleB) :=
  C28_expmap_spd _ sampleA_spd sampleB_spd.1
example : OnSPD (retr sampleA (-(3 : ℝ) • sampleB)) :=
  C28_retr_spd sampleA_spd fun i j => by
    fin_cases i <;> fin_cases j <;> simp [sampleB]
example : ((1 / 2 : ℝ) • ((!![1, 2; 0, -1] : Mat 2) + (!![1, 2; 0, -1] : Mat 2)ᵀ)).det ≠ 0 := by
  rw [Matrix.det_fin_two]; simp; norm_num

/-! ## C29 -/

theorem C29_exp_log {x y : Mat n} (hx : OnSPD x) (hy : OnSPD y) :
    expmap E x (logmap E x y) = y := by
  have r := roots (E := E) hx
  unfold expmap logmap symExpm
  simp only
  generalize hR : (symInvSqrtm2 E x).1 = R at *
  generalize hS : (symInvSqrtm2 E x).2 = S at *
  have e1 : R * (S * symLogm E (R * y * R) * S) * R = symLogm E (R * y * R) := by
    calc _ = (R * S) * symLogm E (R * y * R) * (S * R) := by simp only [Matrix.mul_assoc]
      _ = _ := by rw [r.rs, r.sr, one_mul, mul_one]
  rw [e1, exp_symLogm (r.mid hy)]
  calc _ = (S * R) * y * (R * S) := by simp only [Matrix.mul_assoc]
    _ = _ := by rw [r.rs, r.sr, one_mul, mul_one]

theorem C29_log_exp {x u : Mat n} (hx : OnSPD x) (hu : Symm u) :
    logmap E x (expmap E x u) = u := by
  have r := roots (E := E) hx
  unfold expmap logmap symExpm
  simp only
  generalize hR : (symInvSqrtm2 E x).1 = R at *
  generalize hS : (symInvSqrtm2 E x).2 = S at *
  have hs : (R * u * R)ᵀ = R * u * R := by
    simp only [transpose_mul, r.rsymm, symm_iff.1 hu, Matrix.mul_assoc]
  have e1 : R * (S * NormedSpace.exp (R * u * R) * S) * R = NormedSpace.exp (R * u * R) := by
    calc _ = (R * S) * NormedSpace.exp (R * u * R) * (S * R) := by simp only [Matrix.mul_assoc]
      _ = _ := by rw [r.rs, r.sr, one_mul, mul_one]
  rw [e1, symLogm_exp hs]
  calc _ = (S * R) * u * (R * S) := by simp only [Matrix.mul_assoc]
    _ = _ := by rw [r.rs, r.sr, one_mul, mul_one]

/-- `logmap` gives a tangent (symmetric) vector. -/
theorem C29_logmap_symm {x y : Mat n} (hx : OnSPD x) : Symm (logmap E x y) := by
  have r := roots (E := E) hx
  refine symm_iff.2 ?_
  unfold logmap
  simp only [transpose_mul, r.ssymm, symLogm_symm, Matrix.mul_assoc]

/-- Both maps do not depend on which decomposition `eigh` picks. -/
theorem C29_decomposition_free (E' : Eigh n) {x y : Mat n} (hx : OnSPD x) (hy : OnSPD y)
    {u : Mat n} : expmap E x u = expmap E' x u ∧ logmap E x y = logmap E' x y := by
  have e1 : (symInvSqrtm2 E x).1 = (symInvSqrtm2 E' x).1 :=
    fn_unique (eigh_dec E hx.tr) (eigh_dec E' hx.tr) fun t => (Real.sqrt t)⁻¹
  have e2 : (symInvSqrtm2 E x).2 = (symInvSqrtm2 E' x).2 :=
    fn_unique (eigh_dec E hx.tr) (eigh_dec E' hx.tr) Real.sqrt
  constructor
  · unfold expmap; simp only [e1, e2]
  · unfold logmap; simp only [e1, e2]
    have hm := ((roots (E := E') hx).mid hy).tr
    rw [show symLogm E _ = symLogm E' _ from
      fn_unique (eigh_dec E hm) (eigh_dec E' hm) Real.log]

example : expmap (someEigh 2) sampleA (logmap (someEigh 2) sampleA sampleB) = sampleB :=
  C29_exp_log _ sampleA_spd sampleB_spd

/-! ## C30 -/

theorem frobNorm_eq_zero {x : Mat n} : frobNorm x = 0 ↔ x = 0 := by
  unfold frobNorm frob
  have h0 : ∀ i, 0 ≤ ∑ j, x i j * x i j := fun i => Finset.sum_nonneg fun j _ => mul_self_nonneg _
  rw [Real.sqrt_eq_zero (Finset.sum_nonneg fun i _ => h0 i),
    Finset.sum_eq_zero_iff_of_nonneg (fun i _ => h0 i)]
  constructor
  · intro h
    ext i j
    have := (Finset.sum_eq_zero_iff_of_nonneg (fun j _ => mul_self_nonneg _)).1
      (h i (Finset.mem_univ _)) j (Finset.mem_univ _)
    simpa using this
  · rintro rfl i _; simp

theorem aim_eq {x y : Mat n} (hx : OnSPD x) : dist E .AIM x y
    = frobNorm (symLogm E ((symInvSqrtm2 E x).1 * y * (symInvSqrtm2 E x).1)) := by
  simp only [dist, affineInvariant, symInvSqrtm1_eq hx]

theorem C30_nonneg (x y : Mat n) : 0 ≤ dist E .AIM x y := Real.sqrt_nonneg _

theorem C30_zero_iff {x y : Mat n} (hx : OnSPD x) (hy : OnSPD y) :
    dist E .AIM x y = 0 ↔ x = y := by
  have r := roots (E := E) hx
  rw [aim_eq E hx, frobNorm_eq_zero]
  generalize hR : (symInvSqrtm2 E x).1 = R at *
  generalize hS : (symInvSqrtm2 E x).2 = S at *
  constructor
  · intro h
    have h1 := exp_symLogm (E := E) (r.mid hy)
    rw [h, NormedSpace.exp_zero] at h1
    calc x = S * (1 : Mat n) * S := by rw [mul_one, r.ss]
      _ = (S * R) * y * (R * S) := by rw [h1]; simp only [Matrix.mul_assoc]
      _ = y := by rw [r.rs, r.sr, one_mul, mul_one]
  · rintro rfl
    rw [r.rxr]
    have := symLogm_exp (E := E) (s := (0 : Mat n)) (by simp)
    rwa [NormedSpace.exp_zero] at this

/-- The distance depends only on the eigenvalues of `x^{-1/2} y x^{-1/2}`; both symmetry and
invariance are similarity statements. -/
theorem aim_similar {x y x' y' : Mat n} (hx : OnSPD x) (hy : OnSPD y) (hx' : OnSPD x')
    (hy' : OnSPD y') {a : Mat n} (ha : IsUnit a.det) (σ : ℝ → ℝ)
    (hσ : ∀ t, 0 < t → Real.log (σ t) ^ 2 = Real.log t ^ 2)
    {m : Mat n} {e v} (hm : Dec m (fun i => σ (e i)) v)
    (hd : Dec ((symInvSqrtm2 E x).1 * y * (symInvSqrtm2 E x).1) e v)
    (h : a * m = ((symInvSqrtm2 E x').1 * y' * (symInvSqrtm2 E x').1) * a) :
    dist E .AIM x y = dist E .AIM x' y' := by
  have r := roots (E := E) hx
  have r' := roots (E := E) hx'
  obtain ⟨e', v', hd'⟩ := exists_dec (r'.mid hy').tr
  rw [aim_eq E hx, aim_eq E hx', frobNorm, frobNorm, frob_symLogm E hd, frob_symLogm E hd']
  congr 1
  have := trace_fn_similar hm hd' ha h fun t => Real.log t ^ 2
  rw [← this]
  refine Finset.sum_congr rfl fun i _ => ?_
  rw [hσ _ ((r.mid hy).pos hd i)]

theorem C30_symm {x y : Mat n} (hx : OnSPD x) (hy : OnSPD y) :
    dist E .AIM x y = dist E .AIM y x := by
  have r := roots (E := E) hx
  have r' := roots (E := E) hy
  obtain ⟨e, v, hd⟩ := exists_dec (r.mid hy).tr
  have hp := (r.mid hy).pos hd
  generalize hR : (symInvSqrtm2 E x).1 = R at *
  generalize hS : (symInvSqrtm2 E x).2 = S at *
  -- `S y⁻¹ S` is the inverse of `R y R`
  have hmul : fn (fun t => t⁻¹) e v * (R * y * R) = 1 := by
    rw [← fn_id hd, fn_mul hd.orth, fn_congr (f := fun t => t⁻¹ * t) (g := fun _ => 1) _
      (fun i => inv_mul_cancel₀ (hp i).ne'), fn_const hd, one_smul]
  have hinv : fn (fun t => t⁻¹) e v = S * y⁻¹ * S := by
    have h2 : (R * y * R) * (S * y⁻¹ * S) = 1 := by
      calc _ = R * (y * (R * S) * y⁻¹) * S := by simp only [Matrix.mul_assoc]
        _ = 1 := by rw [r.rs, mul_one, Matrix.mul_nonsing_inv _ hy.unit, mul_one, r.rs]
    calc _ = fn (fun t => t⁻¹) e v * ((R * y * R) * (S * y⁻¹ * S)) := by rw [h2, mul_one]
      _ = _ := by rw [← Matrix.mul_assoc, hmul, one_mul]
  have hm : Dec (S * y⁻¹ * S) (fun i => (e i)⁻¹) v := by
    rw [← hinv]; exact fn_dec hd fun t => t⁻¹
  have ha : IsUnit ((symInvSqrtm2 E y).1 * S).det := by
    rw [Matrix.det_mul]; exact r'.unit_r.mul r.unit_s
  refine aim_similar E hx hy hy hx ha (fun t => t⁻¹) (fun t _ => by rw [Real.log_inv, neg_sq])
    hm (by rw [hR]; exact hd) ?_
  rw [← r'.inv, ← r.ss]
  simp only [Matrix.mul_assoc]

theorem C30_congruence_invariant {x y a : Mat n} (hx : OnSPD x) (hy : OnSPD y)
    (ha : IsUnit a.det) : dist E .AIM (a * x * aᵀ) (a * y * aᵀ) = dist E .AIM x y := by
  have hX := hx.congr ha
  have hY := hy.congr ha
  have r := roots (E := E) hx
  have r' := roots (E := E) hX
  obtain ⟨e, v, hd⟩ := exists_dec (r.mid hy).tr
  symm
  have hu : IsUnit ((symInvSqrtm2 E (a * x * aᵀ)).1 * a * (symInvSqrtm2 E x).2).det := by
    rw [Matrix.det_mul, Matrix.det_mul]; exact (r'.unit_r.mul ha).mul r.unit_s
  refine aim_similar E hx hy hX hY hu (fun t => t) (fun _ _ => rfl) hd hd ?_
  generalize (symInvSqrtm2 E (a * x * aᵀ)).1 = R' at *
  generalize (symInvSqrtm2 E x).1 = R at *
  generalize (symInvSqrtm2 E x).2 = S at *
  have hB : R' * a * x * aᵀ * R' = 1 := by
    have := r'.rxr; simpa only [Matrix.mul_assoc] using this
  -- `aᵀ R' R' a S = R`
  have h1 : (S * aᵀ * R') * (R' * a * S) = 1 := by
    apply mul_eq_one_comm.1
    calc _ = R' * a * (S * S) * aᵀ * R' := by simp only [Matrix.mul_assoc]
      _ = 1 := by rw [r.ss, hB]
  have h2 : aᵀ * R' * (R' * a * S) = R := by
    calc _ = (R * S) * aᵀ * R' * (R' * a * S) := by rw [r.rs, one_mul]
      _ = R * ((S * aᵀ * R') * (R' * a * S)) := by simp only [Matrix.mul_assoc]
      _ = R := by rw [h1, mul_one]
  calc R' * a * S * (R * y * R) = R' * a * (S * R) * y * R := by simp only [Matrix.mul_assoc]
    _ = R' * a * y * (aᵀ * R' * (R' * a * S)) := by rw [r.sr, mul_one, h2]
    _ = _ := by simp only [Matrix.mul_assoc]

/-- Inversion is an isometry too. -/
theorem C30_inverse_invariant {x y : Mat n} (hx : OnSPD x) (hy : OnSPD y) :
    dist E .AIM x⁻¹ y⁻¹ = dist E .AIM y x := by
  have hxi : IsUnit x⁻¹.det := Matrix.isUnit_nonsing_inv_det _ hx.unit
  have hX : OnSPD x⁻¹ := by
    have := hx.congr hxi
    rwa [Matrix.transpose_nonsing_inv, hx.tr, Matrix.nonsing_inv_mul _ hx.unit, one_mul] at this
  have hyi : IsUnit y⁻¹.det := Matrix.isUnit_nonsing_inv_det _ hy.unit
  have hY : OnSPD y⁻¹ := by
    have := hy.congr hyi
    rwa [Matrix.transpose_nonsing_inv, hy.tr, Matrix.nonsing_inv_mul _ hy.unit, one_mul] at this
  -- `A = S_x R_y⁻¹`: use congruence by `R_x`, `R_y`
  have r := roots (E := E) hx
  have r' := roots (E := E) hy
  have r'' := roots (E := E) hX
  obtain ⟨e, v, hd⟩ := exists_dec (r''.mid hY).tr
  have ha : IsUnit ((symInvSqrtm2 E y).1 * (symInvSqrtm2 E x⁻¹).1).det := by
    rw [Matrix.det_mul]; exact r'.unit_r.mul r''.unit_r
  refine aim_similar E hX hY hy hx ha (fun t => t) (fun _ _ => rfl) hd hd ?_
  have h1 : (symInvSqrtm2 E x⁻¹).1 * (symInvSqrtm2 E x⁻¹).1 = x := by
    rw [r''.inv, Matrix.nonsing_inv_nonsing_inv _ hx.unit]
  generalize (symInvSqrtm2 E x⁻¹).1 = Q at *
  generalize (symInvSqrtm2 E y).1 = R at *
  calc R * Q * (Q * y⁻¹ * Q) = R * (Q * Q) * y⁻¹ * Q := by simp only [Matrix.mul_assoc]
    _ = R * x * (R * R) * Q := by rw [h1, r'.inv]
    _ = _ := by simp only [Matrix.mul_assoc]

/-- `dist(x,y)` is the norm of `logmap(x,y)`. -/
theorem C30_dist_eq_norm_log {x y : Mat n} (hx : OnSPD x) (_hy : OnSPD y) :
    dist E .AIM x y ^ 2 = inner x (logmap E x y) (logmap E x y) := by
  have r := roots (E := E) hx
  rw [aim_eq E hx]
  have hnn : 0 ≤ frob (symLogm E ((symInvSqrtm2 E x).1 * y * (symInvSqrtm2 E x).1))
      (symLogm E ((symInvSqrtm2 E x).1 * y * (symInvSqrtm2 E x).1)) :=
    Finset.sum_nonneg fun i _ => Finset.sum_nonneg fun j _ => mul_self_nonneg _
  rw [frobNorm, Real.sq_sqrt hnn, frob_self_symm (symLogm_symm E _)]
  unfold inner logmap symInvm
  simp only
  show _ = Matrix.trace _
  rw [← r.inv]
  generalize (symInvSqrtm2 E x).1 = R at *
  generalize (symInvSqrtm2 E x).2 = S at *
  generalize symLogm E (R * y * R) = L
  have : R * R * (S * L * S) * (R * R) * (S * L * S) = R * (L * L * S) := by
    calc _ = R * (R * S) * L * (S * R) * (R * S) * L * S := by simp only [Matrix.mul_assoc]
      _ = _ := by rw [r.rs, r.sr]; simp only [mul_one, Matrix.mul_assoc]
  rw [this, Matrix.trace_mul_comm R, Matrix.mul_assoc (L * L), r.sr, mul_one]

/-- Moving along `expmap` covers the length of the tangent vector. -/
theorem C30_dist_expmap {x u : Mat n} (hx : OnSPD x) (hu : Symm u) :
    dist E .AIM x (expmap E x u) ^ 2 = inner x u u := by
  rw [C30_dist_eq_norm_log E hx (C28_expmap_spd E hx hu), C29_log_exp E hx hu]

example : dist (someEigh 2) .AIM sampleA sampleB ≠ 0 := fun h =>
  sample_ne ((C30_zero_iff _ sampleA_spd sampleB_spd).1 h)
example : IsUnit (!![1, 2; 0, 3] : Mat 2).det := by rw [Matrix.det_fin_two]; norm_num

/-! ## C31 -/

theorem frobNorm_eq (x : Mat n) :
    frobNorm x = ‖WithLp.toLp 2 fun p : Fin n × Fin n => x p.1 p.2‖ := by
  rw [EuclideanSpace.norm_eq, frobNorm, frob, ← Finset.univ_product_univ, Finset.sum_product]
  congr 1
  refine Finset.sum_congr rfl fun i _ => Finset.sum_congr rfl fun j _ => ?_
  rw [Real.norm_eq_abs, sq_abs, sq]

/-- The log-Euclidean distance is a metric. -/
theorem C31_log_euclidean : IsMetric (dist E .LEM) where
  nonneg x y _ _ := Real.sqrt_nonneg _
  symm x y _ _ := by
    simp only [dist, logEuclidean, frobNorm, frob]
    congr 1
    refine Finset.sum_congr rfl fun i _ => Finset.sum_congr rfl fun j _ => ?_
    simp only [Matrix.sub_apply]; ring
  eq_iff x y hx hy := by
    simp only [dist, logEuclidean, frobNorm_eq_zero, sub_eq_zero]
    constructor
    · intro h
      rw [← exp_symLogm (E := E) hx, h, exp_symLogm hy]
    · rintro rfl; rfl
  triangle x y z _ _ _ := by
    simp only [dist, logEuclidean, frobNorm_eq]
    have : (WithLp.toLp 2 fun p : Fin n × Fin n => (symLogm E x - symLogm E z) p.1 p.2)
        = (WithLp.toLp 2 fun p : Fin n × Fin n => (symLogm E x - symLogm E y) p.1 p.2)
          + (WithLp.toLp 2 fun p : Fin n × Fin n => (symLogm E y - symLogm E z) p.1 p.2) := by
      ext p; simp
    rw [this]
    exact norm_add_le _ _

/-- The Stein divergence through the eigenvalues of `x^{-1/2} y x^{-1/2}`. -/
theorem stein_eq {x y : Mat n} (hx : OnSPD x) (hy : OnSPD y) {e : Fin n → ℝ} {v : Mat n}
    (hd : Dec ((symInvSqrtm2 E x).1 * y * (symInvSqrtm2 E x).1) e v) :
    dist E .SM x y = ∑ i, (Real.log ((1 + e i) / 2) - 1 / 2 * Real.log (e i)) := by
  have r := roots (E := E) hx
  have hp := (r.mid hy).pos hd
  have hxd := det_ne_of_onSPD hx
  generalize (symInvSqrtm2 E x).1 = R at *
  generalize (symInvSqrtm2 E x).2 = S at *
  have hSS : S.det * S.det = x.det := by rw [← Matrix.det_mul, r.ss]
  have hy' : y = S * (R * y * R) * S := by
    calc y = (S * R) * y * (R * S) := by rw [r.rs, r.sr, one_mul, mul_one]
      _ = _ := by simp only [Matrix.mul_assoc]
  have hdm : (R * y * R).det = ∏ i, e i := by
    conv_lhs => rw [← fn_id hd]
    rw [fn_det hd.orth]
  have hyd : y.det = x.det * ∏ i, e i := by
    rw [hy', Matrix.det_mul, Matrix.det_mul, hdm, ← hSS]; ring
  have hsum : (0.5 : ℝ) • (x + y) = S * fn (fun t => (1 + t) / 2) e v * S := by
    have h1 : fn (fun t => (1 + t) / 2) e v = (0.5 : ℝ) • ((1 : Mat n) + R * y * R) := by
      conv_rhs => rw [← fn_id hd]
      rw [show (1 : Mat n) = fn (fun _ => 1) e v by rw [fn_const hd, one_smul]]
      unfold fn
      rw [← Matrix.add_mul, ← Matrix.mul_add, Matrix.diagonal_add, ← Matrix.smul_mul,
        ← Matrix.mul_smul, ← Matrix.diagonal_smul]
      congr 3
      ext i; simp only [Pi.smul_apply, smul_eq_mul]; ring
    rw [h1, Matrix.mul_smul, Matrix.smul_mul, Matrix.mul_add, Matrix.add_mul, mul_one, r.ss, ← hy']
  simp only [dist, stein]
  rw [hsum, Matrix.det_mul, Matrix.det_mul, fn_det hd.orth, Matrix.det_mul, hyd]
  have hpos : ∀ i, 0 < (1 + e i) / 2 := fun i => by have := hp i; linarith
  have hpp : (∏ i, e i) ≠ 0 := (Finset.prod_pos fun i _ => hp i).ne'
  have hpq : (∏ i, (1 + e i) / 2) ≠ 0 := (Finset.prod_pos fun i _ => hpos i).ne'
  rw [show S.det * (∏ i, (1 + e i) / 2) * S.det = x.det * ∏ i, (1 + e i) / 2 by
    rw [← hSS]; ring, Real.log_mul hxd.ne' hpq, Real.log_mul hxd.ne' (mul_ne_zero hxd.ne' hpp),
    Real.log_mul hxd.ne' hpp, Real.log_prod (fun i _ => (hpos i).ne'),
    Real.log_prod (fun i _ => (hp i).ne'), Finset.sum_sub_distrib, ← Finset.mul_sum]
  rw [show (0.5 : ℝ) = 1 / 2 by norm_num]
  ring

theorem stein_term {t : ℝ} (ht : 0 < t) : 0 ≤ Real.log ((1 + t) / 2) - 1 / 2 * Real.log t ∧
    (Real.log ((1 + t) / 2) - 1 / 2 * Real.log t = 0 → t = 1) := by
  have h2 : (0:ℝ) < (1 + t) / 2 := by linarith
  have key : t ≤ ((1 + t) / 2) ^ 2 := by nlinarith [sq_nonneg (1 - t)]
  have e : Real.log ((1 + t) / 2) - 1 / 2 * Real.log t
      = 1 / 2 * (Real.log (((1 + t) / 2) ^ 2) - Real.log t) := by
    rw [Real.log_pow]; push_cast; ring
  rw [e]
  constructor
  · have := Real.log_le_log ht key
    linarith
  · intro h
    have h3 : Real.log (((1 + t) / 2) ^ 2) = Real.log t := by linarith
    have h4 := Real.log_injOn_pos (Set.mem_Ioi.2 (pow_pos h2 2)) (Set.mem_Ioi.2 ht) h3
    nlinarith [sq_nonneg (1 - t)]

theorem C31_stein_nonneg {x y : Mat n} (hx : OnSPD x) (hy : OnSPD y) : 0 ≤ dist E .SM x y := by
  obtain ⟨e, v, hd⟩ := exists_dec ((roots (E := E) hx).mid hy).tr
  rw [stein_eq E hx hy hd]
  exact Finset.sum_nonneg fun i _ => (stein_term (((roots (E := E) hx).mid hy).pos hd i)).1

theorem C31_stein_symm (x y : Mat n) : dist E .SM x y = dist E .SM y x := by
  simp only [dist, stein, Matrix.det_mul, add_comm x y, mul_comm x.det]

theorem C31_stein_zero_iff {x y : Mat n} (hx : OnSPD x) (hy : OnSPD y) :
    dist E .SM x y = 0 ↔ x = y := by
  have r := roots (E := E) hx
  obtain ⟨e, v, hd⟩ := exists_dec (r.mid hy).tr
  have hp := (r.mid hy).pos hd
  rw [stein_eq E hx hy hd, Finset.sum_eq_zero_iff_of_nonneg fun i _ => (stein_term (hp i)).1]
  constructor
  · intro h
    have h1 : (symInvSqrtm2 E x).1 * y * (symInvSqrtm2 E x).1 = 1 := by
      rw [← fn_id hd, fn_congr (f := fun t => t) (g := fun _ => 1) _ fun i =>
        (stein_term (hp i)).2 (h i (Finset.mem_univ _)), fn_const hd, one_smul]
    rw [← C30_zero_iff E hx hy, aim_eq E hx, h1, frobNorm_eq_zero]
    have := symLogm_exp (E := E) (s := (0 : Mat n)) (by simp)
    rwa [NormedSpace.exp_zero] at this
  · rintro rfl i _
    have : e i = 1 := by
      have hd' := hd
      rw [r.rxr] at hd'
      have h2 : diagonal e = (1 : Mat n) := by
        have h3 := congrArg (fun m => vᵀ * m * v) hd'.eq
        simp only [mul_one, hd'.orth] at h3
        rw [h3]
        calc diagonal e = (vᵀ * v) * diagonal e * (vᵀ * v) := by rw [hd'.orth, one_mul, mul_one]
          _ = _ := by simp only [Matrix.mul_assoc]
      have := congrFun (congrFun h2 i) i
      simpa using this
    rw [this]; norm_num

/-- What holds of the Stein metric: everything except the triangle inequality. -/
theorem C31_stein_partial {x y : Mat n} (hx : OnSPD x) (hy : OnSPD y) :
    0 ≤ dist E .SM x y ∧ dist E .SM x y = dist E .SM y x ∧ (dist E .SM x y = 0 ↔ x = y) :=
  ⟨C31_stein_nonneg E hx hy, C31_stein_symm E x y, C31_stein_zero_iff E hx hy⟩

/-- The Stein value returned by the code (the divergence, not its square root) violates the
triangle inequality in every positive dimension: the points `I, 4I, 16I`. -/
theorem C31_counterexample_stein_triangle (hn : 0 < n) :
    dist E .SM (1 : Mat n) ((4 : ℝ) • 1) + dist E .SM ((4 : ℝ) • 1) ((16 : ℝ) • (1 : Mat n))
      < dist E .SM (1 : Mat n) ((16 : ℝ) • 1) := by
  have key : ∀ a b : ℝ, 0 < a → 0 < b → dist E .SM (a • (1 : Mat n)) (b • 1)
      = n * (Real.log ((a + b) / 2) - 1 / 2 * Real.log (a * b)) := by
    intro a b ha hb
    simp only [dist, stein, ← add_smul, smul_smul, Matrix.smul_mul, one_mul, Matrix.det_smul,
      Matrix.det_one, mul_one, Fintype.card_fin, Real.log_pow]
    rw [show (0.5 : ℝ) * (a + b) = (a + b) / 2 by norm_num; ring]
    rw [show (0.5 : ℝ) = 1 / 2 by norm_num]
    ring
  have h1 := key 1 4 (by norm_num) (by norm_num)
  have h2 := key 4 16 (by norm_num) (by norm_num)
  have h3 := key 1 16 (by norm_num) (by norm_num)
  rw [one_smul] at h1 h3
  rw [h1, h2, h3, ← mul_add]
  refine mul_lt_mul_of_pos_left ?_ (by exact_mod_cast hn)
  have l4 : Real.log (1 * 4) = 2 * Real.log 2 := by
    rw [show (1 * 4 : ℝ) = 2 ^ 2 by norm_num, Real.log_pow]; norm_num
  have l64 : Real.log (4 * 16) = 6 * Real.log 2 := by
    rw [show (4 * 16 : ℝ) = 2 ^ 6 by norm_num, Real.log_pow]; norm_num
  have l16 : Real.log (1 * 16) = 4 * Real.log 2 := by
    rw [show (1 * 16 : ℝ) = 2 ^ 4 by norm_num, Real.log_pow]; norm_num
  have a1 : Real.log ((1 + 4) / 2) = Real.log 5 - Real.log 2 := by
    rw [← Real.log_div (by norm_num) (by norm_num)]; norm_num
  have a2 : Real.log ((4 + 16) / 2) = Real.log 5 + Real.log 2 := by
    rw [← Real.log_mul (by norm_num) (by norm_num)]; norm_num
  have a3 : Real.log ((1 + 16) / 2) = Real.log 17 - Real.log 2 := by
    rw [← Real.log_div (by norm_num) (by norm_num)]; norm_num
  have : 2 * Real.log 5 < Real.log 17 + Real.log 2 := by
    rw [← Real.log_mul (by norm_num) (by norm_num), show 2 * Real.log 5 = Real.log (5 ^ 2) by
      rw [Real.log_pow]; norm_num]
    exact Real.log_lt_log (by norm_num) (by norm_num)
  rw [l4, l64, l16, a1, a2, a3]
  linarith

theorem C31_stein_not_metric (hn : 0 < n) : ¬ IsMetric (dist E .SM) := fun h => by
  have := h.triangle 1 ((4 : ℝ) • 1) ((16 : ℝ) • (1 : Mat n))
    (by simpa using smul_one_spd (n := n) one_pos) (smul_one_spd (by norm_num))
    (smul_one_spd (by norm_num))
  exact absurd this (not_le.2 (C31_counterexample_stein_triangle E hn))

/-! ## C32 -/

/-- The matrix `G = x^{1/2} exp(½ log(x^{-1/2} y x^{-1/2})) x^{-1/2}` acting in `transp`. -/
noncomputable def transpMat (x y : Mat n) : Mat n :=
  (symInvSqrtm2 E x).2 *
    symExpm ((0.5 : ℝ) • symLogm E ((symInvSqrtm2 E x).1 * y * (symInvSqrtm2 E x).1)) *
    (symInvSqrtm2 E x).1

theorem half_exp {m : Mat n} (hm : OnSPD m) :
    (symExpm ((0.5 : ℝ) • symLogm E m))ᵀ = symExpm ((0.5 : ℝ) • symLogm E m) ∧
    symExpm ((0.5 : ℝ) • symLogm E m) * symExpm ((0.5 : ℝ) • symLogm E m) = m := by
  have hd := eigh_dec E hm.tr
  have hp := hm.pos hd
  have hX : symExpm ((0.5 : ℝ) • symLogm E m) = fn Real.sqrt (E.e m) (E.v m) := by
    rw [symLogm, symFuncm_eq_fn]
    have : (0.5 : ℝ) • fn Real.log (E.e m) (E.v m)
        = fn (fun t => 1 / 2 * Real.log t) (E.e m) (E.v m) := by
      unfold fn
      rw [← Matrix.smul_mul, ← Matrix.mul_smul, ← Matrix.diagonal_smul]
      congr 3; ext i; simp only [Pi.smul_apply, smul_eq_mul]; norm_num
    rw [this, symExpm, exp_fn hd.orth]
    refine fn_congr _ fun i => ?_
    have hl : 1 / 2 * Real.log (E.e m i) = Real.log (Real.sqrt (E.e m i)) := by
      rw [Real.log_sqrt (hp i).le]; ring
    rw [hl, Real.exp_log (Real.sqrt_pos.2 (hp i))]
  rw [hX]
  refine ⟨fn_symm _ _ _, ?_⟩
  rw [fn_mul hd.orth, fn_congr (g := fun t => t) _ fun i => Real.mul_self_sqrt (hp i).le, fn_id hd]

theorem transp_mat {x y v : Mat n} (hx : OnSPD x) (hy : OnSPD y) (hv : Symm v) :
    transp E x y v = transpMat E x y * v * (transpMat E x y)ᵀ := by
  have r := roots (E := E) hx
  have hsym : ((symInvSqrtm2 E x).1 * v * (symInvSqrtm2 E x).1)ᵀ
      = (symInvSqrtm2 E x).1 * v * (symInvSqrtm2 E x).1 := by
    simp only [transpose_mul, r.rsymm, symm_iff.1 hv, Matrix.mul_assoc]
  unfold transp transpMat
  simp only [sym_of_symm hsym, transpose_mul, r.rsymm, r.ssymm, (half_exp E (r.mid hy)).1]
  simp only [Matrix.mul_assoc]

theorem transpMat_unit {x y : Mat n} (hx : OnSPD x) (hy : OnSPD y) :
    IsUnit (transpMat E x y).det := by
  have r := roots (E := E) hx
  have h := (half_exp E (r.mid hy)).2
  have hXu := (r.mid hy).unit
  rw [← h, Matrix.det_mul] at hXu
  unfold transpMat
  rw [Matrix.det_mul, Matrix.det_mul]
  exact (r.unit_s.mul (isUnit_of_mul_isUnit_left hXu)).mul r.unit_r

theorem transpMat_map {x y : Mat n} (hx : OnSPD x) (hy : OnSPD y) :
    transpMat E x y * x * (transpMat E x y)ᵀ = y := by
  have r := roots (E := E) hx
  have h := half_exp E (r.mid hy)
  unfold transpMat
  simp only [transpose_mul, r.rsymm, r.ssymm, h.1]
  generalize (symInvSqrtm2 E x).1 = R at *
  generalize (symInvSqrtm2 E x).2 = S at *
  generalize symExpm ((0.5 : ℝ) • symLogm E (R * y * R)) = X at *
  calc _ = S * X * (R * x * R) * X * S := by simp only [Matrix.mul_assoc]
    _ = S * (X * X) * S := by rw [r.rxr, mul_one]; simp only [Matrix.mul_assoc]
    _ = (S * R) * y * (R * S) := by rw [h.2]; simp only [Matrix.mul_assoc]
    _ = y := by rw [r.rs, r.sr, one_mul, mul_one]

/-- Transporting two symmetric vectors from `x` to `y` keeps their inner product. -/
theorem C32_isometry {x y u v : Mat n} (hx : OnSPD x) (hy : OnSPD y) (hu : Symm u) (hv : Symm v) :
    inner y (transp E x y u) (transp E x y v) = inner x u v := by
  have main : ∀ G : Mat n, IsUnit G.det → G * x * Gᵀ = y →
      inner y (G * u * Gᵀ) (G * v * Gᵀ) = inner x u v := by
    intro G hG hxy
    have hGt : IsUnit Gᵀ.det := by rwa [Matrix.det_transpose]
    have hyi : y⁻¹ = Gᵀ⁻¹ * x⁻¹ * G⁻¹ := by
      rw [← hxy, Matrix.mul_inv_rev, Matrix.mul_inv_rev, Matrix.mul_assoc]
    unfold inner symInvm
    simp only
    show Matrix.trace _ = Matrix.trace _
    rw [hyi]
    have : Gᵀ⁻¹ * x⁻¹ * G⁻¹ * (G * u * Gᵀ) * (Gᵀ⁻¹ * x⁻¹ * G⁻¹) * (G * v * Gᵀ)
        = Gᵀ⁻¹ * (x⁻¹ * u * x⁻¹ * v * Gᵀ) := by
      calc _ = Gᵀ⁻¹ * x⁻¹ * (G⁻¹ * G) * u * (Gᵀ * Gᵀ⁻¹) * x⁻¹ * (G⁻¹ * G) * v * Gᵀ := by
            simp only [Matrix.mul_assoc]
        _ = _ := by
            rw [Matrix.nonsing_inv_mul _ hG, Matrix.mul_nonsing_inv _ hGt]
            simp only [mul_one, Matrix.mul_assoc]
    rw [this, Matrix.trace_mul_comm Gᵀ⁻¹, Matrix.mul_assoc (x⁻¹ * u * x⁻¹ * v),
      Matrix.mul_nonsing_inv _ hGt, mul_one]
  rw [transp_mat E hx hy hu, transp_mat E hx hy hv]
  exact main _ (transpMat_unit E hx hy) (transpMat_map E hx hy)

/-- The transported vector is symmetric, for every `v`. -/
theorem C32_transp_symm {x y : Mat n} (hx : OnSPD x) (hy : OnSPD y) (v : Mat n) :
    Symm (transp E x y v) := by
  have r := roots (E := E) hx
  refine symm_iff.2 ?_
  unfold transp
  simp only [transpose_mul, r.ssymm, (half_exp E (r.mid hy)).1, sym_symm]
  simp only [Matrix.mul_assoc]

/-- Transport from a point to itself is the identity on tangent vectors. -/
theorem C32_transp_self {x v : Mat n} (hx : OnSPD x) (hv : Symm v) : transp E x x v = v := by
  have r := roots (E := E) hx
  have h1 : transpMat E x x = 1 := by
    unfold transpMat
    have h0 := symLogm_exp (E := E) (s := (0 : Mat n)) (by simp)
    rw [NormedSpace.exp_zero] at h0
    rw [r.rxr, h0, smul_zero, symExpm, NormedSpace.exp_zero, mul_one, r.sr]
  rw [transp_mat E hx hx hv, h1, one_mul, transpose_one, mul_one]

/-- The velocity of the geodesic from `x` to `y` is transported to its velocity at `y`, i.e. minus
the direction from `y` back to `x`. -/
theorem C32_transp_log {x y : Mat n} (hx : OnSPD x) (hy : OnSPD y) :
    transp E x y (logmap E x y) = -logmap E y x := by
  have r := roots (E := E) hx
  have r' := roots (E := E) hy
  obtain ⟨e, v, hd⟩ := exists_dec (r.mid hy).tr
  obtain ⟨e', v', hd'⟩ := exists_dec (r'.mid hx).tr
  have hp := (r.mid hy).pos hd
  have hp' := (r'.mid hx).pos hd'
  have hX := half_exp E (r.mid hy)
  have hXL : symExpm ((0.5 : ℝ) • symLogm E ((symInvSqrtm2 E x).1 * y * (symInvSqrtm2 E x).1))
      * symLogm E ((symInvSqrtm2 E x).1 * y * (symInvSqrtm2 E x).1)
      = symLogm E ((symInvSqrtm2 E x).1 * y * (symInvSqrtm2 E x).1)
      * symExpm ((0.5 : ℝ) • symLogm E ((symInvSqrtm2 E x).1 * y * (symInvSqrtm2 E x).1)) := by
    unfold symExpm
    open scoped Matrix.Norms.Operator in
    exact (((Commute.refl (symLogm E ((symInvSqrtm2 E x).1 * y * (symInvSqrtm2 E x).1))).smul_right
      (0.5 : ℝ)).exp_right).symm.eq
  rw [transp_mat E hx hy (C29_logmap_symm E hx)]
  unfold transpMat logmap
  have hL : symLogm E ((symInvSqrtm2 E x).1 * y * (symInvSqrtm2 E x).1) = fn Real.log e v :=
    symFuncm_eq E _ hd hd.symm
  have hL' : symLogm E ((symInvSqrtm2 E y).1 * x * (symInvSqrtm2 E y).1) = fn Real.log e' v' :=
    symFuncm_eq E _ hd' hd'.symm
  simp only [transpose_mul, r.rsymm, r.ssymm, hX.1]
  rw [hL'] 
  generalize symExpm ((0.5 : ℝ) • symLogm E ((symInvSqrtm2 E x).1 * y * (symInvSqrtm2 E x).1)) = X at *
  rw [hL] at hXL ⊢
  generalize (symInvSqrtm2 E x).1 = R at *
  generalize (symInvSqrtm2 E x).2 = S at *
  generalize (symInvSqrtm2 E y).1 = R' at *
  generalize (symInvSqrtm2 E y).2 = S' at *
  -- intertwiner `A = R' S` between `R y R` and the inverse of `R' x R'`
  have hinv' : Dec (S' * x⁻¹ * S') (fun i => (e' i)⁻¹) v' := by
    have hmul : fn (fun t => t⁻¹) e' v' * (R' * x * R') = 1 := by
      rw [← fn_id hd', fn_mul hd'.orth, fn_congr (f := fun t => t⁻¹ * t) (g := fun _ => 1) _
        (fun i => inv_mul_cancel₀ (hp' i).ne'), fn_const hd', one_smul]
    have h2 : (R' * x * R') * (S' * x⁻¹ * S') = 1 := by
      calc _ = R' * (x * (R' * S') * x⁻¹) * S' := by simp only [Matrix.mul_assoc]
        _ = 1 := by rw [r'.rs, mul_one, Matrix.mul_nonsing_inv _ hx.unit, mul_one, r'.rs]
    have : S' * x⁻¹ * S' = fn (fun t => t⁻¹) e' v' := by
      calc _ = (fn (fun t => t⁻¹) e' v' * (R' * x * R')) * (S' * x⁻¹ * S') := by rw [hmul, one_mul]
        _ = _ := by rw [Matrix.mul_assoc, h2, mul_one]
    rw [this]; exact fn_dec hd' fun t => t⁻¹
  have hint : (R' * S) * (R * y * R) = (S' * x⁻¹ * S') * (R' * S) := by
    calc _ = R' * (S * R) * y * R := by simp only [Matrix.mul_assoc]
      _ = R' * (S' * S') * R := by rw [r.sr, mul_one, r'.ss]
      _ = (R' * S') * S' * R := by simp only [Matrix.mul_assoc]
      _ = S' * R := by rw [r'.rs, one_mul]
      _ = S' * (R * R) * S := by rw [Matrix.mul_assoc, Matrix.mul_assoc, r.rs, mul_one]
      _ = S' * x⁻¹ * (S' * R') * S := by rw [r'.sr, mul_one, r.inv]
      _ = _ := by simp only [Matrix.mul_assoc]
  have hlog := fn_semiconj hd hinv' hint Real.log
  have hneg : fn Real.log (fun i => (e' i)⁻¹) v' = -fn Real.log e' v' := by
    unfold fn; simp only [Real.log_inv]
    rw [← Matrix.diagonal_neg, Matrix.mul_neg, Matrix.neg_mul]
  rw [hneg] at hlog
  generalize fn Real.log e v = L at *
  generalize fn Real.log e' v' = L' at *
  -- `S' L' S' = - S' (R' S L) S⁻¹ ...`
  have e1 : S' * L' * S' = -(S * L * R * y) := by
    have h3 : L' = -(R' * S * L * (R * S')) := by
      have : -L' * (R' * S) * (R * S') = R' * S * L * (R * S') := by rw [← hlog]
      have h4 : (R' * S) * (R * S') = 1 := by
        calc _ = R' * (S * R) * S' := by simp only [Matrix.mul_assoc]
          _ = 1 := by rw [r.sr, mul_one, r'.rs]
      rw [Matrix.mul_assoc (-L'), h4, mul_one] at this
      rw [← this, neg_neg]
    rw [h3, Matrix.mul_neg, Matrix.neg_mul]
    congr 1
    calc _ = (S' * R') * S * L * R * (S' * S') := by simp only [Matrix.mul_assoc]
      _ = _ := by rw [r'.sr, one_mul, r'.ss]
  rw [e1, neg_neg]
  calc _ = S * X * (R * S) * L * (S * R) * X * S := by simp only [Matrix.mul_assoc]
    _ = S * (X * L) * X * S := by rw [r.rs, r.sr, mul_one, mul_one]; simp only [Matrix.mul_assoc]
    _ = S * L * (X * X) * S := by rw [hXL]; simp only [Matrix.mul_assoc]
    _ = S * L * R * y * (R * S) := by rw [hX.2]; simp only [Matrix.mul_assoc]
    _ = _ := by rw [r.rs, mul_one]

/-- `inner` is a symmetric, positive definite form on symmetric matrices. -/
theorem C32_inner_pos {x u : Mat n} (hx : OnSPD x) (hu : Symm u) :
    0 ≤ inner x u u ∧ (inner x u u = 0 → u = 0) := by
  have r := roots (E := someEigh n) hx
  have e : inner x u u = frob ((symInvSqrtm2 (someEigh n) x).1 * u * (symInvSqrtm2 (someEigh n) x).1)
      ((symInvSqrtm2 (someEigh n) x).1 * u * (symInvSqrtm2 (someEigh n) x).1) := by
    have hs : ((symInvSqrtm2 (someEigh n) x).1 * u * (symInvSqrtm2 (someEigh n) x).1)ᵀ
        = (symInvSqrtm2 (someEigh n) x).1 * u * (symInvSqrtm2 (someEigh n) x).1 := by
      simp only [transpose_mul, r.rsymm, symm_iff.1 hu, Matrix.mul_assoc]
    rw [frob_self_symm hs]
    unfold inner symInvm
    simp only
    show Matrix.trace _ = Matrix.trace _
    rw [← r.inv]
    generalize (symInvSqrtm2 (someEigh n) x).1 = R
    rw [show R * R * u * (R * R) * u = R * (R * u * (R * R) * u) by simp only [Matrix.mul_assoc],
      Matrix.trace_mul_comm R]
    congr 1
    simp only [Matrix.mul_assoc]
  rw [e]
  refine ⟨Finset.sum_nonneg fun i _ => Finset.sum_nonneg fun j _ => mul_self_nonneg _, fun h => ?_⟩
  have h0 : frobNorm ((symInvSqrtm2 (someEigh n) x).1 * u * (symInvSqrtm2 (someEigh n) x).1) = 0 := by
    rw [frobNorm, h, Real.sqrt_zero]
  rw [frobNorm_eq_zero] at h0
  generalize (symInvSqrtm2 (someEigh n) x).1 = R at *
  generalize (symInvSqrtm2 (someEigh n) x).2 = S at *
  calc u = (S * R) * u * (R * S) := by rw [r.rs, r.sr, one_mul, mul_one]
    _ = S * (R * u * R) * S := by simp only [Matrix.mul_assoc]
    _ = 0 := by rw [h0]; simp

theorem C32_inner_symm (x u v : Mat n) : inner x u v = inner x v u := by
  unfold inner
  simp only
  show Matrix.trace _ = Matrix.trace _
  rw [Matrix.mul_assoc, Matrix.trace_mul_comm, Matrix.mul_assoc, Matrix.mul_assoc, Matrix.mul_assoc]

example : inner sampleB (transp (someEigh 2) sampleA sampleB sampleA)
    (transp (someEigh 2) sampleA sampleB sampleB) = inner sampleA sampleA sampleB :=
  C32_isometry _ sampleA_spd sampleB_spd sampleA_spd.1 sampleB_spd.1

/-! ## C19, C27, C74 for SPD -/

/-- `egrad2rgrad` represents the Euclidean gradient in the metric `inner`. -/
theorem C19_spd {x g v : Mat n} (hx : OnSPD x) (hv : Symm v) :
    inner x (egrad2rgrad x g) v = ∑ i, ∑ j, g i j * v i j ∧ Symm (egrad2rgrad x g) := by
  constructor
  · unfold inner egrad2rgrad symInvm proju
    simp only
    show Matrix.trace _ = _
    rw [hx.tr]
    have : x⁻¹ * (x * sym g * x) * x⁻¹ * v = sym g * v := by
      calc _ = (x⁻¹ * x) * sym g * (x * x⁻¹) * v := by simp only [Matrix.mul_assoc]
        _ = _ := by rw [Matrix.nonsing_inv_mul _ hx.unit, Matrix.mul_nonsing_inv _ hx.unit, one_mul,
              mul_one]
    rw [this]
    unfold sym
    have hg : ∑ i, ∑ j, g i j * v i j = (gᵀ * v).trace := Stiefel.frob_eq_trace g v
    rw [hg, Matrix.smul_mul, Matrix.trace_smul, Matrix.add_mul, Matrix.trace_add]
    have : (g * v).trace = (gᵀ * v).trace := by
      rw [← Matrix.trace_transpose (g * v), Matrix.transpose_mul, symm_iff.1 hv,
        Matrix.trace_mul_comm]
    rw [this, smul_eq_mul]
    norm_num
    ring
  · refine symm_iff.2 ?_
    unfold egrad2rgrad proju
    simp only [transpose_mul, transpose_transpose, sym_symm, Matrix.mul_assoc, hx.tr]

/-- `proju` is the projection on symmetric matrices. -/
theorem C27_spd (x u : Mat n) :
    Symm (proju x u) ∧ proju x (proju x u) = proju x u ∧ (Symm u → proju x u = u) :=
  ⟨symm_iff.2 (sym_symm u), sym_of_symm (sym_symm u), fun h => sym_of_symm (symm_iff.1 h)⟩

/-- `random` is SPD for every noise draw; `origin` is SPD. -/
theorem C74_spd_random (z : Mat n) : OnSPD (random E z) :=
  onSPD_fn (eigh_dec E (sym_symm _)) _ fun _ => Real.exp_pos _

theorem C74_spd_origin : OnSPD (origin : Mat n) := by
  have := smul_one_spd (n := n) one_pos
  rwa [one_smul, ← Matrix.diagonal_one] at this

end Geoopt.SPD
