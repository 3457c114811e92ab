import Verif.Model.SPD
import Verif.Spec.SPD
import Verif.Lemmas.Stiefel
import Mathlib.Analysis.Matrix.Spectrum
import Mathlib.Analysis.SpecialFunctions.Exponential

/-! Functional calculus of symmetric real matrices through explicit decompositions. -/

namespace Geoopt.SPD
open Matrix Geoopt.Linalg
variable {n : ℕ}

abbrev Mat (n : ℕ) := Matrix (Fin n) (Fin n) ℝ

/-- `x = v diag(e) vᵀ`, `v` orthogonal. -/
structure Dec (x : Mat n) (e : Fin n → ℝ) (v : Mat n) : Prop where
  orth : vᵀ * v = 1
  eq : x = v * diagonal e * vᵀ

theorem Dec.orth' {x : Mat n} {e v} (h : Dec x e v) : v * vᵀ = 1 := mul_eq_one_comm.1 h.orth

theorem symm_iff {x : Mat n} : Symm x ↔ xᵀ = x := by
  constructor
  · intro h; ext i j; exact h j i
  · intro h i j; conv_lhs => rw [← h]
    rfl

theorem upper_of_symm {x : Mat n} (h : Symm x) : upper x = x := by
  ext i j; unfold upper; simp only [of_apply]; split_ifs
  · rfl
  · exact h j i

theorem upper_symm (x : Mat n) : (upper x)ᵀ = upper x := by
  ext i j; unfold upper; simp only [transpose_apply, of_apply]
  rcases lt_trichotomy i j with h | h | h
  · rw [if_neg (not_le.2 h), if_pos h.le]
  · subst h; rfl
  · rw [if_pos h.le, if_neg (not_le.2 h)]

theorem exists_dec {x : Mat n} (h : xᵀ = x) : ∃ e v, Dec x e v := by
  have hA : x.IsHermitian := by
    unfold Matrix.IsHermitian; rw [Matrix.conjTranspose_eq_transpose_of_trivial, h]
  refine ⟨hA.eigenvalues, (hA.eigenvectorUnitary : Mat n), ?_, ?_⟩
  · have := (Matrix.mem_unitaryGroup_iff').1 hA.eigenvectorUnitary.2
    rwa [Matrix.star_eq_conjTranspose, Matrix.conjTranspose_eq_transpose_of_trivial] at this
  · have := hA.spectral_theorem
    rw [Unitary.conjStarAlgAut_apply] at this
    rw [Matrix.star_eq_conjTranspose, Matrix.conjTranspose_eq_transpose_of_trivial] at this
    exact this

/-- An `eigh` exists: theorems quantified over `Eigh n` are not vacuous. -/
noncomputable def someEigh (n : ℕ) : Eigh n where
  e x := (exists_dec (upper_symm x)).choose
  v x := (exists_dec (upper_symm x)).choose_spec.choose
  orth x := (exists_dec (upper_symm x)).choose_spec.choose_spec.orth
  eq x := (exists_dec (upper_symm x)).choose_spec.choose_spec.eq

theorem eigh_dec (E : Eigh n) {x : Mat n} (h : xᵀ = x) : Dec x (E.e x) (E.v x) :=
  ⟨E.orth x, by rw [← E.eq x, upper_of_symm (symm_iff.2 h)]⟩

/-- `f(x)` through a decomposition. -/
def fn (f : ℝ → ℝ) (e : Fin n → ℝ) (v : Mat n) : Mat n := v * diagonal (fun i => f (e i)) * vᵀ

theorem symFuncm_eq_fn (E : Eigh n) (f : ℝ → ℝ) (x : Mat n) :
    symFuncm E f x = fn f (E.e x) (E.v x) := rfl

theorem diag_semiconj {q : Mat n} {e e' : Fin n → ℝ} (h : q * diagonal e = diagonal e' * q)
    (f : ℝ → ℝ) : q * diagonal (fun i => f (e i)) = diagonal (fun i => f (e' i)) * q := by
  ext i j
  have hij := congrFun (congrFun h i) j
  rw [mul_diagonal, diagonal_mul] at hij ⊢
  by_cases hq : q i j = 0
  · rw [hq]; simp
  · have : e j = e' i := mul_left_cancel₀ hq (by rw [hij]; ring)
    rw [this]; ring

/-- A matrix intertwining `x` and `y` intertwines `f(x)` and `f(y)`. -/
theorem fn_semiconj {x y a : Mat n} {e e' v v'} (hx : Dec x e v) (hy : Dec y e' v')
    (h : a * x = y * a) (f : ℝ → ℝ) : a * fn f e v = fn f e' v' * a := by
  have h1 : (v'ᵀ * a * v) * diagonal e = diagonal e' * (v'ᵀ * a * v) := by
    have : v'ᵀ * (a * x) * v = v'ᵀ * (y * a) * v := by rw [h]
    rw [hx.eq, hy.eq] at this
    calc v'ᵀ * a * v * diagonal e = v'ᵀ * a * v * diagonal e * (vᵀ * v) := by rw [hx.orth, mul_one]
      _ = v'ᵀ * (a * (v * diagonal e * vᵀ)) * v := by simp only [Matrix.mul_assoc]
      _ = (v'ᵀ * v') * diagonal e' * v'ᵀ * a * v := by rw [this]; simp only [Matrix.mul_assoc]
      _ = _ := by rw [hy.orth, one_mul]; simp only [Matrix.mul_assoc]
  have h2 := diag_semiconj h1 f
  calc a * fn f e v = (v' * v'ᵀ) * a * (v * diagonal (fun i => f (e i)) * vᵀ) := by
        rw [hy.orth', one_mul]; rfl
    _ = v' * ((v'ᵀ * a * v) * diagonal (fun i => f (e i))) * vᵀ := by
        simp only [Matrix.mul_assoc]
    _ = v' * diagonal (fun i => f (e' i)) * v'ᵀ * a * (v * vᵀ) := by
        rw [h2]; simp only [Matrix.mul_assoc]
    _ = _ := by rw [hx.orth', mul_one]; rfl

/-- The result does not depend on the decomposition. -/
theorem fn_unique {x : Mat n} {e e' v v'} (h : Dec x e v) (h' : Dec x e' v') (f : ℝ → ℝ) :
    fn f e v = fn f e' v' := by
  have := fn_semiconj h h' (a := 1) (by rw [one_mul, mul_one]) f
  rwa [one_mul, mul_one] at this

theorem symFuncm_eq (E : Eigh n) (f : ℝ → ℝ) {x : Mat n} {e v} (h : Dec x e v) (hs : xᵀ = x) :
    symFuncm E f x = fn f e v := fn_unique (eigh_dec E hs) h f

theorem fn_dec {x : Mat n} {e v} (h : Dec x e v) (f : ℝ → ℝ) :
    Dec (fn f e v) (fun i => f (e i)) v := ⟨h.orth, rfl⟩

theorem Dec.symm {x : Mat n} {e v} (h : Dec x e v) : xᵀ = x := by
  rw [h.eq]; simp only [transpose_mul, transpose_transpose, diagonal_transpose, Matrix.mul_assoc]

theorem fn_symm (f : ℝ → ℝ) (e : Fin n → ℝ) (v : Mat n) : (fn f e v)ᵀ = fn f e v := by
  unfold fn
  simp only [transpose_mul, transpose_transpose, diagonal_transpose, Matrix.mul_assoc]

theorem fn_mul {v : Mat n} (h : vᵀ * v = 1) (f g : ℝ → ℝ) (e : Fin n → ℝ) :
    fn f e v * fn g e v = fn (fun t => f t * g t) e v := by
  unfold fn
  calc v * diagonal (fun i => f (e i)) * vᵀ * (v * diagonal (fun i => g (e i)) * vᵀ)
      = v * diagonal (fun i => f (e i)) * (vᵀ * v) * diagonal (fun i => g (e i)) * vᵀ := by
        simp only [Matrix.mul_assoc]
    _ = _ := by rw [h, mul_one, Matrix.mul_assoc v, diagonal_mul_diagonal]

theorem fn_congr {f g : ℝ → ℝ} {e : Fin n → ℝ} (v : Mat n) (h : ∀ i, f (e i) = g (e i)) :
    fn f e v = fn g e v := by unfold fn; simp only [h]

theorem fn_id {x : Mat n} {e v} (h : Dec x e v) : fn (fun t => t) e v = x := h.eq.symm

theorem fn_const {x : Mat n} {e v} (h : Dec x e v) (c : ℝ) : fn (fun _ => c) e v = c • 1 := by
  unfold fn
  rw [show (diagonal fun _ : Fin n => c) = c • (1 : Mat n) by
    rw [← Matrix.diagonal_one, ← Matrix.diagonal_smul]; congr 1; ext; simp]
  rw [Matrix.mul_smul, mul_one, Matrix.smul_mul, h.orth']

theorem fn_trace {v : Mat n} (h : vᵀ * v = 1) (f : ℝ → ℝ) (e : Fin n → ℝ) :
    (fn f e v).trace = ∑ i, f (e i) := by
  unfold fn
  rw [Matrix.trace_mul_comm, ← Matrix.mul_assoc, h, one_mul, Matrix.trace_diagonal]

theorem fn_det {v : Mat n} (h : vᵀ * v = 1) (f : ℝ → ℝ) (e : Fin n → ℝ) :
    (fn f e v).det = ∏ i, f (e i) := by
  unfold fn
  have hd : v.det * v.det = 1 := by
    have := congrArg Matrix.det h
    rwa [Matrix.det_mul, Matrix.det_transpose, Matrix.det_one] at this
  rw [Matrix.det_mul, Matrix.det_mul, Matrix.det_transpose, Matrix.det_diagonal]
  linear_combination (∏ i, f (e i)) * hd

theorem exp_fn {v : Mat n} (h : vᵀ * v = 1) (f : ℝ → ℝ) (e : Fin n → ℝ) :
    NormedSpace.exp (fn f e v) = fn (fun t => Real.exp (f t)) e v := by
  have hinv : v⁻¹ = vᵀ := Matrix.inv_eq_left_inv h
  have hu : IsUnit v := (Matrix.isUnit_iff_isUnit_det _).2 (Matrix.isUnit_det_of_left_inverse h)
  unfold fn
  rw [← hinv, Matrix.exp_conj _ _ hu, Matrix.exp_diagonal]
  congr 3
  ext i
  rw [Pi.coe_exp]
  rw [Real.exp_eq_exp_ℝ]

theorem quad_fn {v : Mat n} (f : ℝ → ℝ) (e : Fin n → ℝ) (w : Fin n → ℝ) :
    w ⬝ᵥ (fn f e v *ᵥ w) = ∑ i, f (e i) * ((vᵀ *ᵥ w) i) ^ 2 := by
  unfold fn
  rw [← Matrix.mulVec_mulVec, ← Matrix.mulVec_mulVec, Matrix.dotProduct_mulVec,
    ← Matrix.mulVec_transpose]
  simp only [dotProduct, Matrix.mulVec_diagonal]
  refine Finset.sum_congr rfl fun i _ => ?_
  ring

/-- All eigenvalues of an SPD matrix are positive. -/
theorem OnSPD.pos {x : Mat n} (hx : OnSPD x) {e v} (h : Dec x e v) (i : Fin n) : 0 < e i := by
  have hw : (v *ᵥ Pi.single i 1) ≠ 0 := by
    intro h0
    have : vᵀ *ᵥ (v *ᵥ Pi.single i 1) = (0 : Fin n → ℝ) := by rw [h0, Matrix.mulVec_zero]
    rw [Matrix.mulVec_mulVec, h.orth, Matrix.one_mulVec] at this
    have := congrFun this i
    simp at this
  have := hx.2 _ hw
  rw [← fn_id h, quad_fn, Matrix.mulVec_mulVec, h.orth, Matrix.one_mulVec] at this
  simpa [Pi.single_apply] using this

theorem onSPD_fn {x : Mat n} {e v} (h : Dec x e v) (f : ℝ → ℝ) (hf : ∀ i, 0 < f (e i)) :
    OnSPD (fn f e v) := by
  refine ⟨symm_iff.2 (fn_symm f e v), fun w hw => ?_⟩
  rw [quad_fn]
  have hne : vᵀ *ᵥ w ≠ 0 := by
    intro h0
    apply hw
    have : v *ᵥ (vᵀ *ᵥ w) = 0 := by rw [h0, Matrix.mulVec_zero]
    rwa [Matrix.mulVec_mulVec, h.orth', Matrix.one_mulVec] at this
  obtain ⟨i, hi⟩ := Function.ne_iff.1 hne
  refine Finset.sum_pos' (fun i _ => mul_nonneg (hf i).le (sq_nonneg _)) ⟨i, Finset.mem_univ _, ?_⟩
  exact mul_pos (hf i) (pow_pos (abs_pos.2 hi) 2 |>.trans_eq (sq_abs _))

theorem onSPSD_fn {e : Fin n → ℝ} {v : Mat n} (f : ℝ → ℝ) (hf : ∀ i, 0 ≤ f (e i)) :
    OnSPSD (fn f e v) := by
  refine ⟨symm_iff.2 (fn_symm f e v), fun w => ?_⟩
  rw [quad_fn]
  exact Finset.sum_nonneg fun i _ => mul_nonneg (hf i) (sq_nonneg _)

theorem OnSPD.tr {x : Mat n} (hx : OnSPD x) : xᵀ = x := symm_iff.1 hx.1

theorem OnSPD.dec {x : Mat n} (hx : OnSPD x) : ∃ e v, Dec x e v ∧ ∀ i, 0 < e i := by
  obtain ⟨e, v, h⟩ := exists_dec hx.tr
  exact ⟨e, v, h, hx.pos h⟩

theorem det_ne_of_onSPD {x : Mat n} (hx : OnSPD x) : 0 < x.det := by
  obtain ⟨e, v, h, hp⟩ := hx.dec
  rw [← fn_id h, fn_det h.orth]
  exact Finset.prod_pos fun i _ => hp i

theorem OnSPD.unit {x : Mat n} (hx : OnSPD x) : IsUnit x.det := (det_ne_of_onSPD hx).ne'.isUnit

/-- Congruence `a x aᵀ` of an SPD matrix by an invertible matrix is SPD. -/
theorem OnSPD.congr {x : Mat n} (hx : OnSPD x) {a : Mat n} (ha : IsUnit a.det) :
    OnSPD (a * x * aᵀ) := by
  refine ⟨symm_iff.2 ?_, fun w hw => ?_⟩
  · simp only [transpose_mul, transpose_transpose, Matrix.mul_assoc, hx.tr]
  · have : w ⬝ᵥ ((a * x * aᵀ) *ᵥ w) = (aᵀ *ᵥ w) ⬝ᵥ (x *ᵥ (aᵀ *ᵥ w)) := by
      rw [← Matrix.mulVec_mulVec, ← Matrix.mulVec_mulVec, Matrix.dotProduct_mulVec,
        ← Matrix.mulVec_transpose]
    rw [this]
    refine hx.2 _ fun h0 => hw ?_
    have hu : IsUnit aᵀ.det := by rwa [Matrix.det_transpose]
    have : aᵀ⁻¹ *ᵥ (aᵀ *ᵥ w) = 0 := by rw [h0, Matrix.mulVec_zero]
    rwa [Matrix.mulVec_mulVec, Matrix.nonsing_inv_mul _ hu, Matrix.one_mulVec] at this

/-- The square roots `p.1 = x^{-1/2}` and `p.2 = x^{1/2}` of `sym_inv_sqrtm2`. -/
structure Roots (x r s : Mat n) : Prop where
  rsymm : rᵀ = r
  ssymm : sᵀ = s
  rs : r * s = 1
  sr : s * r = 1
  ss : s * s = x
  inv : r * r = x⁻¹
  rxr : r * x * r = 1

theorem roots {E : Eigh n} {x : Mat n} (hx : OnSPD x) :
    Roots x (symInvSqrtm2 E x).1 (symInvSqrtm2 E x).2 := by
  have h := eigh_dec E hx.tr
  have hp := hx.pos h
  have e1 : (symInvSqrtm2 E x).1 = fn (fun t => (Real.sqrt t)⁻¹) (E.e x) (E.v x) := rfl
  have e2 : (symInvSqrtm2 E x).2 = fn Real.sqrt (E.e x) (E.v x) := rfl
  have hs : ∀ i, Real.sqrt (E.e x i) ≠ 0 := fun i => (Real.sqrt_pos.2 (hp i)).ne'
  have rs : (symInvSqrtm2 E x).1 * (symInvSqrtm2 E x).2 = 1 := by
    rw [e1, e2, fn_mul h.orth, fn_congr (f := fun t => (Real.sqrt t)⁻¹ * Real.sqrt t) (g := fun _ => 1) _
      (fun i => inv_mul_cancel₀ (hs i)),
      fn_const h, one_smul]
  have ss : (symInvSqrtm2 E x).2 * (symInvSqrtm2 E x).2 = x := by
    rw [e2, fn_mul h.orth, fn_congr (g := fun t => t) _ fun i => Real.mul_self_sqrt (hp i).le,
      fn_id h]
  have sr : (symInvSqrtm2 E x).2 * (symInvSqrtm2 E x).1 = 1 := mul_eq_one_comm.1 rs
  have rxr : (symInvSqrtm2 E x).1 * x * (symInvSqrtm2 E x).1 = 1 := by
    have aux : ∀ r s x : Mat n, r * s = 1 → s * r = 1 → s * s = x → r * x * r = 1 := by
      intro r s x h1 h2 h3
      rw [← h3, ← Matrix.mul_assoc, h1, one_mul, h2]
    exact aux _ _ _ rs sr ss
  refine ⟨fn_symm _ _ _, fn_symm _ _ _, rs, sr, ss, ?_, rxr⟩
  symm
  apply Matrix.inv_eq_left_inv
  have : (symInvSqrtm2 E x).1 * ((symInvSqrtm2 E x).1 * x) = 1 := mul_eq_one_comm.1 rxr
  rw [Matrix.mul_assoc, this]

theorem symInvSqrtm1_eq {E : Eigh n} {x : Mat n} (hx : OnSPD x) :
    symInvSqrtm1 E x = (symInvSqrtm2 E x).1 := by
  have h := eigh_dec E hx.tr
  have hp := hx.pos h
  refine fn_congr (v := E.v x) (f := fun t => t ^ (-0.5 : ℝ)) (g := fun t => (Real.sqrt t)⁻¹)
    fun i => ?_
  rw [show (-0.5 : ℝ) = -(1 / 2) by norm_num, Real.rpow_neg (hp i).le, Real.sqrt_eq_rpow]

theorem Roots.unit_r {x r s : Mat n} (h : Roots x r s) : IsUnit r.det :=
  Matrix.isUnit_det_of_right_inverse h.rs

theorem Roots.unit_s {x r s : Mat n} (h : Roots x r s) : IsUnit s.det :=
  Matrix.isUnit_det_of_right_inverse h.sr

/-- `x^{-1/2} y x^{-1/2}` is SPD. -/
theorem Roots.mid {x r s : Mat n} (h : Roots x r s) {y : Mat n} (hy : OnSPD y) :
    OnSPD (r * y * r) := by
  have := hy.congr h.unit_r
  rwa [h.rsymm] at this

theorem exp_symLogm {E : Eigh n} {x : Mat n} (hx : OnSPD x) :
    NormedSpace.exp (symLogm E x) = x := by
  have h := eigh_dec E hx.tr
  rw [symLogm, symFuncm_eq_fn, exp_fn h.orth,
    fn_congr (g := fun t => t) _ fun i => Real.exp_log (hx.pos h i), fn_id h]

theorem onSPD_exp {s : Mat n} (hs : sᵀ = s) : OnSPD (NormedSpace.exp s) := by
  obtain ⟨e, v, h⟩ := exists_dec hs
  rw [← fn_id h, exp_fn h.orth]
  exact onSPD_fn h _ fun i => Real.exp_pos _

theorem symLogm_exp {E : Eigh n} {s : Mat n} (hs : sᵀ = s) :
    symLogm E (NormedSpace.exp s) = s := by
  obtain ⟨e, v, h⟩ := exists_dec hs
  have hd : Dec (NormedSpace.exp s) (fun i => Real.exp (e i)) v := by
    have e0 : NormedSpace.exp s = fn Real.exp e v := by
      conv_lhs => rw [← fn_id h]
      rw [exp_fn h.orth]
    rw [e0]; exact fn_dec h Real.exp
  rw [symLogm, symFuncm_eq E _ hd hd.symm]
  have : fn Real.log (fun i => Real.exp (e i)) v = fn (fun t => t) e v := by
    unfold fn; simp only [Real.log_exp]
  rw [this, fn_id h]

theorem symLogm_symm (E : Eigh n) (x : Mat n) : (symLogm E x)ᵀ = symLogm E x := fn_symm _ _ _

/-- Similar symmetric matrices have the same trace of `f`. -/
theorem trace_fn_similar {x y a : Mat n} {e e' v v'} (hx : Dec x e v) (hy : Dec y e' v')
    (ha : IsUnit a.det) (h : a * x = y * a) (f : ℝ → ℝ) :
    ∑ i, f (e i) = ∑ i, f (e' i) := by
  have h1 := fn_semiconj hx hy h f
  rw [← fn_trace hx.orth f, ← fn_trace hy.orth f]
  have : fn f e v = a⁻¹ * (fn f e' v' * a) := by
    rw [← h1, ← Matrix.mul_assoc, Matrix.nonsing_inv_mul _ ha, one_mul]
  rw [this, Matrix.trace_mul_comm, Matrix.mul_assoc, Matrix.mul_nonsing_inv _ ha, mul_one]

theorem frob_self_symm {s : Mat n} (hs : sᵀ = s) : frob s s = (s * s).trace := by
  have := Stiefel.frob_eq_trace s s
  rw [this]; rw [hs]

theorem frob_symLogm (E : Eigh n) {m : Mat n} {e v} (h : Dec m e v) :
    frob (symLogm E m) (symLogm E m) = ∑ i, Real.log (e i) ^ 2 := by
  rw [frob_self_symm (symLogm_symm E m), symLogm, symFuncm_eq E _ h h.symm, fn_mul h.orth,
    fn_trace h.orth]
  refine Finset.sum_congr rfl fun i _ => ?_
  ring

theorem sym_of_symm {x : Mat n} (h : xᵀ = x) : sym x = x := by
  unfold sym; rw [h, ← two_smul ℝ x, smul_smul]; norm_num

theorem sym_symm (x : Mat n) : (sym x)ᵀ = sym x := by
  unfold sym; rw [transpose_smul, transpose_add, transpose_transpose, add_comm]

end Geoopt.SPD
