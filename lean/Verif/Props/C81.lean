import Verif.Props.C05

/-!
# C81: Möbius versions of linear maps and functions are `exp0 ∘ f ∘ log0`
-/

namespace Geoopt.Stereo
open Geoopt Matrix
variable {n m l : ℕ}

/-- The tangent version of a map: pull the point to the origin's tangent space, apply `f`, push
back.  `exp0`, `log0` are the library's `expmap0`, `logmap0`. -/
noncomputable def throughTangent (η k : ℝ) (f : Vec n → Vec m) (x : Vec n) : Vec m :=
  expmap0 η k (f (logmap0 η k x))

theorem log0_eq {η k : ℝ} {x : Vec n} (h : 1e-15 ≤ nrm x) :
    logmap0 η k x = (artanK η k (nrm x) * (nrm x)⁻¹) • x := by
  simp only [logmap0, max_eq_left h, smul_smul]

theorem exp0_eq {η k : ℝ} {u : Vec n} (h : 1e-15 ≤ nrm u) :
    expmap0 η k u = (tanK η k (nrm u) * (nrm u)⁻¹) • u := by
  simp only [expmap0, max_eq_left h, smul_smul]

theorem exp0_smul {η k c : ℝ} {u : Vec n} (hc : 0 ≤ c) (h : 1e-15 ≤ c * nrm u) :
    expmap0 η k (c • u) = (tanK η k (c * nrm u) * (nrm u)⁻¹) • u := by
  have hn : nrm (c • u) = c * nrm u := by rw [nrm_smul, abs_of_nonneg hc]
  have hp : 0 < c * nrm u := lt_of_lt_of_le (by norm_num) h
  have hc' : 0 < c := pos_of_mul_pos_left hp (nrm_nonneg u)
  rw [exp0_eq (by rw [hn]; exact h), hn, smul_smul]
  congr 1
  rw [mul_inv]
  field_simp

theorem all_zero_iff {v : Vec n} : (∀ i, v i = 0) ↔ v = 0 :=
  ⟨fun h => funext h, fun h i => by rw [h]; rfl⟩

/-- **C81.** `mobius_matvec(M, x) = exp0(M log0(x))` when `M x` is not zero, for norms above the
code's floors ... -/
theorem C81_matvec {η k : ℝ} {M : Matrix (Fin m) (Fin n) ℝ} {x : Vec n} (hx : 1e-15 ≤ nrm x)
    (hM : 1e-15 ≤ nrm (M.mulVec x)) (hr : RadiusOk η k (nrm x))
    (hu : 1e-15 ≤ nrm (M.mulVec (logmap0 η k x))) :
    mobiusMatvec η k M x = throughTangent η k M.mulVec x := by
  have hxp : 0 < nrm x := lt_of_lt_of_le (by norm_num) hx
  have hMp : 0 < nrm (M.mulVec x) := lt_of_lt_of_le (by norm_num) hM
  have ha := artanK_nonneg hr
  have hc : 0 ≤ artanK η k (nrm x) * (nrm x)⁻¹ := mul_nonneg ha (inv_nonneg.2 hxp.le)
  have hne : ¬ ∀ i, M.mulVec x i = 0 := fun h => by
    rw [all_zero_iff.1 h] at hMp; simp at hMp
  unfold throughTangent
  rw [log0_eq hx, Matrix.mulVec_smul] at hu ⊢
  rw [nrm_smul, abs_of_nonneg hc] at hu
  rw [exp0_smul hc hu]
  simp only [mobiusMatvec, if_neg hne, max_eq_left hx, max_eq_left hM, smul_smul]
  congr 3
  field_simp

/-- ... and also when `M x = 0`, with no condition at all. -/
theorem C81_matvec_zero {η k : ℝ} {M : Matrix (Fin m) (Fin n) ℝ} {x : Vec n}
    (hM : M.mulVec x = 0) :
    mobiusMatvec η k M x = throughTangent η k M.mulVec x ∧ mobiusMatvec η k M x = 0 := by
  have h0 : mobiusMatvec η k M x = 0 := by
    simp only [mobiusMatvec]
    rw [if_pos (all_zero_iff.2 hM)]
  refine ⟨?_, h0⟩
  rw [h0]
  unfold throughTangent
  simp only [logmap0, Matrix.mulVec_smul, hM, smul_zero]
  simp [expmap0]

/-- **C81.** An orthogonal matrix acts as it does on Euclidean space. -/
theorem C81_matvec_orthogonal {η k : ℝ} (hη : 0 ≤ η) {Q : Matrix (Fin n) (Fin n) ℝ}
    (hQ : Qᵀ * Q = 1) {x : Vec n} (hx : 1e-15 ≤ nrm x) (hr : RadiusOk η k (nrm x)) :
    mobiusMatvec η k Q x = Q.mulVec x := by
  have hn : nrm (Q.mulVec x) = nrm x := by
    unfold nrm
    rw [Matrix.dotProduct_mulVec, ← Matrix.mulVec_transpose, Matrix.mulVec_mulVec, hQ,
      Matrix.one_mulVec]
  have hxp : 0 < nrm x := lt_of_lt_of_le (by norm_num) hx
  have hne : ¬ ∀ i, Q.mulVec x i = 0 := fun h => by
    rw [← hn, all_zero_iff.1 h] at hxp; simp at hxp
  simp only [mobiusMatvec, if_neg hne, hn, max_eq_left hx, div_self hxp.ne', one_mul,
    tanK_artanK hη hr, smul_smul, mul_inv_cancel₀ hxp.ne', one_smul]

/-- **C81.** Composition: `(M N) ⊗ x = M ⊗ (N ⊗ x)`. -/
theorem C81_matvec_mul {η k : ℝ} (hη : 0 ≤ η) {M : Matrix (Fin l) (Fin m) ℝ}
    {N : Matrix (Fin m) (Fin n) ℝ} {x : Vec n} (hx : 1e-15 ≤ nrm x) (hN : 1e-15 ≤ nrm (N.mulVec x))
    (hM : 1e-15 ≤ nrm (M.mulVec (N.mulVec x)))
    (ht : HalfLenOk η k (nrm (N.mulVec x) / nrm x * artanK η k (nrm x)))
    (hy : 1e-15 ≤ nrm (mobiusMatvec η k N x))
    (hMy : 1e-15 ≤ nrm (M.mulVec (mobiusMatvec η k N x))) :
    mobiusMatvec η k (M * N) x = mobiusMatvec η k M (mobiusMatvec η k N x) := by
  have hxp : 0 < nrm x := lt_of_lt_of_le (by norm_num) hx
  have hNp : 0 < nrm (N.mulVec x) := lt_of_lt_of_le (by norm_num) hN
  have hMp : 0 < nrm (M.mulVec (N.mulVec x)) := lt_of_lt_of_le (by norm_num) hM
  have hne1 : ¬ ∀ i, N.mulVec x i = 0 := fun h => by
    rw [all_zero_iff.1 h] at hNp; simp at hNp
  have hne2 : ¬ ∀ i, M.mulVec (N.mulVec x) i = 0 := fun h => by
    rw [all_zero_iff.1 h] at hMp; simp at hMp
  set y := mobiusMatvec η k N x with hyd
  set t := nrm (N.mulVec x) / nrm x * artanK η k (nrm x) with htd
  have hy' : y = (tanK η k t * (nrm (N.mulVec x))⁻¹) • N.mulVec x := by
    rw [hyd]
    simp only [mobiusMatvec, if_neg hne1, max_eq_left hx, max_eq_left hN, smul_smul, ← htd]
  have hT := tanK_nonneg ht
  have hc : 0 ≤ tanK η k t * (nrm (N.mulVec x))⁻¹ := mul_nonneg hT (inv_nonneg.2 hNp.le)
  have hny : nrm y = tanK η k t := by
    rw [hy', nrm_smul, abs_of_nonneg hc, mul_assoc, inv_mul_cancel₀ hNp.ne', mul_one]
  have hTp : 0 < tanK η k t := by rw [← hny]; exact lt_of_lt_of_le (by norm_num) hy
  have hMye : M.mulVec y = (tanK η k t * (nrm (N.mulVec x))⁻¹) • M.mulVec (N.mulVec x) := by
    rw [hy', Matrix.mulVec_smul]
  have hnMy : nrm (M.mulVec y) = tanK η k t * (nrm (N.mulVec x))⁻¹ * nrm (M.mulVec (N.mulVec x)) := by
    rw [hMye, nrm_smul, abs_of_nonneg hc]
  have hMyp : 0 < nrm (M.mulVec y) := lt_of_lt_of_le (by norm_num) hMy
  have hne3 : ¬ ∀ i, M.mulVec y i = 0 := fun h => by
    rw [all_zero_iff.1 h] at hMyp; simp at hMyp
  have e1 : mobiusMatvec η k (M * N) x = (tanK η k (nrm (M.mulVec (N.mulVec x)) / nrm x *
      artanK η k (nrm x)) * (nrm (M.mulVec (N.mulVec x)))⁻¹) • M.mulVec (N.mulVec x) := by
    simp only [mobiusMatvec, ← Matrix.mulVec_mulVec, if_neg hne2, max_eq_left hx, max_eq_left hM,
      smul_smul]
  have e2 : mobiusMatvec η k M y = (tanK η k (nrm (M.mulVec y) / nrm y * artanK η k (nrm y)) *
      (nrm (M.mulVec y))⁻¹) • M.mulVec y := by
    simp only [mobiusMatvec, if_neg hne3, max_eq_left hy, max_eq_left hMy, smul_smul]
  rw [e1, e2, hny, artanK_tanK hη ht, hMye, smul_smul, ← hMye, hnMy]
  congr 1
  have e3 : tanK η k t * (nrm (N.mulVec x))⁻¹ * nrm (M.mulVec (N.mulVec x)) / tanK η k t * t
      = nrm (M.mulVec (N.mulVec x)) / nrm x * artanK η k (nrm x) := by
    have : ∀ T a b c d : ℝ, 0 < T → 0 < a → 0 < c → T * a⁻¹ * b / T * (a / c * d) = b / c * d := by
      intro T a b c d h1 h2 h3; field_simp
    exact this _ _ _ _ _ hTp hNp hxp
  rw [e3]
  field_simp

theorem tanK_neg_arg {η k t : ℝ} (h : t * kSqrt η k ≤ 1e38) (h' : -1e38 ≤ t * kSqrt η k) :
    tanK η k (-t) = -tanK η k t := by
  unfold tanK
  split_ifs
  · unfold tanKTaylor; ring
  · rw [neg_mul, tanhC_neg, mul_neg]
  · rw [neg_mul, min_eq_left (by linarith), min_eq_left h, Real.tan_neg, mul_neg]

/-- **C81.** A multiple of the identity matrix is Möbius scalar multiplication. -/
theorem C81_matvec_scalar {η k r : ℝ} {x : Vec n} (hx : 1e-15 ≤ nrm x)
    (hrx : 1e-15 ≤ |r| * nrm x) (hbig : |r * artanK η k (nrm x) * kSqrt η k| ≤ 1e38) :
    mobiusMatvec η k (r • (1 : Matrix (Fin n) (Fin n) ℝ)) x = mobiusScalarMul η k r x := by
  have hxp : 0 < nrm x := lt_of_lt_of_le (by norm_num) hx
  have hr0 : r ≠ 0 := fun h => by rw [h] at hrx; norm_num at hrx
  have hmx : (r • (1 : Matrix (Fin n) (Fin n) ℝ)).mulVec x = r • x := by
    rw [Matrix.smul_mulVec, Matrix.one_mulVec]
  have hn : nrm (r • x) = |r| * nrm x := nrm_smul _ _
  have hne : ¬ ∀ i, (r • x) i = 0 := fun h => by
    have := all_zero_iff.1 h
    rw [this, nrm_zero] at hn
    have : 0 < |r| * nrm x := mul_pos (abs_pos.2 hr0) hxp
    linarith
  have e : |r| * nrm x / nrm x = |r| := by field_simp
  simp only [mobiusMatvec, hmx, if_neg hne, hn, max_eq_left hx, max_eq_left hrx, mobiusScalarMul,
    smul_smul, e]
  congr 1
  have hb := abs_le.1 hbig
  rcases lt_or_gt_of_ne hr0 with h | h
  · rw [abs_of_neg h, neg_mul, tanK_neg_arg hb.2 hb.1]
    field_simp
  · rw [abs_of_pos h]
    field_simp

/-! ## Entrywise weights -/

/-- `mobius_pointwise_mul(w, x) = exp0(w · log0(x))` when some entry of `w·x` exceeds `1e-8`. -/
theorem C81_pointwise_partial {η k : ℝ} {w x : Vec n} (hx : 1e-15 ≤ nrm x)
    (hw : ∃ i, 1e-8 < |w i * x i|) (hr : RadiusOk η k (nrm x))
    (hu : 1e-15 ≤ nrm (fun i => w i * logmap0 η k x i)) :
    mobiusPointwiseMul η k w x = throughTangent η k (fun u i => w i * u i) x := by
  have hxp : 0 < nrm x := lt_of_lt_of_le (by norm_num) hx
  have hne : ¬ ∀ i, |w i * x i| ≤ 1e-8 := fun h => by
    obtain ⟨i, hi⟩ := hw; exact absurd (h i) (not_le.2 hi)
  set wx : Vec n := fun i => w i * x i with hwx
  have hbig : 1e-15 ≤ nrm wx := by
    obtain ⟨i, hi⟩ := hw
    have h1 : wx i ^ 2 ≤ wx ⬝ᵥ wx := by
      rw [sq]
      exact Finset.single_le_sum (f := fun j => wx j * wx j) (fun j _ => mul_self_nonneg _)
        (Finset.mem_univ i)
    have h2 : |wx i| ≤ nrm wx := by
      rw [← Real.sqrt_sq_eq_abs]; exact Real.sqrt_le_sqrt h1
    have h3 : (1e-15:ℝ) ≤ 1e-8 := by norm_num
    have h4 : |wx i| = |w i * x i| := rfl
    linarith
  have hwp : 0 < nrm wx := lt_of_lt_of_le (by norm_num) hbig
  have hc : 0 ≤ artanK η k (nrm x) * (nrm x)⁻¹ :=
    mul_nonneg (artanK_nonneg hr) (inv_nonneg.2 hxp.le)
  have e : (fun i => w i * logmap0 η k x i) = (artanK η k (nrm x) * (nrm x)⁻¹) • wx := by
    funext i
    rw [log0_eq hx]
    simp only [Pi.smul_apply, smul_eq_mul, hwx]
    ring
  change _ = expmap0 η k (fun i => w i * logmap0 η k x i)
  rw [e] at hu ⊢
  rw [nrm_smul, abs_of_nonneg hc] at hu
  rw [exp0_smul hc hu]
  have e2 : mobiusPointwiseMul η k w x =
      (tanK η k (nrm wx / nrm x * artanK η k (nrm x)) * (nrm wx)⁻¹) • wx := by
    simp only [mobiusPointwiseMul, if_neg hne, ← hwx, max_eq_left hx, max_eq_left hbig, smul_smul]
  rw [e2]
  congr 3
  field_simp

/-- The property fails for small products: weight one sends every point with entries up to `1e-8`
to the origin, while `exp0(1 · log0(x)) = x`. -/
theorem C81_counterexample_pointwise {η k : ℝ} {x : Vec n} (h : ∀ i, |x i| ≤ 1e-8) :
    mobiusPointwiseMul η k (fun _ => 1) x = 0 := by
  simp only [mobiusPointwiseMul, one_mul]
  exact if_pos h

/-- The same weights as a diagonal matrix give the right answer. -/
theorem C81_pointwise_vs_matvec {η k : ℝ} {w x : Vec n} (hw : ∃ i, 1e-8 < |w i * x i|) :
    mobiusPointwiseMul η k w x = mobiusMatvec η k (Matrix.diagonal w) x := by
  have e : (Matrix.diagonal w).mulVec x = fun i => w i * x i := by
    funext i; rw [Matrix.mulVec_diagonal]
  have hne : ¬ ∀ i, |w i * x i| ≤ 1e-8 := fun h => by
    obtain ⟨i, hi⟩ := hw; exact absurd (h i) (not_le.2 hi)
  have hne' : ¬ ∀ i, w i * x i = 0 := fun h => hne fun i => by rw [h i]; norm_num
  simp only [mobiusPointwiseMul, mobiusMatvec, e, if_neg hne, if_neg hne']

/-! ## Functions -/

/-- **C81.** `mobius_fn_apply` and `mobius_fn_apply_chain` go through the tangent space once; the
empty chain returns the point. -/
theorem C81_fn_apply (η k : ℝ) (f : Vec n → Vec m) (x : Vec n) (g : Vec n → Vec n)
    (fns : List (Vec n → Vec n)) :
    mobiusFnApply η k f x = throughTangent η k f x ∧
    mobiusFnApplyChain η k x [] = x ∧
    mobiusFnApplyChain η k x (g :: fns) =
      throughTangent η k (fun u => fns.foldl (fun a h => h a) (g u)) x := by
  refine ⟨rfl, by simp [mobiusFnApplyChain], ?_⟩
  simp [mobiusFnApplyChain, throughTangent]

theorem log0_exp0 {η k : ℝ} (hη : 0 ≤ η) {u : Vec n} (hu : 1e-15 ≤ nrm u)
    (ht : HalfLenOk η k (nrm u)) (hr : 1e-15 ≤ tanK η k (nrm u)) :
    logmap0 η k (expmap0 η k u) = u := by
  have hup : 0 < nrm u := lt_of_lt_of_le (by norm_num) hu
  have htp : 0 < tanK η k (nrm u) := lt_of_lt_of_le (by norm_num) hr
  have hn : nrm (expmap0 η k u) = tanK η k (nrm u) := by
    rw [exp0_eq hu, nrm_smul, abs_of_nonneg (mul_nonneg htp.le (inv_nonneg.2 hup.le)), mul_assoc,
      inv_mul_cancel₀ hup.ne', mul_one]
  rw [log0_eq (by rw [hn]; exact hr), hn, artanK_tanK hη ht, exp0_eq hu, smul_smul]
  have : nrm u * (tanK η k (nrm u))⁻¹ * (tanK η k (nrm u) * (nrm u)⁻¹) = 1 := by field_simp
  rw [this, one_smul]

/-- **C81.** Applying two functions one after the other is the chain of the two. -/
theorem C81_chain {η k : ℝ} (hη : 0 ≤ η) (f g : Vec n → Vec n) (x : Vec n)
    (hu : 1e-15 ≤ nrm (f (logmap0 η k x))) (ht : HalfLenOk η k (nrm (f (logmap0 η k x))))
    (hr : 1e-15 ≤ tanK η k (nrm (f (logmap0 η k x)))) :
    mobiusFnApply η k g (mobiusFnApply η k f x) = mobiusFnApplyChain η k x [f, g] := by
  rw [mobiusFnApply, mobiusFnApply, log0_exp0 hη hu ht hr]
  simp [mobiusFnApplyChain]

/-! ## The hypotheses are met -/

/-- In the flat case all conditions are about sizes only. -/
example : mobiusMatvec 0 0 (Matrix.of ![![0, 2], ![0, 0]]) ![3, 4] =
    throughTangent 0 0 (Matrix.of ![![0, 2], ![0, 0]] : Matrix (Fin 2) (Fin 2) ℝ).mulVec ![3, 4] := by
  have hn : nrm (![3, 4] : Vec 2) = 5 := by
    unfold nrm; rw [show (![3, 4] : Vec 2) ⬝ᵥ ![3, 4] = 5 ^ 2 by
      simp [dotProduct, Fin.sum_univ_two]; norm_num]
    exact Real.sqrt_sq (by norm_num)
  have hm : (Matrix.of ![![0, 2], ![0, 0]] : Matrix (Fin 2) (Fin 2) ℝ).mulVec ![3, 4] = ![8, 0] := by
    ext i; fin_cases i <;> simp [Matrix.mulVec, dotProduct, Fin.sum_univ_two] <;> norm_num
  have hn8 : nrm (![8, 0] : Vec 2) = 8 := by
    unfold nrm; rw [show (![8, 0] : Vec 2) ⬝ᵥ ![8, 0] = 8 ^ 2 by
      simp [dotProduct, Fin.sum_univ_two]; norm_num]
    exact Real.sqrt_sq (by norm_num)
  apply C81_matvec
  · rw [hn]; norm_num
  · rw [hm, hn8]; norm_num
  · rw [hn]; exact ⟨by norm_num, Or.inl rfl⟩
  · rw [log0_eq (by rw [hn]; norm_num), Matrix.mulVec_smul, hm, artanK_zero_curv, hn]
    norm_num [hn8]

/-- A hyperbolic case of the composition law: its conditions hold for `|N x| ≤ |x|`. -/
example {η k : ℝ} (hη : 0 ≤ η) (hk : k < -1e-8) {N : Matrix (Fin m) (Fin n) ℝ} {x : Vec n}
    (hx : 1e-15 ≤ nrm x) (hr : nrm x * Real.sqrt (|k| + η) ≤ 1 - 1e-7)
    (hN : nrm (N.mulVec x) ≤ nrm x) :
    HalfLenOk η k (nrm (N.mulVec x) / nrm x * artanK η k (nrm x)) := by
  have hxp : 0 < nrm x := lt_of_lt_of_le (by norm_num) hx
  exact halfLenOk_artanK hη ⟨hxp.le, Or.inr (Or.inr ⟨hk, hr⟩)⟩
    (div_nonneg (nrm_nonneg _) hxp.le) ((div_le_one hxp).2 hN)

end Geoopt.Stereo
