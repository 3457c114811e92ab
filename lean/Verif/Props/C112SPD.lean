import Verif.Spec.Gradient
import Verif.Props.C108

/-!
# C112 for SPD matrices

`dist²` is a spectral function of `y^{-1/2} x y^{-1/2}`.  For two symmetric matrices `A`, `B` with
eigenvalues `aᵢ`, `bⱼ` and `w = (uᵀ v)²` the squared overlaps of their eigenvectors,
`tr f(B) - tr f(A) - tr f'(A)(B - A) = Σ wᵢⱼ (f bⱼ - f aᵢ - f' aᵢ (bⱼ - aᵢ))` and
`‖B - A‖² = Σ wᵢⱼ (bⱼ - aᵢ)²`: a second order bound of `f` bounds the remainder.
-/

namespace Geoopt.SPD
open Matrix Geoopt.Linalg
variable {n : ℕ} (E : Eigh n)

namespace C112

/-- squared overlaps of the eigenvectors -/
def ov (u v : Mat n) (i j : Fin n) : ℝ := ((uᵀ * v) i j) ^ 2

lemma ov_nonneg (u v : Mat n) (i j : Fin n) : 0 ≤ ov u v i j := sq_nonneg _

lemma ov_row {u v : Mat n} (hu : uᵀ * u = 1) (hv : vᵀ * v = 1) (i : Fin n) :
    ∑ j, ov u v i j = 1 := by
  have h : (uᵀ * v) * (uᵀ * v)ᵀ = 1 := by
    rw [transpose_mul, transpose_transpose, Matrix.mul_assoc, ← Matrix.mul_assoc v,
      mul_eq_one_comm.1 hv, one_mul, hu]
  have := congrFun (congrFun h i) i
  rw [Matrix.mul_apply, Matrix.one_apply_eq] at this
  rw [← this]
  exact Finset.sum_congr rfl fun j _ => by rw [ov, transpose_apply, sq]

lemma ov_comm (u v : Mat n) (i j : Fin n) : ov u v i j = ov v u j i := by
  unfold ov
  rw [← transpose_apply (uᵀ * v), transpose_mul, transpose_transpose]

lemma ov_col {u v : Mat n} (hu : uᵀ * u = 1) (hv : vᵀ * v = 1) (j : Fin n) :
    ∑ i, ov u v i j = 1 := by
  rw [← ov_row hv hu j]
  exact Finset.sum_congr rfl fun i _ => ov_comm u v i j

lemma trace_fn_mul_fn (g h : ℝ → ℝ) (a b : Fin n → ℝ) (u v : Mat n) :
    (fn g a u * fn h b v).trace = ∑ i, ∑ j, ov u v i j * (g (a i) * h (b j)) := by
  have e : (fn g a u * fn h b v).trace
      = (diagonal (fun i => g (a i)) * (uᵀ * v) * diagonal (fun j => h (b j)) * (uᵀ * v)ᵀ).trace := by
    rw [transpose_mul, transpose_transpose]
    unfold fn
    rw [show u * diagonal (fun i => g (a i)) * uᵀ * (v * diagonal (fun i => h (b i)) * vᵀ)
      = u * (diagonal (fun i => g (a i)) * uᵀ * (v * diagonal (fun i => h (b i)) * vᵀ)) by
        simp only [Matrix.mul_assoc], Matrix.trace_mul_comm]
    simp only [Matrix.mul_assoc]
  rw [e, Matrix.trace]
  refine Finset.sum_congr rfl fun i _ => ?_
  rw [diag_apply, Matrix.mul_apply]
  refine Finset.sum_congr rfl fun j _ => ?_
  rw [mul_diagonal, diagonal_mul, transpose_apply, ov]
  ring

variable {A B : Mat n} {a b : Fin n → ℝ} {u v : Mat n}

lemma sum_ov_left (hA : Dec A a u) (hB : Dec B b v) (f : Fin n → ℝ) :
    ∑ i, ∑ j, ov u v i j * f i = ∑ i, f i :=
  Finset.sum_congr rfl fun i _ => by rw [← Finset.sum_mul, ov_row hA.orth hB.orth, one_mul]

lemma sum_ov_right (hA : Dec A a u) (hB : Dec B b v) (f : Fin n → ℝ) :
    ∑ i, ∑ j, ov u v i j * f j = ∑ j, f j := by
  rw [Finset.sum_comm]
  exact Finset.sum_congr rfl fun j _ => by rw [← Finset.sum_mul, ov_col hA.orth hB.orth, one_mul]

/-- the distance of two symmetric matrices through their spectra -/
lemma frob_sub (hA : Dec A a u) (hB : Dec B b v) :
    frob (B - A) (B - A) = ∑ i, ∑ j, ov u v i j * (b j - a i) ^ 2 := by
  have hs : (B - A)ᵀ = B - A := by rw [transpose_sub, hA.symm, hB.symm]
  rw [frob_self_symm hs]
  have e : (B - A) * (B - A) = B * B - A * B - B * A + A * A := by noncomm_ring
  have t1 : (A * B).trace = ∑ i, ∑ j, ov u v i j * (a i * b j) := by
    have := trace_fn_mul_fn (fun t => t) (fun t => t) a b u v
    rwa [fn_id hA, fn_id hB] at this
  have tA : (A * A).trace = ∑ i, a i ^ 2 := by
    conv_lhs => rw [← fn_id hA]
    rw [fn_mul hA.orth, fn_trace hA.orth]; exact Finset.sum_congr rfl fun i _ => (sq _).symm
  have tB : (B * B).trace = ∑ i, b i ^ 2 := by
    conv_lhs => rw [← fn_id hB]
    rw [fn_mul hB.orth, fn_trace hB.orth]; exact Finset.sum_congr rfl fun i _ => (sq _).symm
  rw [e, trace_add, trace_sub, trace_sub, tA, tB, Matrix.trace_mul_comm B A, t1,
    ← sum_ov_left hA hB (fun i => a i ^ 2), ← sum_ov_right hA hB (fun i => b i ^ 2)]
  simp only [← Finset.sum_sub_distrib, ← Finset.sum_add_distrib]
  exact Finset.sum_congr rfl fun i _ => Finset.sum_congr rfl fun j _ => by ring

/-- the first order expansion of `tr f` -/
lemma trace_expand (hA : Dec A a u) (hB : Dec B b v) (f f' : ℝ → ℝ) :
    ∑ j, f (b j) - ∑ i, f (a i) - (fn f' a u * (B - A)).trace
      = ∑ i, ∑ j, ov u v i j * (f (b j) - f (a i) - f' (a i) * (b j - a i)) := by
  have t1 : (fn f' a u * B).trace = ∑ i, ∑ j, ov u v i j * (f' (a i) * b j) := by
    have := trace_fn_mul_fn f' (fun t => t) a b u v
    rwa [fn_id hB] at this
  have t2 : (fn f' a u * A).trace = ∑ i, f' (a i) * a i := by
    conv_lhs => rw [← fn_id hA]
    rw [fn_mul hA.orth, fn_trace hA.orth]
  rw [mul_sub, trace_sub, t1, t2, ← sum_ov_left hA hB (fun i => f' (a i) * a i),
    ← sum_ov_left hA hB (fun i => f (a i)), ← sum_ov_right hA hB (fun i => f (b i))]
  simp only [← Finset.sum_sub_distrib]
  exact Finset.sum_congr rfl fun i _ => Finset.sum_congr rfl fun j _ => by ring

/-- eigenvalues of a matrix close to one with eigenvalues above `m` are above `m / 2` -/
lemma eig_lower (hA : Dec A a u) (hB : Dec B b v) {m : ℝ} (hm : 0 < m) (ha : ∀ i, m ≤ a i)
    (h : frob (B - A) (B - A) < (m / 2) ^ 2) (j : Fin n) : m / 2 < b j := by
  by_contra hb
  push Not at hb
  rw [frob_sub hA hB] at h
  have h1 : (m / 2) ^ 2 = ∑ i, ov u v i j * (m / 2) ^ 2 := by
    rw [← Finset.sum_mul, ov_col hA.orth hB.orth, one_mul]
  have h2 : ∑ i, ov u v i j * (m / 2) ^ 2 ≤ ∑ i, ∑ j, ov u v i j * (b j - a i) ^ 2 := by
    refine Finset.sum_le_sum fun i _ => ?_
    refine le_trans ?_ (Finset.single_le_sum (f := fun j => ov u v i j * (b j - a i) ^ 2)
      (fun j _ => mul_nonneg (ov_nonneg _ _ _ _) (sq_nonneg _)) (Finset.mem_univ j))
    refine mul_le_mul_of_nonneg_left ?_ (ov_nonneg _ _ _ _)
    have := ha i
    nlinarith
  linarith

/-- second order bound of `log²` -/
lemma log_sq_taylor {c a b : ℝ} (hc : 0 < c) (ha : c ≤ a) (hb : c ≤ b) :
    |Real.log b ^ 2 - Real.log a ^ 2 - 2 * Real.log a / a * (b - a)|
      ≤ (2 * |Real.log a| + 2) / c ^ 2 * (b - a) ^ 2 := by
  have ha0 : 0 < a := by linarith
  have hb0 : 0 < b := by linarith
  obtain ⟨l, hl⟩ : ∃ l, l = Real.log b - Real.log a := ⟨_, rfl⟩
  have hl' : l = Real.log (b / a) := by rw [hl, Real.log_div hb0.ne' ha0.ne']
  have h1 : l ≤ (b - a) / a := by
    have := Real.log_le_sub_one_of_pos (div_pos hb0 ha0)
    rw [← hl'] at this
    rw [sub_div, div_self ha0.ne']; exact this
  have h2 : (b - a) / b ≤ l := by
    have := Real.one_sub_inv_le_log_of_pos (div_pos hb0 ha0)
    rw [← hl', inv_div] at this
    rw [sub_div, div_self hb0.ne']; exact this
  have e : Real.log b ^ 2 - Real.log a ^ 2 - 2 * Real.log a / a * (b - a)
      = -(2 * Real.log a) * ((b - a) / a - l) + l ^ 2 := by
    rw [show Real.log b = Real.log a + l by rw [hl]; ring]; field_simp; ring
  have d1 : 0 ≤ (b - a) / a - l := by linarith
  have hcc : 0 < c ^ 2 := by positivity
  have d2 : (b - a) / a - l ≤ (b - a) ^ 2 / c ^ 2 := by
    have : (b - a) / a - (b - a) / b = (b - a) ^ 2 / (a * b) := by field_simp
    have h3 : (b - a) ^ 2 / (a * b) ≤ (b - a) ^ 2 / c ^ 2 :=
      div_le_div_of_nonneg_left (sq_nonneg _) hcc (by nlinarith)
    linarith
  have d3 : l ^ 2 ≤ 2 * ((b - a) ^ 2 / c ^ 2) := by
    have q1 : ((b - a) / a) ^ 2 ≤ (b - a) ^ 2 / c ^ 2 := by
      rw [div_pow]; exact div_le_div_of_nonneg_left (sq_nonneg _) hcc (by nlinarith)
    have q2 : ((b - a) / b) ^ 2 ≤ (b - a) ^ 2 / c ^ 2 := by
      rw [div_pow]; exact div_le_div_of_nonneg_left (sq_nonneg _) hcc (by nlinarith)
    rcases le_total 0 l with h0 | h0
    · have : l ^ 2 ≤ ((b - a) / a) ^ 2 := pow_le_pow_left₀ h0 h1 2
      have := sq_nonneg ((b - a) / b)
      linarith
    · have : l ^ 2 ≤ ((b - a) / b) ^ 2 := by nlinarith
      have := sq_nonneg ((b - a) / a)
      linarith
  rw [e]
  refine (abs_add_le _ _).trans ?_
  rw [abs_mul, abs_neg, abs_mul, abs_two, abs_of_nonneg d1, abs_of_nonneg (sq_nonneg l)]
  have := mul_le_mul_of_nonneg_left d2 (show 0 ≤ 2 * |Real.log a| by positivity)
  calc _ ≤ 2 * |Real.log a| * ((b - a) ^ 2 / c ^ 2) + 2 * ((b - a) ^ 2 / c ^ 2) := add_le_add this d3
    _ = _ := by ring

lemma frob_mul_le (a b : Mat n) : frob (a * b) (a * b) ≤ frob a a * frob b b := by
  unfold frob
  have h : ∀ i j, (a * b) i j * (a * b) i j ≤ (∑ k, a i k * a i k) * ∑ k, b k j * b k j := by
    intro i j
    rw [Matrix.mul_apply, ← sq]
    have := Finset.sum_mul_sq_le_sq_mul_sq Finset.univ (fun k => a i k) (fun k => b k j)
    simpa only [sq] using this
  calc ∑ i, ∑ j, (a * b) i j * (a * b) i j
      ≤ ∑ i, ∑ j, (∑ k, a i k * a i k) * ∑ k, b k j * b k j :=
        Finset.sum_le_sum fun i _ => Finset.sum_le_sum fun j _ => h i j
    _ = (∑ i, ∑ k, a i k * a i k) * ∑ j, ∑ k, b k j * b k j := by
        rw [Finset.sum_mul_sum]
    _ = _ := by rw [Finset.sum_comm (f := fun j k => b k j * b k j)]

lemma frob_nonneg (a : Mat n) : 0 ≤ frob a a :=
  Finset.sum_nonneg fun _ _ => Finset.sum_nonneg fun _ _ => mul_self_nonneg _

lemma frob_spec (z x : Mat n) :
    ∑ i, ∑ j, (z i j - x i j) ^ 2 = frob (z - x) (z - x) := by
  unfold frob
  exact Finset.sum_congr rfl fun i _ => Finset.sum_congr rfl fun j _ => by
    rw [Matrix.sub_apply, sq]

/-- a positive lower bound of finitely many positive numbers -/
lemma exists_lower {a : Fin n → ℝ} (ha : ∀ i, 0 < a i) : ∃ m > 0, ∀ i, m ≤ a i := by
  rcases isEmpty_or_nonempty (Fin n) with h | h
  · exact ⟨1, one_pos, fun i => h.elim i⟩
  · obtain ⟨i, hi⟩ := Finite.exists_min a
    exact ⟨a i, ha i, hi⟩

/-- symmetric matrices near an SPD matrix are SPD -/
lemma spd_near {x : Mat n} (hx : OnSPD x) : ∃ δ > 0, ∀ z : Mat n, zᵀ = z →
    Real.sqrt (frob (z - x) (z - x)) < δ → OnSPD z := by
  obtain ⟨a, u, hA, ha⟩ := hx.dec
  obtain ⟨m, hm, hma⟩ := exists_lower ha
  refine ⟨m / 2, by positivity, fun z hz h => ?_⟩
  obtain ⟨b, v, hB⟩ := exists_dec hz
  have hlt : frob (z - x) (z - x) < (m / 2) ^ 2 := (Real.sqrt_lt' (by positivity)).1 h
  have hb := eig_lower hA hB hm hma hlt
  rw [← fn_id hB]
  exact onSPD_fn hB _ fun i => by have := hb i; linarith

/-- the first order expansion of `Σ log² bⱼ` -/
lemma sum_log_sq_expand (hA : Dec A a u) (ha : ∀ i, 0 < a i) : ∃ K, 0 ≤ K ∧ ∃ δ > 0, ∀ (B : Mat n)
    (b : Fin n → ℝ) (v : Mat n), Dec B b v → frob (B - A) (B - A) < δ →
    |∑ j, Real.log (b j) ^ 2 - ∑ i, Real.log (a i) ^ 2
      - (fn (fun t => 2 * Real.log t / t) a u * (B - A)).trace| ≤ K * frob (B - A) (B - A) := by
  obtain ⟨m, hm, hma⟩ := exists_lower ha
  obtain ⟨L, hL⟩ : ∃ L, L = ∑ i, |Real.log (a i)| := ⟨_, rfl⟩
  have hL0 : 0 ≤ L := by rw [hL]; exact Finset.sum_nonneg fun _ _ => abs_nonneg _
  refine ⟨(2 * L + 2) / (m / 2) ^ 2, by positivity, (m / 2) ^ 2, by positivity,
    fun B b v hB h => ?_⟩
  have hb := eig_lower hA hB hm hma h
  rw [trace_expand hA hB (fun t => Real.log t ^ 2) (fun t => 2 * Real.log t / t), frob_sub hA hB,
    Finset.mul_sum]
  refine (Finset.abs_sum_le_sum_abs _ _).trans (Finset.sum_le_sum fun i _ => ?_)
  rw [Finset.mul_sum]
  refine (Finset.abs_sum_le_sum_abs _ _).trans (Finset.sum_le_sum fun j _ => ?_)
  rw [abs_mul, abs_of_nonneg (ov_nonneg _ _ _ _)]
  have h1 := log_sq_taylor (c := m / 2) (a := a i) (b := b j) (by positivity)
    (by have := hma i; linarith) (hb j).le
  have h2 : |Real.log (a i)| ≤ L := by
    rw [hL]; exact Finset.single_le_sum (f := fun i => |Real.log (a i)|) (fun _ _ => abs_nonneg _)
      (Finset.mem_univ i)
  have h3 : (2 * |Real.log (a i)| + 2) / (m / 2) ^ 2 * (b j - a i) ^ 2
      ≤ (2 * L + 2) / (m / 2) ^ 2 * (b j - a i) ^ 2 := by gcongr
  calc ov u v i j * _ ≤ ov u v i j * ((2 * L + 2) / (m / 2) ^ 2 * (b j - a i) ^ 2) :=
        mul_le_mul_of_nonneg_left (h1.trans h3) (ov_nonneg _ _ _ _)
    _ = _ := by ring

/-- the gradient in the space of symmetric matrices is unique up to its antisymmetric part -/
lemma symGrad_unique {F : Mat n → ℝ} {G G' x : Mat n} (hx : xᵀ = x) (h : HasSymGrad F G x)
    (h' : HasSymGrad F G' x) : sym G = sym G' := by
  obtain ⟨H, hH⟩ : ∃ H, H = sym G - sym G' := ⟨_, rfl⟩
  have hHs : Hᵀ = H := by rw [hH, transpose_sub, sym_symm, sym_symm]
  have hsym : ∀ g : Mat n, frob (sym g) H = frob g H := by
    intro g
    have e : frob (sym g) H = (1 / 2 : ℝ) * (frob g H + frob gᵀ H) := by
      unfold frob sym
      simp only [Matrix.smul_apply, Matrix.add_apply, smul_eq_mul, transpose_apply, Finset.mul_sum,
        ← Finset.sum_add_distrib]
      exact Finset.sum_congr rfl fun i _ => Finset.sum_congr rfl fun j _ => by norm_num; ring
    have e2 : frob gᵀ H = frob g H := by
      unfold frob
      rw [Finset.sum_comm]
      refine Finset.sum_congr rfl fun i _ => Finset.sum_congr rfl fun j _ => ?_
      rw [transpose_apply, ← transpose_apply H, hHs]
    rw [e, e2]; ring
  have hHH : frob H H = frob G H - frob G' H := by
    rw [← hsym G, ← hsym G']
    conv_lhs => arg 1; rw [hH]
    unfold frob
    simp only [Matrix.sub_apply, sub_mul, Finset.sum_sub_distrib]
  have key : ∀ ε > 0, frob H H ≤ 2 * ε * Real.sqrt (frob H H) := by
    intro ε hε
    obtain ⟨δ, hδ, h1⟩ := h ε hε
    obtain ⟨δ', hδ', h2⟩ := h' ε hε
    obtain ⟨t, ht⟩ : ∃ t, t = min δ δ' / (2 * (Real.sqrt (frob H H) + 1)) := ⟨_, rfl⟩
    have hs0 := Real.sqrt_nonneg (frob H H)
    have hmin : 0 < min δ δ' := lt_min hδ hδ'
    have ht0 : 0 < t := by rw [ht]; positivity
    have hz : (x + t • H)ᵀ = x + t • H := by rw [transpose_add, transpose_smul, hx, hHs]
    have hsub : x + t • H - x = t • H := by abel
    have hn : Real.sqrt (frob (t • H) (t • H)) = t * Real.sqrt (frob H H) := by
      have : frob (t • H) (t • H) = t ^ 2 * frob H H := by
        unfold frob
        simp only [Matrix.smul_apply, smul_eq_mul, Finset.mul_sum]
        exact Finset.sum_congr rfl fun i _ => Finset.sum_congr rfl fun j _ => by ring
      rw [this, Real.sqrt_mul (sq_nonneg t), Real.sqrt_sq ht0.le]
    have hlt : t * Real.sqrt (frob H H) < min δ δ' := by
      rw [ht, div_mul_eq_mul_div, div_lt_iff₀ (by positivity)]
      nlinarith
    have hin : ∀ g : Mat n, ∑ i, ∑ j, g i j * ((x + t • H) i j - x i j) = t * frob g H := by
      intro g
      unfold frob
      simp only [Matrix.add_apply, Matrix.smul_apply, smul_eq_mul, Finset.mul_sum]
      exact Finset.sum_congr rfl fun i _ => Finset.sum_congr rfl fun j _ => by ring
    have k1 := h1 _ hz (by rw [frob_spec, hsub, hn]; exact hlt.trans_le (min_le_left _ _))
    have k2 := h2 _ hz (by rw [frob_spec, hsub, hn]; exact hlt.trans_le (min_le_right _ _))
    rw [frob_spec, hsub, hn, hin] at k1 k2
    have k3 := abs_le.1 k1
    have k4 := abs_le.1 k2
    have : t * frob H H ≤ t * (2 * ε * Real.sqrt (frob H H)) := by rw [hHH]; rw [hHH] at k3 k4; nlinarith
    exact le_of_mul_le_mul_left this ht0
  have h0 : frob H H = 0 := by
    by_contra hne
    have hp : 0 < frob H H := lt_of_le_of_ne (frob_nonneg H) (Ne.symm hne)
    have hsp := Real.sqrt_pos.2 hp
    have hss := Real.mul_self_sqrt hp.le
    have := key (Real.sqrt (frob H H) / 4) (by positivity)
    nlinarith
  have : H = 0 := by
    rw [← frobNorm_eq_zero, frobNorm, h0, Real.sqrt_zero]
  rw [hH] at this
  exact sub_eq_zero.1 this

end C112
open C112

lemma C112.dist_sq {y z : Mat n} (hy : OnSPD y) (hz : OnSPD z) {b : Fin n → ℝ} {v : Mat n}
    (hB : Dec ((symInvSqrtm2 E y).1 * z * (symInvSqrtm2 E y).1) b v) :
    dist E .AIM z y ^ 2 = ∑ j, Real.log (b j) ^ 2 := by
  rw [C30_symm E hz hy, aim_eq E hy, frobNorm, Real.sq_sqrt (frob_nonneg _), frob_symLogm E hB]

/-- the logarithm at `A` of the identity -/
lemma C112.logmap_one {A : Mat n} (hA : OnSPD A) :
    logmap E A 1 = fn (fun t => -(t * Real.log t)) (E.e A) (E.v A) := by
  have hd := eigh_dec E hA.tr
  have hp := hA.pos hd
  have e1 : (symInvSqrtm2 E A).1 = fn (fun t => (Real.sqrt t)⁻¹) (E.e A) (E.v A) := rfl
  have e2 : (symInvSqrtm2 E A).2 = fn Real.sqrt (E.e A) (E.v A) := rfl
  have e3 : (symInvSqrtm2 E A).1 * 1 * (symInvSqrtm2 E A).1
      = fn (fun t => (Real.sqrt t)⁻¹ * (Real.sqrt t)⁻¹) (E.e A) (E.v A) := by
    rw [mul_one, e1, fn_mul hd.orth]
  have hd3 := fn_dec hd (fun t => (Real.sqrt t)⁻¹ * (Real.sqrt t)⁻¹)
  have e4 : symLogm E ((symInvSqrtm2 E A).1 * 1 * (symInvSqrtm2 E A).1)
      = fn (fun t => -Real.log t) (E.e A) (E.v A) := by
    rw [e3, symLogm, symFuncm_eq E _ hd3 (fn_symm _ _ _)]
    unfold fn
    congr 3
    funext i
    beta_reduce
    rw [← mul_inv, Real.mul_self_sqrt (hp i).le, Real.log_inv]
  unfold logmap
  simp only
  rw [e4, e2, fn_mul hd.orth, fn_mul hd.orth]
  refine fn_congr _ fun i => ?_
  have := Real.mul_self_sqrt (hp i).le
  linear_combination (-Real.log (E.e A i)) * this

/-- **C112**, SPD matrices with the affine invariant metric: `dist(·, y)²` has a gradient at every
point, and whatever gradient autograd returns, `egrad2rgrad` converts it to `-2 · logmap(x, y)`. -/
theorem C112_spd {x y : Mat n} (hx : OnSPD x) (hy : OnSPD y) :
    (∃ G, HasSymGrad (fun z => dist E .AIM z y ^ 2) G x) ∧
    ∀ G, HasSymGrad (fun z => dist E .AIM z y ^ 2) G x →
      egrad2rgrad x G = (-2 : ℝ) • logmap E x y := by
  have r := roots (E := E) hy
  obtain ⟨R, hR⟩ : ∃ R, R = (symInvSqrtm2 E y).1 := ⟨_, rfl⟩
  obtain ⟨S, hS⟩ : ∃ S, S = (symInvSqrtm2 E y).2 := ⟨_, rfl⟩
  obtain ⟨A, hAdef⟩ : ∃ A, A = R * x * R := ⟨_, rfl⟩
  rw [← hR, ← hS] at r
  have hAs : OnSPD A := hAdef ▸ r.mid hx
  have hA := eigh_dec E hAs.tr
  have ha := hAs.pos hA
  obtain ⟨K, hK, δ, hδ, hexp⟩ := sum_log_sq_expand hA ha
  obtain ⟨D, hD⟩ : ∃ D, D = fn (fun t => 2 * Real.log t / t) (E.e A) (E.v A) := ⟨_, rfl⟩
  have hDs : Dᵀ = D := by rw [hD]; exact fn_symm _ _ _
  have hGs : (R * D * R)ᵀ = R * D * R := by
    simp only [transpose_mul, r.rsymm, hDs, Matrix.mul_assoc]
  have hgrad : HasSymGrad (fun z => dist E .AIM z y ^ 2) (R * D * R) x := by
    intro ε hε
    obtain ⟨δ1, hδ1, hnear⟩ := spd_near hx
    obtain ⟨q, hq⟩ : ∃ q, q = frob R R * frob R R := ⟨_, rfl⟩
    have hq0 : 0 ≤ q := by rw [hq]; exact mul_nonneg (frob_nonneg _) (frob_nonneg _)
    refine ⟨min δ1 (min (Real.sqrt (δ / (q + 1))) (ε / (K * q + 1))),
      lt_min hδ1 (lt_min (Real.sqrt_pos.2 (by positivity)) (by positivity)), fun z hz h => ?_⟩
    rw [frob_spec] at h ⊢
    have hzs := hnear z hz (h.trans_le (min_le_left _ _))
    obtain ⟨b, v, hB, -⟩ := (r.mid hzs).dec
    have hBA : R * z * R - A = R * (z - x) * R := by rw [hAdef, mul_sub, sub_mul]
    have hle : frob (R * z * R - A) (R * z * R - A) ≤ q * frob (z - x) (z - x) := by
      rw [hBA]
      refine (frob_mul_le _ _).trans ?_
      calc frob (R * (z - x)) (R * (z - x)) * frob R R
          ≤ frob R R * frob (z - x) (z - x) * frob R R :=
            mul_le_mul_of_nonneg_right (frob_mul_le _ _) (frob_nonneg _)
        _ = _ := by rw [hq]; ring
    obtain ⟨s, hs⟩ : ∃ s, s = Real.sqrt (frob (z - x) (z - x)) := ⟨_, rfl⟩
    have hs0 : 0 ≤ s := hs ▸ Real.sqrt_nonneg _
    have hss : s ^ 2 = frob (z - x) (z - x) := by rw [hs, Real.sq_sqrt (frob_nonneg _)]
    rw [← hs] at h ⊢
    rw [← hss] at hle
    have h2 : s < Real.sqrt (δ / (q + 1)) := h.trans_le ((min_le_right _ _).trans (min_le_left _ _))
    have h3 : s < ε / (K * q + 1) := h.trans_le ((min_le_right _ _).trans (min_le_right _ _))
    have h2' : s ^ 2 < δ / (q + 1) := by
      have := (Real.lt_sqrt hs0).1 h2; exact this
    rw [lt_div_iff₀ (by positivity)] at h2' h3
    have hsmall : frob (R * z * R - A) (R * z * R - A) < δ := by nlinarith [sq_nonneg s]
    have key := hexp _ b v hB hsmall
    have e1 : dist E .AIM z y ^ 2 = ∑ j, Real.log (b j) ^ 2 :=
      dist_sq E hy hzs (by rw [← hR]; exact hB)
    have e2 : dist E .AIM x y ^ 2 = ∑ j, Real.log (E.e A j) ^ 2 :=
      dist_sq E hy hx (by rw [← hR, ← hAdef]; exact hA)
    have e3 : ∑ i, ∑ j, (R * D * R) i j * (z i j - x i j) = (D * (R * z * R - A)).trace := by
      have : ∑ i, ∑ j, (R * D * R) i j * (z i j - x i j) = frob (R * D * R) (z - x) := rfl
      rw [this, Stiefel.frob_eq_trace, hGs, hBA,
        show R * D * R * (z - x) = R * (D * R * (z - x)) by simp only [Matrix.mul_assoc],
        Matrix.trace_mul_comm]
      simp only [Matrix.mul_assoc]
    simp only [e1, e2]
    rw [e3]
    rw [← hD] at key
    refine key.trans ?_
    calc K * frob (R * z * R - A) (R * z * R - A) ≤ K * (q * s ^ 2) :=
          mul_le_mul_of_nonneg_left hle hK
      _ = (s * (K * q)) * s := by ring
      _ ≤ ε * s := by
          refine mul_le_mul_of_nonneg_right ?_ hs0
          nlinarith
  refine ⟨⟨_, hgrad⟩, fun G hG => ?_⟩
  have hsym := symGrad_unique hx.tr hG hgrad
  have hxS : x = S * A * S := by
    rw [hAdef]
    calc x = (S * R) * x * (R * S) := by rw [r.sr, r.rs, one_mul, mul_one]
      _ = _ := by simp only [Matrix.mul_assoc]
  have hyS : y = S * 1 * Sᵀ := by
    rw [mul_one, r.ssymm]; exact r.ss.symm
  have hlog : logmap E x y = S * logmap E A 1 * S := by
    have h1 : OnSPD (1 : Mat n) := by simpa using smul_one_spd (n := n) one_pos
    have := (C108_spd E (g := S) r.unit_s hAs h1 0 0).2.2.2.2.2.2.2.1
    rw [← hyS, r.ssymm, ← hxS] at this
    exact this
  rw [hlog, logmap_one E hAs]
  unfold egrad2rgrad proju
  rw [hsym, sym_of_symm hGs, hx.tr]
  have hfn : A * D * A = (-2 : ℝ) • fn (fun t => -(t * Real.log t)) (E.e A) (E.v A) := by
    have e : A * D * A = fn (fun t => t) (E.e A) (E.v A) * D * fn (fun t => t) (E.e A) (E.v A) := by
      rw [fn_id hA]
    rw [e, hD, fn_mul hA.orth, fn_mul hA.orth]
    have e2 : (-2 : ℝ) • fn (fun t => -(t * Real.log t)) (E.e A) (E.v A)
        = fn (fun _ => -2) (E.e A) (E.v A) * fn (fun t => -(t * Real.log t)) (E.e A) (E.v A) := by
      rw [fn_const hA, Matrix.smul_mul, one_mul]
    rw [e2, fn_mul hA.orth]
    refine fn_congr _ fun i => ?_
    have := (ha i).ne'
    field_simp
  calc x * (R * D * R) * x = S * (A * ((S * R) * D * (R * S)) * A) * S := by
        rw [hxS]; simp only [Matrix.mul_assoc]
    _ = S * (A * D * A) * S := by rw [r.sr, r.rs, one_mul, mul_one]
    _ = _ := by rw [hfn]; simp only [Matrix.mul_smul, Matrix.smul_mul]

/-- the exponential map of half the descent direction is the target -/
theorem C112_spd_one_step {x y G : Mat n} (hx : OnSPD x) (hy : OnSPD y)
    (hG : HasSymGrad (fun z => dist E .AIM z y ^ 2) G x) :
    expmap E x (-(1 / 2 : ℝ) • egrad2rgrad x G) = y := by
  rw [(C112_spd E hx hy).2 G hG, smul_smul]
  norm_num
  exact C29_exp_log E hx hy

example : ∃ G, HasSymGrad (fun z => dist (someEigh 2) .AIM z sampleB ^ 2) G sampleA :=
  (C112_spd _ sampleA_spd sampleB_spd).1

end Geoopt.SPD
