import Verif.Spec.Flow
import Verif.Props.C28
import Verif.Props.C35
import Verif.Props.C13
import Verif.Props.C105
import Verif.Props.C24
import Mathlib.Analysis.Normed.Algebra.MatrixExponential

/-!
# C106: a geodesic can be walked in several legs
-/

namespace Geoopt.SPD
open Matrix Geoopt.Linalg Geoopt.Flow

variable {n : ℕ} (E : Eigh n)

lemma C106.exp_orth {q a : Mat n} (h : q * qᵀ = 1) :
    NormedSpace.exp (q * a * qᵀ) = q * NormedSpace.exp a * qᵀ := by
  have hi : q⁻¹ = qᵀ := Matrix.inv_eq_right_inv h
  rw [← hi]
  exact Matrix.exp_conj q a ((Matrix.isUnit_iff_isUnit_det _).2 (Matrix.isUnit_det_of_right_inverse h))

/-- Moving point and vector by an invertible matrix moves the end point of the geodesic. -/
theorem C106_spd_congruence {x u g : Mat n} (hx : OnSPD x) (hg : IsUnit g.det) :
    expmap E (g * x * gᵀ) (g * u * gᵀ) = g * expmap E x u * gᵀ := by
  have r := roots (E := E) hx
  have r' := roots (E := E) (hx.congr hg)
  unfold expmap symExpm
  simp only
  generalize (symInvSqrtm2 E x).1 = R at *
  generalize (symInvSqrtm2 E x).2 = S at *
  generalize (symInvSqrtm2 E (g * x * gᵀ)).1 = R' at *
  generalize (symInvSqrtm2 E (g * x * gᵀ)).2 = S' at *
  obtain ⟨q, hq⟩ : ∃ q, q = R' * g * S := ⟨_, rfl⟩
  have hqt : qᵀ = S * gᵀ * R' := by
    rw [hq]; simp only [transpose_mul, r.ssymm, r'.rsymm, Matrix.mul_assoc]
  have orth : q * qᵀ = 1 := by
    rw [hqt, hq]
    calc _ = R' * (g * (S * S) * gᵀ) * R' := by simp only [Matrix.mul_assoc]
      _ = 1 := by rw [r.ss, r'.rxr]
  have e1 : R' * (g * u * gᵀ) * R' = q * (R * u * R) * qᵀ := by
    rw [hqt, hq]
    calc _ = R' * g * 1 * u * 1 * gᵀ * R' := by simp only [Matrix.mul_assoc, one_mul, mul_one]
      _ = R' * g * (S * R) * u * (R * S) * gᵀ * R' := by rw [r.sr, r.rs]
      _ = _ := by simp only [Matrix.mul_assoc]
  have e2 : S' * q = g * S := by
    rw [hq]
    calc _ = (S' * R') * (g * S) := by simp only [Matrix.mul_assoc]
      _ = _ := by rw [r'.sr, one_mul]
  have e3 : qᵀ * S' = S * gᵀ := by
    have := congrArg transpose e2
    simpa only [transpose_mul, r.ssymm, r'.ssymm] using this
  rw [e1, C106.exp_orth orth]
  calc _ = (S' * q) * NormedSpace.exp (R * u * R) * (qᵀ * S') := by simp only [Matrix.mul_assoc]
    _ = _ := by rw [e2, e3]; simp only [Matrix.mul_assoc]

lemma C106.spd_one : OnSPD (1 : Mat n) := by simpa using smul_one_spd (n := n) one_pos

lemma C106.expmap_one {u : Mat n} : expmap E 1 u = NormedSpace.exp u := by
  have r := roots (E := E) (C106.spd_one (n := n))
  have key : expmap E (1 : Mat n) u =
      (symInvSqrtm2 E 1).2 * NormedSpace.exp ((symInvSqrtm2 E 1).1 * u * (symInvSqrtm2 E 1).1) *
        (symInvSqrtm2 E 1).2 := rfl
  rw [key]
  generalize (symInvSqrtm2 E (1 : Mat n)).1 = R at *
  generalize (symInvSqrtm2 E (1 : Mat n)).2 = S at *
  have hRS : R = S := by
    calc R = R * (S * S) := by rw [r.ss, mul_one]
      _ = S := by rw [← Matrix.mul_assoc, r.rs, one_mul]
  have hS : S * Sᵀ = 1 := by rw [r.ssymm, r.ss]
  have := C106.exp_orth (a := u) hS
  rw [r.ssymm] at this
  rw [hRS, this]
  calc _ = (S * S) * NormedSpace.exp u * (S * S) := by simp only [Matrix.mul_assoc]
    _ = _ := by rw [r.ss, one_mul, mul_one]

lemma C106.exp_add_smul (a b : ℝ) (A : Mat n) :
    NormedSpace.exp ((a + b) • A) = NormedSpace.exp (a • A) * NormedSpace.exp (b • A) := by
  rw [add_smul]
  exact Matrix.exp_add_of_commute _ _ (((Commute.refl A).smul_left a).smul_right b)

/-- The frame of a geodesic after time `s`: the point is `g gᵀ`, the carried velocity `g A gᵀ`. -/
lemma C106.frame {x u : Mat n} (hx : OnSPD x) (hu : Symm u) :
    ∃ S R A : Mat n, S * R = 1 ∧ R * S = 1 ∧ Sᵀ = S ∧ Aᵀ = A ∧ A = R * u * R ∧
      (∀ s : ℝ, expmap E x (s • u) = S * NormedSpace.exp (s • A) * S) ∧
      ∀ s : ℝ, transp E x (expmap E x (s • u)) u =
        (S * NormedSpace.exp ((s / 2) • A)) * A * (S * NormedSpace.exp ((s / 2) • A))ᵀ := by
  have r := roots (E := E) hx
  have hexp : ∀ s : ℝ, expmap E x (s • u) = (symInvSqrtm2 E x).2 *
      NormedSpace.exp (s • ((symInvSqrtm2 E x).1 * u * (symInvSqrtm2 E x).1)) *
        (symInvSqrtm2 E x).2 := by
    intro s
    unfold expmap symExpm
    simp only [Matrix.mul_smul, Matrix.smul_mul]
  have hA : ((symInvSqrtm2 E x).1 * u * (symInvSqrtm2 E x).1)ᵀ =
      (symInvSqrtm2 E x).1 * u * (symInvSqrtm2 E x).1 := by
    simp only [transpose_mul, r.rsymm, symm_iff.1 hu, Matrix.mul_assoc]
  refine ⟨_, _, _, r.sr, r.rs, r.ssymm, hA, rfl, hexp, fun s => ?_⟩
  rw [hexp]
  unfold transp
  simp only
  rw [sym_of_symm hA]
  generalize (symInvSqrtm2 E x).1 = R at *
  generalize (symInvSqrtm2 E x).2 = S at *
  obtain ⟨A, hAe⟩ : ∃ A, A = R * u * R := ⟨_, rfl⟩
  rw [← hAe] at hA ⊢
  have e1 : R * (S * NormedSpace.exp (s • A) * S) * R = NormedSpace.exp (s • A) := by
    calc _ = (R * S) * NormedSpace.exp (s • A) * (S * R) := by simp only [Matrix.mul_assoc]
      _ = _ := by rw [r.rs, r.sr, one_mul, mul_one]
  have hs : (s • A)ᵀ = s • A := by rw [transpose_smul, hA]
  rw [e1, symLogm_exp hs, symExpm, smul_smul, show (0.5 : ℝ) * s = s / 2 by ring]
  have ht : (NormedSpace.exp ((s / 2) • A))ᵀ = NormedSpace.exp ((s / 2) • A) := by
    rw [← Matrix.exp_transpose, transpose_smul, hA]
  rw [transpose_mul, r.ssymm, ht]
  simp only [Matrix.mul_assoc]

lemma C106.log_orth {q m : Mat n} (h : q * qᵀ = 1) (hm : OnSPD m) :
    symLogm E (q * m * qᵀ) = q * symLogm E m * qᵀ := by
  conv_lhs => rw [← exp_symLogm (E := E) hm, ← C106.exp_orth h]
  refine symLogm_exp ?_
  simp only [transpose_mul, transpose_transpose, symLogm_symm, Matrix.mul_assoc]

/-- Moving both points and the vector by an invertible matrix moves the transported vector. -/
theorem C106_spd_transp_congruence {x y v g : Mat n} (hx : OnSPD x) (hy : OnSPD y)
    (hg : IsUnit g.det) :
    transp E (g * x * gᵀ) (g * y * gᵀ) (g * v * gᵀ) = g * transp E x y v * gᵀ := by
  have r := roots (E := E) hx
  have r' := roots (E := E) (hx.congr hg)
  have hm := r.mid hy
  unfold transp symExpm
  simp only
  generalize (symInvSqrtm2 E x).1 = R at *
  generalize (symInvSqrtm2 E x).2 = S at *
  generalize (symInvSqrtm2 E (g * x * gᵀ)).1 = R' at *
  generalize (symInvSqrtm2 E (g * x * gᵀ)).2 = S' at *
  obtain ⟨q, hq⟩ : ∃ q, q = R' * g * S := ⟨_, rfl⟩
  have hqt : qᵀ = S * gᵀ * R' := by
    rw [hq]; simp only [transpose_mul, r.ssymm, r'.rsymm, Matrix.mul_assoc]
  have orth : q * qᵀ = 1 := by
    rw [hqt, hq]
    calc _ = R' * (g * (S * S) * gᵀ) * R' := by simp only [Matrix.mul_assoc]
      _ = 1 := by rw [r.ss, r'.rxr]
  have orth' : qᵀ * q = 1 := mul_eq_one_comm.1 orth
  have e1 : ∀ u, R' * (g * u * gᵀ) * R' = q * (R * u * R) * qᵀ := by
    intro u
    rw [hqt, hq]
    calc _ = R' * g * 1 * u * 1 * gᵀ * R' := by simp only [Matrix.mul_assoc, one_mul, mul_one]
      _ = R' * g * (S * R) * u * (R * S) * gᵀ * R' := by rw [r.sr, r.rs]
      _ = _ := by simp only [Matrix.mul_assoc]
  have e2 : S' * q = g * S := by
    rw [hq]
    calc _ = (S' * R') * (g * S) := by simp only [Matrix.mul_assoc]
      _ = _ := by rw [r'.sr, one_mul]
  have e3 : qᵀ * S' = S * gᵀ := by
    have := congrArg transpose e2
    simpa only [transpose_mul, r.ssymm, r'.ssymm] using this
  have e4 : ∀ a : Mat n, sym (q * a * qᵀ) = q * sym a * qᵀ := by
    intro a
    simp only [sym, transpose_mul, transpose_transpose, Matrix.mul_smul, Matrix.smul_mul, mul_add, add_mul,
      Matrix.mul_assoc]
  have e5 : (0.5 : ℝ) • (q * symLogm E (R * y * R) * qᵀ) =
      q * ((0.5 : ℝ) • symLogm E (R * y * R)) * qᵀ := by
    simp only [Matrix.mul_smul, Matrix.smul_mul]
  rw [e1, e1, C106.log_orth E orth hm, e5, C106.exp_orth orth, e4]
  generalize NormedSpace.exp ((0.5 : ℝ) • symLogm E (R * y * R)) = X
  generalize sym (R * v * R) = V
  calc _ = (S' * q) * X * (qᵀ * q) * V * (qᵀ * q) * X * (qᵀ * S') := by simp only [Matrix.mul_assoc]
    _ = _ := by rw [e2, e3, orth']; simp only [Matrix.mul_assoc, mul_one, one_mul]

lemma C106.transp_one {A : Mat n} (hA : Aᵀ = A) (t : ℝ) :
    transp E 1 (NormedSpace.exp (t • A)) A =
      NormedSpace.exp ((t / 2) • A) * A * NormedSpace.exp ((t / 2) • A) := by
  obtain ⟨S, R, B, hSR, hRS, hS, hB, hBe, hexp, htr⟩ := C106.frame E (C106.spd_one (n := n)) (symm_iff.2 hA)
  have hSS : S * S = 1 := by
    have := hexp 0
    rw [zero_smul, zero_smul, NormedSpace.exp_zero, C106.expmap_one, NormedSpace.exp_zero, mul_one] at this
    exact this.symm
  have hRS' : R = S := by
    calc R = R * (S * S) := by rw [hSS, mul_one]
      _ = S := by rw [← Matrix.mul_assoc, hRS, one_mul]
  have h := htr t
  rw [C106.expmap_one] at h
  have ho : S * Sᵀ = 1 := by rw [hS, hSS]
  have e : ∀ c : ℝ, NormedSpace.exp (c • B) = S * NormedSpace.exp (c • A) * S := by
    intro c
    have := C106.exp_orth (a := c • A) ho
    rw [hS] at this
    rw [← this, hBe, hRS']
    simp only [Matrix.mul_smul, Matrix.smul_mul]
  have ht : (NormedSpace.exp ((t / 2) • A))ᵀ = NormedSpace.exp ((t / 2) • A) := by
    rw [← Matrix.exp_transpose, transpose_smul, hA]
  rw [h, e, hBe, hRS']
  simp only [transpose_mul, hS, ht]
  generalize NormedSpace.exp ((t / 2) • A) = X
  calc _ = (S * S) * X * (S * S) * A * (S * S) * X * (S * S) := by simp only [Matrix.mul_assoc]
    _ = _ := by rw [hSS]; simp only [Matrix.mul_assoc, mul_one, one_mul]

/-- SPD matrices: the second leg continues the first, whatever the two times. -/
theorem C106_spd {x u : Mat n} (hx : OnSPD x) (hu : Symm u) (s t : ℝ) :
    TwoLegs (expmap E) (fun x w v => transp E x (expmap E x w) v) x u s t := by
  obtain ⟨S, R, A, hSR, hRS, hS, hA, -, hexp, htr⟩ := C106.frame E hx hu
  unfold TwoLegs
  simp only
  rw [htr, hexp, hexp]
  obtain ⟨X, hX⟩ : ∃ X, X = NormedSpace.exp ((s / 2) • A) := ⟨_, rfl⟩
  have hXX : NormedSpace.exp (s • A) = X * X := by
    rw [hX, ← C106.exp_add_smul, add_halves]
  have hXt : Xᵀ = X := by rw [hX, ← Matrix.exp_transpose, transpose_smul, hA]
  rw [hXX, ← hX]
  have hg : IsUnit (S * X).det := by
    rw [Matrix.det_mul]
    refine (Matrix.isUnit_det_of_right_inverse hSR).mul ?_
    rw [hX]
    exact (Matrix.isUnit_iff_isUnit_det _).1 (Matrix.isUnit_exp _)
  have e1 : S * (X * X) * S = (S * X) * 1 * (S * X)ᵀ := by
    rw [transpose_mul, hS, hXt]; simp only [Matrix.mul_assoc, one_mul, mul_one]
  have e2 : t • (S * X * A * (S * X)ᵀ) = (S * X) * (t • A) * (S * X)ᵀ := by
    simp only [Matrix.mul_smul, Matrix.smul_mul]
  rw [e1, e2, C106_spd_congruence E C106.spd_one hg, C106.expmap_one, transpose_mul, hS, hXt]
  have e3 : NormedSpace.exp ((s + t) • A) = X * NormedSpace.exp (t • A) * X := by
    rw [hX, ← C106.exp_add_smul, ← C106.exp_add_smul]
    congr 2
    ring
  rw [e3]
  simp only [Matrix.mul_assoc]

/-- The velocity carried along in two legs is the velocity carried along at once. -/
theorem C106_spd_velocity {x u : Mat n} (hx : OnSPD x) (hu : Symm u) (s t : ℝ) :
    SameVelocity (expmap E) (fun x w v => transp E x (expmap E x w) v) x u s t := by
  have h2 := C106_spd E hx hu s t
  unfold TwoLegs at h2
  unfold SameVelocity
  simp only at h2 ⊢
  rw [h2]
  obtain ⟨S, R, A, hSR, hRS, hS, hA, -, hexp, htr⟩ := C106.frame E hx hu
  rw [htr, htr, hexp, hexp]
  obtain ⟨X, hX⟩ : ∃ X, X = NormedSpace.exp ((s / 2) • A) := ⟨_, rfl⟩
  have hXX : NormedSpace.exp (s • A) = X * X := by
    rw [hX, ← C106.exp_add_smul, add_halves]
  have hXt : Xᵀ = X := by rw [hX, ← Matrix.exp_transpose, transpose_smul, hA]
  rw [hXX, ← hX]
  have hg : IsUnit (S * X).det := by
    rw [Matrix.det_mul]
    refine (Matrix.isUnit_det_of_right_inverse hSR).mul ?_
    rw [hX]
    exact (Matrix.isUnit_iff_isUnit_det _).1 (Matrix.isUnit_exp _)
  have e1 : S * (X * X) * S = (S * X) * 1 * (S * X)ᵀ := by
    rw [transpose_mul, hS, hXt]; simp only [Matrix.mul_assoc, one_mul]
  have e3 : NormedSpace.exp ((s + t) • A) = X * NormedSpace.exp (t • A) * X := by
    rw [hX, ← C106.exp_add_smul, ← C106.exp_add_smul]
    congr 2
    ring
  have e4 : S * (X * NormedSpace.exp (t • A) * X) * S =
      (S * X) * NormedSpace.exp (t • A) * (S * X)ᵀ := by
    rw [transpose_mul, hS, hXt]; simp only [Matrix.mul_assoc]
  have e6 : NormedSpace.exp (((s + t) / 2) • A) = X * NormedSpace.exp ((t / 2) • A) := by
    rw [hX, ← C106.exp_add_smul]
    congr 2
    ring
  have e7 : (NormedSpace.exp ((t / 2) • A))ᵀ = NormedSpace.exp ((t / 2) • A) := by
    rw [← Matrix.exp_transpose, transpose_smul, hA]
  rw [e3, e1, e4, C106_spd_transp_congruence E C106.spd_one (onSPD_exp (by rw [transpose_smul, hA])) hg,
    C106.transp_one E hA, e6]
  simp only [transpose_mul, hS, hXt, e7, Matrix.mul_assoc]

end Geoopt.SPD

namespace Geoopt.Lorentz
open Geoopt Geoopt.Flow
variable {n : ℕ}

/-- The point a geodesic reaches, and its velocity there; `r` is the length of `u` and `a` the hyperbolic
angle travelled. -/
noncomputable def C106.pt (k r a : ℝ) (x u : Vec (n + 1)) : Vec (n + 1) :=
  Real.cosh a • x + (Real.sqrt k * Real.sinh a / r) • u

noncomputable def C106.vel (k r a : ℝ) (x u : Vec (n + 1)) : Vec (n + 1) :=
  (r * Real.sinh a / Real.sqrt k) • x + Real.cosh a • u

lemma C106.norm_of {u : Vec (n + 1)} {r c : ℝ} (hr : 0 < r) (hru : r ^ 2 = mink u u)
    (h : 1e-8 ≤ (c * r) ^ 2) : norm (c • u) = |c| * r := by
  have e : mink (c • u) (c • u) = (c * r) ^ 2 := by minks; rw [← hru]; ring
  unfold norm
  rw [inner_eq, e, max_eq_left h, Real.sqrt_sq_eq_abs, abs_mul, abs_of_pos hr]

lemma C106.expmap_pt {k r c : ℝ} (hk : 0 < k) {x u : Vec (n + 1)} (hx : OnHyperboloid k x)
    (hu : Tangent x u) (hr : 0 < r) (hru : r ^ 2 = mink u u) (h : 1e-8 ≤ (c * r) ^ 2) :
    expmap k x (c • u) = C106.pt k r (c * r / Real.sqrt k) x u := by
  have hs : 0 < Real.sqrt k := Real.sqrt_pos.2 hk
  have hc : c ≠ 0 := by
    rintro rfl
    norm_num at h
  have ht : Tangent x (c • u) := by
    have hu' : mink x u = 0 := hu
    unfold Tangent; minks; rw [hu', mul_zero]
  have hraw : expmapRaw k x (c • u) = C106.pt k r (c * r / Real.sqrt k) x u := by
    unfold expmapRaw C106.pt
    simp only
    rw [C106.norm_of hr hru h, smul_smul]
    rcases abs_cases c with ⟨e, _⟩ | ⟨e, _⟩
    · rw [e]
      congr 2
      field_simp
    · rw [e, show -c * r / Real.sqrt k = -(c * r / Real.sqrt k) by ring, Real.cosh_neg, Real.sinh_neg]
      congr 2
      field_simp
  simp only [expmap, if_true, C36_proju_fixes ht, hraw]
  exact project_of_on (raw_on_aux hk hx hu hru hr.ne')

lemma C106.pt_on {k r : ℝ} (hk : 0 < k) {x u : Vec (n + 1)} (hx : OnHyperboloid k x)
    (hu : Tangent x u) (hr : 0 < r) (hru : r ^ 2 = mink u u) (a : ℝ) :
    OnHyperboloid k (C106.pt k r a x u) := raw_on_aux hk hx hu hru hr.ne'

lemma C106.transp_vel {k r a : ℝ} (hk : 0 < k) {x u : Vec (n + 1)} (hx : OnHyperboloid k x)
    (hu : Tangent x u) (hr : 0 < r) (hru : r ^ 2 = mink u u) (h : 1e-8 ≤ k * a ^ 2) :
    transp k x (C106.pt k r a x u) u = C106.vel k r a x u := by
  have hs : 0 < Real.sqrt k := Real.sqrt_pos.2 hk
  have hss := sqrt_sq' hk
  have hu' : mink x u = 0 := hu
  have hy := C106.pt_on hk hx hu hr hru a
  have hxy : mink x (C106.pt k r a x u) = -(k * Real.cosh a) := by
    unfold C106.pt; minks; rw [hx.1, hu']; ring
  have hch : ch k x (C106.pt k r a x u) = Real.cosh a := by
    unfold ch; rw [hxy]; field_simp
  have hsq : a ^ 2 ≤ Real.sinh a ^ 2 := by
    rw [← sq_abs a, ← sq_abs (Real.sinh a), Real.abs_sinh]
    exact pow_le_pow_left₀ (abs_nonneg a) (Real.self_le_sinh_iff.2 (abs_nonneg a)) 2
  have hfar : k ^ 2 + k * 1e-8 ≤ mink x (C106.pt k r a x u) ^ 2 := by
    rw [hxy, neg_sq, mul_pow, Real.cosh_sq]
    nlinarith
  rw [transp_exact hk hx hy hu (Or.inr hfar), hch]
  have hyu : mink (C106.pt k r a x u) u = Real.sqrt k * Real.sinh a * r := by
    unfold C106.pt; minks; rw [hu', ← hru]; field_simp; ring
  rw [hyu]
  have hc := Real.cosh_pos a
  have hcs := Real.cosh_sq a
  have hc1 : 1 + Real.cosh a ≠ 0 := by positivity
  unfold C106.vel C106.pt
  funext i
  simp only [Pi.add_apply, Pi.smul_apply, smul_eq_mul]
  have hk2 : k = Real.sqrt k ^ 2 := by rw [sq, hss]
  generalize Real.sqrt k = σ at *
  rw [hk2]
  field_simp
  linear_combination (-(u i * σ)) * hcs

lemma C106.vel_facts {k r a : ℝ} (hk : 0 < k) {x u : Vec (n + 1)} (hx : OnHyperboloid k x)
    (hu : Tangent x u) (hr : 0 < r) (hru : r ^ 2 = mink u u) :
    Tangent (C106.pt k r a x u) (C106.vel k r a x u) ∧
      r ^ 2 = mink (C106.vel k r a x u) (C106.vel k r a x u) := by
  have hs : 0 < Real.sqrt k := Real.sqrt_pos.2 hk
  have hss := sqrt_sq' hk
  have hu' : mink x u = 0 := hu
  have hcs := Real.cosh_sq a
  constructor
  · unfold Tangent C106.pt C106.vel
    minks
    rw [hx.1, hu', mink_comm u x, hu', ← hru]
    have hk2 : k = Real.sqrt k ^ 2 := by rw [sq, hss]
    generalize Real.sqrt k = σ at *
    rw [hk2]
    field_simp
    ring
  · unfold C106.vel
    minks
    rw [hx.1, hu', mink_comm u x, hu', ← hru]
    have hk2 : k = Real.sqrt k ^ 2 := by rw [sq, hss]
    generalize Real.sqrt k = σ at *
    rw [hk2]
    field_simp
    linear_combination (-(r * σ)) * hcs

lemma C106.pt_pt {k r : ℝ} (hk : 0 < k) (hr : 0 < r) (a b : ℝ) (x u : Vec (n + 1)) :
    C106.pt k r b (C106.pt k r a x u) (C106.vel k r a x u) = C106.pt k r (a + b) x u := by
  have hs : 0 < Real.sqrt k := Real.sqrt_pos.2 hk
  unfold C106.pt C106.vel
  rw [Real.cosh_add, Real.sinh_add]
  funext i
  simp only [Pi.add_apply, Pi.smul_apply, smul_eq_mul]
  field_simp
  ring

lemma C106.vel_vel {k r : ℝ} (hk : 0 < k) (hr : 0 < r) (a b : ℝ) (x u : Vec (n + 1)) :
    C106.vel k r b (C106.pt k r a x u) (C106.vel k r a x u) = C106.vel k r (a + b) x u := by
  have hs : 0 < Real.sqrt k := Real.sqrt_pos.2 hk
  unfold C106.pt C106.vel
  rw [Real.cosh_add, Real.sinh_add]
  funext i
  simp only [Pi.add_apply, Pi.smul_apply, smul_eq_mul]
  field_simp
  ring

lemma C106.len {k : ℝ} (hk : 0 < k) {c r : ℝ} (h : 1e-8 ≤ (c * r) ^ 2) :
    1e-8 ≤ k * (c * r / Real.sqrt k) ^ 2 := by
  rw [div_pow, sq (Real.sqrt k), sqrt_sq' hk, mul_div_cancel₀ _ hk.ne']
  exact h

/-- The length of the tangent vector, as the floor of `norm` sees it. -/
lemma C106.ex_len {k : ℝ} (hk : 0 < k) {x u : Vec (n + 1)} (hx : OnHyperboloid k x)
    (hu : Tangent x u) {s : ℝ} (h : 1e-8 ≤ mink (s • u) (s • u)) :
    ∃ r, 0 < r ∧ r ^ 2 = mink u u ∧ ∀ c, mink (c • u) (c • u) = (c * r) ^ 2 := by
  have h0 := tangent_sq_nonneg hk hx hu
  have h1 : mink u u ≠ 0 := by
    intro h2
    have e : mink (s • u) (s • u) = 0 := by minks; rw [h2]; ring
    rw [e] at h
    norm_num at h
  have h2 : 0 < mink u u := lt_of_le_of_ne h0 (Ne.symm h1)
  refine ⟨Real.sqrt (mink u u), Real.sqrt_pos.2 h2, Real.sq_sqrt h0, fun c => ?_⟩
  minks
  rw [mul_pow, Real.sq_sqrt h0]
  ring

/-- Hyperboloid: the second leg continues the first, as long as neither leg, nor the whole way, is shorter
than the floor of the norm. -/
theorem C106_lorentz_partial {k : ℝ} (hk : 0 < k) {x u : Vec (n + 1)} (hx : OnHyperboloid k x)
    (hu : Tangent x u) {s t : ℝ} (hs : 1e-8 ≤ mink (s • u) (s • u)) (ht : 1e-8 ≤ mink (t • u) (t • u))
    (hst : 1e-8 ≤ mink ((s + t) • u) ((s + t) • u)) :
    TwoLegs (fun x w => expmap k x w) (transpFollowExpmap k) x u s t ∧
      SameVelocity (fun x w => expmap k x w) (transpFollowExpmap k) x u s t := by
  obtain ⟨r, hr, hru, hlen⟩ := C106.ex_len hk hx hu hs
  rw [hlen] at hs ht hst
  have hsum : s * r / Real.sqrt k + t * r / Real.sqrt k = (s + t) * r / Real.sqrt k := by ring
  have hv := C106.vel_facts (a := s * r / Real.sqrt k) hk hx hu hr hru
  have hy := C106.pt_on hk hx hu hr hru (s * r / Real.sqrt k)
  have e1 := C106.expmap_pt hk hx hu hr hru hs
  have e2 := C106.transp_vel hk hx hu hr hru (C106.len hk hs)
  have e3 := C106.expmap_pt hk hy hv.1 hr hv.2 ht
  have e4 := C106.transp_vel hk hy hv.1 hr hv.2 (C106.len hk ht)
  have e5 := C106.expmap_pt hk hx hu hr hru hst
  have e6 := C106.transp_vel hk hx hu hr hru (C106.len hk hst)
  constructor
  · unfold TwoLegs transpFollowExpmap
    dsimp only
    rw [e1, e2, e3, e5, C106.pt_pt hk hr, hsum]
  · unfold SameVelocity transpFollowExpmap
    dsimp only
    rw [e1, e2, e3, e4, e5, e6, C106.vel_vel hk hr, hsum]

/-- Walking back for as long as one has walked leads home, with the velocity one had left with. -/
theorem C106_lorentz_back {k : ℝ} (hk : 0 < k) {x u : Vec (n + 1)} (hx : OnHyperboloid k x)
    (hu : Tangent x u) {s : ℝ} (hs : 1e-8 ≤ mink (s • u) (s • u)) :
    expmap k (expmap k x (s • u)) ((-s) • transpFollowExpmap k x (s • u) u) = x ∧
      transpFollowExpmap k (expmap k x (s • u)) ((-s) • transpFollowExpmap k x (s • u) u)
        (transpFollowExpmap k x (s • u) u) = u := by
  obtain ⟨r, hr, hru, hlen⟩ := C106.ex_len hk hx hu hs
  rw [hlen] at hs
  have ht : 1e-8 ≤ (-s * r) ^ 2 := by rw [neg_mul, neg_sq]; exact hs
  have hsum : s * r / Real.sqrt k + -s * r / Real.sqrt k = 0 := by ring
  have hv := C106.vel_facts (a := s * r / Real.sqrt k) hk hx hu hr hru
  have hy := C106.pt_on hk hx hu hr hru (s * r / Real.sqrt k)
  have e1 := C106.expmap_pt hk hx hu hr hru hs
  have e2 := C106.transp_vel hk hx hu hr hru (C106.len hk hs)
  have e3 := C106.expmap_pt hk hy hv.1 hr hv.2 ht
  have e4 := C106.transp_vel hk hy hv.1 hr hv.2 (C106.len hk ht)
  constructor
  · unfold transpFollowExpmap
    rw [e1, e2, e3, C106.pt_pt hk hr, hsum]
    simp [C106.pt]
  · unfold transpFollowExpmap
    rw [e1, e2, e3, e4, C106.vel_vel hk hr, hsum]
    simp [C106.vel]

/-- The condition on the whole way cannot be dropped: walking there and back is not `expmap(x, 0)`, which
moves every point but the origin. -/
theorem C106_counterexample_lorentz {k : ℝ} (hk : 0 < k) {x u : Vec (n + 1)} (hx : OnHyperboloid k x)
    (hu : Tangent x u) {s : ℝ} (hs : 1e-8 ≤ mink (s • u) (s • u)) (hx0 : Fin.tail x ≠ 0) :
    ¬ TwoLegs (fun x w => expmap k x w) (transpFollowExpmap k) x u s (-s) := by
  unfold TwoLegs
  dsimp only
  rw [(C106_lorentz_back hk hx hu hs).1, add_neg_cancel, zero_smul]
  exact fun h => (C37_counterexample_exp_zero hk hx hx0).2 h.symm

end Geoopt.Lorentz

namespace Geoopt.Stereo
open Geoopt Geoopt.Flow
variable {n : ℕ}

lemma C106.tanK_neg {η k : ℝ} (hk : k < -1e-8) (a : ℝ) : tanK η k (-a) = -tanK η k a := by
  rw [tanK_neg_curv hk, tanK_neg_curv hk, neg_mul, tanhC_neg, mul_neg]

/-- The exponential map along multiples of a vector, signs included. -/
lemma C106.expmap_line {η k c : ℝ} (hk : k < -1e-8) {x u : Vec n} (hu : 0 < nrm u)
    (hc : c = 0 ∨ 1e-15 ≤ |c| * nrm u) :
    expmap η k x (c • u) =
      mobiusAdd k x (tanK η k (c * (lambdaX k x / 2 * nrm u)) • ((nrm u)⁻¹ • u)) := by
  rcases hc with rfl | hc
  · rw [zero_smul, expmap_zero, zero_mul, tanK_zero, zero_smul, C03_add_zero]
  · have hn : nrm (c • u) = |c| * nrm u := nrm_smul c u
    have hc0 : c ≠ 0 := by
      rintro rfl
      norm_num at hc
    rw [C105.expmap_arm (by rw [hn]; exact hc), C105.arm, hn]
    congr 1
    rw [smul_smul, smul_smul, smul_smul]
    congr 1
    rcases abs_cases c with ⟨e, _⟩ | ⟨e, _⟩
    · rw [e, show lambdaX k x / 2 * (c * nrm u) = c * (lambdaX k x / 2 * nrm u) by ring]
      field_simp
    · rw [e, show lambdaX k x / 2 * (-c * nrm u) = -(c * (lambdaX k x / 2 * nrm u)) by ring,
        C106.tanK_neg hk]
      field_simp

/-- The conformal factors of two valid points differ by at most a factor `1e5`. -/
lemma C106.ratio {η k : ℝ} (hη : 0 ≤ η) (hk : k < 0) {dt : DType} {x y : Vec n}
    (hy : Valid η dt k y) : (1e-5:ℝ) ≤ lambdaX k x / lambdaX k y := by
  have hye : (1e-5:ℝ) ≤ 1 + k * (y ⬝ᵥ y) := by
    have := valid_sq hη hk hy
    norm_num at this ⊢
    linarith
  have l1 : 2 ≤ lambdaX k x := by
    have a := dot_self_nonneg x
    rw [lambdaX, le_div_iff₀ (lt_max_of_lt_right (by norm_num))]
    have : max (1 + k * (x ⬝ᵥ x)) 1e-15 ≤ 1 := max_le (by nlinarith) (by norm_num)
    linarith
  have l2 : lambdaX k y ≤ 2 / 1e-5 := by
    rw [lambdaX]
    exact div_le_div_of_nonneg_left (by norm_num) (by norm_num) (le_max_of_le_left hye)
  have lp := lambdaX_pos' k y
  rw [le_div_iff₀ lp]
  norm_num at l2 ⊢
  linarith

lemma C106.tanK_ne_zero {η k a : ℝ} (hη : 0 ≤ η) (hk : k < -1e-8) (ha : a ≠ 0) : tanK η k a ≠ 0 := by
  have hk0 : k < 0 := by have := e8; linarith
  have hs := kSqrt_pos hη hk0.ne
  rw [tanK_neg_curv hk]
  refine mul_ne_zero (inv_ne_zero hs.ne') ?_
  have key : ∀ z : ℝ, 0 < z → 0 < tanhC z := by
    intro z hz
    unfold tanhC
    have : (0:ℝ) < clamp (-15) 15 z := by
      unfold clamp
      simp only [lt_min_iff, lt_max_iff]
      refine ⟨Or.inl hz, by norm_num⟩
    simpa using tanh_strictMono this
  rcases lt_or_gt_of_ne ha with h | h
  · have := key (-a * kSqrt η k) (mul_pos (by linarith) hs)
    rw [neg_mul, tanhC_neg] at this
    linarith
  · exact (key _ (mul_pos h hs)).ne'

/-- Where two legs lead in the Poincaré ball: the two half lengths are added with the curvature `k`. -/
lemma C106.two_legs {η k : ℝ} (hη : 0 ≤ η) (hk : k < -1e-8) {dt : DType} {x u : Vec n} {s t : ℝ}
    (hx : Valid η dt k x) (hy : Valid η dt k (expmap η k x (s • u)))
    (hs : 1e-15 ≤ |s| * nrm u) (ht : 1e-10 ≤ |t| * nrm u) {a b : ℝ}
    (ha : a = tanK η k (s * (lambdaX k x / 2 * nrm u)))
    (hb : b = tanK η k (t * (lambdaX k x / 2 * nrm u))) :
    expmap η k (expmap η k x (s • u)) (t • transp k x (expmap η k x (s • u)) u) =
      mobiusAdd k x (((a + b) / (1 - k * a * b)) • ((nrm u)⁻¹ • u)) := by
  have hk0 : k < 0 := by have := e8; linarith
  have hup : 0 < nrm u := by
    rcases (nrm_nonneg u).eq_or_lt with h | h
    · rw [← h, mul_zero] at hs; norm_num at hs
    · exact h
  have hs0 : s ≠ 0 := by rintro rfl; norm_num at hs
  have hlx := lambdaX_pos' k x
  obtain ⟨e, he⟩ : ∃ e, e = (nrm u)⁻¹ • u := ⟨_, rfl⟩
  have hne : nrm e = 1 := by
    rw [he, nrm_smul, abs_of_pos (inv_pos.2 hup), inv_mul_cancel₀ hup.ne']
  have hee : e ⬝ᵥ e = 1 := by rw [← nrm_sq, hne]; norm_num
  have hexp := C106.expmap_line (η := η) (x := x) hk hup (Or.inr hs)
  rw [← ha, ← he] at hexp
  have hws : OpenBall k (a • e) := by rw [ha]; exact openBall_tanK hη hk _ _ hne.le
  have hwt : OpenBall k (b • e) := by rw [hb]; exact openBall_tanK hη hk _ _ hne.le
  have hD : (1e-15:ℝ) ≤ mobDenom k x (a • e) :=
    le_trans (by norm_num) (C105.denom_ball hη hk0 hx hws).1
  have hDp : 0 < mobDenom k x (a • e) := lt_of_lt_of_le (by norm_num) hD
  rw [mobiusAdd_eq hD] at hexp
  rw [hexp] at hy ⊢
  have hxe : (1e-5:ℝ) ≤ 1 + k * (x ⬝ᵥ x) := by
    have := valid_sq hη hk0 hx
    norm_num at this ⊢
    linarith
  have hxne : 1 + k * (x ⬝ᵥ x) ≠ 0 := by
    intro h; rw [h] at hxe; norm_num at hxe
  have ha0 : a ≠ 0 := by
    rw [ha]; exact C106.tanK_ne_zero hη hk (mul_ne_zero hs0 (by positivity))
  -- the two gyrations agree on the line
  have hd : (1e-15:ℝ) ≤ mobDenom k (mAdd k x (a • e)) (-x) :=
    le_trans (by norm_num) (C105.denom_ball hη hk0 hy
      (openBall_neg.2 (valid_openBall hη hk0 hx))).1
  have hdne : mobDenom k (mAdd k x (a • e)) (-x) ≠ 0 := by
    intro h; rw [h] at hd; norm_num at hd
  have hcancel : mAdd k (-x) (mAdd k x (a • e)) = a • e := mAdd_left_cancel hDp.ne' hxne
  have hg1 : mGyr k (mAdd k x (a • e)) (-x) (a • e) = mAdd k (mAdd k x (a • e)) (-x) := by
    conv_lhs => rw [← hcancel]
    rw [hcancel]
    have := mGyr_comm hdne
    rwa [hcancel] at this
  have hzero : mAdd k (a • e) (-(a • e)) = 0 := by
    unfold mAdd; dots
    funext i
    simp only [Pi.smul_apply, Pi.add_apply, smul_eq_mul, Pi.neg_apply, Pi.zero_apply]
    ring
  have hDaa : mobDenom k (a • e) (-(a • e)) ≠ 0 :=
    (mobDenom_pos hk0.le hws (openBall_neg.2 hws)).ne'
  have hden : ∀ w, OpenBall k w → mobDenom k (a • e) w ≠ 0 → den3 k x (a • e) w ≠ 0 := by
    intro w hw hne'
    have h1 := den3_left (k := k) (u := x) hne'
    have h2 := (mobDenom_pos hk0.le (valid_openBall hη hk0 hx) (openBall_mAdd hk0.le hws hw))
    rw [h1] at h2
    intro h0
    rw [h0, zero_div] at h2
    exact lt_irrefl _ h2
  have hg2 : mGyr k x (a • e) (a • e) = mAdd k (mAdd k x (a • e)) (-x) := by
    have h := mAdd_assoc (k := k) (u := x) (v := a • e) (w := -(a • e)) hDp.ne' hDaa
      (hden _ (openBall_neg.2 hws) hDaa)
    rw [hzero] at h
    have hx0 : mAdd k x 0 = x := by
      unfold mAdd mobDenom
      funext i
      simp
    rw [hx0] at h
    have hyx : OpenBall k (mAdd k x (a • e)) := valid_openBall hη hk0 hy
    have hgn : mGyr k x (a • e) (-(a • e)) = -mGyr k x (a • e) (a • e) := by
      unfold mGyr; dots
      funext i
      simp only [Pi.smul_apply, Pi.add_apply, smul_eq_mul, Pi.neg_apply]
      ring
    rw [hgn] at h
    have hgb : OpenBall k (mGyr k x (a • e) (a • e)) := by
      unfold OpenBall at hws ⊢
      rw [mGyr_dot_mGyr hDp.ne']
      exact hws
    have hgn0 : mobDenom k (mAdd k x (a • e)) (-mGyr k x (a • e) (a • e)) ≠ 0 :=
      (mobDenom_pos hk0.le hyx (openBall_neg.2 hgb)).ne'
    have hyne : 1 + k * (mAdd k x (a • e) ⬝ᵥ mAdd k x (a • e)) ≠ 0 := by
      unfold OpenBall at hyx
      linarith
    have h2 := mAdd_left_cancel hgn0 hyne
    rw [← h] at h2
    have hneg : ∀ p q : Vec n, mAdd k p (-q) = -mAdd k (-p) q := by
      intro p q
      have e3 : mobDenom k (-p) q = mobDenom k p (-q) := by
        unfold mobDenom; dots; ring
      unfold mAdd
      rw [e3]; dots
      funext i
      simp only [Pi.smul_apply, Pi.add_apply, smul_eq_mul, Pi.neg_apply]
      ring
    rw [hneg, h2, neg_neg]
  have hge : mGyr k (mAdd k x (a • e)) (-x) e = mGyr k x (a • e) e := by
    have lin : ∀ p q : Vec n, mGyr k p q (a • e) = a • mGyr k p q e := by
      intro p q
      unfold mGyr; dots
      funext i
      simp only [Pi.smul_apply, Pi.add_apply, smul_eq_mul]
      ring
    have h := hg1.trans hg2.symm
    rw [lin, lin] at h
    have h' := congrArg (fun v => a⁻¹ • v) h
    simpa [smul_smul, inv_mul_cancel₀ ha0] using h'
  -- the second leg
  obtain ⟨y, hyd⟩ : ∃ y, y = mAdd k x (a • e) := ⟨_, rfl⟩
  rw [← hyd] at hy hd hdne hge ⊢
  have hly := lambdaX_pos' k y
  have hnv := C105.nrm_transp hd u
  have hrat := C106.ratio (x := x) hη hk0 hy
  have hvp : 0 < nrm (transp k x y u) := by rw [hnv]; positivity
  have hfl : 1e-15 ≤ |t| * nrm (transp k x y u) := by
    rw [hnv]
    calc (1e-15:ℝ) = 1e-5 * 1e-10 := by norm_num
      _ ≤ lambdaX k x / lambdaX k y * (|t| * nrm u) :=
        mul_le_mul hrat ht (by norm_num) (le_trans (by norm_num) hrat)
      _ = _ := by ring
  rw [C106.expmap_line hk hvp (Or.inr hfl), hnv]
  have el : t * (lambdaX k y / 2 * (lambdaX k x / lambdaX k y * nrm u)) =
      t * (lambdaX k x / 2 * nrm u) := by field_simp
  have ev : (lambdaX k x / lambdaX k y * nrm u)⁻¹ • transp k x y u = gyration k y (-x) e := by
    rw [he, C105.gyr_smul, transp, smul_smul]
    congr 1
    field_simp
  rw [el, ev, ← hb, gyration_eq hd, hge]
  have lin : b • mGyr k x (a • e) e = mGyr k x (a • e) (b • e) := by
    unfold mGyr; dots
    funext i
    simp only [Pi.smul_apply, Pi.add_apply, smul_eq_mul]
    ring
  rw [lin]
  have hgb : OpenBall k (mGyr k x (a • e) (b • e)) := by
    unfold OpenBall at hwt ⊢
    rw [mGyr_dot_mGyr hDp.ne']
    exact hwt
  rw [mobiusAdd_eq (le_trans (by norm_num) (C105.denom_ball hη hk0 hy hgb).1), hyd]
  have hDab : mobDenom k (a • e) (b • e) ≠ 0 := (mobDenom_pos hk0.le hws hwt).ne'
  rw [← mAdd_assoc hDp.ne' hDab (hden _ hwt hDab), ← he]
  have hab : 1 - k * a * b ≠ 0 := by
    have e2 : mobDenom k (a • e) (b • e) = (1 - k * a * b) ^ 2 := by
      unfold mobDenom; dots; rw [hee]; ring
    rw [e2] at hDab
    exact fun h => hDab (by rw [h]; norm_num)
  rw [← mAdd_collinear hee hab,
    mobiusAdd_eq (le_trans (by norm_num) (C105.denom_ball hη hk0 hx (openBall_mAdd hk0.le hws hwt)).1)]

/-- The sum of two half lengths, computed by the code with the regularised curvature `k - η`. -/
lemma C106.tanK_add {η k p q : ℝ} (hη : 0 ≤ η) (hk : k < -1e-8) (hp : |p| * Real.sqrt (|k| + η) ≤ 15)
    (hq : |q| * Real.sqrt (|k| + η) ≤ 15) (hpq : |p + q| * Real.sqrt (|k| + η) ≤ 15) :
    tanK η k (p + q) = (tanK η k p + tanK η k q) / (1 - (k - η) * (tanK η k p * tanK η k q)) := by
  have hk0 : k < 0 := by have := e8; linarith
  have hσ := kSqrt_pos hη hk0.ne
  have hσ2 := kSqrt_sq hη k
  have e1 : ∀ z : ℝ, |z| * Real.sqrt (|k| + η) ≤ 15 →
      tanK η k z = (kSqrt η k)⁻¹ * Real.tanh (z * kSqrt η k) := by
    intro z h1
    rw [← kSqrt_eq, ← abs_of_pos hσ, ← abs_mul, abs_le] at h1
    rw [tanK_neg_curv hk, tanhC_eq h1.1 h1.2]
  rw [e1 _ hp, e1 _ hq, e1 _ hpq, add_mul, Real.tanh_eq_sinh_div_cosh, Real.sinh_add, Real.cosh_add]
  have c1 := Real.cosh_pos (p * kSqrt η k)
  have c2 := Real.cosh_pos (q * kSqrt η k)
  have c3 : 0 < Real.cosh (p * kSqrt η k) * Real.cosh (q * kSqrt η k) +
      Real.sinh (p * kSqrt η k) * Real.sinh (q * kSqrt η k) := by
    rw [← Real.cosh_add]; exact Real.cosh_pos _
  rw [abs_of_neg hk0] at hσ2
  have e2 : k - η = -(kSqrt η k ^ 2) := by rw [hσ2]; ring
  rw [e2, Real.tanh_eq_sinh_div_cosh, Real.tanh_eq_sinh_div_cosh]
  have e3 : 1 - -(kSqrt η k ^ 2) * ((kSqrt η k)⁻¹ * (Real.sinh (p * kSqrt η k) / Real.cosh (p * kSqrt η k)) *
      ((kSqrt η k)⁻¹ * (Real.sinh (q * kSqrt η k) / Real.cosh (q * kSqrt η k)))) =
      (Real.cosh (p * kSqrt η k) * Real.cosh (q * kSqrt η k) +
      Real.sinh (p * kSqrt η k) * Real.sinh (q * kSqrt η k)) /
        (Real.cosh (p * kSqrt η k) * Real.cosh (q * kSqrt η k)) := by
    field_simp
    ring
  rw [e3]
  generalize Real.cosh (p * kSqrt η k) = C at *
  generalize Real.cosh (q * kSqrt η k) = D at *
  generalize Real.sinh (p * kSqrt η k) = A at *
  generalize Real.sinh (q * kSqrt η k) = B at *
  generalize kSqrt η k = σ at *
  field_simp

/-- Poincaré ball without the regulariser of the curvature: the second leg continues the first, as long as
the way stays where the library projects and clamps nothing. -/
theorem C106_poincare_partial {k : ℝ} (hk : k < -1e-8) (hbig : |k| ≤ 1e29) {dt : DType}
    {x u : Vec n} {s t : ℝ} (hx : Valid 0 dt k x) (hy : Valid 0 dt k (M.expmap false 0 dt k x (s • u)))
    (hz : Valid 0 dt k (M.expmap false 0 dt k x ((s + t) • u)))
    (hs : s = 0 ∨ 1e-15 ≤ |s| * nrm u) (ht : t = 0 ∨ 1e-10 ≤ |t| * nrm u)
    (hst : s + t = 0 ∨ 1e-15 ≤ |s + t| * nrm u)
    (hr : ∀ c ∈ [s, t, s + t], |c| * (lambdaX k x / 2 * nrm u) * Real.sqrt |k| ≤ 15) :
    TwoLegs (M.expmap true 0 dt k) (M.transpFollowExpmap true 0 dt k) x u s t := by
  have hk0 : k < 0 := by have := e8; linarith
  have fix : ∀ w : Vec n, Valid 0 dt k w → project 0 dt k w = w := fun w hw =>
    (C02_projx_fixes_exactly_valid le_rfl (by norm_num) hk0 hbig dt w).2 hw
  have px := fix x hx
  have hy' : Valid 0 dt k (expmap 0 k x (s • u)) := hy
  have hz' : Valid 0 dt k (expmap 0 k x ((s + t) • u)) := hz
  unfold TwoLegs
  simp only [M.expmap, M.transpFollowExpmap, withProject, if_true]
  rw [fix _ hy', fix _ hz']
  rcases hs with rfl | hs
  · rw [zero_smul, expmap_zero, C09_transport_self, zero_add]
    rw [zero_add] at hz'
    exact fix _ hz'
  rcases ht with rfl | ht
  · rw [zero_smul, expmap_zero, add_zero]
    exact fix _ hy'
  have hup : 0 < nrm u := by
    rcases (nrm_nonneg u).eq_or_lt with h | h
    · rw [← h, mul_zero] at hs; norm_num at hs
    · exact h
  have hl := lambdaX_pos' k x
  have hℓ : 0 < lambdaX k x / 2 * nrm u := by positivity
  have hr' : ∀ c ∈ [s, t, s + t], |c * (lambdaX k x / 2 * nrm u)| * Real.sqrt (|k| + 0) ≤ 15 := by
    intro c hc
    rw [abs_mul, abs_of_pos hℓ, add_zero]
    exact hr c hc
  rw [C106.two_legs le_rfl hk hx hy' hs ht rfl rfl]
  have h2 := C106.expmap_line (η := 0) (x := x) hk hup hst
  have hadd := C106.tanK_add (η := 0) le_rfl hk (hr' s (by simp)) (hr' t (by simp))
    (by rw [← add_mul]; exact hr' (s + t) (by simp))
  rw [← add_mul, sub_zero, ← mul_assoc k] at hadd
  rw [← hadd, ← h2]
  exact fix _ hz'

/-- With the regulariser of the code (any `η > 0`) it is false: starting at the origin of the ball, two legs
in the same direction always lead further than one. -/
theorem C106_counterexample_poincare {η k : ℝ} (hη : 0 < η) (hk : k < -1e-8)
    {dt : DType} {u : Vec n} {s t : ℝ} (hs0 : 0 < s) (ht0 : 0 < t)
    (hy : Valid η dt k (expmap η k 0 (s • u)))
    (hs : 1e-10 ≤ s * nrm u) (ht : 1e-10 ≤ t * nrm u)
    (hr : (s + t) * nrm u * Real.sqrt (|k| + η) ≤ 15) :
    nrm (expmap η k 0 ((s + t) • u)) <
      nrm (expmap η k (expmap η k 0 (s • u)) (t • transp k 0 (expmap η k 0 (s • u)) u)) := by
  have hk0 : k < 0 := by have := e8; linarith
  have hup : 0 < nrm u := by
    rcases (nrm_nonneg u).eq_or_lt with h | h
    · rw [← h, mul_zero] at hs; norm_num at hs
    · exact h
  have hx : Valid η dt k (0 : Vec n) := by
    unfold Valid
    rw [nrm_zero]
    have : 0 < Real.sqrt (|k| + η) := kSqrt_pos hη.le hk0.ne
    cases dt <;> exact div_nonneg (by norm_num) this.le
  have hl : lambdaX k (0 : Vec n) = 2 := by
    rw [lambdaX, dotProduct_zero, mul_zero, add_zero, max_eq_left (by norm_num)]; norm_num
  have hrange : ∀ c, 0 < c → c ≤ s + t → |c * nrm u| * Real.sqrt (|k| + η) ≤ 15 := by
    intro c h0 h1
    rw [abs_of_pos (mul_pos h0 hup)]
    refine le_trans ?_ hr
    exact mul_le_mul_of_nonneg_right (mul_le_mul_of_nonneg_right h1 hup.le) (Real.sqrt_nonneg _)
  obtain ⟨a, ha⟩ : ∃ a, a = tanK η k (s * nrm u) := ⟨_, rfl⟩
  obtain ⟨b, hb⟩ : ∃ b, b = tanK η k (t * nrm u) := ⟨_, rfl⟩
  have hσ := kSqrt_pos hη.le hk0.ne
  have pos : ∀ c, 0 < c → c ≤ s + t → 0 < tanK η k (c * nrm u) := by
    intro c h0 h1
    have h5 := hrange c h0 h1
    rw [abs_of_pos (mul_pos h0 hup), ← kSqrt_eq] at h5
    have h4 := mul_pos (mul_pos h0 hup) hσ
    rw [tanK_neg_curv hk, tanhC_eq (by linarith) h5]
    refine mul_pos (inv_pos.2 hσ) ?_
    simpa using tanh_strictMono h4
  have ha0 : 0 < a := by rw [ha]; exact pos s hs0 (by linarith)
  have hb0 : 0 < b := by rw [hb]; exact pos t ht0 (by linarith)
  have hadd := C106.tanK_add hη.le hk (hrange s hs0 (by linarith)) (hrange t ht0 (by linarith))
    (by rw [← add_mul]; exact hrange (s + t) (by linarith) le_rfl)
  rw [← add_mul, ← ha, ← hb] at hadd
  rw [C106.two_legs hη.le hk hx hy (by rw [abs_of_pos hs0]; exact le_trans (by norm_num) hs)
    (by rw [abs_of_pos ht0]; exact ht) (a := a) (b := b) (by rw [hl, ha]; congr 1; ring)
    (by rw [hl, hb]; congr 1; ring),
    C106.expmap_line hk hup (Or.inr (by
      rw [abs_of_pos (by linarith)]
      refine le_trans ?_ (le_trans hs (mul_le_mul_of_nonneg_right (by linarith) hup.le))
      norm_num)), hl]
  rw [show (s + t) * (2 / 2 * nrm u) = (s + t) * nrm u by ring, hadd]
  have hunit : nrm ((nrm u)⁻¹ • u) = 1 := by
    rw [nrm_smul, abs_of_pos (inv_pos.2 hup), inv_mul_cancel₀ hup.ne']
  rw [C03_zero_add, C03_zero_add]
  generalize (nrm u)⁻¹ • u = e at hunit
  rw [nrm_smul, nrm_smul, hunit, mul_one, mul_one]
  have hab : 0 < a * b := mul_pos ha0 hb0
  have d1 : 0 < 1 - k * a * b := by nlinarith
  have d2 : 1 - k * a * b < 1 - (k - η) * (a * b) := by nlinarith [mul_pos hη hab]
  rw [abs_of_pos (div_pos (by linarith) d1), abs_of_pos (div_pos (by linarith) (d1.trans d2))]
  exact div_lt_div_of_pos_left (by linarith) d1 d2

/-- So the two ways do not agree. -/
theorem C106_counterexample_poincare_legs {η k : ℝ} (hη : 0 < η) (hk : k < -1e-8)
    {dt : DType} {u : Vec n} {s t : ℝ} (hs0 : 0 < s) (ht0 : 0 < t)
    (hy : Valid η dt k (M.expmap false η dt k 0 (s • u)))
    (hs : 1e-10 ≤ s * nrm u) (ht : 1e-10 ≤ t * nrm u)
    (hr : (s + t) * nrm u * Real.sqrt (|k| + η) ≤ 15) :
    ¬ TwoLegs (M.expmap false η dt k) (M.transpFollowExpmap false η dt k) 0 u s t := by
  intro h
  have h1 := C106_counterexample_poincare hη hk hs0 ht0 hy hs ht hr
  have h2 := congrArg nrm h
  simp only [M.expmap, M.transpFollowExpmap, withProject, Bool.false_eq_true, if_false] at h2
  exact absurd h2 h1.ne'

/-- Flat space, with the regulariser. -/
theorem C106_flat (η : ℝ) (x u : Vec n) (s t : ℝ) :
    TwoLegs (expmap η 0) (fun x w v => transp 0 x (expmap η 0 x w) v) x u s t ∧
      SameVelocity (expmap η 0) (fun x w v => transp 0 x (expmap η 0 x w) v) x u s t := by
  have h1 : ∀ x u : Vec n, expmap η 0 x u = x + u := fun x u => (C11_flat η 0 0 x x u u).2.2.2.2.2.1
  have h2 : ∀ x y u : Vec n, transp 0 x y u = u := fun x y u => (C11_flat η 0 0 x y u u).2.2.2.2.2.2.2.1
  constructor
  · simp only [TwoLegs, h1, h2, add_smul, add_assoc]
  · simp only [SameVelocity, h2]

end Geoopt.Stereo

namespace Geoopt.Sphere
open Geoopt Matrix Geoopt.Flow
variable {n : ℕ} {S : Set (Vec n)} {P : Option (Matrix (Fin n) (Fin n) ℝ)}

lemma C106.expmap_line (dt : DType) (x : Vec n) {u : Vec n} (hu : 0 < nrm u) {c : ℝ}
    (hc : eps dt < |c| * nrm u) :
    expmap P dt x (c • u) = Real.cos (c * nrm u) • x + (Real.sin (c * nrm u) / nrm u) • u := by
  have hn : nrm (c • u) = |c| * nrm u := nrm_smul c u
  have hc0 : c ≠ 0 := by
    rintro rfl
    rw [abs_zero, zero_mul] at hc
    exact absurd hc (not_lt.2 (eps_pos dt).le)
  rw [expmap, hn, if_pos hc, smul_smul]
  rcases abs_cases c with ⟨e, _⟩ | ⟨e, _⟩
  · rw [e]
    congr 2
    field_simp
  · rw [e, neg_mul, Real.cos_neg, Real.sin_neg]
    congr 2
    field_simp

/-- The sphere carries velocities along by projection, which shortens them: after an angle `θ = s ‖u‖` only
the fraction `cos θ` is left, so that the second leg is walked for the time `t cos θ` only. -/
theorem C106_sphere_shortened (hP : Projects S P) {dt : DType} {x u : Vec n} (hx : OnSphere S x)
    (hu : Tangent S x u) {s t : ℝ} (hs : eps dt < |s| * nrm u)
    (ht : eps dt < |t * Real.cos (s * nrm u)| * nrm u)
    (hst : eps dt < |s + t * Real.cos (s * nrm u)| * nrm u) :
    expmap P dt (expmap P dt x (s • u)) (t • transp P x (expmap P dt x (s • u)) u) =
      expmap P dt x ((s + t * Real.cos (s * nrm u)) • u) := by
  have hup : 0 < nrm u := by
    rcases (nrm_nonneg u).eq_or_lt with h | h
    · rw [← h, mul_zero] at hs
      exact absurd hs (not_lt.2 (eps_pos dt).le)
    · exact h
  rw [C106.expmap_line dt x hup hs, C106.expmap_line dt x hup hst]
  obtain ⟨θ, hθ⟩ : ∃ θ, θ = s * nrm u := ⟨_, rfl⟩
  obtain ⟨r, hr⟩ : ∃ r, r = nrm u := ⟨_, rfl⟩
  have hrr : u ⬝ᵥ u = r ^ 2 := by rw [hr, nrm_sq]
  rw [← hθ, ← hr] at ht ⊢
  rw [← hr] at hup hθ
  have hxu : x ⬝ᵥ u = 0 := hu.1
  have hux : u ⬝ᵥ x = 0 := by rw [dotProduct_comm]; exact hu.1
  have hxx := hx.1
  have hcs := Real.sin_sq_add_cos_sq θ
  obtain ⟨w, hw⟩ : ∃ w : Vec n, w = (-(r * Real.sin θ)) • x + Real.cos θ • u := ⟨_, rfl⟩
  have htr : transp P x (Real.cos θ • x + (Real.sin θ / r) • u) u = Real.cos θ • w := by
    have e : u - ((Real.cos θ • x + (Real.sin θ / r) • u) ⬝ᵥ u) •
        (Real.cos θ • x + (Real.sin θ / r) • u) = Real.cos θ • w := by
      have : (Real.cos θ • x + (Real.sin θ / r) • u) ⬝ᵥ u = r * Real.sin θ := by
        simp only [add_dotProduct, smul_dotProduct, smul_eq_mul, hxu, hrr]
        field_simp
        ring
      rw [this, hw]
      funext i
      simp only [Pi.sub_apply, Pi.smul_apply, Pi.add_apply, smul_eq_mul]
      have e2 : r * Real.sin θ * (Real.cos θ * x i + Real.sin θ / r * u i) =
          r * Real.sin θ * Real.cos θ * x i + Real.sin θ ^ 2 * u i := by
        field_simp
      rw [e2]
      linear_combination (-(u i)) * hcs
    rw [transp, proju, e, pos_fix hP (smul_mem hP (by rw [hw]; exact lin_mem hP hx.2 hu.2 _ _) _)]
  have hwn : nrm w = r := by
    refine nrm_eq_of_dot_eq hup.le ?_
    rw [hw]
    simp only [add_dotProduct, dotProduct_add, smul_dotProduct, dotProduct_smul, smul_eq_mul, hxu, hux, hxx,
      hrr]
    linear_combination (r ^ 2) * hcs
  rw [htr, smul_smul, C106.expmap_line dt _ (by rw [hwn]; exact hup) (by rw [hwn]; exact ht), hwn, hw,
    show (s + t * Real.cos θ) * r = θ + t * Real.cos θ * r by rw [hθ]; ring, Real.cos_add, Real.sin_add]
  funext i
  simp only [Pi.smul_apply, Pi.add_apply, smul_eq_mul]
  field_simp
  ring

/-- So on the sphere the two ways never agree for legs in the same direction that stay within half a turn. -/
theorem C106_counterexample_sphere (hP : Projects S P) {dt : DType} {x u : Vec n} (hx : OnSphere S x)
    (hu : Tangent S x u) {s t : ℝ} (hs0 : 0 < s) (ht0 : 0 < t) (hs : eps dt < s * nrm u)
    (hq : s * nrm u < Real.pi / 2) (ht : eps dt < t * Real.cos (s * nrm u) * nrm u)
    (hst : (s + t) * nrm u ≤ Real.pi) :
    ¬ TwoLegs (expmap P dt) (fun x w v => transp P x (expmap P dt x w) v) x u s t := by
  have hup : 0 < nrm u := by
    rcases (nrm_nonneg u).eq_or_lt with h | h
    · rw [← h, mul_zero] at hs
      exact absurd hs (not_lt.2 (eps_pos dt).le)
    · exact h
  have hθ : 0 < s * nrm u := mul_pos hs0 hup
  have hc0 : 0 < Real.cos (s * nrm u) := Real.cos_pos_of_mem_Ioo ⟨by linarith [Real.pi_pos], hq⟩
  have hc1 : Real.cos (s * nrm u) < 1 := by
    rw [← Real.cos_zero]
    exact Real.cos_lt_cos_of_nonneg_of_le_pi le_rfl (by linarith [Real.pi_pos]) hθ
  have htc : 0 < t * Real.cos (s * nrm u) := mul_pos ht0 hc0
  intro h
  unfold TwoLegs at h
  dsimp only at h
  rw [C106_sphere_shortened hP hx hu (by rw [abs_of_pos hs0]; exact hs) (by rw [abs_of_pos htc]; exact ht)
    (by rw [abs_of_pos (by linarith), add_mul]; linarith),
    C106.expmap_line dt x hup (by rw [abs_of_pos (by linarith), add_mul]; linarith),
    C106.expmap_line dt x hup (by
      rw [abs_of_pos (by linarith), add_mul]
      have := mul_pos ht0 hup
      linarith)] at h
  have h1 := congrArg (fun v => x ⬝ᵥ v) h
  simp only [dotProduct_add, dotProduct_smul, smul_eq_mul, hx.1, hu.1, mul_zero, add_zero, mul_one] at h1
  have hlt : (s + t * Real.cos (s * nrm u)) * nrm u < (s + t) * nrm u := by
    refine mul_lt_mul_of_pos_right ?_ hup
    nlinarith
  have := Real.cos_lt_cos_of_nonneg_of_le_pi (by positivity) hst hlt
  exact absurd h1 this.ne'

end Geoopt.Sphere

namespace Geoopt.Stiefel
open Geoopt Geoopt.Linalg Matrix Geoopt.Flow
variable {n m : ℕ}

lemma C106.solve {x v u z : Matrix (Fin n) (Fin m) ℝ}
    (h : Canonical.lhs x u * z = v + (1 / 2 : ℝ) • (Canonical.amat x u * v)) :
    Canonical.transpFollowOne x v u = z := by
  unfold Canonical.transpFollowOne
  simp only
  rw [← h, ← Matrix.mul_assoc, Matrix.nonsing_inv_mul _ (C24_system_nonsingular x u), Matrix.one_mul]

/-- The canonical Stiefel manifold calls its Cayley retraction `expmap`.  Two legs are two Cayley rotations
about the same skew matrix ... -/
theorem C106_canonical_stiefel_legs (x u : Matrix (Fin n) (Fin m) ℝ) (s t : ℝ) :
    Canonical.retr (Canonical.retr x (s • u)) (t • Canonical.transpFollowRetr x (s • u) u) =
      cay (t • Canonical.amat x u) * (cay (s • Canonical.amat x u) * x) := by
  have hsm : ∀ c : ℝ, Canonical.amat x (c • u) = c • Canonical.amat x u := by
    intro c
    simp only [Canonical.amat, Matrix.smul_mul, Matrix.transpose_smul, Matrix.mul_smul, smul_sub]
  have hsm' : ∀ (y v : Matrix (Fin n) (Fin m) ℝ) (c : ℝ), Canonical.amat y (c • v) = c • Canonical.amat y v := by
    intro y v c
    simp only [Canonical.amat, Matrix.smul_mul, Matrix.transpose_smul, Matrix.mul_smul, smul_sub]
  have hskew : (s • Canonical.amat x u)ᵀ = -(s • Canonical.amat x u) := by
    rw [Matrix.transpose_smul, amat_skew, smul_neg]
  have hA : Canonical.amat (cay (s • Canonical.amat x u) * x) (cay (s • Canonical.amat x u) * u) =
      Canonical.amat x u := by
    by_cases h0 : s = 0
    · subst h0
      simp [cay]
    · rw [amat_conj]
      have hc := cay_comm_self _ hskew
      have hc' : cay (s • Canonical.amat x u) * Canonical.amat x u =
          Canonical.amat x u * cay (s • Canonical.amat x u) := by
        rw [Matrix.mul_smul, Matrix.smul_mul] at hc
        have := congrArg (fun M => s⁻¹ • M) hc
        simpa [smul_smul, inv_mul_cancel₀ h0] using this
      have ho := mul_eq_one_comm.1 (cay_orth _ hskew)
      rw [hc', Matrix.mul_assoc, ho, Matrix.mul_one]
  rw [Canonical.retr, transpFollowOne_eq, Canonical.transpFollowRetr, transpFollowOne_eq, Canonical.retr,
    transpFollowOne_eq, hsm, hsm', hA]

lemma C106.amat_two (a b c d : ℝ) : Canonical.amat !![a; b] !![c; d] =
    !![0, c * b - a * d; d * a - b * c, 0] := by
  ext i j
  fin_cases i <;> fin_cases j <;> simp [Canonical.amat, Matrix.mul_apply, -Matrix.cons_mul] <;> ring

lemma C106.smul_two (c a b : ℝ) : c • !![a; b] = !![c * a; c * b] := by
  ext i j
  fin_cases j
  fin_cases i <;> simp

/-- ... which is not one Cayley rotation by the sum: two quarter turns against a turn by `2 arctan 2`. -/
theorem C106_counterexample_canonical_stiefel :
    ∃ x u : Matrix (Fin 2) (Fin 1) ℝ, OnStiefel x ∧ Tangent x u ∧
      ¬ TwoLegs Canonical.retr (fun x w v => Canonical.transpFollowRetr x w v) x u 2 2 := by
  refine ⟨!![1; 0], !![0; 1], ?_, ?_, ?_⟩
  · unfold OnStiefel; ext i j; fin_cases i; fin_cases j
    simp [Matrix.mul_apply, Fin.sum_univ_two]
  · unfold Tangent; ext i j; fin_cases i; fin_cases j
    simp [Matrix.mul_apply, Fin.sum_univ_two]
  · have e1 : Canonical.retr !![1; 0] ((2 : ℝ) • !![0; 1]) = !![0; 1] := by
      refine C106.solve ?_
      rw [lhs_eq, C106.smul_two, C106.amat_two]
      ext i j
      fin_cases j
      fin_cases i <;> simp [Matrix.mul_apply, Fin.sum_univ_two, Matrix.sub_apply] <;> norm_num
    have e2 : Canonical.transpFollowRetr !![1; 0] ((2 : ℝ) • !![0; 1]) !![0; 1] = !![-1; 0] := by
      refine C106.solve ?_
      rw [lhs_eq, C106.smul_two, C106.amat_two]
      ext i j
      fin_cases j
      fin_cases i <;> simp [Matrix.mul_apply, Fin.sum_univ_two, Matrix.sub_apply] <;> norm_num
    have e3 : Canonical.retr !![0; 1] ((2 : ℝ) • !![-1; 0]) = !![-1; 0] := by
      refine C106.solve ?_
      rw [lhs_eq, C106.smul_two, C106.amat_two]
      ext i j
      fin_cases j
      fin_cases i <;> simp [Matrix.mul_apply, Fin.sum_univ_two, Matrix.sub_apply] <;> norm_num
    have e4 : Canonical.retr !![1; 0] ((4 : ℝ) • !![0; 1]) = !![-3 / 5; 4 / 5] := by
      refine C106.solve ?_
      rw [lhs_eq, C106.smul_two, C106.amat_two]
      ext i j
      fin_cases j
      fin_cases i <;> simp [Matrix.mul_apply, Fin.sum_univ_two, Matrix.sub_apply] <;> norm_num
    intro h
    unfold TwoLegs at h
    dsimp only at h
    rw [e1, e2, e3, show (2 : ℝ) + 2 = 4 by norm_num, e4] at h
    have := congrFun (congrFun h 0) 0
    simp at this
    norm_num at this

end Geoopt.Stiefel

/-! ## the hypotheses are met -/

section
open Geoopt

example : SPD.OnSPD SPD.sampleA ∧ SPD.Symm SPD.sampleB := ⟨SPD.sampleA_spd, SPD.sampleB_spd.1⟩

example : ∃ u : Vec 3, Lorentz.OnHyperboloid 1 Lorentz.qA ∧ Lorentz.Tangent Lorentz.qA u ∧
    ∀ c ∈ [(1 : ℝ), 2, 1 + 2], 1e-8 ≤ Lorentz.mink (c • u) (c • u) := by
  refine ⟨![0, 0, 1], Lorentz.qA_on, ?_, ?_⟩
  · simp [Lorentz.Tangent, Lorentz.mink, Lorentz.qA, Fin.sum_univ_two]
  · intro c hc
    simp only [List.mem_cons, List.not_mem_nil, or_false] at hc
    rcases hc with rfl | rfl | rfl <;> simp [Lorentz.mink, Fin.sum_univ_two] <;> norm_num

open Stereo in
example (dt : DType) : ∃ u : Vec 2, Valid 0 dt (-1) (0 : Vec 2) ∧
    (∀ c ∈ [(1 : ℝ), 1 + 1], Valid 0 dt (-1) (M.expmap false 0 dt (-1) 0 (c • u))) ∧
    (∀ c ∈ [(1 : ℝ), 1 + 1], 1e-10 ≤ |c| * nrm u) ∧
    ∀ c ∈ [(1 : ℝ), 1, 1 + 1], |c| * (lambdaX (-1) (0 : Vec 2) / 2 * nrm u) * Real.sqrt |(-1 : ℝ)| ≤ 15 := by
  have hn : nrm (![1 / 4, 0] : Vec 2) = 1 / 4 :=
    nrm_eq_of_dot_eq (by norm_num) (by simp [dotProduct, Fin.sum_univ_two]; norm_num)
  have hl : lambdaX (-1) (0 : Vec 2) = 2 := by
    rw [lambdaX, dotProduct_zero, mul_zero, add_zero, max_eq_left (by norm_num)]; norm_num
  have hks : kSqrt 0 (-1) = 1 := by simp [kSqrt_eq]
  have hv : ∀ x : Vec 2, nrm x ≤ 1 / 2 → Valid 0 dt (-1) x := by
    intro x hx
    unfold Valid
    rw [abs_neg, abs_one, add_zero, Real.sqrt_one, div_one]
    cases dt <;> norm_num <;> linarith
  refine ⟨![1 / 4, 0], hv 0 (by rw [nrm_zero]; norm_num), ?_, ?_, ?_⟩
  · intro c hc
    have hc' : 0 < c ∧ c ≤ 2 := by
      simp only [List.mem_cons, List.not_mem_nil, or_false] at hc
      rcases hc with rfl | rfl <;> norm_num
    refine hv _ ?_
    have e : M.expmap false 0 dt (-1) 0 (c • (![1 / 4, 0] : Vec 2)) =
        expmap 0 (-1) 0 (c • (![1 / 4, 0] : Vec 2)) := rfl
    have hu : nrm ((nrm (![1 / 4, 0] : Vec 2))⁻¹ • (![1 / 4, 0] : Vec 2)) = 1 :=
      nrm_unit (by rw [hn]; norm_num)
    rw [e, C106.expmap_line (by norm_num) (by rw [hn]; norm_num)
      (Or.inr (by
        rw [hn, abs_of_pos hc'.1]
        simp only [List.mem_cons, List.not_mem_nil, or_false] at hc
        rcases hc with rfl | rfl <;> norm_num)), C03_zero_add]
    generalize (nrm (![1 / 4, 0] : Vec 2))⁻¹ • (![1 / 4, 0] : Vec 2) = v at hu
    rw [nrm_smul, hu, hl, hn, mul_one, tanK_neg_curv (by norm_num), hks, inv_one, one_mul, mul_one,
      tanhC_eq (by linarith) (by linarith)]
    have h0 : 0 < c * (2 / 2 * (1 / 4)) := by linarith
    have := NearFlat.tanh_lt_self h0
    rw [abs_of_nonneg (tanh_nonneg' h0.le)]
    linarith
  · intro c hc
    rw [hn]
    simp only [List.mem_cons, List.not_mem_nil, or_false] at hc
    rcases hc with rfl | rfl <;> norm_num
  · intro c hc
    rw [hn, hl]
    simp only [List.mem_cons, List.not_mem_nil, or_false] at hc
    rcases hc with rfl | rfl | rfl <;> norm_num

open Sphere in
example (dt : DType) : ∃ x u : Vec 2, OnSphere Set.univ x ∧ Tangent Set.univ x u ∧
    eps dt < 1 * nrm u ∧ 1 * nrm u < Real.pi / 2 ∧ eps dt < 1 * Real.cos (1 * nrm u) * nrm u ∧
    (1 + 1) * nrm u ≤ Real.pi := by
  have hpi := Real.pi_gt_three
  have heps := eps_small dt
  have hn : nrm (![0, 1] : Vec 2) = 1 :=
    nrm_eq_of_dot_eq (by norm_num) (by simp [dotProduct, Fin.sum_univ_two])
  refine ⟨![1, 0], ![0, 1], ⟨by simp [dotProduct, Fin.sum_univ_two], trivial⟩,
    ⟨by simp [dotProduct, Fin.sum_univ_two], trivial⟩, ?_, ?_, ?_, ?_⟩
  · rw [hn]; norm_num at heps ⊢; linarith
  · rw [hn]; linarith
  · rw [hn, one_mul, one_mul, mul_one]
    have := Real.cos_one_pos
    have h1 := Real.one_sub_sq_div_two_le_cos (x := 1)
    norm_num at heps h1 ⊢
    linarith
  · rw [hn]; linarith

end
