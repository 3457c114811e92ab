import Verif.Lemmas.Gyro
import Verif.Lemmas.Ball
import Verif.Spec.Isometry
import Verif.Props.C09
import Verif.Props.C05
import Verif.Props.C106
import Mathlib.Analysis.Calculus.Deriv.Inv
import Mathlib.Analysis.Calculus.Deriv.Pow

/-!
# C108 (stereographic model): translations of the space commute with every operation
-/

namespace Geoopt.Stereo
open Geoopt Geoopt.Isometry
variable {n : ℕ}

namespace C108

/-- what the translation `y ↦ a ⊕ y` does to velocities at `x` -/
noncomputable def push (k : ℝ) (a x u : Vec n) : Vec n :=
  ((1 + k * (a ⬝ᵥ a)) / mobDenom k a x) • mGyr k a x u

lemma push_deriv_mAdd {k : ℝ} {a x : Vec n} (h : mobDenom k a x ≠ 0) (u : Vec n) :
    HasDerivAt (fun s : ℝ => mAdd k a (x + s • u)) (push k a x u) 0 := by
  rw [hasDerivAt_pi]
  intro i
  have e : (fun s : ℝ => mAdd k a (x + s • u) i) = fun s =>
      ((1 - 2 * k * (a ⬝ᵥ x + s * (a ⬝ᵥ u)) - k * (x ⬝ᵥ x + s * (2 * (x ⬝ᵥ u)) + s ^ 2 * (u ⬝ᵥ u)))
          * a i + (1 + k * (a ⬝ᵥ a)) * (x i + s * u i)) /
        (1 - 2 * k * (a ⬝ᵥ x + s * (a ⬝ᵥ u)) +
          k ^ 2 * (a ⬝ᵥ a) * (x ⬝ᵥ x + s * (2 * (x ⬝ᵥ u)) + s ^ 2 * (u ⬝ᵥ u))) := by
    funext s
    have h1 : (x + s • u) ⬝ᵥ (x + s • u) = x ⬝ᵥ x + s * (2 * (x ⬝ᵥ u)) + s ^ 2 * (u ⬝ᵥ u) := by
      dots; rw [dotProduct_comm u x]; ring
    have h2 : a ⬝ᵥ (x + s • u) = a ⬝ᵥ x + s * (a ⬝ᵥ u) := by dots
    simp only [mAdd, mobDenom, h1, h2, Pi.smul_apply, Pi.add_apply, smul_eq_mul]
    rw [div_eq_inv_mul]
  rw [e]
  have l1 : ∀ c d : ℝ, HasDerivAt (fun s : ℝ => c + s * d) d 0 := fun c d => by
    simpa using ((hasDerivAt_id (0 : ℝ)).mul_const d).const_add c
  have l2 : HasDerivAt (fun s : ℝ => s ^ 2 * (u ⬝ᵥ u)) 0 0 := by
    simpa using (hasDerivAt_pow 2 (0 : ℝ)).mul_const (u ⬝ᵥ u)
  have q : HasDerivAt (fun s : ℝ => x ⬝ᵥ x + s * (2 * (x ⬝ᵥ u)) + s ^ 2 * (u ⬝ᵥ u))
      (2 * (x ⬝ᵥ u)) 0 := ((l1 _ _).add l2).congr_deriv (add_zero _)
  have b := ((l1 (a ⬝ᵥ x) (a ⬝ᵥ u)).const_mul (2 * k)).const_sub 1
  have num := ((b.sub (q.const_mul k)).mul_const (a i)).add
    ((l1 (x i) (u i)).const_mul (1 + k * (a ⬝ᵥ a)))
  have den := b.add (q.const_mul (k ^ 2 * (a ⬝ᵥ a)))
  have hd : (1 - 2 * k * (a ⬝ᵥ x + 0 * (a ⬝ᵥ u)) +
          k ^ 2 * (a ⬝ᵥ a) * (x ⬝ᵥ x + 0 * (2 * (x ⬝ᵥ u)) + 0 ^ 2 * (u ⬝ᵥ u))) = mobDenom k a x := by
    unfold mobDenom; ring
  have := num.div den (by simp only [Pi.add_apply]; rw [hd]; exact h)
  refine this.congr_deriv ?_
  simp only [Pi.add_apply, Pi.sub_apply]
  rw [hd]
  simp only [push, mGyr, Pi.smul_apply, Pi.add_apply, smul_eq_mul]
  field_simp
  unfold mobDenom
  ring

lemma push_deriv {k : ℝ} {a x : Vec n} (h : 1e-15 < mobDenom k a x) :
    DerivAt (mobiusAdd k a) x (push k a x) := by
  intro u
  have h0 : mobDenom k a x ≠ 0 := by
    have : (0:ℝ) < 1e-15 := by norm_num
    linarith
  refine (push_deriv_mAdd h0 u).congr_of_eventuallyEq ?_
  have hc : Continuous fun s : ℝ => mobDenom k a (x + s • u) := by
    simp only [mobDenom, dotProduct_add, add_dotProduct, dotProduct_smul, smul_dotProduct,
      smul_eq_mul]
    fun_prop
  have : ∀ᶠ s in nhds (0 : ℝ), 1e-15 < mobDenom k a (x + s • u) := by
    refine hc.continuousAt.eventually_const_lt ?_
    simpa using h
  filter_upwards [this] with s hs
  exact mobiusAdd_eq hs.le

lemma deriv_eq {F : Vec n → Vec n} {x : Vec n} {D D' : Vec n → Vec n} (h : DerivAt F x D)
    (h' : DerivAt F x D') : D = D' := funext fun u => (h u).unique (h' u)

lemma ne_of_floor {r : ℝ} (h : 1e-15 ≤ r) : r ≠ 0 := by
  have : (0:ℝ) < 1e-15 := by norm_num
  linarith

lemma push_eq {k : ℝ} {a x : Vec n} (h : 1e-15 ≤ mobDenom k a x) (hx : 1e-15 ≤ 1 + k * (x ⬝ᵥ x))
    (hl : 1e-15 ≤ 1 + k * (mobiusAdd k a x ⬝ᵥ mobiusAdd k a x)) (u : Vec n) :
    push k a x u = (lambdaX k x / lambdaX k (mobiusAdd k a x)) • gyration k a x u := by
  have h0 := ne_of_floor h
  have hx0 := ne_of_floor hx
  have hl0 := ne_of_floor hl
  rw [push, gyration_eq h, lambdaX, lambdaX, max_eq_left hx, max_eq_left hl]
  congr 1
  rw [mobiusAdd_eq h, one_add_mAdd_self h0] at hl0 ⊢
  have : 1 + k * (a ⬝ᵥ a) ≠ 0 := by
    intro e
    simp [e] at hl0
  field_simp

lemma add_translate {k : ℝ} {a x w : Vec n} (hax : 1e-15 ≤ mobDenom k a x)
    (hxw : 1e-15 ≤ mobDenom k x w) (hap : 1e-15 ≤ mobDenom k a (mobiusAdd k x w))
    (hlw : 1e-15 ≤ mobDenom k (mobiusAdd k a x) (gyration k a x w)) :
    mobiusAdd k (mobiusAdd k a x) (gyration k a x w) = mobiusAdd k a (mobiusAdd k x w) := by
  rw [mobiusAdd_eq hlw, mobiusAdd_eq hap]
  rw [mobiusAdd_eq hxw] at hap ⊢
  rw [mobiusAdd_eq hax, gyration_eq hax]
  exact (mAdd_assoc (ne_of_floor hax) (ne_of_floor hxw)
    (den3_ne (ne_of_floor hxw) (ne_of_floor hap))).symm

section
variable {k : ℝ} {a x y : Vec n}

lemma _root_.Geoopt.Isometry.OffFloors.t_ne (h : OffFloors k a x y) : mobDenom k x (mAdd k (-x) y) ≠ 0 := by
  have := mobDenom_neg_mAdd (k := k) (x := -x) (y := y) (ne_of_floor h.xy)
  rw [neg_neg] at this
  rw [this, neg_dotProduct, dotProduct_neg, neg_neg]
  exact div_ne_zero (pow_ne_zero _ (ne_of_floor h.lx)) (ne_of_floor h.xy)

lemma _root_.Geoopt.Isometry.OffFloors.sub (h : OffFloors k a x y) :
    mobiusAdd k (-mobiusAdd k a x) (mobiusAdd k a y) = gyration k a x (mobiusAdd k (-x) y) := by
  have hy := mAdd_neg_cancel (ne_of_floor h.xy) (ne_of_floor h.lx)
  have hl := ne_of_floor h.lax
  rw [mobiusAdd_eq h.im, gyration_eq h.ax.le, mobiusAdd_eq h.xy, mobiusAdd_eq h.ay.le]
  rw [mobiusAdd_eq h.ax.le] at hl ⊢
  have := mAdd_translate (ne_of_floor h.ax.le) h.t_ne (by rw [hy]; exact ne_of_floor h.ay.le) hl
  rwa [hy] at this

lemma nrm_gyration (h : 1e-15 ≤ mobDenom k a x) (w : Vec n) : nrm (gyration k a x w) = nrm w := by
  rw [nrm, nrm, gyration_eq h, mGyr_dot_mGyr (ne_of_floor h)]

lemma gyration_smul (c : ℝ) (w : Vec n) :
    gyration k a x (c • w) = c • gyration k a x w := by
  have := C04_gyration_linear k c 0 a x w 0
  simpa using this

lemma _root_.Geoopt.Isometry.OffFloors.gyr (h : OffFloors k a x y) (u : Vec n) :
    gyration k (mobiusAdd k a y) (-mobiusAdd k a x) (gyration k a x u) =
      gyration k a y (gyration k y (-x) u) := by
  have hy := mAdd_neg_cancel (ne_of_floor h.xy) (ne_of_floor h.lx)
  have hsub := h.sub
  have him := h.im
  have hP := ne_of_floor h.lay
  have hl := ne_of_floor h.lax
  rw [gyration_eq h.ay.le, gyration_eq (u := y) (v := -x) (by rw [mobDenom_comm]; exact h.xy),
    gyration_eq (by rw [mobDenom_comm]; exact h.im), gyration_eq h.ax.le]
  rw [mobiusAdd_eq h.im, gyration_eq h.ax.le, mobiusAdd_eq h.xy] at hsub
  rw [mobiusAdd_eq h.ay.le] at hP him hsub ⊢
  rw [mobiusAdd_eq h.ax.le] at hl him hsub ⊢
  rw [← mGyr_swap (ne_of_floor h.xy) (ne_of_floor h.lx), ← mGyr_swap (ne_of_floor him) hl, hsub]
  have := mGyr_cocycle (ne_of_floor h.ax.le) h.t_ne (by rw [hy]; exact ne_of_floor h.ay.le)
    (by rw [hy]; exact hP) u
  rwa [hy] at this

end

end C108

open C108

/-- Translations of the stereographic model, any curvature, away from the floors `1e-15` of the
denominators: the distance, the inner product, the logarithm, the parallel transport, the Riemannian
gradient and the distance to a hyperplane do not depend on where the origin is. -/
theorem C108_stereographic_numbers {η k : ℝ} {a x y : Vec n} (h : OffFloors k a x y)
    {Dx Dy : Vec n → Vec n} (hDx : DerivAt (mobiusAdd k a) x Dx)
    (hDy : DerivAt (mobiusAdd k a) y Dy) (u v : Vec n) :
    dist η k (mobiusAdd k a x) (mobiusAdd k a y) = dist η k x y ∧
    inner k (mobiusAdd k a x) (Dx u) (Dx v) = inner k x u v ∧
    norm k (mobiusAdd k a x) (Dx u) = norm k x u ∧
    logmap η k (mobiusAdd k a x) (mobiusAdd k a y) = Dx (logmap η k x y) ∧
    transp k (mobiusAdd k a x) (mobiusAdd k a y) (Dx u) = Dy (transp k x y u) ∧
    (∀ g g', PulledBack Dx g' g →
      egrad2rgrad k (mobiusAdd k a x) g' = Dx (egrad2rgrad k x g)) ∧
    (∀ (nrml : Vec n) (signed scaled : Bool),
      dist2plane η k (mobiusAdd k a y) (gyration k a x nrml) (mobiusAdd k a x) signed scaled =
        dist2plane η k y nrml x signed scaled) := by
  have h1 := deriv_eq hDx (push_deriv h.ax)
  have h2 := deriv_eq hDy (push_deriv h.ay)
  have ex : ∀ u, Dx u = (lambdaX k x / lambdaX k (mobiusAdd k a x)) • gyration k a x u := fun u => by
    rw [h1, push_eq h.ax.le h.lx h.lax]
  have ey : ∀ u, Dy u = (lambdaX k y / lambdaX k (mobiusAdd k a y)) • gyration k a y u := fun u => by
    rw [h2, push_eq h.ay.le h.ly h.lay]
  have hs := h.sub
  have px := lambdaX_pos' k x
  have py := lambdaX_pos' k y
  have pax := lambdaX_pos' k (mobiusAdd k a x)
  have pay := lambdaX_pos' k (mobiusAdd k a y)
  have iso : ∀ u v, gyration k a x u ⬝ᵥ gyration k a x v = u ⬝ᵥ v := fun u v => by
    rw [gyration_eq h.ax.le, gyration_eq h.ax.le, mGyr_dot_mGyr (ne_of_floor h.ax.le)]
  refine ⟨?_, ?_, ?_, ?_, ?_, ?_, ?_⟩
  · rw [dist, dist, hs, nrm_gyration h.ax.le]
  · rw [inner, inner, ex, ex]
    simp only [smul_dotProduct, dotProduct_smul, smul_eq_mul]
    rw [iso]
    field_simp
  · rw [norm, norm, ex, nrm_smul, nrm_gyration h.ax.le, abs_of_pos (div_pos px pax)]
    field_simp
  · simp only [logmap, hs, ex, nrm_gyration h.ax.le, gyration_smul, smul_smul]
    congr 1
    have : (0:ℝ) < max (nrm (mobiusAdd k (-x) y)) 1e-15 := lt_max_of_lt_right (by norm_num)
    field_simp
  · rw [transp, transp, ex, ey, gyration_smul, gyration_smul, h.gyr, smul_smul, smul_smul]
    congr 1
    field_simp
  · intro g g' hg
    rw [egrad2rgrad, egrad2rgrad, ex, gyration_smul, smul_smul]
    obtain ⟨c, hc⟩ : ∃ c, c = lambdaX k x / lambdaX k (mobiusAdd k a x) := ⟨_, rfl⟩
    have key : gyration k a x g = c • g' := by
      have hinv : ∀ w, gyration k a x (gyration k x a w) = w := fun w => by
        have hxa : 1e-15 ≤ mobDenom k x a := by rw [mobDenom_comm]; exact h.ax.le
        rw [gyration_eq hxa, gyration_eq h.ax.le]
        exact mGyr_inv (ne_of_floor hxa)
      have hz : ∀ w, gyration k a x g ⬝ᵥ w = (c • g') ⬝ᵥ w := fun w => by
        have := hg (gyration k x a w)
        rw [ex, hinv, ← iso, hinv, dotProduct_smul, ← hc] at this
        rw [this, smul_dotProduct]
      funext i
      have := hz (Pi.single i 1)
      simpa using this
    rw [key, smul_smul, hc]
    congr 1
    field_simp
  · intro nrml signed scaled
    simp only [dist2plane, hs, iso]
    rw [nrm_gyration h.ax.le]

/-- the vector of the model at the origin that `expmap` adds to the point -/
noncomputable def C108.step (η k : ℝ) (x u : Vec n) : Vec n :=
  tanK η k (lambdaX k x / 2.0 * max (nrm u) 1e-15) • ((max (nrm u) 1e-15)⁻¹ • u)

lemma C108.expmap_translate {η k : ℝ} {a x u : Vec n} (hax : 1e-15 ≤ mobDenom k a x)
    (hlx : 1e-15 ≤ 1 + k * (x ⬝ᵥ x))
    (hl : 1e-15 ≤ 1 + k * (mobiusAdd k a x ⬝ᵥ mobiusAdd k a x))
    (hu : u = 0 ∨ 1e-15 ≤ nrm u ∧ 1e-15 ≤ nrm (push k a x u))
    (h1 : 1e-15 ≤ mobDenom k x (step η k x u))
    (h2 : 1e-15 ≤ mobDenom k a (mobiusAdd k x (step η k x u)))
    (h3 : 1e-15 ≤ mobDenom k (mobiusAdd k a x) (gyration k a x (step η k x u))) :
    expmap η k (mobiusAdd k a x) (push k a x u) = mobiusAdd k a (expmap η k x u) := by
  have e : step η k (mobiusAdd k a x) (push k a x u) = gyration k a x (step η k x u) := by
    have px := lambdaX_pos' k x
    have pax := lambdaX_pos' k (mobiusAdd k a x)
    rcases hu with rfl | ⟨hu, hu'⟩
    · have : ∀ c : ℝ, gyration k a x (c • (0 : Vec n)) = 0 := fun c => by
        rw [smul_zero]
        simpa using gyration_smul (k := k) (a := a) (x := x) 0 0
      simp only [step, push_eq hax hlx hl, smul_zero]
      have h0 := this 0
      rw [smul_zero] at h0
      simp [h0]
    · rw [step, step, max_eq_left hu, max_eq_left hu']
      have hn : 0 < nrm u := by
        have : (0:ℝ) < 1e-15 := by norm_num
        linarith
      have e1 : lambdaX k (mobiusAdd k a x) / 2.0 *
          (lambdaX k x / lambdaX k (mobiusAdd k a x) * nrm u) = lambdaX k x / 2.0 * nrm u := by
        field_simp
      rw [push_eq hax hlx hl, nrm_smul, nrm_gyration hax, abs_of_pos (div_pos px pax),
        gyration_smul, gyration_smul, e1]
      simp only [smul_smul]
      congr 1
      field_simp
  have := add_translate hax h1 h2 h3
  rw [← e] at this
  exact this

/-! ### The ball -/

section Ball
variable {η k : ℝ} {a x y w u : Vec n}

lemma C108.valid_sq32 (hη : 0 ≤ η) (hk : k < 0) (h : Valid η .f32 k x) :
    -k * (x ⬝ᵥ x) ≤ (1 - 4e-3) ^ 2 := by
  rw [valid_iff hk, maxNorm_neg hk] at h
  have hs := kSqrt_pos hη hk.ne
  have h1 : nrm x * kSqrt η k ≤ 1 - 4e-3 := (le_div_iff₀ hs).1 h
  have h2 : (nrm x * kSqrt η k) ^ 2 ≤ (1 - 4e-3) ^ 2 :=
    pow_le_pow_left₀ (mul_nonneg (nrm_nonneg x) hs.le) h1 2
  rw [mul_pow, kSqrt_sq hη, nrm_sq, abs_of_neg hk] at h2
  have := dot_self_nonneg x
  nlinarith

lemma C108.den_ge (hη : 0 ≤ η) (hk : k < 0) (hx : Valid η .f32 k x) (hw : OpenBall k w) :
    1.5e-5 ≤ mobDenom k x w := by
  refine le_trans ?_ (mobDenom_ge hk.le x w)
  have h1 := valid_sq32 hη hk hx
  have h2 : -k * (w ⬝ᵥ w) < 1 := hw
  have h3 : (-k * (nrm x * nrm w)) ^ 2 ≤ (1 - 4e-3) ^ 2 := by
    have e : (-k * (nrm x * nrm w)) ^ 2 = (-k * (x ⬝ᵥ x)) * (-k * (w ⬝ᵥ w)) := by
      rw [← nrm_sq, ← nrm_sq]; ring
    rw [e]
    have p1 : 0 ≤ -k * (x ⬝ᵥ x) := mul_nonneg (by linarith) (dot_self_nonneg x)
    nlinarith
  have h4 : -k * (nrm x * nrm w) ≤ 1 - 4e-3 := (abs_le_of_sq_le_sq' h3 (by norm_num)).2
  have h5 : (4e-3 : ℝ) ≤ 1 + k * (nrm x * nrm w) := by linarith
  calc (1.5e-5 : ℝ) ≤ (4e-3) ^ 2 := by norm_num
    _ ≤ _ := pow_le_pow_left₀ (by norm_num) h5 2

lemma C108.den_le (hk : k < 0) (hx : OpenBall k x) (hw : OpenBall k w) : mobDenom k x w ≤ 4 := by
  refine (mobDenom_le x w).trans ?_
  have := openBall_prod hk.le hx hw
  rw [abs_of_neg hk]
  have h0 : 0 ≤ -k * (nrm x * nrm w) :=
    mul_nonneg (by linarith) (mul_nonneg (nrm_nonneg x) (nrm_nonneg w))
  nlinarith

lemma C108.lam_ge (hη : 0 ≤ η) (hk : k < 0) (hx : Valid η .f32 k x) :
    7e-3 ≤ 1 + k * (x ⬝ᵥ x) := by
  have := valid_sq32 hη hk hx
  have e : ((1 : ℝ) - 4e-3) ^ 2 ≤ 1 - 7e-3 := by norm_num
  linarith

lemma C108.floor_of {r c : ℝ} (h : c ≤ r) (hc : (1e-15 : ℝ) < c) : 1e-15 < r := hc.trans_le h

lemma C108.lam_image (hη : 0 ≤ η) (hk : k < 0) (ha : Valid η .f32 k a) (hx : Valid η .f32 k x) :
    1e-6 ≤ 1 + k * (mobiusAdd k a x ⬝ᵥ mobiusAdd k a x) := by
  have hbx := valid_openBall hη hk hx
  have hba := valid_openBall hη hk ha
  have h := den_ge hη hk ha hbx
  have h4 := den_le hk hba hbx
  have hf : (1e-15 : ℝ) ≤ mobDenom k a x := le_trans (by norm_num) h
  have l1 := lam_ge hη hk ha
  have l2 := lam_ge hη hk hx
  rw [mobiusAdd_eq hf, one_add_mAdd_self (ne_of_floor hf), le_div_iff₀ (by linarith)]
  nlinarith

/-- in the ball no denominator is near a floor, for points that the library accepts in single
precision -/
theorem C108_ball_offFloors (hη : 0 ≤ η) (hk : k < 0) (ha : Valid η .f32 k a)
    (hx : Valid η .f32 k x) (hy : Valid η .f32 k y) : OffFloors k a x y := by
  have hbx := valid_openBall hη hk hx
  have hby := valid_openBall hη hk hy
  have hba := valid_openBall hη hk ha
  have dax := den_ge hη hk ha hbx
  have day := den_ge hη hk ha hby
  have dxy := den_ge hη hk (valid_neg.2 hx) hby
  have uax := den_le hk hba hbx
  have uay := den_le hk hba hby
  have la := lam_ge hη hk ha
  have lx := lam_ge hη hk hx
  have ly := lam_ge hη hk hy
  have lax := lam_image hη hk ha hx
  have lay := lam_image hη hk ha hy
  have fax : (1e-15 : ℝ) ≤ mobDenom k a x := le_trans (by norm_num) dax
  have fay : (1e-15 : ℝ) ≤ mobDenom k a y := le_trans (by norm_num) day
  have fxy : (1e-15 : ℝ) ≤ mobDenom k (-x) y := le_trans (by norm_num) dxy
  have flx : (1e-15 : ℝ) ≤ 1 + k * (x ⬝ᵥ x) := le_trans (by norm_num) lx
  have flax : (1e-15 : ℝ) ≤ 1 + k * (mobiusAdd k a x ⬝ᵥ mobiusAdd k a x) := le_trans (by norm_num) lax
  refine ⟨lt_of_lt_of_le (by norm_num) dax, lt_of_lt_of_le (by norm_num) day, fxy, ?_, flx,
    le_trans (by norm_num) ly, flax, le_trans (by norm_num) lay⟩
  have hd : mobDenom k x (mAdd k (-x) y) = (1 + k * (x ⬝ᵥ x)) ^ 2 / mobDenom k (-x) y := by
    have := mobDenom_neg_mAdd (k := k) (x := -x) (y := y) (ne_of_floor fxy)
    simpa using this
  have ht : mobDenom k x (mAdd k (-x) y) ≠ 0 := by
    rw [hd]; exact div_ne_zero (pow_ne_zero _ (ne_of_floor flx)) (ne_of_floor fxy)
  have hyy := mAdd_neg_cancel (ne_of_floor fxy) (ne_of_floor flx)
  have h3 := den3_left (u := a) ht
  rw [hyy, hd] at h3
  have h3' := den3_ne (u := a) ht (by rw [hyy]; exact ne_of_floor fay)
  have h4 := den3_right (w := mAdd k (-x) y) (ne_of_floor fax)
  have hr : mobDenom k (mAdd k a x) (mGyr k a x (mAdd k (-x) y)) ≠ 0 := by
    rw [h4]; exact div_ne_zero h3' (ne_of_floor fax)
  have h5 := mobDenom_neg_mAdd hr
  rw [← mAdd_assoc (ne_of_floor fax) ht h3', hyy, h4, one_add_mAdd_self (ne_of_floor fax)] at h5
  rw [mobiusAdd_eq fax, mobiusAdd_eq fay, h5]
  have h6 : den3 k a x (mAdd k (-x) y) =
      mobDenom k a y * ((1 + k * (x ⬝ᵥ x)) ^ 2 / mobDenom k (-x) y) := by
    rw [h3]
    have := ne_of_floor flx
    have := ne_of_floor fxy
    field_simp
  have e : ((1 + k * (a ⬝ᵥ a)) * (1 + k * (x ⬝ᵥ x)) / mobDenom k a x) ^ 2 /
      (den3 k a x (mAdd k (-x) y) / mobDenom k a x) =
      (1 + k * (a ⬝ᵥ a)) ^ 2 * mobDenom k (-x) y / (mobDenom k a x * mobDenom k a y) := by
    rw [h6]
    have := ne_of_floor flx
    have := ne_of_floor fxy
    have := ne_of_floor fax
    have := ne_of_floor fay
    field_simp
  rw [e, le_div_iff₀ (mul_pos (by linarith) (by linarith))]
  have b1 : mobDenom k a x * mobDenom k a y ≤ 4 * 4 :=
    mul_le_mul uax uay (by linarith) (by norm_num)
  have b2 : (7e-3 : ℝ) ^ 2 ≤ (1 + k * (a ⬝ᵥ a)) ^ 2 := pow_le_pow_left₀ (by norm_num) la 2
  have b3 : (7e-3 : ℝ) ^ 2 * 1.5e-5 ≤ (1 + k * (a ⬝ᵥ a)) ^ 2 * mobDenom k (-x) y :=
    mul_le_mul b2 dxy (by norm_num) (by positivity)
  have b4 : (1e-15 : ℝ) * (4 * 4) ≤ (7e-3 : ℝ) ^ 2 * 1.5e-5 := by norm_num
  nlinarith

/-- the floors of the sum of a point and a step of the ball, and of its image -/
lemma C108.step_floors (hη : 0 ≤ η) (hk : k < 0) (ha : Valid η .f32 k a) (hx : Valid η .f32 k x)
    (hw : OpenBall k w) : 1e-15 ≤ mobDenom k x w ∧ 1e-15 ≤ mobDenom k a (mobiusAdd k x w) ∧
      1e-15 ≤ mobDenom k (mobiusAdd k a x) (gyration k a x w) := by
  have hbx := valid_openBall hη hk hx
  have hba := valid_openBall hη hk ha
  have d1 := den_ge hη hk hx hw
  have d2 := den_ge hη hk ha (openBall_mobiusAdd hk.le hbx hw)
  have dax := den_ge hη hk ha hbx
  have uax := den_le hk hba hbx
  have f1 : (1e-15 : ℝ) ≤ mobDenom k x w := le_trans (by norm_num) d1
  have fax : (1e-15 : ℝ) ≤ mobDenom k a x := le_trans (by norm_num) dax
  refine ⟨f1, le_trans (by norm_num) d2, ?_⟩
  rw [mobiusAdd_eq f1, den3_left (ne_of_floor f1), le_div_iff₀ (by linarith)] at d2
  rw [mobiusAdd_eq fax, gyration_eq fax, den3_right (ne_of_floor fax), le_div_iff₀ (by linarith)]
  nlinarith

lemma C108.unit_le (u : Vec n) : nrm ((max (nrm u) 1e-15)⁻¹ • u) ≤ 1 := by
  have h15 : (0:ℝ) < max (nrm u) 1e-15 := lt_max_of_lt_right (by norm_num)
  rw [nrm_smul, abs_of_pos (inv_pos.2 h15), inv_mul_le_one₀ h15]
  exact le_max_left _ _

lemma C108.scalar_gyration (h : 1e-15 ≤ mobDenom k a x) (t : ℝ) (w : Vec n) :
    mobiusScalarMul η k t (gyration k a x w) = gyration k a x (mobiusScalarMul η k t w) := by
  simp only [mobiusScalarMul, nrm_gyration h, gyration_smul]

/-- Every translation of the Poincaré ball to a point `a` that the library accepts: it has a
derivative at every point the library accepts, and all the operations commute with it. -/
theorem C108_poincare (hη : 0 ≤ η) (hk : k < -1e-8) (ha : Valid η .f32 k a)
    (hx : Valid η .f32 k x) (hy : Valid η .f32 k y) :
    ∃ Dx Dy : Vec n → Vec n, DerivAt (mobiusAdd k a) x Dx ∧ DerivAt (mobiusAdd k a) y Dy ∧
    dist η k (mobiusAdd k a x) (mobiusAdd k a y) = dist η k x y ∧
    (∀ u v, inner k (mobiusAdd k a x) (Dx u) (Dx v) = inner k x u v) ∧
    logmap η k (mobiusAdd k a x) (mobiusAdd k a y) = Dx (logmap η k x y) ∧
    (∀ u, transp k (mobiusAdd k a x) (mobiusAdd k a y) (Dx u) = Dy (transp k x y u)) ∧
    (∀ g g', PulledBack Dx g' g →
      egrad2rgrad k (mobiusAdd k a x) g' = Dx (egrad2rgrad k x g)) ∧
    (∀ u, (u = 0 ∨ 1e-15 ≤ nrm u ∧ 1e-15 ≤ nrm (Dx u)) →
      expmap η k (mobiusAdd k a x) (Dx u) = mobiusAdd k a (expmap η k x u)) ∧
    (∀ t u, (u = 0 ∨ 1e-15 ≤ nrm u ∧ 1e-15 ≤ nrm (Dx u)) →
      geodesicUnit η k t (mobiusAdd k a x) (Dx u) = mobiusAdd k a (geodesicUnit η k t x u)) ∧
    (∀ t, geodesic η k t (mobiusAdd k a x) (mobiusAdd k a y) =
      mobiusAdd k a (geodesic η k t x y)) := by
  have hk0 : k < 0 := by linarith
  have h := C108_ball_offFloors hη hk0 ha hx hy
  have D1 := push_deriv h.ax
  have D2 := push_deriv h.ay
  refine ⟨_, _, D1, D2, ?_⟩
  obtain ⟨p1, -, -, p4, -, p6, -⟩ := C108_stereographic_numbers (η := η) h D1 D2 0 0
  refine ⟨p1, fun u v => (C108_stereographic_numbers (η := η) h D1 D2 u v).2.1, p4,
    fun u => (C108_stereographic_numbers (η := η) h D1 D2 u 0).2.2.2.2.1, p6, ?_, ?_, ?_⟩
  · intro u hu
    obtain ⟨f1, f2, f3⟩ := step_floors (w := step η k x u) hη hk0 ha hx
      (openBall_tanK hη hk _ _ (unit_le u))
    exact expmap_translate h.ax.le h.lx h.lax hu f1 f2 f3
  · intro t u hu
    obtain ⟨f1, f2, f3⟩ := step_floors hη hk0 ha hx
      (openBall_tanK hη hk (t / 2.0) _ (unit_le u))
    have := add_translate h.ax.le f1 f2 f3
    rw [geodesicUnit, geodesicUnit, ← this, gyration_smul, gyration_smul]
    congr 2
    have px := lambdaX_pos' k x
    have pax := lambdaX_pos' k (mobiusAdd k a x)
    rcases hu with rfl | ⟨hu, hu'⟩
    · have h0 := gyration_smul (k := k) (a := a) (x := x) 0 0
      rw [smul_zero, zero_smul] at h0
      simp [push_eq h.ax.le h.lx h.lax, h0]
    · have hn : 0 < nrm u := by
        have : (0:ℝ) < 1e-15 := by norm_num
        linarith
      rw [max_eq_left hu, max_eq_left hu', push_eq h.ax.le h.lx h.lax, nrm_smul,
        nrm_gyration h.ax.le, abs_of_pos (div_pos px pax), smul_smul]
      congr 1
      field_simp
  · intro t
    have hw : OpenBall k (mobiusScalarMul η k t (mobiusAdd k (-x) y)) :=
      openBall_tanK hη hk _ _ (unit_le _)
    obtain ⟨f1, f2, f3⟩ := step_floors hη hk0 ha hx hw
    rw [geodesic, geodesic, h.sub, scalar_gyration h.ax.le]
    exact add_translate h.ax.le f1 f2 f3

end Ball

lemma C108.valid_lit {c : ℝ} (h : c ^ 2 ≤ 0.98) : Valid codeEta .f32 (-1) ![c] := by
  refine valid_of_sq codeEta_nonneg (by norm_num) ?_
  have he : codeEta = 1e-15 := rfl
  simp only [dotProduct, Fin.sum_univ_one, Matrix.cons_val_zero, projEps, he]
  norm_num at h ⊢
  nlinarith [sq_nonneg c]

example : Valid codeEta .f32 (-1) ![0.5] ∧ Valid codeEta .f32 (-1) ![-0.3] ∧
    Valid codeEta .f32 (-1) ![0.9] :=
  ⟨C108.valid_lit (by norm_num), C108.valid_lit (by norm_num), C108.valid_lit (by norm_num)⟩

/-- the conditions of `C108_stereographic_numbers` on a sphere -/
example : OffFloors 1 ![0.5] ![0.2] ![-0.3] := by
  have d : ∀ p q : ℝ, mobDenom 1 ![p] ![q] = (1 - p * q) ^ 2 := fun p q => by
    simp [mobDenom, dotProduct]; ring
  have e : ∀ p q : ℝ, 1e-15 ≤ mobDenom 1 ![p] ![q] →
      mobiusAdd 1 ![p] ![q] = ![(p + q) * (1 - p * q) / (1 - p * q) ^ 2] := fun p q h => by
    rw [mobiusAdd_eq h]
    funext i
    fin_cases i
    simp only [mAdd, d, div_eq_inv_mul, dotProduct, Fin.sum_univ_one, Pi.smul_apply, Pi.add_apply,
      smul_eq_mul, Matrix.cons_val_zero, Fin.zero_eta]
    ring
  have e1 := e 0.5 0.2 (by rw [d]; norm_num)
  have e2 := e 0.5 (-0.3) (by rw [d]; norm_num)
  have ng : ∀ p : ℝ, -![p] = ![-p] := fun p => by simp
  constructor
  · rw [d]; norm_num
  · rw [d]; norm_num
  · rw [ng, d]; norm_num
  · rw [e1, e2, ng, d]; norm_num
  · simp [dotProduct]; norm_num
  · simp [dotProduct]; norm_num
  · rw [e1]; simp [dotProduct]; norm_num
  · rw [e2]; simp [dotProduct]; norm_num

/-- The method `mobius_add` of the manifold projects its result by default, and then it is not an
isometry: it moves the two different points `0.95` and `0.96` of the unit ball to the same point. -/
theorem C108_counterexample_projected :
    M.mobiusAdd true codeEta .f32 (-1) ![(0.95 : ℝ)] ![0.95] =
      M.mobiusAdd true codeEta .f32 (-1) ![0.95] ![0.96] ∧
    0 < dist codeEta (-1) ![(0.95 : ℝ)] ![0.96] := by
  have he : codeEta = 1e-15 := rfl
  have d : ∀ p q : ℝ, mobDenom (-1) ![p] ![q] = (1 + p * q) ^ 2 := fun p q => by
    simp [mobDenom, dotProduct]; ring
  have e : ∀ p q : ℝ, 1e-15 ≤ mobDenom (-1) ![p] ![q] →
      mobiusAdd (-1) ![p] ![q] = ![(p + q) * (1 + p * q) / (1 + p * q) ^ 2] := fun p q h => by
    have h' := C108.ne_of_floor h
    rw [mobiusAdd_eq h]
    rw [d] at h'
    funext i
    fin_cases i
    simp only [mAdd, d, div_eq_inv_mul, dotProduct, Fin.sum_univ_one, Pi.smul_apply, Pi.add_apply,
      smul_eq_mul, Matrix.cons_val_zero, Fin.zero_eta]
    ring
  have nr : ∀ c : ℝ, 0 < c → nrm ![c] = c := fun c hc => by
    rw [nrm]; simp [dotProduct, Real.sqrt_mul_self hc.le]
  have hk1 : (1:ℝ) ≤ kSqrt codeEta (-1) := by
    rw [kSqrt, Real.one_le_sqrt, sabs, he]; norm_num
  have hm : maxNorm codeEta .f32 (-1) ≤ 0.996 := by
    rw [maxNorm_neg (by norm_num), div_le_iff₀ (by linarith)]
    simp only [projEps]
    nlinarith
  have hp : ∀ c : ℝ, 0.996 < c → project codeEta .f32 (-1) ![c] = ![maxNorm codeEta .f32 (-1)] := by
    intro c hc
    have h0 : 0 < c := by linarith
    have h15 : (1e-15 : ℝ) ≤ c := by linarith
    simp only [project]
    rw [nr c h0, max_eq_left h15, if_pos (by linarith)]
    funext i
    fin_cases i
    simp
    field_simp
  constructor
  · simp only [M.mobiusAdd, withProject, if_true]
    rw [e _ _ (by rw [d]; norm_num), e _ _ (by rw [d]; norm_num), hp _ (by norm_num),
      hp _ (by norm_num)]
  · have ng : -![(0.95 : ℝ)] = ![-0.95] := by simp
    rw [dist, ng, e _ _ (by rw [d]; norm_num), nr _ (by norm_num)]
    have hk2 : kSqrt codeEta (-1) ≤ 2 := by
      rw [kSqrt, Real.sqrt_le_left (by norm_num), sabs, he]; norm_num
    have := half_le_artanK (η := codeEta) (k := -1)
      (r := (-0.95 + 0.96) * (1 + -0.95 * 0.96) / (1 + -0.95 * 0.96) ^ 2) codeEta_nonneg
      (by norm_num) ⟨by norm_num, Or.inr (Or.inr ⟨by norm_num, by
        change _ * kSqrt codeEta (-1) ≤ _
        norm_num at hk2 ⊢
        linarith⟩)⟩
    norm_num at this ⊢
    linarith

end Geoopt.Stereo

/-! ## The hyperboloid -/

namespace Geoopt.Lorentz
open Geoopt Geoopt.Isometry Matrix
variable {n : ℕ} {Λ : Matrix (Fin (n + 1)) (Fin (n + 1)) ℝ}

section
variable (h : LorentzMap Λ)
include h

lemma C108.inner_map (u v : Vec (n + 1)) : inner (Λ *ᵥ u) (Λ *ᵥ v) = inner u v := h.form u v

lemma C108.norm_map (u : Vec (n + 1)) : norm (Λ *ᵥ u) = norm u := by
  unfold norm; rw [C108.inner_map h]

lemma C108.dist_map (k : ℝ) (x y : Vec (n + 1)) : dist k (Λ *ᵥ x) (Λ *ᵥ y) = dist k x y := by
  unfold dist; rw [C108.inner_map h]

lemma C108.proju_map (k : ℝ) (x v : Vec (n + 1)) :
    proju k (Λ *ᵥ x) (Λ *ᵥ v) = Λ *ᵥ proju k x v := by
  unfold proju projectU
  simp only [C108.inner_map h, ← mulVec_smul, ← mulVec_add]

lemma C108.expmapRaw_map (k : ℝ) (x u : Vec (n + 1)) :
    expmapRaw k (Λ *ᵥ x) (Λ *ᵥ u) = Λ *ᵥ expmapRaw k x u := by
  unfold expmapRaw
  simp only [C108.norm_map h, ← mulVec_smul, ← mulVec_add]

lemma C108.logmap_map (k : ℝ) (x y : Vec (n + 1)) :
    logmap k (Λ *ᵥ x) (Λ *ᵥ y) = Λ *ᵥ logmap k x y := by
  unfold logmap
  simp only [C108.dist_map h, C108.inner_map h, C108.norm_map h, ← mulVec_smul, ← mulVec_add]

lemma C108.on_map {k : ℝ} (hk : 0 < k) {x : Vec (n + 1)} (hx : OnHyperboloid k x) :
    OnHyperboloid k (Λ *ᵥ x) :=
  ⟨by rw [h.form, hx.1], h.future x (by rw [hx.1]; linarith) hx.2⟩

lemma C108.surj (w : Vec (n + 1)) : ∃ v, Λ *ᵥ v = w := by
  have inj : Function.Injective (Λ.mulVecLin) := by
    rw [← LinearMap.ker_eq_bot, LinearMap.ker_eq_bot']
    intro m hm
    have hm' : Λ *ᵥ m = 0 := hm
    have hz : ∀ v, mink m v = 0 := fun v => by
      rw [← h.form, hm']
      simp [mink]
    funext i
    refine Fin.cases ?_ (fun j => ?_) i
    · have := hz (Pi.single 0 1)
      simpa [mink, Fin.succ_ne_zero] using this
    · have := hz (Pi.single j.succ 1)
      simpa [mink, Fin.succ_ne_zero, Pi.single_apply, (Fin.succ_ne_zero j).symm, Fin.succ_inj]
        using this
  obtain ⟨v, hv⟩ := (LinearMap.injective_iff_surjective.1 inj) w
  exact ⟨v, hv⟩

/-- Every Lorentz transformation commutes with every operation of the hyperboloid that does not
project its result, at every vector. -/
theorem C108_lorentz (k t : ℝ) (x y u v : Vec (n + 1)) (b : Bool) :
    inner (Λ *ᵥ u) (Λ *ᵥ v) = inner u v ∧
    norm (Λ *ᵥ u) = norm u ∧
    dist k (Λ *ᵥ x) (Λ *ᵥ y) = dist k x y ∧
    proju k (Λ *ᵥ x) (Λ *ᵥ u) = Λ *ᵥ proju k x u ∧
    logmap k (Λ *ᵥ x) (Λ *ᵥ y) = Λ *ᵥ logmap k x y ∧
    transp k (Λ *ᵥ x) (Λ *ᵥ y) (Λ *ᵥ v) = Λ *ᵥ transp k x y v ∧
    expmap k (Λ *ᵥ x) (Λ *ᵥ u) b false = Λ *ᵥ expmap k x u b false ∧
    geodesicUnit k t (Λ *ᵥ x) (Λ *ᵥ u) false = Λ *ᵥ geodesicUnit k t x u false ∧
    (∀ g g', PulledBack (Λ *ᵥ ·) g' g →
      (egrad2rgrad k (Λ *ᵥ x) g').1 = Λ *ᵥ (egrad2rgrad k x g).1) := by
  refine ⟨C108.inner_map h u v, C108.norm_map h u, C108.dist_map h k x y, C108.proju_map h k x u,
    C108.logmap_map h k x y, ?_, ?_, ?_, ?_⟩
  · unfold transp
    simp only [C108.logmap_map h, C108.dist_map h, C108.inner_map h, ← mulVec_smul, ← mulVec_add,
      ← mulVec_sub]
  · unfold expmap
    cases b <;> simp only [C108.proju_map h, C108.expmapRaw_map h, if_true, if_false,
      Bool.false_eq_true]
  · unfold geodesicUnit geodesicUnitRaw
    simp only [← mulVec_smul, ← mulVec_add, if_false, Bool.false_eq_true]
  · intro g g' hg
    have flip : ∀ g w : Vec (n + 1),
        mink (Fin.cons (g 0 * -1) (Fin.tail g) : Vec (n + 1)) w = g ⬝ᵥ w := fun g w => by
      rw [dotProduct, Fin.sum_univ_succ, mink]
      simp [Fin.tail]
    have key : Λ *ᵥ (Fin.cons (g 0 * -1) (Fin.tail g) : Vec (n + 1)) =
        (Fin.cons (g' 0 * -1) (Fin.tail g') : Vec (n + 1)) := by
      have hz : ∀ w, mink (Λ *ᵥ (Fin.cons (g 0 * -1) (Fin.tail g) : Vec (n + 1))) w =
          mink (Fin.cons (g' 0 * -1) (Fin.tail g') : Vec (n + 1)) w := fun w => by
        obtain ⟨w, rfl⟩ := C108.surj h w
        rw [h.form, flip, flip]
        exact hg w
      funext i
      refine Fin.cases ?_ (fun j => ?_) i
      · have := hz (Pi.single 0 1)
        simp only [mink, Pi.single_eq_same, Pi.single_apply, Fin.succ_ne_zero, if_false, mul_one,
          mul_zero, Finset.sum_const_zero, add_zero] at this
        linarith
      · have := hz (Pi.single j.succ 1)
        simpa [mink, Fin.succ_ne_zero, Pi.single_apply, (Fin.succ_ne_zero j).symm, Fin.succ_inj]
          using this
    unfold egrad2rgrad
    simp only [← key, C108.inner_map h, ← mulVec_smul, ← mulVec_add]

/-- With the projection that `expmap` and `geodesic_unit` make by default: at points of the
hyperboloid, when the tangent part of the vector is above the floor of `norm`, respectively when the
direction is a unit vector. -/
theorem C108_lorentz_projected_partial {k : ℝ} (hk : 0 < k) {x : Vec (n + 1)}
    (hx : OnHyperboloid k x) (u : Vec (n + 1)) (t : ℝ) :
    (1e-8 ≤ mink (proju k x u) (proju k x u) →
      expmap k (Λ *ᵥ x) (Λ *ᵥ u) = Λ *ᵥ expmap k x u) ∧
    (Tangent x u → mink u u = 1 →
      geodesicUnit k t (Λ *ᵥ x) (Λ *ᵥ u) = Λ *ᵥ geodesicUnit k t x u) := by
  constructor
  · intro hu
    have ht := C36_proju_tangent hk hx u
    have h1 := C35_expmap_unprojected hk hx ht hu false
    simp only [expmap, if_false, Bool.false_eq_true] at h1
    simp only [expmap, if_true, C108.proju_map h, C108.expmapRaw_map h]
    rw [project_of_on (C108.on_map h hk h1), project_of_on h1]
  · intro ht hu
    have h1 := C35_geodesic_unprojected hk t hx ht hu
    simp only [geodesicUnit, if_false, Bool.false_eq_true] at h1
    simp only [geodesicUnit, if_true]
    have e : geodesicUnitRaw k t (Λ *ᵥ x) (Λ *ᵥ u) = Λ *ᵥ geodesicUnitRaw k t x u := by
      unfold geodesicUnitRaw
      simp only [← mulVec_smul, ← mulVec_add]
    rw [e, project_of_on (C108.on_map h hk h1), project_of_on h1]

/-- Below the floor the projected exponential is not invariant: whenever the transformation moves
the origin, `expmap(·, 0)` stays at the origin but does not stay at its image. -/
theorem C108_counterexample_lorentz {k : ℝ} (hk : 0 < k)
    (hne : Λ *ᵥ (origin k : Vec (n + 1)) ≠ origin k) :
    expmap k (Λ *ᵥ (origin k : Vec (n + 1))) (Λ *ᵥ 0) ≠ Λ *ᵥ expmap k (origin k) 0 := by
  have ho := C35_origin_on (n := n) hk
  have hx := C108.on_map h hk ho
  have e : ∀ x : Vec (n + 1), expmap k x 0 =
      project k (Real.cosh (norm (0 : Vec (n + 1)) / Real.sqrt k) • x) := fun x => by
    simp [expmap, proju, projectU, expmapRaw, inner, Fin.tail, dotProduct]
  have hs : 0 < Real.sqrt k := Real.sqrt_pos.2 hk
  have hc : 1 < Real.cosh (norm (0 : Vec (n + 1)) / Real.sqrt k) :=
    Real.one_lt_cosh.2 (div_pos (norm_pos _) hs).ne'
  generalize Real.cosh (norm (0 : Vec (n + 1)) / Real.sqrt k) = c at *
  have e0 : project k (c • (origin k : Vec (n + 1))) = origin k := by
    have ht : Fin.tail (c • (origin k : Vec (n + 1))) = 0 := by
      funext i
      simp [Fin.tail, origin]
    rw [project, ht]
    simp [origin, nrm]
  rw [mulVec_zero, e, e, e0]
  intro he
  apply hne
  have ht : Fin.tail (Λ *ᵥ (origin k : Vec (n + 1))) = 0 := by
    have := congrArg Fin.tail he
    rw [project, Fin.tail_cons] at this
    have h2 : c • Fin.tail (Λ *ᵥ (origin k : Vec (n + 1))) =
        Fin.tail (Λ *ᵥ (origin k : Vec (n + 1))) := this
    have h3 : (c - 1) • Fin.tail (Λ *ᵥ (origin k : Vec (n + 1))) = 0 := by
      rw [sub_smul, one_smul, h2, sub_self]
    exact (smul_eq_zero.1 h3).resolve_left (by linarith)
  rw [← project_of_on hx, project, ht]
  simp [origin, nrm]

end

/-- a boost -/
example : LorentzMap (!![5 / 4, 3 / 4; 3 / 4, 5 / 4] : Matrix (Fin 2) (Fin 2) ℝ) := by
  constructor
  · intro u v
    simp [mink, mulVec, dotProduct, Fin.sum_univ_two]
    ring
  · intro x hx h0
    simp [mink] at hx
    have : -(x 0) < x 1 := by nlinarith
    simp [mulVec, dotProduct, Fin.sum_univ_two]
    linarith

example : (!![5 / 4, 3 / 4; 3 / 4, 5 / 4] : Matrix (Fin 2) (Fin 2) ℝ) *ᵥ (origin 1) ≠ origin 1 := by
  intro h
  have := congrFun h 1
  simp [mulVec, dotProduct, Fin.sum_univ_two, origin] at this

end Geoopt.Lorentz

/-! ## Symmetric positive definite matrices -/

namespace Geoopt.SPD
open Matrix Geoopt.Linalg
variable {n : ℕ} (E : Eigh n)

/-- Every congruence `x ↦ g x gᵀ` commutes with every operation of the affine invariant geometry. -/
theorem C108_spd {g x y : Mat n} (hg : IsUnit g.det) (hx : OnSPD x) (hy : OnSPD y) (u v : Mat n) :
    OnSPD (g * x * gᵀ) ∧
    dist E .AIM (g * x * gᵀ) (g * y * gᵀ) = dist E .AIM x y ∧
    dist E .SM (g * x * gᵀ) (g * y * gᵀ) = dist E .SM x y ∧
    inner (g * x * gᵀ) (g * u * gᵀ) (g * v * gᵀ) = inner x u v ∧
    proju (g * x * gᵀ) (g * u * gᵀ) = g * proju x u * gᵀ ∧
    retr (g * x * gᵀ) (g * u * gᵀ) = g * retr x u * gᵀ ∧
    expmap E (g * x * gᵀ) (g * u * gᵀ) = g * expmap E x u * gᵀ ∧
    logmap E (g * x * gᵀ) (g * y * gᵀ) = g * logmap E x y * gᵀ ∧
    transp E (g * x * gᵀ) (g * y * gᵀ) (g * v * gᵀ) = g * transp E x y v * gᵀ ∧
    (∀ G G' : Mat n, (∀ w : Mat n, ∑ i, ∑ j, G i j * w i j = ∑ i, ∑ j, G' i j * (g * w * gᵀ) i j) →
      egrad2rgrad (g * x * gᵀ) G' = g * egrad2rgrad x G * gᵀ) := by
  have hgt : IsUnit gᵀ.det := by rwa [det_transpose]
  have hsym : ∀ a : Mat n, sym (g * a * gᵀ) = g * sym a * gᵀ := fun a => by
    simp only [sym, transpose_mul, transpose_transpose, Matrix.mul_smul, Matrix.smul_mul, mul_add,
      add_mul, Matrix.mul_assoc]
  have hinv : (g * x * gᵀ)⁻¹ = gᵀ⁻¹ * x⁻¹ * g⁻¹ := by
    rw [Matrix.mul_inv_rev, Matrix.mul_inv_rev, Matrix.mul_assoc]
  have c1 : g⁻¹ * g = 1 := Matrix.nonsing_inv_mul _ hg
  have c2 : gᵀ * gᵀ⁻¹ = 1 := Matrix.mul_nonsing_inv _ hgt
  have c3 : gᵀ⁻¹ * gᵀ = 1 := Matrix.nonsing_inv_mul _ hgt
  refine ⟨hx.congr hg, C30_congruence_invariant E hx hy hg, ?_, ?_, hsym u, ?_,
    C106_spd_congruence E hx hg, ?_, C106_spd_transp_congruence E hx hy hg, ?_⟩
  · simp only [dist, stein]
    have hd : g.det ≠ 0 := hg.ne_zero
    have hxy : OnSPD ((0.5 : ℝ) • (x + y)) := by
      refine ⟨fun i j => ?_, fun w hw => ?_⟩
      · simp only [Matrix.smul_apply, Matrix.add_apply, hx.1 i j, hy.1 i j]
      · rw [Matrix.smul_mulVec, Matrix.add_mulVec, dotProduct_smul, dotProduct_add, smul_eq_mul]
        have := hx.2 w hw
        have := hy.2 w hw
        norm_num
        linarith
    have e1 : (0.5 : ℝ) • (g * x * gᵀ + g * y * gᵀ) = g * ((0.5 : ℝ) • (x + y)) * gᵀ := by
      simp only [Matrix.mul_smul, Matrix.smul_mul, mul_add, add_mul]
    have e2 : (g * x * gᵀ * (g * y * gᵀ)).det = g.det ^ 4 * (x * y).det := by
      simp only [Matrix.det_mul, det_transpose]; ring
    have e3 : (g * ((0.5 : ℝ) • (x + y)) * gᵀ).det = g.det ^ 2 * ((0.5 : ℝ) • (x + y)).det := by
      rw [Matrix.det_mul, Matrix.det_mul, det_transpose]; ring
    have n1 := (det_ne_of_onSPD hxy).ne'
    have n2 : (x * y).det ≠ 0 := by
      rw [Matrix.det_mul]; exact mul_ne_zero (det_ne_of_onSPD hx).ne' (det_ne_of_onSPD hy).ne'
    rw [e1, e2, e3, Real.log_mul (pow_ne_zero _ hd) n1, Real.log_mul (pow_ne_zero _ hd) n2,
      Real.log_pow, Real.log_pow]
    push_cast
    ring
  · unfold inner symInvm
    simp only
    show Matrix.trace _ = Matrix.trace _
    rw [hinv]
    have : gᵀ⁻¹ * x⁻¹ * g⁻¹ * (g * u * gᵀ) * (gᵀ⁻¹ * x⁻¹ * g⁻¹) * (g * v * gᵀ) =
        gᵀ⁻¹ * (x⁻¹ * u * x⁻¹ * v * gᵀ) := by
      calc _ = gᵀ⁻¹ * x⁻¹ * (g⁻¹ * g) * u * (gᵀ * gᵀ⁻¹) * x⁻¹ * (g⁻¹ * g) * v * gᵀ := by
            simp only [Matrix.mul_assoc]
        _ = _ := by rw [c1, c2]; simp only [Matrix.mul_assoc, mul_one]
    rw [this, Matrix.trace_mul_comm, Matrix.mul_assoc _ gᵀ, c2, mul_one]
  · unfold retr symInvm
    simp only
    rw [hinv, ← hsym]
    congr 1
    have : (0.5 : ℝ) • (g * u * gᵀ) * (gᵀ⁻¹ * x⁻¹ * g⁻¹) * (g * u * gᵀ) =
        g * ((0.5 : ℝ) • u * x⁻¹ * u) * gᵀ := by
      calc _ = (0.5 : ℝ) • (g * u * (gᵀ * gᵀ⁻¹) * x⁻¹ * (g⁻¹ * g) * u * gᵀ) := by
            simp only [Matrix.mul_assoc, Matrix.smul_mul]
        _ = _ := by
            rw [c1, c2]; simp only [Matrix.mul_assoc, mul_one, Matrix.smul_mul, Matrix.mul_smul]
    rw [this]
    simp only [mul_add, add_mul]
  · have hX := hx.congr hg
    have e := C106_spd_congruence E (u := logmap E x y) hx hg
    rw [C29_exp_log E hx hy] at e
    rw [← e, C29_log_exp E hX]
    refine symm_iff.2 ?_
    have := symm_iff.1 (C29_logmap_symm E (y := y) hx)
    simp only [transpose_mul, transpose_transpose, this, Matrix.mul_assoc]
  · intro G G' hG
    have e : G = gᵀ * G' * g := by
      ext i j
      have := hG (Matrix.single i j 1)
      have e1 : ∑ a, ∑ b, G a b * (Matrix.single i j (1 : ℝ)) a b = G i j := by
        simp [Matrix.single_apply, ite_and]
      rw [e1] at this
      rw [this]
      have e3 : ∀ a b, (g * Matrix.single i j (1 : ℝ) * gᵀ) a b = g a i * g b j := fun a b => by
        simp [Matrix.mul_apply, Matrix.single_apply, ite_and]
      simp only [e3, Matrix.mul_apply, transpose_apply, Finset.sum_mul]
      rw [Finset.sum_comm]
      exact Finset.sum_congr rfl fun b _ => Finset.sum_congr rfl fun a _ => by ring
    rw [e]
    unfold egrad2rgrad proju
    have e2 : sym (gᵀ * G' * g) = gᵀ * sym G' * g := by
      simp only [sym, transpose_mul, transpose_transpose, Matrix.mul_smul, Matrix.smul_mul, mul_add,
        add_mul, Matrix.mul_assoc]
    rw [e2]
    simp only [transpose_mul, transpose_transpose, Matrix.mul_assoc]

end Geoopt.SPD
