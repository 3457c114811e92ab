import Verif.Lemmas.Gradient
import Verif.Props.C20
import Verif.Props.C35
import Verif.Props.C05
import Verif.Model.OptimManifolds
import Mathlib.Analysis.SpecialFunctions.Trigonometric.InverseDeriv

/-!
# C112 the Riemannian gradient of the squared distance

A loss `dist(x, y)²` (a Fréchet mean, an embedding) is minimised by following `egrad2rgrad` of what
`backward()` returns.  On a Riemannian manifold that vector is `-2 · log_x(y)`: it points away from the
target along the geodesic and its length is twice the distance.
-/

namespace Geoopt
open Matrix Filter Topology
variable {n : ℕ}

namespace Sphere

/-- **C112**, sphere and sphere restricted to a subspace: where the clamp inside `dist` is inactive,
`dist(·, y)²` is differentiable and its gradient, converted by `egrad2rgrad`, is `-2 · logmap(x, y)`. -/
theorem C112_sphere {S : Set (Vec n)} {P : Option (Matrix (Fin n) (Fin n) ℝ)} (hP : Projects S P)
    {dt : DType} {x y : Vec n} (hx : OnSphere S x) (hy : OnSphere S y)
    (h : |x ⬝ᵥ y| < 1 - eps dt) :
    ∃ g, HasGrad (fun z => dist dt z y ^ 2) g x ∧ egrad2rgrad P x g = (-2 : ℝ) • logmap P dt x y := by
  have h0 := eps_pos dt
  have hs := acos_sin_ge h.le
  have hsp : 0 < Real.sin (Real.arccos (x ⬝ᵥ y)) := by linarith
  have h1 := abs_le.1 h.le
  have hd := (hasGrad_dot y x).comp (φ := Real.arccos)
    (Real.hasDerivAt_arccos (by linarith) (by linarith))
  have hd2 := hd.comp (φ := fun t => t ^ 2) (hasDerivAt_pow 2 _)
  have hc : Continuous fun z : Vec n => |z ⬝ᵥ y| := by
    unfold dotProduct; fun_prop
  refine ⟨_, hd2.congr ?_, ?_⟩
  · filter_upwards [hc.continuousAt.eventually (gt_mem_nhds h)] with z hz
    rw [C22_dist_eq_arccos hz.le]
  · rw [logmap_value hP hx hy h.le, Real.sin_arccos, egrad2rgrad, proju, smul_smul, dotProduct_smul]
    rw [Real.sin_arccos] at hsp
    have e : ((2 : ℕ) * Real.arccos (x ⬝ᵥ y) ^ (2 - 1) * -(1 / √(1 - (x ⬝ᵥ y) ^ 2))) • y
        - (((2 : ℕ) * Real.arccos (x ⬝ᵥ y) ^ (2 - 1) * -(1 / √(1 - (x ⬝ᵥ y) ^ 2))) • (x ⬝ᵥ y)) • x
        = (-2 : ℝ) • ((Real.arccos (x ⬝ᵥ y) / √(1 - (x ⬝ᵥ y) ^ 2)) • (y - (x ⬝ᵥ y) • x)) := by
      funext i
      simp only [Pi.sub_apply, Pi.smul_apply, smul_eq_mul, Nat.cast_ofNat]
      norm_num
      ring
    rw [e]
    exact pos_fix hP (smul_mem hP (smul_mem hP (sub_mem hP hy.2 (smul_mem hP hx.2 _)) _) _)

/-- One step of `RiemannianSGD` with learning rate `1/2` on `dist(·, y)²` reaches `y`
(`SphereExact`, no momentum and no weight decay). -/
theorem C112_sphere_one_step {S : Set (Vec n)} {P : Option (Matrix (Fin n) (Fin n) ℝ)}
    (hP : Projects S P) {dt : DType} {x y : Vec n} (hx : OnSphere S x) (hy : OnSphere S y)
    (h : |x ⬝ᵥ y| < 1 - eps dt) {g : Vec n} (hg : HasGrad (fun z => dist dt z y ^ 2) g x)
    (H : Optim.SGDHyper) (hlr : H.lr = 1 / 2) (hm : H.momentum = 0) (hw : H.weightDecay = 0)
    (b : Option (Vec n)) :
    (Optim.sgdParam (Optim.sphereExact P dt) H ⟨x, .dense g, b⟩).1.point = y := by
  obtain ⟨g', hg', e⟩ := C112_sphere hP (dt := dt) hx hy h
  cases hg.unique hg'
  simp only [Optim.sgdParam, hm, hw, hlr, lt_irrefl, if_false, zero_smul, add_zero,
    Optim.sphereExact, e, Exact.retr, smul_smul]
  norm_num
  exact C22_exp_log hP hx hy h.le

/-- The claim is false of close points of the sphere: where the clamp is active the gradient is zero
although the points differ. -/
theorem C112_counterexample_sphere {dt : DType} {x y : Vec n} (h : 1 - eps dt < x ⬝ᵥ y) :
    HasGrad (fun z => dist dt z y ^ 2) 0 x := by
  have hc : ContinuousAt (fun z : Vec n => z ⬝ᵥ y) x := by
    apply Continuous.continuousAt; unfold dotProduct; fun_prop
  refine (hasGrad_const (Real.arccos (1 - eps dt) ^ 2) x).congr ?_
  filter_upwards [hc.eventually (lt_mem_nhds h)] with z hz
  have he := eps_small dt
  have : (-1 : ℝ) + eps dt ≤ z ⬝ᵥ y := by norm_num at he; linarith
  rw [dist, inner, clamp, max_eq_left this, min_eq_right hz.le]

/-- the hypothesis of the counterexample is met by two different points -/
example : OnSphere Set.univ (![1, 0] : Vec 2) ∧
    OnSphere Set.univ (![(1 - 1e-10) / (1 + 1e-10), 2e-5 / (1 + 1e-10)] : Vec 2) ∧
    (![1, 0] : Vec 2) ≠ ![(1 - 1e-10) / (1 + 1e-10), 2e-5 / (1 + 1e-10)] ∧
    1 - eps .f64 < (![1, 0] : Vec 2) ⬝ᵥ ![(1 - 1e-10) / (1 + 1e-10), 2e-5 / (1 + 1e-10)] := by
  refine ⟨⟨?_, trivial⟩, ⟨?_, trivial⟩, ?_, ?_⟩
  · simp [dotProduct, Fin.sum_univ_two]
  · simp only [dotProduct, Fin.sum_univ_two, cons_val_zero, cons_val_one]; norm_num
  · intro h; have := congrFun h 1; norm_num at this
  · simp only [dotProduct, Fin.sum_univ_two, cons_val_zero, cons_val_one, eps]; norm_num

/-- `C112_sphere` at two points -/
example : ∃ g, HasGrad (fun z => dist .f64 z ![0.6, 0.8] ^ 2) g (![1, 0] : Vec 2) ∧
    egrad2rgrad none ![1, 0] g = (-2 : ℝ) • logmap none .f64 ![1, 0] ![0.6, 0.8] := by
  refine C112_sphere (S := Set.univ) (P := none) rfl ⟨?_, trivial⟩ ⟨?_, trivial⟩ ?_
  · simp [dotProduct, Fin.sum_univ_two]
  · simp only [dotProduct, Fin.sum_univ_two, cons_val_zero, cons_val_one]; norm_num
  · simp only [dotProduct, Fin.sum_univ_two, cons_val_zero, cons_val_one, eps]; norm_num [abs_lt]

end Sphere

namespace Lorentz

lemma hasGrad_mink (y x : Vec (n + 1)) :
    HasGrad (fun z => mink z y) (Fin.cons (-y 0) (Fin.tail y)) x := by
  refine (hasGrad_dot (Fin.cons (-y 0) (Fin.tail y)) x).congr (Eventually.of_forall fun z => ?_)
  simp [mink, dotProduct, Fin.sum_univ_succ, Fin.tail]

lemma egrad_flip {k : ℝ} (x y : Vec (n + 1)) (c : ℝ) :
    (egrad2rgrad k x (c • (Fin.cons (-y 0) (Fin.tail y) : Vec (n + 1)))).1
      = c • (y + (mink x y * k⁻¹) • x) := by
  have e : (Fin.cons ((c • (Fin.cons (-y 0) (Fin.tail y) : Vec (n + 1))) 0 * -1)
      (Fin.tail (c • (Fin.cons (-y 0) (Fin.tail y) : Vec (n + 1)))) : Vec (n + 1)) = c • y := by
    funext i
    refine Fin.cases ?_ (fun i => ?_) i
    · simp
    · simp [Fin.tail]
  simp only [egrad2rgrad, e, inner_eq]
  minks
  module

/-- **C112**, hyperboloid: away from the floors of `arcosh` and of the norm. -/
theorem C112_lorentz {k : ℝ} (hk : 0 < k) {x y : Vec (n + 1)} (hx : OnHyperboloid k x)
    (hy : OnHyperboloid k y) (h : k ^ 2 * (1 + 1e-15) < mink x y ^ 2) (hd : 1e-4 ≤ dist k x y) :
    ∃ g, HasGrad (fun z => dist k z y ^ 2) g x ∧
      (egrad2rgrad k x g).1 = (-2 : ℝ) • logmap k x y := by
  obtain ⟨hn, hch, -⟩ := far_facts hk hx hy h.le hd
  have hs : 0 < Real.sqrt k := Real.sqrt_pos.2 hk
  have hss := Real.sq_sqrt hk.le
  have h1 := ch_ge_one hk hx hy
  have hc2 := ch_of_sq hk h.le
  have h1' : 1 < ch k x y := by nlinarith
  have hg1 : HasGrad (fun z => ch k z y) ((-k⁻¹) • (Fin.cons (-y 0) (Fin.tail y) : Vec (n + 1))) x := by
    refine ((hasGrad_mink y x).const_mul (-k⁻¹)).congr (Eventually.of_forall fun z => ?_)
    simp only [ch]; ring
  have hg2 := hg1.comp (φ := Real.arcosh) (Real.hasDerivAt_arcosh h1')
  have hg3 := (hg2.const_mul (Real.sqrt k)).comp (φ := fun t => t ^ 2) (hasDerivAt_pow 2 _)
  refine ⟨_, hg3.congr ?_, ?_⟩
  · have hm := (hasGrad_mink y x).continuousAt
    filter_upwards [(hm.pow 2).eventually (lt_mem_nhds h)] with z hz
    rw [dist_eq, arcosh_eq (ch_of_sq hk hz.le)]
  · have hdn : dirNorm k (ch k x y) = Real.sqrt k * √(ch k x y ^ 2 - 1) := by
      rw [hn, ← hch, ← Real.sinh_sq, Real.sqrt_sq (Real.sinh_nonneg_iff.2 (by positivity))]
    rw [logmap_eq hk hx hy, hdn, dist_eq, arcosh_eq hc2]
    have hS : 0 < √(ch k x y ^ 2 - 1) := Real.sqrt_pos.2 (by linarith)
    rw [smul_smul, smul_smul, smul_smul, egrad_flip, mink_eq_ch hk x y]
    funext i
    simp only [Pi.sub_apply, Pi.add_apply, Pi.smul_apply, smul_eq_mul, Nat.cast_ofNat]
    generalize √(ch k x y ^ 2 - 1) = s at *
    generalize Real.arcosh (ch k x y) = a at *
    have hk' : k = √k ^ 2 := hss.symm
    generalize √k = r at *
    subst hk'
    field_simp
    ring

/-- One step of `RiemannianSGD` with learning rate `1/2` on `dist(·, y)²` reaches `y`. -/
theorem C112_lorentz_one_step {k : ℝ} (hk : 0 < k) {x y : Vec (n + 1)} (hx : OnHyperboloid k x)
    (hy : OnHyperboloid k y) (h : k ^ 2 * (1 + 1e-15) < mink x y ^ 2) (hd : 1e-4 ≤ dist k x y)
    {g : Vec (n + 1)} (hg : HasGrad (fun z => dist k z y ^ 2) g x)
    (H : Optim.SGDHyper) (hlr : H.lr = 1 / 2) (hm : H.momentum = 0) (hw : H.weightDecay = 0)
    (b : Option (Vec (n + 1))) :
    (Optim.sgdParam (Optim.lorentz k) H ⟨x, .dense g, b⟩).1.point = y := by
  obtain ⟨g', hg', e⟩ := C112_lorentz hk hx hy h hd
  cases hg.unique hg'
  simp only [Optim.sgdParam, hm, hw, hlr, lt_irrefl, if_false, zero_smul, add_zero,
    Optim.lorentz, e, smul_smul]
  norm_num
  exact C37_exp_log hk hx hy h.le hd _ _

/-- `C112_lorentz` at two points -/
example : ∃ g, HasGrad (fun z => dist 1 z ![1, 0] ^ 2) g (![5 / 4, 3 / 4] : Vec 2) ∧
    (egrad2rgrad 1 ![5 / 4, 3 / 4] g).1 = (-2 : ℝ) • logmap 1 ![5 / 4, 3 / 4] ![1, 0] := by
  have hm : mink (![5 / 4, 3 / 4] : Vec 2) ![1, 0] = -(5 / 4) := by simp [mink]
  refine C112_lorentz one_pos ⟨by simp [mink]; norm_num, by norm_num⟩ ⟨by simp [mink], by norm_num⟩
    (by rw [hm]; norm_num) ?_
  rw [dist_eq, ch, hm, arcosh, Real.sqrt_one, one_mul]
  have h1 : (1e-4 : ℝ) ≤ 1 - (5 / 4 : ℝ)⁻¹ := by norm_num
  refine h1.trans ((Real.one_sub_inv_le_log_of_pos (by norm_num)).trans ?_)
  apply Real.log_le_log (by norm_num)
  norm_num
  positivity

end Lorentz

namespace Stereo

/-- the derivative of the code's inverse tangent away from its clamp -/
lemma hasDerivAt_artanK {η k r : ℝ} (hη : 0 ≤ η) (hk : ¬ KZero k)
    (h : k < 0 → |r * kSqrt η k| < 1 - 1e-7) :
    HasDerivAt (artanK η k) (1 / (1 + (if k < 0 then k - η else k + η) * r ^ 2)) r := by
  have hs : 0 < kSqrt η k := by
    unfold kSqrt sabs KZero at *
    apply Real.sqrt_pos.2
    have : 0 ≤ |k| := abs_nonneg k
    push Not at hk
    have := e8
    linarith
  have hss : kSqrt η k ^ 2 = |k| + η := by
    unfold kSqrt sabs; rw [Real.sq_sqrt]; have := abs_nonneg k; linarith
  by_cases hk0 : k < 0
  · have h1 := abs_lt.1 (h hk0)
    have e : artanK η k =ᶠ[𝓝 r] fun r => (kSqrt η k)⁻¹ *
        ((Real.log (1 + r * kSqrt η k) - Real.log (1 - r * kSqrt η k)) * 0.5) := by
      have hc : ContinuousAt (fun r => |r * kSqrt η k|) r := by fun_prop
      filter_upwards [hc.eventually (gt_mem_nhds (h hk0))] with z hz
      have hz' := abs_lt.1 hz
      simp only [artanK, if_neg hk, if_pos hk0, artanhC]
      rw [clamp_of_mem (by linarith) (by linarith)]
    refine HasDerivAt.congr_of_eventuallyEq ?_ e
    have b1 : HasDerivAt (fun r => 1 + r * kSqrt η k) (kSqrt η k) r := by
      simpa using ((hasDerivAt_id r).mul_const (kSqrt η k)).const_add 1
    have b2 : HasDerivAt (fun r => 1 - r * kSqrt η k) (-kSqrt η k) r := by
      simpa using ((hasDerivAt_id r).mul_const (kSqrt η k)).const_sub 1
    have p1 : 0 < 1 + r * kSqrt η k := by norm_num at h1 ⊢; linarith
    have p2 : 0 < 1 - r * kSqrt η k := by norm_num at h1 ⊢; linarith
    have := (((b1.log p1.ne').sub (b2.log p2.ne')).mul_const 0.5).const_mul (kSqrt η k)⁻¹
    refine this.congr_deriv ?_
    rw [if_pos hk0]
    have ek : k - η = -kSqrt η k ^ 2 := by rw [hss, abs_of_neg hk0]; ring
    rw [ek]
    have : 1 + -kSqrt η k ^ 2 * r ^ 2 = (1 + r * kSqrt η k) * (1 - r * kSqrt η k) := by ring
    rw [this, show (0.5 : ℝ) = 1 / 2 by norm_num]
    clear this
    generalize r * kSqrt η k = u at *
    field_simp
    ring
  · have e : artanK η k = fun r => (kSqrt η k)⁻¹ * Real.arctan (r * kSqrt η k) := by
      funext r; simp only [artanK, if_neg hk, if_neg hk0]
    rw [e]
    have b1 : HasDerivAt (fun r => r * kSqrt η k) (kSqrt η k) r := by
      simpa using (hasDerivAt_id r).mul_const (kSqrt η k)
    refine (b1.arctan.const_mul (kSqrt η k)⁻¹).congr_deriv ?_
    rw [if_neg hk0]
    have ek : k + η = kSqrt η k ^ 2 := by rw [hss, abs_of_nonneg (by linarith)]
    rw [ek]
    have : 0 < 1 + (r * kSqrt η k) ^ 2 := by positivity
    have : 0 < 1 + kSqrt η k ^ 2 * r ^ 2 := by positivity
    field_simp

lemma hasGrad_sub_sq {k : ℝ} {x y : Vec n} (h : mobDenom k (-x) y ≠ 0) :
    HasGrad (fun z => mAdd k (-z) y ⬝ᵥ mAdd k (-z) y)
      ((-2 * (1 + k * (y ⬝ᵥ y)) / mobDenom k (-x) y) • mAdd k (-x) y) x := by
  have hN : HasGrad (fun z => (z ⬝ᵥ z + -2 * (z ⬝ᵥ y)) + y ⬝ᵥ y) _ x :=
    ((hasGrad_self_dot x).add ((hasGrad_dot y x).const_mul (-2))).add (hasGrad_const (y ⬝ᵥ y) x)
  have hD : HasGrad (fun z => mobDenom k (-z) y) _ x :=
    (((hasGrad_const 1 x).add ((hasGrad_dot y x).const_mul (2 * k))).add
      ((hasGrad_self_dot x).const_mul (k ^ 2 * (y ⬝ᵥ y)))).congr
      (Eventually.of_forall fun z => by
        simp only [mobDenom, neg_dotProduct, dotProduct_neg]; ring)
  have hI := hD.comp (φ := fun t => t⁻¹) (hasDerivAt_inv h)
  refine ((hN.mul hI).congr ?_).congr_grad ?_
  · filter_upwards [hD.continuousAt.eventually_ne h] with z hz
    rw [mAdd_self hz]
    simp only [neg_dotProduct, dotProduct_neg]
    ring
  · funext i
    have eD : mobDenom k (-x) y = 1 + 2 * k * (x ⬝ᵥ y) + k ^ 2 * (x ⬝ᵥ x) * (y ⬝ᵥ y) := by
      simp only [mobDenom, neg_dotProduct, dotProduct_neg]; ring
    simp only [mAdd, Pi.add_apply, Pi.smul_apply, smul_eq_mul, Pi.zero_apply, Pi.neg_apply,
      neg_dotProduct, dotProduct_neg, neg_neg]
    rw [eD] at *
    generalize x ⬝ᵥ y = c at *
    generalize x ⬝ᵥ x = a at *
    generalize y ⬝ᵥ y = b at *
    field_simp
    ring

/-- **C112**, ball and projected sphere, curvature `k`: where no clamp is active `dist(·, y)²` is
differentiable and its gradient, converted by `egrad2rgrad`, is `-2ρ · logmap(x, y)`; `ρ = 1` for exact
`√|k|` (`η = 0`) and `|ρ - 1| ≤ 1e7 · η / |k|` with the regulariser `η` that the code adds to `|k|`. -/
theorem C112_stereographic {η k : ℝ} (hη : 0 ≤ η) (hk : 1e-8 < |k|) {x y : Vec n}
    (h1 : 1e-15 < mobDenom k (-x) y) (hx : 1e-15 ≤ 1 + k * (x ⬝ᵥ x))
    (hnear : 1e-15 ≤ nrm (mobiusAdd k (-x) y))
    (hfar : k < 0 → nrm (mobiusAdd k (-x) y) * Real.sqrt (|k| + η) < 1 - 1e-7) :
    ∃ g ρ, HasGrad (fun z => dist η k z y ^ 2) g x ∧
      egrad2rgrad k x g = (-2 * ρ) • logmap η k x y ∧ |ρ - 1| ≤ 1e7 * η / |k| := by
  have hkz : ¬ KZero k := not_le.2 hk
  have hw := mobiusAdd_eq h1.le
  have h15 : (0 : ℝ) < 1e-15 := by norm_num
  have hD0 : mobDenom k (-x) y ≠ 0 := by linarith
  rw [hw] at hnear hfar
  have hsq := nrm_sq (mAdd k (-x) y)
  obtain ⟨r, hr⟩ : ∃ r, r = nrm (mAdd k (-x) y) := ⟨_, rfl⟩
  rw [← hr] at hnear hfar hsq
  have hr0 : 0 < r := by linarith
  have ha := hasDerivAt_artanK (r := r) hη hkz (fun hk0 => by
    have hs : (0 : ℝ) ≤ kSqrt η k := Real.sqrt_nonneg _
    rw [abs_of_nonneg (mul_nonneg hr0.le hs)]; exact hfar hk0)
  obtain ⟨K, hK⟩ : ∃ K, K = (if k < 0 then k - η else k + η) := ⟨_, rfl⟩
  rw [← hK] at ha
  have hq := hasGrad_sub_sq (k := k) (x := x) (y := y) hD0
  have hsr : √(mAdd k (-x) y ⬝ᵥ mAdd k (-x) y) = r := by rw [← hsq, Real.sqrt_sq hr0.le]
  have hφ : HasDerivAt (fun q => (2.0 * artanK η k (√q)) ^ 2) _ (mAdd k (-x) y ⬝ᵥ mAdd k (-x) y) :=
    (HasDerivAt.const_mul (2.0 : ℝ) (HasDerivAt.comp (mAdd k (-x) y ⬝ᵥ mAdd k (-x) y)
      (h₂ := artanK η k) (by rw [hsr]; exact ha)
      (Real.hasDerivAt_sqrt (by rw [← hsq]; positivity)))).pow 2
  have hg := hq.comp hφ
  have hDc : ContinuousAt (fun z => mobDenom k (-z) y) x := by
    apply Continuous.continuousAt
    unfold mobDenom dotProduct; fun_prop
  have hr2 : 0 ≤ r ^ 2 := by positivity
  have hkp : 0 < |k| := by linarith [show (0 : ℝ) < 1e-8 by norm_num]
  refine ⟨_, (1 + k * r ^ 2) / (1 + K * r ^ 2), hg.congr ?_, ?_, ?_⟩
  · filter_upwards [hDc.eventually (lt_mem_nhds h1)] with z hz
    rw [dist, mobiusAdd_eq hz.le, nrm]
  · have hone := one_add_mAdd_self (k := k) (x := -x) (y := y) hD0
    rw [← hsq] at hone
    rw [logmap, hw, ← hr, max_eq_left hnear, hone]
    rw [hsr]
    simp only [Function.comp, hsr, egrad2rgrad, lambdaX, neg_dotProduct, dotProduct_neg, neg_neg]
    rw [max_eq_left hx]
    generalize hd : 1 / (1 + K * r ^ 2) = d at *
    rw [div_eq_mul_one_div _ (1 + K * r ^ 2), hd]
    funext i
    simp only [Pi.smul_apply, smul_eq_mul]
    generalize mAdd k (-x) y i = w at *
    generalize mobDenom k (-x) y = D at *
    generalize artanK η k r = A at *
    have hx0 : 1 + k * (x ⬝ᵥ x) ≠ 0 := by linarith
    generalize 1 + k * (x ⬝ᵥ x) = X at *
    generalize 1 + k * (y ⬝ᵥ y) = Y at *
    rw [show (2.0 : ℝ) = 2 by norm_num]
    simp only [Nat.cast_ofNat, show 2 - 1 = 1 from rfl, pow_one]
    field_simp
  · by_cases hk0 : k < 0
    · rw [if_pos hk0] at hK
      subst hK
      rw [abs_of_neg hk0] at *
      have hf := hfar hk0
      have hss : √(-k + η) ^ 2 = -k + η := Real.sq_sqrt (by linarith)
      have hs0 := Real.sqrt_nonneg (-k + η)
      generalize √(-k + η) = s at *
      have hu : (r * s) ^ 2 ≤ (1 - 1e-7) ^ 2 := pow_le_pow_left₀ (by positivity) hf.le 2
      have hden : 1e-7 ≤ 1 + (k - η) * r ^ 2 := by
        have : (k - η) * r ^ 2 = -(r * s) ^ 2 := by rw [mul_pow, hss]; ring
        rw [this]; norm_num at hu ⊢; linarith
      have hd0 : 0 < 1 + (k - η) * r ^ 2 := by linarith [show (0 : ℝ) < 1e-7 by norm_num]
      have e : (1 + k * r ^ 2) / (1 + (k - η) * r ^ 2) - 1 = η * r ^ 2 / (1 + (k - η) * r ^ 2) := by
        rw [div_sub_one hd0.ne']; congr 1; ring
      rw [e, abs_of_nonneg (by positivity), div_le_div_iff₀ hd0 hkp]
      have hr3 : -k * r ^ 2 ≤ 1 := by
        have : -k * r ^ 2 ≤ (r * s) ^ 2 := by rw [mul_pow, hss]; nlinarith
        norm_num at hu; linarith
      calc η * r ^ 2 * -k = η * (-k * r ^ 2) := by ring
        _ ≤ η * 1 := mul_le_mul_of_nonneg_left hr3 hη
        _ = 1e7 * η * 1e-7 := by norm_num; ring
        _ ≤ 1e7 * η * (1 + (k - η) * r ^ 2) := mul_le_mul_of_nonneg_left hden (by positivity)
    · have hk1 : 0 ≤ k := not_lt.1 hk0
      rw [if_neg hk0] at hK
      subst hK
      rw [abs_of_nonneg hk1] at *
      have hd0 : 0 < 1 + (k + η) * r ^ 2 := by positivity
      have e : (1 + k * r ^ 2) / (1 + (k + η) * r ^ 2) - 1
          = -(η * r ^ 2 / (1 + (k + η) * r ^ 2)) := by
        rw [div_sub_one hd0.ne', ← neg_div]; congr 1; ring
      rw [e, abs_neg, abs_of_nonneg (by positivity), div_le_div_iff₀ hd0 hkp]
      nlinarith [mul_nonneg hη hr2, mul_nonneg hk1 (mul_nonneg hη hr2),
        mul_nonneg hη (mul_nonneg hη hr2)]

/-- **C112**, Poincaré ball, all points that the manifold accepts. -/
theorem C112_ball {η k : ℝ} (hη : 0 ≤ η) (hk : k < -1e-8) {dt : DType} {x y : Vec n}
    (hx : Valid η dt k x) (hy : Valid η dt k y)
    (hnear : 1e-15 ≤ nrm (mobiusAdd k (-x) y))
    (hfar : nrm (mobiusAdd k (-x) y) * Real.sqrt (|k| + η) < 1 - 1e-7) :
    ∃ g ρ, HasGrad (fun z => dist η k z y ^ 2) g x ∧
      egrad2rgrad k x g = (-2 * ρ) • logmap η k x y ∧ |ρ - 1| ≤ 1e7 * η / |k| := by
  have hk0 : k < 0 := by have := e8; linarith
  have h1 := mobDenom_valid hη hk0 (valid_neg.2 hx) hy
  have h2 := valid_sq hη hk0 hx
  refine C112_stereographic hη (by rw [abs_of_neg hk0]; linarith)
    (lt_of_lt_of_le (by norm_num) h1) ?_ hnear fun _ => hfar
  norm_num at h2 ⊢
  linarith

/-- With exact `√|k|` one step of `RiemannianSGD` with learning rate `1/2` on `dist(·, y)²` reaches
`y` (`PoincareBallExact`). -/
theorem C112_ball_one_step {k : ℝ} (hk : k < -1e-8) (hbig : |k| ≤ 1e29) {dt : DType} {x y : Vec n}
    (hx : Valid 0 dt k x) (hy : Valid 0 dt k y)
    (hnear : 2e-10 ≤ nrm (mobiusAdd k (-x) y))
    (hfar : nrm (mobiusAdd k (-x) y) * Real.sqrt (|k| + 0) < 1 - 1e-7)
    {g : Vec n} (hg : HasGrad (fun z => dist 0 k z y ^ 2) g x)
    (H : Optim.SGDHyper) (hlr : H.lr = 1 / 2) (hm : H.momentum = 0) (hw : H.weightDecay = 0)
    (b : Option (Vec n)) :
    (Optim.sgdParam (Optim.stereographicExact 0 dt k) H ⟨x, .dense g, b⟩).1.point = y := by
  obtain ⟨g', ρ, hg', e, hρ⟩ := C112_ball le_rfl hk hx hy (le_trans (by norm_num) hnear) hfar
  cases hg.unique hg'
  have hρ1 : ρ = 1 := by
    rw [mul_zero, zero_div] at hρ
    have := abs_nonpos_iff.1 hρ
    linarith
  subst hρ1
  simp only [Optim.sgdParam, hm, hw, hlr, lt_irrefl, if_false, zero_smul, add_zero,
    Optim.stereographicExact, e, smul_smul]
  norm_num
  exact C05_exp_log_ball le_rfl hk (by norm_num) hbig true hx hy hfar.le (Or.inr hnear)

/-- `C112_ball` at two points -/
example : ∃ g ρ, HasGrad (fun z => dist codeEta (-1) z pB ^ 2) g pA ∧
    egrad2rgrad (-1) pA g = (-2 * ρ) • logmap codeEta (-1) pA pB ∧
    |ρ - 1| ≤ 1e7 * codeEta / |(-1 : ℝ)| := by
  refine C112_ball codeEta_nonneg (by norm_num) (pA_valid .f64) (pB_valid .f64)
    (le_trans (by norm_num) pAB_near) ?_
  apply lt_of_abs_lt
  apply abs_lt_of_sq_lt_sq _ (by norm_num)
  rw [mul_pow, nrm_sq, pAB_dot, Real.sq_sqrt (by norm_num [codeEta])]
  norm_num [codeEta]

/-- The claim is false of far apart points of the ball: there are two accepted points, the gradient of
whose squared distance is zero, because `artanh` is clamped. -/
theorem C112_counterexample_ball : ∃ x y : Vec 1, Valid codeEta .f64 (-1) x ∧
    Valid codeEta .f64 (-1) y ∧ logmap codeEta (-1) x y ≠ 0 ∧
    HasGrad (fun z => dist codeEta (-1) z y ^ 2) 0 x := by
  have hv : ∀ {a : ℝ}, a ^ 2 = 0.99998 ^ 2 → Valid codeEta .f64 (-1) (fun _ : Fin 1 => a) := by
    intro a ha
    apply valid_of_sq codeEta_nonneg (by norm_num)
    simp only [dotProduct, Fin.sum_univ_one, codeEta, projEps, ← sq, ha]
    norm_num
  have hD : mobDenom (-1) (-(fun _ : Fin 1 => (0.99998 : ℝ))) (fun _ : Fin 1 => (-0.99998 : ℝ))
      = (1 + 0.99998 ^ 2) ^ 2 := by
    simp only [mobDenom, dotProduct, Fin.sum_univ_one, Pi.neg_apply]; norm_num
  have hw : mobiusAdd (-1) (-(fun _ : Fin 1 => (0.99998 : ℝ))) (fun _ : Fin 1 => (-0.99998 : ℝ))
      = fun _ => -(2 * 0.99998 / (1 + 0.99998 ^ 2)) := by
    rw [mobiusAdd_eq (by rw [hD]; norm_num)]
    funext i
    simp only [mAdd, hD, dotProduct, Fin.sum_univ_one, Pi.neg_apply, Pi.smul_apply, Pi.add_apply,
      smul_eq_mul]
    norm_num
  have hn : nrm (mobiusAdd (-1) (-(fun _ : Fin 1 => (0.99998 : ℝ)))
      (fun _ : Fin 1 => (-0.99998 : ℝ))) = 2 * 0.99998 / (1 + 0.99998 ^ 2) := by
    rw [hw, nrm]
    simp only [dotProduct, Fin.sum_univ_one]
    rw [← sq, neg_sq, Real.sqrt_sq (by norm_num)]
  have hs : (1 : ℝ) ≤ kSqrt codeEta (-1) := by
    unfold kSqrt sabs
    rw [Real.one_le_sqrt]; norm_num [codeEta]
  have hkz : ¬ KZero (-1) := by norm_num [KZero]
  have hc : ∀ r : ℝ, 1 - 1e-7 < r →
      artanK codeEta (-1) r = (kSqrt codeEta (-1))⁻¹ * artanhC 1 := by
    intro r hr
    have h0 : (0 : ℝ) < r := by norm_num at hr ⊢; linarith
    have h1 : 1 - 1e-7 < r * kSqrt codeEta (-1) := by nlinarith
    simp only [artanK, if_neg hkz, show ((-1 : ℝ) < 0) by norm_num, if_true, artanhC]
    have c1 : clamp (-1 + 1e-7) (1 - 1e-7) (r * kSqrt codeEta (-1)) = 1 - 1e-7 := by
      rw [clamp, max_eq_left (by norm_num at h1 ⊢; linarith), min_eq_right h1.le]
    have c2 : clamp (-1 + 1e-7) (1 - 1e-7) (1 : ℝ) = 1 - 1e-7 := by norm_num [clamp]
    rw [c1, c2]
  refine ⟨fun _ => 0.99998, fun _ => -0.99998, hv rfl, hv (by norm_num), ?_, ?_⟩
  · intro h
    have h' := congrFun h 0
    rw [logmap, hw] at h'
    rw [hw] at hn
    rw [hn, max_eq_left (by norm_num), hc _ (by norm_num)] at h'
    have ha : 0 < artanhC 1 := by
      have c2 : clamp (-1 + 1e-7) (1 - 1e-7) (1 : ℝ) = 1 - 1e-7 := by norm_num [clamp]
      simp only [artanhC, c2]
      have := Real.log_lt_log (x := 1 - (1 - 1e-7)) (y := 1 + (1 - 1e-7)) (by norm_num) (by norm_num)
      norm_num at this ⊢
      linarith
    have hl := lambdaX_pos (-1) (fun _ : Fin 1 => (0.99998 : ℝ))
    have hs0 : 0 < kSqrt codeEta (-1) := by linarith
    simp only [Pi.smul_apply, smul_eq_mul, Pi.zero_apply, mul_eq_zero, inv_eq_zero] at h'
    rcases h' with (h' | h' | h') | (h' | h') | h'
    · norm_num at h'
    · linarith
    · linarith
    · linarith
    · norm_num at h'
    · norm_num at h'
  · have hcont : ContinuousAt (fun z : Vec 1 => nrm (mobiusAdd (-1) (-z)
        (fun _ : Fin 1 => (-0.99998 : ℝ)))) (fun _ => 0.99998) := by
      apply Continuous.continuousAt
      unfold nrm mobiusAdd mobDenom
      refine Real.continuous_sqrt.comp ?_
      simp only [dotProduct, Fin.sum_univ_one, Pi.smul_apply, Pi.add_apply, Pi.neg_apply, smul_eq_mul]
      have : ∀ t : ℝ, max t 1e-15 ≠ 0 := fun t => (lt_max_of_lt_right (by norm_num)).ne'
      fun_prop (disch := simp [this])
    refine (hasGrad_const ((2.0 * ((kSqrt codeEta (-1))⁻¹ * artanhC 1)) ^ 2) _).congr ?_
    filter_upwards [hcont.eventually (lt_mem_nhds (by beta_reduce; rw [hn]; norm_num : (1 - 1e-7 : ℝ) < _))]
      with z hz
    rw [dist, hc _ hz]

end Stereo
end Geoopt
