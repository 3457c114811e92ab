import Verif.Props.C78
import Verif.Lemmas.AxisFibT
import Verif.Spec.BatchK
import Verif.Lemmas.Vec

/-!
# C95: a tensor of curvatures acts entry by entry

`Stereographic(k=...)` accepts a tensor of curvatures that broadcasts with the batch.  The result
at every batch position should be what the manifold with that single curvature gives, whatever the
curvatures of the other positions are.  This holds for every function that goes through `tan_k` and
`artan_k`, although these choose their formula by `torch.all` over all curvatures.  It fails for
`dist2plane`, because `arsin_k` uses a clamp and a shorter Taylor polynomial only when the signs are
mixed, and for the functions with `keepdim=False`, where `k` of shape `(B, 1)` is broadcast against
a tensor of shape `(B,)`.
-/

namespace Geoopt.C95
open Geoopt Geoopt.Axis Geoopt.Axis.Tensor Geoopt.SpecBatch Geoopt.SpecBatchK Geoopt.C18
open Geoopt.AxisFib Geoopt.AxisFibT
variable {m n : ℕ} (d : Fin (m + 1)) (η : ℝ)

theorem inRange_of_posOf {K : Tensor (m + 1)} {b : Fin m → ℕ} (hK : K.shape d = 1)
    (hb : PosOf d K b) : InRange K (d.insertNth (α := fun _ => ℕ) 0 b) := by
  intro k hk
  rcases Fin.eq_self_or_eq_succAbove d k with h | ⟨j, rfl⟩
  · exact absurd (h ▸ hK) hk
  · rw [Fin.insertNth_apply_succAbove]
    exact (hb j).resolve_left hk

/-- **C95** (the trigonometric functions of the curvature, entry by entry, any rank and any
broadcasting).  `sin_k` for curvatures that are not within `1e-8` of zero without being zero. -/
theorem C95_trig {r : ℕ} (K x : Tensor r) (i : Fin r → ℕ)
    (hi : ∀ k, K.shape k = 1 ∨ i k < K.shape k) :
    (StereoAxisT.tanK η K x).get i = Stereo.tanK η (K.get i) (x.get i) ∧
    (StereoAxisT.artanK η K x).get i = Stereo.artanK η (K.get i) (x.get i) ∧
    ((|K.get i| ≤ 1e-8 → K.get i = 0) →
      (StereoAxisT.sinK η K x).get i = Stereo.sinK η (K.get i) (x.get i)) := by
  have hi' : InRange K i := fun k hk => (hi k).resolve_left hk
  refine ⟨tanK_get η K x i hi', artanK_get η K x i hi', fun h => ?_⟩
  refine branch_get η K x i hi' _ _ _ _ _ (fun hz => ?_) (fun _ _ => rfl)
  simp [StereoAxisT.sinKTaylor1, Stereo.sinKTaylor, h hz, Stereo.absZeroGrad]

/-- **C95** (gyro-operations). -/
theorem C95_gyro :
    CVec2 d n (StereoAxisT.mobiusAdd d) Stereo.mobiusAdd ∧
    CVec2 d n (StereoAxisT.mobiusSub d) Stereo.mobiusSub ∧
    CVec2 d n (StereoAxisT.mobiusCoadd d) Stereo.mobiusCoadd ∧
    CVec2 d n (StereoAxisT.mobiusCosub d) Stereo.mobiusCosub ∧
    CVec3 d n (StereoAxisT.gyration d) Stereo.gyration ∧
    CNumVec d n (StereoAxisT.mobiusScalarMul d η) (Stereo.mobiusScalarMul η) ∧
    CVec2 d n (StereoAxisT.mobiusPointwiseMul d η) (Stereo.mobiusPointwiseMul η) := by
  refine ⟨?_, ?_, ?_, ?_, ?_, ?_, ?_⟩
  · intro K x y hK hx hy
    refine ⟨shape_mobiusAdd d K hK x y hx hy, fun b hb => ?_⟩
    simp only [elemAt_eq_fib, C78.numAt_eq_get, mobiusAdd_fib d K hK x y hx hy]
  · intro K x y hK hx hy
    refine ⟨shape_mobiusAdd d K hK x (-y) hx hy, fun b hb => ?_⟩
    simp only [elemAt_eq_fib, C78.numAt_eq_get, StereoAxisT.mobiusSub,
      mobiusAdd_fib d K hK x (-y) hx hy]
    rfl
  · intro K x y hK hx hy
    refine ⟨shape_mobiusAdd d K hK x _ hx (shape_gyration d K hK x (-y) y hx hy hy),
      fun b hb => ?_⟩
    simp only [elemAt_eq_fib, C78.numAt_eq_get, mobiusCoadd_fib d K hK x y hx hy]
  · intro K x y hK hx hy
    refine ⟨shape_mobiusAdd d K hK x _ hx (shape_gyration d K hK x (-(-y)) (-y) hx hy hy),
      fun b hb => ?_⟩
    simp only [elemAt_eq_fib, C78.numAt_eq_get, StereoAxisT.mobiusCosub,
      mobiusCoadd_fib d K hK x (-y) hx hy]
    rfl
  · intro K x y z hK hx hy hz
    refine ⟨shape_gyration d K hK x y z hx hy hz, fun b hb => ?_⟩
    simp only [elemAt_eq_fib, C78.numAt_eq_get, gyration_fib d K hK x y z hx hy hz]
  · intro K t x hK ht hx
    refine ⟨shape_mobiusScalarMul d η K hK t x ht hx, fun b hb => ?_⟩
    simp only [elemAt_eq_fib, C78.numAt_eq_get,
      mobiusScalarMul_fib d η K hK t x ht hx _ (inRange_of_posOf d hK hb)]
  · intro K x y hK hx hy
    refine ⟨?_, fun b hb => ?_⟩
    · simp only [StereoAxisT.mobiusPointwiseMul, shape_whr, shape_test, shape_prodK, shape_map,
        shape_mul, shape_div, shape_tanK, shape_artanK, shape_cnorm, hK, hx, hy, if_true,
        bsize_self, bsize_one_left, bsize_one_right]
    · simp only [elemAt_eq_fib, C78.numAt_eq_get,
        mobiusPointwiseMul_fib d η K hK x y hx hy _ (inRange_of_posOf d hK hb)]

/-- **C95** (conformal factor, inner product, norm and distances with `keepdim=True`). -/
theorem C95_metric :
    CNum1 d n (StereoAxisT.lambdaXK d) Stereo.lambdaX ∧
    CNum3 d n (StereoAxisT.innerK d) Stereo.inner ∧
    CNum2 d n (StereoAxisT.normK d) Stereo.norm ∧
    CNum2 d n (StereoAxisT.distK d η) (Stereo.dist η) ∧
    CNum1 d n (StereoAxisT.dist0K d η) (Stereo.dist0 η) := by
  refine ⟨?_, ?_, ?_, ?_, ?_⟩
  · intro K x hK hx
    refine ⟨shape_lambdaXK d K hK x, fun b hb => ?_⟩
    simp only [elemAt_eq_fib, C78.numAt_eq_get, lambdaXK_get d K hK x hx]
  · intro K x u v hK hx hu hv
    refine ⟨?_, fun b hb => ?_⟩
    · simp only [StereoAxisT.innerK, shape_mul, shape_map, shape_lambdaXK d K hK, shape_sumK,
        if_true, bsize_self]
    · simp only [elemAt_eq_fib, C78.numAt_eq_get, innerK_get d K hK x u v hx hu hv]
  · intro K x u hK hx hu
    refine ⟨?_, fun b hb => ?_⟩
    · simp only [StereoAxisT.normK, shape_mul, shape_lambdaXK d K hK, shape_normK,
        if_true, bsize_self]
    · simp only [elemAt_eq_fib, C78.numAt_eq_get, normK_get d K hK x u hx hu]
  · intro K x y hK hx hy
    refine ⟨?_, fun b hb => ?_⟩
    · simp only [StereoAxisT.distK, shape_map, shape_artanK, hK, shape_normK, if_true,
        bsize_self]
    · simp only [elemAt_eq_fib, C78.numAt_eq_get,
        distK_get d η K hK x y hx hy _ (inRange_of_posOf d hK hb)]
  · intro K x hK hx
    refine ⟨?_, fun b hb => ?_⟩
    · simp only [StereoAxisT.dist0K, shape_map, shape_artanK, hK, shape_normK, if_true,
        bsize_self]
    · simp only [elemAt_eq_fib, C78.numAt_eq_get,
        dist0K_get d η K hK x hx _ (inRange_of_posOf d hK hb)]

/-- **C95** (exponential and logarithmic maps, geodesics, antipode). -/
theorem C95_geodesic :
    CVec2 d n (StereoAxisT.expmap d η) (Stereo.expmap η) ∧
    CVec1 d n (StereoAxisT.expmap0 d η) (Stereo.expmap0 η) ∧
    CVec2 d n (StereoAxisT.logmap d η) (Stereo.logmap η) ∧
    CVec1 d n (StereoAxisT.logmap0 d η) (Stereo.logmap0 η) ∧
    CNumVec2 d n (StereoAxisT.geodesic d η) (Stereo.geodesic η) ∧
    CNumVec2 d n (StereoAxisT.geodesicUnit d η) (Stereo.geodesicUnit η) ∧
    CVec1 d n (StereoAxisT.antipode d η) (Stereo.antipode η) := by
  have hgu : ∀ K t x u : Tensor (m + 1), K.shape d = 1 → t.shape d = 1 → x.shape d = n →
      u.shape d = n → (StereoAxisT.geodesicUnit d η K t x u).shape d = n := by
    intro K t x u hK ht hx hu
    refine shape_mobiusAdd d K hK x _ hx ?_
    simp only [shape_mul, shape_div, shape_map, shape_tanK, shape_cnorm, hK, ht, hu, if_true,
      bsize_one_left, bsize_one_right]
  refine ⟨?_, ?_, ?_, ?_, ?_, ?_, ?_⟩
  · intro K x u hK hx hu
    refine ⟨shape_mobiusAdd d K hK x _ hx ?_, fun b hb => ?_⟩
    · simp only [shape_mul, shape_div, shape_map, shape_tanK, shape_cnorm,
        shape_lambdaXK d K hK, hK, hu, if_true, bsize_one_left, bsize_one_right]
    · simp only [elemAt_eq_fib, C78.numAt_eq_get,
        expmap_fib d η K hK x u hx hu _ (inRange_of_posOf d hK hb)]
  · intro K u hK hu
    refine ⟨?_, fun b hb => ?_⟩
    · simp only [StereoAxisT.expmap0, shape_mul, shape_div, shape_tanK, shape_cnorm, hK, hu,
        if_true, bsize_one_left, bsize_one_right]
    · simp only [elemAt_eq_fib, C78.numAt_eq_get,
        expmap0_fib d η K hK u hu _ (inRange_of_posOf d hK hb)]
  · intro K x y hK hx hy
    refine ⟨?_, fun b hb => ?_⟩
    · simp only [StereoAxisT.logmap, shape_mul, shape_div, shape_map, shape_artanK, shape_cnorm,
        shape_lambdaXK d K hK, shape_mobiusAdd d K hK (-x) y hx hy, hK, if_true, bsize_one_left,
        bsize_one_right]
    · simp only [elemAt_eq_fib, C78.numAt_eq_get,
        logmap_fib d η K hK x y hx hy _ (inRange_of_posOf d hK hb)]
  · intro K y hK hy
    refine ⟨?_, fun b hb => ?_⟩
    · simp only [StereoAxisT.logmap0, shape_mul, shape_div, shape_artanK, shape_cnorm, hK, hy,
        if_true, bsize_one_left, bsize_one_right]
    · simp only [elemAt_eq_fib, C78.numAt_eq_get,
        logmap0_fib d η K hK y hy _ (inRange_of_posOf d hK hb)]
  · intro K t x y hK ht hx hy
    refine ⟨shape_mobiusAdd d K hK x _ hx (shape_mobiusScalarMul d η K hK t _ ht
      (shape_mobiusAdd d K hK (-x) y hx hy)), fun b hb => ?_⟩
    simp only [elemAt_eq_fib, C78.numAt_eq_get,
      geodesic_fib d η K hK t x y ht hx hy _ (inRange_of_posOf d hK hb)]
  · intro K t x u hK ht hx hu
    refine ⟨hgu K t x u hK ht hx hu, fun b hb => ?_⟩
    simp only [elemAt_eq_fib, C78.numAt_eq_get,
      geodesicUnit_fib d η K hK t x u ht hx hu _ (inRange_of_posOf d hK hb)]
  · intro K x hK hx
    refine ⟨?_, fun b hb => ?_⟩
    · simp only [StereoAxisT.antipode]
      split_ifs
      · exact hx
      · rw [shape_whr, shape_test, hK, bsize_one_left,
          hgu K ((K.map fun k => (Stereo.kSqrt η k)⁻¹).map (Stereo.piLit * ·)) x
            (x / StereoAxis.cnorm d x) hK hK hx (by
            simp only [shape_div, shape_cnorm, if_true, hx, bsize_one_right]), shape_neg, hx,
          bsize_self]
    · simp only [elemAt_eq_fib, C78.numAt_eq_get,
        antipode_fib d η K hK x hx _ (inRange_of_posOf d hK hb)]

/-- **C95** (projection, parallel transport, gradient conversion). -/
theorem C95_transport (dt : DType) :
    CVec1 d n (StereoAxisT.project d η dt) (Stereo.project η dt) ∧
    CVec3 d n (StereoAxisT.transp d) Stereo.transp ∧
    CVec2 d n (StereoAxisT.transp0 d) Stereo.transp0 ∧
    CVec2 d n (StereoAxisT.transp0back d) Stereo.transp0back ∧
    CVec2 d n (StereoAxisT.egrad2rgrad d) Stereo.egrad2rgrad := by
  refine ⟨?_, ?_, ?_, ?_, ?_⟩
  · intro K x hK hx
    refine ⟨?_, fun b hb => ?_⟩
    · simp only [StereoAxisT.project, shape_whr, shape_test, shape_map, cmp_shape, shape_mul,
        shape_div, shape_cnorm, hK, hx, if_true, bsize_self, bsize_one_left, bsize_one_right]
    · simp only [elemAt_eq_fib, C78.numAt_eq_get, project_fib d η K hK dt x hx]
  · intro K x y u hK hx hy hu
    refine ⟨?_, fun b hb => ?_⟩
    · simp only [StereoAxisT.transp, shape_mul, shape_div, shape_lambdaXK d K hK,
        shape_gyration d K hK y (-x) u hy hx hu, bsize_one_right]
    · simp only [elemAt_eq_fib, C78.numAt_eq_get, transp_fib d K hK x y u hx hy hu]
  · intro K y v hK hy hv
    refine ⟨?_, fun b hb => ?_⟩
    · simp only [StereoAxisT.transp0, shape_mul, shape_map, shape_sumK, hK, hv, if_true,
        bsize_self, bsize_one_right]
    · simp only [elemAt_eq_fib, C78.numAt_eq_get, transp0_fib d K hK y v hy]
  · intro K y v hK hy hv
    refine ⟨?_, fun b hb => ?_⟩
    · simp only [StereoAxisT.transp0back, shape_div, shape_mul, shape_map, shape_sumK, hK, hv,
        if_true, bsize_self, bsize_one_right]
    · simp only [elemAt_eq_fib, C78.numAt_eq_get, transp0back_fib d K hK y v hy]
  · intro K x g hK hx hg
    refine ⟨?_, fun b hb => ?_⟩
    · simp only [StereoAxisT.egrad2rgrad, shape_div, shape_map, shape_lambdaXK d K hK, hg,
        bsize_one_right]
    · simp only [elemAt_eq_fib, C78.numAt_eq_get, egrad2rgrad_fib d K hK x g hx]

theorem posOf_of_inRange {K : Tensor (m + 1)} {i : Fin (m + 1) → ℕ} (hK : K.shape d = 1)
    (hi : InRange K i) :
    PosOf d K (fun k => i (d.succAbove k)) ∧ numAt d K (fun k => i (d.succAbove k)) = K.get i := by
  refine ⟨fun k => ?_, ?_⟩
  · by_cases h : K.shape (d.succAbove k) = 1
    · exact Or.inl h
    · exact Or.inr (hi _ h)
  · rw [C78.numAt_eq_get]
    have : d.insertNth (α := fun _ => ℕ) 0 (fun k => i (d.succAbove k)) =
        Function.update i d 0 := by
      funext k
      rcases Fin.eq_self_or_eq_succAbove d k with h | ⟨j, rfl⟩
      · subst h; simp
      · rw [Fin.insertNth_apply_succAbove, Function.update_of_ne (Fin.succAbove_ne d j)]
    rw [this, get_update_one d K hK]

/-- **C95** (partial, distance to a hyperplane).  The result at a position is that of its own
curvature if all curvatures are on the same side (all close to zero, all negative, all positive), or
if the curvature at the position is negative or exactly zero.  Missing: positive curvatures, and
curvatures close to zero, in a batch with mixed signs, see the counterexamples. -/
theorem C95_dist2plane_partial (signed scaled : Bool) (K x a p : Tensor (m + 1))
    (hK : K.shape d = 1) (hx : x.shape d = n) (ha : a.shape d = n) (hp : p.shape d = n)
    (b : Fin m → ℕ) (hb : PosOf d K b)
    (h : (∀ c, PosOf d K c → |numAt d K c| ≤ 1e-8) ∨ (∀ c, PosOf d K c → numAt d K c < -1e-8) ∨
      (∀ c, PosOf d K c → 1e-8 < numAt d K c) ∨ numAt d K b < -1e-8 ∨ numAt d K b = 0) :
    (StereoAxisT.dist2planeK d η K x a p signed scaled).shape d = 1 ∧
    numAt d (StereoAxisT.dist2planeK d η K x a p signed scaled) b =
      Stereo.dist2plane η (numAt d K b) (elemAt d n x b) (elemAt d n a b) (elemAt d n p b)
        signed scaled := by
  obtain ⟨t, ht, h1, h2, h3⟩ := dist2planeK_arg d η K hK x a p hx ha hp signed scaled
  refine ⟨h2, ?_⟩
  have hi := inRange_of_posOf d hK hb
  have neg : ∀ k : ℝ, k < -1e-8 → ¬ Stereo.KZero k ∧ k < 0 := by
    intro k hk
    have h0 : k < 0 := by norm_num at hk ⊢; linarith
    refine ⟨fun hz => ?_, h0⟩
    unfold Stereo.KZero at hz
    rw [abs_of_neg h0] at hz
    norm_num at hz hk; linarith
  have pos : ∀ k : ℝ, 1e-8 < k → ¬ Stereo.KZero k ∧ 0 < k := by
    intro k hk
    have h0 : 0 < k := by norm_num at hk ⊢; linarith
    refine ⟨fun hz => ?_, h0⟩
    unfold Stereo.KZero at hz
    rw [abs_of_pos h0] at hz
    norm_num at hz hk; linarith
  have key : (StereoAxisT.arsinK η K t).get (d.insertNth (α := fun _ => ℕ) 0 b) =
      Stereo.arsinK η (K.get (d.insertNth (α := fun _ => ℕ) 0 b))
        (t.get (d.insertNth (α := fun _ => ℕ) 0 b)) := by
    rcases h with h | h | h | h | h
    · refine arsinK_get_oneSign η K t _ hi (Or.inl fun j hj => ?_)
      have := posOf_of_inRange d hK hj
      rw [← this.2]; exact h _ this.1
    · refine arsinK_get_oneSign η K t _ hi (Or.inr (Or.inl fun j hj => ?_))
      have := posOf_of_inRange d hK hj
      rw [← this.2]; exact neg _ (h _ this.1)
    · refine arsinK_get_oneSign η K t _ hi (Or.inr (Or.inr fun j hj => ?_))
      have := posOf_of_inRange d hK hj
      rw [← this.2]; exact pos _ (h _ this.1)
    · rw [C78.numAt_eq_get] at h
      exact arsinK_get η K t _ hi (fun hz => absurd hz (neg _ h).1)
        (fun hp => absurd (neg _ h).2 hp.not_gt)
    · rw [C78.numAt_eq_get] at h
      exact arsinK_get η K t _ hi (fun _ => h) (fun hp => absurd hp (by rw [h]; exact lt_irrefl _))
  rw [C78.numAt_eq_get, h3, key, h1, dist2plane_eq]
  simp only [elemAt_eq_fib, C78.numAt_eq_get]

/-- Two rows with the same single number. -/
def rows (c : ℝ) : Tensor 2 := ⟨![2, 1], fun _ => c⟩
/-- Two rows with the numbers `a` and `b`. -/
def rows2 (a b : ℝ) : Tensor 2 := ⟨![2, 1], fun i => if i 0 = 0 then a else b⟩

theorem nrm_one : nrm (fun _ : Fin 1 => (1 : ℝ)) = 1 := by
  simp [nrm, dotProduct]

theorem planeArg_one (k t : ℝ) (ht : 1e-3 ≤ t) (hk : 0 ≤ k) :
    planeArg k (fun _ : Fin 1 => t) (fun _ => 1) (fun _ => 0) false =
      2 * t / (1 + k * t ^ 2 + 1e-15) := by
  have ht0 : 0 < t := by norm_num at ht; linarith
  have h0 : Stereo.mobiusAdd k (-fun _ : Fin 1 => (0 : ℝ)) (fun _ => t) = fun _ => t := by
    funext j
    simp [Stereo.mobiusAdd, Stereo.mobDenom, dotProduct]
    norm_num
  have h1 : max (t * t) 1e-15 = t ^ 2 := by
    rw [max_eq_left, sq]
    norm_num at ht ⊢
    nlinarith
  have h2 : 0 < 1 + k * t ^ 2 := by positivity
  simp only [planeArg, h0, nrm_one, dotProduct, Finset.univ_unique, Fin.default_eq_zero,
    Finset.sum_singleton, Bool.false_eq_true, if_false, mul_one, h1]
  rw [abs_of_pos ht0, clampAbs, sabs, abs_of_pos h2, usign_of_nonneg h2.le]
  norm_num

theorem rows_read (η : ℝ) (K : Tensor 2) (hK : K.shape = ![2, 1]) (t : ℝ) :
    ∃ u : Tensor 2, (∀ i, u.get i =
      planeArg (K.get i) (fun _ : Fin 1 => t) (fun _ => 1) (fun _ => 0) false) ∧
      numAt 1 (StereoAxisT.dist2planeK 1 η K (rows t) (rows 1) (rows 0) false false) ![0] =
        (StereoAxisT.arsinK η K u).get ((1 : Fin 2).insertNth (α := fun _ => ℕ) 0 ![0]) := by
  obtain ⟨u, -, h1, -, h3⟩ := dist2planeK_arg (n := 1) 1 η K (by rw [hK]; rfl) (rows t) (rows 1)
    (rows 0) rfl rfl rfl false false
  refine ⟨u, h1, ?_⟩
  rw [C78.numAt_eq_get, h3]
  simp

/-- **C95** fails for the distance to a hyperplane: two calls with the same point and the same
curvature `1` in the first row give different distances there, because the curvature of the second
row is `1` in one call and `-1` in the other. -/
theorem C95_counterexample_clamp (η : ℝ) (h0 : 0 ≤ η) (h1 : η ≤ 1e-9) :
    ∃ K K' x a p : Tensor 2, (K.shape = ![2, 1] ∧ K'.shape = ![2, 1] ∧ x.shape = ![2, 1] ∧
      a.shape = ![2, 1] ∧ p.shape = ![2, 1]) ∧
      numAt 1 K ![0] = 1 ∧ numAt 1 K' ![0] = 1 ∧
      numAt 1 (StereoAxisT.dist2planeK 1 η K' x a p false false) ![0] <
        numAt 1 (StereoAxisT.dist2planeK 1 η K x a p false false) ![0] := by
  have g0 : ∀ a b : ℝ, (rows2 a b).get ((1 : Fin 2).insertNth (α := fun _ => ℕ) 0 ![0]) = a := by
    intro a b; rfl
  have g1 : ∀ a b : ℝ, (rows2 a b).get ![1, 0] = b := by intro a b; rfl
  refine ⟨rows2 1 1, rows2 1 (-1), rows 0.9999, rows 1, rows 0, ⟨rfl, rfl, rfl, rfl, rfl⟩,
    g0 _ _, g0 _ _, ?_⟩
  obtain ⟨u, hu, e1⟩ := rows_read η (rows2 1 1) rfl 0.9999
  obtain ⟨v, hv, e2⟩ := rows_read η (rows2 1 (-1)) rfl 0.9999
  have r0 : ∀ a b : ℝ, InRange (rows2 a b) ((1 : Fin 2).insertNth (α := fun _ => ℕ) 0 ![0]) := by
    intro a b k hk; fin_cases k
    · show 0 < 2; norm_num
    · exact absurd rfl hk
  have r1 : ∀ a b : ℝ, InRange (rows2 a b) ![1, 0] := by
    intro a b k hk; fin_cases k
    · show 1 < 2; norm_num
    · exact absurd rfl hk
  have nz : ¬ Stereo.KZero 1 := by unfold Stereo.KZero; norm_num
  have f1 := arsinK_get_oneSign η (rows2 1 1) u _ (r0 _ _) (Or.inr (Or.inr fun j _ => by
      have : (rows2 1 1).get j = 1 := by
        show (if _ then (1 : ℝ) else 1) = 1
        split_ifs <;> rfl
      rw [this]; exact ⟨nz, one_pos⟩))
  have f2 := arsinK_get_mixed η (rows2 1 (-1)) v ((1 : Fin 2).insertNth (α := fun _ => ℕ) 0 ![0])
      ⟨_, r0 _ _, by rw [g0]; exact nz⟩
      ⟨_, r0 _ _, by rw [g0]; exact Or.inr zero_le_one⟩
      ⟨_, r1 _ _, by rw [g1]; exact Or.inr (by norm_num)⟩
  rw [hv, g0, if_neg nz, if_neg (by norm_num),
    planeArg_one 1 0.9999 (by norm_num) zero_le_one] at f2
  rw [hu, g0, planeArg_one 1 0.9999 (by norm_num) zero_le_one, Stereo.arsinK, if_neg nz,
    if_neg (by norm_num)] at f1
  rw [e1, e2, f1, f2]
  have hs : 1 ≤ Stereo.kSqrt η 1 := by
    rw [Stereo.kSqrt, sabs, abs_one]
    exact Real.one_le_sqrt.2 (by linarith)
  have hs' : Stereo.kSqrt η 1 ≤ 1 + 1e-9 := by
    rw [Stereo.kSqrt, sabs, abs_one]
    refine Real.sqrt_le_iff.2 ⟨by norm_num, ?_⟩
    norm_num at h1 ⊢; linarith
  generalize Stereo.kSqrt η 1 = s at hs hs'
  have hs0 : 0 < s := by linarith
  have hq1 : (1 : ℝ) - 1e-8 ≤ 2 * 0.9999 / (1 + 1 * 0.9999 ^ 2 + 1e-15) := by norm_num
  have hq2 : (2 : ℝ) * 0.9999 / (1 + 1 * 0.9999 ^ 2 + 1e-15) ≤ 1 - 4e-9 := by norm_num
  generalize (2 : ℝ) * 0.9999 / (1 + 1 * 0.9999 ^ 2 + 1e-15) = q at hq1 hq2
  have hqs : 1 - 1e-7 < q * s := by
    norm_num at hq1 ⊢
    nlinarith
  have hqs' : q * s ≤ 1 := by
    norm_num at hq1 hq2 hs' ⊢
    nlinarith
  refine mul_lt_mul_of_pos_left ?_ (inv_pos.2 hs0)
  rw [clamp, max_eq_left (by norm_num at hqs ⊢; linarith), min_eq_right hqs.le]
  have hl : -1 ≤ q * s := by norm_num at hqs; linarith
  exact Real.strictMonoOn_arcsin ⟨by norm_num, by norm_num⟩ ⟨hl, hqs'⟩ hqs

/-- **C95** fails for the distance to a hyperplane also for a curvature close to zero: its distance
depends on whether the other curvatures are close to zero. -/
theorem C95_counterexample_taylor (η : ℝ) :
    ∃ K K' x a p : Tensor 2, (K.shape = ![2, 1] ∧ K'.shape = ![2, 1] ∧ x.shape = ![2, 1] ∧
      a.shape = ![2, 1] ∧ p.shape = ![2, 1]) ∧
      numAt 1 K ![0] = 1e-9 ∧ numAt 1 K' ![0] = 1e-9 ∧
      numAt 1 (StereoAxisT.dist2planeK 1 η K' x a p false false) ![0] <
        numAt 1 (StereoAxisT.dist2planeK 1 η K x a p false false) ![0] := by
  have g0 : ∀ a b : ℝ, (rows2 a b).get ((1 : Fin 2).insertNth (α := fun _ => ℕ) 0 ![0]) = a := by
    intro a b; rfl
  have g1 : ∀ a b : ℝ, (rows2 a b).get ![1, 0] = b := by intro a b; rfl
  refine ⟨rows2 1e-9 1e-9, rows2 1e-9 1, rows 1, rows 1, rows 0, ⟨rfl, rfl, rfl, rfl, rfl⟩,
    g0 _ _, g0 _ _, ?_⟩
  obtain ⟨u, hu, e1⟩ := rows_read η (rows2 1e-9 1e-9) rfl 1
  obtain ⟨v, hv, e2⟩ := rows_read η (rows2 1e-9 1) rfl 1
  have r0 : ∀ a b : ℝ, InRange (rows2 a b) ((1 : Fin 2).insertNth (α := fun _ => ℕ) 0 ![0]) := by
    intro a b k hk; fin_cases k
    · show 0 < 2; norm_num
    · exact absurd rfl hk
  have r1 : ∀ a b : ℝ, InRange (rows2 a b) ![1, 0] := by
    intro a b k hk; fin_cases k
    · show 1 < 2; norm_num
    · exact absurd rfl hk
  have nz : ¬ Stereo.KZero 1 := by unfold Stereo.KZero; norm_num
  have z : Stereo.KZero 1e-9 := by unfold Stereo.KZero; rw [abs_of_pos] <;> norm_num
  have f1 := arsinK_get_oneSign η (rows2 1e-9 1e-9) u _ (r0 _ _) (Or.inl fun j _ => by
      have : (rows2 1e-9 1e-9).get j = 1e-9 := by
        show (if _ then (1e-9 : ℝ) else 1e-9) = 1e-9
        split_ifs <;> rfl
      rw [this]; exact z)
  have f2 := arsinK_get_mixed η (rows2 1e-9 1) v ((1 : Fin 2).insertNth (α := fun _ => ℕ) 0 ![0])
      ⟨_, r1 _ _, by rw [g1]; exact nz⟩
      ⟨_, r0 _ _, by rw [g0]; exact Or.inl z⟩
      ⟨_, r0 _ _, by rw [g0]; exact Or.inl z⟩
  rw [hv, g0, if_pos z, planeArg_one 1e-9 1 (by norm_num) (by norm_num)] at f2
  rw [hu, g0, planeArg_one 1e-9 1 (by norm_num) (by norm_num), Stereo.arsinK, if_pos z] at f1
  rw [e1, e2, f1, f2]
  have hq : (0 : ℝ) < 2 * 1 / (1 + 1e-9 * 1 ^ 2 + 1e-15) := by norm_num
  generalize (2 : ℝ) * 1 / (1 + 1e-9 * 1 ^ 2 + 1e-15) = q at hq
  have ha : Stereo.absZeroGrad 1e-9 = 1e-9 := by
    rw [Stereo.absZeroGrad, usign_of_nonneg (by norm_num), mul_one]
  simp only [StereoAxisT.arsinKTaylor1, Stereo.arsinKTaylor, ha]
  have p5 := pow_pos hq 5
  have p7 := pow_pos hq 7
  have p9 := pow_pos hq 9
  have p11 := pow_pos hq 11
  generalize q ^ 5 = a5 at p5 ⊢
  generalize q ^ 7 = a7 at p7 ⊢
  generalize q ^ 9 = a9 at p9 ⊢
  generalize q ^ 11 = a11 at p11 ⊢
  have : 0 < 3 / 40 * (1e-9 : ℝ) ^ 2 * a5 + 5 / 112 * 1e-9 ^ 3 * a7 + 35 / 1152 * 1e-9 ^ 4 * a9
      + 63 / 2816 * 1e-9 ^ 5 * a11 := by positivity
  linarith

/-- **C95** fails with `keepdim=False` (the default): for `B` points in rows and curvatures of
shape `(B, 1)`, the conformal factor, the distance to the origin and the distance are not `B`
numbers but `B × B`, with the curvature of row `i` and the points of row `j` at `(i, j)`. -/
theorem C95_counterexample_keepdim (B : ℕ) (K x y : Tensor 2) (hK : K.shape = ![B, 1])
    (hx : x.shape = ![B, n]) (hy : y.shape = ![B, n]) :
    ((StereoAxisT.lambdaX 1 K x).shape = ![B, B] ∧
      (StereoAxisT.dist0 1 η K x).shape = ![B, B] ∧
      (StereoAxisT.dist 1 η K x y).shape = ![B, B]) ∧
    ∀ i j, i < B → j < B →
      (StereoAxisT.lambdaX 1 K x).get ![i, j] =
        Stereo.lambdaX (numAt 1 K ![i]) (elemAt 1 n x ![j]) ∧
      (StereoAxisT.dist0 1 η K x).get ![i, j] =
        Stereo.dist0 η (numAt 1 K ![i]) (elemAt 1 n x ![j]) ∧
      (StereoAxisT.dist 1 η K x y).get ![i, j] =
        2.0 * Stereo.artanK η (numAt 1 K ![i])
          (nrm (Stereo.mobiusAdd (numAt 1 K ![j]) (-elemAt 1 n x ![j]) (elemAt 1 n y ![j]))) := by
  have s1 : ∀ t : Tensor 2, t.shape = ![B, n] → ∀ f : ℝ → ℝ,
      ((((t.map f).sum 1).unsqueeze 0).shape = ![1, B]) ∧
      (((t.norm 1).unsqueeze 0).shape = ![1, B]) := by
    intro t ht f
    refine ⟨?_, ?_⟩ <;>
    · funext k
      fin_cases k
      · rfl
      · show t.shape 0 = B
        rw [ht]; rfl
  have hK1 : K.shape 1 = 1 := by rw [hK]; rfl
  have hx1 : x.shape 1 = n := by rw [hx]; rfl
  have hy1 : y.shape 1 = n := by rw [hy]; rfl
  have hadd : (StereoAxisT.mobiusAdd 1 K (-x) y).shape = ![B, n] := by
    funext k
    fin_cases k
    · simp only [StereoAxisT.mobiusAdd, shape_div, shape_add, shape_sub, shape_mul, shape_map,
        shape_sumK, shape_neg, hK, hx, hy]
      simp [bsize_self]
    · exact shape_mobiusAdd 1 K hK1 (-x) y hx1 hy1
  have hb : ∀ k : Fin 2, bsize (![B, 1] k) (![1, B] k) = ![B, B] k := by
    intro k; fin_cases k
    · exact bsize_one_right B
    · exact bsize_one_left B
  have pK : ∀ i j : ℕ, K.get ![i, j] = numAt 1 K ![i] := by
    intro i j
    rw [C78.numAt_eq_get]
    have : (![i, j] : Fin 2 → ℕ) =
        Function.update ((1 : Fin 2).insertNth (α := fun _ => ℕ) 0 ![i]) 1 j := by
      funext k; fin_cases k <;> rfl
    rw [this, get_update_one 1 K hK1]
  have hi : ∀ i j, i < B → InRange K ![i, j] := by
    intro i j h k hk
    fin_cases k
    · rw [hK]; exact h
    · exact absurd hK1 hk
  refine ⟨⟨?_, ?_, ?_⟩, ?_⟩
  · funext k
    rw [StereoAxisT.lambdaX, shape_map, shape_mul, (s1 x hx _).1, hK, hb]
  · funext k
    rw [StereoAxisT.dist0, shape_map, shape_artanK, (s1 x hx id).2, hK, hb]
  · funext k
    rw [StereoAxisT.dist, shape_map, shape_artanK, (s1 _ hadd id).2, hK, hb]
  · intro i j h1 h2
    have e : (fun k : Fin 1 => (![i, j] : Fin 2 → ℕ) (Fin.succAbove 0 k)) = ![j] := by
      funext k; fin_cases k; rfl
    refine ⟨?_, ?_, ?_⟩
    · rw [StereoAxisT.lambdaX, get_map, get_mul, pK, get_unsqueeze, e, sum_get, sq_get 1 x hx1,
        elemAt_eq_fib]
      rfl
    · rw [StereoAxisT.dist0, get_map, artanK_get η K _ _ (hi i j h1), pK, get_unsqueeze, e,
        nrm_get' 1 x hx1, elemAt_eq_fib]
      rfl
    · rw [StereoAxisT.dist, get_map, artanK_get η K _ _ (hi i j h1), pK, get_unsqueeze, e,
        nrm_get' 1 _ (show _ = n by rw [hadd]; rfl), mobiusAdd_fib 1 K hK1 (-x) y hx1 hy1,
        elemAt_eq_fib, elemAt_eq_fib, C78.numAt_eq_get 1 K ![j]]
      rfl

/-- **C95** (the maps between the ball and the hyperboloid or sphere, and Möbius matrix-vector
multiplication along the last dimension).  These change the number of entries of a point. -/
theorem C95_projections :
    CVecTo d (n + 1) n (StereoAxisT.sproj d η) (fun k => Stereo.sproj η k) ∧
    CVecTo d n (n + 1) (StereoAxisT.invSproj d η) (fun k => Stereo.invSproj η k) ∧
    ∀ {p : ℕ} (M : Matrix (Fin p) (Fin n) ℝ),
      CVecTo (Fin.last m) n p (fun K x => StereoAxisT.mobiusMatvec (Fin.last m) η K M x)
        (fun k x => Stereo.mobiusMatvec η k M x) := by
  refine ⟨fun K x hK hx => ⟨shape_sproj d η K hK x hx, fun b _ => ?_⟩,
    fun K x hK hx => ⟨shape_invSproj d η K hK x hx, fun b _ => ?_⟩,
    fun M K x hK hx => ⟨shape_mobiusMatvec η K hK M x, fun b hb => ?_⟩⟩
  · simp only [elemAt_eq_fib, C78.numAt_eq_get, sproj_fib d η K hK x hx]
  · simp only [elemAt_eq_fib, C78.numAt_eq_get, invSproj_fib d η K hK x hx]
  · simp only [elemAt_eq_fib, C78.numAt_eq_get,
      mobiusMatvec_last_fib η K hK M x hx _ (inRange_of_posOf _ hK hb)]

/-- The hypotheses are met by a batch of two points of the plane with curvatures `-1` and `1`. -/
example : CVec2 (m := 1) 1 2 (StereoAxisT.expmap 1 1e-15) (Stereo.expmap 1e-15) ∧
    (⟨![2, 1], fun i => if i 0 = 0 then -1 else 1⟩ : Tensor 2).shape 1 = 1 ∧
    PosOf (1 : Fin 2) ⟨![2, 1], fun i => if i 0 = 0 then -1 else 1⟩ ![1] :=
  ⟨(C95_geodesic 1 1e-15).1, rfl, fun k => by fin_cases k; exact Or.inr (by decide)⟩

end Geoopt.C95
