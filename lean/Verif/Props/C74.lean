import Verif.Props.C01
import Verif.Props.C05
import Verif.Props.C09
import Verif.Props.C73

/-!
# C74, C19 and C27 on the stereographic and flat manifolds

The other manifolds are in the files of their own properties.
-/

namespace Geoopt.Stereo
open Geoopt
variable {n : ℕ}

/-- **C74.** For every draw, mean and spread, `random_normal` (which is also `random`) and
`wrapped_normal` return points that the Poincaré ball accepts, and `origin` is one. -/
theorem C74_stereographic {η k : ℝ} (hη : 0 ≤ η) (hk : k < 0) (dt : DType) (mean std : ℝ)
    (centre noise : Vec n) :
    Valid η dt k (M.randomNormal η dt k mean std noise) ∧
    Valid η dt k (M.wrappedNormal η dt k centre std noise) ∧
    Valid η dt k (M.origin : Vec n) := by
  have h1 := C01_ball_closed hη hk dt (0 : Vec n) 0
    (fun i => noise i * std / (n : ℝ) ^ (0.5 : ℝ) + mean) 0 0 0 0 0 (0 : Matrix (Fin 0) (Fin n) ℝ)
    (fun _ => 0) [] (fun _ => 0) (fun _ => 0) true true
  have h2 := C01_ball_closed hη hk dt centre 0
    ((lambdaX k centre)⁻¹ • (std • noise)) 0 0 0 0 0 (0 : Matrix (Fin 0) (Fin n) ℝ)
    (fun _ => 0) [] (fun _ => 0) (fun _ => 0) true true
  refine ⟨h1.2.2.2.1, h2.2.2.1, ?_⟩
  unfold Valid M.origin
  rw [nrm_zero]
  have : 0 < Real.sqrt (|k| + η) := kSqrt_pos hη hk.ne
  cases dt <;> exact div_nonneg (by norm_num) this.le

/-- **C74.** The tangent vector that `wrapped_normal` follows has Riemannian length
`|std| * |noise|` at the mean, whatever the mean and the curvature. -/
theorem C74_stereographic_tangent_length (k std : ℝ) (centre noise : Vec n) :
    norm k centre ((lambdaX k centre)⁻¹ • (std • noise)) = |std| * nrm noise := by
  have hl := lambdaX_pos' k centre
  rw [norm, nrm_smul, nrm_smul, abs_of_pos (inv_pos.2 hl)]
  field_simp

/-- **C74.** Where nothing is clamped, the sample of `wrapped_normal` is at distance
`|std| * |noise|` from the mean. -/
theorem C74_stereographic_spread {η k : ℝ} (hη : 0 ≤ η) (hη1 : η ≤ 1) (hk : k < -1e-8)
    (hbig : |k| ≤ 1e29) {dt : DType} (std : ℝ)
    {centre noise : Vec n} (hc : Valid η dt k centre)
    (hu : std • noise = 0 ∨ 1e-15 * lambdaX k centre ≤ |std| * nrm noise)
    (hlen : |std| * nrm noise * Real.sqrt (|k| + η) ≤ 16)
    (hin : Valid η dt k (expmap η k centre ((lambdaX k centre)⁻¹ • (std • noise)))) :
    dist η k centre (M.wrappedNormal η dt k centre std noise) = |std| * nrm noise := by
  have hk0 : k < 0 := by have := e8; linarith
  have hl := lambdaX_pos' k centre
  have hn : lambdaX k centre * nrm ((lambdaX k centre)⁻¹ • (std • noise)) = |std| * nrm noise :=
    C74_stereographic_tangent_length k std centre noise
  rw [M.wrappedNormal, M.expmap, withProject, if_pos rfl, show project η dt k _ = _ from
      (C02_projx_fixes_exactly_valid hη hη1 hk0 hbig dt _).2 hin,
    C07_dist_exp_eq_norm_ball hη hk hc, C74_stereographic_tangent_length]
  · rcases hu with h0 | h1
    · left; rw [h0, smul_zero]
    · right
      rw [← hn] at h1
      nlinarith
  · rw [hn]; exact hlen

/-- **C74.** Without spread the sample is the mean. -/
theorem C74_stereographic_no_spread {η k : ℝ} (hη : 0 ≤ η) (hη1 : η ≤ 1) (hk : k < 0)
    (hbig : |k| ≤ 1e29) {dt : DType}
    {centre noise : Vec n} (hc : Valid η dt k centre) :
    M.wrappedNormal η dt k centre 0 noise = centre := by
  rw [M.wrappedNormal, M.expmap, withProject, if_pos rfl, zero_smul, smul_zero, expmap_zero,
    show project η dt k _ = _ from
      (C02_projx_fixes_exactly_valid hη hη1 hk hbig dt _).2 hc]

/-- **C27.** `proju` of the stereographic manifolds leaves every vector alone, as it should: all
vectors are tangent. -/
theorem C27_stereographic (x u : Vec n) : M.proju x (M.proju x u) = M.proju x u ∧
    M.proju x u = u := ⟨rfl, rfl⟩

/-- The hypotheses are met: in the unit ball, with the origin as mean. -/
example : Valid codeEta .f64 (-1) (0 : Vec 2) ∧
    |(1:ℝ)| * nrm (![1/2, 0] : Vec 2) * Real.sqrt (|(-1:ℝ)| + codeEta) ≤ 16 := by
  constructor
  · unfold Valid
    rw [nrm_zero]
    exact div_nonneg (by norm_num) (Real.sqrt_nonneg _)
  · have h1 : nrm (![1/2, 0] : Vec 2) = 1 / 2 := by
      have : (![1/2, 0] : Vec 2) ⬝ᵥ ![1/2, 0] = (1 / 2) ^ 2 := by
        simp [dotProduct, Fin.sum_univ_two]; norm_num
      rw [nrm, this, Real.sqrt_sq (by norm_num)]
    have h2 : Real.sqrt (|(-1:ℝ)| + codeEta) ≤ 2 := by
      rw [Real.sqrt_le_left (by norm_num)]
      norm_num [codeEta]
    rw [h1]; norm_num at *; linarith

end Geoopt.Stereo

namespace Geoopt.Eucl
open Geoopt Spec.Shapes

/-- **C19.** On flat space (any `ndim`, any shapes that broadcast) the inner product of
`egrad2rgrad(x, g)` with `v` is the sum of the products of the entries of `g` and `v`. -/
theorem C19_euclidean {nd : ℕ} (kd : Bool) {x g v : Ten} {s r t : List ℕ}
    (hs : Broadcast [x.shape, g.shape] s) (hr : Broadcast [s, v.shape] r) (hnd : nd ≤ r.length)
    (ht : Broadcast [batchShape nd kd x.shape, batchShape nd kd r] t)
    (hpx : ∀ d ∈ x.shape, 0 < d) (hpg : ∀ d ∈ g.shape, 0 < d) (hpr : ∀ d ∈ r, 0 < d) :
    ∃ rg, egrad2rgrad x g = .ok rg ∧
      Returns (inner nd x rg (some v) kd) t (blockSum nd kd r fun i => g.get i * v.get i) := by
  obtain ⟨rg, h1, h2, h3⟩ := (C73_identity (y := x) (v := g) hs
    (s' := s) (by
      obtain ⟨a, b, c, d⟩ := hs
      exact ⟨by simpa using a, by simpa using b, by simpa using c, fun i h h' => by
        simpa using d i h h'⟩) hpx hpx hpg).2.1
  refine ⟨rg, h1, ?_⟩
  have := C73_inner kd x rg (some v) (r := r) (s := t) (by rw [h2]; exact hr) hnd ht hpx hpr
  refine this.congr fun i => ?_
  unfold blockSum
  exact Finset.sum_congr rfl fun J _ => by
    change rg.get _ * v.get _ = g.get _ * v.get _; rw [h3]

/-- **C27.** On flat space projecting twice is projecting once, and the entries do not change. -/
theorem C27_euclidean {x u : Ten} {s : List ℕ} (hs : Broadcast [x.shape, u.shape] s)
    (hpx : ∀ d ∈ x.shape, 0 < d) (hpu : ∀ d ∈ u.shape, 0 < d) :
    ∃ p, proju x u = .ok p ∧ (∀ i, p.get i = u.get i) ∧ Returns (proju x p) s u.get := by
  have hb3 : Broadcast [x.shape, x.shape, u.shape] s := by
    obtain ⟨a, b, c, d⟩ := hs
    exact ⟨by simpa using a, by simpa using b, by simpa using c, fun i h h' => by
      simpa using d i h h'⟩
  have hpos : ∀ d ∈ s, 0 < d := pos_of_broadcast hs (by
    intro q hq
    simp only [List.mem_cons, List.not_mem_nil, or_false] at hq
    rcases hq with rfl | rfl <;> assumption)
  obtain ⟨p, h1, h2, h3⟩ := (C73_identity (y := x) (v := u) hs hb3 hpx hpx hpu).1
  have hb : Broadcast [x.shape, p.shape] s := by
    rw [h2]; exact broadcast_self_left (broadcast_comm hs)
  have hb' : Broadcast [x.shape, x.shape, p.shape] s := by
    obtain ⟨a, b, c, d⟩ := hb
    exact ⟨by simpa using a, by simpa using b, by simpa using c, fun i h h' => by
      simpa using d i h h'⟩
  exact ⟨p, h1, h3, (C73_identity (y := x) (v := p) hb hb' hpx hpx (by rw [h2]; exact hpos)).1.congr
    h3⟩

end Geoopt.Eucl
