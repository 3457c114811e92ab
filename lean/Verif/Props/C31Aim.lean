import Verif.Props.C28
import Verif.Lemmas.Flag

/-!
C30, C31: the affine invariant distance satisfies the triangle inequality, so it is a metric.

Move the first point to the identity and the last to a diagonal matrix `c` with sorted entries.  The
weighted sum of log pivots with weights `log c` grows by exactly `d(1, c)²` from `1` to `c`, and by at
most `d(1, c) d(p, q)` from any `p` to any `q`.
-/

namespace Geoopt.SPD
open Matrix Geoopt.Linalg
variable {n : ℕ} (E : Eigh n)

theorem one_spd : OnSPD (1 : Mat n) := by
  have := onSPD_fn (x := (1 : Mat n)) (e := fun _ => 1) (v := 1) ⟨by simp, by simp⟩ (fun _ => 1)
    (fun _ => one_pos)
  simpa [fn] using this

/-- The distance from the identity is the norm of the logarithm. -/
theorem dist_one {m : Mat n} (hm : OnSPD m) : dist E .AIM 1 m = frobNorm (symLogm E m) := by
  have r := roots (E := E) (one_spd (n := n))
  obtain ⟨e, v, hd⟩ := exists_dec hm.tr
  obtain ⟨e', v', hd'⟩ := exists_dec (r.mid hm).tr
  rw [aim_eq E one_spd, frobNorm, frobNorm, frob_symLogm E hd, frob_symLogm E hd']
  congr 1
  have hrr : (symInvSqrtm2 E (1 : Mat n)).1 * (symInvSqrtm2 E (1 : Mat n)).1 = 1 := by
    have := r.rxr
    rwa [mul_one] at this
  refine (trace_fn_similar hd hd' r.unit_r ?_ fun t => Real.log t ^ 2).symm
  rw [Matrix.mul_assoc, hrr, mul_one]

/-- The weighted sum of log pivots is Lipschitz for the distance. -/
theorem flag_lipschitz {w : ℕ → ℝ} (hw : ∀ k, k + 1 < n → w k ≤ w (k + 1)) {p q : Mat n}
    (hp : OnSPD p) (hq : OnSPD q) :
    flag w q - flag w p ≤ Real.sqrt (∑ k : Fin n, w k ^ 2) * dist E .AIM p q := by
  obtain ⟨g, hg, hgd, hgp⟩ := exists_lower hp
  have hu : IsUnit g.det := by
    have := congrArg Matrix.det hgp
    rw [Matrix.det_mul, Matrix.det_mul, Matrix.det_one] at this
    refine IsUnit.of_mul_eq_one (p.det * gᵀ.det) ?_
    rw [← this]; ring
  have hM := hq.congr hu
  have hd := eigh_dec E hM.tr
  rw [← flag_lower w hg hgd hp hq, ← C30_congruence_invariant E hp hq hu, hgp, flag_one, sub_zero,
    dist_one E hM]
  exact (flag_le hw hM hd).trans (diag_le w _)

/-- A decomposition can be reordered. -/
theorem Dec.perm {x : Mat n} {e v} (h : Dec x e v) (σ : Equiv.Perm (Fin n)) :
    Dec x (e ∘ σ) (v.submatrix id σ) := by
  constructor
  · have := congrArg (fun m => m.submatrix σ σ) h.orth
    simp only [Matrix.submatrix_one_equiv] at this
    rw [← this, transpose_submatrix]
    ext i j
    simp [Matrix.mul_apply]
  · rw [h.eq]
    ext i j
    rw [Matrix.mul_apply, Matrix.mul_apply]
    simp only [mul_diagonal, transpose_apply, submatrix_apply, id, Function.comp]
    exact (Equiv.sum_comp σ fun k => v i k * e k * v j k).symm

/-- The path from the identity to a sorted diagonal matrix through any `b`. -/
theorem triangle_diagonal {c : Fin n → ℝ} (hc : ∀ i, 0 < c i) (hs : Monotone c) {b : Mat n}
    (hb : OnSPD b) (hC : OnSPD (diagonal c)) :
    dist E .AIM 1 (diagonal c) ≤ dist E .AIM 1 b + dist E .AIM b (diagonal c) := by
  set w : ℕ → ℝ := fun k => if h : k < n then Real.log (c ⟨k, h⟩) else 0 with hw
  have hwk : ∀ k : Fin n, w k = Real.log (c k) := fun k => by rw [hw]; simp
  have hmono : ∀ k, k + 1 < n → w k ≤ w (k + 1) := by
    intro k hk
    have h1 : k < n := by omega
    have a1 : w k = Real.log (c ⟨k, h1⟩) := hwk ⟨k, h1⟩
    have a2 : w (k + 1) = Real.log (c ⟨k + 1, hk⟩) := hwk ⟨k + 1, hk⟩
    rw [a1, a2]
    exact Real.log_le_log (hc _) (hs (Fin.mk_le_mk.2 (by omega)))
  have hN : dist E .AIM 1 (diagonal c) = Real.sqrt (∑ k : Fin n, w k ^ 2) := by
    rw [dist_one E hC, frobNorm, frob_symLogm E (e := c) (v := 1) ⟨by simp, by simp⟩]
    simp only [hwk]
  have h1 := flag_lipschitz E hmono one_spd hb
  have h2 := flag_lipschitz E hmono hb hC
  rw [flag_one, ← hN] at h1
  rw [flag_diagonal w hc, ← hN] at h2
  have h3 : ∑ k : Fin n, w k * Real.log (c k) = dist E .AIM 1 (diagonal c) ^ 2 := by
    rw [hN, Real.sq_sqrt (Finset.sum_nonneg fun _ _ => sq_nonneg _)]
    exact Finset.sum_congr rfl fun k _ => by rw [← hwk]; ring
  rw [h3] at h2
  rcases eq_or_lt_of_le (C30_nonneg E 1 (diagonal c)) with h0 | h0
  · rw [← h0]
    exact add_nonneg (C30_nonneg E _ _) (C30_nonneg E _ _)
  · nlinarith

theorem C30_triangle {x y z : Mat n} (hx : OnSPD x) (hy : OnSPD y) (hz : OnSPD z) :
    dist E .AIM x z ≤ dist E .AIM x y + dist E .AIM y z := by
  have r := roots (E := E) hx
  have hm := r.mid hz
  obtain ⟨e, v, hd⟩ := exists_dec hm.tr
  have hd' := hd.perm (Tuple.sort e)
  generalize v.submatrix id (Tuple.sort e) = v' at hd'
  have hp := hm.pos hd'
  set R := (symInvSqrtm2 E x).1
  set a : Mat n := v'ᵀ * R with ha
  have hu : IsUnit a.det := by
    rw [ha, Matrix.det_mul]
    refine IsUnit.mul ?_ r.unit_r
    refine IsUnit.of_mul_eq_one v'.det ?_
    rw [← Matrix.det_mul, hd'.orth, Matrix.det_one]
  have e1 : a * x * aᵀ = 1 := by
    rw [ha, transpose_mul, transpose_transpose, r.rsymm]
    calc v'ᵀ * R * x * (R * v') = v'ᵀ * (R * x * R) * v' := by simp only [Matrix.mul_assoc]
      _ = 1 := by rw [r.rxr, mul_one, hd'.orth]
  have e2 : a * z * aᵀ = diagonal (e ∘ Tuple.sort e) := by
    rw [ha, transpose_mul, transpose_transpose, r.rsymm]
    calc v'ᵀ * R * z * (R * v') = v'ᵀ * (R * z * R) * v' := by simp only [Matrix.mul_assoc]
      _ = (v'ᵀ * v') * diagonal (e ∘ Tuple.sort e) * (v'ᵀ * v') := by
        rw [hd'.eq]; simp only [Matrix.mul_assoc]
      _ = _ := by rw [hd'.orth, one_mul, mul_one]
  have hC : OnSPD (diagonal (e ∘ Tuple.sort e)) := e2 ▸ hz.congr hu
  have := triangle_diagonal E hp (Tuple.monotone_sort e) (hy.congr hu) hC
  rw [← e1, ← e2, C30_congruence_invariant E hx hz hu, C30_congruence_invariant E hx hy hu,
    C30_congruence_invariant E hy hz hu] at this
  exact this

/-- The affine invariant distance is a metric on the SPD matrices. -/
theorem C31_affine_invariant : IsMetric (dist E .AIM) where
  nonneg x y _ _ := C30_nonneg E x y
  symm _ _ hx hy := C30_symm E hx hy
  eq_iff _ _ hx hy := C30_zero_iff E hx hy
  triangle _ _ _ hx hy hz := C30_triangle E hx hy hz

example : dist (someEigh 2) .AIM sampleA 1
    ≤ dist (someEigh 2) .AIM sampleA sampleB + dist (someEigh 2) .AIM sampleB 1 :=
  C30_triangle _ sampleA_spd sampleB_spd one_spd

end Geoopt.SPD
