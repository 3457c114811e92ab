import Verif.Spec.Batch
import Verif.Lemmas.AxisFibStereo
import Mathlib.Tactic.NormNum
import Mathlib.Tactic.FinCases

/-!
# C18: `inner` and `norm` of the stereographic model on a batch

With `keepdim=True` the claim holds.  With `keepdim=False` (the default of
`stereographic/math.py` and of `Stereographic.inner`) it does not: the conformal factor keeps
the axis, the sum of products does not, and the two are broadcast against each other.
-/

namespace Geoopt.C18
open Geoopt Geoopt.Axis Geoopt.Axis.Tensor Geoopt.SpecBatch Geoopt.AxisFib
variable {m n : ℕ} (d : Fin (m + 1)) (k : ℝ)

theorem elemAt_eq_fib (t : Tensor (m + 1)) (b : Fin m → ℕ) :
    elemAt d n t b = t.fib d n (d.insertNth (α := fun _ => ℕ) 0 b) := by
  funext j; rw [elemAt, fib_apply, insertNth_update]

theorem bcast_apply (s t : Fin m → ℕ) (j : Fin m) : bcast s t j = bsize (s j) (t j) := rfl

theorem shape_squeeze (t : Tensor (m + 1)) (j : Fin m) :
    (t.squeeze d).shape j = t.shape (d.succAbove j) := rfl

theorem shape_sum (t : Tensor (m + 1)) (j : Fin m) :
    (t.sum d).shape j = t.shape (d.succAbove j) := by
  rw [Tensor.sum, shape_squeeze, shape_sumK, if_neg (Fin.succAbove_ne d j)]

theorem shape_norm (t : Tensor (m + 1)) (j : Fin m) :
    (t.norm d).shape j = t.shape (d.succAbove j) := by
  rw [Tensor.norm, shape_squeeze, shape_normK, if_neg (Fin.succAbove_ne d j)]

/-- **C18** (part): with `keepdim=True`, `inner` has the broadcast batch sizes and, at every
batch position, the inner product of the three vectors there.  Missing: `keepdim=False`, which
is refuted below. -/
theorem C18_inner_keepdim_partial :
    NumK3 d n (StereoAxis.innerK d k) (Stereo.inner k) := by
  intro x u v hx hu hv _ _ _
  refine ⟨?_, ?_, fun b => ?_⟩
  · simp [StereoAxis.innerK, shape_mul, shape_map, shape_lambdaXK, shape_sumK, bsize]
  · funext j
    simp only [batch, bcast_apply, StereoAxis.innerK, shape_mul, shape_map, shape_lambdaXK,
      shape_sumK, if_neg (Fin.succAbove_ne d j)]
    unfold bsize; split_ifs <;> first | rfl | omega
  · rw [numAt, innerK_get d k x u v hx hu hv]
    simp only [elemAt_eq_fib]

/-- **C18** (`norm`): with both values of `keepdim`, `norm` has the broadcast batch sizes and
the norm of each vector. -/
theorem C18_norm_batch :
    Num2 d n (StereoAxis.normK d k) (StereoAxis.norm d k) (Stereo.norm k) := by
  intro x u hx hu _
  refine ⟨?_, ?_, ?_, fun b => ⟨?_, ?_⟩⟩
  · simp [StereoAxis.normK, shape_mul, shape_lambdaXK, shape_normK, bsize]
  · funext j
    simp only [batch, bcast_apply, StereoAxis.normK, shape_mul, shape_lambdaXK,
      shape_normK, if_neg (Fin.succAbove_ne d j)]
  · funext j
    simp only [batch, bcast_apply, StereoAxis.norm, shape_mul, StereoAxis.lambdaX, shape_map,
      shape_sum, shape_norm]
  · rw [numAt, normK_get d k x u hx hu]
    simp only [elemAt_eq_fib]
  · rw [norm_get d k x u hx hu]
    simp only [elemAt_eq_fib]

/-- **C18** (`norm² = inner`): on single vectors, and at every position of a batch with
`keepdim=True`; the square of `norm` with `keepdim=False` is the same number. -/
theorem C18_norm_sq_inner (x u : Tensor (m + 1)) (hx : x.shape d = n) (hu : u.shape d = n)
    (b : Fin m → ℕ) :
    numAt d (StereoAxis.normK d k x u) b ^ 2 = numAt d (StereoAxis.innerK d k x u u) b ∧
    (StereoAxis.norm d k x u).get b ^ 2 = numAt d (StereoAxis.innerK d k x u u) b := by
  have key : ∀ X U : Vec n, Stereo.norm k X U ^ 2 = Stereo.inner k X U U := by
    intro X U
    rw [Stereo.norm, Stereo.inner, mul_pow, nrm, Real.sq_sqrt]
    exact Finset.sum_nonneg fun i _ => mul_self_nonneg _
  constructor
  · rw [numAt, numAt, normK_get d k x u hx hu, innerK_get d k x u u hx hu hu, key]
  · rw [numAt, norm_get d k x u hx hu, innerK_get d k x u u hx hu hu, key]

/-- With `keepdim=False` the sizes are wrong: for every single vector (no batch axis) the
result is not a number but a tensor with one axis, of size one; for a batch of `p` vectors
(`dim=-1`) it has `p × p` entries. -/
theorem C18_counterexample_shape :
    (∀ x u v : Tensor 1, (StereoAxis.inner (m := 0) 0 k x u v).shape = fun _ => 1) ∧
    (∀ (p : ℕ) (x u v : Tensor 2), x.shape = ![p, n] → u.shape = ![p, n] → v.shape = ![p, n] →
      (StereoAxis.inner (m := 1) 1 k x u v).shape = ![p, p]) := by
  constructor
  · intro x u v
    funext j
    fin_cases j
    simp [StereoAxis.inner, shape_mul, shape_map, shape_lambdaXK, bsize, Tensor.unsqueeze]
  · intro p x u v hx hu hv
    funext j
    fin_cases j
    · simp [StereoAxis.inner, shape_mul, shape_map, shape_lambdaXK, bsize, Tensor.unsqueeze, hx]
      exact fun h => h.symm
    · have h1 : ((u * v).sum (1 : Fin 2)).shape 0 = p := by
        rw [shape_sum]
        simp [shape_mul, hu, hv, bsize]
      have h2 : (((u * v).sum (1 : Fin 2)).unsqueeze 0).shape 1 = p := by
        rw [← h1]; rfl
      simp [StereoAxis.inner, shape_mul, shape_map, shape_lambdaXK, bsize, h2]

/-- With `keepdim=False` and a batch of `p` vectors, entry `(i, j)` of the result multiplies
the conformal factor of the `i`-th point with the product of the `j`-th pair of vectors, so
that the entries off the diagonal are the inner product of no batch element. -/
theorem C18_counterexample_entries (p : ℕ) (x u v : Tensor 2)
    (hx : x.shape = ![p, n]) (hu : u.shape = ![p, n]) (hv : v.shape = ![p, n]) (i j : ℕ) :
    (StereoAxis.inner (m := 1) 1 k x u v).get ![i, j] =
      Stereo.lambdaX k (elemAt 1 n x ![i]) ^ 2 *
        (elemAt 1 n u ![j] ⬝ᵥ elemAt 1 n v ![j]) := by
  have hx1 : x.shape 1 = n := by rw [hx]; rfl
  have hu1 : u.shape 1 = n := by rw [hu]; rfl
  have hv1 : v.shape 1 = n := by rw [hv]; rfl
  rw [StereoAxis.inner, get_mul, get_map, lambdaXK_get 1 k x hx1]
  congr 1
  · congr 2
    funext l
    rw [elemAt, fib_apply]
    congr 1
    funext q; fin_cases q <;> simp [Fin.insertNth, Fin.succAboveCases]
  · have h2 : (((u * v).sum (1 : Fin 2)).unsqueeze 0).get ![i, j] =
        ((u * v).sum (1 : Fin 2)).get ![j] := by
      unfold Tensor.get
      show ((u * v).sum (1 : Fin 2)).val _ = _
      congr 1
    rw [h2, sum_get, dot_get 1 u v hu1 hv1]
    simp only [elemAt_eq_fib]

/-! ## The hypotheses are met -/

/-- A batch of two points of the plane, curvature `-1`. -/
example : ∃ x : Tensor 2, x.shape 1 = 2 ∧ BatchOk (1 : Fin 2) x x ∧
    elemAt 1 2 x ![1] = ![3 / 10, 0] :=
  ⟨⟨![2, 2], fun i => if i 0 = 1 ∧ i 1 = 0 then 3 / 10 else 0⟩, rfl,
    fun _ => Or.inr (Or.inr rfl), by
      funext j; fin_cases j <;> simp [elemAt, Tensor.get, bidx]
      exact fun h => absurd rfl h⟩

/-- Off the diagonal the entry differs from both diagonal ones: points `(0,0)`, `(1/2,0)`,
vectors `(1,0)`, `(2,0)`, curvature `-1`. -/
example : Stereo.lambdaX (-1) (![0, 0] : Vec 2) ^ 2 * (![2, 0] ⬝ᵥ ![2, 0] : ℝ) ≠
    Stereo.inner (-1) (![0, 0] : Vec 2) ![1, 0] ![1, 0] := by
  have h : Stereo.lambdaX (-1) (![0, 0] : Vec 2) = 2 := by
    simp [Stereo.lambdaX]
    try norm_num
  rw [Stereo.inner, h]
  norm_num

end Geoopt.C18
