import Verif.Model.Layer
import Verif.Props.C78
import Verif.Props.C17
import Verif.Props.C74

/-!
# C72: the hyperplane layer
-/

namespace Geoopt.Layer
open Geoopt Axis Axis.Tensor SpecBatch
variable {m n : ℕ}

/-- The input vector at a position of the output: the channels there (the output's index along the
channel axis, the plane, is not used). -/
def inputAt (c : Fin (m + 1)) (n : ℕ) (input : Tensor (m + 1)) (i : Fin (m + 1) → ℕ) : Vec n :=
  fun j => input.get (Function.update i c (j : ℕ))

/-- The point that defines plane `q`. -/
def planeAt (n : ℕ) (points : Tensor 2) (q : ℕ) : Vec n := fun j => points.get ![q, (j : ℕ)]

theorem succ_succAbove_self (c : Fin (m + 1)) : c.succ.succAbove c = c.castSucc := by
  rw [Fin.succAbove_of_castSucc_lt _ _ (by simp [Fin.lt_def])]

theorem castSucc_succAbove_self (c : Fin (m + 1)) : c.castSucc.succAbove c = c.succ := by
  rw [Fin.succAbove_of_le_castSucc _ _ le_rfl]

theorem succAbove_ne (c k : Fin (m + 1)) (h : k ≠ c) :
    c.succ.succAbove k = c.castSucc.succAbove k := by
  rcases lt_or_gt_of_ne h with h | h
  · have h' : k.val < c.val := h
    rw [Fin.succAbove_of_castSucc_lt _ _ (show k.val < c.val + 1 by omega),
      Fin.succAbove_of_castSucc_lt _ _ (show k.val < c.val from h')]
  · have h' : c.val < k.val := h
    rw [Fin.succAbove_of_le_castSucc _ _ (show c.val + 1 ≤ k.val by omega),
      Fin.succAbove_of_le_castSucc _ _ (show c.val ≤ k.val by omega)]

theorem insertNth_at (c k : Fin (m + 1)) (h : k ≠ c) (j : ℕ) (b : Fin (m + 1) → ℕ) :
    (c.castSucc.insertNth (α := fun _ => ℕ) j b) (c.succ.succAbove k) = b k := by
  rw [succAbove_ne c k h, Fin.insertNth_apply_succAbove]

/-- The input, unsqueezed, has at `b` the vector of the input there. -/
theorem elemAt_unsqueeze (c : Fin (m + 1)) (input : Tensor (m + 1)) (b : Fin (m + 1) → ℕ) :
    elemAt c.castSucc n (unsqueeze c.succ input) b = inputAt c n input b := by
  funext j
  unfold elemAt inputAt Tensor.get unsqueeze
  simp only
  congr 1
  funext k
  unfold bidx
  simp only [Fin.insertNth_apply_succAbove]
  by_cases h1 : input.shape k = 1
  · rw [if_pos h1, if_pos h1]
  · rw [if_neg h1, if_neg h1]
    by_cases h : k = c
    · subst h
      rw [succ_succAbove_self, Fin.insertNth_apply_same, Function.update_self]
    · rw [insertNth_at c k h, Function.update_of_ne h]

theorem elemAt_planes (c : Fin (m + 1)) (points : Tensor 2) (b : Fin (m + 1) → ℕ) :
    elemAt c.castSucc n (planes c points) b = planeAt n points (b c) := by
  have hne : c.succ ≠ c.castSucc := by simp [Fin.ext_iff]
  have e : (c.castSucc.insertNth (α := fun _ => ℕ) · b) = fun j =>
      c.castSucc.insertNth (α := fun _ => ℕ) j b := rfl
  funext j
  unfold elemAt planeAt Tensor.get planes
  simp only
  congr 1
  funext q
  unfold bidx
  simp only
  have h1 : (c.castSucc.insertNth (α := fun _ => ℕ) (j : ℕ) b) c.succ = b c := by
    rw [← castSucc_succAbove_self, Fin.insertNth_apply_succAbove]
  have h2 : (c.castSucc.insertNth (α := fun _ => ℕ) (j : ℕ) b) c.castSucc = j :=
    Fin.insertNth_apply_same ..
  fin_cases q
  · simp [hne, h1]
  · simp [h2]

/-- **C72.** The layer's output has the shape of the input with the channels replaced by the planes;
each entry is the (signed) distance of the input vector there to that plane, or its square with the
sign of the distance. For every number of batch and spatial axes, and all sizes. -/
theorem C72_forward (c : Fin (m + 1)) (η k : ℝ) (points : Tensor 2) (input : Tensor (m + 1))
    (hin : input.shape c = n) (hpt : points.shape 1 = n) (signed squared : Bool) :
    (forward c η k points signed squared input).shape =
      Function.update input.shape c (points.shape 0) ∧
    ∀ i, (forward c η k points signed squared input).get i =
      let dist := Stereo.dist2plane η k (inputAt c n input i) (planeAt n points (i c))
        (planeAt n points (i c)) signed false
      if squared then (if signed then dist ^ 2 * SignType.sign dist else dist ^ 2) else dist := by
  have hx : (unsqueeze c.succ input).shape c.castSucc = n := by
    change c.succ.insertNth (α := fun _ => ℕ) 1 input.shape c.castSucc = n
    rw [← succ_succAbove_self c, Fin.insertNth_apply_succAbove, hin]
  have hp : (planes c points).shape c.castSucc = n := by simp [planes, hpt]
  have hne : c.succ ≠ c.castSucc := by simp [Fin.ext_iff]
  have bx : batch c.castSucc (unsqueeze c.succ input) = Function.update input.shape c 1 := by
    funext q
    change c.succ.insertNth (α := fun _ => ℕ) 1 input.shape (c.castSucc.succAbove q) = _
    by_cases h : q = c
    · subst h
      rw [castSucc_succAbove_self, Fin.insertNth_apply_same, Function.update_self]
    · rw [← succAbove_ne c q h, Fin.insertNth_apply_succAbove, Function.update_of_ne h]
  have bp : batch c.castSucc (planes c points) = Function.update (fun _ => 1) c (points.shape 0) := by
    funext q
    change (if c.castSucc.succAbove q = c.castSucc then _ else if c.castSucc.succAbove q = c.succ then _
      else _) = _
    rw [if_neg (Fin.succAbove_ne _ _)]
    by_cases h : q = c
    · subst h
      rw [castSucc_succAbove_self, if_pos rfl, Function.update_self]
    · rw [if_neg, Function.update_of_ne h]
      rw [← castSucc_succAbove_self c]
      exact fun h' => h (Fin.succAbove_right_injective h')
  have ok : BatchOk c.castSucc (unsqueeze c.succ input) (planes c points) := by
    intro q
    have h1 := congrFun bx q
    have h2 := congrFun bp q
    unfold batch at h1 h2
    rw [h1, h2]
    by_cases h : q = c
    · subst h; left; simp
    · right; left; simp [Function.update_of_ne h]
  have okp : BatchOk c.castSucc (planes c points) (planes c points) := fun q => Or.inr (Or.inr rfl)
  obtain ⟨hs, hg⟩ := (C78.C78_stereo_metric (n := n) c.castSucc η k signed false).2.2.2.2 _ _ _ hx hp hp ok ok okp
  have hshape : (StereoAxis.dist2plane c.castSucc η k (unsqueeze c.succ input) (planes c points)
      (planes c points) signed false).shape = Function.update input.shape c (points.shape 0) := by
    rw [hs, bx, bp]
    funext q
    unfold bcast
    by_cases h : q = c
    · subst h; simp
    · simp only [Function.update_of_ne h]
      by_cases h1 : input.shape q = 1 <;> simp [h1]
  have hget : ∀ i, (StereoAxis.dist2plane c.castSucc η k (unsqueeze c.succ input) (planes c points)
      (planes c points) signed false).get i = Stereo.dist2plane η k (inputAt c n input i)
        (planeAt n points (i c)) (planeAt n points (i c)) signed false := by
    intro i
    rw [hg, elemAt_unsqueeze, elemAt_planes]
  have hsign : ∀ x : ℝ, tsign x = SignType.sign x := by
    intro x
    unfold tsign
    rcases lt_trichotomy x 0 with h | h | h
    · rw [if_neg (not_lt.2 h.le), if_pos h, sign_neg h]; simp
    · subst h; simp
    · rw [if_pos h, sign_pos h]; simp
  cases squared <;> cases signed
  · simp only [forward, Bool.false_and, Bool.false_eq_true, if_false]
    exact ⟨hshape, hget⟩
  · simp only [forward, Bool.false_and, Bool.false_eq_true, if_false]
    exact ⟨hshape, hget⟩
  · simp only [forward, Bool.and_false, Bool.false_eq_true, if_false, if_true]
    exact ⟨hshape, fun i => by rw [get_map, hget]⟩
  · simp only [forward, Bool.and_true, if_true]
    refine ⟨?_, fun i => by rw [get_mul, get_map, get_map, hget, hsign]⟩
    funext q
    rw [← hshape]
    change bsize _ _ = _
    simp only [Tensor.map]
    unfold bsize
    split_ifs <;> rfl

/-- The absolute value of the signed square is the squared distance, and it has the distance's
sign. -/
theorem C72_signed_square (c : Fin (m + 1)) (η k : ℝ) (points : Tensor 2) (input : Tensor (m + 1))
    (hin : input.shape c = n) (hpt : points.shape 1 = n) (i : Fin (m + 1) → ℕ) :
    |(forward c η k points true true input).get i| =
      (forward c η k points true false input).get i ^ 2 ∧
    SignType.sign ((forward c η k points true true input).get i) =
      SignType.sign ((forward c η k points true false input).get i) := by
  rw [(C72_forward c η k points input hin hpt true true).2,
    (C72_forward c η k points input hin hpt true false).2]
  simp only [if_true, Bool.false_eq_true, if_false]
  set x := Stereo.dist2plane η k (inputAt c n input i) (planeAt n points (i c))
    (planeAt n points (i c)) true false
  rcases lt_trichotomy x 0 with h | h | h
  · rw [sign_neg h]
    have h2 : 0 < x ^ 2 := by nlinarith
    refine ⟨by simp, ?_⟩
    rw [sign_neg]; simpa using h2
  · rw [h]; simp
  · rw [sign_pos h]
    have h2 : 0 < x ^ 2 := by positivity
    refine ⟨by simp, ?_⟩
    rw [sign_pos]; simpa using h2

/-- **C72.** A plane answers zero exactly on the set of points `x` with `⟨-p ⊕ x, p⟩ = 0`, for all
settings of the flags; in particular at its own point. -/
theorem C72_zero_set (c : Fin (m + 1)) {η k : ℝ} (hη : 0 ≤ η) (points : Tensor 2)
    (input : Tensor (m + 1)) (hin : input.shape c = n) (hpt : points.shape 1 = n)
    (signed squared : Bool) (i : Fin (m + 1) → ℕ) :
    (forward c η k points signed squared input).get i = 0 ↔
      Stereo.mobiusAdd k (-planeAt n points (i c)) (inputAt c n input i) ⬝ᵥ planeAt n points (i c)
        = 0 := by
  rw [(C72_forward c η k points input hin hpt signed squared).2,
    ← Stereo.C17_zero_iff hη _ _ _ signed]
  set x := Stereo.dist2plane η k (inputAt c n input i) (planeAt n points (i c))
    (planeAt n points (i c)) signed false
  have hs : (SignType.sign x : ℝ) = 0 ↔ x = 0 := by
    rcases lt_trichotomy x 0 with h | h | h
    · rw [sign_neg h]; simp [h.ne]
    · rw [h]; simp
    · rw [sign_pos h]; simp [h.ne']
  cases squared <;> cases signed <;> simp [hs]

/-- **C72.** A new layer over a Poincaré ball has the shapes it was asked for, and for every draw all its
planes go through points of the ball; so does `reset_parameters` at any later time. -/
theorem C72_reset {η k : ℝ} (hη : 0 ≤ η) (hk : k < 0) (dt : DType) (initStd : ℝ)
    (numPlanes planeShape : ℕ) (noise : ℕ → Vec planeShape) (q : ℕ) (hq : q < numPlanes) :
    (resetParameters η dt k initStd numPlanes planeShape noise).shape = ![numPlanes, planeShape] ∧
    Stereo.Valid η dt k
      (planeAt planeShape (resetParameters η dt k initStd numPlanes planeShape noise) q) := by
  refine ⟨rfl, ?_⟩
  have h : planeAt planeShape (resetParameters η dt k initStd numPlanes planeShape noise) q =
      Stereo.M.randomNormal η dt k 0 initStd (noise q) := by
    funext j
    have h0 : bidx ![numPlanes, planeShape] ![q, (j : ℕ)] = ![q, (j : ℕ)] := by
      funext a
      have hj := j.2
      have h1 : (if numPlanes = 1 then 0 else q) = q := by split_ifs <;> omega
      have h2 : (if planeShape = 1 then 0 else (j : ℕ)) = j := by split_ifs <;> omega
      fin_cases a
      · exact h1
      · exact h2
    have hj := j.2
    simp only [planeAt, resetParameters, Tensor.get, h0]
    simp [hj]
  rw [h]
  exact (Stereo.C74_stereographic hη hk dt 0 initStd 0 (noise q)).1

/-- The hypotheses are met: images of two channels, `ndim = 2`, ten planes. -/
example : ∃ (input : Tensor (3 + 1)) (points : Tensor 2), input.shape 1 = 2 ∧ points.shape 1 = 2 ∧
    (forward 1 0 (-1) points true true input).shape = ![100, 10, 12, 12] := by
  refine ⟨⟨![100, 2, 12, 12], fun i => i 1⟩, ⟨![10, 2], fun i => i 0⟩, rfl, rfl, ?_⟩
  refine (C72_forward (n := 2) (1 : Fin (3 + 1)) 0 (-1) _ _ rfl rfl true true).1.trans ?_
  funext q
  fin_cases q <;> rfl

end Geoopt.Layer
