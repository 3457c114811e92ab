import Verif.Spec.Axis
import Verif.Lemmas.Axis
import Verif.Lemmas.AxisFibStereo
import Mathlib.Tactic.NormNum
import Mathlib.Tactic.FinCases

/-!
# C40: the `dim` argument selects the manifold axis

Proved for every function that passes `dim` on, and refuted for those that do not: in
`lorentz/math.py` these are `_norm`, `_expmap`, `_expmap0`, `_logmap`, `_logmap0`,
`_logmap0back`, `_egrad2rgrad` (and the transports built on them) and `lorentz_to_poincare`;
in `stereographic/math.py` `_mobius_matvec` and `_inner` with `keepdim=False`.
-/

namespace Geoopt.C40
open Geoopt Geoopt.Axis Geoopt.Axis.Tensor Geoopt.SpecAxis
variable {m : ℕ}

theorem snoc_eq_lastPerm (d : Fin (m + 1)) (i : Fin (m + 1) → ℕ) :
    (fun k => i ((lastPerm d).symm k)) =
      d.insertNth (α := fun _ => ℕ) (i (Fin.last m)) (fun k => i k.castSucc) := by
  funext k
  rcases Fin.eq_self_or_eq_succAbove d k with h | ⟨j, h⟩
  · subst h; simp
  · subst h; simp

/-- The specification determines the moved tensor. -/
theorem movedLast_iff (d : Fin (m + 1)) (t t' : Tensor (m + 1)) :
    MovedLast d t t' ↔ t' = t.moveLast d := by
  constructor
  · rintro ⟨h1, h2, h3⟩
    refine Tensor.ext ?_ ?_
    · funext k
      rcases Fin.eq_castSucc_or_eq_last k with ⟨j, h⟩ | h
      · subst h; rw [h2, moveLast_shape_castSucc]
      · subst h; rw [h1, moveLast_shape_last]
    · funext i
      have := h3 (i (Fin.last m)) (fun k => i k.castSucc)
      rw [← snoc_eq_lastPerm] at this
      rw [show (t.moveLast d).val i = t.val (fun k => i ((lastPerm d).symm k)) from rfl, ← this]
      congr 1
      funext k
      rcases Fin.eq_castSucc_or_eq_last k with ⟨j, h⟩ | h
      · subst h; simp
      · subst h; simp
  · rintro rfl
    refine ⟨moveLast_shape_last d t, moveLast_shape_castSucc d t, fun j b => ?_⟩
    show t.val (fun k => Fin.snoc (α := fun _ => ℕ) b j ((lastPerm d).symm k)) = _
    rw [snoc_eq_lastPerm]
    simp

theorem keeps1 {F : Fin (m + 1) → Tensor (m + 1) → Tensor (m + 1)}
    (h : ∀ d x, (F d x).moveLast d = F (Fin.last m) (x.moveLast d)) : Keeps1 F := by
  intro d x x' hx
  rw [movedLast_iff] at *
  subst hx; exact (h d x).symm

theorem keeps2 {F : Fin (m + 1) → Tensor (m + 1) → Tensor (m + 1) → Tensor (m + 1)}
    (h : ∀ d x y, (F d x y).moveLast d = F (Fin.last m) (x.moveLast d) (y.moveLast d)) :
    Keeps2 F := by
  intro d x x' y y' hx hy
  rw [movedLast_iff] at *
  subst hx hy; exact (h d x y).symm

theorem keeps3 {F : Fin (m + 1) → Tensor (m + 1) → Tensor (m + 1) → Tensor (m + 1) →
      Tensor (m + 1)}
    (h : ∀ d x y z, (F d x y z).moveLast d =
      F (Fin.last m) (x.moveLast d) (y.moveLast d) (z.moveLast d)) : Keeps3 F := by
  intro d x x' y y' z z' hx hy hz
  rw [movedLast_iff] at *
  subst hx hy hz; exact (h d x y z).symm

theorem drops1 {r : ℕ} {F : Fin (m + 1) → Tensor (m + 1) → Tensor r}
    (h : ∀ d x, F d x = F (Fin.last m) (x.moveLast d)) : Drops1 F := by
  intro d x x' hx
  rw [movedLast_iff] at *
  subst hx; exact h d x

theorem drops2 {r : ℕ} {F : Fin (m + 1) → Tensor (m + 1) → Tensor (m + 1) → Tensor r}
    (h : ∀ d x y, F d x y = F (Fin.last m) (x.moveLast d) (y.moveLast d)) : Drops2 F := by
  intro d x x' y y' hx hy
  rw [movedLast_iff] at *
  subst hx hy; exact h d x y

theorem drops3 {r : ℕ}
    {F : Fin (m + 1) → Tensor (m + 1) → Tensor (m + 1) → Tensor (m + 1) → Tensor r}
    (h : ∀ d x y z, F d x y z = F (Fin.last m) (x.moveLast d) (y.moveLast d) (z.moveLast d)) :
    Drops3 F := by
  intro d x x' y y' z z' hx hy hz
  rw [movedLast_iff] at *
  subst hx hy hz; exact h d x y z

/-! ## Lorentz -/

theorem l_innerK (d : Fin (m + 1)) (u v : Tensor (m + 1)) :
    (LorentzAxis.innerK d u v).moveLast d =
      LorentzAxis.innerK (Fin.last m) (u.moveLast d) (v.moveLast d) := by
  simp only [LorentzAxis.innerK, moveLast_sumK, moveLast_cat, moveLast_neg, moveLast_narrow,
    moveLast_mul, moveLast_shape_last]

theorem l_inner (d : Fin (m + 1)) (u v : Tensor (m + 1)) :
    LorentzAxis.inner d u v =
      LorentzAxis.inner (Fin.last m) (u.moveLast d) (v.moveLast d) := by
  simp only [LorentzAxis.inner, ← moveLast_narrow, ← moveLast_mul, sum_moveLast,
    moveLast_shape_last]

theorem l_inner0K (d : Fin (m + 1)) (k : ℝ) (u : Tensor (m + 1)) :
    (LorentzAxis.inner0K d k u).moveLast d = LorentzAxis.inner0K (Fin.last m) k (u.moveLast d) := by
  simp only [LorentzAxis.inner0K, moveLast_map, moveLast_neg, moveLast_narrow]

theorem l_inner0 (d : Fin (m + 1)) (k : ℝ) (u : Tensor (m + 1)) :
    LorentzAxis.inner0 d k u = LorentzAxis.inner0 (Fin.last m) k (u.moveLast d) := by
  simp only [LorentzAxis.inner0, ← l_inner0K, squeeze_moveLast]

/-- **C40** (Lorentz, scalar products): `inner` and `inner0`, with both values of `keepdim`,
use the axis that `dim` names. -/
theorem C40_lorentz_inner (k : ℝ) :
    Drops2 (LorentzAxis.inner (m := m)) ∧ Keeps2 (LorentzAxis.innerK (m := m)) ∧
    Drops1 (fun d => LorentzAxis.inner0 (m := m) d k) ∧
    Keeps1 (fun d => LorentzAxis.inner0K (m := m) d k) :=
  ⟨drops2 l_inner, keeps2 l_innerK, drops1 fun d => l_inner0 d k, keeps1 fun d => l_inner0K d k⟩

/-- **C40** (Lorentz, distances): `dist` and `dist0`, with both values of `keepdim`. -/
theorem C40_lorentz_dist (k : ℝ) :
    Drops2 (fun d => LorentzAxis.dist (m := m) d k) ∧
    Keeps2 (fun d => LorentzAxis.distK (m := m) d k) ∧
    Drops1 (fun d => LorentzAxis.dist0 (m := m) d k) ∧
    Keeps1 (fun d => LorentzAxis.dist0K (m := m) d k) := by
  refine ⟨drops2 fun d x y => ?_, keeps2 fun d x y => ?_, drops1 fun d x => ?_,
    keeps1 fun d x => ?_⟩
  · simp only [LorentzAxis.dist, ← l_inner d]
  · simp only [LorentzAxis.distK, moveLast_map, moveLast_neg, l_innerK]
  · simp only [LorentzAxis.dist0, ← l_inner0 d]
  · simp only [LorentzAxis.dist0K, moveLast_map, moveLast_neg, l_inner0K]

/-- **C40** (Lorentz, projections): `project`, `project_polar`, `project_u` and
`poincare_to_lorentz`. -/
theorem C40_lorentz_project (k eps : ℝ) :
    Keeps1 (fun d => LorentzAxis.project (m := m) d k) ∧
    Keeps1 (fun d => LorentzAxis.projectPolar (m := m) d k) ∧
    Keeps2 (fun d => LorentzAxis.projectU (m := m) d k) ∧
    Keeps1 (fun d => LorentzAxis.ofPoincare (m := m) d k eps) := by
  refine ⟨keeps1 fun d x => ?_, keeps1 fun d x => ?_, keeps2 fun d x y => ?_,
    keeps1 fun d x => ?_⟩
  · simp only [LorentzAxis.project, moveLast_cat, moveLast_unsqueeze, moveLast_narrow,
      moveLast_shape_last, ← norm_moveLast d]
  · simp only [LorentzAxis.projectPolar, moveLast_cat, moveLast_map, moveLast_mul,
      moveLast_narrow, moveLast_shape_last]
  · simp only [LorentzAxis.projectU, moveLast_add, moveLast_mul, moveLast_map, l_innerK]
  · simp only [LorentzAxis.ofPoincare, moveLast_div, moveLast_map, moveLast_cat, moveLast_sumK,
      moveLast_mul]

/-- **C40** (Lorentz, `geodesic_unit`): it takes no `dim`, and works for every position of the
manifold axis. -/
theorem C40_lorentz_geodesic_unit (k : ℝ) :
    Keeps3 (fun _ => LorentzAxis.geodesicUnit (m := m) k) :=
  keeps3 fun d t x u => by
    simp only [LorentzAxis.geodesicUnit, moveLast_add, moveLast_mul, moveLast_map]

/-! ### the functions that lose `dim` -/

/-- A 2×2 tensor. -/
def mat2 (a b c e : ℝ) : Tensor 2 :=
  ⟨![2, 2], fun i => if i 0 = 0 then (if i 1 = 0 then a else b) else (if i 1 = 0 then c else e)⟩

theorem mat2_moveLast (a b c e : ℝ) : (mat2 a b c e).moveLast 0 = mat2 a c b e := by
  refine Tensor.ext ?_ ?_
  · funext k
    fin_cases k
    · exact moveLast_shape_castSucc (m := 1) 0 (mat2 a b c e) 0
    · exact moveLast_shape_last (m := 1) 0 (mat2 a b c e)
  · funext i
    show (mat2 a b c e).val (fun k => i ((lastPerm (m := 1) 0).symm k)) = _
    rw [snoc_eq_lastPerm]
    simp only [mat2]
    rw [show (1 : Fin 2) = Fin.succAbove 0 0 from rfl, Fin.insertNth_apply_succAbove,
      Fin.insertNth_apply_same]
    have h1 : i (Fin.last 1) = i 1 := rfl
    have h0 : i (Fin.castSucc 0) = i 0 := rfl
    have h2 : i (Fin.succAbove 0 0) = i 1 := rfl
    rw [h1, h0, h2]
    split_ifs <;> rfl

theorem mat2_get (a b c e : ℝ) (i : Fin 2 → ℕ) : (mat2 a b c e).get i = (mat2 a b c e).val i := by
  unfold Tensor.get
  congr 1
  funext k
  fin_cases k <;> rfl

theorem mat2_row (a b c e : ℝ) (i : Fin 2 → ℕ) :
    (mat2 a b c e).fib 1 2 i = if i 0 = 0 then ![a, b] else ![c, e] := by
  funext j
  rw [fib_apply, mat2_get]
  simp only [mat2]
  by_cases h : i 0 = 0 <;> fin_cases j <;> simp [h]

theorem mat2_col (a b c e : ℝ) (i : Fin 2 → ℕ) :
    (mat2 a b c e).fib 0 2 i = if i 1 = 0 then ![a, c] else ![b, e] := by
  funext j
  rw [fib_apply, mat2_get]
  simp only [mat2]
  by_cases h : i 1 = 0 <;> fin_cases j <;> simp [h]

theorem get_moveLast0 (t : Tensor 2) (p q : ℕ) : (t.moveLast (m := 1) 0).get ![p, q] = t.get ![q, p] := by
  rw [moveLast, perm_get, snoc_eq_lastPerm]
  congr 1
  funext k
  fin_cases k <;> rfl

/-- What respecting `dim` would mean for a function of one 2×2 tensor. -/
theorem keeps1_mat2 {F : Fin 2 → Tensor 2 → Tensor 2} (h : Keeps1 (m := 1) F) (a b c e : ℝ)
    (p q : ℕ) : (F 1 (mat2 a c b e)).get ![p, q] = (F 0 (mat2 a b c e)).get ![q, p] := by
  have := (movedLast_iff _ _ _).1
    (h 0 (mat2 a b c e) (mat2 a c b e) ((movedLast_iff _ _ _).2 (mat2_moveLast a b c e).symm))
  rw [← get_moveLast0 (F 0 (mat2 a b c e)), ← this]; rfl

theorem keeps2_mat2 {F : Fin 2 → Tensor 2 → Tensor 2 → Tensor 2} (h : Keeps2 (m := 1) F)
    (a b c e a' b' c' e' : ℝ) (p q : ℕ) :
    (F 1 (mat2 a c b e) (mat2 a' c' b' e')).get ![p, q] =
      (F 0 (mat2 a b c e) (mat2 a' b' c' e')).get ![q, p] := by
  have := (movedLast_iff _ _ _).1
    (h 0 (mat2 a b c e) (mat2 a c b e) (mat2 a' b' c' e') (mat2 a' c' b' e')
      ((movedLast_iff _ _ _).2 (mat2_moveLast a b c e).symm)
      ((movedLast_iff _ _ _).2 (mat2_moveLast a' b' c' e').symm))
  rw [← get_moveLast0 (F 0 (mat2 a b c e) (mat2 a' b' c' e')), ← this]; rfl

theorem keeps3_mat2 {F : Fin 2 → Tensor 2 → Tensor 2 → Tensor 2 → Tensor 2}
    (h : Keeps3 (m := 1) F) (a b c e a' b' c' e' a'' b'' c'' e'' : ℝ) (p q : ℕ) :
    (F 1 (mat2 a c b e) (mat2 a' c' b' e') (mat2 a'' c'' b'' e'')).get ![p, q] =
      (F 0 (mat2 a b c e) (mat2 a' b' c' e') (mat2 a'' b'' c'' e'')).get ![q, p] := by
  have := (movedLast_iff _ _ _).1
    (h 0 (mat2 a b c e) (mat2 a c b e) (mat2 a' b' c' e') (mat2 a' c' b' e')
      (mat2 a'' b'' c'' e'') (mat2 a'' c'' b'' e'')
      ((movedLast_iff _ _ _).2 (mat2_moveLast a b c e).symm)
      ((movedLast_iff _ _ _).2 (mat2_moveLast a' b' c' e').symm)
      ((movedLast_iff _ _ _).2 (mat2_moveLast a'' b'' c'' e'').symm))
  rw [← get_moveLast0 (F 0 (mat2 a b c e) (mat2 a' b' c' e') (mat2 a'' b'' c'' e'')), ← this]; rfl

/-- The vectors `(0,0)` and `(3,4)` in the columns: along `dim=0` the norms are `1e-4` (the
floor) and `√7`; the code returns `3` for the first one. -/
theorem C40_counterexample_norm : ¬ Drops1 (LorentzAxis.norm (m := 1)) := by
  intro h
  have h1 := h 0 (mat2 0 3 0 4) (mat2 0 0 3 4)
    ((movedLast_iff _ _ _).2 (mat2_moveLast 0 3 0 4).symm)
  have h2 := congrArg (fun t : Tensor 1 => t.get ![0]) h1
  have e1 : (LorentzAxis.norm (m := 1) 0 (mat2 0 3 0 4)).get ![0] = 3 := by
    rw [AxisFib.l_norm_get (n := 1) (0 : Fin 2) _ rfl]
    rw [show (Fin.last 1) = (1 : Fin 2) from rfl, mat2_row, if_pos (by rfl)]
    simp only [Lorentz.norm, Lorentz.inner, Fin.tail]
    simp [dotProduct]
    rw [show (max (3 * 3 : ℝ) 1e-8) = 3 ^ 2 by norm_num, Real.sqrt_sq (by norm_num)]
  have e2 : (LorentzAxis.norm (m := 1) (Fin.last 1) (mat2 0 0 3 4)).get ![0] = Real.sqrt 1e-8 := by
    rw [AxisFib.l_norm_get (n := 1) _ _ rfl]
    rw [show (Fin.last 1) = (1 : Fin 2) from rfl, mat2_row, if_pos (by rfl)]
    simp only [Lorentz.norm, Lorentz.inner, Fin.tail]
    simp [dotProduct]
    norm_num
  simp only [e1, e2] at h2
  have : (3 : ℝ) ^ 2 = 1e-8 := by rw [h2, Real.sq_sqrt (by norm_num)]
  norm_num at this

/-- Points `(1,0)`, `(1,0)` and tangent vectors `(0,3)`, `(0,4)` in the columns. -/
theorem C40_counterexample_expmap : ¬ Keeps2 (fun d => LorentzAxis.expmap (m := 1) d 1) := by
  intro h
  have h1 := keeps2_mat2 h 1 1 0 0 0 0 3 4 0 0
  have e1 : (LorentzAxis.expmap (m := 1) 1 1 (mat2 1 0 1 0) (mat2 0 3 0 4)).get ![0, 0] =
      Real.cosh 3 := by
    have := congrFun (AxisFib.l_expmap_fib (m := 1) (n := 1) 1 (mat2 1 0 1 0) (mat2 0 3 0 4) rfl
      ![0, 0]) 0
    rw [show (Fin.last 1) = (1 : Fin 2) from rfl, mat2_row, mat2_row, if_pos (by rfl),
      if_pos (by rfl), fib_apply] at this
    rw [show Function.update (![0, 0] : Fin 2 → ℕ) 1 ((0 : Fin 2) : ℕ) = ![0, 0] by
      funext k; fin_cases k <;> rfl] at this
    rw [this]
    have hn : Lorentz.norm (![0, 3] : Vec 2) = 3 := by
      simp [Lorentz.norm, Lorentz.inner, Fin.tail, dotProduct]
      rw [show (max (3 * 3 : ℝ) 1e-8) = 3 ^ 2 by norm_num, Real.sqrt_sq (by norm_num)]
    simp [Lorentz.expmapRaw, hn]
  have e2 : (LorentzAxis.expmap (m := 1) 0 1 (mat2 1 1 0 0) (mat2 0 0 3 4)).get ![0, 0] =
      Real.cosh (Real.sqrt 1e-8) := by
    have hn : (LorentzAxis.normK (m := 1) 0 (mat2 0 0 3 4)).get ![0, 0] = Real.sqrt 1e-8 := by
      rw [AxisFib.l_normK_get (n := 1) (0 : Fin 2) _ rfl,
        show (Fin.last 1) = (1 : Fin 2) from rfl, mat2_row, if_pos (by rfl)]
      simp [Lorentz.norm, Lorentz.inner, Fin.tail, dotProduct]
      norm_num
    simp only [LorentzAxis.expmap, get_add, get_mul, get_div, get_map, mat2_get, hn]
    simp [mat2]
  simp only [e1, e2] at h1
  have h3 : Real.cosh (Real.sqrt 1e-8) < Real.cosh 3 := by
    rw [Real.cosh_lt_cosh, abs_of_nonneg (Real.sqrt_nonneg _), abs_of_pos (by norm_num),
      Real.sqrt_lt' (by norm_num)]
    norm_num
  exact absurd h1 h3.ne'

/-- `expmap0` with `dim=0` does not even keep the size of the manifold axis. -/
theorem C40_counterexample_expmap0 : ¬ Keeps1 (fun d => LorentzAxis.expmap0 (m := 1) d 1) := by
  intro h
  have h1 := (h 0 (mat2 0 0 3 4) (mat2 0 3 0 4)
    ((movedLast_iff _ _ _).2 (mat2_moveLast 0 0 3 4).symm)).size_last
  revert h1
  decide

/-- `logmap0` with `dim=0` does not even keep the size of the manifold axis. -/
theorem C40_counterexample_logmap0 : ¬ Keeps1 (fun d => LorentzAxis.logmap0 (m := 1) d 1) := by
  intro h
  have h1 := (h 0 (mat2 (5/3) 1 (4/3) 0) (mat2 (5/3) (4/3) 1 0)
    ((movedLast_iff _ _ _).2 (mat2_moveLast _ _ _ _).symm)).size_last
  revert h1
  decide

theorem idx01 : Function.update (![0, 1] : Fin 2 → ℕ) 0 0 = ![0, 1] := by
  funext k; fin_cases k <;> rfl
theorem idx10 : Function.update (![1, 0] : Fin 2 → ℕ) 1 ((0 : Fin 2) : ℕ) = ![1, 0] := by
  funext k; fin_cases k <;> rfl
theorem idx01' : Function.update (![0, 1] : Fin 2 → ℕ) 1 ((1 : Fin 2) : ℕ) = ![0, 1] := by
  funext k; fin_cases k <;> rfl

theorem arcosh_one_pos : 0 < Lorentz.arcosh 1 := by
  unfold Lorentz.arcosh
  refine Real.log_pos ?_
  have : 0 < Real.sqrt (max ((1 : ℝ) ^ 2 - 1.0) 1e-15) :=
    Real.sqrt_pos.2 (lt_max_of_lt_right (by norm_num))
  linarith

theorem normK_pos (d : Fin (m + 1)) (t : Tensor (m + 1)) (i : Fin (m + 1) → ℕ) :
    0 < (LorentzAxis.normK d t).get i := by
  rw [LorentzAxis.normK, get_map]
  exact Real.sqrt_pos.2 (lt_max_of_lt_right (by norm_num))

theorem dist_self_pos : 0 < Lorentz.dist 1 (![1, 0] : Vec 2) ![1, 0] := by
  have : Lorentz.dist 1 (![1, 0] : Vec 2) ![1, 0] = Lorentz.arcosh 1 := by
    simp [Lorentz.dist, Lorentz.inner, Fin.tail, dotProduct]
  rw [this]; exact arcosh_one_pos

/-- The points of the counterexamples: `(1,0)` twice, in the columns. -/
def ptA : Tensor 2 := mat2 1 1 0 0
/-- The points of the counterexamples: `(5/3, 4/3)` and `(1,0)`, in the columns.  Both are on
the hyperboloid with `k = 1`. -/
noncomputable def ptB : Tensor 2 := mat2 (5/3) 1 (4/3) 0

theorem innerK_AB : (LorentzAxis.innerK (m := 1) (Fin.last 1) ptA ptB).get ![0, 1] = -2 / 3 ∧
    (LorentzAxis.innerK (m := 1) (Fin.last 1) ptB ptA).get ![0, 1] = -2 / 3 := by
  constructor <;>
  · rw [AxisFib.l_innerK_get (n := 1) (Fin.last 1) _ _ rfl rfl,
      show (Fin.last 1) = (1 : Fin 2) from rfl, ptA, ptB, mat2_row, mat2_row, if_pos (by rfl),
      if_pos (by rfl)]
    simp [Lorentz.inner, Fin.tail, dotProduct]
    norm_num

theorem logmap_bad :
    0 < (LorentzAxis.logmap (m := 1) 0 1 ptA ptB).get ![0, 1] ∧
    0 < (LorentzAxis.logmap (m := 1) 0 1 ptB ptA).get ![0, 1] := by
  constructor
  · simp only [LorentzAxis.logmap]
    rw [get_div]
    refine div_pos ?_ (normK_pos _ _ _)
    rw [get_mul, AxisFib.l_distK_get (m := 1) (n := 1) 0 1 ptA ptB rfl rfl, ptA, ptB, mat2_col,
      mat2_col, if_neg (by decide), if_neg (by decide), ← ptA, ← ptB]
    refine mul_pos dist_self_pos ?_
    rw [get_add, get_mul, get_map, innerK_AB.1, ptA, ptB, mat2_get, mat2_get]
    simp [mat2]; norm_num
  · simp only [LorentzAxis.logmap]
    rw [get_div]
    refine div_pos ?_ (normK_pos _ _ _)
    rw [get_mul, AxisFib.l_distK_get (m := 1) (n := 1) 0 1 ptB ptA rfl rfl, ptA, ptB, mat2_col,
      mat2_col, if_neg (by decide), if_neg (by decide), ← ptA, ← ptB]
    refine mul_pos dist_self_pos ?_
    rw [get_add, get_mul, get_map, innerK_AB.2, ptA, ptB, mat2_get, mat2_get]
    simp [mat2]; norm_num

theorem logmap_same (a b : ℝ) (i : Fin 2 → ℕ) (hi : i 0 ≠ 0) (j : Fin 2) :
    (LorentzAxis.logmap (m := 1) (Fin.last 1) 1 (mat2 1 0 1 0) (mat2 a b 1 0)).fib (Fin.last 1) 2 i j
      = 0 ∧
    (LorentzAxis.logmap (m := 1) (Fin.last 1) 1 (mat2 a b 1 0) (mat2 1 0 1 0)).fib (Fin.last 1) 2 i j
      = 0 := by
  constructor <;>
  · rw [AxisFib.l_logmap_fib (m := 1) (n := 1) 1 _ _ rfl rfl,
      show (Fin.last 1) = (1 : Fin 2) from rfl, mat2_row, mat2_row, if_neg hi, if_neg hi]
    fin_cases j <;> simp [Lorentz.logmap, Lorentz.inner, Fin.tail, dotProduct] <;> norm_num

/-- Points `(1,0)`, `(1,0)` and `(5/3,4/3)`, `(1,0)` in the columns: the second logarithm is
`0`, the code returns a vector with a positive first entry. -/
theorem C40_counterexample_logmap : ¬ Keeps2 (fun d => LorentzAxis.logmap (m := 1) d 1) := by
  intro h
  have h1 := keeps2_mat2 h 1 1 0 0 (5/3) 1 (4/3) 0 1 0
  have e1 := (logmap_same (5/3) (4/3) ![1, 0] (by decide) 0).1
  rw [fib_apply, show (Fin.last 1) = (1 : Fin 2) from rfl, idx10] at e1
  have e2 := logmap_bad.1
  rw [ptA, ptB, ← h1] at e2
  exact e2.ne' e1

/-- With the same points, transporting the vectors `(0,0)`, `(1,0)`: between equal points the
vector does not change, but the code changes it. -/
theorem C40_counterexample_transp : ¬ Keeps3 (fun d => LorentzAxis.transp (m := 1) d 1) := by
  intro h
  have h1 := keeps3_mat2 h 1 1 0 0 (5/3) 1 (4/3) 0 0 1 0 0 1 0
  have e1 : (LorentzAxis.transp (m := 1) 1 1 (mat2 1 0 1 0) (mat2 (5/3) (4/3) 1 0)
      (mat2 0 0 1 0)).get ![1, 0] = 1 := by
    have e1 := (logmap_same (5/3) (4/3) ![1, 0] (by decide) 0).1
    have e2 := (logmap_same (5/3) (4/3) ![1, 0] (by decide) 0).2
    rw [fib_apply, show (Fin.last 1) = (1 : Fin 2) from rfl, idx10] at e1 e2
    simp only [LorentzAxis.transp, get_sub, get_mul, get_add, e1, e2, mat2_get]
    simp [mat2]
  have e2 : (LorentzAxis.transp (m := 1) 0 1 ptA ptB (mat2 0 1 0 0)).get ![0, 1] < 1 := by
    simp only [LorentzAxis.transp, get_sub, get_mul, get_add, get_div, get_map, mat2_get]
    rw [AxisFib.l_distK_get (m := 1) (n := 1) 0 1 ptA ptB rfl rfl, ptA, ptB, mat2_col,
      mat2_col, if_neg (by decide), if_neg (by decide), ← ptA, ← ptB]
    have hn : (LorentzAxis.innerK (m := 1) (Fin.last 1) (LorentzAxis.logmap 0 1 ptA ptB)
        (mat2 0 1 0 0)).get ![0, 1] = (LorentzAxis.logmap (m := 1) 0 1 ptA ptB).get ![0, 1] := by
      rw [AxisFib.l_innerK_get (n := 1) (Fin.last 1) _ _ rfl rfl,
        show (Fin.last 1) = (1 : Fin 2) from rfl, mat2_row, if_pos (by rfl)]
      simp only [Lorentz.inner, dotProduct, Fin.tail]
      simp [fib_apply]
      rw [show Function.update (![0, 1] : Fin 2 → ℕ) 1 1 = ![0, 1] from idx01']
    rw [hn]
    have p := logmap_bad
    have q := dist_self_pos
    have : 0 < (LorentzAxis.logmap (m := 1) 0 1 ptA ptB).get ![0, 1] /
        Lorentz.dist 1 (![1, 0] : Vec 2) ![1, 0] ^ 2 *
        ((LorentzAxis.logmap (m := 1) 0 1 ptA ptB).get ![0, 1] +
          (LorentzAxis.logmap (m := 1) 0 1 ptB ptA).get ![0, 1]) :=
      mul_pos (div_pos p.1 (by positivity)) (add_pos p.1 p.2)
    have hv : (mat2 0 1 0 0).val ![0, 1] = 1 := by simp [mat2]
    rw [hv]
    linarith
  rw [ptA, ptB, ← h1] at e2
  exact e2.ne e1

/-- Points `(5/3,4/3)`, `(1,0)` in the columns: the second one is the origin, where the result
is `0`; the code returns a vector with a non-zero first entry. -/
theorem C40_counterexample_logmap0back :
    ¬ Keeps1 (fun d => LorentzAxis.logmap0back (m := 1) d 1) := by
  intro h
  have h1 := keeps1_mat2 h (5/3) 1 (4/3) 0 1 0
  have e1 : (LorentzAxis.logmap0back (m := 1) 1 1 (mat2 (5/3) (4/3) 1 0)).get ![1, 0] = 0 := by
    have := congrFun (AxisFib.l_logmap0back_fib (m := 1) (n := 1) 1
      (mat2 (5/3) (4/3) 1 0) rfl ![1, 0]) 0
    rw [show (Fin.last 1) = (1 : Fin 2) from rfl, mat2_row, if_neg (by decide), fib_apply,
      idx10] at this
    rw [this]
    simp [Lorentz.logmap0back, Lorentz.inner0]
    norm_num
  have e2 : (LorentzAxis.logmap0back (m := 1) 0 1 ptB).get ![0, 1] < 0 := by
    simp only [LorentzAxis.logmap0back]
    rw [get_div]
    refine div_neg_of_neg_of_pos ?_ (normK_pos _ _ _)
    rw [get_mul, AxisFib.l_dist0K_get (m := 1) (n := 1) 0 1 ptB rfl, ptB, mat2_col,
      if_neg (by decide), ← ptB]
    refine mul_neg_of_pos_of_neg ?_ ?_
    · have : Lorentz.dist0 1 (![1, 0] : Vec 2) = Lorentz.arcosh 1 := by
        simp [Lorentz.dist0, Lorentz.inner0]
      rw [this]; exact arcosh_one_pos
    · rw [get_cat_left _ _ _ _ (by decide), get_map, get_narrow_one _ _ _ (by decide), idx01,
        get_mul, get_map, AxisFib.l_inner0K_get (n := 1) (Fin.last 1) 1 ptB rfl,
        show (Fin.last 1) = (1 : Fin 2) from rfl, ptB, mat2_row, if_pos (by rfl), mat2_get]
      simp [mat2, Lorentz.inner0]
      norm_num
  rw [ptB, ← h1] at e2
  exact e2.ne e1

/-- Points `(1,0)`, `(1,0)` and gradients `(0,1)`, `(0,1)` in the columns: the gradients are
already Riemannian gradients, the code changes the sign of the first one. -/
theorem C40_counterexample_egrad2rgrad :
    ¬ Keeps2 (fun d => LorentzAxis.egrad2rgrad (m := 1) d 1) := by
  intro h
  have h1 := keeps2_mat2 h 1 1 0 0 0 0 1 1 0 1
  have e1 : (LorentzAxis.egrad2rgrad (m := 1) 1 1 (mat2 1 0 1 0) (mat2 0 1 0 1)).get ![0, 1] =
      1 := by
    have := congrFun (AxisFib.l_egrad2rgrad_fib (m := 1) (n := 1) 1 (mat2 1 0 1 0)
      (mat2 0 1 0 1) rfl rfl ![0, 1]) 1
    rw [show (Fin.last 1) = (1 : Fin 2) from rfl, mat2_row, mat2_row, if_pos (by rfl),
      if_pos (by rfl), fib_apply, idx01'] at this
    rw [this]
    simp [Lorentz.egrad2rgrad, Lorentz.inner, Fin.tail, dotProduct]
  have e2 : (LorentzAxis.egrad2rgrad (m := 1) 0 1 (mat2 1 1 0 0) (mat2 0 0 1 1)).get ![1, 0] =
      -1 := by
    simp only [LorentzAxis.egrad2rgrad, get_add, get_mul, get_map, mat2_get]
    have : (LorentzAxis.negFirstLast (m := 1) (mat2 0 0 1 1)).get ![1, 0] = -1 := by
      simp [Tensor.get, LorentzAxis.negFirstLast, mat2, bidx]
    rw [this]
    simp [mat2]
  simp only [e1, e2] at h1
  norm_num at h1

/-- `lorentz_to_poincare` negates `dim`: on a single point (a tensor of rank one) with the
default `dim=-1` it raises, for every point and curvature. -/
theorem C40_counterexample_to_poincare_rank1 (k : ℝ) (x : Tensor 1) :
    LorentzAxis.toPoincare k (-1) x = .error .indexError := rfl

/-- ... and on tensors of rank three with `dim=-1` it reads axis `1` instead of the last: the
sizes `(1,2,2)` give a result of sizes `(1,2,2)` instead of `(1,2,1)`. -/
theorem C40_counterexample_to_poincare_rank3 (k : ℝ) (val : (Fin 3 → ℕ) → ℝ) :
    ∃ t : Tensor 3, LorentzAxis.toPoincare k (-1) ⟨![1, 2, 2], val⟩ = .ok t ∧
      t.shape 2 = 2 := ⟨_, rfl, rfl⟩

/-! ## Stereographic -/

open StereoAxis

theorem s_cnorm (d : Fin (m + 1)) (x : Tensor (m + 1)) :
    (cnorm d x).moveLast d = cnorm (Fin.last m) (x.moveLast d) := by
  simp only [cnorm, moveLast_map, moveLast_normK]

theorem s_lambdaXK (d : Fin (m + 1)) (k : ℝ) (x : Tensor (m + 1)) :
    (lambdaXK d k x).moveLast d = lambdaXK (Fin.last m) k (x.moveLast d) := by
  simp only [lambdaXK, moveLast_map, moveLast_sumK]

theorem s_lambdaX (d : Fin (m + 1)) (k : ℝ) (x : Tensor (m + 1)) :
    lambdaX d k x = lambdaX (Fin.last m) k (x.moveLast d) := by
  simp only [lambdaX, ← moveLast_map, sum_moveLast]

theorem s_mobiusAdd (d : Fin (m + 1)) (k : ℝ) (x y : Tensor (m + 1)) :
    (mobiusAdd d k x y).moveLast d =
      mobiusAdd (Fin.last m) k (x.moveLast d) (y.moveLast d) := by
  simp only [mobiusAdd, moveLast_map, moveLast_sumK, moveLast_div, moveLast_add, moveLast_sub,
    moveLast_mul]

theorem s_gyration (d : Fin (m + 1)) (k : ℝ) (u v w : Tensor (m + 1)) :
    (gyration d k u v w).moveLast d =
      gyration (Fin.last m) k (u.moveLast d) (v.moveLast d) (w.moveLast d) := by
  simp only [gyration, moveLast_map, moveLast_sumK, moveLast_div, moveLast_add, moveLast_sub,
    moveLast_mul]

theorem s_scalarMul (d : Fin (m + 1)) (η k : ℝ) (t x : Tensor (m + 1)) :
    (mobiusScalarMul d η k t x).moveLast d =
      mobiusScalarMul (Fin.last m) η k (t.moveLast d) (x.moveLast d) := by
  simp only [mobiusScalarMul, moveLast_map, moveLast_div, moveLast_mul, s_cnorm]

/-- **C40** (stereographic, projection and metric): `project`, `lambda_x`, `inner` with
`keepdim=True`, `norm`, `egrad2rgrad`. -/
theorem C40_stereo_metric (η : ℝ) (dt : DType) (k : ℝ) :
    Keeps1 (fun d => project (m := m) d η dt k) ∧
    Keeps1 (fun d => lambdaXK (m := m) d k) ∧ Drops1 (fun d => lambdaX (m := m) d k) ∧
    Keeps3 (fun d => innerK (m := m) d k) ∧
    Keeps2 (fun d => StereoAxis.normK (m := m) d k) ∧ Drops2 (fun d => StereoAxis.norm (m := m) d k) ∧
    Keeps2 (fun d => egrad2rgrad (m := m) d k) := by
  refine ⟨keeps1 fun d x => ?_, keeps1 fun d x => s_lambdaXK d k x, drops1 fun d x => s_lambdaX d k x,
    keeps3 fun d x u v => ?_, keeps2 fun d x u => ?_, drops2 fun d x u => ?_,
    keeps2 fun d x g => ?_⟩
  · simp only [project, moveLast_whr, moveLast_test, moveLast_map, moveLast_div, s_cnorm]
  · simp only [innerK, moveLast_mul, moveLast_map, moveLast_sumK, s_lambdaXK]
  · simp only [StereoAxis.normK, moveLast_mul, moveLast_normK, s_lambdaXK]
  · simp only [StereoAxis.norm, ← s_lambdaX d, norm_moveLast]
  · simp only [egrad2rgrad, moveLast_div, moveLast_map, s_lambdaXK]

/-- **C40** (stereographic, gyrovector operations): `mobius_add`, `mobius_sub`, `gyration`,
`mobius_coadd`, `mobius_cosub`, `mobius_scalar_mul`, `mobius_pointwise_mul`. -/
theorem C40_stereo_gyro (η k : ℝ) :
    Keeps2 (fun d => mobiusAdd (m := m) d k) ∧ Keeps2 (fun d => mobiusSub (m := m) d k) ∧
    Keeps3 (fun d => gyration (m := m) d k) ∧
    Keeps2 (fun d => mobiusCoadd (m := m) d k) ∧ Keeps2 (fun d => mobiusCosub (m := m) d k) ∧
    Keeps2 (fun d => mobiusScalarMul (m := m) d η k) ∧
    Keeps2 (fun d => mobiusPointwiseMul (m := m) d η k) := by
  refine ⟨keeps2 fun d x y => s_mobiusAdd d k x y, keeps2 fun d x y => ?_,
    keeps3 fun d x y z => s_gyration d k x y z, keeps2 fun d x y => ?_, keeps2 fun d x y => ?_,
    keeps2 fun d x y => s_scalarMul d η k x y, keeps2 fun d x y => ?_⟩
  · simp only [mobiusSub, s_mobiusAdd, moveLast_neg]
  · simp only [mobiusCoadd, s_mobiusAdd, s_gyration, moveLast_neg]
  · simp only [mobiusCosub, mobiusCoadd, s_mobiusAdd, s_gyration, moveLast_neg]
  · simp only [mobiusPointwiseMul, moveLast_whr, moveLast_prodK, moveLast_test, moveLast_map,
      moveLast_mul, moveLast_div, s_cnorm]

theorem s_distK (d : Fin (m + 1)) (η k : ℝ) (x y : Tensor (m + 1)) :
    (distK d η k x y).moveLast d =
      distK (Fin.last m) η k (x.moveLast d) (y.moveLast d) := by
  simp only [distK, moveLast_map, moveLast_normK, s_mobiusAdd, moveLast_neg]

/-- **C40** (stereographic, distances): `dist`, `dist0`, `dist2plane`, with both values of
`keepdim`. -/
theorem C40_stereo_dist (η k : ℝ) (signed scaled : Bool) :
    Keeps2 (fun d => distK (m := m) d η k) ∧ Drops2 (fun d => dist (m := m) d η k) ∧
    Keeps1 (fun d => dist0K (m := m) d η k) ∧ Drops1 (fun d => dist0 (m := m) d η k) ∧
    Keeps3 (fun d x a p => dist2planeK (m := m) d η k x a p signed scaled) ∧
    Drops3 (fun d x a p => dist2plane (m := m) d η k x a p signed scaled) := by
  refine ⟨keeps2 fun d x y => s_distK d η k x y, drops2 fun d x y => ?_, keeps1 fun d x => ?_,
    drops1 fun d x => ?_, keeps3 fun d x a p => ?_, drops3 fun d x a p => ?_⟩
  · simp only [StereoAxis.dist, ← moveLast_neg, ← s_mobiusAdd, norm_moveLast]
  · simp only [dist0K, moveLast_map, moveLast_normK]
  · simp only [dist0, norm_moveLast]
  · cases signed <;> cases scaled <;>
    · simp only [dist2planeK, moveLast_map, moveLast_mul, moveLast_div, moveLast_sumK,
        moveLast_normK, s_mobiusAdd, moveLast_neg, if_true, Bool.false_eq_true, if_false]
  · cases signed <;> cases scaled <;>
    · simp only [dist2plane, ← moveLast_map, ← moveLast_mul, ← moveLast_neg, ← s_mobiusAdd,
        sum_moveLast, norm_moveLast, if_true, Bool.false_eq_true, if_false]

/-- **C40** (stereographic, curves and maps): `geodesic`, `expmap`, `expmap0`, `geodesic_unit`,
`logmap`, `logmap0`. -/
theorem C40_stereo_maps (η k : ℝ) :
    Keeps3 (fun d => geodesic (m := m) d η k) ∧ Keeps2 (fun d => expmap (m := m) d η k) ∧
    Keeps1 (fun d => expmap0 (m := m) d η k) ∧
    Keeps3 (fun d => geodesicUnit (m := m) d η k) ∧ Keeps2 (fun d => logmap (m := m) d η k) ∧
    Keeps1 (fun d => logmap0 (m := m) d η k) := by
  refine ⟨keeps3 fun d t x y => ?_, keeps2 fun d x u => ?_, keeps1 fun d u => ?_,
    keeps3 fun d t x u => ?_, keeps2 fun d x y => ?_, keeps1 fun d y => ?_⟩
  · simp only [geodesic, s_mobiusAdd, s_scalarMul, moveLast_neg]
  · simp only [expmap, s_mobiusAdd, moveLast_mul, moveLast_map, moveLast_div, s_cnorm, s_lambdaXK]
  · simp only [expmap0, moveLast_mul, moveLast_map, moveLast_div, s_cnorm]
  · simp only [geodesicUnit, s_mobiusAdd, moveLast_mul, moveLast_map, moveLast_div, s_cnorm]
  · simp only [logmap, s_mobiusAdd, moveLast_mul, moveLast_map, moveLast_div, s_cnorm, s_lambdaXK,
      moveLast_neg]
  · simp only [logmap0, moveLast_mul, moveLast_map, moveLast_div, s_cnorm]

theorem s_antipode (d : Fin (m + 1)) (η k : ℝ) (x : Tensor (m + 1)) :
    (antipode d η k x).moveLast d = antipode (Fin.last m) η k (x.moveLast d) := by
  unfold antipode
  split_ifs
  · rfl
  · simp only [s_mobiusAdd, moveLast_map, moveLast_div, s_cnorm]

/-- **C40** (stereographic, transports and models of the sphere): `parallel_transport`,
`parallel_transport0`, `parallel_transport0back`, `sproj`, `inv_sproj`, `antipode`. -/
theorem C40_stereo_transp (η k : ℝ) :
    Keeps3 (fun d => transp (m := m) d k) ∧ Keeps2 (fun d => transp0 (m := m) d k) ∧
    Keeps2 (fun d => transp0back (m := m) d k) ∧ Keeps1 (fun d => sproj (m := m) d η k) ∧
    Keeps1 (fun d => invSproj (m := m) d η k) ∧ Keeps1 (fun d => antipode (m := m) d η k) := by
  refine ⟨keeps3 fun d x y u => ?_, keeps2 fun d x u => ?_, keeps2 fun d x u => ?_,
    keeps1 fun d x => ?_, keeps1 fun d x => ?_, keeps1 fun d x => s_antipode d η k x⟩
  · simp only [transp, moveLast_div, moveLast_mul, s_gyration, moveLast_neg, s_lambdaXK]
  · simp only [transp0, moveLast_mul, moveLast_map, moveLast_sumK]
  · simp only [transp0back, moveLast_div, moveLast_map, moveLast_sumK]
  · simp only [sproj, moveLast_mul, moveLast_map, moveLast_narrow, moveLast_shape_last]
  · simp only [invSproj, moveLast_cat, moveLast_mul, moveLast_map, s_lambdaXK]

theorem prod_erase_moveLast (d : Fin (m + 1)) (t : Tensor (m + 1)) :
    ∏ k ∈ Finset.univ.erase (Fin.last m), ((t.moveLast d).shape k : ℝ) =
      ∏ k ∈ Finset.univ.erase d, (t.shape k : ℝ) := by
  refine Finset.prod_equiv (lastPerm d) ?_ ?_
  · intro k
    simp only [Finset.mem_erase, Finset.mem_univ, and_true]
    constructor
    · intro h e; exact h (by rw [← (lastPerm d).symm_apply_apply k, e]; simp)
    · intro h e; exact h (by rw [e]; simp)
  · intro k _; rfl

theorem s_midFlips (d : Fin (m + 1)) (pw : Bool) (w : Tensor (m + 1)) :
    midFlips pw (w.moveLast d) ↔ midFlips pw w := by
  rw [midFlips, midFlips, ← moveLast_test, moveLast_any]

theorem s_midPoints (d : Fin (m + 1)) (η k : ℝ) (pw : Bool) (xs w : Tensor (m + 1)) :
    (midPoints d η k pw xs w).moveLast d =
      midPoints (Fin.last m) η k pw (xs.moveLast d) (w.moveLast d) := by
  by_cases h : midFlips pw w
  · rw [midPoints, midPoints, if_pos h, if_pos ((s_midFlips d pw w).2 h)]
    simp only [moveLast_whr, moveLast_test, s_antipode]
  · rw [midPoints, midPoints, if_neg h, if_neg (fun h' => h ((s_midFlips d pw w).1 h'))]

theorem s_midWeights (d : Fin (m + 1)) (pw : Bool) (w : Tensor (m + 1)) :
    (midWeights pw w).moveLast d = midWeights pw (w.moveLast d) := by
  by_cases h : midFlips pw w
  · rw [midWeights, midWeights, if_pos h, if_pos ((s_midFlips d pw w).2 h)]; rfl
  · rw [midWeights, midWeights, if_neg h, if_neg (fun h' => h ((s_midFlips d pw w).1 h'))]

theorem s_midMean (d : Fin (m + 1)) (η k : ℝ) (g xs w : Tensor (m + 1)) :
    (midMean d η k g xs w).moveLast d =
      midMean (Fin.last m) η k (g.moveLast d) (xs.moveLast d) (w.moveLast d) := by
  simp only [midMean, moveLast_mul, moveLast_div, moveLast_map, moveLast_sumOthersK, s_cnorm]

theorem s_midChoose (d : Fin (m + 1)) (η k : ℝ) (xs a : Tensor (m + 1)) :
    (midChoose d η k xs a).moveLast d =
      midChoose (Fin.last m) η k (xs.moveLast d) (a.moveLast d) := by
  simp only [midChoose]
  split_ifs
  · simp only [moveLast_whr, moveLast_cmp, moveLast_sumOthersK, s_distK, s_antipode]
  · rfl

theorem s_midAlpha (d : Fin (m + 1)) (g xs w : Tensor (m + 1)) :
    (midAlpha d g xs w).moveLast d =
      midAlpha (Fin.last m) (g.moveLast d) (xs.moveLast d) (w.moveLast d) := by
  simp only [midAlpha, moveLast_numel, prod_erase_moveLast]
  split_ifs
  · rfl
  · simp only [moveLast_sumOthersK, moveLast_map2]

theorem s_midpointK (d : Fin (m + 1)) (η k : ℝ) (xs : Tensor (m + 1)) (w : Tensor m)
    (lincomb posweight : Bool) :
    (weightedMidpointK d η k xs w lincomb posweight).moveLast d =
      weightedMidpointK (Fin.last m) η k (xs.moveLast d) w lincomb posweight := by
  cases lincomb <;>
  simp only [weightedMidpointK, ← moveLast_unsqueeze d w, ← s_midPoints, ← s_midWeights,
    ← s_lambdaXK, ← s_midMean, ← s_midChoose, ← s_midAlpha, ← s_scalarMul, if_true, Bool.false_eq_true, if_false]

/-- **C40** (stereographic, `weighted_midpoint` over all batch axes): with both values of
`keepdim`; the weights have no manifold axis. -/
theorem C40_stereo_midpoint (η k : ℝ) (w : Tensor m) (lincomb posweight : Bool) :
    Keeps1 (fun d xs => weightedMidpointK (m := m) d η k xs w lincomb posweight) ∧
    Drops1 (fun d xs => weightedMidpoint (m := m) d η k xs w lincomb posweight) := by
  refine ⟨keeps1 fun d xs => s_midpointK d η k xs w lincomb posweight, drops1 fun d xs => ?_⟩
  simp only [weightedMidpoint, ← s_midpointK, dropOthers_moveLast]

/-- `inner` with `keepdim=False` and `dim=0` on tensors of sizes `(2,2)` has a result of sizes
`(1,2)`, the same call with the axis moved last one of sizes `(2,2)` (see C18). -/
theorem C40_counterexample_inner (k : ℝ) : ¬ Drops3 (fun d => StereoAxis.inner (m := 1) d k) := by
  intro h
  have hm := (movedLast_iff _ _ _).2 (mat2_moveLast 1 2 3 4).symm
  have h1 := congrArg (fun t : Tensor 2 => t.shape 0) (h 0 _ _ _ _ _ _ hm hm hm)
  exact absurd (show (1 : ℕ) = 2 from h1) (by decide)

/-- `mobius_matvec` with `dim=0`, curvature `0` and the identity matrix: the product is the
tensor itself, the code returns its transpose. -/
theorem C40_counterexample_matvec (η : ℝ) :
    ¬ Keeps1 (fun d => mobiusMatvec (m := 1) d η 0 (1 : Matrix (Fin 2) (Fin 2) ℝ)) := by
  intro h
  have h1 := keeps1_mat2 h 1 2 3 4 0 1
  have ht : ∀ a, Stereo.tanK η 0 a = a := by
    intro a; simp [Stereo.tanK, Stereo.KZero, Stereo.tanKTaylor, Stereo.absZeroGrad]
    norm_num
  have ha : ∀ a, Stereo.artanK η 0 a = a := by
    intro a; simp [Stereo.artanK, Stereo.KZero, Stereo.artanKTaylor, Stereo.absZeroGrad]
    norm_num
  have e1 : (mobiusMatvec (m := 1) 1 η 0 (1 : Matrix (Fin 2) (Fin 2) ℝ) (mat2 1 3 2 4)).get ![0, 1] =
      3 := by
    have := congrFun (AxisFib.mobiusMatvec_last_fib (m := 1) η 0 (1 : Matrix (Fin 2) (Fin 2) ℝ)
      (mat2 1 3 2 4) rfl ![0, 1]) 1
    rw [show (Fin.last 1) = (1 : Fin 2) from rfl, mat2_row, if_pos (by rfl), fib_apply,
      idx01'] at this
    rw [this, Stereo.mobiusMatvec, Matrix.one_mulVec, if_neg (by
      intro h; have := h 0; norm_num at this)]
    have hp : 0 < max (nrm (![1, 3] : Vec 2)) 1e-15 := lt_max_of_lt_right (by norm_num)
    simp only [ht, ha, Pi.smul_apply, smul_eq_mul]
    field_simp
    simp
  have e2 : (mobiusMatvec (m := 1) 0 η 0 (1 : Matrix (Fin 2) (Fin 2) ℝ) (mat2 1 2 3 4)).get ![1, 0] =
      2 := by
    have hmx : ∀ i : Fin 2 → ℕ, i 0 < 2 → i 1 < 2 →
        (tensordot (m := 1) 0 (1 : Matrix (Fin 2) (Fin 2) ℝ) (mat2 1 2 3 4)).get i =
          (mat2 1 3 2 4).val i := by
      intro i h0 h1
      have hb : bidx (tensordot (m := 1) 0 (1 : Matrix (Fin 2) (Fin 2) ℝ) (mat2 1 2 3 4)).shape i
          = i := by
        funext k; fin_cases k <;> rfl
      unfold Tensor.get
      rw [hb]
      simp only [tensordot, mat2_moveLast, mat2_get]
      rw [dif_pos (show i (Fin.last 1) < 2 from h1), Finset.sum_eq_single ⟨i 1, h1⟩]
      · rw [show (⟨i (Fin.last 1), h1⟩ : Fin 2) = ⟨i 1, h1⟩ from rfl, Matrix.one_apply_eq, one_mul]
        congr 1
        funext k; fin_cases k <;> simp
      · intro b _ hb
        rw [show (⟨i (Fin.last 1), h1⟩ : Fin 2) = ⟨i 1, h1⟩ from rfl,
          Matrix.one_apply_ne (fun e => hb e.symm), zero_mul]
      · simp
    have hc : (((tensordot (m := 1) 0 (1 : Matrix (Fin 2) (Fin 2) ℝ) (mat2 1 2 3 4)).test
        (· = 0)).prodK 0).get ![1, 0] = 0 := by
      rw [get_prodK, Finset.prod_eq_zero (i := 1) (by decide)]
      rw [get_test, hmx _ (by decide) (by decide)]
      simp [mat2]
    have p1 : 0 < (cnorm (m := 1) 0 (mat2 1 2 3 4)).get ![1, 0] := lt_max_of_lt_right (by norm_num)
    have p2 : 0 < (cnorm (m := 1) 0 (tensordot (m := 1) 0 (1 : Matrix (Fin 2) (Fin 2) ℝ)
      (mat2 1 2 3 4))).get ![1, 0] := lt_max_of_lt_right (by norm_num)
    simp only [mobiusMatvec, get_whr, hc, if_true, get_mul, get_map, get_div, ht, ha,
      hmx ![1, 0] (by decide) (by decide)]
    field_simp
    simp [mat2]
  simp only [e1, e2] at h1
  norm_num at h1

/-! ## The hypotheses are met -/

/-- Moving the first axis of a 2×2 tensor to the end is transposition. -/
example : MovedLast (m := 1) 0 (mat2 1 2 3 4) (mat2 1 3 2 4) :=
  (movedLast_iff _ _ _).2 (mat2_moveLast 1 2 3 4).symm

end Geoopt.C40
