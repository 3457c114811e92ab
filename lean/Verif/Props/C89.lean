import Verif.Model.Curvature
import Verif.Props.C09
import Mathlib.Tactic

/-!
# C89: constructing a manifold leaves its arguments and other manifolds alone
-/

namespace C89
open Geoopt Geoopt.Stereo Geoopt.Curvature

/-- The constructor works on the storage of its argument (and not on a copy). -/
def Arg.aliases : Arg → ℕ → Prop
  | .number _, _ => False
  | .tensor floating b, a => floating = true ∧ b = a

/-- The curvature that torch's softplus reproduces exactly: `c ≤ 20` suffices. -/
def InRange (c : Cls) (r : ℝ) : Prop :=
  match c with
  | .stereographic => True
  | .lorentz => True
  | _ => 0 < r ∧ r ≤ 20

/-- **C89.** Right after construction a manifold has the curvature it was given, for Python numbers,
integer tensors and floating point tensors alike. -/
theorem C89_read_back (h : Mem) (c : Cls) (arg : Arg) (hr : InRange c (arg.value h)) :
    curvature (construct h c arg).2 (construct h c arg).1 = arg.value h := by
  have hv : (parameter h arg).2.cell (parameter h arg).1 = arg.value h := by
    cases arg with
    | number r => simp [parameter, alloc, Arg.value]
    | tensor f a => cases f <;> simp [parameter, alloc, Arg.value]
  cases c
  · exact hv
  · exact hv
  · obtain ⟨h0, h1⟩ := hr
    have := (C12_read_back h0 (C12_read_back_range h0 h1)).1
    simpa [construct, curvature, hv] using this
  · obtain ⟨h0, h1⟩ := hr
    have := (C12_read_back h0 (C12_read_back_range h0 h1)).2.2
    simpa [construct, curvature, hv] using this

/-- **C89.** A constructor call changes no storage other than that of a floating point tensor it is
given. -/
theorem C89_frame (h : Mem) (c : Cls) (arg : Arg) (a : ℕ) (ha : a < h.next)
    (hna : ¬ Arg.aliases arg a) :
    (construct h c arg).2.cell a = h.cell a ∧ h.next ≤ (construct h c arg).2.next := by
  have hp : (parameter h arg).2.cell a = h.cell a ∧ (parameter h arg).1 ≠ a ∧
      h.next ≤ (parameter h arg).2.next := by
    cases arg with
    | number r => 
      simp only [parameter, alloc]
      exact ⟨Function.update_of_ne (by omega) _ _, by omega, by omega⟩
    | tensor f b =>
      cases f
      · simp only [parameter, alloc, Bool.not_false, if_true]
        exact ⟨Function.update_of_ne (by omega) _ _, by omega, by omega⟩
      · simp only [Arg.aliases, true_and] at hna
        simp [parameter, hna]
  obtain ⟨h1, h2, h3⟩ := hp
  cases c
  · exact ⟨h1, h3⟩
  · exact ⟨h1, h3⟩
  · exact ⟨by simp only [construct]; rw [Function.update_of_ne h2.symm]; exact h1, h3⟩
  · exact ⟨by simp only [construct]; rw [Function.update_of_ne h2.symm]; exact h1, h3⟩

/-- **C89.** `Stereographic` and `Lorentz` never change the tensor they are given. -/
theorem C89_unconstrained (h : Mem) (c : Cls) (hc : c = .stereographic ∨ c = .lorentz) (arg : Arg)
    (a : ℕ) (ha : a < h.next) : (construct h c arg).2.cell a = h.cell a := by
  have hp : (parameter h arg).2.cell a = h.cell a := by
    cases arg with
    | number r => exact Function.update_of_ne (by omega) _ _
    | tensor f b =>
      cases f
      · exact Function.update_of_ne (by omega) _ _
      · rfl
  rcases hc with rfl | rfl <;> exact hp

/-- **C89.** A manifold keeps its curvature and its radius whatever manifolds are constructed after it,
as long as none of them is given the tensor it was built from. -/
theorem C89_independent_partial (h : Mem) (o : Obj) (ho : o.addr < h.next) (later : List (Cls × Arg))
    (hl : ∀ q ∈ later, ¬ Arg.aliases q.2 o.addr) :
    curvature (constructAll h later) o = curvature h o ∧
      radius (constructAll h later) o = radius h o := by
  have hc : (constructAll h later).cell o.addr = h.cell o.addr := by
    induction later generalizing h with
    | nil => rfl
    | cons q l ih =>
      obtain ⟨h1, h2⟩ := C89_frame h q.1 q.2 o.addr ho (hl q (by simp))
      rw [constructAll, ih _ (by omega) (fun q hq => hl q (by simp [hq])), h1]
  have h1 : curvature (constructAll h later) o = curvature h o := by
    unfold curvature
    rw [hc]
  exact ⟨h1, by unfold radius; rw [h1]⟩

/-- **C89.** `radius` of a new manifold is the radius of its ball: with curvature `r`, the vectors
with `|r| ‖x‖² < 1` are those of norm less than `radius`. -/
theorem C89_radius (h : Mem) (c : Cls) (arg : Arg) (hr : InRange c (arg.value h))
    (h0 : arg.value h ≠ 0) :
    0 < radius (construct h c arg).2 (construct h c arg).1 ∧
    ∀ {n : ℕ} (x : Fin n → ℝ), |arg.value h| * ∑ i, x i ^ 2 < 1 ↔
      √(∑ i, x i ^ 2) < radius (construct h c arg).2 (construct h c arg).1 := by
  unfold radius
  rw [C89_read_back h c arg hr]
  have ha : 0 < |arg.value h| := abs_pos.mpr h0
  have hs : 0 < √|arg.value h| := Real.sqrt_pos.mpr ha
  refine ⟨inv_pos.mpr hs, fun x => ?_⟩
  rw [← one_div, lt_div_iff₀ hs, mul_comm (√_), ← Real.sqrt_mul ha.le, Real.sqrt_lt' one_pos, one_pow]

theorem isp_lt {c : ℝ} (hc : 0 < c) : ispInit c < c := by
  have hpos : 0 < Real.exp c - 1 := by
    have := Real.add_one_lt_exp hc.ne'
    linarith
  rw [ispInit, Real.log_lt_iff_lt_exp hpos]
  linarith

/-- **C89.** `PoincareBall(c)` and `SphereProjection(k)` overwrite the floating point tensor they are
given: every positive curvature is replaced by a smaller number. -/
theorem C89_counterexample_argument (h : Mem) (c : Cls) (hc : c = .poincareBall ∨ c = .sphereProjection)
    (a : ℕ) (hp : 0 < h.cell a) :
    (construct h c (.tensor true a)).2.cell a < h.cell a := by
  have := isp_lt hp
  rcases hc with rfl | rfl <;> simpa [construct, parameter] using this

/-- **C89.** Two Poincaré balls built from one tensor `c` (between `log 2` and `20`) share their
parameter, and both end up with the curvature `log (exp c - 1)` instead of `c`. -/
theorem C89_counterexample_shared (h : Mem) (a : ℕ) (h1 : Real.log 2 < h.cell a) (h2 : h.cell a ≤ 20) :
    let b1 := construct h .poincareBall (.tensor true a)
    let b2 := construct b1.2 .poincareBall (.tensor true a)
    curvature b2.2 b1.1 = Real.log (Real.exp (h.cell a) - 1) ∧
      curvature b2.2 b2.1 = Real.log (Real.exp (h.cell a) - 1) ∧
      Real.log (Real.exp (h.cell a) - 1) < h.cell a := by
  have hp : 0 < h.cell a := (Real.log_pos (by norm_num)).trans h1
  have he : 2 < Real.exp (h.cell a) := by rwa [← Real.log_lt_iff_lt_exp (by norm_num)]
  have hi : 0 < ispInit (h.cell a) := Real.log_pos (by linarith)
  have hi2 : ispInit (h.cell a) ≤ 20 := (isp_lt hp).le.trans h2
  have key := (C12_read_back hi (C12_read_back_range hi hi2)).1
  refine ⟨?_, ?_, isp_lt hp⟩ <;>
    simpa [construct, parameter, curvature, ispInit] using key

/-- Two balls of curvature 1 built from Python numbers: both have curvature 1. -/
example : let b1 := construct ⟨0, fun _ => 0⟩ .poincareBall (.number 1)
    let b2 := construct b1.2 .poincareBall (.number 1)
    curvature b2.2 b1.1 = 1 ∧ curvature b2.2 b2.1 = 1 := by
  intro b1 b2
  have h := C89_independent_partial b1.2 b1.1 (by simp [b1, construct, parameter, alloc])
    [(.poincareBall, .number 1)] (by simp [Arg.aliases])
  constructor
  · exact h.1.trans (C89_read_back ⟨0, fun _ => 0⟩ .poincareBall (.number 1)
      ⟨by norm_num [Arg.value], by norm_num [Arg.value]⟩)
  · exact C89_read_back b1.2 .poincareBall (.number 1)
      ⟨by norm_num [Arg.value], by norm_num [Arg.value]⟩

/-- The Poincaré ball of curvature 4 has radius 1/2: its points are the vectors shorter than 1/2. -/
example : radius (construct ⟨0, fun _ => 0⟩ .poincareBall (.number 4)).2
    (construct ⟨0, fun _ => 0⟩ .poincareBall (.number 4)).1 = 1 / 2 := by
  rw [radius, C89_read_back ⟨0, fun _ => 0⟩ .poincareBall (.number 4)
    ⟨by norm_num [Arg.value], by norm_num [Arg.value]⟩]
  rw [Arg.value, abs_of_pos (by norm_num), show (4 : ℝ) = 2 ^ 2 by norm_num,
    Real.sqrt_sq (by norm_num), one_div]

end C89
