import Verif.Model.OptimBirkhoff
import Verif.Lemmas.Optim
import Verif.Props.C33

/-!
# C110: training keeps matrices of the Birkhoff polytope positive

Whatever a training run with `RiemannianSGD` or `RiemannianAdam` does, the entries of a
`BirkhoffPolytope` parameter stay positive and its rows never sum to more than `1 + n * 1e-12`.  The sums
may become much smaller than one.
-/

namespace Geoopt.C110
open Geoopt Geoopt.Optim Geoopt.Birkhoff

variable {κ : Type} [DecidableEq κ] {ι : κ → Type}

/-- The operations by which an optimiser writes a parameter lead from points with `On` to points with
`On`, for arbitrary directions. -/
structure Keeps {ι : Type} (M : Manifold ι) (On : (ι → ℝ) → Prop) : Prop where
  retr : ∀ x u, On x → On (M.retr x u)
  retrTransp : ∀ x u v, On x → On (M.retrTransp x u v).1
  projx : ∀ x, On x → On (M.projx x)

variable {P : Params κ ι} {On : ∀ a, (ι a → ℝ) → Prop}

omit [DecidableEq κ] in
theorem sgdParam_keeps {a : κ} (hk : Keeps (P.manifold a) (On a)) (h : SGDHyper) (s : SGDParam (ι a))
    (hs : On a s.point) : On a (sgdParam (P.manifold a) h s).1.point := by
  unfold sgdParam
  cases s.grad with
  | none => exact hs
  | sparse => exact hs
  | dense g =>
    dsimp only
    by_cases hm : 0 < h.momentum
    · simp only [if_pos hm]
      cases hb : s.buf with
      | none => exact hk.retrTransp _ _ _ hs
      | some b => exact hk.retrTransp _ _ _ hs
    · simp only [if_neg hm]
      exact hk.retr _ _ hs

omit [DecidableEq κ] in
theorem sgdStab_keeps {a : κ} (hk : Keeps (P.manifold a) (On a)) (h : SGDHyper) (s : SGDParam (ι a))
    (hs : On a s.point) : On a (sgdStab (P.isManifold a) (P.man a) h s).point := by
  cases hM : P.isManifold a with
  | false => exact hs
  | true =>
    have e : P.manifold a = P.man a := by simp [Params.manifold, hM]
    rw [e] at hk
    unfold sgdStab
    simp only [Bool.true_eq_false, if_false]
    split_ifs <;> exact hk.projx _ hs

omit [DecidableEq κ] in
theorem adamParam_keeps {a : κ} (hk : Keeps (P.manifold a) (On a)) (h : AdamHyper)
    (s : AdamParam (ι a)) (hs : On a s.point) : On a (adamParam (P.manifold a) h s).1.point := by
  unfold adamParam
  cases s.grad with
  | none => exact hs
  | sparse => exact hs
  | dense g =>
    dsimp only
    generalize adamInit h.amsgrad s.state = st
    cases h.amsgrad with
    | false => exact hk.retrTransp _ _ _ hs
    | true =>
      cases st.maxExpAvgSq with
      | none => exact hs
      | some vm => exact hk.retrTransp _ _ _ hs

omit [DecidableEq κ] in
theorem adamStab_keeps {a : κ} (hk : Keeps (P.manifold a) (On a)) (s : AdamParam (ι a))
    (hs : On a s.point) : On a (adamStab (P.isManifold a) (P.man a) s).point := by
  cases hM : P.isManifold a with
  | false => exact hs
  | true =>
    have e : P.manifold a = P.man a := by simp [Params.manifold, hM]
    rw [e] at hk
    unfold adamStab
    simp only [Bool.true_eq_false, if_false]
    cases s.state with
    | none => exact hs
    | some st => exact hk.projx _ hs

/-- A set that the manifold operations respect is never left by `RiemannianSGD`: any gradients (dense,
sparse, missing), any hyper-parameters changed at any time, exceptions, `stabilize()` at any time. -/
theorem C110_sgd (hk : ∀ a, Keeps (P.manifold a) (On a)) (o₀ o : SGD κ ι)
    (h0 : ∀ a, On a (o₀.par a).point) (hr : SGDReach P (fun _ => True) o₀ o) :
    ∀ a, On a (o.par a).point := by
  induction hr with
  | start => exact h0
  | user _ h ih => intro a; rw [(h a).1]; exact ih a
  | @step o' _ _ ih =>
    have key : ∀ (Gs : List (Group SGDHyper κ)) (w : ∀ a, SGDParam (ι a)),
        (∀ a, On a (w a).point) → ∀ a, On a ((forGroups (sgdGroup P) Gs w).1 a).point := by
      intro Gs
      induction Gs with
      | nil => intro w hw; exact hw
      | cons G Gs ih =>
        intro w hw
        have h1 := forParams_inv' (fun a => sgdParam (P.manifold a) G.hyper)
          (fun a s => On a s.point) G.params (fun a _ s hs => sgdParam_keeps (hk a) G.hyper s hs) w hw
        have h2 : ∀ a, On a ((sgdGroup P w G).1 a).point := by
          unfold sgdGroup counterGroup
          rcases hf : forParams (fun a => sgdParam (P.manifold a) G.hyper) G.params w with ⟨w', b, e⟩
          rw [hf] at h1
          cases e with
          | some e => exact h1
          | none =>
            dsimp only
            cases G.hyper.stabilize with
            | none => exact h1
            | some k =>
              dsimp only
              rcases isMultiple (G.step + 1) k with e | (_ | _)
              · exact h1
              · exact h1
              · exact stabParams_inv _ (fun a s => On a s.point) G.params
                  (fun a _ s hs => sgdStab_keeps (hk a) G.hyper s hs) w' h1
        rw [forGroups]
        rcases hg : sgdGroup P w G with ⟨w', G', e⟩
        rw [hg] at h2
        cases e with
        | some e => exact h2
        | none => exact ih w' h2
    exact key o'.groups o'.par ih
  | @stabilize o' _ ih =>
    have key : ∀ (Gs : List (Group SGDHyper κ)) (w : ∀ a, SGDParam (ι a)),
        (∀ a, On a (w a).point) → ∀ a, On a (Gs.foldl (fun w G =>
          stabParams (fun a => sgdStab (P.isManifold a) (P.man a) G.hyper) G.params w) w a).point := by
      intro Gs
      induction Gs with
      | nil => intro w hw; exact hw
      | cons G Gs ihG =>
        intro w hw
        exact ihG _ (stabParams_inv _ (fun a s => On a s.point) G.params
          (fun a _ s hs => sgdStab_keeps (hk a) G.hyper s hs) w hw)
    exact key o'.groups o'.par ih

/-- The same for `RiemannianAdam`. -/
theorem C110_adam (hk : ∀ a, Keeps (P.manifold a) (On a)) (o₀ o : Adam κ ι)
    (h0 : ∀ a, On a (o₀.par a).point) (hr : AdamReach P o₀ o) : ∀ a, On a (o.par a).point := by
  induction hr with
  | start => exact h0
  | user _ h ih => intro a; rw [(h a).1]; exact ih a
  | @step o' _ ih =>
    have key : ∀ (Gs : List (AdamHyper × List κ)) (w : ∀ a, AdamParam (ι a)),
        (∀ a, On a (w a).point) → ∀ a, On a ((forGroups (adamGroup P) Gs w).1 a).point := by
      intro Gs
      induction Gs with
      | nil => intro w hw; exact hw
      | cons G Gs ih =>
        intro w hw
        have h1 := forParams_inv' (fun a => adamParam (P.manifold a) G.1)
          (fun a s => On a s.point) G.2 (fun a _ s hs => adamParam_keeps (hk a) G.1 s hs) w hw
        have h2 : ∀ a, On a ((adamGroup P w G).1 a).point := by
          unfold adamGroup flagGroup
          rcases hf : forParams (fun a => adamParam (P.manifold a) G.1) G.2 w with ⟨w', b, e⟩
          rw [hf] at h1
          cases e with
          | some e => exact h1
          | none =>
            dsimp only
            split_ifs
            · exact stabParams_inv _ (fun a s => On a s.point) G.2
                (fun a _ s hs => adamStab_keeps (hk a) s hs) w' h1
            · exact h1
        rw [forGroups]
        rcases hg : adamGroup P w G with ⟨w', G', e⟩
        rw [hg] at h2
        cases e with
        | some e => exact h2
        | none => exact ih w' h2
    exact key o'.groups o'.par ih
  | @stabilize o' _ ih =>
    have key : ∀ (Gs : List (AdamHyper × List κ)) (w : ∀ a, AdamParam (ι a)),
        (∀ a, On a (w a).point) → ∀ a, On a (Gs.foldl (fun w G =>
          stabParams (fun a => adamStab (P.isManifold a) (P.man a)) G.2 w) w a).point := by
      intro Gs
      induction Gs with
      | nil => intro w hw; exact hw
      | cons G Gs ihG =>
        intro w hw
        exact ihG _ (stabParams_inv _ (fun a s => On a s.point) G.2
          (fun a _ s hs => adamStab_keeps (hk a) s hs) w hw)
    exact key o'.groups o'.par ih

/-! ### The Birkhoff polytope -/

/-- Positive entries and no row sum above `1 + n * 1e-12`. -/
def RowBounded {β : Type} {n : ℕ} (x : β × Fin (n + 1) × Fin (n + 1) → ℝ) : Prop :=
  (∀ p, 0 < x p) ∧ ∀ b i, ∑ j, x (b, i, j) ≤ 1 + ((n + 1 : ℕ) : ℝ) * 1e-12

theorem keeps_birkhoff (β : Type) {n : ℕ} (cfg : Config) (he : 0 ≤ cfg.eps) :
    Keeps (Optim.birkhoff β (n := n) cfg) RowBounded := by
  have hr : ∀ x u : β × Fin (n + 1) × Fin (n + 1) → ℝ, RowBounded x →
      RowBounded (ofMats (Birkhoff.retr cfg (toMats x) (toMats u))) := by
    intro x u hx
    have hx' : ∀ b, Positive (toMats x b) := fun b i j => hx.1 (b, i, j)
    exact ⟨fun p => C33_retr_positive cfg _ _ p.1 p.2.1 p.2.2, fun b i =>
      (C33_retr_row_sums cfg he hx' (toMats u) b i).2⟩
  refine ⟨hr, fun x u v => hr x u, fun x hx => ?_⟩
  have hx' : ∀ b, Positive (toMats x b) := fun b i j => hx.1 (b, i, j)
  refine ⟨fun p => (C33_diagonal_scaling cfg he hx' p.1).2 p.2.1 p.2.2, fun b i =>
    (C33_row_sums cfg he hx' b i).2.trans ?_⟩
  have : (0 : ℝ) ≤ ((n + 1 : ℕ) : ℝ) := by positivity
  nlinarith

section
variable {β : κ → Type} {n : κ → ℕ} (cfg : κ → Config) (he : ∀ a, 0 ≤ (cfg a).eps)

/-- Parameters of an optimiser, each a batch of matrices on a Birkhoff polytope. -/
noncomputable def birkhoffParams : Params κ fun a => β a × Fin (n a + 1) × Fin (n a + 1) :=
  ⟨fun _ => true, fun a => Optim.birkhoff (β a) (cfg a)⟩

include he

/-- **C110**, `RiemannianSGD`. -/
theorem C110_birkhoff_sgd (o₀ o : SGD κ fun a => β a × Fin (n a + 1) × Fin (n a + 1))
    (h0 : ∀ a, RowBounded (o₀.par a).point)
    (hr : SGDReach (birkhoffParams cfg) (fun _ => True) o₀ o) (a : κ) :
    RowBounded (o.par a).point :=
  C110_sgd (P := birkhoffParams cfg) (On := fun _ => RowBounded) (fun a => keeps_birkhoff (β a) (cfg a) (he a)) o₀ o h0 hr a

/-- **C110**, `RiemannianAdam`. -/
theorem C110_birkhoff_adam (o₀ o : Adam κ fun a => β a × Fin (n a + 1) × Fin (n a + 1))
    (h0 : ∀ a, RowBounded (o₀.par a).point) (hr : AdamReach (birkhoffParams cfg) o₀ o) (a : κ) :
    RowBounded (o.par a).point :=
  C110_adam (P := birkhoffParams cfg) (On := fun _ => RowBounded) (fun a => keeps_birkhoff (β a) (cfg a) (he a)) o₀ o h0 hr a

end

/-- Doubly stochastic matrices satisfy the hypothesis on the initial parameters. -/
theorem rowBounded_of {β : Type} {n : ℕ} {x : β × Fin (n + 1) × Fin (n + 1) → ℝ}
    (hx : ∀ b, DoublyStochastic (toMats x b)) : RowBounded x := by
  refine ⟨fun p => (hx p.1).pos p.2.1 p.2.2, fun b i => ?_⟩
  have h := (hx b).row i
  change ∑ j, x (b, i, j) = 1 at h
  rw [h]
  have : (0 : ℝ) ≤ ((n + 1 : ℕ) : ℝ) := by positivity
  nlinarith

/-! ### The sums are not kept -/

/-- The centre of the polytope of two by two matrices. -/
noncomputable def mid : Unit × Fin 2 × Fin 2 → ℝ := fun _ => 1 / 2

theorem mid_on (b : Unit) : DoublyStochastic (toMats mid b) := by
  refine ⟨fun i j => ?_, fun i => ?_, fun j => ?_⟩ <;>
  simp [toMats, mid, rowSum, colSum]

/-- With momentum, one step of `RiemannianSGD` at a doubly stochastic matrix, with the default arguments
of the manifold, can end at a matrix all of whose rows sum to less than 0.6: the raw gradient is stored as
the first momentum (C55) and is not tangent. -/
theorem C110_counterexample_row_sums :
    ∃ (o : SGD Unit fun _ => Unit × Fin 2 × Fin 2),
      (∀ a b, DoublyStochastic (toMats (o.par a).point b)) ∧ (∀ a, (o.par a).buf = none) ∧
      (sgdStep (birkhoffParams (n := fun _ => 1) fun _ => Config.default) o).2 = none ∧
      ∀ a b i, ∑ j, ((sgdStep (birkhoffParams (n := fun _ => 1) fun _ => Config.default) o).1.par
        a).point (b, i, j) < 0.6 := by
  refine ⟨⟨fun _ => ⟨mid, .dense fun _ => 100, none⟩, [⟨⟨1, 1, 0, 0, false, none⟩, 0, [()]⟩]⟩,
    fun _ => mid_on, fun _ => rfl, ?_, ?_⟩
  · simp [sgdStep, forGroups, sgdGroup, counterGroup, forParams, sgdParam]
  have hz : Birkhoff.proju (toMats mid ()) (toMats (fun _ => (100 : ℝ)) ()) = 0 := by
    have e : (Matrix.of fun i j => toMats mid () i j * toMats (fun _ => (100 : ℝ)) () i j -
        ((fun _ => 100 : Fin 2 → ℝ) i + (fun _ => 0 : Fin 2 → ℝ) j) * toMats mid () i j) =
        (0 : Matrix (Fin 2) (Fin 2) ℝ) := by
      ext i j
      simp [toMats, mid]
      norm_num
    rw [C34_characterisation (mid_on ()) _ (a := fun _ => 100) (b := fun _ => 0), e]
    rw [e]
    constructor <;> intro i <;> simp [rowSum, colSum]
  have e : ∀ a, ((sgdStep (birkhoffParams (n := fun _ => 1) fun _ => Config.default)
      (⟨fun _ => ⟨mid, .dense fun _ => 100, none⟩, [⟨⟨1, 1, 0, 0, false, none⟩, 0, [()]⟩]⟩ :
        SGD Unit fun _ => Unit × Fin 2 × Fin 2)).1.par a).point =
      ofMats (Birkhoff.retr Config.default (toMats mid) fun _ => Matrix.of fun _ _ => (-100 : ℝ)) := by
    intro a
    have hz' : ((Optim.birkhoff Unit (n := 1) Config.default).egrad2rgrad mid fun _ => 100).value = 0 := by
      funext p
      exact congrFun (congrFun hz p.2.1) p.2.2
    have h1 : (fun b => Matrix.of fun _ _ => (-100 : ℝ)) = toMats (n := 2) (β := Unit)
      (-(fun _ => (100 : ℝ))) := rfl
    rw [h1]
    simp [sgdStep, forGroups, sgdGroup, counterGroup, forParams, sgdParam, Params.manifold,
      birkhoffParams, hz']
    rfl
  intro a b i
  rw [e a]
  set y : Unit → Matrix (Fin 2) (Fin 2) ℝ := fun b => Matrix.of fun i j =>
    toMats mid b i j * Real.exp ((-100 : ℝ) / toMats mid b i j) with hy
  have hexp : Real.exp (-200) ≤ 1e-30 := by
    have h1 : (2 : ℝ) ≤ Real.exp 1 := by linarith [Real.add_one_le_exp (1 : ℝ)]
    have h2 : (2 : ℝ) ^ 200 ≤ Real.exp 200 := by
      calc (2 : ℝ) ^ 200 ≤ Real.exp 1 ^ 200 := pow_le_pow_left₀ (by norm_num) h1 _
        _ = Real.exp 200 := by rw [← Real.exp_nat_mul]; norm_num
    rw [Real.exp_neg, inv_le_comm₀ (Real.exp_pos _) (by norm_num)]
    refine le_trans ?_ h2
    norm_num
  have hyv : ∀ b i j, y b i j = 1 / 2 * Real.exp (-200) := by
    intro b i j
    simp [hy, toMats, mid]
    norm_num
  have hyp : ∀ b, Positive (y b) := fun b i j => by
    rw [hyv]; positivity
  have h := C33_counterexample_tiny Config.default (by norm_num [Config.default]) hyp b (fun i j => by
    rw [hyv]
    refine le_trans (mul_le_mul_of_nonneg_left hexp (by norm_num)) ?_
    norm_num [Config.default]) i
  have hpos := (C33_diagonal_scaling Config.default (by norm_num [Config.default]) hyp b).2
  simp only [rowSum, Fin.sum_univ_two] at h
  rw [Fin.sum_univ_two]
  change max (projx Config.default y b i 0) 1e-12 + max (projx Config.default y b i 1) 1e-12 < 0.6
  have h1 : ∀ j, max (projx Config.default y b i j) 1e-12 ≤ projx Config.default y b i j + 1e-12 :=
    fun j => max_le (by norm_num) (by linarith [hpos i j])
  have h2 := add_le_add (h1 0) (h1 1)
  refine lt_of_le_of_lt h2 ?_
  norm_num at h ⊢
  linarith

/-- Non-vacuity: a step that moves the parameter. -/
example : ∃ o₀ o : SGD Unit fun _ => Unit × Fin 2 × Fin 2,
    (∀ a, RowBounded (n := 1) (o₀.par a).point) ∧
    SGDReach (birkhoffParams (n := fun _ => 1) fun _ => Config.default) (fun _ => True) o₀ o ∧
    (o.par ()).point ≠ (o₀.par ()).point := by
  obtain ⟨o, h1, h2, h3, h4⟩ := C110_counterexample_row_sums
  refine ⟨o, _, fun a => rowBounded_of (h1 a), .step .start trivial, fun h => ?_⟩
  have := h4 () () 0
  rw [h] at this
  have h5 := (h1 () ()).row 0
  simp only [rowSum, toMats, Matrix.of_apply] at h5
  rw [h5] at this
  norm_num at this

end Geoopt.C110
