import Verif.Model.Base
import Mathlib.Tactic

/-!
# C52, C53: checks and assertions agree; `origin` and the random state
-/

open Geoopt Geoopt.Base

namespace C52

variable {T : Type} (M : Checks T)

/-- What an assertion should do with the verdict of the corresponding check: raise `ValueError`
exactly on a negative verdict; an exception inside the check propagates. -/
def asserted (v : Verdict) : Except PyErr Unit :=
  match v with
  | .error e => .error e
  | .ok (true, _) => .ok ()
  | .ok (false, _) => .error .valueError

/-- The verdict without the reason. -/
def verdictOnly (v : Verdict) : Except PyErr Bool :=
  match v with
  | .error e => .error e
  | .ok (b, _) => .ok b

/-- **C52.** Each assertion raises exactly when the corresponding check says no. -/
theorem C52_assert_agrees (x u : T) (okPoint : Bool) (atol rtol : ℝ) :
    assertCheckPoint M x = asserted (checkPointExplain M x) ∧
    assertCheckVector M u = asserted (checkVectorExplain M u) ∧
    assertCheckPointOnManifold M x atol rtol =
      asserted (checkPointOnManifoldExplain M x atol rtol) ∧
    assertCheckVectorOnTangent M x u okPoint atol rtol =
      asserted (checkVectorOnTangentExplain M x u okPoint atol rtol) := by
  refine ⟨?_, ?_, ?_, ?_⟩
  · unfold assertCheckPoint checkPointExplain
    rcases M.checkShape (M.shape x) "x" with e | ⟨_ | _, r⟩ <;> rfl
  · unfold assertCheckVector checkVectorExplain
    rcases M.checkShape (M.shape u) "u" with e | ⟨_ | _, r⟩ <;> rfl
  · unfold assertCheckPointOnManifold checkPointOnManifoldExplain assertCheckPoint
    rcases M.checkShape (M.shape x) "x" with e | ⟨_ | _, r⟩
    · rfl
    · rfl
    · rcases M.checkPoint x atol rtol with e | ⟨_ | _, r⟩ <;> rfl
  · unfold assertCheckVectorOnTangent checkVectorOnTangentExplain
    rcases tangentVerdict M x u okPoint atol rtol with e | ⟨_ | _, r⟩ <;> rfl

/-- **C52.** `explain` does not change the verdict. -/
theorem C52_explain_agrees (x u : T) (okPoint : Bool) (atol rtol : ℝ) :
    checkPoint M x = verdictOnly (checkPointExplain M x) ∧
    checkVector M u = verdictOnly (checkVectorExplain M u) ∧
    checkPointOnManifold M x atol rtol =
      verdictOnly (checkPointOnManifoldExplain M x atol rtol) ∧
    checkVectorOnTangent M x u okPoint atol rtol =
      verdictOnly (checkVectorOnTangentExplain M x u okPoint atol rtol) := by
  refine ⟨?_, ?_, ?_, ?_⟩
  · unfold checkPoint checkPointExplain
    rcases M.checkShape (M.shape x) "x" with e | ⟨_ | _, r⟩ <;> rfl
  · unfold checkVector checkVectorExplain
    rcases M.checkShape (M.shape u) "u" with e | ⟨_ | _, r⟩ <;> rfl
  · unfold checkPointOnManifold checkPointOnManifoldExplain
    rcases M.checkShape (M.shape x) "x" with e | ⟨_ | _, r⟩
    · rfl
    · rfl
    · rcases M.checkPoint x atol rtol with e | ⟨_ | _, r⟩ <;> rfl
  · unfold checkVectorOnTangent checkVectorOnTangentExplain
    rcases tangentVerdict M x u okPoint atol rtol with e | ⟨_ | _, r⟩ <;> rfl

/-- The reason is `None` exactly for a positive verdict. -/
def Explained (v : Verdict) : Prop := ∀ b r, v = .ok (b, r) → (r = none ↔ b = true)

/-- **C52 (partial).** If the private checks of a manifold give a reason exactly when they say no, so
do the public ones.  Missing: the premise fails for `Sphere` with a subspace. -/
theorem C52_reason_partial (hs : ∀ s n, Explained (M.checkShape s n))
    (hp : ∀ x a r, Explained (M.checkPoint x a r))
    (ht : ∀ x u a r, Explained (M.checkTangent x u a r)) (x u : T) (okPoint : Bool)
    (atol rtol : ℝ) :
    Explained (checkPointExplain M x) ∧ Explained (checkVectorExplain M u) ∧
    Explained (checkPointOnManifoldExplain M x atol rtol) ∧
    Explained (checkVectorOnTangentExplain M x u okPoint atol rtol) := by
  have hid : ∀ v : Verdict, (do let (ok, reason) ← v; return (ok, reason)) = v := by
    rintro (e | ⟨b, r⟩) <;> rfl
  refine ⟨?_, ?_, ?_, ?_⟩
  · unfold checkPointExplain; rw [hid]; exact hs _ _
  · unfold checkVectorExplain; rw [hid]; exact hs _ _
  · unfold checkPointOnManifoldExplain
    have h1 := hs (M.shape x) "x"
    have h2 := hp x atol rtol
    revert h1 h2
    rcases M.checkShape (M.shape x) "x" with e | ⟨_ | _, r⟩
    · intro _ _ b r h; cases h
    · intro h1 _; exact h1
    · intro _ h2
      rcases hq : M.checkPoint x atol rtol with e | ⟨b, r⟩
      · intro b r h; cases h
      · rw [hq] at h2; exact h2
  · unfold checkVectorOnTangentExplain
    rw [hid]
    unfold tangentVerdict
    have h1 := hs (M.shape x) "x"
    have h2 := hs (M.shape u) "u"
    have h3 := hp x atol rtol
    have h4 := ht x u atol rtol
    revert h1 h2 h3 h4
    cases okPoint
    · rcases M.checkShape (M.shape x) "x" with e | ⟨_ | _, r⟩
      · intro _ _ _ _ b r h; cases h
      · intro h1 _ _ _; exact h1
      · rcases M.checkShape (M.shape u) "u" with e | ⟨_ | _, r⟩
        · intro _ _ _ _ b r h; cases h
        · intro _ h2 _ _; exact h2
        · rcases M.checkPoint x atol rtol with e | ⟨_ | _, r⟩
          · intro _ _ _ _ b r h; cases h
          · intro _ _ h3 _; exact h3
          · intro _ _ _ h4; exact h4
    · intro _ _ _ h4; exact h4

/-- **C52.** A wrong shape is reported before the value is looked at: the value checks are not
run (they could raise). -/
theorem C52_shape_first (x u : T) (atol rtol : ℝ) (r : Option String) :
    (M.checkShape (M.shape x) "x" = .ok (false, r) →
      checkPointOnManifoldExplain M x atol rtol = .ok (false, r) ∧
      checkVectorOnTangentExplain M x u false atol rtol = .ok (false, r)) ∧
    (∀ q, M.checkShape (M.shape x) "x" = .ok (true, q) →
      M.checkShape (M.shape u) "u" = .ok (false, r) →
      checkVectorOnTangentExplain M x u false atol rtol = .ok (false, r)) := by
  refine ⟨fun h => ⟨?_, ?_⟩, fun q h1 h2 => ?_⟩
  · simp [checkPointOnManifoldExplain, h, bind, Except.bind, pure, Except.pure]
  · simp [checkVectorOnTangentExplain, tangentVerdict, h, bind, Except.bind, pure, Except.pure]
  · simp [checkVectorOnTangentExplain, tangentVerdict, h1, h2, bind, Except.bind, pure, Except.pure]

/-- **C52.** With `ok_point=True` only the tangency check is run, and without it a positive verdict
means that all four checks passed. -/
theorem C52_ok_point (x u : T) (atol rtol : ℝ) :
    checkVectorOnTangentExplain M x u true atol rtol = M.checkTangent x u atol rtol ∧
    (checkVectorOnTangent M x u false atol rtol = .ok true ↔
      (∃ r, M.checkShape (M.shape x) "x" = .ok (true, r)) ∧
      (∃ r, M.checkShape (M.shape u) "u" = .ok (true, r)) ∧
      (∃ r, M.checkPoint x atol rtol = .ok (true, r)) ∧
      (∃ r, M.checkTangent x u atol rtol = .ok (true, r))) := by
  constructor
  · unfold checkVectorOnTangentExplain tangentVerdict
    simp only [bind, Except.bind, pure, Except.pure, Bool.not_true, Bool.false_eq_true, if_false,
      if_true]
    rcases M.checkTangent x u atol rtol with e | ⟨b, r⟩ <;> rfl
  · unfold checkVectorOnTangent tangentVerdict
    rcases M.checkShape (M.shape x) "x" with e | ⟨_ | _, r⟩
    · simp [bind, Except.bind]
    · simp [bind, Except.bind, pure, Except.pure]
    · rcases M.checkShape (M.shape u) "u" with e | ⟨_ | _, r⟩
      · simp [bind, Except.bind]
      · simp [bind, Except.bind, pure, Except.pure]
      · rcases M.checkPoint x atol rtol with e | ⟨_ | _, r⟩
        · simp [bind, Except.bind]
        · simp [bind, Except.bind, pure, Except.pure]
        · rcases M.checkTangent x u atol rtol with e | ⟨_ | _, r⟩ <;>
            simp [bind, Except.bind, pure, Except.pure]

/-! ### The shape checks of the classes -/

theorem fromEnd_one (s : List ℕ) (d : ℕ) : fromEnd (s ++ [d]) 1 = .ok d := by simp [fromEnd]

theorem fromEnd_two (s : List ℕ) (c d : ℕ) : fromEnd (s ++ [c, d]) 2 = .ok c := by simp [fromEnd]

theorem fromEnd_last (s : List ℕ) (c d : ℕ) : fromEnd (s ++ [c, d]) 1 = .ok d := by simp [fromEnd]

theorem split_one (s : List ℕ) (h : 1 ≤ s.length) : ∃ b d, s = b ++ [d] := by
  obtain ⟨b, d, e⟩ := List.eq_nil_or_concat s |>.resolve_left (by rintro rfl; simp at h)
  exact ⟨b, d, by simpa using e⟩

theorem split_two (s : List ℕ) (h : 2 ≤ s.length) : ∃ b c d, s = b ++ [c, d] := by
  obtain ⟨b, d, rfl⟩ := split_one s (by omega)
  obtain ⟨b', c, rfl⟩ := split_one b (by simpa using h)
  exact ⟨b', c, d, by simp⟩

/-- **C52.** Which shapes the classes accept: at least `ndim` axes; for Stiefel matrices not wider
than high; for the Birkhoff polytope square matrices; on a full sphere more than one
coordinate. -/
theorem C52_accepted_shapes (ndim : ℕ) (s : List ℕ) (n : String) :
    (verdictOnly (baseCheckShape ndim s n) = .ok true ↔ ndim ≤ s.length) ∧
    (verdictOnly (stiefelCheckShape s n) = .ok true ↔ ∃ b c d, s = b ++ [c, d] ∧ d ≤ c) ∧
    (verdictOnly (birkhoffCheckShape s n) = .ok true ↔ ∃ b c, s = b ++ [c, c]) ∧
    (verdictOnly (sphereCheckShape none s n) = .ok true ↔ ∃ b d, s = b ++ [d] ∧ d ≠ 1) := by
  refine ⟨?_, ?_, ?_, ?_⟩
  · unfold baseCheckShape
    split_ifs with h <;> simp [verdictOnly, h]
  · unfold stiefelCheckShape baseCheckShape
    split_ifs with h
    · obtain ⟨b, c, d, rfl⟩ := split_two s h
      simp only [bind, Except.bind, fromEnd_last, fromEnd_two, Bool.not_true, Bool.false_eq_true,
        if_false, pure, Except.pure]
      split_ifs with h2
      · simp only [verdictOnly, true_iff]
        exact ⟨b, c, d, rfl, by omega⟩
      · simp only [verdictOnly, Except.ok.injEq, Bool.false_eq_true, false_iff]
        rintro ⟨b', c', d', e, hle⟩
        have := List.append_inj' e rfl
        simp only [List.cons.injEq, and_true] at this
        omega
    · simp only [bind, Except.bind, pure, Except.pure, Bool.not_false, if_true, verdictOnly,
        Except.ok.injEq, Bool.false_eq_true, false_iff]
      rintro ⟨b, c, d, rfl, _⟩
      simp at h
  · unfold birkhoffCheckShape baseCheckShape
    split_ifs with h
    · obtain ⟨b, c, d, rfl⟩ := split_two s h
      simp only [bind, Except.bind, fromEnd_last, fromEnd_two, Bool.not_true, Bool.false_eq_true,
        if_false, pure, Except.pure]
      split_ifs with h2
      · simp only [verdictOnly, true_iff]
        exact ⟨b, c, by rw [h2]⟩
      · simp only [verdictOnly, Except.ok.injEq, Bool.false_eq_true, false_iff]
        rintro ⟨b', c', e⟩
        have := List.append_inj' e rfl
        simp only [List.cons.injEq, and_true] at this
        omega
    · simp only [bind, Except.bind, pure, Except.pure, Bool.not_false, if_true, verdictOnly,
        Except.ok.injEq, Bool.false_eq_true, false_iff]
      rintro ⟨b, c, rfl⟩
      simp at h
  · unfold sphereCheckShape baseCheckShape
    split_ifs with h
    · obtain ⟨b, d, rfl⟩ := split_one s h
      simp only [bind, Except.bind, fromEnd_one, pure, Except.pure, verdictOnly, Except.ok.injEq,
        decide_eq_true_eq]
      constructor
      · intro hd; exact ⟨b, d, rfl, hd⟩
      · rintro ⟨b', d', e, hd⟩
        have := List.append_inj' e rfl
        simp only [List.cons.injEq, and_true] at this
        omega
    · simp only [bind, Except.bind, pure, Except.pure, verdictOnly, Except.ok.injEq,
        Bool.false_eq_true, false_iff]
      rintro ⟨b, d, rfl, _⟩
      simp at h

/-- **C52.** The shape checks of all classes except `Sphere` with a subspace explain themselves. -/
theorem C52_shape_reasons (ndim nElements : ℕ) (s : List ℕ) (n : String) :
    Explained (baseCheckShape ndim s n) ∧ Explained (stiefelCheckShape s n) ∧
    Explained (birkhoffCheckShape s n) ∧ Explained (sphereCheckShape none s n) ∧
    Explained (productCheckShape nElements s n) := by
  refine ⟨?_, ?_, ?_, ?_, ?_⟩
  · unfold baseCheckShape; split_ifs <;> · intro b r h; cases h; simp
  · unfold stiefelCheckShape baseCheckShape
    split_ifs with h
    · obtain ⟨b, c, d, rfl⟩ := split_two s h
      simp only [bind, Except.bind, fromEnd_last, fromEnd_two, Bool.not_true, Bool.false_eq_true,
        if_false, pure, Except.pure]
      split_ifs <;> · intro b r h; cases h; simp
    · intro b r h; cases h; simp
  · unfold birkhoffCheckShape baseCheckShape
    split_ifs with h
    · obtain ⟨b, c, d, rfl⟩ := split_two s h
      simp only [bind, Except.bind, fromEnd_last, fromEnd_two, Bool.not_true, Bool.false_eq_true,
        if_false, pure, Except.pure]
      split_ifs <;> · intro b r h; cases h; simp
    · intro b r h; cases h; simp
  · unfold sphereCheckShape baseCheckShape
    split_ifs with h
    · obtain ⟨b, d, rfl⟩ := split_one s h
      simp only [bind, Except.bind, fromEnd_one, pure, Except.pure]
      intro b r h
      cases h
      by_cases hd : d = 1 <;> simp [hd]
    · intro b r h; cases h; simp
  · unfold productCheckShape
    cases fromEnd s 1 with
    | error e => intro b r h; cases h
    | ok d =>
      simp only [bind, Except.bind]
      by_cases hd : d = nElements <;>
      · simp only [hd, decide_true, decide_false, Bool.not_true, Bool.not_false, if_true,
          Bool.false_eq_true, if_false, pure, Except.pure]
        intro b r h; cases h; simp

/-- **C52 fails.** On a sphere with a subspace, `check_point(x, explain=True)` accepts a vector of the
right length and yet gives a reason for refusing it. -/
theorem C52_counterexample_sphere (n : ℕ) :
    ∃ reason, sphereCheckShape (some [n, n]) [n] "x" = .ok (true, some reason) := by
  refine ⟨"should have at least n dimensions", ?_⟩
  have h1 : fromEnd [n] 1 = .ok n := by simp [fromEnd]
  have h2 : fromEnd [n, n] 2 = .ok n := by simp [fromEnd]
  simp [sphereCheckShape, baseCheckShape, h1, h2, bind, Except.bind, pure, Except.pure]

/-- **C52 fails.** The number of axes demanded by a batched subspace is not enforced: a projector of
shape `(b, n, n)` accepts a single vector of shape `(n,)`. -/
theorem C52_counterexample_batched_subspace (b n : ℕ) :
    verdictOnly (sphereCheckShape (some [b, n, n]) [n] "x") = .ok true := by
  have h1 : fromEnd [n] 1 = .ok n := by simp [fromEnd]
  have h2 : fromEnd [b, n, n] 2 = .ok n := by simp [fromEnd]
  simp [verdictOnly, sphereCheckShape, baseCheckShape, h1, h2, bind, Except.bind, pure, Except.pure]

/-- **C52 fails.** On a product manifold the shape check of a scalar raises `IndexError` instead of
saying no. -/
theorem C52_counterexample_product (nElements : ℕ) (n : String) :
    productCheckShape nElements [] n = .error .indexError := rfl

example : verdictOnly (stiefelCheckShape [7, 5, 3] "x") = .ok true := by rfl
example : verdictOnly (stiefelCheckShape [7, 3, 5] "x") = .ok false := by rfl

/-! ## C53 -/

variable {G H α : Type} (seedG : ℕ → G) (seedH : ℕ → H) (random : Rand G H α)

/-- **C53.** With a seed, the result (value or exception) does not depend on the global random
state. -/
theorem C53_deterministic (s : ℕ) (w w' : World G H) :
    (origin seedG seedH random (some s) w).1 = (origin seedG seedH random (some s) w').1 := by
  simp only [origin, pyTryFinally, manualSeed]
  rcases random ⟨seedG s, seedH s⟩ with ⟨e | a, v⟩ <;> rfl

/-- **C53 (partial).** With a seed, the state of the CPU generator is restored, also when sampling
raises.  Missing: the accelerator generators (see the counterexample). -/
theorem C53_cpu_state_kept_partial (s : ℕ) (w : World G H) :
    (origin seedG seedH random (some s) w).2.cpu = w.cpu := by
  simp only [origin, pyTryFinally, manualSeed]
  rcases random ⟨seedG s, seedH s⟩ with ⟨e | a, v⟩ <;> rfl

/-- **C53 fails for accelerators.** The accelerator generator is left seeded: after `origin(seed=s)`
of a CPU manifold every program continues from the same accelerator state, whatever it was
before. -/
theorem C53_counterexample_cuda (s : ℕ) (w : World G H)
    (hcpu : ∀ v, (random v).2.cuda = v.cuda) :
    (origin seedG seedH random (some s) w).2.cuda = seedH s := by
  simp only [origin, pyTryFinally, manualSeed]
  have := hcpu ⟨seedG s, seedH s⟩
  rcases h : random ⟨seedG s, seedH s⟩ with ⟨e | a, v⟩ <;>
  · rw [h] at this; exact this

/-- **C53.** Without a seed, `origin` is `random`: it draws from the global state. -/
theorem C53_no_seed (w : World G H) : origin seedG seedH random none w = random w := rfl

/-- The random state is really used: two different seeds may give different results. -/
example : (origin (G := ℕ) (H := ℕ) id id (fun w => (.ok w.cpu, ⟨w.cpu + 1, w.cuda⟩)) (some 1) ⟨7, 7⟩)
    = (.ok 1, ⟨7, 1⟩) := rfl

/-- An exception while sampling. -/
example : (origin (G := ℕ) (H := ℕ) (α := ℕ) id id
    (fun w => (.error .valueError, ⟨w.cpu + 5, w.cuda⟩)) (some 1) ⟨7, 7⟩)
    = (.error .valueError, ⟨7, 1⟩) := rfl

end C52
