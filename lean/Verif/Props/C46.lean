import Verif.Props.C45

/-!
# C46, C47, C48 (and the `Scaled` part of C67): laws, type checks and forwarding of `Scaled`
-/

open Geoopt Geoopt.Scaled

namespace C46

variable {E : Type} [AddCommGroup E] [Module ℝ E]

/-! ### Forwarded methods -/

theorem getattr_forwarded (m : Man E) (s : ℝ) (name : String) (g : Sig E)
    (hs : m.scaling.lookup name = none) (hg : forwardSig name = some g)
    (hm : m.getattr name = m.getattr' name) :
    (Man.scaled m s).getattr name = .ok (forwarder g (m.getattr name)) := by
  have hd : ∀ i r : Except PyErr (Method E), manifoldDefault name i r = none := by
    intro i r
    unfold forwardSig at hg
    unfold manifoldDefault
    split_ifs at hg <;> simp_all
  rw [hm]
  simp only [Man.getattr, hs, hd]
  simp only [Man.getattr', hs, hg]

theorem getattr_eq (m : Man E) (name : String) (g : Sig E) (hg : forwardSig name = some g) :
    m.getattr name = m.getattr' name := by
  cases m with
  | base c => rfl
  | scaled b t =>
    have hd : ∀ i r : Except PyErr (Method E), manifoldDefault name i r = none := by
      intro i r
      unfold forwardSig at hg
      unfold manifoldDefault
      split_ifs at hg <;> simp_all
    simp only [Man.getattr, hd]
    cases b.scaling.lookup name <;> rfl

/-- **C48.** `proju`, `projx`, `egrad2rgrad`, `transp`, `inner` and `norm` of `Scaled(M, s)` are the
methods of `M`, called with the same arguments (`keepdim` made explicit). -/
theorem C48_forwarded (m : Man E) (s : ℝ)
    (hs : ∀ name ∈ ["proju", "projx", "egrad2rgrad", "transp", "inner", "norm"],
      m.scaling.lookup name = none) (x u v : Val E) (kd : Val E) :
    (Man.scaled m s).call "proju" [x, u] [] = m.call "proju" [x, u] [] ∧
    (Man.scaled m s).call "projx" [x] [] = m.call "projx" [x] [] ∧
    (Man.scaled m s).call "egrad2rgrad" [x, u] [] = m.call "egrad2rgrad" [x, u] [] ∧
    (Man.scaled m s).call "transp" [x, u, v] [] = m.call "transp" [x, u, v] [] ∧
    (Man.scaled m s).call "inner" [x, u, v] [("keepdim", kd)] =
      m.call "inner" [x, u, v] [("keepdim", kd)] ∧
    (Man.scaled m s).call "norm" [x, u] [("keepdim", kd)] =
      m.call "norm" [x, u] [("keepdim", kd)] := by
  refine ⟨?_, ?_, ?_, ?_, ?_, ?_⟩
  · unfold Man.call
    rw [getattr_forwarded m s "proju" _ (hs _ (by simp)) rfl (getattr_eq m _ _ rfl)]
    cases m.getattr "proju" <;> rfl
  · unfold Man.call
    rw [getattr_forwarded m s "projx" _ (hs _ (by simp)) rfl (getattr_eq m _ _ rfl)]
    cases m.getattr "projx" <;> rfl
  · unfold Man.call
    rw [getattr_forwarded m s "egrad2rgrad" _ (hs _ (by simp)) rfl (getattr_eq m _ _ rfl)]
    cases m.getattr "egrad2rgrad" <;> rfl
  · unfold Man.call
    rw [getattr_forwarded m s "transp" _ (hs _ (by simp)) rfl (getattr_eq m _ _ rfl)]
    cases m.getattr "transp" <;> rfl
  · unfold Man.call
    rw [getattr_forwarded m s "inner" _ (hs _ (by simp)) rfl (getattr_eq m _ _ rfl)]
    cases m.getattr "inner" <;> rfl
  · unfold Man.call
    rw [getattr_forwarded m s "norm" _ (hs _ (by simp)) rfl (getattr_eq m _ _ rfl)]
    cases m.getattr "norm" <;> rfl

/-- **C48.** The same with arguments given by name, in any order. -/
theorem C48_forwarded_keywords (m : Man E) (s : ℝ)
    (hs : ∀ name ∈ ["proju", "projx", "egrad2rgrad", "transp", "inner", "norm"],
      m.scaling.lookup name = none) (x u v : Val E) (kd : Val E) :
    (Man.scaled m s).call "proju" [] [("u", u), ("x", x)] = m.call "proju" [x, u] [] ∧
    (Man.scaled m s).call "projx" [] [("x", x)] = m.call "projx" [x] [] ∧
    (Man.scaled m s).call "egrad2rgrad" [] [("u", u), ("x", x)] = m.call "egrad2rgrad" [x, u] [] ∧
    (Man.scaled m s).call "transp" [] [("y", u), ("v", v), ("x", x)] = m.call "transp" [x, u, v] [] ∧
    (Man.scaled m s).call "inner" [] [("v", v), ("keepdim", kd), ("u", u), ("x", x)] =
      m.call "inner" [x, u, v] [("keepdim", kd)] ∧
    (Man.scaled m s).call "norm" [] [("u", u), ("keepdim", kd), ("x", x)] =
      m.call "norm" [x, u] [("keepdim", kd)] := by
  refine ⟨?_, ?_, ?_, ?_, ?_, ?_⟩
  · unfold Man.call
    rw [getattr_forwarded m s "proju" _ (hs _ (by simp)) rfl (getattr_eq m _ _ rfl)]
    cases m.getattr "proju" <;> rfl
  · unfold Man.call
    rw [getattr_forwarded m s "projx" _ (hs _ (by simp)) rfl (getattr_eq m _ _ rfl)]
    cases m.getattr "projx" <;> rfl
  · unfold Man.call
    rw [getattr_forwarded m s "egrad2rgrad" _ (hs _ (by simp)) rfl (getattr_eq m _ _ rfl)]
    cases m.getattr "egrad2rgrad" <;> rfl
  · unfold Man.call
    rw [getattr_forwarded m s "transp" _ (hs _ (by simp)) rfl (getattr_eq m _ _ rfl)]
    cases m.getattr "transp" <;> rfl
  · unfold Man.call
    rw [getattr_forwarded m s "inner" _ (hs _ (by simp)) rfl (getattr_eq m _ _ rfl)]
    cases m.getattr "inner" <;> rfl
  · unfold Man.call
    rw [getattr_forwarded m s "norm" _ (hs _ (by simp)) rfl (getattr_eq m _ _ rfl)]
    cases m.getattr "norm" <;> rfl

/-- **C48 (partial).** A method that is neither rescaled nor defined on `Manifold` (so that it only
exists on the base) is the method of the base, for every call.  Missing: the methods that
`Manifold` defines and the base overrides (see the counterexamples). -/
theorem C48_getattr_partial (m : Man E) (s : ℝ) (name : String)
    (hs : m.scaling.lookup name = none) (hf : (forwardSig name : Option (Sig E)) = none)
    (hd : name ∉ ["component_inner", "unpack_tensor", "pack_point", "origin"])
    (pos : List (Val E)) (kw : List (String × Val E)) :
    (Man.scaled m s).call name pos kw = m.call name pos kw := by
  have hd' : ∀ i r : Except PyErr (Method E), manifoldDefault name i r = none := by
    intro i r
    simp only [List.mem_cons, List.not_mem_nil, or_false, not_or] at hd
    unfold manifoldDefault
    rw [if_neg hd.1, if_neg hd.2.1, if_neg hd.2.2.1, if_neg hd.2.2.2]
  have e : m.getattr name = m.getattr' name := by
    cases m with
    | base c => rfl
    | scaled b t =>
      simp only [Man.getattr, hd']
      cases b.scaling.lookup name <;> rfl
  unfold Man.call
  rw [e]
  simp only [Man.getattr, hs, hd']
  simp only [Man.getattr', hs, hf]

/-! ### A concrete manifold: `Euclidean(ndim=1)` on vectors of length two

Used for the counterexamples and to show that the hypotheses can be met. -/

abbrev V := Fin 2 → ℝ

/-- A method `(x, u)`-style method on tensors given by a function of its positional values. -/
def fn2 (p q : String) (kwonly : List String) (defaults : List (String × Val V))
    (f : V → V → Res V) : Method V :=
  { params := [p, q], kwonly := kwonly, defaults := defaults, varPos := false, varKw := false,
    run := fun b =>
      match b.named.lookup p, b.named.lookup q with
      | some (.vec a), some (.vec c) => .ok (f a c)
      | _, _ => .error .typeError }

/-- `Euclidean(ndim=1)`, `geoopt/manifolds/euclidean.py:44-170` (the methods used below). -/
noncomputable def euclidean : Cls V where
  methods name :=
    if name = "dist" then
      some (fn2 "x" "y" ["keepdim"] [("keepdim", pyFalse)]
        fun x y => .one (.num (Real.sqrt (∑ i, (x i - y i) ^ 2))))
    else if name = "dist2" then
      some (fn2 "x" "y" ["keepdim"] [("keepdim", pyFalse)]
        fun x y => .one (.num (∑ i, (x i - y i) ^ 2)))
    else if name = "expmap" then some (fn2 "x" "u" [] [] fun x u => .one (.vec (x + u)))
    else if name = "retr" then some (fn2 "x" "u" [] [] fun x u => .one (.vec (x + u)))
    else if name = "logmap" then some (fn2 "x" "y" [] [] fun x y => .one (.vec (y - x)))
    else if name = "norm" then
      some (fn2 "x" "u" ["keepdim"] [("keepdim", pyFalse)]
        fun _ u => .one (.num (Real.sqrt (∑ i, u i ^ 2))))
    else if name = "inner" then
      some { params := ["x", "u", "v"], kwonly := ["keepdim"],
             defaults := [("v", pyNone), ("keepdim", pyFalse)], varPos := false, varKw := false,
             run := fun b =>
               match b.named.lookup "u", b.named.lookup "v" with
               | some (.vec u), some (.vec v) => .ok (.one (.num (∑ i, u i * v i)))
               | some (.vec u), some (.other _) => .ok (.one (.num (∑ i, u i * u i)))
               | _, _ => .error .typeError }
    else if name = "component_inner" then
      some { params := ["x", "u", "v"], kwonly := [], defaults := [("v", pyNone)],
             varPos := false, varKw := false,
             run := fun b =>
               match b.named.lookup "u", b.named.lookup "v" with
               | some (.vec u), some (.vec v) => .ok (.one (.vec (u * v)))
               | some (.vec u), some (.other _) => .ok (.one (.vec (u * u)))
               | _, _ => .error .typeError }
    else if name = "origin" then
      some { params := [], kwonly := ["dtype", "device", "seed"],
             defaults := [("dtype", pyNone), ("device", pyNone), ("seed", .num 42)],
             varPos := true, varKw := false, run := fun _ => .ok (.one (.vec 0)) }
    else if name = "random" ∨ name = "random_normal" then
      some { params := [], kwonly := ["mean", "std", "device", "dtype"],
             defaults := [("mean", .num 0), ("std", .num 1), ("device", pyNone), ("dtype", pyNone)],
             varPos := true, varKw := false,
             run := fun b =>
               match b.named.lookup "mean", b.named.lookup "std" with
               -- the draw of `torch.randn` is the vector `(1, 1)`
               | some (.num m), some (.num s) => .ok (.one (.vec fun _ => 1 * s + m))
               | _, _ => .error .typeError }
    else none
  scaling := euclideanScaling
  reversible := true
  ndim := 1
  clsId := 1

theorem fn2_call (p q : String) (hpq : p ≠ q) (kd : String) (hpk : p ≠ kd) (hqk : q ≠ kd)
    (f : V → V → Res V) (x y : V) :
    (fn2 p q [] [] f).call [.vec x, .vec y] [] = .ok (f x y) ∧
    (fn2 p q [kd] [(kd, pyFalse)] f).call [.vec x, .vec y] [] = .ok (f x y) ∧
    ∀ w, (fn2 p q [kd] [(kd, pyFalse)] f).call [.vec x, .vec y] [(kd, w)] = .ok (f x y) := by
  have h1 : (q == p) = false := by simpa using fun h => hpq h.symm
  have h2 : (p == q) = false := by simpa using hpq
  have h3 : (kd == p) = false := by simpa using fun h => hpk h.symm
  have h4 : (kd == q) = false := by simpa using fun h => hqk h.symm
  have h5 : (p == kd) = false := by simpa using hpk
  have h6 : (q == kd) = false := by simpa using hqk
  refine ⟨?_, ?_, fun w => ?_⟩ <;>
  · simp [Method.call, Method.bind, fn2, List.mapM_cons, List.mapM_nil, bindOne, List.lookup,
      h1, h2, h3, h4, h5, h6, bind, Except.bind, pure, Except.pure]

/-! ### C46 -/

/-- `m.name(args, ...)` returns the tensor `r`. -/
def Gives (m : Man E) (name : String) (args : List E) (r : E) : Prop :=
  m.call name (args.map .vec) [] = .ok (.one (.vec r))

/-- `m.name(args, keepdim=False)` returns the number `r`. -/
def GivesNum (m : Man E) (name : String) (args : List E) (r : ℝ) : Prop :=
  m.call name (args.map .vec) [("keepdim", pyFalse)] = .ok (.one (.num r))

/-- The laws connecting `expmap`, `logmap`, `norm`, `dist`, `dist2`, on a set of points `P` and
for tangent vectors in `D x` (the vectors inside the injectivity radius at `x`). -/
structure Geometry (m : Man E) (P : Set E) (D : E → Set E) : Prop where
  exp_log : ∀ x ∈ P, ∀ y ∈ P, ∃ v, Gives m "logmap" [x, y] v ∧ Gives m "expmap" [x, v] y
  log_exp : ∀ x ∈ P, ∀ u ∈ D x, ∃ y, Gives m "expmap" [x, u] y ∧ Gives m "logmap" [x, y] u
  norm_log : ∀ x ∈ P, ∀ y ∈ P, ∃ v d, Gives m "logmap" [x, y] v ∧ GivesNum m "norm" [x, v] d ∧
    GivesNum m "dist" [x, y] d
  dist2 : ∀ x ∈ P, ∀ y ∈ P, ∃ d, GivesNum m "dist" [x, y] d ∧ GivesNum m "dist2" [x, y] (d ^ 2)
  homog : ∀ x ∈ P, ∀ v n (c : ℝ), 0 < c → GivesNum m "norm" [x, v] n →
    GivesNum m "norm" [x, c • v] (c * n)

/-- **C46.** The laws between `expmap`, `logmap`, `norm`, `dist` and `dist2` carry over from `M` to
`Scaled(M, s)` for every `s > 0`, with the injectivity domain scaled by `s`. -/
theorem C46_laws (m : Man E) (extra : List (String × Rule))
    (hm : m.scaling = manifoldScaling ++ extra) (hn : m.scaling.lookup "norm" = none)
    (f : Method E) (rest : List String) (hf : m.getattr "expmap" = .ok f)
    (hp : f.params = "x" :: "u" :: rest) (P : Set E) (D : E → Set E) (s : ℝ) (hs : 0 < s)
    (h : Geometry m P D) :
    Geometry (.scaled m s) P (fun x => {u | s⁻¹ • u ∈ D x}) := by
  have hexp : ∀ (x u : E) (kw : List (String × Val E)),
      (Man.scaled m s).call "expmap" [.vec x, .vec u] kw =
      m.call "expmap" [.vec x, .vec (s⁻¹ • u)] kw := fun x u kw =>
    C45.C45_displacement m extra hm s "expmap" (by simp) f rest hf hp (.vec x) u [] kw
  have hlog : ∀ x y v : E, Gives m "logmap" [x, y] v → Gives (.scaled m s) "logmap" [x, y] (s • v) :=
    fun x y v hv => (C45.C45_logmap m extra hm s _ _).1 v hv
  have hnorm : ∀ (x u : E) d, GivesNum m "norm" [x, u] d → GivesNum (.scaled m s) "norm" [x, u] d := by
    intro x u d hd
    unfold GivesNum at *
    unfold Man.call at *
    rw [getattr_forwarded m s "norm" _ hn rfl (getattr_eq m _ _ rfl)]
    cases hq : m.getattr "norm" with
    | error e => rw [hq] at hd; cases hd
    | ok g => rw [hq] at hd; exact hd
  have hdist : ∀ (x y : E) d, GivesNum m "dist" [x, y] d →
      GivesNum (.scaled m s) "dist" [x, y] (s * d) := fun x y d hd =>
    (C45.C45_dist m extra hm s _ _).1 d hd
  have hdist2 : ∀ (x y : E) d, GivesNum m "dist2" [x, y] d →
      GivesNum (.scaled m s) "dist2" [x, y] (s ^ 2 * d) := fun x y d hd =>
    (C45.C45_dist2 m extra hm s _ _).1 d hd
  refine ⟨?_, ?_, ?_, ?_, ?_⟩
  · intro x hx y hy
    obtain ⟨v, h1, h2⟩ := h.exp_log x hx y hy
    refine ⟨s • v, hlog x y v h1, ?_⟩
    unfold Gives at h2 ⊢
    simp only [List.map_cons, List.map_nil] at h2 ⊢
    rw [hexp, inv_smul_smul₀ hs.ne', h2]
  · intro x hx u hu
    obtain ⟨y, h1, h2⟩ := h.log_exp x hx _ hu
    refine ⟨y, ?_, ?_⟩
    · unfold Gives at h1 ⊢
      simp only [List.map_cons, List.map_nil] at h1 ⊢
      rw [hexp, h1]
    · have := hlog x y _ h2
      rwa [smul_inv_smul₀ hs.ne'] at this
  · intro x hx y hy
    obtain ⟨v, d, h1, h2, h3⟩ := h.norm_log x hx y hy
    exact ⟨s • v, s * d, hlog x y v h1, hnorm _ _ _ (h.homog x hx v d s hs h2), hdist x y d h3⟩
  · intro x hx y hy
    obtain ⟨d, h1, h2⟩ := h.dist2 x hx y hy
    refine ⟨s * d, hdist x y d h1, ?_⟩
    rw [mul_pow]
    exact hdist2 x y _ h2
  · intro x hx v n c hc hv
    have hbase : GivesNum m "norm" [x, v] n := by
      unfold GivesNum at hv ⊢
      unfold Man.call at hv ⊢
      rw [getattr_forwarded m s "norm" _ hn rfl (getattr_eq m _ _ rfl)] at hv
      cases hq : m.getattr "norm" with
      | error e => rw [hq] at hv; simp only [List.map_cons, List.map_nil] at hv; exact absurd hv (by
          simp [forwarder, Method.call, Method.bind, bindOne, List.mapM_cons, List.mapM_nil,
            List.lookup, bind, Except.bind, pure, Except.pure])
      | ok g => rw [hq] at hv; exact hv
    exact hnorm _ _ _ (h.homog x hx v n c hc hbase)

/-- The hypotheses of `C46_laws` are met by the Euclidean plane. -/
theorem euclidean_geometry : Geometry (.base euclidean) Set.univ (fun _ => Set.univ) := by
  have c := fun f x y => (fn2_call "x" "u" (by decide) "keepdim" (by decide) (by decide) f x y)
  have d := fun f x y => (fn2_call "x" "y" (by decide) "keepdim" (by decide) (by decide) f x y)
  have hexp : ∀ x u : V, Gives (.base euclidean) "expmap" [x, u] (x + u) := fun x u => by
    unfold Gives Man.call
    simp [Man.getattr, Man.getattr', euclidean, (c _ x u).1]
  have hlog : ∀ x y : V, Gives (.base euclidean) "logmap" [x, y] (y - x) := fun x y => by
    unfold Gives Man.call
    simp [Man.getattr, Man.getattr', euclidean, (d _ x y).1]
  have hdist : ∀ x y : V, GivesNum (.base euclidean) "dist" [x, y]
      (Real.sqrt (∑ i, (x i - y i) ^ 2)) := fun x y => by
    unfold GivesNum Man.call
    simp [Man.getattr, Man.getattr', euclidean, (d _ x y).2.2]
  have hdist2 : ∀ x y : V, GivesNum (.base euclidean) "dist2" [x, y]
      (∑ i, (x i - y i) ^ 2) := fun x y => by
    unfold GivesNum Man.call
    simp [Man.getattr, Man.getattr', euclidean, (d _ x y).2.2]
  have hnorm : ∀ x u : V, GivesNum (.base euclidean) "norm" [x, u]
      (Real.sqrt (∑ i, u i ^ 2)) := fun x y => by
    unfold GivesNum Man.call
    simp [Man.getattr, Man.getattr', euclidean, (c _ x y).2.2]
  refine ⟨?_, ?_, ?_, ?_, ?_⟩
  · intro x _ y _
    refine ⟨y - x, hlog x y, ?_⟩
    have := hexp x (y - x)
    rwa [add_sub_cancel] at this
  · intro x _ u _
    refine ⟨x + u, hexp x u, ?_⟩
    have := hlog x (x + u)
    rwa [add_sub_cancel_left] at this
  · intro x _ y _
    refine ⟨y - x, _, hlog x y, hnorm x (y - x), ?_⟩
    have := hdist x y
    have e : (∑ i, (x i - y i) ^ 2) = ∑ i, (y - x) i ^ 2 :=
      Finset.sum_congr rfl fun i _ => by rw [Pi.sub_apply]; ring
    rwa [e] at this
  · intro x _ y _
    refine ⟨_, hdist x y, ?_⟩
    rw [Real.sq_sqrt (Finset.sum_nonneg fun i _ => sq_nonneg _)]
    exact hdist2 x y
  · intro x _ v n c hc hv
    have e := hnorm x v
    unfold GivesNum at e hv
    rw [e] at hv
    simp only [Except.ok.injEq, Res.one.injEq, Val.num.injEq] at hv
    rw [← hv]
    have h2 := hnorm x (c • v)
    have e2 : (∑ i, (c • v) i ^ 2) = c ^ 2 * ∑ i, v i ^ 2 := by
      rw [Finset.mul_sum]
      exact Finset.sum_congr rfl fun i _ => by simp [mul_pow]
    rw [e2, Real.sqrt_mul (sq_nonneg c), Real.sqrt_sq hc.le] at h2
    exact h2

example (s : ℝ) (hs : 0 < s) :
    Geometry (.scaled (.base euclidean) s) Set.univ (fun _ => {u | s⁻¹ • u ∈ Set.univ}) :=
  C46_laws (.base euclidean) _ rfl rfl _ [] rfl rfl _ _ s hs euclidean_geometry

/-! ### C48: where forwarding fails -/

/-- **C48 fails.** `Scaled(Euclidean(1), s).component_inner(x, u, v)` is the full inner product (one
number), not the entrywise product that `Euclidean.component_inner` returns. -/
theorem C48_counterexample_component_inner (s : ℝ) (x u v : V) :
    (Man.base euclidean).call "component_inner" [.vec x, .vec u, .vec v] [] =
      .ok (.one (.vec (u * v))) ∧
    (Man.scaled (.base euclidean) s).call "component_inner" [.vec x, .vec u, .vec v] [] =
      .ok (.one (.num (∑ i, u i * v i))) := by
  constructor
  · simp [Man.call, Man.getattr, Man.getattr', euclidean, Method.call, Method.bind, bindOne,
      List.mapM_cons, List.mapM_nil, List.lookup, bind, Except.bind, pure, Except.pure]
  · have hl : (Man.base euclidean).scaling.lookup "component_inner" = none := rfl
    have hl2 : (Man.base euclidean).scaling.lookup "inner" = none := rfl
    simp only [Man.call, Man.getattr, hl, manifoldDefault, if_true]
    simp only [Man.getattr', hl2, forwardSig, if_true]
    simp [euclidean, Method.call, Method.bind, bindOne, forwarder, Bound.get,
      List.mapM_cons, List.mapM_nil, List.lookup, bind, Except.bind, pure, Except.pure]

/-- **C48 fails.** `Scaled(Euclidean(1), s).origin(2)` is a random sample with standard deviation
`1/s` (drawn with the fixed seed), not the origin that `Euclidean.origin` returns. -/
theorem C48_counterexample_origin (s : ℝ) :
    (Man.base euclidean).call "origin" [.num 2] [] = .ok (.one (.vec 0)) ∧
    (Man.scaled (.base euclidean) s).call "origin" [.num 2] [] =
      .ok (.one (.vec fun _ => s⁻¹)) := by
  constructor
  · simp [Man.call, Man.getattr, Man.getattr', euclidean, Method.call, Method.bind, bindOne,
      List.mapM_cons, List.mapM_nil, List.lookup, bind, Except.bind, pure, Except.pure]
  · have hl : (Man.base euclidean).scaling.lookup "origin" = none := rfl
    have hl2 : (Man.base euclidean).scaling.lookup "random" = some (.info [] [("std", -1)]) := rfl
    simp only [Man.call, Man.getattr, hl, manifoldDefault]
    simp only [Man.getattr', hl2]
    simp [euclidean, Method.call, Method.bind, bindOne, rescale, rescaleArgs, rescaleArg,
      rescaleValue, rescaleRes, Except.map,
      List.mapM_cons, List.mapM_nil, List.lookup, bind, Except.bind, pure, Except.pure]

/-- **C48 fails.** Whatever the base (a product with several parts, say), `Scaled(M).pack_point`
with two parts raises and `Scaled(M).unpack_tensor` returns the tensor itself. -/
theorem C48_counterexample_pack (m : Man E) (s : ℝ)
    (hs : m.scaling.lookup "pack_point" = none) (hs2 : m.scaling.lookup "unpack_tensor" = none)
    (a b t : E) :
    (Man.scaled m s).call "pack_point" [.vec a, .vec b] [] = .error .valueError ∧
    (Man.scaled m s).call "unpack_tensor" [.vec t] [] = .ok (.one (.vec t)) := by
  constructor
  · simp [Man.call, Man.getattr, hs, manifoldDefault, Method.call, Method.bind, List.mapM_nil,
      pure, Except.pure]
  · simp [Man.call, Man.getattr, hs2, manifoldDefault, Method.call, Method.bind, bindOne,
      List.mapM_cons, List.mapM_nil, List.lookup, bind, Except.bind, pure, Except.pure]

/-- **C48 fails.** A base whose `norm` takes the vector only, `norm(u, *, keepdim, dim)` as
`Lorentz.norm`, cannot be called through `Scaled` in either way. -/
theorem C48_counterexample_norm (c : Cls E) (s : ℝ) (run : Bound E → Except PyErr (Res E))
    (hc : c.scaling = lorentzScaling)
    (hn : c.methods "norm" = some ⟨["u"], ["keepdim", "dim"], [("keepdim", pyFalse), ("dim", .num (-1))],
      false, false, run⟩) (x u : Val E) :
    (Man.scaled (.base c) s).call "norm" [u] [] = .error .typeError ∧
    (Man.scaled (.base c) s).call "norm" [x, u] [] = .error .typeError := by
  have hl : (Man.base c).scaling.lookup "norm" = none := by
    show c.scaling.lookup "norm" = none
    rw [hc]; rfl
  unfold Man.call
  rw [getattr_forwarded (.base c) s "norm" _ hl rfl rfl]
  have hg : (Man.base c).getattr "norm" = .ok ⟨["u"], ["keepdim", "dim"],
      [("keepdim", pyFalse), ("dim", .num (-1))], false, false, run⟩ := by
    simp [Man.getattr, Man.getattr', hn]
  rw [hg]
  constructor
  · simp [Method.call, Method.bind, forwarder, bindOne, List.mapM_cons, List.mapM_nil, List.lookup,
      bind, Except.bind, pure, Except.pure]
  · simp [Method.call, Method.bind, forwarder, bindOne, List.mapM_cons, List.mapM_nil, List.lookup,
      bind, Except.bind, pure, Except.pure, Bound.get]

/-- **C48 fails.** `Scaled(Lorentz()).random(*size)` raises `KeyError` for all sizes: the table
registers `random`, but `Lorentz` inherits `Manifold.random`, which has no parameter `std`. -/
theorem C48_counterexample_random (c : Cls E) (s : ℝ) (hc : c.scaling = lorentzScaling)
    (hr : c.methods "random" = some manifoldRandom) (size : List (Val E)) :
    (Man.scaled (.base c) s).call "random" size [] = .error .keyError := by
  have hl : (Man.base c).scaling.lookup "random" = some (.info [] [("std", -1)]) := by
    show c.scaling.lookup "random" = _
    rw [hc]; rfl
  unfold Man.call
  rw [C45.getattr_rescaled (.base c) s "random" _ hl]
  simp [Man.getattr, Man.getattr', hr, Except.map, Method.call, Method.bind, rescale,
    manifoldRandom, bindOne, List.mapM_cons, List.mapM_nil, List.lookup, bind, Except.bind, pure,
    Except.pure, rescaleArgs]

/-- **C45 fails for one class.** A class that copies the table of `Stereographic` but has no method
`random_normal`, as `StereographicProductManifold`, cannot be wrapped: `Scaled(...)` raises. -/
theorem C45_counterexample_product (c : Cls E) (s : ℝ) (hc : c.scaling = stereographicScaling)
    (hr : c.methods "random_normal" = none) :
    mkScaled (.base c) s = .error .attributeError := by
  unfold mkScaled
  rw [if_neg]
  intro h
  rw [List.all_eq_true] at h
  have := h ("random_normal", .info [] [("std", -1)]) (by
    show _ ∈ c.scaling
    rw [hc]; simp [stereographicScaling])
  simp [Man.getattr, Man.getattr', hr, Except.isOk, Except.toBool] at this

/-! ### C47 -/

/-- A manifold wrapped in any number of `Scaled` layers. -/
def wrap (c : Cls E) : List ℝ → Man E
  | [] => .base c
  | s :: ss => .scaled (wrap c ss) s

/-- **C47.** `canonical_manifold` returns the innermost manifold, for any number of layers. -/
theorem C47_canonical (c : Cls E) (ss : List ℝ) : canonicalManifold (wrap c ss) = .base c := by
  induction ss with
  | nil => rfl
  | cons s ss ih => exact ih

/-- **C47.** `ismanifold(m, cls)` is `isinstance(innermost, cls)`, for any number of layers. -/
theorem C47_ismanifold (scaledId : ℕ) (sub : ℕ → Bool) (c : Cls E) (ss : List ℝ) :
    ismanifold scaledId true sub (.manifold (wrap c ss)) = .ok (sub c.clsId) := by
  have : unwrapLoop (wrap c ss) = .base c := by
    induction ss with
    | nil => rfl
    | cons s ss ih => exact ih
  simp [ismanifold, this, Man.isinstance]

/-- **C47.** Every manifold is of the form `wrap c ss`, so the two theorems above cover all. -/
theorem C47_every_manifold (m : Man E) : ∃ c ss, m = wrap c ss := by
  induction m with
  | base c => exact ⟨c, [], rfl⟩
  | scaled b s ih =>
    obtain ⟨c, ss, rfl⟩ := ih
    exact ⟨c, s :: ss, rfl⟩

/-- **C47.** Something that is not a manifold gives `False`; a class that is not a manifold class
raises `TypeError`, whatever the instance. -/
theorem C47_others (scaledId : ℕ) (sub : ℕ → Bool) (o : Obj E) :
    ismanifold scaledId true sub (.somethingElse : Obj E) = .ok false ∧
    ismanifold scaledId false sub o = .error .typeError := by
  simp [ismanifold]

/-- A consequence: no wrapped manifold is an instance of `Scaled` for `ismanifold`, although
`isinstance` says so. -/
theorem C47_scaled_is_transparent (scaledId : ℕ) (sub : ℕ → Bool) (c : Cls E) (s : ℝ)
    (ss : List ℝ) (hsub : ∀ i, sub i = true ↔ i = scaledId) (hc : c.clsId ≠ scaledId) :
    (wrap c (s :: ss)).isinstance scaledId sub = true ∧
      ismanifold scaledId true sub (.manifold (wrap c (s :: ss))) = .ok false := by
  rw [C47_ismanifold]
  refine ⟨(hsub _).2 rfl, ?_⟩
  congr 1
  rw [Bool.eq_false_iff]
  exact fun h => hc ((hsub _).1 h)

/-! ### C67, the `Scaled` part -/

/-- **C67.** Any number of `Scaled` layers keeps `reversible` (and `ndim`) of the innermost
manifold. -/
theorem C67_scaled_reversible (c : Cls E) (ss : List ℝ) :
    (wrap c ss).reversible = c.reversible ∧ (wrap c ss).ndim = c.ndim := by
  induction ss with
  | nil => exact ⟨rfl, rfl⟩
  | cons s ss ih => exact ih

end C46
