import Verif.Model.TensorMethods
import Verif.Props.C45
import Mathlib.Tactic

/-!
# C88: the methods of a manifold tensor are those of its manifold at that tensor
-/

namespace C88
open Geoopt Geoopt.Scaled Geoopt.TMethods

variable {E : Type}

theorem lookup_zip_none (l : List String) (a : List (Val E)) (p : String) (h : p ∉ l) :
    (l.zip a).lookup p = none := by
  induction l generalizing a with
  | nil => rfl
  | cons x l ih =>
    cases a with
    | nil => rfl
    | cons y a =>
      simp only [List.mem_cons, not_or] at h
      rw [List.zip_cons_cons, List.lookup_cons, beq_false_of_ne h.1]
      exact ih a h.2

theorem lookup_append' (l k : List (String × Val E)) (p : String) :
    (l ++ k).lookup p = ((l.lookup p).orElse fun _ => k.lookup p) := by
  induction l with
  | nil => simp
  | cons x l ih =>
    obtain ⟨a, v⟩ := x
    rw [List.cons_append, List.lookup_cons, List.lookup_cons]
    cases h : p == a
    · exact ih
    · rfl

theorem lookup_none_of (k : List (String × Val E)) (p : String) (h : p ∉ k.map Prod.fst) :
    k.lookup p = none := by
  induction k with
  | nil => rfl
  | cons x k ih =>
    obtain ⟨a, v⟩ := x
    simp only [List.map_cons, List.mem_cons, not_or] at h
    rw [List.lookup_cons, beq_false_of_ne h.1]
    exact ih h.2

/-- Passing the arguments that follow the positional ones by keyword or by position is the same. -/
theorem bind_keyword (f : Method E) (pre names rest : List String)
    (hp : f.params = pre ++ names ++ rest) (hn : f.params.Nodup)
    (pos args : List (Val E)) (hpos : pos.length = pre.length) (hargs : args.length = names.length)
    (kw : List (String × Val E)) (hkw : ∀ p ∈ names, p ∉ kw.map Prod.fst) :
    f.bind pos (names.zip args ++ kw) = f.bind (pos ++ args) kw := by
  have hlen : f.params.length = pre.length + names.length + rest.length := by
    rw [hp]; simp; omega
  unfold Method.bind
  have hl2 : ¬ (f.params.length < (pos ++ args).length ∧ f.varPos = false) := by
    rw [List.length_append]; omega
  rw [if_neg (by omega), if_neg hl2]
  have hfil : (names.zip args ++ kw).filter (fun q => !(f.params ++ f.kwonly).contains q.1) =
      kw.filter (fun q => !(f.params ++ f.kwonly).contains q.1) := by
    rw [List.filter_append, List.filter_eq_nil_iff.2, List.nil_append]
    rintro ⟨p, v⟩ hq
    have := (List.of_mem_zip hq).1
    simp [hp, this]
  have hmap : ∀ p, bindOne f (f.params.zip pos) (names.zip args ++ kw) p =
      bindOne f (f.params.zip (pos ++ args)) kw p := by
    intro p
    have e1 : f.params.zip pos = pre.zip pos := by
      rw [hp, List.append_assoc, ← List.append_nil pos,
        List.zip_append (by simpa using hpos.symm)]
      simp
    have e2 : f.params.zip (pos ++ args) = pre.zip pos ++ names.zip args := by
      rw [hp, List.append_assoc, List.zip_append hpos.symm]
      congr 1
      rw [← List.append_nil args, List.zip_append (by simpa using hargs.symm)]
      simp
    rw [hp, List.append_assoc, List.nodup_append, List.nodup_append] at hn
    obtain ⟨-, ⟨-, -, -⟩, hd⟩ := hn
    unfold bindOne
    rw [e1, e2, lookup_append', lookup_append']
    by_cases hin : p ∈ names
    · rw [lookup_none_of kw p (hkw p hin),
        lookup_zip_none pre pos p (fun h => hd p h p (List.mem_append_left _ hin) rfl)]
      have : ∃ v, (names.zip args).lookup p = some v := by
        clear hp e1 e2 hd hfil hkw hlen hl2
        induction names generalizing args with
        | nil => cases hin
        | cons a l ih =>
          cases args with
          | nil => simp at hargs
          | cons v args =>
            rw [List.zip_cons_cons, List.lookup_cons]
            cases h : p == a
            · simp only [List.mem_cons] at hin
              rcases hin with rfl | hin
              · simp at h
              · exact ih args (by simpa using hargs) hin
            · exact ⟨v, rfl⟩
      obtain ⟨v, hv⟩ := this
      rw [hv]
      rfl
    · rw [lookup_zip_none names args p hin]
      cases (pre.zip pos).lookup p <;> rfl
  simp only
  rw [hfil, show bindOne f (f.params.zip pos) (names.zip args ++ kw) =
    bindOne f (f.params.zip (pos ++ args)) kw from funext hmap]
  rw [List.drop_eq_nil_of_le (by omega), List.drop_eq_nil_of_le (by rw [List.length_append]; omega)]

/-- Binding when every parameter gets a positional argument. -/
theorem bind_full (f : Method E) (hk : f.kwonly = []) (hn : f.params.Nodup) (hv : f.varKw = true ∨ kw = [])
    (args : List (Val E)) (hargs : args.length = f.params.length)
    (hkw : ∀ p ∈ f.params, p ∉ (kw : List (String × Val E)).map Prod.fst) :
    f.bind args kw = .ok ⟨f.params.zip args, [], kw⟩ := by
  unfold Method.bind
  rw [if_neg (by omega)]
  simp only [hk, List.append_nil]
  have hfil : kw.filter (fun q => !f.params.contains q.1) = kw := by
    rw [List.filter_eq_self]
    rintro ⟨p, v⟩ hq
    simp only [Bool.not_eq_true', List.contains_eq_mem, decide_eq_false_iff_not]
    intro h
    exact hkw p h (List.mem_map_of_mem (f := Prod.fst) hq)
  rw [hfil, if_neg (by rcases hv with h | h <;> simp [h]), List.drop_eq_nil_of_le (by omega)]
  have key : ∀ (l : List String) (a : List (Val E)) (full : List (String × Val E)),
      a.length = l.length → l.Nodup → (∀ p ∈ l, full.lookup p = (l.zip a).lookup p) →
      (∀ p ∈ l, p ∉ kw.map Prod.fst) → l.mapM (bindOne f full kw) = .ok (l.zip a) := by
    intro l
    induction l with
    | nil => intros; rfl
    | cons x l ih =>
      intro a full ha hnd hl hk
      cases a with
      | nil => simp at ha
      | cons v a =>
        rw [List.mapM_cons]
        have h1 : bindOne f full kw x = .ok (x, v) := by
          unfold bindOne
          rw [hl x (by simp), lookup_none_of kw x (hk x (by simp))]
          simp [List.lookup_cons]
        rw [h1, ih a full (by simpa using ha) (List.nodup_cons.1 hnd).2 (fun p hp => ?_)
          (fun p hp => hk p (by simp [hp]))]
        · rfl
        · rw [hl p (by simp [hp]), List.zip_cons_cons, List.lookup_cons,
            beq_false_of_ne (fun h : p = x => (List.nodup_cons.1 hnd).1 (h ▸ hp))]
  rw [key f.params args _ hargs hn (fun _ _ => rfl) hkw]

theorem flatMap_get (l : List String) (a : List (Val E)) (hn : l.Nodup) (ha : a.length = l.length)
    (vs : List (Val E)) (ex : List (String × Val E)) :
    l.flatMap (Bound.get ⟨l.zip a, vs, ex⟩) = a := by
  have key : ∀ (l : List String) (a : List (Val E)) (full : List (String × Val E)),
      a.length = l.length → l.Nodup → (∀ p ∈ l, full.lookup p = (l.zip a).lookup p) →
      l.flatMap (fun p => (full.lookup p).toList) = a := by
    intro l
    induction l with
    | nil => intro a _ ha _ _; exact (List.length_eq_zero_iff.1 ha).symm
    | cons x l ih =>
      intro a full ha hnd hl
      cases a with
      | nil => simp at ha
      | cons v a =>
        rw [List.flatMap_cons, hl x (by simp), ih a full (by simpa using ha) (List.nodup_cons.1 hnd).2
          (fun p hp => ?_)]
        · simp [List.lookup_cons]
        · rw [hl p (by simp [hp]), List.zip_cons_cons, List.lookup_cons,
            beq_false_of_ne (fun h : p = x => (List.nodup_cons.1 hnd).1 (h ▸ hp))]
  exact key l a _ ha hn (fun _ _ => rfl)

theorem mem_of_lookup {β : Type} (l : List (String × β)) (p : String) (v : β)
    (h : l.lookup p = some v) : (p, v) ∈ l := by
  induction l with
  | nil => cases h
  | cons x l ih =>
    obtain ⟨a, w⟩ := x
    rw [List.lookup_cons] at h
    cases hb : p == a <;> rw [hb] at h
    · exact List.mem_cons_of_mem _ (ih h)
    · cases h
      rw [eq_of_beq hb]
      exact List.mem_cons_self

theorem fwd_facts (name : String) (g : Fwd E) (h : fwd name = some g) :
    g.params.Nodup ∧ (g.varKw = true ∨ name = "unpack_tensor") := by
  have hall : ∀ q ∈ (fwdTable : List (String × Fwd E)),
      q.2.params.Nodup ∧ (q.2.varKw = true ∨ q.1 = "unpack_tensor") := by
    simp [fwdTable]
  exact hall _ (mem_of_lookup _ _ _ h)

variable [AddCommGroup E] [Module ℝ E]

/-- **C88.** `t.name(*args, **kw)` is `t.manifold.name(t, *args, **kw)`, results and errors, for every
forwarding method `name` of a manifold tensor (`retr`, `expmap`, `inner`, `proju`, `transp`,
`retr_transp`, `expmap_transp`, `transp_follow_expmap`, `transp_follow_retr`, `logmap`,
`unpack_tensor`), every manifold that has the method, and any way of splitting the arguments into
positional ones and keywords on the side of the tensor.  `g.params` are the documented parameters of
the method of the tensor.  Where the tensor passes its arguments by keyword, the manifold's
parameters must have the same names. -/
theorem C88_forward (m : Man E) (t : E) (name : String) (g : Fwd E) (hg : fwd name = some g)
    (f : Method E) (hf : m.getattr name = .ok f) (hfn : f.params.Nodup)
    (first : String) (rest : List String)
    (hsig : g.byKeyword = true → f.params = first :: g.params ++ rest)
    (args : List (Val E)) (hargs : args.length = g.params.length)
    (kw : List (String × Val E)) (hkw : ∀ p ∈ g.params, p ∉ kw.map Prod.fst)
    (hu : name = "unpack_tensor" → kw = []) (i : ℕ) (hi : i ≤ args.length) :
    TMethods.call m t name (args.take i) ((g.params.drop i).zip (args.drop i) ++ kw) =
      m.call name (.vec t :: args) kw := by
  obtain ⟨hnd, hvar⟩ := fwd_facts name g hg
  unfold TMethods.call
  rw [hg]
  simp only
  unfold Method.call
  rw [bind_keyword (g.method m t name) (g.params.take i) (g.params.drop i) []
    (by simp [Fwd.method]) hnd _ _ (by simp; omega) (by simp; omega) kw
    (fun p hp => hkw p (List.mem_of_mem_drop hp)), List.take_append_drop,
    bind_full (g.method m t name) rfl hnd (hvar.imp id hu) args hargs hkw]
  simp only [Fwd.method]
  split_ifs with hb
  · unfold Man.call
    rw [hf]
    simp only
    unfold Method.call
    rw [show (Val.vec t :: args) = [Val.vec t] ++ args from rfl,
      bind_keyword f [first] g.params rest (by simpa using hsig hb) hfn [.vec t] args rfl hargs kw hkw]
  · rw [flatMap_get g.params args hnd hargs]

/-- **C88.** `t.inner(u, **kw)` leaves out `v`: the manifold gets `v=None`, which is its default. -/
theorem C88_inner_default (m : Man E) (t : E) (f : Method E) (hf : m.getattr "inner" = .ok f)
    (hfn : f.params.Nodup) (first : String) (rest : List String)
    (hsig : f.params = first :: "u" :: "v" :: rest) (u : Val E) (kw : List (String × Val E))
    (hk1 : "u" ∉ kw.map Prod.fst) (hk2 : "v" ∉ kw.map Prod.fst) :
    TMethods.call m t "inner" [u] kw = m.call "inner" [.vec t, u, pyNone] kw := by
  have h := C88_forward m t "inner" ⟨["u", "v"], [("v", pyNone)], true, true⟩ rfl f hf hfn first rest
    (fun _ => by simpa using hsig) [u, pyNone] rfl kw
    (by simpa using ⟨by simpa using hk1, by simpa using hk2⟩) (fun h => absurd h (by decide)) 2 (by simp)
  rw [← h]
  have hlk : fwd "inner" = some (⟨["u", "v"], [("v", pyNone)], true, true⟩ : Fwd E) := rfl
  unfold TMethods.call
  rw [hlk]
  unfold Method.call
  have e : ((⟨["u", "v"], [("v", pyNone)], true, true⟩ : Fwd E).method m t "inner").bind [u] kw =
      ((⟨["u", "v"], [("v", pyNone)], true, true⟩ : Fwd E).method m t "inner").bind [u, pyNone] kw := by
    unfold Method.bind
    simp only [Fwd.method]
    rw [if_neg (by simp), if_neg (by simp), if_neg (by simp), if_neg (by simp)]
    have h1 := lookup_none_of kw "u" hk1
    have h2 := lookup_none_of kw "v" hk2
    simp [List.mapM_cons, bindOne, h1, h2, List.lookup]
  simp [e]

/-- **C88.** A method called without its first argument raises `TypeError` before the manifold is
asked. -/
theorem C88_missing (m : Man E) (t : E) (name : String) (g : Fwd E) (hg : fwd name = some g)
    (hp : g.params ≠ []) : TMethods.call m t name [] [] = .error .typeError := by
  have hall : ∀ q ∈ (fwdTable : List (String × Fwd E)), q.2.params ≠ [] →
      (q.2.method m t q.1).call [] [] = .error .typeError := by
    simp [fwdTable, Method.call, Method.bind, Fwd.method, List.mapM_cons, bindOne, List.lookup,
      Bind.bind, Except.bind]
  unfold TMethods.call
  rw [hg]
  exact hall _ (mem_of_lookup _ _ _ hg) hp

section Example

/-- A method with signature `(x, u)` that adds its arguments. -/
noncomputable def addXU : Method E :=
  { params := ["x", "u"], kwonly := [], defaults := [], varPos := false, varKw := false,
    run := fun b =>
      match b.named.lookup "x", b.named.lookup "u" with
      | some (.vec x), some (.vec u) => .ok (.one (.vec (x + u)))
      | _, _ => .error .typeError }

/-- A manifold with `expmap(x, u) = x + u`. -/
noncomputable def flat : Man E :=
  .base ⟨fun s => if s = "expmap" then some addXU else none, manifoldScaling, false, 1, 0⟩

/-- The hypotheses of `C88_forward` hold for a tensor on a rescaled manifold: on a manifold twice as
large, `t.expmap(u=v)` moves by half of `v`. -/
example (t v : E) : TMethods.call (.scaled flat 2) t "expmap" [] [("u", .vec v)] =
    .ok (.one (.vec (t + (2 : ℝ)⁻¹ • v))) := by
  have hf : (Man.scaled (flat : Man E) 2).getattr "expmap" =
      .ok (rescale addXU (.info [] [("u", -1)]) 2) := by
    rw [C45.getattr_rescaled flat 2 "expmap" (.info [] [("u", -1)]) rfl]
    rfl
  have h := C88_forward (.scaled flat 2) t "expmap" ⟨["u"], [], true, true⟩ rfl _ hf
    (by simp [rescale, addXU]) "x" [] (fun _ => rfl) [.vec v] rfl [] (by simp)
    (fun h => absurd h (by decide)) 0 (by simp)
  rw [show TMethods.call (.scaled flat 2) t "expmap" [] [("u", .vec v)] = _ from h,
    C45.call_u flat 2 "expmap" rfl addXU [] rfl rfl]
  rfl

end Example

/-! ### `dist` -/

/-- **C88.** `t.dist(other, p="g", **kw)` is the distance of the manifold. -/
theorem C88_dist_geodesic {n : ℕ} (m : Man (Fin n → ℝ)) (t other : Fin n → ℝ)
    (kw : List (String × Val (Fin n → ℝ))) :
    TMethods.dist m t other (.str "g") kw = m.call "dist" [.vec t, .vec other] kw := by
  simp [TMethods.dist]

/-- **C88.** With the default `p = 2`, `t.dist(other)` is that of a plain tensor: the Euclidean norm of
the difference, whatever the manifold. -/
theorem C88_dist_default {n : ℕ} (m : Man (Fin n → ℝ)) (t other : Fin n → ℝ) :
    TMethods.dist m t other (.num 2) [] =
      .ok (.one (.num (√(∑ i, (t i - other i) ^ 2)))) := by
  have h : torchDist 2 t other = √(∑ i, (t i - other i) ^ 2) := by
    unfold torchDist
    rw [Real.sqrt_eq_rpow]
    congr 1
    refine Finset.sum_congr rfl fun i _ => ?_
    rw [Real.rpow_two, sq_abs]
  simp [TMethods.dist, h]

/-- **C88.** "The default behaviour is not changed" does not extend to other values of `p`:
`t.dist(other, p=1)` is not `torch.Tensor.dist(t, other, p=1)`, because `p` is not passed on. -/
theorem C88_counterexample_dist_p (m : Man (Fin 2 → ℝ)) :
    TMethods.dist m ![3, 4] ![0, 0] (.num 1) [] = .ok (.one (.num 5)) ∧
    torchDist 1 ![3, 4] ![0, 0] = 7 := by
  constructor
  · have h : torchDist 2 ![3, 4] ![0, 0] = 5 := by
      unfold torchDist
      rw [← Real.sqrt_eq_rpow, Fin.sum_univ_two]
      simp only [Matrix.cons_val_zero, Matrix.cons_val_one, sub_zero, Real.rpow_two, sq_abs]
      rw [show (3 : ℝ) ^ 2 + 4 ^ 2 = 5 ^ 2 by norm_num]
      exact Real.sqrt_sq (by norm_num)
    simp [TMethods.dist, h]
  · unfold torchDist
    rw [Fin.sum_univ_two]
    norm_num

/-- **C88.** For every `p` other than `"g"` and `2`, `dist` agrees with the plain tensor exactly when the
`p`-norm of the difference happens to equal the Euclidean one. -/
theorem C88_dist_other_p {n : ℕ} (m : Man (Fin n → ℝ)) (t other : Fin n → ℝ) (p : ℝ)
    (kw : List (String × Val (Fin n → ℝ))) :
    TMethods.dist m t other (.num p) kw = .ok (.one (.num (torchDist p t other))) ↔
      torchDist p t other = torchDist 2 t other := by
  simp [TMethods.dist, eq_comm]

/-! ### `proj_` -/

open Geoopt.MTensor

/-- The entries of a tensor object. -/
def dataOf {V α : Type} (h : Heap V α) (t : ℕ) : List α := h.storages (h.tens t).storage

/-- **C88.** `t.proj_()` on a tensor that needs no gradient, or under `torch.no_grad()`, returns the same
object, whose entries are now `manifold.projx` of what they were; every other object that shares the
storage sees it, nothing else changes. -/
theorem C88_proj_inplace {V α : Type} (projx : V → List α → List α) (gradMode : Bool) (h : Heap V α)
    (t : ℕ) (hg : gradMode = true → (h.tens t).requiresGrad = false) :
    ∃ h', projInplace projx gradMode h t = .ok (t, h') ∧
      dataOf h' t = projx (h.mans (h.tens t).manifold) (dataOf h t) ∧
      (∀ s, (h.tens s).storage = (h.tens t).storage → dataOf h' s = dataOf h' t) ∧
      (∀ s, (h.tens s).storage ≠ (h.tens t).storage → dataOf h' s = dataOf h s) ∧
      h'.tens = h.tens ∧ h'.mans = h.mans := by
  have hc : ((h.tens t).requiresGrad && gradMode) = false := by
    cases gradMode
    · simp
    · simp [hg rfl]
  refine ⟨⟨h.next, Function.update h.storages (h.tens t).storage
      (projx (h.mans (h.tens t).manifold) (h.storages (h.tens t).storage)), h.mans, h.tens⟩,
    by unfold projInplace copyInto; rw [hc]; rfl, ?_, ?_, ?_, rfl, rfl⟩
  · simp [dataOf]
  · intro s hs
    simp [dataOf, hs]
  · intro s hs
    simp [dataOf, Function.update_of_ne hs]

/-- **C88.** After `t.proj_()` the tensor is on its manifold, and a second `proj_()` changes nothing, for
every projection that maps to the manifold and fixes its points. -/
theorem C88_proj_twice {V α : Type} (projx : V → List α → List α) (onManifold : V → List α → Prop)
    (hon : ∀ v d, onManifold v (projx v d)) (hfix : ∀ v d, onManifold v d → projx v d = d)
    (gradMode : Bool) (h : Heap V α) (t : ℕ) (r : ℕ) (h' : Heap V α)
    (e : projInplace projx gradMode h t = .ok (r, h')) :
    onManifold (h'.mans (h'.tens t).manifold) (dataOf h' t) ∧
      projInplace projx gradMode h' t = .ok (t, h') := by
  unfold projInplace copyInto at e
  split_ifs at e with hc
  cases e
  constructor
  · simpa [dataOf] using hon _ _
  · unfold projInplace copyInto
    simp only
    rw [if_neg hc]
    simp [hfix _ _ (hon _ _)]

/-- **C88.** On a tensor that requires a gradient — every `ManifoldParameter` by default — `proj_()`
raises `RuntimeError` unless gradients are switched off, whatever its entries, even if they already
are on the manifold. -/
theorem C88_counterexample_proj_parameter {V α : Type} (projx : V → List α → List α) (h : Heap V α)
    (t : ℕ) (hg : (h.tens t).requiresGrad = true) :
    projInplace projx true h t = .error .runtimeError := by
  unfold projInplace copyInto
  simp [hg]

/-- A parameter (object 1) on a manifold, sharing its storage with object 2: under `no_grad`, `proj_`
changes both. -/
example : ∃ h', projInplace (fun (_ : Unit) (d : List ℕ) => d.map (min 1)) false
      ⟨3, fun _ => [0, 5], fun _ => (), fun i => ⟨0, [2], 0, i = 1, i = 1⟩⟩ 1 = .ok (1, h') ∧
    dataOf h' 2 = [0, 1] := by
  obtain ⟨h', e, h1, h2, -⟩ := C88_proj_inplace (fun (_ : Unit) (d : List ℕ) => d.map (min 1)) false
      ⟨3, fun _ => [0, 5], fun _ => (), fun i => ⟨0, [2], 0, i = 1, i = 1⟩⟩ 1 (by simp)
  exact ⟨h', e, by rw [h2 2 rfl, h1]; rfl⟩

end C88
