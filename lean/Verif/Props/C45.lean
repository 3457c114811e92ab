import Verif.Lemmas.Scaled

/-!
# C45, C46, C47, C48 (and the `Scaled` part of C67): the `Scaled` wrapper
-/

open Geoopt Geoopt.Scaled

namespace C45

variable {E : Type} [AddCommGroup E] [Module ℝ E]

/-- A rescaled method is found as the rescaling of the base's method. -/
theorem getattr_rescaled (m : Man E) (s : ℝ) (name : String) (rule : Rule)
    (h : m.scaling.lookup name = some rule) :
    (Man.scaled m s).getattr name = (m.getattr name).map (fun f => rescale f rule s) := by
  have e : m.getattr name = m.getattr' name := by
    cases m with
    | base c => rfl
    | scaled b t =>
      simp only [Man.getattr]
      have : b.scaling.lookup name = some rule := h
      rw [this]
  rw [e]
  simp only [Man.getattr, h]
  rw [Man.getattr']
  simp only [h]
  cases m.getattr' name <;> rfl

/-- A method whose rule has only result powers: call the base, then rescale the result. -/
theorem call_results (m : Man E) (s : ℝ) (name : String) (p : ℤ)
    (h : m.scaling.lookup name = some (.info [p] [])) (pos : List (Val E))
    (kw : List (String × Val E)) :
    (Man.scaled m s).call name pos kw = (m.call name pos kw).bind (rescaleRes s [p]) := by
  unfold Man.call
  rw [getattr_rescaled m s name _ h]
  cases m.getattr name with
  | error e => rfl
  | ok f =>
    simp only [Except.map]
    unfold Method.call
    have : (rescale f (.info [p] []) s).bind pos kw = f.bind pos kw := rfl
    rw [this]
    cases f.bind pos kw with
    | error e => rfl
    | ok b =>
      simp only [rescale]
      have hr : rescaleArgs [] s b.named = .ok b.named := by
        unfold rescaleArgs
        simp only [List.all_nil, if_true]
        generalize b.named = l
        induction l with
        | nil => rfl
        | cons q l ih => rw [List.mapM_cons, ih]; rfl
      rw [hr]
      simp only
      cases f.run b <;> rfl

/-- The names of the rescaled methods of `Manifold` stay in the table of every class that copies
and extends it. -/
theorem lookup_append (extra : List (String × Rule)) (name : String) (rule : Rule)
    (h : manifoldScaling.lookup name = some rule) :
    (manifoldScaling ++ extra).lookup name = some rule := by
  rw [List.lookup_append, h]; rfl

/-- **C45.** `Scaled(M, s).dist = s * M.dist`, for every manifold `M` (also a `Scaled` one), all
arguments, with the same errors. -/
theorem C45_dist (m : Man E) (extra : List (String × Rule)) (hm : m.scaling = manifoldScaling ++ extra)
    (s : ℝ) (pos : List (Val E)) (kw : List (String × Val E)) :
    (∀ d : ℝ, m.call "dist" pos kw = .ok (.one (.num d)) →
      (Man.scaled m s).call "dist" pos kw = .ok (.one (.num (s * d)))) ∧
    (∀ e, m.call "dist" pos kw = .error e → (Man.scaled m s).call "dist" pos kw = .error e) := by
  have h : m.scaling.lookup "dist" = some (.info [1] []) := by
    rw [hm]; exact lookup_append _ _ _ rfl
  rw [call_results m s _ _ h]
  refine ⟨fun d hd => ?_, fun e he => by rw [he]; rfl⟩
  rw [hd]
  simp only [Except.bind]
  rw [rescaleRes_one, rescaleValue, if_neg (by norm_num)]
  simp [Except.map, mul_comm]

/-- **C45.** `Scaled(M, s).dist2 = s² * M.dist2`. -/
theorem C45_dist2 (m : Man E) (extra : List (String × Rule)) (hm : m.scaling = manifoldScaling ++ extra)
    (s : ℝ) (pos : List (Val E)) (kw : List (String × Val E)) :
    (∀ d : ℝ, m.call "dist2" pos kw = .ok (.one (.num d)) →
      (Man.scaled m s).call "dist2" pos kw = .ok (.one (.num (s ^ 2 * d)))) ∧
    (∀ e, m.call "dist2" pos kw = .error e → (Man.scaled m s).call "dist2" pos kw = .error e) := by
  have h : m.scaling.lookup "dist2" = some (.info [2] []) := by
    rw [hm]; exact lookup_append _ _ _ rfl
  rw [call_results m s _ _ h]
  refine ⟨fun d hd => ?_, fun e he => by rw [he]; rfl⟩
  rw [hd]
  simp only [Except.bind]
  rw [rescaleRes_one, rescaleValue, if_neg (by norm_num)]
  simp only [Except.map]
  congr 3
  rw [mul_comm]; norm_cast

/-- **C45.** `Scaled(M, s).logmap = s * M.logmap`. -/
theorem C45_logmap (m : Man E) (extra : List (String × Rule))
    (hm : m.scaling = manifoldScaling ++ extra) (s : ℝ) (pos : List (Val E))
    (kw : List (String × Val E)) :
    (∀ v : E, m.call "logmap" pos kw = .ok (.one (.vec v)) →
      (Man.scaled m s).call "logmap" pos kw = .ok (.one (.vec (s • v)))) ∧
    (∀ e, m.call "logmap" pos kw = .error e → (Man.scaled m s).call "logmap" pos kw = .error e) := by
  have h : m.scaling.lookup "logmap" = some (.info [1] []) := by
    rw [hm]; exact lookup_append _ _ _ rfl
  rw [call_results m s _ _ h]
  refine ⟨fun d hd => ?_, fun e he => by rw [he]; rfl⟩
  rw [hd]
  simp only [Except.bind]
  rw [rescaleRes_one, rescaleValue, if_neg (by norm_num)]
  simp [Except.map]

/-- Binding with a tangent argument divided by the scale. -/
theorem bind_u (f : Method E) (rest : List String) (hp : f.params = "x" :: "u" :: rest)
    (x : Val E) (u : E) (s : ℝ) (ps : List (Val E)) (kw : List (String × Val E)) :
    ((f.bind (x :: .vec u :: ps) kw).bind fun b =>
      (rescaleArgs [("u", -1)] s b.named).map fun named => ({ b with named := named } : Bound E)) =
    f.bind (x :: .vec (s⁻¹ • u) :: ps) kw := by
  have hl : ∀ w : Val E, (f.params.zip (x :: w :: ps)).lookup "u" = some w := by
    intro w; rw [hp]; rfl
  have hne : ∀ (w : Val E) (p : String), p ≠ "u" →
      (f.params.zip (x :: w :: ps)).lookup p = (f.params.zip (x :: .num 0 :: ps)).lookup p := by
    intro w p hpu
    rw [hp, List.zip_cons_cons, List.zip_cons_cons, List.zip_cons_cons, List.zip_cons_cons]
    by_cases hx : p = "x"
    · subst hx; rfl
    · rw [List.lookup_cons, List.lookup_cons, List.lookup_cons, List.lookup_cons,
        beq_false_of_ne hx, beq_false_of_ne hpu]
  unfold Method.bind
  have hlen : ∀ w : Val E, (x :: w :: ps).length = ps.length + 2 := fun w => rfl
  rw [hlen, hlen]
  by_cases h1 : f.params.length < ps.length + 2 ∧ f.varPos = false
  · rw [if_pos h1, if_pos h1]; rfl
  · rw [if_neg h1, if_neg h1]
    simp only
    split_ifs with h2
    · rfl
    · have hdrop : ∀ w : Val E, (x :: w :: ps).drop f.params.length = ps.drop rest.length := by
        intro w; rw [hp]; rfl
      rw [hdrop, hdrop]
      have key : ((f.params ++ f.kwonly).mapM
            (bindOne f (f.params.zip (x :: .vec u :: ps)) kw)).bind
            (fun bs => bs.mapM (rescaleArg [("u", -1)] s)) =
          (f.params ++ f.kwonly).mapM (bindOne f (f.params.zip (x :: .vec (s⁻¹ • u) :: ps)) kw) := by
        refine mapM_two _ (fun p _ b hb => ?_) (fun p _ e he => ?_)
        · by_cases hpu : p = "u"
          · subst hpu
            unfold bindOne at hb ⊢
            rw [hl] at hb
            rw [hl]
            cases hk : kw.lookup "u" with
            | some _ => rw [hk] at hb; cases hb
            | none =>
              rw [hk] at hb
              cases hb
              refine ⟨("u", .vec (s⁻¹ • u)), ?_, rfl⟩
              simp [rescaleArg, rescaleValue, Except.map]
          · unfold bindOne at hb ⊢
            rw [hne _ p hpu] at hb
            rw [hne _ p hpu]
            refine ⟨b, ?_, hb⟩
            have hb1 : b.1 = p := by
              revert hb
              cases (f.params.zip (x :: .num 0 :: ps)).lookup p <;> cases kw.lookup p <;>
                cases f.defaults.lookup p <;> intro hb <;> cases hb <;> rfl
            simp [rescaleArg, hb1, hpu, List.lookup]
            simp [beq_false_of_ne hpu]
        · by_cases hpu : p = "u"
          · subst hpu
            unfold bindOne at he ⊢
            rw [hl] at he
            rw [hl]
            cases hk : kw.lookup "u" with
            | some _ => rw [hk] at he; cases he; rfl
            | none => rw [hk] at he; cases he
          · unfold bindOne at he ⊢
            rw [hne _ p hpu] at he
            rw [hne _ p hpu]; exact he
      rw [← key]
      cases hq : (f.params ++ f.kwonly).mapM (bindOne f (f.params.zip (x :: .vec u :: ps)) kw) with
      | error e => rfl
      | ok named =>
        simp only [Except.bind]
        have hkeys : named.map Prod.fst = f.params ++ f.kwonly := by
          refine mapM_keys (k := Prod.fst) _ (fun p b hb => ?_) named hq
          revert hb
          unfold bindOne
          cases (f.params.zip (x :: .vec u :: ps)).lookup p <;> cases kw.lookup p <;>
            cases f.defaults.lookup p <;> intro hb <;> cases hb <;> rfl
        unfold rescaleArgs
        rw [if_pos (by rw [hkeys, hp]; simp)]
        cases named.mapM (rescaleArg [("u", -1)] s) <;> rfl

/-- A method whose rule divides the tangent argument `u` by the scale. -/
theorem call_u (m : Man E) (s : ℝ) (name : String)
    (h : m.scaling.lookup name = some (.info [] [("u", -1)])) (f : Method E) (rest : List String)
    (hf : m.getattr name = .ok f) (hp : f.params = "x" :: "u" :: rest)
    (x : Val E) (u : E) (ps : List (Val E)) (kw : List (String × Val E)) :
    (Man.scaled m s).call name (x :: .vec u :: ps) kw =
      m.call name (x :: .vec (s⁻¹ • u) :: ps) kw := by
  unfold Man.call
  rw [getattr_rescaled m s name _ h, hf]
  simp only [Except.map]
  unfold Method.call
  have e : (rescale f (.info [] [("u", -1)]) s).bind (x :: .vec u :: ps) kw =
      f.bind (x :: .vec u :: ps) kw := rfl
  rw [e, ← bind_u f rest hp]
  cases f.bind (x :: .vec u :: ps) kw with
  | error e => rfl
  | ok b =>
    simp only [rescale, Except.bind]
    cases rescaleArgs [("u", -1)] s b.named with
    | error e => rfl
    | ok named =>
      simp only [Except.map]
      cases f.run { b with named := named } with
      | error e => rfl
      | ok r => simp [rescaleRes]

/-- **C45.** `Scaled(M, s).expmap(x, u, ...) = M.expmap(x, u / s, ...)`, and the same for `retr`,
`expmap_transp`, `retr_transp`, `transp_follow_expmap`, `transp_follow_retr`: the displacement is
divided by the scale, every other argument is passed unchanged, and the result is unchanged. -/
theorem C45_displacement (m : Man E) (extra : List (String × Rule))
    (hm : m.scaling = manifoldScaling ++ extra) (s : ℝ) (name : String)
    (hname : name ∈ ["retr", "expmap", "expmap_transp", "retr_transp", "transp_follow_retr",
      "transp_follow_expmap"])
    (f : Method E) (rest : List String) (hf : m.getattr name = .ok f)
    (hp : f.params = "x" :: "u" :: rest) (x : Val E) (u : E) (ps : List (Val E))
    (kw : List (String × Val E)) :
    (Man.scaled m s).call name (x :: .vec u :: ps) kw =
      m.call name (x :: .vec (s⁻¹ • u) :: ps) kw := by
  refine call_u m s name ?_ f rest hf hp x u ps kw
  rw [hm]
  apply lookup_append
  simp only [List.mem_cons, List.not_mem_nil, or_false] at hname
  rcases hname with rfl | rfl | rfl | rfl | rfl | rfl <;> rfl

/-- **C45.** A method declared not compatible raises whatever the arguments. -/
theorem C45_not_compatible (m : Man E) (s : ℝ) (name : String) (f : Method E)
    (h : m.scaling.lookup name = some .notCompatible) (hf : m.getattr name = .ok f)
    (pos : List (Val E)) (kw : List (String × Val E)) :
    (Man.scaled m s).call name pos kw = .error .notImplementedError := by
  unfold Man.call
  rw [getattr_rescaled m s name _ h, hf]
  simp only [Except.map, Method.call, rescale, Method.bind]
  simp [List.mapM_nil, pure, Except.pure]

/-! ### Nesting -/

/-- Same result for every call. -/
def SameCalls (f g : Except PyErr (Method E)) : Prop :=
  match f, g with
  | .error e, .error e' => e = e'
  | .ok f, .ok g => ∀ pos kw, f.call pos kw = g.call pos kw
  | _, _ => False

omit [AddCommGroup E] [Module ℝ E] in
theorem SameCalls.refl (f : Except PyErr (Method E)) : SameCalls f f := by
  cases f with
  | error e => rfl
  | ok f => exact fun _ _ => rfl

omit [AddCommGroup E] [Module ℝ E] in
/-- Rebinding bound arguments gives the same bound arguments. -/
theorem rebind (g : Sig E) (hn : (g.params ++ g.kwonly).Nodup) (t t' : Except PyErr (Method E))
    (pos : List (Val E)) (kw : List (String × Val E)) (b : Bound E)
    (h : (forwarder g t).bind pos kw = .ok b) :
    (forwarder g t').bind (g.params.flatMap b.get ++ b.varargs)
      (b.named.filter (fun q => g.kwonly.contains q.1) ++ b.extra) = .ok b := by
  unfold Method.bind at h
  split_ifs at h with h1
  simp only at h
  split_ifs at h with h2
  have hparams : (forwarder g t).params = g.params := rfl
  have hkwonly : (forwarder g t).kwonly = g.kwonly := rfl
  rw [hparams, hkwonly] at h
  cases hq : (g.params ++ g.kwonly).mapM
      (bindOne (forwarder g t) (g.params.zip pos) kw) with
  | error e => rw [hq] at h; cases h
  | ok named =>
    rw [hq] at h
    simp only [Except.ok.injEq] at h
    subst h
    simp only
    have hkeys : named.map Prod.fst = g.params ++ g.kwonly := by
      refine mapM_keys (k := Prod.fst) _ (fun p b hb => ?_) named hq
      revert hb
      unfold bindOne
      cases (g.params.zip pos).lookup p <;> cases kw.lookup p <;>
        cases (forwarder g t).defaults.lookup p <;> intro hb <;> cases hb <;> rfl
    -- split the named arguments
    set A := named.take g.params.length with hA
    set B := named.drop g.params.length with hB
    have hAB : named = A ++ B := (List.take_append_drop _ _).symm
    have hkA : A.map Prod.fst = g.params := by
      rw [hA, List.map_take, hkeys, List.take_left']; rfl
    have hkB : B.map Prod.fst = g.kwonly := by
      rw [hB, List.map_drop, hkeys, List.drop_left']; rfl
    have hlookA : ∀ (l : List (String × Val E)), (l.map Prod.fst).Nodup → ∀ q ∈ l,
        l.lookup q.1 = some q.2 := by
      intro l
      induction l with
      | nil => intro _ q hq; cases hq
      | cons a l ih =>
        intro hnd q hq
        rw [List.map_cons, List.nodup_cons] at hnd
        rcases List.mem_cons.1 hq with rfl | hq'
        · rw [List.lookup_cons]; simp
        · have : q.1 ≠ a.1 := fun e => hnd.1 (by rw [← e]; exact List.mem_map.2 ⟨q, hq', rfl⟩)
          rw [List.lookup_cons, beq_false_of_ne this]
          exact ih hnd.2 q hq'
    have hnd : (named.map Prod.fst).Nodup := by rw [hkeys]; exact hn
    have hndA : (A.map Prod.fst).Nodup := by rw [hkA]; exact (List.nodup_append.1 hn).1
    have hndB : (B.map Prod.fst).Nodup := by rw [hkB]; exact (List.nodup_append.1 hn).2.1
    have hdisj : ∀ p ∈ g.params, p ∉ g.kwonly := fun p hp hk =>
      (List.nodup_append.1 hn).2.2 p hp p hk rfl
    have hvals : g.params.flatMap
        (fun k => (named.lookup k).toList) = A.map Prod.snd := by
      rw [← hkA, List.flatMap_map]
      have : ∀ q ∈ A, ((named.lookup q.1).toList : List (Val E)) = [q.2] := by
        intro q hq
        rw [hlookA named hnd q (by rw [hAB]; exact List.mem_append_left _ hq)]; rfl
      clear_value A
      revert this
      generalize named = nm
      intro this
      clear hA hAB hkA hndA
      induction A with
      | nil => rfl
      | cons a A ih =>
        rw [List.flatMap_cons, this a (by simp), ih (fun q hq => this q (by simp [hq]))]; rfl
    have hvals' : g.params.flatMap (Bound.get ⟨named, pos.drop g.params.length,
        kw.filter fun q => !((g.params ++ g.kwonly).contains q.1)⟩) = A.map Prod.snd := hvals
    have hfilt : named.filter (fun q => g.kwonly.contains q.1) = B := by
      rw [hAB, List.filter_append]
      have e1 : A.filter (fun q => g.kwonly.contains q.1) = [] := by
        rw [List.filter_eq_nil_iff]
        intro q hq
        have : q.1 ∈ g.params := by rw [← hkA]; exact List.mem_map.2 ⟨q, hq, rfl⟩
        simpa using hdisj _ this
      have e2 : B.filter (fun q => g.kwonly.contains q.1) = B := by
        rw [List.filter_eq_self]
        intro q hq
        have : q.1 ∈ g.kwonly := by rw [← hkB]; exact List.mem_map.2 ⟨q, hq, rfl⟩
        simpa using this
      rw [e1, e2]; rfl
    rw [hvals', hfilt]
    set extra := kw.filter fun q => !((g.params ++ g.kwonly).contains q.1) with hextra
    set va := pos.drop g.params.length with hva
    have hAlen : A.length = g.params.length := by
      rw [← hkA, List.length_map]
    have hextra_not : ∀ q ∈ extra, q.1 ∉ g.params ++ g.kwonly := by
      intro q hq
      have := List.of_mem_filter hq
      simpa using this
    have hlook_none : ∀ (l : List (String × Val E)) p, (∀ q ∈ l, q.1 ≠ p) → l.lookup p = none := by
      intro l p
      induction l with
      | nil => intro _; rfl
      | cons a l ih =>
        intro hne
        have h0 : p ≠ a.1 := fun e => hne a (by simp) e.symm
        rw [List.lookup_cons, beq_false_of_ne h0]
        exact ih fun q hq => hne q (by simp [hq])
    unfold Method.bind
    have hparams' : (forwarder g t').params = g.params := rfl
    have hkwonly' : (forwarder g t').kwonly = g.kwonly := rfl
    have hvk' : (forwarder g t').varKw = true := rfl
    have hvp' : (forwarder g t').varPos = g.varPos := rfl
    rw [hparams', hkwonly', hvk', hvp']
    rw [if_neg]
    swap
    · rintro ⟨c1, c2⟩
      apply h1
      refine ⟨?_, c2⟩
      rw [List.length_append, List.length_map, hAlen, hva, List.length_drop] at c1
      rw [hparams]; omega
    simp only [Bool.true_eq_false, and_false, if_false]
    have hzip : g.params.zip (A.map Prod.snd ++ va) = A := by
      have : g.params.zip (A.map Prod.snd ++ va) =
          (A.map Prod.fst ++ []).zip (A.map Prod.snd ++ va) := by rw [hkA, List.append_nil]
      rw [this, List.zip_append (by simp), List.zip_nil_left, List.append_nil]
      rw [← List.unzip_fst, ← List.unzip_snd, List.zip_unzip]
    rw [hzip]
    have hmap : ∀ (l : List (String × Val E)) (F : String → Except PyErr (String × Val E)),
        (∀ q ∈ l, F q.1 = .ok q) → (l.map Prod.fst).mapM F = .ok l := by
      intro l F
      induction l with
      | nil => intro _; rfl
      | cons a l ih =>
        intro hF
        rw [List.map_cons, List.mapM_cons, hF a (by simp), ih fun q hq => hF q (by simp [hq])]; rfl
    rw [← hkeys, hmap named]
    · simp only
      congr 2
      · rw [List.drop_left']; rw [List.length_map, hAlen]
      · rw [List.filter_append]
        have e1 : (B.filter fun q => !(named.map Prod.fst).contains q.1) = [] := by
          rw [List.filter_eq_nil_iff]
          intro q hq
          have : q.1 ∈ named.map Prod.fst := by
            rw [hkeys]; apply List.mem_append_right; rw [← hkB]; exact List.mem_map.2 ⟨q, hq, rfl⟩
          simpa using this
        have e2 : (extra.filter fun q => !(named.map Prod.fst).contains q.1) = extra := by
          rw [List.filter_eq_self]
          intro q hq
          have := hextra_not q hq
          rw [← hkeys] at this
          simpa using this
        rw [e1, e2]; rfl
    · intro q hq
      unfold bindOne
      rw [hAB] at hq
      rcases List.mem_append.1 hq with hq | hq
      · have hqp : q.1 ∈ g.params := by rw [← hkA]; exact List.mem_map.2 ⟨q, hq, rfl⟩
        rw [hlookA A hndA q hq, hlook_none (B ++ extra) q.1]
        intro r hr e
        rcases List.mem_append.1 hr with hr | hr
        · exact hdisj _ hqp (by rw [← e, ← hkB]; exact List.mem_map.2 ⟨r, hr, rfl⟩)
        · exact hextra_not r hr (by rw [e]; exact List.mem_append_left _ hqp)
      · have hqk : q.1 ∈ g.kwonly := by rw [← hkB]; exact List.mem_map.2 ⟨q, hq, rfl⟩
        rw [hlook_none A q.1]
        · rw [List.lookup_append, hlookA B hndB q hq]; rfl
        · intro r hr e
          exact hdisj r.1 (by rw [← hkA]; exact List.mem_map.2 ⟨r, hr, rfl⟩) (by rw [e]; exact hqk)

omit [AddCommGroup E] [Module ℝ E] in
/-- Forwarding twice is forwarding once. -/
theorem forwarder_two (g : Sig E) (hn : (g.params ++ g.kwonly).Nodup)
    (t : Except PyErr (Method E)) :
    SameCalls (.ok (forwarder g (.ok (forwarder g t)))) (.ok (forwarder g t)) := by
  intro pos kw
  unfold Method.call
  have e : (forwarder g (.ok (forwarder g t))).bind pos kw = (forwarder g t).bind pos kw := rfl
  rw [e]
  cases hb : (forwarder g t).bind pos kw with
  | error e => rfl
  | ok b =>
    simp only
    have := rebind g hn t t pos kw b hb
    conv_lhs => simp only [forwarder]
    show Method.call (forwarder g t) _ _ = _
    unfold Method.call
    rw [this]

omit [AddCommGroup E] [Module ℝ E] in
theorem forwardSig_nodup (name : String) (g : Sig E) (h : forwardSig name = some g) :
    (g.params ++ g.kwonly).Nodup := by
  unfold forwardSig at h
  split_ifs at h <;> · cases h; simp

theorem getattr'_nested (m : Man E) (a b : ℝ) (name : String) :
    SameCalls ((Man.scaled (.scaled m a) b).getattr' name) ((Man.scaled m (a * b)).getattr' name) := by
  cases hl : m.scaling.lookup name with
  | some rule =>
    have hl2 : (Man.scaled m a).scaling.lookup name = some rule := hl
    simp only [Man.getattr', hl, hl2]
    cases m.getattr' name with
    | error e => exact rfl
    | ok f =>
      simp only
      rw [rescale_two]
      exact SameCalls.refl _
  | none =>
    have hl2 : (Man.scaled m a).scaling.lookup name = none := hl
    simp only [Man.getattr', hl, hl2]
    cases hg : forwardSig (E := E) name with
    | none => exact SameCalls.refl _
    | some g =>
      simp only
      exact forwarder_two g (forwardSig_nodup name g hg) _

omit [AddCommGroup E] [Module ℝ E] in
theorem manifoldDefault_same (name : String) (i i' r r' : Except PyErr (Method E))
    (hi : SameCalls i i') (hr : SameCalls r r') :
    (manifoldDefault name i r = none ∧ manifoldDefault name i' r' = none) ∨
    ∃ d d', manifoldDefault name i r = some d ∧ manifoldDefault name i' r' = some d' ∧
      SameCalls (.ok d) (.ok d') := by
  unfold manifoldDefault
  split_ifs with h1 h2 h3 h4
  · right
    refine ⟨_, _, rfl, rfl, fun pos kw => ?_⟩
    cases i <;> cases i' <;> simp only [SameCalls] at hi
    · subst hi; rfl
    · simp only [hi]
  · right; exact ⟨_, _, rfl, rfl, fun _ _ => rfl⟩
  · right; exact ⟨_, _, rfl, rfl, fun _ _ => rfl⟩
  · right
    refine ⟨_, _, rfl, rfl, fun pos kw => ?_⟩
    cases r <;> cases r' <;> simp only [SameCalls] at hr
    · subst hr; rfl
    · simp only [hr]
  · left; exact ⟨rfl, rfl⟩

/-- **C45.** `Scaled(Scaled(M, a), b)` behaves like `Scaled(M, a*b)`: every method, every call,
including the errors. -/
theorem C45_nested (m : Man E) (a b : ℝ) (name : String) (pos : List (Val E))
    (kw : List (String × Val E)) :
    (Man.scaled (.scaled m a) b).call name pos kw = (Man.scaled m (a * b)).call name pos kw := by
  have hs : SameCalls ((Man.scaled (.scaled m a) b).getattr name)
      ((Man.scaled m (a * b)).getattr name) := by
    simp only [Man.getattr]
    have hl2 : (Man.scaled m a).scaling.lookup name = m.scaling.lookup name := rfl
    rw [hl2]
    have h' := getattr'_nested m a b name
    cases m.scaling.lookup name with
    | some rule => exact h'
    | none =>
      rcases manifoldDefault_same name _ _ _ _ (getattr'_nested m a b "inner")
        (getattr'_nested m a b "random") with ⟨h1, h2⟩ | ⟨d, d', h1, h2, h3⟩
      · rw [h1, h2]; exact h'
      · rw [h1, h2]; exact h3
  unfold Man.call
  revert hs
  generalize (Man.scaled (.scaled m a) b).getattr name = F
  generalize (Man.scaled m (a * b)).getattr name = G
  intro hs
  cases F <;> cases G <;> simp only [SameCalls] at hs
  · subst hs; rfl
  · exact hs pos kw

/-- **C45.** A learnable scale reads back the scale it was given, if that is positive, and
`log_scale` is its logarithm in both cases. -/
theorem C45_learnable (s : ℝ) (hs : 0 < s) (learnable : Bool) :
    (mkStore s learnable).scale = s ∧ (mkStore s learnable).logScale = Real.log s := by
  unfold mkStore
  cases learnable
  · simp [ScaleStore.scale, ScaleStore.logScale]
  · simp [ScaleStore.scale, ScaleStore.logScale, Real.exp_log hs]

/-- **C45.** Whatever value the learnable parameter takes, the scale stays positive. -/
theorem C45_learnable_positive (l : ℝ) : 0 < (ScaleStore.parameter l).scale := Real.exp_pos l

end C45
