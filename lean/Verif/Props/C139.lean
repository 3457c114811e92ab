import Verif.Spec.ScalingStorage
import Mathlib.Data.List.Basic

/-!
# C139 – scaling rules belong to the class that declares them

A class statement that declares rules changes no other class; a rule declared later through a class reaches exactly the
classes that use the same dictionary.
-/

namespace Geoopt.Scaling
open Geoopt.Scaled (Rule)

/-- The rule of a method in a dictionary. -/
lemma lookup_setItem (k : String) (v : Rule) (t : Table) (m : String) :
    (setItem k v t).lookup m = if m = k then some v else t.lookup m := by
  induction t with
  | nil =>
    by_cases h : m = k
    · subst h; simp [setItem]
    · have : (m == k) = false := by simpa using h
      simp [setItem, List.lookup, this, h]
  | cons q t ih =>
    obtain ⟨a, b⟩ := q
    by_cases hq : a = k
    · subst hq
      by_cases h : m = a
      · subst h; simp [setItem]
      · have : (m == a) = false := by simpa using h
        simp [setItem, List.lookup, this, h]
    · by_cases h : m = a
      · subst h; simp [setItem, hq]
      · have : (m == a) = false := by simpa using h
        simp only [setItem, hq, if_false, List.lookup, this]
        exact ih

lemma lookup_register (t : Table) (d : Decl) (m : String) :
    (register t d).lookup m = if m ∈ d.names then some d.info else t.lookup m := by
  have aux : ∀ (l : List String) (t : Table), (l.foldl (fun t a => setItem a d.info t) t).lookup m =
      if m ∈ l then some d.info else t.lookup m := by
    intro l
    induction l with
    | nil => intro t; simp
    | cons a l ih =>
      intro t
      rw [List.foldl_cons, ih, lookup_setItem]
      by_cases h1 : m ∈ l <;> by_cases h2 : m = a <;> simp [h1, h2]
  rw [register, aux, lookup_setItem, Decl.names]
  by_cases h1 : m ∈ d.aliases <;> by_cases h2 : m = d.fn <;> simp [h1, h2]

lemma lookup_foldl (m : String) (ds : List Decl) (t : Table) :
    (ds.foldl register t).lookup m = (lastRule m ds).or (t.lookup m) := by
  induction ds generalizing t with
  | nil => simp [lastRule]
  | cons d ds ih =>
    rw [List.foldl_cons, ih, lookup_register, lastRule]
    cases lastRule m ds with
    | some r => simp
    | none => by_cases h : m ∈ d.names <;> simp [h]

/-- All addresses point into the heap. -/
def WF (s : State) : Prop := ∀ c r, s.classes.lookup c = some r → r < s.heap.length

lemma lookup_cons' (c name : String) (r : ℕ) (l : List (String × ℕ)) :
    ((name, r) :: l).lookup c = if c = name then some r else l.lookup c := by
  by_cases h : c = name
  · subst h; simp
  · have : (c == name) = false := by simpa using h
    simp [List.lookup, this, h]

lemma wf_step {s s' : State} {o : Op} (hs : WF s) (h : step s o = .ok s') : WF s' := by
  unfold step at h
  split at h
  · cases h
    intro c r hr
    simp only [lookup_cons'] at hr
    split_ifs at hr
    · cases hr; simp
    · have := hs c r hr; simp; omega
  · split at h
    · cases h
    · cases h
      intro c r hr
      simp only [lookup_cons'] at hr
      split_ifs at hr
      · cases hr; simp
      · have := hs c r hr; simp; omega
  · split at h
    · cases h
    · rename_i r0 h0
      cases h
      intro c r hr
      simp only [lookup_cons'] at hr
      split_ifs at hr
      · cases hr; exact hs _ _ h0
      · exact hs c r hr
  · cases h
  · split at h
    · cases h
    · cases h
      intro c r hr
      simpa using hs c r hr

lemma getD_append (l : List Table) (t : Table) {r : ℕ} (h : r < l.length) : (l ++ [t]).getD r [] = l.getD r [] := by
  simp [List.getD_eq_getElem?_getD, List.getElem?_append_left h]

lemma getD_append_self (l : List Table) (t : Table) : (l ++ [t]).getD l.length [] = t := by
  simp [List.getD_eq_getElem?_getD]

lemma wf_run {s s' : State} {os : List Op} (hs : WF s) (h : run s os = .ok s') : WF s' := by
  induction os generalizing s with
  | nil => cases h; exact hs
  | cons o os ih =>
    rw [run] at h
    split at h
    · cases h
    · rename_i s1 h1
      exact ih (wf_step hs h1) h

lemma wf_empty : WF State.empty := by intro c r h; simp [State.empty] at h

/-- **C139, class statements change no other class.** -/
theorem C139_others {os : List Op} {s s' : State} (hs : run .empty os = .ok s) (name : String) (src : Source)
    (ds : List Decl) (h : step s (.cls name src ds) = .ok s') {c : String} (hc : c ≠ name) :
    s'.table c = s.table c := by
  have hw := wf_run wf_empty hs
  have aux : ∀ t, State.table ⟨s.heap ++ [t], (name, s.heap.length) :: s.classes⟩ c = s.table c := by
    intro t
    simp only [State.table, lookup_cons', if_neg hc]
    cases hl : s.classes.lookup c with
    | none => rfl
    | some r => simp only [Option.map_some]; rw [getD_append _ _ (hw c r hl)]
  unfold step at h
  split at h
  · rename_i heq; cases heq; cases h; exact aux _
  · rename_i heq; cases heq
    split at h
    · cases h
    · cases h; exact aux _
  · rename_i heq; cases heq
    split at h
    · cases h
    · cases h
      simp only [State.table, lookup_cons', if_neg hc]
  · cases h
  · rename_i heq; cases heq

/-- **C139, the rules of a new class.** With an own dictionary: for every method the rule of the last declaration of the
class that mentions it, by its name or as an alias, and else the rule of the class that was copied (none for a fresh
dictionary). Without: the rules of the base class, and no declarations are possible. -/
theorem C139_new {os : List Op} {s s' : State} (_hs : run .empty os = .ok s) (name : String) (src : Source)
    (ds : List Decl) (h : step s (.cls name src ds) = .ok s') :
    ∃ t', s'.table name = some t' ∧ match src with
      | .fresh => ∀ m, t'.lookup m = lastRule m ds
      | .copy other => ∃ t, s.table other = some t ∧ ∀ m, t'.lookup m = (lastRule m ds).or (t.lookup m)
      | .inherit parent => ds = [] ∧ s.table parent = some t' := by
  have aux : ∀ t, State.table ⟨s.heap ++ [t], (name, s.heap.length) :: s.classes⟩ name = some t := by
    intro t
    simp only [State.table, lookup_cons', if_true, Option.map_some]
    rw [getD_append_self]
  cases src with
  | fresh =>
    simp only [step, Except.ok.injEq] at h
    subst h
    exact ⟨_, aux _, fun m => by rw [lookup_foldl]; simp⟩
  | copy other =>
    simp only [step] at h
    split at h
    · cases h
    · rename_i r hr
      cases h
      exact ⟨_, aux _, _, by simp only [State.table, hr, Option.map_some], fun m => lookup_foldl m ds _⟩
  | inherit parent =>
    cases ds with
    | cons d ds => simp [step] at h
    | nil =>
      simp only [step] at h
      split at h
      · cases h
      · rename_i r hr
        cases h
        refine ⟨s.heap.getD r [], ?_, rfl, ?_⟩
        · simp only [State.table, lookup_cons', if_true, Option.map_some]
        · simp only [State.table, hr, Option.map_some]

/-- **C139, histories of class statements.** Whatever classes are defined later, a class keeps its rules. -/
theorem C139_history {os os' : List Op} {s s' : State} (hs : run .empty os = .ok s) (h : run s os' = .ok s')
    {c : String} (hcls : ∀ o ∈ os', ∃ name src ds, o = .cls name src ds ∧ name ≠ c) : s'.table c = s.table c := by
  have run_append : ∀ (a b : List Op) (s s1 : State), run s a = .ok s1 → run s (a ++ b) = run s1 b := by
    intro a
    induction a with
    | nil => intro b s s1 h; cases h; rfl
    | cons o a ih =>
      intro b s s1 h
      rw [run] at h
      rw [List.cons_append, run]
      split at h
      · cases h
      · rename_i s2 h2
        exact ih b _ _ h
  induction os' generalizing s os with
  | nil => cases h; rfl
  | cons o os' ih =>
    rw [run] at h
    split at h
    · cases h
    · rename_i s1 h1
      obtain ⟨name, src, ds, rfl, hn⟩ := hcls o (by simp)
      have h2 : run .empty (os ++ [.cls name src ds]) = .ok s1 := by
        rw [run_append _ _ _ _ hs, run, h1]; rfl
      rw [ih h2 h (fun o ho => hcls o (by simp [ho]))]
      exact C139_others hs name src ds h1 hn.symm

/-! ### declarations after the class statement -/

/-- Two classes have the same address exactly when they have the same owner. -/
structure Inv (h : List Op) (s : State) : Prop where
  dom : ∀ c, (∃ r, s.classes.lookup c = some r) ↔ c ∈ defined h
  own : ∀ c ∈ defined h, owner h c ∈ defined h
  sh : ∀ c d r r', s.classes.lookup c = some r → s.classes.lookup d = some r' → (r = r' ↔ owner h c = owner h d)

/-- A class with a new dictionary. -/
lemma inv_new {h : List Op} {s : State} (hw : WF s) (hi : Inv h s) {name : String} (hn : name ∉ defined h) (t : Table)
    (o : Op) (hd : defined (o :: h) = name :: defined h)
    (ho : ∀ c, owner (o :: h) c = if c = name then name else owner h c) :
    Inv (o :: h) ⟨s.heap ++ [t], (name, s.heap.length) :: s.classes⟩ := by
  refine ⟨fun c => ?_, fun c hc => ?_, fun c d r r' hc hd' => ?_⟩
  · rw [hd, List.mem_cons, ← hi.dom]
    simp only [lookup_cons']
    by_cases h1 : c = name <;> simp [h1]
  · rw [hd] at hc ⊢
    rw [ho]
    split_ifs with h1
    · simp
    · exact List.mem_cons_of_mem _ (hi.own c ((List.mem_cons.1 hc).resolve_left h1))
  · simp only [lookup_cons'] at hc hd'
    rw [ho, ho]
    have ne : ∀ e r, s.classes.lookup e = some r → owner h e ≠ name := fun e r he h1 =>
      hn (h1 ▸ hi.own e ((hi.dom e).1 ⟨r, he⟩))
    split_ifs at hc hd' with h1 h2 h2
    · cases hc; cases hd'; simp [h1, h2]
    · cases hc
      rw [if_pos h1, if_neg h2]
      have h3 := hw d r' hd'
      constructor
      · intro h4; omega
      · intro h4; exact absurd h4.symm (ne d r' hd')
    · cases hd'
      rw [if_neg h1, if_pos h2]
      have h3 := hw c r hc
      constructor
      · intro h4; omega
      · intro h4; exact absurd h4 (ne c r hc)
    · rw [if_neg h1, if_neg h2]
      exact hi.sh c d r r' hc hd'

lemma inv_step {h : List Op} {s s' : State} {o : Op} (hw : WF s) (hi : Inv h s) (hn : (defined (o :: h)).Nodup)
    (hs : step s o = .ok s') : Inv (o :: h) s' := by
  unfold step at hs
  split at hs
  · cases hs
    exact inv_new hw hi (List.nodup_cons.1 hn).1 _ _ rfl (fun c => rfl)
  · split at hs
    · cases hs
    · cases hs
      exact inv_new hw hi (List.nodup_cons.1 hn).1 _ _ rfl (fun c => rfl)
  · rename_i name parent
    split at hs
    · cases hs
    · rename_i r0 h0
      cases hs
      have hn' : name ∉ defined h := (List.nodup_cons.1 hn).1
      have hp : parent ∈ defined h := (hi.dom parent).1 ⟨r0, h0⟩
      refine ⟨fun c => ?_, fun c hc => ?_, fun c d r r' hc hd => ?_⟩
      · rw [defined, List.mem_cons, ← hi.dom]
        simp only [lookup_cons']
        by_cases h1 : c = name <;> simp [h1]
      · rw [defined, owner]
        split_ifs with h1
        · exact List.mem_cons_of_mem _ (hi.own parent hp)
        · exact List.mem_cons_of_mem _ (hi.own c ((List.mem_cons.1 hc).resolve_left h1))
      · simp only [lookup_cons'] at hc hd
        rw [owner, owner]
        split_ifs at hc hd with h1 h2 h2
        · cases hc; cases hd; simp [h1, h2]
        · cases hc; rw [if_pos h1, if_neg h2]; exact hi.sh _ _ _ _ h0 hd
        · cases hd; rw [if_neg h1, if_pos h2]; exact hi.sh _ _ _ _ hc h0
        · rw [if_neg h1, if_neg h2]; exact hi.sh _ _ _ _ hc hd
  · cases hs
  · split at hs
    · cases hs
    · cases hs
      exact ⟨hi.dom, hi.own, hi.sh⟩

lemma defined_append (a b : List Op) : defined (a ++ b) = defined a ++ defined b := by
  induction a with
  | nil => rfl
  | cons o a ih => cases o <;> simp [defined, ih]

lemma inv_run {h : List Op} {s s' : State} {os : List Op} (hw : WF s) (hi : Inv h s)
    (hn : (defined (os.reverse ++ h)).Nodup) (hs : run s os = .ok s') : Inv (os.reverse ++ h) s' := by
  induction os generalizing s h with
  | nil => cases hs; exact hi
  | cons o os ih =>
    rw [run] at hs
    split at hs
    · cases hs
    · rename_i s1 h1
      rw [List.reverse_cons, List.append_assoc, List.singleton_append] at hn ⊢
      have hn' : (defined (o :: h)).Nodup := by
        rw [defined_append] at hn
        exact (List.nodup_append.1 hn).2.1
      exact ih (wf_step hw h1) (inv_step hw hi hn' h1) hn hs

/-- **C139, declarations through a class.** `C.__scaling__(info, *aliases)(fn)` changes the rules of exactly the classes that
use the dictionary of `C`: those with the same owner, among them `C`. There the names of the declaration get the new rule
and all other methods keep theirs. Classes are assumed to have different names. -/
theorem C139_declare {os : List Op} {s s' : State} (hs : run .empty os = .ok s) (hn : (defined os).Nodup)
    (name : String) (d : Decl) (h : step s (.declare name d) = .ok s') (c : String) :
    (owner os.reverse c ≠ owner os.reverse name → s'.table c = s.table c) ∧
    (owner os.reverse c = owner os.reverse name → ∀ t, s.table c = some t →
      ∃ t', s'.table c = some t' ∧ ∀ m, t'.lookup m = if m ∈ d.names then some d.info else t.lookup m) := by
  have hw := wf_run wf_empty hs
  have h0 : Inv [] State.empty := ⟨fun c => by simp [State.empty, defined], by simp [defined],
    fun c d r r' hc => by simp [State.empty] at hc⟩
  have hrev : (defined (os.reverse ++ [])).Nodup := by
    rw [List.append_nil]
    have : ∀ l : List Op, defined l.reverse = (defined l).reverse := by
      intro l
      induction l with
      | nil => rfl
      | cons o l ih => rw [List.reverse_cons, defined_append, ih]; cases o <;> simp [defined]
    rw [this]
    exact List.nodup_reverse.2 hn
  have hi := inv_run wf_empty h0 hrev hs
  rw [List.append_nil] at hi
  simp only [step] at h
  split at h
  · cases h
  · rename_i r hr
    cases h
    constructor
    · intro hne
      simp only [State.table]
      cases hc : s.classes.lookup c with
      | none => rfl
      | some r' =>
        have : r ≠ r' := fun h1 => hne ((hi.sh c name r' r hc hr).1 h1.symm)
        simp only [Option.map_some, List.getD_eq_getElem?_getD, List.getElem?_set_ne this]
    · intro he t ht
      simp only [State.table] at ht ⊢
      cases hc : s.classes.lookup c with
      | none => rw [hc] at ht; simp at ht
      | some r' =>
        have hrr : r' = r := (hi.sh c name r' r hc hr).2 he
        subst hrr
        rw [hc, Option.map_some, Option.some.injEq] at ht
        refine ⟨_, rfl, fun m => ?_⟩
        have : (s.heap.set r' (register (s.heap.getD r' []) d)).getD r' [] = register (s.heap.getD r' []) d := by
          rw [List.getD_eq_getElem?_getD, List.getElem?_set_self (hw _ _ hr), Option.getD_some]
        simp only [this]
        rw [lookup_register, ht]

/-! ### the classes of the library -/

/-- The statements of the library run, and the classes with rules of their own have the tables that the model of `Scaled`
uses. -/
theorem library_runs : ∃ s, run .empty library = .ok s ∧ s.table "Manifold" = some Scaled.manifoldScaling ∧
    s.table "Euclidean" = some Scaled.euclideanScaling ∧ s.table "Lorentz" = some Scaled.lorentzScaling ∧
    s.table "Stereographic" = some Scaled.stereographicScaling ∧
    s.table "PoincareBallExact" = some Scaled.stereographicScaling ∧
    s.table "EuclideanStiefelExact" = some Scaled.manifoldScaling ∧
    s.table "BoundedDomain" = some Scaled.manifoldScaling ∧
    s.table "StereographicProductManifold" = some Scaled.stereographicScaling :=
  ⟨_, rfl, rfl, rfl, rfl, rfl, rfl, rfl, rfl, rfl⟩

/-- Non-vacuity of `C139_declare`, and what its second half means for the library: a rule for `volume` declared through
`Sphere` also reaches `CanonicalStiefel` (and `Manifold`), which share a dictionary, but not `Lorentz`. -/
theorem C139_shared : (defined library).Nodup ∧ owner library.reverse "Sphere" = owner library.reverse "CanonicalStiefel" ∧
    owner library.reverse "Sphere" = "Manifold" ∧ owner library.reverse "Lorentz" = "Lorentz" ∧
    ∃ s s' t t', run .empty library = .ok s ∧ step s (.declare "Sphere" ⟨.info [2] [], "volume", []⟩) = .ok s' ∧
      s.table "CanonicalStiefel" = some t ∧ t.lookup "volume" = none ∧
      s'.table "CanonicalStiefel" = some t' ∧ t'.lookup "volume" = some (.info [2] []) ∧
      s'.table "Lorentz" = s.table "Lorentz" := by
  refine ⟨by decide, rfl, rfl, rfl, ?_⟩
  exact ⟨_, _, _, _, rfl, rfl, rfl, rfl, rfl, rfl, rfl⟩

/-- A class body that declares a rule without an own dictionary raises. -/
example : ∃ s, run .empty library = .ok s ∧
    step s (.cls "MySphere" (.inherit "Sphere") [⟨.info [1] [], "dist0", []⟩]) = .error .nameError :=
  ⟨_, rfl, rfl⟩

/-- Non-vacuity of the other theorems: a user class that overrides one rule of the library. -/
example : ∃ s s' t', run .empty library = .ok s ∧
    step s (.cls "MyBall" (.copy "PoincareBall") [⟨.info [2] [], "dist", ["dist0"]⟩]) = .ok s' ∧
    s'.table "MyBall" = some t' ∧ t'.lookup "dist0" = some (.info [2] []) ∧ t'.lookup "logmap" = some (.info [1] []) ∧
    s'.table "PoincareBall" = s.table "PoincareBall" :=
  ⟨_, _, _, rfl, rfl, rfl, rfl, rfl, rfl⟩

end Geoopt.Scaling
