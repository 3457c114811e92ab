import Verif.Props.C41

/-!
# C42, C43: operations of a product act componentwise; its metric is the sum of the metrics
-/

open Geoopt Geoopt.Product Geoopt.Buf

namespace C42

variable {ms : List (Manifold × List ℕ)} {P : Prod}

theorem take_eq (h : init ms = .ok P) (t : T) (g : Part → Except PyErr T)
    (ht : ∀ p ∈ P.parts, takePart p t = g p) (i : ℕ) (p : Part) (hp : P.parts[i]? = some p) :
    take P t i = g p := by
  unfold take
  rw [hp]
  exact ht p (List.mem_of_getElem? hp)

theorem part_of (h : init ms = .ok P) (i : ℕ) (m : Manifold × List ℕ) (hm : ms[i]? = some m) :
    ∃ p, P.parts[i]? = some p ∧ p.man = m.1 ∧ p.shape = m.2 := by
  rw [← (init_ok ms P h).2, List.getElem?_map] at hm
  cases hq : P.parts[i]? with
  | none => rw [hq] at hm; cases hm
  | some p =>
    rw [hq] at hm
    have := Option.some.inj hm
    exact ⟨p, rfl, by rw [← this], by rw [← this]⟩

/-- The `i`-th part of a point of the product, `take P x i`, has the component's shape. -/
theorem take_shape (h : init ms = .ok P) (x : T) (B : List ℕ) (hx : x.shape = B ++ [P.nElements])
    (i : ℕ) (m : Manifold × List ℕ) (hm : ms[i]? = some m) :
    ∃ a, take P x i = .ok a ∧ a.shape = B ++ m.2 := by
  obtain ⟨p, hp, h1, h2⟩ := part_of h i m hm
  obtain ⟨a, ea, ha⟩ := takePart_ok P (init_ok ms P h).1 p (List.mem_of_getElem? hp) x B hx
  exact ⟨a, by unfold take; rw [hp]; exact ea, by rw [ha, h2]⟩

theorem mem_ms (h : init ms = .ok P) (p : Part) (hp : p ∈ P.parts) : (p.man, p.shape) ∈ ms := by
  rw [← (init_ok ms P h).2]
  exact List.mem_map_of_mem (f := fun p : Part => (p.man, p.shape)) hp

/-- A component operation with two arguments that works batchwise: for every component, arguments
of batch shapes `Bx` and `Bu` give a result of batch shape `B` (for broadcasting operations `B` is
the broadcast of `Bx` and `Bu`). -/
def Batched2 (ms : List (Manifold × List ℕ)) (f : Manifold → T → T → Except PyErr T)
    (Bx Bu B : List ℕ) : Prop :=
  ∀ m ∈ ms, ∀ a b : T, a.shape = Bx ++ m.2 → b.shape = Bu ++ m.2 →
    ∃ r, f m.1 a b = .ok r ∧ r.shape = B ++ m.2

/-- The same with three arguments. -/
def Batched3 (ms : List (Manifold × List ℕ)) (f : Manifold → T → T → T → Except PyErr T)
    (Bx Bu Bv B : List ℕ) : Prop :=
  ∀ m ∈ ms, ∀ a b c : T, a.shape = Bx ++ m.2 → b.shape = Bu ++ m.2 → c.shape = Bv ++ m.2 →
    ∃ r, f m.1 a b c = .ok r ∧ r.shape = B ++ m.2

theorem binary_spec (f : Manifold → T → T → Except PyErr T) (h : init ms = .ok P) (x u : T)
    (Bx Bu B : List ℕ) (hx : x.shape = Bx ++ [P.nElements]) (hu : u.shape = Bu ++ [P.nElements])
    (hlen : B.length = max Bx.length Bu.length) (hB : B.prod ≠ 0) (hf : Batched2 ms f Bx Bu B) :
    ∃ t, binary f P x u = .ok t ∧ t.shape = B ++ [P.nElements] ∧
      ∀ i m a b, ms[i]? = some m → take P x i = .ok a → take P u i = .ok b →
        take P t i = f m.1 a b := by
  have hP := (init_ok ms P h).1
  have hk : targetBatchDim [x.shape.length, u.shape.length] = B.length := by
    rw [hlen, hx, hu]
    simp only [targetBatchDim, List.foldl_cons, List.foldl_nil, List.length_append,
      List.length_cons, List.length_nil]
    rcases le_total Bx.length Bu.length with h | h <;> simp [max_def] <;> split_ifs <;> omega
  have key : ∀ p ∈ P.parts, ∃ a b r, takePart p x = .ok a ∧ takePart p u = .ok b ∧
      f p.man a b = .ok r ∧ r.shape = B ++ p.shape := by
    intro p hp
    obtain ⟨a, ea, ha⟩ := takePart_ok P hP p hp x Bx hx
    obtain ⟨b, eb, hb⟩ := takePart_ok P hP p hp u Bu hu
    obtain ⟨r, er, hr⟩ := hf _ (mem_ms h p hp) a b ha hb
    exact ⟨a, b, r, ea, eb, er, hr⟩
  set g : Part → Except PyErr T := fun p => do
    let a ← takePart p x
    let b ← takePart p u
    f p.man a b with hg
  have hm : ∀ p ∈ P.parts, ∃ r, g p = .ok r ∧ r.shape = B ++ p.shape := by
    intro p hp
    obtain ⟨a, b, r, ea, eb, er, hr⟩ := key p hp
    refine ⟨r, ?_, hr⟩
    simp only [hg, ea, eb, bind, Except.bind, er]
  choose! m hm1 hm2 using hm
  obtain ⟨t, e, hs, ht⟩ := componentwise P hP B hB g (flattenTo B.length) m hm1 hm2 (by
    intro p hp
    unfold flattenTo
    rw [hm2 p hp, sliceTo_append _ _ _ rfl])
  refine ⟨t, ?_, hs, ?_⟩
  · unfold binary
    rw [hk]
    rw [← e]
    simp only [bind]
    congr 2
    funext p
    simp only [hg, bind]
    cases takePart p x with
    | error e => rfl
    | ok a =>
      cases takePart p u with
      | error e => rfl
      | ok b => rfl
  · intro i mm a b hi ha hb
    obtain ⟨p, hp, h1, h2⟩ := part_of h i mm hi
    rw [take_eq h t g ht i p hp]
    unfold take at ha hb
    rw [hp] at ha hb
    simp only [hg, bind, Except.bind] at ha hb ⊢
    rw [ha, hb, h1]

theorem ternary_spec (f : Manifold → T → T → T → Except PyErr T) (h : init ms = .ok P) (x u v : T)
    (Bx Bu Bv B : List ℕ) (hx : x.shape = Bx ++ [P.nElements]) (hu : u.shape = Bu ++ [P.nElements])
    (hv : v.shape = Bv ++ [P.nElements])
    (hlen : B.length = max (max Bx.length Bu.length) Bv.length) (hB : B.prod ≠ 0)
    (hf : Batched3 ms f Bx Bu Bv B) :
    ∃ t, ternary f P x u v = .ok t ∧ t.shape = B ++ [P.nElements] ∧
      ∀ i m a b c, ms[i]? = some m → take P x i = .ok a → take P u i = .ok b →
        take P v i = .ok c → take P t i = f m.1 a b c := by
  have hP := (init_ok ms P h).1
  have hk : targetBatchDim [x.shape.length, u.shape.length, v.shape.length] = B.length := by
    rw [hlen, hx, hu, hv]
    simp only [targetBatchDim, List.foldl_cons, List.foldl_nil, List.length_append,
      List.length_cons, List.length_nil]
    rcases le_total Bx.length Bu.length with h | h <;> simp [max_def] <;> split_ifs <;> omega
  have key : ∀ p ∈ P.parts, ∃ a b c r, takePart p x = .ok a ∧ takePart p u = .ok b ∧
      takePart p v = .ok c ∧ f p.man a b c = .ok r ∧ r.shape = B ++ p.shape := by
    intro p hp
    obtain ⟨a, ea, ha⟩ := takePart_ok P hP p hp x Bx hx
    obtain ⟨b, eb, hb⟩ := takePart_ok P hP p hp u Bu hu
    obtain ⟨c, ec, hc⟩ := takePart_ok P hP p hp v Bv hv
    obtain ⟨r, er, hr⟩ := hf _ (mem_ms h p hp) a b c ha hb hc
    exact ⟨a, b, c, r, ea, eb, ec, er, hr⟩
  set g : Part → Except PyErr T := fun p => do
    let a ← takePart p x
    let b ← takePart p u
    let c ← takePart p v
    f p.man a b c with hg
  have hm : ∀ p ∈ P.parts, ∃ r, g p = .ok r ∧ r.shape = B ++ p.shape := by
    intro p hp
    obtain ⟨a, b, c, r, ea, eb, ec, er, hr⟩ := key p hp
    refine ⟨r, ?_, hr⟩
    simp only [hg, ea, eb, ec, bind, Except.bind, er]
  choose! m hm1 hm2 using hm
  obtain ⟨t, e, hs, ht⟩ := componentwise P hP B hB g (flattenTo B.length) m hm1 hm2 (by
    intro p hp
    unfold flattenTo
    rw [hm2 p hp, sliceTo_append _ _ _ rfl])
  refine ⟨t, ?_, hs, ?_⟩
  · unfold ternary
    rw [hk]
    rw [← e]
    simp only [bind]
    congr 2
    funext p
    simp only [hg, bind]
    cases takePart p x with
    | error e => rfl
    | ok a =>
      cases takePart p u with
      | error e => rfl
      | ok b =>
        cases takePart p v with
        | error e => rfl
        | ok c => rfl
  · intro i mm a b c hi ha hb hc
    obtain ⟨p, hp, h1, h2⟩ := part_of h i mm hi
    rw [take_eq h t g ht i p hp]
    unfold take at ha hb hc
    rw [hp] at ha hb hc
    simp only [hg, bind, Except.bind] at ha hb hc ⊢
    rw [ha, hb, hc, h1]

/-- **C42 (partial).** `projx` acts on each part by the component's `projx`.  Missing, here and below:
empty batches, for which the operation raises. -/
theorem C42_projx_partial (h : init ms = .ok P) (x : T) (B : List ℕ)
    (hx : x.shape = B ++ [P.nElements]) (hB : B.prod ≠ 0)
    (hf : ∀ m ∈ ms, ∀ a : T, a.shape = B ++ m.2 → ∃ r, m.1.projx a = .ok r ∧ r.shape = B ++ m.2) :
    ∃ t, projx P x = .ok t ∧ t.shape = x.shape ∧
      ∀ i m a, ms[i]? = some m → take P x i = .ok a → take P t i = m.1.projx a := by
  have hP := (init_ok ms P h).1
  set g : Part → Except PyErr T := fun p => do
    let a ← takePart p x
    p.man.projx a with hg
  have hm : ∀ p ∈ P.parts, ∃ r, g p = .ok r ∧ r.shape = B ++ p.shape := by
    intro p hp
    obtain ⟨a, ea, ha⟩ := takePart_ok P hP p hp x B hx
    obtain ⟨r, er, hr⟩ := hf _ (mem_ms h p hp) a ha
    refine ⟨r, ?_, hr⟩
    simp only [hg, ea, bind, Except.bind]
    exact er
  choose! m hm1 hm2 using hm
  obtain ⟨t, e, hs, ht⟩ := componentwise P hP B hB g (fun r => reshapeInfer r B) m hm1 hm2
    (fun _ _ => rfl)
  refine ⟨t, ?_, by rw [hs, hx], ?_⟩
  · unfold projx
    rw [← e, show x.shape.take (x.shape.length - 1) = B by rw [hx]; simp]
    simp only [bind]
    congr 2
    funext p
    simp only [hg, bind]
    cases takePart p x <;> rfl
  · intro i mm a hi ha
    obtain ⟨p, hp, h1, h2⟩ := part_of h i mm hi
    rw [take_eq h t g ht i p hp]
    unfold take at ha
    rw [hp] at ha
    simp only [hg, bind, Except.bind] at ha ⊢
    rw [ha, h1]

section binary

variable (x u : T) (Bx Bu B : List ℕ)

/-- The conclusion of C42 for an operation with two arguments: the result has the broadcast batch
shape, and its `i`-th part is the component's operation on the `i`-th parts. -/
def Componentwise2 (ms : List (Manifold × List ℕ)) (P : Prod) (f : Manifold → T → T → Except PyErr T)
    (op : Prod → T → T → Except PyErr T) (x u : T) (B : List ℕ) : Prop :=
  ∃ t, op P x u = .ok t ∧ t.shape = B ++ [P.nElements] ∧
    ∀ i m a b, ms[i]? = some m → take P x i = .ok a → take P u i = .ok b →
      take P t i = f m.1 a b

/-- **C42 (partial).** `proju`, `egrad2rgrad`, `retr`, `expmap` and `logmap` act componentwise,
with batch shapes that may differ. -/
theorem C42_binary_partial (h : init ms = .ok P) (hx : x.shape = Bx ++ [P.nElements])
    (hu : u.shape = Bu ++ [P.nElements]) (hlen : B.length = max Bx.length Bu.length)
    (hB : B.prod ≠ 0) :
    (Batched2 ms Manifold.proju Bx Bu B → Componentwise2 ms P Manifold.proju proju x u B) ∧
    (Batched2 ms Manifold.egrad2rgrad Bx Bu B →
      Componentwise2 ms P Manifold.egrad2rgrad egrad2rgrad x u B) ∧
    (Batched2 ms Manifold.retr Bx Bu B → Componentwise2 ms P Manifold.retr retr x u B) ∧
    (Batched2 ms Manifold.expmap Bx Bu B → Componentwise2 ms P Manifold.expmap expmap x u B) ∧
    (Batched2 ms Manifold.logmap Bx Bu B → Componentwise2 ms P Manifold.logmap logmap x u B) :=
  ⟨binary_spec _ h x u Bx Bu B hx hu hlen hB, binary_spec _ h x u Bx Bu B hx hu hlen hB,
    binary_spec _ h x u Bx Bu B hx hu hlen hB, binary_spec _ h x u Bx Bu B hx hu hlen hB,
    binary_spec _ h x u Bx Bu B hx hu hlen hB⟩

/-- The conclusion of C42 for an operation with three arguments. -/
def Componentwise3 (ms : List (Manifold × List ℕ)) (P : Prod)
    (f : Manifold → T → T → T → Except PyErr T) (op : Prod → T → T → T → Except PyErr T)
    (x u v : T) (B : List ℕ) : Prop :=
  ∃ t, op P x u v = .ok t ∧ t.shape = B ++ [P.nElements] ∧
    ∀ i m a b c, ms[i]? = some m → take P x i = .ok a → take P u i = .ok b →
      take P v i = .ok c → take P t i = f m.1 a b c

/-- **C42 (partial).** `transp`, `transp_follow_retr` and `transp_follow_expmap` act componentwise. -/
theorem C42_ternary_partial (v : T) (Bv : List ℕ) (h : init ms = .ok P)
    (hx : x.shape = Bx ++ [P.nElements]) (hu : u.shape = Bu ++ [P.nElements])
    (hv : v.shape = Bv ++ [P.nElements])
    (hlen : B.length = max (max Bx.length Bu.length) Bv.length) (hB : B.prod ≠ 0) :
    (Batched3 ms Manifold.transp Bx Bu Bv B → Componentwise3 ms P Manifold.transp transp x u v B) ∧
    (Batched3 ms Manifold.transpFollowRetr Bx Bu Bv B →
      Componentwise3 ms P Manifold.transpFollowRetr transpFollowRetr x u v B) ∧
    (Batched3 ms Manifold.transpFollowExpmap Bx Bu Bv B →
      Componentwise3 ms P Manifold.transpFollowExpmap transpFollowExpmap x u v B) :=
  ⟨ternary_spec _ h x u v Bx Bu Bv B hx hu hv hlen hB,
    ternary_spec _ h x u v Bx Bu Bv B hx hu hv hlen hB,
    ternary_spec _ h x u v Bx Bu Bv B hx hu hv hlen hB⟩

end binary

/-- The two halves succeeding, the pair succeeds. -/
theorem ternary2_ok (f : Manifold → T → T → T → Except PyErr (T × T)) (P : Prod) (x u v y w : T)
    (h1 : ternary (fun m a b c => (f m a b c).map _root_.Prod.fst) P x u v = .ok y)
    (h2 : ternary (fun m a b c => (f m a b c).map _root_.Prod.snd) P x u v = .ok w) :
    ternary2 f P x u v = .ok (y, w) := by
  unfold ternary at h1 h2
  generalize hk : targetBatchDim [x.shape.length, u.shape.length, v.shape.length] = k at h1 h2
  simp only [bind] at h1 h2
  cases m1 : P.parts.mapM (fun p => (takePart p x).bind fun a => (takePart p u).bind fun b =>
      (takePart p v).bind fun c => ((f p.man a b c).map _root_.Prod.fst).bind (flattenTo k)) with
  | error e => rw [m1] at h1; cases h1
  | ok r1 =>
    rw [m1] at h1
    cases m2 : P.parts.mapM (fun p => (takePart p x).bind fun a => (takePart p u).bind fun b =>
        (takePart p v).bind fun c => ((f p.man a b c).map _root_.Prod.snd).bind (flattenTo k)) with
    | error e => rw [m2] at h2; cases h2
    | ok r2 =>
      rw [m2] at h2
      simp only [Except.bind] at h1 h2
      have f1 := (mapM_ok_iff _ _ _).1 m1
      have f2 := (mapM_ok_iff _ _ _).1 m2
      have key : ∀ (ps : List Part) (r1 r2 : List T),
          List.Forall₂ (fun p r => ((takePart p x).bind fun a => (takePart p u).bind fun b =>
            (takePart p v).bind fun c =>
              ((f p.man a b c).map _root_.Prod.fst).bind (flattenTo k)) = .ok r) ps r1 →
          List.Forall₂ (fun p r => ((takePart p x).bind fun a => (takePart p u).bind fun b =>
            (takePart p v).bind fun c =>
              ((f p.man a b c).map _root_.Prod.snd).bind (flattenTo k)) = .ok r) ps r2 →
          ps.mapM (fun p => do
            let point ← takePart p x
            let direction ← takePart p u
            let vector ← takePart p v
            let (newPoint, transported) ← f p.man point direction vector
            let transported ← flattenTo k transported
            let newPoint ← flattenTo k newPoint
            return (newPoint, transported) : Part → Except PyErr (T × T)) = .ok (r1.zip r2) ∧
          r1.length = r2.length := by
        intro ps
        induction ps with
        | nil =>
          intro r1 r2 g1 g2
          cases g1; cases g2
          exact ⟨rfl, rfl⟩
        | cons p ps ih =>
          intro r1 r2 g1 g2
          cases g1 with
          | @cons _ s1 _ r1 a1 b1 =>
          cases g2 with
          | @cons _ s2 _ r2 a2 b2 =>
          obtain ⟨e, l⟩ := ih r1 r2 b1 b2
          refine ⟨?_, by simp [l]⟩
          rw [List.mapM_cons, e]
          revert a1 a2
          simp only [bind]
          cases takePart p x with
          | error e => intro hq; cases hq
          | ok a =>
            cases takePart p u with
            | error e => intro hq; cases hq
            | ok b =>
              cases takePart p v with
              | error e => intro hq; cases hq
              | ok c =>
                simp only [Except.bind]
                cases f p.man a b c with
                | error e => intro hq; cases hq
                | ok s =>
                  obtain ⟨t1, t2⟩ := s
                  simp only [Except.map]
                  intro q1 q2
                  rw [q1, q2]
                  rfl
      obtain ⟨e, l⟩ := key _ _ _ f1 f2
      unfold ternary2
      rw [hk]
      simp only [bind] at e ⊢
      rw [e]
      simp only [Except.bind]
      rw [List.map_fst_zip (by omega), List.map_snd_zip (by omega), h1, h2]
      rfl

/-- A component operation with three arguments and two results that works batchwise. -/
def Batched32 (ms : List (Manifold × List ℕ)) (f : Manifold → T → T → T → Except PyErr (T × T))
    (Bx Bu Bv B : List ℕ) : Prop :=
  ∀ m ∈ ms, ∀ a b c : T, a.shape = Bx ++ m.2 → b.shape = Bu ++ m.2 → c.shape = Bv ++ m.2 →
    ∃ y w, f m.1 a b c = .ok (y, w) ∧ y.shape = B ++ m.2 ∧ w.shape = B ++ m.2

/-- The conclusion of C42 for a paired operation. -/
def Componentwise32 (ms : List (Manifold × List ℕ)) (P : Prod)
    (f : Manifold → T → T → T → Except PyErr (T × T)) (op : Prod → T → T → T → Except PyErr (T × T))
    (x u v : T) (B : List ℕ) : Prop :=
  ∃ y w, op P x u v = .ok (y, w) ∧ y.shape = B ++ [P.nElements] ∧ w.shape = B ++ [P.nElements] ∧
    ∀ i m a b c, ms[i]? = some m → take P x i = .ok a → take P u i = .ok b → take P v i = .ok c →
      ∃ yi wi, f m.1 a b c = .ok (yi, wi) ∧ take P y i = .ok yi ∧ take P w i = .ok wi

/-- **C42 (partial).** `retr_transp` and `expmap_transp` act componentwise. -/
theorem C42_paired_partial (x u v : T) (Bx Bu Bv B : List ℕ) (h : init ms = .ok P)
    (hx : x.shape = Bx ++ [P.nElements]) (hu : u.shape = Bu ++ [P.nElements])
    (hv : v.shape = Bv ++ [P.nElements])
    (hlen : B.length = max (max Bx.length Bu.length) Bv.length) (hB : B.prod ≠ 0) :
    (Batched32 ms Manifold.retrTransp Bx Bu Bv B →
      Componentwise32 ms P Manifold.retrTransp retrTransp x u v B) ∧
    (Batched32 ms Manifold.expmapTransp Bx Bu Bv B →
      Componentwise32 ms P Manifold.expmapTransp expmapTransp x u v B) := by
  have main : ∀ f : Manifold → T → T → T → Except PyErr (T × T), Batched32 ms f Bx Bu Bv B →
      Componentwise32 ms P f (ternary2 f) x u v B := by
    intro f hf
    obtain ⟨y, ey, hy, hty⟩ := ternary_spec (fun m a b c => (f m a b c).map _root_.Prod.fst) h x u v
      Bx Bu Bv B hx hu hv hlen hB (by
        intro m hm a b c ha hb hc
        obtain ⟨y, w, e, h1, h2⟩ := hf m hm a b c ha hb hc
        exact ⟨y, by simp only [e]; rfl, h1⟩)
    obtain ⟨w, ew, hw, htw⟩ := ternary_spec (fun m a b c => (f m a b c).map _root_.Prod.snd) h x u v
      Bx Bu Bv B hx hu hv hlen hB (by
        intro m hm a b c ha hb hc
        obtain ⟨y, w, e, h1, h2⟩ := hf m hm a b c ha hb hc
        exact ⟨w, by simp only [e]; rfl, h2⟩)
    refine ⟨y, w, ternary2_ok f P x u v y w ey ew, hy, hw, ?_⟩
    intro i m a b c hi ha hb hc
    have ty := hty i m a b c hi ha hb hc
    have tw := htw i m a b c hi ha hb hc
    obtain ⟨a', ea', ha'⟩ := take_shape h x Bx hx i m hi
    obtain ⟨b', eb', hb'⟩ := take_shape h u Bu hu i m hi
    obtain ⟨c', ec', hc'⟩ := take_shape h v Bv hv i m hi
    rw [ha] at ea'; rw [hb] at eb'; rw [hc] at ec'
    cases ea'; cases eb'; cases ec'
    obtain ⟨yi, wi, e, -, -⟩ := hf m (List.mem_of_getElem? hi) a b c ha' hb' hc'
    rw [e] at ty tw
    exact ⟨yi, wi, e, ty, tw⟩
  exact ⟨main _, main _⟩

/-- **C42 fails for an empty batch.** Every operation raises, here `projx`: the flattening
`view(0, -1)` is ambiguous. -/
theorem C42_counterexample_empty_batch (h : init ms = .ok P) (x : T) (B : List ℕ)
    (hx : x.shape = B ++ [P.nElements]) (hB : B.prod = 0) : ∃ e, projx P x = .error e := by
  have hP := (init_ok ms P h).1
  unfold projx
  rw [show x.shape.take (x.shape.length - 1) = B by rw [hx]; simp]
  cases hp : P.parts with
  | nil => exact absurd hp hP.ne
  | cons p ps =>
    obtain ⟨a, ea, ha⟩ := takePart_ok P hP p (by rw [hp]; simp) x B hx
    rw [List.mapM_cons]
    simp only [bind, Except.bind, ea]
    cases p.man.projx a with
    | error e => exact ⟨e, rfl⟩
    | ok r => simp only [reshapeInfer_empty r B hB]; exact ⟨_, rfl⟩

/-- The hypotheses are met by a product of flat spaces. -/
example : Batched2 [(C41.flat, [2]), (C41.flat, []), (C41.flat, [2, 2])] Manifold.retr [3] [3] [3] := by
  intro m hm a b ha hb
  simp only [List.mem_cons, List.not_mem_nil, or_false] at hm
  have hab : a.shape = b.shape := ha.trans hb.symm
  rcases hm with rfl | rfl | rfl <;>
  · simp only [C41.flat, add]
    rw [dif_pos hab]
    exact ⟨_, rfl, ha⟩

/-! ## Checks -/

/-- **C52.** The point check of a product accepts exactly the points all of whose parts are accepted by
their components (when no component check raises). -/
theorem C52_product_point (h : init ms = .ok P) (x : T) (B : List ℕ)
    (hx : x.shape = B ++ [P.nElements])
    (hf : ∀ m ∈ ms, ∀ a : T, a.shape = B ++ m.2 → ∃ b, m.1.checkPoint a = .ok b) :
    ∃ b, checkPoint P x = .ok b ∧
      (b = true ↔ ∀ i m a, ms[i]? = some m → take P x i = .ok a → m.1.checkPoint a = .ok true) := by
  have hP := (init_ok ms P h).1
  have key : ∀ ps : List Part, (∀ p ∈ ps, p ∈ P.parts) → ∃ b, checkPointLoop x ps = .ok b ∧
      (b = true ↔ ∀ p ∈ ps, ∀ a, takePart p x = .ok a → p.man.checkPoint a = .ok true) := by
    intro ps hps
    induction ps with
    | nil => exact ⟨true, rfl, by simp⟩
    | cons p ps ih =>
      obtain ⟨b, e, hb⟩ := ih fun q hq => hps q (by simp [hq])
      obtain ⟨a, ea, ha⟩ := takePart_ok P hP p (hps p (by simp)) x B hx
      obtain ⟨c, ec⟩ := hf _ (mem_ms h p (hps p (by simp))) a ha
      replace ec : p.man.checkPoint a = .ok c := ec
      rw [checkPointLoop]
      simp only [bind, Except.bind, ea, ec]
      cases c with
      | false =>
        refine ⟨false, rfl, ?_⟩
        simp only [Bool.false_eq_true, false_iff]
        intro H
        have := H p (by simp) a ea
        rw [ec] at this; cases this
      | true =>
        refine ⟨b, by simpa using e, ?_⟩
        rw [hb]
        constructor
        · intro H q hq
          rcases List.mem_cons.1 hq with rfl | hq
          · intro a' ea'; rw [ea] at ea'; cases ea'; exact ec
          · exact H q hq
        · intro H q hq; exact H q (by simp [hq])
  obtain ⟨b, e, hb⟩ := key P.parts fun p hp => hp
  refine ⟨b, e, ?_⟩
  rw [hb]
  constructor
  · intro H i m a hi ha
    obtain ⟨p, hp, h1, h2⟩ := part_of h i m hi
    unfold take at ha
    rw [hp] at ha
    rw [← h1]
    exact H p (List.mem_of_getElem? hp) a ha
  · intro H p hp a ha
    obtain ⟨i, hi⟩ := List.mem_iff_getElem?.1 hp
    apply H i (p.man, p.shape) a
    · rw [← (init_ok ms P h).2, List.getElem?_map, hi]; rfl
    · unfold take; rw [hi]; exact ha

/-- **C52.** The tangent check of a product accepts exactly the vectors all of whose parts are accepted
by their components (when no component check raises). -/
theorem C52_product_tangent (h : init ms = .ok P) (x u : T) (B Bu : List ℕ)
    (hx : x.shape = B ++ [P.nElements]) (hu : u.shape = Bu ++ [P.nElements])
    (hf : ∀ m ∈ ms, ∀ a c : T, a.shape = B ++ m.2 → c.shape = Bu ++ m.2 →
      ∃ b, m.1.checkTangent a c = .ok b) :
    ∃ b, checkTangent P x u = .ok b ∧
      (b = true ↔ ∀ i m a c, ms[i]? = some m → take P x i = .ok a → take P u i = .ok c →
        m.1.checkTangent a c = .ok true) := by
  have hP := (init_ok ms P h).1
  have key : ∀ ps : List Part, (∀ p ∈ ps, p ∈ P.parts) → ∃ b, checkTangentLoop x u ps = .ok b ∧
      (b = true ↔ ∀ p ∈ ps, ∀ a c, takePart p x = .ok a → takePart p u = .ok c →
        p.man.checkTangent a c = .ok true) := by
    intro ps hps
    induction ps with
    | nil => exact ⟨true, rfl, by simp⟩
    | cons p ps ih =>
      obtain ⟨b, e, hb⟩ := ih fun q hq => hps q (by simp [hq])
      obtain ⟨a, ea, ha⟩ := takePart_ok P hP p (hps p (by simp)) x B hx
      obtain ⟨d, ed, hd⟩ := takePart_ok P hP p (hps p (by simp)) u Bu hu
      obtain ⟨c, ec⟩ := hf _ (mem_ms h p (hps p (by simp))) a d ha hd
      replace ec : p.man.checkTangent a d = .ok c := ec
      rw [checkTangentLoop]
      simp only [bind, Except.bind, ea, ed, ec]
      cases c with
      | false =>
        refine ⟨false, rfl, ?_⟩
        simp only [Bool.false_eq_true, false_iff]
        intro H
        have := H p (by simp) a d ea ed
        rw [ec] at this; cases this
      | true =>
        refine ⟨b, by simpa using e, ?_⟩
        rw [hb]
        constructor
        · intro H q hq
          rcases List.mem_cons.1 hq with rfl | hq
          · intro a' c' ea' ec'; rw [ea] at ea'; rw [ed] at ec'; cases ea'; cases ec'; exact ec
          · exact H q hq
        · intro H q hq; exact H q (by simp [hq])
  obtain ⟨b, e, hb⟩ := key P.parts fun p hp => hp
  refine ⟨b, e, ?_⟩
  rw [hb]
  constructor
  · intro H i m a c hi ha hc
    obtain ⟨p, hp, h1, h2⟩ := part_of h i m hi
    unfold take at ha hc
    rw [hp] at ha hc
    rw [← h1]
    exact H p (List.mem_of_getElem? hp) a c ha hc
  · intro H p hp a c ha hc
    obtain ⟨i, hi⟩ := List.mem_iff_getElem?.1 hp
    apply H i (p.man, p.shape) a c
    · rw [← (init_ok ms P h).2, List.getElem?_map, hi]; rfl
    · unfold take; rw [hi]; exact ha
    · unfold take; rw [hi]; exact hc

/-! ## Random points and origins -/

theorem sample_spec (h : init ms = .ok P) (B : List ℕ) (hB : B.prod ≠ 0)
    (s : Manifold → List ℕ → Except PyErr T)
    (hs : ∀ m ∈ ms, ∃ r, s m.1 (B ++ m.2) = .ok r ∧ r.shape = B ++ m.2) :
    ∃ t, (P.parts.mapM (fun p => s p.man (B ++ p.shape))).bind (pack P) = .ok t ∧
      t.shape = B ++ [P.nElements] ∧
      ∀ i m, ms[i]? = some m → take P t i = s m.1 (B ++ m.2) := by
  have hP := (init_ok ms P h).1
  have hex : ∀ ps : List Part, (∀ p ∈ ps, p ∈ P.parts) →
      ∃ ts, ps.mapM (fun p => s p.man (B ++ p.shape)) = .ok ts ∧
        List.Forall₂ (fun p t => t.shape = B ++ p.shape) ps ts ∧
        List.Forall₂ (fun p t => s p.man (B ++ p.shape) = .ok t) ps ts := by
    intro ps hps
    induction ps with
    | nil => exact ⟨[], rfl, .nil, .nil⟩
    | cons p ps ih =>
      obtain ⟨ts, e, h1, h2⟩ := ih fun q hq => hps q (by simp [hq])
      obtain ⟨r, er, hr⟩ := hs _ (mem_ms h p (hps p (by simp)))
      refine ⟨r :: ts, ?_, .cons hr h1, .cons er h2⟩
      rw [List.mapM_cons, er, e]
      rfl
  obtain ⟨ts, e, h1, h2⟩ := hex P.parts fun p hp => hp
  obtain ⟨t, p1, p2, p3⟩ := pack_ok P hP B hB ts h1
  refine ⟨t, by rw [e]; exact p1, p2, ?_⟩
  intro i m hi
  obtain ⟨p, hp, hm1, hm2⟩ := part_of h i m hi
  obtain ⟨hlt, rfl⟩ := List.getElem?_eq_some_iff.1 hp
  have l := h2.length_eq
  have a1 := (List.forall₂_iff_get.1 p3).2 i hlt (by omega)
  have a2 := (List.forall₂_iff_get.1 h2).2 i hlt (by omega)
  simp only [List.get_eq_getElem] at a1 a2
  unfold take
  rw [hp, ← hm1, ← hm2, a2]
  exact a1

/-- **C42 (partial).** `random` and `origin` of a product are made of the components' random points and
origins, every component seeing the same seed; a wrong last axis is refused.  Missing: empty
batches. -/
theorem C42_random_origin_partial (h : init ms = .ok P) (B : List ℕ) (hB : B.prod ≠ 0)
    (seed : Option ℕ)
    (hr : ∀ m ∈ ms, ∃ r, m.1.random (B ++ m.2) = .ok r ∧ r.shape = B ++ m.2)
    (ho : ∀ m ∈ ms, ∃ r, m.1.origin (B ++ m.2) seed = .ok r ∧ r.shape = B ++ m.2) :
    (∃ t, random P (B ++ [P.nElements]) = .ok t ∧ t.shape = B ++ [P.nElements] ∧
      ∀ i m, ms[i]? = some m → take P t i = m.1.random (B ++ m.2)) ∧
    (∃ t, origin P (B ++ [P.nElements]) seed = .ok t ∧ t.shape = B ++ [P.nElements] ∧
      ∀ i m, ms[i]? = some m → take P t i = m.1.origin (B ++ m.2) seed) ∧
    (∀ n, n ≠ P.nElements → random P (B ++ [n]) = .error .valueError ∧
      origin P (B ++ [n]) seed = .error .valueError) := by
  refine ⟨?_, ?_, ?_⟩
  · obtain ⟨t, e, h1, h2⟩ := sample_spec h B hB Manifold.random hr
    refine ⟨t, ?_, h1, h2⟩
    rw [← e]
    simp [random, checkShape, bind, Except.bind, pure, Except.pure]
  · obtain ⟨t, e, h1, h2⟩ := sample_spec h B hB (fun m s => m.origin s seed) ho
    refine ⟨t, ?_, h1, h2⟩
    rw [← e]
    simp [origin, checkShape, bind, Except.bind, pure, Except.pure]
  · intro n hn
    constructor <;>
    simp [random, origin, checkShape, bind, Except.bind, pure, Except.pure, hn, throw, throwThe,
      MonadExceptOf.throw]

/-! ## C43 -/

/-- `inner` (with `v`) and `dist2` follow the same scheme. -/
theorem sum_spec (h : init ms = .ok P) (B : List ℕ) (hB : B.prod ≠ 0) (g : Part → Except PyErr T)
    (m : Part → T) (s : Part → List ℕ) (hg : ∀ p ∈ P.parts, g p = .ok (m p))
    (hm : ∀ p ∈ P.parts, (m p).shape = B ++ s p) :
    ∃ t, (P.parts.mapM fun p => (g p).bind fun r => (flattenTo B.length r).bind sumLast).bind pySum
        = .ok t ∧ t.shape = B ∧
      ∀ i < B.prod, t.data.getD i 0 =
        (P.parts.map fun p => (row (s p).prod i (m p).data).sum).sum := by
  have hP := (init_ok ms P h).1
  have key : ∀ p ∈ P.parts, ∃ r, ((g p).bind fun r => (flattenTo B.length r).bind sumLast) = .ok r ∧
      r.shape = B ∧ ∀ i < B.prod, r.data.getD i 0 = (row (s p).prod i (m p).data).sum := by
    intro p hp
    obtain ⟨r, e, h1, h2⟩ := flatten_sum_ok (m p) B (s p) (hm p hp) hB
    refine ⟨r, ?_, h1, h2⟩
    rw [hg p hp]
    simp only [Except.bind, flattenTo]
    rw [hm p hp, sliceTo_append _ _ _ rfl]
    exact e
  choose! r hr1 hr2 hr3 using key
  rw [mapM_ok _ _ _ hr1]
  obtain ⟨t, e, h1, h2⟩ := pySum_ok (P.parts.map r) (by simpa using hP.ne) B (by
    intro q hq
    obtain ⟨p, hp, rfl⟩ := List.mem_map.1 hq
    exact hr2 p hp)
  refine ⟨t, e, h1, fun i hi => ?_⟩
  rw [h2 i, List.map_map]
  congr 1
  apply List.map_congr_left
  intro p hp
  exact hr3 p hp i hi

theorem row_one (i : ℕ) (l : List ℝ) : (row 1 i l).sum = l.getD i 0 := by
  unfold row
  rw [Nat.mul_one, List.getD_eq_getElem?_getD]
  by_cases h : i < l.length
  · rw [List.drop_eq_getElem_cons h, List.getElem?_eq_getElem h]
    simp only [List.take_succ_cons, List.take_zero, List.sum_cons, List.sum_nil, add_zero,
      Option.getD_some]
  · rw [List.drop_of_length_le (not_lt.1 h), List.getElem?_eq_none (not_lt.1 h)]; simp

/-- **C43 (partial).** For every batch element `b`, `inner` is the sum over the components of their inner
products of the parts; with `keepdim` the result has one more axis of size 1.  The components return
one number per batch element with `keepdim=True` (trailing axes of size one).  Missing: empty batches
(which raise). -/
theorem C43_inner_partial (h : init ms = .ok P) (x u : T) (v : Option T) (Bx Bu Bv B : List ℕ)
    (hx : x.shape = Bx ++ [P.nElements]) (hu : u.shape = Bu ++ [P.nElements])
    (hv : ∀ w, v = some w → w.shape = Bv ++ [P.nElements])
    (hlen : B.length = max (max Bx.length Bu.length) (if v.isSome then Bv.length else 0))
    (hB : B.prod ≠ 0)
    (hf : ∀ m ∈ ms, ∀ a b : T, ∀ c : Option T, a.shape = Bx ++ m.2 → b.shape = Bu ++ m.2 →
      (∀ w, c = some w → w.shape = Bv ++ m.2) → (c.isSome = v.isSome) →
      ∃ r s, m.1.inner a b c = .ok r ∧ r.shape = B ++ s ∧ s.prod = 1) (keepdim : Bool) :
    ∃ (t : T) (parts : List T), Product.inner P x u v keepdim = .ok t ∧
      t.shape = (if keepdim then B ++ [1] else B) ∧
      (parts.length = ms.length ∧ ∀ i m r, ms[i]? = some m → parts[i]? = some r →
        ∃ a b c, take P x i = .ok a ∧ take P u i = .ok b ∧
          (∀ w, v = some w → ∃ d, take P w i = .ok d ∧ c = some d) ∧ (v = none → c = none) ∧
          m.1.inner a b c = .ok r) ∧
      ∀ b < B.prod, t.data.getD b 0 = (parts.map fun r => r.data.getD b 0).sum := by
  have hP := (init_ok ms P h).1
  have hk : innerBatchDim x u v = B.length := by
    rw [hlen]
    cases v with
    | none =>
      simp only [innerBatchDim, hx, hu, targetBatchDim, List.foldl_cons, List.foldl_nil, List.length_append,
        List.length_cons, List.length_nil]
      rcases le_total Bx.length Bu.length with h | h <;> simp [max_def] <;> split_ifs <;> omega
    | some w =>
      simp only [innerBatchDim, hx, hu, hv w rfl, targetBatchDim, List.foldl_cons, List.foldl_nil,
        List.length_append, List.length_cons, List.length_nil]
      rcases le_total Bx.length Bu.length with h | h <;> simp [max_def] <;> split_ifs <;> omega
  set tv : Part → Except PyErr (Option T) := fun p => takeOpt p v with htv
  have key : ∀ p ∈ P.parts, ∃ a b c r s, takePart p x = .ok a ∧ takePart p u = .ok b ∧
      tv p = .ok c ∧ p.man.inner a b c = .ok r ∧ r.shape = B ++ s ∧ s.prod = 1 := by
    intro p hp
    obtain ⟨a, ea, ha⟩ := takePart_ok P hP p hp x Bx hx
    obtain ⟨b, eb, hb⟩ := takePart_ok P hP p hp u Bu hu
    have hc : ∃ c, tv p = .ok c ∧ (∀ w, c = some w → w.shape = Bv ++ p.shape) ∧
        c.isSome = v.isSome := by
      cases v with
      | none => exact ⟨none, rfl, by simp, rfl⟩
      | some w =>
        obtain ⟨c, ec, hc⟩ := takePart_ok P hP p hp w Bv (hv w rfl)
        refine ⟨some c, by simp only [htv, takeOpt, ec]; rfl, ?_, rfl⟩
        rintro w' ⟨⟩; exact hc
    obtain ⟨c, ec, hc1, hc2⟩ := hc
    obtain ⟨r, s, er, hr, hs⟩ := hf _ (mem_ms h p hp) a b c ha hb hc1 hc2
    exact ⟨a, b, c, r, s, ea, eb, ec, er, hr, hs⟩
  choose! fa fb fc fr fs h1 h2 h3 h4 h5 h6 using key
  obtain ⟨t, e, ht, hd⟩ := sum_spec h B hB
    (fun p => (takePart p x).bind fun a => (takePart p u).bind fun b => (tv p).bind fun c =>
      p.man.inner a b c) fr fs
    (by intro p hp; simp only [Except.bind, h1 p hp, h2 p hp, h3 p hp, h4 p hp]) h5
  have hloop : (P.parts.mapM fun p => do
      let point ← takePart p x
      let uVec ← takePart p u
      let vVec ← takeOpt p v
      let inner ← p.man.inner point uVec vVec
      let inner ← flattenTo B.length inner
      sumLast inner) = (P.parts.mapM fun p =>
        ((takePart p x).bind fun a => (takePart p u).bind fun b => (tv p).bind fun c =>
          p.man.inner a b c).bind fun r => (flattenTo B.length r).bind sumLast) := by
    congr 1
    funext p
    simp only [bind, htv]
    cases takePart p x with
    | error e => rfl
    | ok a =>
      cases takePart p u with
      | error e => rfl
      | ok b =>
        simp only [Except.bind]
        cases takeOpt p v with
        | error e => rfl
        | ok c => rfl
  have hmain : Product.inner P x u v keepdim = .ok (if keepdim then unsqueezeLast t else t) := by
    unfold Product.inner
    simp only [hk]
    rw [hloop]
    cases hq : (P.parts.mapM fun p =>
        ((takePart p x).bind fun a => (takePart p u).bind fun b => (tv p).bind fun c =>
          p.man.inner a b c).bind fun r => (flattenTo B.length r).bind sumLast) with
    | error e' => rw [hq] at e; cases e
    | ok l =>
      rw [hq] at e
      simp only [bind, Except.bind] at e ⊢
      rw [e]
      rfl
  refine ⟨_, P.parts.map fr, hmain, ?_, ⟨?_, ?_⟩, ?_⟩
  · cases keepdim <;> simp [unsqueezeLast, ht]
  · rw [← (init_ok ms P h).2]; simp
  · intro i m r hi hr
    obtain ⟨p, hp, m1, m2⟩ := part_of h i m hi
    have hpm := List.mem_of_getElem? hp
    rw [List.getElem?_map, hp] at hr
    obtain rfl : fr p = r := Option.some.inj hr
    have h3p := h3 p hpm
    refine ⟨fa p, fb p, fc p, ?_, ?_, ?_, ?_, ?_⟩
    · unfold take; rw [hp]; exact h1 p hpm
    · unfold take; rw [hp]; exact h2 p hpm
    · rintro w rfl
      simp only [htv, takeOpt] at h3p
      unfold take
      rw [hp]
      cases hw : takePart p w with
      | error e => rw [hw] at h3p; cases h3p
      | ok d => rw [hw] at h3p; exact ⟨d, hw, (Except.ok.inj h3p).symm⟩
    · rintro rfl
      exact (Except.ok.inj h3p).symm
    · rw [← m1]; exact h4 p hpm
  · intro b hb
    have : (if keepdim = true then unsqueezeLast t else t).data = t.data := by
      cases keepdim <;> rfl
    rw [this, hd b hb, List.map_map]
    congr 1
    apply List.map_congr_left
    intro p hp
    simp only [Function.comp]
    rw [h6 p hp, row_one]

/-- **C43 (partial).** For every batch element `b`, `dist2` is the sum of the components' squared
distances and `dist` is `sqrt (max dist2 1e-15)`.  Missing: empty batches. -/
theorem C43_dist_partial (h : init ms = .ok P) (x y : T) (Bx By B : List ℕ)
    (hx : x.shape = Bx ++ [P.nElements]) (hy : y.shape = By ++ [P.nElements])
    (hlen : B.length = max Bx.length By.length) (hB : B.prod ≠ 0)
    (hf : ∀ m ∈ ms, ∀ a b : T, a.shape = Bx ++ m.2 → b.shape = By ++ m.2 →
      ∃ r s, m.1.dist2 a b = .ok r ∧ r.shape = B ++ s ∧ s.prod = 1) (keepdim : Bool) :
    ∃ (t d : T) (parts : List T), dist2 P x y keepdim = .ok t ∧ dist P x y keepdim = .ok d ∧
      t.shape = (if keepdim then B ++ [1] else B) ∧ d.shape = t.shape ∧
      (parts.length = ms.length ∧ ∀ i m r, ms[i]? = some m → parts[i]? = some r →
        ∃ a b, take P x i = .ok a ∧ take P y i = .ok b ∧ m.1.dist2 a b = .ok r) ∧
      ∀ b < B.prod, t.data.getD b 0 = (parts.map fun r => r.data.getD b 0).sum ∧
        d.data.getD b 0 = Real.sqrt (max (parts.map fun r => r.data.getD b 0).sum 1e-15) := by
  have hP := (init_ok ms P h).1
  have hk : targetBatchDim [x.shape.length, y.shape.length] = B.length := by
    rw [hlen, hx, hy]
    simp only [targetBatchDim, List.foldl_cons, List.foldl_nil, List.length_append,
      List.length_cons, List.length_nil]
    rcases le_total Bx.length By.length with h | h <;> simp [max_def] <;> split_ifs <;> omega
  have key : ∀ p ∈ P.parts, ∃ a b r s, takePart p x = .ok a ∧ takePart p y = .ok b ∧
      p.man.dist2 a b = .ok r ∧ r.shape = B ++ s ∧ s.prod = 1 := by
    intro p hp
    obtain ⟨a, ea, ha⟩ := takePart_ok P hP p hp x Bx hx
    obtain ⟨b, eb, hb⟩ := takePart_ok P hP p hp y By hy
    obtain ⟨r, s, er, hr, hs⟩ := hf _ (mem_ms h p hp) a b ha hb
    exact ⟨a, b, r, s, ea, eb, er, hr, hs⟩
  choose! fa fb fr fs h1 h2 h4 h5 h6 using key
  obtain ⟨t, e, ht, hd⟩ := sum_spec h B hB
    (fun p => (takePart p x).bind fun a => (takePart p y).bind fun b => p.man.dist2 a b) fr fs
    (by intro p hp; simp only [Except.bind, h1 p hp, h2 p hp, h4 p hp]) h5
  have hloop : (P.parts.mapM fun p => do
      let point ← takePart p x
      let point1 ← takePart p y
      let d ← p.man.dist2 point point1
      let d ← flattenTo B.length d
      sumLast d) = (P.parts.mapM fun p =>
        ((takePart p x).bind fun a => (takePart p y).bind fun b =>
          p.man.dist2 a b).bind fun r => (flattenTo B.length r).bind sumLast) := by
    congr 1
    funext p
    simp only [bind]
    cases takePart p x with
    | error e => rfl
    | ok a =>
      cases takePart p y with
      | error e => rfl
      | ok b => rfl
  have hmain : dist2 P x y keepdim = .ok (if keepdim then unsqueezeLast t else t) := by
    unfold dist2
    simp only [hk]
    rw [hloop]
    cases hq : (P.parts.mapM fun p =>
        ((takePart p x).bind fun a => (takePart p y).bind fun b =>
          p.man.dist2 a b).bind fun r => (flattenTo B.length r).bind sumLast) with
    | error e' => rw [hq] at e; cases e
    | ok l =>
      rw [hq] at e
      simp only [bind, Except.bind] at e ⊢
      rw [e]
      rfl
  have hdata : (if keepdim = true then unsqueezeLast t else t).data = t.data := by
    cases keepdim <;> rfl
  have hval : ∀ b < B.prod, (if keepdim = true then unsqueezeLast t else t).data.getD b 0 =
      ((P.parts.map fr).map fun r => r.data.getD b 0).sum := by
    intro b hb
    rw [hdata, hd b hb, List.map_map]
    congr 1
    apply List.map_congr_left
    intro p hp
    simp only [Function.comp]
    rw [h6 p hp, row_one]
  refine ⟨_, Buf.map (fun a => (max a 1e-15) ^ (0.5 : ℝ)) (if keepdim then unsqueezeLast t else t),
    P.parts.map fr, hmain, ?_, ?_, ?_, ⟨?_, ?_⟩, ?_⟩
  · unfold Product.dist
    rw [hmain]
    rfl
  · cases keepdim <;> simp [unsqueezeLast, ht]
  · rfl
  · rw [← (init_ok ms P h).2]; simp
  · intro i m r hi hr
    obtain ⟨p, hp, m1, m2⟩ := part_of h i m hi
    have hpm := List.mem_of_getElem? hp
    rw [List.getElem?_map, hp] at hr
    obtain rfl : fr p = r := Option.some.inj hr
    refine ⟨fa p, fb p, ?_, ?_, ?_⟩
    · unfold take; rw [hp]; exact h1 p hpm
    · unfold take; rw [hp]; exact h2 p hpm
    · rw [← m1]; exact h4 p hpm
  · intro b hb
    refine ⟨hval b hb, ?_⟩
    have hlenb : b < (if keepdim = true then unsqueezeLast t else t).data.length := by
      rw [hdata, t.wf, ht]; exact hb
    simp only [Buf.map]
    rw [← hval b hb]
    simp only [List.getD_eq_getElem?_getD, List.getElem?_map, List.getElem?_eq_getElem hlenb,
      Option.map_some, Option.getD_some]
    rw [Real.sqrt_eq_rpow, show (0.5 : ℝ) = 1 / 2 by norm_num]

/-- Minkowski's inequality for lists of numbers. -/
theorem l2_triangle (l : List (ℝ × ℝ)) :
    Real.sqrt ((l.map fun p => (p.1 + p.2) ^ 2).sum) ≤
      Real.sqrt ((l.map fun p => p.1 ^ 2).sum) + Real.sqrt ((l.map fun p => p.2 ^ 2).sum) := by
  induction l with
  | nil => simp
  | cons q l ih =>
    simp only [List.map_cons, List.sum_cons]
    set A := (l.map fun p => (p.1 + p.2) ^ 2).sum with hA
    set B := (l.map fun p => p.1 ^ 2).sum with hB
    set C := (l.map fun p => p.2 ^ 2).sum with hC
    have nn : ∀ f : ℝ × ℝ → ℝ, 0 ≤ (l.map fun p => f p ^ 2).sum := by
      intro f
      apply List.sum_nonneg
      intro a ha
      obtain ⟨p, -, rfl⟩ := List.mem_map.1 ha
      positivity
    have hA0 : 0 ≤ A := nn fun p => p.1 + p.2
    have hB0 : 0 ≤ B := nn Prod.fst
    have hC0 : 0 ≤ C := nn Prod.snd
    have hA' : A ≤ (Real.sqrt B + Real.sqrt C) ^ 2 := by
      have := Real.sq_sqrt hA0
      nlinarith [Real.sqrt_nonneg A, Real.sqrt_nonneg B, Real.sqrt_nonneg C]
    apply Real.sqrt_le_iff.2
    refine ⟨by positivity, ?_⟩
    have e1 := Real.sq_sqrt (show 0 ≤ q.1 ^ 2 + B by positivity)
    have e2 := Real.sq_sqrt (show 0 ≤ q.2 ^ 2 + C by positivity)
    have eB := Real.sq_sqrt hB0
    have eC := Real.sq_sqrt hC0
    have cs : q.1 * q.2 + Real.sqrt B * Real.sqrt C ≤
        Real.sqrt (q.1 ^ 2 + B) * Real.sqrt (q.2 ^ 2 + C) := by
      rw [← Real.sqrt_mul (show 0 ≤ q.1 ^ 2 + B by positivity)]
      apply Real.le_sqrt_of_sq_le
      nlinarith [sq_nonneg (q.1 * Real.sqrt C - q.2 * Real.sqrt B)]
    nlinarith

/-- The product distance as a function of the list of component distances, `C43_dist_partial`. -/
noncomputable def combine (ds : List ℝ) : ℝ := Real.sqrt (max (ds.map fun d => d ^ 2).sum 1e-15)

/-- **C43.** Combining distances keeps the triangle inequality, symmetry and nonnegativity, and is the
Euclidean combination whenever that is at least `1e-15` squared. -/
theorem C43_metric (xy yz xz : List ℝ) (h1 : xy.length = yz.length) (h2 : xy.length = xz.length)
    (hnn : ∀ d ∈ xz, 0 ≤ d)
    (htri : ∀ i, xz.getD i 0 ≤ xy.getD i 0 + yz.getD i 0) :
    combine xz ≤ combine xy + combine yz ∧ 0 < combine xy ∧
    (1e-15 ≤ (xy.map fun d => d ^ 2).sum → combine xy = Real.sqrt (xy.map fun d => d ^ 2).sum) := by
  have hsq : ∀ s : ℝ, Real.sqrt (max s 1e-15) = max (Real.sqrt s) (Real.sqrt 1e-15) := by
    intro s
    exact Monotone.map_max (fun a b h => Real.sqrt_le_sqrt h)
  have hpos : 0 < Real.sqrt 1e-15 := Real.sqrt_pos.2 (by norm_num)
  have mono : ∀ (a b c : List ℝ), a.length = b.length → a.length = c.length → (∀ d ∈ c, 0 ≤ d) →
      (∀ i, c.getD i 0 ≤ a.getD i 0 + b.getD i 0) →
      (c.map fun d => d ^ 2).sum ≤ ((a.zip b).map fun p => (p.1 + p.2) ^ 2).sum ∧
      ((a.zip b).map fun p => p.1 ^ 2).sum = (a.map fun d => d ^ 2).sum ∧
      ((a.zip b).map fun p => p.2 ^ 2).sum = (b.map fun d => d ^ 2).sum := by
    intro a
    induction a with
    | nil =>
      intro b c hb hc _ _
      have : b = [] := by simpa using hb.symm
      have : c = [] := by simpa using hc.symm
      subst_vars; simp
    | cons x a ih =>
      intro b c hb hc hn ht
      cases b with
      | nil => simp at hb
      | cons y b =>
        cases c with
        | nil => simp at hc
        | cons z c =>
          obtain ⟨i1, i2, i3⟩ := ih b c (by simpa using hb) (by simpa using hc)
            (fun d hd => hn d (by simp [hd])) (fun i => by simpa using ht (i + 1))
          have hz := hn z (by simp)
          have h0 := ht 0
          simp at h0
          simp only [List.zip_cons_cons, List.map_cons, List.sum_cons, i2, i3]
          refine ⟨?_, trivial, trivial⟩
          have : z ^ 2 ≤ (x + y) ^ 2 := by nlinarith
          linarith
  obtain ⟨m1, m2, m3⟩ := mono xy yz xz h1 h2 hnn htri
  refine ⟨?_, ?_, fun h => by rw [combine, max_eq_left h]⟩
  · unfold combine
    rw [hsq, hsq, hsq]
    have t := l2_triangle (xy.zip yz)
    rw [m2, m3] at t
    have t2 := (Real.sqrt_le_sqrt m1).trans t
    apply max_le
    · exact t2.trans (add_le_add (le_max_left _ _) (le_max_left _ _))
    · have := le_max_right (Real.sqrt (xy.map fun d => d ^ 2).sum) (Real.sqrt 1e-15)
      have := (hpos.le.trans (le_max_right (Real.sqrt (yz.map fun d => d ^ 2).sum) (Real.sqrt 1e-15)))
      linarith
  · exact Real.sqrt_pos.2 (lt_max_of_lt_right (by norm_num))

/-- **C43 fails.** The distance of a point to itself is `sqrt 1e-15`, not 0, for every product. -/
theorem C43_counterexample_self (n : ℕ) : combine (List.replicate n 0) = Real.sqrt 1e-15 ∧
    combine (List.replicate n 0) ≠ 0 := by
  have : combine (List.replicate n 0) = Real.sqrt 1e-15 := by
    unfold combine
    simp
    norm_num
  exact ⟨this, by rw [this]; exact (Real.sqrt_pos.2 (by norm_num)).ne'⟩

end C42
