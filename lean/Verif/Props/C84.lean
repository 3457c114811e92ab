import Verif.Model.StereoProduct
import Verif.Lemmas.Product
import Verif.Props.C41
import Verif.Props.C42

/-!
# C84: `StereographicProductManifold`

Statements are about a product `P` returned by the constructor, `init cs = .ok P`, where `cs` lists
the components with their shapes.  A tensor with batch shape `B` has shape `B ++ [n]` as a point of
the product and `B ++ shape` as a part; `take P.prod x i` is the `i`-th part of `x`.
-/

open Geoopt Geoopt.Product Geoopt.Buf Geoopt.SProduct

namespace C84

variable {cs : List (Comp × List ℕ)} {P : SProd}

theorem init_spec (h : SProduct.init cs = .ok P) :
    Laid P.prod ∧ P.prod.parts.map (fun p => (p.man, p.shape)) = cs.map (fun c => (c.1.base, c.2)) ∧
    P.comps = cs.map _root_.Prod.fst ∧ ∀ c ∈ cs, c.1.stereographic = true := by
  unfold SProduct.init at h
  simp only [bind, Except.bind, pure, Except.pure, throw, throwThe, MonadExceptOf.throw] at h
  cases hi : Product.init (cs.map fun c => (c.1.base, c.2)) with
  | error e => rw [hi] at h; cases h
  | ok Q =>
    rw [hi] at h
    simp only at h
    split_ifs at h with hc
    cases h
    obtain ⟨h1, h2⟩ := init_ok _ Q hi
    refine ⟨h1, h2, rfl, fun c hm => ?_⟩
    simp only [Bool.not_eq_true', Bool.not_eq_false, List.all_eq_true] at hc
    exact hc c hm

theorem part_of (h : SProduct.init cs = .ok P) {i : ℕ} {c : Comp × List ℕ} (hi : cs[i]? = some c) :
    ∃ p, P.prod.parts[i]? = some p ∧ p.shape = c.2 ∧ (p, c.1) ∈ P.parts ∧
      P.parts[i]? = some (p, c.1) := by
  obtain ⟨hP, h2, h3, -⟩ := init_spec h
  have e : (P.prod.parts.map (fun p => (p.man, p.shape)))[i]? =
      (cs.map (fun c => (c.1.base, c.2)))[i]? := by rw [h2]
  rw [List.getElem?_map, List.getElem?_map, hi] at e
  cases hp : P.prod.parts[i]? with
  | none => rw [hp] at e; cases e
  | some p =>
    rw [hp] at e
    simp only [Option.map_some, Option.some.injEq, _root_.Prod.mk.injEq] at e
    have hz : P.parts[i]? = some (p, c.1) := by
      unfold SProd.parts
      rw [List.getElem?_zip_eq_some]
      exact ⟨hp, by rw [h3, List.getElem?_map, hi]; rfl⟩
    exact ⟨p, rfl, e.2, List.mem_of_getElem? hz, hz⟩

theorem comp_of (h : SProduct.init cs = .ok P) {q : Part × Comp} (hq : q ∈ P.parts) :
    q.1 ∈ P.prod.parts ∧ (q.2, q.1.shape) ∈ cs := by
  obtain ⟨hP, h2, h3, -⟩ := init_spec h
  obtain ⟨i, hi, e⟩ := List.mem_iff_getElem.1 hq
  have hz : P.parts[i]? = some q := by rw [List.getElem?_eq_getElem hi, e]
  have hz' := hz
  unfold SProd.parts at hz'
  rw [List.getElem?_zip_eq_some] at hz'
  obtain ⟨a, b⟩ := hz'
  refine ⟨List.mem_of_getElem? a, ?_⟩
  rw [h3, List.getElem?_map] at b
  cases hc : cs[i]? with
  | none => rw [hc] at b; cases b
  | some c =>
    rw [hc] at b
    simp only [Option.map_some, Option.some.injEq] at b
    obtain ⟨p, hp, hs, -, -⟩ := part_of h hc
    rw [a] at hp
    injection hp with hp
    subst hp
    rw [hs, ← b]
    exact List.mem_of_getElem? hc

/-- Running a method of every component and packing the results. -/
theorem run_ok (h : SProduct.init cs = .ok P) (B : List ℕ) (hB : B.prod ≠ 0)
    (g : Part × Comp → Except PyErr T)
    (hg : ∀ q ∈ P.parts, ∃ r, g q = .ok r ∧ r.shape = B ++ q.1.shape) :
    ∃ t, (P.parts.mapM g).bind (pack P.prod) = .ok t ∧ t.shape = B ++ [P.prod.nElements] ∧
      ∀ q ∈ P.parts, takePart q.1 t = g q := by
  obtain ⟨hP, h2, h3, -⟩ := init_spec h
  have hfst : P.parts.map _root_.Prod.fst = P.prod.parts := by
    unfold SProd.parts
    rw [List.map_fst_zip]
    have := congrArg List.length h2
    simp only [List.length_map] at this
    rw [h3, List.length_map, this]
  have hex : ∀ L : List (Part × Comp), (∀ q ∈ L, ∃ r, g q = .ok r ∧ r.shape = B ++ q.1.shape) →
      ∃ rs, L.mapM g = .ok rs ∧ List.Forall₂ (fun q r => g q = .ok r ∧ r.shape = B ++ q.1.shape) L rs := by
    intro L hL
    induction L with
    | nil => exact ⟨[], rfl, .nil⟩
    | cons q L ih =>
      obtain ⟨rs, e, hf⟩ := ih fun q hq => hL q (by simp [hq])
      obtain ⟨r, er, hr⟩ := hL q (by simp)
      refine ⟨r :: rs, ?_, .cons ⟨er, hr⟩ hf⟩
      rw [List.mapM_cons, er, e]
      rfl
  obtain ⟨rs, e, hf⟩ := hex P.parts hg
  have hf1 : List.Forall₂ (fun p r => r.shape = B ++ p.shape) P.prod.parts rs := by
    rw [← hfst, List.forall₂_map_left_iff]
    exact hf.imp fun q r hqr => hqr.2
  obtain ⟨t, ht, hs, hr⟩ := pack_ok P.prod hP B hB rs hf1
  refine ⟨t, by rw [e]; exact ht, hs, ?_⟩
  rw [← hfst, List.forall₂_map_left_iff] at hr
  intro q hq
  obtain ⟨i, hi, eq⟩ := List.mem_iff_getElem.1 hq
  have l1 := hf.length_eq
  have a := (List.forall₂_iff_get.1 hf).2 i hi (by omega)
  have b := (List.forall₂_iff_get.1 hr).2 i hi (by omega)
  simp only [List.get_eq_getElem] at a b
  rw [eq] at a b
  rw [b, a.1]

theorem takePart_of_mem (h : SProduct.init cs = .ok P) {q : Part × Comp} (hq : q ∈ P.parts) (x : T)
    (B : List ℕ) (hx : x.shape = B ++ [P.prod.nElements]) :
    ∃ a, takePart q.1 x = .ok a ∧ a.shape = B ++ q.1.shape :=
  takePart_ok P.prod (init_spec h).1 q.1 (comp_of h hq).1 x B hx

theorem take_eq (h : SProduct.init cs = .ok P) {i : ℕ} {c : Comp × List ℕ} (hi : cs[i]? = some c) :
    ∃ q ∈ P.parts, q.2 = c.1 ∧ q.1.shape = c.2 ∧ ∀ x, take P.prod x i = takePart q.1 x := by
  obtain ⟨p, hp, hs, hm, -⟩ := part_of h hi
  refine ⟨(p, c.1), hm, rfl, hs, fun x => ?_⟩
  unfold take
  rw [hp]

/-- **C84.** The constructor accepts exactly the lists that `ProductManifold` accepts and whose
components are all stereographic; otherwise it raises. -/
theorem C84_init :
    (∃ P, SProduct.init cs = .ok P) ↔
      (∃ Q, Product.init (cs.map fun c => (c.1.base, c.2)) = .ok Q) ∧
        ∀ c ∈ cs, c.1.stereographic = true := by
  constructor
  · rintro ⟨P, h⟩
    refine ⟨?_, (init_spec h).2.2.2⟩
    unfold SProduct.init at h
    simp only [bind, Except.bind] at h
    cases hi : Product.init (cs.map fun c => (c.1.base, c.2)) with
    | error e => rw [hi] at h; cases h
    | ok Q => exact ⟨Q, rfl⟩
  · rintro ⟨⟨Q, hQ⟩, hs⟩
    unfold SProduct.init
    simp only [bind, Except.bind, hQ, pure, Except.pure, throw, throwThe, MonadExceptOf.throw]
    rw [if_neg]
    · exact ⟨_, rfl⟩
    · simp only [Bool.not_eq_true', Bool.not_eq_false, List.all_eq_true]
      exact hs

/-- **C84.** One component that is not stereographic is enough for a `TypeError`. -/
theorem C84_type_error (Q : Prod) (hQ : Product.init (cs.map fun c => (c.1.base, c.2)) = .ok Q)
    {c : Comp × List ℕ} (hc : c ∈ cs) (hs : c.1.stereographic = false) :
    SProduct.init cs = .error .typeError := by
  unfold SProduct.init
  simp only [bind, Except.bind, hQ, pure, Except.pure, throw, throwThe, MonadExceptOf.throw]
  rw [if_pos]
  simp only [Bool.not_eq_true', List.all_eq_false]
  exact ⟨c, hc, by simp [hs]⟩

/-! ## Methods with one, two and three points -/

/-- A method of the components keeps batch shapes: on parts with batch shape `Bx` the result has
batch shape `B`. -/
def Batched1 (cs : List (Comp × List ℕ)) (f : Comp → T → Except PyErr T) (Bx B : List ℕ) : Prop :=
  ∀ c ∈ cs, ∀ a : T, a.shape = Bx ++ c.2 → ∃ r, f c.1 a = .ok r ∧ r.shape = B ++ c.2

/-- The same for two arguments. -/
def Batched2 (cs : List (Comp × List ℕ)) (f : Comp → T → T → Except PyErr T) (Bx By B : List ℕ) :
    Prop :=
  ∀ c ∈ cs, ∀ a b : T, a.shape = Bx ++ c.2 → b.shape = By ++ c.2 →
    ∃ r, f c.1 a b = .ok r ∧ r.shape = B ++ c.2

/-- The same for three arguments. -/
def Batched3 (cs : List (Comp × List ℕ)) (f : Comp → T → T → T → Except PyErr T)
    (Bx By Bz B : List ℕ) : Prop :=
  ∀ c ∈ cs, ∀ a b d : T, a.shape = Bx ++ c.2 → b.shape = By ++ c.2 → d.shape = Bz ++ c.2 →
    ∃ r, f c.1 a b d = .ok r ∧ r.shape = B ++ c.2

/-- The result is a point of the product whose `i`-th part is what the `i`-th component makes of the
`i`-th part of the argument. -/
def Componentwise1 (cs : List (Comp × List ℕ)) (P : SProd) (f : Comp → T → Except PyErr T)
    (res : Except PyErr T) (x : T) (B : List ℕ) : Prop :=
  ∃ t, res = .ok t ∧ t.shape = B ++ [P.prod.nElements] ∧
    ∀ i c a, cs[i]? = some c → take P.prod x i = .ok a → take P.prod t i = f c.1 a

/-- The same for two arguments. -/
def Componentwise2 (cs : List (Comp × List ℕ)) (P : SProd) (f : Comp → T → T → Except PyErr T)
    (res : Except PyErr T) (x y : T) (B : List ℕ) : Prop :=
  ∃ t, res = .ok t ∧ t.shape = B ++ [P.prod.nElements] ∧
    ∀ i c a b, cs[i]? = some c → take P.prod x i = .ok a → take P.prod y i = .ok b →
      take P.prod t i = f c.1 a b

/-- The same for three arguments. -/
def Componentwise3 (cs : List (Comp × List ℕ)) (P : SProd) (f : Comp → T → T → T → Except PyErr T)
    (res : Except PyErr T) (x y z : T) (B : List ℕ) : Prop :=
  ∃ t, res = .ok t ∧ t.shape = B ++ [P.prod.nElements] ∧
    ∀ i c a b d, cs[i]? = some c → take P.prod x i = .ok a → take P.prod y i = .ok b →
      take P.prod z i = .ok d → take P.prod t i = f c.1 a b d

theorem unary_spec (h : SProduct.init cs = .ok P) (f : Comp → T → Except PyErr T) (x : T)
    (Bx B : List ℕ) (hx : x.shape = Bx ++ [P.prod.nElements]) (hB : B.prod ≠ 0)
    (hf : Batched1 cs f Bx B) : Componentwise1 cs P f (SProduct.unary f P x) x B := by
  obtain ⟨t, e, hs, ht⟩ := run_ok h B hB (fun q => (takePart q.1 x).bind fun a => f q.2 a)
    fun q hq => by
      obtain ⟨a, ea, ha⟩ := takePart_of_mem h hq x Bx hx
      obtain ⟨r, er, hr⟩ := hf _ (comp_of h hq).2 a ha
      exact ⟨r, by simp only [ea]; exact er, hr⟩
  refine ⟨t, e, hs, fun i c a hi ha => ?_⟩
  obtain ⟨q, hq, h1, h2, h3⟩ := take_eq h hi
  rw [h3] at ha ⊢
  rw [ht q hq, ha, ← h1]
  rfl

theorem binary_spec (h : SProduct.init cs = .ok P) (f : Comp → T → T → Except PyErr T) (x y : T)
    (Bx By B : List ℕ) (hx : x.shape = Bx ++ [P.prod.nElements])
    (hy : y.shape = By ++ [P.prod.nElements]) (hB : B.prod ≠ 0)
    (hf : Batched2 cs f Bx By B) : Componentwise2 cs P f (SProduct.binary f P x y) x y B := by
  obtain ⟨t, e, hs, ht⟩ := run_ok h B hB
    (fun q => (takePart q.1 x).bind fun a => (takePart q.1 y).bind fun b => f q.2 a b)
    fun q hq => by
      obtain ⟨a, ea, ha⟩ := takePart_of_mem h hq x Bx hx
      obtain ⟨b, eb, hb⟩ := takePart_of_mem h hq y By hy
      obtain ⟨r, er, hr⟩ := hf _ (comp_of h hq).2 a b ha hb
      exact ⟨r, by simp only [ea, eb]; exact er, hr⟩
  refine ⟨t, e, hs, fun i c a b hi ha hb => ?_⟩
  obtain ⟨q, hq, h1, h2, h3⟩ := take_eq h hi
  rw [h3] at ha hb ⊢
  rw [ht q hq, ha, hb, ← h1]
  rfl

theorem ternary_spec (h : SProduct.init cs = .ok P) (f : Comp → T → T → T → Except PyErr T)
    (x y z : T) (Bx By Bz B : List ℕ) (hx : x.shape = Bx ++ [P.prod.nElements])
    (hy : y.shape = By ++ [P.prod.nElements]) (hz : z.shape = Bz ++ [P.prod.nElements])
    (hB : B.prod ≠ 0) (hf : Batched3 cs f Bx By Bz B) :
    Componentwise3 cs P f (SProduct.ternary f P x y z) x y z B := by
  obtain ⟨t, e, hs, ht⟩ := run_ok h B hB
    (fun q => (takePart q.1 x).bind fun a => (takePart q.1 y).bind fun b =>
      (takePart q.1 z).bind fun d => f q.2 a b d)
    fun q hq => by
      obtain ⟨a, ea, ha⟩ := takePart_of_mem h hq x Bx hx
      obtain ⟨b, eb, hb⟩ := takePart_of_mem h hq y By hy
      obtain ⟨d, ed, hd⟩ := takePart_of_mem h hq z Bz hz
      obtain ⟨r, er, hr⟩ := hf _ (comp_of h hq).2 a b d ha hb hd
      exact ⟨r, by simp only [ea, eb, ed]; exact er, hr⟩
  refine ⟨t, e, hs, fun i c a b d hi ha hb hd => ?_⟩
  obtain ⟨q, hq, h1, h2, h3⟩ := take_eq h hi
  rw [h3] at ha hb hd ⊢
  rw [ht q hq, ha, hb, hd, ← h1]
  rfl

section methods

variable (x y z : T) (Bx By Bz B : List ℕ) (proj : Bool)

/-- **C84 (partial).** `mobius_scalar_mul`, `expmap0`, `logmap0`, `antipode`, `mobius_fn_apply` and
`mobius_fn_apply_chain` act component by component, whatever the shapes of the components.  Missing:
empty batches (`B.prod = 0`), where packing raises. -/
theorem C84_unary_partial (h : SProduct.init cs = .ok P) (hx : x.shape = Bx ++ [P.prod.nElements])
    (hB : B.prod ≠ 0) (r : T) (fn : T → Except PyErr T) (fns : List (T → Except PyErr T)) :
    (Batched1 cs (fun c => c.mobiusScalarMul proj r) Bx B →
      Componentwise1 cs P (fun c => c.mobiusScalarMul proj r) (mobiusScalarMul proj P r x) x B) ∧
    (Batched1 cs (fun c => c.expmap0 proj) Bx B →
      Componentwise1 cs P (fun c => c.expmap0 proj) (SProduct.expmap0 proj P x) x B) ∧
    (Batched1 cs (fun c => c.logmap0) Bx B →
      Componentwise1 cs P (fun c => c.logmap0) (SProduct.logmap0 proj P x) x B) ∧
    (Batched1 cs (fun c => c.antipode) Bx B →
      Componentwise1 cs P (fun c => c.antipode) (SProduct.antipode proj P x) x B) ∧
    (Batched1 cs (fun c => c.mobiusFnApply proj fn) Bx B →
      Componentwise1 cs P (fun c => c.mobiusFnApply proj fn) (mobiusFnApply proj P fn x) x B) ∧
    (Batched1 cs (fun c a => c.mobiusFnApplyChain proj a fns) Bx B →
      Componentwise1 cs P (fun c a => c.mobiusFnApplyChain proj a fns)
        (mobiusFnApplyChain proj P x fns) x B) :=
  ⟨unary_spec h _ x Bx B hx hB, unary_spec h _ x Bx B hx hB, unary_spec h _ x Bx B hx hB,
    unary_spec h _ x Bx B hx hB, unary_spec h _ x Bx B hx hB, unary_spec h _ x Bx B hx hB⟩

/-- **C84 (partial).** `mobius_pointwise_mul`, `geodesic`, `geodesic_unit`, `transp0`, `transp0back`
and `gyration` act component by component; the batch shapes of the arguments may differ. -/
theorem C84_binary_partial (h : SProduct.init cs = .ok P) (hx : x.shape = Bx ++ [P.prod.nElements])
    (hy : y.shape = By ++ [P.prod.nElements]) (hB : B.prod ≠ 0) (s : T) :
    (Batched2 cs (fun c => c.mobiusPointwiseMul proj) Bx By B →
      Componentwise2 cs P (fun c => c.mobiusPointwiseMul proj) (mobiusPointwiseMul proj P x y) x y B) ∧
    (Batched2 cs (fun c => c.geodesic s) Bx By B →
      Componentwise2 cs P (fun c => c.geodesic s) (SProduct.geodesic P s x y) x y B) ∧
    (Batched2 cs (fun c => c.geodesicUnit proj s) Bx By B →
      Componentwise2 cs P (fun c => c.geodesicUnit proj s) (SProduct.geodesicUnit proj P s x y) x y B) ∧
    (Batched2 cs (fun c => c.transp0) Bx By B →
      Componentwise2 cs P (fun c => c.transp0) (SProduct.transp0 P x y) x y B) ∧
    (Batched2 cs (fun c => c.transp0back) Bx By B →
      Componentwise2 cs P (fun c => c.transp0back) (SProduct.transp0back P x y) x y B) :=
  ⟨binary_spec h _ x y Bx By B hx hy hB, binary_spec h _ x y Bx By B hx hy hB,
    binary_spec h _ x y Bx By B hx hy hB, binary_spec h _ x y Bx By B hx hy hB,
    binary_spec h _ x y Bx By B hx hy hB⟩

/-- **C84 (partial).** `gyration` acts component by component. -/
theorem C84_gyration_partial (h : SProduct.init cs = .ok P)
    (hx : x.shape = Bx ++ [P.prod.nElements]) (hy : y.shape = By ++ [P.prod.nElements])
    (hz : z.shape = Bz ++ [P.prod.nElements]) (hB : B.prod ≠ 0)
    (hf : Batched3 cs (fun c => c.gyration) Bx By Bz B) :
    Componentwise3 cs P (fun c => c.gyration) (SProduct.gyration proj P x y z) x y z B :=
  ternary_spec h _ x y z Bx By Bz B hx hy hz hB hf

theorem flattenTo_vector (k : ℤ) (B : List ℕ) (d : ℕ) (r : T) (hk : k = B.length)
    (hr : r.shape = B ++ [d]) (hB : B.prod ≠ 0) : flattenTo k r = .ok r := by
  unfold flattenTo
  rw [hr, sliceTo_append B [d] k hk]
  obtain ⟨f, e, h1, h2⟩ := reshapeInfer_ok r B [d] hr hB
  rw [e]
  congr 1
  apply Tensor.ext
  · rw [h1, hr]; simp
  · exact h2

theorem mobius2_spec (h : SProduct.init cs = .ok P) (f : Comp → T → T → Except PyErr T) (x y : T)
    (Bx By B : List ℕ) (hx : x.shape = Bx ++ [P.prod.nElements])
    (hy : y.shape = By ++ [P.prod.nElements]) (hB : B.prod ≠ 0)
    (hlen : B.length = max Bx.length By.length)
    (hvec : ∀ c ∈ cs, ∃ d, c.2 = [d])
    (hf : Batched2 cs f Bx By B) : Componentwise2 cs P f (mobius2 f P x y) x y B := by
  have hk : targetBatchDim [x.shape.length, y.shape.length] = B.length := by
    rw [hlen, hx, hy]
    simp only [targetBatchDim, List.foldl_cons, List.foldl_nil, List.length_append,
      List.length_cons, List.length_nil]
    rcases le_total Bx.length By.length with h | h <;> simp [max_def] <;> split_ifs <;> omega
  obtain ⟨t, e, hs, ht⟩ := run_ok h B hB
    (fun q => (takePart q.1 x).bind fun a => (takePart q.1 y).bind fun b => (f q.2 a b).bind
      (flattenTo (targetBatchDim [x.shape.length, y.shape.length])))
    fun q hq => by
      obtain ⟨a, ea, ha⟩ := takePart_of_mem h hq x Bx hx
      obtain ⟨b, eb, hb⟩ := takePart_of_mem h hq y By hy
      obtain ⟨r, er, hr⟩ := hf _ (comp_of h hq).2 a b ha hb
      obtain ⟨d, hd⟩ := hvec _ (comp_of h hq).2
      simp only at er hr hd
      refine ⟨r, ?_, hr⟩
      simp only [ea, eb, Except.bind, er]
      rw [hd] at hr
      exact flattenTo_vector _ B d r hk hr hB
  refine ⟨t, e, hs, fun i c a b hi ha hb => ?_⟩
  obtain ⟨q, hq, h1, h2, h3⟩ := take_eq h hi
  rw [h3] at ha hb ⊢
  rw [ht q hq, ha, hb, ← h1]
  obtain ⟨a', ea, ha'⟩ := takePart_of_mem h hq x Bx hx
  obtain ⟨b', eb, hb'⟩ := takePart_of_mem h hq y By hy
  rw [ha] at ea; injection ea with ea; subst ea
  rw [hb] at eb; injection eb with eb; subst eb
  obtain ⟨r, er, hr⟩ := hf _ (comp_of h hq).2 a b ha' hb'
  obtain ⟨d, hd⟩ := hvec _ (comp_of h hq).2
  simp only at er hr hd
  rw [hd] at hr
  simp only [Except.bind, er]
  exact flattenTo_vector _ B d r hk hr hB

/-- **C84 (partial).** `mobius_add`, `mobius_coadd`, `mobius_sub`, `mobius_cosub` act component by
component if every component is a vector (one axis).  For components with more axes see
`C84_counterexample_matrix`. -/
theorem C84_mobius_partial (h : SProduct.init cs = .ok P) (hx : x.shape = Bx ++ [P.prod.nElements])
    (hy : y.shape = By ++ [P.prod.nElements]) (hB : B.prod ≠ 0)
    (hlen : B.length = max Bx.length By.length) (hvec : ∀ c ∈ cs, ∃ d, c.2 = [d]) :
    (Batched2 cs (fun c => c.mobiusAdd proj) Bx By B →
      Componentwise2 cs P (fun c => c.mobiusAdd proj) (mobiusAdd proj P x y) x y B) ∧
    (Batched2 cs (fun c => c.mobiusCoadd proj) Bx By B →
      Componentwise2 cs P (fun c => c.mobiusCoadd proj) (mobiusCoadd proj P x y) x y B) ∧
    (Batched2 cs (fun c => c.mobiusSub proj) Bx By B →
      Componentwise2 cs P (fun c => c.mobiusSub proj) (mobiusSub proj P x y) x y B) ∧
    (Batched2 cs (fun c => c.mobiusCosub proj) Bx By B →
      Componentwise2 cs P (fun c => c.mobiusCosub proj) (mobiusCosub proj P x y) x y B) :=
  ⟨mobius2_spec h _ x y Bx By B hx hy hB hlen hvec, mobius2_spec h _ x y Bx By B hx hy hB hlen hvec,
    mobius2_spec h _ x y Bx By B hx hy hB hlen hvec, mobius2_spec h _ x y Bx By B hx hy hB hlen hvec⟩

/-- **C84, counterexample.** For a component with two axes the four operations raise `ValueError`
(single points, one component of shape `(a, b)` with `a ≥ 2`, `b ≥ 1`): the result is flattened and
then no longer has the shape `pack_point` asks for.  `ProductManifold.retr` and the other methods of
the base class have no such restriction. -/
theorem C84_counterexample_matrix {c : Comp} {a b : ℕ} (ha : 2 ≤ a) (hb : 1 ≤ b)
    (h : SProduct.init [(c, [a, b])] = .ok P) (hx : x.shape = [P.prod.nElements])
    (hy : y.shape = [P.prod.nElements]) (f : Comp → T → T → Except PyErr T)
    (hf : Batched2 [(c, [a, b])] f [] [] []) : mobius2 f P x y = .error .valueError := by
  obtain ⟨hP, h2, h3, -⟩ := init_spec h
  obtain ⟨p, hp, hps, hmem, -⟩ := part_of h (i := 0) (c := (c, [a, b])) rfl
  have hparts : P.parts = [(p, c)] := by
    have hl : P.prod.parts.length = 1 := by simpa using congrArg List.length h2
    unfold SProd.parts
    rw [h3]
    match hpp : P.prod.parts, hl with
    | [p'], _ =>
      rw [hpp] at hp
      simp at hp
      subst hp
      rfl
  have hpl : P.prod.parts = [p] := by
    have hl : P.prod.parts.length = 1 := by simpa using congrArg List.length h2
    match hpp : P.prod.parts, hl with
    | [p'], _ =>
      rw [hpp] at hp
      simp at hp
      rw [hp]
  obtain ⟨u, eu, hu⟩ := takePart_of_mem h hmem x [] hx
  obtain ⟨v, ev, hv⟩ := takePart_of_mem h hmem y [] hy
  simp only at eu ev hu hv
  obtain ⟨r, er, hr⟩ := hf (c, [a, b]) (by simp) u v (by rw [hu, hps]) (by rw [hv, hps])
  simp only at er hr
  have hk : targetBatchDim [x.shape.length, y.shape.length] = (([] : List ℕ).length : ℤ) := by
    rw [hx, hy]; simp [targetBatchDim]
  obtain ⟨f', ef, hf1, hf2⟩ := reshapeInfer_ok r [] [a, b] hr (by simp)
  have hfl : flattenTo (targetBatchDim [x.shape.length, y.shape.length]) r = .ok f' := by
    unfold flattenTo
    rw [hr, sliceTo_append [] [a, b] _ hk]
    exact ef
  unfold mobius2
  simp only [bind, Except.bind, hparts, List.mapM_cons, List.mapM_nil, eu, ev, er, hfl, pure,
    Except.pure]
  unfold pack
  simp only [hpl, List.length_cons, List.length_nil, bind, Except.bind, pure, Except.pure,
    ne_eq, not_true_eq_false, if_false, List.zip_cons_cons, List.zip_nil_left, List.mapM_cons,
    List.mapM_nil]
  have hbad : flattenPart p f' = .error .valueError := by
    unfold flattenPart
    rw [if_pos (by rw [hps]; simp), if_pos]
    rw [hf1, hps]
    simp
  rw [hbad]

end methods

/-! ## Moebius matrix-vector product -/

theorem getD_row (n i j : ℕ) (l : List ℝ) (hj : j < n) :
    (row n i l).getD j 0 = l.getD (i * n + j) 0 := by
  simp only [row, List.getD_eq_getElem?_getD]
  rw [List.getElem?_take_of_lt hj, List.getElem?_drop]

theorem getD_flatMap (n k : ℕ) (f : ℕ → List ℝ) (hf : ∀ i < k, (f i).length = n) (i j : ℕ)
    (hi : i < k) (hj : j < n) :
    ((List.range k).flatMap f).getD (i * n + j) 0 = (f i).getD j 0 := by
  rw [← getD_row n i j _ hj, row_flatMap n k f hf i hi]

theorem part_range (h : SProduct.init cs = .ok P) {q : Part × Comp} (hq : q ∈ P.parts) :
    q.1.stop = q.1.start + q.1.shape.prod ∧ q.1.stop ≤ P.prod.nElements := by
  have hP := (init_spec h).1
  obtain ⟨pre, post, e⟩ := List.append_of_mem (comp_of h hq).1
  have hc := hP.consec
  rw [e, consec_append] at hc
  obtain ⟨-, h1, h2, -⟩ := hc
  have hsz : P.prod.nElements = total pre + q.1.shape.prod + total post := by
    rw [hP.size, e]; simp [total, List.sum_append]; ring
  omega

/-- **C84.** The matrix a component sees is the diagonal block at its own rows and columns: entry
`(r, s)` of matrix `i` of a batch is entry `(start + r, start + s)` of the whole matrix. -/
theorem C84_block (h : SProduct.init cs = .ok P) {q : Part × Comp} (hq : q ∈ P.parts) (m : T)
    (B : List ℕ) (hm : m.shape = B ++ [P.prod.nElements, P.prod.nElements]) :
    ∃ b, takeMatrix q.1 m = .ok b ∧ b.shape = B ++ q.1.shape ++ q.1.shape ∧
      ∀ i r s, i < B.prod → r < q.1.shape.prod → s < q.1.shape.prod →
        b.data.getD ((i * q.1.shape.prod + r) * q.1.shape.prod + s) 0 =
          m.data.getD ((i * P.prod.nElements + (q.1.start + r)) * P.prod.nElements +
            (q.1.start + s)) 0 := by
  obtain ⟨hst, hle⟩ := part_range h hq
  set n := P.prod.nElements with hn
  set d := q.1.shape.prod with hd
  have hm' : m.shape = (B ++ [n]) ++ [n] := by rw [hm]; simp
  have hlast : m.last = n := m.last_append _ _ hm'
  have hdl : m.shape.dropLast = B ++ [n] := by rw [hm', List.dropLast_concat]
  have hdd : m.shape.dropLast.dropLast = B := by rw [hdl, List.dropLast_concat]
  have hgl : m.shape.dropLast.getLastD 1 = n := by
    rw [hdl]; simp [List.getLastD_eq_getLast?]
  have hmin : min q.1.stop n - q.1.start = d := by omega
  have hdata : m.data.length = B.prod * (n * n) := by
    rw [m.wf, hm, List.prod_append]; simp
  have hlen : ∀ i < B.prod, (blockRows q.1.start q.1.stop n n i m.data).length = d * d := by
    intro i hi
    rw [length_blockRows _ _ _ _ _ _ _ hdata hi, hmin]
  have hsl : ∃ part, sliceBlock m q.1.start q.1.stop = .ok part ∧ part.shape = B ++ [d, d] ∧
      part.data = (List.range B.prod).flatMap fun i =>
        blockRows q.1.start q.1.stop n n i m.data := by
    unfold sliceBlock
    rw [dif_pos (by rw [hm]; simp)]
    refine ⟨_, rfl, ?_, ?_⟩
    · simp only [hdd, hgl, hlast, hmin]
    · simp only [hdd, hgl, hlast]
  obtain ⟨part, e, hps, hpd⟩ := hsl
  unfold takeMatrix
  simp only [bind, Except.bind, e, reshape]
  have hdd' : part.shape.dropLast.dropLast = B := by
    have : part.shape = (B ++ [d]) ++ [d] := by rw [hps]; simp
    rw [this, List.dropLast_concat, List.dropLast_concat]
  rw [dif_pos (by rw [hdd', hps]; simp [List.prod_append, ← hd, mul_assoc])]
  refine ⟨_, rfl, congrArg (fun l => l ++ q.1.shape ++ q.1.shape) hdd', fun i r s hi hr hs => ?_⟩
  simp only [hpd]
  have hrs : r * d + s < d * d := by
    have : (r + 1) * d ≤ d * d := Nat.mul_le_mul_right d hr
    have : (r + 1) * d = r * d + d := by ring
    omega
  rw [show (i * d + r) * d + s = i * (d * d) + (r * d + s) by ring,
    getD_flatMap (d * d) B.prod _ hlen i _ hi hrs]
  unfold blockRows
  rw [hmin, getD_flatMap d d _ ?_ r s hr hs]
  · have hsub : q.1.stop - q.1.start = d := by omega
    rw [hsub, List.getD_eq_getElem?_getD, List.getElem?_take_of_lt hs, List.getElem?_drop,
      ← List.getD_eq_getElem?_getD, getD_row _ _ _ _ (by omega)]
  · intro r' hr'
    rw [List.length_take, List.length_drop, length_row n _ (B.prod * n) m.data (by rw [hdata]; ring)]
    · omega
    · have : (i + 1) * n ≤ B.prod * n := Nat.mul_le_mul_right n hi
      have : (i + 1) * n = i * n + n := by ring
      omega

/-- **C84 (partial).** `mobius_matvec` applies the diagonal blocks, component by component. -/
theorem C84_matvec_partial (h : SProduct.init cs = .ok P) (proj : Bool) (m x : T)
    (Bm Bx B : List ℕ) (hm : m.shape = Bm ++ [P.prod.nElements, P.prod.nElements])
    (hx : x.shape = Bx ++ [P.prod.nElements]) (hB : B.prod ≠ 0)
    (hf : ∀ c ∈ cs, ∀ a b : T, a.shape = Bm ++ c.2 ++ c.2 → b.shape = Bx ++ c.2 →
      ∃ r, c.1.mobiusMatvec proj a b = .ok r ∧ r.shape = B ++ c.2) :
    ∃ t, SProduct.mobiusMatvec proj P m x = .ok t ∧ t.shape = B ++ [P.prod.nElements] ∧
      ∀ q ∈ P.parts, ∀ a b, takeMatrix q.1 m = .ok a → takePart q.1 x = .ok b →
        takePart q.1 t = q.2.mobiusMatvec proj a b := by
  obtain ⟨t, e, hs, ht⟩ := run_ok h B hB
    (fun q => (takeMatrix q.1 m).bind fun a => (takePart q.1 x).bind fun b =>
      q.2.mobiusMatvec proj a b)
    fun q hq => by
      obtain ⟨a, ea, ha, -⟩ := C84_block h hq m Bm hm
      obtain ⟨b, eb, hb⟩ := takePart_of_mem h hq x Bx hx
      obtain ⟨r, er, hr⟩ := hf _ (comp_of h hq).2 a b ha hb
      exact ⟨r, by simp only [ea, eb]; exact er, hr⟩
  refine ⟨t, e, hs, fun q hq a b ha hb => ?_⟩
  rw [ht q hq, ha, hb]
  rfl

/-! ## Distances -/

theorem mapM_comp (h : SProduct.init cs = .ok P) (B : List ℕ)
    (g : Part × Comp → Except PyErr T)
    (hg : ∀ q ∈ P.parts, ∃ r, g q = .ok r ∧ r.shape = B) :
    ∃ rs, P.parts.mapM g = .ok rs ∧ rs ≠ [] ∧ (∀ r ∈ rs, r.shape = B) ∧
      List.Forall₂ (fun q r => g q = .ok r) P.parts rs := by
  have hex : ∀ L : List (Part × Comp), (∀ q ∈ L, ∃ r, g q = .ok r ∧ r.shape = B) →
      ∃ rs, L.mapM g = .ok rs ∧ (∀ r ∈ rs, r.shape = B) ∧
        List.Forall₂ (fun q r => g q = .ok r) L rs := by
    intro L hL
    induction L with
    | nil => exact ⟨[], rfl, by simp, .nil⟩
    | cons q L ih =>
      obtain ⟨rs, e, hs, hf⟩ := ih fun q hq => hL q (by simp [hq])
      obtain ⟨r, er, hr⟩ := hL q (by simp)
      refine ⟨r :: rs, ?_, ?_, .cons er hf⟩
      · rw [List.mapM_cons, er, e]; rfl
      · intro s hs'
        rcases List.mem_cons.1 hs' with rfl | h'
        · exact hr
        · exact hs s h'
  obtain ⟨rs, e, hs, hf⟩ := hex P.parts hg
  refine ⟨rs, e, ?_, hs, hf⟩
  rintro rfl
  obtain ⟨hP, h2, h3, -⟩ := init_spec h
  have hl := hf.length_eq
  have hl2 := congrArg List.length h2
  simp only [List.length_map] at hl2
  unfold SProd.parts at hl
  rw [List.length_zip, h3, List.length_map, ← hl2] at hl
  simp at hl
  exact hP.ne hl

theorem getD_map_zero (f : ℝ → ℝ) (hf : f 0 = 0) (t : T) (i : ℕ) :
    (Buf.map f t).data.getD i 0 = f (t.data.getD i 0) := by
  simp only [Buf.map, List.getD_eq_getElem?_getD, List.getElem?_map]
  cases t.data[i]? with
  | none => simp [hf]
  | some a => rfl

theorem parts_getElem (h : SProduct.init cs = .ok P) {rs : List T} {g : Part × Comp → Except PyErr T}
    (hf : List.Forall₂ (fun q r => g q = .ok r) P.parts rs) :
    rs.length = cs.length ∧ ∀ (i : ℕ) c d, cs[i]? = some c → rs[i]? = some d →
      ∃ p, (∀ x, take P.prod x i = takePart p x) ∧ g (p, c.1) = .ok d := by
  obtain ⟨hP, h2, h3, -⟩ := init_spec h
  have hl := hf.length_eq
  have hl2 := congrArg List.length h2
  simp only [List.length_map] at hl2
  have hl3 : P.parts.length = cs.length := by
    unfold SProd.parts
    rw [List.length_zip, h3, List.length_map, hl2, Nat.min_self]
  refine ⟨by omega, fun i c d hc hd => ?_⟩
  obtain ⟨p, hp, -, -, hz⟩ := part_of h hc
  refine ⟨p, fun x => by unfold take; rw [hp], ?_⟩
  obtain ⟨hi, e⟩ := List.getElem?_eq_some_iff.1 hz
  obtain ⟨hj, e'⟩ := List.getElem?_eq_some_iff.1 hd
  have := (List.forall₂_iff_get.1 hf).2 i hi hj
  simp only [List.get_eq_getElem, e, e'] at this
  exact this

/-- **C84.** `dist0` is the root of the sum of the squares of the components' distances to their
origins.  `D` is the shape of the distances of the components: the batch shape for vectors. -/
theorem C84_dist0 (h : SProduct.init cs = .ok P) (x : T) (B D : List ℕ)
    (hx : x.shape = B ++ [P.prod.nElements]) (keepdim : Bool)
    (hf : ∀ c ∈ cs, ∀ a : T, a.shape = B ++ c.2 → ∃ r, c.1.dist0 a = .ok r ∧ r.shape = D) :
    ∃ (t : T) (ds : List T), SProduct.dist0 P x keepdim = .ok t ∧
      t.shape = (if keepdim then D ++ [1] else D) ∧
      ds.length = cs.length ∧
      (∀ i c d, cs[i]? = some c → ds[i]? = some d → (take P.prod x i).bind c.1.dist0 = .ok d) ∧
      ∀ b, t.data.getD b 0 = Real.sqrt (ds.map fun d => d.data.getD b 0 ^ 2).sum := by
  obtain ⟨ds, e, hne, hsh, hfa⟩ := mapM_comp h D
    (fun q => (takePart q.1 x).bind fun a => q.2.dist0 a) fun q hq => by
      obtain ⟨a, ea, ha⟩ := takePart_of_mem h hq x B hx
      obtain ⟨r, er, hr⟩ := hf _ (comp_of h hq).2 a ha
      exact ⟨r, by simp only [ea]; exact er, hr⟩
  obtain ⟨hlen, hget⟩ := parts_getElem h hfa
  have e2 : (P.parts.mapM fun q => (takePart q.1 x).bind fun a => (q.2.dist0 a).bind fun d =>
      Except.ok (Buf.map (fun a => a ^ 2) d)) = .ok (ds.map (Buf.map fun a => a ^ 2)) := by
    clear hget hlen hsh hne e
    generalize P.parts = L0 at hfa
    induction hfa with
    | nil => rfl
    | @cons q r L rs hq hL ih =>
      rw [List.mapM_cons, ih]
      cases ht : takePart q.1 x with
      | error e => rw [ht] at hq; cases hq
      | ok a =>
        rw [ht] at hq
        change q.2.dist0 a = .ok r at hq
        simp only [Except.bind, hq, bind, pure, Except.pure, List.map_cons]
  obtain ⟨s, es, hs, hsum⟩ := pySum_ok (ds.map (Buf.map fun a => a ^ 2)) (by simpa using hne) D (by
    intro t ht
    obtain ⟨d, hd, rfl⟩ := List.mem_map.1 ht
    exact hsh d hd)
  refine ⟨if keepdim then unsqueezeLast (Buf.map (fun a => a ^ (0.5 : ℝ)) s) else
    Buf.map (fun a => a ^ (0.5 : ℝ)) s, ds, ?_, ?_, hlen, ?_, ?_⟩
  · unfold SProduct.dist0
    have e2' : (P.parts.mapM fun (p, c) => do
      let x_ ← takePart p x
      let d ← c.dist0 x_
      return Buf.map (fun a => a ^ 2) d) = .ok (ds.map (Buf.map fun a => a ^ 2)) := e2
    rw [e2']
    simp only [bind, Except.bind, es, pure, Except.pure]
  · cases keepdim <;> simp [unsqueezeLast, Buf.map, hs]
  · intro i c d hc hd
    obtain ⟨p, hp, hg⟩ := hget i c d hc hd
    rw [hp]
    exact hg
  · intro b
    have : (if keepdim = true then unsqueezeLast (Buf.map (fun a => a ^ (0.5 : ℝ)) s) else
        Buf.map (fun a => a ^ (0.5 : ℝ)) s).data = (Buf.map (fun a => a ^ (0.5 : ℝ)) s).data := by
      cases keepdim <;> rfl
    rw [this, getD_map_zero (fun a => a ^ (0.5 : ℝ)) (Real.zero_rpow (by norm_num)), hsum b, List.map_map,
      Real.sqrt_eq_rpow]
    congr 2
    · apply List.map_congr_left
      intro d _
      simp only [Function.comp]
      rw [getD_map_zero _ (by norm_num)]
    · norm_num

/-- **C84.** `dist2plane` is the root of the sum of the squares of the components' distances, for
all flags. -/
theorem C84_dist2plane (h : SProduct.init cs = .ok P) (x p a : T) (D Bx Bp Ba : List ℕ)
    (hx : x.shape = Bx ++ [P.prod.nElements]) (hp : p.shape = Bp ++ [P.prod.nElements])
    (ha : a.shape = Ba ++ [P.prod.nElements]) (keepdim signed scaled : Bool)
    (hf : ∀ c ∈ cs, ∀ u v w : T, u.shape = Bx ++ c.2 → v.shape = Bp ++ c.2 → w.shape = Ba ++ c.2 →
      ∃ r, c.1.dist2plane keepdim signed scaled u v w = .ok r ∧ r.shape = D) :
    ∃ (t : T) (ds : List T), SProduct.dist2plane P x p a keepdim signed scaled = .ok t ∧
      t.shape = D ∧ ds.length = cs.length ∧
      (∀ i c d, cs[i]? = some c → ds[i]? = some d → ∃ u v w, take P.prod x i = .ok u ∧
        take P.prod p i = .ok v ∧ take P.prod a i = .ok w ∧
        c.1.dist2plane keepdim signed scaled u v w = .ok d) ∧
      ∀ b, t.data.getD b 0 = Real.sqrt (ds.map fun d => d.data.getD b 0 ^ 2).sum := by
  obtain ⟨ds, e, hne, hsh, hfa⟩ := mapM_comp h D
    (fun q => (takePart q.1 x).bind fun u => (takePart q.1 p).bind fun v =>
      (takePart q.1 a).bind fun w => q.2.dist2plane keepdim signed scaled u v w) fun q hq => by
      obtain ⟨u, eu, hu⟩ := takePart_of_mem h hq x Bx hx
      obtain ⟨v, ev, hv⟩ := takePart_of_mem h hq p Bp hp
      obtain ⟨w, ew, hw⟩ := takePart_of_mem h hq a Ba ha
      obtain ⟨r, er, hr⟩ := hf _ (comp_of h hq).2 u v w hu hv hw
      exact ⟨r, by simp only [eu, ev, ew]; exact er, hr⟩
  obtain ⟨hlen, hget⟩ := parts_getElem h hfa
  have hstack : ∃ s, stackSquares ds = .ok s ∧ s.shape = D ∧
      ∀ b, s.data.getD b 0 = (ds.map fun d => d.data.getD b 0 ^ 2).sum := by
    cases ds with
    | nil => exact absurd rfl hne
    | cons d ds =>
      obtain ⟨r, h1, h2, h3⟩ := foldlM_add (ds.map (Buf.map fun a => a ^ 2))
        (Buf.map (fun a => a ^ 2) d) D (hsh d (by simp)) (by
          intro t ht
          obtain ⟨d', hd, rfl⟩ := List.mem_map.1 ht
          exact hsh d' (by simp [hd]))
      refine ⟨r, h1, h2, fun b => ?_⟩
      rw [h3 b, getD_map_zero _ (by norm_num), List.map_map, List.map_cons, List.sum_cons]
      congr 2
      apply List.map_congr_left
      intro d' _
      simp only [Function.comp]
      rw [getD_map_zero _ (by norm_num)]
  obtain ⟨s, es, hs, hsum⟩ := hstack
  refine ⟨Buf.map Real.sqrt s, ds, ?_, hs, hlen, ?_, fun b => ?_⟩
  · unfold SProduct.dist2plane
    have e' : (P.parts.mapM fun (q, c) => do
      let x_ ← takePart q x
      let p_ ← takePart q p
      let a_ ← takePart q a
      c.dist2plane keepdim signed scaled x_ p_ a_) = .ok ds := e
    rw [e']
    simp only [bind, Except.bind, es, pure, Except.pure]
  · intro i c d hc hd
    obtain ⟨p', hp', hg⟩ := hget i c d hc hd
    rw [hp', hp', hp']
    simp only at hg
    cases e1 : takePart p' x with
    | error e => rw [e1] at hg; cases hg
    | ok u =>
      cases e2 : takePart p' p with
      | error e => rw [e1, e2] at hg; cases hg
      | ok v =>
        cases e3 : takePart p' a with
        | error e => rw [e1, e2, e3] at hg; cases hg
        | ok w =>
          rw [e1, e2, e3] at hg
          exact ⟨u, v, w, rfl, rfl, rfl, hg⟩
  · rw [getD_map_zero _ Real.sqrt_zero, hsum b]

/-- **C84, counterexample.** The sign is lost: `dist2plane` of the product is never negative, also
with `signed=True`, and with one component it is the absolute value of that component's signed
distance. -/
theorem C84_counterexample_signed (h : SProduct.init cs = .ok P) (x p a : T) (D Bx Bp Ba : List ℕ)
    (hx : x.shape = Bx ++ [P.prod.nElements]) (hp : p.shape = Bp ++ [P.prod.nElements])
    (ha : a.shape = Ba ++ [P.prod.nElements]) (keepdim scaled : Bool)
    (hf : ∀ c ∈ cs, ∀ u v w : T, u.shape = Bx ++ c.2 → v.shape = Bp ++ c.2 → w.shape = Ba ++ c.2 →
      ∃ r, c.1.dist2plane keepdim true scaled u v w = .ok r ∧ r.shape = D) :
    ∃ t : T, SProduct.dist2plane P x p a keepdim true scaled = .ok t ∧
      (∀ b, 0 ≤ t.data.getD b 0) ∧
      (∀ c, cs = [c] → ∃ u v w d, take P.prod x 0 = .ok u ∧ take P.prod p 0 = .ok v ∧
        take P.prod a 0 = .ok w ∧ c.1.dist2plane keepdim true scaled u v w = .ok d ∧
        ∀ b, t.data.getD b 0 = |d.data.getD b 0|) := by
  obtain ⟨t, ds, e, -, hlen, hget, hval⟩ :=
    C84_dist2plane h x p a D Bx Bp Ba hx hp ha keepdim true scaled hf
  refine ⟨t, e, fun b => by rw [hval b]; exact Real.sqrt_nonneg _, ?_⟩
  rintro c rfl
  match ds, hlen with
  | [d], _ =>
    obtain ⟨u, v, w, h1, h2, h3, h4⟩ := hget 0 c d rfl rfl
    refine ⟨u, v, w, d, h1, h2, h3, h4, fun b => ?_⟩
    rw [hval b]
    simp [Real.sqrt_sq_eq_abs]

/-- **C84, counterexample.** `geodesic_unit` of a product does not have unit speed: if after time `τ`
every component has moved by `τ` (squared distance `τ ^ 2`), the product has moved by `√n · τ`. -/
theorem C84_counterexample_unit_speed (h : SProduct.init cs = .ok P) (proj : Bool) (s x u : T) (τ : ℝ)
    (hx : x.shape = [P.prod.nElements]) (hu : u.shape = [P.prod.nElements])
    (hf : Batched2 cs (fun c => c.geodesicUnit proj s) [] [] [])
    (hd : ∀ c ∈ cs, ∀ a b : T, a.shape = c.2 → b.shape = c.2 →
      ∃ r s, c.1.base.dist2 a b = .ok r ∧ r.shape = s ∧ s.prod = 1)
    (hunit : ∀ c ∈ cs, ∀ a v b r : T, a.shape = c.2 → v.shape = c.2 →
      c.1.geodesicUnit proj s a v = .ok b → c.1.base.dist2 a b = .ok r → r.data.getD 0 0 = τ ^ 2) :
    ∃ y d, SProduct.geodesicUnit proj P s x u = .ok y ∧ Product.dist2 P.prod x y false = .ok d ∧
      d.data.getD 0 0 = cs.length * τ ^ 2 := by
  obtain ⟨y, e, hy, hc⟩ := binary_spec h _ x u [] [] [] hx hu (by simp) hf
  obtain ⟨Q, hQ, hPQ⟩ : ∃ Q, Product.init (cs.map fun c => (c.1.base, c.2)) = .ok Q ∧ Q = P.prod := by
    unfold SProduct.init at h
    simp only [bind, Except.bind, pure, Except.pure, throw, throwThe, MonadExceptOf.throw] at h
    cases hi : Product.init (cs.map fun c => (c.1.base, c.2)) with
    | error e => rw [hi] at h; cases h
    | ok Q =>
      rw [hi] at h
      simp only at h
      split_ifs at h
      cases h
      exact ⟨Q, rfl, rfl⟩
  subst hPQ
  obtain ⟨d, _, parts, ed, -, -, -, ⟨hl, hp⟩, hv⟩ := C42.C43_dist_partial hQ x y [] [] [] hx hy
    (by simp) (by simp) (by
      intro m hm a b ha hb
      obtain ⟨c, hcm, rfl⟩ := List.mem_map.1 hm
      obtain ⟨r, s, h1, h2, h3⟩ := hd c hcm a b ha hb
      exact ⟨r, s, h1, h2, h3⟩) false
  refine ⟨y, d, e, ed, ?_⟩
  have hv0 := (hv 0 (by simp)).1
  rw [hv0]
  have hall : ∀ r ∈ parts, r.data.getD 0 0 = τ ^ 2 := by
    intro r hr
    obtain ⟨i, hi, er⟩ := List.mem_iff_getElem.1 hr
    rw [List.length_map] at hl
    have hci : cs[i]? = some (cs[i]'(by omega)) := List.getElem?_eq_getElem (by omega)
    set c := cs[i]'(by omega)
    have hcm : c ∈ cs := List.getElem_mem _
    obtain ⟨a, b, h1, h2, h3⟩ := hp i (c.1.base, c.2) r (by rw [List.getElem?_map, hci]; rfl)
      (by rw [List.getElem?_eq_getElem hi, er])
    obtain ⟨q, hq, q1, q2, q3⟩ := take_eq h hci
    obtain ⟨a', ea, ha⟩ := takePart_of_mem h hq x [] hx
    obtain ⟨v, ev, hv'⟩ := takePart_of_mem h hq u [] hu
    rw [q3, ea] at h1; injection h1 with h1; subst h1
    have := hc i c a' v hci (by rw [q3]; exact ea) (by rw [q3]; exact ev)
    rw [h2] at this
    exact hunit c hcm a' v b r (by rw [ha, q2]; rfl) (by rw [hv', q2]; rfl) this.symm h3
  have : parts.map (fun r => r.data.getD 0 0) = List.replicate parts.length (τ ^ 2) := by
    rw [List.eq_replicate_iff]
    refine ⟨by simp, fun b hb => ?_⟩
    obtain ⟨r, hr, rfl⟩ := List.mem_map.1 hb
    exact hall r hr
  rw [this, List.sum_replicate, hl, List.length_map, nsmul_eq_mul]

/-! ## Sampling -/

/-- **C74, counterexample.** With `std` given as a number, `wrapped_normal` of the product ignores
it: all numbers give the same sample (from the same noise). -/
theorem C74_counterexample_product_std (P : SProd) (shape : List ℕ) (mean : T) (s s' : ℝ) :
    SProduct.wrappedNormal P shape mean (.number s) =
      SProduct.wrappedNormal P shape mean (.number s') := by
  have : stdTensor mean (.number s) = stdTensor mean (.number s') := by
    unfold stdTensor
    cases mean.shape.getLast? with
    | none => rfl
    | some d => simp
  unfold SProduct.wrappedNormal
  rw [this]

/-- **C74 (partial).** With `std` given as a tensor the components sample with their part of it. -/
theorem C74_product_wrapped_normal_partial (h : SProduct.init cs = .ok P) (B Bm Bs : List ℕ)
    (hB : B.prod ≠ 0) (mean std : T) (hm : mean.shape = Bm ++ [P.prod.nElements])
    (hs : std.shape = Bs ++ [P.prod.nElements])
    (hf : ∀ c ∈ cs, ∀ a b : T, a.shape = Bm ++ c.2 → b.shape = Bs ++ c.2 →
      ∃ r, c.1.wrappedNormal (B ++ c.2) a b = .ok r ∧ r.shape = B ++ c.2) :
    Componentwise2 cs P (fun c a b => c.wrappedNormal (B ++ a.shape.drop Bm.length) a b)
      (SProduct.wrappedNormal P (B ++ [P.prod.nElements]) mean (.tensor std)) mean std B := by
  obtain ⟨t, e, hs', ht⟩ := run_ok h B hB
    (fun q => (takePart q.1 mean).bind fun a => (takePart q.1 std).bind fun b =>
      q.2.wrappedNormal (B ++ q.1.shape) a b)
    fun q hq => by
      obtain ⟨a, ea, ha⟩ := takePart_of_mem h hq mean Bm hm
      obtain ⟨b, eb, hb⟩ := takePart_of_mem h hq std Bs hs
      obtain ⟨r, er, hr⟩ := hf _ (comp_of h hq).2 a b ha hb
      exact ⟨r, by simp only [ea, eb]; exact er, hr⟩
  refine ⟨t, ?_, hs', fun i c a b hi ha hb => ?_⟩
  · unfold SProduct.wrappedNormal
    simp only [checkShape, List.getLast?_append, List.getLast?_singleton, Option.some_or,
      decide_true, bind, Except.bind, Bool.not_true, Bool.false_eq_true, if_false, pure,
      Except.pure, stdTensor, List.dropLast_concat]
    exact e
  · obtain ⟨q, hq, h1, h2, h3⟩ := take_eq h hi
    rw [h3] at ha hb ⊢
    rw [ht q hq, ha, hb, ← h1]
    obtain ⟨a', ea, ha'⟩ := takePart_of_mem h hq mean Bm hm
    rw [ha] at ea; injection ea with ea; subst ea
    simp only [Except.bind, ha', List.drop_left]

/-! ## The hypotheses are met -/

/-- A component for the examples: flat space as a stereographic manifold of curvature 0, with the
methods written for vectors without batch. -/
noncomputable def flat : Comp where
  base := C41.flat
  stereographic := true
  dist2plane _ signed _ x p a :=
    .ok ⟨[], [if signed then (List.zipWith (· * ·) (List.zipWith (· - ·) x.data p.data) a.data).sum
      else |(List.zipWith (· * ·) (List.zipWith (· - ·) x.data p.data) a.data).sum|], rfl⟩
  mobiusAdd _ := add
  mobiusCoadd _ := add
  mobiusSub _ := C41.zip2 (· - ·)
  mobiusCosub _ := C41.zip2 (· - ·)
  mobiusScalarMul _ r x := .ok (Buf.map (fun a => r.data.getD 0 0 * a) x)
  mobiusPointwiseMul _ := C41.zip2 (· * ·)
  mobiusMatvec _ _ x := .ok x
  wrappedNormal _ m _ := .ok m
  geodesic _ x _ := .ok x
  geodesicUnit _ t x _ := .ok (Buf.map (fun a => a + t.data.getD 0 0) x)
  dist0 x := .ok ⟨[], [Real.sqrt (x.data.map fun a => a ^ 2).sum], rfl⟩
  expmap0 _ := .ok
  logmap0 := .ok
  transp0 _ u := .ok u
  transp0back _ u := .ok u
  gyration _ _ w := .ok w
  antipode := .ok
  mobiusFnApply _ f := f
  mobiusFnApplyChain _ x fs := fs.foldlM (fun a f => f a) x

/-- Two vectors and a matrix: seven entries. -/
noncomputable def exProd : Except PyErr SProd :=
  SProduct.init [(flat, [2]), (flat, [1]), (flat, [2, 2])]

/-- The constructor accepts it, and the components do what the theorems ask for. -/
example : (∃ P, exProd = .ok P ∧ P.prod.nElements = 7) ∧
    Batched1 [(flat, [2]), (flat, [1]), (flat, [2, 2])] (fun c => c.expmap0 true) [3] [3] ∧
    Batched2 [(flat, [2]), (flat, [1]), (flat, [2, 2])] (fun c => c.mobiusAdd true) [3] [3] [3] := by
  refine ⟨⟨_, rfl, rfl⟩, ?_, ?_⟩
  · intro c hc a ha
    have : c.1 = flat := by
      simp only [List.mem_cons, List.not_mem_nil, or_false] at hc
      rcases hc with rfl | rfl | rfl <;> rfl
    rw [this]
    exact ⟨a, rfl, ha⟩
  · intro c hc a b ha hb
    have : c.1 = flat := by
      simp only [List.mem_cons, List.not_mem_nil, or_false] at hc
      rcases hc with rfl | rfl | rfl <;> rfl
    rw [this]
    simp only [flat, add]
    rw [dif_pos (ha.trans hb.symm)]
    exact ⟨_, rfl, ha⟩

/-- The hypotheses of the counterexamples are met as well: a signed distance of `-1`. -/
example : flat.dist2plane false true false ⟨[1], [0], rfl⟩ ⟨[1], [1], rfl⟩ ⟨[1], [1], rfl⟩ =
    .ok ⟨[], [-1], rfl⟩ := by
  simp [flat]

/-- And in one dimension `flat.geodesicUnit` moves by `τ`. -/
example (τ a : ℝ) : ∃ b r, flat.geodesicUnit true ⟨[], [τ], rfl⟩ ⟨[1], [a], rfl⟩ ⟨[1], [1], rfl⟩ = .ok b ∧
    flat.base.dist2 ⟨[1], [a], rfl⟩ b = .ok r ∧ r.data.getD 0 0 = τ ^ 2 := by
  refine ⟨_, _, rfl, rfl, ?_⟩
  simp [Buf.map]

end C84
