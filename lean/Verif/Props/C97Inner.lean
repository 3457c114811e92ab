import Verif.Model.ProductInner
import Verif.Props.C42
import Verif.Props.C49

/-!
# C97: `component_inner` of a product

The number that RiemannianAdam divides by: every entry of component `i` gets the inner product of
component `i` alone.
-/

namespace Geoopt.C97

open Buf Product C42

theorem expandIdx_ones (s : List ℕ) (k : ℕ) : expandIdx (List.replicate s.length 1) s k = 0 := by
  induction s generalizing k with
  | nil => rfl
  | cons d s ih => simp [List.replicate_succ, expandIdx, ih]

theorem expandIdx_batch (B s : List ℕ) (k : ℕ) (hk : k < (B ++ s).prod) :
    expandIdx (B ++ List.replicate s.length 1) (B ++ s) k = k / s.prod := by
  induction B generalizing k with
  | nil =>
    rw [List.nil_append] at hk
    rw [List.nil_append, List.nil_append, expandIdx_ones, Nat.div_eq_of_lt hk]
  | cons b B ih =>
    simp only [List.cons_append, expandIdx]
    rw [List.cons_append, List.prod_cons] at hk
    have hpos : 0 < (B ++ s).prod := by
      by_contra h0
      have : (B ++ s).prod = 0 := by omega
      rw [this] at hk; omega
    rw [ih _ (Nat.mod_lt _ hpos)]
    have e1 : (B ++ List.replicate s.length 1).prod = B.prod := by simp
    have e2 : (B ++ s).prod = B.prod * s.prod := List.prod_append
    have hs : 0 < s.prod := by
      by_contra h0
      rw [e2, Nat.le_zero.1 (not_lt.1 h0)] at hpos; omega
    have e3 : (if b = 1 then 0 else k / (B ++ s).prod) = k / (B ++ s).prod := by
      split_ifs with hb
      · subst hb
        rw [Nat.div_eq_of_lt (by omega)]
      · rfl
    rw [e1, e3, e2]
    conv_rhs => rw [← Nat.div_add_mod k (B.prod * s.prod)]
    rw [show B.prod * s.prod * (k / (B.prod * s.prod)) = s.prod * (k / (B.prod * s.prod) * B.prod) by ring,
      Nat.mul_add_div hs]

theorem expandIdx_same (s : List ℕ) (k : ℕ) (hk : k < s.prod) : expandIdx s s k = k := by
  have := expandIdx_batch s [] k (by simpa using hk)
  simpa using this

/-- **C97.** `expand` of a tensor with one number for each batch entry: that number, for every entry of
the element. -/
theorem C97_expand_tile (r : T) (B s : List ℕ) (hr : r.shape = B ++ List.replicate s.length 1) :
    ∃ t, expand r (B ++ s) = .ok t ∧ t.shape = B ++ s ∧
      ∀ b < B.prod, ∀ k < s.prod, t.data[b * s.prod + k]? = r.data[b]? := by
  unfold expand
  have hlen : r.shape.length = (B ++ s).length := by rw [hr]; simp
  simp only
  rw [if_pos]
  swap
  · refine ⟨hlen.le, ?_⟩
    rw [hlen, Nat.sub_self, List.replicate_zero, List.nil_append, hr]
    intro p hp
    rw [List.zip_append rfl, List.mem_append] at hp
    rcases hp with hp | hp
    · right
      obtain ⟨i, hi, e⟩ := List.mem_iff_getElem.1 hp
      rw [List.getElem_zip] at e
      rw [← e]
    · left
      exact List.eq_of_mem_replicate (List.of_mem_zip hp).1
  refine ⟨_, rfl, rfl, fun b hb k hk => ?_⟩
  have hd : b * s.prod + k < (B ++ s).prod := by
    rw [List.prod_append]
    calc b * s.prod + k < b * s.prod + s.prod := by omega
      _ = (b + 1) * s.prod := by ring
      _ ≤ B.prod * s.prod := Nat.mul_le_mul_right _ hb
  have e0 : List.replicate ((B ++ s).length - r.shape.length) 1 ++ r.shape =
      B ++ List.replicate s.length 1 := by
    rw [hlen, Nat.sub_self, List.replicate_zero, List.nil_append, hr]
  simp only [e0]
  rw [List.getElem?_map, List.getElem?_range hd, Option.map_some, expandIdx_batch _ _ _ hd,
    Nat.add_comm, Nat.add_mul_div_right _ _ (by omega), Nat.div_eq_of_lt hk, Nat.zero_add]
  have hl : b < r.data.length := by rw [r.wf, hr]; simpa using hb
  rw [List.getElem?_eq_getElem hl, List.getD_eq_getElem?_getD, List.getElem?_eq_getElem hl]
  rfl

/-- **C97.** `expand` of a tensor that has the full shape already (an elementwise `component_inner`, as
of `Euclidean`) changes nothing. -/
theorem C97_expand_same (r : T) : expand r r.shape = .ok r := by
  unfold expand
  simp only [Nat.sub_self, List.replicate_zero, List.nil_append]
  rw [if_pos]
  swap
  · refine ⟨le_refl _, fun p hp => Or.inr ?_⟩
    obtain ⟨i, hi, e⟩ := List.mem_iff_getElem.1 hp
    rw [List.getElem_zip] at e
    rw [← e]
  congr 1
  ext1
  · rfl
  · simp only
    apply List.ext_getElem
    · simp [r.wf]
    · intro k h1 h2
      rw [List.getElem_map, List.getElem_range, expandIdx_same _ _ (by rw [← r.wf]; exact h2),
        List.getD_eq_getElem?_getD, List.getElem?_eq_getElem h2]
      rfl

theorem broadcast_self (s : List ℕ) (h : s.prod ≠ 0) : broadcastShapes [s, s] = .ok s := by
  have hpos : ∀ d ∈ s, 0 < d := fun d hd => Nat.pos_of_ne_zero fun h0 =>
    h (List.prod_eq_zero (h0 ▸ hd))
  rw [C49.C49_broadcast_shapes_partial [s, s] s (by simpa using hpos)]
  exact ⟨by simp, Or.inr ⟨s, by simp, rfl⟩, by simp, fun i _ _ => ⟨s, by simp, rfl⟩⟩

variable {ms : List (Manifold × List ℕ)} {P : Prod}

/-- **C97, `component_inner` (partial).** The components of the result are the `component_inner` of the
components, each repeated over the shape of its own component.  `v` may be `None`.  Missing: empty
tensors, where `pack_point` raises. -/
theorem C97_component_inner_partial (ci : Manifold → T → T → Option T → Except PyErr T)
    (h : init ms = .ok P) (x u : T) (v : Option T) (B : List ℕ) (hB : B.prod ≠ 0)
    (hms : ∀ m ∈ ms, m.2.prod ≠ 0)
    (hx : x.shape = B ++ [P.nElements]) (hu : u.shape = B ++ [P.nElements])
    (hv : ∀ w, v = some w → w.shape = B ++ [P.nElements])
    (hci : ∀ m ∈ ms, ∀ a b c, a.shape = B ++ m.2 → b.shape = B ++ m.2 →
      (∀ w, c = some w → w.shape = B ++ m.2) →
      ∃ r, ci m.1 a b c = .ok r ∧ (r.shape = B ++ List.replicate m.2.length 1 ∨ r.shape = B ++ m.2)) :
    ∃ t, componentInner ci P x u v = .ok t ∧ t.shape = B ++ [P.nElements] ∧
      ∀ i m a b c r, ms[i]? = some m → take P x i = .ok a → take P u i = .ok b →
        (match v with
          | none => c = none
          | some w => ∃ w', c = some w' ∧ take P w i = .ok w') →
        ci m.1 a b c = .ok r →
        take P t i = expand r (B ++ m.2) := by
  have hP := (init_ok ms P h).1
  have hexp : ∀ (m : Manifold × List ℕ) (r : T),
      (r.shape = B ++ List.replicate m.2.length 1 ∨ r.shape = B ++ m.2) →
      ∃ s, expand r (B ++ m.2) = .ok s ∧ s.shape = B ++ m.2 := by
    rintro m r (hr | hr)
    · obtain ⟨t, h1, h2, -⟩ := C97_expand_tile r B m.2 hr
      exact ⟨t, h1, h2⟩
    · exact ⟨r, by rw [← hr]; exact C97_expand_same r, hr⟩
  have key : ∀ p ∈ P.parts, ∃ a b c r s, takePart p x = .ok a ∧ takePart p u = .ok b ∧
      takeOpt p v = .ok c ∧ broadcastShapes [a.shape, b.shape] = .ok (B ++ p.shape) ∧
      ci p.man a b c = .ok r ∧ expand r (B ++ p.shape) = .ok s ∧ s.shape = B ++ p.shape := by
    intro p hp
    obtain ⟨a, ea, ha⟩ := takePart_ok P hP p hp x B hx
    obtain ⟨b, eb, hb⟩ := takePart_ok P hP p hp u B hu
    obtain ⟨c, ec, hc⟩ : ∃ c, takeOpt p v = .ok c ∧ ∀ w, c = some w → w.shape = B ++ p.shape := by
      cases v with
      | none => exact ⟨none, rfl, fun w hw => by cases hw⟩
      | some w =>
        obtain ⟨w', ew, hw⟩ := takePart_ok P hP p hp w B (hv w rfl)
        refine ⟨some w', by simp [takeOpt, ew, Except.map], fun w'' e => ?_⟩
        rw [← Option.some.inj e]; exact hw
    obtain ⟨r, er, hr⟩ := hci _ (mem_ms h p hp) a b c ha hb hc
    obtain ⟨s, es, hs⟩ := hexp (p.man, p.shape) r hr
    refine ⟨a, b, c, r, s, ea, eb, ec, ?_, er, es, hs⟩
    rw [ha, hb]
    exact broadcast_self _ (by rw [List.prod_append]; exact Nat.mul_ne_zero hB (hms _ (mem_ms h p hp)))
  choose! A Bb C R S k1 k2 k3 k4 k5 k6 k7 using key
  have hmap : P.parts.mapM (fun p => do
      let point ← takePart p x
      let uVec ← takePart p u
      let target ← broadcastShapes [point.shape, uVec.shape]
      let vVec ← takeOpt p v
      let inner ← ci p.man point uVec vVec
      expand inner target) = .ok (P.parts.map S) := by
    refine mapM_ok P.parts _ S fun p hp => ?_
    simp only [k1 p hp, k2 p hp, k3 p hp, k4 p hp, k5 p hp, bind, Except.bind]
    exact k6 p hp
  obtain ⟨t, h1, h2, h3⟩ := pack_ok P hP B hB (P.parts.map S) (by
    rw [List.forall₂_map_right_iff, List.forall₂_same]
    exact k7)
  refine ⟨t, ?_, h2, ?_⟩
  · unfold componentInner
    simp only [bind, Except.bind] at hmap ⊢
    rw [hmap]
    exact h1
  · intro i m a b c r hi ha hb hc hr
    obtain ⟨p, hp, e1, e2⟩ := part_of h i m hi
    have hpm := List.mem_of_getElem? hp
    rw [List.forall₂_map_right_iff, List.forall₂_same] at h3
    unfold take at ha hb ⊢
    rw [hp] at ha hb ⊢
    simp only at ha hb ⊢
    rw [h3 p hpm, ← e2, ← k6 p hpm]
    have ea : A p = a := Except.ok.inj ((k1 p hpm).symm.trans ha)
    have eb : Bb p = b := Except.ok.inj ((k2 p hpm).symm.trans hb)
    have ec : C p = c := by
      have := k3 p hpm
      cases v with
      | none => rw [hc]; exact (Except.ok.inj this).symm
      | some w =>
        obtain ⟨w', e, hw⟩ := hc
        unfold take at hw
        rw [hp] at hw
        simp only at hw
        simp only [takeOpt, hw, Except.map] at this
        rw [e]; exact (Except.ok.inj this).symm
    have er := k5 p hpm
    rw [ea, eb, ec, e1, hr] at er
    rw [Except.ok.inj er]

end Geoopt.C97
