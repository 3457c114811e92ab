import Verif.Model.Product
import Mathlib.Tactic

/-! # Facts about buffers and the layout of a product -/

namespace Geoopt.Buf

variable {α : Type}

instance : Inhabited (Tensor α) := ⟨⟨[0], [], rfl⟩⟩

theorem row_flatMap (n k : ℕ) (f : ℕ → List α) (hf : ∀ i < k, (f i).length = n) (i : ℕ)
    (hi : i < k) : row n i ((List.range k).flatMap f) = f i := by
  induction k with
  | zero => omega
  | succ k ih =>
    have hlen : ((List.range k).flatMap f).length = k * n := by
      rw [length_flatMap_const _ _ n (fun j hj => hf j (by have := List.mem_range.1 hj; omega)),
        List.length_range]
    rw [List.range_succ, List.flatMap_append]
    simp only [List.flatMap_cons, List.flatMap_nil, List.append_nil]
    by_cases h : i < k
    · rw [← ih (fun j hj => hf j (by omega)) h]
      unfold row
      have h1 : (i + 1) * n ≤ k * n := Nat.mul_le_mul_right n h
      have h2 : (i + 1) * n = i * n + n := by ring
      rw [List.drop_append_of_le_length (by omega), List.take_append_of_le_length]
      rw [List.length_drop, hlen]; omega
    · have : i = k := by omega
      subst this
      unfold row
      rw [List.drop_append, hlen, Nat.sub_self, List.drop_zero, List.drop_of_length_le (by omega),
        List.nil_append, List.take_of_length_le (by rw [hf i hi])]

theorem flatMap_rows (n k : ℕ) (l : List α) :
    (List.range k).flatMap (fun i => row n i l) = l.take (k * n) := by
  induction k with
  | zero => simp
  | succ k ih =>
    rw [List.range_succ, List.flatMap_append, ih]
    simp only [List.flatMap_cons, List.flatMap_nil, List.append_nil]
    rw [Nat.add_mul, Nat.one_mul, List.take_add]
    rfl

theorem flatMap_congr' {β : Type} (l : List β) (f g : β → List α) (h : ∀ b ∈ l, f b = g b) :
    l.flatMap f = l.flatMap g := by
  induction l with
  | nil => rfl
  | cons b l ih =>
    rw [List.flatMap_cons, List.flatMap_cons, h b (by simp), ih (fun c hc => h c (by simp [hc]))]

theorem Tensor.last_append (t : Tensor α) (B : List ℕ) (n : ℕ) (h : t.shape = B ++ [n]) :
    t.last = n := by
  simp [Tensor.last, h, List.getLastD_eq_getLast?]

theorem Tensor.nrows_append (t : Tensor α) (B : List ℕ) (n : ℕ) (h : t.shape = B ++ [n]) :
    t.nrows = B.prod := by
  simp [Tensor.nrows, h]

theorem Tensor.rows_data (t : Tensor α) (B : List ℕ) (n : ℕ) (h : t.shape = B ++ [n]) :
    (List.range B.prod).flatMap (fun i => row n i t.data) = t.data := by
  rw [flatMap_rows, List.take_of_length_le]
  rw [t.wf, h, List.prod_append, List.prod_singleton]

theorem length_row' (t : Tensor α) (B : List ℕ) (n : ℕ) (h : t.shape = B ++ [n]) (i : ℕ)
    (hi : i < B.prod) : (row n i t.data).length = n :=
  length_row n i B.prod _ (by rw [t.wf, h, List.prod_append, List.prod_singleton]) hi

/-- What `torch.cat` along the last axis returns. -/
theorem catLast_eq (ts : List (Tensor α)) (B : List ℕ) (hne : ts ≠ [])
    (h : ∀ s ∈ ts, ∃ n, s.shape = B ++ [n]) :
    ∃ t, catLast ts = .ok t ∧ t.shape = B ++ [(ts.map Tensor.last).sum] ∧
      t.data = (List.range B.prod).flatMap fun i => ts.flatMap fun s => row s.last i s.data := by
  cases ts with
  | nil => exact absurd rfl hne
  | cons t ts =>
    have hok : catOk (t :: ts) = true := by
      simp only [catOk, Bool.and_eq_true, List.all_eq_true, decide_eq_true_eq]
      obtain ⟨n, hn⟩ := h t (by simp)
      refine ⟨by rw [hn]; simp, fun s hs => ?_⟩
      obtain ⟨m, hm⟩ := h s hs
      rw [hm, hn]; simp
    obtain ⟨n, hn⟩ := h t (by simp)
    have hB : t.shape.dropLast = B := by rw [hn]; simp
    unfold catLast
    simp only [dif_pos hok]
    refine ⟨_, rfl, ?_, ?_⟩
    · simp only [hB]
    · simp only [t.nrows_append B n hn]

theorem narrow_cat (pre post : List (Tensor α)) (f t : Tensor α) (B : List ℕ)
    (h : ∀ s ∈ pre ++ f :: post, ∃ n, s.shape = B ++ [n])
    (ht : catLast (pre ++ f :: post) = .ok t) :
    narrowLast t (pre.map Tensor.last).sum f.last = .ok f := by
  obtain ⟨t', e, hshape, hdata⟩ := catLast_eq _ B (by simp) h
  rw [ht] at e
  obtain rfl : t = t' := Except.ok.inj e
  obtain ⟨m, hm⟩ := h f (by simp)
  have hlast := t.last_append _ _ hshape
  have hsum : ((pre ++ f :: post).map Tensor.last).sum
      = (pre.map Tensor.last).sum + f.last + (post.map Tensor.last).sum := by
    simp [List.sum_append]; ring
  have hrowlen : ∀ s ∈ pre ++ f :: post, ∀ i < B.prod, (row s.last i s.data).length = s.last := by
    intro s hs i hi
    obtain ⟨n, hn⟩ := h s hs
    rw [s.last_append _ _ hn]
    exact length_row' s B n hn i hi
  unfold narrowLast
  rw [dif_pos ⟨by rw [hshape]; simp, by rw [hlast, hsum]; omega⟩]
  congr 1
  apply Tensor.ext
  · simp only [hshape, List.dropLast_concat, hm]
    rw [f.last_append _ _ hm]
  · simp only [hlast, t.nrows_append _ _ hshape]
    rw [hdata]
    have hfd : (List.range B.prod).flatMap (fun i => row f.last i f.data) = f.data := by
      rw [f.last_append _ _ hm, f.rows_data B m hm]
    refine Eq.trans ?_ hfd
    apply flatMap_congr'
    intro i hi
    have hi := List.mem_range.1 hi
    rw [row_flatMap _ _ _ (fun j hj => sum_length_flatMap _ _ _ fun s hs => hrowlen s hs j hj) i hi,
      List.flatMap_append, List.flatMap_cons]
    have hpre : (pre.flatMap fun s => row s.last i s.data).length = (pre.map Tensor.last).sum :=
      sum_length_flatMap _ _ _ fun s hs => hrowlen s (by simp [hs]) i hi
    rw [List.drop_append, hpre, Nat.sub_self, List.drop_zero, List.drop_of_length_le (by omega),
      List.nil_append, List.take_append_of_le_length
        (by rw [hrowlen f (by simp) i hi]),
      List.take_of_length_le (by rw [hrowlen f (by simp) i hi])]

theorem mapM_ok {β γ : Type} (l : List β) (f : β → Except PyErr γ) (g : β → γ)
    (h : ∀ b ∈ l, f b = .ok (g b)) : l.mapM f = .ok (l.map g) := by
  induction l with
  | nil => rfl
  | cons b l ih =>
    rw [List.mapM_cons, h b (by simp), ih (fun c hc => h c (by simp [hc]))]
    rfl

theorem mapM_ok_iff {β γ : Type} (l : List β) (f : β → Except PyErr γ) (r : List γ) :
    l.mapM f = .ok r ↔ List.Forall₂ (fun b c => f b = .ok c) l r := by
  induction l generalizing r with
  | nil =>
    rw [List.mapM_nil]
    constructor
    · intro h; cases h; exact List.Forall₂.nil
    · intro h; cases h; rfl
  | cons b l ih =>
    rw [List.mapM_cons]
    constructor
    · intro h
      cases hb : f b with
      | error e => rw [hb] at h; cases h
      | ok c =>
        rw [hb] at h
        cases hl : l.mapM f with
        | error e => rw [hl] at h; cases h
        | ok cs =>
          rw [hl] at h
          cases h
          exact List.Forall₂.cons hb ((ih cs).1 hl)
    · intro h
      cases h with
      | cons h1 h2 =>
        rw [h1, (ih _).2 h2]
        rfl

end Geoopt.Buf

namespace Geoopt.Product

open Buf

theorem shape2size_eq (s : List ℕ) : shape2size s = s.prod := by
  unfold shape2size
  have : ∀ (l : List ℕ) (a : ℕ), l.foldl (· * ·) a = a * l.prod := by
    intro l
    induction l with
    | nil => simp
    | cons b l ih => intro a; rw [List.foldl_cons, ih, List.prod_cons, Nat.mul_assoc]
  rw [this, Nat.one_mul]

/-- The slices follow each other from `pos` on, each as long as its component is large. -/
def Consec : ℕ → List Part → Prop
  | _, [] => True
  | pos, p :: ps => p.start = pos ∧ p.stop = pos + p.shape.prod ∧ Consec p.stop ps

/-- Total size of the components. -/
def total (ps : List Part) : ℕ := (ps.map fun p => p.shape.prod).sum

theorem consec_append (pos : ℕ) (ps qs : List Part) :
    Consec pos (ps ++ qs) ↔ Consec pos ps ∧ Consec (pos + total ps) qs := by
  induction ps generalizing pos with
  | nil => simp [Consec, total]
  | cons p ps ih =>
    simp only [List.cons_append, Consec, ih, total, List.map_cons, List.sum_cons]
    constructor
    · rintro ⟨h1, h2, h3, h4⟩
      refine ⟨⟨h1, h2, h3⟩, ?_⟩
      rwa [h2, Nat.add_assoc] at h4
    · rintro ⟨⟨h1, h2, h3⟩, h4⟩
      refine ⟨h1, h2, h3, ?_⟩
      rwa [h2, Nat.add_assoc]

/-- What the constructor guarantees about the layout. -/
structure Laid (P : Prod) : Prop where
  ne : P.parts ≠ []
  consec : Consec 0 P.parts
  size : P.nElements = total P.parts

theorem initStep_ok (st st' : InitState) (ms : Manifold × List ℕ) (h : initStep st ms = .ok st') :
    st'.parts = st.parts ++ [⟨ms.1, ms.2, st.pos0, st.pos0 + ms.2.prod⟩] ∧
    st'.pos0 = st.pos0 + ms.2.prod ∧ ms.1.checkShape ms.2 = true ∧
    tagStep st.device ms.1.device = .ok st'.device ∧ tagStep st.dtype ms.1.dtype = .ok st'.dtype := by
  obtain ⟨m, s⟩ := ms
  simp only [initStep, bind, Except.bind, pure, Except.pure, throw, throwThe, MonadExceptOf.throw] at h
  cases hs : m.checkShape s with
  | false => rw [hs] at h; cases h
  | true =>
    rw [hs] at h
    cases hd : tagStep st.device m.device with
    | error e => rw [hd] at h; cases h
    | ok d =>
      rw [hd] at h
      cases ht : tagStep st.dtype m.dtype with
      | error e => rw [ht] at h; cases h
      | ok t =>
        rw [ht] at h
        cases h
        simp [shape2size_eq]

theorem foldlM_initStep (ms : List (Manifold × List ℕ)) (st st' : InitState)
    (h : ms.foldlM initStep st = .ok st') :
    ∃ qs, st'.parts = st.parts ++ qs ∧ qs.map (fun p => (p.man, p.shape)) = ms ∧
      Consec st.pos0 qs ∧ st'.pos0 = st.pos0 + total qs := by
  induction ms generalizing st with
  | nil =>
    cases h
    exact ⟨[], by simp, rfl, trivial, by simp [total]⟩
  | cons m ms ih =>
    rw [List.foldlM_cons] at h
    cases h1 : initStep st m with
    | error e => rw [h1] at h; cases h
    | ok st1 =>
      rw [h1] at h
      obtain ⟨e1, e2, -⟩ := initStep_ok st st1 m h1
      obtain ⟨qs, f1, f2, f3, f4⟩ := ih st1 h
      refine ⟨⟨m.1, m.2, st.pos0, st.pos0 + m.2.prod⟩ :: qs, ?_, ?_, ?_, ?_⟩
      · rw [f1, e1]; simp
      · simp [f2]
      · exact ⟨rfl, rfl, by rw [e2] at f3; exact f3⟩
      · rw [f4, e2]; simp [total]; ring

theorem init_ok (ms : List (Manifold × List ℕ)) (P : Prod) (h : init ms = .ok P) :
    Laid P ∧ P.parts.map (fun p => (p.man, p.shape)) = ms := by
  simp only [init, bind, Except.bind, pure, Except.pure, throw, throwThe, MonadExceptOf.throw] at h
  split_ifs at h with hl
  cases hf : ms.foldlM initStep ⟨[], none, none, 0⟩ with
  | error e => rw [hf] at h; cases h
  | ok st =>
    rw [hf] at h
    cases h
    obtain ⟨qs, f1, f2, f3, f4⟩ := foldlM_initStep ms _ _ hf
    simp only [List.nil_append] at f1
    refine ⟨⟨?_, ?_, ?_⟩, ?_⟩
    · rintro e
      rw [f1] at e
      subst e
      rw [← f2] at hl
      simp at hl
    · rw [f1]; exact f3
    · rw [f1, f4]; simp
    · rw [f1]; exact f2

/-- Taking a part of a tensor with the right last axis succeeds. -/
theorem takePart_ok (P : Prod) (hP : Laid P) (p : Part) (hp : p ∈ P.parts) (x : T) (B : List ℕ)
    (hx : x.shape = B ++ [P.nElements]) :
    ∃ a, takePart p x = .ok a ∧ a.shape = B ++ p.shape := by
  obtain ⟨pre, post, e⟩ := List.append_of_mem hp
  have hc := hP.consec
  rw [e, consec_append] at hc
  obtain ⟨-, h1, h2, -⟩ := hc
  have hsz : P.nElements = total pre + p.shape.prod + total post := by
    rw [hP.size, e]; simp [total, List.sum_append]; ring
  have hlen : p.stop - p.start = p.shape.prod := by omega
  unfold takePart
  rw [hlen]
  unfold narrowLast
  rw [dif_pos ⟨by rw [hx]; simp, by rw [x.last_append _ _ hx]; omega⟩]
  simp only [bind, Except.bind, reshape]
  rw [dif_pos (by simp [hx, List.prod_append])]
  exact ⟨_, rfl, by simp [hx]⟩

theorem forall₂_append_left {β γ : Type} (R : β → γ → Prop) (l₁ l₂ : List β) (r : List γ)
    (h : List.Forall₂ R (l₁ ++ l₂) r) :
    ∃ r₁ r₂, List.Forall₂ R l₁ r₁ ∧ List.Forall₂ R l₂ r₂ ∧ r = r₁ ++ r₂ := by
  induction l₁ generalizing r with
  | nil => exact ⟨[], r, List.Forall₂.nil, h, rfl⟩
  | cons a l₁ ih =>
    cases h with
    | cons h1 h2 =>
      obtain ⟨r₁, r₂, h3, h4, rfl⟩ := ih _ h2
      exact ⟨_ :: r₁, r₂, List.Forall₂.cons h1 h3, h4, rfl⟩

/-- Flattening tensors of the right shapes and concatenating them; the parts of the result. -/
theorem take_cat (P : Prod) (hP : Laid P) (B : List ℕ) (m : Part → T)
    (hm : ∀ p ∈ P.parts, (m p).shape = B ++ p.shape) (fs : List T)
    (hfs : List.Forall₂ (fun p f => f.shape = B ++ [p.shape.prod] ∧ f.data = (m p).data) P.parts fs) :
    ∃ t, catLast fs = .ok t ∧ t.shape = B ++ [P.nElements] ∧
      ∀ p ∈ P.parts, takePart p t = .ok (m p) := by
  have hB : ∀ s ∈ fs, ∃ n, s.shape = B ++ [n] := by
    intro s hs
    obtain ⟨i, hi, e⟩ := List.mem_iff_getElem.1 hs
    have := List.forall₂_iff_get.1 hfs
    have h2 := this.2 i (by rw [this.1]; exact hi) hi
    simp only [List.get_eq_getElem, e] at h2
    exact ⟨_, h2.1⟩
  have hlast : ∀ (ps : List Part) (fs : List T),
      List.Forall₂ (fun p f => f.shape = B ++ [p.shape.prod] ∧ f.data = (m p).data) ps fs →
      (fs.map Tensor.last).sum = total ps := by
    intro ps fs h
    induction h with
    | nil => rfl
    | cons h _ ih =>
      simp only [List.map_cons, List.sum_cons, total] at ih ⊢
      rw [ih, Tensor.last_append _ _ _ h.1]
  have hne : fs ≠ [] := by
    rintro rfl
    cases h : P.parts with
    | nil => exact hP.ne h
    | cons p ps => rw [h] at hfs; cases hfs
  obtain ⟨t, ht, hshape, -⟩ := catLast_eq fs B hne hB
  refine ⟨t, ht, ?_, ?_⟩
  · rw [hshape, hlast _ _ hfs, hP.size]
  · intro p hp
    obtain ⟨pre, post, e⟩ := List.append_of_mem hp
    have hc := hP.consec
    rw [e, consec_append] at hc
    obtain ⟨-, h1, h2, -⟩ := hc
    rw [e] at hfs
    obtain ⟨fpre, fpost, hf1, hf2, rfl⟩ := forall₂_append_left _ _ _ _ hfs
    cases hf2 with
    | @cons _ f _ post' hf hpost =>
    have hn := narrow_cat fpre post' f t B hB ht
    rw [hlast _ _ hf1, Tensor.last_append _ _ _ hf.1] at hn
    unfold takePart
    rw [show p.stop - p.start = p.shape.prod by omega, show p.start = total pre by omega, hn]
    simp only [bind, Except.bind, reshape]
    rw [dif_pos (by simp [hf.1, List.prod_append])]
    congr 1
    apply Tensor.ext
    · simp [hf.1, hm p hp]
    · exact hf.2

theorem reshapeInfer_ok (t : T) (B s : List ℕ) (h : t.shape = B ++ s) (hB : B.prod ≠ 0) :
    ∃ f, reshapeInfer t B = .ok f ∧ f.shape = B ++ [s.prod] ∧ f.data = t.data := by
  unfold reshapeInfer
  rw [dif_pos ⟨hB, by rw [h, List.prod_append, Nat.mul_mod_right]⟩]
  refine ⟨_, rfl, ?_, rfl⟩
  simp only [h, List.prod_append]
  rw [Nat.mul_div_cancel_left _ (Nat.pos_of_ne_zero hB)]

theorem reshapeInfer_empty (t : T) (B : List ℕ) (hB : B.prod = 0) :
    reshapeInfer t B = .error .runtimeError := by
  unfold reshapeInfer
  rw [dif_neg (by simp [hB])]

theorem sliceTo_append (B s : List ℕ) (k : ℤ) (h : k = B.length) : sliceTo (B ++ s) k = B := by
  subst h
  simp [sliceTo]

/-- The shared shape of all componentwise operations. -/
theorem componentwise (P : Prod) (hP : Laid P) (B : List ℕ) (hB : B.prod ≠ 0)
    (g : Part → Except PyErr T) (fl : T → Except PyErr T) (m : Part → T)
    (hg : ∀ p ∈ P.parts, g p = .ok (m p)) (hm : ∀ p ∈ P.parts, (m p).shape = B ++ p.shape)
    (hfl : ∀ p ∈ P.parts, fl (m p) = reshapeInfer (m p) B) :
    ∃ t, (P.parts.mapM (fun p => (g p).bind fl)).bind catLast = .ok t ∧
      t.shape = B ++ [P.nElements] ∧ ∀ p ∈ P.parts, takePart p t = g p := by
  have key : ∀ p ∈ P.parts, ∃ f, (g p).bind fl = .ok f ∧ f.shape = B ++ [p.shape.prod] ∧
      f.data = (m p).data := by
    intro p hp
    obtain ⟨f, e, h1, h2⟩ := reshapeInfer_ok (m p) B p.shape (hm p hp) hB
    exact ⟨f, by rw [hg p hp]; simp only [Except.bind]; rw [hfl p hp, e], h1, h2⟩
  have hex : ∃ fs, P.parts.mapM (fun p => (g p).bind fl) = .ok fs ∧
      List.Forall₂ (fun p f => f.shape = B ++ [p.shape.prod] ∧ f.data = (m p).data) P.parts fs := by
    clear hg hm hfl hP
    revert key
    generalize P.parts = ps
    intro key
    induction ps with
    | nil => exact ⟨[], rfl, List.Forall₂.nil⟩
    | cons p ps ih =>
      obtain ⟨f, e, h⟩ := key p (by simp)
      obtain ⟨fs, e2, h2⟩ := ih (fun q hq => key q (by simp [hq]))
      refine ⟨f :: fs, ?_, List.Forall₂.cons h h2⟩
      rw [List.mapM_cons, e, e2]
      rfl
  obtain ⟨fs, e, hfs⟩ := hex
  obtain ⟨t, ht, hs, htake⟩ := take_cat P hP B m hm fs hfs
  refine ⟨t, by rw [e]; exact ht, hs, fun p hp => ?_⟩
  rw [htake p hp, hg p hp]

end Geoopt.Product

namespace Geoopt.Product

open Buf

/-- Consecutive slices of a list put together. -/
theorem slices_cover {α : Type} (l : List α) (pos : ℕ) (ps : List Part) (h : Consec pos ps) :
    (ps.flatMap fun p => (l.drop p.start).take (p.stop - p.start)) =
      (l.drop pos).take (total ps) := by
  induction ps generalizing pos with
  | nil => simp [total]
  | cons p ps ih =>
    obtain ⟨h1, h2, h3⟩ := h
    rw [List.flatMap_cons, ih _ h3, h2, h1, Nat.add_sub_cancel_left]
    simp only [total, List.map_cons, List.sum_cons]
    rw [List.take_add, List.drop_drop]

/-- A tensor is determined by its parts. -/
theorem ext_parts (P : Prod) (hP : Laid P) (B : List ℕ) (x y : T)
    (hx : x.shape = B ++ [P.nElements]) (hy : y.shape = B ++ [P.nElements])
    (h : ∀ p ∈ P.parts, takePart p x = takePart p y) : x = y := by
  have key : ∀ p ∈ P.parts, ∀ i < B.prod,
      ((row P.nElements i x.data).drop p.start).take (p.stop - p.start) =
      ((row P.nElements i y.data).drop p.start).take (p.stop - p.start) := by
    intro p hp i hi
    obtain ⟨pre, post, e⟩ := List.append_of_mem hp
    have hc := hP.consec
    rw [e, consec_append] at hc
    obtain ⟨-, h1, h2, -⟩ := hc
    have hsz : P.nElements = total pre + p.shape.prod + total post := by
      rw [hP.size, e]; simp [total, List.sum_append]; ring
    have hpx : ∀ z : T, z.shape = B ++ [P.nElements] → ∃ a, takePart p z = .ok a ∧
        a.data = (List.range B.prod).flatMap fun i =>
          ((row P.nElements i z.data).drop p.start).take (p.stop - p.start) := by
      intro z hz
      unfold takePart narrowLast
      rw [dif_pos ⟨by rw [hz]; simp, by rw [z.last_append _ _ hz]; omega⟩]
      simp only [bind, Except.bind, reshape]
      rw [dif_pos (by simp [hz, List.prod_append]; left; omega)]
      refine ⟨_, rfl, ?_⟩
      simp only [z.last_append _ _ hz, z.nrows_append _ _ hz]
    obtain ⟨a, ea, ha⟩ := hpx x hx
    obtain ⟨b, eb, hb⟩ := hpx y hy
    have hab := h p hp
    rw [ea, eb] at hab
    obtain rfl : a = b := Except.ok.inj hab
    rw [ha] at hb
    have hlen : ∀ z : T, z.shape = B ++ [P.nElements] → ∀ j < B.prod,
        (((row P.nElements j z.data).drop p.start).take (p.stop - p.start)).length
          = p.stop - p.start := by
      intro z hz j hj
      rw [List.length_take, List.length_drop, length_row' z B _ hz j hj]
      omega
    have e1 := row_flatMap _ B.prod
      (fun i => ((row P.nElements i x.data).drop p.start).take (p.stop - p.start)) (hlen x hx) i hi
    have e2 := row_flatMap _ B.prod
      (fun i => ((row P.nElements i y.data).drop p.start).take (p.stop - p.start)) (hlen y hy) i hi
    rw [← e1, ← e2, hb]
  apply Tensor.ext
  · rw [hx, hy]
  · rw [← x.rows_data B _ hx, ← y.rows_data B _ hy]
    apply flatMap_congr'
    intro i hi
    have hi := List.mem_range.1 hi
    have ex := slices_cover (row P.nElements i x.data) 0 P.parts hP.consec
    have ey := slices_cover (row P.nElements i y.data) 0 P.parts hP.consec
    rw [List.drop_zero, ← hP.size, List.take_of_length_le (by rw [length_row' x B _ hx i hi])] at ex
    rw [List.drop_zero, ← hP.size, List.take_of_length_le (by rw [length_row' y B _ hy i hi])] at ey
    rw [← ex, ← ey]
    exact flatMap_congr' _ _ _ fun p hp => key p hp i hi

theorem flattenPart_ok (p : Part) (t : T) (B : List ℕ) (h : t.shape = B ++ p.shape) :
    flattenPart p t = reshapeInfer t B := by
  unfold flattenPart
  split_ifs with h1 h2
  · exfalso; apply h2; rw [h]; simp
  · rw [h]; simp
  · have : p.shape = [] := by simpa using h1
    rw [h, this, List.append_nil]

/-- Packing parts of the right shapes. -/
theorem pack_ok (P : Prod) (hP : Laid P) (B : List ℕ) (hB : B.prod ≠ 0) (ts : List T)
    (hts : List.Forall₂ (fun p t => t.shape = B ++ p.shape) P.parts ts) :
    ∃ t, pack P ts = .ok t ∧ t.shape = B ++ [P.nElements] ∧
      List.Forall₂ (fun p s => takePart p t = .ok s) P.parts ts := by
  have hlen := hts.length_eq
  -- flatten
  have hex : ∀ (ps : List Part) (ts : List T),
      List.Forall₂ (fun p t => t.shape = B ++ p.shape) ps ts →
      ∃ fs, (ps.zip ts).mapM (fun (p, t) => flattenPart p t) = .ok fs ∧
        List.Forall₂ (fun (p : Part) f => f.shape = B ++ [p.shape.prod]) ps fs ∧
        List.Forall₂ (fun (t f : T) => f.data = t.data) ts fs := by
    intro ps ts h
    induction h with
    | nil => exact ⟨[], rfl, .nil, .nil⟩
    | @cons p t ps ts h _ ih =>
      obtain ⟨fs, e, h1, h2⟩ := ih
      obtain ⟨f, ef, hf1, hf2⟩ := reshapeInfer_ok t B p.shape h hB
      refine ⟨f :: fs, ?_, .cons hf1 h1, .cons hf2 h2⟩
      rw [List.zip_cons_cons, List.mapM_cons]
      simp only [flattenPart_ok p t B h, ef]
      rw [e]
      rfl
  obtain ⟨fs, e, h1, h2⟩ := hex _ _ hts
  -- the general layout lemma, with positions instead of a function of the part
  have hBs : ∀ s ∈ fs, ∃ n, s.shape = B ++ [n] := by
    intro s hs
    obtain ⟨i, hi, e⟩ := List.mem_iff_getElem.1 hs
    have := List.forall₂_iff_get.1 h1
    have h2 := this.2 i (by rw [this.1]; exact hi) hi
    simp only [List.get_eq_getElem, e] at h2
    exact ⟨_, h2⟩
  have hlast : ∀ (ps : List Part) (fs : List T),
      List.Forall₂ (fun (p : Part) f => f.shape = B ++ [p.shape.prod]) ps fs →
      (fs.map Tensor.last).sum = total ps := by
    intro ps fs h
    induction h with
    | nil => rfl
    | cons h _ ih =>
      simp only [List.map_cons, List.sum_cons, total] at ih ⊢
      rw [ih, Tensor.last_append _ _ _ h]
  have hne : fs ≠ [] := by
    rintro rfl
    cases h : P.parts with
    | nil => exact hP.ne h
    | cons p ps => rw [h] at h1; cases h1
  obtain ⟨t, ht, hshape, -⟩ := catLast_eq fs B hne hBs
  refine ⟨t, ?_, ?_, ?_⟩
  · unfold pack
    simp only [bind, Except.bind, hlen, ne_eq, not_true_eq_false, if_false, pure, Except.pure, e]
    exact ht
  · rw [hshape, hlast _ _ h1, hP.size]
  · rw [List.forall₂_iff_get]
    refine ⟨hlen, fun i hi hi' => ?_⟩
    simp only [List.get_eq_getElem]
    have hl1 := h1.length_eq
    have hif : i < fs.length := by omega
    have s1 : P.parts = P.parts.take i ++ P.parts[i] :: P.parts.drop (i + 1) := by
      rw [List.cons_getElem_drop_succ, List.take_append_drop]
    have s2 : fs = fs.take i ++ fs[i] :: fs.drop (i + 1) := by
      rw [List.cons_getElem_drop_succ, List.take_append_drop]
    have hc := hP.consec
    rw [s1, consec_append] at hc
    obtain ⟨-, c1, c2, -⟩ := hc
    have ht' := ht
    have hBs' := hBs
    rw [s2] at ht' hBs'
    have hn := narrow_cat (fs.take i) (fs.drop (i + 1)) fs[i] t B hBs' ht'
    have htk : List.Forall₂ (fun (p : Part) f => f.shape = B ++ [p.shape.prod])
        (P.parts.take i) (fs.take i) := List.forall₂_take i h1
    have hfi : fs[i].shape = B ++ [P.parts[i].shape.prod] := by
      have := (List.forall₂_iff_get.1 h1).2 i hi hif
      simpa using this
    have hdi : fs[i].data = ts[i].data := by
      have := (List.forall₂_iff_get.1 h2).2 i hi' hif
      simpa using this
    have hti : ts[i].shape = B ++ P.parts[i].shape := by
      have := (List.forall₂_iff_get.1 hts).2 i hi hi'
      simpa using this
    rw [hlast _ _ htk, Tensor.last_append _ _ _ hfi] at hn
    unfold takePart
    rw [show P.parts[i].stop - P.parts[i].start = P.parts[i].shape.prod by omega,
      show P.parts[i].start = total (P.parts.take i) by omega, hn]
    simp only [bind, Except.bind, reshape]
    rw [dif_pos (by simp [hfi, List.prod_append])]
    congr 1
    apply Tensor.ext
    · simp [hfi, hti]
    · exact hdi

/-! ### Sums -/

theorem getD_zipWith_add (a b : List ℝ) (h : a.length = b.length) (i : ℕ) :
    (List.zipWith (· + ·) a b).getD i 0 = a.getD i 0 + b.getD i 0 := by
  by_cases hi : i < a.length
  · have hj : i < b.length := by omega
    simp [List.getD_eq_getElem?_getD, List.getElem?_zipWith, List.getElem?_eq_getElem hi,
      List.getElem?_eq_getElem hj]
  · have hj : ¬ i < b.length := by omega
    simp [List.getD_eq_getElem?_getD, List.getElem?_zipWith,
      List.getElem?_eq_none (not_lt.1 hi), List.getElem?_eq_none (not_lt.1 hj)]

theorem foldlM_add (ts : List T) (t : T) (B : List ℕ) (ht : t.shape = B)
    (hts : ∀ s ∈ ts, s.shape = B) :
    ∃ r, ts.foldlM add t = .ok r ∧ r.shape = B ∧
      ∀ i, r.data.getD i 0 = t.data.getD i 0 + (ts.map fun s => s.data.getD i 0).sum := by
  induction ts generalizing t with
  | nil => exact ⟨t, rfl, ht, fun i => by simp⟩
  | cons s ts ih =>
    have hs := hts s (by simp)
    have hadd : ∃ q, add t s = .ok q ∧ q.shape = B ∧
        q.data = List.zipWith (· + ·) t.data s.data := by
      unfold add
      rw [dif_pos (ht.trans hs.symm)]
      exact ⟨_, rfl, ht, rfl⟩
    obtain ⟨q, hq1, hq2, hq3⟩ := hadd
    rw [List.foldlM_cons, hq1]
    obtain ⟨r, h1, h2, h3⟩ := ih q hq2 (fun q hq => hts q (by simp [hq]))
    refine ⟨r, h1, h2, fun i => ?_⟩
    rw [h3 i, hq3]
    simp only [List.map_cons, List.sum_cons]
    rw [getD_zipWith_add _ _ (by rw [t.wf, s.wf, ht, hs])]
    ring

theorem pySum_ok (ts : List T) (hne : ts ≠ []) (B : List ℕ) (hts : ∀ s ∈ ts, s.shape = B) :
    ∃ r, pySum ts = .ok r ∧ r.shape = B ∧
      ∀ i, r.data.getD i 0 = (ts.map fun s => s.data.getD i 0).sum := by
  cases ts with
  | nil => exact absurd rfl hne
  | cons t ts =>
    obtain ⟨r, h1, h2, h3⟩ := foldlM_add ts t B (hts t (by simp)) (fun s hs => hts s (by simp [hs]))
    exact ⟨r, h1, h2, fun i => by rw [h3 i]; simp⟩

theorem flatten_sum_ok (m : T) (B s : List ℕ) (hm : m.shape = B ++ s) (hB : B.prod ≠ 0) :
    ∃ r, (reshapeInfer m B).bind sumLast = .ok r ∧ r.shape = B ∧
      ∀ i < B.prod, r.data.getD i 0 = (row s.prod i m.data).sum := by
  obtain ⟨f, e, h1, h2⟩ := reshapeInfer_ok m B s hm hB
  rw [e]
  simp only [Except.bind, sumLast]
  rw [if_pos (by rw [h1]; simp)]
  refine ⟨_, rfl, by simp [h1], fun i hi => ?_⟩
  simp only [f.nrows_append _ _ h1, f.last_append _ _ h1]
  rw [List.getD_eq_getElem?_getD, List.getElem?_map, List.getElem?_range hi, h2]
  rfl

end Geoopt.Product
