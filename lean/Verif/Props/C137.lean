import Verif.Model.OptimManifolds
import Verif.Model.OptimBirkhoff
import Verif.Props.C33
import Verif.Lemmas.OptimNoerr
import Verif.Spec.Training
import Mathlib.Data.List.Sigma
import Mathlib.Data.List.ProdSigma

/-!
# C137: training a stack of points is training the points

One `ManifoldParameter` that holds a stack of points (an embedding table) against one parameter for each point, in
the same group.  The loss, hence the gradients, may depend on all parameters.
-/

namespace Geoopt.C137

open Geoopt.Optim

section Parts
variable {J ι : Type}

/-- The element `j` of a stack: `x[j]`. -/
def part (x : J × ι → ℝ) (j : J) : ι → ℝ := fun i => x (j, i)

/-- The `.grad` of one element. -/
def partGrad : Grad (J × ι) → (j : J) → Grad (ι)
  | .none, _ => .none
  | .dense g, j => .dense (part g j)
  | .sparse, _ => .sparse

/-- A manifold whose operations act on the elements of a stack one by one. -/
structure Splits (M : Manifold (J × ι)) (Ms : ∀ j, Manifold (ι)) : Prop where
  value : ∀ x g j, part (M.egrad2rgrad x g).value j = ((Ms j).egrad2rgrad (part x j) (part g j)).value
  arg : ∀ x g j, part (M.egrad2rgrad x g).arg j = ((Ms j).egrad2rgrad (part x j) (part g j)).arg
  retr : ∀ x u j, part (M.retr x u) j = (Ms j).retr (part x j) (part u j)
  point : ∀ x u v j, part (M.retrTransp x u v).1 j = ((Ms j).retrTransp (part x j) (part u j) (part v j)).1
  vector : ∀ x u v j, part (M.retrTransp x u v).2 j = ((Ms j).retrTransp (part x j) (part u j) (part v j)).2
  projx : ∀ x j, part (M.projx x) j = (Ms j).projx (part x j)
  proju : ∀ x u j, part (M.proju x u) j = (Ms j).proju (part x j) (part u j)
  comp : ∀ x u j, part (M.componentInner x u) j = (Ms j).componentInner (part x j) (part u j)

theorem splits_batch (N : Manifold ι) :
    Splits (batch J N) fun _ => N := by
  constructor <;> intros <;> rfl

theorem splits_euclidean : Splits (euclidean (J × ι)) fun j => euclidean (ι) := by
  constructor <;> intros <;> rfl

theorem splits_manifold {M : Manifold (J × ι)} {Ms : ∀ j, Manifold (ι)}
    (h : Splits M Ms) (b : Bool) : Splits (if b then M else euclidean _)
      fun j => if b then Ms j else euclidean _ := by
  cases b
  · exact splits_euclidean
  · exact h

variable {M : Manifold (J × ι)} {Ms : ∀ j, Manifold (ι)}

theorem sgdParam_part (hS : Splits M Ms) (h : SGDHyper) (s : SGDParam (J × ι))
    (hs : s.grad ≠ .sparse) (j : J) (s' : SGDParam (ι)) (hp : s'.point = part s.point j)
    (hg : s'.grad = partGrad s.grad j) (hb : s'.buf = s.buf.map (part · j)) :
    (sgdParam M h s).2.2 = none ∧ (sgdParam (Ms j) h s').2.2 = none ∧
    (sgdParam (Ms j) h s').1.point = part (sgdParam M h s).1.point j ∧
    (sgdParam (Ms j) h s').1.buf = (sgdParam M h s).1.buf.map (part · j) := by
  obtain ⟨x, g, b⟩ := s
  obtain ⟨x', g', b'⟩ := s'
  simp only at hp hg hb hs
  subst hp hg hb
  cases g with
  | none => simp [sgdParam, partGrad]
  | sparse => exact absurd rfl hs
  | dense g =>
    have hv : ((Ms j).egrad2rgrad (part x j) (part g j + h.weightDecay • part x j)).value =
        part (M.egrad2rgrad x (g + h.weightDecay • x)).value j := (hS.value x (g + h.weightDecay • x) j).symm
    by_cases hm : 0 < h.momentum
    · cases b with
      | none =>
        cases hnv : h.nesterov
        · simp only [sgdParam, partGrad, hm, if_true, hnv, Option.map, hv]
          exact ⟨trivial, trivial, by rw [hS.point]; rfl, by rw [hS.vector]; rfl⟩
        · simp only [sgdParam, partGrad, hm, if_true, hnv, Option.map, hv]
          exact ⟨trivial, trivial, by rw [hS.point]; rfl, by rw [hS.vector]; rfl⟩
      | some b =>
        cases hnv : h.nesterov
        · simp only [sgdParam, partGrad, hm, if_true, hnv, Option.map, hv]
          exact ⟨trivial, trivial, by rw [hS.point]; rfl, by rw [hS.vector]; rfl⟩
        · simp only [sgdParam, partGrad, hm, if_true, hnv, Option.map, hv]
          exact ⟨trivial, trivial, by rw [hS.point]; rfl, by rw [hS.vector]; rfl⟩
    · cases b with
      | none =>
        simp only [sgdParam, partGrad, hm, if_false, Option.map, hv]
        exact ⟨trivial, trivial, by rw [hS.retr]; rfl, trivial⟩
      | some b =>
        simp only [sgdParam, partGrad, hm, if_false, Option.map, hv]
        exact ⟨trivial, trivial, by rw [hS.retr]; rfl, trivial⟩

theorem sgdStab_part (hS : Splits M Ms) (b : Bool) (h : SGDHyper) (s : SGDParam (J × ι))
    (j : J) (s' : SGDParam (ι)) (hp : s'.point = part s.point j)
    (hb : s'.buf = s.buf.map (part · j)) :
    (sgdStab b (Ms j) h s').point = part (sgdStab b M h s).point j ∧
    (sgdStab b (Ms j) h s').buf = (sgdStab b M h s).buf.map (part · j) := by
  cases b
  · exact ⟨hp, hb⟩
  · by_cases hm : 0 < h.momentum
    · simp only [sgdStab, hm, if_true, hp, hb, Bool.true_eq_false, if_false]
      refine ⟨(hS.projx _ _).symm, ?_⟩
      cases s.buf with
      | none => rfl
      | some b => simp only [Option.map]; rw [hS.proju, hS.projx]
    · simp only [sgdStab, hm, if_false, hp, hb, Bool.true_eq_false]
      exact ⟨(hS.projx _ _).symm, trivial⟩

/-- The state of Adam for one element. -/
def partState (st : AdamState (J × ι)) (j : J) : AdamState (ι) :=
  ⟨st.step, part st.expAvg j, part st.expAvgSq j, st.maxExpAvgSq.map (part · j)⟩

/-- With `amsgrad`, a state that exists has its maximum. -/
def AmsOk {K : Type} (h : AdamHyper) (s : AdamParam K) : Prop :=
  h.amsgrad = true → ∀ st, s.state = some st → st.maxExpAvgSq ≠ none

theorem adamParam_part (hS : Splits M Ms) (h : AdamHyper) (hk : h.stabilize ≠ some 0)
    (s : AdamParam (J × ι))
    (hs : s.grad ≠ .sparse) (hams : AmsOk h s) (j : J) (s' : AdamParam (ι))
    (hp : s'.point = part s.point j) (hg : s'.grad = partGrad s.grad j)
    (hb : s'.state = s.state.map (partState · j)) :
    (adamParam M h s).2.2 = none ∧ (adamParam (Ms j) h s').2 = (adamParam M h s).2 ∧
    AmsOk h (adamParam M h s).1 ∧
    (adamParam (Ms j) h s').1.point = part (adamParam M h s).1.point j ∧
    (adamParam (Ms j) h s').1.state = (adamParam M h s).1.state.map (partState · j) := by
  obtain ⟨x, g, st⟩ := s
  obtain ⟨x', g', st'⟩ := s'
  simp only at hp hg hb hs
  subst hp hg hb
  have hflag : ∀ t, (adamFlag h.stabilize t).2 = none := by
    intro t
    unfold adamFlag isMultiple
    rcases hst : h.stabilize with _ | k
    · rfl
    · have : k ≠ 0 := fun h0 => hk (by rw [hst, h0])
      simp [this]
  cases g with
  | none => simpa [adamParam, partGrad] using hams
  | sparse => exact absurd rfl hs
  | dense g =>
    have hv : ((Ms j).egrad2rgrad (part x j) (part g j + h.weightDecay • part x j)).value =
        part (M.egrad2rgrad x (g + h.weightDecay • x)).value j := (hS.value x (g + h.weightDecay • x) j).symm
    have hst : adamInit h.amsgrad (st.map (partState · j)) = partState (adamInit h.amsgrad st) j := by
      cases st with
      | some st => rfl
      | none => cases h.amsgrad <;> rfl
    cases ham : h.amsgrad with
    | false =>
      rw [ham] at hst
      simp only [adamParam, partGrad, ham, hst]
      refine ⟨hflag _, rfl, ?_, ?_, ?_⟩
      · intro h1; rw [ham] at h1; cases h1
      · rw [hS.point, hv, ← hS.comp]; rfl
      · rw [hv, ← hS.comp]
        simp only [Option.map, partState, Option.some.injEq, AdamState.mk.injEq]
        refine ⟨trivial, ?_, rfl, trivial⟩
        rw [hS.vector]; rfl
    | true =>
      obtain ⟨vm, hvm⟩ : ∃ vm, (adamInit h.amsgrad st).maxExpAvgSq = some vm := by
        cases st with
        | none => rw [ham]; exact ⟨0, rfl⟩
        | some st =>
          have := hams ham st rfl
          exact Option.ne_none_iff_exists'.1 this
      rw [ham] at hst hvm
      have hvm' : (partState (adamInit true st) j).maxExpAvgSq = some (part vm j) := by
        simp [partState, hvm]
      simp only [adamParam, partGrad, ham, hst, hvm, hvm']
      refine ⟨hflag _, rfl, ?_, ?_, ?_⟩
      · intro _ st' hst'
        simp only [Option.some.injEq] at hst'
        subst hst'
        simp
      · rw [hS.point, hv, ← hS.comp]; rfl
      · rw [hv, ← hS.comp]
        simp only [Option.map, partState, Option.some.injEq, AdamState.mk.injEq]
        refine ⟨trivial, ?_, rfl, rfl⟩
        rw [hS.vector]; rfl

theorem adamStab_part (hS : Splits M Ms) (b : Bool) (s : AdamParam (J × ι))
    (j : J) (s' : AdamParam (ι)) (hp : s'.point = part s.point j)
    (hb : s'.state = s.state.map (partState · j)) :
    (adamStab b (Ms j) s').point = part (adamStab b M s).point j ∧
    (adamStab b (Ms j) s').state = (adamStab b M s).state.map (partState · j) := by
  cases b
  · exact ⟨hp, hb⟩
  · obtain ⟨x, g, st⟩ := s
    obtain ⟨x', g', st'⟩ := s'
    simp only at hp hb
    subst hp hb
    cases st with
    | none => exact ⟨rfl, rfl⟩
    | some st =>
      simp only [adamStab, Option.map]
      refine ⟨(hS.projx _ _).symm, ?_⟩
      simp only [Bool.true_eq_false, if_false, Option.some.injEq, partState, AdamState.mk.injEq]
      exact ⟨trivial, by rw [hS.proju, hS.projx], trivial, trivial⟩

theorem adamStab_ams {K : Type} (b : Bool) (N : Manifold K) (h : AdamHyper) (s : AdamParam K)
    (hs : AmsOk h s) : AmsOk h (adamStab b N s) := by
  cases b
  · exact hs
  · obtain ⟨x, g, st⟩ := s
    cases st with
    | none => exact hs
    | some st =>
      intro ha st' hst'
      simp only [adamStab, Bool.true_eq_false, if_false, Option.some.injEq] at hst'
      subst hst'
      exact hs ha st rfl

end Parts

section Train
variable {κ : Type} [DecidableEq κ] {J : κ → Type} [∀ a, DecidableEq (J a)]
  {ι : κ → Type}

/-- The index set of parameter `a`: a stack `J a` of points. -/
abbrev Whole (J ι : κ → Type) (a : κ) : Type := J a × ι a

/-- The index set of one point of the stack. -/
abbrev Piece (J ι : κ → Type) (p : Σ a, J a) : Type := ι p.1

/-- Parameters that are stacks: `a` holds points of `Ms a`, or is a plain parameter if `isM a` is `false`. -/
def whole (J : κ → Type) (isM : κ → Bool) (Ms : ∀ a, Manifold (ι a)) : Params κ (Whole J ι) :=
  ⟨isM, fun a => batch (J a) (Ms a)⟩

/-- The points of the stacks as separate parameters. -/
def pieces (J : κ → Type) (isM : κ → Bool) (Ms : ∀ a, Manifold (ι a)) :
    Params (Σ a, J a) (Piece J ι) :=
  ⟨fun p => isM p.1, fun p => Ms p.1⟩

variable (comps : ∀ a, List (J a))

/-- The same group with every stack replaced by its points. -/
def splitGroup (G : Group SGDHyper κ) : Group SGDHyper (Σ a, J a) :=
  ⟨G.hyper, G.step, G.params.sigma comps⟩

/-- The two optimisers correspond: the same groups and step counters, the same points and momentum. -/
structure SameSGD (o : SGD κ (Whole J ι)) (o' : SGD (Σ a, J a) (Piece J ι)) : Prop where
  groups : o'.groups = o.groups.map (splitGroup comps)
  point : ∀ a j, (o'.par ⟨a, j⟩).point = part (o.par a).point j
  buf : ∀ a j, (o'.par ⟨a, j⟩).buf = (o.par a).buf.map (part · j)

/-- The gradients as a function of the round and of all parameters. -/
abbrev Loss (J ι : κ → Type) : Type :=
  ℕ → (∀ a, Whole J ι a → ℝ) → ∀ a, Grad (Whole J ι a)

/-- `loss.backward()` for the stacks. -/
def feedSGD (L : Loss J ι) (n : ℕ) (o : SGD κ (Whole J ι)) : SGD κ (Whole J ι) :=
  { o with par := fun a => { o.par a with grad := L n (fun a => (o.par a).point) a } }

/-- `loss.backward()` for the separate points: the loss is computed from `torch.stack` of them. -/
def feedSGD' (L : Loss J ι) (n : ℕ) (o : SGD (Σ a, J a) (Piece J ι)) : SGD (Σ a, J a) (Piece J ι) :=
  { o with par := fun p => { o.par p with
      grad := partGrad (L n (fun a q => (o.par ⟨a, q.1⟩).point q.2) p.1) p.2 } }

omit [DecidableEq κ] [∀ a, DecidableEq (J a)] in
theorem flatMap_sigma {γ : Type} (l : List γ) (f : γ → List κ) :
    (l.flatMap fun c => (f c).sigma comps) = (l.flatMap f).sigma comps := by
  induction l with
  | nil => rfl
  | cons c l ih =>
    simp only [List.flatMap_cons, List.sigma, List.flatMap_append] at ih ⊢
    rw [ih]

theorem sgd_step (hnd : ∀ a, (comps a).Nodup) (isM : κ → Bool)
    (Ms : ∀ a, Manifold (ι a)) (L : Loss J ι) (hL : ∀ n x a, L n x a ≠ .sparse) (n : ℕ)
    (o : SGD κ (Whole J ι)) (o' : SGD (Σ a, J a) (Piece J ι)) (h : SameSGD comps o o')
    (hall : ∀ a j, j ∈ comps a)
    (hn : (o.groups.flatMap Group.params).Nodup)
    (hs : ∀ G ∈ o.groups, G.hyper.stabilize ≠ some 0) :
    (sgdStep (whole J isM Ms) (feedSGD L n o)).2 = none ∧
    (sgdStep (pieces J isM Ms) (feedSGD' L n o')).2 = none ∧
    SameSGD comps (sgdStep (whole J isM Ms) (feedSGD L n o)).1
      (sgdStep (pieces J isM Ms) (feedSGD' L n o')).1 ∧
    (sgdStep (whole J isM Ms) (feedSGD L n o)).1.groups =
      o.groups.map (fun G => { G with step := G.step + 1 }) := by
  set w := feedSGD L n o with hw
  set w' := feedSGD' L n o' with hw'
  have hx : (fun a q => (o'.par ⟨a, q.1⟩).point q.2) = fun a => (o.par a).point := by
    funext a q
    rw [h.point]; rfl
  have hS : ∀ a, Splits ((whole J isM Ms).manifold a) fun j => (pieces J isM Ms).manifold ⟨a, j⟩ :=
    fun a => splits_manifold (splits_batch _) _
  have hS' : ∀ a, Splits ((whole J isM Ms).man a) fun j => (pieces J isM Ms).man ⟨a, j⟩ :=
    fun a => splits_batch _
  have hgr : ∀ a j, (w'.par ⟨a, j⟩).grad = partGrad (w.par a).grad j := by
    intro a j
    simp only [hw, hw', feedSGD, feedSGD', hx]
  have hpar : ∀ (h0 : SGDHyper) a j, _ := fun h0 a j =>
    sgdParam_part (hS a) h0 (w.par a) (hL _ _ _) j (w'.par ⟨a, j⟩) (h.point a j) (hgr a j) (h.buf a j)
  have hn' : (w'.groups.flatMap Group.params).Nodup := by
    have e : w'.groups.flatMap Group.params = (o.groups.flatMap Group.params).sigma comps := by
      rw [show w'.groups = o.groups.map (splitGroup comps) from h.groups, List.flatMap_map]
      exact flatMap_sigma comps o.groups Group.params
    rw [e]
    exact hn.sigma hnd
  have hmem : ∀ G' ∈ w'.groups, ∃ G ∈ o.groups, G' = splitGroup comps G := by
    intro G' hG'
    rw [show w'.groups = o.groups.map (splitGroup comps) from h.groups] at hG'
    obtain ⟨G, hG, rfl⟩ := List.mem_map.1 hG'
    exact ⟨G, hG, rfl⟩
  have e1 : (sgdStep (whole J isM Ms) w).2 = none := by
    refine Optim.sgdStep_noerr _ w hn hs fun G hG a ha => ?_
    have : (w.par a).grad ≠ .sparse := hL _ _ _
    unfold sgdParam
    cases hg : (w.par a).grad with
    | none => rfl
    | sparse => exact absurd hg this
    | dense g =>
      by_cases hm : 0 < G.hyper.momentum
      · cases (w.par a).buf <;> simp [hm]
      · simp [hm]
  have e2 : (sgdStep (pieces J isM Ms) w').2 = none := by
    refine Optim.sgdStep_noerr _ w' hn' ?_ ?_
    · intro G' hG'
      obtain ⟨G, hG, rfl⟩ := hmem G' hG'
      exact hs G hG
    · rintro G' hG' ⟨a, j⟩ ha
      exact (hpar _ a j).2.1
  obtain ⟨g1, p1⟩ := sgdStep_ok _ w hn e1
  obtain ⟨g2, p2⟩ := sgdStep_ok _ w' hn' e2
  refine ⟨e1, e2, ⟨?_, ?_, ?_⟩, g1⟩
  · rw [g1, g2, show w'.groups = o.groups.map (splitGroup comps) from h.groups, List.map_map,
      show w.groups = o.groups from rfl, List.map_map]
    rfl
  all_goals
    intro a j
    by_cases ha : ∃ G ∈ o.groups, a ∈ G.params
    · obtain ⟨G, hG, ha⟩ := ha
      have q1 := (p1 G hG a ha).2
      have q2 := (p2 (splitGroup comps G) (by
        rw [show w'.groups = o.groups.map (splitGroup comps) from h.groups]
        exact List.mem_map_of_mem hG) ⟨a, j⟩ (List.mem_sigma.2 ⟨ha, hall a j⟩)).2
      rw [q1, q2]
      obtain ⟨-, -, r1, r2⟩ := hpar G.hyper a j
      by_cases hd : due G.hyper.stabilize (G.step + 1) = true
      swap
      · have hd' : ¬ due (splitGroup comps G).hyper.stabilize ((splitGroup comps G).step + 1) = true := hd
        rw [if_neg hd, if_neg hd']
        first | exact r1 | exact r2
      · have hd' : due (splitGroup comps G).hyper.stabilize ((splitGroup comps G).step + 1) = true := hd
        rw [if_pos hd, if_pos hd']
        have := sgdStab_part (hS' a) (isM a) G.hyper _ j _ r1 r2
        first | exact this.1 | exact this.2
    · push Not at ha
      rw [sgdStep_notMem _ w a ha, sgdStep_notMem _ w' ⟨a, j⟩ (by
        intro G' hG' hm
        obtain ⟨G, hG, rfl⟩ := hmem G' hG'
        exact ha G hG (List.mem_sigma.1 hm).1)]
      first | exact h.point a j | exact h.buf a j

/-- **C137, RiemannianSGD.** Any options, several groups, stacks of any size, gradients that may depend on
everything (and may be missing), for any number of rounds: neither run raises, and after every round the
separate parameters are the points of the stacks, with the same momentum. -/
theorem C137_sgd (hnd : ∀ a, (comps a).Nodup) (hall : ∀ a j, j ∈ comps a) (isM : κ → Bool)
    (Ms : ∀ a, Manifold (ι a)) (L : Loss J ι) (hL : ∀ n x a, L n x a ≠ .sparse)
    (o : SGD κ (Whole J ι)) (o' : SGD (Σ a, J a) (Piece J ι)) (h : SameSGD comps o o')
    (hn : (o.groups.flatMap Group.params).Nodup)
    (hs : ∀ G ∈ o.groups, G.hyper.stabilize ≠ some 0) (n : ℕ) :
    (train (feedSGD L) (sgdStep (whole J isM Ms)) n o).2 = none ∧
    (train (feedSGD' L) (sgdStep (pieces J isM Ms)) n o').2 = none ∧
    SameSGD comps (train (feedSGD L) (sgdStep (whole J isM Ms)) n o).1
      (train (feedSGD' L) (sgdStep (pieces J isM Ms)) n o').1 := by
  suffices H : (train (feedSGD L) (sgdStep (whole J isM Ms)) n o).2 = none ∧
    (train (feedSGD' L) (sgdStep (pieces J isM Ms)) n o').2 = none ∧
    SameSGD comps (train (feedSGD L) (sgdStep (whole J isM Ms)) n o).1
      (train (feedSGD' L) (sgdStep (pieces J isM Ms)) n o').1 ∧
    ((train (feedSGD L) (sgdStep (whole J isM Ms)) n o).1.groups.flatMap Group.params).Nodup ∧
    ∀ G ∈ (train (feedSGD L) (sgdStep (whole J isM Ms)) n o).1.groups,
      G.hyper.stabilize ≠ some 0 from ⟨H.1, H.2.1, H.2.2.1⟩
  induction n with
  | zero => exact ⟨rfl, rfl, h, hn, hs⟩
  | succ n ih =>
    obtain ⟨i1, i2, i3, i4, i5⟩ := ih
    rcases ht : train (feedSGD L) (sgdStep (whole J isM Ms)) n o with ⟨w, e⟩
    rcases ht' : train (feedSGD' L) (sgdStep (pieces J isM Ms)) n o' with ⟨w', e'⟩
    rw [ht] at i1 i3 i4 i5
    rw [ht'] at i2 i3
    simp only at i1 i2 i3 i4 i5
    subst i1 i2
    obtain ⟨k1, k2, k3, k4⟩ := sgd_step comps hnd isM Ms L hL n w w' i3 hall i4 i5
    simp only [train, ht, ht']
    refine ⟨k1, k2, k3, ?_, ?_⟩
    · rw [k4, List.flatMap_map]
      exact i4
    · rw [k4]
      intro G hG
      obtain ⟨G₀, hG₀, rfl⟩ := List.mem_map.1 hG
      exact i5 G₀ hG₀

/-- The two Adam optimisers correspond. -/
structure SameAdam (o : Adam κ (Whole J ι)) (o' : Adam (Σ a, J a) (Piece J ι)) : Prop where
  groups : o'.groups = o.groups.map fun G => (G.1, G.2.sigma comps)
  point : ∀ a j, (o'.par ⟨a, j⟩).point = part (o.par a).point j
  state : ∀ a j, (o'.par ⟨a, j⟩).state = (o.par a).state.map (partState · j)

/-- `loss.backward()` for the stacks. -/
def feedAdam (L : Loss J ι) (n : ℕ) (o : Adam κ (Whole J ι)) : Adam κ (Whole J ι) :=
  { o with par := fun a => { o.par a with grad := L n (fun a => (o.par a).point) a } }

/-- `loss.backward()` for the separate points. -/
def feedAdam' (L : Loss J ι) (n : ℕ) (o : Adam (Σ a, J a) (Piece J ι)) : Adam (Σ a, J a) (Piece J ι) :=
  { o with par := fun p => { o.par p with
      grad := partGrad (L n (fun a q => (o.par ⟨a, q.1⟩).point q.2) p.1) p.2 } }

theorem adam_step (hnd : ∀ a, (comps a).Nodup) (hJ : ∀ a, Nonempty (J a)) (isM : κ → Bool)
    (Ms : ∀ a, Manifold (ι a)) (L : Loss J ι) (hL : ∀ n x a, L n x a ≠ .sparse) (n : ℕ)
    (o : Adam κ (Whole J ι)) (o' : Adam (Σ a, J a) (Piece J ι)) (h : SameAdam comps o o')
    (hall : ∀ a j, j ∈ comps a)
    (hn : (o.groups.flatMap Prod.snd).Nodup)
    (hs : ∀ G ∈ o.groups, G.1.stabilize ≠ some 0)
    (ha : ∀ G ∈ o.groups, ∀ a ∈ G.2, AmsOk G.1 (o.par a)) :
    (adamStep (whole J isM Ms) (feedAdam L n o)).2 = none ∧
    (adamStep (pieces J isM Ms) (feedAdam' L n o')).2 = none ∧
    SameAdam comps (adamStep (whole J isM Ms) (feedAdam L n o)).1
      (adamStep (pieces J isM Ms) (feedAdam' L n o')).1 ∧
    (adamStep (whole J isM Ms) (feedAdam L n o)).1.groups = o.groups ∧
    ∀ G ∈ o.groups, ∀ a ∈ G.2, AmsOk G.1 ((adamStep (whole J isM Ms) (feedAdam L n o)).1.par a) := by
  set w := feedAdam L n o with hw
  set w' := feedAdam' L n o' with hw'
  have hx : (fun a q => (o'.par ⟨a, q.1⟩).point q.2) = fun a => (o.par a).point := by
    funext a q
    rw [h.point]; rfl
  have hS : ∀ a, Splits ((whole J isM Ms).manifold a) fun j => (pieces J isM Ms).manifold ⟨a, j⟩ :=
    fun a => splits_manifold (splits_batch _) _
  have hS' : ∀ a, Splits ((whole J isM Ms).man a) fun j => (pieces J isM Ms).man ⟨a, j⟩ :=
    fun a => splits_batch _
  have hgr : ∀ a j, (w'.par ⟨a, j⟩).grad = partGrad (w.par a).grad j := by
    intro a j
    simp only [hw, hw', feedAdam, feedAdam', hx]
  have hpar : ∀ G (hG : G ∈ o.groups) a (haG : a ∈ G.2) j, _ := fun G hG a haG j =>
    adamParam_part (hS a) G.1 (hs G hG) (w.par a) (hL _ _ _) (ha G hG a haG) j (w'.par ⟨a, j⟩)
      (h.point a j) (hgr a j) (h.state a j)
  have hgs : w'.groups = o.groups.map fun G => (G.1, G.2.sigma comps) := h.groups
  have hn' : (w'.groups.flatMap Prod.snd).Nodup := by
    have e : w'.groups.flatMap Prod.snd = (o.groups.flatMap Prod.snd).sigma comps := by
      rw [hgs, List.flatMap_map]
      exact flatMap_sigma comps o.groups Prod.snd
    rw [e]
    exact hn.sigma hnd
  have hmem : ∀ G' ∈ w'.groups, ∃ G ∈ o.groups, G' = (G.1, G.2.sigma comps) := by
    intro G' hG'
    rw [hgs] at hG'
    obtain ⟨G, hG, rfl⟩ := List.mem_map.1 hG'
    exact ⟨G, hG, rfl⟩
  have e1 : (adamStep (whole J isM Ms) w).2 = none := by
    refine Optim.adamStep_noerr _ w hn fun G hG a haG => ?_
    exact (hpar G hG a haG (hJ a).some).1
  have e2 : (adamStep (pieces J isM Ms) w').2 = none := by
    refine Optim.adamStep_noerr _ w' hn' ?_
    rintro G' hG' ⟨a, j⟩ haj
    obtain ⟨G, hG, rfl⟩ := hmem G' hG'
    have := hpar G hG a (List.mem_sigma.1 haj).1 j
    exact (congrArg Prod.snd this.2.1).trans this.1
  obtain ⟨g1, p1⟩ := adamStep_ok _ w hn e1
  obtain ⟨g2, p2⟩ := adamStep_ok _ w' hn' e2
  have hflag : ∀ G ∈ o.groups,
      ((G.2.sigma comps).any fun b => (adamParam ((pieces J isM Ms).manifold b) G.1 (w'.par b)).2.1) =
      G.2.any fun b => (adamParam ((whole J isM Ms).manifold b) G.1 (w.par b)).2.1 := by
    intro G hG
    rw [Bool.eq_iff_iff, List.any_eq_true, List.any_eq_true]
    constructor
    · rintro ⟨⟨a, j⟩, hm, hf⟩
      refine ⟨a, (List.mem_sigma.1 hm).1, ?_⟩
      rw [← (congrArg Prod.fst (hpar G hG a (List.mem_sigma.1 hm).1 j).2.1)]
      exact hf
    · rintro ⟨a, hm, hf⟩
      refine ⟨⟨a, (hJ a).some⟩, List.mem_sigma.2 ⟨hm, hall _ _⟩, ?_⟩
      rw [(congrArg Prod.fst (hpar G hG a hm (hJ a).some).2.1)]
      exact hf
  refine ⟨e1, e2, ⟨?_, ?_, ?_⟩, g1, ?_⟩
  · rw [g1, g2, hgs]; rfl
  rotate_left 2
  · intro G hG a haG
    rw [(p1 G hG a haG).2]
    have h1 := (hpar G hG a haG (hJ a).some).2.2.1
    split
    · exact adamStab_ams _ _ _ _ h1
    · exact h1
  all_goals
    intro a j
    by_cases hm : ∃ G ∈ o.groups, a ∈ G.2
    · obtain ⟨G, hG, haG⟩ := hm
      have q1 := (p1 G hG a haG).2
      have q2 := (p2 (G.1, G.2.sigma comps) (by
        rw [hgs]
        exact List.mem_map.2 ⟨G, hG, rfl⟩) ⟨a, j⟩ (List.mem_sigma.2 ⟨haG, hall a j⟩)).2
      rw [q1, q2]
      obtain ⟨-, -, -, r1, r2⟩ := hpar G hG a haG j
      simp only [hflag G hG]
      by_cases hd : (G.2.any fun b => (adamParam ((whole J isM Ms).manifold b) G.1 (w.par b)).2.1) = true
      swap
      · rw [if_neg hd, if_neg hd]
        first | exact r1 | exact r2
      · rw [if_pos hd, if_pos hd]
        have := adamStab_part (hS' a) (isM a) _ j _ r1 r2
        first | exact this.1 | exact this.2
    · push Not at hm
      rw [adamStep_notMem _ w a hm, adamStep_notMem _ w' ⟨a, j⟩ (by
        intro G' hG' hm'
        obtain ⟨G, hG, rfl⟩ := hmem G' hG'
        exact hm G hG (List.mem_sigma.1 hm').1)]
      first | exact h.point a j | exact h.state a j

/-- **C137, RiemannianAdam** (also with `amsgrad`): the same.  Every point has its own adaptive
denominator, because `component_inner` gives one number per point of the stack. -/
theorem C137_adam (hnd : ∀ a, (comps a).Nodup) (hall : ∀ a j, j ∈ comps a) (hJ : ∀ a, Nonempty (J a))
    (isM : κ → Bool) (Ms : ∀ a, Manifold (ι a)) (L : Loss J ι) (hL : ∀ n x a, L n x a ≠ .sparse)
    (o : Adam κ (Whole J ι)) (o' : Adam (Σ a, J a) (Piece J ι)) (h : SameAdam comps o o')
    (hn : (o.groups.flatMap Prod.snd).Nodup)
    (hs : ∀ G ∈ o.groups, G.1.stabilize ≠ some 0)
    (ha : ∀ G ∈ o.groups, ∀ a ∈ G.2, AmsOk G.1 (o.par a)) (n : ℕ) :
    (train (feedAdam L) (adamStep (whole J isM Ms)) n o).2 = none ∧
    (train (feedAdam' L) (adamStep (pieces J isM Ms)) n o').2 = none ∧
    SameAdam comps (train (feedAdam L) (adamStep (whole J isM Ms)) n o).1
      (train (feedAdam' L) (adamStep (pieces J isM Ms)) n o').1 := by
  suffices H : (train (feedAdam L) (adamStep (whole J isM Ms)) n o).2 = none ∧
    (train (feedAdam' L) (adamStep (pieces J isM Ms)) n o').2 = none ∧
    SameAdam comps (train (feedAdam L) (adamStep (whole J isM Ms)) n o).1
      (train (feedAdam' L) (adamStep (pieces J isM Ms)) n o').1 ∧
    (train (feedAdam L) (adamStep (whole J isM Ms)) n o).1.groups = o.groups ∧
    ∀ G ∈ o.groups, ∀ a ∈ G.2,
      AmsOk G.1 ((train (feedAdam L) (adamStep (whole J isM Ms)) n o).1.par a) from
    ⟨H.1, H.2.1, H.2.2.1⟩
  induction n with
  | zero => exact ⟨rfl, rfl, h, rfl, ha⟩
  | succ n ih =>
    obtain ⟨i1, i2, i3, i4, i5⟩ := ih
    rcases ht : train (feedAdam L) (adamStep (whole J isM Ms)) n o with ⟨w, e⟩
    rcases ht' : train (feedAdam' L) (adamStep (pieces J isM Ms)) n o' with ⟨w', e'⟩
    rw [ht] at i1 i3 i4 i5
    rw [ht'] at i2 i3
    simp only at i1 i2 i3 i4 i5
    subst i1 i2
    obtain ⟨k1, k2, k3, k4, k5⟩ := adam_step comps hnd hJ isM Ms L hL n w w' i3 hall
      (by rw [i4]; exact hn) (by rw [i4]; exact hs) (by rw [i4]; exact i5)
    simp only [train, ht, ht']
    refine ⟨k1, k2, k3, k4.trans i4, ?_⟩
    rw [i4] at k5
    exact k5

/-- Every optimiser of stacks has a counterpart with separate points. -/
theorem exists_sameSGD (o : SGD κ (Whole J ι)) : ∃ o' : SGD (Σ a, J a) (Piece J ι), SameSGD comps o o' :=
  ⟨⟨fun p => ⟨part (o.par p.1).point p.2, .none, (o.par p.1).buf.map (part · p.2)⟩,
    o.groups.map (splitGroup comps)⟩, rfl, fun _ _ => rfl, fun _ _ => rfl⟩

theorem exists_sameAdam (o : Adam κ (Whole J ι)) :
    ∃ o' : Adam (Σ a, J a) (Piece J ι), SameAdam comps o o' :=
  ⟨⟨fun p => ⟨part (o.par p.1).point p.2, .none, (o.par p.1).state.map (partState · p.2)⟩,
    o.groups.map fun G => (G.1, G.2.sigma comps)⟩, rfl, fun _ _ => rfl, fun _ _ => rfl⟩

end Train

/-! ### The theorems apply -/

/-- An embedding table of seven points of the Poincaré ball and a plain table of four vectors, under Nesterov
momentum, weight decay and stabilisation every third step, with the gradient of a loss that mixes all entries. -/
example (x : Fin 7 × Fin 2 → ℝ) (y : Fin 4 × Fin 2 → ℝ) (n : ℕ) :
    let J : Bool → Type := fun b => Fin (bif b then 7 else 4)
    let start : ∀ b, Whole J (fun _ => Fin 2) b → ℝ := fun | true => x | false => y
    let o : SGD Bool (Whole J fun _ => Fin 2) :=
      ⟨fun b => ⟨start b, .none, none⟩, [⟨⟨0.1, 0.9, 0, 0.01, true, some 3⟩, 0, [true, false]⟩]⟩
    let L : Loss J fun _ => Fin 2 := fun _ z a => .dense fun q => (∑ b, ∑ j, z true (b, j)) * z a q
    let Ms : Bool → Manifold (Fin 2) := fun _ => stereographic 1e-15 .f64 (-1)
    ∃ o', SameSGD (fun b => List.finRange _) o o' ∧
      (train (feedSGD L) (sgdStep (whole J id Ms)) n o).2 = none ∧
      SameSGD (fun b => List.finRange _) (train (feedSGD L) (sgdStep (whole J id Ms)) n o).1
        (train (feedSGD' L) (sgdStep (pieces J id Ms)) n o').1 := by
  intro J start o L Ms
  obtain ⟨o', ho'⟩ := exists_sameSGD (J := J) (fun b => List.finRange _) o
  have := C137_sgd (J := J) (fun b => List.finRange _) (fun b => List.nodup_finRange _)
    (fun b j => List.mem_finRange j) id Ms L (fun _ _ _ => by simp [L]) o o' ho' (by simp [o]) (by simp [o]) n
  exact ⟨o', ho', this.1, this.2.2⟩

/-! ### The Birkhoff polytope -/

/-- The matrix with all entries `1/3`. -/
noncomputable def third : Matrix (Fin 3) (Fin 3) ℝ := Matrix.of fun _ _ => 1 / 3

theorem third_ds : Birkhoff.DoublyStochastic third :=
  ⟨fun i j => by simp [third], fun i => by simp [third, Birkhoff.rowSum],
    fun j => by simp [third, Birkhoff.colSum]⟩

/-- A gradient for which the step leaves the polytope before `projx`. -/
noncomputable def push : Matrix (Fin 3) (Fin 3) ℝ :=
  !![-Real.log 2, Real.log 2, 0; Real.log 2, -Real.log 2, 0; 0, 0, 0]

theorem proju_push : Birkhoff.proju third push = (1 / 3 : ℝ) • push := by
  have h := Birkhoff.C34_characterisation third_ds push (a := 0) (b := 0) ⟨fun i => ?_, fun j => ?_⟩
  · rw [h]; ext i j; simp [third]
  · fin_cases i <;> simp [Birkhoff.rowSum, Fin.sum_univ_three, third, push]
  · fin_cases j <;> simp [Birkhoff.colSum, Fin.sum_univ_three, third, push]

theorem proju_zero : Birkhoff.proju third 0 = 0 := by
  have h := Birkhoff.C34_characterisation third_ds 0 (a := 0) (b := 0) ⟨fun i => ?_, fun j => ?_⟩
  · rw [h]; ext i j; simp
  · simp [Birkhoff.rowSum]
  · simp [Birkhoff.colSum]

/-- **C137 fails on the Birkhoff polytope.**  The loop of `projx` runs for all matrices of a stack until all of them
have converged, so a matrix whose gradient is zero moves differently in a stack than on its own. -/
theorem C137_counterexample_birkhoff :
    let cfg : Birkhoff.Config := ⟨1, 1e-5, 1e-12⟩
    let h : SGDHyper := ⟨1, 0, 0, 0, false, none⟩
    let x : Fin 2 × Fin 3 × Fin 3 → ℝ := fun _ => 1 / 3
    let g : Fin 2 × Fin 3 × Fin 3 → ℝ := fun q => if q.1 = 0 then 0 else push q.2.1 q.2.2
    (sgdParam (birkhoff (Fin 2) (n := 2) cfg) h ⟨x, .dense g, none⟩).1.point (0, 0, 0) ≠
      (sgdParam (birkhoff Unit (n := 2) cfg) h ⟨fun _ => 1 / 3, .dense fun _ => 0, none⟩).1.point ((), 0, 0) := by
  intro cfg h x g
  have e1 : (sgdParam (birkhoff (Fin 2) (n := 2) cfg) h ⟨x, .dense g, none⟩).1.point (0, 0, 0) =
      Birkhoff.retr cfg (fun _ : Fin 2 => third) ![0, -((1 / 3 : ℝ) • push)] 0 0 0 := by
    have hx : toMats x = fun _ => third := by funext b; ext i j; simp [toMats, x, third]
    have hg : toMats g = ![0, push] := by
      funext b; ext i j; fin_cases b <;> simp [toMats, g]
    have hu : toMats (-h.lr • (ofMats fun b => Birkhoff.proju (toMats x b) (toMats g b))) =
        ![0, -((1 / 3 : ℝ) • push)] := by
      funext b
      rw [hx, hg]
      ext i j
      fin_cases b <;> simp [toMats, ofMats, h, proju_push, proju_zero]
    simp only [sgdParam, birkhoff, h, lt_irrefl, if_false, zero_smul, add_zero]
    simp only [h] at hu
    rw [hu, hx]
    rfl
  have e2 : (sgdParam (birkhoff Unit (n := 2) cfg) h ⟨fun _ => 1 / 3, .dense fun _ => 0, none⟩).1.point ((), 0, 0) =
      Birkhoff.retr cfg (fun _ : Unit => third) (fun _ => 0) () 0 0 := by
    have hx : toMats (fun _ : Unit × Fin 3 × Fin 3 => (1 / 3 : ℝ)) = fun _ => third := by
      funext b; ext i j; simp [toMats, third]
    have hg : toMats (fun _ : Unit × Fin 3 × Fin 3 => (0 : ℝ)) = fun _ => 0 := by
      funext b; ext i j; simp [toMats]
    have hu : toMats (-h.lr • (ofMats fun b => Birkhoff.proju (toMats (fun _ : Unit × Fin 3 × Fin 3 => (1 / 3 : ℝ)) b)
        (toMats (fun _ : Unit × Fin 3 × Fin 3 => (0 : ℝ)) b))) = fun _ => 0 := by
      funext b
      rw [hx, hg]
      ext i j
      simp [toMats, ofMats, h, proju_zero]
    simp only [sgdParam, birkhoff, h, lt_irrefl, if_false, zero_smul, add_zero]
    simp only [h] at hu
    rw [hu, hx]
    rfl
  rw [e1, e2]
  obtain ⟨y1, hy1⟩ : ∃ y : Matrix (Fin 3) (Fin 3) ℝ, y = !![2 / 3, 1 / 6, 1 / 3; 1 / 6, 2 / 3, 1 / 3; 1 / 3, 1 / 3, 1 / 3] :=
    ⟨_, rfl⟩
  have l2 : Real.exp (Real.log 2) = 2 := Real.exp_log (by norm_num)
  have l2' : Real.exp (-Real.log 2) = 1 / 2 := by rw [Real.exp_neg, l2]; norm_num
  have l3 : 1 / 3 * Real.log 2 * 3 = Real.log 2 := by ring
  have hy : (fun b : Fin 2 => Matrix.of fun i j => third i j *
      Real.exp ((![0, -((1 / 3 : ℝ) • push)] : Fin 2 → Matrix (Fin 3) (Fin 3) ℝ) b i j / third i j)) = ![third, y1] := by
    funext b
    ext i j
    fin_cases b
    · simp [third]
    · fin_cases i <;> fin_cases j <;> simp [third, push, hy1] <;> norm_num <;>
        rw [l3] <;> norm_num [l2, l2']
  have hz : (fun _ : Unit => Matrix.of fun i j => third i j * Real.exp ((0 : Matrix (Fin 3) (Fin 3) ℝ) i j / third i j)) =
      fun _ => third := by
    funext b; ext i j; simp [third]
  unfold Birkhoff.retr
  simp only [hy, hz]
  have h1 : ¬ Birkhoff.Stop (1e-5) ![third, y1]
      (fun b => Birkhoff.sinkInit (1e-12) ((![third, y1] : Fin 2 → Matrix (Fin 3) (Fin 3) ℝ) b)) := by
    intro h
    have := h 1 0
    simp [Birkhoff.sinkInit, Birkhoff.rOf, Birkhoff.cinv, Fin.sum_univ_three, hy1] at this
    norm_num [abs_le] at this
  have h2 : Birkhoff.Stop (1e-5) (fun _ : Unit => third) (fun _ => Birkhoff.sinkInit (1e-12) third) := by
    intro b j
    fin_cases j <;> simp [Birkhoff.sinkInit, Birkhoff.rOf, Birkhoff.cinv, Fin.sum_univ_three, third] <;>
      norm_num [abs_le]
  intro h
  simp only [Birkhoff.projx, Birkhoff.projRun, Birkhoff.sinkLoop, cfg, if_neg h1, if_pos h2] at h
  simp [Birkhoff.assemble, Birkhoff.sinkStep, Birkhoff.sinkInit, Birkhoff.rOf, Birkhoff.cinv, Fin.sum_univ_three, third] at h
  norm_num at h

end Geoopt.C137
