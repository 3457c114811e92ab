import Verif.Spec.Decay
import Verif.Lemmas.OptimSim
import Verif.Props.C55Manifolds

/-!
C118: weight decay has no effect on spheres and Stiefel manifolds.
-/

namespace Geoopt.C118
open Geoopt.Optim

variable {κ : Type} [DecidableEq κ] {ι : κ → Type} (P : Params κ ι)

theorem sgdParam_decay {ι : Type} (M : Manifold ι) (h : SGDHyper) (c : ℝ) (s s' : SGDParam ι)
    (hc : c = h.weightDecay ∨ DecayFree M s.point)
    (e1 : s'.point = s.point) (e2 : s'.buf = s.buf) (e3 : s'.grad = s.grad) :
    (sgdParam M { h with weightDecay := c } s').2 = (sgdParam M h s).2 ∧
    (sgdParam M { h with weightDecay := c } s').1.point = (sgdParam M h s).1.point ∧
    (sgdParam M { h with weightDecay := c } s').1.buf = (sgdParam M h s).1.buf := by
  obtain ⟨x, g, b⟩ := s
  obtain ⟨x', g', b'⟩ := s'
  obtain rfl : x' = x := e1
  obtain rfl : b' = b := e2
  obtain rfl : g' = g := e3
  cases g' with
  | none => exact ⟨rfl, rfl, rfl⟩
  | sparse => exact ⟨rfl, rfl, rfl⟩
  | dense g =>
    have hv : (M.egrad2rgrad x' (g + c • x')).value = (M.egrad2rgrad x' (g + h.weightDecay • x')).value := by
      rcases hc with rfl | hc
      · rfl
      · rw [hc g c, hc g h.weightDecay]
    unfold sgdParam
    dsimp only
    rw [hv]
    by_cases hm : 0 < h.momentum
    · simp only [if_pos hm]
      cases b' <;> exact ⟨rfl, rfl, rfl⟩
    · refine ⟨?_, ?_, ?_⟩ <;> simp only [if_neg hm]

theorem adamParam_decay {ι : Type} (M : Manifold ι) (h : AdamHyper) (c : ℝ) (s s' : AdamParam ι)
    (hc : c = h.weightDecay ∨ DecayFree M s.point)
    (e1 : s'.point = s.point) (e2 : s'.state = s.state) (e3 : s'.grad = s.grad) :
    (adamParam M { h with weightDecay := c } s').2 = (adamParam M h s).2 ∧
    (adamParam M { h with weightDecay := c } s').1.point = (adamParam M h s).1.point ∧
    (adamParam M { h with weightDecay := c } s').1.state = (adamParam M h s).1.state := by
  obtain ⟨x, g, b⟩ := s
  obtain ⟨x', g', b'⟩ := s'
  obtain rfl : x' = x := e1
  obtain rfl : b' = b := e2
  obtain rfl : g' = g := e3
  cases g' with
  | none => exact ⟨rfl, rfl, rfl⟩
  | sparse => exact ⟨rfl, rfl, rfl⟩
  | dense g =>
    have hv : (M.egrad2rgrad x' (g + c • x')).value = (M.egrad2rgrad x' (g + h.weightDecay • x')).value := by
      rcases hc with rfl | hc
      · rfl
      · rw [hc g c, hc g h.weightDecay]
    unfold adamParam
    dsimp only
    rw [hv]
    split <;> exact ⟨rfl, rfl, rfl⟩

/-- **C118** for `RiemannianSGD`.  The weight decay of the groups is changed.  If at every parameter where it
changes the points are such that a multiple of the point has no Riemannian gradient, then training proceeds
in the same way: no step raises, and all parameters and momentum buffers are the same. -/
theorem C118_sgd (g : ℕ → (∀ a, ι a → ℝ) → ∀ a, Grad (ι a)) (c : SGDHyper → ℝ) {o o' : ℕ → SGD κ ι}
    (hn : ((o 0).groups.flatMap Group.params).Nodup) (h0 : o' 0 = (o 0).withDecay c)
    (hd : ∀ t, ∀ G ∈ (o t).groups, ∀ a ∈ G.params, c G.hyper = G.hyper.weightDecay ∨
      DecayFree (P.manifold a) ((o t).par a).point)
    (h : ∀ t, sgdTrain P (g t) (o t) = (o (t + 1), none))
    (h' : ∀ t, (sgdTrain P (g t) (o' t)).1 = o' (t + 1)) (t : ℕ) :
    (sgdTrain P (g t) (o' t)).2 = none ∧
    ∀ a, ((o' t).par a).point = ((o t).par a).point ∧ ((o' t).par a).buf = ((o t).par a).buf := by
  have step : ∀ t, ((o t).groups.flatMap Group.params).Nodup →
      (∀ a, ((o' t).par a).point = ((o t).par a).point ∧ ((o' t).par a).buf = ((o t).par a).buf) →
      (o' t).groups = ((o t).withDecay c).groups →
      (sgdTrain P (g t) (o' t)).2 = none ∧
      (∀ a, ((o' (t + 1)).par a).point = ((o (t + 1)).par a).point ∧
        ((o' (t + 1)).par a).buf = ((o (t + 1)).par a).buf) ∧
      ((o (t + 1)).groups.flatMap Group.params).Nodup ∧
      (o' (t + 1)).groups = ((o (t + 1)).withDecay c).groups := by
    intro t hn e1 e2
    have k := h t
    unfold sgdTrain sgdStep at k
    simp only [Prod.mk.injEq] at k
    have ep : (fun a => ((o' t).par a).point) = fun a => ((o t).par a).point := funext fun a => (e1 a).1
    obtain ⟨r1, r2, r3, r4⟩ := counter_sim (fun h a => sgdParam (P.manifold a) h)
      (fun h a => sgdStab (P.isManifold a) (P.man a) h) SGDHyper.stabilize
      (fun h => { h with weightDecay := c h }) (fun _ => rfl) (o t).groups hn
      (fun a => { (o t).par a with grad := g t (fun a => ((o t).par a).point) a })
      (fun a => { (o' t).par a with grad := g t (fun a => ((o' t).par a).point) a })
      (fun a s s' => s'.point = s.point ∧ s'.buf = s.buf) e1
      (fun G hG a ha he => by
        have q := sgdParam_decay (P.manifold a) G.hyper (c G.hyper)
          { (o t).par a with grad := g t (fun a => ((o t).par a).point) a }
          { (o' t).par a with grad := g t (fun a => ((o' t).par a).point) a } (hd t G hG a ha) (e1 a).1 (e1 a).2
          (by dsimp only; rw [ep])
        exact ⟨by rw [q.1]; exact he, q.2⟩)
      (fun G _ a _ s s' ⟨q1, q2⟩ => by
        unfold sgdStab
        dsimp only
        split_ifs
        · exact ⟨q1, q2⟩
        · exact ⟨by rw [q1], by rw [q1, q2]⟩
        · exact ⟨by rw [q1], q2⟩) k.2
    have eg : (o (t + 1)).groups = (o t).groups.map fun G => { G with step := G.step + 1 } := by
      rw [← k.1]; exact r3
    have e3 : o' t = ⟨(o' t).par, (o t).groups.map fun G => { G with hyper := { G.hyper with
        weightDecay := c G.hyper } }⟩ := congrArg (SGD.mk (o' t).par) e2
    have e4 : sgdTrain P (g t) (o' t) = (o' (t + 1), none) := by
      refine Prod.ext (h' t) ?_
      rw [e3]; exact r1
    have e5 : sgdTrain P (g t) (o' t) = _ := congrArg (sgdTrain P (g t)) e3
    refine ⟨by rw [e4], ?_, ?_, ?_⟩
    · rw [← h' t, ← k.1, e5]; exact r2
    · rw [eg]; simpa [List.flatMap_map] using hn
    · rw [← h' t, e5]
      refine Eq.trans r4 ?_
      rw [SGD.withDecay, eg, List.map_map]
      rfl
  suffices ∀ t, ((o t).groups.flatMap Group.params).Nodup ∧
      (∀ a, ((o' t).par a).point = ((o t).par a).point ∧ ((o' t).par a).buf = ((o t).par a).buf) ∧
      (o' t).groups = ((o t).withDecay c).groups from
    ⟨(step t (this t).1 (this t).2.1 (this t).2.2).1, (this t).2.1⟩
  intro t
  induction t with
  | zero => exact ⟨hn, fun a => by rw [h0]; exact ⟨rfl, rfl⟩, by rw [h0]⟩
  | succ t ih =>
    obtain ⟨-, h2, h3, h4⟩ := step t ih.1 ih.2.1 ih.2.2
    exact ⟨h3, h2, h4⟩

/-- **C118** for `RiemannianAdam`. -/
theorem C118_adam (g : ℕ → (∀ a, ι a → ℝ) → ∀ a, Grad (ι a)) (c : AdamHyper → ℝ) {o o' : ℕ → Adam κ ι}
    (hn : ((o 0).groups.flatMap Prod.snd).Nodup) (h0 : o' 0 = (o 0).withDecay c)
    (hd : ∀ t, ∀ G ∈ (o t).groups, ∀ a ∈ G.2, c G.1 = G.1.weightDecay ∨
      DecayFree (P.manifold a) ((o t).par a).point)
    (h : ∀ t, adamTrain P (g t) (o t) = (o (t + 1), none))
    (h' : ∀ t, (adamTrain P (g t) (o' t)).1 = o' (t + 1)) (t : ℕ) :
    (adamTrain P (g t) (o' t)).2 = none ∧
    ∀ a, ((o' t).par a).point = ((o t).par a).point ∧ ((o' t).par a).state = ((o t).par a).state := by
  have step : ∀ t, ((o t).groups.flatMap Prod.snd).Nodup →
      (∀ a, ((o' t).par a).point = ((o t).par a).point ∧ ((o' t).par a).state = ((o t).par a).state) →
      (o' t).groups = ((o t).withDecay c).groups →
      (adamTrain P (g t) (o' t)).2 = none ∧
      (∀ a, ((o' (t + 1)).par a).point = ((o (t + 1)).par a).point ∧
        ((o' (t + 1)).par a).state = ((o (t + 1)).par a).state) ∧
      ((o (t + 1)).groups.flatMap Prod.snd).Nodup ∧
      (o' (t + 1)).groups = ((o (t + 1)).withDecay c).groups := by
    intro t hn e1 e2
    have k := h t
    unfold adamTrain adamStep at k
    simp only [Prod.mk.injEq] at k
    have ep : (fun a => ((o' t).par a).point) = fun a => ((o t).par a).point := funext fun a => (e1 a).1
    obtain ⟨r1, r2, r3, r4⟩ := flag_sim (fun (h : AdamHyper) a => adamParam (P.manifold a) h)
      (fun _ a => adamStab (P.isManifold a) (P.man a))
      (fun h => { h with weightDecay := c h }) (o t).groups hn
      (fun a => { (o t).par a with grad := g t (fun a => ((o t).par a).point) a })
      (fun a => { (o' t).par a with grad := g t (fun a => ((o' t).par a).point) a })
      (fun a s s' => s'.point = s.point ∧ s'.state = s.state) e1
      (fun G hG a ha he => by
        exact adamParam_decay (P.manifold a) G.1 (c G.1)
          { (o t).par a with grad := g t (fun a => ((o t).par a).point) a }
          { (o' t).par a with grad := g t (fun a => ((o' t).par a).point) a } (hd t G hG a ha) (e1 a).1 (e1 a).2
          (by dsimp only; rw [ep]))
      (fun G _ a _ s s' ⟨q1, q2⟩ => by
        unfold adamStab
        split_ifs
        · exact ⟨q1, q2⟩
        · rw [q2]
          split
          · exact ⟨q1, q2⟩
          · exact ⟨by dsimp only; rw [q1], by dsimp only; rw [q1]⟩) k.2
    have eg : (o (t + 1)).groups = (o t).groups := by
      rw [← k.1]; exact r3
    have e3 : o' t = ⟨(o' t).par, (o t).groups.map fun G => ({ G.1 with weightDecay := c G.1 }, G.2)⟩ :=
      congrArg (Adam.mk (o' t).par) e2
    have e4 : adamTrain P (g t) (o' t) = (o' (t + 1), none) := by
      refine Prod.ext (h' t) ?_
      rw [e3]; exact r1
    have e5 : adamTrain P (g t) (o' t) = _ := congrArg (adamTrain P (g t)) e3
    refine ⟨by rw [e4], ?_, ?_, ?_⟩
    · rw [← h' t, ← k.1, e5]; exact r2
    · rw [eg]; exact hn
    · rw [← h' t, e5]
      refine Eq.trans r4 ?_
      rw [Adam.withDecay, eg]
  suffices ∀ t, ((o t).groups.flatMap Prod.snd).Nodup ∧
      (∀ a, ((o' t).par a).point = ((o t).par a).point ∧ ((o' t).par a).state = ((o t).par a).state) ∧
      (o' t).groups = ((o t).withDecay c).groups from
    ⟨(step t (this t).1 (this t).2.1 (this t).2.2).1, (this t).2.1⟩
  intro t
  induction t with
  | zero => exact ⟨hn, fun a => by rw [h0]; exact ⟨rfl, rfl⟩, by rw [h0]⟩
  | succ t ih =>
    obtain ⟨-, h2, h3, h4⟩ := step t ih.1 ih.2.1 ih.2.2
    exact ⟨h3, h2, h4⟩

/-- A set that no operation leaves contains all points of the history. -/
theorem kept_sgd (g : ℕ → (∀ a, ι a → ℝ) → ∀ a, Grad (ι a)) {o : ℕ → SGD κ ι}
    (hn : ((o 0).groups.flatMap Group.params).Nodup)
    (h : ∀ t, sgdTrain P (g t) (o t) = (o (t + 1), none)) (t : ℕ) :
    (∀ G ∈ (o t).groups, ∃ G0 ∈ (o 0).groups, G.hyper = G0.hyper ∧ G.params = G0.params) ∧
    ∀ a K, Kept (P.manifold a) K → K ((o 0).par a).point → K ((o t).par a).point := by
  suffices ((o t).groups.flatMap Group.params).Nodup ∧
    (∀ G ∈ (o t).groups, ∃ G0 ∈ (o 0).groups, G.hyper = G0.hyper ∧ G.params = G0.params) ∧
    ∀ a K, Kept (P.manifold a) K → K ((o 0).par a).point → K ((o t).par a).point from this.2
  induction t with
  | zero => exact ⟨hn, fun G hG => ⟨G, hG, rfl, rfl⟩, fun a K _ h => h⟩
  | succ t ih =>
    obtain ⟨hn, hG, hK⟩ := ih
    have k := h t
    unfold sgdTrain sgdStep at k
    simp only [Prod.mk.injEq] at k
    obtain ⟨-, r2, r3, -⟩ := counter_sim (fun h a => sgdParam (P.manifold a) h)
      (fun h a => sgdStab (P.isManifold a) (P.man a) h) SGDHyper.stabilize id (fun _ => rfl) (o t).groups hn
      (fun a => { (o t).par a with grad := g t (fun a => ((o t).par a).point) a })
      (fun a => { (o t).par a with grad := g t (fun a => ((o t).par a).point) a })
      (fun a s _ => ∀ K, Kept (P.manifold a) K → K ((o 0).par a).point → K s.point) hK
      (fun G _ a _ he => ⟨he, fun K q q0 => by
        have q1 := hK a K q q0
        unfold sgdParam
        split
        · exact q1
        · exact q1
        · dsimp only
          by_cases hm : 0 < G.hyper.momentum
          · simp only [if_pos hm]
            split
            · exact q1
            · exact q.retrTransp _ _ _ q1
          · simp only [if_neg hm]
            exact q.retr _ _ q1⟩)
      (fun G _ a _ s _ r K q q0 => by
        have q1 := r K q q0
        unfold sgdStab
        by_cases hM : P.isManifold a = false
        · simp only [if_pos hM]; exact q1
        · simp only [if_neg hM]
          have e : P.manifold a = P.man a := by unfold Params.manifold; rw [if_pos (by simpa using hM)]
          rw [e] at q
          split_ifs <;> exact q.projx _ q1) k.2
    have eg : (o (t + 1)).groups = (o t).groups.map fun G => { G with step := G.step + 1 } := by
      rw [← k.1]; exact r3
    refine ⟨by rw [eg]; simpa [List.flatMap_map] using hn, ?_, by rw [← k.1]; exact r2⟩
    intro G hg
    rw [eg] at hg
    obtain ⟨G1, hg1, rfl⟩ := List.mem_map.1 hg
    exact hG G1 hg1

theorem kept_adam (g : ℕ → (∀ a, ι a → ℝ) → ∀ a, Grad (ι a)) {o : ℕ → Adam κ ι}
    (hn : ((o 0).groups.flatMap Prod.snd).Nodup)
    (h : ∀ t, adamTrain P (g t) (o t) = (o (t + 1), none)) (t : ℕ) :
    (o t).groups = (o 0).groups ∧
    ∀ a K, Kept (P.manifold a) K → K ((o 0).par a).point → K ((o t).par a).point := by
  induction t with
  | zero => exact ⟨rfl, fun a K _ h => h⟩
  | succ t ih =>
    obtain ⟨hG, hK⟩ := ih
    have k := h t
    unfold adamTrain adamStep at k
    simp only [Prod.mk.injEq] at k
    obtain ⟨-, r2, r3, -⟩ := flag_sim (fun (h : AdamHyper) a => adamParam (P.manifold a) h)
      (fun _ a => adamStab (P.isManifold a) (P.man a)) id (o t).groups (by rw [hG]; exact hn)
      (fun a => { (o t).par a with grad := g t (fun a => ((o t).par a).point) a })
      (fun a => { (o t).par a with grad := g t (fun a => ((o t).par a).point) a })
      (fun a s _ => ∀ K, Kept (P.manifold a) K → K ((o 0).par a).point → K s.point) hK
      (fun G _ a _ he => ⟨rfl, fun K q q0 => by
        have q1 := hK a K q q0
        unfold adamParam
        split
        · exact q1
        · exact q1
        · dsimp only
          split
          · exact q1
          · exact q.retrTransp _ _ _ q1
          · exact q.retrTransp _ _ _ q1⟩)
      (fun G _ a _ s _ r K q q0 => by
        have q1 := r K q q0
        unfold adamStab
        by_cases hM : P.isManifold a = false
        · simp only [if_pos hM]; exact q1
        · simp only [if_neg hM]
          have e : P.manifold a = P.man a := by unfold Params.manifold; rw [if_pos (by simpa using hM)]
          rw [e] at q
          split
          · exact q1
          · exact q.projx _ q1) k.2
    exact ⟨by rw [← hG, ← k.1]; exact r3, by rw [← k.1]; exact r2⟩

/-- **C118**, `RiemannianSGD` with any momentum: at the parameters whose weight decay is changed, it suffices that
the initial point is in a set of decay-free points that no operation leaves (`C118_sphere`, `C118_stiefel`,
`C118_euclidean_stiefel`, `C118_batch`). -/
theorem C118_sgd_always (g : ℕ → (∀ a, ι a → ℝ) → ∀ a, Grad (ι a)) (c : SGDHyper → ℝ) {o o' : ℕ → SGD κ ι}
    (hn : ((o 0).groups.flatMap Group.params).Nodup) (h0 : o' 0 = (o 0).withDecay c)
    (hd : ∀ G ∈ (o 0).groups, ∀ a ∈ G.params, c G.hyper = G.hyper.weightDecay ∨
      ∃ K, Kept (P.manifold a) K ∧ (∀ x, K x → DecayFree (P.manifold a) x) ∧ K ((o 0).par a).point)
    (h : ∀ t, sgdTrain P (g t) (o t) = (o (t + 1), none))
    (h' : ∀ t, (sgdTrain P (g t) (o' t)).1 = o' (t + 1)) (t : ℕ) :
    (sgdTrain P (g t) (o' t)).2 = none ∧
    ∀ a, ((o' t).par a).point = ((o t).par a).point ∧ ((o' t).par a).buf = ((o t).par a).buf := by
  refine C118_sgd P g c hn h0 (fun t G hG a ha => ?_) h h' t
  obtain ⟨k1, k2⟩ := kept_sgd P g hn h t
  obtain ⟨G0, hG0, e1, e2⟩ := k1 G hG
  rw [e1]
  exact (hd G0 hG0 a (e2 ▸ ha)).imp id fun ⟨K, q1, q2, q3⟩ => q2 _ (k2 a K q1 q3)

/-- **C118**, `RiemannianAdam`. -/
theorem C118_adam_always (g : ℕ → (∀ a, ι a → ℝ) → ∀ a, Grad (ι a)) (c : AdamHyper → ℝ) {o o' : ℕ → Adam κ ι}
    (hn : ((o 0).groups.flatMap Prod.snd).Nodup) (h0 : o' 0 = (o 0).withDecay c)
    (hd : ∀ G ∈ (o 0).groups, ∀ a ∈ G.2, c G.1 = G.1.weightDecay ∨
      ∃ K, Kept (P.manifold a) K ∧ (∀ x, K x → DecayFree (P.manifold a) x) ∧ K ((o 0).par a).point)
    (h : ∀ t, adamTrain P (g t) (o t) = (o (t + 1), none))
    (h' : ∀ t, (adamTrain P (g t) (o' t)).1 = o' (t + 1)) (t : ℕ) :
    (adamTrain P (g t) (o' t)).2 = none ∧
    ∀ a, ((o' t).par a).point = ((o t).par a).point ∧ ((o' t).par a).state = ((o t).par a).state := by
  refine C118_adam P g c hn h0 (fun t G hG a ha => ?_) h h' t
  obtain ⟨k1, k2⟩ := kept_adam P g hn h t
  rw [k1] at hG
  exact (hd G hG a ha).imp id fun ⟨K, q1, q2, q3⟩ => q2 _ (k2 a K q1 q3)

/-- **C118**, `RiemannianSGD` without momentum, for the other classes (`C118_sphere_exact`, `C118_stiefel_exact`):
the retractions of tangent vectors stay on the manifold. -/
theorem C118_sgd_no_momentum (geo : ∀ a, Geometry (P.manifold a))
    (g : ℕ → (∀ a, ι a → ℝ) → ∀ a, Grad (ι a)) (c : SGDHyper → ℝ) {o o' : ℕ → SGD κ ι}
    (hn : ((o 0).groups.flatMap Group.params).Nodup) (h0 : o' 0 = (o 0).withDecay c)
    (hm : ∀ G ∈ (o 0).groups, G.hyper.momentum = 0)
    (hs : ∀ a, (geo a).On ((o 0).par a).point ∧ ((o 0).par a).buf = none)
    (hd : ∀ G ∈ (o 0).groups, ∀ a ∈ G.params, c G.hyper = G.hyper.weightDecay ∨
      ∀ x, (geo a).On x → DecayFree (P.manifold a) x)
    (h : ∀ t, sgdTrain P (g t) (o t) = (o (t + 1), none))
    (h' : ∀ t, (sgdTrain P (g t) (o' t)).1 = o' (t + 1)) (t : ℕ) :
    (sgdTrain P (g t) (o' t)).2 = none ∧
    ∀ a, ((o' t).par a).point = ((o t).par a).point ∧ ((o' t).par a).buf = ((o t).par a).buf := by
  have hk := kept_sgd P g hn h
  have nd : ∀ t, ((o t).groups.flatMap Group.params).Nodup := by
    intro t
    induction t with
    | zero => exact hn
    | succ t ih =>
      have := (sgdStep_ok P { o t with par := fun a =>
        { (o t).par a with grad := g t (fun a => ((o t).par a).point) a } } ih (congrArg Prod.snd (h t))).1
      have e : (o (t + 1)).groups = _ := (congrArg (fun p => p.1.groups) (h t)).symm.trans this
      rw [e]
      simpa [List.flatMap_map] using ih
  have reach : ∀ t, SGDReach P (fun o => (o.groups.flatMap Group.params).Nodup ∧
      ∀ G ∈ o.groups, G.hyper.momentum = 0) (o 0) (o t) := by
    intro t
    induction t with
    | zero => exact .start
    | succ t ih =>
      have e : (o (t + 1)) = (sgdStep P { o t with par := fun a =>
        { (o t).par a with grad := g t (fun a => ((o t).par a).point) a } }).1 := (congrArg Prod.fst (h t)).symm
      rw [e]
      refine .step (.user ih fun a => ⟨rfl, rfl⟩) ⟨nd t, fun G hG => ?_⟩
      obtain ⟨G0, hG0, e1, -⟩ := (hk t).1 G hG
      rw [e1]; exact hm G0 hG0
  refine C118_sgd P g c hn h0 (fun t G hG a ha => ?_) h h' t
  obtain ⟨G0, hG0, e1, e2⟩ := (hk t).1 G hG
  rw [e1]
  exact (hd G0 hG0 a (e2 ▸ ha)).imp id fun q => q _ (C55.C55_sgd_no_momentum geo _ _ hs (reach t) a)

/-- **C118**, `RiemannianAdam`, for the other classes. -/
theorem C118_adam_geometry (geo : ∀ a, Geometry (P.manifold a))
    (g : ℕ → (∀ a, ι a → ℝ) → ∀ a, Grad (ι a)) (c : AdamHyper → ℝ) {o o' : ℕ → Adam κ ι}
    (hn : ((o 0).groups.flatMap Prod.snd).Nodup) (h0 : o' 0 = (o 0).withDecay c)
    (hs : ∀ a, (geo a).On ((o 0).par a).point ∧ ((o 0).par a).state = none)
    (hd : ∀ G ∈ (o 0).groups, ∀ a ∈ G.2, c G.1 = G.1.weightDecay ∨
      ∀ x, (geo a).On x → DecayFree (P.manifold a) x)
    (h : ∀ t, adamTrain P (g t) (o t) = (o (t + 1), none))
    (h' : ∀ t, (adamTrain P (g t) (o' t)).1 = o' (t + 1)) (t : ℕ) :
    (adamTrain P (g t) (o' t)).2 = none ∧
    ∀ a, ((o' t).par a).point = ((o t).par a).point ∧ ((o' t).par a).state = ((o t).par a).state := by
  have reach : ∀ t, AdamReach P (o 0) (o t) := by
    intro t
    induction t with
    | zero => exact .start
    | succ t ih =>
      have e : (o (t + 1)) = (adamStep P { o t with par := fun a =>
        { (o t).par a with grad := g t (fun a => ((o t).par a).point) a } }).1 := (congrArg Prod.fst (h t)).symm
      rw [e]
      exact .step (.user ih fun a => ⟨rfl, rfl⟩)
  refine C118_adam P g c hn h0 (fun t G hG a ha => ?_) h h' t
  rw [(kept_adam P g hn h t).1] at hG
  exact (hd G hG a ha).imp id fun q => q _ (C55.C56_adam geo _ _ hs (reach t) a).1

/-! ### The manifolds -/

theorem sphere_free {n : ℕ} (Pr : Option (Matrix (Fin n) (Fin n) ℝ)) {x : Fin n → ℝ}
    (hx : x ⬝ᵥ x = 1 ∨ x = 0) (g : Fin n → ℝ) (c : ℝ) :
    Sphere.egrad2rgrad Pr x (g + c • x) = Sphere.egrad2rgrad Pr x g := by
  unfold Sphere.egrad2rgrad Sphere.proju
  congr 1
  rcases hx with hx | rfl
  · rw [dotProduct_add, dotProduct_smul, hx]
    module
  · simp

/-- `Sphere`, and its intersection with a subspace: decay-free at every point of the unit sphere.  A retraction or
projection leads to the sphere, or (division of zero by zero) to a point modelled as zero. -/
theorem C118_sphere {n : ℕ} (Pr : Option (Matrix (Fin n) (Fin n) ℝ)) :
    Kept (sphere Pr) (fun x => x ⬝ᵥ x = 1 ∨ x = 0) ∧
    ∀ x, (x ⬝ᵥ x = 1 ∨ x = 0) → DecayFree (sphere Pr) x := by
  have key : ∀ x, (Sphere.projx Pr x ⬝ᵥ Sphere.projx Pr x = 1 ∨ Sphere.projx Pr x = 0) := by
    intro x
    unfold Sphere.projx
    dsimp only
    generalize Sphere.projectOnSubspace Pr x = y
    by_cases hy : y = 0
    · right; simp [hy]
    · left
      have h1 : nrm y ^ 2 = y ⬝ᵥ y := nrm_sq y
      have h2 : nrm y ≠ 0 := fun h => hy (nrm_eq_zero.1 h)
      rw [smul_dotProduct, dotProduct_smul, ← h1]
      simp only [smul_eq_mul]
      field_simp
  exact ⟨⟨fun x u _ => key _, fun x u v _ => key _, fun x _ => key _⟩, fun x hx g c => sphere_free Pr hx g c⟩

/-- `SphereExact` is decay-free at the same points. -/
theorem C118_sphere_exact {n : ℕ} (Pr : Option (Matrix (Fin n) (Fin n) ℝ)) (dt : DType) {x : Fin n → ℝ}
    (hx : x ⬝ᵥ x = 1) : DecayFree (sphereExact Pr dt) x :=
  fun g c => sphere_free Pr (.inl hx) g c

open Matrix Geoopt.Stiefel in
theorem stiefel_canonical {n m : ℕ} {x : Matrix (Fin n) (Fin m) ℝ} (hx : OnStiefel x)
    (g : Matrix (Fin n) (Fin m) ℝ) (c : ℝ) : Canonical.proju x (g + c • x) = Canonical.proju x g := by
  have hx' : xᵀ * x = 1 := hx
  unfold Canonical.proju
  rw [Matrix.transpose_add, Matrix.transpose_smul, Matrix.mul_add, Matrix.add_mul, Matrix.mul_smul,
    Matrix.smul_mul, Matrix.mul_assoc x xᵀ x, hx', Matrix.mul_one]
  abel

open Matrix Geoopt.Stiefel in
theorem stiefel_euclidean {n m : ℕ} {x : Matrix (Fin n) (Fin m) ℝ} (hx : OnStiefel x)
    (g : Matrix (Fin n) (Fin m) ℝ) (c : ℝ) : Euclidean.proju x (g + c • x) = Euclidean.proju x g := by
  have hx' : xᵀ * x = 1 := hx
  have e : Linalg.sym (xᵀ * (g + c • x)) = Linalg.sym (xᵀ * g) + c • (1 : Matrix (Fin m) (Fin m) ℝ) := by
    rw [Matrix.mul_add, Matrix.mul_smul, hx']
    unfold Linalg.sym
    rw [Matrix.transpose_add, Matrix.transpose_smul, Matrix.transpose_one]
    module
  unfold Euclidean.proju
  rw [e, Matrix.mul_add, Matrix.mul_smul, Matrix.mul_one]
  abel

open Geoopt.Stiefel

/-- `CanonicalStiefel`; `proj` is any implementation of `projx` that keeps the manifold. -/
theorem C118_stiefel {n m : ℕ} (proj : Matrix (Fin n) (Fin m) ℝ → Matrix (Fin n) (Fin m) ℝ)
    (hp : ∀ x, OnStiefel x → OnStiefel (proj x)) :
    Kept (canonicalStiefel proj) (fun x => OnStiefel (toMat x)) ∧
    ∀ x, OnStiefel (toMat x) → DecayFree (canonicalStiefel proj) x := by
  refine ⟨⟨fun x u hx => C24_retr_on_stiefel hx _, fun x u v hx => ?_, fun x hx => hp _ hx⟩, fun x hx g c => ?_⟩
  · have e : (canonicalStiefel proj).retrTransp x u v = _ :=
      congrArg (fun p : Matrix (Fin n) (Fin m) ℝ × Matrix (Fin n) (Fin m) ℝ => (ofMat p.1, ofMat p.2))
        (C24_retr_transp (toMat x) (toMat u) (toMat v))
    rw [e]
    exact C24_retr_on_stiefel hx _
  · exact congrArg ofMat (stiefel_canonical hx (toMat g) c)

/-- `EuclideanStiefel`; `qr` is any QR decomposition. -/
theorem C118_euclidean_stiefel {n m : ℕ}
    (qr : Matrix (Fin n) (Fin m) ℝ → Matrix (Fin n) (Fin m) ℝ × Matrix (Fin m) (Fin m) ℝ)
    (proj : Matrix (Fin n) (Fin m) ℝ → Matrix (Fin n) (Fin m) ℝ)
    (hq : ∀ x, Linalg.IsQR x (qr x).1 (qr x).2) (hp : ∀ x, OnStiefel x → OnStiefel (proj x)) :
    Kept (euclideanStiefel qr proj) (fun x => OnStiefel (toMat x)) ∧
    ∀ x, OnStiefel (toMat x) → DecayFree (euclideanStiefel qr proj) x :=
  ⟨⟨fun x u _ => C26_retr_on_stiefel (hq (toMat x + toMat u)),
    fun x u v _ => C26_retr_on_stiefel (hq (toMat x + toMat u)), fun x hx => hp _ hx⟩,
    fun x hx g c => congrArg ofMat (stiefel_euclidean hx (toMat g) c)⟩

/-- `EuclideanStiefelExact`. -/
theorem C118_stiefel_exact {n m : ℕ} (proj : Matrix (Fin n) (Fin m) ℝ → Matrix (Fin n) (Fin m) ℝ)
    {x : Fin n × Fin m → ℝ} (hx : OnStiefel (toMat x)) : DecayFree (euclideanStiefelExact proj) x :=
  fun g c => congrArg ofMat (stiefel_euclidean hx (toMat g) c)

/-- A batch. -/
theorem C118_batch {β ι : Type} (M : Manifold ι) {K : (ι → ℝ) → Prop} (h : Kept M K)
    (hd : ∀ x, K x → DecayFree M x) :
    Kept (batch β M) (fun x => ∀ b, K fun i => x (b, i)) ∧
    ∀ x, (∀ b, K fun i => x (b, i)) → DecayFree (batch β M) x :=
  ⟨⟨fun x u hx b => h.retr _ (fun i => u (b, i)) (hx b),
    fun x u v hx b => h.retrTransp _ (fun i => u (b, i)) (fun i => v (b, i)) (hx b),
    fun x hx b => h.projx _ (hx b)⟩, fun x hx g c => by
      funext p
      exact congrFun (hd _ (hx p.1) (fun i => g (p.1, i)) c) p.2⟩

/-- Non-vacuity: a point of the circle that is moved by a loss, with momentum, with and without weight decay. -/
example : ∃ (P : Params Unit fun _ => Fin 2) (g : ℕ → (Unit → Fin 2 → ℝ) → Unit → Grad (Fin 2))
    (o o' : ℕ → SGD Unit fun _ => Fin 2),
    ((o 0).groups.flatMap Group.params).Nodup ∧ o' 0 = (o 0).withDecay (fun _ => 0) ∧ o' 0 ≠ o 0 ∧
    (∀ G ∈ (o 0).groups, ∀ a ∈ G.params,
      ∃ K, Kept (P.manifold a) K ∧ (∀ x, K x → DecayFree (P.manifold a) x) ∧ K ((o 0).par a).point) ∧
    (∀ t, sgdTrain P (g t) (o t) = (o (t + 1), none)) ∧ (∀ t, (sgdTrain P (g t) (o' t)).1 = o' (t + 1)) ∧
    ((o 1).par ()).point ≠ ((o 0).par ()).point := by
  let h : SGDHyper := ⟨1, 1 / 2, 0, 1, false, none⟩
  let P : Params Unit fun _ => Fin 2 := ⟨fun _ => true, fun _ => sphere none⟩
  let g : ℕ → (Unit → Fin 2 → ℝ) → Unit → Grad (Fin 2) := fun _ _ _ => .dense ![0, 1]
  let p : Unit → SGDParam (Fin 2) := fun _ => ⟨![1, 0], .none, none⟩
  let it (o : SGD Unit fun _ => Fin 2) : ℕ → SGD Unit fun _ => Fin 2 := fun t =>
    t.rec o fun t o => (sgdTrain P (g t) o).1
  have m : (0 : ℝ) < 1 / 2 := by norm_num
  have k : ∀ t (q : Unit → SGDParam (Fin 2)), (sgdTrain P (g t) ⟨q, [⟨h, t, [()]⟩]⟩).2 = none ∧
      (sgdTrain P (g t) ⟨q, [⟨h, t, [()]⟩]⟩).1.groups = [⟨h, t + 1, [()]⟩] := by
    intro t q
    cases hb : (q ()).buf <;>
    simp [sgdTrain, sgdStep, forGroups, sgdGroup, counterGroup, forParams, sgdParam, h, g, hb]
  have ig : ∀ t, (it ⟨p, [⟨h, 0, [()]⟩]⟩ t).groups = [⟨h, t, [()]⟩] := by
    intro t
    induction t with
    | zero => rfl
    | succ t ih =>
      have := (k t (it ⟨p, [⟨h, 0, [()]⟩]⟩ t).par).2
      rw [← ih] at this
      exact this
  refine ⟨P, g, it ⟨p, [⟨h, 0, [()]⟩]⟩, it ((⟨p, [⟨h, 0, [()]⟩]⟩ : SGD Unit fun _ => Fin 2).withDecay fun _ => 0),
    by simp [it], rfl, by simp [it, SGD.withDecay, h], fun _ _ a _ => ⟨_, (C118_sphere none).1, (C118_sphere none).2,
      .inl (by simp [it, p, dotProduct, Fin.sum_univ_two])⟩, fun t => Prod.ext rfl ?_, fun _ => rfl, fun e => ?_⟩
  · have := (k t (it ⟨p, [⟨h, 0, [()]⟩]⟩ t).par).1
    rw [← ig t] at this
    exact this
  · have := congrFun e 1
    simp [it, sgdTrain, sgdStep, forGroups, sgdGroup, counterGroup, forParams, sgdParam, h, g, p, P,
      Params.manifold, sphere, Sphere.retr, Sphere.projx, Sphere.egrad2rgrad, Sphere.proju,
      Sphere.projectOnSubspace, nrm, dotProduct, Fin.sum_univ_two] at this
    norm_num at this

end Geoopt.C118
