import Verif.Spec.Decay
import Verif.Lemmas.OptimSim
import Verif.Model.OptimManifolds
import Verif.Model.OptimProduct
import Verif.Props.C24

/-!
C117: the scale of the loss can be absorbed into the options.
-/

namespace Geoopt.C117
open Geoopt.Optim Matrix

/-! ### The manifolds -/

theorem C117_euclidean (ι : Type) : Homogeneous (euclidean ι) :=
  ⟨fun _ _ _ => rfl, fun _ _ _ _ => rfl, fun _ _ _ => rfl, fun _ u c => by
    funext i
    simp [Optim.euclidean, mul_pow]⟩

theorem sphere_proju {n : ℕ} (P : Option (Matrix (Fin n) (Fin n) ℝ)) (x u : Fin n → ℝ) (c : ℝ) :
    Sphere.proju P x (c • u) = c • Sphere.proju P x u := by
  have e : c • u - (x ⬝ᵥ (c • u)) • x = c • (u - (x ⬝ᵥ u) • x) := by
    rw [dotProduct_smul, smul_sub, smul_smul, smul_eq_mul]
  unfold Sphere.proju
  rw [e]
  unfold Sphere.projectOnSubspace
  cases P with
  | none => rfl
  | some P => exact Matrix.smul_vecMul _ _ _

theorem sphere_metric {n : ℕ} (x u : Fin n → ℝ) (c : ℝ) :
    Sphere.inner x (c • u) (c • u) = c ^ 2 * Sphere.inner x u u := by
  simp only [Sphere.inner, smul_dotProduct, dotProduct_smul, smul_eq_mul]
  ring

theorem C117_sphere {n : ℕ} (P : Option (Matrix (Fin n) (Fin n) ℝ)) : Homogeneous (sphere P) :=
  ⟨sphere_proju P, fun x u v c => Prod.ext rfl (sphere_proju P _ v c), sphere_proju P,
    fun x u c => funext fun _ => sphere_metric x u c⟩

theorem C117_sphere_exact {n : ℕ} (P : Option (Matrix (Fin n) (Fin n) ℝ)) (dt : DType) : Homogeneous (sphereExact P dt) :=
  ⟨sphere_proju P, fun x u v c => Prod.ext rfl (sphere_proju P _ v c), sphere_proju P,
    fun x u c => funext fun _ => sphere_metric x u c⟩

theorem stereo_transp {n : ℕ} (k : ℝ) (x y v : Fin n → ℝ) (c : ℝ) :
    Stereo.transp k x y (c • v) = c • Stereo.transp k x y v := by
  simp only [Stereo.transp, Stereo.gyration, dotProduct_smul, smul_eq_mul]
  funext i
  simp only [Pi.smul_apply, Pi.add_apply, smul_eq_mul]
  ring

theorem stereo_metric {n : ℕ} (k : ℝ) (x u : Fin n → ℝ) (c : ℝ) :
    Stereo.inner k x (c • u) (c • u) = c ^ 2 * Stereo.inner k x u u := by
  simp only [Stereo.inner, smul_dotProduct, dotProduct_smul, smul_eq_mul]
  ring

theorem C117_stereographic {n : ℕ} (η : ℝ) (dt : DType) (k : ℝ) : Homogeneous (stereographic (n := n) η dt k) :=
  ⟨fun x g c => smul_comm _ _ _, fun x u v c => Prod.ext rfl (stereo_transp k x _ v c), fun _ _ _ => rfl,
    fun x u c => funext fun _ => stereo_metric k x u c⟩

theorem C117_stereographic_exact {n : ℕ} (η : ℝ) (dt : DType) (k : ℝ) :
    Homogeneous (stereographicExact (n := n) η dt k) :=
  ⟨fun x g c => smul_comm _ _ _, fun x u v c => Prod.ext rfl (stereo_transp k x _ v c), fun _ _ _ => rfl,
    fun x u c => funext fun _ => stereo_metric k x u c⟩

theorem lorentz_inner {n : ℕ} (x u : Fin (n + 1) → ℝ) (c : ℝ) :
    Lorentz.inner x (c • u) = c * Lorentz.inner x u := by
  have t : Fin.tail (c • u) = c • Fin.tail u := rfl
  simp only [Lorentz.inner, t, dotProduct_smul, Pi.smul_apply, smul_eq_mul]
  ring

theorem lorentz_comm {n : ℕ} (x u : Fin (n + 1) → ℝ) : Lorentz.inner x u = Lorentz.inner u x := by
  simp only [Lorentz.inner, dotProduct_comm, mul_comm]

theorem C117_lorentz {n : ℕ} (k : ℝ) : Homogeneous (lorentz (n := n) k) := by
  refine ⟨fun x g c => ?_, fun x u v c => Prod.ext rfl ?_, fun x u c => ?_, fun x u c => funext fun _ => ?_⟩
  · have e : (Fin.cons ((c • g) 0 * -1) (Fin.tail (c • g)) : Fin (n + 1) → ℝ) =
        c • (Fin.cons (g 0 * -1) (Fin.tail g) : Fin (n + 1) → ℝ) := by
      funext i
      refine Fin.cases ?_ (fun i => ?_) i
      · simp
      · simp [Fin.tail]
    change _ + _ = _
    dsimp only [Optim.lorentz, Lorentz.egrad2rgrad]
    rw [e, lorentz_inner, smul_add, mul_smul]
  · change _ - _ = _
    dsimp only [Optim.lorentz, Lorentz.transp]
    rw [lorentz_inner, mul_div_assoc, mul_smul, smul_sub]
  · dsimp only [Optim.lorentz, Lorentz.proju, Lorentz.projectU]
    rw [lorentz_inner]
    module
  · dsimp only [Optim.lorentz]
    rw [lorentz_inner, lorentz_comm, lorentz_inner, Pi.smul_apply, smul_eq_mul]
    ring

section Stiefel
open Geoopt.Stiefel
variable {n m : ℕ}

theorem canonical_proju (x u : Matrix (Fin n) (Fin m) ℝ) (c : ℝ) :
    Canonical.proju x (c • u) = c • Canonical.proju x u := by
  simp [Canonical.proju, smul_sub]

theorem euclidean_proju (x u : Matrix (Fin n) (Fin m) ℝ) (c : ℝ) :
    Euclidean.proju x (c • u) = c • Euclidean.proju x u := by
  have e : Linalg.sym (c • (xᵀ * u)) = c • Linalg.sym (xᵀ * u) := by
    unfold Linalg.sym
    rw [Matrix.transpose_smul]
    module
  rw [Euclidean.proju, Euclidean.proju, Matrix.mul_smul, e, Matrix.mul_smul, smul_sub]

theorem frob_smul {n m : ℕ} (u : Matrix (Fin n) (Fin m) ℝ) (c : ℝ) :
    Linalg.frob (c • u) (c • u) = c ^ 2 * Linalg.frob u u := by
  simp only [Linalg.frob, Matrix.smul_apply, smul_eq_mul, Finset.mul_sum]
  exact Finset.sum_congr rfl fun _ _ => Finset.sum_congr rfl fun _ _ => by ring

theorem canonical_transp (x u v : Matrix (Fin n) (Fin m) ℝ) (c : ℝ) :
    Canonical.transpFollowRetr x u (c • v) = c • Canonical.transpFollowRetr x u v := by
  simp only [Canonical.transpFollowRetr, transpFollowOne_eq, Matrix.mul_smul]

theorem C117_canonical_stiefel (proj : Matrix (Fin n) (Fin m) ℝ → Matrix (Fin n) (Fin m) ℝ) :
    Homogeneous (canonicalStiefel proj) := by
  refine ⟨fun x g c => congrArg ofMat (canonical_proju _ _ c), fun x u v c => ?_,
    fun x g c => congrArg ofMat (canonical_proju _ _ c), fun x u c => funext fun _ => ?_⟩
  · have e : ∀ w, (Optim.canonicalStiefel proj).retrTransp x u w =
        (ofMat (Canonical.retr (toMat x) (toMat u)),
          ofMat (Canonical.transpFollowRetr (toMat x) (toMat u) (toMat w))) := fun w =>
      congrArg (fun p : Matrix (Fin n) (Fin m) ℝ × Matrix (Fin n) (Fin m) ℝ => (ofMat p.1, ofMat p.2))
        (C24_retr_transp (toMat x) (toMat u) (toMat w))
    rw [e, e]
    exact Prod.ext rfl (congrArg ofMat (canonical_transp (toMat x) (toMat u) (toMat v) c))
  · have z : toMat (c • u) = c • toMat u := rfl
    simp only [Optim.canonicalStiefel, Canonical.inner, z, Matrix.mul_smul, frob_smul, Pi.smul_apply, smul_eq_mul]
    ring

theorem C117_euclidean_stiefel
    (qr : Matrix (Fin n) (Fin m) ℝ → Matrix (Fin n) (Fin m) ℝ × Matrix (Fin m) (Fin m) ℝ)
    (proj : Matrix (Fin n) (Fin m) ℝ → Matrix (Fin n) (Fin m) ℝ) : Homogeneous (euclideanStiefel qr proj) :=
  ⟨fun x g c => congrArg ofMat (euclidean_proju _ _ c), fun x u v c =>
    Prod.ext rfl (congrArg ofMat (euclidean_proju _ (toMat v) c)),
    fun x g c => congrArg ofMat (euclidean_proju _ _ c), fun x u c => funext fun _ => frob_smul (toMat u) c⟩

theorem C117_euclidean_stiefel_exact (proj : Matrix (Fin n) (Fin m) ℝ → Matrix (Fin n) (Fin m) ℝ) :
    Homogeneous (euclideanStiefelExact proj) :=
  ⟨fun x g c => congrArg ofMat (euclidean_proju _ _ c), fun x u v c =>
    Prod.ext rfl (congrArg ofMat (euclidean_proju _ (toMat v) c)),
    fun x g c => congrArg ofMat (euclidean_proju _ _ c), fun x u c => funext fun _ => frob_smul (toMat u) c⟩

end Stiefel

theorem sym_smul {n : ℕ} (u : Matrix (Fin n) (Fin n) ℝ) (c : ℝ) : Linalg.sym (c • u) = c • Linalg.sym u := by
  unfold Linalg.sym
  rw [Matrix.transpose_smul]
  module

theorem spd_egrad {n : ℕ} (x g : Matrix (Fin n) (Fin n) ℝ) (c : ℝ) :
    SPD.egrad2rgrad x (c • g) = c • SPD.egrad2rgrad x g := by
  simp only [SPD.egrad2rgrad, SPD.proju, sym_smul, Matrix.mul_smul, Matrix.smul_mul]

theorem spd_transp {n : ℕ} (E : Linalg.Eigh n) (x y v : Matrix (Fin n) (Fin n) ℝ) (c : ℝ) :
    SPD.transp E x y (c • v) = c • SPD.transp E x y v := by
  simp only [SPD.transp, sym_smul, Matrix.mul_smul, Matrix.smul_mul]

theorem spd_metric {n : ℕ} (x u : Matrix (Fin n) (Fin n) ℝ) (c : ℝ) :
    SPD.inner x (c • u) (c • u) = c ^ 2 * SPD.inner x u u := by
  simp only [SPD.inner, Linalg.trace, Matrix.mul_smul, Matrix.smul_mul, smul_smul, Matrix.smul_apply, smul_eq_mul,
    Finset.mul_sum]
  exact Finset.sum_congr rfl fun _ _ => by ring

theorem C117_spd {n : ℕ} (E : Linalg.Eigh n) : Homogeneous (spd E) :=
  ⟨fun x g c => congrArg ofMat (spd_egrad _ (toMat g) c), fun x u v c =>
    Prod.ext rfl (congrArg ofMat (spd_transp E _ _ (toMat v) c)), fun x u c => congrArg ofMat (sym_smul (toMat u) c),
    fun x u c => funext fun _ => spd_metric (toMat x) (toMat u) c⟩

theorem C117_batch (β : Type) {ι : Type} {M : Manifold ι} (h : Homogeneous M) : Homogeneous (batch β M) :=
  ⟨fun x g c => funext fun p => congrFun (h.egrad (fun i => x (p.1, i)) (fun i => g (p.1, i)) c) p.2,
    fun x u v c => Prod.ext
      (funext fun p => congrFun (congrArg Prod.fst
        (h.transp (fun i => x (p.1, i)) (fun i => u (p.1, i)) (fun i => v (p.1, i)) c)) p.2)
      (funext fun p => congrFun (congrArg Prod.snd
        (h.transp (fun i => x (p.1, i)) (fun i => u (p.1, i)) (fun i => v (p.1, i)) c)) p.2),
    fun x g c => funext fun p => congrFun (h.proju (fun i => x (p.1, i)) (fun i => g (p.1, i)) c) p.2,
    fun x g c => funext fun p => congrFun (h.metric (fun i => x (p.1, i)) (fun i => g (p.1, i)) c) p.2⟩

theorem C117_product {J : Type} {ι : J → Type} {Ms : ∀ j, Manifold (ι j)} (h : ∀ j, Homogeneous (Ms j)) :
    Homogeneous (product Ms) :=
  ⟨fun x g c => funext fun p => congrFun ((h p.1).egrad (fun i => x ⟨p.1, i⟩) (fun i => g ⟨p.1, i⟩) c) p.2,
    fun x u v c => Prod.ext
      (funext fun p => congrFun (congrArg Prod.fst
        ((h p.1).transp (fun i => x ⟨p.1, i⟩) (fun i => u ⟨p.1, i⟩) (fun i => v ⟨p.1, i⟩) c)) p.2)
      (funext fun p => congrFun (congrArg Prod.snd
        ((h p.1).transp (fun i => x ⟨p.1, i⟩) (fun i => u ⟨p.1, i⟩) (fun i => v ⟨p.1, i⟩) c)) p.2),
    fun x g c => funext fun p => congrFun ((h p.1).proju (fun i => x ⟨p.1, i⟩) (fun i => g ⟨p.1, i⟩) c) p.2,
    fun x g c => funext fun p => congrFun ((h p.1).metric (fun i => x ⟨p.1, i⟩) (fun i => g ⟨p.1, i⟩) c) p.2⟩

/-! ### RiemannianSGD -/

theorem sgdParam_scale {ι : Type} {M : Manifold ι} (H : Homogeneous M) {c : ℝ} (hc : 0 < c) (h : SGDHyper)
    (s s' : SGDParam ι) (e1 : s'.point = s.point) (e2 : s'.buf = s.buf.map (c • ·)) (e3 : s'.grad = s.grad.scale c) :
    (sgdParam M (h.rescale c) s').2 = (sgdParam M h s).2 ∧
    (sgdParam M (h.rescale c) s').1.point = (sgdParam M h s).1.point ∧
    (sgdParam M (h.rescale c) s').1.buf = (sgdParam M h s).1.buf.map (c • ·) := by
  obtain ⟨x, g, b⟩ := s
  obtain ⟨x', g', b'⟩ := s'
  obtain rfl : x' = x := e1
  obtain rfl : b' = b.map (c • ·) := e2
  obtain rfl : g' = g.scale c := e3
  have hc' : c ≠ 0 := hc.ne'
  cases g with
  | none => exact ⟨rfl, rfl, rfl⟩
  | sparse => exact ⟨rfl, rfl, rfl⟩
  | dense g =>
    have hv : (M.egrad2rgrad x' (c • g + (c * h.weightDecay) • x')).value =
        c • (M.egrad2rgrad x' (g + h.weightDecay • x')).value := by
      rw [mul_smul, ← smul_add, H.egrad]
    have hl : ∀ u : ι → ℝ, -(h.lr / c) • (c • u) = -h.lr • u := fun u => by
      rw [smul_smul]; congr 1; field_simp
    obtain ⟨h', hh⟩ : ∃ h', h' = h.rescale c := ⟨_, rfl⟩
    rw [← hh]
    have f1 : h'.momentum = h.momentum := by rw [hh]; rfl
    have f2 : h'.dampening = h.dampening := by rw [hh]; rfl
    have f3 : h'.nesterov = h.nesterov := by rw [hh]; rfl
    have f4 : h'.lr = h.lr / c := by rw [hh]; rfl
    have f5 : h'.weightDecay = c * h.weightDecay := by rw [hh]; rfl
    unfold sgdParam
    simp only [Grad.scale, f5, hv]
    generalize (M.egrad2rgrad x' (g + h.weightDecay • x')).value = r
    by_cases hm : 0 < h.momentum
    · have hm' : 0 < h'.momentum := by rw [f1]; exact hm
      simp only [if_pos hm, if_pos hm']
      have key : ∀ b0 : ι → ℝ, h.momentum • (c • b0) + (1 - h.dampening) • (c • r) =
          c • (h.momentum • b0 + (1 - h.dampening) • r) := fun b0 => by
        rw [smul_add, smul_comm c, smul_comm c]
      have kn : ∀ b : ι → ℝ, (if h.nesterov = true then c • r + h.momentum • (c • b) else c • b) =
          c • if h.nesterov = true then r + h.momentum • b else b := fun b => by
        split_ifs
        · rw [smul_add, smul_comm c h.momentum]
        · rfl
      cases b with
      | none =>
        simp only [Option.map, f1, f2, f3, f4, key, kn, hl, H.transp, and_self]
      | some b =>
        simp only [Option.map, f1, f2, f3, f4, key, kn, hl, H.transp, and_self]
    · have hm' : ¬ 0 < h'.momentum := by rw [f1]; exact hm
      cases b <;> simp only [if_neg hm, if_neg hm', f4, hl, Option.map, and_self]

variable {κ : Type} [DecidableEq κ] {ι : κ → Type} (P : Params κ ι)

/-- **C117** for `RiemannianSGD`: training on `c` times the loss, with the learning rates divided by `c` and the weight
decay multiplied by `c`, gives the same parameters after every step (and `c` times the momentum buffers). -/
theorem C117_sgd (H : ∀ a, Homogeneous (P.manifold a)) {c : ℝ} (hc : 0 < c)
    (g : ℕ → (∀ a, ι a → ℝ) → ∀ a, Grad (ι a)) {o o' : ℕ → SGD κ ι}
    (hn : ((o 0).groups.flatMap Group.params).Nodup)
    (h0 : ∀ a, ((o' 0).par a).point = ((o 0).par a).point ∧ ((o 0).par a).buf = none ∧ ((o' 0).par a).buf = none)
    (hG : (o' 0).groups = (o 0).groups.map fun G => { G with hyper := G.hyper.rescale c })
    (h : ∀ t, sgdTrain P (g t) (o t) = (o (t + 1), none))
    (h' : ∀ t, (sgdTrain P (fun x a => (g t x a).scale c) (o' t)).1 = o' (t + 1)) (t : ℕ) :
    (sgdTrain P (fun x a => (g t x a).scale c) (o' t)).2 = none ∧
    ∀ a, ((o' t).par a).point = ((o t).par a).point ∧ ((o' t).par a).buf = ((o t).par a).buf.map (c • ·) := by
  have step : ∀ t, ((o t).groups.flatMap Group.params).Nodup →
      (∀ a, ((o' t).par a).point = ((o t).par a).point ∧
        ((o' t).par a).buf = ((o t).par a).buf.map (c • ·)) →
      (o' t).groups = ((o t).groups.map fun G => { G with hyper := G.hyper.rescale c }) →
      (sgdTrain P (fun x a => (g t x a).scale c) (o' t)).2 = none ∧
      (∀ a, ((o' (t + 1)).par a).point = ((o (t + 1)).par a).point ∧
        ((o' (t + 1)).par a).buf = ((o (t + 1)).par a).buf.map (c • ·)) ∧
      ((o (t + 1)).groups.flatMap Group.params).Nodup ∧
      (o' (t + 1)).groups = ((o (t + 1)).groups.map fun G => { G with hyper := G.hyper.rescale c }) := by
    intro t hn e1 e2
    have k := h t
    unfold sgdTrain sgdStep at k
    simp only [Prod.mk.injEq] at k
    have ep : (fun a => ((o' t).par a).point) = fun a => ((o t).par a).point := funext fun a => (e1 a).1
    obtain ⟨r1, r2, r3, r4⟩ := counter_sim (fun h a => sgdParam (P.manifold a) h)
      (fun h a => sgdStab (P.isManifold a) (P.man a) h) SGDHyper.stabilize
      (SGDHyper.rescale c) (fun _ => rfl) (o t).groups hn
      (fun a => { (o t).par a with grad := g t (fun a => ((o t).par a).point) a })
      (fun a => { (o' t).par a with grad := (g t (fun a => ((o' t).par a).point) a).scale c })
      (fun a s s' => s'.point = s.point ∧ s'.buf = s.buf.map (c • ·)) e1
      (fun G hG a ha he => by
        have q := sgdParam_scale (H a) hc G.hyper
          { (o t).par a with grad := g t (fun a => ((o t).par a).point) a }
          { (o' t).par a with grad := (g t (fun a => ((o' t).par a).point) a).scale c } (e1 a).1 (e1 a).2
          (by dsimp only; rw [ep])
        exact ⟨by rw [q.1]; exact he, q.2⟩)
      (fun G _ a _ s s' ⟨q1, q2⟩ => by
        unfold sgdStab
        by_cases hM : P.isManifold a = false
        · simp only [if_pos hM]; exact ⟨q1, q2⟩
        · simp only [if_neg hM]
          have e : P.manifold a = P.man a := by unfold Params.manifold; rw [if_pos (by simpa using hM)]
          have Ha := H a
          rw [e] at Ha
          change (if 0 < G.hyper.momentum then _ else _ : SGDParam (ι a)).point = _ ∧
            (if 0 < G.hyper.momentum then _ else _ : SGDParam (ι a)).buf = _
          split_ifs
          · refine ⟨by rw [q1], ?_⟩
            dsimp only
            rw [q1, q2]
            cases s.buf with
            | none => rfl
            | some b => exact congrArg some (Ha.proju _ b c)
          · exact ⟨by rw [q1], q2⟩) k.2
    have eg : (o (t + 1)).groups = (o t).groups.map fun G => { G with step := G.step + 1 } := by
      rw [← k.1]; exact r3
    have e3 : o' t = ⟨(o' t).par, (o t).groups.map fun G => { G with hyper := G.hyper.rescale c }⟩ :=
      congrArg (SGD.mk (o' t).par) e2
    have e4 : sgdTrain P (fun x a => (g t x a).scale c) (o' t) = (o' (t + 1), none) := by
      refine Prod.ext (h' t) ?_
      rw [e3]; exact r1
    have e5 : sgdTrain P (fun x a => (g t x a).scale c) (o' t) = _ :=
      congrArg (sgdTrain P fun x a => (g t x a).scale c) e3
    refine ⟨by rw [e4], ?_, ?_, ?_⟩
    · rw [← h' t, ← k.1, e5]; exact r2
    · rw [eg]; simpa [List.flatMap_map] using hn
    · rw [← h' t, e5]
      refine Eq.trans r4 ?_
      rw [eg, List.map_map]
      rfl
  suffices ∀ t, ((o t).groups.flatMap Group.params).Nodup ∧
      (∀ a, ((o' t).par a).point = ((o t).par a).point ∧
        ((o' t).par a).buf = ((o t).par a).buf.map (c • ·)) ∧
      (o' t).groups = ((o t).groups.map fun G => { G with hyper := G.hyper.rescale c }) from
    ⟨(step t (this t).1 (this t).2.1 (this t).2.2).1, (this t).2.1⟩
  intro t
  induction t with
  | zero => exact ⟨hn, fun a => ⟨(h0 a).1, by rw [(h0 a).2.1, (h0 a).2.2]; rfl⟩, hG⟩
  | succ t ih =>
    obtain ⟨-, h2, h3, h4⟩ := step t ih.1 ih.2.1 ih.2.2
    exact ⟨h3, h2, h4⟩

/-! ### RiemannianAdam -/

theorem direction_scale {ι : Type} (h : AdamHyper) {c : ℝ} (hc : 0 < c) (t : ℕ) (m v : ι → ℝ) :
    adamDirection (h.rescale c) t (c • m) (c ^ 2 • v) = adamDirection h t m v := by
  funext i
  simp only [adamDirection, AdamHyper.rescale, Pi.smul_apply, smul_eq_mul]
  rw [mul_div_assoc (c ^ 2), Real.sqrt_mul (sq_nonneg c), Real.sqrt_sq hc.le, ← mul_add, mul_div_assoc c (m i),
    mul_div_mul_left _ _ hc.ne']

theorem adamParam_scale {ι : Type} {M : Manifold ι} (H : Homogeneous M) {c : ℝ} (hc : 0 < c) (h : AdamHyper)
    (s s' : AdamParam ι) (e1 : s'.point = s.point) (e2 : s'.state = s.state.map (AdamState.rescale c))
    (e3 : s'.grad = s.grad.scale c) :
    (adamParam M (h.rescale c) s').2 = (adamParam M h s).2 ∧
    (adamParam M (h.rescale c) s').1.point = (adamParam M h s).1.point ∧
    (adamParam M (h.rescale c) s').1.state = (adamParam M h s).1.state.map (AdamState.rescale c) := by
  obtain ⟨x, g, b⟩ := s
  obtain ⟨x', g', b'⟩ := s'
  obtain rfl : x' = x := e1
  obtain rfl : b' = b.map (AdamState.rescale c) := e2
  obtain rfl : g' = g.scale c := e3
  cases g with
  | none => exact ⟨rfl, rfl, rfl⟩
  | sparse => exact ⟨rfl, rfl, rfl⟩
  | dense g =>
    have hv : (M.egrad2rgrad x' (c • g + (c * h.weightDecay) • x')).value =
        c • (M.egrad2rgrad x' (g + h.weightDecay • x')).value := by
      rw [mul_smul, ← smul_add, H.egrad]
    have hi : adamInit h.amsgrad (b.map (AdamState.rescale c)) =
        (adamInit h.amsgrad b).rescale c := by
      cases b with
      | some st => rfl
      | none =>
        simp only [adamInit, AdamState.rescale, Option.map, smul_zero]
        cases h.amsgrad <;> simp
    have hr : h.amsgrad = (h.rescale c).amsgrad := rfl
    unfold adamParam
    simp only [Grad.scale]
    rw [← hr, hi]
    change _ ∧ _ ∧ _
    simp only [show (h.rescale c).weightDecay = c * h.weightDecay from rfl, show (h.rescale c).beta1 = h.beta1 from rfl,
      show (h.rescale c).beta2 = h.beta2 from rfl, show (h.rescale c).lr = h.lr from rfl,
      show (h.rescale c).stabilize = h.stabilize from rfl, hv, H.metric]
    generalize (M.egrad2rgrad x' (g + h.weightDecay • x')).value = r
    generalize adamInit h.amsgrad b = st
    obtain ⟨t, m, v, vm⟩ := st
    simp only [AdamState.rescale]
    have em : h.beta1 • (c • m) + (1 - h.beta1) • (c • r) = c • (h.beta1 • m + (1 - h.beta1) • r) := by
      rw [smul_add, smul_comm c, smul_comm c]
    have ev : h.beta2 • (c ^ 2 • v) + (1 - h.beta2) • (c ^ 2 • M.componentInner x' r) =
        c ^ 2 • (h.beta2 • v + (1 - h.beta2) • M.componentInner x' r) := by
      rw [smul_add, smul_comm (c ^ 2), smul_comm (c ^ 2)]
    rw [em, ev]
    generalize h.beta1 • m + (1 - h.beta1) • r = m'
    generalize h.beta2 • v + (1 - h.beta2) • M.componentInner x' r = v'
    cases h.amsgrad with
    | false =>
      cases vm <;>
      · dsimp only [Option.map]
        rw [direction_scale h hc, H.transp]
        exact ⟨rfl, rfl, rfl⟩
    | true =>
      cases vm with
      | none => exact ⟨rfl, rfl, rfl⟩
      | some vm =>
        have ex : (fun i => max ((c ^ 2 • vm) i) ((c ^ 2 • v') i)) = c ^ 2 • fun i => max (vm i) (v' i) := by
          funext i
          simp only [Pi.smul_apply, smul_eq_mul]
          rw [mul_max_of_nonneg _ _ (sq_nonneg c)]
        dsimp only [Option.map]
        rw [ex, direction_scale h hc, H.transp]
        exact ⟨rfl, rfl, rfl⟩

/-- **C117** for `RiemannianAdam`: training on `c` times the loss, with `eps` and the weight decay multiplied by `c`
and the same learning rates, gives the same parameters after every step. -/
theorem C117_adam (H : ∀ a, Homogeneous (P.manifold a)) {c : ℝ} (hc : 0 < c)
    (g : ℕ → (∀ a, ι a → ℝ) → ∀ a, Grad (ι a)) {o o' : ℕ → Adam κ ι}
    (hn : ((o 0).groups.flatMap Prod.snd).Nodup)
    (h0 : ∀ a, ((o' 0).par a).point = ((o 0).par a).point ∧ ((o 0).par a).state = none ∧ ((o' 0).par a).state = none)
    (hG : (o' 0).groups = (o 0).groups.map fun G => (G.1.rescale c, G.2))
    (h : ∀ t, adamTrain P (g t) (o t) = (o (t + 1), none))
    (h' : ∀ t, (adamTrain P (fun x a => (g t x a).scale c) (o' t)).1 = o' (t + 1)) (t : ℕ) :
    (adamTrain P (fun x a => (g t x a).scale c) (o' t)).2 = none ∧
    ∀ a, ((o' t).par a).point = ((o t).par a).point ∧
      ((o' t).par a).state = ((o t).par a).state.map (AdamState.rescale c) := by
  have step : ∀ t, ((o t).groups.flatMap Prod.snd).Nodup →
      (∀ a, ((o' t).par a).point = ((o t).par a).point ∧
        ((o' t).par a).state = ((o t).par a).state.map (AdamState.rescale c)) →
      (o' t).groups = ((o t).groups.map fun G => (G.1.rescale c, G.2)) →
      (adamTrain P (fun x a => (g t x a).scale c) (o' t)).2 = none ∧
      (∀ a, ((o' (t + 1)).par a).point = ((o (t + 1)).par a).point ∧
        ((o' (t + 1)).par a).state = ((o (t + 1)).par a).state.map (AdamState.rescale c)) ∧
      ((o (t + 1)).groups.flatMap Prod.snd).Nodup ∧
      (o' (t + 1)).groups = ((o (t + 1)).groups.map fun G => (G.1.rescale c, G.2)) := by
    intro t hn e1 e2
    have k := h t
    unfold adamTrain adamStep at k
    simp only [Prod.mk.injEq] at k
    have ep : (fun a => ((o' t).par a).point) = fun a => ((o t).par a).point := funext fun a => (e1 a).1
    obtain ⟨r1, r2, r3, r4⟩ := flag_sim (fun (h : AdamHyper) a => adamParam (P.manifold a) h)
      (fun _ a => adamStab (P.isManifold a) (P.man a)) (AdamHyper.rescale c) (o t).groups hn
      (fun a => { (o t).par a with grad := g t (fun a => ((o t).par a).point) a })
      (fun a => { (o' t).par a with grad := (g t (fun a => ((o' t).par a).point) a).scale c })
      (fun a s s' => s'.point = s.point ∧ s'.state = s.state.map (AdamState.rescale c)) e1
      (fun G hG a ha he => adamParam_scale (H a) hc G.1
          { (o t).par a with grad := g t (fun a => ((o t).par a).point) a }
          { (o' t).par a with grad := (g t (fun a => ((o' t).par a).point) a).scale c } (e1 a).1 (e1 a).2
          (by dsimp only; rw [ep]))
      (fun G _ a _ s s' ⟨q1, q2⟩ => by
        unfold adamStab
        by_cases hM : P.isManifold a = false
        · simp only [if_pos hM]; exact ⟨q1, q2⟩
        · simp only [if_neg hM]
          have e : P.manifold a = P.man a := by unfold Params.manifold; rw [if_pos (by simpa using hM)]
          have Ha := H a
          rw [e] at Ha
          rw [q2]
          cases hs : s.state with
          | none => exact ⟨q1, q2⟩
          | some st =>
            dsimp only [Option.map]
            refine ⟨by rw [q1], ?_⟩
            rw [q1]
            simp only [AdamState.rescale, Ha.proju]) k.2
    have eg : (o (t + 1)).groups = (o t).groups := by
      rw [← k.1]; exact r3
    have e3 : o' t = ⟨(o' t).par, (o t).groups.map fun G => (G.1.rescale c, G.2)⟩ :=
      congrArg (Adam.mk (o' t).par) e2
    have e4 : adamTrain P (fun x a => (g t x a).scale c) (o' t) = (o' (t + 1), none) := by
      refine Prod.ext (h' t) ?_
      rw [e3]; exact r1
    have e5 : adamTrain P (fun x a => (g t x a).scale c) (o' t) = _ :=
      congrArg (adamTrain P fun x a => (g t x a).scale c) e3
    refine ⟨by rw [e4], ?_, ?_, ?_⟩
    · rw [← h' t, ← k.1, e5]; exact r2
    · rw [eg]; exact hn
    · rw [← h' t, e5]
      refine Eq.trans r4 ?_
      rw [eg]
  suffices ∀ t, ((o t).groups.flatMap Prod.snd).Nodup ∧
      (∀ a, ((o' t).par a).point = ((o t).par a).point ∧
        ((o' t).par a).state = ((o t).par a).state.map (AdamState.rescale c)) ∧
      (o' t).groups = ((o t).groups.map fun G => (G.1.rescale c, G.2)) from
    ⟨(step t (this t).1 (this t).2.1 (this t).2.2).1, (this t).2.1⟩
  intro t
  induction t with
  | zero => exact ⟨hn, fun a => ⟨(h0 a).1, by rw [(h0 a).2.1, (h0 a).2.2]; rfl⟩, hG⟩
  | succ t ih =>
    obtain ⟨-, h2, h3, h4⟩ := step t ih.1 ih.2.1 ih.2.2
    exact ⟨h3, h2, h4⟩

/-- Non-vacuity: a point of the circle moved by a loss and by ten times the loss. -/
example : ∃ (P : Params Unit fun _ => Fin 2) (g : ℕ → (Unit → Fin 2 → ℝ) → Unit → Grad (Fin 2))
    (o o' : ℕ → SGD Unit fun _ => Fin 2),
    (∀ a, Homogeneous (P.manifold a)) ∧ ((o 0).groups.flatMap Group.params).Nodup ∧
    (∀ a, ((o' 0).par a).point = ((o 0).par a).point ∧ ((o 0).par a).buf = none ∧ ((o' 0).par a).buf = none) ∧
    (o' 0).groups = ((o 0).groups.map fun G => { G with hyper := G.hyper.rescale 10 }) ∧
    (∀ t, sgdTrain P (g t) (o t) = (o (t + 1), none)) ∧
    (∀ t, (sgdTrain P (fun x a => (g t x a).scale 10) (o' t)).1 = o' (t + 1)) ∧
    ((o 1).par ()).point ≠ ((o 0).par ()).point := by
  let h : SGDHyper := ⟨1, 1 / 2, 0, 1, false, none⟩
  let P : Params Unit fun _ => Fin 2 := ⟨fun _ => true, fun _ => Optim.sphere none⟩
  let g : ℕ → (Unit → Fin 2 → ℝ) → Unit → Grad (Fin 2) := fun _ _ _ => .dense ![0, 1]
  let p : Unit → SGDParam (Fin 2) := fun _ => ⟨![1, 0], .none, none⟩
  let it (g : ℕ → (Unit → Fin 2 → ℝ) → Unit → Grad (Fin 2)) (o : SGD Unit fun _ => Fin 2) :
      ℕ → SGD Unit fun _ => Fin 2 := fun t => t.rec o fun t o => (sgdTrain P (g t) o).1
  have m : (0 : ℝ) < 1 / 2 := by norm_num
  have k : ∀ t (q : Unit → SGDParam (Fin 2)), (sgdTrain P (g t) ⟨q, [⟨h, t, [()]⟩]⟩).2 = none ∧
      (sgdTrain P (g t) ⟨q, [⟨h, t, [()]⟩]⟩).1.groups = [⟨h, t + 1, [()]⟩] := by
    intro t q
    cases hb : (q ()).buf <;>
    simp [sgdTrain, sgdStep, forGroups, sgdGroup, counterGroup, forParams, sgdParam, h, g, hb]
  have ig : ∀ t, (it g ⟨p, [⟨h, 0, [()]⟩]⟩ t).groups = [⟨h, t, [()]⟩] := by
    intro t
    induction t with
    | zero => rfl
    | succ t ih =>
      have := (k t (it g ⟨p, [⟨h, 0, [()]⟩]⟩ t).par).2
      rw [← ih] at this
      exact this
  refine ⟨P, g, it g ⟨p, [⟨h, 0, [()]⟩]⟩,
    it (fun t x a => (g t x a).scale 10) ⟨p, [⟨h.rescale 10, 0, [()]⟩]⟩, fun _ => C117_sphere none,
    by simp [it], fun _ => ⟨rfl, rfl, rfl⟩, rfl, fun t => Prod.ext rfl ?_, fun _ => rfl, fun e => ?_⟩
  · have := (k t (it g ⟨p, [⟨h, 0, [()]⟩]⟩ t).par).1
    rw [← ig t] at this
    exact this
  · have := congrFun e 1
    simp [it, sgdTrain, sgdStep, forGroups, sgdGroup, counterGroup, forParams, sgdParam, h, g, p, P,
      Params.manifold, Optim.sphere, Sphere.retr, Sphere.projx, Sphere.egrad2rgrad, Sphere.proju,
      Sphere.projectOnSubspace, nrm, dotProduct, Fin.sum_univ_two] at this
    norm_num at this

end Geoopt.C117
