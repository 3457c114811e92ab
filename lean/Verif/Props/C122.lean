import Verif.Spec.Frozen
import Verif.Props.C55
import Verif.Props.C80
import Verif.Props.C80Exact
import Verif.Props.C99Manifolds
import Verif.Model.OptimProduct
import Verif.Model.OptimBirkhoff
import Verif.Lemmas.OptimStep
import Verif.Lemmas.OptimNoerr

/-!
# C122: a learning rate of zero freezes parameters
-/

namespace Geoopt.C122
open Geoopt Geoopt.Optim Matrix Filter Topology C55

variable {κ : Type} [DecidableEq κ] {ι : κ → Type} {P : Params κ ι}

/-! ## The loop bodies -/

theorem sgdParam_zero {ι : Type} (M : Manifold ι) {h : SGDHyper} (h0 : h.lr = 0) (s : SGDParam ι) :
    (sgdParam M h s).1.point = s.point ∨ (sgdParam M h s).1.point = M.retr s.point 0 ∨
      ∃ v, (sgdParam M h s).1.point = (M.retrTransp s.point 0 v).1 := by
  unfold sgdParam
  cases s.grad with
  | none => exact .inl rfl
  | sparse => exact .inl rfl
  | dense g =>
    dsimp only
    by_cases hm : 0 < h.momentum
    · simp only [if_pos hm, h0, neg_zero, zero_smul]
      cases s.buf with
      | none => exact .inr (.inr ⟨_, rfl⟩)
      | some b => exact .inr (.inr ⟨_, rfl⟩)
    · simp only [if_neg hm, h0, neg_zero, zero_smul]
      exact .inr (.inl trivial)

theorem sgdParam_dense {ι : Type} (M : Manifold ι) {h : SGDHyper} (h0 : h.lr = 0) (s : SGDParam ι)
    {g : ι → ℝ} (hg : s.grad = .dense g) :
    (sgdParam M h s).1.point = M.retr s.point 0 ∨
      ∃ v, (sgdParam M h s).1.point = (M.retrTransp s.point 0 v).1 := by
  unfold sgdParam
  rw [hg]
  dsimp only
  by_cases hm : 0 < h.momentum
  · simp only [if_pos hm, h0, neg_zero, zero_smul]
    cases s.buf with
    | none => exact .inr ⟨_, rfl⟩
    | some b => exact .inr ⟨_, rfl⟩
  · simp only [if_neg hm, h0, neg_zero, zero_smul]
    exact .inl trivial

theorem adamParam_zero {ι : Type} (M : Manifold ι) {h : AdamHyper} (h0 : h.lr = 0) (s : AdamParam ι) :
    (adamParam M h s).1.point = s.point ∨
      ∃ v, (adamParam M h s).1.point = (M.retrTransp s.point 0 v).1 := by
  unfold adamParam
  cases s.grad with
  | none => exact .inl rfl
  | sparse => exact .inl rfl
  | dense g =>
    simp only [h0, neg_zero, zero_smul]
    cases h.amsgrad with
    | false => exact .inr ⟨_, rfl⟩
    | true =>
      cases (adamInit true s.state).maxExpAvgSq with
      | none => exact .inl rfl
      | some vm => exact .inr ⟨_, rfl⟩

theorem sgdStab_rests {a : κ} {x : ι a → ℝ} (hx : Rests (P.manifold a) x) (h : SGDHyper)
    {s : SGDParam (ι a)} (hs : s.point = x) :
    (sgdStab (P.isManifold a) (P.man a) h s).point = x := by
  cases hM : P.isManifold a with
  | false => simp [sgdStab, hs]
  | true =>
    rw [manifold_of hM] at hx
    unfold sgdStab
    simp only [Bool.true_eq_false, if_false, hs, hx.projx]
    split_ifs <;> rfl

theorem adamStab_rests {a : κ} {x : ι a → ℝ} (hx : Rests (P.manifold a) x)
    {s : AdamParam (ι a)} (hs : s.point = x) :
    (adamStab (P.isManifold a) (P.man a) s).point = x := by
  cases hM : P.isManifold a with
  | false => simp [adamStab, hs]
  | true =>
    rw [manifold_of hM] at hx
    unfold adamStab
    simp only [Bool.true_eq_false, if_false, hs, hx.projx]
    cases s.state <;> simp [hs]

/-! ## Histories -/

/-- **C122 (RiemannianSGD, on manifolds where the zero vector does not move the point).** A parameter with
learning rate zero stays where it is, whatever its gradients, momentum, weight decay and stabilisation,
whatever happens to the other parameters, and whether or not steps raise. -/
theorem C122_sgd_partial (a : κ) {o₀ o : SGD κ ι} (hx : Rests (P.manifold a) (o₀.par a).point)
    (hr : SGDReach P (SGD.Frozen a) o₀ o) : (o.par a).point = (o₀.par a).point := by
  set Q : ∀ b, SGDParam (ι b) → Prop := fun b s => b = a → s.point = (o₀.par b).point with hQ
  have stab : ∀ (h : SGDHyper) (as : List κ) (w : ∀ b, SGDParam (ι b)), (∀ b, Q b (w b)) →
      ∀ b, Q b (stabParams (fun b => sgdStab (P.isManifold b) (P.man b) h) as w b) := by
    intro h as w hw
    refine stabParams_inv _ Q as (fun b _ s hs => ?_) w hw
    rintro rfl
    exact sgdStab_rests hx h (hs rfl)
  have group : ∀ (G : Group SGDHyper κ) (w : ∀ b, SGDParam (ι b)), (a ∈ G.params → G.hyper.lr = 0) →
      (∀ b, Q b (w b)) → ∀ b, Q b ((sgdGroup P w G).1 b) := by
    intro G w h0 hw
    have h1 := forParams_inv' (fun b => sgdParam (P.manifold b) G.hyper) Q G.params
      (fun b hb s hs => by
        rintro rfl
        rcases sgdParam_zero (P.manifold b) (h0 hb) s with h | h | ⟨v, h⟩
        · rw [h]; exact hs rfl
        · rw [h, hs rfl]; exact hx.retr
        · rw [h, hs rfl]; exact hx.retrTransp v) w hw
    unfold sgdGroup counterGroup
    rcases hf : forParams (fun b => sgdParam (P.manifold b) G.hyper) G.params w with ⟨w', b, e⟩
    rw [hf] at h1
    cases e with
    | some e => exact h1
    | none =>
      dsimp only
      cases G.hyper.stabilize with
      | none => exact h1
      | some k =>
        dsimp only
        rcases isMultiple (G.step + 1) k with e | b
        · exact h1
        · cases b with
          | false => exact h1
          | true => exact stab _ _ _ h1
  have groups : ∀ (Gs : List (Group SGDHyper κ)) (w : ∀ b, SGDParam (ι b)),
      (∀ G ∈ Gs, a ∈ G.params → G.hyper.lr = 0) → (∀ b, Q b (w b)) →
      ∀ b, Q b ((forGroups (sgdGroup P) Gs w).1 b) := by
    intro Gs
    induction Gs with
    | nil => intro w _ hw; exact hw
    | cons G Gs ih =>
      intro w h0 hw
      have h1 := group G w (h0 G (by simp)) hw
      rw [forGroups]
      rcases hg : sgdGroup P w G with ⟨w', G', e⟩
      rw [hg] at h1
      cases e with
      | some e => exact h1
      | none => exact ih w' (fun G hG => h0 G (by simp [hG])) h1
  have main : ∀ b, Q b (o.par b) := by
    induction hr with
    | start => exact fun _ _ => rfl
    | user _ h ih => exact fun b hb => (h b).1.trans (ih b hb)
    | @step o' _ h ih => exact groups o'.groups o'.par h ih
    | @stabilize o' _ ih =>
      have key : ∀ (Gs : List (Group SGDHyper κ)) (w : ∀ a, SGDParam (ι a)),
          (∀ a, Q a (w a)) → ∀ a, Q a (Gs.foldl (fun w G =>
            stabParams (fun a => sgdStab (P.isManifold a) (P.man a) G.hyper) G.params w) w a) := by
        intro Gs
        induction Gs with
        | nil => intro w hw; exact hw
        | cons G Gs ihG => intro w hw; exact ihG _ (stab _ _ _ hw)
      exact key o'.groups o'.par ih
  exact main a rfl

/-- **C122 (RiemannianAdam, on manifolds where the zero vector does not move the point).** -/
theorem C122_adam_partial (a : κ) {o₀ o : Adam κ ι} (hx : Rests (P.manifold a) (o₀.par a).point)
    (hr : AdamReachIf P (Adam.Frozen a) True o₀ o) : (o.par a).point = (o₀.par a).point := by
  set Q : ∀ b, AdamParam (ι b) → Prop := fun b s => b = a → s.point = (o₀.par b).point with hQ
  have stab : ∀ (as : List κ) (w : ∀ b, AdamParam (ι b)), (∀ b, Q b (w b)) →
      ∀ b, Q b (stabParams (fun b => adamStab (P.isManifold b) (P.man b)) as w b) := by
    intro as w hw
    refine stabParams_inv _ Q as (fun b _ s hs => ?_) w hw
    rintro rfl
    exact adamStab_rests hx (hs rfl)
  have group : ∀ (G : AdamHyper × List κ) (w : ∀ b, AdamParam (ι b)), (a ∈ G.2 → G.1.lr = 0) →
      (∀ b, Q b (w b)) → ∀ b, Q b ((adamGroup P w G).1 b) := by
    intro G w h0 hw
    have h1 := forParams_inv' (fun b => adamParam (P.manifold b) G.1) Q G.2
      (fun b hb s hs => by
        rintro rfl
        rcases adamParam_zero (P.manifold b) (h0 hb) s with h | ⟨v, h⟩
        · rw [h]; exact hs rfl
        · rw [h, hs rfl]; exact hx.retrTransp v) w hw
    unfold adamGroup flagGroup
    rcases hf : forParams (fun b => adamParam (P.manifold b) G.1) G.2 w with ⟨w', b, e⟩
    rw [hf] at h1
    cases e with
    | some e => exact h1
    | none =>
      dsimp only
      split_ifs
      · exact stab _ _ h1
      · exact h1
  have groups : ∀ (Gs : List (AdamHyper × List κ)) (w : ∀ b, AdamParam (ι b)),
      (∀ G ∈ Gs, a ∈ G.2 → G.1.lr = 0) → (∀ b, Q b (w b)) →
      ∀ b, Q b ((forGroups (adamGroup P) Gs w).1 b) := by
    intro Gs
    induction Gs with
    | nil => intro w _ hw; exact hw
    | cons G Gs ih =>
      intro w h0 hw
      have h1 := group G w (h0 G (by simp)) hw
      rw [forGroups]
      rcases hg : adamGroup P w G with ⟨w', G', e⟩
      rw [hg] at h1
      cases e with
      | some e => exact h1
      | none => exact ih w' (fun G hG => h0 G (by simp [hG])) h1
  have main : ∀ b, Q b (o.par b) := by
    induction hr with
    | start => exact fun _ _ => rfl
    | user _ h ih => exact fun b hb => (h b).1.trans (ih b hb)
    | @step o' _ h ih => exact groups o'.groups o'.par h ih
    | @stabilize o' _ _ ih =>
      have key : ∀ (Gs : List (AdamHyper × List κ)) (w : ∀ a, AdamParam (ι a)),
          (∀ a, Q a (w a)) → ∀ a, Q a (Gs.foldl (fun w G =>
            stabParams (fun a => adamStab (P.isManifold a) (P.man a)) G.2 w) w a) := by
        intro Gs
        induction Gs with
        | nil => intro w hw; exact hw
        | cons G Gs ihG => intro w hw; exact ihG _ (stab _ _ hw)
      exact key o'.groups o'.par ih
  exact main a rfl

/-! ## The manifolds -/

theorem C122_euclidean (ι : Type) (x : ι → ℝ) : Rests (euclidean ι) x :=
  ⟨by simp [euclidean], fun v => by simp [euclidean], rfl⟩

section sphere
variable {n : ℕ} {S : Set (Vec n)} {Pr : Option (Matrix (Fin n) (Fin n) ℝ)}

theorem C122_sphere (hP : Sphere.Projects S Pr) {x : Vec n} (hx : Sphere.OnSphere S x) :
    Rests (sphere Pr) x := by
  have h : Sphere.retr Pr x 0 = x := (C80.C80_sphere .f64 hP hx ((sphereTan hP x).zero_mem)).1
  exact ⟨h, fun _ => h, Sphere.C20_projx_fixes hP hx⟩

theorem C122_sphere_exact (dt : DType) (hP : Sphere.Projects S Pr) {x : Vec n}
    (hx : Sphere.OnSphere S x) : Rests (sphereExact Pr dt) x := by
  have h : Sphere.Exact.retr Pr dt x 0 = x :=
    (C80.C80_sphere_exact dt hP hx ((sphereTan hP x).zero_mem)).1
  exact ⟨h, fun _ => h, Sphere.C20_projx_fixes hP hx⟩

end sphere

section stereographic
variable {n : ℕ}

theorem mobiusAdd_zero' (k : ℝ) (x : Vec n) : Stereo.mobiusAdd k x 0 = x := by
  simp only [Stereo.mobiusAdd, Stereo.mobDenom, dotProduct_zero, mul_zero, sub_zero, smul_zero,
    add_zero, one_smul]
  norm_num

/-- The stereographic models of every curvature, at the points that `projx` leaves alone. -/
theorem C122_stereographic {η k : ℝ} {dt : DType} {x : Vec n} (hx : Stereo.M.projx η dt k x = x) :
    Rests (stereographic η dt k) x := by
  have h : Stereo.M.retr η dt k x 0 = x := by rw [Stereo.M.retr, add_zero]; exact hx
  exact ⟨h, fun _ => h, hx⟩

theorem C122_stereographic_exact {η k : ℝ} {dt : DType} {x : Vec n}
    (hx : Stereo.M.projx η dt k x = x) : Rests (stereographicExact η dt k) x := by
  have h : Stereo.M.expmap true η dt k x 0 = x := by
    simp only [Stereo.M.expmap, Stereo.expmap, smul_zero, mobiusAdd_zero']
    exact hx
  exact ⟨h, fun _ => h, hx⟩

end stereographic

section matrices
variable {n m : ℕ}

theorem C122_canonical_stiefel {proj : Matrix (Fin n) (Fin m) ℝ → Matrix (Fin n) (Fin m) ℝ}
    (hproj : ∀ x, Stiefel.OnStiefel x → proj x = x) {x : Fin n × Fin m → ℝ}
    (hx : Stiefel.OnStiefel (toMat x)) : Rests (canonicalStiefel proj) x := by
  have z : toMat (0 : Fin n × Fin m → ℝ) = 0 := rfl
  refine ⟨?_, fun v => ?_, ?_⟩
  · simp only [canonicalStiefel, z, Stiefel.C24_retr_zero]; rfl
  · simp only [canonicalStiefel, Stiefel.C24_retr_transp, z, Stiefel.C24_retr_zero]; rfl
  · simp only [canonicalStiefel, hproj _ hx]; rfl

theorem C122_euclidean_stiefel
    {qr : Matrix (Fin n) (Fin m) ℝ → Matrix (Fin n) (Fin m) ℝ × Matrix (Fin m) (Fin m) ℝ}
    (hqr : ∀ a, Linalg.IsQR a (qr a).1 (qr a).2)
    {proj : Matrix (Fin n) (Fin m) ℝ → Matrix (Fin n) (Fin m) ℝ}
    (hproj : ∀ x, Stiefel.OnStiefel x → proj x = x) {x : Fin n × Fin m → ℝ}
    (hx : Stiefel.OnStiefel (toMat x)) : Rests (euclideanStiefel qr proj) x := by
  have z : toMat (0 : Fin n × Fin m → ℝ) = 0 := rfl
  have h := Stiefel.C26_retr_zero hx (hqr (toMat x + 0))
  refine ⟨?_, fun v => ?_, ?_⟩
  · simp only [euclideanStiefel, z, h]; rfl
  · simp only [euclideanStiefel, z, h]; rfl
  · simp only [euclideanStiefel, hproj _ hx]; rfl

theorem C122_euclidean_stiefel_exact
    {proj : Matrix (Fin n) (Fin m) ℝ → Matrix (Fin n) (Fin m) ℝ}
    (hproj : ∀ x, Stiefel.OnStiefel x → proj x = x) {x : Fin n × Fin m → ℝ}
    (hx : Stiefel.OnStiefel (toMat x)) : Rests (euclideanStiefelExact proj) x := by
  have z : toMat (0 : Fin n × Fin m → ℝ) = 0 := rfl
  refine ⟨?_, fun v => ?_, ?_⟩
  · simp only [euclideanStiefelExact, z, Stiefel.C26_expmap_zero]; rfl
  · simp only [euclideanStiefelExact, z, Stiefel.C26_expmap_zero]; rfl
  · simp only [euclideanStiefelExact, hproj _ hx]; rfl

theorem C122_spd (E : Linalg.Eigh n) {x : Fin n × Fin n → ℝ} (hx : SPD.OnSPD (toMat x)) :
    Rests (spd E) x := by
  have z : toMat (0 : Fin n × Fin n → ℝ) = 0 := rfl
  have h : SPD.retr (toMat x) 0 = toMat x :=
    (C80.C80_spd E (u := 0) hx.1 (SPD.symm_iff.2 (by simp))).1
  refine ⟨?_, fun v => ?_, (spdGeometry E).projx hx⟩
  · simp only [spd, z, h]; rfl
  · simp only [spd, z, h]; rfl

end matrices

theorem C122_batch (β : Type) {ι : Type} {M : Manifold ι} {x : β × ι → ℝ}
    (hx : ∀ b, Rests M fun i => x (b, i)) : Rests (batch β M) x :=
  ⟨funext fun p => congrFun (hx p.1).retr p.2,
    fun v => funext fun p => congrFun ((hx p.1).retrTransp fun i => v (p.1, i)) p.2,
    funext fun p => congrFun (hx p.1).projx p.2⟩

theorem C122_product {J : Type} {ι : J → Type} {Ms : ∀ j, Manifold (ι j)} {x : (Σ j, ι j) → ℝ}
    (hx : ∀ j, Rests (Ms j) fun i => x ⟨j, i⟩) : Rests (product Ms) x :=
  ⟨funext fun p => congrFun (hx p.1).retr p.2,
    fun v => funext fun p => congrFun ((hx p.1).retrTransp fun i => v ⟨p.1, i⟩) p.2,
    funext fun p => congrFun (hx p.1).projx p.2⟩

theorem C122_scaled {ι : Type} {M : Manifold ι} (inner : (ι → ℝ) → (ι → ℝ) → ι → ℝ) (s : ℝ)
    {x : ι → ℝ} (hx : Rests M x) : Rests (scaled M inner s) x :=
  ⟨by simpa [scaled] using hx.retr, fun v => by simpa [scaled] using hx.retrTransp v, hx.projx⟩

/-! ## Lorentz -/

section lorentz
variable {n : ℕ} {k : ℝ}

theorem lorentz_step {Pr : Params κ fun _ => Fin (n + 1)} (hk : 0 < k) {o : SGD κ fun _ => Fin (n + 1)}
    {a : κ} (hM : Pr.manifold a = lorentz k) (hn : (o.groups.flatMap Group.params).Nodup)
    (he : (sgdStep Pr o).2 = none) (h0 : SGD.Frozen a o) (hG : ∃ G ∈ o.groups, a ∈ G.params)
    (hg : ∃ g, (o.par a).grad = .dense g) :
    ((sgdStep Pr o).1.par a).point = Lorentz.expmap k (o.par a).point 0 := by
  obtain ⟨G, hG, ha⟩ := hG
  obtain ⟨g, hg⟩ := hg
  have h := ((sgdStep_ok Pr o hn he).2 G hG a ha).2
  have h1 : (sgdParam (Pr.manifold a) G.hyper (o.par a)).1.point = Lorentz.expmap k (o.par a).point 0 := by
    rw [hM]
    rcases sgdParam_dense (lorentz k) (h0 G hG ha) (o.par a) hg with h | ⟨v, h⟩
    · rw [h]; rfl
    · rw [h]; rfl
  rw [h]
  split_ifs
  · cases hI : Pr.isManifold a with
    | false => simpa [sgdStab] using h1
    | true =>
      have hM' : Pr.man a = lorentz k := (manifold_of hI).symm.trans hM
      rw [hM']
      have hp : (lorentz k).projx (Lorentz.expmap k (o.par a).point 0) = Lorentz.expmap k (o.par a).point 0 :=
        Lorentz.C35_projx_fixes (Lorentz.C35_expmap_on hk _ _ _)
      unfold sgdStab
      simp only [Bool.true_eq_false, if_false, h1, hp]
      split_ifs <;> rfl
  · exact h1

/-- **C122 fails on `Lorentz`.** With learning rate zero and any gradients (and any momentum, weight decay
and stabilisation), each step multiplies the spatial part of the parameter by `cosh(1e-4/√k)`. -/
theorem C122_lorentz_drift {Pr : Params κ fun _ => Fin (n + 1)} (hk : 0 < k)
    {o : ℕ → SGD κ fun _ => Fin (n + 1)} {a : κ} (hM : Pr.manifold a = lorentz k) (hr : SGDRun Pr o)
    (h0 : ∀ t, SGD.Frozen a (o t)) (hG : ∀ t, ∃ G ∈ (o t).groups, a ∈ G.params)
    (hg : ∀ t, ∃ g, ((o t).par a).grad = .dense g)
    (hx : Lorentz.OnHyperboloid k ((o 0).par a).point) (hx0 : Fin.tail ((o 0).par a).point ≠ 0) :
    (∀ t, Lorentz.OnHyperboloid k ((o t).par a).point ∧ Fin.tail ((o t).par a).point =
      Real.cosh (1e-4 / Real.sqrt k) ^ t • Fin.tail ((o 0).par a).point) ∧
    Tendsto (fun t => nrm (Fin.tail ((o t).par a).point)) atTop atTop := by
  have hc : 1 < Real.cosh (1e-4 / Real.sqrt k) :=
    Real.one_lt_cosh.2 (div_pos (by norm_num) (Real.sqrt_pos.2 hk)).ne'
  have main : ∀ t, Lorentz.OnHyperboloid k ((o t).par a).point ∧ Fin.tail ((o t).par a).point =
      Real.cosh (1e-4 / Real.sqrt k) ^ t • Fin.tail ((o 0).par a).point := by
    intro t
    induction t with
    | zero => exact ⟨hx, by simp⟩
    | succ t ih =>
      rw [(hr.next t a).1, lorentz_step hk hM (hr.nodup t) (hr.ok t) (h0 t) (hG t) (hg t)]
      refine ⟨Lorentz.C35_expmap_on hk _ _ _, ?_⟩
      rw [(Lorentz.C37_counterexample_exp_zero hk ih.1 ?_).1, ih.2, smul_smul, pow_succ, mul_comm]
      rw [ih.2]
      exact smul_ne_zero (pow_pos (by linarith) _).ne' hx0
  refine ⟨main, ?_⟩
  have e : (fun t => nrm (Fin.tail ((o t).par a).point)) = fun t =>
      Real.cosh (1e-4 / Real.sqrt k) ^ t * nrm (Fin.tail ((o 0).par a).point) := by
    funext t
    rw [(main t).2, nrm_smul, abs_of_pos (pow_pos (by linarith) _)]
  rw [e]
  have hp : 0 < nrm (Fin.tail ((o 0).par a).point) :=
    lt_of_le_of_ne (nrm_nonneg _) fun h => hx0 (nrm_eq_zero.1 h.symm)
  exact (tendsto_pow_atTop_atTop_of_one_lt hc).atTop_mul_const hp

/-- Options with learning rate zero. -/
noncomputable def hyp : SGDHyper := ⟨0, 0, 0, 0, false, none⟩

/-- One parameter on the hyperboloid. -/
noncomputable def hypP : Params Unit fun _ => Fin 2 := ⟨fun _ => true, fun _ => lorentz (n := 1) 1⟩

/-- Training it with gradient zero. -/
noncomputable def hypRun : ℕ → SGD Unit fun _ => Fin 2
  | 0 => ⟨fun _ => ⟨![Real.sqrt 2, 1], .dense 0, none⟩, [⟨hyp, 0, [()]⟩]⟩
  | t + 1 => { (sgdStep hypP (hypRun t)).1 with
      par := fun a => { (sgdStep hypP (hypRun t)).1.par a with grad := .dense 0 } }

theorem hypRun_ok (t : ℕ) : (∃ i, (hypRun t).groups = [⟨hyp, i, [()]⟩]) ∧
    (hypRun t).par () = ⟨((hypRun t).par ()).point, .dense 0, ((hypRun t).par ()).buf⟩ ∧
    (sgdStep hypP (hypRun t)).2 = none := by
  have fin : ∀ o : SGD Unit fun _ => Fin 2, (∃ i, o.groups = [⟨hyp, i, [()]⟩]) →
      (o.par ()).grad = .dense 0 → (sgdStep hypP o).2 = none := by
    rintro o ⟨i, hi⟩ hg
    refine sgdStep_noerr (P := hypP) o (by simp [hi]) (by simp [hi, hyp]) ?_
    intro G hG a _
    rw [hi, List.mem_singleton] at hG
    subst hG
    unfold sgdParam
    rw [show a = () from rfl, hg]
    simp [hyp]
  induction t with
  | zero => exact ⟨⟨0, rfl⟩, rfl, fin _ ⟨0, rfl⟩ rfl⟩
  | succ t ih =>
    obtain ⟨⟨i, hi⟩, -, he⟩ := ih
    have hg := (sgdStep_ok hypP (hypRun t) (by simp [hi]) he).1
    have h1 : (hypRun (t + 1)).groups = [⟨hyp, i + 1, [()]⟩] := by
      change (sgdStep hypP (hypRun t)).1.groups = _
      rw [hg, hi]; rfl
    exact ⟨⟨i + 1, h1⟩, rfl, fin _ ⟨_, h1⟩ rfl⟩

/-- **C122 is false**: a parameter on the hyperboloid trained with learning rate zero and gradient zero
(no momentum, no weight decay) runs away from where it started, beyond all bounds. -/
theorem C122_counterexample_lorentz :
    ∃ (P : Params Unit fun _ => Fin 2) (o : ℕ → SGD Unit fun _ => Fin 2), P.manifold () = lorentz (n := 1) 1 ∧
      SGDRun P o ∧ (∀ t, SGD.Frozen () (o t)) ∧ (∀ t, ((o t).par ()).grad = .dense 0) ∧
      Lorentz.OnHyperboloid 1 ((o 0).par ()).point ∧
      Tendsto (fun t => nrm (Fin.tail ((o t).par ()).point)) atTop atTop := by
  have hf : ∀ t, SGD.Frozen () (hypRun t) := by
    intro t G hG _
    obtain ⟨⟨i, hi⟩, -⟩ := hypRun_ok t
    rw [hi, List.mem_singleton] at hG
    subst hG; rfl
  have hgr : ∀ t, ((hypRun t).par ()).grad = .dense 0 := fun t => by rw [(hypRun_ok t).2.1]
  have hrun : SGDRun hypP hypRun := by
    refine ⟨fun t => ?_, fun t => (hypRun_ok t).2.2, fun t a => ⟨rfl, rfl⟩⟩
    obtain ⟨⟨i, hi⟩, -⟩ := hypRun_ok t
    simp [hi]
  have hx : Lorentz.OnHyperboloid 1 ((hypRun 0).par ()).point := by
    change Lorentz.OnHyperboloid 1 (![Real.sqrt 2, 1] : Vec 2)
    constructor
    · simp [Lorentz.mink, Fin.sum_univ_succ]
      norm_num
    · simp
  refine ⟨hypP, hypRun, rfl, hrun, hf, hgr, hx, ?_⟩
  refine (C122_lorentz_drift (k := 1) one_pos (a := ()) rfl hrun hf (fun t => ?_) (fun t => ⟨0, hgr t⟩) hx ?_).2
  · obtain ⟨⟨i, hi⟩, -⟩ := hypRun_ok t
    exact ⟨_, by rw [hi]; exact List.mem_singleton_self _, by simp⟩
  · intro h
    have := congrFun h 0
    simp [hypRun, Fin.tail] at this

end lorentz

/-! ## Birkhoff -/

/-- On the Birkhoff polytope (with the `eps` of the divisions positive) a step with learning rate zero
moves every point: it scales the matrices by `1 / (1 + eps + eps²)`. -/
theorem C122_counterexample_birkhoff {β : Type} [Finite β] [Nonempty β] {n : ℕ} (cfg : Birkhoff.Config)
    (he : 0 < cfg.eps) (htol : 1 - C80.sinkScale cfg.eps < cfg.tol) {h : SGDHyper} (h0 : h.lr = 0)
    (hm : h.momentum = 0) (s : SGDParam (β × Fin (n + 1) × Fin (n + 1)))
    (hx : ∀ b, Birkhoff.DoublyStochastic (toMats s.point b))
    (hb : ∀ b i j, 1e-12 < toMats s.point b i j * C80.sinkScale cfg.eps) {g} (hg : s.grad = .dense g) :
    (sgdParam (birkhoff β cfg) h s).1.point = C80.sinkScale cfg.eps • s.point ∧
    (sgdParam (birkhoff β cfg) h s).1.point ≠ s.point := by
  have e : (sgdParam (birkhoff β cfg) h s).1.point = C80.sinkScale cfg.eps • s.point := by
    have h1 : (sgdParam (birkhoff β cfg) h s).1.point = (birkhoff β cfg).retr s.point 0 := by
      unfold sgdParam
      rw [hg]
      simp [hm, h0]
    rw [h1]
    funext p
    have := (C80.C80_birkhoff_partial cfg he.le htol hx (u := 0)
      (fun b => ⟨fun _ => by simp [Birkhoff.rowSum], fun _ => by simp [Birkhoff.colSum]⟩) hb p.1).1
    exact congrFun (congrFun this p.2.1) p.2.2
  refine ⟨e, fun h => ?_⟩
  rw [e] at h
  obtain ⟨b⟩ := ‹Nonempty β›
  have h2 := congrFun h (b, 0, 0)
  have hpos : 0 < s.point (b, 0, 0) := (hx b).pos 0 0
  have hs : C80.sinkScale cfg.eps < 1 := inv_lt_one_of_one_lt₀ (by nlinarith)
  rw [Pi.smul_apply, smul_eq_mul] at h2
  nlinarith

/-- A batch of spheres with learning rate zero: nothing moves in any history. -/
example (P : Params Unit fun _ => Fin 5 × Fin 3) (hP : P.manifold () = batch (Fin 5) (sphere none))
    {o₀ o : SGD Unit fun _ => Fin 5 × Fin 3}
    (hx : ∀ b, Sphere.OnSphere Set.univ fun i => (o₀.par ()).point (b, i))
    (hr : SGDReach P (SGD.Frozen ()) o₀ o) : (o.par ()).point = (o₀.par ()).point :=
  C122_sgd_partial () (by rw [hP]; exact C122_batch _ fun b => C122_sphere (S := Set.univ) (Pr := none) rfl (hx b)) hr

end Geoopt.C122
