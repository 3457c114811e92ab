import Verif.Props.C109

/-!
# C94 for `EuclideanStiefel`

`EuclideanStiefel` retracts with a QR decomposition, which torch may choose in any way.  Along tangent
steps the result does not depend on the choice, so training with `RiemannianSGD` without momentum and
with `RiemannianAdam` does not depend on the coordinates.  The first momentum buffer of `RiemannianSGD`
is not tangent; with momentum the statement fails, whatever decomposition torch returns.
-/

namespace Geoopt.C94
open Geoopt Geoopt.Optim Geoopt.Rotation Geoopt.Frame Geoopt.C93 Matrix

section
variable {n m : ℕ} {Q : Matrix (Fin n) (Fin n) ℝ}

/-- `linalg.qr` returns some QR decomposition of every matrix. -/
def IsQRRoutine (qr : Matrix (Fin n) (Fin m) ℝ → Matrix (Fin n) (Fin m) ℝ × Matrix (Fin m) (Fin m) ℝ) :
    Prop := ∀ x, Linalg.IsQR x (qr x).1 (qr x).2

/-- `projx` is computed from some singular value decomposition of every matrix. -/
def IsProjx (proj : Matrix (Fin n) (Fin m) ℝ → Matrix (Fin n) (Fin m) ℝ) : Prop :=
  ∀ x, ∃ U S V, Linalg.IsSVD x U S V ∧ proj x = Stiefel.projx U V

/-- **C94.** `EuclideanStiefel` at points of the manifold and for tangent steps, in the form that
`C109_sgd` and `C109_adam` take; the two runs may use different routines. -/
theorem C94_euclidean_stiefel_frame (hQ : Orthogonal Q)
    {qr qr' : Matrix (Fin n) (Fin m) ℝ → Matrix (Fin n) (Fin m) ℝ × Matrix (Fin m) (Fin m) ℝ}
    (hqr : IsQRRoutine qr) (hqr' : IsQRRoutine qr')
    {proj proj' : Matrix (Fin n) (Fin m) ℝ → Matrix (Fin n) (Fin m) ℝ}
    (hp : IsProjx proj) (hp' : IsProjx proj') :
    SGDFrame (left Q) (left Q) (euclideanStiefel qr proj) (euclideanStiefel qr' proj')
      (fun x => Stiefel.OnStiefel (toMat x)) (fun x u => Stiefel.Tangent (toMat x) (toMat u)) ∧
    AdamFrame (left Q) (fun _ _ => True) (euclideanStiefel qr proj) (euclideanStiefel qr' proj')
      (fun x => Stiefel.OnStiefel (toMat x)) (fun x u => Stiefel.Tangent (toMat x) (toMat u)) := by
  have hretr : ∀ x u : Matrix (Fin n) (Fin m) ℝ, Stiefel.OnStiefel x → Stiefel.Tangent x u →
      Stiefel.Euclidean.retr (qr' (Q * x + Q * u)).1 (qr' (Q * x + Q * u)).2 =
        Q * Stiefel.Euclidean.retr (qr (x + u)).1 (qr (x + u)).2 := fun x u hx hu =>
    (C93_euclidean_stiefel hQ x x u u).2.2.2.2 hx hu _ _ _ _ (hqr _) (hqr' _)
  have hon : ∀ x u : Matrix (Fin n) (Fin m) ℝ,
      Stiefel.OnStiefel (Stiefel.Euclidean.retr (qr (x + u)).1 (qr (x + u)).2) := fun x u =>
    Stiefel.C26_retr_on_stiefel (hqr _)
  have hfix : ∀ x, Stiefel.OnStiefel x → proj x = x := fun x hx => by
    obtain ⟨U, S, V, h, e⟩ := hp x
    rw [e, Stiefel.C26_projx_fixes h hx]
  have hfix' : ∀ x, Stiefel.OnStiefel x → proj' x = x := fun x hx => by
    obtain ⟨U, S, V, h, e⟩ := hp' x
    rw [e, Stiefel.C26_projx_fixes h hx]
  refine ⟨⟨fun x g hx => ⟨?_, ?_⟩, fun x u c _ hu => ?_, fun x u hx hu => ⟨?_, hon _ _⟩,
    fun x hx => ⟨?_, ?_⟩⟩, ⟨fun _ _ _ => trivial, fun x _ => ?_, fun x u v _ hu hv => ?_,
    fun x u s _ hu hs => ?_, fun x u v hx hu hv => ⟨?_, hon _ _, ?_⟩, fun x y u hx hy hu => ⟨?_, ?_⟩,
    fun x u hx hu => ⟨?_, fun _ _ _ => rfl⟩⟩⟩
  · simp only [euclideanStiefel, toMat_left, euclid_proju_rot hQ, ofMat_left]
  · exact Stiefel.C26_proju_tangent hx _
  · have e : toMat (c • u) = c • toMat u := rfl
    unfold Stiefel.Tangent at *
    rw [e, Matrix.mul_smul, Matrix.transpose_smul, hu, smul_neg]
  · simp only [euclideanStiefel, toMat_left, hretr _ _ hx hu, ofMat_left]
  · simp only [euclideanStiefel, toMat_left, hfix _ hx, hfix' _ (onStiefel_rot hQ hx), ofMat_left]
  · show Stiefel.OnStiefel (proj (toMat x))
    rw [hfix _ hx]; exact hx
  · have e : toMat (0 : Fin n × Fin m → ℝ) = 0 := rfl
    rw [e]; simp [Stiefel.Tangent]
  · have e : toMat (u + v) = toMat u + toMat v := rfl
    unfold Stiefel.Tangent at *
    rw [e, Matrix.mul_add, Matrix.transpose_add, hu, hv, neg_add]
  · have e : ∃ c : ℝ, toMat (fun i => u i * s i) = c • toMat u := by
      by_cases hne : Nonempty (Fin n × Fin m)
      · obtain ⟨p⟩ := hne
        refine ⟨s p, ?_⟩
        ext i j
        show u (i, j) * s (i, j) = s p * u (i, j)
        rw [hs (i, j) p trivial, mul_comm]
      · refine ⟨0, ?_⟩
        ext i j
        exact absurd ⟨(i, j)⟩ hne
    obtain ⟨c, e⟩ := e
    unfold Stiefel.Tangent at *
    rw [e, Matrix.mul_smul, Matrix.transpose_smul, hu, smul_neg]
  · simp only [euclideanStiefel, toMat_left, hretr _ _ hx hu, Stiefel.Euclidean.transp,
      euclid_proju_rot hQ, ofMat_left]
  · exact Stiefel.C26_proju_tangent (hon (toMat x) (toMat u)) _
  · simp only [euclideanStiefel, toMat_left, euclid_proju_rot hQ, ofMat_left]
  · exact Stiefel.C26_proju_tangent hy _
  · simp only [euclideanStiefel, toMat_left, Stiefel.Euclidean.inner, frob_rot hQ]

end

section
variable {κ : Type} [DecidableEq κ] {n m : κ → ℕ} {Q : ∀ a, Matrix (Fin (n a)) (Fin (n a)) ℝ}
  {qr qr' : ∀ a, Matrix (Fin (n a)) (Fin (m a)) ℝ →
    Matrix (Fin (n a)) (Fin (m a)) ℝ × Matrix (Fin (m a)) (Fin (m a)) ℝ}
  {proj proj' : ∀ a, Matrix (Fin (n a)) (Fin (m a)) ℝ → Matrix (Fin (n a)) (Fin (m a)) ℝ}

/-- **C94.** `EuclideanStiefel` parameters of any sizes, `RiemannianSGD` without momentum, any weight
decay, any number of iterations: the run in rotated coordinates is the rotated run, whatever QR and
singular value decompositions torch returns in the two runs. -/
theorem C94_euclidean_stiefel_sgd (hQ : ∀ a, Orthogonal (Q a))
    (hqr : ∀ a, IsQRRoutine (qr a)) (hqr' : ∀ a, IsQRRoutine (qr' a))
    (hp : ∀ a, IsProjx (proj a)) (hp' : ∀ a, IsProjx (proj' a))
    {gs gs' : List ((∀ a, Fin (n a) × Fin (m a) → ℝ) → ∀ a, Grad (Fin (n a) × Fin (m a)))}
    (hg : List.Forall₂ (SameGradients fun a => left (Q a)) gs gs')
    (o : SGD κ fun a => Fin (n a) × Fin (m a)) (hh : ∀ G ∈ o.groups, G.hyper.momentum = 0)
    (ho : ∀ a, Stiefel.OnStiefel (toMat (o.par a).point)) :
    C90.run (sgdTrain ⟨fun _ => true, fun a => euclideanStiefel (qr' a) (proj' a)⟩) gs'
        (rotSGDAll (fun a => left (Q a)) o) =
      (rotSGDAll (fun a => left (Q a))
        (C90.run (sgdTrain ⟨fun _ => true, fun a => euclideanStiefel (qr a) (proj a)⟩) gs o).1,
       (C90.run (sgdTrain ⟨fun _ => true, fun a => euclideanStiefel (qr a) (proj a)⟩) gs o).2) := by
  refine (C109.C109_sgd (P := ⟨fun _ => true, fun a => euclideanStiefel (qr a) (proj a)⟩)
    (P' := ⟨fun _ => true, fun a => euclideanStiefel (qr' a) (proj' a)⟩)
    (A := fun a => left (Q a)) (B := fun a => left (Q a))
    (On := fun a x => Stiefel.OnStiefel (toMat x))
    (Tan := fun a x u => Stiefel.Tangent (toMat x) (toMat u)) rfl
    (fun a => (C94_euclidean_stiefel_frame (hQ a) (hqr a) (hqr' a) (hp a) (hp' a)).1)
    (hg.imp fun g g' h x _ => h x) o (fun G hG => ⟨hh G hG, .inr fun _ => rfl⟩) ho).1

/-- **C94.** `EuclideanStiefel` parameters, `RiemannianAdam`, also with `amsgrad` and weight decay. -/
theorem C94_euclidean_stiefel_adam (hQ : ∀ a, Orthogonal (Q a))
    (hqr : ∀ a, IsQRRoutine (qr a)) (hqr' : ∀ a, IsQRRoutine (qr' a))
    (hp : ∀ a, IsProjx (proj a)) (hp' : ∀ a, IsProjx (proj' a))
    {gs gs' : List ((∀ a, Fin (n a) × Fin (m a) → ℝ) → ∀ a, Grad (Fin (n a) × Fin (m a)))}
    (hg : List.Forall₂ (SameGradients fun a => left (Q a)) gs gs')
    (o : Adam κ fun a => Fin (n a) × Fin (m a)) (hnew : ∀ a, (o.par a).state = none)
    (ho : ∀ a, Stiefel.OnStiefel (toMat (o.par a).point)) :
    C90.run (adamTrain ⟨fun _ => true, fun a => euclideanStiefel (qr' a) (proj' a)⟩) gs'
        (rotAdamAll (fun a => left (Q a)) o) =
      (rotAdamAll (fun a => left (Q a))
        (C90.run (adamTrain ⟨fun _ => true, fun a => euclideanStiefel (qr a) (proj a)⟩) gs o).1,
       (C90.run (adamTrain ⟨fun _ => true, fun a => euclideanStiefel (qr a) (proj a)⟩) gs o).2) := by
  refine (C109.C109_adam (P := ⟨fun _ => true, fun a => euclideanStiefel (qr a) (proj a)⟩)
    (P' := ⟨fun _ => true, fun a => euclideanStiefel (qr' a) (proj' a)⟩)
    (A := fun a => left (Q a)) (B := fun a => left (Q a)) (same := fun _ _ _ => True)
    (On := fun a x => Stiefel.OnStiefel (toMat x))
    (Tan := fun a x u => Stiefel.Tangent (toMat x) (toMat u)) rfl
    (fun a => (C94_euclidean_stiefel_frame (hQ a) (hqr a) (hqr' a) (hp a) (hp' a)).1)
    (fun a => (C94_euclidean_stiefel_frame (hQ a) (hqr a) (hqr' a) (hp a) (hp' a)).2)
    (hg.imp fun g g' h x _ => h x) o (fun G hG => .inr fun _ => rfl)
    fun a => ⟨ho a, fun st hst => ?_⟩).1
  rw [hnew a] at hst
  cases hst

end

/-- **C94.** With momentum it fails, whatever QR decomposition torch returns: the first buffer is the
Euclidean gradient, and a step along it may end at a matrix without full rank.  Here the parameter is
`1` (one row, one column), the learning rate 1, the momentum 0.9 and the gradient `10/9`; in the
coordinates with the opposite sign the parameter after one iteration is not the opposite one. -/
theorem C94_counterexample_euclidean_stiefel_momentum
    (qr : Matrix (Fin 1) (Fin 1) ℝ → Matrix (Fin 1) (Fin 1) ℝ × Matrix (Fin 1) (Fin 1) ℝ)
    (hqr : IsQRRoutine qr) (proj : Matrix (Fin 1) (Fin 1) ℝ → Matrix (Fin 1) (Fin 1) ℝ) :
    let A : Unit → Matrix (Fin 1 × Fin 1) (Fin 1 × Fin 1) ℝ := fun _ => left (-1)
    let P : Params Unit fun _ => Fin 1 × Fin 1 := ⟨fun _ => true, fun _ => euclideanStiefel qr proj⟩
    let o : SGD Unit fun _ => Fin 1 × Fin 1 :=
      ⟨fun _ => ⟨ofMat 1, .none, none⟩, [⟨⟨1, 0.9, 0, 0, false, none⟩, 0, [()]⟩]⟩
    ∃ g g' : (Unit → Fin 1 × Fin 1 → ℝ) → Unit → Grad (Fin 1 × Fin 1),
      Orthogonal (-1 : Matrix (Fin 1) (Fin 1) ℝ) ∧ Stiefel.OnStiefel (toMat (o.par ()).point) ∧
      SameGradients A g g' ∧
      ((sgdTrain P g' (rotSGDAll A o)).1.par ()).point ≠
        ((rotSGDAll A (sgdTrain P g o).1).par ()).point := by
  intro A P o
  have hq := hqr 0
  obtain ⟨q, hqe⟩ : ∃ q, q = Stiefel.Euclidean.retr (qr 0).1 (qr 0).2 := ⟨_, rfl⟩
  have hon : Stiefel.OnStiefel q := by
    rw [hqe]
    exact Stiefel.C26_retr_on_stiefel (x := 0) (u := 0) (by simpa using hq)
  have hq0 : q 0 0 ≠ 0 := by
    intro h
    have := congrFun (congrFun hon 0) 0
    rw [Matrix.mul_apply] at this
    simp [h] at this
  have hA : ∀ x, A () *ᵥ x = -x := by
    intro x
    show left (-1) *ᵥ x = -x
    rw [left_mulVec]
    funext p
    simp [ofMat, toMat]
  have step : ∀ s : ℝ, ∀ x : Fin 1 × Fin 1 → ℝ, (∀ p, x p = s) → s * s = 1 →
      ((sgdTrain P (fun _ _ => .dense fun _ => s * (10 / 9)) ⟨fun _ => ⟨x, .none, none⟩,
        [⟨⟨1, 0.9, 0, 0, false, none⟩, 0, [()]⟩]⟩).1.par ()).point = ofMat q := by
    intro s x hx hs
    have e0 : toMat x + toMat (-(1:ℝ) • ((0.9:ℝ) • (fun _ : Fin 1 × Fin 1 => s * (10 / 9)) +
        ((1:ℝ) - 0) • ofMat (Stiefel.Euclidean.proju (toMat x)
          (toMat ((fun _ : Fin 1 × Fin 1 => s * (10 / 9)) + (0:ℝ) • x))))) = 0 := by
      ext i j
      have hi : i = 0 := Subsingleton.elim _ _
      have hj : j = 0 := Subsingleton.elim _ _
      subst hi hj
      simp only [Matrix.add_apply, toMat, Pi.smul_apply, Pi.add_apply, ofMat,
        Stiefel.Euclidean.proju, Linalg.sym, Matrix.sub_apply, Matrix.mul_apply, Fintype.sum_unique,
        Matrix.smul_apply, Matrix.transpose_apply, hx, smul_eq_mul, Matrix.zero_apply]
      linear_combination (5 / 9) * (hs * s + hs * s)
    simp only [sgdTrain, sgdStep, forGroups, sgdGroup, counterGroup, forParams, sgdParam,
      Params.manifold, P, euclideanStiefel, if_true]
    have h9 : (0:ℝ) < 0.9 := by norm_num
    simp only [h9, if_true, Bool.false_eq_true, if_false, e0, Function.update_self, ← hqe]
  have hs1 : sgdTrain P (fun _ _ => .dense fun _ => 1 * (10 / 9)) o = sgdTrain P
      (fun _ _ => .dense fun _ => 1 * (10 / 9)) ⟨fun _ => ⟨ofMat 1, .none, none⟩,
        [⟨⟨1, 0.9, 0, 0, false, none⟩, 0, [()]⟩]⟩ := rfl
  have h1 := step 1 (ofMat 1) (fun p => by
    rw [show p = (0, 0) from Subsingleton.elim _ _]; simp [ofMat]) (by norm_num)
  have h2 := step (-1) (A () *ᵥ ofMat 1) (fun p => by
    rw [hA, show p = (0, 0) from Subsingleton.elim _ _]; simp [ofMat]) (by norm_num)
  refine ⟨fun _ _ => .dense fun _ => 1 * (10 / 9), fun _ _ => .dense fun _ => -1 * (10 / 9), ?_, ?_,
    ?_, ?_⟩
  · simp [Orthogonal]
  · show Stiefel.OnStiefel (1 : Matrix (Fin 1) (Fin 1) ℝ)
    simp [Stiefel.OnStiefel]
  · intro x
    funext a
    simp only [rotGrad, hA]
    congr 1
    funext p
    simp
  · intro h
    have h' : ((sgdTrain P (fun _ _ => .dense fun _ => -1 * (10 / 9)) (rotSGDAll A o)).1.par ()).point =
        A () *ᵥ ((sgdTrain P (fun _ _ => .dense fun _ => 1 * (10 / 9)) o).1.par ()).point := h
    have e1 : ((sgdTrain P (fun _ _ => .dense fun _ => 1 * (10 / 9)) o).1.par ()).point = ofMat q := h1
    have e2 : ((sgdTrain P (fun _ _ => .dense fun _ => -1 * (10 / 9)) (rotSGDAll A o)).1.par ()).point =
      ofMat q := h2
    rw [e1, e2, hA] at h'
    have := congrFun h' (0, 0)
    simp only [ofMat, Pi.neg_apply] at this
    exact hq0 (by linarith)

/-- Three orthonormal columns in four dimensions, `RiemannianAdam` with `amsgrad`, weight decay and
stabilization, any number of iterations of a linear loss: the hypotheses of
`C94_euclidean_stiefel_adam` are met. -/
example {Q : Matrix (Fin 4) (Fin 4) ℝ} (hQ : Orthogonal Q)
    {qr : Matrix (Fin 4) (Fin 3) ℝ → Matrix (Fin 4) (Fin 3) ℝ × Matrix (Fin 3) (Fin 3) ℝ}
    (hqr : IsQRRoutine qr) {proj : Matrix (Fin 4) (Fin 3) ℝ → Matrix (Fin 4) (Fin 3) ℝ}
    (hp : IsProjx proj) (c : Fin 4 × Fin 3 → ℝ) (k : ℕ) :
    let P : Params Unit fun _ => Fin 4 × Fin 3 := ⟨fun _ => true, fun _ => euclideanStiefel qr proj⟩
    let o : Adam Unit fun _ => Fin 4 × Fin 3 := ⟨fun _ => ⟨ofMat Stiefel.origin, .none, none⟩,
      [(⟨1e-3, 0.9, 0.999, 1e-8, 0.01, true, some 10⟩, [()])]⟩
    C90.run (adamTrain P) (List.replicate k fun _ _ => .dense (left Q *ᵥ c))
        (rotAdamAll (fun _ => left Q) o) =
      (rotAdamAll (fun _ => left Q)
        (C90.run (adamTrain P) (List.replicate k fun _ _ => .dense c) o).1,
       (C90.run (adamTrain P) (List.replicate k fun _ _ => .dense c) o).2) := by
  intro P o
  refine C94_euclidean_stiefel_adam (κ := Unit) (n := fun _ => 4) (m := fun _ => 3) (fun _ => hQ)
    (fun _ => hqr) (fun _ => hqr) (fun _ => hp) (fun _ => hp) ?_ o (fun _ => rfl) fun _ => ?_
  · rw [List.forall₂_iff_get]
    simp [SameGradients, rotGrad]
  · show (Stiefel.origin : Matrix (Fin 4) (Fin 3) ℝ)ᵀ * Stiefel.origin = 1
    ext i j
    fin_cases i <;> fin_cases j <;>
      simp [Stiefel.origin, Matrix.mul_apply, Fin.sum_univ_four]

end Geoopt.C94
