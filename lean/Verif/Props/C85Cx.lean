import Verif.Props.C85
import Verif.Props.C63Manifolds

/-!
# C85: where the conjugate gradient rules are not what is documented
-/

open Geoopt Geoopt.LineSearch

namespace C85Cx

/-- The one-dimensional Poincaré ball with the smallest stabiliser. -/
noncomputable def ball : Manifold (Fin 1) :=
  C63Manifolds.ofOptim (Optim.stereographic 0 .f64 (-1)) (Stereo.inner (-1))

/-- A vector with one entry. -/
def c (r : ℝ) : Fin 1 → ℝ := fun _ => r

theorem c_neg (r : ℝ) : -c r = c (-r) := rfl
theorem c_smul (a r : ℝ) : a • c r = c (a * r) := rfl
theorem c_add (a b : ℝ) : c a + c b = c (a + b) := rfl
theorem c_dot (a b : ℝ) : c a ⬝ᵥ c b = a * b := by simp [c, dotProduct]

theorem lambda_zero : Stereo.lambdaX (-1) (c 0) = 2 := by
  norm_num [Stereo.lambdaX, c_dot]

theorem lambda_half : Stereo.lambdaX (-1) (c (1 / 2)) = 8 / 3 := by
  norm_num [Stereo.lambdaX, c_dot]

theorem inner_zero (u v : ℝ) : ball.inner (c 0) (c u) (c v) = 4 * (u * v) := by
  change Stereo.inner (-1) _ _ _ = _
  rw [Stereo.inner, lambda_zero, c_dot]; norm_num

theorem inner_half (u v : ℝ) : ball.inner (c (1 / 2)) (c u) (c v) = 64 / 9 * (u * v) := by
  change Stereo.inner (-1) _ _ _ = _
  rw [Stereo.inner, lambda_half, c_dot]; norm_num

theorem grad_zero (g : ℝ) : ball.egrad2rgrad (c 0) (c g) = c (1 / 4 * g) := by
  change Stereo.egrad2rgrad (-1) _ _ = _
  rw [Stereo.egrad2rgrad, lambda_zero, c_smul]; norm_num

theorem grad_half (g : ℝ) : ball.egrad2rgrad (c (1 / 2)) (c g) = c (9 / 64 * g) := by
  change Stereo.egrad2rgrad (-1) _ _ = _
  rw [Stereo.egrad2rgrad, lambda_half, c_smul]; norm_num

theorem retr_zero : ball.retr (c 0) (c (1 / 2)) = c (1 / 2) := by
  change Stereo.project 0 .f64 (-1) (c 0 + c (1 / 2)) = _
  rw [c_add, zero_add, Stereo.project]
  have : nrm (c (1 / 2)) = 1 / 2 := by
    rw [nrm, c_dot, show (1 / 2 * (1 / 2) : ℝ) = (1 / 2) ^ 2 by norm_num, Real.sqrt_sq (by norm_num)]
  rw [this]
  rw [if_neg]
  rw [max_eq_left (by norm_num), gt_iff_lt, not_lt]
  norm_num [Stereo.maxNorm, sabs, Stereo.projEps]

theorem follow_zero (v : ℝ) : ball.transpFollowRetr (c 0) (c (1 / 2)) (c v) = c (3 / 4 * v) := by
  change Stereo.transp (-1) _ (ball.retr (c 0) (c (1 / 2))) _ = _
  rw [retr_zero, Stereo.transp, lambda_zero, lambda_half]
  simp only [Stereo.gyration, c_neg, c_dot, c_smul, c_add]
  congr 1
  norm_num

/-- Fletcher–Reeves with the method that tries and takes the step size 1. -/
noncomputable def conf : Config Unit fun _ => Fin 1 where
  man _ := ball
  isManifold _ := true
  method := C63Cx.tryOne
  cg := cgFletcherReeves fun _ => ball
  computeDerphi := false
  transportGrad := false
  transportSearchDirection := true
  fallbackStepsize := 1
  stabilize := none

/-- `f(x) = -2 x`. -/
noncomputable def lin : Closure Unit fun _ => Fin 1 := ⟨fun x => -2 * x () 0, fun _ _ => c (-2)⟩

theorem first : ∃ s r, step conf lin false false false (fresh fun _ => c 0) = (s, .ok r) ∧
    (s.points = fun _ => c (1 / 2)) ∧ (s.par ()).searchDir = some (c (1 / 2)) ∧
    (s.par ()).searchTransported = some (c (3 / 8)) ∧ (s.par ()).grad = some (c (-1 / 2)) ∧
    s.gradsComputed = false ∧ s.history = [some 1] := by
  have e1 : (4 : ℝ)⁻¹ * 2 = 1 / 2 := by norm_num
  simp [step, initLoss, startGrads, fresh, LS.points, computeSearchDirection, proposeDirection, LineSearch.slope,
    conf, lin, runSearch, C63Cx.tryOne, conclude, afterSearch, commit, moveAll, moveParam,
    stabilizeAfter, report, phi, dicGet, moveTrial, inner_zero, grad_zero, c_neg]
  rw [e1, retr_zero, follow_zero]
  refine ⟨?_, ?_, ?_, ?_⟩
  · funext a; simp [LS.points]
  · norm_num
  · norm_num
  · norm_num

end C85Cx

/-- Fletcher–Reeves on the one-dimensional Poincaré ball: after the first step, from 0 to 1/2, the second
direction is not the documented one, with the squared length of the old gradient at the old point. -/
theorem C85_fletcher_reeves_counterexample :
    ∃ (C : Config Unit fun _ => Fin 1) (f : Closure Unit fun _ => Fin 1) (x₀ : Unit → Fin 1 → ℝ)
      (s s' : LS Unit fun _ => Fin 1) (out out' : Option ℝ) (d d' : Fin 1 → ℝ),
      C.man () = C63Manifolds.ofOptim (Optim.stereographic 0 .f64 (-1)) (Stereo.inner (-1)) ∧
      C.cg = cgFletcherReeves C.man ∧ C.transportSearchDirection = true ∧
      (∀ i, (C.method i).Honest []) ∧
      step C f false false false (fresh x₀) = (s, .ok out) ∧
      step C f false false false s = (s', .ok out') ∧ s.history = [some 1] ∧
      (s.par ()).searchDir = some d ∧ (s'.par ()).searchDir = some d' ∧
      let M := C.man ()
      let x := x₀ ()
      let y := s.points ()
      let g := M.egrad2rgrad x (f.grad x₀ ())
      let g' := M.egrad2rgrad y (f.grad s.points ())
      let β := M.inner y g' g' / M.inner x g g
      let p := -g' + β • M.transpFollowRetr x ((1 : ℝ) • d) d
      M.inner y g' p < 0 ∧ d' ≠ p := by
  obtain ⟨s, r, h, hp, hd, ht, hg, hc, hh⟩ := C85Cx.first
  have hp' : (s.par ()).point = C85Cx.c (1 / 2) := congrFun hp ()
  have hf : ∀ x, C85Cx.lin.grad x () = C85Cx.c (-2) := fun _ => rfl
  obtain ⟨q, hq⟩ : ∃ q, q = C85Cx.c (1 / 2) := ⟨_, rfl⟩
  obtain ⟨G, hG⟩ : ∃ q, q = C85Cx.c (-1 / 2) := ⟨_, rfl⟩
  obtain ⟨G', hG'⟩ : ∃ q, q = C85Cx.c (-(9 / 32)) := ⟨_, rfl⟩
  obtain ⟨D, hD⟩ : ∃ q, q = C85Cx.c (3 / 8) := ⟨_, rfl⟩
  obtain ⟨A, hA⟩ : ∃ q : ℝ, q = 16 / 9 := ⟨_, rfl⟩
  obtain ⟨B, hB⟩ : ∃ q : ℝ, q = 9 / 16 := ⟨_, rfl⟩
  obtain ⟨β, hβ⟩ : ∃ q : ℝ, q = 81 / 256 := ⟨_, rfl⟩
  have e1 : C85Cx.ball.inner q G G = A := by
    rw [hq, hG, C85Cx.inner_half, hA]; norm_num
  have e2 : C85Cx.ball.egrad2rgrad q (C85Cx.c (-2)) = G' := by
    rw [hq, hG', C85Cx.grad_half]; norm_num
  have e3 : C85Cx.ball.inner q G' G' = B := by
    rw [hq, hG', C85Cx.inner_half, hB]; norm_num
  have e4 : B / A = β := by rw [hA, hB, hβ]; norm_num
  have e5 : ¬ 0 ≤ C85Cx.ball.inner q G' (-G' + β • D) := by
    rw [hq, hG', hD, C85Cx.c_neg, C85Cx.c_smul, C85Cx.c_add, C85Cx.inner_half, hβ]; norm_num
  have hA0 : A ≠ 0 := by rw [hA]; norm_num
  have hβ0 : β ≠ 0 := by rw [hβ]; norm_num
  rw [← hq] at hp' hd
  rw [← hG] at hg
  rw [← hD] at ht
  generalize hs' : step C85Cx.conf C85Cx.lin false false false s = w
  obtain ⟨s', r'⟩ := w
  have hw := hs'
  simp [step, initLoss, startGrads, LS.points, computeSearchDirection, proposeDirection,
    LineSearch.slope, C85Cx.conf, hf, runSearch, C63Cx.tryOne, conclude, afterSearch, commit, moveAll,
    moveParam, stabilizeAfter, report, phi, dicGet, moveTrial, cgFletcherReeves,
    cgDirection, hp', hg, hc, hd, ht, e1, e2, e3, e4, e5, hA0, hβ0] at hw
  obtain ⟨hw1, rfl⟩ := hw
  have hd' : (s'.par ()).searchDir = some (-G' + β • D) := by rw [← hw1]
  refine ⟨_, _, _, s, s', r, _, q, _, rfl, rfl, rfl, C63Cx.tryOne_honest, h, hs', hh, hd, hd', ?_⟩
  have e6 : C85Cx.ball.egrad2rgrad (C85Cx.c 0) (C85Cx.c (-2)) = G := by
    rw [hG, C85Cx.grad_zero]; norm_num
  have e7 : C85Cx.ball.inner (C85Cx.c 0) G G = 1 := by
    rw [hG, C85Cx.inner_zero]; norm_num
  have e8 : C85Cx.ball.transpFollowRetr (C85Cx.c 0) q q = D := by
    rw [hq, hD, C85Cx.follow_zero]; norm_num
  have hy : s.points () = q := hp'
  dsimp only
  rw [hy, hf, hf, one_smul]
  change C85Cx.ball.inner q (C85Cx.ball.egrad2rgrad q (C85Cx.c (-2)))
    (-(C85Cx.ball.egrad2rgrad q (C85Cx.c (-2))) + (C85Cx.ball.inner q
      (C85Cx.ball.egrad2rgrad q (C85Cx.c (-2))) (C85Cx.ball.egrad2rgrad q (C85Cx.c (-2))) /
      C85Cx.ball.inner (C85Cx.c 0) (C85Cx.ball.egrad2rgrad (C85Cx.c 0) (C85Cx.c (-2)))
        (C85Cx.ball.egrad2rgrad (C85Cx.c 0) (C85Cx.c (-2)))) •
      C85Cx.ball.transpFollowRetr (C85Cx.c 0) q q) < 0 ∧ -G' + β • D ≠
    -(C85Cx.ball.egrad2rgrad q (C85Cx.c (-2))) + (C85Cx.ball.inner q
      (C85Cx.ball.egrad2rgrad q (C85Cx.c (-2))) (C85Cx.ball.egrad2rgrad q (C85Cx.c (-2))) /
      C85Cx.ball.inner (C85Cx.c 0) (C85Cx.ball.egrad2rgrad (C85Cx.c 0) (C85Cx.c (-2)))
        (C85Cx.ball.egrad2rgrad (C85Cx.c 0) (C85Cx.c (-2)))) •
      C85Cx.ball.transpFollowRetr (C85Cx.c 0) q q
  rw [e2, e6, e7, e8, e3]
  constructor
  · rw [hq, hG', hD, C85Cx.c_neg, C85Cx.c_smul, C85Cx.c_add, C85Cx.inner_half, hB]; norm_num
  · intro he
    have := congrFun he 0
    rw [hG', hD, hB, hβ] at this
    norm_num [C85Cx.c] at this

namespace C85Cx

/-- The unit circle, with the retraction by normalising. -/
noncomputable def circle : Manifold (Fin 2) :=
  C63Manifolds.ofOptim (Optim.sphere none) Sphere.inner

/-- A method that tries the step size 1 and gives up. -/
noncomputable def giveUp : Info → Search := fun _ => .phi 1 fun _ => .done none

theorem giveUp_honest (i : Info) : (giveUp i).Honest [] := by
  simp [giveUp, Search.Honest]

/-- Fletcher–Reeves, derivatives are computed. -/
noncomputable def circleConf : Config Unit fun _ => Fin 2 where
  man _ := circle
  isManifold _ := true
  method := giveUp
  cg := cgFletcherReeves fun _ => circle
  computeDerphi := true
  transportGrad := false
  transportSearchDirection := true
  fallbackStepsize := 1
  stabilize := none

/-- A loss with a constant gradient. -/
noncomputable def linCircle : Closure Unit fun _ => Fin 2 :=
  ⟨fun x => -(3 / 4) * x () 1, fun _ _ => ![0, -(3 / 4)]⟩

end C85Cx

/-- On the circle, Fletcher–Reeves with derivatives: the first search fails and nothing moves, but the
direction that the search had transported to its trial point is kept.  The next search direction is not
tangent. -/
theorem C85_failed_search_counterexample :
    ∃ (C : Config Unit fun _ => Fin 2) (f : Closure Unit fun _ => Fin 2) (x₀ : Unit → Fin 2 → ℝ)
      (s s' : LS Unit fun _ => Fin 2) (out out' : Option ℝ) (d : Fin 2 → ℝ),
      C.man () = C63Manifolds.ofOptim (Optim.sphere none) Sphere.inner ∧
      C.cg = cgFletcherReeves C.man ∧ C.transportSearchDirection = true ∧
      (∀ i, (C.method i).Honest []) ∧ x₀ () ⬝ᵥ x₀ () = 1 ∧
      step C f false false false (fresh x₀) = (s, .ok out) ∧ s.points = x₀ ∧
      step C f false false false s = (s', .ok out') ∧
      (s'.par ()).searchDir = some d ∧ s.points () ⬝ᵥ d ≠ 0 := by
  have hf : ∀ x, C85Cx.linCircle.grad x () = ![0, -(3 / 4)] := fun _ => rfl
  obtain ⟨x, hx⟩ : ∃ q : Fin 2 → ℝ, q = ![1, 0] := ⟨_, rfl⟩
  obtain ⟨G, hG⟩ : ∃ q : Fin 2 → ℝ, q = ![0, -(3 / 4)] := ⟨_, rfl⟩
  obtain ⟨y, hy⟩ : ∃ q : Fin 2 → ℝ, q = ![4 / 5, 3 / 5] := ⟨_, rfl⟩
  obtain ⟨T, hT⟩ : ∃ q : Fin 2 → ℝ, q = ![-(9 / 25), 12 / 25] := ⟨_, rfl⟩
  have en : nrm ![(1 : ℝ), 3 / 4] = 5 / 4 := by
    rw [nrm, show (![(1 : ℝ), 3 / 4] ⬝ᵥ ![(1 : ℝ), 3 / 4]) = (5 / 4) ^ 2 by
      norm_num [dotProduct, Fin.sum_univ_two], Real.sqrt_sq (by norm_num)]
  have en' : nrm ![(4 / 5 : ℝ), 3 / 5] = 1 := by
    rw [nrm, show (![(4 / 5 : ℝ), 3 / 5] ⬝ᵥ ![(4 / 5 : ℝ), 3 / 5]) = 1 by
      norm_num [dotProduct, Fin.sum_univ_two], Real.sqrt_one]
  have er : Sphere.retr none x (-G) = y := by
    rw [hx, hG, hy]
    simp only [Sphere.retr, Sphere.projx, Sphere.projectOnSubspace]
    rw [show (![(1 : ℝ), 0] + -![0, -(3 / 4)]) = ![1, 3 / 4] by
      funext i; fin_cases i <;> simp, en]
    funext i; fin_cases i <;> norm_num
  have et : Sphere.proju none y (-G) = T := by
    rw [hG, hy, hT]
    simp only [Sphere.proju, Sphere.projectOnSubspace]
    funext i; fin_cases i <;> norm_num [dotProduct, Fin.sum_univ_two]
  have ett : Sphere.proju none y T = T := by
    rw [hy, hT]
    simp only [Sphere.proju, Sphere.projectOnSubspace]
    funext i; fin_cases i <;> norm_num [dotProduct, Fin.sum_univ_two]
  have epx : Sphere.projx none y = y := by
    rw [hy]
    simp only [Sphere.projx, Sphere.projectOnSubspace]
    rw [en']; simp
  have eg : C85Cx.circle.egrad2rgrad x G = G := by
    change Sphere.proju none x G = G
    rw [hx, hG]
    simp only [Sphere.proju, Sphere.projectOnSubspace]
    funext i; fin_cases i <;> norm_num [dotProduct, Fin.sum_univ_two]
  have e1 : C85Cx.circle.retrTransp x (-G) (-G) = (y, T) := by
    change (Sphere.retr none x (-G), Sphere.proju none (Sphere.retr none x (-G)) (-G)) = _
    rw [er, et]
  have e2 : C85Cx.circle.projx y = y := epx
  have e3 : C85Cx.circle.proju y T = T := ett
  have i1 : ∀ x, C85Cx.circle.inner x G (-G) = -(9 / 16) := by
    intro x
    change G ⬝ᵥ (-G) = _
    rw [hG]; norm_num [dotProduct, Fin.sum_univ_two]
  have i2 : ∀ x, C85Cx.circle.inner x G G = 9 / 16 := by
    intro x
    change G ⬝ᵥ G = _
    rw [hG]; norm_num [dotProduct, Fin.sum_univ_two]
  have i3 : ∀ x, ¬ 0 ≤ C85Cx.circle.inner x G (-G + T) := by
    intro x
    change ¬ 0 ≤ G ⬝ᵥ (-G + T)
    rw [hG, hT]; norm_num [dotProduct, Fin.sum_univ_two]
  rw [← hG] at hf
  generalize hs : step C85Cx.circleConf C85Cx.linCircle false false false (fresh fun _ => x) = w
  obtain ⟨s, r⟩ := w
  have hw := hs
  have hneg : ¬ (0 : ℝ) ≤ -(9 / 16) := by norm_num
  simp [step, initLoss, startGrads, fresh, LS.points, computeSearchDirection, proposeDirection,
    LineSearch.slope, C85Cx.circleConf, hf, runSearch, C85Cx.giveUp, conclude, afterSearch, commit,
    stabilizeAfter, report, phi, dicGet, moveTrial, storeGrad, eg, e1, e2, e3, i1, i2, hneg] at hw
  obtain ⟨hw1, rfl⟩ := hw
  have p1 : (s.par ()).point = x := by rw [← hw1]
  have p2 : (s.par ()).searchDir = some (-G) := by rw [← hw1]
  have p3 : (s.par ()).searchTransported = some T := by rw [← hw1]
  have p4 : (s.par ()).grad = some G := by rw [← hw1]
  have p5 : s.gradsComputed = false := by rw [← hw1]
  generalize hs' : step C85Cx.circleConf C85Cx.linCircle false false false s = w'
  obtain ⟨s', r'⟩ := w'
  have hw' := hs'
  have hn1 : (9 / 16 : ℝ) / (9 / 16) = 1 := by norm_num
  simp [step, initLoss, startGrads, LS.points, computeSearchDirection, proposeDirection,
    LineSearch.slope, C85Cx.circleConf, hf, runSearch, C85Cx.giveUp, conclude, afterSearch, commit,
    stabilizeAfter, report, phi, dicGet, moveTrial, storeGrad, cgFletcherReeves, cgDirection,
    p1, p2, p3, p4, p5, eg, i1, i2, i3, hn1] at hw'
  obtain ⟨hw1', rfl⟩ := hw'
  have q : (s'.par ()).searchDir = some (-G + T) := by rw [← hw1']
  refine ⟨_, _, _, s, s', _, _, _, rfl, rfl, rfl, C85Cx.giveUp_honest, ?_, hs, ?_, hs', q, ?_⟩
  · rw [hx]; norm_num [dotProduct, Fin.sum_univ_two]
  · funext a; exact p1
  · change (s.par ()).point ⬝ᵥ _ ≠ 0
    rw [p1, hx, hG, hT]; norm_num [dotProduct, Fin.sum_univ_two]

namespace C85Cx

theorem honest_giveUp_first : ∃ s r,
    step { C63Cx.conf giveUp false with cg := cgFletcherReeves fun _ => euclidean Unit,
                                        transportSearchDirection := true } C63Cx.quad false false
      false (fresh fun _ _ => 1) = (s, .ok r) ∧ (s.points = fun _ _ => 1) ∧
      (s.par ()).searchTransported = none ∧ (s.par ()).searchDir = some (fun _ => -1) ∧
      (s.par ()).grad = some (fun _ => 1) ∧ s.gradsComputed = false := by
  simp [step, initLoss, startGrads, fresh, LS.points, computeSearchDirection, proposeDirection,
    LineSearch.slope, C63Cx.conf, euclidean, C63Cx.quad, runSearch, giveUp, conclude, afterSearch, commit,
    stabilizeAfter, report, phi, dicGet, moveTrial]
  refine ⟨?_, ?_⟩ <;> funext a <;> simp [LS.points]

end C85Cx

/-- `line_search_method="armijo"`, `cg_method="fr"`, everything else default: if the first search finds no
step size, every later call of `step` raises `KeyError`.  (`armijo` is a search that tries the step size 1
and gives up.) -/
theorem C85_key_error_counterexample :
    ∃ (armijo : Info → Search) (C : Config Unit fun _ => Unit) (f : Closure Unit fun _ => Unit)
      (x₀ : Unit → Unit → ℝ) (s : LS Unit fun _ => Unit), (∀ i, (armijo i).Honest []) ∧
      init (fun _ => euclidean Unit) (fun _ => false) armijo armijo .armijo .fr true false true 1 none =
        .ok C ∧
      Reach C f x₀ s ∧ ∀ force rc noStep, (step C f force rc noStep s).2 = .error .keyError := by
  obtain ⟨s, r, h, hp, ht, hd, hg, hc⟩ := C85Cx.honest_giveUp_first
  refine ⟨C85Cx.giveUp, _, _, _, s, C85Cx.giveUp_honest, rfl, .step false .start h, ?_⟩
  intro force rc noStep
  have hp' : (s.par ()).point = fun _ => 1 := congrFun hp ()
  simp [step, initLoss, startGrads, hc, computeSearchDirection, proposeDirection, C63Cx.conf,
    cgFletcherReeves, euclidean, C63Cx.quad, LS.points, hp', hg, hd, ht]

/-- `step(force_step=True)` when the search fails: the parameter moves from 1 by `fallback_stepsize`, and
the loss that is returned is that of another point. -/
theorem C63_force_step_counterexample :
    ∃ (C : Config Unit fun _ => Unit) (f : Closure Unit fun _ => Unit) (x₀ : Unit → Unit → ℝ)
      (s : LS Unit fun _ => Unit) (out : ℝ),
      (∀ a, Retraction (C.man a) (fun _ => True) fun _ _ => True) ∧ (∀ i, (C.method i).Honest []) ∧
      step C f true false false (fresh x₀) = (s, .ok (some out)) ∧ out ≠ f.loss s.points := by
  have h1 : ∃ s, step { C63Cx.conf C85Cx.giveUp false with fallbackStepsize := 1 / 2 } C63Cx.quad true
      false false (fresh fun _ _ => 1) = (s, .ok (some 0)) ∧ (s.points = fun _ _ => 1 / 2) := by
    simp [step, initLoss, startGrads, fresh, LS.points, computeSearchDirection, proposeDirection,
      LineSearch.slope, C63Cx.conf, euclidean, C63Cx.quad, runSearch, C85Cx.giveUp, conclude, afterSearch,
      commit, moveAll, moveParam, stabilizeAfter, report, phi, dicGet, moveTrial]
    refine ⟨by norm_num, ?_⟩
    funext a i; simp [LS.points]; norm_num
  obtain ⟨s, h, hp⟩ := h1
  refine ⟨_, _, _, s, 0, fun _ => C63Cx.euclidean_retraction _, C85Cx.giveUp_honest, h, ?_⟩
  rw [hp]; norm_num [C63Cx.quad]

section
variable {κ : Type} [Fintype κ] {ι : κ → Type} {C : Config κ ι} {f : Closure κ ι}

/-- With Armijo backtracking and `transport_search_direction=True`, which is the default, the condition
under which the directions stay tangent holds for steepest descent, Fletcher–Reeves and Polak–Ribière. -/
theorem C85_init_armijo {man : ∀ a, Manifold (ι a)} {isM : κ → Bool} {wolfe armijo : Info → Search}
    {cg : CgArg κ ι} {cd tg : Bool} {fb : ℝ} {st : Option ℕ}
    (h : init man isM wolfe armijo .armijo cg cd tg true fb st = .ok C)
    (hcg : ∀ α, cg = .constant α → α = 0) (Tan : ∀ a, (ι a → ℝ) → (ι a → ℝ) → Prop) :
    C.man = man ∧ C.method = armijo ∧ C.computeDerphi = false ∧ KeepsTangent C Tan := by
  cases cg with
  | constant α =>
    simp only [init, Except.ok.injEq] at h
    subst h
    refine ⟨rfl, rfl, rfl, Or.inl fun p => ?_⟩
    rw [hcg α rfl]; rfl
  | fr =>
    simp only [init, Except.ok.injEq] at h
    subst h
    exact ⟨rfl, rfl, rfl, Or.inr (Or.inl ⟨rfl, Or.inl rfl⟩)⟩
  | pr =>
    simp only [init, Except.ok.injEq] at h
    subst h
    exact ⟨rfl, rfl, rfl, Or.inr (Or.inl ⟨rfl, Or.inl rfl⟩)⟩
  | callable c =>
    simp only [init, Except.ok.injEq] at h
    subst h
    exact ⟨rfl, rfl, rfl, Or.inr (Or.inl ⟨rfl, Or.inl rfl⟩)⟩
  | other => simp [init] at h

/-- What the constructor makes of its arguments: the rules by name, the gradient is transported for
Polak–Ribière, derivatives are computed for Wolfe and not for Armijo, and an unknown name raises
`ValueError`. -/
theorem C85_init {man : ∀ a, Manifold (ι a)} {isM : κ → Bool} {wolfe armijo : Info → Search}
    (method : MethodArg) (cg : CgArg κ ι) (cd tg ts : Bool) (fb : ℝ) (st : Option ℕ) :
    (init man isM wolfe armijo method cg cd tg ts fb st = .error .valueError ↔
      method = .other ∨ cg = .other) ∧
    ∀ C, init man isM wolfe armijo method cg cd tg ts fb st = .ok C →
      C.man = man ∧ C.isManifold = isM ∧ C.fallbackStepsize = fb ∧ C.stabilize = st ∧
      (method = .wolfe → C.method = wolfe ∧ C.computeDerphi = true) ∧
      (method = .armijo → C.method = armijo ∧ C.computeDerphi = false) ∧
      (∀ m, method = .callable m → C.method = m ∧ C.computeDerphi = cd) ∧
      (∀ α, cg = .constant α → C.cg = cgConstant α ∧ C.transportSearchDirection = false ∧
        C.transportGrad = tg) ∧
      (cg = .fr → C.cg = cgFletcherReeves man ∧ C.transportSearchDirection = ts ∧
        C.transportGrad = tg) ∧
      (cg = .pr → C.cg = cgPolakRibiere man ∧ C.transportSearchDirection = ts ∧
        C.transportGrad = true) ∧
      (∀ c, cg = .callable c → C.cg = c ∧ C.transportSearchDirection = ts ∧ C.transportGrad = tg) := by
  cases method <;> cases cg <;> simp [init]

end
