# Formal model of geoopt in Lean 4

Source: `/repo` (geoopt, Python).  Model and proofs: `lean/Verif`.  The property
list is `properties.jsonl`, the status of each property is `MANIFEST.json`, the
mutation log is `seeded/LOG.jsonl`.

## 1. Layout

* `Verif/Model/*.lean` – definitions only, one file per Python module.  Every
  definition cites the file and lines it models and names its simplifications.
* `Verif/Spec/*.lean` – small specifications written without looking at the
  code's helpers (what NumPy broadcasting is, what a point on the sphere is,
  what a metric is, ...).
* `Verif/Lemmas/*.lean` – auxiliary lemmas.
* `Verif/Props/*.lean` – the property theorems.  Each theorem is followed by an
  `example` that instantiates its hypotheses with a concrete non-trivial case.

## 2. Trusted base

* Lean's kernel, and Mathlib's definitions of ℝ, `Real.tanh`, `Real.cosh`,
  `Matrix`, ... as the meaning of the numbers in the statements.
* Axioms: only `propext`, `Classical.choice`, `Quot.sound` (the three standard
  ones; every theorem over ℝ uses all three).  No axiom is added, there is no
  `sorry`, `native_decide` or `bv_decide`.
* The correspondence between model and Python text is by reading; the comment on
  every definition is the audit trail.

### What is idealised everywhere

* **Floating point.**  Tensors hold real numbers.  Rounding, overflow, NaN and
  infinities are not modelled.  Every *explicit* numerical guard of the code
  (clamps, EPS constants, `sabs`, `isclose` branches, `where` switches) is kept
  with its literal constant, since those change the function computed.
* **Batching.**  A function that reduces over `dim=-1` is modelled on one vector
  `Fin n → ℝ` (or one matrix); broadcasting over leading axes is elementwise
  application.  Where the batch shape matters (product packing, `inner` with
  keepdim, broadcast helper, `dim` argument) shapes are modelled explicitly.
* **torch kernels.**  `torch.linalg.qr/svd/eigh/solve/matrix_exp` are modelled by
  their mathematical specification (either Mathlib's object, or "any output that
  satisfies the documented contract").
* **Autograd**: gradients are inputs of the optimiser model. Model/Autograd records which derivatives the backward pass multiplies and when they are finite (C131), not the gradients themselves. Model/Tape records which tensors the derivative formulas keep and which are changed in place (C135); that `torch.linalg.qr` keeps its results, and so on, is taken from torch and listed there.

## 3. Plan per property

| id | what is modelled | how it is proved |
|----|------------------|------------------|
| C01 | `_project` with its eps/maxnorm choice, and the project=True paths of all the operations | closed form of the norm of the rescaled vector |
| C02 | `_project`, `_check_point_on_manifold` | case split on the norm |
| C03 | `_mobius_add`, `_mobius_sub` with clamp | ring identities over dot products; Cauchy–Schwarz for the denominators |
| C04 | `_gyration`, `_mobius_coadd` | polynomial identities after clearing denominators |
| C05 | `tan_k`, `artan_k`, `_lambda_x`, `_expmap`, `_logmap` with all clamps | inverse functions on the unclamped region |
| C06 | `_dist` | metric axioms; triangle inequality via the gyrotriangle inequality and monotonicity of artanh |
| C07 | `_norm`, `_logmap`, `_dist` | from C05 computations |
| C08 | `*_0` functions | unfolding with the λ at zero |
| C09 | `_parallel_transport` | gyration is a linear isometry (C04) |
| C10 | `_geodesic`, `_geodesic_unit` | from C03, C05, C13 |
| C11 | k=0 branch of all functions | direct |
| C12 | `PoincareBall.__init__`, `.c`, `.k`, SphereProjection | softplus positive, inverse of log(exp c − 1) |
| C13 | `_mobius_scalar_mul` | tanh addition law |
| C14 | `_sproj`, `_inv_sproj` | field identities |
| C15 | `_antipode` | tan at π/2 through the code's own formula |
| C16 | `_weighted_midpoint` over a finite family | sums |
| C17 | `_dist2plane` | sign/absolute value algebra |
| C18 | shapes of `_inner`, `_norm` through the broadcasting model | disproved for keepdim=False, proved for keepdim=True |
| C19 | egrad2rgrad of every manifold | bilinear identities |
| C20–C23 | Sphere incl. projector | trigonometric identities, orthogonal projections |
| C24–C27 | CanonicalStiefel, EuclideanStiefel | matrix algebra, Cayley transform of skew matrices, matrix exponential |
| C28–C32 | SymmetricPositiveDefinite, `sym_funcm` | spectral theorem / functional calculus on Hermitian matrices |
| C33–C34 | Birkhoff: Sinkhorn loop as recursion, tangent system | loop invariant; positivity of the quadratic form |
| C35–C39 | Lorentz math | reversed Cauchy–Schwarz, hyperbolic identities |
| C40 | axis arguments as index transformation | disproved where the code hard-wires an axis; proved elsewhere |
| C41–C44 | ProductManifold: shapes as `List ℕ`, tensors as row-major buffers | induction over the list of components |
| C45–C48 | Scaled: method table with scaling exponents, attribute lookup | algebra of exponents; induction over nesting |
| C49–C51 | utils helpers | refinement to a written specification |
| C52–C53 | base.Manifold checks, origin | decision logic, RNG as state |
| C54 | ManifoldTensor object graph with memo | state transition model |
| C55–C62 | optimisers as state machines over arbitrary manifold records | invariants by induction over the history |
| C63–C64 | RiemannianLineSearch as a state machine with arbitrary line search | invariants; counterexample traces for the violated parts |
| C65–C67 | samplers as state machines with noise as input | invariants; counterexample for reversibility |
| C68 | BFS tree generator | induction |
| C69–C71 | Siegel | complex matrix algebra |
| C72–C74 | layer, Euclidean, sampling | direct |
| C75 | `_mobius_coadd`, `_mobius_cosub` | gyrogroup identities from C03/C04 |
| C76 | the Armijo loop of RiemannianLineSearch | loop invariant, any manifold and loss |
| C77 | samplers over arbitrary manifold records | induction over the history |
| C78 | all stereographic/Lorentz/sphere functions on whole tensors with a `dim` argument | every fibre of the result is the one-vector function of the fibres of the arguments |
| C79 | `retr_transp`, `expmap_transp`, `transp_follow_*` of all manifolds, incl. the duplicated formulas of Stiefel | unfolding; matrix algebra for Stiefel and SPD |
| C80 | the `retr` of every manifold as a curve | derivative at 0 (Mathlib `HasDerivAt`), analytic formula for each |
| C81 | `mobius_matvec`, `mobius_pointwise_mul`, `mobius_fn_apply`, `_chain` | from C05, C08, C13 |
| C82 | Takagi factorisation by contract, cross ratio, vector-valued distance | unitary congruence, singular values, the Cayley isometry |
| C83 | `egrad2rgrad`, `inner`, `proju`, `origin` of the Siegel spaces | complex matrix algebra; counterexamples |
| C84 | StereographicProductManifold over arbitrary component records | induction over the list of components |
| C85 | `init`, `cgConstant`, `cgFletcherReeves`, `cgPolakRibiere`, `computeSearchDirection` in `step` | two consecutive steps from any reachable state; counterexamples on the ball and the circle |
| C86 | `strongWolfeLineSearch` with SciPy's search as a contract on queries and answers | induction over the queries: the derivative kept is that of the last trial |
| C87 | the Siegel model of C82; the upper half space embedded in the SPD matrices of twice the size | vector-valued triangle inequality from log pivots (`Lemmas/Flag`, `Lemmas/FlagVec`), then every metric as a norm; counterexample for unsorted weights |
| C88 | the forwarding methods of `ManifoldTensor` on the objects and calling convention of C45; `proj_` on the heap of C54 | equality of bound arguments, by keyword or by position; counterexamples for `dist(p=1)` and `proj_` of a parameter |
| C89 | the constructors on a memory of storages, with the in place inverse softplus | frame argument over any list of later constructions; counterexamples for a shared tensor |
| C90 | `Model/Checkpoint`: what `state_dict` saves of each optimiser and how `load_state_dict` restores it; runs are lists of iterations | loading what was saved gives back the state up to gradients, which every iteration overwrites; groups keep their parameters by induction over the loop; counterexamples for the line search and reordered parameters |
| C91 | `Optim.sgdStep` on the manifolds of `Model/OptimManifolds`; a loss is any function with a Fréchet derivative | chain rule along the curve `lr ↦ retr(x, -lr·grad)`, whose velocity is C80 and whose slope is C19; counterexample on the hyperboloid |
| C92 | `projx` of all classes; `Spec/Nearest` | obtuse angle criterion; spectral version for clamped eigenvalues; trace inequality through the singular value decomposition; counterexamples |
| C93 | operations of the manifold classes; `Spec/Rotation` | inner products and norms are invariant and the rest is linear; uniqueness of QR, polar factor and spectral functions; loop invariant for Sinkhorn |
| C94 | `Optim.sgdTrain`, `adamTrain` for arbitrary manifolds; `Spec/Rotation` | simulation: the step commutes with the change of coordinates for every manifold whose operations do; induction over parameters, groups, iterations; counterexample |
| C95 | `Model/StereoAxisT`: the functions with a tensor of curvatures, with the tests torch.all; `Spec/BatchK` | every branch that torch.all can select agrees with the single curvature at the position; counterexamples |
| C96 | `Stereo.tanK`, `artanK` and the functions at the origin; `Spec/NearFlat`: the exact functions | Taylor bounds for tan, arctan, tanh, artanh by monotonicity; counterexamples for all k in the range |
| C97 | `Optim.product`, `Product.componentInner`; `Spec/Training`: the loop of backward and step | one parameter splits into its parts, then induction over parameters, groups and rounds; counterexample for .grad |
| C98 | `Optim.scaled`; `Spec/Training` | one parameter step with lr/s is equal, congruence over parameters and groups, induction over rounds; chain rule for the slope; counterexamples |
| C99 | `adamStep`; `Spec/Steps` | invariant `component_inner(exp_avg) <= c_t * exp_avg_sq` by a weighted Cauchy-Schwarz step; transports are isometries or projections; counterexamples |
| C100 | `sgdStep`; `Spec/Steps` | invariant `len(momentum_buffer) <= Gamma / (1 - mu)`; transports contract; counterexample on the ball |
| C101 | existing models | `|log (1 + t + t^2/2)| <= |t|` on eigenvalues; tanh is concave; arccos of the normalised step |
| C102 | `adamStep`, `sgdStep`; `Spec/Steps.StepDistance` | C99 + C101 + triangle inequality, invariant `d(x0, x) <= L * sum of factors` |
| C103 | `sgdStep`, `Spec/Convergence` | descent lemma along segments, second-order bounds for each retraction, telescoping sum, compactness |
| C104 | `Model/Interface` signatures, `Method.bind` | a condition on two signatures that implies acceptance of all calls, checked for each class and operation |
| C105 | `GoesBack` in `Spec/Reversible` | left cancellation of Moebius addition and isometry of the gyration; products and Scaled by reduction to the base |
| C106 | `TwoLegs`, `SameVelocity` in `Spec/Flow` | SPD: congruence equivariance and the matrix exponential; hyperboloid: closed form of point and velocity; ball: gyroassociativity and addition of tanh |
| C107 | tensors with shape, strides and storage in `Model/Origin`; `Requests`, `OwnsEntries`, `Returns` in `Spec/Origin` | addresses of a contiguous tensor are injective; induction over shapes |
| C108 | `DerivAt`, `PulledBack`, `OffFloors`, `LorentzMap` in `Spec/Isometry` | derivative of the translation by the quotient rule; gyration identities (associativity, cocycle, swap) in `Lemmas/Gyro`; lower bounds of the denominators on valid points |
| C109 | `SGDFrame`, `AdamFrame`, `SameLoss` in `Spec/Frame` | points move with `A`, gradients with its inverse transpose; one parameter, then the loops of C94, then induction over the iterations; chain rule for the gradients |
| C110 | `SGDReach`, `AdamReach` of C55; `RowBounded` | a set respected by retr, retr_transp and projx for arbitrary directions is invariant under the loops; the Sinkhorn bounds of C33 |
| C111 | `flipped` in the theorem file | for k <= 0 the antipode is the negative, which has the same conformal factor; explicit estimate of both candidates for the counterexample |
| C112 | `HasGrad`, `HasSymGrad` in Spec/Gradient | chain rule; for SPD matrices a second order bound of log**2 summed over the overlaps of the eigenvectors |
| C113 | `Optim.Descends` in Spec/Target, `HasGrad` and `HasSymGrad` in Spec/Gradient | exact position of the next point on the geodesic, then induction on the steps; SPD: simultaneous diagonalisation |
| C114 | `OnlyClosest` in Spec/Nearest, `Tangent` | orthogonality of the projection, Bessel's inequality |
| C115 | `Run`, `LineSmooth`, `slopeAlong`, `sqGrad` in Spec/LineSearchConv | C76 and C86 give the decrease of one step, the Wolfe condition bounds the step size from below, telescoping |
| C116 | `SameGroups`, `SameOptions` in Spec/Regroup | one step is local to each parameter, so the order does not matter; induction over the history |
| C117 | `Grad.scale`, `rescale` in Spec/Decay | a step of the scaled optimiser simulates a step of the original one (`counter_sim`, `flag_sim` in Lemmas/OptimSim), because the operations are linear in the vectors |
| C118 | `DecayFree`, `Kept`, `withDecay` in Spec/Decay | the Riemannian gradient of the squared norm vanishes on these manifolds; simulation as in C117; the sets of points are invariant |
| C119 | `target`, `stdNormal`, `rhmcMoves`, `SamplesTarget`, `trajectory` in Spec/Invariant | the counterexample compares the acceptance probabilities into and out of a point near zero, as integrals with respect to the normal distribution; leapfrog steps are compositions of shears |
| C120 | `IsGaussian`, `RSGLD.run` in Spec/Invariant | closed form of the parameters as weighted sums of the draws, induction; sums of independent normal variables are normal |
| C121 | `meanSquare` in Spec/Invariant | second moments of independent standard normal numbers |
| C122 | `Rests`, `Frozen` in Spec/Frozen | invariant of histories: the point of the parameter is the initial one; each manifold: retr(x,0)=x (C80) |
| C123 | `spread`, `flatSpread`, `Central` in Spec/Midpoint | points as vectors of the hyperboloid: conformal factors turn the sum into a bilinear form of the numerator and the denominator that the code computes; the equation of C16 for the midpoint |
| C124 | `SGD.cut`, `Adam.cut`, `trial` in Spec/Raises; Model/LineSearchCrash threads the number of answers the closure still gives through the step | induction over the loops and over the line search method; refinement to the model without exceptions (C124_linesearch_refines) |
| C125 | `drift`, `decay`, `SGRHMC.run` in Spec/Langevin, `IsGaussian`, `stdNormal` in Spec/Invariant | the rounds are a linear recursion; sums of independent normal variables; a quadratic form that decreases by the squared response, and the determinant for the unbounded case |
| C126 | `OnSphere`, `OnStiefel`, `OnSPD`, `OnHyperboloid`, `DoublyStochastic`, `OnUpperHalf`, `OnBounded` and the tangent spaces in Spec, `sqVec`, `sqMat` in Spec/Nearest | normalise, polar factor and singular values, shift the spectrum, spread the deficits of rows and columns over the matrix |
| C127 | `OnSPD`, `OnSPSD` in Spec/SPD, Mathlib's polynomials | a matrix that intertwines two symmetric matrices intertwines their functions |
| C128 | `ValidSGD`, `Apart`, `Filled`, `History` in Props/C128 | induction over the constructor's loop and over histories; memory of dictionaries |
| C129 | `Continuous`, `ContinuousOn` of Mathlib, `FullRank` in Props/C129Mat, `OnUpperHalf` and `OnBounded` in Spec/Siegel | composition of continuous functions; Weierstrass approximation for functions of matrices; compactness and uniqueness of the factors for QR and SVD; sorted eigenvalues through sums of continuous functions over the spectrum |
| C130 | `randn`, `Invariant`, `mat`, `cmat` in Spec/Random | characteristic functions of normal distributions for the invariance; density and layer-cake formula for the uniform distribution; equivariance of the operations (C93) |
| C131 | `Tr` in Model/Autograd and Model/AutogradMatrix keeps beside each result the condition that all recorded derivatives are finite; `C131_rules` checks the conditions against the derivatives | equality with the other model and positivity of every divisor, function by function |
| C132 | angles on the sphere, affine invariant distance of matrices, Euclidean norm in the ball | `r - arctan r ≤ r³/3`; simultaneous diagonalisation and `|log(1 + v + v²/2) - v| ≤ |v|³/3`; `|tanh z - z| ≤ z³/3` |
| C133 | dist and geodesics with their clamps | `sinh a + sinh b ≤ sinh (a + b)` and its counterpart for sines; in the ball the sublevel sets of the distance on a segment are those of a convex quadratic polynomial |
| C134 | lengths by the metric, distances by dist | laws of cosines; `s ↦ cosh √s` is convex by its power series and `s ↦ cos √s` up to `π²` by its derivative |
| C135 | Model/Tape: version numbers of tensors and the tensors kept by derivatives, as torch's autograd keeps them | invariant over all sequences of calls; versions only grow, so a failure is permanent |
| C136 | Spec/Extension: gradients as derivatives of two losses that agree on the manifold | curves in the manifold through every point in every tangent direction; a gradient that vanishes along all of them has Riemannian gradient 0; simulation of training and of chains |
| C137 | Model/OptimManifolds `batch`, Model/OptimBirkhoff, Model/Samplers | simulation of the two optimisers and samplers, step by step; counterexample: one step on two 3x3 matrices |
| C138 | Model/Stereo, Model/Sphere, Model/Lorentz | the image of a Moebius sum; half-angle formulas; C39 for the hyperbolic distance; mean value theorem for the regulariser |
| C139 | Model/ScalingStorage (heap of dictionaries, class statements as operations), Spec/ScalingStorage (last declaration, owner) | induction over the program; same address iff same owner |

Where the code does not satisfy a property, the negation is proved with a concrete
witness, the true part is proved under a `_partial` name, and the disagreement is
recorded in section 4.

<!-- section 4 -->

## 4. Where the code disagrees with the property

Each line names a theorem that proves the negation on a concrete witness.  The true
part of the property is proved under a `_partial` name next to it.

* `C02_counterexample_huge_curvature` – With `k = -1e40` a point well inside the ball is moved by `projx` (the margin is chosen by dtype, not by curvature).
* `C05_taylor_sign_wrong` – The near-flat Taylor branch (`0 < |k| ≤ 1e-8`) uses `|k|` instead of `k`: for negative curvature the correction of `tan_k` has the wrong sign (`tanh` lies below the identity, the code's value above it), so `tan_k` is not the function the model uses for slightly larger `|k|`.
* `C06_antipodal_distance_zero` – For positive curvature the separation axiom fails: a point and its antipode `-x/(k‖x‖²)` have computed distance `0` (both numerator and denominator vanish and the denominator is clamped), although they are the farthest points of the sphere.
* `C06_triangle_fails_with_regulariser` – With the code's constant the exact inequality is violated (at rounding level): on the segment from `-1/2` through `0` to `1/2` in the ball of curvature `-1`.
* `C07_dist_saturates` – The distance the library reports never exceeds `30/√(|k|+η)`: for points further apart than that (they exist in every ball, also among float64-valid points when the ball is not cut off) the value saturates and the laws above cannot hold.
* `C100_counterexample_first_gradient` – The condition on the first gradient is needed. On the Poincaré ball (`k = -1`) at the point 0.99, with `momentum=0.5` and a gradient whose Riemannian length is 1, the first step of `RiemannianSGD` is more than 1000 times longer than `lr · Γ / (1 - μ) = 2 lr`: the momentum starts with the raw gradient.
* `C101_counterexample_retr` – `retr` of the Poincaré ball is not bounded by the length of the step. At the origin (every negative curvature away from 0) every non-zero `u` inside the ball is overshot.
* `C101_counterexample_zero` – Below the floors it fails: along the zero vector `expmap` moves by a positive distance.
* `C101_counterexample_zero` – The second bound is needed: the zero vector has length 0, but the distance is more than `1e-4`.
* `C102_counterexample_ball` – It fails for `PoincareBall`, whose `retr` is not `expmap`: the first step from the origin, with the default options and `lr` about 1.6, moves by more than `lr` (the bound for one step).
* `C104_counterexample_keywords` – Each of the renamed parameters is a call by keyword that the base class accepts and the class does not.
* `C104_counterexample_lorentz_norm` – `Lorentz.norm` has no parameter for the point: **every** call `norm(x, u, ...)` raises `TypeError`, although the base class accepts `norm(x, u)`.
* `C104_counterexample_scaled_lorentz` – The same through `Scaled(Lorentz())`, whatever the scale and the body of `norm` are.
* `C105_counterexample_poincare_exact` – The exact Poincaré ball declares its retraction reversible, but `retr` projects: from the origin no step (of length at least `1e-9`) that would end beyond the accepted points can be retraced.
* `C106_counterexample_canonical_stiefel` – Which is not one Cayley rotation by the sum: two quarter turns against a turn by `2 arctan 2`.
* `C106_counterexample_lorentz` – The condition on the whole way cannot be dropped: walking there and back is not `expmap(x, 0)`, which moves every point but the origin.
* `C106_counterexample_poincare` – With the regulariser of the code (any `η > 0`) it is false: starting at the origin of the ball, two legs in the same direction always lead further than one.
* `C106_counterexample_poincare_legs` – So the two ways do not agree.
* `C106_counterexample_projected_sphere` – With the curvature regulariser, two legs of a geodesic from the origin (k>0) stay strictly behind one leg of the same length.
* `C106_counterexample_sphere` – So on the sphere the two ways never agree for legs in the same direction that stay within half a turn.
* `C107_counterexample_birkhoff` – All the matrices of the result share their storage (`expand`): writing an entry of one writes it in all, and as soon as a batch axis is longer than one no optimiser can write the tensor: `copy_` raises.
* `C107_counterexample_bounded` – ; the result has the requested shape but is no point.
* `C107_counterexample_product` – , whatever the other components, the batch and the seed.
* `C107_counterexample_spd_shape` – , without complaint.
* `C107_counterexample_spd_tuple` – , nor a single integer, whatever the sizes.
* `C107_counterexample_upper` – A tuple or a list is refused; a batch of `k` matrices comes out as one `k × n` matrix; more batch axes are refused.
* `C108_counterexample_lorentz` – Below the floor the projected exponential is not invariant: whenever the transformation moves the origin, `expmap(·, 0)` stays at the origin but does not stay at its image.
* `C108_counterexample_projected` – The method `mobius_add` of the manifold projects its result by default, and then it is not an isometry: it moves the two different points `0.95` and `0.96` of the unit ball to the same point.
* `C109_counterexample_momentum` – Momentum: the first momentum buffer of `RiemannianSGD` is the Euclidean gradient, which does not move like a tangent vector. One iteration on the loss `F(x) = x`, from `1`, and on the same loss of `4 x`, from `4`.
* `C109_counterexample_weight_decay` – Weight decay: the penalty `weight_decay / 2 * ‖x‖²` depends on the frame.
* `C110_counterexample_row_sums` – With momentum, one step of `RiemannianSGD` at a doubly stochastic matrix, with the default arguments of the manifold, can end at a matrix all of whose rows sum to less than 0.6: the raw gradient is stored as the first momentum (C55) and is not tangent.
* `C111_counterexample_sphere` – On the unit sphere: one point `x` with `‖x‖ = 1/2` and weight `-1`. The documented result is the antipode of `x`, which has norm two (`C15_antipode_error_partial`); the result of the code is farther than 0.9 from it.
* `C112_counterexample_ball` – The claim is false of far apart points of the ball: there are two accepted points, the gradient of whose squared distance is zero, because `artanh` is clamped.
* `C112_counterexample_sphere` – The claim is false of close points of the sphere: where the clamp is active the gradient is zero although the points differ.
* `C113_counterexample_ball` – One step of RiemannianSGD with lr = 1/2 on the squared distance, from the origin of PoincareBall, goes past the target and ends further away from it (PoincareBallExact reaches it exactly).
* `C113_counterexample_spd` – SGD on the squared distance to a target far below the parameter diverges on SPD matrices, for every schedule of learning rates bounded below: the default second order retraction `x + u + u x⁻¹ u / 2` grows in both directions.
* `C114_counterexample_birkhoff` – Transport on the Birkhoff polytope from `J/2` to itself halves a tangent vector.
* `C114_counterexample_sphere` – `transp` of the sphere is not an isometry: a quarter turn along a unit tangent vector gives the zero vector.
* `C116_counterexample_adam` – `RiemannianAdam` stabilises a whole group as soon as one parameter's counter is due: regrouping parameters changes the result when some lack gradients
* `C116_counterexample_error` – When a step raises, the parameters listed before the offending one have already been updated
* `C119_counterexample_normal` – RHMC with epsilon=1 and one leapfrog step does not keep the standard normal distribution it is asked to sample from
* `C121_counterexample_ball` – In the Poincare ball the noise of the samplers has mean squared length n/4 at the origin and less everywhere else, instead of n
* `C121_counterexample_stiefel` – On the canonical Stiefel manifold the noise of the samplers has mean squared length nm-m, more than the dimension
* `C122_counterexample_birkhoff` – A step with learning rate zero scales matrices in the Birkhoff polytope by `1/(1+eps+eps²)`.
* `C122_counterexample_lorentz` – A step with learning rate zero (and gradient zero) moves parameters on `Lorentz`: `expmap(x, 0)` multiplies the spatial part by `cosh(1e-4/√k)`, so that repeated steps carry the parameter beyond all bounds.
* `C123_counterexample` – The weighted midpoint of a single point is not that point: `clamp_abs` adds `1e-10` to the denominator, which amounts to an additional point at the origin with weight `1e-10`.
* `C124_counterexample` – When `RiemannianSGD.step` raises for a sparse gradient the parameters before it have moved; repeating the step after repairing the gradient moves them twice.
* `C124_counterexample_linesearch` – When the closure raises during a line search the parameters stay at the trial point, and with Armijo the next `step` raises `KeyError`, because `_grads_computed` was set before the search and `new_grad` never is.
* `C125_counterexample` – `SGRHMC` draws new velocities with standard deviation `epsilon` (instead of its root) at every call: with the default `n_steps=1` the variance of the samples of a normal target tends to `alpha` (0.1 by default) times the right one as `epsilon` tends to 0.
* `C126_counterexample` – With tolerances zero `check_point_on_manifold` of the Birkhoff polytope accepts matrices with negative entries, that of the Lorentz model accepts the lower sheet, and `check_vector_on_tangent` of a sphere in a subspace accepts vectors outside the subspace.
* `C128_counterexample_group_option` – Options inside a parameter group are not checked: `{"params": [x], "lr": -1}` is accepted, although `lr=-1` is refused, and steps go up the gradient.
* `C128_counterexample_linesearch` – A parameter group added to `RiemannianLineSearch` after construction is never searched, and `step` raises `KeyError: "step"` after it has moved the other parameters.
* `C128_counterexample_sampler` – Samplers check that retractions are reversible in the constructor only: `add_param_group` accepts any manifold.
* `C128_counterexample_shared_period` – `add_param_group` writes into the dictionary of the user and keeps it: a second optimiser made from the same dictionaries has the options of the first, and both count their steps in the same entry, so that `stabilize=2` stabilizes in its first step.
* `C129_counterexample_pointwise` – `mobius_pointwise_mul` jumps: it returns `0` as long as all products of entries are at most `1e-8`, also where it would be the identity.
* `C129_counterexample_sphere` – `Sphere.expmap` jumps at `|u| = EPS`: it is the retraction up to there and the exponential map beyond.
* `C131_counterexample_birkhoff` – The metric of the Birkhoff polytope divides by zero at `origin`, the identity matrix.
* `C131_counterexample_dist2plane` – `dist2plane` for k>0 takes the arc sine at `1`, where its derivative is infinite.
* `C131_counterexample_expmap` – The stereographic `expmap` for k>0 takes the tangent at `π/2` for a vector half way round the sphere.
* `C131_counterexample_spd` – On positive definite matrices `dist(x, x)` (affine invariant) and `logmap(x, x)` at every point, `expmap`, `projx` and the logarithmic distance at `origin` have gradient `nan` from size two on: the derivative of `eigh` divides by differences of eigenvalues.
* `C131_counterexample_sphere` – `Sphere.expmap` (and `SphereExact.retr`) at the zero vector has gradient `nan`: `torch.where` selects the retraction, but the branch not selected has divided `0` by `0`.
* `C131_counterexample_stiefel` – `Stiefel.projx` at every matrix that has orthonormal columns (two or more) has gradient `nan`: the derivative of `svd` divides by differences of squared singular values, which are all one.
* `C132_counterexample_stereographic` – `retr` in the Poincaré ball, `x + u`, differs from `expmap` by the square of the step at every point that is not the origin (shown at `1/2`), so it is a first order retraction.
* `C135_counterexample_lorentz` – `Lorentz.egrad2rgrad` changes the gradient it is given in place; `backward()` raises if that tensor is still needed (for instance with `create_graph=True`).
* `C135_counterexample_stiefel` – `EuclideanStiefel.retr` changes the factor `q` in place (`q *= unflip`) although the derivative of `linalg.qr` needs it: `backward()` through it raises.
* `C136_counterexample_bounded` – `BoundedDomain.egrad2rgrad` symmetrises `A g A` with `A = Id - conj(z) z` Hermitian, not symmetric: two losses that vanish on the whole manifold have different Riemannian gradients at `((1/2, i/4), (i/4, 0))`.
* `C136_counterexample_momentum` – `RiemannianSGD` stores the Euclidean gradient as first momentum buffer: a loss that is 0 on the whole circle moves the point to the opposite point in one step.
* `C136_counterexample_sgrhmc` – `SGRHMC` adds the Euclidean gradient, taken at the point before the move, to the velocity: two log-probabilities that are 0 on the circle give different chains.
* `C137_counterexample_birkhoff` – `BirkhoffPolytope.projx` iterates until the last matrix of a stack has converged: a matrix with zero gradient moves differently in a stack than on its own.
* `C13_counterexample_regulariser` – With the regulariser of the code (any `η > 0`) the law is false: for positive scalars in range the two sides always differ, `r ⊗ x + s ⊗ x` being the longer one in the ball.
* `C15_antipode_distance_collapses` – `dist(x, antipode(x))` should be `π`; on the unit sphere, at the unit vector, the code's formula gives less than `2` (both numerator and denominator of the Möbius difference are tiny and the denominator is clamped).
* `C16_counterexample_boundary` – The weighted midpoint of copies of one point accepted by the manifold (on the edge of the ball) need not be that point.
* `C16_counterexample_equidistant` – With the code's constants the midpoint of two equally weighted points need not be equidistant: the origin and any point of norm `1/2` in the unit ball.
* `C16_counterexample_rescale` – Rescaling the weights does change the midpoint: one point with weight `1` and with weight `1e-10`, for every curvature below `-1e-8` and every such point.
* `C16_counterexample_weights` – For k>0 the choice between the midpoint and its antipode compares unweighted sums of distances: with 100/102 of the weight on one point the result can be almost antipodal to it.
* `C17_counterexample_nan` – `dist2plane` for k>0 can return NaN: at `√k·|−p⊕x| = 1` along a normal longer than k the argument of `torch.asin` exceeds 1, because `sabs` adds its `eps` under the square root of the curvature.
* `C17_depends_on_length` – `dist2plane` depends (at rounding level) on the length of the normal, because `clamp_abs` adds its `eps` to the denominator.
* `C18_counterexample_entries` – With `keepdim=False` and a batch of `p` vectors, entry `(i, j)` of the result multiplies the conformal factor of the `i`-th point with the product of the `j`-th pair of vectors, so that the entries off the diagonal are the inner product of no batch element.
* `C18_counterexample_shape` – With `keepdim=False` the sizes are wrong: for every single vector (no batch axis) the result is not a number but a tensor with one axis, of size one; for a batch of `p` vectors (`dim=-1`) it has `p × p` entries.
* `C22_counterexample_dist_self` – On the sphere `dist(x,x)` is not `0` but the constant `arccos(1-EPS)`, more than `1e-4`.
* `C22_counterexample_log_overshoots` – On the sphere, for two different points closer than `arccos(1-EPS)` the logarithm has the constant length `arccos(1-EPS)` instead of their angle, so `exp_x(log_x y)` overshoots `y`.
* `C23_counterexample_dependent_columns` – With linearly dependent columns the projector is too large: for the span of `e₁` given by the two columns `e₁, e₁`, a legal QR gives a projector that keeps `e₂`.
* `C27_counterexample_birkhoff` – A tangent vector of the Birkhoff polytope at `J/2` is halved by `proju`, so `proju` is not a projection.
* `C27_counterexample_canonical_stiefel` – `CanonicalStiefel.proju` doubles some tangent vectors; projecting a tangent momentum buffer again, as `stabilize` does, changes it.
* `C27_counterexample_siegel` – `UpperHalf.proju` applied twice differs from `proju` applied once.
* `C28_counterexample_projx_zero` – `SymmetricPositiveDefinite.projx` does not always give a point of the manifold: the zero matrix is projected on itself.
* `C31_counterexample_stein_triangle` – The Stein value of `SymmetricPositiveDefinite.dist` (the divergence, not its root) violates the triangle inequality in every positive dimension: the points `I, 4I, 16I`.
* `C33_counterexample_batch` – The result for one matrix depends on which other matrices are in the batch: the stopping test looks at the whole batch. Here `J/2` projected alone differs from `J/2` projected together with `[[1,2],[3,4]]`.
* `C33_counterexample_tiny` – `BirkhoffPolytope.projx`: with a positive `eps` a positive matrix with tiny entries is not made doubly stochastic, however many iterations are run.
* `C34_counterexample_origin` – At the point returned by `origin` (the identity matrix) the system of `proju` is singular for every size `≥ 2`, so `torch.linalg.solve` raises there.
* `C35_counterexample_check_accepts_lower_sheet` – The Lorentz point check does not look at the sheet: with zero tolerances it accepts `-x` as well, which is not a point of the model.
* `C35_counterexample_project_polar` – For `k ≠ 1`, `project_polar` gives points off the hyperboloid: the first coordinate lacks the factor `√k`.
* `C35_counterexample_unprojected_zero` – Lorentz `expmap(x, 0, project=False)` is never a point of the manifold: the floor of the norm is active.
* `C36_counterexample_mutates` – Lorentz `egrad2rgrad` overwrites the caller's gradient whenever its first entry is not zero.
* `C36_counterexample_second_call` – Consequently converting the same gradient buffer a second time gives another answer.
* `C37_counterexample_dist_self` – Lorentz `dist(x, x)` is `√k · log(1 + √1e-15) > 0` at every point.
* `C37_counterexample_exp_zero` – Lorentz `expmap(x, 0)` stretches the spatial part of `x`; the zero vector moves every point except the origin.
* `C37_counterexample_exp_zero_large` – For small `k` that effect is large: with `k = 1e-8` the "zero step" stretches by more than half.
* `C39_counterexample_default_eps` – With the default `eps=1e-6` of `poincare_to_lorentz` the image of a point of the ball is never on the hyperboloid.
* `C39_counterexample_eps` – With any positive `eps` of `poincare_to_lorentz` the image of a point of the ball is never on the hyperboloid; its quadratic form is off by the factor `((1 - |p|²)/(1 - |p|² + eps))²`.
* `C40_counterexample_egrad2rgrad` – Lorentz `egrad2rgrad` with `dim=0` flips entries along the last axis: a gradient that is already Riemannian changes sign.
* `C40_counterexample_expmap` – Lorentz `expmap` with `dim=0` uses the last axis for the norm: points `(1,0)`, `(1,0)` and tangent vectors `(0,3)`, `(0,4)` in the columns.
* `C40_counterexample_expmap0` – `expmap0` with `dim=0` does not even keep the size of the manifold axis.
* `C40_counterexample_inner` – `inner` with `keepdim=False` and `dim=0` on tensors of sizes `(2,2)` has a result of sizes `(1,2)`, the same call with the axis moved last one of sizes `(2,2)` (see C18).
* `C40_counterexample_logmap` – Points `(1,0)`, `(1,0)` and `(5/3,4/3)`, `(1,0)` in the columns: the second logarithm is `0`, the code returns a vector with a positive first entry.
* `C40_counterexample_logmap0` – `logmap0` with `dim=0` does not even keep the size of the manifold axis.
* `C40_counterexample_logmap0back` – Points `(5/3,4/3)`, `(1,0)` in the columns: the second one is the origin, where the result is `0`; the code returns a vector with a non-zero first entry.
* `C40_counterexample_matvec` – `mobius_matvec` with `dim=0`, curvature `0` and the identity matrix: the product is the tensor itself, the code returns its transpose.
* `C40_counterexample_norm` – The vectors `(0,0)` and `(3,4)` in the columns: along `dim=0` the norms are `1e-4` (the floor) and `√7`; the code returns `3` for the first one.
* `C40_counterexample_to_poincare_rank1` – `lorentz_to_poincare` negates `dim`: on a single point (a tensor of rank one) with the default `dim=-1` it raises, for every point and curvature.
* `C40_counterexample_to_poincare_rank3` – And on tensors of rank three with `dim=-1` it reads axis `1` instead of the last: the sizes `(1,2,2)` give a result of sizes `(1,2,2)` instead of `(1,2,1)`.
* `C40_counterexample_transp` – Lorentz `transp` with `dim=0`: between equal points the vector does not change, but the code changes it.
* `C41_counterexample_empty_batch` – Fails for an empty batch: Packing parts with an empty batch axis raises `RuntimeError`, although unpacking a tensor with an empty batch works.
* `C41_counterexample_surplus` – Fails for too many columns: Unpacking ignores surplus columns instead of refusing the tensor.
* `C42_counterexample_empty_batch` – Fails for an empty batch: Every operation raises, here `projx`: the flattening `view(0, -1)` is ambiguous.
* `C43_counterexample_self` – The distance of a point to itself is `sqrt 1e-15`, not 0, for every product.
* `C45_counterexample_product` – Fails for one class: A class that copies the table of `Stereographic` but has no method `random_normal`, as `StereographicProductManifold`, cannot be wrapped: `Scaled(...)` raises.
* `C48_counterexample_component_inner` – `Scaled(Euclidean(1), s).component_inner(x, u, v)` is the full inner product (one number), not the entrywise product that `Euclidean.component_inner` returns.
* `C48_counterexample_norm` – A base whose `norm` takes the vector only, `norm(u, *, keepdim, dim)` as `Lorentz.norm`, cannot be called through `Scaled` in either way.
* `C48_counterexample_origin` – `Scaled(Euclidean(1), s).origin(2)` is a random sample with standard deviation `1/s` (drawn with the fixed seed), not the origin that `Euclidean.origin` returns.
* `C48_counterexample_pack` – Whatever the base (a product with several parts, say), `Scaled(M).pack_point` with two parts raises and `Scaled(M).unpack_tensor` returns the tensor itself.
* `C48_counterexample_random` – `Scaled(Lorentz()).random(*size)` raises `KeyError` for all sizes: the table registers `random`, but `Lorentz` inherits `Manifold.random`, which has no parameter `std`.
* `C49_counterexample_order` – Fails for empty axes: `(0,)` and `(3,)` do not broadcast; the code accepts them in this order and refuses them in the other.
* `C49_counterexample_zero` – Fails for empty axes: `(0,)` and `(1,)` broadcast to `(0,)`, the code says `(1,)`.
* `C50_counterexample_negative` – Fails for negative axes: On shape `(1, 1, 5)` with `dims = [-3, -2]` (both legal, in increasing order, of size one) `drop_dims` raises; on `(1, 4, 1, 1)` with `[-2, -1]` it keeps an axis.
* `C50_counterexample_unsorted` – Fails for unsorted axes: `drop_dims` on shape `(3, 1, 1)` with `dims = [2, 1]` keeps an axis it was asked to drop.
* `C52_counterexample_batched_subspace` – The number of axes demanded by a batched subspace is not enforced: a projector of shape `(b, n, n)` accepts a single vector of shape `(n,)`.
* `C52_counterexample_product` – On a product manifold the shape check of a scalar raises `IndexError` instead of saying no.
* `C52_counterexample_sphere` – On a sphere with a subspace, `check_point(x, explain=True)` accepts a vector of the right length and yet gives a reason for refusing it.
* `C53_counterexample_cuda` – Fails for accelerators: The accelerator generator is left seeded: after `origin(seed=s)` of a CPU manifold every program continues from the same accelerator state, whatever it was before.
* `C54_counterexample_storage` – Fails for aliased data: Two different tensor objects on one storage (for instance a parameter and a `ManifoldTensor` made from it) no longer share it after a joint deepcopy: an in-place update of one copy is not seen by the other.
* `C55_counterexample_momentum` – Fails on the sphere with momentum: At `x = (1, 0)` with gradient `(1, 0)` (no tangential part, so nothing should move), momentum `1/2` and learning rate `2`, the first step stores the raw gradient as momentum and retracts `x + u = 0`: the division by its norm gives `nan` in floating point, and the parameter is not on the sphere afterwards.
* `C57_counterexample_momentum` – Fails for the first step with momentum: with momentum `1/2`, learning rate 1 and gradient 1 at 0, `torch.optim.SGD` moves to `-1` and `RiemannianSGD` to `-3/2`.
* `C58_counterexample_stabilize` – Fails under stabilization: a parameter on the sphere that has drifted to `(2, 0)` and has no gradient is changed by a step of `RiemannianSGD` with `stabilize=1`.
* `C60_counterexample_sparse` – `SparseRiemannianAdam` with `amsgrad` stores something else than the running maximum: gradient 1, `betas = (0, 3/4)` on a fresh state gives `1` instead of `1/4`.
* `C60_counterexample_sparse_decrease` – The stored "maximum" even decreases: gradient 16, then gradient 0, with `betas = (0, 0)`: 16 after the first step and 4 after the second.
* `C61_counterexample_adam` – Fails for RiemannianAdam when gradients are missing: two parameters in a group with period 2, the second one without gradient in the first step. Whatever the manifolds and gradients, the third step stabilizes the group (the second parameter's own counter is 2), although 3 is not a multiple of 2.
* `C61_counterexample_sparse_adam` – `SparseRiemannianAdam` does not accept its documented option `stabilize`.
* `C62_counterexample_lorentz` – Fails on the hyperboloid: without weight decay or momentum, the first entry of the stored gradient changes sign.
* `C62_counterexample_nesterov` – Fails with Nesterov momentum on a Euclidean parameter: with `x = 0`, `grad = 1` and momentum `1/2` the stored gradient is `7/4` after the step.
* `C62_counterexample_weight_decay` – Fails with weight decay: on every manifold whose `egrad2rgrad` does not write, the stored gradient becomes `grad + weight_decay * point`; a second step on the same gradient adds it again.
* `C63_constant_cg_counterexample` – With the conjugate gradient rule `"constant"` and a coefficient other than zero, and a method that does not need derivatives, the second step raises `KeyError`: the old search direction is not transported for this rule.
* `C63_derphi_counterexample` – `derphi(α)` returns the derivative at the step size evaluated last: after `phi(1)` and `phi(2)`, `derphi(1)` is 1, while the derivative of the line objective at 1 is 0.
* `C63_force_step_counterexample` – `step(force_step=True)` when the search fails: the parameter moves from 1 by `fallback_stepsize`, and the loss that is returned is that of another point.
* `C63_no_step_counterexample` – After `step(no_step=True)`, the next step starts from the gradient at the point where no step was taken to; the method has tried the step size it returns.
* `C63_reported_loss_counterexample` – A method that returns a step size without having tried it: the step moves from 1 to 1/2, where the loss is 1/8, and returns the loss at the point one step further on.
* `C63_stabilize_counterexample` – With `stabilize=1` and at least one parameter on a manifold no call of `step` ever succeeds.
* `C63_stale_gradient_counterexample` – After a step whose method returned a step size it had not tried, the next step starts from the gradient at the wrong point, and does not move along the direction it computed.
* `C65_counterexample_overflow` – RHMC outside of burn-in: `exp` of the log-acceptance ratio overflows for a much more probable proposal, so the step raises `OverflowError`, records nothing, and leaves the parameter at the proposal.
* `C66_counterexample_linear` – The leapfrog proposal of RHMC is not time-reversible for any linear log-probability except slope zero: the first update of the momentum is a full step instead of half a step.
* `C68_counterexample_line` – In one dimension every direction vanishes below the root's children, so grandchildren of the root sit on their parents (or where projection puts them).
* `C68_counterexample_root` – The id of the root of the generated tree is overwritten: no other node mentions it, and a child of the root does not extend the root's label.
* `C68_counterexample_sample_centre` – The samples are not spread around their node: `random` reads the node as a tangent vector at the origin, so even without noise the sample is `expmap0(node)`.
* `C71_counterexample_minimum` – The documented formula `∑ 2 (n + 1 - i) v_i` is not what the metric of minimum entropy computes, whichever end of the vector `i = 1` is: for `v = (1, 1)` it gives `6`, the code gives `2`.
* `C71_counterexample_shape` – The shape of the distance depends on the metric, and never on the argument `keepdim`: the Riemannian distance drops the matrix axes even with `keepdim=True`, the others keep one axis of size one even with `keepdim=False`, and with points that have no batch axes the weighted metrics give two axes.
* `C73_counterexample_empty` – `Euclidean.dist`, `inner` and `norm` on an empty tensor raise: `broadcast_shapes` turns the size `0` into `1`.
* `C73_counterexample_norm_shape` – `Euclidean.norm` ignores the batch of `x`, `inner` expands to it.
* `C74_counterexample_lorentz_std` – `Lorentz.random_normal` ignores the requested spread: with the default `mean=0`, every positive `std` gives the same sample as `std=1`.
* `C74_counterexample_product_std` – With `std` given as a number, `wrapped_normal` of the product ignores it: all numbers give the same sample (from the same noise).
* `C80_counterexample_canonical_stiefel` – The retraction of `CanonicalStiefel` moves twice as fast as it is told to on the orthogonal matrices.
* `C80_counterexample_lorentz` – The Lorentz exponential map, which is also its retraction, is no retraction at any point but the origin: the zero vector does not stay.
* `C81_counterexample_pointwise` – `mobius_pointwise_mul` with weight one sends every point with entries up to `1e-8` to the origin, while `exp0(1 · log0(x)) = x`.
* `C82_saturates` – The clamp of `1 - e` at `EPS` bounds every entry of the vector-valued distance: points that are further apart than `log(2 / EPS)` get a distance that is too small.
* `C83_counterexample_antisymmetric` – The antisymmetric part of a Euclidean gradient says nothing about the function on symmetric matrices, but it moves the gradient of the bounded domain.
* `C83_counterexample_gradient` – For `z = ((0, 1/2), (1/2, i/2))` the gradient of the bounded domain is not the Riemannian gradient: its inner product with the direction `v = e₁ e₁ᵀ` is `7/5` of the directional derivative.
* `C83_counterexample_isometry` – The inner product of the bounded domain is not the one its distance comes from: at `z = ((0, 1/2), (1/2, i/2))` the Cayley transform (which is an isometry for `dist`) does not scale it by a constant.
* `C83_counterexample_origin` – For a batch, `UpperHalf.origin` returns a matrix of the wrong shape or raises.
* `C83_counterexample_proju` – `proju` is not a projection: at `z = 2 i` it multiplies tangent vectors by four on the upper half space, and at `z = 1/2` by `9/16` on the bounded domain.
* `C84_counterexample_matrix` – For a component with two axes the four operations raise `ValueError` (single points, one component of shape `(a, b)` with `a ≥ 2`, `b ≥ 1`): the result is flattened and then no longer has the shape `pack_point` asks for. `ProductManifold.retr` and the other methods of the base class have no such restriction.
* `C84_counterexample_signed` – The sign is lost: `dist2plane` of the product is never negative, also with `signed=True`, and with one component it is the absolute value of that component's signed distance.
* `C84_counterexample_unit_speed` – `geodesic_unit` of a product does not have unit speed: if after time `τ` every component has moved by `τ` (squared distance `τ ^ 2`), the product has moved by `√n · τ`.
* `C85_failed_search_counterexample` – On the circle, Fletcher–Reeves with derivatives: the first search fails and nothing moves, but the direction that the search had transported to its trial point is kept. The next search direction is not tangent.
* `C85_fletcher_reeves_counterexample` – Fletcher–Reeves on the one-dimensional Poincaré ball: after the first step, from 0 to 1/2, the second direction is not the documented one, with the squared length of the old gradient at the old point.
* `C85_key_error_counterexample` – `line_search_method="armijo"`, `cg_method="fr"`, everything else default: if the first search finds no step size, every later call of `step` raises `KeyError`. (`armijo` is a search that tries the step size 1 and gives up.)
* `C87_counterexample_weighted` – With the weights `(1, 0)`, which the learnable weighted sum can reach, the distance between distinct points can be zero, and the triangle inequality fails: `i diag(1,1)`, `i diag(2,1)`, `i diag(2,2)`.
* `C88_counterexample_dist_p` – "The default behaviour is not changed" does not extend to other values of `p`: `t.dist(other, p=1)` is not `torch.Tensor.dist(t, other, p=1)`, because `p` is not passed on.
* `C88_counterexample_proj_parameter` – On a tensor that requires a gradient — every `ManifoldParameter` by default — `proj_()` raises `RuntimeError` unless gradients are switched off, whatever its entries, even if they already are on the manifold.
* `C89_counterexample_argument` – `PoincareBall(c)` and `SphereProjection(k)` overwrite the floating point tensor they are given: every positive curvature is replaced by a smaller number.
* `C89_counterexample_shared` – Two Poincaré balls built from one tensor `c` (between `log 2` and `20`) share their parameter, and both end up with the curvature `log (exp c - 1)` instead of `c`.
* `C90_counterexample_linesearch` – RiemannianLineSearch (with its default options): the step after a checkpoint was loaded goes somewhere else than the one without the interruption, because the loss before the last step is not in the checkpoint.
* `C90_counterexample_order` – The same parameters in another order: the checkpoint is accepted, and the momentum of each parameter goes to the other one.
* `C91_counterexample_birkhoff` – With the default `eps = 1e-12` every sufficiently small learning rate can make the loss larger, although the Riemannian gradient is not zero.
* `C91_counterexample_lorentz` – On the Lorentz manifold every sufficiently small learning rate makes the loss larger: the exponential map clamps the length of the step from below (C37).
* `C91_counterexample_negative_scale` – With a negative scale, which the class accepts, small steps increase the loss.
* `C92_counterexample_birkhoff` – `BirkhoffPolytope.projx` (Sinkhorn's iteration) is not the closest doubly stochastic matrix.
* `C92_counterexample_lorentz` – It is not the closest point.
* `C92_counterexample_spd` – It is not the closest one.
* `C94_counterexample_adam_euclidean` – `RiemannianAdam` is `torch.optim.Adam` on Euclidean parameters, which keeps a second moment for each entry: one iteration with the default options, gradient `(1, 1)`, goes in another direction in rotated coordinates.
* `C94_counterexample_euclidean_stiefel_momentum` – With momentum it fails, whatever QR decomposition torch returns: the first buffer is the Euclidean gradient, and a step along it may end at a matrix without full rank. Here the parameter is `1` (one row, one column), the learning rate 1, the momentum 0.9 and the gradient `10/9`; in the coordinates with the opposite sign the parameter after one iteration is not the opposite one.
* `C95_counterexample_clamp` – Fails for the distance to a hyperplane: two calls with the same point and the same curvature `1` in the first row give different distances there, because the curvature of the second row is `1` in one call and `-1` in the other.
* `C95_counterexample_keepdim` – Fails with `keepdim=False` (the default): for `B` points in rows and curvatures of shape `(B, 1)`, the conformal factor, the distance to the origin and the distance are not `B` numbers but `B × B`, with the curvature of row `i` and the points of row `j` at `(i, j)`.
* `C95_counterexample_taylor` – Fails for the distance to a hyperplane also for a curvature close to zero: its distance depends on whether the other curvatures are close to zero.
* `C96_counterexample_derivative` – Fails for a learnable curvature: between `-1e-8` and `0` the derivative of the computed distance in `k` is positive, while the exact distance decreases in `k` (towards the flat value).
* `C96_counterexample_negative` – Fails far from the origin: for every nonzero `k` with `|k| ≤ 1e-8` points with `|k| |x|² > 3` have a negative distance from the origin.
* `C96_counterexample_sign` – Fails for negative curvatures close to zero: the exact distance to the origin is larger than in flat space, the computed one is smaller, and the error is not quadratic but at least linear in `k`. Likewise the exponential map goes further than in flat space instead of less far.
* `C97_counterexample_grad` – The gradients left behind are not the same: with Nesterov momentum a step on a plain Euclidean parameter also writes to its `.grad`, a step on a product with a Euclidean factor does not. (A caller who accumulates gradients over steps without `zero_grad` sees the difference.)
* `C98_counterexample_adam_euclidean` – `Scaled(Euclidean(1), 1)` scales by one, yet Adam does not treat it as `Euclidean(1)`: the first step for the gradient `(3, 4)` divides every entry by the norm 5 of the vector instead of its own modulus. (`Scaled` does not forward `component_inner`.)
* `C98_counterexample_adam_product` – The same for a product of two lines: on the product each factor has its own denominator, on `Scaled(product, 1)` the factors share one (`inner` of a product is the sum).
* `C98_counterexample_gradient` – The Riemannian gradient of `Scaled(M, s)` is not the gradient for its own metric and retraction unless `s = 1`: for a linear loss on the line, `inner(egrad2rgrad(g), u)` is `g u`, the slope along `retr(x, t u)` is `g u / s`. The line search, which uses this number as the slope, gets it wrong by the factor `s`.
* `C99_counterexample_betas` – The factor is not bounded without `β₁² < β₂`. With `betas=(1/2, 1/16)`, which the constructor accepts, a gradient followed by zero gradients makes a step of a Euclidean parameter longer than any multiple of the learning rate (here 1).
* `C99_counterexample_canonical_stiefel` – Stabilising `CanonicalStiefel` makes the steps explode. `CanonicalStiefel.proju` is not a projection: on square matrices it doubles tangent vectors. With the default `betas`, any learning rate and `stabilize=1`, one gradient followed by zero gradients makes `RiemannianAdam` take steps longer than any multiple of the learning rate: every tangent vector leading to the new point is longer.

<!-- end of section 4 -->

<!-- section 5 -->

## 5. What is modelled and what is not

Line ranges are in the comment of every definition.  "Wrapper" means a public function
that only passes its arguments on (checked by reading); the function behind it is
modelled.

| source file | modelled in | not modelled |
|---|---|---|
| `geoopt/utils.py` | `Model/Utils`, `Model/Shapes` | `prod` (library product of a list) |
| `geoopt/linalg/*` | `Model/Linalg`, `Model/Siegel` | – |
| `manifolds/base.py` | `Model/Base`, `Model/Scaled`, `Model/ScalingStorage`, `Model/Buffer`, `Model/Fused` | `device`, `dtype`, `__repr__`; abstract methods |
| `manifolds/euclidean.py` | `Model/Euclidean` | `_check_*` (constantly true) |
| `manifolds/sphere.py` | `Model/Sphere`, `Model/Axis` | – |
| `manifolds/stiefel.py` | `Model/Stiefel` | `__repr__` helpers |
| `manifolds/symmetric_positive_definite.py` | `Model/SPD` | `extra_repr` |
| `manifolds/birkhoff_polytope.py` | `Model/Birkhoff` | – |
| `manifolds/lorentz/*` | `Model/Lorentz`, `Model/LorentzAxis` | wrappers |
| `manifolds/stereographic/*` | `Model/Stereo`, `Model/StereoManifold`, `Model/StereoAxis`, `Model/StereoAxisT`, `Model/StereoProduct`, `Model/Curvature` | wrappers |
| `manifolds/product.py` | `Model/Product` | `__repr__` |
| `manifolds/scaled.py` | `Model/Scaled` | `__dir__`, `__repr__` |
| `manifolds/siegel/*` | `Model/Siegel` | `expmap`, `logmap` (raise `NotImplementedError`) |
| `geoopt/tensor.py` | `Model/ManifoldTensor`, `Model/TensorMethods` | `__repr__`, the `device` argument |
| `optim/*` | `Model/Optim`, `Model/OptimManifolds`, `Model/OptimSparse`, `Model/LineSearch`, `Model/Checkpoint` | torch's own `param_groups` bookkeeping; SciPy's search routines are arbitrary callables |
| `samplers/*` | `Model/Samplers` | the pseudo random generator (draws are arguments) |
| `layers/stereographic.py` | `Model/Layer` | `extra_repr` |
| `datasets/stereographic.py` | `Model/Dataset` | – |
| `docutils.py` | – | documentation helper, no effect on values |
| autograd, devices, dtypes, complex tensors outside Siegel | – | idealised, see section 2 |

<!-- end of section 5 -->
