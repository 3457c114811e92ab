{"id": "C01", "title": "Poincare ball operations never leave the ball", "statement": "For k<0, projx, retr, and expmap / expmap0 / mobius_* / geodesic_unit with project=True return a point whose norm is at most (1-eps)/sqrt(|k|+1e-15), hence strictly inside the ball of radius 1/sqrt(|k|), whatever tensors they are given.", "quantifier": "every dimension, every k<0, every input vector (valid point or not), both dtypes", "why_tests_cant": "the inputs are real vectors: a test samples finitely many of uncountably many, and the failing set of a wrong formula can have measure zero", "anchors": ["geoopt/manifolds/stereographic/math.py:_project", "geoopt/manifolds/stereographic/manifold.py:Stereographic.projx/retr/expmap/mobius_add"]}
{"id": "C02", "title": "Projection to the ball is idempotent and leaves valid points alone", "statement": "projx(projx(x)) = projx(x); projx(x) = x exactly when check_point_on_manifold's bound holds; and projx(x) is a non-negative multiple of x.", "quantifier": "every dimension, every k, every x, both dtypes", "why_tests_cant": "the inputs are real vectors: a test samples finitely many of uncountably many, and the failing set of a wrong formula can have measure zero", "anchors": ["geoopt/manifolds/stereographic/math.py:_project", "geoopt/manifolds/stereographic/manifold.py:Stereographic._check_point_on_manifold"]}
{"id": "C03", "title": "Moebius addition is closed, has 0 as identity and -x as left inverse, and left-cancels", "statement": "For k<=0 points of the open ball stay in it under mobius_add (project=False); mobius_add(x,0)=x=mobius_add(0,x); mobius_add(-x,x)=0; mobius_add(-x,mobius_add(x,y))=y.", "quantifier": "every dimension, every k, all x,y in the ball where the 1e-15 denominator clamp is inactive (always away from antipodal pairs)", "why_tests_cant": "the inputs are real vectors: a test samples finitely many of uncountably many, and the failing set of a wrong formula can have measure zero", "anchors": ["geoopt/manifolds/stereographic/math.py:_mobius_add", "geoopt/manifolds/stereographic/math.py:_mobius_sub"]}
{"id": "C04", "title": "Gyration has its defining meaning, preserves norms and gives the gyrocommutative law", "statement": "gyration(x,y,z) equals mobius_add(-(x+y), x+(y+z)) (+ being mobius_add); it preserves the Euclidean norm of z; and mobius_add(x,y)=gyration(x,y,mobius_add(y,x)).", "quantifier": "every dimension, every k, all x,y,z with non-degenerate denominators", "why_tests_cant": "the inputs are real vectors: a test samples finitely many of uncountably many, and the failing set of a wrong formula can have measure zero", "anchors": ["geoopt/manifolds/stereographic/math.py:_gyration", "geoopt/manifolds/stereographic/math.py:_mobius_add", "geoopt/manifolds/stereographic/math.py:_mobius_coadd"]}
{"id": "C05", "title": "expmap and logmap are mutually inverse on the stereographic model", "statement": "expmap(x,logmap(x,y))=y and logmap(x,expmap(x,u))=u as long as the numeric clamps (tanh argument 15, artanh argument 1-1e-7, norms 1e-15) are inactive.", "quantifier": "every dimension, every k (negative, zero, positive within the injectivity radius), every pair of points / tangent vectors in the stated region", "why_tests_cant": "the inputs are real vectors: a test samples finitely many of uncountably many, and the failing set of a wrong formula can have measure zero", "anchors": ["geoopt/manifolds/stereographic/math.py:_expmap", "geoopt/manifolds/stereographic/math.py:_logmap", "geoopt/manifolds/stereographic/math.py:tan_k", "geoopt/manifolds/stereographic/math.py:artan_k"]}
{"id": "C06", "title": "Stereographic dist is a metric", "statement": "dist(x,y)>=0, dist(x,x)=0, dist(x,y)=dist(y,x), dist(x,y)=0 only if x=y, and dist(x,z)<=dist(x,y)+dist(y,z).", "quantifier": "every dimension, every k<=0, all points of the ball", "why_tests_cant": "the inputs are real vectors: a test samples finitely many of uncountably many, and the failing set of a wrong formula can have measure zero", "anchors": ["geoopt/manifolds/stereographic/math.py:_dist", "geoopt/manifolds/stereographic/math.py:artan_k"]}
{"id": "C07", "title": "Length of the log map is the distance", "statement": "norm(x, logmap(x,y)) = dist(x,y), and dist(x, expmap(x,u)) = norm(x,u) in the unclamped region.", "quantifier": "every dimension, every k, all points / tangent vectors in the region", "why_tests_cant": "the inputs are real vectors: a test samples finitely many of uncountably many, and the failing set of a wrong formula can have measure zero", "anchors": ["geoopt/manifolds/stereographic/math.py:_norm", "geoopt/manifolds/stereographic/math.py:_logmap", "geoopt/manifolds/stereographic/math.py:_expmap", "geoopt/manifolds/stereographic/math.py:_dist"]}
{"id": "C08", "title": "The functions specialised to the origin agree with the general ones", "statement": "dist0(x)=dist(0,x), expmap(0,u)=expmap0(u), logmap(0,y)=logmap0(y), transp0(y,v)=transp(0,y,v), transp0back(x,v)=transp(x,0,v).", "quantifier": "every dimension, every k, every point and vector", "why_tests_cant": "the inputs are real vectors: a test samples finitely many of uncountably many, and the failing set of a wrong formula can have measure zero", "anchors": ["geoopt/manifolds/stereographic/math.py:_dist0", "geoopt/manifolds/stereographic/math.py:_expmap0", "geoopt/manifolds/stereographic/math.py:_logmap0", "geoopt/manifolds/stereographic/math.py:_parallel_transport0", "geoopt/manifolds/stereographic/math.py:_parallel_transport0back"]}
{"id": "C09", "title": "Stereographic parallel transport is a linear isometry with inverse the transport back", "statement": "transp(x,y,.) is linear, inner(y,transp(x,y,u),transp(x,y,v))=inner(x,u,v), and transp(y,x,transp(x,y,v))=v.", "quantifier": "every dimension, every k, all points with inactive clamps, all vectors", "why_tests_cant": "the inputs are real vectors: a test samples finitely many of uncountably many, and the failing set of a wrong formula can have measure zero", "anchors": ["geoopt/manifolds/stereographic/math.py:_parallel_transport", "geoopt/manifolds/stereographic/math.py:_gyration", "geoopt/manifolds/stereographic/math.py:_lambda_x", "geoopt/manifolds/stereographic/math.py:_inner"]}
{"id": "C10", "title": "Geodesics hit their end points and have constant speed", "statement": "geodesic(0,x,y)=x, geodesic(1,x,y)=y, dist(x,geodesic(t,x,y))=t*dist(x,y) for t in [0,1]; dist(x,geodesic_unit(t,x,u))=t.", "quantifier": "every dimension, every k<0, every pair of points in the unclamped region, every t", "why_tests_cant": "the inputs are real vectors: a test samples finitely many of uncountably many, and the failing set of a wrong formula can have measure zero", "anchors": ["geoopt/manifolds/stereographic/math.py:_geodesic", "geoopt/manifolds/stereographic/math.py:_geodesic_unit", "geoopt/manifolds/stereographic/math.py:_mobius_scalar_mul"]}
{"id": "C11", "title": "At zero curvature the model is flat space", "statement": "With k=0: mobius_add(x,y)=x+y, dist(x,y)=2|x-y|, expmap(x,u)=x+u, logmap(x,y)=y-x, transport is the identity and inner=4<u,v>.", "quantifier": "every dimension, all points and vectors", "why_tests_cant": "the inputs are real vectors: a test samples finitely many of uncountably many, and the failing set of a wrong formula can have measure zero", "anchors": ["geoopt/manifolds/stereographic/math.py:tan_k_zero_taylor", "geoopt/manifolds/stereographic/math.py:artan_k_zero_taylor", "geoopt/manifolds/stereographic/math.py:_mobius_add"]}
{"id": "C12", "title": "The sign of a learnable curvature cannot change", "statement": "For every value the optimiser can give the unconstrained parameter, PoincareBall.k<0 and SphereProjection.k>0; after construction with c>0 the curvature read back is c (up to the softplus threshold error).", "quantifier": "every real parameter value; every initial c>0", "why_tests_cant": "a test tries a few parameter values; training can reach any real", "anchors": ["geoopt/manifolds/stereographic/manifold.py:PoincareBall", "geoopt/manifolds/stereographic/manifold.py:SphereProjection"]}
{"id": "C13", "title": "Moebius scalar multiplication satisfies the scalar laws", "statement": "mobius_scalar_mul(1,x)=x, (rs)x=r(sx), (r+s)x=mobius_add(rx,sx) in the unclamped region.", "quantifier": "every dimension, every k<0, all scalars and points in the region", "why_tests_cant": "the inputs are real vectors: a test samples finitely many of uncountably many, and the failing set of a wrong formula can have measure zero", "anchors": ["geoopt/manifolds/stereographic/math.py:_mobius_scalar_mul", "geoopt/manifolds/stereographic/math.py:tan_k", "geoopt/manifolds/stereographic/math.py:artan_k"]}
{"id": "C14", "title": "Stereographic projection and its inverse cancel", "statement": "sproj(inv_sproj(x))=x; inv_sproj(x) lies on the sphere/hyperboloid of curvature k (up to the 1e-15 regulariser); inv_sproj(sproj(z))=z on that surface.", "quantifier": "every dimension, every k, every point", "why_tests_cant": "the inputs are real vectors: a test samples finitely many of uncountably many, and the failing set of a wrong formula can have measure zero", "anchors": ["geoopt/manifolds/stereographic/math.py:_sproj", "geoopt/manifolds/stereographic/math.py:_inv_sproj"]}
{"id": "C15", "title": "Antipode is at distance pi*R and is an involution", "statement": "For k>0, dist(x,antipode(x)) is the diameter pi/sqrt(k) and antipode(antipode(x))=x; for k<=0 antipode(x)=-x.", "quantifier": "every dimension, every k, every point", "why_tests_cant": "the inputs are real vectors: a test samples finitely many of uncountably many, and the failing set of a wrong formula can have measure zero", "anchors": ["geoopt/manifolds/stereographic/math.py:_antipode", "geoopt/manifolds/stereographic/math.py:_geodesic_unit"]}
{"id": "C16", "title": "Weighted midpoint of equal points is that point and is symmetric", "statement": "weighted_midpoint of copies of x is x, it does not depend on the order of the points, rescaling all weights changes nothing, and for two equally weighted points it is equidistant from both.", "quantifier": "every dimension, every k<0, every finite family of points and weights", "why_tests_cant": "the inputs are real vectors: a test samples finitely many of uncountably many, and the failing set of a wrong formula can have measure zero", "anchors": ["geoopt/manifolds/stereographic/math.py:_weighted_midpoint", "geoopt/utils.py:clamp_abs"]}
{"id": "C17", "title": "Distance to a hyperplane", "statement": "dist2plane with signed=False is the absolute value of the signed one, is zero exactly when <-p+x,a>=0, does not depend on the length of a, and scaled=True multiplies by |a|.", "quantifier": "every dimension, every k, all x,p,a", "why_tests_cant": "the inputs are real vectors: a test samples finitely many of uncountably many, and the failing set of a wrong formula can have measure zero", "anchors": ["geoopt/manifolds/stereographic/math.py:_dist2plane", "geoopt/utils.py:clamp_abs"]}
{"id": "C18", "title": "inner on a batch returns one number per batch element", "statement": "For batched points, inner(x,u,v) with keepdim=False has the batch shape and equals entrywise the inner product of each element; norm(x,u)**2 = inner(x,u).", "quantifier": "every batch shape and keepdim flag", "why_tests_cant": "the shape algebra must hold for every batch shape; unit tests use one or two shapes", "anchors": ["geoopt/manifolds/stereographic/math.py:_inner", "geoopt/manifolds/stereographic/math.py:_norm", "geoopt/manifolds/stereographic/manifold.py:Stereographic.inner"]}
{"id": "C19", "title": "egrad2rgrad yields the Riemannian gradient", "statement": "inner(x, egrad2rgrad(x,g), v) equals the Euclidean pairing <g,v> for every tangent v, so a step along -egrad2rgrad is a first-order descent direction, and it is tangent.", "quantifier": "every manifold listed (Stereographic, Euclidean, Sphere, Lorentz, Stiefel canonical/euclidean, SPD), every point, gradient and tangent vector", "why_tests_cant": "the inputs are real vectors: a test samples finitely many of uncountably many, and the failing set of a wrong formula can have measure zero", "anchors": ["geoopt/manifolds/stereographic/math.py:_egrad2rgrad", "geoopt/manifolds/sphere.py:Sphere.proju", "geoopt/manifolds/lorentz/math.py:_egrad2rgrad", "geoopt/manifolds/stiefel.py:CanonicalStiefel.proju", "geoopt/manifolds/symmetric_positive_definite.py:egrad2rgrad"]}
{"id": "C20", "title": "Sphere operations stay on the sphere", "statement": "projx of a vector with non-zero subspace part has norm 1; retr(x,u) and expmap(x,u) of a tangent u at x are on the sphere.", "quantifier": "every dimension, every point, every tangent vector of any length, both dtypes", "why_tests_cant": "the inputs are real vectors: a test samples finitely many of uncountably many, and the failing set of a wrong formula can have measure zero", "anchors": ["geoopt/manifolds/sphere.py:Sphere.projx", "geoopt/manifolds/sphere.py:Sphere.retr", "geoopt/manifolds/sphere.py:Sphere.expmap"]}
{"id": "C21", "title": "Sphere tangent projection", "statement": "proju(x,u) is tangent at x, is linear and idempotent, fixes tangent vectors, and u-proju(x,u) is normal.", "quantifier": "every dimension, point, vector", "why_tests_cant": "the inputs are real vectors: a test samples finitely many of uncountably many, and the failing set of a wrong formula can have measure zero", "anchors": ["geoopt/manifolds/sphere.py:Sphere.proju"]}
{"id": "C22", "title": "Sphere exp, log and dist agree", "statement": "expmap(x,logmap(x,y))=y, dist is symmetric, dist(x,y)=arccos<x,y> on the unclamped range, |logmap(x,y)|=dist(x,y), dist(x,x)=0.", "quantifier": "every dimension and all pairs of points", "why_tests_cant": "the inputs are real vectors: a test samples finitely many of uncountably many, and the failing set of a wrong formula can have measure zero", "anchors": ["geoopt/manifolds/sphere.py:Sphere.logmap", "geoopt/manifolds/sphere.py:Sphere.dist", "geoopt/manifolds/sphere.py:Sphere.expmap"]}
{"id": "C23", "title": "Sphere with a subspace constraint stays in the subspace", "statement": "With intersection= or complement=, projx, retr, expmap of subspace tangent vectors and proju results lie in the subspace, and the stored projector is the orthogonal projector on it.", "quantifier": "every subspace, dimension, point and vector", "why_tests_cant": "the inputs are real vectors: a test samples finitely many of uncountably many, and the failing set of a wrong formula can have measure zero", "anchors": ["geoopt/manifolds/sphere.py:_configure_manifold_complement", "geoopt/manifolds/sphere.py:_configure_manifold_intersection", "geoopt/manifolds/sphere.py:_project_on_subspace"]}
{"id": "C24", "title": "Canonical Stiefel retraction keeps X^T X = I and transports isometrically", "statement": "retr/expmap(x,u) has orthonormal columns for every u, the linear system solved is always non-singular, transp_follow_retr maps tangent vectors at x to tangent vectors at retr(x,u) preserving inner, and retr_transp returns the same pair as the two separate calls.", "quantifier": "every n>=m, every point, every matrix u", "why_tests_cant": "the inputs are real vectors: a test samples finitely many of uncountably many, and the failing set of a wrong formula can have measure zero", "anchors": ["geoopt/manifolds/stiefel.py:CanonicalStiefel._transp_follow_one", "geoopt/manifolds/stiefel.py:CanonicalStiefel.retr_transp"]}
{"id": "C25", "title": "Canonical Stiefel retraction is reversible", "statement": "With (y,w)=retr_transp(x,u,u), retr(y,-w)=x (and w transports back to u): what `reversible=True` promises to the samplers.", "quantifier": "every n,m, point x on the manifold, matrix u", "why_tests_cant": "the inputs are real vectors: a test samples finitely many of uncountably many, and the failing set of a wrong formula can have measure zero", "anchors": ["geoopt/manifolds/stiefel.py:CanonicalStiefel.reversible", "geoopt/manifolds/stiefel.py:CanonicalStiefel._amat"]}
{"id": "C26", "title": "Euclidean Stiefel operations stay on the manifold", "statement": "proju is the orthogonal projection on the tangent space; retr (QR with sign fix) and expmap return matrices with orthonormal columns; expmap(x,0)=x=retr(x,0).", "quantifier": "every n>=m, every point, every tangent vector", "why_tests_cant": "the inputs are real vectors: a test samples finitely many of uncountably many, and the failing set of a wrong formula can have measure zero", "anchors": ["geoopt/manifolds/stiefel.py:EuclideanStiefel.proju", "geoopt/manifolds/stiefel.py:EuclideanStiefel.retr", "geoopt/manifolds/stiefel.py:EuclideanStiefel.expmap"]}
{"id": "C27", "title": "proju is a projection onto the tangent space on every manifold", "statement": "proju(x,u) is tangent and proju(x,proju(x,u))=proju(x,u), so projecting an already tangent vector (as stabilize() does with momentum) does not change it.", "quantifier": "every manifold class, every point, every vector", "why_tests_cant": "the inputs are real vectors: a test samples finitely many of uncountably many, and the failing set of a wrong formula can have measure zero", "anchors": ["geoopt/manifolds/base.py:Manifold.proju", "geoopt/manifolds/stiefel.py:CanonicalStiefel.proju", "geoopt/manifolds/birkhoff_polytope.py:proj_tangent", "geoopt/manifolds/siegel/siegel.py:proju", "geoopt/manifolds/symmetric_positive_definite.py:proju"]}
{"id": "C28", "title": "SPD projection and retraction give symmetric positive definite matrices", "statement": "projx(x) is symmetric positive semidefinite, definite iff sym(x) is non-singular, and fixes SPD matrices; retr(x,u) and expmap(x,u) are SPD for symmetric u.", "quantifier": "every size n, every x (SPD for retr/expmap), every symmetric u", "why_tests_cant": "the inputs are real vectors: a test samples finitely many of uncountably many, and the failing set of a wrong formula can have measure zero", "anchors": ["geoopt/manifolds/symmetric_positive_definite.py:projx", "geoopt/manifolds/symmetric_positive_definite.py:retr", "geoopt/manifolds/symmetric_positive_definite.py:expmap", "geoopt/linalg/batch_linalg.py:sym_funcm"]}
{"id": "C29", "title": "SPD exp and log are inverse", "statement": "expmap(x,logmap(x,y))=y and logmap(x,expmap(x,u))=u.", "quantifier": "every n, all SPD x,y, symmetric u", "why_tests_cant": "the inputs are real vectors: a test samples finitely many of uncountably many, and the failing set of a wrong formula can have measure zero", "anchors": ["geoopt/manifolds/symmetric_positive_definite.py:expmap", "geoopt/manifolds/symmetric_positive_definite.py:logmap", "geoopt/linalg/batch_linalg.py:sym_inv_sqrtm2"]}
{"id": "C30", "title": "Affine invariant SPD distance", "statement": "dist(x,y)=dist(y,x)>=0, zero iff x=y, dist(x,z)<=dist(x,y)+dist(y,z), dist(x,y)=norm of logmap(x,y), and dist(a x a^T, a y a^T)=dist(x,y) for invertible a.", "quantifier": "every n, all SPD x,y, invertible a", "why_tests_cant": "the inputs are real vectors: a test samples finitely many of uncountably many, and the failing set of a wrong formula can have measure zero", "anchors": ["geoopt/manifolds/symmetric_positive_definite.py:_affine_invariant_metric", "geoopt/linalg/batch_linalg.py:sym_inv_sqrtm1"]}
{"id": "C31", "title": "Every selectable SPD metric is a metric", "statement": "dist with default_metric AIM, SM or LEM is non-negative, symmetric, zero iff equal and satisfies the triangle inequality.", "quantifier": "every n, all SPD x,y,z", "why_tests_cant": "the inputs are real vectors: a test samples finitely many of uncountably many, and the failing set of a wrong formula can have measure zero", "anchors": ["geoopt/manifolds/symmetric_positive_definite.py:_stein_metric", "geoopt/manifolds/symmetric_positive_definite.py:_log_eucliden_metric"]}
{"id": "C32", "title": "SPD parallel transport is an isometry", "statement": "inner(y,transp(x,y,u),transp(x,y,v))=inner(x,u,v); the result is symmetric; inner is positive definite.", "quantifier": "every n, all SPD x,y, symmetric u,v", "why_tests_cant": "the inputs are real vectors: a test samples finitely many of uncountably many, and the failing set of a wrong formula can have measure zero", "anchors": ["geoopt/manifolds/symmetric_positive_definite.py:transp", "geoopt/manifolds/symmetric_positive_definite.py:inner"]}
{"id": "C33", "title": "Sinkhorn projection of a positive matrix", "statement": "projx of an entrywise positive matrix is entrywise positive and of the form D1 x D2; its row sums are in (0,1]; and when the loop stops by tolerance its column sums are within tol of 1.", "quantifier": "every n, positive matrix, max_iter, tol, eps", "why_tests_cant": "the inputs are real vectors: a test samples finitely many of uncountably many, and the failing set of a wrong formula can have measure zero", "anchors": ["geoopt/manifolds/birkhoff_polytope.py:proj_doubly_stochastic"]}
{"id": "C34", "title": "Birkhoff tangent projection has zero row and column sums", "statement": "proju(x,u) passes check_vector_on_tangent exactly: all row sums and column sums are 0, and the linear system it solves is non-singular.", "quantifier": "every n, every doubly stochastic positive x, every u", "why_tests_cant": "the inputs are real vectors: a test samples finitely many of uncountably many, and the failing set of a wrong formula can have measure zero", "anchors": ["geoopt/manifolds/birkhoff_polytope.py:proj_tangent"]}
{"id": "C35", "title": "Lorentz operations stay on the hyperboloid", "statement": "projx(x) satisfies <x,x>_L=-k, x0>0 for every input; expmap with project=True always lands on it and with project=False lands on it for tangent u when the 1e-8 norm clamp is inactive.", "quantifier": "every dimension, every k>0, every input", "why_tests_cant": "the inputs are real vectors: a test samples finitely many of uncountably many, and the failing set of a wrong formula can have measure zero", "anchors": ["geoopt/manifolds/lorentz/math.py:_project", "geoopt/manifolds/lorentz/math.py:_expmap", "geoopt/manifolds/lorentz/math.py:_expmap0"]}
{"id": "C36", "title": "Lorentz tangent projection and gradient", "statement": "proju(x,v) is Minkowski-orthogonal to x, idempotent, fixes tangent vectors; egrad2rgrad(x,g) is tangent and represents g in the metric; neither modifies its arguments.", "quantifier": "every dimension, k>0, point, vector; every sequence of calls on the same tensors", "why_tests_cant": "the inputs are real vectors: a test samples finitely many of uncountably many, and the failing set of a wrong formula can have measure zero; aliasing effects show only on repeated calls", "anchors": ["geoopt/manifolds/lorentz/math.py:_project_u", "geoopt/manifolds/lorentz/math.py:_egrad2rgrad"]}
{"id": "C37", "title": "Lorentz exp, log and dist agree", "statement": "expmap(x,logmap(x,y))=y, norm(logmap(x,y))=dist(x,y), dist symmetric, dist well defined (-<x,y>_L>=k), dist(x,x)=0, triangle inequality; dist0/expmap0/logmap0 agree with the general functions at the origin.", "quantifier": "every dimension, k>0, all points", "why_tests_cant": "the inputs are real vectors: a test samples finitely many of uncountably many, and the failing set of a wrong formula can have measure zero", "anchors": ["geoopt/manifolds/lorentz/math.py:_dist", "geoopt/manifolds/lorentz/math.py:_logmap", "geoopt/manifolds/lorentz/math.py:arcosh", "geoopt/manifolds/lorentz/math.py:_dist0", "geoopt/manifolds/lorentz/math.py:_logmap0", "geoopt/manifolds/lorentz/math.py:_expmap0"]}
{"id": "C38", "title": "Lorentz parallel transport", "statement": "transp(x,y,v) is tangent at y and preserves the Minkowski inner product; transp0/transp0back agree with transp at the origin.", "quantifier": "every dimension, k>0, all distinct points, tangent vectors", "why_tests_cant": "the inputs are real vectors: a test samples finitely many of uncountably many, and the failing set of a wrong formula can have measure zero", "anchors": ["geoopt/manifolds/lorentz/math.py:_parallel_transport", "geoopt/manifolds/lorentz/math.py:_parallel_transport0", "geoopt/manifolds/lorentz/math.py:_parallel_transport0back", "geoopt/manifolds/lorentz/math.py:_logmap0back"]}
{"id": "C39", "title": "Lorentz and Poincare models are isometric via the provided maps", "statement": "lorentz_to_poincare and poincare_to_lorentz are mutually inverse, map onto each other's manifolds and preserve distance.", "quantifier": "every dimension, k>0, all points", "why_tests_cant": "the inputs are real vectors: a test samples finitely many of uncountably many, and the failing set of a wrong formula can have measure zero", "anchors": ["geoopt/manifolds/lorentz/math.py:lorentz_to_poincare", "geoopt/manifolds/lorentz/math.py:poincare_to_lorentz"]}
{"id": "C40", "title": "The dim argument selects the manifold axis", "statement": "Any Lorentz or Stereographic function called with dim=d on a tensor equals the same function with dim=-1 on the tensor with axis d moved last.", "quantifier": "every rank, every valid dim, every tensor", "why_tests_cant": "all ranks and axes must be covered; tests use rank 1-2 with dim=-1", "anchors": ["geoopt/manifolds/lorentz/math.py:_norm", "geoopt/manifolds/lorentz/math.py:_logmap", "geoopt/manifolds/lorentz/math.py:lorentz_to_poincare", "geoopt/manifolds/lorentz/math.py:_egrad2rgrad"]}
{"id": "C41", "title": "pack_point and unpack_tensor are inverse", "statement": "unpack_tensor(pack_point(*ts)) returns ts and pack_point(*unpack_tensor(t)) returns t; pack_point rejects a wrong number of parts or a part with a wrong trailing shape.", "quantifier": "every list of component shapes (including scalar shapes), every batch shape, every data", "why_tests_cant": "index arithmetic must hold for every shape list and batch shape", "anchors": ["geoopt/manifolds/product.py:ProductManifold.pack_point", "geoopt/manifolds/product.py:unpack_tensor", "geoopt/manifolds/product.py:take_submanifold_value"]}
{"id": "C42", "title": "Product operations act componentwise", "statement": "The i-th part of projx/proju/retr/expmap/logmap/transp/egrad2rgrad/retr_transp/... of the product is the component manifold's operation on the i-th parts, and nothing else.", "quantifier": "every list of component manifolds and sizes, every input", "why_tests_cant": "the inputs are real vectors: a test samples finitely many of uncountably many, and the failing set of a wrong formula can have measure zero", "anchors": ["geoopt/manifolds/product.py:ProductManifold.projx", "geoopt/manifolds/product.py:retr", "geoopt/manifolds/product.py:expmap", "geoopt/manifolds/product.py:transp", "geoopt/manifolds/product.py:retr_transp"]}
{"id": "C43", "title": "Product metric is the sum of the component metrics", "statement": "inner = sum of component inners, dist2 = sum of component dist2, dist = sqrt(max(dist2,1e-15)); so dist(x,x)=0 and dist is a metric if the components are.", "quantifier": "every list of components, all points", "why_tests_cant": "the inputs are real vectors: a test samples finitely many of uncountably many, and the failing set of a wrong formula can have measure zero", "anchors": ["geoopt/manifolds/product.py:ProductManifold.inner", "geoopt/manifolds/product.py:dist2", "geoopt/manifolds/product.py:dist"]}
{"id": "C44", "title": "Product construction lays the components out without gaps or overlap", "statement": "The slices are consecutive, cover exactly 0..n_elements, the i-th has the size of the i-th shape; construction fails exactly for an empty list, a component rejecting its shape, or conflicting device/dtype.", "quantifier": "every list of (manifold, shape) pairs", "why_tests_cant": "all lists of shapes", "anchors": ["geoopt/manifolds/product.py:ProductManifold.__init__", "geoopt/manifolds/product.py:_shape2size", "geoopt/manifolds/product.py:from_point"]}
{"id": "C45", "title": "Scaled multiplies distances and rescales tangent arguments", "statement": "Scaled(M,s).dist = s*M.dist, dist2 = s^2*M.dist2, logmap = s*M.logmap, expmap/retr(x,u)=M.expmap/retr(x,u/s); nested Scaled(Scaled(M,a),b) equals Scaled(M,a*b); a method declared not compatible raises.", "quantifier": "every base manifold, every scale s>0, every nesting depth, all arguments (positional or keyword)", "why_tests_cant": "every manifold, method and nesting depth", "anchors": ["geoopt/manifolds/scaled.py:rescale", "geoopt/manifolds/scaled.py:Scaled", "geoopt/manifolds/base.py:ScalingInfo"]}
{"id": "C46", "title": "Scaling preserves the exp/log/norm/dist laws", "statement": "If expmap/logmap are inverse and norm(logmap)=dist on M then the same holds on Scaled(M,s), for any s>0.", "quantifier": "every base manifold with the law, every s>0", "why_tests_cant": "the inputs are real vectors: a test samples finitely many of uncountably many, and the failing set of a wrong formula can have measure zero", "anchors": ["geoopt/manifolds/scaled.py:Scaled", "geoopt/manifolds/base.py:Manifold.__scaling__"]}
{"id": "C47", "title": "ismanifold and canonical_manifold see through any nesting of Scaled", "statement": "canonical_manifold returns the innermost non-Scaled manifold; ismanifold(m,cls) = isinstance(innermost, cls); non-manifolds give False; a non-manifold cls raises TypeError.", "quantifier": "every nesting depth, every class", "why_tests_cant": "unbounded nesting", "anchors": ["geoopt/utils.py:ismanifold", "geoopt/utils.py:canonical_manifold"]}
{"id": "C48", "title": "Scaled forwards every non-metric method to its base", "statement": "For any method of the base that is not rescaled (component_inner, origin, pack_point, unpack_tensor, ...) Scaled(M) behaves like M.", "quantifier": "every base class and method name", "why_tests_cant": "needs the whole method table, all classes", "anchors": ["geoopt/manifolds/scaled.py:Scaled.__getattr__", "geoopt/manifolds/base.py:Manifold.component_inner", "geoopt/manifolds/base.py:Manifold.origin", "geoopt/manifolds/base.py:Manifold.pack_point"]}
{"id": "C49", "title": "broadcast_shapes implements NumPy broadcasting", "statement": "broadcast_shapes(*shapes) returns the NumPy broadcast shape and raises exactly when NumPy does; it is independent of the order of the shapes and idempotent.", "quantifier": "every number of shapes, every rank, every size", "why_tests_cant": "all shapes, all ranks, any number of arguments", "anchors": ["geoopt/utils.py:broadcast_shapes"]}
{"id": "C50", "title": "Dimension index helpers are correct", "statement": "idx2sign(idx,dim) names the same axis with the requested sign; canonical_dims maps every index to [0,maxdim); drop_dims removes exactly the requested size-1 axes.", "quantifier": "every rank, every index / index list", "why_tests_cant": "every rank and every list of axes", "anchors": ["geoopt/utils.py:idx2sign", "geoopt/utils.py:canonical_dims", "geoopt/utils.py:drop_dims"]}
{"id": "C51", "title": "size arguments are normalised", "statement": "size2shape(2,3)=size2shape((2,3))=size2shape([2,3])=(2,3), size2shape(n)=(n,), and it is idempotent; strip_tuple/make_tuple are inverse on scalars.", "quantifier": "every argument list", "why_tests_cant": "all arities", "anchors": ["geoopt/utils.py:size2shape", "geoopt/utils.py:make_tuple", "geoopt/utils.py:strip_tuple"]}
{"id": "C52", "title": "Checks and assertions agree", "statement": "assert_check_* raises exactly when the corresponding check_* returns False; explain=True returns the same verdict with a reason that is None iff ok; shape failure is reported before value failure; ok_point=True skips the point check.", "quantifier": "every manifold, tensor, tolerance", "why_tests_cant": "every manifold/tensor combination", "anchors": ["geoopt/manifolds/base.py:check_point_on_manifold", "geoopt/manifolds/base.py:assert_check_vector_on_tangent", "geoopt/manifolds/base.py:_check_shape"]}
{"id": "C53", "title": "origin is deterministic and leaves the global RNG alone", "statement": "origin(seed=s) returns the same value whatever the global RNG state and leaves that state unchanged, even when sampling raises; seed=None consumes global randomness.", "quantifier": "every RNG state, seed and sampler", "why_tests_cant": "every RNG state and crash point", "anchors": ["geoopt/manifolds/base.py:Manifold.origin"]}
{"id": "C54", "title": "ManifoldTensor construction, copy and pickling preserve data and manifold", "statement": "Construction succeeds iff the manifold accepts the shape; deepcopy and pickle round-trip data, requires_grad and manifold; two tensors sharing a manifold still share one after a joint deepcopy; ManifoldParameter refuses a different manifold.", "quantifier": "every tensor, manifold, object graph", "why_tests_cant": "every object graph", "anchors": ["geoopt/tensor.py:ManifoldTensor.__new__", "geoopt/tensor.py:__deepcopy__", "geoopt/tensor.py:__reduce_ex__", "geoopt/tensor.py:ManifoldParameter.__new__"]}
{"id": "C55", "title": "RiemannianSGD keeps every parameter on its manifold", "statement": "Starting on the manifold, after any number of steps with any gradients and hyper-parameters every manifold parameter is on its manifold, for manifolds whose retraction is closed.", "quantifier": "every history of gradients, learning rates, group structures, stabilize settings", "why_tests_cant": "unbounded histories", "anchors": ["geoopt/optim/rsgd.py:RiemannianSGD.step"]}
{"id": "C56", "title": "RiemannianAdam keeps every parameter on its manifold", "statement": "As above for RiemannianAdam, including the transported first moment being tangent.", "quantifier": "every history", "why_tests_cant": "unbounded histories", "anchors": ["geoopt/optim/radam.py:RiemannianAdam.step"]}
{"id": "C57", "title": "On plain parameters the Riemannian optimisers coincide with their Euclidean originals", "statement": "On Euclidean parameters RiemannianSGD takes the same steps as torch.optim.SGD and RiemannianAdam as torch.optim.Adam with the same hyper-parameters.", "quantifier": "every history of gradients and hyper-parameters", "why_tests_cant": "unbounded histories", "anchors": ["geoopt/optim/rsgd.py:RiemannianSGD.step", "geoopt/optim/radam.py:RiemannianAdam.step"]}
{"id": "C58", "title": "Parameters without gradient are left alone", "statement": "A parameter whose grad is None is unchanged by step(), has no state created, and does not influence the other parameters.", "quantifier": "every history, any subset of missing gradients", "why_tests_cant": "unbounded histories", "anchors": ["geoopt/optim/rsgd.py:step", "geoopt/optim/radam.py:step", "geoopt/optim/sparse_rsgd.py:step"]}
{"id": "C59", "title": "Sparse optimisers touch exactly the rows with gradient and act there like the dense ones", "statement": "SparseRiemannianSGD/Adam leave every other row of the parameter and of its state unchanged, and on the touched rows perform the dense update.", "quantifier": "every sparse gradient (with duplicate indices), every row-wise manifold, every history", "why_tests_cant": "unbounded histories and index multisets", "anchors": ["geoopt/optim/sparse_rsgd.py:step", "geoopt/optim/sparse_radam.py:step"]}
{"id": "C60", "title": "AMSGrad keeps the running maximum of the second moment", "statement": "With amsgrad=True the normaliser never decreases over time: max_exp_avg_sq is the maximum of all exp_avg_sq so far, in the dense and in the sparse optimiser.", "quantifier": "every history of gradients", "why_tests_cant": "unbounded histories", "anchors": ["geoopt/optim/radam.py:step", "geoopt/optim/sparse_radam.py:step"]}
{"id": "C61", "title": "Stabilisation happens every `stabilize` steps and only then", "statement": "stabilize_group runs exactly on the steps whose counter is a multiple of the period, projects every manifold parameter, and never touches plain parameters.", "quantifier": "every history and period", "why_tests_cant": "unbounded histories", "anchors": ["geoopt/optim/rsgd.py:stabilize_group", "geoopt/optim/mixin.py:OptimMixin", "geoopt/optim/radam.py:stabilize_group"]}
{"id": "C62", "title": "step() does not change the gradients it reads", "statement": "After step() every .grad holds the value it had before, so calling step() twice on the same gradients applies the same gradient twice.", "quantifier": "every manifold, hyper-parameters, history", "why_tests_cant": "aliasing effects depend on the manifold and on the history", "anchors": ["geoopt/optim/rsgd.py:step", "geoopt/optim/radam.py:step", "geoopt/manifolds/euclidean.py:egrad2rgrad", "geoopt/manifolds/lorentz/math.py:_egrad2rgrad"]}
{"id": "C63", "title": "A line-search step reports the loss of the point it moved to", "statement": "RiemannianLineSearch.step moves the parameters to the retraction along the search direction with the chosen step size, returns the closure's loss there, and the next step starts from the gradient at the current point; evaluating trial steps leaves the parameters unchanged.", "quantifier": "every closure, every line search method (any sequence of trial evaluations), every sequence of steps", "why_tests_cant": "every trial sequence a user line search may produce", "anchors": ["geoopt/optim/rlinesearch.py:step", "geoopt/optim/rlinesearch.py:_phi", "geoopt/optim/rlinesearch.py:_derphi", "geoopt/optim/rlinesearch.py:_init_loss"]}
{"id": "C64", "title": "The line-search direction is always a descent direction", "statement": "After computing the search direction with any conjugate gradient rule, the derivative of the line objective at 0 is <= 0, and is 0 only if the gradient is 0.", "quantifier": "every gradient history, every CG coefficient", "why_tests_cant": "every coefficient and history", "anchors": ["geoopt/optim/rlinesearch.py:_compute_search_direction", "geoopt/optim/rlinesearch.py:cg_fletcher_reeves", "geoopt/optim/rlinesearch.py:cg_polak_ribiere"]}
{"id": "C65", "title": "RHMC accept/reject bookkeeping", "statement": "The acceptance probability is in [0,1]; a rejected proposal restores the parameters exactly; n_rejected<=steps, rejection_rate in [0,1]; one log-probability is recorded per step and it is the one of the retained state.", "quantifier": "every history of proposals and uniform draws, burn-in or not", "why_tests_cant": "unbounded random histories", "anchors": ["geoopt/samplers/rhmc.py:RHMC.step", "geoopt/samplers/base.py:Sampler"]}
{"id": "C66", "title": "The RHMC proposal is time-reversible", "statement": "Running the integrator from the proposed state with negated momentum returns to the start (needed for detailed balance).", "quantifier": "every target, step size, number of steps, state", "why_tests_cant": "the inputs are real vectors: a test samples finitely many of uncountably many, and the failing set of a wrong formula can have measure zero", "anchors": ["geoopt/samplers/rhmc.py:RHMC._step", "geoopt/samplers/rhmc.py:RHMC.step"]}
{"id": "C67", "title": "Samplers refuse manifolds without reversible retraction", "statement": "Constructing a sampler raises iff some parameter lives on a manifold with reversible False; a product is reversible iff all its components are; Scaled keeps the flag of its base.", "quantifier": "every parameter list, every nesting of product/scaled", "why_tests_cant": "unbounded nesting", "anchors": ["geoopt/samplers/base.py:Sampler.__init__", "geoopt/manifolds/product.py:ProductManifold.reversible", "geoopt/manifolds/scaled.py:Scaled.reversible"]}
{"id": "C68", "title": "The tree dataset has the right size and labels", "statement": "For depth d and branching b>=2 there are (b^(d+1)-1)/(b-1) nodes and numberOfsiblings times as many samples; all class ids are distinct and each node's label extends its ancestors'.", "quantifier": "every depth and branching factor", "why_tests_cant": "unbounded depth and branching", "anchors": ["geoopt/datasets/stereographic.py:bst", "geoopt/datasets/stereographic.py:get_children"]}
{"id": "C69", "title": "Cayley transform and its inverse cancel", "statement": "inverse_cayley_transform(cayley_transform(z))=z and conversely wherever the inverses exist; the upper half space and the bounded domain are mapped onto each other.", "quantifier": "every n, every symmetric complex z", "why_tests_cant": "the inputs are real vectors: a test samples finitely many of uncountably many, and the failing set of a wrong formula can have measure zero", "anchors": ["geoopt/manifolds/siegel/csym_math.py:cayley_transform", "geoopt/manifolds/siegel/csym_math.py:inverse_cayley_transform"]}
{"id": "C70", "title": "Siegel projections land on the manifold", "statement": "UpperHalf.projx(z) is symmetric with positive definite imaginary part (smallest eigenvalue >= EPS) and leaves points satisfying that unchanged; BoundedDomain.projx gives Id - conj(z) z positive definite.", "quantifier": "every n, every complex matrix", "why_tests_cant": "the inputs are real vectors: a test samples finitely many of uncountably many, and the failing set of a wrong formula can have measure zero", "anchors": ["geoopt/manifolds/siegel/upper_half.py:projx", "geoopt/manifolds/siegel/csym_math.py:positive_conjugate_projection", "geoopt/manifolds/siegel/bounded_domain.py:projx"]}
{"id": "C71", "title": "Vector-valued distance metrics", "statement": "Each Siegel metric is non-negative on ascending non-negative vectors and follows its documented formula; sizes below 2 are refused where documented; the distance has the same shape for every metric.", "quantifier": "every rank and vector", "why_tests_cant": "the inputs are real vectors: a test samples finitely many of uncountably many, and the failing set of a wrong formula can have measure zero", "anchors": ["geoopt/manifolds/siegel/vvd_metrics.py"]}
{"id": "C72", "title": "Hyperplane layer output", "statement": "Distance2StereographicHyperplanes gives one distance per plane; with squared and signed it is the signed square, |out| = dist^2 with the sign of dist.", "quantifier": "every input, plane count, flags", "why_tests_cant": "the inputs are real vectors: a test samples finitely many of uncountably many, and the failing set of a wrong formula can have measure zero", "anchors": ["geoopt/layers/stereographic.py:forward"]}
{"id": "C73", "title": "Euclidean manifold is flat space for every ndim", "statement": "retr=expmap=x+u, logmap=y-x, dist is the Frobenius distance over the last ndim axes, dist2=dist^2, norm^2=inner, component_inner is entrywise.", "quantifier": "every ndim, shape, data", "why_tests_cant": "all ndim and shapes", "anchors": ["geoopt/manifolds/euclidean.py:Euclidean"]}
{"id": "C74", "title": "Random and wrapped-normal sampling lands on the manifold with the requested spread", "statement": "random/random_normal/wrapped_normal/random_uniform return points of the manifold for every noise draw; std scales the tangent noise (std passed as a number or as a tensor gives the same result).", "quantifier": "every noise draw, every std", "why_tests_cant": "every noise draw", "anchors": ["geoopt/manifolds/stereographic/manifold.py:random_normal", "geoopt/manifolds/stereographic/manifold.py:wrapped_normal", "geoopt/manifolds/product.py:wrapped_normal", "geoopt/manifolds/lorentz/__init__.py:random_normal"]}
{"id": "C75", "title": "Moebius coaddition is commutative and solves right equations", "statement": "mobius_coadd(x,y)=mobius_coadd(y,x), mobius_cosub(x,x)=0 and mobius_add(mobius_cosub(y,x),x)=y.", "quantifier": "all points accepted by the Poincare ball, every dimension", "why_tests_cant": "the inputs are real vectors: a test samples finitely many of uncountably many, and the failing set of a wrong formula can have measure zero", "anchors": ["geoopt/manifolds/stereographic/math.py:_mobius_coadd", "geoopt/manifolds/stereographic/math.py:_mobius_cosub"]}
{"id": "C76", "title": "Armijo backtracking never increases the loss", "statement": "With line_search_method='armijo', every step of RiemannianLineSearch either leaves the parameters where they are or moves them to a point whose loss is smaller by at least c1 * step size * |slope|; over any history the loss never exceeds the initial one.", "quantifier": "every closure, every CG rule, every manifold whose retraction is consistent, every history of steps", "why_tests_cant": "every history and loss landscape", "anchors": ["geoopt/optim/rlinesearch.py:armijo_backtracking", "geoopt/optim/rlinesearch.py:step"]}
{"id": "C77", "title": "The samplers keep their parameters on the manifolds", "statement": "Starting from parameters on their manifolds, after any history of sampler steps (accepted, rejected or raising), stabilize() calls and gradient changes the parameters of RHMC, RSGLD and SGRHMC are still on their manifolds.", "quantifier": "every history, closure, noise draw, step size, for the manifolds the samplers accept", "why_tests_cant": "unbounded random histories", "anchors": ["geoopt/samplers/rhmc.py:RHMC.step", "geoopt/samplers/rsgld.py:RSGLD.step", "geoopt/samplers/sgrhmc.py:SGRHMC.step"]}
{"id": "C78", "title": "Batched calls act on each batch element separately", "statement": "For points and tangent vectors in batches (with broadcasting of the batch axes), every operation of the stereographic and Lorentz models returns the broadcast batch shape and, at every batch position, the result of the same operation on the single vectors found there.", "quantifier": "every batch shape, every broadcastable combination, every dim the function honours", "why_tests_cant": "every combination of shapes", "anchors": ["geoopt/manifolds/stereographic/math.py", "geoopt/manifolds/lorentz/math.py"]}
{"id": "C79", "title": "Fused move-and-transport methods agree with their parts", "statement": "retr_transp(x,u,v) returns exactly (retr(x,u), transp_follow_retr(x,u,v)) and expmap_transp exactly (expmap(x,u), transp_follow_expmap(x,u,v)); following a retraction (exponential map) equals transp from x to the point it reaches, for every class that has transp; on the exact variants retr is expmap.", "quantifier": "every manifold class, every point and pair of vectors", "why_tests_cant": "the inputs are real vectors: a test samples finitely many of uncountably many, and the failing set of a wrong formula can have measure zero", "anchors": ["geoopt/manifolds/base.py:Manifold.retr_transp", "geoopt/manifolds/base.py:Manifold.expmap_transp", "geoopt/manifolds/stiefel.py:CanonicalStiefel.retr_transp", "geoopt/manifolds/stereographic/manifold.py:Stereographic.retr_transp"]}
{"id": "C80", "title": "A retraction leaves the point in the direction it is given", "statement": "retr(x,0)=x and the curve t -> retr(x, t*u) has velocity u at t=0, for every point x and tangent vector u; likewise expmap.", "quantifier": "every point and tangent vector of every manifold", "why_tests_cant": "the inputs are real vectors: a test samples finitely many of uncountably many, and the failing set of a wrong formula can have measure zero", "anchors": ["geoopt/manifolds/stiefel.py:CanonicalStiefel.retr", "geoopt/manifolds/stiefel.py:EuclideanStiefel.retr", "geoopt/manifolds/symmetric_positive_definite.py:retr", "geoopt/manifolds/sphere.py:retr", "geoopt/manifolds/stereographic/manifold.py:Stereographic.retr", "geoopt/manifolds/birkhoff_polytope.py:retr"]}
{"id": "C81", "title": "Moebius versions of linear maps and functions act through the tangent space at the origin", "statement": "mobius_matvec(M,x), mobius_pointwise_mul(w,x) and mobius_fn_apply(f,x) equal expmap0(f(logmap0(x))); (MN)x=M(Nx), orthogonal M acts as in Euclidean space, r*Identity is Moebius scalar multiplication, and applying functions one after the other is the chain.", "quantifier": "every matrix, weight vector, function, point and curvature", "why_tests_cant": "all matrices, functions and points", "anchors": ["geoopt/manifolds/stereographic/math.py:mobius_matvec", "geoopt/manifolds/stereographic/math.py:mobius_pointwise_mul", "geoopt/manifolds/stereographic/math.py:mobius_fn_apply", "geoopt/manifolds/stereographic/math.py:mobius_fn_apply_chain"]}
{"id": "C82", "title": "The Siegel distances are distances", "statement": "On UpperHalf and BoundedDomain, for every metric of the right rank: dist is always computed, non-negative, symmetric, zero exactly for equal points, independent of the choices eigh makes, invariant under the real symplectic group, and from the origin of the bounded domain it is the metric applied to log((1+s)/(1-s)) of the singular values s.", "quantifier": "every size, every pair of points, every metric, every symplectic map", "why_tests_cant": "the inputs are real vectors: a test samples finitely many of uncountably many, and the failing set of a wrong formula can have measure zero", "anchors": ["geoopt/manifolds/siegel/siegel.py:dist", "geoopt/manifolds/siegel/bounded_domain.py:dist", "geoopt/manifolds/siegel/csym_math.py:takagi_eigvals"]}
{"id": "C83", "title": "Siegel gradients and inner products belong together", "statement": "Re inner(z, egrad2rgrad(z,g), v) is the Euclidean pairing of g and v for every symmetric tangent v; inner is Hermitian and positive; the Cayley transform carries the inner product of BoundedDomain to that of UpperHalf; proju is a projection onto symmetric matrices; origin(b, n, n) is a batch of origins.", "quantifier": "every size, point, gradient and tangent vector", "why_tests_cant": "the inputs are real vectors: a test samples finitely many of uncountably many, and the failing set of a wrong formula can have measure zero", "anchors": ["geoopt/manifolds/siegel/upper_half.py:egrad2rgrad", "geoopt/manifolds/siegel/upper_half.py:inner", "geoopt/manifolds/siegel/bounded_domain.py:egrad2rgrad", "geoopt/manifolds/siegel/bounded_domain.py:inner"]}
{"id": "C84", "title": "A product of stereographic manifolds works component by component", "statement": "StereographicProductManifold accepts exactly products of stereographic manifolds (TypeError otherwise). Its Moebius operations, maps at the origin, geodesics, gyration, antipode and function application return the point whose i-th part is the i-th component's result on the i-th parts; mobius_matvec applies the i-th diagonal block; dist0 and dist2plane are the root of the sum of squares of the components' values, and signed=True keeps the sign.", "quantifier": "every list of components of any shapes, every batch shape, every argument", "why_tests_cant": "all numbers, shapes and kinds of components", "anchors": ["geoopt/manifolds/product.py:StereographicProductManifold"]}
{"id": "C85", "title": "Conjugate gradient directions follow their rule", "statement": "RiemannianLineSearch starts along minus the Riemannian gradient; after a step of size a along d from x to y the next direction is -grad(y) + beta * T(d), T the transport along the step, or -grad(y) if that is not a descent direction; beta is 0 for 'steepest', <grad(y),grad(y)>_y / <grad(x),grad(x)>_x for 'fr', and <grad(y), grad(y) - T grad(x)>_y / <grad(x),grad(x)>_x for 'pr'. After a failed search the optimiser can go on.", "quantifier": "every closure, line search method, manifold with a consistent retraction and history of steps", "why_tests_cant": "every history of steps", "anchors": ["geoopt/optim/rlinesearch.py:cg_fletcher_reeves", "geoopt/optim/rlinesearch.py:cg_polak_ribiere", "geoopt/optim/rlinesearch.py:_compute_search_direction", "geoopt/optim/rlinesearch.py:__init__"]}
{"id": "C86", "title": "Strong Wolfe steps satisfy the strong Wolfe conditions", "statement": "With line_search_method='wolfe', a step of RiemannianLineSearch either leaves the parameters or moves them to a point where loss <= old loss + c1 * step * phi'(0) and |phi'(step)| <= c2 |phi'(0)|, phi' being the inner product of the gradient at the point reached and the transported search direction.", "quantifier": "every closure, every history of steps, every scalar search that keeps SciPy's contract", "why_tests_cant": "every history and loss landscape", "anchors": ["geoopt/optim/rlinesearch.py:strong_wolfe_line_search", "geoopt/optim/rlinesearch.py:_derphi", "geoopt/optim/rlinesearch.py:step"]}
{"id": "C87", "title": "Siegel distances satisfy the triangle inequality", "statement": "On UpperHalf and BoundedDomain, dist(x, z) <= dist(x, y) + dist(y, z) for every metric: Riemannian, Finsler one, infinity and minimum entropy, and the weighted sum for every value of its learnable weights; distinct points have positive distance under the weighted sum.", "quantifier": "all points, dimensions, metrics and weights", "why_tests_cant": "all triples of points", "anchors": ["geoopt/manifolds/siegel/siegel.py:dist", "geoopt/manifolds/siegel/bounded_domain.py:dist", "geoopt/manifolds/siegel/vvd_metrics.py:compute_metric"]}
{"id": "C88", "title": "A manifold tensor's methods are its manifold's at that tensor", "statement": "t.retr, expmap, inner, proju, transp, retr_transp, expmap_transp, transp_follow_expmap, transp_follow_retr, logmap and unpack_tensor return (and raise) what t.manifold's method does with t as first argument, however the arguments are passed; t.dist(o, p='g') is the manifold's distance and t.dist(o, p) otherwise that of a plain tensor; t.proj_() replaces the entries by manifold.projx(t) in place and returns t.", "quantifier": "every manifold object (rescaled ones included), method, argument list, value of p, and heap of tensors", "why_tests_cant": "all manifolds, signatures and argument lists", "anchors": ["geoopt/tensor.py:ManifoldTensor"]}
{"id": "C89", "title": "Constructing a manifold leaves its arguments and other manifolds alone", "statement": "Stereographic(k), Lorentz(k), PoincareBall(c) and SphereProjection(k) read back the curvature they are given, do not change the tensor they are given, and keep their curvature and radius whatever manifolds are constructed later.", "quantifier": "every curvature argument (number, integer or floating point tensor) and every sequence of constructor calls", "why_tests_cant": "all sequences of constructor calls and all sharing patterns", "anchors": ["geoopt/manifolds/stereographic/manifold.py:__init__", "geoopt/manifolds/lorentz/__init__.py:__init__"]}
{"id": "C90", "title": "Training resumed from a checkpoint continues as if uninterrupted", "statement": "Interrupt training after any number of iterations, save the parameters and optimizer.state_dict(), and load them in a new process into a newly constructed optimiser over the same parameters in the same order, with whatever options: for RiemannianSGD, RiemannianAdam, SparseRiemannianSGD and SparseRiemannianAdam every later iteration gives the same parameters, the same optimiser state and the same exceptions as without the interruption (the restored options are those of the checkpoint, step counters for stabilisation included). (RiemannianLineSearch keeps the losses and step sizes of the last step outside of state_dict and continues differently; with the parameters listed in another order the states are silently exchanged.)", "quantifier": "all four optimisers, all parameter groups and options, all manifolds, all gradient functions (batches), all numbers of iterations before and after the interruption, all options of the new optimiser", "why_tests_cant": "the crash point and the later history are arbitrary; a test saves at one point and compares a few steps", "anchors": ["geoopt/optim/rsgd.py:RiemannianSGD.step", "geoopt/optim/radam.py:RiemannianAdam.step", "geoopt/optim/sparse_rsgd.py:SparseRiemannianSGD.step", "geoopt/optim/sparse_radam.py:SparseRiemannianAdam.step", "geoopt/optim/rlinesearch.py:RiemannianLineSearch.__init__"]}
{"id": "C91", "title": "A small enough gradient step decreases the loss", "statement": "For a loss that is differentiable at the current parameters, with its gradients in .grad, RiemannianSGD without momentum and stabilisation: unless all Riemannian gradients vanish there is a positive threshold such that one step() with any smaller learning rate raises no exception and leaves a strictly smaller loss (with weight decay: loss plus penalty). At a stationary point a step does not move. This holds for any mixture of plain parameters, spheres, Stiefel and SPD matrices, stereographic points inside the ball, single or in batches. It fails for Lorentz.", "quantifier": "all differentiable losses, all points of the manifolds, all gradients, weight decays and groups; all learning rates below the threshold", "why_tests_cant": "the loss and the point are arbitrary and the learning rate ranges over an interval; a test sees one loss curve", "anchors": ["geoopt/optim/rsgd.py:RiemannianSGD.step", "geoopt/manifolds/base.py:Manifold.egrad2rgrad", "geoopt/manifolds/base.py:Manifold.retr"]}
{"id": "C92", "title": "projx returns the closest point of the manifold", "statement": "For every input, Sphere.projx (with any subspace, unless the projection on it vanishes), the stereographic projx, UpperHalf.projx and BoundedDomain.projx return the unique closest point (Euclidean, respectively Frobenius distance) among the points the class can return: the sphere, the closed ball of the maximal norm, the symmetric matrices with imaginary part at least EPS, those with singular values at most 1 - EPS. Stiefel.projx returns a closest matrix with orthonormal columns, unique for full rank. The other classes do not: Lorentz.projx is within a factor sqrt(2), SymmetricPositiveDefinite.projx within a factor 2, BirkhoffPolytope.projx is another doubly stochastic matrix.", "quantifier": "all inputs of every size and all competing points of the manifold", "why_tests_cant": "closest means compared with infinitely many competitors; a test compares with some", "anchors": ["geoopt/manifolds/sphere.py:Sphere.projx", "geoopt/manifolds/stereographic/manifold.py:Stereographic.projx", "geoopt/manifolds/stiefel.py:Stiefel.projx", "geoopt/manifolds/siegel/upper_half.py:UpperHalf.projx", "geoopt/manifolds/siegel/bounded_domain.py:BoundedDomain.projx", "geoopt/manifolds/lorentz/__init__.py:Lorentz.projx", "geoopt/manifolds/symmetric_positive_definite.py:SymmetricPositiveDefinite.projx", "geoopt/manifolds/birkhoff_polytope.py:BirkhoffPolytope.projx"]}
{"id": "C93", "title": "The operations do not depend on the choice of orthonormal coordinates", "statement": "Rotating or reflecting the arguments of a manifold operation rotates or reflects the results and leaves numbers unchanged: for the stereographic model of every curvature (gyrovector operations, exponential and logarithmic maps, retraction, geodesics, transports, projection, distances, distance to planes, weighted midpoint), the sphere with and without a subspace, spatial rotations of the Lorentz model, left multiplication on the Stiefel manifolds (for every QR and singular value decomposition the library may return, projx for full rank), conjugation of symmetric positive definite matrices (for every eigendecomposition and all three distances), and permutations of rows and columns for the Birkhoff polytope (per batch element).", "quantifier": "all arguments, all orthogonal matrices (permutations for Birkhoff), all sizes, curvatures and dtypes, all clamps and branches", "why_tests_cant": "an identity over all inputs and all rotations; branches and clamps are where it could break", "anchors": ["geoopt/manifolds/stereographic/math.py", "geoopt/manifolds/stereographic/manifold.py:Stereographic", "geoopt/manifolds/sphere.py:Sphere", "geoopt/manifolds/lorentz/math.py", "geoopt/manifolds/lorentz/__init__.py:Lorentz", "geoopt/manifolds/stiefel.py:CanonicalStiefel,EuclideanStiefel,EuclideanStiefelExact", "geoopt/manifolds/symmetric_positive_definite.py:SymmetricPositiveDefinite", "geoopt/manifolds/birkhoff_polytope.py:BirkhoffPolytope"]}
{"id": "C94", "title": "Training does not depend on the choice of orthonormal coordinates", "statement": "Train twice, once in given coordinates and once in rotated ones (each parameter and each batch element with its own rotation), with the same loss. After any number of iterations the parameters, gradients, optimiser state, counters and exceptions of the second run are those of the first in the rotated coordinates: for RiemannianSGD with all options on Euclidean, sphere, stereographic, Lorentz, canonical and exact Euclidean Stiefel and SPD parameters, and for RiemannianAdam with all options on all of these except Euclidean parameters, where the second moments belong to single entries and the property fails. On Euclidean Stiefel parameters with the QR retraction it holds for RiemannianAdam and for RiemannianSGD without momentum, whatever QR decompositions torch returns; with momentum it fails, because the first momentum buffer is not tangent.", "quantifier": "all rotations, losses (through their gradients), options, numbers of iterations, numbers and shapes of parameters, initial states", "why_tests_cant": "whole trajectories in all coordinate systems, including branches taken by stabilization, amsgrad and exceptions", "anchors": ["geoopt/optim/rsgd.py:RiemannianSGD.step", "geoopt/optim/radam.py:RiemannianAdam.step", "geoopt/manifolds/base.py:Manifold.component_inner"]}
{"id": "C95", "title": "A tensor of curvatures acts entry by entry", "statement": "Stereographic and the functions of geoopt.manifolds.stereographic.math accept a tensor of curvatures k that broadcasts with the batch. The result at a batch position is the one for the curvature at that position, whatever the curvatures at the other positions are.", "quantifier": "all tensors of curvatures (any mixture of negative, zero and positive), all points and vectors, all ranks and dims, every batch position", "why_tests_cant": "the branches are chosen by torch.all over the whole tensor of curvatures, so every mixture of signs would have to be tried; couplings between batch elements only show up for particular mixtures", "anchors": ["geoopt/manifolds/stereographic/math.py:tan_k,artan_k,arsin_k,sin_k,antipode,dist,dist0,lambda_x,dist2plane", "geoopt/manifolds/stereographic/manifold.py:Stereographic"]}
{"id": "C96", "title": "Small curvatures change the results a little, and in the right direction", "statement": "For curvatures close to zero the stereographic functions agree with the exact functions of the curvature up to terms of second order in k: distances, expmap0 and logmap0 approach the flat ones as k goes to 0, distances are larger than in flat space for k < 0 and smaller for k > 0, and a learnable curvature gets a gradient of the right sign.", "quantifier": "all |k| <= 1e-8 (the range where the code uses a Taylor polynomial), all points and vectors", "why_tests_cant": "a statement about a continuum of tiny curvatures, where rounding hides the error in a test", "anchors": ["geoopt/manifolds/stereographic/math.py:tan_k,artan_k,tan_k_zero_taylor,artan_k_zero_taylor,abs_zero_grad,dist0,dist,expmap0,logmap0"]}
{"id": "C97", "title": "Training on a product manifold is training its components", "statement": "Training a parameter on ProductManifold with RiemannianSGD or RiemannianAdam gives, after any number of rounds and for any loss, the same components as training each component as a parameter of its own manifold in the same group: points, momentum and Adam state, counters and exceptions agree.", "quantifier": "all component manifolds, all options of the optimisers, several groups, all losses (any function of the round and of all points), all numbers of rounds", "why_tests_cant": "quantifies over training histories, losses and arbitrary component manifolds", "anchors": ["geoopt/manifolds/product.py:ProductManifold.component_inner,retr,retr_transp,egrad2rgrad,projx,proju", "geoopt/optim/rsgd.py:RiemannianSGD.step", "geoopt/optim/radam.py:RiemannianAdam.step"]}
{"id": "C98", "title": "Training on Scaled(M, s) is training on M with the learning rate divided by s", "statement": "Training on Scaled(M, s) with learning rate lr gives, after any number of rounds and for any loss, the same points, optimiser state and exceptions as training on M with learning rate lr / s; and the Riemannian gradient of Scaled(M, s) gives the slope of the loss along its own retraction.", "quantifier": "all manifolds, all scales, all options of the optimisers, several groups, all losses, all numbers of rounds", "why_tests_cant": "quantifies over training histories, losses and scales", "anchors": ["geoopt/manifolds/scaled.py:Scaled.retr,retr_transp,inner", "geoopt/manifolds/base.py:Manifold.component_inner", "geoopt/optim/rsgd.py:RiemannianSGD.step", "geoopt/optim/radam.py:RiemannianAdam.step"]}
{"id": "C99", "title": "A step of RiemannianAdam is not longer than the learning rate times a constant", "statement": "With betas fixed, 0 <= beta1 < 1 and 0 < beta2 < 1, step number t of RiemannianAdam moves a parameter from x to retr(x, u), where u is tangent at x and its length in the metric of the manifold (component_inner, per manifold element) is at most lr * K_t with K_t depending on betas and t only, whatever the gradients were; K_1 = 1, and K_t is bounded for all t if beta1^2 < beta2 (by 73 for the default betas).", "quantifier": "all histories of gradients, learning rates, weight decays, amsgrad, groups, stabilize() calls, periods of stabilisation and raising steps; Euclidean parameters, Sphere, SphereExact, PoincareBall, PoincareBallExact, EuclideanStiefel, EuclideanStiefelExact, SymmetricPositiveDefinite, batches of these", "why_tests_cant": "quantifies over all gradient histories; a test sees only a few and the worst case needs gradients decaying at a certain rate", "anchors": ["geoopt/optim/radam.py:RiemannianAdam.step,stabilize_group", "geoopt/manifolds/base.py:Manifold.component_inner", "geoopt/manifolds/stiefel.py:CanonicalStiefel.proju"]}
{"id": "C100", "title": "A step of RiemannianSGD is not longer than lr * gradient bound / (1 - momentum)", "statement": "With momentum mu < 1 and Riemannian gradients (weight decay included) no longer than Gamma in the metric of the manifold, every step of RiemannianSGD moves a parameter from x to retr(x, u) with u tangent at x and no longer than lr * Gamma / (1 - mu), with or without Nesterov momentum.", "quantifier": "all histories of gradients, learning rates, weight decays, dampening in [0, 2], groups, stabilize() calls, periods of stabilisation and raising steps; Euclidean parameters, Sphere, SphereExact, PoincareBall, PoincareBallExact, EuclideanStiefel, EuclideanStiefelExact, SymmetricPositiveDefinite, batches of these", "why_tests_cant": "quantifies over all gradient histories and all points; tests run a few steps from points where the metric is close to the Euclidean one", "anchors": ["geoopt/optim/rsgd.py:RiemannianSGD.step,stabilize_group", "geoopt/manifolds/base.py:Manifold.component_inner", "geoopt/manifolds/stereographic/manifold.py:Stereographic.egrad2rgrad"]}
{"id": "C101", "title": "A step along u ends no further away than u is long", "statement": "dist(x, expmap(x, u)) and dist(x, retr(x, u)) are at most norm(x, u) for every tangent vector u: a step is never longer, measured along the manifold, than its tangent vector.", "quantifier": "all points of SymmetricPositiveDefinite (AIM), spheres and their constrained subclasses, Poincare balls of every negative curvature and hyperboloids; all tangent vectors, including those long enough to be clipped at the boundary of the ball", "why_tests_cant": "quantifies over all points and vectors, including vectors that reach the clamps; tests compare dist and norm for moderate random vectors", "anchors": ["geoopt/manifolds/symmetric_positive_definite.py:SymmetricPositiveDefinite.retr,expmap,dist", "geoopt/manifolds/sphere.py:Sphere.retr,expmap,dist", "geoopt/manifolds/stereographic/manifold.py:Stereographic.expmap,retr,dist", "geoopt/manifolds/lorentz/manifold.py:Lorentz.expmap,dist"]}
{"id": "C102", "title": "Training cannot drift further than the learning rates allow", "statement": "After any history of RiemannianAdam with fixed betas and learning rates at most L, a parameter that has seen n steps is, in the distance of its manifold, within L times the sum of the step factors of C99 of its initial value; with the default betas within 73*L*n. For RiemannianSGD with gradients no longer than Gamma and momentum mu it is within (sum of the learning rates)*Gamma/(1-mu).", "quantifier": "all histories of gradients, learning rates up to L, weight decay, amsgrad, groups, stabilize() calls and raising steps; Euclidean parameters, Sphere, SphereExact, PoincareBallExact, SymmetricPositiveDefinite, batches of these", "why_tests_cant": "quantifies over all histories; needs the triangle inequality and the length of each step together", "anchors": ["geoopt/optim/radam.py:RiemannianAdam.step,stabilize_group", "geoopt/optim/rsgd.py:RiemannianSGD.step,stabilize_group", "geoopt/manifolds/symmetric_positive_definite.py:SymmetricPositiveDefinite.dist,retr", "geoopt/manifolds/stereographic/manifold.py:StereographicExact.retr,dist"]}
{"id": "C103", "title": "Full-batch training with RiemannianSGD converges to critical points", "statement": "For a twice continuously differentiable loss of parameters on compact manifolds there is a learning rate bound delta such that the loop zero_grad(); loss().backward(); optimizer.step() of RiemannianSGD without momentum, with learning rates at most delta, never raises, keeps every parameter on its manifold, never increases the loss (with the weight decay penalty), makes the Riemannian gradients tend to zero (the smallest of the first N at rate 1/N) and has only critical points as accumulation points. On the Poincare ball, where the projection may cut steps off, the loss decreases and the steps tend to zero.", "quantifier": "all twice continuously differentiable losses, all starting points, all sequences of learning rates in (0, delta], all weight decays, any assignment of parameters to groups, any stabilize period; Sphere and SphereExact with or without subspace, CanonicalStiefel, EuclideanStiefel (any QR), EuclideanStiefelExact, PoincareBall, batches and mixtures of these", "why_tests_cant": "a statement about infinite runs for every loss function and starting point", "anchors": ["geoopt/optim/rsgd.py:RiemannianSGD.step,stabilize_group", "geoopt/manifolds/sphere.py:Sphere.retr,egrad2rgrad", "geoopt/manifolds/sphere.py:SphereExact.retr", "geoopt/manifolds/stiefel.py:CanonicalStiefel.retr,egrad2rgrad,EuclideanStiefel.retr,EuclideanStiefelExact.retr", "geoopt/manifolds/stereographic/manifold.py:Stereographic.retr,egrad2rgrad"]}
{"id": "C104", "title": "Manifolds can be used through the common interface", "statement": "A call that matches the signature of an operation of the base class Manifold is accepted by every manifold class, with the arguments going to the corresponding parameters and additional parameters of the class at their defaults.", "quantifier": "all manifold classes, all public operations of Manifold except random, all positional and keyword arguments", "why_tests_cant": "ranges over all ways of passing arguments; tests call each manifold with its own conventions", "anchors": ["geoopt/manifolds/base.py:Manifold", "geoopt/manifolds/lorentz/__init__.py:Lorentz.norm,Lorentz.proju", "geoopt/manifolds/siegel/siegel.py:SiegelManifold.dist", "geoopt/manifolds/siegel/upper_half.py:UpperHalf.egrad2rgrad,projx,inner", "geoopt/manifolds/siegel/bounded_domain.py:BoundedDomain.egrad2rgrad,projx,inner,dist", "geoopt/manifolds/symmetric_positive_definite.py:SymmetricPositiveDefinite.logmap", "geoopt/manifolds/scaled.py:Scaled.norm"]}
{"id": "C105", "title": "A retraction declared reversible can be retraced", "statement": "On a manifold whose attribute reversible is True, moving with retr_transp(x, eps*r, r) and then moving again for as long with the transported velocity turned round leads back to x with velocity -r.", "quantifier": "all points, velocities and step lengths; all classes that declare reversible = True, products, Scaled and batches of them", "why_tests_cant": "an identity in real vectors over all inputs, which tests sample at a few points in the interior; the attribute itself is only a declaration", "anchors": ["geoopt/manifolds/stereographic/manifold.py:StereographicExact", "geoopt/manifolds/stiefel.py:CanonicalStiefel", "geoopt/manifolds/euclidean.py:Euclidean", "geoopt/manifolds/product.py:ProductManifold.reversible", "geoopt/manifolds/scaled.py:Scaled.reversible", "geoopt/samplers/base.py:Sampler.__init__"]}
{"id": "C106", "title": "A geodesic can be walked in several legs", "statement": "Following expmap(x, s*u) and then expmap from there for time t, with the velocity u carried along by transp_follow_expmap, arrives where expmap(x, (s+t)*u) arrives, and the velocity carried along in two legs is the one carried along at once.", "quantifier": "all points, tangent vectors and times s, t of either sign, on every manifold with expmap and transp_follow_expmap", "why_tests_cant": "an identity over all real points, vectors and times; sampled tests with a tolerance cannot tell an exact flow from an almost exact one", "anchors": ["geoopt/manifolds/symmetric_positive_definite.py:SymmetricPositiveDefinite.expmap,transp", "geoopt/manifolds/lorentz/math.py:_expmap,_parallel_transport", "geoopt/manifolds/stereographic/math.py:_expmap,_parallel_transport", "geoopt/manifolds/sphere.py:Sphere.expmap,transp", "geoopt/manifolds/stiefel.py:CanonicalStiefel.expmap,transp_follow_expmap"]}
{"id": "C107", "title": "origin returns a point of the requested shape", "statement": "origin(*size), whether the size is given as separate integers, one tuple or one list, returns a tensor of exactly that shape whose every slice is a point of the manifold, and whose entries are its own: writing one entry leaves the others unchanged and the tensor can be overwritten in place by an optimiser. A shape that no point of the manifold has is refused. The origin of a product consists of the origins of its components.", "quantifier": "all classes with origin, all sizes and batch shapes, all three spellings of the size, all positions and values written, all products", "why_tests_cant": "sizes, batch ranks and spellings are unbounded, and sharing of storage between slices is invisible to a test that only compares values", "anchors": ["geoopt/manifolds/stiefel.py:Stiefel.origin", "geoopt/manifolds/birkhoff_polytope.py:BirkhoffPolytope.origin", "geoopt/manifolds/symmetric_positive_definite.py:SymmetricPositiveDefinite.origin", "geoopt/manifolds/siegel/upper_half.py:UpperHalf.origin", "geoopt/manifolds/siegel/bounded_domain.py:BoundedDomain.origin", "geoopt/manifolds/lorentz/__init__.py:Lorentz.origin", "geoopt/manifolds/stereographic/manifold.py:Stereographic.origin", "geoopt/manifolds/euclidean.py:Euclidean.origin", "geoopt/manifolds/base.py:Manifold.origin", "geoopt/manifolds/product.py:ProductManifold.origin", "geoopt/utils.py:size2shape"]}
{"id": "C108", "title": "No point of the space is special: isometries commute with the operations", "statement": "Moving all the points by one isometry of the space, and the tangent vectors by its derivative, moves the result of every operation by the same isometry: distances, inner products and norms stay the same, and the exponential and logarithmic maps, geodesics, parallel transport, retraction, Riemannian gradients of the moved loss and hyperplanes move along. The isometries are the left translations y -> mobius_add(a, y) of the stereographic model, the Lorentz transformations of the hyperboloid and the congruences x -> g x g^T of the SPD matrices.", "quantifier": "all points, tangent vectors and gradients, all translations by a valid point, all Lorentz transformations in all dimensions, all invertible matrices, all curvatures, all implementations of eigh", "why_tests_cant": "the isometry groups are infinite and move points arbitrarily far; a test tries a few of them at a few points and with a tolerance", "anchors": ["geoopt/manifolds/stereographic/math.py:_mobius_add", "geoopt/manifolds/stereographic/math.py:_gyration", "geoopt/manifolds/stereographic/math.py:_expmap", "geoopt/manifolds/stereographic/math.py:_logmap", "geoopt/manifolds/stereographic/math.py:_parallel_transport", "geoopt/manifolds/stereographic/math.py:_dist2plane", "geoopt/manifolds/lorentz/math.py:_expmap", "geoopt/manifolds/lorentz/math.py:_logmap", "geoopt/manifolds/lorentz/math.py:_parallel_transport", "geoopt/manifolds/lorentz/math.py:_egrad2rgrad", "geoopt/manifolds/symmetric_positive_definite.py:SymmetricPositiveDefinite"]}
{"id": "C109", "title": "Training positive definite matrices does not depend on the frame of the data", "statement": "Write a loss of positive definite matrices in another frame, F'(g x g^T) = F(x) for an invertible matrix g, and train both losses with the same options, the second from the moved starting point. After any number of iterations, with any parameter groups, the parameters of the second run are g x g^T for the parameters x of the first, and the same exceptions were raised. This holds for RiemannianSGD without momentum and weight decay and for RiemannianAdam (also amsgrad) without weight decay, with and without stabilization. The same holds for the Lorentz model and Lorentz transformations while no step is shorter than the floor of the norm.", "quantifier": "all numbers of iterations, all sequences of differentiable losses, all invertible matrices (one for each parameter), all sizes and numbers of parameters and groups, all learning rates, betas, eps and stabilization periods, all implementations of eigh", "why_tests_cant": "an infinite group of frames and unbounded histories; the gradients of the two runs are different numbers, so no pair of runs in a test agrees exactly", "anchors": ["geoopt/optim/rsgd.py:RiemannianSGD.step", "geoopt/optim/radam.py:RiemannianAdam.step", "geoopt/optim/mixin.py:OptimMixin.stabilize_group", "geoopt/manifolds/symmetric_positive_definite.py:SymmetricPositiveDefinite.egrad2rgrad", "geoopt/manifolds/symmetric_positive_definite.py:SymmetricPositiveDefinite.retr", "geoopt/manifolds/symmetric_positive_definite.py:SymmetricPositiveDefinite.transp", "geoopt/manifolds/lorentz/math.py:_egrad2rgrad"]}
{"id": "C110", "title": "Training keeps matrices of the Birkhoff polytope positive with bounded row sums", "statement": "Train a parameter on BirkhoffPolytope, starting from a doubly stochastic matrix (or a batch), with RiemannianSGD or RiemannianAdam, with any gradients, learning rates, momentum, weight decay and stabilization, changed at any time. At every moment all entries are positive and no row sums to more than 1 + n*1e-12. Nothing is promised about the other side: one momentum step with the default arguments can leave all rows with sums below 0.6.", "quantifier": "all histories of steps, stabilize() calls, user changes of gradients and options, and failing steps; all batch shapes, sizes n, numbers of parameters and groups, all max_iter, tol and eps >= 0", "why_tests_cant": "histories are unbounded and the directions arbitrary; a test follows one run", "anchors": ["geoopt/manifolds/birkhoff_polytope.py:BirkhoffPolytope.retr", "geoopt/manifolds/birkhoff_polytope.py:BirkhoffPolytope.retr_transp", "geoopt/manifolds/birkhoff_polytope.py:proj_doubly_stochastic", "geoopt/optim/rsgd.py:RiemannianSGD.step", "geoopt/optim/radam.py:RiemannianAdam.step", "geoopt/optim/mixin.py:OptimMixin.stabilize_group"]}
{"id": "C111", "title": "A negative weight with posweight=True stands for the antipode", "statement": "weighted_midpoint(xs, weights, posweight=True) is the midpoint, with the absolute values of the weights, of the points in which every entry of negative weight is replaced by its antipode (as documented). Without negative weights posweight changes nothing.", "quantifier": "all families of points and weights of any number, dimensions and curvatures, with and without lincomb", "why_tests_cant": "points, weights and curvature are continuous; the tests use non-negative weights only", "anchors": ["geoopt/manifolds/stereographic/math.py:weighted_midpoint", "geoopt/manifolds/stereographic/math.py:antipode"]}
{"id": "C112", "title": "The Riemannian gradient of the squared distance is minus twice the logarithm", "statement": "dist(x, y)**2 is differentiable in x, and converting the gradient that backward() leaves with egrad2rgrad(x, grad) gives -2 * logmap(x, y): it points away from y along the geodesic and its length is twice the distance. Consequently one step of RiemannianSGD with lr = 1/2 on this loss reaches y on a manifold whose retraction is the exponential map.", "quantifier": "all pairs of points of every dimension, every curvature, every subspace of the sphere, every implementation of the eigendecomposition", "why_tests_cant": "a statement about the derivative at every pair of points; tests compare single gradients numerically", "anchors": ["geoopt/manifolds/sphere.py:Sphere.dist", "geoopt/manifolds/sphere.py:Sphere.logmap", "geoopt/manifolds/lorentz/math.py:_dist", "geoopt/manifolds/lorentz/math.py:_egrad2rgrad", "geoopt/manifolds/stereographic/math.py:_dist", "geoopt/manifolds/stereographic/math.py:_egrad2rgrad", "geoopt/manifolds/symmetric_positive_definite.py:SymmetricPositiveDefinite.dist", "geoopt/manifolds/symmetric_positive_definite.py:SymmetricPositiveDefinite.egrad2rgrad", "geoopt/optim/rsgd.py:RiemannianSGD.step"]}
{"id": "C113", "title": "Training on the squared distance to a target converges at a linear rate", "statement": "Training one parameter with RiemannianSGD (no momentum, no weight decay) on the loss dist(x, target)**2 brings it to the target at a linear rate: after t steps the distance is at most rho**t times the initial distance, for a rho < 1 that depends on the learning rates only, until the distance reaches the resolution of the manifold's clamps; the parameter stays on the manifold throughout, and projections to the manifold between steps (stabilize) change nothing.", "quantifier": "all targets, all starting points, all schedules of learning rates in the stated range, any number of steps, every dimension, every curvature of the hyperboloid, every subspace of the sphere, every implementation of the eigendecomposition", "why_tests_cant": "an unbounded history of updates from an arbitrary start, with a rate; a test runs a few hundred steps on one target and checks the last point", "anchors": ["geoopt/optim/rsgd.py:RiemannianSGD.step", "geoopt/manifolds/sphere.py:Sphere.retr", "geoopt/manifolds/sphere.py:SphereExact.retr", "geoopt/manifolds/sphere.py:Sphere.dist", "geoopt/manifolds/lorentz/math.py:_expmap", "geoopt/manifolds/lorentz/math.py:_dist", "geoopt/manifolds/symmetric_positive_definite.py:SymmetricPositiveDefinite.retr", "geoopt/manifolds/symmetric_positive_definite.py:SymmetricPositiveDefinite.dist"]}
{"id": "C114", "title": "Transports that project keep the closest tangent vector", "statement": "On the sphere (both classes, any subspace) and on the Stiefel manifold with the Euclidean metric transp(x, y, v) is the one tangent vector at y closest to v: it is linear in v, leaves vectors that are tangent at y alone (so transport to the same point does nothing) and never lengthens a vector. On the sphere a tangent vector at x keeps at least |<x,y>| of its length, and along a geodesic exactly the part across the geodesic is kept while the part along it is multiplied by the cosine of the angle.", "quantifier": "all points, all vectors, every dimension, every subspace of the sphere", "why_tests_cant": "a closest-vector claim over all tangent vectors, and length bounds at every pair of points", "anchors": ["geoopt/manifolds/sphere.py:Sphere.transp", "geoopt/manifolds/stiefel.py:EuclideanStiefel.transp", "geoopt/manifolds/birkhoff_polytope.py:BirkhoffPolytope.transp"]}
{"id": "C115", "title": "Training with a line search finds critical points", "statement": "For a loss that is bounded below: with Armijo backtracking the step sizes times the slopes along the search directions have a finite sum over the whole history, at most (f(x0) - m)/c1. With the strong Wolfe search, if the derivative of the loss along lines is Lipschitz, the squared slopes divided by the squared lengths of the search directions have a finite sum (Zoutendijk's condition), for every conjugate gradient rule. For steepest descent the Riemannian gradients therefore tend to zero, and among the first N there is one whose squared length is at most a constant divided by N; on Euclidean parameters and on spheres the constant is given by the Lipschitz constant of the gradient (and a bound for its radial part).", "quantifier": "every history of step(closure) calls, every loss that is smooth and bounded below, every contract-keeping search, any number of parameters, every dimension", "why_tests_cant": "a limit over infinite histories and all losses", "anchors": ["geoopt/optim/rlinesearch.py:RiemannianLineSearch.step", "geoopt/optim/rlinesearch.py:strong_wolfe_line_search", "geoopt/optim/rlinesearch.py:armijo_backtracking"]}
{"id": "C116", "title": "Training does not depend on how parameters are distributed over groups, nor on their order", "statement": "Two optimisers of the same class for the same parameters, with the same options for every parameter but with the parameters distributed over parameter groups differently and listed in another order: if training with the first never raises then neither does training with the second, and all parameters and all optimiser state (momentum buffers, moments) are identical after every step, for any gradients computed from the parameters. For RiemannianSGD, SparseRiemannianSGD and SparseRiemannianAdam this holds always; for RiemannianAdam it holds without stabilisation or when every parameter has a gradient in every step, and fails otherwise. If a step raises, the order decides which parameters have been updated.", "quantifier": "every training history, every number of parameters and groups and every redistribution, every manifold, all gradients", "why_tests_cant": "ranges over all partitions and orders of parameters and unbounded histories", "anchors": ["geoopt/optim/rsgd.py:RiemannianSGD.step", "geoopt/optim/radam.py:RiemannianAdam.step", "geoopt/optim/sparse_rsgd.py:SparseRiemannianSGD.step", "geoopt/optim/sparse_radam.py:SparseRiemannianAdam.step"]}
{"id": "C117", "title": "The scale of the loss can be absorbed into the options", "statement": "Training with RiemannianSGD on c times the loss (c > 0), with the learning rates divided by c and the weight decay multiplied by c, gives the same parameters after every step as training on the loss itself, with c times the momentum buffers; training with RiemannianAdam on c times the loss, with eps and weight decay multiplied by c and unchanged learning rates, gives the same parameters after every step. No step of the second run raises if none of the first does.", "quantifier": "every training history, c > 0, gradients computed from the parameters in any way, any number of parameters and groups, all options (momentum, nesterov, amsgrad, stabilize), Euclidean parameters, spheres, stereographic models of any curvature, Lorentz model, Stiefel manifolds with all metrics, SPD matrices, batches and products of these", "why_tests_cant": "ranges over all histories, scales and manifolds; in floating point only up to rounding", "anchors": ["geoopt/optim/rsgd.py:RiemannianSGD.step", "geoopt/optim/radam.py:RiemannianAdam.step"]}
{"id": "C118", "title": "Weight decay has no effect on spheres and Stiefel manifolds", "statement": "For parameters on spheres (and their intersections with subspaces) and on Stiefel manifolds (all classes), and batches of these, changing weight_decay changes nothing: if the points start on the manifold, all parameters and all optimiser state are the same after every step, whatever the weight decay, and the second run raises nothing if the first does not. RiemannianSGD with any momentum for Sphere, CanonicalStiefel and EuclideanStiefel, without momentum for the exact classes; RiemannianAdam for all of them. Other parameters may be trained along, as long as their weight decay is unchanged.", "quantifier": "every training history from points on the manifolds, all gradients, options and weight decays, every dimension, any number of parameters and groups", "why_tests_cant": "ranges over all histories; in floating point only up to rounding", "anchors": ["geoopt/optim/rsgd.py:RiemannianSGD.step", "geoopt/optim/radam.py:RiemannianAdam.step", "geoopt/manifolds/sphere.py:Sphere.egrad2rgrad", "geoopt/manifolds/stiefel.py:CanonicalStiefel", "geoopt/manifolds/stiefel.py:EuclideanStiefel"]}
{"id": "C119", "title": "RHMC samples from the distribution it is given", "statement": "If the parameters are distributed according to the density that the closure returns the logarithm of, they are distributed the same way after a step of RHMC (momenta standard normal, np.random.rand uniform, all independent).", "quantifier": "every log-probability on Euclidean parameters, every step size and number of leapfrog steps, any number of parameters", "why_tests_cant": "a statement about probability distributions on a continuum; tests can only compare a few moments within statistical error", "anchors": ["geoopt/samplers/rhmc.py:RHMC.step", "geoopt/samplers/rhmc.py:RHMC._step"]}
{"id": "C120", "title": "RSGLD on normal distributions", "statement": "For Euclidean parameters and a log-probability of independent normal entries with means m and variances s, every entry of the parameters after t steps of RSGLD from a fixed start x0 is normally distributed with mean m+(1-epsilon/(2s))^t (x0-m) and variance epsilon*sum_{j<t}(1-epsilon/(2s))^(2j); for epsilon<4s the means tend to m and the variances to s/(1-epsilon/(4s)), so that the error vanishes with epsilon. For epsilon>0 the target is not exactly kept: one step adds epsilon^2/(4s) to the variance. No step raises.", "quantifier": "every number of parameters and entries, all means, variances, starting points and numbers of steps, every epsilon >= 0 (limit: epsilon < 4s), all probability spaces with independent standard normal draws", "why_tests_cant": "a statement about probability distributions and limits over unboundedly many steps", "anchors": ["geoopt/samplers/rsgld.py:RSGLD.step"]}
{"id": "C121", "title": "The noise of the samplers is as long as the metric prescribes", "statement": "The tangent vector that the samplers draw at a point x, egrad2rgrad(x, standard normal noise), has a mean squared length, measured by inner of the manifold, equal to the dimension of the manifold, at every point.", "quantifier": "every point, every dimension, the manifolds that samplers accept (Euclidean, exact stereographic models, canonical Stiefel)", "why_tests_cant": "an expectation over a continuum, at every point", "anchors": ["geoopt/samplers/rsgld.py:RSGLD.step", "geoopt/samplers/rhmc.py:RHMC.step", "geoopt/samplers/sgrhmc.py:SGRHMC.step", "geoopt/manifolds/stereographic/math.py:_egrad2rgrad", "geoopt/manifolds/stiefel.py:CanonicalStiefel.proju"]}
{"id": "C122", "title": "A learning rate of zero freezes parameters", "statement": "A parameter whose groups have lr=0 keeps its value under RiemannianSGD and RiemannianAdam: whatever gradients, momentum, weight decay, betas, amsgrad and stabilize settings are used, whatever happens to other parameters and groups, however often step() and stabilize() are called and whether or not steps raise.", "quantifier": "every history of steps, stabilisations, changes of gradients, options and groups; every manifold; every point on it", "why_tests_cant": "unboundedly long histories, and a numerical drift that a test of a single step cannot distinguish from rounding", "anchors": ["geoopt/optim/rsgd.py:RiemannianSGD.step", "geoopt/optim/radam.py:RiemannianAdam.step", "geoopt/manifolds/lorentz/__init__.py:Lorentz.expmap", "geoopt/manifolds/birkhoff_polytope.py:BirkhoffPolytope.retr"]}
{"id": "C123", "title": "The weighted midpoint is the centre of its points", "statement": "weighted_midpoint(xs, w) with non-negative weights is the point mu of the ball that minimises sum_j w_j sinh^2(sqrt|k| dist(mu, x_j)/2), and the excess of the sum at another point mu is a positive multiple of sinh^2(sqrt|k| dist(mu, midpoint)/2); at curvature zero it minimises the weighted sum of squared distances.", "quantifier": "every finite family of points with conformal factor at most 1998, all non-negative weights, every competing point mu in the same region, every curvature k < -1e-8 and k = 0, every dimension", "why_tests_cant": "a minimum over a continuum of competitors for every family of points", "anchors": ["geoopt/manifolds/stereographic/math.py:_weighted_midpoint", "geoopt/manifolds/stereographic/math.py:_dist", "geoopt/manifolds/stereographic/math.py:_mobius_scalar_mul"]}
{"id": "C124", "title": "A step that raises leaves everything as it was", "statement": "If step() of RiemannianSGD, RiemannianAdam or RiemannianLineSearch ends with an exception, whether of its own (a sparse gradient, a missing key, stabilize=0) or of the closure at any of its evaluations, then the parameters are what they were before the call, and after the cause is removed training goes on as if the call had not happened.", "quantifier": "every optimiser state, every parameter and group order, every place where the exception can arise (for the line search: every closure evaluation at which it raises, every line search method)", "why_tests_cant": "crash points: every parameter and every closure evaluation can be the one that raises", "anchors": ["geoopt/optim/rsgd.py:RiemannianSGD.step", "geoopt/optim/radam.py:RiemannianAdam.step", "geoopt/optim/rlinesearch.py:RiemannianLineSearch.step", "geoopt/optim/rlinesearch.py:RiemannianLineSearch._phi"]}
{"id": "C125", "title": "SGRHMC on normal distributions", "statement": "For Euclidean parameters and a log-probability of independent normal entries with means m and variances s, every entry of the parameters is normally distributed after any number of calls of SGRHMC.step, its mean tends to m, and its variance tends to s up to an error that vanishes with epsilon.", "quantifier": "all means, variances, starting points, numbers of parameters and entries, numbers of calls and of rounds per call, every epsilon > 0 and alpha in (0, 2], every stream of independent standard normal draws", "why_tests_cant": "statements about probability distributions and limits", "anchors": ["geoopt/samplers/sgrhmc.py:SGRHMC.step"]}
{"id": "C126", "title": "What the checks accept is close to the manifold", "statement": "check_point_on_manifold and check_vector_on_tangent accept every point and every tangent vector; with tolerances zero they accept nothing else; and what they accept with tolerances atol and rtol is within a multiple of these of a point, or of a tangent vector.", "quantifier": "all manifolds with a check of their own (sphere with and without subspace, Stiefel, SPD, Lorentz, Poincare ball, Birkhoff polytope, both Siegel manifolds), all sizes, all tolerances, all tensors", "why_tests_cant": "ranges over all tensors, also those that are not on the manifold, and over all tolerances", "anchors": ["geoopt/manifolds/sphere.py:Sphere._check_point_on_manifold", "geoopt/manifolds/stiefel.py:Stiefel._check_point_on_manifold", "geoopt/manifolds/symmetric_positive_definite.py:SymmetricPositiveDefinite._check_point_on_manifold", "geoopt/manifolds/birkhoff_polytope.py:BirkhoffPolytope._check_point_on_manifold", "geoopt/manifolds/lorentz/__init__.py:Lorentz._check_point_on_manifold", "geoopt/manifolds/stereographic/manifold.py:Stereographic._check_point_on_manifold", "geoopt/manifolds/siegel/upper_half.py:UpperHalf._check_point_on_manifold", "geoopt/manifolds/siegel/bounded_domain.py:BoundedDomain._check_point_on_manifold"]}
{"id": "C127", "title": "Functions of symmetric matrices", "statement": "linalg.sym_funcm(x, f) applies f to the eigenvalues of a symmetric matrix whatever eigenvectors eigh returns: it agrees with polynomials, respects products, compositions and changes of orthonormal coordinates; sym_expm and sym_logm are inverse to each other, sym_sqrtm is the only positive semidefinite square root, sym_invm, sym_inv_sqrtm1 and sym_inv_sqrtm2 are the inverse and the inverse square root.", "quantifier": "all sizes, all symmetric (semidefinite, definite) matrices including repeated eigenvalues, all functions f, every implementation of torch.linalg.eigh", "why_tests_cant": "ranges over all matrices and over every choice of eigenvectors", "anchors": ["geoopt/linalg/batch_linalg.py:sym_funcm", "geoopt/linalg/batch_linalg.py:sym_expm", "geoopt/linalg/batch_linalg.py:sym_logm", "geoopt/linalg/batch_linalg.py:sym_sqrtm", "geoopt/linalg/batch_linalg.py:sym_invm", "geoopt/linalg/batch_linalg.py:sym_inv_sqrtm1", "geoopt/linalg/batch_linalg.py:sym_inv_sqrtm2", "geoopt/linalg/batch_linalg.py:trace"]}
{"id": "C128", "title": "Constructors and parameter groups", "statement": "An optimiser is built only from valid options: the constructors refuse exactly the documented invalid values with ValueError. Every option of a group is the one given in the group or else the one of the constructor, a parameter is never in two groups whatever groups are added or refused later, optimisers do not influence each other, groups added later are treated like those of the constructor (searched by the line search, checked by the samplers), and options inside a group are checked too.", "quantifier": "all option values, all lists of parameter groups, all histories of add_param_group, steps and other optimisers that use the same group dictionaries, all line search methods, closures and states", "why_tests_cant": "ranges over all option values and all histories of constructors, additions and steps with shared dictionaries", "anchors": ["geoopt/optim/mixin.py:OptimMixin.add_param_group", "geoopt/optim/rsgd.py:RiemannianSGD.__init__", "geoopt/optim/sparse_rsgd.py:SparseRiemannianSGD.__init__", "geoopt/optim/sparse_radam.py:SparseRiemannianAdam.__init__", "geoopt/optim/rlinesearch.py:RiemannianLineSearch.__init__", "geoopt/optim/rlinesearch.py:RiemannianLineSearch.step", "geoopt/samplers/base.py:Sampler.__init__"]}
{"id": "C129", "title": "The operations do not jump", "statement": "Nearby arguments give nearby results: inner products, projections, retractions, exponential maps, logarithms, transports and distances are continuous functions of points and vectors, although the implementation switches between branches, clamps, and uses eigenvectors, singular vectors and QR factors, which are not continuous and which torch may choose as it likes.", "quantifier": "all points and vectors of the stereographic models (any curvature), spheres with subspaces, hyperboloids, positive definite matrices, Stiefel matrices and both Siegel spaces, all implementations of eigh, svd and qr", "why_tests_cant": "continuity is a statement about all arguments near all arguments, and the choices of the factorisations are not observable in tests", "anchors": ["geoopt/manifolds/stereographic/math.py", "geoopt/manifolds/sphere.py:Sphere", "geoopt/manifolds/lorentz/math.py", "geoopt/manifolds/symmetric_positive_definite.py:SymmetricPositiveDefinite", "geoopt/manifolds/stiefel.py:EuclideanStiefel", "geoopt/manifolds/stiefel.py:CanonicalStiefel", "geoopt/linalg/batch_linalg.py:sym_funcm", "geoopt/manifolds/siegel/upper_half.py:UpperHalf", "geoopt/manifolds/siegel/bounded_domain.py:BoundedDomain"]}
{"id": "C130", "title": "Random points have no preferred direction", "statement": "If torch.randn draws independent standard normal numbers, Sphere.random_uniform draws points that are uniformly distributed on the unit sphere, or on the unit sphere of the subspace (intersection or complement) it is restricted to: the probability of a set is the part of the unit ball that lies in its directions. The random points of the stereographic models (random_normal with mean 0, wrapped_normal around any mean), of the hyperboloid, of the positive definite matrices and of the Siegel spaces have the same distribution after a rotation or reflection, and those of the Birkhoff polytope after permutations of rows and columns.", "quantifier": "all dimensions, curvatures, standard deviations, subspaces, all rotations and reflections, all events", "why_tests_cant": "a distribution is not determined by any number of samples; the tests look at single samples", "anchors": ["geoopt/manifolds/sphere.py:Sphere.random_uniform", "geoopt/manifolds/stereographic/manifold.py:Stereographic.random_normal", "geoopt/manifolds/stereographic/manifold.py:Stereographic.wrapped_normal", "geoopt/manifolds/lorentz/__init__.py:Lorentz.random_normal", "geoopt/manifolds/symmetric_positive_definite.py:SymmetricPositiveDefinite.random", "geoopt/manifolds/siegel/upper_half.py:UpperHalf.random", "geoopt/manifolds/siegel/bounded_domain.py:BoundedDomain.random", "geoopt/manifolds/birkhoff_polytope.py:BirkhoffPolytope.random_naive"]}
{"id": "C131", "title": "Gradients through the operations are finite", "statement": "backward() through an operation of a manifold gives finite gradients: no operation recorded on the way, including the branch torch.where does not select, divides by zero or takes a root, logarithm, arc sine or tangent at the edge of its domain. On the stereographic models this holds for all points, vectors and curvatures, including zero vectors, equal points and curvature zero (for positive curvature as long as the exponential or multiple stays short of the opposite point). On the hyperboloid it holds for all pairs of points. On the sphere it holds for logarithms and distances of all pairs of points and for the exponential of every tangent vector that is not zero; at the zero vector the gradient of expmap is nan. On positive definite matrices it holds for the inner product, the retraction and the Stein distance everywhere, and for the operations with eigenvalues exactly where the eigenvalues are distinct. On the Birkhoff polytope it holds for the projection of every matrix without negative entries and for the metric, the retraction and the projection of vectors at every point. On the Stiefel manifold it holds for the Cayley retraction and its transports everywhere, and for the projection exactly where the singular values are distinct, which they are not on the manifold itself.", "quantifier": "all points, vectors, curvatures, weights, matrices, dimensions and precisions", "why_tests_cant": "a gradient test evaluates a few random points, which are never exactly the exceptional ones a training run starts from (equal points, the origin, zero vectors)", "anchors": ["geoopt/manifolds/stereographic/math.py:_dist", "geoopt/manifolds/stereographic/math.py:_expmap", "geoopt/manifolds/stereographic/math.py:_logmap", "geoopt/manifolds/stereographic/math.py:_mobius_matvec", "geoopt/manifolds/stereographic/math.py:_weighted_midpoint", "geoopt/manifolds/stereographic/math.py:_dist2plane", "geoopt/manifolds/sphere.py:Sphere.expmap", "geoopt/manifolds/sphere.py:Sphere.logmap", "geoopt/manifolds/sphere.py:Sphere.dist", "geoopt/manifolds/lorentz/math.py:_dist", "geoopt/manifolds/lorentz/math.py:_logmap", "geoopt/manifolds/lorentz/math.py:_parallel_transport", "geoopt/manifolds/symmetric_positive_definite.py:SymmetricPositiveDefinite.dist", "geoopt/manifolds/symmetric_positive_definite.py:SymmetricPositiveDefinite.expmap", "geoopt/linalg/batch_linalg.py:sym_funcm"]}
{"id": "C132", "title": "Retractions follow the exponential map to third order", "statement": "retr is the cheap replacement of expmap in the optimisers, and on the sphere and on positive definite matrices it is a second order one: for every point and tangent vector, the distance between retr(x, u) and expmap(x, u) is at most a third of the cube of the length of u, so halving the step divides the difference by eight. On the sphere retr follows the same great circle, through the angle arctan|u|. On hyperbolic and flat stereographic models this holds at the origin; elsewhere the retraction x + u is only first order, and no constant bounds the difference by the cube of the length.", "quantifier": "all points, tangent vectors of any length, dimensions, subspaces and curvatures that are not positive", "why_tests_cant": "a test compares the two at a few step sizes; the rate is a statement about all small steps at every point", "anchors": ["geoopt/manifolds/sphere.py:Sphere.retr", "geoopt/manifolds/sphere.py:Sphere.expmap", "geoopt/manifolds/symmetric_positive_definite.py:SymmetricPositiveDefinite.retr", "geoopt/manifolds/symmetric_positive_definite.py:SymmetricPositiveDefinite.expmap", "geoopt/manifolds/stereographic/manifold.py:Stereographic.retr", "geoopt/manifolds/stereographic/math.py:_expmap0"]}
{"id": "C133", "title": "Balls are convex", "statement": "If two points are within some distance of a third one, so is every point of the geodesic between them: along geodesic_unit of Lorentz and geodesic of the hyperbolic stereographic models, dist to any point is at most the larger one of the values at the ends, whatever the distances are. On the sphere (expmap of a fraction of a vector shorter than half a great circle) and on the stereographic models of positive curvature this holds for radii up to a quarter of a great circle.", "quantifier": "all points, geodesics, times, radii, dimensions, subspaces, curvatures with |k| > 1e-8 (stereographic) and all curvatures of Lorentz", "why_tests_cant": "triangles in sampled positions cannot show that no geodesic leaves a ball; the clamps of dist and expmap act only in corners", "anchors": ["geoopt/manifolds/lorentz/math.py:_geodesic_unit", "geoopt/manifolds/lorentz/math.py:_dist", "geoopt/manifolds/stereographic/math.py:_geodesic", "geoopt/manifolds/stereographic/math.py:_dist", "geoopt/manifolds/sphere.py:Sphere.expmap", "geoopt/manifolds/sphere.py:Sphere.dist"]}
{"id": "C134", "title": "The exponential spreads vectors in hyperbolic space and gathers them on the sphere", "statement": "Distances in the tangent space bound distances on the manifold. On Lorentz, for every point x and tangent vectors u, v (of length at least 1e-4, where the floor of the norm is inactive) dist(expmap(x, u), expmap(x, v)) is at least the length of u - v; so logmap(x, y) and logmap(x, z) are at most dist(y, z) apart. On the sphere dist(expmap(x, u), expmap(x, v)) is at most the length of u - v (for |u| + |v| <= pi), up to the smallest number dist returns.", "quantifier": "all points, tangent vectors, curvatures of Lorentz, subspaces and dimensions", "why_tests_cant": "the inequality is sharp for parallel vectors, so a sampled check sees only its easy side; a wrong factor shows up only for some angles", "anchors": ["geoopt/manifolds/lorentz/math.py:_expmap", "geoopt/manifolds/lorentz/math.py:_logmap", "geoopt/manifolds/lorentz/math.py:_dist", "geoopt/manifolds/sphere.py:Sphere.expmap", "geoopt/manifolds/sphere.py:Sphere.dist"]}
{"id": "C135", "title": "In-place steps inside the operations do not invalidate recorded gradients", "statement": "Several operations change tensors in place. In every computation made of the library's operations, backward() at the end does not raise because a tensor that a derivative needs has been changed. This holds for the Cayley retraction and transports, the exponential of EuclideanStiefel, product distances, sabs and everything without in-place steps. It fails for the retraction of EuclideanStiefel, which multiplies the kept factor q of the QR decomposition in place, and for the conversion of Lorentz gradients when the gradient handed over is still needed.", "quantifier": "all sequences of calls of any length on any tensors, and all earlier recorded computations", "why_tests_cant": "the tests call the operations without backward(); whether a kept tensor is changed depends on the order of keeping and changing in the whole computation", "anchors": ["geoopt/manifolds/stiefel.py:EuclideanStiefel.retr", "geoopt/manifolds/stiefel.py:EuclideanStiefel.expmap", "geoopt/manifolds/stiefel.py:CanonicalStiefel._transp_follow_one", "geoopt/manifolds/product.py:ProductManifold.dist", "geoopt/manifolds/lorentz/math.py:_egrad2rgrad", "geoopt/utils.py:sabs"]}
{"id": "C136", "title": "Only the values of the loss on the manifold matter", "statement": "Two losses that have the same values at all points of the manifold, but are different elsewhere (for example by a penalty that vanishes on the manifold), lead to the same training: egrad2rgrad turns their Euclidean gradients into the same Riemannian gradient on every manifold of the library except the bounded Siegel domain, with or without weight decay; RiemannianAdam goes through the same parameters and states, RiemannianSGD through the same parameters without momentum or once the momentum buffers exist, RiemannianLineSearch makes the same steps, and the samplers RHMC and RSGLD produce the same chains with the same counters. It fails on the bounded Siegel domain, where the antisymmetric part of the Euclidean gradient changes the Riemannian one unless conj(z) z = z conj(z), for SGRHMC on CanonicalStiefel, which changes the velocity by the Euclidean gradient of the point before the move, and for the first step of RiemannianSGD with momentum: the buffer starts as the Euclidean gradient, so a loss that is constant on the circle moves the point to the opposite one.", "quantifier": "all pairs of losses that are differentiable where gradients are taken and agree on the manifolds, all points, hyper-parameters, numbers of steps and random draws", "why_tests_cant": "tests train with one formula for the loss; the claim compares every two formulas with the same values on the manifold, along the whole history", "anchors": ["geoopt/manifolds/sphere.py:Sphere.egrad2rgrad", "geoopt/manifolds/stiefel.py:CanonicalStiefel.egrad2rgrad", "geoopt/manifolds/stiefel.py:EuclideanStiefel.egrad2rgrad", "geoopt/manifolds/symmetric_positive_definite.py:SymmetricPositiveDefinite.egrad2rgrad", "geoopt/manifolds/lorentz/manifold.py:Lorentz.egrad2rgrad", "geoopt/manifolds/stereographic/manifold.py:Stereographic.egrad2rgrad", "geoopt/optim/rsgd.py:RiemannianSGD.step", "geoopt/optim/radam.py:RiemannianAdam.step", "geoopt/samplers/rhmc.py:RHMC.step", "geoopt/samplers/rsgld.py:RSGLD.step", "geoopt/manifolds/siegel/bounded_domain.py:BoundedDomain.egrad2rgrad", "geoopt/manifolds/siegel/upper_half.py:UpperHalf.egrad2rgrad", "geoopt/manifolds/birkhoff_polytope.py:BirkhoffPolytope.egrad2rgrad", "geoopt/manifolds/product.py:ProductManifold.egrad2rgrad"]}
{"id": "C137", "title": "Training a stack of points is training the points", "statement": "One manifold parameter that holds a stack of points (an embedding table) and one parameter for each of the points, in the same group, are trained alike by RiemannianSGD and RiemannianAdam: for any number of steps, any options and any loss, the separate parameters stay the elements of the stack, with the same momentum and the same Adam state, because every operation and the adaptive denominator work on the elements of a stack one by one. With the same draws the RHMC, RSGLD and SGRHMC samplers also make the same chain from both layouts, with the same accepted steps and log-probabilities. It fails on BirkhoffPolytope, where projx goes on for all matrices of a stack until the last one has converged: a matrix with zero gradient moves differently in a stack than on its own.", "quantifier": "all manifolds whose operations act on the elements of a stack one by one, all stack sizes, groups and options, all losses (gradients may depend on all parameters and the round), all numbers of steps", "why_tests_cant": "tests train one tensor shape at a time and do not compare two layouts of the same points over a history", "anchors": ["geoopt/optim/rsgd.py:RiemannianSGD.step", "geoopt/optim/radam.py:RiemannianAdam.step", "geoopt/manifolds/base.py:Manifold.component_inner", "geoopt/manifolds/birkhoff_polytope.py:proj_doubly_stochastic"]}
{"id": "C138", "title": "Stereographic models are the sphere and the hyperboloid", "statement": "The three implementations of spaces of constant curvature agree. For curvature k > 0, inv_sproj, divided by the radius, sends every point of Stereographic to a point of Sphere; the velocity of a moving point is sent to a tangent vector of Sphere, inner products agree up to the factor k, the distances agree up to the radius, expmap leads to corresponding points and logmap and (for k < 0) transp give corresponding tangent vectors (up to a computed error of the order of the 1e-15 regulariser that the stereographic functions add to |k|). For k < 0 the same holds with Lorentz (the last coordinate of inv_sproj being the time). All this as long as no clamp is active.", "quantifier": "all curvatures with |k| > 1e-8, all dimensions, all points and tangent vectors with inactive clamps", "why_tests_cant": "the tests check each manifold on its own; that the formulas of the three modules (Moebius addition and artan_k, arccos, arcosh) describe the same geometry is a statement about all points", "anchors": ["geoopt/manifolds/stereographic/math.py:inv_sproj", "geoopt/manifolds/stereographic/math.py:dist", "geoopt/manifolds/stereographic/math.py:expmap", "geoopt/manifolds/sphere.py:Sphere", "geoopt/manifolds/lorentz/math.py:dist", "geoopt/manifolds/lorentz/math.py:expmap"]}
{"id": "C139", "title": "Scaling rules belong to the class that declares them", "statement": "A manifold class declares how its methods change under Scaled with @__scaling__(ScalingInfo(...), *aliases). A class that copies the rules of another one gets, for every method, the rule of its own last declaration that mentions the method (by name or as an alias), and else the rule of the class it copied; a class that declares nothing has the rules of its base class. Defining classes, however many, changes the rules of no class that exists already. A rule declared later through a class reaches exactly the classes that use the same dictionary: the class that made the dictionary and the classes that inherit it without a copy.", "quantifier": "all sequences of class statements and later declarations, all method names and aliases", "why_tests_cant": "the tests construct Scaled versions of the manifolds of the library; sharing of one dictionary between classes shows only for particular orders of declarations", "anchors": ["geoopt/manifolds/base.py:ScalingStorage", "geoopt/manifolds/base.py:ScalingStorage.__call__", "geoopt/manifolds/base.py:ScalingStorage.copy", "geoopt/manifolds/scaled.py:Scaled"]}
