{
 "claims": [
  {
   "property": "C01",
   "status": "proved",
   "theorems": [
    "Geoopt.Stereo.C01_valid_inside",
    "Geoopt.Stereo.C01_ball_closed",
    "Geoopt.Stereo.C01_unprojected_open_ball"
   ],
   "note": "For k<0, all inputs; also the unprojected exp map for k<-1e-8."
  },
  {
   "property": "C02",
   "status": "proved",
   "theorems": [
    "Geoopt.Stereo.C02_projx_fixes_exactly_valid",
    "Geoopt.Stereo.C02_projx_idempotent",
    "Geoopt.Stereo.C02_projx_rescales",
    "Geoopt.Stereo.C02_projx_nonneg_curvature",
    "Geoopt.Stereo.C02_projected_point_passes_check",
    "Geoopt.Stereo.C02_counterexample_huge_curvature"
   ],
   "note": "For |k| up to the bound where the 1e-15 clamp in the norm is below maxnorm (stated as hypothesis eta<=1, k bounds); C02_counterexample_huge_curvature shows the boundary is real."
  },
  {
   "property": "C03",
   "status": "proved",
   "theorems": [
    "Geoopt.Stereo.C03_closed",
    "Geoopt.Stereo.C03_add_zero",
    "Geoopt.Stereo.C03_zero_add",
    "Geoopt.Stereo.C03_neg_add",
    "Geoopt.Stereo.C03_sub_self",
    "Geoopt.Stereo.C03_left_cancel",
    "Geoopt.Stereo.C03_left_cancel_ball",
    "Geoopt.Stereo.C03_solve",
    "Geoopt.Stereo.C03_not_commutative"
   ],
   "note": "Clamp included. Left cancellation is proved for the points the library accepts; the general form carries the exact clamp condition."
  },
  {
   "property": "C04",
   "status": "proved",
   "theorems": [
    "Geoopt.Stereo.C04_gyration_def",
    "Geoopt.Stereo.C04_gyration_def_ball",
    "Geoopt.Stereo.C04_gyration_linear",
    "Geoopt.Stereo.C04_gyration_isometry",
    "Geoopt.Stereo.C04_gyrocommutative"
   ],
   "note": "Gyration definition, linearity, isometry, gyrocommutative law, wherever the 1e-15 clamp of the denominators is inactive, in particular for all accepted points for k<0."
  },
  {
   "property": "C05",
   "status": "proved",
   "theorems": [
    "Geoopt.Stereo.C05_exp_log",
    "Geoopt.Stereo.C05_exp_log_ball",
    "Geoopt.Stereo.C05_log_exp",
    "Geoopt.Stereo.C05_log_exp_ball",
    "Geoopt.Stereo.C05_taylor_sign_wrong"
   ],
   "note": "Outside the Taylor zone 0<|k|<=1e-8, in the unclamped region as the property says; C05_taylor_sign_wrong shows that the Taylor zone uses the wrong sign for k<0."
  },
  {
   "property": "C06",
   "status": "partial",
   "theorems": [
    "Geoopt.Stereo.C06_symm",
    "Geoopt.Stereo.C06_self",
    "Geoopt.Stereo.C06_nonneg",
    "Geoopt.Stereo.C06_separates",
    "Geoopt.Stereo.C06_triangle_partial",
    "Geoopt.Stereo.C06_triangle_exact",
    "Geoopt.Stereo.C06_triangle_fails_with_regulariser",
    "Geoopt.Stereo.C06_antipodal_distance_zero"
   ],
   "note": "Symmetry, dist(x,x)=0, non-negativity: full. Separation: k<0. Triangle inequality: exact for eta=0 and with an explicit error term for the regulariser 1e-15 of the code (C06_triangle_fails_with_regulariser shows that it cannot be dropped). For k>0 separation is false: C06_antipodal_distance_zero."
  },
  {
   "property": "C07",
   "status": "proved",
   "theorems": [
    "Geoopt.Stereo.C07_norm_log_eq_dist",
    "Geoopt.Stereo.C07_dist_exp_eq_norm",
    "Geoopt.Stereo.C07_dist_exp_eq_norm_ball",
    "Geoopt.Stereo.C07_dist_saturates"
   ],
   "note": "In the unclamped region; C07_dist_saturates states what happens beyond."
  },
  {
   "property": "C08",
   "status": "proved",
   "theorems": [
    "Geoopt.Stereo.C08_origin_versions"
   ],
   "note": "All curvatures, all inputs, clamps included."
  },
  {
   "property": "C09",
   "status": "proved",
   "theorems": [
    "Geoopt.Stereo.C09_transport_linear",
    "Geoopt.Stereo.C09_transport_isometry",
    "Geoopt.Stereo.C09_transport_back",
    "Geoopt.Stereo.C09_transport_self",
    "Geoopt.Stereo.C09_transport_log",
    "Geoopt.Stereo.C09_transport_ball"
   ],
   "note": "Linear for all inputs; isometry, inverse and transport of the geodesic direction wherever the gyration clamp is inactive, in particular for all accepted points for k<0."
  },
  {
   "property": "C10",
   "status": "proved",
   "theorems": [
    "Geoopt.Stereo.C10_geodesic_zero",
    "Geoopt.Stereo.C10_geodesic_one",
    "Geoopt.Stereo.C10_geodesic_speed",
    "Geoopt.Stereo.C10_geodesic_unit_speed"
   ],
   "note": "k<-1e-8, accepted points."
  },
  {
   "property": "C11",
   "status": "proved",
   "theorems": [
    "Geoopt.Stereo.C11_flat"
   ],
   "note": "All operations listed, all inputs, clamps included."
  },
  {
   "property": "C12",
   "status": "proved",
   "theorems": [
    "Geoopt.Stereo.C12_sign",
    "Geoopt.Stereo.C12_read_back",
    "Geoopt.Stereo.C12_read_back_range",
    "Geoopt.Stereo.C12_read_back_error"
   ],
   "note": "Sign for every parameter value; read-back exact below the softplus threshold, error <= 3e-9 beyond."
  },
  {
   "property": "C13",
   "status": "partial",
   "theorems": [
    "Geoopt.Stereo.C13_zero_smul",
    "Geoopt.Stereo.C13_one_smul",
    "Geoopt.Stereo.C13_mul_smul",
    "Geoopt.Stereo.C13_add_smul_partial",
    "Geoopt.Stereo.C13_neg_smul",
    "Geoopt.Stereo.C13_smul_neg",
    "Geoopt.Stereo.C13_mul_smul_signed",
    "Geoopt.Stereo.C13_add_smul_formula",
    "Geoopt.Stereo.C13_add_smul_exact",
    "Geoopt.Stereo.C13_add_smul_flat",
    "Geoopt.Stereo.C13_counterexample_regulariser"
   ],
   "note": "All laws for scalars and curvatures of either sign; the distributive law is exact without the regulariser and in flat space, with the exact formula of both sides otherwise. With the regulariser of the code it is false for all positive scalars in the ball (C13_counterexample_regulariser); the size of the error is bounded in C13_add_smul_partial."
  },
  {
   "property": "C14",
   "status": "proved",
   "theorems": [
    "Geoopt.Stereo.C14_sproj_invSproj",
    "Geoopt.Stereo.C14_invSproj_on_quadric",
    "Geoopt.Stereo.C14_invSproj_sproj"
   ],
   "note": "Both directions and the quadric equation with the regulariser explicit."
  },
  {
   "property": "C15",
   "status": "partial",
   "theorems": [
    "Geoopt.Stereo.C15_nonpos",
    "Geoopt.Stereo.C15_antipode_error_partial",
    "Geoopt.Stereo.C15_antipode_distance_collapses",
    "Geoopt.Stereo.C15_involution_partial",
    "Geoopt.Stereo.C15_involution_zero"
   ],
   "note": "k<=0: proved. k>0: the computed antipode is within an explicit relative error of the antipodal point; applying it twice gives the point back exactly away from the extreme clamps (C15_involution_partial); the distance claim is false (C15_antipode_distance_collapses, C06_antipodal_distance_zero)."
  },
  {
   "property": "C16",
   "status": "partial",
   "theorems": [
    "Geoopt.Stereo.C16_order_irrelevant",
    "Geoopt.Stereo.C16_midpoint_radius",
    "Geoopt.Stereo.C16_counterexample_boundary",
    "Geoopt.Stereo.C16_copies_partial",
    "Geoopt.Stereo.C16_copies_flat",
    "Geoopt.Stereo.C16_copies_north_partial",
    "Geoopt.Stereo.C16_copies_south_partial",
    "Geoopt.Stereo.C16_counterexample_weights",
    "Geoopt.Stereo.C16_equation_partial",
    "Geoopt.Stereo.C16_rescale_partial",
    "Geoopt.Stereo.C16_counterexample_rescale",
    "Geoopt.Stereo.C16_two_points_partial",
    "Geoopt.Stereo.C16_equidistant_partial",
    "Geoopt.Stereo.C16_counterexample_equidistant"
   ],
   "note": "Order independence: full. Midpoint of copies: false near the boundary (C16_counterexample_boundary); proved up to the factor 1-1e-10/W inside 0.9995 of the radius for eta=0 and at k=0. Rescaling the weights changes the midpoint (C16_counterexample_rescale), by an explicit factor (C16_rescale_partial). Two equally weighted points: not equidistant in general (C16_counterexample_equidistant); exact formula for the difference (C16_two_points_partial), equality for points of equal norm. k>0: copies proved on both hemispheres (C16_copies_north_partial, C16_copies_south_partial); the choice between the antipodal candidates ignores the weights (C16_counterexample_weights)."
  },
  {
   "property": "C17",
   "status": "partial",
   "theorems": [
    "Geoopt.Stereo.C17_zero_iff",
    "Geoopt.Stereo.C17_base_point",
    "Geoopt.Stereo.C17_scaled",
    "Geoopt.Stereo.C17_signed_ball",
    "Geoopt.Stereo.C17_signed_flat",
    "Geoopt.Stereo.C17_depends_on_length",
    "Geoopt.Stereo.C17_signed_nonneg",
    "Geoopt.Stereo.C17_signed_near_flat",
    "Geoopt.Stereo.C17_sphere_value",
    "Geoopt.Stereo.C17_sphere_domain",
    "Geoopt.Stereo.C17_sphere_defined",
    "Geoopt.Stereo.C17_sphere_defined_code",
    "Geoopt.Stereo.C17_counterexample_nan"
   ],
   "note": "Zero set, base point, scaled: all inputs. Sign and absolute value: every k>=0 (all inputs), k<0 inside and outside the near-flat zone (accepted points, k>=-1e14). For k>1e-8 the argument of asin is bounded by sqrt(1+eps/k), is in [-1,1] without the regulariser and under an explicit margin with it; exactly at the quarter turn it exceeds 1, i.e. NaN (C17_counterexample_nan). Independence of the length of a is false at rounding level (C17_depends_on_length)."
  },
  {
   "property": "C18",
   "status": "partial",
   "theorems": [
    "Geoopt.C18.C18_inner_keepdim_partial",
    "Geoopt.C18.C18_norm_batch",
    "Geoopt.C18.C18_norm_sq_inner",
    "Geoopt.C18.C18_counterexample_shape",
    "Geoopt.C18.C18_counterexample_entries"
   ],
   "note": "keepdim=True and norm proved for every batch shape; keepdim=False is false of the code: the result has a spurious axis ((1,) for a single vector, (p,p) for a batch of p) - C18_counterexample_shape/_entries."
  },
  {
   "property": "C19",
   "status": "proved",
   "theorems": [
    "Geoopt.Stereo.C19_stereographic",
    "Geoopt.Stereo.C19_stereographic_descent",
    "Geoopt.Sphere.C19_sphere",
    "Geoopt.Stiefel.C19_canonical_stiefel",
    "Geoopt.Stiefel.C19_euclidean_stiefel",
    "Geoopt.SPD.C19_spd",
    "Geoopt.Birkhoff.C19_birkhoff",
    "Geoopt.Lorentz.C19_lorentz",
    "Geoopt.Eucl.C19_euclidean"
   ],
   "note": "Stereographic, Euclidean, sphere, canonical and Euclidean Stiefel, SPD, Lorentz and Birkhoff; the Siegel spaces are in C83."
  },
  {
   "property": "C20",
   "status": "proved",
   "theorems": [
    "Geoopt.Sphere.C20_projx_on_sphere",
    "Geoopt.Sphere.C20_projx_fixes",
    "Geoopt.Sphere.C20_retr_on_sphere",
    "Geoopt.Sphere.C20_expmap_on_sphere",
    "Geoopt.Sphere.C20_passes_check"
   ],
   "note": "All sphere points produced by projx/retr/expmap have unit norm for every input (the only exclusion is the zero denominator, stated as a hypothesis)."
  },
  {
   "property": "C21",
   "status": "proved",
   "theorems": [
    "Geoopt.Sphere.C21_proju_tangent",
    "Geoopt.Sphere.C21_proju_fixes",
    "Geoopt.Sphere.C21_proju_idempotent",
    "Geoopt.Sphere.C21_proju_linear",
    "Geoopt.Sphere.C21_proju_normal"
   ],
   "note": "Tangent projection is linear, idempotent, and its residual is normal."
  },
  {
   "property": "C22",
   "status": "partial",
   "theorems": [
    "Geoopt.Sphere.C22_dist_eq_arccos",
    "Geoopt.Sphere.C22_dist_symm",
    "Geoopt.Sphere.C22_counterexample_dist_self",
    "Geoopt.Sphere.C22_log_tangent",
    "Geoopt.Sphere.C22_exp_log",
    "Geoopt.Sphere.C22_norm_log",
    "Geoopt.Sphere.C22_log_exp",
    "Geoopt.Sphere.C22_counterexample_log_overshoots",
    "Geoopt.Sphere.C22_triangle"
   ],
   "note": "Distance is arccos of the clamped inner product, exp/log invert each other away from the clamps; the code violates dist(x,x)=0 and overshoots for very close points (counterexamples proved)."
  },
  {
   "property": "C23",
   "status": "partial",
   "theorems": [
    "Geoopt.Sphere.C23_intersection_projector",
    "Geoopt.Sphere.C23_complement_projector",
    "Geoopt.Sphere.C23_counterexample_dependent_columns",
    "Geoopt.Sphere.C23_operations_stay",
    "Geoopt.Sphere.C23_tangent_check_ignores_subspace"
   ],
   "note": "Subspace and complement projectors are orthogonal projectors when the columns are independent; a dependent-columns counterexample and a tangent check that ignores the subspace are proved."
  },
  {
   "property": "C24",
   "status": "proved",
   "theorems": [
    "Geoopt.Stiefel.C24_system_nonsingular",
    "Geoopt.Stiefel.C24_retr_on_stiefel",
    "Geoopt.Stiefel.C24_retr_zero",
    "Geoopt.Stiefel.C24_inner_formula",
    "Geoopt.Stiefel.C24_transp_tangent",
    "Geoopt.Stiefel.C24_transp_isometry",
    "Geoopt.Stiefel.C24_retr_transp"
   ],
   "note": "For every n, m and every x, u (tangent or not)."
  },
  {
   "property": "C25",
   "status": "proved",
   "theorems": [
    "Geoopt.Stiefel.C25_reversible"
   ],
   "note": "For every x and u."
  },
  {
   "property": "C26",
   "status": "proved",
   "theorems": [
    "Geoopt.Stiefel.C26_inner_formula",
    "Geoopt.Stiefel.C26_proju_tangent",
    "Geoopt.Stiefel.C26_proju_fixes",
    "Geoopt.Stiefel.C26_proju_orthogonal",
    "Geoopt.Stiefel.C26_transp_tangent",
    "Geoopt.Stiefel.C26_retr_on_stiefel",
    "Geoopt.Stiefel.C26_retr_zero",
    "Geoopt.Stiefel.C26_retr_full_rank",
    "Geoopt.Stiefel.C26_retr_unique",
    "Geoopt.Stiefel.C26_expmap_on_stiefel",
    "Geoopt.Stiefel.C26_expmap_zero",
    "Geoopt.Stiefel.C26_projx_on_stiefel",
    "Geoopt.Stiefel.C26_projx_fixes",
    "Geoopt.Stiefel.C26_projx_closest",
    "Geoopt.Stiefel.C26_origin_on_stiefel",
    "Geoopt.Stiefel.C26_passes_checks"
   ],
   "note": "QR and SVD enter through what torch promises about them; results hold for every factorisation torch may return."
  },
  {
   "property": "C27",
   "status": "partial",
   "theorems": [
    "Geoopt.Sphere.C27_sphere",
    "Geoopt.Stiefel.C27_canonical_stiefel_tangent_partial",
    "Geoopt.Stiefel.C27_canonical_stiefel_on_tangent",
    "Geoopt.Stiefel.C27_counterexample_canonical_stiefel",
    "Geoopt.Stiefel.C27_euclidean_stiefel",
    "Geoopt.SPD.C27_spd",
    "Geoopt.Birkhoff.C27_birkhoff_on_tangent",
    "Geoopt.Birkhoff.C27_counterexample_birkhoff",
    "Geoopt.Lorentz.C27_lorentz",
    "Geoopt.Stereo.C27_stereographic",
    "Geoopt.Eucl.C27_euclidean",
    "Geoopt.Siegel.C27_siegel_partial",
    "Geoopt.Siegel.C27_counterexample_siegel"
   ],
   "note": "Proved for the Euclidean, stereographic, spherical, hyperboloid, Euclidean Stiefel and SPD manifolds. False for the canonical Stiefel, Birkhoff and Siegel manifolds: the counterexample theorems show the code breaking it."
  },
  {
   "property": "C28",
   "status": "partial",
   "theorems": [
    "Geoopt.SPD.C28_projx_semidefinite",
    "Geoopt.SPD.C28_projx_definite_iff",
    "Geoopt.SPD.C28_projx_fixes",
    "Geoopt.SPD.C28_projx_idempotent",
    "Geoopt.SPD.C28_counterexample_projx_zero",
    "Geoopt.SPD.C28_retr_spd",
    "Geoopt.SPD.C28_retr_zero",
    "Geoopt.SPD.C28_expmap_spd",
    "Geoopt.SPD.C28_check_accepts_negative",
    "Geoopt.SPD.C28_check_complete"
   ],
   "note": "projx is always positive semidefinite, definite iff sym(x) is nonsingular, fixes SPD matrices; retr/expmap are SPD. projx(0)=0 and the point check accepts c*I for -atol<c<=0: counterexamples proved."
  },
  {
   "property": "C29",
   "status": "proved",
   "theorems": [
    "Geoopt.SPD.C29_exp_log",
    "Geoopt.SPD.C29_log_exp",
    "Geoopt.SPD.C29_logmap_symm",
    "Geoopt.SPD.C29_decomposition_free"
   ],
   "note": "For every implementation of eigh; independence of the decomposition proved too."
  },
  {
   "property": "C30",
   "status": "proved",
   "theorems": [
    "Geoopt.SPD.C30_nonneg",
    "Geoopt.SPD.C30_zero_iff",
    "Geoopt.SPD.C30_symm",
    "Geoopt.SPD.C30_congruence_invariant",
    "Geoopt.SPD.C30_inverse_invariant",
    "Geoopt.SPD.C30_dist_eq_norm_log",
    "Geoopt.SPD.C30_dist_expmap",
    "Geoopt.SPD.C30_triangle"
   ],
   "note": "Symmetry, zero iff equal, triangle inequality, congruence and inversion invariance, norm of logmap."
  },
  {
   "property": "C31",
   "status": "partial",
   "theorems": [
    "Geoopt.SPD.C31_log_euclidean",
    "Geoopt.SPD.C31_stein_nonneg",
    "Geoopt.SPD.C31_stein_symm",
    "Geoopt.SPD.C31_stein_zero_iff",
    "Geoopt.SPD.C31_stein_partial",
    "Geoopt.SPD.C31_counterexample_stein_triangle",
    "Geoopt.SPD.C31_stein_not_metric",
    "Geoopt.SPD.C31_affine_invariant"
   ],
   "note": "AIM and LEM are metrics. SM is nonnegative, symmetric, zero iff equal, but violates the triangle inequality in every dimension (proved)."
  },
  {
   "property": "C32",
   "status": "proved",
   "theorems": [
    "Geoopt.SPD.C32_isometry",
    "Geoopt.SPD.C32_transp_symm",
    "Geoopt.SPD.C32_transp_self",
    "Geoopt.SPD.C32_transp_log",
    "Geoopt.SPD.C32_inner_pos",
    "Geoopt.SPD.C32_inner_symm"
   ],
   "note": "Isometry, symmetry of the result, identity at x=y, transports logmap(x,y) to -logmap(y,x), inner positive definite."
  },
  {
   "property": "C33",
   "status": "partial",
   "theorems": [
    "Geoopt.Birkhoff.C33_diagonal_scaling",
    "Geoopt.Birkhoff.C33_row_sums",
    "Geoopt.Birkhoff.C33_row_sums_exact",
    "Geoopt.Birkhoff.C33_col_sums",
    "Geoopt.Birkhoff.C33_converges",
    "Geoopt.Birkhoff.C33_fixes",
    "Geoopt.Birkhoff.C33_counterexample_tiny",
    "Geoopt.Birkhoff.C33_retr_positive",
    "Geoopt.Birkhoff.C33_retr_form",
    "Geoopt.Birkhoff.C33_retr_row_sums",
    "Geoopt.Birkhoff.C33_retr_zero",
    "Geoopt.Birkhoff.C33_counterexample_batch",
    "Geoopt.Birkhoff.C33_check_accepts_negative"
   ],
   "note": "Positivity, diagonal form, row sums in (0,1], column sums within tol on a tolerance stop; additionally convergence of the loop for eps=0 and fixed points. False parts proved: with eps>0 a tiny positive matrix stays at row sums <= 1/2 for every max_iter, and the result depends on the other matrices of the batch."
  },
  {
   "property": "C34",
   "status": "proved",
   "theorems": [
    "Geoopt.Birkhoff.C34_system_nonsingular",
    "Geoopt.Birkhoff.C34_tangent",
    "Geoopt.Birkhoff.C34_passes_check",
    "Geoopt.Birkhoff.C34_characterisation",
    "Geoopt.Birkhoff.C34_linear",
    "Geoopt.Birkhoff.C34_counterexample_origin"
   ],
   "note": "For every doubly stochastic positive x; also linearity, characterisation. At origin() (the identity, not positive) the system is singular for every n>=2 (proved)."
  },
  {
   "property": "C35",
   "status": "proved",
   "theorems": [
    "Geoopt.Lorentz.C35_projx_on",
    "Geoopt.Lorentz.C35_projx_fixes",
    "Geoopt.Lorentz.C35_expmap_on",
    "Geoopt.Lorentz.C35_expmap0_on",
    "Geoopt.Lorentz.C35_geodesic_on",
    "Geoopt.Lorentz.C35_origin_on",
    "Geoopt.Lorentz.C35_expmap_unprojected",
    "Geoopt.Lorentz.C35_counterexample_unprojected_zero",
    "Geoopt.Lorentz.C35_geodesic_unprojected",
    "Geoopt.Lorentz.C35_project_polar_partial",
    "Geoopt.Lorentz.C35_counterexample_project_polar",
    "Geoopt.Lorentz.C35_passes_check",
    "Geoopt.Lorentz.C35_counterexample_check_accepts_lower_sheet"
   ],
   "note": "All statements proved for every k>0; additionally project_polar is shown to miss the hyperboloid unless k=1, the membership check to accept the lower sheet, and expmap(x,0,project=False) to leave the manifold."
  },
  {
   "property": "C36",
   "status": "partial",
   "theorems": [
    "Geoopt.Lorentz.C36_proju_tangent",
    "Geoopt.Lorentz.C36_proju_fixes",
    "Geoopt.Lorentz.C36_proju_idempotent",
    "Geoopt.Lorentz.C36_proju_normal",
    "Geoopt.Lorentz.C36_egrad2rgrad_tangent",
    "Geoopt.Lorentz.C36_egrad2rgrad_represents",
    "Geoopt.Lorentz.C36_counterexample_mutates",
    "Geoopt.Lorentz.C36_counterexample_second_call"
   ],
   "note": "Projection and gradient laws proved; \"does not modify its arguments\" is false of the code (egrad2rgrad negates the first entry of the caller's gradient in place): counterexamples proved."
  },
  {
   "property": "C37",
   "status": "partial",
   "theorems": [
    "Geoopt.Lorentz.C37_dist_defined",
    "Geoopt.Lorentz.C37_dist_symm",
    "Geoopt.Lorentz.C37_dist_pos",
    "Geoopt.Lorentz.C37_counterexample_dist_self",
    "Geoopt.Lorentz.C37_dist_exact",
    "Geoopt.Lorentz.C37_dist_error",
    "Geoopt.Lorentz.C37_triangle",
    "Geoopt.Lorentz.C37_log_tangent",
    "Geoopt.Lorentz.C37_norm_log",
    "Geoopt.Lorentz.C37_exp_log",
    "Geoopt.Lorentz.C37_log_exp",
    "Geoopt.Lorentz.C37_counterexample_exp_zero",
    "Geoopt.Lorentz.C37_counterexample_exp_zero_large",
    "Geoopt.Lorentz.C37_inner0",
    "Geoopt.Lorentz.C37_dist0",
    "Geoopt.Lorentz.C37_expmap0_raw",
    "Geoopt.Lorentz.C37_expmap0",
    "Geoopt.Lorentz.C37_logmap0",
    "Geoopt.Lorentz.C37_logmap0back"
   ],
   "note": "exp/log/dist agree away from the floors, triangle inequality proved for the computed distance, origin versions agree; dist(x,x)=0 and expmap(x,0)=x are false of the code (counterexamples proved, with the exact size of the error)."
  },
  {
   "property": "C38",
   "status": "partial",
   "theorems": [
    "Geoopt.Lorentz.C38_transp0",
    "Geoopt.Lorentz.C38_transp0back",
    "Geoopt.Lorentz.C38_transp_tangent",
    "Geoopt.Lorentz.C38_transp_isometry",
    "Geoopt.Lorentz.C38_transp_self",
    "Geoopt.Lorentz.C38_transp_inverse",
    "Geoopt.Lorentz.C38_transp_defect"
   ],
   "note": "Tangency, isometry and inversion proved when the points are equal or the 1e-8 floor is inactive; the exact defect below the floor is proved."
  },
  {
   "property": "C39",
   "status": "partial",
   "theorems": [
    "Geoopt.Lorentz.C39_to_poincare_in_ball",
    "Geoopt.Lorentz.C39_of_poincare_on_partial",
    "Geoopt.Lorentz.C39_counterexample_eps",
    "Geoopt.Lorentz.C39_counterexample_default_eps",
    "Geoopt.Lorentz.C39_round_trip_ball",
    "Geoopt.Lorentz.C39_round_trip_hyperboloid_partial",
    "Geoopt.Lorentz.C39_cosh_formula",
    "Geoopt.Lorentz.C39_distance_partial"
   ],
   "note": "With eps=0 the maps are mutually inverse and isometric up to sqrt(k); with the default eps the image misses the hyperboloid and the round trip shrinks by 2/(2+eps) (proved)."
  },
  {
   "property": "C40",
   "status": "partial",
   "theorems": [
    "Geoopt.C40.C40_lorentz_inner",
    "Geoopt.C40.C40_lorentz_dist",
    "Geoopt.C40.C40_lorentz_project",
    "Geoopt.C40.C40_lorentz_geodesic_unit",
    "Geoopt.C40.C40_counterexample_norm",
    "Geoopt.C40.C40_counterexample_expmap",
    "Geoopt.C40.C40_counterexample_expmap0",
    "Geoopt.C40.C40_counterexample_logmap0",
    "Geoopt.C40.C40_counterexample_logmap",
    "Geoopt.C40.C40_counterexample_transp",
    "Geoopt.C40.C40_counterexample_logmap0back",
    "Geoopt.C40.C40_counterexample_egrad2rgrad",
    "Geoopt.C40.C40_counterexample_to_poincare_rank1",
    "Geoopt.C40.C40_counterexample_to_poincare_rank3",
    "Geoopt.C40.C40_stereo_metric",
    "Geoopt.C40.C40_stereo_gyro",
    "Geoopt.C40.C40_stereo_dist",
    "Geoopt.C40.C40_stereo_maps",
    "Geoopt.C40.C40_stereo_transp",
    "Geoopt.C40.C40_stereo_midpoint",
    "Geoopt.C40.C40_counterexample_inner",
    "Geoopt.C40.C40_counterexample_matvec"
   ],
   "note": "Proved for every function that passes dim on, over tensors of every rank and shape. False of the code for Lorentz norm, expmap, expmap0, logmap, logmap0, logmap0back, egrad2rgrad, the transports and lorentz_to_poincare, for stereographic mobius_matvec and inner(keepdim=False): counterexample theorems."
  },
  {
   "property": "C41",
   "status": "partial",
   "theorems": [
    "C41.C41_unpack_pack_partial",
    "C41.C41_pack_unpack_partial",
    "C41.C41_wrong_count",
    "C41.C41_wrong_shape",
    "C41.C41_counterexample_empty_batch",
    "C41.C41_counterexample_surplus"
   ],
   "note": "Proved for every component list (vector, matrix, scalar shapes) and every non-empty batch; for an empty batch packing raises RuntimeError, and unpacking ignores surplus columns (both proved)."
  },
  {
   "property": "C42",
   "status": "partial",
   "theorems": [
    "C42.C42_projx_partial",
    "C42.C42_binary_partial",
    "C42.C42_ternary_partial",
    "C42.C42_paired_partial",
    "C42.C42_counterexample_empty_batch",
    "C42.C42_random_origin_partial"
   ],
   "note": "All operations, any batch shapes that broadcast; empty batches raise (proved)."
  },
  {
   "property": "C43",
   "status": "partial",
   "theorems": [
    "C42.C43_inner_partial",
    "C42.C43_dist_partial",
    "C42.C43_metric",
    "C42.C43_counterexample_self"
   ],
   "note": "inner and dist2 are the sums, dist is sqrt(max(dist2,1e-15)), triangle inequality; dist(x,x)=sqrt(1e-15), not 0 (counterexample proved); empty batches raise."
  },
  {
   "property": "C44",
   "status": "proved",
   "theorems": [
    "C41.C44_construction",
    "C41.C44_layout",
    "C41.C44_from_point"
   ],
   "note": "Construction, layout and from_point for every component list."
  },
  {
   "property": "C45",
   "status": "proved",
   "theorems": [
    "C45.C45_dist",
    "C45.C45_dist2",
    "C45.C45_logmap",
    "C45.C45_displacement",
    "C45.C45_not_compatible",
    "C45.C45_nested",
    "C45.C45_learnable",
    "C45.C45_learnable_positive",
    "C46.C45_counterexample_product"
   ],
   "note": "For every manifold whose __scaling__ table extends that of Manifold, any nesting, every call. One class cannot be wrapped at all (StereographicProductManifold: AttributeError, proved)."
  },
  {
   "property": "C46",
   "status": "proved",
   "theorems": [
    "C46.C46_laws"
   ],
   "note": "Laws transfer to Scaled for every s>0; the Euclidean plane is shown to meet the hypotheses."
  },
  {
   "property": "C47",
   "status": "proved",
   "theorems": [
    "C46.C47_canonical",
    "C46.C47_ismanifold",
    "C46.C47_every_manifold",
    "C46.C47_others",
    "C46.C47_scaled_is_transparent"
   ],
   "note": "Any number of layers."
  },
  {
   "property": "C48",
   "status": "partial",
   "theorems": [
    "C46.C48_forwarded",
    "C46.C48_forwarded_keywords",
    "C46.C48_getattr_partial",
    "C46.C48_counterexample_component_inner",
    "C46.C48_counterexample_origin",
    "C46.C48_counterexample_pack",
    "C46.C48_counterexample_norm",
    "C46.C48_counterexample_random"
   ],
   "note": "True for methods that only the base has and for the explicit forwarders. False for component_inner, origin, pack_point, unpack_tensor, Lorentz.norm and Lorentz.random: counterexamples proved."
  },
  {
   "property": "C49",
   "status": "partial",
   "theorems": [
    "C49.C49_broadcast_shapes_partial",
    "C49.C49_spec_unique",
    "C49.C49_order_independent_partial",
    "C49.C49_single",
    "C49.C49_idempotent",
    "C49.C49_counterexample_zero",
    "C49.C49_counterexample_order"
   ],
   "note": "Exactly NumPy for positive axes, any number of shapes; false with axes of size zero (wrong shape, order dependent): counterexamples proved."
  },
  {
   "property": "C50",
   "status": "partial",
   "theorems": [
    "C49.C50_idx2sign_neg",
    "C49.C50_idx2sign_pos",
    "C49.C50_idx2sign_roundtrip",
    "C49.C50_canonical_dims",
    "C49.C50_list_range",
    "C49.C50_drop_dims_partial",
    "C49.C50_counterexample_unsorted",
    "C49.C50_counterexample_negative"
   ],
   "note": "idx2sign, canonical_dims: full. drop_dims: for increasing non-negative axes; false for unsorted or negative axes (counterexamples proved), which weighted_midpoint(reducedim=...) accepts."
  },
  {
   "property": "C51",
   "status": "proved",
   "theorems": [
    "C49.C51_size2shape",
    "C49.C51_size2shape_int",
    "C49.C51_idempotent",
    "C49.C51_strip_make"
   ],
   "note": "All argument lists."
  },
  {
   "property": "C52",
   "status": "partial",
   "theorems": [
    "C42.C52_product_point",
    "C42.C52_product_tangent",
    "C52.C52_assert_agrees",
    "C52.C52_explain_agrees",
    "C52.C52_reason_partial",
    "C52.C52_shape_first",
    "C52.C52_ok_point",
    "C52.C52_accepted_shapes",
    "C52.C52_shape_reasons",
    "C52.C52_counterexample_sphere",
    "C52.C52_counterexample_batched_subspace",
    "C52.C52_counterexample_product"
   ],
   "note": "Assertions and checks agree, explain gives the same verdict, shape before value, ok_point; the product check is the conjunction of its components. The reason is not None on success for Sphere with a subspace (counterexample proved), a batched subspace accepts too few axes, the product check raises IndexError on a scalar."
  },
  {
   "property": "C53",
   "status": "partial",
   "theorems": [
    "C52.C53_deterministic",
    "C52.C53_cpu_state_kept_partial",
    "C52.C53_counterexample_cuda",
    "C52.C53_no_seed"
   ],
   "note": "Result independent of the RNG state; CPU state restored also on exceptions; the accelerator generators are reseeded and not restored (proved)."
  },
  {
   "property": "C54",
   "status": "proved",
   "theorems": [
    "C54.C54_new",
    "C54.C54_parameter",
    "C54.C54_deepcopy",
    "C54.C54_deepcopy_succeeds",
    "C54.C54_counterexample_storage",
    "C54.C54_pickle"
   ],
   "note": "All clauses of the statement; in addition C54_counterexample_storage shows that two distinct tensor objects aliasing one storage stop aliasing after a joint deepcopy (a side finding, not part of the statement)."
  },
  {
   "property": "C55",
   "status": "partial",
   "theorems": [
    "C55.C55_sgd_partial",
    "C55.C55_sgd_no_momentum",
    "C55.C55_sgd_open",
    "C55.C55_counterexample_momentum"
   ],
   "note": "proved for every history without momentum, and with momentum on manifolds whose retraction accepts every vector; with momentum on other manifolds the first step stores the raw (not tangent) gradient as momentum: counterexample on the sphere proved, positive theorem under the condition that this first gradient is tangent"
  },
  {
   "property": "C56",
   "status": "proved",
   "theorems": [
    "C55.C56_adam"
   ],
   "note": "for every geometry; instances proved for Euclidean, Sphere, Stereographic (k<0), Lorentz, canonical Stiefel, SPD and batches of them"
  },
  {
   "property": "C57",
   "status": "partial",
   "theorems": [
    "C57.C57_sgd_partial",
    "C57.C57_sgd_no_momentum",
    "C57.C57_counterexample_momentum",
    "C57.C57_adam"
   ],
   "note": "RiemannianAdam: proved for every history. RiemannianSGD: proved without momentum, and with momentum from the step after the buffer was created; the step creating the buffer differs from torch (counterexample proved)"
  },
  {
   "property": "C58",
   "status": "partial",
   "theorems": [
    "C58.C58_sgd_others",
    "C58.C58_sgd_partial",
    "C58.C58_sgd_state",
    "C58.C58_adam_others",
    "C58.C58_adam_partial",
    "C58.C58_counterexample_stabilize"
   ],
   "note": "other parameters are never influenced, no state is created, and the parameter is unchanged without stabilization, or if it is on its manifold; stabilization projects parameters without gradient too (counterexample proved)"
  },
  {
   "property": "C59",
   "status": "partial",
   "theorems": [
    "C59.C59_accepts",
    "C59.C59_sgd",
    "C59.C59_adam_partial"
   ],
   "note": "proved on steps without stabilization (which projects all rows), for Adam without amsgrad; with amsgrad see the counterexamples under C60"
  },
  {
   "property": "C60",
   "status": "partial",
   "theorems": [
    "C59.C60_counterexample_sparse",
    "C59.C60_counterexample_sparse_decrease",
    "C60.C60_dense",
    "C60.C60_dense_monotone"
   ],
   "note": "dense optimiser: proved for every history. Sparse optimiser: false, counterexamples proved (it stores the square root of the bias-corrected maximum)"
  },
  {
   "property": "C61",
   "status": "partial",
   "theorems": [
    "C59.C61_counterexample_sparse_adam",
    "C60.C61_sgd",
    "C60.C61_zero_period",
    "C60.C61_adam_partial",
    "C60.C61_adam_regular",
    "C60.C61_counterexample_adam"
   ],
   "note": "RiemannianSGD: proved for every history and period. RiemannianAdam: exact condition proved, and the property when all parameters have gradients at every step; counterexample with a missing gradient, and SparseRiemannianAdam refusing its documented option"
  },
  {
   "property": "C62",
   "status": "partial",
   "theorems": [
    "C59.C62_sparse",
    "C60.C62_sgd_partial",
    "C60.C62_adam_partial",
    "C60.C62_counterexample_weight_decay",
    "C60.C62_counterexample_nesterov",
    "C60.C62_counterexample_lorentz"
   ],
   "note": "proved without weight decay, for manifolds whose egrad2rgrad neither writes nor (with Nesterov) returns a view of its argument, and for the sparse optimisers; counterexamples for weight decay, Nesterov on Euclidean parameters, and Lorentz"
  },
  {
   "property": "C63",
   "status": "partial",
   "theorems": [
    "C63_trials",
    "C63_derphi_partial",
    "C63_step_partial",
    "C63_start_partial",
    "C63_on_manifold",
    "C63_reported_loss_counterexample",
    "C63_stale_gradient_counterexample",
    "C63_no_step_counterexample",
    "C63_derphi_counterexample",
    "C63_constant_cg_counterexample",
    "C63_stabilize_counterexample",
    "C63_no_step_stays",
    "C63_force_step_partial",
    "C63_force_step_counterexample"
   ],
   "note": "Trials never move the parameters (any method), nor does no_step. Step, reported loss, starting gradient and staying on the manifold: proved for every history with methods that return a step size they evaluated, when directions stay tangent. Counterexamples proved: untried step sizes (wrong loss reported, stale gradient), no_step, force_step, derphi at an earlier step size, cg \"constant\", stabilize."
  },
  {
   "property": "C64",
   "status": "proved",
   "theorems": [
    "C64_descent"
   ],
   "note": "Every coefficient rule and history; conditions on the metric only (positive, compatible with sign); instances in C63Manifolds."
  },
  {
   "property": "C65",
   "status": "partial",
   "theorems": [
    "C65_step_partial",
    "C65_raises",
    "C65_history",
    "C65_counterexample_overflow"
   ],
   "note": "Every clause proved for every history of steps that return. Missing: a step whose energy falls by more than log(largest double) raises OverflowError instead of accepting (exact condition C65_raises, counterexample proved)."
  },
  {
   "property": "C66",
   "status": "partial",
   "theorems": [
    "C66_counterexample_linear",
    "C66_flat_partial",
    "C66_euclidean_flow",
    "C66_stiefel_flow"
   ],
   "note": "False: for a linear log-probability on the line the proposal is never reversible (the first momentum update is a full step), C66_counterexample_linear. Proved for flat targets on manifolds whose free motion is reversible; instances Euclidean and canonical Stiefel."
  },
  {
   "property": "C67",
   "status": "proved",
   "theorems": [
    "C41.C67_product_reversible",
    "C46.C67_scaled_reversible",
    "C67_sampler_init"
   ],
   "note": "Sampler constructor, product and Scaled, any nesting."
  },
  {
   "property": "C68",
   "status": "partial",
   "theorems": [
    "Geoopt.Dataset.C68_size",
    "Geoopt.Dataset.C68_labels",
    "Geoopt.Dataset.C68_samples",
    "Geoopt.Dataset.C68_labels_distinct",
    "Geoopt.Dataset.C68_extends_partial",
    "Geoopt.Dataset.C68_counterexample_root",
    "Geoopt.Dataset.C68_raises_unary",
    "Geoopt.Dataset.C68_raises_depth_zero",
    "Geoopt.Dataset.C68_raises_no_siblings",
    "Geoopt.Dataset.C68_points_valid",
    "Geoopt.Dataset.C68_directions",
    "Geoopt.Dataset.C68_child_distance",
    "Geoopt.Dataset.C68_counterexample_line",
    "Geoopt.Dataset.C68_counterexample_sample_centre"
   ],
   "note": "Sizes, labels, samples, class ids, points on the ball, child distances: proved for every depth >= 1, branching >= 2, number of samples >= 1 (sizes up to 2^53, where the float division in the code is exact) and every random draw. False parts are theorems: the root id is overwritten in all other labels, branching 1, depth 0 and 0 samples raise, in one dimension grandchildren of the root coincide with their parents, samples are centred at expmap0(node) and not at the node."
  },
  {
   "property": "C69",
   "status": "proved",
   "theorems": [
    "Geoopt.Siegel.C69_inverse_of_cayley",
    "Geoopt.Siegel.C69_cayley_of_inverse",
    "Geoopt.Siegel.C69_raises_iff",
    "Geoopt.Siegel.C69_bounded_to_upper",
    "Geoopt.Siegel.C69_upper_to_bounded",
    "Geoopt.Siegel.C69_bijection",
    "Geoopt.Siegel.C69_origin"
   ],
   "note": "Every n, both directions, exact condition for the exception, bijection of the two domains."
  },
  {
   "property": "C70",
   "status": "proved",
   "theorems": [
    "Geoopt.Siegel.C70_upper_projx",
    "Geoopt.Siegel.C70_upper_projx_fixed",
    "Geoopt.Siegel.C70_upper_projx_idempotent",
    "Geoopt.Siegel.C70_upper_projx_re",
    "Geoopt.Siegel.C70_upper_projx_unique",
    "Geoopt.Siegel.C70_bounded_projx",
    "Geoopt.Siegel.C70_bounded_projx_fixed",
    "Geoopt.Siegel.C70_bounded_projx_idempotent",
    "Geoopt.Siegel.C70_bounded_projx_unique",
    "Geoopt.Siegel.C70_takagi",
    "Geoopt.Siegel.C70_takagi_unitary",
    "Geoopt.Siegel.C70_margin",
    "Geoopt.Siegel.C70_retr",
    "Geoopt.Siegel.C70_upper_check",
    "Geoopt.Siegel.C70_upper_projx_check",
    "Geoopt.Siegel.C70_bounded_check",
    "Geoopt.Siegel.C70_bounded_projx_check"
   ],
   "note": "Every n and every complex matrix; exact EPS margin; idempotence; uniqueness over all implementations of eigh; the Takagi factorisation itself."
  },
  {
   "property": "C71",
   "status": "partial",
   "theorems": [
    "Geoopt.Siegel.C71_formulas",
    "Geoopt.Siegel.C71_minimum",
    "Geoopt.Siegel.C71_counterexample_minimum",
    "Geoopt.Siegel.C71_nonneg",
    "Geoopt.Siegel.C71_definite",
    "Geoopt.Siegel.C71_weighted",
    "Geoopt.Siegel.C71_refused",
    "Geoopt.Siegel.C71_mismatch",
    "Geoopt.Siegel.C71_counterexample_shape",
    "Geoopt.Siegel.C71_shape_partial"
   ],
   "note": "Formulas, non-negativity, definiteness, refusal of sizes below 2 proved. Finsler minimum entropy does not follow the documented formula (the weights are 0, 2, ..., 2(n-1), counterexample proved) and the result shape differs between metrics (counterexample proved)."
  },
  {
   "property": "C72",
   "status": "proved",
   "theorems": [
    "Geoopt.Layer.C72_forward",
    "Geoopt.Layer.C72_signed_square",
    "Geoopt.Layer.C72_zero_set",
    "Geoopt.Layer.C72_reset"
   ],
   "note": "Every number of batch and spatial axes, all sizes, both flags, every curvature; the distance itself is C17."
  },
  {
   "property": "C73",
   "status": "partial",
   "theorems": [
    "Geoopt.Eucl.C73_retr_expmap",
    "Geoopt.Eucl.C73_logmap",
    "Geoopt.Eucl.C73_exp_log",
    "Geoopt.Eucl.C73_log_exp",
    "Geoopt.Eucl.C73_raises",
    "Geoopt.Eucl.C73_dist",
    "Geoopt.Eucl.C73_dist2",
    "Geoopt.Eucl.C73_norm",
    "Geoopt.Eucl.C73_inner",
    "Geoopt.Eucl.C73_norm_sq_inner",
    "Geoopt.Eucl.C73_counterexample_norm_shape",
    "Geoopt.Eucl.C73_too_many_axes",
    "Geoopt.Eucl.C73_component_inner",
    "Geoopt.Eucl.C73_identity",
    "Geoopt.Eucl.C73_counterexample_empty",
    "Geoopt.Eucl.C73_dist_metric",
    "Geoopt.Eucl.C73_origin"
   ],
   "note": "Whole tensors of any shape, any ndim, with and without keepdim, all broadcasting: values and shapes of retr, expmap, logmap, inner, component_inner, norm, dist, dist2, proju, egrad2rgrad, transp, origin; exp/log inverse; metric laws; RuntimeError for shapes that do not broadcast. False parts are theorems: norm ignores the batch of x where inner expands to it; empty tensors make proju, egrad2rgrad, transp and component_inner raise; with more axes than torch.norm accepts dist and norm raise while dist2 works. Entries are real numbers."
  },
  {
   "property": "C74",
   "status": "partial",
   "theorems": [
    "Geoopt.Sphere.C74_sphere_random_uniform",
    "Geoopt.Stiefel.C74_stiefel_random",
    "Geoopt.SPD.C74_spd_random",
    "Geoopt.SPD.C74_spd_origin",
    "Geoopt.Birkhoff.C74_birkhoff_random_partial",
    "Geoopt.Lorentz.C74_lorentz_random_normal",
    "Geoopt.Lorentz.C74_counterexample_lorentz_std",
    "Geoopt.Eucl.C74_euclidean_random_normal",
    "Geoopt.Stereo.C74_stereographic",
    "Geoopt.Stereo.C74_stereographic_tangent_length",
    "Geoopt.Stereo.C74_stereographic_spread",
    "Geoopt.Stereo.C74_stereographic_no_spread",
    "Geoopt.Siegel.C74_siegel_random",
    "C84.C74_counterexample_product_std",
    "C84.C74_product_wrapped_normal_partial"
   ],
   "note": "Proved for every manifold that has random sampling. False in two places: the Lorentz model ignores std, and the product manifold ignores a numeric std (counterexample theorems)."
  },
  {
   "property": "C75",
   "status": "proved",
   "theorems": [
    "Geoopt.Stereo.C75_coadd_formula",
    "Geoopt.Stereo.C75_coadd_comm",
    "Geoopt.Stereo.C75_cosub_self",
    "Geoopt.Stereo.C75_right_cancel"
   ],
   "note": "Closed form, commutativity, x-x=0 and right cancellation on accepted points for k<0."
  },
  {
   "property": "C76",
   "status": "proved",
   "theorems": [
    "C76_start",
    "C76_armijo_descent",
    "C76_monotone"
   ],
   "note": "For every history; SciPy scalar_search_armijo enters through a contract (returns only evaluated step sizes that met the condition)."
  },
  {
   "property": "C77",
   "status": "proved",
   "theorems": [
    "C77_rhmc",
    "C77_stabilize",
    "C77_rsgld",
    "C77_sgrhmc"
   ],
   "note": "Every history. SGRHMC needs retractions that accept every vector; shown for the three families of manifolds that samplers accept (Euclidean, exact Poincare ball, canonical Stiefel)."
  },
  {
   "property": "C78",
   "status": "proved",
   "theorems": [
    "Geoopt.C78.C78_stereo_gyro",
    "Geoopt.C78.C78_stereo_metric",
    "Geoopt.C78.C78_stereo_maps",
    "Geoopt.C78.C78_stereo_transp",
    "Geoopt.C78.C78_stereo_sproj",
    "Geoopt.C78.C78_stereo_matvec",
    "Geoopt.C78.C78_lorentz_metric",
    "Geoopt.C78.C78_lorentz_maps",
    "Geoopt.C78.C78_lorentz_last",
    "Geoopt.C78.C78_lorentz_poincare",
    "Geoopt.C78.C78_stereo_midpoint"
   ],
   "note": "Every function of stereographic/math.py and lorentz/math.py; functions that lose dim (C40) for dim=-1; inner with keepdim=False is excluded (C18); weighted_midpoint is not a batched map and is not part of it."
  },
  {
   "property": "C79",
   "status": "proved",
   "theorems": [
    "Geoopt.Fused.C79_vectors",
    "Geoopt.Fused.C79_matrices",
    "Geoopt.Fused.C79_exact_retr"
   ],
   "note": "Every class with a modelled retr; canonical Stiefel has no transp."
  },
  {
   "property": "C80",
   "status": "partial",
   "theorems": [
    "Geoopt.C80.C80_euclidean",
    "Geoopt.C80.C80_sphere",
    "Geoopt.C80.C80_sphere_exact",
    "Geoopt.C80.C80_stereographic",
    "Geoopt.C80.C80_spd",
    "Geoopt.C80.C80_canonical_stiefel_velocity",
    "Geoopt.C80.C80_canonical_stiefel_partial",
    "Geoopt.C80.C80_counterexample_canonical_stiefel",
    "Geoopt.C80.C80_spd_expmap",
    "Geoopt.C80.C80_euclidean_stiefel_exact",
    "Geoopt.C80.C80_euclidean_stiefel",
    "Geoopt.C80.C80_stereographic_exact_partial",
    "Geoopt.C80.C80_stereographic_speed_flat",
    "Geoopt.C80.C80_stereographic_speed_hyperbolic",
    "Geoopt.C80.C80_counterexample_lorentz",
    "Geoopt.C80.C80_birkhoff_partial"
   ],
   "note": "Proved for Euclidean, Sphere, SphereExact, Stereographic retr, SPD retr and expmap, EuclideanStiefel with any QR, EuclideanStiefelExact. False for canonical Stiefel (velocity u + x x^T u, proved), Lorentz (the zero vector moves), and off by a proved factor near one for the stereographic expmap (norm clamp) and Birkhoff (eps)."
  },
  {
   "property": "C81",
   "status": "partial",
   "theorems": [
    "Geoopt.Stereo.C81_matvec",
    "Geoopt.Stereo.C81_matvec_zero",
    "Geoopt.Stereo.C81_matvec_orthogonal",
    "Geoopt.Stereo.C81_matvec_mul",
    "Geoopt.Stereo.C81_matvec_scalar",
    "Geoopt.Stereo.C81_pointwise_partial",
    "Geoopt.Stereo.C81_counterexample_pointwise",
    "Geoopt.Stereo.C81_pointwise_vs_matvec",
    "Geoopt.Stereo.C81_fn_apply",
    "Geoopt.Stereo.C81_chain"
   ],
   "note": "Proved for matvec, fn_apply and chains above the 1e-15 floors and outside the Taylor zone. mobius_pointwise_mul agrees only when some product exceeds 1e-8: weight one sends every point with entries up to 1e-8 to the origin (counterexample proved)."
  },
  {
   "property": "C82",
   "status": "proved",
   "theorems": [
    "Geoopt.Siegel.C82_defined",
    "Geoopt.Siegel.C82_nonneg",
    "Geoopt.Siegel.C82_vvd_zero_iff",
    "Geoopt.Siegel.C82_self",
    "Geoopt.Siegel.C82_definite",
    "Geoopt.Siegel.C82_symm",
    "Geoopt.Siegel.C82_unique",
    "Geoopt.Siegel.C82_action",
    "Geoopt.Siegel.C82_invariant",
    "Geoopt.Siegel.C82_saturates",
    "Geoopt.Siegel.C82_bounded",
    "Geoopt.Siegel.C82_from_origin"
   ],
   "note": "Every n, every pair of points, every metric; the clamp at EPS bounds all distances by log(2/EPS) per entry (theorem C82_saturates)."
  },
  {
   "property": "C83",
   "status": "partial",
   "theorems": [
    "Geoopt.Siegel.C83_inner",
    "Geoopt.Siegel.C83_positive",
    "Geoopt.Siegel.C83_upper_gradient",
    "Geoopt.Siegel.C83_bounded_gradient_partial",
    "Geoopt.Siegel.C83_descent",
    "Geoopt.Siegel.C83_dCayley",
    "Geoopt.Siegel.C83_cayley_isometry_partial",
    "Geoopt.Siegel.C83_counterexample_gradient",
    "Geoopt.Siegel.C83_counterexample_antisymmetric",
    "Geoopt.Siegel.C83_counterexample_isometry",
    "Geoopt.Siegel.C83_counterexample_proju",
    "Geoopt.Siegel.C83_proju_partial",
    "Geoopt.Siegel.C83_origin_partial",
    "Geoopt.Siegel.C83_counterexample_origin"
   ],
   "note": "Inner products are Hermitian and positive on both spaces, the gradient is right on the upper half space, and both gradients are descent directions: full. On the bounded domain the gradient and the inner product are right only where conj(z) z = z conj(z); counterexamples proved. proju is not a projection and UpperHalf.origin has the wrong shape for batches (proved)."
  },
  {
   "property": "C84",
   "status": "partial",
   "theorems": [
    "C84.C84_init",
    "C84.C84_type_error",
    "C84.C84_unary_partial",
    "C84.C84_binary_partial",
    "C84.C84_gyration_partial",
    "C84.C84_mobius_partial",
    "C84.C84_counterexample_matrix",
    "C84.C84_block",
    "C84.C84_matvec_partial",
    "C84.C84_dist0",
    "C84.C84_dist2plane",
    "C84.C84_counterexample_signed",
    "C84.C84_counterexample_unit_speed"
   ],
   "note": "All methods, components of any shape where the code allows it, every non-empty batch. False parts are theorems: mobius_add/coadd/sub/cosub raise for components with two axes, signed=True loses the sign in dist2plane, geodesic_unit has speed sqrt(number of components); a numeric std of wrapped_normal is ignored (C74)."
  },
  {
   "property": "C85",
   "status": "partial",
   "theorems": [
    "C85_steepest",
    "C85_fletcher_reeves_partial",
    "C85_fletcher_reeves",
    "C85_polak_ribiere_partial",
    "C85_first",
    "C85_fletcher_reeves_counterexample",
    "C85_failed_search_counterexample",
    "C85_key_error_counterexample",
    "C85_init_armijo",
    "C85_init"
   ],
   "note": "Proved: the directions of steepest descent, Fletcher-Reeves and Polak-Ribiere after every successful step of every history. False: the old gradient is measured with the metric at the new point; after a failed search the next direction is not tangent, or the next step raises KeyError (counterexample theorems)."
  },
  {
   "property": "C86",
   "status": "proved",
   "theorems": [
    "C86_strong_wolfe",
    "C86_slope"
   ],
   "note": "Relative to the contract of the scalar search of SciPy, which is outside of the code base."
  },
  {
   "property": "C87",
   "status": "partial",
   "theorems": [
    "Geoopt.Siegel.C87_triangle_partial",
    "Geoopt.Siegel.C87_triangle_infinity",
    "Geoopt.Siegel.C87_smallest_zero_iff",
    "Geoopt.Siegel.C87_counterexample_weighted",
    "Geoopt.Siegel.C87_triangle_bounded_partial"
   ],
   "note": "Riemannian, Finsler one, infinity, minimum entropy and weighted sums with ascending weights: proved between points whose vector-valued distances do not reach the clamp at EPS; Finsler infinity: proved everywhere. Weighted sums with weights that are not ascending violate it and are zero between distinct points (counterexample proved)."
  },
  {
   "property": "C88",
   "status": "partial",
   "theorems": [
    "C88.C88_forward",
    "C88.C88_inner_default",
    "C88.C88_missing",
    "C88.C88_dist_geodesic",
    "C88.C88_dist_default",
    "C88.C88_counterexample_dist_p",
    "C88.C88_dist_other_p",
    "C88.C88_proj_inplace",
    "C88.C88_proj_twice",
    "C88.C88_counterexample_proj_parameter"
   ],
   "note": "Forwarding, dist with p=2 or \"g\", and proj_ proved. False of the code: dist ignores every other p (counterexample), and proj_ raises on tensors that require a gradient while gradients are enabled, so on every ManifoldParameter outside no_grad."
  },
  {
   "property": "C89",
   "status": "partial",
   "theorems": [
    "C89.C89_read_back",
    "C89.C89_frame",
    "C89.C89_unconstrained",
    "C89.C89_independent_partial",
    "C89.C89_radius",
    "C89.C89_counterexample_argument",
    "C89.C89_counterexample_shared"
   ],
   "note": "Proved whenever no two constructors get the same floating point tensor, and always for Stereographic and Lorentz. False of the code otherwise: PoincareBall and SphereProjection transform the given tensor in place; a second ball built from it changes the curvature of both (counterexamples)."
  },
  {
   "property": "C90",
   "status": "partial",
   "theorems": [
    "Geoopt.C90.C90_sgd",
    "Geoopt.C90.C90_adam",
    "Geoopt.C90.C90_sparse_sgd",
    "Geoopt.C90.C90_sparse_adam",
    "Geoopt.C90.C90_counterexample_order",
    "Geoopt.C90.C90_refuses",
    "Geoopt.C90.C90_counterexample_linesearch"
   ],
   "note": "RiemannianSGD, RiemannianAdam and the two sparse optimisers: proved for every interruption point. RiemannianLineSearch: false, counterexample with its default options (loss before the last step is not saved). Other order of parameters: counterexample. Saving and loading themselves are torch functions, modelled by their documented behaviour."
  },
  {
   "property": "C91",
   "status": "partial",
   "theorems": [
    "Geoopt.C91.C91_sgd",
    "Geoopt.C91.C91_stationary",
    "Geoopt.C91.C91_euclidean",
    "Geoopt.C91.C91_sphere",
    "Geoopt.C91.C91_sphere_exact",
    "Geoopt.C91.C91_stereographic",
    "Geoopt.C91.C91_stereographic_exact",
    "Geoopt.C91.C91_poincare_exact",
    "Geoopt.C91.C91_canonical_stiefel",
    "Geoopt.C91.C91_euclidean_stiefel",
    "Geoopt.C91.C91_euclidean_stiefel_exact",
    "Geoopt.C91.C91_spd",
    "Geoopt.C91.C91_batch",
    "Geoopt.C91.C91_counterexample_lorentz",
    "Geoopt.C91.C91_birkhoff",
    "Geoopt.C91.C91_counterexample_birkhoff",
    "Geoopt.C91.C91_product",
    "Geoopt.C91.C91_scaled",
    "Geoopt.C91.C91_counterexample_negative_scale"
   ],
   "note": "Proved for Euclidean, both spheres (with subspaces), both stereographic classes inside the ball (the exact one where its speed is positive, shown for hyperbolic), three Stiefel classes, SPD, batches, products of these and Scaled with a positive scale. Lorentz: false, counterexample (small steps are lengthened by the clamp of the norm). Negative scales, which the class accepts, increase the loss (counterexample). Birkhoff: proved with eps = 0 for entries above the clamp; with the default eps false (counterexample: a step of length zero scales the matrix)."
  },
  {
   "property": "C92",
   "status": "partial",
   "theorems": [
    "Geoopt.C92.C92_sphere",
    "Geoopt.C92.C92_ball",
    "Geoopt.C92.C92_upper_half",
    "Geoopt.C92.C92_bounded",
    "Geoopt.C92.C92_stiefel",
    "Geoopt.C92.C92_stiefel_only",
    "Geoopt.C92.C92_lorentz_partial",
    "Geoopt.C92.C92_counterexample_lorentz",
    "Geoopt.C92.C92_spd_partial",
    "Geoopt.C92.C92_counterexample_spd",
    "Geoopt.C92.C92_counterexample_birkhoff"
   ],
   "note": "Closest (and unique) for sphere, stereographic ball, Stiefel, upper half space, bounded domain. Not closest, with counterexamples, for Lorentz, SPD and Birkhoff; factors sqrt(2) and 2 proved for the first two."
  },
  {
   "property": "C93",
   "status": "proved",
   "theorems": [
    "Geoopt.C93.C93_stereographic_numbers",
    "Geoopt.C93.C93_stereographic_gyro",
    "Geoopt.C93.C93_stereographic_maps",
    "Geoopt.C93.C93_stereographic_midpoint",
    "Geoopt.C93.C93_sphere",
    "Geoopt.C93.C93_lorentz",
    "Geoopt.C93.C93_canonical_stiefel",
    "Geoopt.C93.C93_euclidean_stiefel",
    "Geoopt.C93.C93_stiefel_projx",
    "Geoopt.C93.C93_spd",
    "Geoopt.C93.C93_birkhoff",
    "Geoopt.C93.C93_birkhoff_proju"
   ],
   "note": "All operations of these classes that take points and vectors; the Siegel spaces are not in the statement."
  },
  {
   "property": "C94",
   "status": "partial",
   "theorems": [
    "Geoopt.C94.C94_sgd",
    "Geoopt.C94.C94_adam",
    "Geoopt.C94.C94_new",
    "Geoopt.C94.C94_gradients",
    "Geoopt.C94.C94_euclidean",
    "Geoopt.C94.C94_sphere",
    "Geoopt.C94.C94_sphere_exact",
    "Geoopt.C94.C94_stereographic",
    "Geoopt.C94.C94_stereographic_exact",
    "Geoopt.C94.C94_lorentz",
    "Geoopt.C94.C94_canonical_stiefel",
    "Geoopt.C94.C94_euclidean_stiefel_exact",
    "Geoopt.C94.C94_spd",
    "Geoopt.C94.C94_batch",
    "Geoopt.C94.C94_batch_inner",
    "Geoopt.C94.C94_counterexample_adam_euclidean",
    "Geoopt.C94.C94_euclidean_stiefel_frame",
    "Geoopt.C94.C94_euclidean_stiefel_sgd",
    "Geoopt.C94.C94_euclidean_stiefel_adam",
    "Geoopt.C94.C94_counterexample_euclidean_stiefel_momentum"
   ],
   "note": "RiemannianSGD and RiemannianAdam on the listed manifolds, by induction over the iterations; EuclideanStiefel (QR retraction) with RiemannianAdam and with RiemannianSGD without momentum; counterexamples for RiemannianAdam on Euclidean parameters (torch's Adam) and for momentum on EuclideanStiefel, for every QR routine."
  },
  {
   "property": "C95",
   "status": "partial",
   "theorems": [
    "Geoopt.C95.C95_trig",
    "Geoopt.C95.C95_gyro",
    "Geoopt.C95.C95_metric",
    "Geoopt.C95.C95_geodesic",
    "Geoopt.C95.C95_transport",
    "Geoopt.C95.C95_dist2plane_partial",
    "Geoopt.C95.C95_counterexample_clamp",
    "Geoopt.C95.C95_counterexample_taylor",
    "Geoopt.C95.C95_counterexample_keepdim",
    "Geoopt.C95.C95_projections"
   ],
   "note": "Holds for all vector valued functions and for numbers with keepdim=True except dist2plane. Counterexamples: dist2plane depends on the curvatures of the other rows (a clamp, and a shorter Taylor polynomial, used only when the signs are mixed); with keepdim=False a (B,1) tensor of curvatures turns B numbers into B x B. mobius_matvec is covered along the last dimension with one matrix (elsewhere see C40); weighted_midpoint, which mixes the batch, is not in the statement."
  },
  {
   "property": "C96",
   "status": "partial",
   "theorems": [
    "Geoopt.C96.C96_flat_limit",
    "Geoopt.C96.C96_positive_partial",
    "Geoopt.C96.C96_linear_partial",
    "Geoopt.C96.C96_counterexample_sign",
    "Geoopt.C96.C96_counterexample_derivative",
    "Geoopt.C96.C96_counterexample_negative",
    "Geoopt.C96.C96_roundtrip"
   ],
   "note": "Proved: the flat limit and the round trip log0(exp0 u) for both signs, second order accuracy for k >= 0, first order for all. Counterexamples: for every negative k the first order term has the wrong sign (abs_zero_grad takes |k|), so distances are smaller than flat and the derivative in k is positive; points with |k||x|^2 > 3 have negative distance from the origin."
  },
  {
   "property": "C97",
   "status": "partial",
   "theorems": [
    "Geoopt.C97.C97_sgd",
    "Geoopt.C97.C97_adam",
    "Geoopt.C97.C97_counterexample_grad",
    "Geoopt.C97.C97_expand_tile",
    "Geoopt.C97.C97_expand_same",
    "Geoopt.C97.C97_component_inner_partial"
   ],
   "note": "Proved for SGD and Adam on all runs (Adam: no stabilize=0). component_inner of the class is proved to tile per component, for non-empty tensors. Counterexample: with Nesterov the content left in .grad of a Euclidean factor differs between the two, the points do not."
  },
  {
   "property": "C98",
   "status": "partial",
   "theorems": [
    "Geoopt.C98.C98_sgd",
    "Geoopt.C98.C98_adam_partial",
    "Geoopt.C98.C98_counterexample_adam_euclidean",
    "Geoopt.C98.C98_counterexample_adam_product",
    "Geoopt.C98.C98_slope",
    "Geoopt.C98.C98_counterexample_gradient"
   ],
   "note": "Proved for SGD on every manifold and for Adam on manifolds with the default component_inner. Counterexamples: Adam on Scaled(Euclidean, 1) and on Scaled(ProductManifold, 1) differs from Adam on the base; inner(egrad2rgrad(g), u) is s times the slope along retr, wrong unless s = 1."
  },
  {
   "property": "C99",
   "status": "partial",
   "theorems": [
    "Geoopt.C99.C99_adam",
    "Geoopt.C99.C99_adam_unstabilized_partial",
    "Geoopt.C99.C99_first",
    "Geoopt.C99.C99_uniform",
    "Geoopt.C99.C99_default",
    "Geoopt.C99.C99_counterexample_betas",
    "Geoopt.C99.C99_counterexample_canonical_stiefel",
    "Geoopt.C99.C99_euclidean_contracting",
    "Geoopt.C99.C99_euclidean_proj",
    "Geoopt.C99.C99_sphere_contracting",
    "Geoopt.C99.C99_sphere_proj",
    "Geoopt.C99.C99_sphereExact_contracting",
    "Geoopt.C99.C99_sphereExact_proj",
    "Geoopt.C99.C99_ball_contracting",
    "Geoopt.C99.C99_ball_proj",
    "Geoopt.C99.C99_ballExact_contracting",
    "Geoopt.C99.C99_ballExact_proj",
    "Geoopt.C99.C99_stiefel_contracting",
    "Geoopt.C99.C99_euclideanStiefel_contracting",
    "Geoopt.C99.C99_euclideanStiefelExact_contracting",
    "Geoopt.C99.C99_spd_contracting",
    "Geoopt.C99.C99_batch_contracting",
    "Geoopt.C99.C99_batch_proj"
   ],
   "note": "Proved for the manifolds listed, and for CanonicalStiefel without stabilisation. False for CanonicalStiefel with stabilisation (proju doubles the momentum of square matrices: the steps grow without bound with the default betas), and the constant is not bounded in t when beta1^2 > beta2. Lorentz (transport is not exactly isometric near the base point) is not covered."
  },
  {
   "property": "C100",
   "status": "partial",
   "theorems": [
    "Geoopt.C100.C100_sgd_partial",
    "Geoopt.C100.C100_no_momentum",
    "Geoopt.C100.C100_euclidean",
    "Geoopt.C100.C100_counterexample_first_gradient"
   ],
   "note": "Proved without a further condition when momentum is 0 and for Euclidean parameters without weight decay. With momentum the code starts the buffer with the raw gradient, so a condition on the first gradient is needed (C100_sgd_partial); on the Poincare ball at 0.99 the first step is more than 1000 times longer than the bound."
  },
  {
   "property": "C101",
   "status": "partial",
   "theorems": [
    "Geoopt.SPD.C101_retr",
    "Geoopt.SPD.C101_expmap",
    "Geoopt.Sphere.C101_retr",
    "Geoopt.Sphere.C101_expmap",
    "Geoopt.Sphere.C101_counterexample_zero",
    "Geoopt.Stereo.C101_expmap",
    "Geoopt.Stereo.C101_counterexample_retr",
    "Geoopt.Lorentz.C101_expmap",
    "Geoopt.Lorentz.C101_counterexample_zero"
   ],
   "note": "Proved for expmap and retr of SymmetricPositiveDefinite, for expmap of the Poincare ball with and without projection, and for tangent vectors above the floors on the hyperboloid; on spheres up to the clamp of dist. False for retr of the Poincare ball (it always overshoots at the origin), and at u = 0 on the sphere and the hyperboloid."
  },
  {
   "property": "C102",
   "status": "partial",
   "theorems": [
    "Geoopt.C102.C102_adam",
    "Geoopt.C102.C102_linear",
    "Geoopt.C102.C102_default",
    "Geoopt.C102.C102_sgd_partial",
    "Geoopt.C102.C102_euclidean_distance",
    "Geoopt.C102.C102_spd_distance",
    "Geoopt.C102.C102_sphere_distance",
    "Geoopt.C102.C102_sphereExact_distance",
    "Geoopt.C102.C102_ballExact_distance",
    "Geoopt.C102.C102_spd",
    "Geoopt.C102.C102_ball_exact",
    "Geoopt.C102.C102_counterexample_ball"
   ],
   "note": "Proved for RiemannianAdam on the manifolds listed (spheres: in the unclamped angle; ball: in dist without the 1e-15 regulariser). For RiemannianSGD under the condition of C100 on the first gradient. False for PoincareBall, whose retr is not expmap (C102_counterexample_ball)."
  },
  {
   "property": "C103",
   "status": "proved",
   "theorems": [
    "Geoopt.C103.C103_sgd",
    "Geoopt.C103.C103_compact",
    "Geoopt.C103.C103_gradients",
    "Geoopt.C103.C103_steps",
    "Geoopt.C103.C103_loop",
    "Geoopt.C103.C103_critical",
    "Geoopt.C103.C103_sphere",
    "Geoopt.C103.C103_sphere_exact",
    "Geoopt.C103.C103_canonical_stiefel",
    "Geoopt.C103.C103_euclidean_stiefel",
    "Geoopt.C103.C103_euclidean_stiefel_exact",
    "Geoopt.C103.C103_poincare",
    "Geoopt.C103.C103_euclidean",
    "Geoopt.C103.C103_batch",
    "Geoopt.C103.C103_batch_steps"
   ],
   "note": "C103_compact (descent, no errors, on the manifold), C103_gradients, C103_steps, C103_critical for every manifold that is `Trainable`; instances for the manifolds listed; C103_loop shows that the training loop is such a history. For unbounded parameters C103_sgd with a Lipschitz gradient (C103_euclidean). Exact real arithmetic. Lorentz is excluded, its egrad2rgrad does not descend (C91)."
  },
  {
   "property": "C104",
   "status": "partial",
   "theorems": [
    "Geoopt.C104.C104_interface_partial",
    "Geoopt.C104.C104_keywords",
    "Geoopt.C104.C104_counterexample_lorentz_norm",
    "Geoopt.C104.C104_counterexample_scaled_lorentz",
    "Geoopt.C104.C104_counterexample_keywords"
   ],
   "note": "False for Lorentz.norm, which lacks the point: every norm(x, u) raises TypeError, also through Scaled (C104_counterexample_lorentz_norm, C104_counterexample_scaled_lorentz), and for keyword calls of ten operations that rename parameters (C104_counterexample_keywords). C104_interface_partial: every other call is accepted with the same values; C104_keywords: the renamed operations are exactly those listed."
  },
  {
   "property": "C105",
   "status": "partial",
   "theorems": [
    "Geoopt.C105.C105_euclidean",
    "Geoopt.C105.C105_canonical_stiefel",
    "Geoopt.Stereo.C105_poincare_exact_partial",
    "Geoopt.Stereo.C105_sphere_projection_exact_partial",
    "Geoopt.Stereo.C105_flat_exact",
    "Geoopt.Stereo.C105_counterexample_poincare_exact",
    "Geoopt.C105.C105_product",
    "Geoopt.C105.C105_scaled",
    "Geoopt.C105.C105_batch",
    "Geoopt.C105.C105_declared",
    "Geoopt.C105.C105_sphere_exact_not_reversible"
   ],
   "note": "Proved for Euclidean and CanonicalStiefel. For the exact stereographic classes proved, with the regulariser of the code, for steps between accepted points that are zero or not extremely short, and on the projected sphere away from the point opposite the origin. False near the boundary: in the ball no step from the origin that ends beyond the accepted points can be retraced, because retr projects (C105_counterexample_poincare_exact). SphereExact is shown to be rightly not declared."
  },
  {
   "property": "C106",
   "status": "partial",
   "theorems": [
    "Geoopt.SPD.C106_spd_congruence",
    "Geoopt.SPD.C106_spd_transp_congruence",
    "Geoopt.SPD.C106_spd",
    "Geoopt.SPD.C106_spd_velocity",
    "Geoopt.Lorentz.C106_lorentz_partial",
    "Geoopt.Lorentz.C106_lorentz_back",
    "Geoopt.Lorentz.C106_counterexample_lorentz",
    "Geoopt.Stereo.C106_poincare_partial",
    "Geoopt.Stereo.C106_counterexample_poincare",
    "Geoopt.Stereo.C106_counterexample_poincare_legs",
    "Geoopt.Stereo.C106_flat",
    "Geoopt.Sphere.C106_sphere_shortened",
    "Geoopt.Sphere.C106_counterexample_sphere",
    "Geoopt.Stiefel.C106_canonical_stiefel_legs",
    "Geoopt.Stiefel.C106_counterexample_canonical_stiefel",
    "Geoopt.Stereo.C106_projected_sphere_partial",
    "Geoopt.Stereo.C106_counterexample_projected_sphere"
   ],
   "note": "Proved for SPD matrices without restriction, for both points and velocities, together with equivariance of expmap and transp under congruence. Proved on the hyperboloid when neither a leg nor the whole way is shorter than the floor 1e-4 of the norm (there and back again is exact, but expmap(x, 0) is not x: C106_counterexample_lorentz). Proved in the Poincare ball without the curvature regulariser; with it two legs from the origin always lead strictly further than one (C106_counterexample_poincare). False on the sphere, whose transport shortens the velocity by cos(s|u|) (exact formula C106_sphere_shortened), and for the canonical Stiefel manifold, whose expmap is a Cayley transform. On projected spheres (k > 0) proved without the regulariser as long as no leg reaches half way round and no floor acts; with it two legs from the origin always stay strictly behind one (C106_counterexample_projected_sphere). Not covered: Siegel domains (no expmap)."
  },
  {
   "property": "C107",
   "status": "partial",
   "theorems": [
    "Geoopt.Origin.C107_euclidean",
    "Geoopt.Origin.C107_stiefel",
    "Geoopt.Origin.C107_lorentz",
    "Geoopt.Origin.C107_stereographic",
    "Geoopt.Origin.C107_bounded",
    "Geoopt.Origin.C107_sphere",
    "Geoopt.Origin.C107_birkhoff_partial",
    "Geoopt.Origin.C107_counterexample_birkhoff",
    "Geoopt.Origin.C107_spd_partial",
    "Geoopt.Origin.C107_counterexample_spd_tuple",
    "Geoopt.Origin.C107_counterexample_spd_shape",
    "Geoopt.Origin.C107_upper_partial",
    "Geoopt.Origin.C107_counterexample_upper",
    "Geoopt.Origin.C107_counterexample_bounded",
    "Geoopt.Origin.C107_product",
    "Geoopt.Origin.C107_counterexample_product"
   ],
   "note": "Proved for Euclidean, Stiefel, Lorentz, stereographic, sphere (no subspace) and the bounded domain, in all three spellings, and for products whose components accept a tuple. False for SPD matrices (a tuple or list is refused, a non-square size gives another shape, hence products with an SPD component have no origin at all), for UpperHalf (only origin(n, n) works) and for batches of Birkhoff origins (all slices share one storage, so writing one writes all and an optimiser's copy_ raises)."
  },
  {
   "property": "C108",
   "status": "partial",
   "theorems": [
    "Geoopt.Stereo.C108_stereographic_numbers",
    "Geoopt.Stereo.C108_ball_offFloors",
    "Geoopt.Stereo.C108_poincare",
    "Geoopt.Stereo.C108_counterexample_projected",
    "Geoopt.Lorentz.C108_lorentz",
    "Geoopt.Lorentz.C108_lorentz_projected_partial",
    "Geoopt.Lorentz.C108_counterexample_lorentz",
    "Geoopt.SPD.C108_spd"
   ],
   "note": "Poincare ball: exact for all points that the library accepts in single precision (the derivative of the translation is computed and all operations commute with it), vectors zero or above the norm floor 1e-15; any curvature: exact wherever no denominator is at its floor 1e-15. Lorentz: exact for all Lorentz transformations without projection; with the default projection exact above the norm floor, and false below it (counterexample: expmap of the zero vector). SPD: exact for the affine invariant geometry and the Stein divergence. False for the method mobius_add with its default projection, which is not injective near the boundary."
  },
  {
   "property": "C109",
   "status": "partial",
   "theorems": [
    "Geoopt.C109.C109_sgd",
    "Geoopt.C109.C109_adam",
    "Geoopt.C109.C109_gradients",
    "Geoopt.C109.C109_spd_frame",
    "Geoopt.C109.C109_spd_sgd",
    "Geoopt.C109.C109_spd_adam",
    "Geoopt.C109.C109_counterexample_momentum",
    "Geoopt.C109.C109_counterexample_weight_decay",
    "Geoopt.C109.C109_lorentz_partial"
   ],
   "note": "SPD: proved for all runs of RiemannianSGD without momentum and of RiemannianAdam, without weight decay. False with momentum of RiemannianSGD, whose first buffer is the Euclidean gradient and not the Riemannian one, and false with weight decay (counterexamples after one iteration). Lorentz: RiemannianSGD on one parameter while the steps are above the norm floor; below it false by C108."
  },
  {
   "property": "C110",
   "status": "proved",
   "theorems": [
    "Geoopt.C110.C110_sgd",
    "Geoopt.C110.C110_adam",
    "Geoopt.C110.C110_birkhoff_sgd",
    "Geoopt.C110.C110_birkhoff_adam",
    "Geoopt.C110.C110_counterexample_row_sums"
   ],
   "note": "The bound from above holds for all histories. Row sums can become small: C110_counterexample_row_sums, first momentum step with the default arguments. Overflow and underflow of floating point are not modelled."
  },
  {
   "property": "C111",
   "status": "partial",
   "theorems": [
    "Geoopt.Stereo.C111_nonpos",
    "Geoopt.Stereo.C111_nonneg_weights",
    "Geoopt.Stereo.C111_counterexample_sphere"
   ],
   "note": "Proved for k <= 0. False for k > 0: the conformal factors are those of the original points, computed before the antipodes are taken; for one point of norm 1/2 with weight -1 on the unit sphere the result is 0.9 away from the antipode (C111_counterexample_sphere)."
  },
  {
   "property": "C112",
   "status": "partial",
   "theorems": [
    "Geoopt.Sphere.C112_sphere",
    "Geoopt.Sphere.C112_sphere_one_step",
    "Geoopt.Sphere.C112_counterexample_sphere",
    "Geoopt.Lorentz.C112_lorentz",
    "Geoopt.Lorentz.C112_lorentz_one_step",
    "Geoopt.Stereo.C112_stereographic",
    "Geoopt.Stereo.C112_ball",
    "Geoopt.Stereo.C112_ball_one_step",
    "Geoopt.Stereo.C112_counterexample_ball",
    "Geoopt.SPD.C112_spd",
    "Geoopt.SPD.C112_spd_one_step"
   ],
   "note": "Proved without restriction for SPD matrices with the affine invariant metric; for the sphere, the hyperboloid and the stereographic model where no clamp is active (for the latter up to a factor within 1e7*eta/|k| of 1 coming from the regulariser eta=1e-15, exactly 1 for eta=0). False where a clamp is active: the gradient is then zero for different points (C112_counterexample_sphere, C112_counterexample_ball)."
  },
  {
   "property": "C113",
   "status": "partial",
   "theorems": [
    "Geoopt.Sphere.C113_sphere_exact_step",
    "Geoopt.Sphere.C113_sphere_exact",
    "Geoopt.Sphere.C113_sphere_step",
    "Geoopt.Sphere.C113_sphere",
    "Geoopt.Lorentz.C113_lorentz_step",
    "Geoopt.Lorentz.C113_lorentz",
    "Geoopt.Stereo.C113_ball_exact_step",
    "Geoopt.Stereo.C113_ball_exact",
    "Geoopt.Stereo.C113_counterexample_ball",
    "Geoopt.SPD.C113_spd_step",
    "Geoopt.SPD.C113_spd",
    "Geoopt.SPD.C113_spd_exists",
    "Geoopt.SPD.C113_counterexample_spd"
   ],
   "note": "Proved for SphereExact (rate |1-2*lr|), Sphere (rate 1-a/21 for lr in [a,1-a]), the hyperboloid (rate |1-2*lr| until within 1e-4 or so of the target, where the floors of the code begin) and SPD matrices with the affine invariant metric (rate 1-a when a<=lr<=1/2 and 2*lr*dist(start,target)<=1). False for SPD matrices in general: the default second order retraction overshoots when the target is far below the parameter, and training then diverges for every learning rate schedule bounded below (C113_counterexample_spd). PoincareBallExact: rate |1-2*lr| (up to 2e7*lr*eta/|k| from the regulariser eta=1e-15) until the distance is about 2e-10/lr, from any start within the clamp of artanh; false for PoincareBall, whose retraction overshoots (C113_counterexample_ball)."
  },
  {
   "property": "C114",
   "status": "partial",
   "theorems": [
    "Geoopt.Sphere.C114_sphere_closest",
    "Geoopt.Sphere.C114_sphere_linear",
    "Geoopt.Sphere.C114_sphere_keeps",
    "Geoopt.Sphere.C114_sphere_sq",
    "Geoopt.Sphere.C114_sphere_length",
    "Geoopt.Sphere.C114_sphere_geodesic",
    "Geoopt.Sphere.C114_counterexample_sphere",
    "Geoopt.Stiefel.C114_stiefel_closest",
    "Geoopt.Stiefel.C114_stiefel_linear",
    "Geoopt.Stiefel.C114_stiefel_keeps",
    "Geoopt.Stiefel.C114_stiefel_length",
    "Geoopt.Birkhoff.C114_counterexample_birkhoff"
   ],
   "note": "Proved for the sphere and EuclideanStiefel. False for the Birkhoff polytope, whose proju is not a projection: transport from J/2 to itself halves a tangent vector (C114_counterexample_birkhoff). C114_counterexample_sphere shows that transport on the sphere is not an isometry, as the length bound says."
  },
  {
   "property": "C115",
   "status": "proved",
   "theorems": [
    "C115_armijo",
    "C115_wolfe",
    "C115_wolfe_steepest",
    "C115_smooth_euclidean",
    "C115_euclidean",
    "C115_smooth_sphere",
    "C115_sphere"
   ],
   "note": "The search loops of SciPy are outside of the code and enter by the same contracts as in C76 and C86. Steps whose search fails contribute nothing to the sums; the limit assumes that all searches succeed."
  },
  {
   "property": "C116",
   "status": "partial",
   "theorems": [
    "Geoopt.C116.C116_sgd",
    "Geoopt.C116.C116_adam_partial",
    "Geoopt.C116.C116_sparse_sgd",
    "Geoopt.C116.C116_sparse_adam",
    "Geoopt.C116.C116_counterexample_adam",
    "Geoopt.C116.C116_counterexample_error"
   ],
   "note": "RiemannianAdam decides by the step counters of the individual parameters but stabilises the whole group, so a parameter with fewer gradients is stabilised or not depending on its group (C116_counterexample_adam). A step that raises has updated the parameters before the offending one (C116_counterexample_error)."
  },
  {
   "property": "C117",
   "status": "proved",
   "theorems": [
    "Geoopt.C117.C117_euclidean",
    "Geoopt.C117.C117_sphere",
    "Geoopt.C117.C117_sphere_exact",
    "Geoopt.C117.C117_stereographic",
    "Geoopt.C117.C117_stereographic_exact",
    "Geoopt.C117.C117_lorentz",
    "Geoopt.C117.C117_canonical_stiefel",
    "Geoopt.C117.C117_euclidean_stiefel",
    "Geoopt.C117.C117_euclidean_stiefel_exact",
    "Geoopt.C117.C117_spd",
    "Geoopt.C117.C117_batch",
    "Geoopt.C117.C117_product",
    "Geoopt.C117.C117_sgd",
    "Geoopt.C117.C117_adam"
   ],
   "note": "The Birkhoff polytope is left out: away from the polytope (where training takes it, because the iteration of projx stops early) its egrad2rgrad is not linear."
  },
  {
   "property": "C118",
   "status": "proved",
   "theorems": [
    "Geoopt.C118.C118_sgd",
    "Geoopt.C118.C118_adam",
    "Geoopt.C118.C118_sgd_always",
    "Geoopt.C118.C118_adam_always",
    "Geoopt.C118.C118_sgd_no_momentum",
    "Geoopt.C118.C118_adam_geometry",
    "Geoopt.C118.C118_sphere",
    "Geoopt.C118.C118_sphere_exact",
    "Geoopt.C118.C118_stiefel",
    "Geoopt.C118.C118_euclidean_stiefel",
    "Geoopt.C118.C118_stiefel_exact",
    "Geoopt.C118.C118_batch"
   ],
   "note": "linalg.qr enters by the contract of a QR decomposition, projx by the contract that it keeps the manifold."
  },
  {
   "property": "C119",
   "status": "partial",
   "theorems": [
    "C119_counterexample_normal",
    "C119_flat_partial",
    "C119_volume"
   ],
   "note": "False: for the standard normal distribution on the line with epsilon=1 and one leapfrog step the distribution changes (C119_counterexample_normal), because the first momentum update is a full step (C66). Proved: the trajectory preserves phase space volume for every log-probability with measurable gradient (C119_volume), and the target distribution is kept for constant log-probabilities (C119_flat_partial)."
  },
  {
   "property": "C120",
   "status": "proved",
   "theorems": [
    "C120_law",
    "C120_limit",
    "C120_step"
   ],
   "note": "Laws of single entries (the joint law is not stated). Exact real arithmetic."
  },
  {
   "property": "C121",
   "status": "partial",
   "theorems": [
    "C121_euclidean_partial",
    "C121_stereographic",
    "C121_counterexample_ball",
    "C121_stiefel",
    "C121_counterexample_stiefel"
   ],
   "note": "Proved for Euclidean parameters. False elsewhere, because egrad2rgrad applies the inverse of the metric and not its square root: dimension/lambda_x^2 in the stereographic models (C121_stereographic), so a quarter at the origin of the Poincare ball and arbitrarily little near its boundary; n*m-m instead of n*m-m*(m+1)/2 on the canonical Stiefel manifold."
  },
  {
   "property": "C122",
   "status": "partial",
   "theorems": [
    "Geoopt.C122.C122_sgd_partial",
    "Geoopt.C122.C122_adam_partial",
    "Geoopt.C122.C122_euclidean",
    "Geoopt.C122.C122_sphere",
    "Geoopt.C122.C122_sphere_exact",
    "Geoopt.C122.C122_stereographic",
    "Geoopt.C122.C122_stereographic_exact",
    "Geoopt.C122.C122_canonical_stiefel",
    "Geoopt.C122.C122_euclidean_stiefel",
    "Geoopt.C122.C122_euclidean_stiefel_exact",
    "Geoopt.C122.C122_spd",
    "Geoopt.C122.C122_batch",
    "Geoopt.C122.C122_product",
    "Geoopt.C122.C122_scaled",
    "Geoopt.C122.C122_lorentz_drift",
    "Geoopt.C122.C122_counterexample_lorentz",
    "Geoopt.C122.C122_counterexample_birkhoff"
   ],
   "note": "Proved for Euclidean parameters, spheres, stereographic models of all curvatures (points that projx leaves alone), canonical and Euclidean Stiefel, SPD matrices, and batches, products and rescalings of these. False on Lorentz: every step with lr=0 multiplies the spatial part by cosh(1e-4/sqrt(k)), so that the parameter runs away beyond all bounds (C122_lorentz_drift, C122_counterexample_lorentz); false on the Birkhoff polytope, where every step scales the matrices (C122_counterexample_birkhoff)."
  },
  {
   "property": "C123",
   "status": "partial",
   "theorems": [
    "Geoopt.Stereo.C123_central",
    "Geoopt.Stereo.C123_spread_partial",
    "Geoopt.Stereo.C123_minimises_partial",
    "Geoopt.Stereo.C123_nearly",
    "Geoopt.Stereo.C123_counterexample",
    "Geoopt.Stereo.C123_flat"
   ],
   "note": "Proved as an exact identity for the sum with one additional point, the origin with weight 1e-10 (this is what clamp_abs in the code amounts to), so that the midpoint is the unique minimiser of that sum and minimises the stated sum up to 1e-10*sinh^2(sqrt|k| dist(mu,0)/2) (C123_nearly). To the letter it is false: the midpoint of a single point is not that point (C123_counterexample). Without the curvature regulariser eta; weights whose weighted sum of points is shorter than 1e-15 but not zero, and k > 0, are not covered."
  },
  {
   "property": "C124",
   "status": "partial",
   "theorems": [
    "Geoopt.C124.C124_sgd_partial",
    "Geoopt.C124.C124_adam_partial",
    "Geoopt.C124.C124_counterexample",
    "Geoopt.C124.C124_linesearch_refines",
    "Geoopt.C124.C124_linesearch_partial",
    "Geoopt.C124.C124_linesearch_stuck",
    "Geoopt.C124.C124_counterexample_linesearch"
   ],
   "note": "False, with witnesses: parameters before the offending one have moved and move again when the step is repeated (C124_counterexample); a closure that raises during a line search leaves the parameters at the trial point, and with Armijo every further step without recompute_gradients=True raises KeyError (C124_counterexample_linesearch). Proved: exactly what is left behind. RiemannianSGD and RiemannianAdam: the result of a successful step of the optimiser cut off before the offending parameter, all others untouched. Line search: nothing changed if the first evaluation raises, else the trial point along the search direction of the starting point (or of the final point, in the evaluation after the move). The closure of the first two optimisers runs before anything is changed and is not modelled."
  },
  {
   "property": "C125",
   "status": "partial",
   "theorems": [
    "C125_law",
    "C125_many_calls",
    "C125_bias",
    "C125_counterexample",
    "C125_many_rounds",
    "C125_small_steps",
    "C125_unbounded"
   ],
   "note": "Proved: no call raises and the law after t calls is normal with the stated mean and variance (C125_law), with their limits for many calls (C125_many_calls). The claim on the variance is false (C125_counterexample): the velocities are drawn anew at every call with standard deviation epsilon, so with the default n_steps=1 the variance tends to alpha*s as epsilon tends to 0, and for every fixed n_steps it is too small (C125_bias gives the exact factor). It holds in the limit of many rounds per call if epsilon < alpha*s (C125_many_rounds, C125_small_steps); for epsilon >= alpha*s the variance is unbounded in the number of rounds (C125_unbounded)."
  },
  {
   "property": "C126",
   "status": "partial",
   "theorems": [
    "Geoopt.C126.C126_sphere_exact",
    "Geoopt.C126.C126_sphere_near",
    "Geoopt.C126.C126_sphere_subspace_near",
    "Geoopt.C126.C126_sphere_tangent_exact",
    "Geoopt.C126.C126_sphere_tangent_near",
    "Geoopt.C126.C126_sphere_tangent_accepts",
    "Geoopt.C126.C126_stiefel_exact",
    "Geoopt.C126.C126_stiefel_near",
    "Geoopt.C126.C126_stiefel_tangent_near",
    "Geoopt.C126.C126_spd_exact",
    "Geoopt.C126.C126_spd_near",
    "Geoopt.C126.C126_spd_tangent_near",
    "Geoopt.C126.C126_spd_tangent_accepts",
    "Geoopt.C126.C126_lorentz_exact",
    "Geoopt.C126.C126_lorentz_near",
    "Geoopt.C126.C126_lorentz_tangent_near",
    "Geoopt.C126.C126_lorentz_tangent_accepts",
    "Geoopt.C126.C126_stereographic_exact",
    "Geoopt.C126.C126_stereographic_near",
    "Geoopt.C126.C126_birkhoff_exact",
    "Geoopt.C126.C126_birkhoff_near",
    "Geoopt.C126.C126_birkhoff_tangent_near",
    "Geoopt.C126.C126_siegel_exact",
    "Geoopt.C126.C126_upper_near",
    "Geoopt.C126.C126_siegel_tangent_near",
    "Geoopt.C126.C126_siegel_tangent_accepts",
    "Geoopt.C126.C126_bounded_origin",
    "Geoopt.C126.C126_counterexample"
   ],
   "note": "False in three places (C126_counterexample): with tolerances zero the Birkhoff polytope accepts matrices with negative entries, the Lorentz model accepts the lower sheet, and the tangent check of a sphere in a subspace accepts vectors outside the subspace; all three as far away as one likes. Proved: exactness at tolerances zero and closeness with explicit constants everywhere else, under positivity of the entries (Birkhoff), non-negative first coordinate (Lorentz) and without subspace (tangent vectors of the sphere). The ball accepts exactly the points projx leaves alone. Not proved: closeness for the bounded Siegel domain with positive tolerances and asymmetric matrices."
  },
  {
   "property": "C127",
   "status": "proved",
   "theorems": [
    "Geoopt.C127.C127_funcm",
    "Geoopt.C127.C127_polynomial",
    "Geoopt.C127.C127_laws",
    "Geoopt.C127.C127_exp_log",
    "Geoopt.C127.C127_sqrt",
    "Geoopt.C127.C127_inv_sqrt",
    "Geoopt.C127.C127_trace",
    "Geoopt.C127.C127_asymmetric"
   ],
   "note": "C127_asymmetric records what happens on other matrices: only the upper triangle is read, except by sym_expm."
  },
  {
   "property": "C128",
   "status": "partial",
   "theorems": [
    "Geoopt.C128.C128_sgd_accepts",
    "Geoopt.C128.C128_sparse_adam_accepts",
    "Geoopt.C128.C128_new",
    "Geoopt.C128.C128_disjoint",
    "Geoopt.C128.C128_add",
    "Geoopt.C128.C128_reuse",
    "Geoopt.C128.C128_step_counts",
    "Geoopt.C128.C128_shared_counter",
    "Geoopt.C128.C128_counterexample_group_option",
    "Geoopt.C128.C128_counterexample_shared_period",
    "Geoopt.C128.C128_linesearch_searched",
    "Geoopt.C128.C128_linesearch_added",
    "Geoopt.C128.C128_linesearch_added_step",
    "Geoopt.C128.C128_counterexample_linesearch",
    "Geoopt.C128.C128_sampler_new",
    "Geoopt.C128.C128_counterexample_sampler"
   ],
   "note": "Proved: which options are accepted, how groups are filled in, that no parameter is in two groups after any history. False: options inside a group are unchecked; optimisers that share dictionaries share options and step counters; a group added to a line search is never searched and makes step raise KeyError after the move; a sampler does not check groups added later."
  },
  {
   "property": "C129",
   "status": "partial",
   "theorems": [
    "Geoopt.C129.C129_stereographic",
    "Geoopt.C129.C129_stereographic_exp",
    "Geoopt.C129.C129_stereographic_sphere",
    "Geoopt.C129.C129_dist2plane",
    "Geoopt.C129.C129_sphere",
    "Geoopt.C129.C129_lorentz",
    "Geoopt.C129.C129_counterexample_sphere",
    "Geoopt.C129.C129_counterexample_pointwise",
    "Geoopt.C129.C129_funcm",
    "Geoopt.C129.C129_funcm_pos",
    "Geoopt.C129.C129_spd",
    "Geoopt.C129.C129_stiefel_canonical",
    "Geoopt.C129.C129_stiefel_euclidean",
    "Geoopt.C129.C129_stiefel_projx",
    "Geoopt.C129.C129_midpoint",
    "Geoopt.C129.C129_upper_projx",
    "Geoopt.C129.C129_bounded_projx",
    "Geoopt.C129.C129_siegel_proju",
    "Geoopt.C129.C129_siegel_inner",
    "Geoopt.C129.C129_cayley",
    "Geoopt.C129.C129_eigenvalues",
    "Geoopt.C129.C129_takagi",
    "Geoopt.C129.C129_siegel_dist"
   ],
   "note": "Proved for the operations named in the theorems, with the exact domains. False: Sphere.expmap jumps at |u| = EPS (it changes from the exponential map to the retraction), and mobius_pointwise_mul jumps (it returns 0 when all products are at most 1e-8). The Siegel spaces (C129Siegel): projx, retr, proju, gradients, inner, the Cayley transforms, and (C129SiegelDist) eigenvalues and the distances with every metric. Weighted midpoints (C129Midpoint): curvature at most zero and weights that are not negative. Not included: weighted midpoints otherwise and the Birkhoff polytope (Sinkhorn iterations stop early)."
  },
  {
   "property": "C130",
   "status": "proved",
   "theorems": [
    "Geoopt.C130.C130_sphere",
    "Geoopt.C130.C130_sphere_subspace",
    "Geoopt.C130.C130_sphere_intersection",
    "Geoopt.C130.C130_sphere_complement",
    "Geoopt.C130.C130_stereographic",
    "Geoopt.C130.C130_stereographic_wrapped",
    "Geoopt.C130.C130_lorentz",
    "Geoopt.C130.C130_spd",
    "Geoopt.C130.C130_upper",
    "Geoopt.C130.C130_bounded",
    "Geoopt.C130.C130_birkhoff"
   ],
   "note": "Stiefel.random_naive is documented not to be uniform and is not included."
  },
  {
   "property": "C131",
   "status": "partial",
   "theorems": [
    "Geoopt.C131.C131_rules",
    "Geoopt.C131.C131_stereographic",
    "Geoopt.C131.C131_stereographic_dist",
    "Geoopt.C131.C131_stereographic_exp",
    "Geoopt.C131.C131_stereographic_geodesic",
    "Geoopt.C131.C131_stereographic_matvec",
    "Geoopt.C131.C131_dist2plane",
    "Geoopt.C131.C131_midpoint",
    "Geoopt.C131.C131_sproj",
    "Geoopt.C131.C131_counterexample_expmap",
    "Geoopt.C131.C131_counterexample_dist2plane",
    "Geoopt.C131.C131_sphere",
    "Geoopt.C131.C131_sphere_exp_partial",
    "Geoopt.C131.C131_sphere_tangent",
    "Geoopt.C131.C131_counterexample_sphere",
    "Geoopt.C131.C131_lorentz",
    "Geoopt.C131.C131_lorentz_points",
    "Geoopt.C131.C131_lorentz_of_ball",
    "Geoopt.C131.C131_spd",
    "Geoopt.C131.C131_spd_eigen_partial",
    "Geoopt.C131.C131_counterexample_spd",
    "Geoopt.C131.C131_birkhoff_proj",
    "Geoopt.C131.C131_birkhoff",
    "Geoopt.C131.C131_counterexample_birkhoff",
    "Geoopt.C131.C131_stiefel",
    "Geoopt.C131.C131_stiefel_proj_partial",
    "Geoopt.C131.C131_counterexample_stiefel"
   ],
   "note": "Counterexamples: Sphere.expmap at the zero vector; exponentials and hyperplane distances of positive curvature at the edge; SPD operations at repeated eigenvalues (for example dist(x, x)). Real numbers, so no overflow. Not included: Siegel operations and the QR retraction of the Stiefel manifold (see C135); on the polytope and for the Cayley retraction and the projection of the Stiefel manifold see C131Matrix."
  },
  {
   "property": "C132",
   "status": "partial",
   "theorems": [
    "Geoopt.C132.C132_sphere_angle",
    "Geoopt.C132.C132_sphere",
    "Geoopt.C132.C132_spd",
    "Geoopt.C132.C132_stereographic_origin",
    "Geoopt.C132.C132_counterexample_stereographic"
   ],
   "note": "Counterexample: the Poincar\u00e9 ball at a point that is not the origin. Stiefel is not included."
  },
  {
   "property": "C133",
   "status": "proved",
   "theorems": [
    "Geoopt.C133.C133_lorentz",
    "Geoopt.C133.C133_sphere",
    "Geoopt.C133.C133_ball",
    "Geoopt.C133.C133_projected_sphere"
   ],
   "note": "For positive curvature with the hypotheses that no divisor of a M\u00f6bius addition is below its floor 1e-15 (no antipodal points, no point at infinity)."
  },
  {
   "property": "C134",
   "status": "proved",
   "theorems": [
    "Geoopt.C134.C134_lorentz",
    "Geoopt.C134.C134_lorentz_log",
    "Geoopt.C134.C134_lorentz_midpoint",
    "Geoopt.C134.C134_sphere"
   ],
   "note": "Stereographic models and positive definite matrices are not included."
  },
  {
   "property": "C135",
   "status": "partial",
   "theorems": [
    "Geoopt.C135.C135_partial",
    "Geoopt.C135.C135_counterexample_stiefel",
    "Geoopt.C135.C135_counterexample_lorentz"
   ],
   "note": "Counterexamples: EuclideanStiefel.retr makes backward() raise whatever comes before or after; Lorentz egrad2rgrad changes the gradient it is given. Which tensors torch's derivative formulas keep is part of the trusted contract, listed in Model/Tape."
  },
  {
   "property": "C136",
   "status": "partial",
   "theorems": [
    "Geoopt.C136.C136_everywhere",
    "Geoopt.C136.C136_sphere",
    "Geoopt.C136.C136_sphere_exact",
    "Geoopt.C136.C136_ball",
    "Geoopt.C136.C136_ball_exact",
    "Geoopt.C136.C136_stiefel",
    "Geoopt.C136.C136_euclidean_stiefel",
    "Geoopt.C136.C136_euclidean_stiefel_exact",
    "Geoopt.C136.C136_spd",
    "Geoopt.C136.C136_lorentz",
    "Geoopt.C136.C136_batch",
    "Geoopt.C136.C136_sgd_partial",
    "Geoopt.C136.C136_sgd_no_momentum_partial",
    "Geoopt.C136.C136_adam",
    "Geoopt.C136.C136_counterexample_momentum",
    "Geoopt.C136.C136_birkhoff",
    "Geoopt.C136.C136_linesearch",
    "Geoopt.C136.C136_product",
    "Geoopt.C136.C136_scaled",
    "Geoopt.C136.C136_rhmc",
    "Geoopt.C136.C136_rsgld",
    "Geoopt.C136.C136_counterexample_sgrhmc",
    "Geoopt.Siegel.C136_upper_half",
    "Geoopt.Siegel.C136_bounded_partial",
    "Geoopt.Siegel.C136_counterexample_bounded"
   ],
   "note": "Counterexamples: RiemannianSGD with momentum on the circle, first step; SGRHMC on CanonicalStiefel; egrad2rgrad of the bounded Siegel domain. The line search theorem needs a method that returns only step sizes it has tried."
  },
  {
   "property": "C137",
   "status": "partial",
   "theorems": [
    "Geoopt.C137.C137_sgd",
    "Geoopt.C137.C137_adam",
    "Geoopt.C137.C137_counterexample_birkhoff",
    "Geoopt.C137.C137_rhmc",
    "Geoopt.C137.C137_rsgld",
    "Geoopt.C137.C137_sgrhmc"
   ],
   "note": "C137_sgd and C137_adam for every manifold that acts element by element (Adam: no stabilize=0, stacks not empty); C137_rhmc (exceptions included), C137_rsgld and C137_sgrhmc (a step that does not raise). Counterexample on the Birkhoff polytope."
  },
  {
   "property": "C138",
   "status": "proved",
   "theorems": [
    "Geoopt.C138.C138_on_sphere",
    "Geoopt.C138.C138_dist",
    "Geoopt.C138.C138_tangent",
    "Geoopt.C138.C138_exp_exact",
    "Geoopt.C138.C138_exp",
    "Geoopt.C138.C138_on_hyperboloid",
    "Geoopt.C138.C138_lorentz_dist",
    "Geoopt.C138.C138_lorentz_tangent",
    "Geoopt.C138.C138_lorentz_exp_exact",
    "Geoopt.C138.C138_lorentz_exp",
    "Geoopt.C138.C138_log",
    "Geoopt.C138.C138_lorentz_log",
    "Geoopt.C138.C138_lorentz_transp",
    "Geoopt.C138.C138_transp"
   ],
   "note": "All with the regulariser eta = 1e-15 of the code, and with bounds for its effect: C138_on_sphere, C138_tangent, C138_dist, C138_exp, C138_log; C138_on_hyperboloid, C138_lorentz_tangent, C138_lorentz_dist, C138_lorentz_exp, C138_lorentz_log; C138_transp and C138_lorentz_transp (exact; Sphere.transp projects, so C138_transp compares with the rotation formula). C138_exp_exact and C138_lorentz_exp_exact: equality for eta = 0."
  },
  {
   "property": "C139",
   "status": "proved",
   "theorems": [
    "Geoopt.Scaling.C139_others",
    "Geoopt.Scaling.C139_new",
    "Geoopt.Scaling.C139_history",
    "Geoopt.Scaling.C139_declare",
    "Geoopt.Scaling.C139_shared"
   ],
   "note": "C139_new, C139_others, C139_history, C139_declare. C139_shared: in the library a rule declared through Sphere reaches Manifold, the Stiefel manifolds and all others without a copy. library_runs ties the tables of C45-C48 to the class statements."
  }
 ]
}