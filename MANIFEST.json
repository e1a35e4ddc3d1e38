{
 "claims": [
  {
   "property": "C01",
   "status": "proved",
   "theorems": [
    "Krypy.Ops.C01_denotation",
    "Krypy.Ops.C01_star",
    "Krypy.Ops.C01_get_linearoperator",
    "Krypy.Ops.C01_negative_power_counterexample",
    "Krypy.Ops.C01_identity_scalar_counterexample"
   ],
   "note": "Arrays with at least one column (zero columns: C03). Findings: negative powers act as the identity, Identity*scalar returns the scalar, both proved."
  },
  {
   "property": "C02",
   "status": "proved",
   "theorems": [
    "Krypy.Ops.C02_adjoint",
    "Krypy.Ops.C02_product"
   ],
   "note": ""
  },
  {
   "property": "C03",
   "status": "proved",
   "theorems": [
    "Krypy.Ops.C03_shapes",
    "Krypy.Ops.C03_rejects",
    "Krypy.Ops.C03_empty_counterexample",
    "Krypy.Ops.C03_zero_counterexample",
    "Krypy.Ops.C03_timed_counterexample",
    "Krypy.Ops.C03_identity_counterexample",
    "Krypy.Ops.C03_star_counterexample"
   ],
   "note": "The five exceptional situations are proved as negations of the unrestricted claim."
  },
  {
   "property": "C04",
   "status": "proved",
   "theorems": [
    "Krypy.C04_membership_disjoint",
    "Krypy.C04_add_total",
    "Krypy.C04_built_total"
   ],
   "note": ""
  },
  {
   "property": "C05",
   "status": "proved",
   "theorems": [
    "Krypy.C05_order_independent",
    "Krypy.C05_endpoints"
   ],
   "note": ""
  },
  {
   "property": "C06",
   "status": "proved",
   "theorems": [
    "Krypy.C06_min",
    "Krypy.C06_max",
    "Krypy.C06_min_pos",
    "Krypy.C06_max_neg",
    "Krypy.C06_max_abs",
    "Krypy.C06_min_abs",
    "Krypy.C06_empty_returns_error_object"
   ],
   "note": "Proved for non-empty collections; for an empty collection the code returns an exception object (negation proved)."
  },
  {
   "property": "C07",
   "status": "proved",
   "theorems": [
    "Krypy.C07_and",
    "Krypy.C07_or",
    "Krypy.C07_make",
    "Krypy.C07_contains",
    "Krypy.C07_distance"
   ],
   "note": ""
  },
  {
   "property": "C08",
   "status": "proved",
   "theorems": [
    "Krypy.C08_individual",
    "Krypy.C08_interval",
    "Krypy.C08_other_mode"
   ],
   "note": "Both documented modes proved; an unknown mode silently returns None (negation proved)."
  },
  {
   "property": "C09",
   "status": "proved",
   "theorems": [
    "Krypy.C09_maps",
    "Krypy.C09_unitary",
    "Krypy.C09_matrix"
   ],
   "note": ""
  },
  {
   "property": "C10",
   "status": "proved",
   "theorems": [
    "Krypy.C10_annihilates",
    "Krypy.C10_unitary",
    "Krypy.C10_real"
   ],
   "note": "With the reference BLAS rotg algorithms."
  },
  {
   "property": "C11",
   "status": "proved",
   "theorems": [
    "Krypy.C11_qr",
    "Krypy.C11_rank_deficient",
    "Krypy.C11_reorthos",
    "Krypy.C11_distance",
    "Krypy.C11_own_qr",
    "Krypy.C11_threshold_counterexample"
   ],
   "note": ""
  },
  {
   "property": "C12",
   "status": "proved",
   "theorems": [
    "Krypy.C12_projection",
    "Krypy.C12_orthogonal",
    "Krypy.C12_formula",
    "Krypy.C12_own_qr",
    "Krypy.C12_singular"
   ],
   "note": "Under the contracts of qr (proved for the code's own qr: C12_own_qr) and of scipy's QR; <Y,X> nonsingular."
  },
  {
   "property": "C13",
   "status": "proved",
   "theorems": [
    "Krypy.C13_complement_adjoint",
    "Krypy.C13_iterations",
    "Krypy.C13_refinement",
    "Krypy.C13_iterations_error"
   ],
   "note": ""
  },
  {
   "property": "C14",
   "status": "proved",
   "theorems": [
    "Krypy.C14_residual",
    "Krypy.C14_none",
    "Krypy.C14_flags"
   ],
   "note": ""
  },
  {
   "property": "C15",
   "status": "proved",
   "theorems": [
    "Krypy.C15_minimal",
    "Krypy.C15_not_worse",
    "Krypy.C15_threshold_counterexample"
   ],
   "note": "Below the 1e-15 threshold zero is returned even if the guess is exact (shown)."
  },
  {
   "property": "C16",
   "status": "proved",
   "theorems": [
    "Krypy.C16_implied",
    "Krypy.C16_callable",
    "Krypy.C16_euclid",
    "Krypy.C16_operator_iff",
    "Krypy.C16_missing",
    "Krypy.C16_operator_counterexample"
   ],
   "note": "Proved for callables and the Euclidean product; for ip_B given as operator the claim holds iff Minv and B commute (proved), and a counterexample is given."
  },
  {
   "property": "C17",
   "status": "proved",
   "theorems": [
    "Krypy.C17_arnoldi",
    "Krypy.C17_preconditioned",
    "Krypy.C17_advance_total",
    "Krypy.C17_zero_product_counterexample",
    "Krypy.C17_get_last"
   ],
   "note": "Proved for every reachable state; if the first product A*M*v vanishes the invariance test is 0/0 and the basis becomes NaN (negation proved)."
  },
  {
   "property": "C18",
   "status": "proved",
   "theorems": [
    "Krypy.C18_lanczos_eq_mgs",
    "Krypy.C18_tridiagonal",
    "Krypy.C17_arnoldi"
   ],
   "note": ""
  },
  {
   "property": "C19",
   "status": "proved",
   "theorems": [
    "Krypy.C19_relation",
    "Krypy.C19_eq_mgs",
    "Krypy.C19_mgs_eq",
    "Krypy.C19_advance_total",
    "Krypy.C19_rejects",
    "Krypy.C19_gmres",
    "Krypy.C19_zero_product_counterexample"
   ],
   "note": "Dimension at least one. Finding: for A v = 0 the space is not flagged invariant (proved)."
  },
  {
   "property": "C20",
   "status": "proved",
   "theorems": [
    "Krypy.C20_krylov",
    "Krypy.C20_invariant"
   ],
   "note": ""
  },
  {
   "property": "C21",
   "status": "proved",
   "theorems": [
    "Krypy.C21_terminates",
    "Krypy.C21_result",
    "Krypy.C21_dimension",
    "Krypy.C21_exhausted"
   ],
   "note": ""
  },
  {
   "property": "C22",
   "status": "proved",
   "theorems": [
    "Krypy.C22_returned",
    "Krypy.C22_cg_returned",
    "Krypy.C22_arnoldi_returned",
    "Krypy.C22_convergence",
    "Krypy.C22_no_silent_failure",
    "Krypy.C22_gmres",
    "Krypy.C22_gmres_house",
    "Krypy.C22_minres",
    "Krypy.C22_cg",
    "Krypy.C22_deflated_gmres",
    "Krypy.C22_deflated_minres",
    "Krypy.C22_deflated_cg",
    "Krypy.C22_maxiter_zero_counterexample",
    "Krypy.C22_invariant_counterexample"
   ],
   "note": "Two ways of returning silently without convergence exist (maxiter=0, invariant Krylov subspace); both are proved as counterexamples, the rest is proved."
  },
  {
   "property": "C23",
   "status": "proved",
   "theorems": [
    "Krypy.C23_convergence",
    "Krypy.C23_returned",
    "Krypy.QuickCall.residual",
    "Krypy.C22_gmres",
    "Krypy.C22_gmres_house",
    "Krypy.C22_minres",
    "Krypy.C22_cg",
    "Krypy.C22_deflated_gmres",
    "Krypy.C22_deflated_minres",
    "Krypy.C22_deflated_cg"
   ],
   "note": ""
  },
  {
   "property": "C24",
   "status": "proved",
   "theorems": [
    "Krypy.C24_terminates",
    "Krypy.C24_history",
    "Krypy.C24_earlier",
    "Krypy.C24_errors",
    "Krypy.C22_gmres",
    "Krypy.C22_gmres_house",
    "Krypy.C22_minres",
    "Krypy.C22_cg",
    "Krypy.C22_deflated_gmres",
    "Krypy.C22_deflated_minres",
    "Krypy.C22_deflated_cg",
    "Krypy.C24_error_norm"
   ],
   "note": ""
  },
  {
   "property": "C25",
   "status": "proved",
   "theorems": [
    "Krypy.C25_zero_rhs",
    "Krypy.C25_good_initial_guess",
    "Krypy.C25_gmres",
    "Krypy.C25_gmres_house",
    "Krypy.C25_minres",
    "Krypy.C25_cg"
   ],
   "note": ""
  },
  {
   "property": "C26",
   "status": "proved",
   "theorems": [
    "Krypy.C26_optimal"
   ],
   "note": ""
  },
  {
   "property": "C27",
   "status": "proved",
   "theorems": [
    "Krypy.C27_monotone",
    "Krypy.C27_updated_eq_explicit"
   ],
   "note": ""
  },
  {
   "property": "C28",
   "status": "proved",
   "theorems": [
    "Krypy.C28_terminates",
    "Krypy.C28_total"
   ],
   "note": ""
  },
  {
   "property": "C29",
   "status": "proved",
   "theorems": [
    "Krypy.C29_optimal",
    "Krypy.C29_monotone",
    "Krypy.C29_terminates",
    "Krypy.C29_total",
    "Krypy.C29_eq_gmres",
    "Krypy.C29_gmres_eq"
   ],
   "note": ""
  },
  {
   "property": "C30",
   "status": "proved",
   "theorems": [
    "Krypy.C30_optimal"
   ],
   "note": ""
  },
  {
   "property": "C31",
   "status": "proved",
   "theorems": [
    "Krypy.C31_residuals"
   ],
   "note": ""
  },
  {
   "property": "C32",
   "status": "proved",
   "theorems": [
    "Krypy.C32_terminates"
   ],
   "note": ""
  },
  {
   "property": "C33",
   "status": "proved",
   "theorems": [
    "Krypy.C33_lanczos",
    "Krypy.C33_convergence_drops_last",
    "Krypy.C33_nan_column_counterexample"
   ],
   "note": "Proved, except that the last column of V is NaN if the residual vanishes exactly (shown) and that the data of the last iteration are missing when ConvergenceError is raised (shown)."
  },
  {
   "property": "C34",
   "status": "proved",
   "theorems": [
    "Krypy.C34_restarted"
   ],
   "note": ""
  },
  {
   "property": "C35",
   "status": "proved",
   "theorems": [
    "Krypy.C35_monotone"
   ],
   "note": ""
  },
  {
   "property": "C36",
   "status": "proved",
   "theorems": [
    "Krypy.C36_total",
    "Krypy.C36_own_qr",
    "Krypy.C36_correct",
    "Krypy.C36_residual",
    "Krypy.C36_correct_general",
    "Krypy.C36_idempotent",
    "Krypy.C37_right_preconditioner_counterexample"
   ],
   "note": "correct() multiplies by U instead of Mr*U: proved when Mr leaves the deflation space pointwise fixed; otherwise false (negation proved)."
  },
  {
   "property": "C37",
   "status": "proved",
   "theorems": [
    "Krypy.C37_projection_unique",
    "Krypy.C37_gmres",
    "Krypy.C37_gmres_monotone",
    "Krypy.C37_gmres_terminates",
    "Krypy.C37_minres",
    "Krypy.C37_minres_eq_gmres",
    "Krypy.C37_minres_terminates",
    "Krypy.C37_cg",
    "Krypy.C37_cg_terminates",
    "Krypy.C37_right_preconditioner_counterexample"
   ],
   "note": "Proved when Mr leaves the deflation space pointwise fixed (e.g. no right preconditioner); otherwise a deflated solver can report residual norm zero for a wrong solution (proved)."
  },
  {
   "property": "C38",
   "status": "proved",
   "theorems": [
    "Krypy.C38_E",
    "Krypy.C38_C_gmres",
    "Krypy.C38_C_minres",
    "Krypy.C38_C_cg",
    "Krypy.C38_B_",
    "Krypy.C38_B_gmres",
    "Krypy.C38_B_minres",
    "Krypy.C38_B_cg",
    "Krypy.C38_cg_convergence_counterexample"
   ],
   "note": "Exact arithmetic; DeflatedCg under the hypothesis that Mr fixes the deflation space. Finding (proved): after a ConvergenceError C and B_ of DeflatedCg have one column/row too many and Ritz fails."
  },
  {
   "property": "C39",
   "status": "proved",
   "theorems": [
    "Krypy.C39_errors",
    "Krypy.C39_ritz",
    "Krypy.C39_hermitian",
    "Krypy.C39_harmonic",
    "Krypy.C39_improved",
    "Krypy.C39_full_rank",
    "Krypy.C39_arnoldi",
    "Krypy.C39_arnoldi_invariant"
   ],
   "note": "For any relation A V_n = V_{n+1} H with orthonormal columns; C39_arnoldi shows that Arnoldi runs satisfy it (up to 1e-14 norm(H) in the last column if flagged invariant)."
  },
  {
   "property": "C40",
   "status": "proved",
   "theorems": [
    "Krypy.C40_ritz",
    "Krypy.C40_harmonic",
    "Krypy.C40_resnorms",
    "Krypy.C40_E_hermitian",
    "Krypy.C40_errors",
    "Krypy.C40_gmres",
    "Krypy.C40_minres",
    "Krypy.C40_gmres_values",
    "Krypy.C40_minres_values",
    "Krypy.C40_cg",
    "Krypy.C40_cg_values",
    "Krypy.C40_cg_nan",
    "Krypy.C40_gmres_call",
    "Krypy.C40_minres_call",
    "Krypy.C40_cg_call",
    "Krypy.C40_resnorms_counterexample",
    "Krypy.C40_explicit_counterexample",
    "Krypy.C40_own_qr"
   ],
   "note": "C40_gmres_call, C40_minres_call and C40_cg_call are the end-to-end statements about the output of the call; C40_gmres, C40_minres and C40_cg link the block matrices to runs of the deflated solvers whose last step was exact resp. (Cg) whose last residual is not exactly zero. C40_gmres_values and C40_minres_values cover values and coefficients also for an inexact last step, C40_cg_values those of Cg also for a zero residual; then all resnorms are NaN and the mode harmonic raises ValueError (C40_cg_nan). resnorms are right if E is Hermitian; the negation for non-Hermitian E is proved (the blocks E and E^H of S are exchanged)."
  },
  {
   "property": "C41",
   "status": "proved",
   "theorems": [
    "Krypy.C41_terminates",
    "Krypy.C41_best"
   ],
   "note": ""
  },
  {
   "property": "C42",
   "status": "proved",
   "theorems": [
    "Krypy.C42_ritzSmall",
    "Krypy.C42_ritzExtremal",
    "Krypy.C42_gens_ok"
   ],
   "note": ""
  },
  {
   "property": "C43",
   "status": "proved",
   "theorems": [
    "Krypy.C43_simple",
    "Krypy.C43_zero_vectors_counterexample",
    "Krypy.C43_union"
   ],
   "note": "For which in {lm, lr, li} and n_vectors = 0 the code selects everything (negation proved)."
  },
  {
   "property": "C44",
   "status": "proved",
   "theorems": [
    "Krypy.C44_history",
    "Krypy.C44_first",
    "Krypy.C44_no_factory",
    "Krypy.C44_failure_keeps_state",
    "Krypy.C44_shortcuts"
   ],
   "note": ""
  },
  {
   "property": "C45",
   "status": "proved",
   "theorems": [
    "Krypy.C45_get",
    "Krypy.C45_record",
    "Krypy.C45_record_antitone",
    "Krypy.C45_getOps",
    "Krypy.C45_getOps_mono",
    "Krypy.C45_getOps_nonneg",
    "Krypy.C45_estimate_error",
    "Krypy.C45_estimate_mono"
   ],
   "note": ""
  },
  {
   "property": "C46",
   "status": "proved",
   "theorems": [
    "Krypy.C46_cg",
    "Krypy.C46_cg_rejects",
    "Krypy.C46_cg_exclude_zeros",
    "Krypy.C46_cg_negative_counterexample",
    "Krypy.C46_cg_intervals",
    "Krypy.C46_intervals_dominate",
    "Krypy.C46_cg_scale",
    "Krypy.C46_minres",
    "Krypy.C46_minres_one_sided",
    "Krypy.C46_minres_nonneg",
    "Krypy.C46_range",
    "Krypy.C46_antitone",
    "Krypy.C46_cg_step",
    "Krypy.C46_minres_step",
    "Krypy.C46_minres_step_counterexample",
    "Krypy.C46_zero_base_counterexample",
    "Krypy.C46_minres_intervals"
   ],
   "note": "BoundCG accepts an all-negative spectrum (negation proved); BoundMinres raises ValueError on a one-sided spectrum and its get_step ignores the floor (negations proved). The remaining parts are proved."
  },
  {
   "property": "C47",
   "status": "proved",
   "theorems": [
    "Krypy.C47_product",
    "Krypy.C47_array",
    "Krypy.C47_values",
    "Krypy.C47_only_roots",
    "Krypy.C47_zero_root"
   ],
   "note": ""
  },
  {
   "property": "C48",
   "status": "proved",
   "theorems": [
    "Krypy.C48_shape",
    "Krypy.C48_lower",
    "Krypy.C48_least",
    "Krypy.C48_square",
    "Krypy.C48_self_adjoint",
    "Krypy.C48_antitone",
    "Krypy.C48_arnoldi",
    "Krypy.C48_gmres",
    "Krypy.C48_dependent_counterexample",
    "Krypy.C48_singular_counterexample"
   ],
   "note": "Exact arithmetic. Findings: with dependent columns or singular square H the values are too small (negations proved)."
  },
  {
   "property": "C49",
   "status": "proved",
   "theorems": [
    "Krypy.C49_angles",
    "Krypy.C49_vectors",
    "Krypy.C49_errors",
    "Krypy.C49_first",
    "Krypy.C49_last",
    "Krypy.C49_unique",
    "Krypy.qrLoop_gram",
    "Krypy.C49_vectors_counterexample"
   ],
   "note": "Under the contracts AngleOk of qr and svd for full rank F and G. Finding: the columns of U need not be orthonormal (proved)."
  },
  {
   "property": "C50",
   "status": "proved",
   "theorems": [
    "Krypy.Conv.C50_options",
    "Krypy.Conv.C50_assertions",
    "Krypy.Conv.C50_result",
    "Krypy.Conv.C50_convergence_propagates",
    "Krypy.Conv.C50_none_iff_equal",
    "Krypy.Conv.C50_Mr_counterexample",
    "Krypy.Conv.C50_equal_counterexample",
    "Krypy.Conv.C50_wrap_single",
    "Krypy.Conv.C50_wrap_counterexample"
   ],
   "note": "Mr is ignored, residual equal to tol yields None, wrapped inner products have the wrong shape for several columns (negations proved)."
  },
  {
   "property": "C51",
   "status": "proved",
   "theorems": [
    "Krypy.C51_cg_erase",
    "Krypy.C51_gmres_erase",
    "Krypy.C51_minres_erase",
    "Krypy.C51_cg",
    "Krypy.C51_gmres",
    "Krypy.C51_minres",
    "Krypy.C51_cg_published",
    "Krypy.C51_minres_published",
    "Krypy.C51_gmres_published",
    "Krypy.C51_gmres_dmgs"
   ],
   "note": "Operation-counting copies of the solvers are proved to compute the same results (erase). C51_cg, C51_gmres, C51_minres count in any call without exact_solution that does not raise; the published theorems compare with operations(n) in exact arithmetic. CG vector updates are undercounted by the table (n-1 too few), an initial guess is not accounted for, and dmgs needs more inner products: recorded as findings."
  },
  {
   "property": "C52",
   "status": "proved",
   "theorems": [
    "Krypy.C52_strakos",
    "Krypy.C52_one_counterexample"
   ],
   "note": ""
  },
  {
   "property": "C53",
   "status": "proved",
   "theorems": [
    "Krypy.C53_cg",
    "Krypy.C53_minres_definite",
    "Krypy.C53_minres_indefinite",
    "Krypy.C53_minres_intervals",
    "Krypy.C53_minres_counterexample"
   ],
   "note": "Exact arithmetic, any spectrum or interval object that covers the eigenvalues of M Ml A Mr. For indefinite spectra proved if the two intervals have equal length; otherwise false (negation proved for a run of three steps)."
  },
  {
   "property": "C54",
   "status": "proved",
   "theorems": [
    "Krypy.C54_count",
    "Krypy.C54_real",
    "Krypy.C54_max",
    "Krypy.C54_polymax"
   ],
   "note": "Contract for numpy: deriv(1).roots() is the multiset of complex roots. Exact arithmetic."
  },
  {
   "property": "C55",
   "status": "proved",
   "theorems": [
    "Krypy.C55_relation",
    "Krypy.C55_sign",
    "Krypy.C55_documented_counterexample",
    "Krypy.C55_dimension",
    "Krypy.C55_total",
    "Krypy.C55_zero_product_counterexample",
    "Krypy.C55_errors",
    "Krypy.C55_setting",
    "Krypy.C55_null"
   ],
   "note": "Exact arithmetic. The sign of the perturbation in the documentation is wrong (negation proved); the NaN case is proved as a counterexample. ortho=house is not part of the model of this function."
  },
  {
   "property": "C56",
   "status": "proved",
   "theorems": [
    "Krypy.C56_residual_basis",
    "Krypy.C56_total",
    "Krypy.C56_basis",
    "Krypy.C56_relation",
    "Krypy.C56_projection",
    "Krypy.C56_perturbation",
    "Krypy.C56_initial",
    "Krypy.C56_projection_norm",
    "Krypy.C56_errors",
    "Krypy.C56_gmres"
   ],
   "note": "Exact arithmetic. The statements about q, vdiff_norm and PWAW_norm assume that the rank test drops only a zero remainder; C56_relation gives the remainder term explicitly."
  },
  {
   "property": "C57",
   "status": "proved",
   "theorems": [
    "Krypy.C57_order",
    "Krypy.C57_simple",
    "Krypy.C57_simple_minres",
    "Krypy.C57_intervals",
    "Krypy.C57_inclusion",
    "Krypy.C57_inclusion_counterexample",
    "Krypy.C57_negative_counterexample",
    "Krypy.C57_all",
    "Krypy.C57_empty_counterexample",
    "Krypy.C57_strategy"
   ],
   "note": "Real Ritz values, exact arithmetic. The documented inclusion property is proved without a selection and refuted with one."
  },
  {
   "property": "C58",
   "status": "proved",
   "theorems": [
    "Krypy.C58_waw",
    "Krypy.C58_omit_total",
    "Krypy.C58_operator",
    "Krypy.C58_omit",
    "Krypy.C58_omit_exact",
    "Krypy.C58_assumption",
    "Krypy.C58_nonsingular",
    "Krypy.C58_beta",
    "Krypy.C58_epsilon",
    "Krypy.C58_epsilon_ritz",
    "Krypy.C58_epsilon_counterexample",
    "Krypy.C58_pseudo",
    "Krypy.C58_pseudo_type",
    "Krypy.C58_contain",
    "Krypy.C58_no_rows",
    "Krypy.C58_intervals",
    "Krypy.C58_bound_counterexample"
   ],
   "note": "Exact arithmetic; contours of pseudopy are a parameter of which only nonnegativity of the length is used. That the returned numbers bound the residuals of the next system is refuted for self-adjoint operators."
  },
  {
   "property": "C59",
   "status": "proved",
   "theorems": [
    "Krypy.C59_direct",
    "Krypy.C59_argument",
    "Krypy.C59_extrapolate",
    "Krypy.C59_negative",
    "Krypy.C59_omit",
    "Krypy.C59_evaluate",
    "Krypy.C59_evaluate_error",
    "Krypy.C59_cache"
   ],
   "note": "Exact arithmetic; bound_pseudo is a parameter of the evaluator, its properties are in C58."
  },
  {
   "property": "C60",
   "status": "proved",
   "theorems": [
    "Krypy.C60_cg",
    "Krypy.C60_solve",
    "Krypy.C60_honest",
    "Krypy.C60_ritz_orthonormal",
    "Krypy.C60_ritz_vectors",
    "Krypy.C60_simple",
    "Krypy.C60_ritz",
    "Krypy.C60_repeat"
   ],
   "note": "Exact arithmetic. utils.qr is assumed to factorise linearly independent vectors exactly (with a non-Euclidean inner product the code does so if no diagonal entry of R falls below 1e-15, see C11; C92 proves the results for the code's own qr)."
  },
  {
   "property": "C61",
   "status": "proved",
   "theorems": [
    "Krypy.C61_norm",
    "Krypy.C61_norm_single",
    "Krypy.C61_norm_pair",
    "Krypy.C61_norm_error_iff",
    "Krypy.C61_norm_squared",
    "Krypy.C61_norm_indefinite_counterexample",
    "Krypy.C61_orthonormality",
    "Krypy.C61_orthonormality_zero",
    "Krypy.C61_arnoldi_res",
    "Krypy.C61_arnoldi",
    "Krypy.C61_norm_MMlr_counterexample",
    "Krypy.C61_shape_vecs"
   ],
   "note": "Exact arithmetic for the norms; shape_vecs for arbitrary entries. norm accepts indefinite inner products and norm_MMlr fails with TypeError for every nonzero residual (negations proved)."
  },
  {
   "property": "C62",
   "status": "proved",
   "theorems": [
    "Krypy.C62_solve",
    "Krypy.C62_singular",
    "Krypy.C62_ritz_orthonormal",
    "Krypy.C62_ritz_vectors",
    "Krypy.C62_ritz_span",
    "Krypy.C62_get_vectors",
    "Krypy.C62_simple",
    "Krypy.C62_ritz",
    "Krypy.C62_sequence",
    "Krypy.C62_indefinite_counterexample"
   ],
   "note": "As in C37, Mr is the identity. GMRES and MINRES stop early if the Krylov subspace is flagged invariant by the 1e-14 threshold; this case is named in ArnSolved."
  },
  {
   "property": "C63",
   "status": "proved",
   "theorems": [
    "Krypy.Timed.C63_operator",
    "Krypy.Timed.C63_transparent",
    "Krypy.Timed.C63_measure",
    "Krypy.Timed.C63_measure_ip",
    "Krypy.Timed.C63_nested",
    "Krypy.Timed.C63_adj_counterexample",
    "Krypy.Timed.C63_constructor",
    "Krypy.Timed.C63_converted",
    "Krypy.Timed.C63_constructor_count",
    "Krypy.Timed.C63_residual"
   ],
   "note": "The class of an exception may differ between the two constructors, since the arguments are checked in another order."
  },
  {
   "property": "C64",
   "status": "proved",
   "theorems": [
    "Krypy.C64_rejects",
    "Krypy.C64_total",
    "Krypy.C64_values",
    "Krypy.C64_bound",
    "Krypy.C64_residual_polynomial",
    "Krypy.C64_gmres",
    "Krypy.C64_vertices_counterexample"
   ],
   "note": "The estimates are proved for contours that enclose the pseudospectrum by one circle; the contours themselves come from the package pseudopy and are parameters."
  },
  {
   "property": "C65",
   "status": "proved",
   "theorems": [
    "Krypy.C65_common",
    "Krypy.C65_common_order",
    "Krypy.C65_arnoldi",
    "Krypy.C65_arnoldi_kind",
    "Krypy.C65_complex_inner_product",
    "Krypy.C65_integer_counterexample",
    "Krypy.C65_gmres",
    "Krypy.C65_minres",
    "Krypy.C65_gmres_error",
    "Krypy.C65_dtype",
    "Krypy.C65_cg",
    "Krypy.C65_cg_error",
    "Krypy.C65_cg_complex",
    "Krypy.C65_cg_integer",
    "Krypy.C65_cg_guess",
    "Krypy.C65_qr",
    "Krypy.C65_qr_error",
    "Krypy.C65_qr_integer",
    "Krypy.C65_resnorms",
    "Krypy.C65_resnorms_counterexample"
   ],
   "note": "Types are reduced to integer, real and complex; numpy's rules for casts and in-place operations are stated in Model/DType. ortho=house and the scipy branch of qr are not covered."
  },
  {
   "property": "C66",
   "status": "proved",
   "theorems": [
    "Krypy.C66_operators",
    "Krypy.C66_system",
    "Krypy.C66_unchanged",
    "Krypy.C66_cg",
    "Krypy.C66_gmres",
    "Krypy.C66_minres",
    "Krypy.C66_repeat",
    "Krypy.C66_gmres_alias",
    "Krypy.C66_copy_needed",
    "Krypy.C66_contract_needed"
   ],
   "note": "Arrays are addresses in an explicit memory. Operators supplied by the user must not change existing arrays and must return their argument or a new array, as all of krypy's operators do. Deflated solvers, ortho=house and views of parts of arrays are not covered."
  },
  {
   "property": "C67",
   "status": "proved",
   "theorems": [
    "Krypy.C67_gmres",
    "Krypy.C67_minres",
    "Krypy.C67_cg",
    "Krypy.C67_null_residual",
    "Krypy.C67_index_iff",
    "Krypy.C67_index_counterexample",
    "Krypy.C67_inconsistent",
    "Krypy.C67_minres_inconsistent",
    "Krypy.C67_cg_breakdown"
   ],
   "note": "Exact arithmetic; ortho mgs, dmgs and lanczos. NaN is the explicit outcome nonFinite at the first division by zero."
  },
  {
   "property": "C68",
   "status": "proved",
   "theorems": [
    "Krypy.C68_gmres",
    "Krypy.C68_restarted",
    "Krypy.C68_eventually",
    "Krypy.C68_constants",
    "Krypy.C68_stagnation"
   ],
   "note": "Exact arithmetic; ortho mgs, dmgs and lanczos."
  },
  {
   "property": "C69",
   "status": "proved",
   "theorems": [
    "Krypy.C69_iter",
    "Krypy.C69_gmres",
    "Krypy.C69_gmres_house",
    "Krypy.C69_minres",
    "Krypy.C69_cg",
    "Krypy.C69_repr_cg",
    "Krypy.C69_repr_minres",
    "Krypy.C69_repr_gmres",
    "Krypy.C69_repr_system",
    "Krypy.C69_repr_text",
    "Krypy.C69_repr_no_xk",
    "Krypy.C69_repr_attrs",
    "Krypy.C69_repr_counterexample"
   ],
   "note": "The texts of numbers and array rows are parameters."
  },
  {
   "property": "C70",
   "status": "proved",
   "theorems": [
    "Krypy.C70_poly_iff",
    "Krypy.C70_gmres",
    "Krypy.C70_minres",
    "Krypy.C70_gmres_count",
    "Krypy.C70_minres_count",
    "Krypy.C70_cg",
    "Krypy.C70_cg_count",
    "Krypy.C70_eigenvectors",
    "Krypy.C70_distinct",
    "Krypy.C70_minpoly",
    "Krypy.C70_low_rank"
   ],
   "note": "Exact arithmetic; ortho mgs, dmgs and lanczos for Gmres and Minres."
  },
  {
   "property": "C71",
   "status": "proved",
   "theorems": [
    "Krypy.C71_minres",
    "Krypy.C71_gmres",
    "Krypy.C71_minres_le",
    "Krypy.PeakPlateau.step"
   ],
   "note": "Exact arithmetic; ortho mgs, dmgs and lanczos for Gmres and Minres."
  },
  {
   "property": "C72",
   "status": "proved",
   "theorems": [
    "Krypy.C72_cg",
    "Krypy.C72_gmres",
    "Krypy.C72_minres",
    "Krypy.C72_cg_precond",
    "Krypy.C72_cg_decreasing",
    "Krypy.C72_minres_decreasing",
    "Krypy.C72_gmres_decreasing",
    "Krypy.C72_compare",
    "Krypy.C72_minres_indefinite",
    "Krypy.C72_cg_precond_counterexample"
   ],
   "note": "Exact arithmetic; ortho mgs, dmgs and lanczos for Gmres and Minres. That the errors decrease is proved for M = Mr = identity and refuted for Cg with a preconditioner and for Minres with an indefinite operator."
  },
  {
   "property": "C73",
   "status": "proved",
   "theorems": [
    "Krypy.C73_operators",
    "Krypy.C73_adjoint",
    "Krypy.C73_expressions",
    "Krypy.C73_adjoint_counterexample"
   ],
   "note": "Under the hypotheses of C12. That the adjoint is the conjugate transpose is proved for ip_B=None and characterised and refuted for other inner products."
  },
  {
   "property": "C74",
   "status": "proved",
   "theorems": [
    "Krypy.C74_minres",
    "Krypy.C74_harmonic",
    "Krypy.C74_self_adjoint",
    "Krypy.C74_cg_roots",
    "Krypy.C74_cg_run"
   ],
   "note": "Exact arithmetic. Inverse roots must be zero or larger than the threshold 1e-14 of line 639; over the reals, Hh is Hermitian. The polynomials exist for every size: routines which meet the contracts are constructed in Proofs/PseudoRoutines."
  },
  {
   "property": "C75",
   "status": "proved",
   "theorems": [
    "Krypy.C75_gmres",
    "Krypy.C75_minres",
    "Krypy.C75_minres_spectrum",
    "Krypy.C75_minres_bound",
    "Krypy.C75_cg_spectrum",
    "Krypy.C75_cg_bound",
    "Krypy.C75_cg_any",
    "Krypy.C75_cg_count",
    "Krypy.C75_rayleigh",
    "Krypy.C75_invariant",
    "Krypy.C75_removes"
   ],
   "note": "Exact arithmetic; Mr must be the identity on the deflation space (see C37); ortho mgs, dmgs and lanczos for DeflatedGmres and DeflatedMinres. For self-adjoint operators the bounds are in terms of eigenvalues, for DeflatedGmres in terms of polynomials."
  },
  {
   "property": "C76",
   "status": "proved",
   "theorems": [
    "Krypy.C76_gmres",
    "Krypy.C76_minres",
    "Krypy.C76_gmres_count",
    "Krypy.C76_minres_count",
    "Krypy.C76_cg",
    "Krypy.C76_cg_count",
    "Krypy.C76_relative",
    "Krypy.C76_hyp",
    "Krypy.C76_trans",
    "Krypy.C76_correction",
    "Krypy.C76_absorbed",
    "Krypy.C76_scaleA",
    "Krypy.C76_scaleB",
    "Krypy.C76_scaleM",
    "Krypy.C76_scaleIp",
    "Krypy.C76_basis",
    "Krypy.C76_splitM",
    "Krypy.C76_leftM"
   ],
   "note": "Exact arithmetic. The common length of the runs of Gmres and Minres is asserted for runs which end below the tolerance (the invariance flag depends on the scaling)."
  },
  {
   "property": "C77",
   "status": "proved",
   "theorems": [
    "Krypy.C77_converged",
    "Krypy.C77_converged_normal",
    "Krypy.C77_double",
    "Krypy.C77_not_converged",
    "Krypy.C77_zero_rhs",
    "Krypy.C77_resnorm",
    "Krypy.C77_norm",
    "Krypy.C77_residual",
    "Krypy.C77_dot",
    "Krypy.C77_nan",
    "Krypy.C77_nan_explicit",
    "Krypy.C77_nan_counterexample"
   ],
   "note": "Rounding errors are described by bounds for the elementary operations (Model/FlArith); that IEEE arithmetic meets them is a contract. Overflow is excluded by the assumption that the last residual norm is finite; the NaN case is refuted."
  },
  {
   "property": "C78",
   "status": "proved",
   "theorems": [
    "Krypy.C78_honest",
    "Krypy.C78_converged",
    "Krypy.C78_trace",
    "Krypy.C78_gap",
    "Krypy.C78_solution",
    "Krypy.C78_componentwise",
    "Krypy.C78_refines"
   ],
   "note": "Error bounds of the array operations are hypotheses (no underflow); nonfinite arrays are excluded from the gap, not from the guarantees. store_arnoldi=False (the stored arrays do not influence the iteration)."
  },
  {
   "property": "C79",
   "status": "proved",
   "theorems": [
    "Krypy.C79_refines",
    "Krypy.C79_column",
    "Krypy.C79_relation",
    "Krypy.C79_residual",
    "Krypy.C79_componentwise",
    "Krypy.C79_double",
    "Krypy.C79_lanczos",
    "Krypy.C79_lanczos_shape"
   ],
   "note": "Error bounds of the array operations are hypotheses (no underflow); only finite runs are bounded. The bound of one step covers mgs, dmgs and lanczos with M; the a priori bound of a whole run covers mgs and dmgs with M=None and the Euclidean inner product; for lanczos (C79_lanczos) the bound of a column contains the computed subdiagonal entry."
  },
  {
   "property": "C80",
   "status": "proved",
   "theorems": [
    "Krypy.C80_honest",
    "Krypy.C80_trace",
    "Krypy.C80_small",
    "Krypy.C80_columns",
    "Krypy.C80_residual",
    "Krypy.C80_solution",
    "Krypy.C80_rotation",
    "Krypy.C80_solve",
    "Krypy.C80_double",
    "Krypy.C80_converged",
    "Krypy.C80_refines"
   ],
   "note": "Error bounds of the operations are hypotheses (no underflow); only finite runs are bounded. C80_honest, C80_trace and C80_refines cover mgs, dmgs and lanczos with all preconditioners; the bounds of the residual cover mgs and dmgs without preconditioners and with the Euclidean inner product. Back substitution is assumed to process rows (a sum of y_i and products in any order, one division)."
  },
  {
   "property": "C81",
   "status": "proved",
   "theorems": [
    "Krypy.C81_factorisation",
    "Krypy.C81_product",
    "Krypy.C81_componentwise",
    "Krypy.C81_double",
    "Krypy.C81_refines"
   ],
   "note": "The loop of qr which is used with ip_B (for ip_B=None the code calls scipy). Error bounds of the operations are hypotheses (no underflow); only finite results are bounded."
  },
  {
   "property": "C82",
   "status": "proved",
   "theorems": [
    "Krypy.C82_honest",
    "Krypy.C82_trace",
    "Krypy.C82_residual",
    "Krypy.C82_solution",
    "Krypy.C82_componentwise",
    "Krypy.C82_converged",
    "Krypy.C82_refines"
   ],
   "note": "Error bounds of the operations are hypotheses (no underflow, and no inner product of which only the imaginary part overflows); only finite runs are bounded. C82_honest, C82_trace, C82_residual, C82_converged and C82_refines cover all orthogonalisations and preconditioners; C82_solution covers ortho=lanczos without preconditioners. The bound is a posteriori: it contains the numbers R and the norms of the vectors z of the run."
  },
  {
   "property": "C83",
   "status": "proved",
   "theorems": [
    "Krypy.C83_qr",
    "Krypy.C83_dmgs",
    "Krypy.C83_isometry",
    "Krypy.C83_double",
    "Krypy.C83_needed"
   ],
   "note": "The loop of qr which is used with ip_B, and Arnoldi with ortho=dmgs, M=None. Error bounds of the operations are hypotheses (no underflow); only finite results are bounded. The assumption that no column is almost in the span of the earlier ones is a posteriori: it is stated with the computed diagonal entries."
  },
  {
   "property": "C84",
   "status": "proved",
   "theorems": [
    "Krypy.C84_verified",
    "Krypy.C84_restarted",
    "Krypy.C84_restarted_gmres",
    "Krypy.C84_deflated",
    "Krypy.C84_refines",
    "Krypy.C84_unverified"
   ],
   "note": "Error bounds of the evaluation of residual norms are hypotheses (real double precision, at most 10^6 unknowns, no underflow, M=Ml=ip_B=None); nothing is assumed about the operations of the method, the projection and the restarts. Only finite residual norms are bounded. C84_unverified is a finding: the result of a deflated solver without iterations is not checked."
  },
  {
   "property": "C85",
   "status": "proved",
   "theorems": [
    "Krypy.C85_house",
    "Krypy.C85_orthonormal",
    "Krypy.C85_orthonormal_linear",
    "Krypy.C85_relation",
    "Krypy.C85_invariant",
    "Krypy.C85_refines_house",
    "Krypy.C85_refines_apply",
    "Krypy.C85_refines_init",
    "Krypy.C85_refines_advance"
   ],
   "note": "House and Arnoldi with ortho=house (M=None, ip_B=None). Error bounds of the scalar operations, norms and dot products are hypotheses (u <= 1/1000, no underflow); only finite results are bounded, including the normalisation factor of each transformation, which the code does not store."
  },
  {
   "property": "C86",
   "status": "proved",
   "theorems": [
    "Krypy.C86_honest",
    "Krypy.C86_trace",
    "Krypy.C86_close",
    "Krypy.C86_optimal",
    "Krypy.C86_residual",
    "Krypy.C86_minimal",
    "Krypy.C86_solution",
    "Krypy.C86_converged",
    "Krypy.C86_refines"
   ],
   "note": "Gmres with ortho=house (M=Ml=Mr=None, ip_B=None). Error bounds of the scalar operations, norms, dot products, rotations, back substitution and linear combinations are hypotheses (u <= 1/1000, no underflow); only finite results are bounded. C86_honest needs none of these."
  },
  {
   "property": "C87",
   "status": "proved",
   "theorems": [
    "Krypy.C87_complement",
    "Krypy.C87_last",
    "Krypy.C87_twice",
    "Krypy.C87_apply_one",
    "Krypy.C87_apply",
    "Krypy.C87_single",
    "Krypy.C87_single_adj",
    "Krypy.C87_orthogonal",
    "Krypy.C87_solve",
    "Krypy.C87_solve_adj",
    "Krypy.C87_gram",
    "Krypy.C87_oblique",
    "Krypy.C87_bdd",
    "Krypy.C87_bdd_orthogonal",
    "Krypy.C87_inner",
    "Krypy.C87_columns",
    "Krypy.C87_constructor",
    "Krypy.C87_needed",
    "Krypy.C87_refines"
   ],
   "note": "Error bounds of sums, differences, inner products, linear combinations, of the factorisation scipy.linalg.qr and of the triangular solvers are hypotheses; only finite results are bounded. P is the exact projection for the stored bases V and W; C87_columns relates the result to the columns passed by the caller. Arrays a with one column."
  },
  {
   "property": "C88",
   "status": "proved",
   "theorems": [
    "Krypy.C88_empty_total",
    "Krypy.C88_empty_correct",
    "Krypy.C88_empty_hooks",
    "Krypy.C88_empty_gmres",
    "Krypy.C88_empty_minres",
    "Krypy.C88_empty_cg",
    "Krypy.C88_correct",
    "Krypy.C88_hooks",
    "Krypy.C88_gmres",
    "Krypy.C88_minres",
    "Krypy.C88_cg",
    "Krypy.C88_recycling_gmres",
    "Krypy.C88_recycling_minres"
   ],
   "note": "Exact arithmetic. The claims without basis vectors hold for every inner product and every operator, also inadmissible ones; those for two bases need an invertible <U, Ml A Mr U> and correct factorisation routines (as C36). Equality of everything but the attributes U, C, E of the projection: outcome including the kind of exception, xk, resnorms, errnorms, warnings, basis vectors."
  },
  {
   "property": "C89",
   "status": "proved",
   "theorems": [
    "Krypy.C89_qr_erase",
    "Krypy.C89_gmres_erase",
    "Krypy.C89_minres_erase",
    "Krypy.C89_cg_erase",
    "Krypy.C89_qr",
    "Krypy.C89_own",
    "Krypy.C89_setup",
    "Krypy.C89_gmres",
    "Krypy.C89_minres",
    "Krypy.C89_cg",
    "Krypy.C89_gmres_estimate",
    "Krypy.C89_minres_estimate",
    "Krypy.C89_cg_estimate"
   ],
   "note": "Exact arithmetic; the counting model returns the same results as the model of C36-C38 (*_erase). Products V.dot(c) of an (N,k) array count as k vector updates (as in estimate_time). The comparison with estimate_time is for the default parameters and calls which converged with at least one iteration without warnings; without these assumptions the counts are given in terms of the number of explicitly computed residuals (C89_gmres, C89_minres, C89_cg)."
  },
  {
   "property": "C90",
   "status": "proved",
   "theorems": [
    "Krypy.C90_qr",
    "Krypy.C90_projection",
    "Krypy.C90_oblique",
    "Krypy.C90_same",
    "Krypy.C90_cg",
    "Krypy.C90_gmres",
    "Krypy.C90_minres",
    "Krypy.C90_unchanged",
    "Krypy.C90_repeat",
    "Krypy.C90_uaps",
    "Krypy.C90_copy_needed"
   ],
   "note": "Exact arithmetic on the contents of arrays. In the deflated solvers A, Ml and Mr may return arrays which they keep or the argument itself, as long as these arrays existed when the system was constructed or are new; M must return a new array or its argument. Views (slices of Q, V[:, [i]]) are modelled as arrays of columns with addresses of their own; ortho='house' is not covered. C90_repeat assumes that the test Y is X in Projection has the same outcome in both calls."
  },
  {
   "property": "C91",
   "status": "proved",
   "theorems": [
    "Krypy.C91_close",
    "Krypy.C91_optimal",
    "Krypy.C91_residual",
    "Krypy.C91_minimal",
    "Krypy.C91_basis",
    "Krypy.C91_solution",
    "Krypy.C91_double"
   ],
   "note": "Gmres with ortho=dmgs (M=Ml=Mr=None, ip_B=None; C91_close to C91_minimal for every ortho in mgs, dmgs whose basis is almost orthonormal). Error bounds of the vector operations, norms, inner products, rotations, back substitution and linear combinations are hypotheses (no underflow); only finite results are bounded. C91_basis and C91_solution assume that the subdiagonal entries of H are not tiny (||A v_n|| <= kappa H[n+1,n] with m^3 eta kappa <= 1/1000)."
  },
  {
   "property": "C92",
   "status": "proved",
   "theorems": [
    "Krypy.C92_solve",
    "Krypy.C92_get_vectors",
    "Krypy.C92_simple",
    "Krypy.C92_ritz",
    "Krypy.C92_sequence",
    "Krypy.C92_cg_get_vectors",
    "Krypy.C92_cg_simple",
    "Krypy.C92_cg_ritz",
    "Krypy.C92_cg_sequence"
   ],
   "note": "Exact arithmetic; Mr is the identity. Hypotheses on the systems instead of a contract of utils.qr: Minv is the inverse of M, ||x||_{M^-1} <= 1e15 ||x||, ||x||_{M^-1} <= 1e15 ||Ml A Mr x||, and the norms ||.||_{M^-1} of two systems of the sequence differ by at most the factor 1e15. scipy.linalg.qr (of the small matrix) and eigh obey their contracts. GMRES and MINRES: see ArnSolved in C62; systems with 0 outside the field of values."
  },
  {
   "property": "C93",
   "status": "proved",
   "theorems": [
    "Krypy.C93_solvers",
    "Krypy.C93_get_vectors",
    "Krypy.C93_factories",
    "Krypy.C93_union",
    "Krypy.C93_union_empty",
    "Krypy.C93_factory_used",
    "Krypy.C93_solve",
    "Krypy.C93_unchanged",
    "Krypy.C93_iterate",
    "Krypy.C93_recycled",
    "Krypy.C93_recycled_minres"
   ],
   "note": "Exact arithmetic on the contents of arrays, with the contracts of C90 for operators. A factory is a program which changes no existing array; krypy's factories are shown to be such. The selection of Ritz vectors (evaluators, generators, eigenvalue routines) is a parameter which reads the memory and returns numbers. In sequences the systems are constructed before the first call; C93_solve covers a call in any later memory. ortho='house' is not covered."
  }
 ]
}
