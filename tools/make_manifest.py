"""Write MANIFEST.json. Run from anywhere."""
import json, os
ROOT = os.path.dirname(os.path.dirname(os.path.abspath(__file__)))
CLAIMS = [
    ("C01", "proved", "Ops.C01_denotation Ops.C01_star Ops.C01_get_linearoperator Ops.C01_negative_power_counterexample Ops.C01_identity_scalar_counterexample",
     "Arrays with at least one column (zero columns: C03). Findings: negative powers act as the identity, Identity*scalar returns the scalar, both proved."),
    ("C02", "proved", "Ops.C02_adjoint Ops.C02_product", ""),
    ("C03", "proved", "Ops.C03_shapes Ops.C03_rejects Ops.C03_empty_counterexample Ops.C03_zero_counterexample Ops.C03_timed_counterexample Ops.C03_identity_counterexample Ops.C03_star_counterexample",
     "The five exceptional situations are proved as negations of the unrestricted claim."),
    ("C04", "proved", "C04_membership_disjoint C04_add_total C04_built_total", ""),
    ("C05", "proved", "C05_order_independent C05_endpoints", ""),
    ("C06", "proved", "C06_min C06_max C06_min_pos C06_max_neg C06_max_abs C06_min_abs C06_empty_returns_error_object",
     "Proved for non-empty collections; for an empty collection the code returns an exception object (negation proved)."),
    ("C07", "proved", "C07_and C07_or C07_make C07_contains C07_distance", ""),
    ("C08", "proved", "C08_individual C08_interval C08_other_mode",
     "Both documented modes proved; an unknown mode silently returns None (negation proved)."),
    ("C09", "proved", "C09_maps C09_unitary C09_matrix", ""),
    ("C10", "proved", "C10_annihilates C10_unitary C10_real", "With the reference BLAS rotg algorithms."),
    ("C11", "proved", "C11_qr C11_rank_deficient C11_reorthos C11_distance C11_own_qr C11_threshold_counterexample", ""),
    ("C12", "proved", "C12_projection C12_orthogonal C12_formula C12_own_qr C12_singular", "Under the contracts of qr (proved for the code's own qr: C12_own_qr) and of scipy's QR; <Y,X> nonsingular."),
    ("C13", "proved", "C13_complement_adjoint C13_iterations C13_refinement C13_iterations_error", ""),
    ("C14", "proved", "C14_residual C14_none C14_flags", ""),
    ("C15", "proved", "C15_minimal C15_not_worse C15_threshold_counterexample", "Below the 1e-15 threshold zero is returned even if the guess is exact (shown)."),
    ("C16", "proved", "C16_implied C16_callable C16_euclid C16_operator_iff C16_missing C16_operator_counterexample",
     "Proved for callables and the Euclidean product; for ip_B given as operator the claim holds iff Minv and B commute (proved), and a counterexample is given."),
    ("C17", "proved", "C17_arnoldi C17_preconditioned C17_advance_total C17_zero_product_counterexample C17_get_last",
     "Proved for every reachable state; if the first product A*M*v vanishes the invariance test is 0/0 and the basis becomes NaN (negation proved)."),
    ("C18", "proved", "C18_lanczos_eq_mgs C18_tridiagonal C17_arnoldi", ""),
    ("C19", "proved", "C19_relation C19_eq_mgs C19_mgs_eq C19_advance_total C19_rejects C19_gmres C19_zero_product_counterexample",
     "Dimension at least one. Finding: for A v = 0 the space is not flagged invariant (proved)."),
    ("C20", "proved", "C20_krylov C20_invariant", ""),
    ("C21", "proved", "C21_terminates C21_result C21_dimension C21_exhausted", ""),
    ("C22", "proved", "C22_returned C22_cg_returned C22_arnoldi_returned C22_convergence C22_no_silent_failure C22_gmres C22_gmres_house C22_minres C22_cg C22_deflated_gmres C22_deflated_minres C22_deflated_cg C22_maxiter_zero_counterexample C22_invariant_counterexample",
     "Two ways of returning silently without convergence exist (maxiter=0, invariant Krylov subspace); both are proved as counterexamples, the rest is proved."),
    ("C23", "proved", "C23_convergence C23_returned QuickCall.residual C22_gmres C22_gmres_house C22_minres C22_cg C22_deflated_gmres C22_deflated_minres C22_deflated_cg", ""),
    ("C24", "proved", "C24_terminates C24_history C24_earlier C24_errors C22_gmres C22_gmres_house C22_minres C22_cg C22_deflated_gmres C22_deflated_minres C22_deflated_cg C24_error_norm", ""),
    ("C25", "proved", "C25_zero_rhs C25_good_initial_guess C25_gmres C25_gmres_house C25_minres C25_cg", ""),
    ("C26", "proved", "C26_optimal", ""),
    ("C27", "proved", "C27_monotone C27_updated_eq_explicit", ""),
    ("C28", "proved", "C28_terminates C28_total", ""),
    ("C29", "proved", "C29_optimal C29_monotone C29_terminates C29_total C29_eq_gmres C29_gmres_eq", ""),
    ("C30", "proved", "C30_optimal", ""),
    ("C31", "proved", "C31_residuals", ""),
    ("C32", "proved", "C32_terminates", ""),
    ("C33", "proved", "C33_lanczos C33_convergence_drops_last C33_nan_column_counterexample",
     "Proved, except that the last column of V is NaN if the residual vanishes exactly (shown) and that the data of the last iteration are missing when ConvergenceError is raised (shown)."),
    ("C34", "proved", "C34_restarted", ""),
    ("C35", "proved", "C35_monotone", ""),
    ("C36", "proved", "C36_total C36_own_qr C36_correct C36_residual C36_correct_general C36_idempotent C37_right_preconditioner_counterexample",
     "correct() multiplies by U instead of Mr*U: proved when Mr leaves the deflation space pointwise fixed; otherwise false (negation proved)."),
    ("C37", "proved", "C37_projection_unique C37_gmres C37_gmres_monotone C37_gmres_terminates C37_minres C37_minres_eq_gmres C37_minres_terminates C37_cg C37_cg_terminates C37_right_preconditioner_counterexample",
     "Proved when Mr leaves the deflation space pointwise fixed (e.g. no right preconditioner); otherwise a deflated solver can report residual norm zero for a wrong solution (proved)."),
    ("C38", "proved", "C38_E C38_C_gmres C38_C_minres C38_C_cg C38_B_ C38_B_gmres C38_B_minres C38_B_cg C38_cg_convergence_counterexample",
     "Exact arithmetic; DeflatedCg under the hypothesis that Mr fixes the deflation space. Finding (proved): after a ConvergenceError C and B_ of DeflatedCg have one column/row too many and Ritz fails."),
    ("C39", "proved", "C39_errors C39_ritz C39_hermitian C39_harmonic C39_improved C39_full_rank C39_arnoldi C39_arnoldi_invariant",
     "For any relation A V_n = V_{n+1} H with orthonormal columns; C39_arnoldi shows that Arnoldi runs satisfy it (up to 1e-14 norm(H) in the last column if flagged invariant)."),
    ("C40", "proved", "C40_ritz C40_harmonic C40_resnorms C40_E_hermitian C40_errors C40_gmres C40_minres C40_gmres_values C40_minres_values C40_cg C40_cg_values C40_cg_nan C40_gmres_call C40_minres_call C40_cg_call C40_resnorms_counterexample C40_explicit_counterexample C40_own_qr",
     "C40_gmres_call, C40_minres_call and C40_cg_call are the end-to-end statements about the output of the call; C40_gmres, C40_minres and C40_cg link the block matrices to runs of the deflated solvers whose last step was exact resp. (Cg) whose last residual is not exactly zero. C40_gmres_values and C40_minres_values cover values and coefficients also for an inexact last step, C40_cg_values those of Cg also for a zero residual; then all resnorms are NaN and the mode harmonic raises ValueError (C40_cg_nan). resnorms are right if E is Hermitian; the negation for non-Hermitian E is proved (the blocks E and E^H of S are exchanged)."),
    ("C41", "proved", "C41_terminates C41_best", ""),
    ("C42", "proved", "C42_ritzSmall C42_ritzExtremal C42_gens_ok", ""),
    ("C43", "proved", "C43_simple C43_zero_vectors_counterexample C43_union",
     "For which in {lm, lr, li} and n_vectors = 0 the code selects everything (negation proved)."),
    ("C44", "proved", "C44_history C44_first C44_no_factory C44_failure_keeps_state C44_shortcuts", ""),
    ("C45", "proved", "C45_get C45_record C45_record_antitone C45_getOps C45_getOps_mono C45_getOps_nonneg C45_estimate_error C45_estimate_mono", ""),
    ("C46", "proved", "C46_cg C46_cg_rejects C46_cg_exclude_zeros C46_cg_negative_counterexample C46_cg_intervals C46_intervals_dominate C46_cg_scale C46_minres C46_minres_one_sided C46_minres_nonneg C46_range C46_antitone C46_cg_step C46_minres_step C46_minres_step_counterexample C46_zero_base_counterexample C46_minres_intervals",
     "BoundCG accepts an all-negative spectrum (negation proved); BoundMinres raises ValueError on a one-sided spectrum and its get_step ignores the floor (negations proved). The remaining parts are proved."),
    ("C47", "proved", "C47_product C47_array C47_values C47_only_roots C47_zero_root", ""),
    ("C48", "proved", "C48_shape C48_lower C48_least C48_square C48_self_adjoint C48_antitone C48_arnoldi C48_gmres C48_dependent_counterexample C48_singular_counterexample",
     "Exact arithmetic. Findings: with dependent columns or singular square H the values are too small (negations proved)."),
    ("C49", "proved", "C49_angles C49_vectors C49_errors C49_first C49_last C49_unique qrLoop_gram C49_vectors_counterexample",
     "Under the contracts AngleOk of qr and svd for full rank F and G. Finding: the columns of U need not be orthonormal (proved)."),
    ("C50", "proved", "Conv.C50_options Conv.C50_assertions Conv.C50_result Conv.C50_convergence_propagates Conv.C50_none_iff_equal Conv.C50_Mr_counterexample Conv.C50_equal_counterexample Conv.C50_wrap_single Conv.C50_wrap_counterexample",
     "Mr is ignored, residual equal to tol yields None, wrapped inner products have the wrong shape for several columns (negations proved)."),
    ("C51", "proved", "C51_cg_erase C51_gmres_erase C51_minres_erase C51_cg C51_gmres C51_minres C51_cg_published C51_minres_published C51_gmres_published C51_gmres_dmgs",
     "Operation-counting copies of the solvers are proved to compute the same results (erase). C51_cg, C51_gmres, C51_minres count in any call without exact_solution that does not raise; the published theorems compare with operations(n) in exact arithmetic. CG vector updates are undercounted by the table (n-1 too few), an initial guess is not accounted for, and dmgs needs more inner products: recorded as findings."),
    ("C52", "proved", "C52_strakos C52_one_counterexample", ""),
    ("C53", "proved", "C53_cg C53_minres_definite C53_minres_indefinite C53_minres_intervals C53_minres_counterexample",
     "Exact arithmetic, any spectrum or interval object that covers the eigenvalues of M Ml A Mr. For indefinite spectra proved if the two intervals have equal length; otherwise false (negation proved for a run of three steps)."),
    ("C54", "proved", "C54_count C54_real C54_max C54_polymax",
     "Contract for numpy: deriv(1).roots() is the multiset of complex roots. Exact arithmetic."),
    ("C55", "proved", "C55_relation C55_sign C55_documented_counterexample C55_dimension C55_total C55_zero_product_counterexample C55_errors C55_setting C55_null",
     "Exact arithmetic. The sign of the perturbation in the documentation is wrong (negation proved); the NaN case is proved as a counterexample. ortho=house is not part of the model of this function."),
    ("C56", "proved", "C56_residual_basis C56_total C56_basis C56_relation C56_projection C56_perturbation C56_initial C56_projection_norm C56_errors C56_gmres",
     "Exact arithmetic. The statements about q, vdiff_norm and PWAW_norm assume that the rank test drops only a zero remainder; C56_relation gives the remainder term explicitly."),
    ("C57", "proved", "C57_order C57_simple C57_simple_minres C57_intervals C57_inclusion C57_inclusion_counterexample C57_negative_counterexample C57_all C57_empty_counterexample C57_strategy",
     "Real Ritz values, exact arithmetic. The documented inclusion property is proved without a selection and refuted with one."),
    ("C58", "proved", "C58_waw C58_omit_total C58_operator C58_omit C58_omit_exact C58_assumption C58_nonsingular C58_beta C58_epsilon C58_epsilon_ritz C58_epsilon_counterexample C58_pseudo C58_pseudo_type C58_contain C58_no_rows C58_intervals C58_bound_counterexample",
     "Exact arithmetic; contours of pseudopy are a parameter of which only nonnegativity of the length is used. That the returned numbers bound the residuals of the next system is refuted for self-adjoint operators."),
    ("C59", "proved", "C59_direct C59_argument C59_extrapolate C59_negative C59_omit C59_evaluate C59_evaluate_error C59_cache",
     "Exact arithmetic; bound_pseudo is a parameter of the evaluator, its properties are in C58."),
    ("C60", "proved", "C60_cg C60_solve C60_honest C60_ritz_orthonormal C60_ritz_vectors C60_simple C60_ritz C60_repeat",
     "Exact arithmetic. utils.qr is assumed to factorise linearly independent vectors exactly (with a non-Euclidean inner product the code does so if no diagonal entry of R falls below 1e-15, see C11; C92 proves the results for the code's own qr)."),
    ("C61", "proved", "C61_norm C61_norm_single C61_norm_pair C61_norm_error_iff C61_norm_squared C61_norm_indefinite_counterexample C61_orthonormality C61_orthonormality_zero C61_arnoldi_res C61_arnoldi C61_norm_MMlr_counterexample C61_shape_vecs",
     "Exact arithmetic for the norms; shape_vecs for arbitrary entries. norm accepts indefinite inner products and norm_MMlr fails with TypeError for every nonzero residual (negations proved)."),
    ("C62", "proved", "C62_solve C62_singular C62_ritz_orthonormal C62_ritz_vectors C62_ritz_span C62_get_vectors C62_simple C62_ritz C62_sequence C62_indefinite_counterexample",
     "As in C37, Mr is the identity. GMRES and MINRES stop early if the Krylov subspace is flagged invariant by the 1e-14 threshold; this case is named in ArnSolved."),
    ("C63", "proved", "Timed.C63_operator Timed.C63_transparent Timed.C63_measure Timed.C63_measure_ip Timed.C63_nested Timed.C63_adj_counterexample Timed.C63_constructor Timed.C63_converted Timed.C63_constructor_count Timed.C63_residual",
     "The class of an exception may differ between the two constructors, since the arguments are checked in another order."),
    ("C64", "proved", "C64_rejects C64_total C64_values C64_bound C64_residual_polynomial C64_gmres C64_vertices_counterexample",
     "The estimates are proved for contours that enclose the pseudospectrum by one circle; the contours themselves come from the package pseudopy and are parameters."),
    ("C65", "proved", "C65_common C65_common_order C65_arnoldi C65_arnoldi_kind C65_complex_inner_product C65_integer_counterexample C65_gmres C65_minres C65_gmres_error C65_dtype C65_cg C65_cg_error C65_cg_complex C65_cg_integer C65_cg_guess C65_qr C65_qr_error C65_qr_integer C65_resnorms C65_resnorms_counterexample",
     "Types are reduced to integer, real and complex; numpy's rules for casts and in-place operations are stated in Model/DType. ortho=house and the scipy branch of qr are not covered."),
    ("C66", "proved", "C66_operators C66_system C66_unchanged C66_cg C66_gmres C66_minres C66_repeat C66_gmres_alias C66_copy_needed C66_contract_needed",
     "Arrays are addresses in an explicit memory. Operators supplied by the user must not change existing arrays and must return their argument or a new array, as all of krypy's operators do. Deflated solvers, ortho=house and views of parts of arrays are not covered."),
    ("C67", "proved", "C67_gmres C67_minres C67_cg C67_null_residual C67_index_iff C67_index_counterexample C67_inconsistent C67_minres_inconsistent C67_cg_breakdown",
     "Exact arithmetic; ortho mgs, dmgs and lanczos. NaN is the explicit outcome nonFinite at the first division by zero."),
    ("C68", "proved", "C68_gmres C68_restarted C68_eventually C68_constants C68_stagnation",
     "Exact arithmetic; ortho mgs, dmgs and lanczos."),
    ("C69", "proved", "C69_iter C69_gmres C69_gmres_house C69_minres C69_cg C69_repr_cg C69_repr_minres C69_repr_gmres C69_repr_system C69_repr_text C69_repr_no_xk C69_repr_attrs C69_repr_counterexample",
     "The texts of numbers and array rows are parameters."),
    ("C70", "proved", "C70_poly_iff C70_gmres C70_minres C70_gmres_count C70_minres_count C70_cg C70_cg_count C70_eigenvectors C70_distinct C70_minpoly C70_low_rank",
     "Exact arithmetic; ortho mgs, dmgs and lanczos for Gmres and Minres."),
    ("C71", "proved", "C71_minres C71_gmres C71_minres_le PeakPlateau.step",
     "Exact arithmetic; ortho mgs, dmgs and lanczos for Gmres and Minres."),
    ("C72", "proved", "C72_cg C72_gmres C72_minres C72_cg_precond C72_cg_decreasing C72_minres_decreasing C72_gmres_decreasing C72_compare C72_minres_indefinite C72_cg_precond_counterexample",
     "Exact arithmetic; ortho mgs, dmgs and lanczos for Gmres and Minres. That the errors decrease is proved for M = Mr = identity and refuted for Cg with a preconditioner and for Minres with an indefinite operator."),
    ("C73", "proved", "C73_operators C73_adjoint C73_expressions C73_adjoint_counterexample",
     "Under the hypotheses of C12. That the adjoint is the conjugate transpose is proved for ip_B=None and characterised and refuted for other inner products."),
    ("C74", "proved", "C74_minres C74_harmonic C74_self_adjoint C74_cg_roots C74_cg_run",
     "Exact arithmetic. Inverse roots must be zero or larger than the threshold 1e-14 of line 639; over the reals, Hh is Hermitian. The polynomials exist for every size: routines which meet the contracts are constructed in Proofs/PseudoRoutines."),
    ("C75", "proved", "C75_gmres C75_minres C75_minres_spectrum C75_minres_bound C75_cg_spectrum C75_cg_bound C75_cg_any C75_cg_count C75_rayleigh C75_invariant C75_removes",
     "Exact arithmetic; Mr must be the identity on the deflation space (see C37); ortho mgs, dmgs and lanczos for DeflatedGmres and DeflatedMinres. For self-adjoint operators the bounds are in terms of eigenvalues, for DeflatedGmres in terms of polynomials."),
    ("C76", "proved", "C76_gmres C76_minres C76_gmres_count C76_minres_count C76_cg C76_cg_count C76_relative C76_hyp C76_trans C76_correction C76_absorbed C76_scaleA C76_scaleB C76_scaleM C76_scaleIp C76_basis C76_splitM C76_leftM",
     "Exact arithmetic. The common length of the runs of Gmres and Minres is asserted for runs which end below the tolerance (the invariance flag depends on the scaling)."),
    ("C77", "proved", "C77_converged C77_converged_normal C77_double C77_not_converged C77_zero_rhs C77_resnorm C77_norm C77_residual C77_dot C77_nan C77_nan_explicit C77_nan_counterexample",
     "Rounding errors are described by bounds for the elementary operations (Model/FlArith); that IEEE arithmetic meets them is a contract. Overflow is excluded by the assumption that the last residual norm is finite; the NaN case is refuted."),
    ("C78", "proved", "C78_honest C78_converged C78_trace C78_gap C78_solution C78_componentwise C78_refines",
     "Error bounds of the array operations are hypotheses (no underflow); nonfinite arrays are excluded from the gap, not from the guarantees. store_arnoldi=False (the stored arrays do not influence the iteration)."),
    ("C79", "proved", "C79_refines C79_column C79_relation C79_residual C79_componentwise C79_double C79_lanczos C79_lanczos_shape",
     "Error bounds of the array operations are hypotheses (no underflow); only finite runs are bounded. The bound of one step covers mgs, dmgs and lanczos with M; the a priori bound of a whole run covers mgs and dmgs with M=None and the Euclidean inner product; for lanczos (C79_lanczos) the bound of a column contains the computed subdiagonal entry."),
    ("C80", "proved", "C80_honest C80_trace C80_small C80_columns C80_residual C80_solution C80_rotation C80_solve C80_double C80_converged C80_refines",
     "Error bounds of the operations are hypotheses (no underflow); only finite runs are bounded. C80_honest, C80_trace and C80_refines cover mgs, dmgs and lanczos with all preconditioners; the bounds of the residual cover mgs and dmgs without preconditioners and with the Euclidean inner product. Back substitution is assumed to process rows (a sum of y_i and products in any order, one division)."),
    ("C81", "proved", "C81_factorisation C81_product C81_componentwise C81_double C81_refines",
     "The loop of qr which is used with ip_B (for ip_B=None the code calls scipy). Error bounds of the operations are hypotheses (no underflow); only finite results are bounded."),
    ("C82", "proved", "C82_honest C82_trace C82_residual C82_solution C82_componentwise C82_converged C82_refines",
     "Error bounds of the operations are hypotheses (no underflow, and no inner product of which only the imaginary part overflows); only finite runs are bounded. C82_honest, C82_trace, C82_residual, C82_converged and C82_refines cover all orthogonalisations and preconditioners; C82_solution covers ortho=lanczos without preconditioners. The bound is a posteriori: it contains the numbers R and the norms of the vectors z of the run."),
    ("C83", "proved", "C83_qr C83_dmgs C83_isometry C83_double C83_needed",
     "The loop of qr which is used with ip_B, and Arnoldi with ortho=dmgs, M=None. Error bounds of the operations are hypotheses (no underflow); only finite results are bounded. The assumption that no column is almost in the span of the earlier ones is a posteriori: it is stated with the computed diagonal entries."),
    ("C84", "proved", "C84_verified C84_restarted C84_restarted_gmres C84_deflated C84_refines C84_unverified",
     "Error bounds of the evaluation of residual norms are hypotheses (real double precision, at most 10^6 unknowns, no underflow, M=Ml=ip_B=None); nothing is assumed about the operations of the method, the projection and the restarts. Only finite residual norms are bounded. C84_unverified is a finding: the result of a deflated solver without iterations is not checked."),
    ("C85", "proved", "C85_house C85_orthonormal C85_orthonormal_linear C85_relation C85_invariant C85_refines_house C85_refines_apply C85_refines_init C85_refines_advance",
     "House and Arnoldi with ortho=house (M=None, ip_B=None). Error bounds of the scalar operations, norms and dot products are hypotheses (u <= 1/1000, no underflow); only finite results are bounded, including the normalisation factor of each transformation, which the code does not store."),
    ("C86", "proved", "C86_honest C86_trace C86_close C86_optimal C86_residual C86_minimal C86_solution C86_converged C86_refines",
     "Gmres with ortho=house (M=Ml=Mr=None, ip_B=None). Error bounds of the scalar operations, norms, dot products, rotations, back substitution and linear combinations are hypotheses (u <= 1/1000, no underflow); only finite results are bounded. C86_honest needs none of these."),
    ("C87", "proved", "C87_complement C87_last C87_twice C87_apply_one C87_apply C87_single C87_single_adj C87_orthogonal C87_solve C87_solve_adj C87_gram C87_oblique C87_bdd C87_bdd_orthogonal C87_inner C87_columns C87_constructor C87_needed C87_refines",
     "Error bounds of sums, differences, inner products, linear combinations, of the factorisation scipy.linalg.qr and of the triangular solvers are hypotheses; only finite results are bounded. P is the exact projection for the stored bases V and W; C87_columns relates the result to the columns passed by the caller. Arrays a with one column."),
    ("C88", "proved", "C88_empty_total C88_empty_correct C88_empty_hooks C88_empty_gmres C88_empty_minres C88_empty_cg C88_correct C88_hooks C88_gmres C88_minres C88_cg C88_recycling_gmres C88_recycling_minres",
     "Exact arithmetic. The claims without basis vectors hold for every inner product and every operator, also inadmissible ones; those for two bases need an invertible <U, Ml A Mr U> and correct factorisation routines (as C36). Equality of everything but the attributes U, C, E of the projection: outcome including the kind of exception, xk, resnorms, errnorms, warnings, basis vectors."),
    ("C89", "proved", "C89_qr_erase C89_gmres_erase C89_minres_erase C89_cg_erase C89_qr C89_own C89_setup C89_gmres C89_minres C89_cg C89_gmres_estimate C89_minres_estimate C89_cg_estimate",
     "Exact arithmetic; the counting model returns the same results as the model of C36-C38 (*_erase). Products V.dot(c) of an (N,k) array count as k vector updates (as in estimate_time). The comparison with estimate_time is for the default parameters and calls which converged with at least one iteration without warnings; without these assumptions the counts are given in terms of the number of explicitly computed residuals (C89_gmres, C89_minres, C89_cg)."),
    ("C90", "proved", "C90_qr C90_projection C90_oblique C90_same C90_cg C90_gmres C90_minres C90_unchanged C90_repeat C90_uaps C90_copy_needed",
     "Exact arithmetic on the contents of arrays. In the deflated solvers A, Ml and Mr may return arrays which they keep or the argument itself, as long as these arrays existed when the system was constructed or are new; M must return a new array or its argument. Views (slices of Q, V[:, [i]]) are modelled as arrays of columns with addresses of their own; ortho='house' is not covered. C90_repeat assumes that the test Y is X in Projection has the same outcome in both calls."),
    ("C91", "proved", "C91_close C91_optimal C91_residual C91_minimal C91_basis C91_solution C91_double",
     "Gmres with ortho=dmgs (M=Ml=Mr=None, ip_B=None; C91_close to C91_minimal for every ortho in mgs, dmgs whose basis is almost orthonormal). Error bounds of the vector operations, norms, inner products, rotations, back substitution and linear combinations are hypotheses (no underflow); only finite results are bounded. C91_basis and C91_solution assume that the subdiagonal entries of H are not tiny (||A v_n|| <= kappa H[n+1,n] with m^3 eta kappa <= 1/1000)."),
    ("C92", "proved", "C92_solve C92_get_vectors C92_simple C92_ritz C92_sequence C92_cg_get_vectors C92_cg_simple C92_cg_ritz C92_cg_sequence",
     "Exact arithmetic; Mr is the identity. Hypotheses on the systems instead of a contract of utils.qr: Minv is the inverse of M, ||x||_{M^-1} <= 1e15 ||x||, ||x||_{M^-1} <= 1e15 ||Ml A Mr x||, and the norms ||.||_{M^-1} of two systems of the sequence differ by at most the factor 1e15. scipy.linalg.qr (of the small matrix) and eigh obey their contracts. GMRES and MINRES: see ArnSolved in C62; systems with 0 outside the field of values."),
    ("C93", "proved", "C93_solvers C93_get_vectors C93_factories C93_union C93_union_empty C93_factory_used C93_solve C93_unchanged C93_iterate C93_recycled C93_recycled_minres",
     "Exact arithmetic on the contents of arrays, with the contracts of C90 for operators. A factory is a program which changes no existing array; krypy's factories are shown to be such. The selection of Ritz vectors (evaluators, generators, eigenvalue routines) is a parameter which reads the memory and returns numbers. In sequences the systems are constructed before the first call; C93_solve covers a call in any later memory. ortho='house' is not covered."),
]
claims = [{"property": p, "status": s, "theorems": ["Krypy." + t for t in ts.split()], "note": n}
          for p, s, ts, n in CLAIMS]
with open(os.path.join(ROOT, "MANIFEST.json"), "w") as f:
    json.dump({"claims": claims}, f, indent=1)
    f.write("\n")
