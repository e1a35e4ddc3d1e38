# Axioms of the theorems in MANIFEST.json

Output of `#print axioms`, grouped; regenerate with `tools/axioms.sh`.
All names are in the namespace `Krypy`.

## none (1 theorems)

`Conv.C50_wrap_single`

## Classical.choice, Quot.sound, propext (626 theorems)

`C04_add_total`, `C04_built_total`, `C04_membership_disjoint`, `C05_endpoints`, `C05_order_independent`, `C06_max`, `C06_max_abs`, `C06_max_neg`, `C06_min`, `C06_min_abs`, `C06_min_pos`, `C07_and`, `C07_distance`, `C07_or`, `C08_individual`, `C08_interval`, `C08_other_mode`, `C09_maps`, `C09_matrix`, `C09_unitary`, `C10_annihilates`, `C10_real`, `C10_unitary`, `C11_distance`, `C11_own_qr`, `C11_qr`, `C11_rank_deficient`, `C11_reorthos`, `C11_threshold_counterexample`, `C12_formula`, `C12_orthogonal`, `C12_own_qr`, `C12_projection`, `C12_singular`, `C13_complement_adjoint`, `C13_iterations`, `C13_iterations_error`, `C13_refinement`, `C14_flags`, `C14_none`, `C14_residual`, `C15_minimal`, `C15_not_worse`, `C15_threshold_counterexample`, `C16_callable`, `C16_euclid`, `C16_implied`, `C16_missing`, `C16_operator_counterexample`, `C16_operator_iff`, `C17_advance_total`, `C17_arnoldi`, `C17_get_last`, `C17_preconditioned`, `C17_zero_product_counterexample`, `C18_lanczos_eq_mgs`, `C18_tridiagonal`, `C19_advance_total`, `C19_eq_mgs`, `C19_gmres`, `C19_mgs_eq`, `C19_rejects`, `C19_relation`, `C19_zero_product_counterexample`, `C20_invariant`, `C20_krylov`, `C21_dimension`, `C21_exhausted`, `C21_result`, `C21_terminates`, `C22_arnoldi_returned`, `C22_cg`, `C22_cg_returned`, `C22_convergence`, `C22_deflated_cg`, `C22_deflated_gmres`, `C22_deflated_minres`, `C22_gmres`, `C22_gmres_house`, `C22_invariant_counterexample`, `C22_maxiter_zero_counterexample`, `C22_minres`, `C22_no_silent_failure`, `C22_returned`, `C23_convergence`, `C23_returned`, `C24_earlier`, `C24_error_norm`, `C24_errors`, `C24_history`, `C24_terminates`, `C25_cg`, `C25_gmres`, `C25_gmres_house`, `C25_minres`, `C26_optimal`, `C27_monotone`, `C27_updated_eq_explicit`, `C28_terminates`, `C28_total`, `C29_eq_gmres`, `C29_gmres_eq`, `C29_monotone`, `C29_optimal`, `C29_terminates`, `C29_total`, `C30_optimal`, `C31_residuals`, `C32_terminates`, `C33_convergence_drops_last`, `C33_lanczos`, `C33_nan_column_counterexample`, `C34_restarted`, `C35_monotone`, `C36_correct`, `C36_correct_general`, `C36_idempotent`, `C36_own_qr`, `C36_residual`, `C36_total`, `C37_cg`, `C37_cg_terminates`, `C37_gmres`, `C37_gmres_monotone`, `C37_gmres_terminates`, `C37_minres`, `C37_minres_eq_gmres`, `C37_minres_terminates`, `C37_projection_unique`, `C37_right_preconditioner_counterexample`, `C38_B_`, `C38_B_cg`, `C38_B_gmres`, `C38_B_minres`, `C38_C_cg`, `C38_C_gmres`, `C38_C_minres`, `C38_E`, `C38_cg_convergence_counterexample`, `C39_arnoldi`, `C39_arnoldi_invariant`, `C39_errors`, `C39_full_rank`, `C39_harmonic`, `C39_hermitian`, `C39_improved`, `C39_ritz`, `C40_E_hermitian`, `C40_cg`, `C40_cg_call`, `C40_cg_nan`, `C40_cg_values`, `C40_errors`, `C40_explicit_counterexample`, `C40_gmres`, `C40_gmres_call`, `C40_gmres_values`, `C40_harmonic`, `C40_minres`, `C40_minres_call`, `C40_minres_values`, `C40_own_qr`, `C40_resnorms`, `C40_resnorms_counterexample`, `C40_ritz`, `C41_best`, `C41_terminates`, `C42_gens_ok`, `C42_ritzExtremal`, `C42_ritzSmall`, `C43_simple`, `C43_zero_vectors_counterexample`, `C45_estimate_mono`, `C45_get`, `C45_getOps_mono`, `C45_getOps_nonneg`, `C45_record`, `C45_record_antitone`, `C46_antitone`, `C46_cg`, `C46_cg_exclude_zeros`, `C46_cg_intervals`, `C46_cg_negative_counterexample`, `C46_cg_rejects`, `C46_cg_scale`, `C46_cg_step`, `C46_intervals_dominate`, `C46_minres`, `C46_minres_intervals`, `C46_minres_nonneg`, `C46_minres_one_sided`, `C46_minres_step`, `C46_minres_step_counterexample`, `C46_range`, `C46_zero_base_counterexample`, `C47_array`, `C47_only_roots`, `C47_product`, `C47_values`, `C47_zero_root`, `C48_antitone`, `C48_arnoldi`, `C48_dependent_counterexample`, `C48_gmres`, `C48_least`, `C48_lower`, `C48_self_adjoint`, `C48_shape`, `C48_singular_counterexample`, `C48_square`, `C49_angles`, `C49_errors`, `C49_first`, `C49_last`, `C49_unique`, `C49_vectors`, `C49_vectors_counterexample`, `C51_cg`, `C51_cg_erase`, `C51_cg_published`, `C51_gmres`, `C51_gmres_dmgs`, `C51_gmres_erase`, `C51_gmres_published`, `C51_minres`, `C51_minres_erase`, `C51_minres_published`, `C52_one_counterexample`, `C52_strakos`, `C53_cg`, `C53_minres_counterexample`, `C53_minres_definite`, `C53_minres_indefinite`, `C53_minres_intervals`, `C54_count`, `C54_max`, `C54_polymax`, `C54_real`, `C55_dimension`, `C55_documented_counterexample`, `C55_errors`, `C55_null`, `C55_relation`, `C55_setting`, `C55_sign`, `C55_total`, `C55_zero_product_counterexample`, `C56_basis`, `C56_errors`, `C56_gmres`, `C56_initial`, `C56_perturbation`, `C56_projection`, `C56_projection_norm`, `C56_relation`, `C56_residual_basis`, `C56_total`, `C57_all`, `C57_empty_counterexample`, `C57_inclusion`, `C57_inclusion_counterexample`, `C57_intervals`, `C57_negative_counterexample`, `C57_order`, `C57_simple`, `C57_simple_minres`, `C57_strategy`, `C58_assumption`, `C58_beta`, `C58_bound_counterexample`, `C58_contain`, `C58_epsilon`, `C58_epsilon_counterexample`, `C58_epsilon_ritz`, `C58_intervals`, `C58_no_rows`, `C58_nonsingular`, `C58_omit`, `C58_omit_exact`, `C58_omit_total`, `C58_operator`, `C58_pseudo`, `C58_pseudo_type`, `C58_waw`, `C59_argument`, `C59_cache`, `C59_direct`, `C59_evaluate`, `C59_evaluate_error`, `C59_extrapolate`, `C59_negative`, `C59_omit`, `C60_cg`, `C60_honest`, `C60_repeat`, `C60_ritz`, `C60_ritz_orthonormal`, `C60_ritz_vectors`, `C60_simple`, `C60_solve`, `C61_arnoldi`, `C61_arnoldi_res`, `C61_norm`, `C61_norm_MMlr_counterexample`, `C61_norm_error_iff`, `C61_norm_indefinite_counterexample`, `C61_norm_pair`, `C61_norm_single`, `C61_norm_squared`, `C61_orthonormality`, `C61_orthonormality_zero`, `C61_shape_vecs`, `C62_get_vectors`, `C62_indefinite_counterexample`, `C62_ritz`, `C62_ritz_orthonormal`, `C62_ritz_span`, `C62_ritz_vectors`, `C62_sequence`, `C62_simple`, `C62_singular`, `C62_solve`, `C64_bound`, `C64_gmres`, `C64_rejects`, `C64_residual_polynomial`, `C64_total`, `C64_values`, `C64_vertices_counterexample`, `C65_arnoldi`, `C65_cg`, `C65_cg_error`, `C65_complex_inner_product`, `C65_gmres`, `C65_gmres_error`, `C65_integer_counterexample`, `C65_minres`, `C65_qr`, `C65_qr_error`, `C65_qr_integer`, `C65_resnorms`, `C65_resnorms_counterexample`, `C66_cg`, `C66_contract_needed`, `C66_copy_needed`, `C66_gmres`, `C66_gmres_alias`, `C66_minres`, `C66_operators`, `C66_repeat`, `C66_system`, `C66_unchanged`, `C67_cg`, `C67_cg_breakdown`, `C67_gmres`, `C67_inconsistent`, `C67_index_counterexample`, `C67_index_iff`, `C67_minres`, `C67_minres_inconsistent`, `C67_null_residual`, `C68_constants`, `C68_eventually`, `C68_gmres`, `C68_restarted`, `C68_stagnation`, `C69_cg`, `C69_gmres`, `C69_gmres_house`, `C69_iter`, `C69_minres`, `C69_repr_cg`, `C69_repr_counterexample`, `C69_repr_gmres`, `C69_repr_minres`, `C70_cg`, `C70_cg_count`, `C70_distinct`, `C70_eigenvectors`, `C70_gmres`, `C70_gmres_count`, `C70_low_rank`, `C70_minpoly`, `C70_minres`, `C70_minres_count`, `C70_poly_iff`, `C71_gmres`, `C71_minres`, `C71_minres_le`, `C72_cg`, `C72_cg_decreasing`, `C72_cg_precond`, `C72_cg_precond_counterexample`, `C72_compare`, `C72_gmres`, `C72_gmres_decreasing`, `C72_minres`, `C72_minres_decreasing`, `C72_minres_indefinite`, `C73_adjoint`, `C73_adjoint_counterexample`, `C73_expressions`, `C73_operators`, `C74_cg_roots`, `C74_cg_run`, `C74_harmonic`, `C74_minres`, `C74_self_adjoint`, `C75_cg_any`, `C75_cg_bound`, `C75_cg_count`, `C75_cg_spectrum`, `C75_gmres`, `C75_invariant`, `C75_minres`, `C75_minres_bound`, `C75_minres_spectrum`, `C75_rayleigh`, `C75_removes`, `C76_absorbed`, `C76_basis`, `C76_cg`, `C76_cg_count`, `C76_correction`, `C76_gmres`, `C76_gmres_count`, `C76_hyp`, `C76_leftM`, `C76_minres`, `C76_minres_count`, `C76_relative`, `C76_scaleA`, `C76_scaleB`, `C76_scaleIp`, `C76_scaleM`, `C76_splitM`, `C76_trans`, `C77_converged`, `C77_converged_normal`, `C77_dot`, `C77_double`, `C77_nan_counterexample`, `C77_nan_explicit`, `C77_norm`, `C77_not_converged`, `C77_residual`, `C77_resnorm`, `C77_zero_rhs`, `C78_componentwise`, `C78_converged`, `C78_gap`, `C78_honest`, `C78_refines`, `C78_solution`, `C78_trace`, `C79_column`, `C79_componentwise`, `C79_double`, `C79_lanczos`, `C79_lanczos_shape`, `C79_refines`, `C79_relation`, `C79_residual`, `C80_columns`, `C80_converged`, `C80_double`, `C80_honest`, `C80_refines`, `C80_residual`, `C80_rotation`, `C80_small`, `C80_solution`, `C80_solve`, `C80_trace`, `C81_componentwise`, `C81_double`, `C81_factorisation`, `C81_product`, `C81_refines`, `C82_componentwise`, `C82_converged`, `C82_honest`, `C82_refines`, `C82_residual`, `C82_solution`, `C82_trace`, `C83_dmgs`, `C83_double`, `C83_isometry`, `C83_needed`, `C83_qr`, `C84_deflated`, `C84_refines`, `C84_restarted`, `C84_restarted_gmres`, `C84_unverified`, `C84_verified`, `C85_house`, `C85_invariant`, `C85_orthonormal`, `C85_orthonormal_linear`, `C85_refines_advance`, `C85_refines_apply`, `C85_refines_house`, `C85_refines_init`, `C85_relation`, `C86_close`, `C86_converged`, `C86_honest`, `C86_minimal`, `C86_optimal`, `C86_refines`, `C86_residual`, `C86_solution`, `C86_trace`, `C87_apply`, `C87_apply_one`, `C87_bdd`, `C87_bdd_orthogonal`, `C87_columns`, `C87_complement`, `C87_constructor`, `C87_gram`, `C87_inner`, `C87_last`, `C87_needed`, `C87_oblique`, `C87_orthogonal`, `C87_refines`, `C87_single`, `C87_single_adj`, `C87_solve`, `C87_solve_adj`, `C87_twice`, `C88_cg`, `C88_correct`, `C88_empty_cg`, `C88_empty_correct`, `C88_empty_gmres`, `C88_empty_hooks`, `C88_empty_minres`, `C88_empty_total`, `C88_gmres`, `C88_hooks`, `C88_minres`, `C88_recycling_gmres`, `C88_recycling_minres`, `C89_cg`, `C89_cg_erase`, `C89_cg_estimate`, `C89_gmres`, `C89_gmres_erase`, `C89_gmres_estimate`, `C89_minres`, `C89_minres_erase`, `C89_minres_estimate`, `C89_own`, `C89_qr`, `C89_qr_erase`, `C89_setup`, `C90_cg`, `C90_copy_needed`, `C90_gmres`, `C90_minres`, `C90_oblique`, `C90_projection`, `C90_qr`, `C90_repeat`, `C90_same`, `C90_uaps`, `C90_unchanged`, `C91_basis`, `C91_close`, `C91_double`, `C91_minimal`, `C91_optimal`, `C91_residual`, `C91_solution`, `C92_cg_get_vectors`, `C92_cg_ritz`, `C92_cg_sequence`, `C92_cg_simple`, `C92_get_vectors`, `C92_ritz`, `C92_sequence`, `C92_simple`, `C92_solve`, `C93_factories`, `C93_factory_used`, `C93_get_vectors`, `C93_iterate`, `C93_recycled`, `C93_recycled_minres`, `C93_solve`, `C93_solvers`, `C93_unchanged`, `C93_union`, `C93_union_empty`, `Conv.C50_wrap_counterexample`, `Ops.C01_denotation`, `Ops.C01_get_linearoperator`, `Ops.C01_identity_scalar_counterexample`, `Ops.C01_negative_power_counterexample`, `Ops.C01_star`, `Ops.C02_adjoint`, `Ops.C02_product`, `Ops.C03_empty_counterexample`, `Ops.C03_identity_counterexample`, `Ops.C03_rejects`, `Ops.C03_shapes`, `Ops.C03_star_counterexample`, `Ops.C03_timed_counterexample`, `Ops.C03_zero_counterexample`, `PeakPlateau.step`, `QuickCall.residual`, `Timed.C63_adj_counterexample`, `Timed.C63_constructor`, `Timed.C63_constructor_count`, `Timed.C63_converted`, `Timed.C63_measure`, `Timed.C63_measure_ip`, `Timed.C63_nested`, `Timed.C63_operator`, `Timed.C63_residual`, `Timed.C63_transparent`, `qrLoop_gram`

## Quot.sound, propext (12 theorems)

`C07_make`, `C44_history`, `C44_no_factory`, `C44_shortcuts`, `C45_estimate_error`, `C45_getOps`, `C65_common`, `C65_common_order`, `C69_repr_attrs`, `C69_repr_system`, `C69_repr_text`, `Conv.C50_assertions`

## propext (20 theorems)

`C06_empty_returns_error_object`, `C07_contains`, `C25_good_initial_guess`, `C25_zero_rhs`, `C43_union`, `C44_failure_keeps_state`, `C44_first`, `C65_arnoldi_kind`, `C65_cg_complex`, `C65_cg_guess`, `C65_cg_integer`, `C65_dtype`, `C69_repr_no_xk`, `C77_nan`, `Conv.C50_Mr_counterexample`, `Conv.C50_convergence_propagates`, `Conv.C50_equal_counterexample`, `Conv.C50_none_iff_equal`, `Conv.C50_options`, `Conv.C50_result`
