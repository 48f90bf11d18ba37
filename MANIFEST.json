{
 "claims": [
  {
   "property": "C01",
   "status": "proved",
   "theorems": [
    "Verif.CM.C01_addConstraint",
    "Verif.CM.C01_addEquality",
    "Verif.CM.C01_allVariables",
    "Verif.CM.C01_negative_index_ub"
   ],
   "note": "Exact acceptance criterion, no change on failure, UB exactly for a negative entry after a valid prefix."
  },
  {
   "property": "C02",
   "status": "proved",
   "theorems": [
    "Verif.CM.C02_multipliers_contiguous",
    "Verif.CM.C02_violated_by_late_resize"
   ],
   "note": "Under the stated premise (number of variables fixed first). Late resize breaks it (F12), proved as a separate theorem."
  },
  {
   "property": "C03",
   "status": "proved",
   "theorems": [
    "Verif.CM.C03_indices_in_system"
   ],
   "note": ""
  },
  {
   "property": "C04",
   "status": "proved",
   "theorems": [
    "Verif.CM.C04_identifiers_stable"
   ],
   "note": ""
  },
  {
   "property": "C05",
   "status": "partial",
   "theorems": [
    "Verif.CApi.C05_addConstraint",
    "Verif.CApi.C05_variables",
    "Verif.CApi.C05_accepts",
    "Verif.CApi.C05_new_calls",
    "Verif.CApi.C05_dense_calls",
    "Verif.CApi.C05_sparse_partial",
    "Verif.CApi.C05_sparse_violated",
    "Verif.CApi.C05_sparse_truncation_violated",
    "Verif.CApi.C05_quadratic_cost_partial",
    "Verif.CApi.C05_quadratic_cost_violated",
    "Verif.CApi.C05_c_quadratic_cost_violated",
    "Verif.CApi.C05_inequalities_violated",
    "Verif.CApi.C05_linear_cost_violated"
   ],
   "note": "Truth table of every construction call. Violated (F8, F36, F37): an LMI or quadratic cost on an invalid variable list, two-sided inequalities and AddLinearCost report a wrong status or identifier; the positive theorems cover valid arguments."
  },
  {
   "property": "C06",
   "status": "partial",
   "theorems": [
    "Verif.CApi.C06_fresh_partial",
    "Verif.CApi.C06_locked_violated",
    "Verif.CApi.C06_check_counts"
   ],
   "note": "Violated (F1): after the first solve every checked call is refused, for every program. The positive part covers programs not solved yet."
  },
  {
   "property": "C07",
   "status": "partial",
   "theorems": [
    "Verif.Options.C07_transfer",
    "Verif.Options.C07_transfer_injective",
    "Verif.Options.C07_default_values",
    "Verif.Options.C07_defaults_partial",
    "Verif.Options.C07_defaults_violated"
   ],
   "note": "Transfer of options is exact and injective; the default values are as documented. Violated (F7): SetDefaultOptions leaves two fields; the partial theorem gives the exact condition on their old content."
  },
  {
   "property": "C08",
   "status": "partial",
   "theorems": [
    "Verif.IterStats.C08_index",
    "Verif.IterStats.C08_null",
    "Verif.IterStats.C08_solve_partial",
    "Verif.IterStats.C08_unsolved_violated",
    "Verif.IterStats.C08_failed_violated",
    "Verif.IterStats.C08_stale_slot_violated",
    "Verif.IterStats.C08_stale_history_violated"
   ],
   "note": "Exact indexing for every integer, and by loop invariant the history of every solve that completed an iteration (except warm starts whose first factorization fails). Violated before a solve (F13) and for stale entries (F38)."
  },
  {
   "property": "C09",
   "status": "partial",
   "theorems": [
    "Verif.Layout.C09_partition_partial",
    "Verif.Layout.C09_sizes",
    "Verif.Layout.C09_soc_single_violated"
   ],
   "note": "For all lists of constraints without one-row second-order cones; for those the claim is violated (F34)."
  },
  {
   "property": "C10",
   "status": "partial",
   "theorems": [
    "Verif.Layout.C10_slot_partial",
    "Verif.Layout.C10_overrun_violated",
    "Verif.SolveLoop.C10_same_limit_partial",
    "Verif.SolveLoop.C25_warm_start_overrun"
   ],
   "note": "In range as long as the limit does not exceed that of the allocating solve; violated for a warm start with a larger limit (F5)."
  },
  {
   "property": "C100",
   "status": "partial",
   "theorems": [
    "Verif.MatrixCentering.C100_defined",
    "Verif.MatrixCentering.C100_decrease_partial",
    "Verif.MatrixCentering.C100_quadratic_partial",
    "Verif.MatrixCentering.C100_centering_partial",
    "Verif.MatrixCentering.C100_equations_violated",
    "Verif.MatrixCentering.C100_solve_violated"
   ],
   "note": "Assumes that no pivot of the indefinite factorization is replaced, and that no step is too long (F42); C100_equations_violated shows that the equations fail when a pivot is replaced (F89). Definedness needs neither assumption. C100_solve_violated: a whole Solve reports success with the equation violated."
  },
  {
   "property": "C101",
   "status": "partial",
   "theorems": [
    "Verif.MatrixCentering.C101_central",
    "Verif.MatrixCentering.C101_iterations_partial"
   ],
   "note": "C101_central is the full existence and uniqueness statement. The number of iterations assumes, as C100, that no pivot is replaced (C100_equations_violated, F89) and no step is too long."
  },
  {
   "property": "C102",
   "status": "partial",
   "theorems": [
    "Verif.Clique.C102_post_order_partial",
    "Verif.Clique.C102_post_order_violated"
   ],
   "note": "Exact contents, exceptions and elimination order of the post order. The full claim (every non-empty separator is listed) fails: C102_post_order_violated (F90)."
  },
  {
   "property": "C103",
   "status": "partial",
   "theorems": [
    "Verif.Dense.C103_rank_update_partial",
    "Verif.Dense.C103_zero_pivot_violated",
    "Verif.Dense.C103_downdate_violated",
    "Verif.Dense.C103_sign_violated"
   ],
   "note": "Correctness of the update for non-zero pivots, success for positive pivots (updates, and downdates to positive definite matrices), and the start from no decomposition. The full claim fails for zero pivots, singular downdates and the sign (F91, F92)."
  },
  {
   "property": "C104",
   "status": "partial",
   "theorems": [
    "Verif.Dense.C104_sign_partial",
    "Verif.Dense.C104_positive_violated",
    "Verif.Dense.C104_negative_violated"
   ],
   "note": "Exact meaning of the sign when no pivot is replaced. The full claim fails for replaced pivots (F93)."
  },
  {
   "property": "C105",
   "status": "partial",
   "theorems": [
    "Verif.Dense.C105_object",
    "Verif.Dense.C105_compute_partial",
    "Verif.Dense.C105_solve_violated"
   ],
   "note": "Objects that hold a factorization: proved. After compute: proved if no pivot is replaced; the full claim fails otherwise (F94)."
  },
  {
   "property": "C106",
   "status": "partial",
   "theorems": [
    "Verif.Peirce.C106_transform_violated",
    "Verif.Peirce.C106_essential_violated",
    "Verif.Peirce.C106_transform_partial",
    "Verif.Peirce.C106_essential_domain"
   ],
   "note": "Every call is undefined because the sizes do not fit (F95); the decomposition is proved for the same statements with the sizes the comment implies."
  },
  {
   "property": "C107",
   "status": "partial",
   "theorems": [
    "Verif.HyperTests.C107_hermitian_partial",
    "Verif.HyperTests.C107_equal_partial",
    "Verif.HyperTests.C107_nan_violated",
    "Verif.HyperTests.C107_scale_violated"
   ],
   "note": "Proved for matrices without NaN with the tolerance of the code; NaN is accepted and the tolerance is absolute (F96)."
  },
  {
   "property": "C108",
   "status": "partial",
   "theorems": [
    "Verif.Dense.C108_compute_partial",
    "Verif.Dense.C108_stale_violated",
    "Verif.Dense.C108_uninitialised_violated"
   ],
   "note": "Proved after compute; rankUpdate leaves the norm stale or uninitialised (F97)."
  },
  {
   "property": "C109",
   "status": "partial",
   "theorems": [
    "Verif.MatlabLinear.C109_class_partial",
    "Verif.MatlabLinear.C109_affine_violated",
    "Verif.MatlabLinear.C109_cost_violated",
    "Verif.MatlabLinear.C109_long_violated",
    "Verif.MatlabLinear.C109_columns_violated"
   ],
   "note": "Proved for arrays that fit; sizes that do not fit are not refused (F98)."
  },
  {
   "property": "C11",
   "status": "proved",
   "theorems": [
    "Verif.Clique.C11_elimination_order"
   ],
   "note": "Exact outcome characterisation; termination via explicit fuel bound."
  },
  {
   "property": "C110",
   "status": "partial",
   "theorems": [
    "Verif.Sup.C110_same_partial",
    "Verif.Sup.C110_duals_violated",
    "Verif.Sup.C110_unchecked_violated",
    "Verif.Sup.C110_equation_violated",
    "Verif.Sup.C110_dropped_violated"
   ],
   "note": "The second constructor accepts the order, supernodes and separators of the first and arrives at the same data, permutation and, without dual variables, solver. Violated (F100): dual variables cannot be given, and supernodes that do not fit the index sets are accepted and lead to wrong solutions."
  },
  {
   "property": "C111",
   "status": "partial",
   "theorems": [
    "Verif.MatlabLinear.C111_duals_partial",
    "Verif.MatlabLinear.C111_factor_violated"
   ],
   "note": "Proved for linear and matrix inequalities, for programs found infeasible and for solves that recorded an iteration. Violated (F101): after a failed first factorisation the class reads statistics that were never set."
  },
  {
   "property": "C12",
   "status": "proved",
   "theorems": [
    "Verif.Clique.C12_supernodes_partition"
   ],
   "note": ""
  },
  {
   "property": "C13",
   "status": "proved",
   "theorems": [
    "Verif.Clique.C13_front_contains_clique"
   ],
   "note": ""
  },
  {
   "property": "C14",
   "status": "proved",
   "theorems": [
    "Verif.Clique.C14_running_intersection",
    "Verif.Clique.C14_fill_in_minimal"
   ],
   "note": ""
  },
  {
   "property": "C15",
   "status": "proved",
   "theorems": [
    "Verif.Sup.C15_permutation"
   ],
   "note": "The permutation is a bijection, inverse tables agree, and blocks are consecutive in elimination order."
  },
  {
   "property": "C16",
   "status": "partial",
   "theorems": [
    "Verif.Sup.C16_dimension_partial",
    "Verif.Sup.C16_violated"
   ],
   "note": "False as stated in the list: unused variables make N smaller than the declared number of variables (C16_violated, finding F3). Proved when every variable is used."
  },
  {
   "property": "C17",
   "status": "proved",
   "theorems": [
    "Verif.Sup.C17_storage",
    "Verif.Sup.C17_lookup",
    "Verif.Sup.C17_separator_cells",
    "Verif.Sup.C17_get"
   ],
   "note": "Cells of a well-formed pattern have distinct in-bounds aligned addresses; look-up, separator table and Get are exact."
  },
  {
   "property": "C18",
   "status": "partial",
   "theorems": [
    "Verif.Sup.C18_assembly_partial",
    "Verif.Sup.C18_violated"
   ],
   "note": "Proved under the hypothesis that no block is written directly with shifted labels; without it the claim is false (C18_violated, finding F2)."
  },
  {
   "property": "C19",
   "status": "proved",
   "theorems": [
    "Verif.Sup.C19_residuals",
    "Verif.Sup.C19_residuals_in_elimination_order"
   ],
   "note": "Both entry points for the right-hand sides."
  },
  {
   "property": "C20",
   "status": "partial",
   "theorems": [
    "C20_cholesky_total",
    "C20_cholesky_solves",
    "C20_ldlt_total_partial",
    "C20_ldlt_solves",
    "C20_ldlt_empty_block_violated",
    "C20_ldlt_small_pivot_violated"
   ],
   "note": "Proved for every pattern and right-hand side, Cholesky in full; LDLT whenever it is defined and no pivot is replaced. Missing because false: with an empty block the LDLT variant has undefined behaviour, and a small 1x1 pivot is replaced without report (both shown by the _violated theorems)."
  },
  {
   "property": "C21",
   "status": "proved",
   "theorems": [
    "Verif.Sup.C21_wrong_length",
    "Verif.Sup.C21_solves",
    "Verif.Sup.C21_assembled_system",
    "Verif.Sup.C21_qr",
    "Verif.Sup.C21_late_refinement_violated",
    "Verif.Sup.C21_duplicate_clique_violated"
   ],
   "note": "Exact factor (no replaced pivot); a duplicate clique next to an equality constraint gives undefined behaviour in Factor (F21), late change of the refinement count is undefined (F24), both proved."
  },
  {
   "property": "C22",
   "status": "proved",
   "theorems": [
    "Verif.Elim.C22_perfect_order"
   ],
   "note": ""
  },
  {
   "property": "C23",
   "status": "proved",
   "theorems": [
    "Verif.Elim.C23_maximum_cardinality",
    "Verif.Elim.C23_empty_graph_violated"
   ],
   "note": "An empty graph is undefined behaviour (proved)."
  },
  {
   "property": "C24",
   "status": "proved",
   "theorems": [
    "Verif.Elim.C24_chordal",
    "Verif.Elim.C24_weighted_violated"
   ],
   "note": "Includes the correctness proof of maximum cardinality search; the unit diagonal is not needed. Weighted matrices are misjudged (proved)."
  },
  {
   "property": "C25",
   "status": "proved",
   "theorems": [
    "Verif.SolveLoop.C25_bounded",
    "Verif.SolveLoop.C25_returns",
    "Verif.SolveLoop.C25_extra_factorization",
    "Verif.SolveLoop.C25_first_warm_start_undefined",
    "Verif.SolveLoop.C25_warm_start_overrun"
   ],
   "note": "Oracles arbitrary; the lower limit of the parameter is assumed non-negative (std::sqrt). Warm starts: undefined behaviour witnesses."
  },
  {
   "property": "C26",
   "status": "proved",
   "theorems": [
    "Verif.SolveLoop.C26_success"
   ],
   "note": "For admissible configurations; the inadmissible ones are C28."
  },
  {
   "property": "C27",
   "status": "partial",
   "theorems": [
    "Verif.SolveLoop.C27_target_violated",
    "Verif.SolveLoop.C27_warm_start_violated",
    "Verif.SolveLoop.C27_target_partial"
   ],
   "note": "The code violates the full property (two witness runs); proved without warm start, residual within tolerance, before the centering phase forced by the iteration limit."
  },
  {
   "property": "C28",
   "status": "partial",
   "theorems": [
    "Verif.SolveLoop.C28_inadmissible_violated",
    "Verif.SolveLoop.C28_error_exits_partial",
    "Verif.SolveLoop.C28_failed_line_search_solved"
   ],
   "note": "The code violates the property in every inadmissible configuration; proved for admissible ones."
  },
  {
   "property": "C29",
   "status": "proved",
   "theorems": [
    "Verif.SolveLoop.C29_step_size",
    "Verif.SolveLoop.C29_steps"
   ],
   "note": ""
  },
  {
   "property": "C30",
   "status": "partial",
   "theorems": [
    "Verif.Divergence.C30_aggregate_partial",
    "Verif.Divergence.C30_norm",
    "Verif.Divergence.C30_sentinel_violated"
   ],
   "note": "Fold theorem for eigenvalues within ±30000 (the sentinels of the code); outside that range the property fails, proved by a witness. Direction norms: complete."
  },
  {
   "property": "C31",
   "status": "proved",
   "theorems": [
    "Verif.Divergence.C31_inverse",
    "Verif.Divergence.C31_negative_violated"
   ],
   "note": "For positive eigenvalues and a positive bound, with exact arithmetic and a correct square root. Outside of that domain (negative eigenvalues) the code can return a wrong parameter, see the witness."
  },
  {
   "property": "C32",
   "status": "proved",
   "theorems": [
    "Verif.Divergence.C32_minimises"
   ],
   "note": ""
  },
  {
   "property": "C33",
   "status": "proved",
   "theorems": [
    "Verif.LineSearch.C33_interval",
    "Verif.LineSearch.C33_program",
    "Verif.LineSearch.C33_flat_violated",
    "Verif.LineSearch.C33_flat_on_bound_violated"
   ],
   "note": "Non-zero slopes (Regular) as the property states; what happens otherwise is shown by two witnesses (F33)."
  },
  {
   "property": "C34",
   "status": "proved",
   "theorems": [
    "Verif.Preprocess.C34_faithful",
    "Verif.Preprocess.C34_faithful_finite",
    "Verif.Preprocess.C34_zero_row_violated"
   ],
   "note": "sqrt is a parameter with its contract; the zero row excluded by the property is shown to fail (F20)."
  },
  {
   "property": "C35",
   "status": "proved",
   "theorems": [
    "Verif.Linear.C35_step",
    "Verif.Linear.C35_positive",
    "Verif.Linear.C35_affine",
    "Verif.Linear.C35_slack",
    "Verif.Linear.C35_schur_init",
    "Verif.Linear.C35_schur_accumulate",
    "Verif.Linear.C35_bounds"
   ],
   "note": "The exponential is any positive function."
  },
  {
   "property": "C36",
   "status": "proved",
   "theorems": [
    "Verif.Soc.C36_sqrt",
    "Verif.Soc.C36_quadRep",
    "Verif.Soc.C36_exp",
    "Verif.Soc.C36_step",
    "Verif.Soc.C36_interior",
    "Verif.Soc.C36_slack",
    "Verif.QuadCone.C36_form",
    "Verif.QuadCone.C36_step",
    "Verif.QuadCone.C36_interior",
    "Verif.QuadCone.C36_slack"
   ],
   "note": "Exact arithmetic; sqrt with its defining equation, exp positive. Second-order cone: square root, quadratic representation and exponential are those of the spin factor, a step from an interior point is defined and ends interior, every sequence of steps from the identity stays interior. Quadratic cones with a positive semidefinite matrix (or none): the same; equalities up to the kernel of the form, which vanishes for a definite matrix."
  },
  {
   "property": "C37",
   "status": "partial",
   "theorems": [
    "Verif.Soc.C37_schur",
    "Verif.Soc.C37_schur_size",
    "Verif.QuadCone.C37_good",
    "Verif.QuadCone.C37_schur_partial",
    "Verif.QuadCone.C37_accumulate_violated"
   ],
   "note": "Second-order cone: written and accumulated contributions are exact, and the call is defined exactly when the sizes fit. Quadratic cones: exact when the system is written; when accumulating, twice the old content is kept (finding F17), so the property is violated."
  },
  {
   "property": "C38",
   "status": "partial",
   "theorems": [
    "Verif.Dual.C38_linear",
    "Verif.Dual.C38_lmi",
    "Verif.Dual.C38_hermitian_partial",
    "Verif.Dual.C38_invalid",
    "Verif.Dual.C38_soc_violated",
    "Verif.Dual.C38_complex_violated",
    "Verif.Dual.C38_octonion_violated",
    "Verif.Dual.C38_equality_violated",
    "Verif.Dual.C38_freed_violated",
    "Verif.Whole.C38_program_invalid",
    "Verif.Whole.C38_program_linear"
   ],
   "note": "Exact contents of the returned array for linear and dense matrix inequalities, real part for Hermitian ones, and for invalid indices. Violated for second-order and quadratic cones, octonions, imaginary parts, equations."
  },
  {
   "property": "C39",
   "status": "proved",
   "theorems": [
    "Verif.QuadCone.C39_epigraph",
    "Verif.QuadCone.C39_needs_psd"
   ],
   "note": "Both constructors of the epigraph, every positive semidefinite Q. Without semidefiniteness the equivalence fails, as C39_needs_psd shows."
  },
  {
   "property": "C40",
   "status": "proved",
   "theorems": [
    "Verif.Equality.C40_block",
    "Verif.Equality.C40_solution",
    "Verif.Equality.C40_accumulate",
    "Verif.Equality.C40_step",
    "Verif.Equality.C40_cost"
   ],
   "note": ""
  },
  {
   "property": "C41",
   "status": "proved",
   "theorems": [
    "Verif.CostInput.C41_matrix",
    "Verif.CostInput.C41_value",
    "Verif.CostInput.C41_indefinite_violated",
    "Verif.CostInput.C41_shape"
   ],
   "note": "For positive semidefinite matrices the registered cost has the same value at every point and contributes the symmetric part of the matrix to the linear system. Beyond the property: indefinite matrices are changed (C41_indefinite_violated)."
  },
  {
   "property": "C42",
   "status": "proved",
   "theorems": [
    "Verif.Hyper.C42_assoc",
    "Verif.Hyper.C42_bilinear",
    "Verif.Hyper.C42_unit",
    "Verif.Hyper.C42_conj",
    "Verif.Hyper.C42_trace",
    "Verif.Hyper.C42_adjoint",
    "Verif.Hyper.C42_alternative",
    "Verif.Hyper.C42_norm",
    "Verif.Hyper.C42_quadRep",
    "Verif.Hyper.C42_jordan",
    "Verif.Hyper.C42_complex",
    "Verif.Hyper.C42_quaternion"
   ],
   "note": "All laws follow from the 8x8 sign and index tables, checked by the kernel; matrix laws for every size. The identification with Mathlib's complex numbers and quaternions is proved too."
  },
  {
   "property": "C43",
   "status": "proved",
   "theorems": [
    "Verif.Updates.C43_operator",
    "Verif.Updates.C43_affine",
    "Verif.Updates.C43_linear",
    "Verif.Updates.C43_linear_affine",
    "Verif.Updates.C43_soc",
    "Verif.Updates.C43_soc_affine",
    "Verif.Updates.C43_program",
    "Verif.Updates.C43_hermitian"
   ],
   "note": "Updates of Hermitian constraints, linear inequalities and second-order cones write exactly the coefficient (and its conjugate mirror image), a call with status 1 changes nothing, a call changes only the constraint with the given number, and after any sequence of calls all matrices are Hermitian."
  },
  {
   "property": "C44",
   "status": "partial",
   "theorems": [
    "Verif.Updates.C44_operator_partial",
    "Verif.Updates.C44_affine_partial",
    "Verif.Updates.C44_hermitian_violated",
    "Verif.Updates.C44_linear_violated",
    "Verif.Updates.C44_soc_violated",
    "Verif.Updates.C44_cost_violated",
    "Verif.Updates.C44_variable_violated",
    "Verif.Updates.C44_cost_kind_violated",
    "Verif.Updates.C44_octonion_violated"
   ],
   "note": "With nonnegative indices, variables within the columns of linear inequalities, and second-order cones made from their order, every call returns and succeeds exactly if the indices name a coefficient. Violated otherwise (F18, F50): the _violated theorems give undefined behaviour or exceptions for bad indices. F99: the refusal of octonion components is dead code."
  },
  {
   "property": "C45",
   "status": "proved",
   "theorems": [
    "Verif.MatrixExp.C45_inverse",
    "Verif.MatrixExp.C45_zero",
    "Verif.MatrixExp.C45_commute",
    "Verif.MatrixExp.C45_function",
    "Verif.MatrixExp.C45_update_symmetric",
    "Verif.MatrixExp.C45_update_exact",
    "Verif.MatrixExp.C45_update_zero",
    "Verif.MatrixExp.C45_update_zero_only",
    "Verif.MatrixExp.C45_taylor",
    "Verif.MatrixExp.C45_taylor_zero",
    "Verif.MatrixExp.C45_taylor_commute",
    "Verif.MatrixExp.C45_scaled"
   ],
   "note": "For the rational approximation (symmetric matrices), the Taylor approximation (Hermitian matrices) and the update used for octonions."
  },
  {
   "property": "C46",
   "status": "proved",
   "theorems": [
    "Verif.Clique.C46_greedy_tree"
   ],
   "note": "Greedy choice of every tree edge; affinity is specified independently of the memoised intersection table."
  },
  {
   "property": "C47",
   "status": "partial",
   "theorems": [
    "Verif.Elim.C47_witness_partial",
    "Verif.Elim.C47_not_a_path_violated",
    "Verif.Elim.C47_undefined_violated"
   ],
   "note": "Violated (F25): the reported vertices are in the numbering of the search, do not form a path, and the extraction can read column -1. Proved part: the first three entries are a vertex and two of its non-adjacent neighbours."
  },
  {
   "property": "C48",
   "status": "partial",
   "theorems": [
    "Verif.Elim.C48_max_degree_partial",
    "Verif.Elim.C48_centre_violated"
   ],
   "note": "Violated (F11): vertex 0 is never listed. Proved: exact for the other vertices."
  },
  {
   "property": "C49",
   "status": "partial",
   "theorems": [
    "Verif.SolveLoop.C49_maximum_mu",
    "Verif.SolveLoop.C49_never_infeasible_violated"
   ],
   "note": "The code violates the property; proved that no flag is ever set when the threshold is at least maximum_mu, as in the default configuration."
  },
  {
   "property": "C50",
   "status": "partial",
   "theorems": [
    "Verif.SolveLoop.C50_failure_counter_violated",
    "Verif.SolveLoop.C50_stale_counter_violated",
    "Verif.SolveLoop.C25_bounded"
   ],
   "note": "The code violates the property (two witnesses); for normal exits see C25_bounded."
  },
  {
   "property": "C51",
   "status": "proved",
   "theorems": [
    "Verif.Divergence.C51_positive",
    "Verif.Divergence.C51_fallback"
   ],
   "note": "Exact arithmetic, correct square root."
  },
  {
   "property": "C52",
   "status": "partial",
   "theorems": [
    "Verif.Equality.C52_temporary_partial",
    "Verif.Equality.C52_named_violated",
    "Verif.Equality.C52_named_overlap_violated"
   ],
   "note": "Holds for temporaries; violated for named objects (F32)."
  },
  {
   "property": "C53",
   "status": "partial",
   "theorems": [
    "Verif.Linear.C53_inner_products_partial",
    "Verif.Linear.C53_inner_products_violated"
   ],
   "note": "Holds for systems of equal size; violated for larger ones (F30)."
  },
  {
   "property": "C54",
   "status": "partial",
   "theorems": [
    "Verif.Linear.C54_enough_variables_partial",
    "Verif.Linear.C54_too_many_columns_violated"
   ],
   "note": "Holds for at most as many columns as variables; violated otherwise (F31)."
  },
  {
   "property": "C55",
   "status": "partial",
   "theorems": [
    "Verif.CApi.C55_cost_partial",
    "Verif.CApi.C55_wrong_length_violated"
   ],
   "note": "Exact for vectors of the right length; violated for all others (F37)."
  },
  {
   "property": "C56",
   "status": "partial",
   "theorems": [
    "Verif.Dual.C56_feasible_partial",
    "Verif.Dual.C56_linear_cone_partial",
    "Verif.Dual.C56_lmi_cone_partial",
    "Verif.Dual.C56_linear_violated",
    "Verif.Dual.C56_soc_violated",
    "Verif.Dual.C56_quad_violated",
    "Verif.Dual.C56_octonion_violated",
    "Verif.Dual.C56_cost_violated"
   ],
   "note": "The dual equation after preparation for every mix of linear inequalities, matrix inequalities over reals, complex numbers and quaternions, and equations; exact cone criterion for linear and real matrix inequalities. Violated for second-order and quadratic cones, octonions, quadratic costs, and cone membership in general."
  },
  {
   "property": "C57",
   "status": "partial",
   "theorems": [
    "Verif.Lmi.C57_iff",
    "Verif.Lmi.C57_step_partial",
    "Verif.Lmi.C57_order_one",
    "Verif.Lmi.C57_violated"
   ],
   "note": "Violated (F42): C57_violated. C57_iff is the exact criterion; C57_step_partial assumes that the reported norm bounds the spectrum."
  },
  {
   "property": "C58",
   "status": "partial",
   "theorems": [
    "Verif.Lmi.C58_within",
    "Verif.Lmi.C58_defined",
    "Verif.Lmi.C58_norm",
    "Verif.Lmi.C58_nan_violated",
    "Verif.Lmi.C58_slack"
   ],
   "note": "Everything except definedness for a zero slack, which is violated (F44): C58_nan_violated; C58_defined is the exact condition."
  },
  {
   "property": "C59",
   "status": "partial",
   "theorems": [
    "Verif.Lmi.C59_schur",
    "Verif.Lmi.C59_unwritten_violated",
    "Verif.Lmi.C59_too_many",
    "Verif.Lmi.C59_definite"
   ],
   "note": "Violated for variables without a matrix (F45): C59_unwritten_violated; the remaining entries are proved."
  },
  {
   "property": "C60",
   "status": "partial",
   "theorems": [
    "Verif.HermLmi.C60_identity",
    "Verif.HermLmi.C60_step",
    "Verif.HermLmi.C60_run",
    "Verif.HermLmi.C60_zero",
    "Verif.HermLmi.C60_octonion_zero_violated",
    "Verif.HermLmi.C60_octonion_violated"
   ],
   "note": "Proved for real, complex and quaternion matrices of every order: any sequence of prepared steps from the identity, with any sizes, keeps the scaling point Hermitian positive definite; zero steps change nothing. Violated for octonions (F43): a zero step scales by 9/4, and the step of the reported size may end in the zero matrix."
  },
  {
   "property": "C61",
   "status": "partial",
   "theorems": [
    "Verif.HermLmi.C61_within",
    "Verif.HermLmi.C61_defined",
    "Verif.HermLmi.C61_nan_violated",
    "Verif.HermLmi.C61_norm",
    "Verif.HermLmi.C61_slack",
    "Verif.HermLmi.C61_octonion_norm_violated",
    "Verif.HermLmi.C61_octonion_slack_violated"
   ],
   "note": "Real, complex, quaternion: bounds within the spectrum, norm never above the true one, exact trace and squares, exact criterion for being defined. Violated for a vanishing slack of order two or more (NaN) and for the octonion heuristics (F48)."
  },
  {
   "property": "C62",
   "status": "partial",
   "theorems": [
    "Verif.HermLmi.C62_schur",
    "Verif.HermLmi.C62_unwritten_violated",
    "Verif.HermLmi.C62_unset_violated",
    "Verif.HermLmi.C62_definite"
   ],
   "note": "The values written are right for all four algebras, and the matrix is definite over the associative ones. Violated: rows of variables without a matrix are never written (F45), and an affine term that was never set throws (F47). Missing: semidefiniteness for octonions."
  },
  {
   "property": "C63",
   "status": "partial",
   "theorems": [
    "Verif.Updates.C63_lower_partial",
    "Verif.Updates.C63_violated"
   ],
   "note": "Holds for entries on or below the diagonal; violated above the diagonal (F49)."
  },
  {
   "property": "C64",
   "status": "partial",
   "theorems": [
    "Verif.Py.C64_served_partial",
    "Verif.Py.C64_new_violated",
    "Verif.Py.C64_new_soc_violated",
    "Verif.Py.C64_cost_violated",
    "Verif.Py.C64_inequalities_violated",
    "Verif.Py.C64_refused_violated",
    "Verif.Py.C64_single_violated",
    "Verif.Py.C64_variables_violated"
   ],
   "note": "Served for every mix of AddLinearInequality (two rows or more), NewLinearMatrixInequality and the dense and sparse matrix inequalities with fitting arguments; every other call breaks the bookkeeping, with witnesses."
  },
  {
   "property": "C65",
   "status": "partial",
   "theorems": [
    "Verif.Matlab.C65_symmetrize",
    "Verif.Matlab.C65_clean",
    "Verif.Matlab.C65_partial",
    "Verif.Matlab.C65_half",
    "Verif.Matlab.C65_violated"
   ],
   "note": "The full statement fails (C65_violated): entries with a cost that occur in no equation are dropped. C65_partial: proved in both directions for all programs in which every entry with a cost occurs in an equation; C65_half: for every program, solutions of the reduced program are feasible with the same cost and dual solutions of the program remain solutions."
  },
  {
   "property": "C66",
   "status": "proved",
   "theorems": [
    "Verif.Matlab.C66_extract",
    "Verif.Matlab.C66_exact",
    "Verif.Matlab.C66_gap_violated"
   ],
   "note": "For every program made by blkdiagPrg. C66_exact gives the exact condition for programs of other origin, C66_gap_violated a program that does not meet it."
  },
  {
   "property": "C67",
   "status": "partial",
   "theorems": [
    "Verif.Matlab.C67_blocks_partial",
    "Verif.Matlab.C67_free_partial",
    "Verif.Matlab.C67_one_free_partial",
    "Verif.Matlab.C67_row_violated",
    "Verif.Matlab.C67_dense",
    "Verif.Matlab.C67_dense_violated",
    "Verif.Matlab.C67_inconsistent_violated",
    "Verif.Matlab.C67_zero_violated"
   ],
   "note": "Proved without free variables (C67_blocks_partial, C67_dense), with one (C67_one_free_partial), and for ConexPreprocess with any number (C67_free_partial), given C65's condition on costs, consistent equations for the free variables and the stated contracts of A\\b and spnull. Fails otherwise: C67_row_violated, C67_dense_violated, C67_inconsistent_violated, C67_zero_violated."
  },
  {
   "property": "C68",
   "status": "partial",
   "theorems": [
    "Verif.Sup.C68_total",
    "Verif.Sup.C68_factor_partial",
    "Verif.Sup.C68_forward_partial",
    "Verif.Sup.C68_backward",
    "Verif.Sup.C68_empty_block_violated"
   ],
   "note": "Proved if no supernode is empty (ApplyInverseOfTranspose: if no front is empty); with an empty supernode before a column both the factorisation and ApplyInverse are proved to fail. The square root is a parameter."
  },
  {
   "property": "C69",
   "status": "proved",
   "theorems": [
    "Verif.Sup.C69_cholesky_accepts",
    "Verif.Sup.C69_assembled_system"
   ],
   "note": "Both directions, on every pattern (empty blocks and fill-in included), and for the assembled system of a program without equality constraints; Eigen's dense LLT of a block is assumed to keep its contract and to succeed on positive definite blocks."
  },
  {
   "property": "C70",
   "status": "partial",
   "theorems": [
    "Verif.Buffer.C70_overrun_iff",
    "Verif.Buffer.C70_fits_partial",
    "Verif.Buffer.C70_python_partial",
    "Verif.Buffer.C70_short_violated",
    "Verif.Buffer.C70_python_violated",
    "Verif.Buffer.C70_default_violated",
    "Verif.Buffer.C70_zero_variables"
   ],
   "note": "The array is overrun exactly if it is shorter than the cost vector and the solve takes no early exit; it is not for programs built by the Python calls of C64 with fitting arguments. The full statement is false: the length is ignored, and the Python class allocates too few entries after a call with fewer columns than variables."
  },
  {
   "property": "C71",
   "status": "partial",
   "theorems": [
    "Verif.Gap.C71_gap_partial",
    "Verif.Gap.C71_run_partial",
    "Verif.Gap.C71_solve_partial",
    "Verif.Gap.C71_count_violated",
    "Verif.Gap.C71_norm_violated"
   ],
   "note": "Proved for runs whose last norm is within the tolerance (at most one) and whose matrix-inequality norms bound the directions; violated without: exit by the count of centering steps (F65) and the norm of matrix inequalities (F42). Octonion matrix inequalities are excluded; real, complex and quaternion ones are covered."
  },
  {
   "property": "C72",
   "status": "partial",
   "theorems": [
    "Verif.KktError.C72_identity_partial",
    "Verif.KktError.C72_kkt_error_partial",
    "Verif.KktError.C72_tolerance_partial",
    "Verif.KktError.C72_columns_violated"
   ],
   "note": "Proved for all constraints whose linear inequalities have as many columns as variables (exact arithmetic); violated for linear inequalities with fewer columns than variables (F30, F66). For octonion matrices the error is zero provided that normsqrd is nonnegative."
  },
  {
   "property": "C73",
   "status": "partial",
   "theorems": [
    "Verif.Infeasible.C73_bounds_partial",
    "Verif.Infeasible.C73_flags_partial",
    "Verif.Infeasible.C73_primal_violated",
    "Verif.Infeasible.C73_dual_violated"
   ],
   "note": "The flags do not mean infeasibility: C73_primal_violated (a feasible program is flagged) and C73_dual_violated (a bounded one is). Proved instead is what they do say: by is the value of a feasible point and cx bounds all values (C73_bounds_partial), so that a flag bounds the optimal value by the square root of the threshold (C73_flags_partial), when the last norm is at most one and bounds the directions of matrix inequalities (F42)."
  },
  {
   "property": "C74",
   "status": "partial",
   "theorems": [
    "Verif.Iteration.C74_run_partial",
    "Verif.Iteration.C74_bounds_partial",
    "Verif.Iteration.C74_defined",
    "Verif.Iteration.C74_forever",
    "Verif.Iteration.C74_vector"
   ],
   "note": "Proved from the program data for linear, second-order and quadratic cones with convex quadratic costs (C74_vector), and that iterations are defined with matrix inequalities (C74_defined, C74_forever). For matrix inequalities and equations the gap bound assumes that the reported norm bounds the direction (violated: F42, see C71_norm_violated) and that no pivot was replaced (F22). All of it assumes that no block is assembled with shifted labels (violated: F2, see C18), that every unknown occurs (F3), no QR mode, no octonions."
  },
  {
   "property": "C75",
   "status": "partial",
   "theorems": [
    "Verif.Whole.C75_solve_partial",
    "Verif.Whole.C75_centered",
    "Verif.Whole.C75_refines",
    "Verif.Whole.C75_unbounded_violated"
   ],
   "note": "Cold start; vector cones and convex quadratic costs; the preparation of dual variables is included. Feasibility and gap need the last norm to be at most one, which success does not imply (violated with a witness); C75_centered needs no such condition, for options that leave the loop only after a short direction. C75_refines also covers warm starts, whose answers are C87. Matrix cones and equations are not covered."
  },
  {
   "property": "C76",
   "status": "partial",
   "theorems": [
    "Verif.MatrixExp.C76_series",
    "Verif.MatrixExp.C76_cone_partial",
    "Verif.MatrixExp.C76_cone_violated"
   ],
   "note": "The series is proved for real, complex and quaternion matrices. The update stays in the cone if w + w s w is positive definite; without this it may leave it (violated, F68). Octonions are not covered."
  },
  {
   "property": "C77",
   "status": "partial",
   "theorems": [
    "Verif.PyErr.C77_report_partial",
    "Verif.PyErr.C77_inner_violated",
    "Verif.PyErr.C77_lists_violated",
    "Verif.PyErr.C77_column_violated",
    "Verif.PyErr.C77_new_violated",
    "Verif.PyErr.C77_transpose_violated",
    "Verif.PyErr.C77_mixed_violated",
    "Verif.PyErr.C77_negative_violated"
   ],
   "note": "Proved for programs of vector inequalities with affine terms of one dimension and matrix inequalities of order at least two, first call in an interpreter, at most the first constraint a vector inequality (for the inner product). The negation is proved without these conditions (F69)."
  },
  {
   "property": "C78",
   "status": "partial",
   "theorems": [
    "Verif.Feasible.C78_defined",
    "Verif.Feasible.C78_value",
    "Verif.Feasible.C78_bounded",
    "Verif.Feasible.C78_solve_partial",
    "Verif.Feasible.C78_equations_violated"
   ],
   "note": "Proved in full but for the last clause: with equations Solve(b, ...) uses the objective zero (C78_equations_violated, F70)."
  },
  {
   "property": "C79",
   "status": "partial",
   "theorems": [
    "Verif.Plain.C79_ritz",
    "Verif.Plain.C79_exact",
    "Verif.Plain.C79_defined_iff_partial",
    "Verif.Plain.C79_overrun",
    "Verif.Plain.C79_defined_violated",
    "Verif.Plain.C79_hyper_ritz",
    "Verif.Plain.C79_hyper_exact",
    "Verif.Plain.C79_hyper_overrun"
   ],
   "note": "Ritz values, exactness after n steps and the exact condition for finite results are proved for real and hypercomplex matrices. That results are finite for every start vector is violated: no early stop (F71)."
  },
  {
   "property": "C80",
   "status": "partial",
   "theorems": [
    "Verif.JacobiPoly.C80_agree",
    "Verif.JacobiPoly.C80_within",
    "Verif.JacobiPoly.C80_exact",
    "Verif.JacobiPoly.C80_compressed_exact",
    "Verif.JacobiPoly.C80_defined_violated",
    "Verif.JacobiPoly.C80_hyper"
   ],
   "note": "Agreement, bounds and exactness are proved for real matrices, bounds and definedness for complex and quaternion ones. That compressed = false is finite for every start vector is violated (F72)."
  },
  {
   "property": "C81",
   "status": "partial",
   "theorems": [
    "Verif.MinPoly.C81_complete",
    "Verif.MinPoly.C81_exact_partial",
    "Verif.MinPoly.C81_exact_violated"
   ],
   "note": "Complete for all Hermitian matrices; exact if the eigenvalues are distinct. The claim fails for a repeated eigenvalue (F73)."
  },
  {
   "property": "C82",
   "status": "proved",
   "theorems": [
    "Verif.Ortho.C82_gramSchmidt",
    "Verif.Ortho.C82_unitary",
    "Verif.Ortho.C82_defined_iff",
    "Verif.Ortho.C82_wide",
    "Verif.Ortho.C82_octonions"
   ],
   "note": "For d = 1, 2, 4; exact arithmetic; the square root is a parameter."
  },
  {
   "property": "C83",
   "status": "partial",
   "theorems": [
    "Verif.ConeBase.C83_layout",
    "Verif.ConeBase.C83_counts",
    "Verif.ConeBase.C83_conic",
    "Verif.ConeBase.C83_nonneg_partial",
    "Verif.ConeBase.C83_nonneg_violated",
    "Verif.ConeBase.C83_symmetrize",
    "Verif.ConeBase.C83_symmetrize_id",
    "Verif.ConeBase.C83_mats",
    "Verif.ConeBase.C83_init",
    "Verif.ConeBase.C83_desymmetrize",
    "Verif.ConeBase.C83_desymmetrize_mats",
    "Verif.ConeBase.C83_fields",
    "Verif.ConeBase.C83_column"
   ],
   "note": "proved for all cones and vectors, except that the statement about indxNNeg needs that no size 0 stands among the sizes of Lorentz cones; C83_nonneg_violated shows why"
  },
  {
   "property": "C84",
   "status": "partial",
   "theorems": [
    "Verif.ConeBase.C84_sound_partial",
    "Verif.ConeBase.C84_row",
    "Verif.ConeBase.C84_diagonals_violated",
    "Verif.ConeBase.C84_unsound_violated",
    "Verif.ConeBase.C84_lorentz_violated",
    "Verif.ConeBase.C84_sizes_violated",
    "Verif.ConeBase.C84_missing_violated"
   ],
   "note": "sound when at most one index lies on a diagonal, with the exact result for a single diagonal entry; the code violates the statement otherwise, and always fails for Lorentz cones"
  },
  {
   "property": "C85",
   "status": "partial",
   "theorems": [
    "Verif.Matlab.C85_sound_partial",
    "Verif.Matlab.C85_free_partial",
    "Verif.Matlab.C85_runs",
    "Verif.Matlab.C85_options_violated",
    "Verif.Matlab.C85_option_name",
    "Verif.Matlab.C85_errors_violated",
    "Verif.Matlab.C85_pars_violated",
    "Verif.Matlab.C85_noblk_violated",
    "Verif.Matlab.C85_free_violated",
    "Verif.Matlab.C85_free_block_violated",
    "Verif.Matlab.C85_single_violated",
    "Verif.Matlab.C85_empty_violated",
    "Verif.Matlab.C85_lorentz_violated",
    "Verif.Matlab.C85_refuses"
   ],
   "note": "Soundness for programs without free variables, or with one free variable and several blocks, for every library that is right when it reports success; missing are costs of entries that occur in no equation (violated, C65) and cones that conex lets pass by mistake (violated). Totality with the defaults if the assignment of max_iteration is not refused. Seven ways in which conex fails are proved."
  },
  {
   "property": "C86",
   "status": "partial",
   "theorems": [
    "Verif.Whole.C86_certificate_partial",
    "Verif.Whole.C86_centered",
    "Verif.Whole.C86_violated"
   ],
   "note": "Linear programs, cold start: defined reads, exact dual equations; nonnegativity, weak duality and the gap under a bound on the last direction, which success does not imply (violated with a witness); C86_centered needs no such condition, for options that leave the loop only after a short direction. Vector cones have no readable dual variables (C38)."
  },
  {
   "property": "C87",
   "status": "partial",
   "theorems": [
    "Verif.Whole.C87_resume_partial",
    "Verif.Whole.C87_session_partial",
    "Verif.Whole.C87_centered",
    "Verif.Whole.C87_violated"
   ],
   "note": "Vector cones and convex quadratic costs; any sequence of cold and warm solves with changing costs. A warm start after a solve that prepared dual variables is excluded: it can report success with an infeasible point (violated with a witness). Warm starts with more iterations than the last cold start are excluded (violated in C25). C87_centered needs no condition on the last direction, for options that leave the loop only after a short one."
  },
  {
   "property": "C88",
   "status": "proved",
   "theorems": [
    "Verif.Centering.C88_quadratic",
    "Verif.Centering.C88_centering",
    "Verif.Centering.C88_optimal"
   ],
   "note": "For linear inequalities and convex quadratic costs, from every start, given a central point of the barrier parameter."
  },
  {
   "property": "C89",
   "status": "proved",
   "theorems": [
    "Verif.Centering.C89_central",
    "Verif.Centering.C89_iterations"
   ],
   "note": "For linear inequalities and convex quadratic costs. Bounds the number of iterations by the data of interior points; no hypothesis about a central point."
  },
  {
   "property": "C90",
   "status": "partial",
   "theorems": [
    "Verif.Whole.C90_refines",
    "Verif.Whole.C90_converges",
    "Verif.Whole.C90_solvable",
    "Verif.Whole.C90_stuck",
    "Verif.Whole.C90_stuck_violated",
    "Verif.Whole.C90_comparison"
   ],
   "note": "The claim holds for linear inequalities and convex quadratic costs (C90_converges, C90_solvable). It fails for all other constraints: C90_stuck shows that the barrier parameter stays at its lower limit, C90_stuck_violated is a success far from the optimum. C90_refines relates the closed model to that of C75."
  },
  {
   "property": "C91",
   "status": "proved",
   "theorems": [
    "Verif.Whole.C91_bound",
    "Verif.Whole.C91_chosen",
    "Verif.Whole.C91_converges",
    "Verif.Whole.C91_solvable",
    "Verif.Whole.C91_neutral"
   ],
   "note": "Any divergence_upper_bound with product at most 1/32 with the number of rows; the default 1 is outside this range. C91_bound and C91_chosen hold without this condition."
  },
  {
   "property": "C92",
   "status": "proved",
   "theorems": [
    "Verif.ConeCentering.C92_quadratic",
    "Verif.ConeCentering.C92_centering",
    "Verif.ConeCentering.C92_optimal"
   ],
   "note": "For linear inequalities, second-order cones, quadratic cones and convex quadratic costs, from every start, given a central point of the barrier parameter."
  },
  {
   "property": "C93",
   "status": "proved",
   "theorems": [
    "Verif.ConeCentering.C93_central",
    "Verif.ConeCentering.C93_iterations"
   ],
   "note": "For linear inequalities, second-order cones, quadratic cones and convex quadratic costs."
  },
  {
   "property": "C94",
   "status": "proved",
   "theorems": [
    "Verif.ConeCentering.C94_bound",
    "Verif.ConeCentering.C94_chosen",
    "Verif.ConeCentering.C94_converges",
    "Verif.ConeCentering.C94_solvable"
   ],
   "note": "For linear inequalities, second-order cones and quadratic cones without costs. Any divergence_upper_bound with product at most 1/32 with the rank; C94_bound and C94_chosen hold without this condition."
  },
  {
   "property": "C95",
   "status": "proved",
   "theorems": [
    "Verif.MatrixCentering.C95_gap",
    "Verif.MatrixCentering.C95_quadratic",
    "Verif.MatrixCentering.C95_local"
   ],
   "note": "Equations only in C95_gap. The sum of squares is that of all constraints together."
  },
  {
   "property": "C96",
   "status": "proved",
   "theorems": [
    "Verif.MatrixCentering.C96_data",
    "Verif.MatrixCentering.C96_norm",
    "Verif.MatrixCentering.C96_progress",
    "Verif.MatrixCentering.C96_converges",
    "Verif.MatrixCentering.C96_solvable"
   ],
   "note": "Without line search and rescaling, cold start, no equations and quadratic costs. The start has to be near the central path for some barrier parameter, because far from it the step size depends on the estimated norm (F42)."
  },
  {
   "property": "C97",
   "status": "proved",
   "theorems": [
    "Verif.MatrixCentering.C97_short",
    "Verif.MatrixCentering.C97_short_sum",
    "Verif.MatrixCentering.C97_decrease",
    "Verif.MatrixCentering.C97_centering"
   ],
   "note": "Real matrix inequalities beside the constraints of C92, or Hermitian ones over the real and complex numbers and the quaternions beside costs (the two kinds of steps cannot be mixed in this argument). That no step is too long is a hypothesis as long as the exact sum of squares exceeds two, because the reported norm may be too small (F42, C57_violated); C97_short relates it to the hypothesis of C71 and C74."
  },
  {
   "property": "C98",
   "status": "proved",
   "theorems": [
    "Verif.MatrixCentering.C98_central",
    "Verif.MatrixCentering.C98_iterations"
   ],
   "note": "C98_central covers any mixture of real and Hermitian inequalities. Central points exist iff the program and its dual are strictly feasible; the iteration bound keeps the hypothesis of C97 that no step is too long, because the reported norm may be too small (F42)."
  },
  {
   "property": "C99",
   "status": "proved",
   "theorems": [
    "Verif.MatrixCentering.C99_converges",
    "Verif.MatrixCentering.C99_solvable",
    "Verif.MatrixCentering.C99_order_one"
   ],
   "note": "For real constraints or for Hermitian ones. Keeps the hypothesis of C97 for the initial centering only: no step is too long while the sum of squares of the direction exceeds two, because the reported norm may be too small (F42). C99_order_one discharges it for order one."
  }
 ]
}