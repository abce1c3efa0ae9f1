{
 "claims": [
  {
   "property": "C01",
   "status": "proved",
   "theorems": [
    "RS.C01_complex_real_complex_1d",
    "RS.C01_complex_real_complex_2d",
    "RS.C01_real_complex_real_1d",
    "RS.C01_real_complex_real_2d",
    "RS.C01_layout_1d",
    "RS.C01_layout_2d",
    "RS.C01_empty_2d_raises"
   ],
   "note": "exact round trips in both directions and the layout; the empty 2-D case raises ValueError and is described separately"
  },
  {
   "property": "C02",
   "status": "proved",
   "theorems": [
    "RS.C02_covariance_round_trip",
    "RS.C02_covariances_round_trip",
    "RS.C02_stack_is_matrixwise",
    "RS.C02_stack_is_matrixwise'"
   ],
   "note": ""
  },
  {
   "property": "C03",
   "status": "proved",
   "theorems": [
    "RS.C03_to_real_passes_real",
    "RS.C03_to_complex_passes_complex",
    "RS.C03_to_real_idempotent",
    "RS.C03_to_complex_idempotent",
    "RS.C03_arraytoreal_rejects",
    "RS.C03_arraytocomplex_rejects",
    "RS.C03_covariancetoreal_rejects",
    "RS.C03_covariancetocomplex_rejects",
    "RS.C03_covariancestoreal_rejects",
    "RS.C03_covariancestocomplex_rejects",
    "RS.C03_stacks_errors_and_empty"
   ],
   "note": ""
  },
  {
   "property": "C04",
   "status": "proved",
   "theorems": [
    "RS.C04_total",
    "RS.C04_symmetric_iff",
    "RS.C04_posDef_iff",
    "RS.C04_posSemidef_iff",
    "RS.C04_add",
    "RS.C04_smul",
    "RS.C04_mul",
    "RS.C04_det",
    "RS.C04_quadratic_form"
   ],
   "note": ""
  },
  {
   "property": "C05",
   "status": "partial",
   "theorems": [
    "RS.C05_odd_is_no_real_form",
    "RS.C05_odd_1d_exact",
    "RS.C05_rejects_odd_partial",
    "RS.C05_length_three_accepted",
    "RS.C05_length_one_accepted",
    "RS.C05_violated"
   ],
   "note": "the claim is false of the code for lengths 1 and 3 (C05_violated); rejected for every odd length >= 5"
  },
  {
   "property": "C06",
   "status": "proved",
   "theorems": [
    "RS.C06_round_trip_iff"
   ],
   "note": ""
  },
  {
   "property": "C07",
   "status": "proved",
   "theorems": [
    "RS.C07_operator_independent_of_solver",
    "RS.C07_functions_independent_of_solver"
   ],
   "note": ""
  },
  {
   "property": "C08",
   "status": "proved",
   "theorems": [
    "RS.C08_sqrtm_mul_self",
    "RS.C08_sqrtm_posSemidef",
    "RS.C08_sqrtm_posDef",
    "RS.C08_sqrtm_unique",
    "RS.C08_invsqrtm_posDef",
    "RS.C08_invsqrtm_mul_sqrtm",
    "RS.C08_invsqrtm_whitens",
    "RS.C08_expm_posDef",
    "RS.C08_logm_isHermitian",
    "RS.C08_expm_logm",
    "RS.C08_logm_expm",
    "RS.C08_expm_add_smul",
    "RS.C08_powm_add",
    "RS.C08_powm_half",
    "RS.C08_powm_one_neg_one",
    "RS.C08_powm_posDef"
   ],
   "note": ""
  },
  {
   "property": "C09",
   "status": "proved",
   "theorems": [
    "RS.C09_vec_column_order",
    "RS.C09_unvec_vec",
    "RS.C09_vec_unvec",
    "RS.C09_unvec_rejects"
   ],
   "note": ""
  },
  {
   "property": "C10",
   "status": "partial",
   "theorems": [
    "RS.C10_unvech_vech_is_transpose",
    "RS.C10_real_symmetric_partial",
    "RS.C10_complex_iff_real",
    "RS.C10_complex_violated",
    "RS.C10_vech_unvech_is_conj",
    "RS.C10_real_vech_unvech_partial"
   ],
   "note": "false for complex Hermitian matrices: unvech(vech(M)) is the conjugate (witness); the real symmetric case holds"
  },
  {
   "property": "C11",
   "status": "proved",
   "theorems": [
    "RS.C11_order_of_triangular_length",
    "RS.C11_rejects_non_triangular",
    "RS.C11_no_rounding_tie"
   ],
   "note": ""
  },
  {
   "property": "C12",
   "status": "proved",
   "theorems": [
    "RS.C12_isHermitian",
    "RS.C12_entries",
    "RS.C12_posSemidef",
    "RS.C12_posDef",
    "RS.C12_posSemidef_iff",
    "RS.C12_docstring_claim_false"
   ],
   "note": ""
  },
  {
   "property": "C13",
   "status": "proved",
   "theorems": [
    "RS.C13_isHermitian",
    "RS.C13_fixes_hermitian",
    "RS.C13_idempotent",
    "RS.C13_linear",
    "RS.C13_closest",
    "RS.C13_closest_le",
    "RS.C13_multiherm_matrixwise"
   ],
   "note": ""
  },
  {
   "property": "C14",
   "status": "proved",
   "theorems": [
    "RS.C14_check_positive_strict",
    "RS.C14_check_positive_nonstrict",
    "RS.C14_check_type",
    "RS.C14_check_value"
   ],
   "note": ""
  },
  {
   "property": "C15",
   "status": "proved",
   "theorems": [
    "RS.C15_restores_state",
    "RS.C15_result_depends_only_on_seed",
    "RS.C15_result_is_body_from_seed",
    "RS.C15_guarded_program"
   ],
   "note": ""
  },
  {
   "property": "C16",
   "status": "proved",
   "theorems": [
    "RS.C16_refines_list",
    "RS.C16_one_component"
   ],
   "note": "refinement to list concatenation for every non-empty history of batches of one signature, any number of components, also from other feature arrays"
  },
  {
   "property": "C17",
   "status": "partial",
   "theorems": [
    "RS.C17_rows_partial",
    "RS.C17_violated"
   ],
   "note": "the claim is false (C17_violated); exact row count n1 + 1000*ceil((N-n1)/1000), so it holds iff 1000 divides N-n1; the first len rows are right"
  },
  {
   "property": "C18",
   "status": "partial",
   "theorems": [
    "RS.C18_partial",
    "RS.C18_fresh_partial",
    "RS.C18_reachable",
    "RS.C18_violated"
   ],
   "note": "false for a failed first append on several components (C18_violated); true for filled arrays and for fresh one-component arrays"
  },
  {
   "property": "C19",
   "status": "partial",
   "theorems": [
    "RS.C19_partial",
    "RS.C19_violated",
    "RS.C19_len_last"
   ],
   "note": "append does not compare batch lengths (C19_violated); true when batches are aligned; len always follows the last component"
  },
  {
   "property": "C20",
   "status": "partial",
   "theorems": [
    "RS.C20_int_partial",
    "RS.C20_slice",
    "RS.C20_slice_pos",
    "RS.C20_slice_neg",
    "RS.C20_slice_all",
    "RS.C20_empty",
    "RS.C20_npint_violated"
   ],
   "note": "proved for Python ints and all slices; numpy integers violate it"
  },
  {
   "property": "C21",
   "status": "proved",
   "theorems": [
    "RS.C21_transform",
    "RS.C21_no_trial"
   ],
   "note": "the estimator is a function of the trial; dtypes and shapes equal over trials"
  },
  {
   "property": "C22",
   "status": "proved",
   "theorems": [
    "RS.C22_same_result",
    "RS.C22_same_failure"
   ],
   "note": "every n_jobs, every complete interleaving of copy and fit steps; also: a failing trial makes every run fail"
  },
  {
   "property": "C23",
   "status": "partial",
   "theorems": [
    "RS.C23_exact_partial",
    "RS.C23_int_truncates",
    "RS.C23_violated"
   ],
   "note": "false for integer X (C23_violated, exact truncation in C23_int_truncates); exact for complex X and for float X with real covariances"
  },
  {
   "property": "C24",
   "status": "proved",
   "theorems": [
    "RS.C24_parallel_untouched",
    "RS.C24_sequential_last",
    "RS.C24_sequential_raises",
    "RS.C24_no_trial"
   ],
   "note": "parallel: user object unchanged under every schedule, even incomplete or failing; sequential: fitted on the trials in order, last one last"
  },
  {
   "property": "C25",
   "status": "proved",
   "theorems": [
    "RS.C25_is_covariance",
    "RS.C25_posSemidef",
    "RS.C25_hermitian",
    "RS.C25_one_sample",
    "RS.C25_translation",
    "RS.C25_centring"
   ],
   "note": "all sizes; the covariance is identified entrywise with the average of (x-m)(x-m)^H"
  },
  {
   "property": "C26",
   "status": "proved",
   "theorems": [
    "RS.C26_linear",
    "RS.C26_affine",
    "RS.C26_permutation"
   ],
   "note": "linear maps for both modes, affine maps without assume_centered, permutations for both"
  },
  {
   "property": "C27",
   "status": "partial",
   "theorems": [
    "RS.C27_complex_data",
    "RS.C27_real_data_exact",
    "RS.C27_violated"
   ],
   "note": "the claim is false for every real data set with at least one sample and one feature (C27_violated); even column counts are read as [re, im] (C27_real_data_exact); complex data are fitted as documented"
  },
  {
   "property": "C28",
   "status": "proved",
   "theorems": [
    "RS.C28_stored_exactly",
    "RS.C28_rejects",
    "RS.C28_real_matrix"
   ],
   "note": "every non-empty complex square matrix is stored exactly, everything else complex raises; real matrices are read as real forms (C28_real_matrix)"
  },
  {
   "property": "C29",
   "status": "partial",
   "theorems": [
    "RS.C29_violated",
    "RS.C29_exact",
    "RS.C29_real_partial",
    "RS.C29_self",
    "RS.C29_value",
    "RS.C29_frobenius_partial",
    "RS.C29_spectral_partial"
   ],
   "note": "false (C29_violated, both norms); exact zero set for Hermitian matrices in C29_exact; true for real errors"
  },
  {
   "property": "C30",
   "status": "proved",
   "theorems": [
    "RS.C30_trace",
    "RS.C30_determinant",
    "RS.C30_element",
    "RS.C30_none"
   ],
   "note": "every size >= 1, real and complex; unknown names are the identity on every matrix"
  },
  {
   "property": "C31",
   "status": "proved",
   "theorems": [
    "RS.C31_scale_free",
    "RS.C31_idempotent",
    "RS.C31_posDef"
   ],
   "note": ""
  },
  {
   "property": "C32",
   "status": "proved",
   "theorems": [
    "RS.C32_tyler",
    "RS.C32_complex_tyler",
    "RS.C32_student",
    "RS.C32_complex_student",
    "RS.C32_huber",
    "RS.C32_complex_huber",
    "RS.C32_no_iteration",
    "RS.C32_huber_zero_quantile"
   ],
   "note": "complete description of every run (iterates, error, count, stopping), totality, and the AssertionError of the Huber functions for q = 0"
  },
  {
   "property": "C33",
   "status": "partial",
   "theorems": [
    "RS.C33_violated",
    "RS.C33_partial"
   ],
   "note": "false of the code: it warns when it converges at the last allowed iteration and stays silent on a NaN error (C33_violated); the exact condition is iteration == iter_max (C32); the implication error > tol -> warning holds"
  },
  {
   "property": "C34",
   "status": "proved",
   "theorems": [
    "RS.C34_real",
    "RS.C34_complex"
   ],
   "note": "for the six functions at once, with the complete output as an M-estimation run"
  },
  {
   "property": "C35",
   "status": "proved",
   "theorems": [
    "RS.C35_real",
    "RS.C35_complex"
   ],
   "note": "equality of the whole output, hypotheses: spanning data without zero samples, positive definite initial point"
  },
  {
   "property": "C36",
   "status": "proved",
   "theorems": [
    "RS.C36_real",
    "RS.C36_complex",
    "RS.C36_single_step_real",
    "RS.C36_single_step_complex",
    "RS.C36_element_depends_on_basis"
   ],
   "note": "also the default initial point; 'element' normalisation shown to depend on the basis"
  },
  {
   "property": "C37",
   "status": "proved",
   "theorems": [
    "RS.C37_real",
    "RS.C37_complex"
   ],
   "note": "equality of the whole output"
  },
  {
   "property": "C38",
   "status": "proved",
   "theorems": [
    "RS.C38_iterates_real",
    "RS.C38_iterates_complex",
    "RS.C38_result_real",
    "RS.C38_result_complex"
   ],
   "note": "every iterate, plus the returned matrix under every normalisation against the starting point"
  },
  {
   "property": "C39",
   "status": "proved",
   "theorems": [
    "RS.C39_real",
    "RS.C39_complex"
   ],
   "note": "every iterate, plus the returned matrix against the starting point"
  },
  {
   "property": "C40",
   "status": "partial",
   "theorems": [
    "RS.C40_real_partial",
    "RS.C40_complex_partial",
    "RS.C40_real_violated",
    "RS.C40_complex_violated"
   ],
   "note": "false: the code optimises the t law with df/2 (real) and 2*df (complex) degrees of freedom; both proved globally (partial theorems), both refuted for the same df by concrete data"
  },
  {
   "property": "C41",
   "status": "proved",
   "theorems": [
    "RS.C41_raises",
    "RS.C41_value",
    "RS.C41_antitone",
    "RS.C41_beta_zero"
   ],
   "note": ""
  },
  {
   "property": "C42",
   "status": "partial",
   "theorems": [
    "RS.C42_actual_weight",
    "RS.C42_actual_weight_complex",
    "RS.C42_actual_weight_is_reciprocal",
    "RS.C42_violated",
    "RS.C42_partial"
   ],
   "note": "false: the loop divides by the Huber weight, so it applies its reciprocal, which grows with the distance; exact weight proved, witness given, partial inside the threshold"
  },
  {
   "property": "C43",
   "status": "proved",
   "theorems": [
    "RS.C43_real",
    "RS.C43_complex",
    "RS.C43_silent_real",
    "RS.C43_silent_complex"
   ],
   "note": "after any history, for every initial point and every position of the zero sample; iter_max >= 1"
  },
  {
   "property": "C44",
   "status": "proved",
   "theorems": [
    "RS.C44_history_independent",
    "RS.C44_real",
    "RS.C44_complex",
    "RS.C44_fit_posDef_real",
    "RS.C44_fit_posDef_complex"
   ],
   "note": "any sequence of fits (failed ones too) and attribute changes; the stored values are those of the estimation function; on spanning data fit always succeeds"
  },
  {
   "property": "C45",
   "status": "partial",
   "theorems": [
    "RS.C45_refit_raises",
    "RS.C45_partial",
    "RS.C45_violated"
   ],
   "note": "false: the first fit stores iteration_ = None and every later fit compares it with 0 (TypeError); exact theorem for all histories, witness, and a partial for the first fit"
  },
  {
   "property": "C46",
   "status": "partial",
   "theorems": [
    "RS.C46_partial",
    "RS.C46_method_ignored",
    "RS.C46_violated"
   ],
   "note": "false for method: a change of method never has an effect; proved for the other attributes"
  },
  {
   "property": "C47",
   "status": "proved",
   "theorems": [
    "RS.C47_tyler",
    "RS.C47_student",
    "RS.C47_huber_step"
   ],
   "note": "whole output for Tyler and Student; the loop body for Huber (its two parameters come from different chi-square laws)"
  },
  {
   "property": "C48",
   "status": "partial",
   "theorems": [
    "RS.C48_hermitian",
    "RS.C48_partial",
    "RS.C48_violated"
   ],
   "note": "Hermitian always; positive definite only proved for solver outputs of the block form, with a 4x4 witness that others fail"
  },
  {
   "property": "C49",
   "status": "proved",
   "theorems": [
    "RS.C49_shapes",
    "RS.C49_scale_real",
    "RS.C49_scale_complex",
    "RS.C49_sample_scale_real",
    "RS.C49_sample_scale_complex",
    "RS.C49_linear_real",
    "RS.C49_linear_complex",
    "RS.C49_real_data",
    "RS.C49_value_real",
    "RS.C49_value_complex"
   ],
   "note": "value, scale, sample scale, linear maps, real data, shape errors"
  },
  {
   "property": "C50",
   "status": "proved",
   "theorems": [
    "RS.C50_retr_pos",
    "RS.C50_exp_pos",
    "RS.C50_exp_log",
    "RS.C50_log_exp",
    "RS.C50_rand_pos",
    "RS.C50_zerovec",
    "RS.C50_first_order"
   ],
   "note": "any sequence of retractions/exponentials"
  },
  {
   "property": "C51",
   "status": "proved",
   "theorems": [
    "RS.C51_dist_symm",
    "RS.C51_dist_triangle",
    "RS.C51_dist_zero_iff",
    "RS.C51_dist_log",
    "RS.C51_dist_exp",
    "RS.C51_transp_isometry",
    "RS.C51_transp_linear",
    "RS.C51_transp_trans",
    "RS.C51_transp_self",
    "RS.C51_transp_geodesic",
    "RS.C51_gradient",
    "RS.C51_inner_posDef",
    "RS.C51_inner_symm",
    "RS.C51_inner_linear",
    "RS.C51_randvec_unit",
    "RS.C51_hessian",
    "RS.C51_hessian_selfadjoint"
   ],
   "note": "metric axioms, exp/log inverse, dist = norm(log), gradient and Hessian against independent derivative specs"
  },
  {
   "property": "C52",
   "status": "proved",
   "theorems": [
    "RS.C52_retr_posDef"
   ],
   "note": "every Hermitian direction, also huge ones"
  },
  {
   "property": "C53",
   "status": "proved",
   "theorems": [
    "RS.C53_exp_posDef",
    "RS.C53_log_isHermitian",
    "RS.C53_exp_log",
    "RS.C53_log_exp",
    "RS.C53_solver_independent"
   ],
   "note": "both compositions, any eigensolver and Cholesky factor meeting their contract"
  },
  {
   "property": "C54",
   "status": "proved",
   "theorems": [
    "RS.C54_symm",
    "RS.C54_bilinear",
    "RS.C54_posDef",
    "RS.C54_congruence",
    "RS.C54_norm",
    "RS.C54_gradient",
    "RS.C54_randvec_unit"
   ],
   "note": "symmetric, positive definite, real-bilinear; norm; gradient against the derivative of the cost along curves; randvec unit norm"
  },
  {
   "property": "C55",
   "status": "proved",
   "theorems": [
    "RS.C55_isHermitian",
    "RS.C55_isometry",
    "RS.C55_linear"
   ],
   "note": "isometry between any two points; transport is the congruence by the square root of x2 x1^-1"
  },
  {
   "property": "C56",
   "status": "proved",
   "theorems": [
    "RS.C56_retr",
    "RS.C56_exp",
    "RS.C56_hpd_rand",
    "RS.C56_rand",
    "RS.C56_proj_tangent",
    "RS.C56_proj_fixes",
    "RS.C56_proj_idempotent",
    "RS.C56_proj_orthogonal",
    "RS.C56_gradient",
    "RS.C56_exp_eq",
    "RS.C56_log_tangent",
    "RS.C56_exp_log",
    "RS.C56_log_exp",
    "RS.C56_transp",
    "RS.C56_randvec_unit"
   ],
   "note": "points keep determinant 1 and tangent vectors stay trace-free through every operation; exp/log mutually inverse"
  },
  {
   "property": "C57",
   "status": "partial",
   "theorems": [
    "RS.C57_reported",
    "RS.C57_hpd_violated",
    "RS.C57_shpd_violated",
    "RS.C57_upper_bound_partial"
   ],
   "note": "false: the reported dimension n(n+1) (minus 1) exceeds the real dimension n^2 (minus 1) for every n >= 1; partial: upper bound"
  },
  {
   "property": "C58",
   "status": "partial",
   "theorems": [
    "RS.C58_dist_metric",
    "RS.C58_gradient",
    "RS.C58_hessian",
    "RS.C58_hessian_raises",
    "RS.C58_default_weights",
    "RS.C58_inner_posDef",
    "RS.C58_dist_sq",
    "RS.C58_dist_symm",
    "RS.C58_dist_zero_iff",
    "RS.C58_dist_triangle",
    "RS.C58_randvec_norm",
    "RS.C58_randvec_iff",
    "RS.C58_randvec_partial",
    "RS.C58_randvec_violated"
   ],
   "note": "metric, distance (with the axioms of a distance), gradient for every family of components meeting GradOk (shown for the three manifolds of the package); false for randvec: exact norm, witness, partial for default weights"
  },
  {
   "property": "C59",
   "status": "proved",
   "theorems": [
    "RS.C59_fisher",
    "RS.C59_student",
    "RS.C59_posDef"
   ],
   "note": "inner against the Fisher form at A kron B; positive definite for the coefficient chosen by KroneckerStudent"
  },
  {
   "property": "C60",
   "status": "partial",
   "theorems": [
    "RS.C60_exact",
    "RS.C60_violated",
    "RS.C60_partial",
    "RS.C60_ascent_partial"
   ],
   "note": "false at every point when alpha is not 1: exact defect; partial for determinant-preserving directions, and the returned vector is still an ascent direction"
  },
  {
   "property": "C61",
   "status": "proved",
   "theorems": [
    "RS.C61_logpdf",
    "RS.C61_frozen",
    "RS.C61_pdf",
    "RS.C61_entropy",
    "RS.C61_real"
   ],
   "note": "logpdf, frozen logpdf, pdf and entropy; real parameters too"
  },
  {
   "property": "C62",
   "status": "proved",
   "theorems": [
    "RS.C62_frozen",
    "RS.C62_frozen_real",
    "RS.C62_df_rejected"
   ],
   "note": "frozen logpdf; df <= 0 is rejected"
  },
  {
   "property": "C63",
   "status": "partial",
   "theorems": [
    "RS.C63_real_data_as_complex",
    "RS.C63_complex_data_real_params",
    "RS.C63_complex_mean_discarded",
    "RS.C63_frozen_complex_mean",
    "RS.C63_frozen_complex_mean_scalar",
    "RS.C63_violated",
    "RS.C63_partial",
    "RS.C63_scalar_points"
   ],
   "note": "first two clauses proved; the third is false: a complex mean with a real covariance loses its imaginary part or raises (C63_violated); partial for the other combinations"
  },
  {
   "property": "C64",
   "status": "proved",
   "theorems": [
    "RS.C64_moments",
    "RS.C64_law",
    "RS.C64_real",
    "RS.C64_complex_mean"
   ],
   "note": "moments for any sampler with the requested mean and covariance; the law for normal samplers; real case; a sampler meeting the contract is constructed"
  },
  {
   "property": "C65",
   "status": "partial",
   "theorems": [
    "RS.C65_none",
    "RS.C65_run_partial",
    "RS.C65_violated"
   ],
   "note": "None and the bound proved; the third value is tol, not the error (C65_violated)"
  },
  {
   "property": "C66",
   "status": "partial",
   "theorems": [
    "RS.C66_exact",
    "RS.C66_partial",
    "RS.C66_violated"
   ],
   "note": "exact: the form of A^T kron B; false for complex data (witness), proved for real data"
  },
  {
   "property": "C67",
   "status": "proved",
   "theorems": [
    "RS.C67_step",
    "RS.C67_run",
    "RS.C67_fit"
   ],
   "note": "each step, the whole run, and fit; for any square root meeting its contract"
  },
  {
   "property": "C68",
   "status": "partial",
   "theorems": [
    "RS.C68_cost",
    "RS.C68_location_ignored",
    "RS.C68_location_size",
    "RS.C68_violated_location",
    "RS.C68_violated_form",
    "RS.C68_partial"
   ],
   "note": "cost proved; gradient: location ignored and conjugate missing (two witnesses); partial for real data"
  },
  {
   "property": "C69",
   "status": "partial",
   "theorems": [
    "RS.C69_mm",
    "RS.C69_mm_violated",
    "RS.C69_student_violated",
    "RS.C69_student_partial",
    "RS.C69_student_violated_sign"
   ],
   "note": "false: MM score is constantly 0, Student score ignores the fitted covariance and has the wrong sign; exact descriptions"
  },
  {
   "property": "C70",
   "status": "proved",
   "theorems": [
    "RS.C70_general",
    "RS.C70_hpd",
    "RS.C70_hpd_returns",
    "RS.C70_kron"
   ],
   "note": "any sequence of set_estimate/update/fit/lrate changes, exceptions caught; also on the Kronecker manifold with det 1"
  },
  {
   "property": "C71",
   "status": "proved",
   "theorems": [
    "RS.C71_general",
    "RS.C71_schedule"
   ],
   "note": "full path of samples, steps and estimates, from any state (C71_general) and a fresh one"
  },
  {
   "property": "C72",
   "status": "partial",
   "theorems": [
    "RS.C72_exact",
    "RS.C72_partial",
    "RS.C72_violated"
   ],
   "note": "false for the default lr_update: the iteration counter is never reset; exact dependency; partial for a constant step"
  },
  {
   "property": "C73",
   "status": "partial",
   "theorems": [
    "RS.C73_update",
    "RS.C73_fit_exact",
    "RS.C73_fit_partial",
    "RS.C73_violated"
   ],
   "note": "update: exact; fit(init=None) raises ValueError and erases the estimate (C73_violated); partial when estimatetocov accepts None"
  },
  {
   "property": "C74",
   "status": "proved",
   "theorems": [
    "RS.C74_real",
    "RS.C74_real_unit",
    "RS.C74_complex",
    "RS.C74_complex_unit"
   ],
   "note": "eigenvalues exactly the squared draws (real) and 1+draws (complex); determinant 1 with unit_det"
  },
  {
   "property": "C75",
   "status": "proved",
   "theorems": [
    "RS.C75_stiefel",
    "RS.C75_negative"
   ],
   "note": "also for negative k"
  },
  {
   "property": "C76",
   "status": "proved",
   "theorems": [
    "RS.C76_normal",
    "RS.C76_cnormal",
    "RS.C76_empirical",
    "RS.C76_dtype",
    "RS.C76_compound",
    "RS.C76_ccompound",
    "RS.C76_compound_law",
    "RS.C76_ccompound_law",
    "RS.C76_row_textures"
   ],
   "note": "laws of the columns and their independence from a stream of standard normal variates; compound, dtype refusal, behaviour for row textures"
  },
  {
   "property": "C77",
   "status": "proved",
   "theorems": [
    "RS.C77_hermitian_accepted",
    "RS.C77_far_rejected",
    "RS.C77_transpose",
    "RS.C77_zero_tolerance",
    "RS.C77_symmetric",
    "RS.C77_symmetric_far",
    "RS.C77_shapes",
    "RS.C77_row"
   ],
   "note": ""
  },
  {
   "property": "C78",
   "status": "partial",
   "theorems": [
    "RS.C78_student_unfitted",
    "RS.C78_student_fitted",
    "RS.C78_huber",
    "RS.C78_tyler_violated",
    "RS.C78_tyler_error"
   ],
   "note": "Student and Huber as stated; false for Tyler: score always raises (no location_)"
  },
  {
   "property": "C79",
   "status": "partial",
   "theorems": [
    "RS.C79_copy_reads_original",
    "RS.C79_violated",
    "RS.C79_deepcopy_partial",
    "RS.C79_clone_partial"
   ],
   "note": "false for deep copies of Tyler estimators, which read the original's attributes; proved for Student, Huber and for sklearn clones of all"
  },
  {
   "property": "C80",
   "status": "proved",
   "theorems": [
    "RS.C80_real",
    "RS.C80_complex",
    "RS.C80_converse_real",
    "RS.C80_converse_complex"
   ],
   "note": "whole set of positive definite matrices, not a neighbourhood; every dataset with nonzero samples"
  },
  {
   "property": "C81",
   "status": "proved",
   "theorems": [
    "RS.C81_real",
    "RS.C81_complex",
    "RS.C81_strict_real",
    "RS.C81_strict_complex"
   ],
   "note": "uniqueness among all positive definite matrices"
  },
  {
   "property": "C82",
   "status": "proved",
   "theorems": [
    "RS.C82_real",
    "RS.C82_complex",
    "RS.C82_trace_real"
   ],
   "note": "both directions, real and complex"
  },
  {
   "property": "C83",
   "status": "proved",
   "theorems": [
    "RS.C83_real",
    "RS.C83_complex",
    "RS.C83_stops_real",
    "RS.C83_stops_complex"
   ],
   "note": "for every positive definite initial point; also the loop stops"
  },
  {
   "property": "C84",
   "status": "proved",
   "theorems": [
    "RS.C84_real",
    "RS.C84_complex",
    "RS.C84_stops_real",
    "RS.C84_stops_complex"
   ],
   "note": "for every positive definite initial point, given that a fixed point exists and is unique up to scale; trace, determinant and element normalisations"
  },
  {
   "property": "C85",
   "status": "proved",
   "theorems": [
    "RS.C85_real",
    "RS.C85_complex",
    "RS.C85_of_tyler_real",
    "RS.C85_of_tyler_complex"
   ],
   "note": "if and only if, over all spanning data sets without zero sample"
  },
  {
   "property": "C86",
   "status": "proved",
   "theorems": [
    "RS.C86_geodesic",
    "RS.C86_retr_first_order",
    "RS.C86_exp_first_order",
    "RS.C86_retr_second_order",
    "RS.C86_constant_speed"
   ],
   "note": "first and second order derivatives, constant speed"
  },
  {
   "property": "C87",
   "status": "proved",
   "theorems": [
    "RS.C87_hessian",
    "RS.C87_selfadjoint"
   ],
   "note": "any cost with Euclidean gradient/Hessian in the sense of Spec/Manifolds"
  },
  {
   "property": "C88",
   "status": "proved",
   "theorems": [
    "RS.C88_symm",
    "RS.C88_dist_log",
    "RS.C88_dist_exp",
    "RS.C88_zero_iff",
    "RS.C88_congruence",
    "RS.C88_inverse",
    "RS.C88_triangle"
   ],
   "note": "a distance on stacks of any size (symmetry, zero set, triangle inequality), compatible with exp and log, invariant under congruence and inversion; any eigensolver/Cholesky factor meeting its contract"
  },
  {
   "property": "C89",
   "status": "partial",
   "theorems": [
    "RS.C89_df_rejected",
    "RS.C89_real_partial",
    "RS.C89_imaginary_ignored",
    "RS.C89_violated"
   ],
   "note": "false: the class inherits scipy's logpdf, which does not conjugate; partial for real arguments"
  },
  {
   "property": "C90",
   "status": "partial",
   "theorems": [
    "RS.C90_defaults_violated",
    "RS.C90_partial",
    "RS.C90_complex_mean"
   ],
   "note": "false: len(1) raises TypeError; partial for an explicit covariance"
  },
  {
   "property": "C91",
   "status": "partial",
   "theorems": [
    "RS.C91_transpose",
    "RS.C91_partial",
    "RS.C91_violated"
   ],
   "note": "for A^T kron B always (C91_transpose); for kron(A,B) on real data; complex witness where the cost grows"
  },
  {
   "property": "C92",
   "status": "partial",
   "theorems": [
    "RS.C92_partial",
    "RS.C92_violated"
   ],
   "note": "false: witness where cost derivative and gradient have opposite signs; partial: the gradient is that of the real student cost, on real data"
  },
  {
   "property": "C93",
   "status": "proved",
   "theorems": [
    "RS.C93_scale",
    "RS.C93_order"
   ],
   "note": "equality of results for all inputs, also failing ones"
  },
  {
   "property": "C94",
   "status": "partial",
   "theorems": [
    "RS.C94_fixed_iff",
    "RS.C94_transpose",
    "RS.C94_partial",
    "RS.C94_violated"
   ],
   "note": "both directions; for A^T kron B always, for kron(A,B) on real data; complex witness"
  },
  {
   "property": "C95",
   "status": "partial",
   "theorems": [
    "RS.C95_exact",
    "RS.C95_violated",
    "RS.C95_partial"
   ],
   "note": "false at every point with nonzero gradient: the step goes up the gradient; partial: negative learning rates"
  },
  {
   "property": "C96",
   "status": "partial",
   "theorems": [
    "RS.C96_partial",
    "RS.C96_no_decay",
    "RS.C96_violated"
   ],
   "note": "false for the default lr_update (update does not count samples); partial for a constant step"
  },
  {
   "property": "C97",
   "status": "proved",
   "theorems": [
    "RS.C97_real",
    "RS.C97_complex"
   ],
   "note": "law and independence of the columns, real and complex"
  },
  {
   "property": "C98",
   "status": "proved",
   "theorems": [
    "RS.C98_gamma",
    "RS.C98_refuses"
   ],
   "note": "moments from the gamma law as contract of numpy's sampler"
  },
  {
   "property": "C99",
   "status": "partial",
   "theorems": [
    "RS.C99_exact",
    "RS.C99_violated",
    "RS.C99_partial"
   ],
   "note": "false: variance is exp(variance)-1 for every argument; partial: mean 1"
  },
  {
   "property": "C100",
   "status": "partial",
   "theorems": [
    "RS.C100_exact",
    "RS.C100_violated"
   ],
   "note": "false for every law of the draws: all eigenvalues lie in [0,1)"
  },
  {
   "property": "C101",
   "status": "proved",
   "theorems": [
    "RS.C101_real",
    "RS.C101_complex",
    "RS.C101_converges_real",
    "RS.C101_converges_complex",
    "RS.C101_too_few_real",
    "RS.C101_too_few_complex"
   ],
   "note": "both directions; corollaries for general position (convergence) and N <= p"
  },
  {
   "property": "C102",
   "status": "proved",
   "theorems": [
    "RS.C102_real",
    "RS.C102_complex",
    "RS.C102_converges_real",
    "RS.C102_converges_complex"
   ],
   "note": "both directions; zero samples allowed; corollary for general position (geometric convergence)"
  },
  {
   "property": "C103",
   "status": "proved",
   "theorems": [
    "RS.C103_real",
    "RS.C103_complex",
    "RS.C103_moment_real",
    "RS.C103_moment_complex"
   ],
   "note": "both directions, real and complex; exact condition for the estimate to be the plain second moment"
  },
  {
   "property": "C104",
   "status": "partial",
   "theorems": [
    "RS.C104_orbit_real",
    "RS.C104_orbit_complex",
    "RS.C104_violated",
    "RS.C104_real_partial",
    "RS.C104_complex_partial",
    "RS.C104_stops_real_partial",
    "RS.C104_stops_complex_partial"
   ],
   "note": "false: explicit data on which the call alternates between two matrices for ever (exact orbit); partial: geometric convergence and stopping when the samples below the threshold span"
  },
  {
   "property": "C105",
   "status": "partial",
   "theorems": [
    "RS.C105_real",
    "RS.C105_fixed_real",
    "RS.C105_complex_partial",
    "RS.C105_circular_partial",
    "RS.C105_violated"
   ],
   "note": "real data: proved under the contract that the solver returns a minimiser; complex data: false, the method minimises the cost of the real form over all symmetric matrices of double size and drops half of the result (explicit eight samples, every normalisation); partial: data whose real form has estimates of the block form, in particular data that multiplication by i permutes"
  },
  {
   "property": "C106",
   "status": "partial",
   "theorems": [
    "RS.C106_processes_untouched",
    "RS.C106_result_partial",
    "RS.C106_threads_partial",
    "RS.C106_violated"
   ],
   "note": "false: the copy is dropped, n_jobs=1 and threads work on the given object (witnesses: left fitted, memory leaks between trials, two threads exchange features); partial: worker processes never touch the object, and sequential runs, process runs and non-interleaving threads give the right features for estimators without memory"
  },
  {
   "property": "C107",
   "status": "partial",
   "theorems": [
    "RS.C107_partial",
    "RS.C107_first_batch",
    "RS.C107_violated"
   ],
   "note": "false: shape reports the declared shape and the first batch is not checked (such an array then refuses every further item, proved in general); partial: all batches of the declared shape"
  },
  {
   "property": "C108",
   "status": "partial",
   "theorems": [
    "RS.C108_partial",
    "RS.C108_new_array",
    "RS.C108_unshared",
    "RS.C108_violated"
   ],
   "note": "false: the first batch is kept by reference; witnesses: a later write of the caller shows in the feature array, and an append after a rejected first append, after a batch with components of different lengths, or on f[np.int64(i)] overwrites an array of the caller. Partial: for every program whose batches are even, whose first appends are accepted, whose keys are Python ints or slices and which writes only to unshared arrays, references cannot be noticed; unsharedness is characterised (C108_new_array, C108_unshared)"
  },
  {
   "property": "C109",
   "status": "partial",
   "theorems": [
    "RS.C109_partial",
    "RS.C109_exact",
    "RS.C109_inverse",
    "RS.C109_violated"
   ],
   "note": "false: store_precision switched on after a fit makes get_precision return None (exact description: C109_exact); partial: all histories in which store_precision keeps its value"
  },
  {
   "property": "C110",
   "status": "partial",
   "theorems": [
    "RS.C110_partial",
    "RS.C110_violated"
   ],
   "note": "false: TypeError for every object with an sklearn that validates the test set (1.0 and later), and before that the product is not conjugated and the constant is that of the real law (witness); partial: real-valued location, covariance and test set give the real normal log-likelihood"
  },
  {
   "property": "C111",
   "status": "proved",
   "theorems": [
    "RS.C111_converges",
    "RS.C111_stops",
    "RS.C111_tolerance",
    "RS.C111_fit",
    "RS.C111_limit",
    "RS.C111_unique"
   ],
   "note": "limit under existence and uniqueness up to scale of the fixed pair; stopping; accuracy for small tol, also for fit; limits are fixed pairs; uniqueness for irreducible samples"
  },
  {
   "property": "C112",
   "status": "proved",
   "theorems": [
    "RS.C112_huber_real",
    "RS.C112_huber_complex",
    "RS.C112_real",
    "RS.C112_complex",
    "RS.C112_tyler_real",
    "RS.C112_tyler_complex",
    "RS.C112_student_real",
    "RS.C112_student_complex"
   ],
   "note": "generic over the six fixed-point functions; unconditional for Tyler and Student-t in general position; for Huber's estimators where the samples inside the threshold span the space at the fixed point (C104)"
  },
  {
   "property": "C113",
   "status": "proved",
   "theorems": [
    "RS.C113_likelihood",
    "RS.C113_mle"
   ],
   "note": "pymanopt's solver is a parameter; contract: positive definite result whose cost is at most the starting cost (or minimal)"
  },
  {
   "property": "C114",
   "status": "proved",
   "theorems": [
    "RS.C114_value",
    "RS.C114_scale",
    "RS.C114_scale_complex",
    "RS.C114_negative"
   ],
   "note": "real and complex; value for every normalisation; C114_negative gives a run whose second value is negative"
  },
  {
   "property": "C115",
   "status": "proved",
   "theorems": [
    "RS.C115_normal",
    "RS.C115_normal_real",
    "RS.C115_t",
    "RS.C115_t_real"
   ],
   "note": "Lebesgue integrals over R^p and C^p; t law as a Gamma mixture of normal laws"
  },
  {
   "property": "C116",
   "status": "proved",
   "theorems": [
    "RS.C116_normal",
    "RS.C116_t"
   ],
   "note": "scipy's sampler is a parameter; contract: independent rows with the real density (samplers meeting it exist)"
  },
  {
   "property": "C117",
   "status": "proved",
   "theorems": [
    "RS.C117_complex",
    "RS.C117_real"
   ],
   "note": "real and complex, module function and frozen"
  },
  {
   "property": "C118",
   "status": "proved",
   "theorems": [
    "RS.C118_complex",
    "RS.C118_real",
    "RS.C118_logcdf"
   ],
   "note": "scipy's integration routine is a parameter with error epsilon; logcdf stated for exact integration"
  },
  {
   "property": "C119",
   "status": "proved",
   "theorems": [
    "RS.C119_consistent",
    "RS.C119_centered",
    "RS.C119_expectation"
   ],
   "note": "almost sure limits over Mathlib's strong law of large numbers; samples as independent random vectors"
  },
  {
   "property": "C120",
   "status": "proved",
   "theorems": [
    "RS.C120_generalPosition",
    "RS.C120_real",
    "RS.C120_complex",
    "RS.C120_elliptical",
    "RS.C120_laws"
   ],
   "note": "general population equation, then elliptical laws, then the laws of rvs; tol and iter_max may depend on the number of samples"
  },
  {
   "property": "C121",
   "status": "partial",
   "theorems": [
    "RS.C121_real",
    "RS.C121_complex",
    "RS.C121_elliptical_real",
    "RS.C121_elliptical_complex",
    "RS.C121_matched_real_partial",
    "RS.C121_matched_complex_partial",
    "RS.C121_real_violated",
    "RS.C121_complex_violated"
   ],
   "note": "violated for the same df (factor kappa below 1 real, above 1 complex); consistent for df/2 (real) and 2 df (complex)"
  },
  {
   "property": "C122",
   "status": "proved",
   "theorems": [
    "RS.C122_real",
    "RS.C122_complex",
    "RS.C122_elliptical_real",
    "RS.C122_elliptical_complex",
    "RS.C122_laws"
   ],
   "note": "general population equation, then elliptical laws with an explicit equation for the factor kappa"
  },
  {
   "property": "C123",
   "status": "partial",
   "theorems": [
    "RS.C123_real_violated",
    "RS.C123_complex_violated"
   ],
   "note": "violated: factor kappa > 1 for every q; exact chi-square functions, whose existence is proved"
  },
  {
   "property": "C124",
   "status": "proved",
   "theorems": [
    "RS.C124_blowup_real",
    "RS.C124_nolimit_real",
    "RS.C124_elliptical_real",
    "RS.C124_t_real",
    "RS.C124_blowup_complex",
    "RS.C124_nolimit_complex",
    "RS.C124_elliptical_complex",
    "RS.C124_t_complex"
   ],
   "note": "limit if and only if the fourth moment is finite; explicit threshold df = 4 for t samples"
  },
  {
   "property": "C125",
   "status": "proved",
   "theorems": [
    "RS.C125_construct",
    "RS.C125_clone"
   ],
   "note": "constructors and clone on the object heap"
  },
  {
   "property": "C126",
   "status": "proved",
   "theorems": [
    "RS.C126_real",
    "RS.C126_complex",
    "RS.C126_run_real",
    "RS.C126_run_complex",
    "RS.C126_implodes_real",
    "RS.C126_implodes_complex",
    "RS.C126_explodes_real",
    "RS.C126_explodes_complex"
   ],
   "note": "sharp: both bounds proved necessary and sufficient"
  },
  {
   "property": "C127",
   "status": "partial",
   "theorems": [
    "RS.C127_real_violated",
    "RS.C127_complex_violated",
    "RS.C127_real_partial",
    "RS.C127_complex_partial"
   ],
   "note": "violated: a single sample breaks the estimate down; lower bound proved"
  },
  {
   "property": "C128",
   "status": "proved",
   "theorems": [
    "RS.C128_real",
    "RS.C128_run_real",
    "RS.C128_copies_real",
    "RS.C128_complex",
    "RS.C128_run_complex",
    "RS.C128_copies_complex"
   ],
   "note": "sharp: the bound comes from compactness, the converse from the subspace count of C101"
  },
  {
   "property": "C129",
   "status": "partial",
   "theorems": [
    "RS.C129_shown",
    "RS.C129_partial",
    "RS.C129_violated",
    "RS.C129_new"
   ],
   "note": "C129_shown is the exact description; false because unused buffer rows are shown."
  },
  {
   "property": "C130",
   "status": "partial",
   "theorems": [
    "RS.C130_violated",
    "RS.C130_sign_violated",
    "RS.C130_plain_partial",
    "RS.C130_aligned",
    "RS.C130_bad_format",
    "RS.C130_alignment",
    "RS.C130_empty"
   ],
   "note": "False for formats with an alignment or a sign; proved for plain formats."
  },
  {
   "property": "C131",
   "status": "proved",
   "theorems": [
    "RS.C131_display"
   ],
   "note": ""
  },
  {
   "property": "C132",
   "status": "partial",
   "theorems": [
    "RS.C132_raises_violated",
    "RS.C132_fitted_violated"
   ],
   "note": "False: raises for every object and array."
  },
  {
   "property": "C133",
   "status": "partial",
   "theorems": [
    "RS.C133_set_partial",
    "RS.C133_transform_partial",
    "RS.C133_get_scale_partial",
    "RS.C133_violated"
   ],
   "note": "False for one-dimensional scales; everything else proved."
  },
  {
   "property": "C134",
   "status": "partial",
   "theorems": [
    "RS.C134_refused_partial",
    "RS.C134_ignored",
    "RS.C134_plain",
    "RS.C134_violated"
   ],
   "note": "False: CenteredStudentMLE ignores every extra name, the others every name that is not one of their own parameters. Exact: the refused names per class and method raise and change nothing; all other names leave the call as it is without them."
  },
  {
   "property": "C135",
   "status": "partial",
   "theorems": [
    "RS.C135_partial",
    "RS.C135_complex",
    "RS.C135_violated"
   ],
   "note": "False for the complex estimators (twice the number of columns, proved); proved for the real ones."
  },
  {
   "property": "C136",
   "status": "partial",
   "theorems": [
    "RS.C136_partial",
    "RS.C136_columns",
    "RS.C136_violated"
   ],
   "note": "False for n_features_in_, which is already the one of the refused call; proved for everything else. C136_columns is the exact description."
  },
  {
   "property": "C137",
   "status": "proved",
   "theorems": [
    "RS.C137_fit_transform",
    "RS.C137_last",
    "RS.C137_unfitted"
   ],
   "note": ""
  },
  {
   "property": "C138",
   "status": "partial",
   "theorems": [
    "RS.C138_state",
    "RS.C138_fit",
    "RS.C138_partial",
    "RS.C138_clone",
    "RS.C138_violated"
   ],
   "note": "False: alpha and manifold stay those of the construction (C138_state, C138_fit are the exact description). The partial covers histories after which a, b and df are those of the construction."
  },
  {
   "property": "C139",
   "status": "partial",
   "theorems": [
    "RS.C139_partial",
    "RS.C139_violated"
   ],
   "note": "False: location_ is overwritten before the solver runs, after which the score of the data of the first fit raises. The partial covers all other attributes."
  },
  {
   "property": "C140",
   "status": "partial",
   "theorems": [
    "RS.C140_fisher",
    "RS.C140_partial",
    "RS.C140_violated"
   ],
   "note": "False: alpha = (df+p)/(df+p+1) belongs to the laws with 2 df degrees of freedom (C140_partial), while the cost is the likelihood for df. C140_fisher is the exact Fisher information; C140_violated: in every nonzero direction the metric is larger."
  },
  {
   "property": "C141",
   "status": "partial",
   "theorems": [
    "RS.C141_precision_real_partial",
    "RS.C141_precision_complex_partial",
    "RS.C141_violated",
    "RS.C141_fitted_real_violated"
   ],
   "note": "False: no fit of covariance.py sets location_, so mahalanobis raises for every object and array (AttributeError after a successful real fit). The partial theorems: get_precision is the inverse of covariance_."
  },
  {
   "property": "C142",
   "status": "proved",
   "theorems": [
    "RS.C142_tyler_real",
    "RS.C142_tyler_complex",
    "RS.C142_tyler_none_real",
    "RS.C142_tyler_none_complex",
    "RS.C142_student_real",
    "RS.C142_student_complex"
   ],
   "note": "Tyler: whitening, self-adjoint derivative with a spectral gap, second-order remainder in the Loewner order; Student-t: contraction in the Loewner order"
  },
  {
   "property": "C143",
   "status": "proved",
   "theorems": [
    "RS.C143_tyler_real",
    "RS.C143_tyler_complex",
    "RS.C143_student_real",
    "RS.C143_student_complex"
   ],
   "note": "distance to the limit bounded by the last step, locally by the gap or the contraction, elsewhere because a step of length zero is a fixed point; normalising is Lipschitz"
  },
  {
   "property": "C144",
   "status": "proved",
   "theorems": [
    "RS.C144_student_real",
    "RS.C144_student_complex",
    "RS.C144_tyler_real",
    "RS.C144_tyler_complex"
   ],
   "note": "existence conditions are open in the data; the cost of nearby data is positive on a small sphere around the strict minimiser, so their minimisers lie inside it"
  },
  {
   "property": "C145",
   "status": "proved",
   "theorems": [
    "RS.C145_iff",
    "RS.C145_general_position",
    "RS.C145_single",
    "RS.C145_converges",
    "RS.C145_fit"
   ],
   "note": "exact existence condition (weights on bases), general position suffices, one sample never does; convergence and fit on spread-out samples"
  },
  {
   "property": "C146",
   "status": "partial",
   "theorems": [
    "RS.C146_real_partial",
    "RS.C146_complex_partial",
    "RS.C146_integers",
    "RS.C146_fails_real",
    "RS.C146_fails_complex",
    "RS.C146_natural_gradient_parallel_real",
    "RS.C146_natural_gradient_parallel_complex",
    "RS.C146_natural_gradient_sequential",
    "RS.C146_natural_gradient_refitted",
    "RS.C146_untouched",
    "RS.C146_violated"
   ],
   "note": "False for the natural-gradient method: with n_jobs = 1 the second trial raises TypeError, while threads and processes return the stack; an estimator fitted before raises TypeError for every n_jobs. The partial theorems cover everything else."
  },
  {
   "property": "C147",
   "status": "partial",
   "theorems": [
    "RS.C147_hessian_partial",
    "RS.C147_selfadjoint_partial",
    "RS.C147_violated",
    "RS.C147_shpd_raises"
   ],
   "note": "Holds for products of strictly positive vectors and Hermitian positive definite matrices; with unit-determinant matrices among the components, hence on the Kronecker manifold, ehess2rhess always raises NotImplementedError."
  },
  {
   "property": "C148",
   "status": "partial",
   "theorems": [
    "RS.C148_zero_sample",
    "RS.C148_columns",
    "RS.C148_rows_partial",
    "RS.C148_partial",
    "RS.C148_fit_partial",
    "RS.C148_one_iteration",
    "RS.C148_few_samples_partial",
    "RS.C148_violated"
   ],
   "note": "Exact description in exact arithmetic for iter_max >= 2 and tol < 1/sqrt(b): it returns exactly on non-degenerate data. With iter_max = 1 data poor in rows give a singular covariance_ and no exception."
  },
  {
   "property": "C149",
   "status": "partial",
   "theorems": [
    "RS.C149_exact",
    "RS.C149_real_partial",
    "RS.C149_fit_exact",
    "RS.C149_fit_partial",
    "RS.C149_fit_wrong",
    "RS.C149_violated"
   ],
   "note": "The limit is proved for real and complex data (C149_exact, C149_fit_exact): the shape of kron(A.T, B). Consistent for real data and real A; inconsistent exactly when A is not real (C149_fit_wrong), with the complex normal law as witness (C149_violated)."
  },
  {
   "property": "C150",
   "status": "proved",
   "theorems": [
    "RS.C150_mle",
    "RS.C150_limit",
    "RS.C150_elliptical",
    "RS.C150_consistent"
   ],
   "note": "The solver is a parameter; the ideal one is a contract (KronMinimises), which a real gradient solver may miss because the gradient it is given is wrong in general (C92). The condition on the samples is sufficient, not shown necessary. Consistency is stated for assume_centered=True (the mean need not exist for small df)."
  },
  {
   "property": "C151",
   "status": "proved",
   "theorems": [
    "RS.C151_exists_real",
    "RS.C151_exists_complex",
    "RS.C151_bounds_real",
    "RS.C151_bounds_complex",
    "RS.C151_large_real",
    "RS.C151_large_complex"
   ],
   "note": "The bounds are on the exact fixed point; the runs approach it (C83, C112). Real arithmetic."
  },
  {
   "property": "C152",
   "status": "proved",
   "theorems": [
    "RS.C152_bounds_real",
    "RS.C152_bounds_complex",
    "RS.C152_small_real",
    "RS.C152_small_complex"
   ],
   "note": "The bounds are on the exact fixed point; the runs approach it (C83, C112). Real arithmetic. Data whose Tyler estimate is not unique up to scale are covered by the bounds, not by the limit."
  },
  {
   "property": "C153",
   "status": "proved",
   "theorems": [
    "RS.C153_continuous",
    "RS.C153_fit"
   ],
   "note": "Up to scale: the scales of the two returned matrices depend on the trajectory. Real arithmetic; sqrtm enters through its contract."
  },
  {
   "property": "C154",
   "status": "partial",
   "theorems": [
    "RS.C154_real_partial",
    "RS.C154_complex_partial",
    "RS.C154_fails",
    "RS.C154_untouched",
    "RS.C154_sequential",
    "RS.C154_threads",
    "RS.C154_natural_gradient_sequential",
    "RS.C154_natural_gradient_batch",
    "RS.C154_violated"
   ],
   "note": "Partial because the code violates it: the deep copy made for each trial is overwritten, so with threads an item can be the covariance of another trial (C154_threads), and with n_jobs = 1, or two trials in one process batch, a natural-gradient Tyler estimator raises TypeError at the second trial. Proved for the fixed-point methods with n_jobs = 1, processes, and threads that do not interleave fit and transform."
  },
  {
   "property": "C155",
   "status": "proved",
   "theorems": [
    "RS.C155_student_real",
    "RS.C155_student_complex",
    "RS.C155_tyler_real",
    "RS.C155_tyler_complex",
    "RS.C155_huber_real",
    "RS.C155_huber_complex"
   ],
   "note": "proved for the limits of the calls (Student-t, Tyler) and for the matrices left in place by one call (Huber, whose calls need not converge from every start, C104)"
  },
  {
   "property": "C156",
   "status": "partial",
   "theorems": [
    "RS.C156_law",
    "RS.C156_partial",
    "RS.C156_violated"
   ],
   "note": "violated for complex data: the algorithm returns the transpose of the first factor, so the estimates of (V \u2297 U) x are conj(V) A V^T and U B U^H (C156_law, all data); C156_violated shows that for all complex spread-out data with a >= 2 some V breaks the expected law. C156_partial: the law holds for real data and for V with real entries."
  },
  {
   "property": "C157",
   "status": "proved",
   "theorems": [
    "RS.C157_exact",
    "RS.C157_student_real",
    "RS.C157_student_complex",
    "RS.C157_run_real",
    "RS.C157_run_complex"
   ],
   "note": "Props/Rounding. Rounding errors enter through the two results stored by each pass of the loop; u bounds the error of a whole pass."
  },
  {
   "property": "C158",
   "status": "proved",
   "theorems": [
    "RS.C158_exact",
    "RS.C158_tyler_real",
    "RS.C158_tyler_complex",
    "RS.C158_run_real",
    "RS.C158_run_complex"
   ],
   "note": "Props/Rounding. The final normalisation itself is exact in the model; rounding errors enter through the two results stored by each pass."
  },
  {
   "property": "C159",
   "status": "proved",
   "theorems": [
    "RS.C159_student_real",
    "RS.C159_student_complex",
    "RS.C159_tyler_real",
    "RS.C159_tyler_complex"
   ],
   "note": "Props/RoundingFloor. The rounding errors are chosen against the data and the starting point."
  },
  {
   "property": "C160",
   "status": "proved",
   "theorems": [
    "RS.C160_fixed_real",
    "RS.C160_fixed_complex",
    "RS.C160_estimate_real",
    "RS.C160_estimate_complex"
   ],
   "note": "C160_fixed_*: without further condition. C160_estimate_*: the calls converge only under the condition of C104."
  },
  {
   "property": "C161",
   "status": "proved",
   "theorems": [
    "RS.C161_real",
    "RS.C161_complex"
   ],
   "note": "The condition on the samples below the threshold is that of C104; without it the iteration may oscillate (C104_violated)."
  },
  {
   "property": "C162",
   "status": "proved",
   "theorems": [
    "RS.C162_exact",
    "RS.C162_real",
    "RS.C162_complex",
    "RS.C162_run_real",
    "RS.C162_run_complex",
    "RS.C162_floor_real",
    "RS.C162_floor_complex"
   ],
   "note": "C162_run_*: the stored matrices are those one expects. Stability under the condition of C104."
  },
  {
   "property": "C163",
   "status": "proved",
   "theorems": [
    "RS.C163_gradient_real",
    "RS.C163_gradient_complex",
    "RS.C163_stationary_real",
    "RS.C163_stationary_complex",
    "RS.C163_solver"
   ],
   "note": "The derivative computed by autograd is not modelled; the theorem says what a correct derivative is."
  },
  {
   "property": "C164",
   "status": "proved",
   "theorems": [
    "RS.C164_real",
    "RS.C164_circular"
   ],
   "note": "The solver is a parameter with the contract SolverStops; other complex data are excluded because the two methods then disagree (C105)."
  },
  {
   "property": "C165",
   "status": "proved",
   "theorems": [
    "RS.C165_rate",
    "RS.C165_spread",
    "RS.C165_fit"
   ],
   "note": "The third returned value is the tolerance, not the last error, so accuracy is stated for calls that stop before iter_max. Exact arithmetic."
  },
  {
   "property": "C166",
   "status": "partial",
   "theorems": [
    "RS.C166_get_partial",
    "RS.C166_set_partial",
    "RS.C166_create_partial",
    "RS.C166_create_violated",
    "RS.C166_online_violated"
   ],
   "note": "Partial because the code violates the property: two wrappers swallow unknown keywords and the online estimator does not store its parameters under their names."
  },
  {
   "property": "C167",
   "status": "partial",
   "theorems": [
    "RS.C167_clone_partial",
    "RS.C167_constants_partial",
    "RS.C167_params_partial",
    "RS.C167_succeeds_partial",
    "RS.C167_unfitted",
    "RS.C167_tyler",
    "RS.C167_kronecker",
    "RS.C167_online_violated"
   ],
   "note": "Partial because the online estimator cannot be cloned. The last check of clone, that the constructor has stored the very values it was given, is not modelled."
  },
  {
   "property": "C168",
   "status": "partial",
   "theorems": [
    "RS.C168_gradient",
    "RS.C168_gradient_exists",
    "RS.C168_sequence_partial",
    "RS.C168_growth",
    "RS.C168_violated",
    "RS.C168_consistent_partial",
    "RS.C168_consistent_real_partial",
    "RS.C168_rate_partial"
   ],
   "note": "Partial because update moves along +t*gradient, so the claim is false for every positive learning rate (C168_violated, C168_growth) and holds for every negative one."
  },
  {
   "property": "C169",
   "status": "proved",
   "theorems": [
    "RS.C169_coordinates"
   ],
   "note": "Ideal solver (KronMinimises), a contract. By contrast the covariance of KroneckerEllipticalMM follows complex changes of coordinates only for real V (C156)."
  },
  {
   "property": "C170",
   "status": "proved",
   "theorems": [
    "RS.C170_continuous"
   ],
   "note": "Ideal solver (KronMinimises), a contract. The modulus of continuity is not computed."
  },
  {
   "property": "C171",
   "status": "proved",
   "theorems": [
    "RS.C171_exact",
    "RS.C171_exact_fit",
    "RS.C171_run",
    "RS.C171_stable",
    "RS.C171_spread",
    "RS.C171_fit",
    "RS.C171_floor"
   ],
   "note": "The errors inside a pass are not modelled: they count as errors of the two matrices it stores. The scales of the two matrices may drift, so the distances are to multiples of A and B."
  },
  {
   "property": "C172",
   "status": "proved",
   "theorems": [
    "RS.C172_mse",
    "RS.C172_clt",
    "RS.C172_interval",
    "RS.C172_normal"
   ],
   "note": "Exact mean squared error; asymptotic normality of every linear function; asymptotic coverage; explicit values for normal samples. Independence of the samples is the hypothesis IIDSamples (C119)."
  },
  {
   "property": "C173",
   "status": "proved",
   "theorems": [
    "RS.C173_withstands",
    "RS.C173_fit",
    "RS.C173_breaks",
    "RS.C173_share"
   ],
   "note": "C173_withstands and C173_fit (bounded condition numbers and convergence), C173_breaks (collapse), C173_share (both together). Exact arithmetic; the matrix square root is a parameter with its contract. For N between m*max(a,b) and m*max(a,b)+a*b nothing is claimed."
  },
  {
   "property": "C174",
   "status": "proved",
   "theorems": [
    "RS.C174_influence",
    "RS.C174_scale",
    "RS.C174_real",
    "RS.C174_complex",
    "RS.C174_interval",
    "RS.C174_t_scale"
   ],
   "note": "Asymptotic normality of every linear function of the estimate, the variance being given by the unique solution of a linear equation; asymptotic coverage; explicit variance of the scale on t samples. Independence of the samples is the hypothesis IIDSamples (C119)."
  },
  {
   "property": "C175",
   "status": "proved",
   "theorems": [
    "RS.C175_law",
    "RS.C175_bound",
    "RS.C175_attained"
   ],
   "note": "Explicit limit variance, Cramer-Rao inequality with the Fisher information of C140, and attainment. That the Cramer-Rao quantity bounds the variance of other estimators is the classical theorem and is not formalised; the theorems show that the limit variance equals it."
  },
  {
   "property": "C176",
   "status": "proved",
   "theorems": [
    "RS.C176_fisher",
    "RS.C176_law",
    "RS.C176_bound",
    "RS.C176_attained"
   ],
   "note": "Explicit limit variance, Fisher information of the real t laws, Cramer-Rao inequality and attainment. The law is the one with df/2 degrees of freedom (C121: with df degrees of freedom the limit has another scale). That the Cramer-Rao quantity bounds the variance of other estimators is the classical theorem and is not formalised."
  },
  {
   "property": "C177",
   "status": "proved",
   "theorems": [
    "RS.C177_real",
    "RS.C177_complex",
    "RS.C177_price",
    "RS.C177_price_real"
   ],
   "note": "Limit law with explicit variance for all elliptical laws and the three normalisations; comparison with the efficient variance of C175."
  },
  {
   "property": "C178",
   "status": "proved",
   "theorems": [
    "RS.C178_tyler_real",
    "RS.C178_tyler_complex",
    "RS.C178_student_real",
    "RS.C178_student_complex",
    "RS.C178_correlation_tyler",
    "RS.C178_correlation_student",
    "RS.C178_coherence_tyler",
    "RS.C178_coherence_student"
   ],
   "note": "Delta method on C175-C177, with the gradients of correlation and coherence computed."
  },
  {
   "property": "C179",
   "status": "proved",
   "theorems": [
    "RS.C179_tyler",
    "RS.C179_student",
    "RS.C179_coherence_tyler",
    "RS.C179_coherence_student"
   ],
   "note": "Fisher's transformation makes the limit variance of C178 a known constant."
  },
  {
   "property": "C180",
   "status": "proved",
   "theorems": [
    "RS.C180_value",
    "RS.C180_length",
    "RS.C180_product"
   ],
   "note": "The distance covered is independent of the point and the signs; the product part is a direct reading of the code."
  },
  {
   "property": "C181",
   "status": "proved",
   "theorems": [
    "RS.C181_delta",
    "RS.C181_coherence",
    "RS.C181_compare",
    "RS.C181_normal",
    "RS.C181_t",
    "RS.C181_t_factors"
   ],
   "note": "(e) is proved as the limit law for the empirical covariance together with the comparison of the factors of C178."
  },
  {
   "property": "C182",
   "status": "proved",
   "theorems": [
    "RS.C182_coverage",
    "RS.C182_normal",
    "RS.C182_t",
    "RS.C182_below"
   ],
   "note": ""
  },
  {
   "property": "C183",
   "status": "proved",
   "theorems": [
    "RS.C183_tyler",
    "RS.C183_student",
    "RS.C183_empirical",
    "RS.C183_level",
    "RS.C183_normal",
    "RS.C183_t"
   ],
   "note": "The gradient of the squared coherence vanishes at S[i,j] = 0, so C178 and C181 say nothing there; this is the second-order limit."
  },
  {
   "property": "C184",
   "status": "proved",
   "theorems": [
    "RS.C184_zero",
    "RS.C184_tyler_complex",
    "RS.C184_tyler_real",
    "RS.C184_student_complex",
    "RS.C184_student_real",
    "RS.C184_empirical",
    "RS.C184_normal",
    "RS.C184_t",
    "RS.C184_level_complex",
    "RS.C184_level_real",
    "RS.C184_level_t",
    "RS.C184_level_normal",
    "RS.C184_power_complex",
    "RS.C184_power_real"
   ],
   "note": "The degrees of freedom 2 df (complex) and df/2 (real) are those of C175 and C176."
  },
  {
   "property": "C185",
   "status": "partial",
   "theorems": [
    "RS.C185_history",
    "RS.C185_attributes",
    "RS.C185_raise_partial",
    "RS.C185_one_column",
    "RS.C185_violated",
    "RS.C185_last"
   ],
   "note": "Partial because the code violates the clause on exceptions for real data with one column (C185_violated, exact description C185_one_column); the independence of the history is proved in full. n_features_in_ is not an attribute of the model."
  },
  {
   "property": "C186",
   "status": "proved",
   "theorems": [
    "RS.C186_tyler_real",
    "RS.C186_student_real",
    "RS.C186_tyler_complex",
    "RS.C186_student_complex",
    "RS.C186_empirical"
   ],
   "note": "From the limit laws C178 and C181; detection needs no consistency result, a limit law with any variance is enough."
  },
  {
   "property": "C187",
   "status": "proved",
   "theorems": [
    "RS.C187_real",
    "RS.C187_complex"
   ],
   "note": "From the limit laws C178 of both estimators on the same samples."
  }
 ]
}