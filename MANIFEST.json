{
 "claims": [
  {
   "property": "C01",
   "status": "proved",
   "theorems": [
    "Verif.C01_best_cost_observed"
   ],
   "note": "Costs of one numeric type; mixtures of int and float are C54."
  },
  {
   "property": "C02",
   "status": "partial",
   "theorems": [
    "Verif.C02_best_ind_partial",
    "Verif.C02_refuted_one_iteration",
    "Verif.C02_refuted"
   ],
   "note": "Proved for runs that improve on the first generation; otherwise best_ind is the position of the best individual in the first generation (an integer), and the claim is refuted by concrete runs."
  },
  {
   "property": "C03",
   "status": "proved",
   "theorems": [
    "Verif.C03_zero_tolerance",
    "Verif.C03_nonneg_costs",
    "Verif.C03_nonpos_costs",
    "Verif.C03_any_sign",
    "Verif.C03_best_cost_can_worsen"
   ],
   "note": "Exact bounds for every sign of the costs."
  },
  {
   "property": "C04",
   "status": "proved",
   "theorems": [
    "Verif.C04_history_is_min",
    "Verif.C04_generation_evaluated"
   ],
   "note": ""
  },
  {
   "property": "C05",
   "status": "proved",
   "theorems": [
    "Verif.C05_iterations_bounded"
   ],
   "note": ""
  },
  {
   "property": "C06",
   "status": "proved",
   "theorems": [
    "Verif.C06_dead_iter"
   ],
   "note": ""
  },
  {
   "property": "C07",
   "status": "partial",
   "theorems": [
    "Verif.C07_stagnation_stops_partial",
    "Verif.C07_refuted_positive",
    "Verif.C07_witness"
   ],
   "note": "True for ftol=0 or non-positive costs; false for positive costs with ftol>0 (refuted)."
  },
  {
   "property": "C08",
   "status": "partial",
   "theorems": [
    "Verif.C08_nfev_partial",
    "Verif.C08_UMDAd",
    "Verif.C08_UMDAc",
    "Verif.C08_PBIL",
    "Verif.C08_EMNA",
    "Verif.C08_UMDAcat",
    "Verif.C08_EGNA",
    "Verif.C08_archive",
    "Verif.C08_UnivariateKEDA",
    "Verif.C08_refuted"
   ],
   "note": "True when every generation (in particular init_data) has size_gen rows; refuted for init_data with another number of rows."
  },
  {
   "property": "C09",
   "status": "proved",
   "theorems": [
    "Verif.C09_truncation_keeps_best",
    "Verif.C09_no_better_discarded"
   ],
   "note": ""
  },
  {
   "property": "C10",
   "status": "proved",
   "theorems": [
    "Verif.C10_elite_is_best_so_far",
    "Verif.C10_elite_costs"
   ],
   "note": ""
  },
  {
   "property": "C100",
   "status": "proved",
   "theorems": [
    "Verif.C100_found_probability",
    "Verif.C100_optimum_probability",
    "Verif.C100_expected_generations",
    "Verif.C100_exponential"
   ],
   "note": "Exact arithmetic for the comparison of the draw with the learned probability; the rounding of the selection sizes and of the learned frequencies is arbitrary. The first generation is fixed. uniform_limited gives r for uniform draws."
  },
  {
   "property": "C101",
   "status": "proved",
   "theorems": [
    "Verif.C101_distinct",
    "Verif.C101_equal_law",
    "Verif.C101_only",
    "Verif.C101_law"
   ],
   "note": "Exact arithmetic in the model. numpy.linalg.svd is a parameter fac with Decomposes n fac: for every symmetric matrix the product of the square roots of the singular values with the right factor comes from some singular value decomposition (svdRoots_symmetric shows that such a fac exists). The warning of numpy about matrices that are not positive semidefinite is not an exception."
  },
  {
   "property": "C102",
   "status": "proved",
   "theorems": [
    "Verif.C102_leaves",
    "Verif.C102_rate",
    "Verif.C102_box"
   ],
   "note": "Exact arithmetic in the model. numpy.linalg.svd is a parameter fac with Decomposes n fac (C101). C102_leaves assumes UniformValid (the arguments with which EMNA runs, C53)."
  },
  {
   "property": "C103",
   "status": "proved",
   "theorems": [
    "Verif.C103_not_minimised",
    "Verif.C103_line",
    "Verif.C103_floor"
   ],
   "note": "Exact arithmetic in the model (in double precision the rounding of the decomposition may move individuals slightly off the line). numpy.linalg.svd is a parameter fac with Decomposes 2 fac (C101)."
  },
  {
   "property": "C104",
   "status": "proved",
   "theorems": [
    "Verif.C104_reach",
    "Verif.C104_first",
    "Verif.C104_next"
   ],
   "note": "Exact arithmetic in the model (C104_reach and C104_next also with a rounding of the first generation). numpy.linalg.svd is a parameter fac with Decomposes n fac (C101); the bandwidth factor is a parameter that is positive for at least one data point, as that of Scott is; the test of positive definiteness is a parameter that is exact (PosDefTest). The statements are about one generation, given the earlier random numbers; a statement about whole runs would need measurability of argsort, svd and the cost function."
  },
  {
   "property": "C105",
   "status": "proved",
   "theorems": [
    "Verif.C105_run",
    "Verif.C105_rotation",
    "Verif.C105_law"
   ],
   "note": "Exact arithmetic. numpy.linalg.svd is a parameter fac with Decomposes n fac (C101); the bandwidth factor is a parameter that is positive for at least one data point; the test of positive definiteness is exact (PosDefTest). The kernel number of each individual is assumed to lie in [0, 1), as that of numpy.random does. Part (c) is about the last generation given the earlier random numbers; a statement about the joint distribution of whole runs would need measurability of svd."
  },
  {
   "property": "C106",
   "status": "proved",
   "theorems": [
    "Verif.C106_model",
    "Verif.C106_scott",
    "Verif.C106_run",
    "Verif.C106_grows"
   ],
   "note": "Exact arithmetic in the model (the first generation may be rounded). numpy.linalg.svd is a parameter fac with Decomposes n fac (C101); the bandwidth factor is a parameter, set to that of Scott in C106_grows; the test of positive definiteness is exact in C106_grows (PosDefTest). The individuals the model is learned from are the state after truncation, described by C09. The second generation is excluded from the last statement because the initial elite holds a copy of the first individual."
  },
  {
   "property": "C107",
   "status": "proved",
   "theorems": [
    "Verif.C107_model",
    "Verif.C107_run"
   ],
   "note": "Exact arithmetic. numpy.linalg.svd is a parameter fac with Decomposes n fac (C101). The individuals the model is learned from are the state after truncation, described by C09. Positive semidefiniteness of the learned matrix is a hypothesis of the equality only; the inequality needs none."
  },
  {
   "property": "C108",
   "status": "proved",
   "theorems": [
    "Verif.C108_UMDAc",
    "Verif.C108_PBIL",
    "Verif.C108_line"
   ],
   "note": "Exact arithmetic in the model. The individuals the model is learned from are the state after truncation, described by C09. independentSpread is the sum in part (a), written with the statistics of Spec/Stats; C108_line evaluates it and the spread of the selected individuals for points of a line."
  },
  {
   "property": "C109",
   "status": "proved",
   "theorems": [
    "Verif.C109_UMDAc",
    "Verif.C109_EMNA"
   ],
   "note": "Exact arithmetic in the model. numpy.linalg.svd is a parameter fac with Decomposes n fac (C101). Part (a) compares with the generation before as in C77; part (b) with the state after truncation, described by C09."
  },
  {
   "property": "C11",
   "status": "proved",
   "theorems": [
    "Verif.C11_best_never_lost"
   ],
   "note": ""
  },
  {
   "property": "C110",
   "status": "proved",
   "theorems": [
    "Verif.C110_model",
    "Verif.C110_run"
   ],
   "note": "Exact arithmetic in the model. scipy gaussian_kde is modelled as in C105/C106: the bandwidth factor h2 is a parameter, numpy.linalg.svd is a parameter fac with Decomposes n fac (C101), isPD is the positive definiteness test. The individuals the model is learned from are the state after truncation, described by C09."
  },
  {
   "property": "C111",
   "status": "proved",
   "theorems": [
    "Verif.C111_PBIL"
   ],
   "note": "Exact arithmetic in the model. The selected individuals are the state after truncation, in the order described by C09; PBIL selects with alpha = 1 and uses its argument alpha as the learning rate (C25)."
  },
  {
   "property": "C112",
   "status": "proved",
   "theorems": [
    "Verif.C112_UMDAc"
   ],
   "note": "Exact arithmetic in the model. The selected individuals are the state after truncation, described by C09. independentSpread is i_r, the same sum as in C108. The instance in the valley is the example beside the theorem."
  },
  {
   "property": "C113",
   "status": "proved",
   "theorems": [
    "Verif.C113_model",
    "Verif.C113_run"
   ],
   "note": "Exact arithmetic in the model. The bandwidth factor h2, numpy.linalg.svd (fac with Decomposes n fac, C101) and the test isPD are parameters as in C106. The individuals the model is learned from are the state after truncation, described by C09."
  },
  {
   "property": "C12",
   "status": "proved",
   "theorems": [
    "Verif.C12_noise_only_training_set",
    "Verif.C12_shape_mismatch_raises",
    "Verif.C12_no_noise"
   ],
   "note": ""
  },
  {
   "property": "C13",
   "status": "partial",
   "theorems": [
    "Verif.C13_parallel_eq_sequential_partial",
    "Verif.C13_schedule_irrelevant",
    "Verif.C13_too_few_rows",
    "Verif.C13_minimize_partial",
    "Verif.C13_refuted"
   ],
   "note": "Needs at least cpu_count individuals per generation; with fewer the parallel evaluation raises ValueError (refuted)."
  },
  {
   "property": "C14",
   "status": "proved",
   "theorems": [
    "Verif.C14_first_generation",
    "Verif.C14_initializer_unused",
    "Verif.C14_wrong_columns"
   ],
   "note": ""
  },
  {
   "property": "C15",
   "status": "partial",
   "theorems": [
    "Verif.C15_UMDAd_rerun",
    "Verif.C15_UMDAc_rerun",
    "Verif.C15_UMDAc_reused",
    "Verif.C15_PBIL_rerun",
    "Verif.C15_PBIL_reused",
    "Verif.C15_EMNA_rerun",
    "Verif.C15_UMDAcat_rerun",
    "Verif.C15_BN_rerun",
    "Verif.C15_EGNA_rerun",
    "Verif.C15_UnivariateKEDA_rerun",
    "Verif.C15_archive_reset_partial",
    "Verif.C15_archive_one_partial",
    "Verif.C15_archive_reused",
    "Verif.C15_archive_refuted"
   ],
   "note": "Proved for UMDAd, UMDAc, PBIL, UMDAcat, EBNA, BOA, EMNA, EGNA and UnivariateKEDA. SPEDA and MultivariateKEDA keep the archive of the earlier run: refuted; true if the archive is emptied in between or holds one generation (l = 1)."
  },
  {
   "property": "C16",
   "status": "partial",
   "theorems": [
    "Verif.C16_window_partial",
    "Verif.C16_learned_partial",
    "Verif.C16_generations_partial",
    "Verif.C16_zero_keeps_all",
    "Verif.C16_negative",
    "Verif.C16_float_l",
    "Verif.C16_refuted"
   ],
   "note": "Proved for every l >= 1 with at least one selected individual (and generations not smaller than the selection); for l = 0 the archive grows without limit (refuted), and a float l raises TypeError."
  },
  {
   "property": "C17",
   "status": "partial",
   "theorems": [
    "Verif.C17_last_assigned",
    "Verif.C17_wrong_kind_partial",
    "Verif.C17_wrong_size_installed",
    "Verif.C17_refuted"
   ],
   "note": "Proved for objects of the wrong kind and for matching objects; an object of the wrong size raises but is installed, and a run then uses it."
  },
  {
   "property": "C18",
   "status": "partial",
   "theorems": [
    "Verif.C18_refuted",
    "Verif.C18_renamed_partial",
    "Verif.C18_other_models"
   ],
   "note": "read_settings raises KeyError on every exported dictionary; with the two misspelt keys renamed the round trip is proved for objects as constructed."
  },
  {
   "property": "C19",
   "status": "partial",
   "theorems": [
    "Verif.C19_exported_ids",
    "Verif.C19_other_ids_rejected",
    "Verif.C19_models",
    "Verif.C19_constructs",
    "Verif.C19_assigned_ids",
    "Verif.C19_distinct_partial",
    "Verif.C19_refuted"
   ],
   "note": "The round trip of ids 1 to 4 and the rejection of others are proved; UniKDE and BN share the id 7."
  },
  {
   "property": "C20",
   "status": "proved",
   "theorems": [
    "Verif.C20_learn_frequencies",
    "Verif.C20_learn_total",
    "Verif.C20_no_clipping",
    "Verif.C20_double"
   ],
   "note": "For any rounding of the division; in double arithmetic each probability is within 2^-54 of the clipped frequency."
  },
  {
   "property": "C21",
   "status": "proved",
   "theorems": [
    "Verif.C21_sample_binary",
    "Verif.C21_sample_total",
    "Verif.C21_certain_bits",
    "Verif.C21_full_support"
   ],
   "note": ""
  },
  {
   "property": "C22",
   "status": "proved",
   "theorems": [
    "Verif.C22_fixed_bits_stay_fixed",
    "Verif.C22_double"
   ],
   "note": "For any rounding that is exact for 0 and 1, in particular double rounding."
  },
  {
   "property": "C23",
   "status": "proved",
   "theorems": [
    "Verif.C23_every_string_reachable"
   ],
   "note": "For any rounding."
  },
  {
   "property": "C24",
   "status": "proved",
   "theorems": [
    "Verif.C24_learn",
    "Verif.C24_sample_after_learn",
    "Verif.C24_full_support"
   ],
   "note": "Exact arithmetic; np.sqrt is any function that returns non-negative square roots."
  },
  {
   "property": "C25",
   "status": "partial",
   "theorems": [
    "Verif.C25_learn_partial",
    "Verif.C25_too_few_rows",
    "Verif.C25_refuted",
    "Verif.C25_previous_means_unused"
   ],
   "note": "The exact update is proved; it does not involve the previous mean, so the documented rule is refuted."
  },
  {
   "property": "C26",
   "status": "partial",
   "theorems": [
    "Verif.C26_learn_partial",
    "Verif.C26_one_variable",
    "Verif.C26_converged_not_psd",
    "Verif.C26_psd_two_variables",
    "Verif.C26_refuted",
    "Verif.C26_EMNA_run"
   ],
   "note": "Mean and covariance are exact; clamping the diagonal does not keep the matrix positive semidefinite (refuted), and one variable raises."
  },
  {
   "property": "C27",
   "status": "proved",
   "theorems": [
    "Verif.C27_learn_empirical",
    "Verif.C27_learn_ok_iff",
    "Verif.C27_sample_after_learn",
    "Verif.C27_table_sorted"
   ],
   "note": ""
  },
  {
   "property": "C28",
   "status": "partial",
   "theorems": [
    "Verif.C28_values_declared",
    "Verif.C28_absent_category_partial",
    "Verif.C28_refuted"
   ],
   "note": "Declared categories: proved. Absent categories: proved when elite_length <= truncation_length, refuted for larger elites."
  },
  {
   "property": "C29",
   "status": "partial",
   "theorems": [
    "Verif.C29_positive_frequency_partial",
    "Verif.C29_sample_iff",
    "Verif.C29_refuted"
   ],
   "note": "The exact condition is proved; the frequencies of the documented example are accepted but cannot be sampled (refuted)."
  },
  {
   "property": "C30",
   "status": "partial",
   "theorems": [
    "Verif.C30_within_bounds_partial",
    "Verif.C30_double_partial",
    "Verif.C30_double_attains",
    "Verif.C30_sample_total",
    "Verif.C30_wrong_list_rejected",
    "Verif.C30_wrong_array_accepted",
    "Verif.C30_refuted",
    "Verif.C30_EMNA",
    "Verif.C30_EGNA",
    "Verif.C30_archive",
    "Verif.C30_UnivariateKEDA"
   ],
   "note": "Bounds given as numpy arrays of the wrong length are accepted at construction (refuted for arrays)."
  },
  {
   "property": "C31",
   "status": "partial",
   "theorems": [
    "Verif.C31_within_bounds",
    "Verif.C31_stratified_partial",
    "Verif.C31_succeeds",
    "Verif.C31_default_uses_lloyd",
    "Verif.C31_one_variable",
    "Verif.C31_wrong_list_rejected",
    "Verif.C31_constructs",
    "Verif.C31_refuted"
   ],
   "note": "Shape, bounds and the slices are proved; the flag is inverted: post_process=True skips Lloyd, the default applies it, and with one variable the default call raises."
  },
  {
   "property": "C32",
   "status": "partial",
   "theorems": [
    "Verif.C32_constructible_iff",
    "Verif.C32_default_parameters_partial",
    "Verif.C32_refuted"
   ],
   "note": "The exact condition on the bounds under which construction succeeds is proved; for others it raises ValueError."
  },
  {
   "property": "C33",
   "status": "partial",
   "theorems": [
    "Verif.C33_entries_partial",
    "Verif.C33_every_matrix",
    "Verif.C33_refuted"
   ],
   "note": "The draws are not confined to the bounds; every matrix can be the first generation."
  },
  {
   "property": "C34",
   "status": "proved",
   "theorems": [
    "Verif.C34_means",
    "Verif.C34_all",
    "Verif.C34_order",
    "Verif.C34_unknown"
   ],
   "note": "Exact arithmetic; the expectation is any that gives uncorrelated standardised draws, e.g. independent standard normals (normal_expectation)."
  },
  {
   "property": "C35",
   "status": "partial",
   "theorems": [
    "Verif.C35_symmetric",
    "Verif.C35_exact",
    "Verif.C35_partial",
    "Verif.C35_refuted",
    "Verif.C35_refuted_psd"
   ],
   "note": "Symmetry and success: proved. Covariances: exactly when the variances of the parents add up at every node (C35_exact), e.g. uncorrelated parents; refuted for correlated parents."
  },
  {
   "property": "C36",
   "status": "proved",
   "theorems": [
    "Verif.C36_formula",
    "Verif.C36_prior",
    "Verif.C36_length",
    "Verif.C36_unfitted",
    "Verif.C36_map"
   ],
   "note": "np.linalg.pinv is any function returning the Moore-Penrose pseudo-inverse."
  },
  {
   "property": "C37",
   "status": "partial",
   "theorems": [
    "Verif.C37_columns",
    "Verif.C37_partial",
    "Verif.C37_all_evidence",
    "Verif.C37_refuted",
    "Verif.C37_refuted_cpython"
   ],
   "note": "Column order and evidence columns: proved. Other columns: proved when both set differences are iterated in the same order; refuted otherwise, also with the iteration order of CPython."
  },
  {
   "property": "C38",
   "status": "proved",
   "theorems": [
    "Verif.C38_lists",
    "Verif.C38_empty",
    "Verif.C38_EGNA_run",
    "Verif.C38_archive_run"
   ],
   "note": "pybnesian is a parameter whose hill climbing honours the lists it receives."
  },
  {
   "property": "C39",
   "status": "proved",
   "theorems": [
    "Verif.C39_adjacency",
    "Verif.C39_out_of_range",
    "Verif.C39_names_rejected",
    "Verif.C39_negative_n"
   ],
   "note": ""
  },
  {
   "property": "C40",
   "status": "proved",
   "theorems": [
    "Verif.C40_positions",
    "Verif.C40_no_overlap",
    "Verif.C40_empty",
    "Verif.C40_repeated"
   ],
   "note": ""
  },
  {
   "property": "C41",
   "status": "proved",
   "theorems": [
    "Verif.C41_alternating",
    "Verif.C41_negative"
   ],
   "note": ""
  },
  {
   "property": "C42",
   "status": "partial",
   "theorems": [
    "Verif.C42_never_below_bias_partial",
    "Verif.C42_attained_at_shift_partial",
    "Verif.C42_refuted_ackley",
    "Verif.C42_refuted_cat_bat",
    "Verif.C42_schwefel_at_shift",
    "Verif.C42_refuted_schwefel",
    "Verif.C42_dimension_one"
   ],
   "note": "Over the reals. Lower bound: proved for k = 1-9, 12-14, 16 in every dimension and k = 10, 11 in dimension >= 10; refuted for k = 10 in dimension 1. Attained at the shift for k = 1-4, 6-9, 12; refuted for 5, 13, 14, and missed by at most 0.003 d for 10 and 11. Rotated functions raise FileNotFoundError in dimension 1."
  },
  {
   "property": "C43",
   "status": "partial",
   "theorems": [
    "Verif.C43_named_functions_partial",
    "Verif.C43_elliptic_one_variable",
    "Verif.C43_bent_cigar_value",
    "Verif.C43_refuted_bent_cigar",
    "Verif.C43_griewank_value",
    "Verif.C43_refuted_griewank",
    "Verif.C43_weierstrass_value",
    "Verif.C43_weierstrass_origin",
    "Verif.C43_refuted_weierstrass",
    "Verif.C43_schwefel_inside_partial",
    "Verif.C43_refuted_schwefel",
    "Verif.C43_katsuura_value",
    "Verif.C43_refuted_katsuura"
   ],
   "note": "Over the reals. discus, rosenbrock, ackley, elliptic, rastrigin, happycat, hgbat, expanded Scaffer compute the named function; bent cigar, griewank, weierstrass, modified Schwefel (outside its core) and katsuura do not: the exact value is proved and the claim refuted."
  },
  {
   "property": "C44",
   "status": "proved",
   "theorems": [
    "Verif.C44_counts_ones",
    "Verif.C44_range",
    "Verif.C44_minimiser"
   ],
   "note": ""
  },
  {
   "property": "C45",
   "status": "proved",
   "theorems": [
    "Verif.C45_nan_never_reported",
    "Verif.C45_nan_first_raises",
    "Verif.C45_nan_first_raises_later",
    "Verif.C45_nan_elsewhere_ok",
    "Verif.C45_float_reports",
    "Verif.C45_float_first_raises",
    "Verif.C45_float_least",
    "Verif.C45_infinite_best"
   ],
   "note": ""
  },
  {
   "property": "C46",
   "status": "partial",
   "theorems": [
    "Verif.C46_runs_partial",
    "Verif.C46_binary_init_raises",
    "Verif.C46_refuted"
   ],
   "note": "Every run succeeds for initializers 1, 3, 4 with usable parameters; with initializer 2 every run of at least two generations raises, whatever the model."
  },
  {
   "property": "C47",
   "status": "partial",
   "theorems": [
    "Verif.C47_strings_partial",
    "Verif.C47_integers_raise",
    "Verif.C47_integer_objects_raise",
    "Verif.C47_refuted"
   ],
   "note": "UMDAcat runs for string categories; UMDAcat, EBNA and BOA raise for integers after the first generation."
  },
  {
   "property": "C48",
   "status": "partial",
   "theorems": [
    "Verif.C48_first_generation_partial",
    "Verif.C48_first_generation_double_partial",
    "Verif.C48_UMDAc_reaches_everything",
    "Verif.C48_refuted"
   ],
   "note": "Only the first generation respects the bounds; every target can be the second generation."
  },
  {
   "property": "C49",
   "status": "proved",
   "theorems": [
    "Verif.C49_selection_size_bounds",
    "Verif.C49_selection_size_mono",
    "Verif.C49_selection_size_exact",
    "Verif.C49_double",
    "Verif.C49_double_mono",
    "Verif.C49_double_rounds_up",
    "Verif.C49_double_decimal",
    "Verif.C49_UMDAd",
    "Verif.C49_UMDAc",
    "Verif.C49_PBIL",
    "Verif.C49_EMNA",
    "Verif.C49_EGNA",
    "Verif.C49_archive",
    "Verif.C49_UnivariateKEDA",
    "Verif.C49_UMDAcat",
    "Verif.C49_EBNA_BOA"
   ],
   "note": "For any rounding of the product with the stated properties, and for IEEE double rounding (round to nearest, ties to even), which is defined and shown to be nearest and monotone."
  },
  {
   "property": "C50",
   "status": "partial",
   "theorems": [
    "Verif.C50_settings_partial",
    "Verif.C50_PBIL",
    "Verif.C50_archive",
    "Verif.C50_rebuild_partial",
    "Verif.C50_rebuild_rejected",
    "Verif.C50_rebuild_forgets",
    "Verif.C50_custom",
    "Verif.C50_refuted"
   ],
   "note": "Exact for all eleven algorithms: PBIL exports alpha=1, SPEDA/MultivariateKEDA export alpha as elite_factor, six algorithms cannot be rebuilt (TypeError), the others can."
  },
  {
   "property": "C51",
   "status": "proved",
   "theorems": [
    "Verif.C51_final_alignment"
   ],
   "note": ""
  },
  {
   "property": "C52",
   "status": "proved",
   "theorems": [
    "Verif.C52_arrays_untouched",
    "Verif.C52_pass_untouched",
    "Verif.C52_init_data"
   ],
   "note": "A second model of the loop with arrays in memory; also covers runs that raise."
  },
  {
   "property": "C53",
   "status": "proved",
   "theorems": [
    "Verif.C53_UMDAd_never_raises",
    "Verif.C53_UMDAc_never_raises",
    "Verif.C53_PBIL_never_raises",
    "Verif.C53_PBIL_one_individual",
    "Verif.C53_cont_constructible_iff",
    "Verif.C53_EMNA_never_raises",
    "Verif.C53_EMNA_one_variable",
    "Verif.C53_UMDAcat_never_raises",
    "Verif.C53_EGNA_never_raises",
    "Verif.C53_archive_never_raises"
   ],
   "note": "Exact arithmetic; for the network algorithms, pybnesian is a parameter that learns and samples without error from at least the given number of individuals."
  },
  {
   "property": "C54",
   "status": "partial",
   "theorems": [
    "Verif.C54_stored_as_returned_partial",
    "Verif.C54_cast_to_first",
    "Verif.C54_numbers",
    "Verif.C54_refuted"
   ],
   "note": "True for costs of one numeric type; the exact behaviour for mixtures is proved and the claim is refuted by a run that reports a best_cost never returned."
  },
  {
   "property": "C55",
   "status": "partial",
   "theorems": [
    "Verif.C55_uni_gauss",
    "Verif.C55_multi_gauss_partial",
    "Verif.C55_refuted"
   ],
   "note": "True for the univariate model; for the multivariate model the sampling covariance is pm_cov exactly when pm_cov is positive semidefinite."
  },
  {
   "property": "C56",
   "status": "proved",
   "theorems": [
    "Verif.C56_values_declared",
    "Verif.C56_absent_category",
    "Verif.pgm_sound"
   ],
   "note": "pgmpy is a parameter with the stated contract; pgm_sound reduces the contract of the whole network class to that of pgmpy."
  },
  {
   "property": "C57",
   "status": "partial",
   "theorems": [
    "Verif.C57_partial",
    "Verif.C57_refuted"
   ],
   "note": "Proved when distinct parents of a node are uncorrelated; otherwise refuted: a posterior variance of -1."
  },
  {
   "property": "C58",
   "status": "partial",
   "theorems": [
    "Verif.C58_pick",
    "Verif.C58_moments_partial",
    "Verif.C58_refuted"
   ],
   "note": "The exact mean and covariance of the sampled individuals are proved; correlated data give correlated samples, so the variables are not sampled independently."
  },
  {
   "property": "C59",
   "status": "proved",
   "theorems": [
    "Verif.C59_noise_irrelevant"
   ],
   "note": "A run that returns is the same run with w_noise = None and any other noise draws, for every Bayesian network library."
  },
  {
   "property": "C60",
   "status": "partial",
   "theorems": [
    "Verif.C60_learn",
    "Verif.C60_learn_few",
    "Verif.C60_returns_or_singular_partial",
    "Verif.C60_too_few_selected",
    "Verif.C60_refuted"
   ],
   "note": "Exact arithmetic. The only possible error is LinAlgError; it is certain if at most n_variables individuals are selected, and has probability 0 in every generation if enough are selected (C104)."
  },
  {
   "property": "C61",
   "status": "proved",
   "theorems": [
    "Verif.C61_no_bounds",
    "Verif.C61_constructed",
    "Verif.C61_init_data"
   ],
   "note": ""
  },
  {
   "property": "C62",
   "status": "partial",
   "theorems": [
    "Verif.C62_order_only_partial",
    "Verif.C62_scaling",
    "Verif.C62_refuted"
   ],
   "note": "Proved for tolerance 0 (any strictly increasing transformation) and for positive scaling (any tolerance); false for the default tolerance and a shift, because the tolerance is relative."
  },
  {
   "property": "C63",
   "status": "proved",
   "theorems": [
    "Verif.C63_extends",
    "Verif.C63_stopped_early",
    "Verif.C63_no_worse",
    "Verif.C63_object"
   ],
   "note": ""
  },
  {
   "property": "C64",
   "status": "proved",
   "theorems": [
    "Verif.C64_box",
    "Verif.C64_miss_probability",
    "Verif.C64_convergence",
    "Verif.C64_uniform"
   ],
   "note": "Probability over independent sampling draws (product measure); the other draws are arbitrary and fixed. The bound holds for every distribution of the draws, not only the uniform one."
  },
  {
   "property": "C65",
   "status": "proved",
   "theorems": [
    "Verif.C65_result",
    "Verif.C65_silent",
    "Verif.C65_lines",
    "Verif.C65_failed"
   ],
   "note": "Lines are modelled as the values printed in them."
  },
  {
   "property": "C66",
   "status": "proved",
   "theorems": [
    "Verif.C66_returned",
    "Verif.C66_raised",
    "Verif.C66_sequential"
   ],
   "note": ""
  },
  {
   "property": "C67",
   "status": "proved",
   "theorems": [
    "Verif.C67_computed",
    "Verif.C67_given",
    "Verif.C67_unlisted",
    "Verif.C67_title"
   ],
   "note": "The look of the figure and matplotlib are not modelled."
  },
  {
   "property": "C68",
   "status": "proved",
   "theorems": [
    "Verif.C68_UMDAc",
    "Verif.C68_PBIL",
    "Verif.C68_EMNA"
   ],
   "note": "Exact arithmetic; for EMNA any factorisation of the covariance."
  },
  {
   "property": "C69",
   "status": "partial",
   "theorems": [
    "Verif.C69_UMDAc_partial",
    "Verif.C69_PBIL_partial",
    "Verif.C69_EMNA_learn",
    "Verif.C69_refuted"
   ],
   "note": "Holds for UMDAc and PBIL. False for EMNA: the covariance passed to multivariate_normal has standard deviations on its diagonal (MultiGauss.learn), so the spread scales with the square root of the unit; C69_EMNA_learn gives the exact scaling of what is learnt."
  },
  {
   "property": "C70",
   "status": "proved",
   "theorems": [
    "Verif.C70_UMDAd",
    "Verif.C70_UMDAc",
    "Verif.C70_PBIL"
   ],
   "note": "Any rounding."
  },
  {
   "property": "C71",
   "status": "proved",
   "theorems": [
    "Verif.C71_sample",
    "Verif.C71_column_order",
    "Verif.C71_BN_structure",
    "Verif.C71_BN_sample",
    "Verif.C71_BN_reorder",
    "Verif.C71_BN_column_order",
    "Verif.C71_BN_cycle"
   ],
   "note": "pybnesian and pgmpy are parameters; the contracts used are hypotheses."
  },
  {
   "property": "C72",
   "status": "proved",
   "theorems": [
    "Verif.C72_EGNA",
    "Verif.C72_SPEDA",
    "Verif.C72_MultivariateKEDA",
    "Verif.C72_EBNA",
    "Verif.C72_BOA"
   ],
   "note": ""
  },
  {
   "property": "C73",
   "status": "proved",
   "theorems": [
    "Verif.C73_parallel",
    "Verif.C73_sequential",
    "Verif.C73_left",
    "Verif.C73_init_data",
    "Verif.C73_modes_differ"
   ],
   "note": "Each call can change only its own row."
  },
  {
   "property": "C74",
   "status": "proved",
   "theorems": [
    "Verif.C74_uni_bin",
    "Verif.C74_UMDAd",
    "Verif.C74_binary_generation",
    "Verif.C74_uniform_init",
    "Verif.C74_uni_gauss",
    "Verif.C74_UMDAc",
    "Verif.C74_multi_gauss",
    "Verif.C74_uni_kde",
    "Verif.C74_uni_cat",
    "Verif.C74_UMDAcat",
    "Verif.C74_cat_init"
   ],
   "note": "Exact arithmetic; independent draws with exact laws (indepDraws_exist shows that they exist). AdaptUniGauss.sample is the same code as UniGauss.sample."
  },
  {
   "property": "C75",
   "status": "proved",
   "theorems": [
    "Verif.C75_UMDAd_only",
    "Verif.C75_UMDAcat_only",
    "Verif.C75_bn_only",
    "Verif.C75_UMDAd_probability",
    "Verif.C75_UMDAd_misses",
    "Verif.C75_UMDAcat_probability",
    "Verif.C75_UMDAcat_misses"
   ],
   "note": "Any rounding exact at 0 and 1. C75_bn_only is the corresponding statement for EBNA and BOA under the contract of the network library."
  },
  {
   "property": "C76",
   "status": "proved",
   "theorems": [
    "Verif.C76_UMDAc_box",
    "Verif.C76_PBIL_box",
    "Verif.C76_UMDAc_rate",
    "Verif.C76_PBIL_rate",
    "Verif.C76_UMDAc",
    "Verif.C76_PBIL"
   ],
   "note": "Exact arithmetic in the model; the selection size may be rounded."
  },
  {
   "property": "C77",
   "status": "proved",
   "theorems": [
    "Verif.C77_selection",
    "Verif.C77_UMDAd",
    "Verif.C77_UMDAcat",
    "Verif.C77_UMDAc",
    "Verif.C77_PBIL",
    "Verif.C77_EMNA",
    "Verif.C77_UnivariateKEDA"
   ],
   "note": "Exact arithmetic in the model (for UMDAd the rounding of the frequencies is covered); the selection size may be rounded."
  },
  {
   "property": "C78",
   "status": "partial",
   "theorems": [
    "Verif.C78_suite_partial",
    "Verif.C78_one_dimension",
    "Verif.C78_other_methods",
    "Verif.C78_refuted_rotated",
    "Verif.C78_refuted_schwefel",
    "Verif.C78_refuted_ackley",
    "Verif.C78_one_coordinate",
    "Verif.C78_wrong_length",
    "Verif.C78_one_dimension_any_point"
   ],
   "note": "Over the reals. Proved for k = 1, 3, 4, 8, 9, 13, 14, 16; refuted for 5 at every point (bias 800), for 6 (Ackley instead of Weierstrass), 2, 7, 10, 11, 12 (wrong function); what these return instead is C78_other_methods. There is no cec14_15. Wrong lengths raise ValueError, except a single coordinate, which is repeated. The contents of the data files are parameters."
  },
  {
   "property": "C79",
   "status": "proved",
   "theorems": [
    "Verif.C79_UMDAd_rate",
    "Verif.C79_UMDAd",
    "Verif.C79_UMDAcat_rate",
    "Verif.C79_UMDAcat",
    "Verif.C79_ties"
   ],
   "note": "apart_id and apart_fl64 give q for exact and double frequencies; stableArgsort_stable: a stable argsort exists. C79_ties: with ties and an argsort that prefers the elite the conclusion is false. Independent uniform draws in each generation."
  },
  {
   "property": "C80",
   "status": "partial",
   "theorems": [
    "Verif.C80_UMDAc_partial",
    "Verif.C80_PBIL_partial",
    "Verif.C80_EMNA_partial",
    "Verif.C80_shift_law_partial",
    "Verif.C80_shift_mean_partial",
    "Verif.C80_refuted"
   ],
   "note": "False as stated: one noise matrix per run. The partial theorems say what the error of every iteration is (the same number) and its law over different runs; C80_refuted: with probability 1 it is not 0 and never changes."
  },
  {
   "property": "C81",
   "status": "proved",
   "theorems": [
    "Verif.C81_mean",
    "Verif.C81_learn",
    "Verif.C81_numpy",
    "Verif.C81_learn_adaptive",
    "Verif.C81_sample",
    "Verif.C81_UMDAc_never_raises",
    "Verif.C81_PBIL_never_raises",
    "Verif.C81_UMDAc_doubles",
    "Verif.C81_PBIL_doubles",
    "Verif.C81_UMDAc_iteration",
    "Verif.C81_exact",
    "Verif.C81_mean_outside"
   ],
   "note": "No overflow. The square root and the normal numbers are exact before rounding; the rounding of the noise values is not modelled (they are arbitrary numbers), that of their addition is. C81_exact: without rounding the model is the one of the other properties."
  },
  {
   "property": "C82",
   "status": "proved",
   "theorems": [
    "Verif.C82_learn",
    "Verif.C82_accepted",
    "Verif.C82_sample_after_learn",
    "Verif.C82_cdf",
    "Verif.C82_choice",
    "Verif.C82_share",
    "Verif.C82_no_value_lost",
    "Verif.C82_lost_category",
    "Verif.C82_UMDAcat_never_raises",
    "Verif.C82_exact"
   ],
   "note": "numpy is modelled as its source does it (kahan_sum, cumsum, division by the last entry, searchsorted). C82_exact: without rounding the model is the one of the other properties."
  },
  {
   "property": "C83",
   "status": "partial",
   "theorems": [
    "Verif.C83_same_first_partial",
    "Verif.C83_first_not_selected_partial",
    "Verif.C83_first_counts_twice",
    "Verif.C83_refuted"
   ],
   "note": "False as stated: the first individual of init_data is counted twice in the first selection (it is also the first elite). Proved for orders with the same first individual and for orders whose first individuals are not selected."
  },
  {
   "property": "C84",
   "status": "proved",
   "theorems": [
    "Verif.C84_expected_generations",
    "Verif.C84_uniform",
    "Verif.C84_finite"
   ],
   "note": "Lebesgue integral over independent sampling draws (product measure); the other draws are arbitrary and fixed. A run that raises counts as 0 generations (C53: it does not raise)."
  },
  {
   "property": "C85",
   "status": "proved",
   "theorems": [
    "Verif.C85_drift",
    "Verif.C85_fixation"
   ],
   "note": "Exact arithmetic (fl = id). Bochner integral over independent uniform draws of the ignored variable (product measure); all other draws are arbitrary and fixed. N is the number of passes of the loop (history.length - 1)."
  },
  {
   "property": "C86",
   "status": "partial",
   "theorems": [
    "Verif.C86_uni_bin_partial",
    "Verif.C86_uni_gauss_partial",
    "Verif.C86_uni_cat_partial",
    "Verif.C86_network_partial",
    "Verif.C86_network_empty_partial",
    "Verif.C86_multi_gauss",
    "Verif.C86_multi_gauss_wrong",
    "Verif.C86_uni_kde",
    "Verif.C86_refuted",
    "Verif.C86_refuted_kde"
   ],
   "note": "False as stated: MultiGauss and UniKDE return an empty list although their samples are dependent. For MultiGauss the list is right exactly when the off-diagonal entries of pm_cov are 0; for UniKDE it requires all sample covariances to be 0. Proved for UniBin, UniGauss, AdaptUniGauss, UniCategorical and for variables that follow a linear Gaussian network whose arcs are those returned by pybnesian. Missing: sampling of SPBN, KDEBN and the discrete network (library code)."
  },
  {
   "property": "C87",
   "status": "proved",
   "theorems": [
    "Verif.C87_constructor",
    "Verif.C87_run",
    "Verif.C87_flip",
    "Verif.C87_hidden"
   ],
   "note": "Exact arithmetic in the model. Product measure of uniform draws on [0,1); the outcome may be any set, measurable or not. C87_run is the deterministic core: draws 1 - u instead of u, if no draw equals a probability."
  },
  {
   "property": "C88",
   "status": "proved",
   "theorems": [
    "Verif.C88_same_run",
    "Verif.C88_same_visit",
    "Verif.C88_next",
    "Verif.C88_needle",
    "Verif.C88_UMDAd_needle"
   ],
   "note": "For every algorithm that is an instance of the loop of eda.py. C88_needle counts the places found; C88_UMDAd_needle puts it in terms of n_fev and best_cost."
  },
  {
   "property": "C89",
   "status": "proved",
   "theorems": [
    "Verif.C89_at_most",
    "Verif.C89_equally_often",
    "Verif.C89_no_free_lunch",
    "Verif.C89_UMDAd"
   ],
   "note": "For every algorithm that is an instance of the loop of eda.py; C89_UMDAd is the upper bound for all binary strings."
  },
  {
   "property": "C90",
   "status": "proved",
   "theorems": [
    "Verif.C90_UMDAc",
    "Verif.C90_PBIL",
    "Verif.C90_EMNA",
    "Verif.C90_EGNA",
    "Verif.C90_UnivariateKEDA",
    "Verif.C90_new_UMDAc",
    "Verif.C90_new_EMNA",
    "Verif.C90_new_EGNA",
    "Verif.C90_UMDAd_raises"
   ],
   "note": "The same random draws in both runs; library functions (square root, factorisation, pybnesian, scipy) are the same parameters on both sides. Any rounding. SPEDA and MultivariateKEDA override _update_pm (archive) and are not reproduced by EDACustom."
  },
  {
   "property": "C91",
   "status": "proved",
   "theorems": [
    "Verif.C91_short",
    "Verif.C91_long",
    "Verif.C91_any_length"
   ],
   "note": "Over the reals. Points are lists or arrays of numbers."
  },
  {
   "property": "C92",
   "status": "partial",
   "theorems": [
    "Verif.C92_variances",
    "Verif.C92_partial",
    "Verif.C92_one_parent_partial",
    "Verif.C92_refuted"
   ],
   "note": "False as stated: get_sigma misses the covariances between the parents of a node, so the result is wrong in the network A -> B, A -> C, B -> C (C92_refuted). Proved where distinct parents are uncorrelated, in particular when every node has at most one parent. pybnesian's logl is taken to be the sum of the log densities of the nodes."
  },
  {
   "property": "C93",
   "status": "proved",
   "theorems": [
    "Verif.C93_same_order",
    "Verif.C93_law",
    "Verif.C93_costs",
    "Verif.C93_order_matters"
   ],
   "note": "Names are elements of a linear order (the order of np.unique). The law is that of the draws of the learned models; the draws of the first generation are the same in both runs. The last sentence of the property is C93_order_matters."
  },
  {
   "property": "C94",
   "status": "partial",
   "theorems": [
    "Verif.C94_type_error",
    "Verif.C94_dead_iter",
    "Verif.C94_values",
    "Verif.C94_list_bounds_partial",
    "Verif.C94_array_bounds",
    "Verif.C94_refuted"
   ],
   "note": "False as stated: type(x) is np.array is never true, so arrays of bounds are not checked (C94_refuted); minimize then raises ValueError (C94_array_bounds; arrays of one number are repeated). Proved for lists (UMDAc, PBIL without vector, EGNA, EMNA). Errors of the remaining part of the other constructors are a parameter."
  },
  {
   "property": "C95",
   "status": "partial",
   "theorems": [
    "Verif.C95_uni_bin",
    "Verif.C95_uni_gauss",
    "Verif.C95_uni_cat",
    "Verif.C95_multi_gauss_partial",
    "Verif.C95_multi_gauss_iff",
    "Verif.C95_refuted"
   ],
   "note": "Proved with the strong law of large numbers for UniBin, UniGauss and UniCategorical, in exact arithmetic. False for MultiGauss: the diagonal of the learned matrix tends to the standard deviations (C95_multi_gauss_partial gives the limit, C95_multi_gauss_iff the models that are recovered, C95_refuted a model that is not)."
  },
  {
   "property": "C96",
   "status": "proved",
   "theorems": [
    "Verif.C96_UMDAc_reaches",
    "Verif.C96_PBIL_reaches",
    "Verif.C96_UMDAc_rate",
    "Verif.C96_PBIL_rate",
    "Verif.C96_UMDAc",
    "Verif.C96_PBIL",
    "Verif.C96_UMDAc_possible",
    "Verif.C96_PBIL_possible"
   ],
   "note": "Exact arithmetic in the model; the first generation and the white noise are arbitrary fixed draws. The conditions on the sizes are part of the statement: the default elite_factor 0.4 with alpha 0.5 does not meet them, and for it only the positive probability (the theorems possible) is claimed. That the argsort decides by comparisons only is used for measurability."
  },
  {
   "property": "C97",
   "status": "partial",
   "theorems": [
    "Verif.C97_UMDAc_partial",
    "Verif.C97_PBIL_partial",
    "Verif.C97_EMNA_partial",
    "Verif.C97_UMDAc_law_partial",
    "Verif.C97_PBIL_law_partial",
    "Verif.C97_EMNA_law_partial",
    "Verif.C97_refuted"
   ],
   "note": "Exact arithmetic. Proved for UMDAc and PBIL (draw by draw with mirrored draws, and in distribution for every set of outcomes). False for EMNA (C97_refuted): covariances are clamped from below by lower_factor, so negative ones are lost; for EMNA only the reversal of all axes together is proved."
  },
  {
   "property": "C98",
   "status": "proved",
   "theorems": [
    "Verif.C98_UMDAc",
    "Verif.C98_PBIL",
    "Verif.C98_lost"
   ],
   "note": "Exact arithmetic in the model. T iterations is the length of history minus one. The number of selected individuals must be between 1 and size_gen, in PBIL at least 3 (it reads the second best individual, and the three individuals must be different). Without elite only; the effect of an elite on the expectation is not claimed."
  },
  {
   "property": "C99",
   "status": "proved",
   "theorems": [
    "Verif.C99_UMDAc",
    "Verif.C99_PBIL",
    "Verif.C99_UMDAc_bounded",
    "Verif.C99_PBIL_bounded"
   ],
   "note": "Exact arithmetic in the model. The first generation is fixed. The number of selected individuals must be between 1 and size_gen (PBIL selects all, at least 2, because it reads the second best). The argsort decides by comparisons only (used for measurability). For UMDAc only slopes are covered: selection by other cost functions may widen the distribution."
  }
 ]
}