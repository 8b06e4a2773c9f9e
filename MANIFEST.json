{
 "claims": [
  {
   "property": "C01",
   "status": "proved",
   "theorems": [
    "BFL.Props.C01_constructor",
    "BFL.Props.C01_history",
    "BFL.Props.C01_all_distributions_reachable",
    "BFL.Props.C01_constructor_uniform"
   ],
   "note": "Exact arithmetic. DiscretePdf(0) aborts (C01_constructor)."
  },
  {
   "property": "C02",
   "status": "partial",
   "theorems": [
    "BFL.Props.C02_probabilitySet",
    "BFL.Props.C02_odds",
    "BFL.Props.C02_single_state_aborts"
   ],
   "note": "Proved for n >= 2. For n = 1 the claim is false: every ProbabilitySet call aborts (C02_single_state_aborts)."
  },
  {
   "property": "C03",
   "status": "partial",
   "theorems": [
    "BFL.Props.C03_rejected_is_destructive",
    "BFL.Props.C03_false",
    "BFL.Props.C03_witness",
    "BFL.Props.C03_sampling_unchanged_partial",
    "BFL.Props.C03_recovers"
   ],
   "note": "The property is false in the code: C03_false shows every rejected call changes the distribution, C03_witness is a concrete case. What holds: draws are unchanged and a later accepted call repairs the object."
  },
  {
   "property": "C04",
   "status": "partial",
   "theorems": [
    "BFL.Props.C04_inversion_partial",
    "BFL.Props.C04_valid_positive",
    "BFL.Props.C04_interval",
    "BFL.Props.C04_law",
    "BFL.Props.C04_zero_draw",
    "BFL.Props.C04_any_table",
    "BFL.Props.C04_beyond_table",
    "BFL.Props.C04_other_methods"
   ],
   "note": "Proved for every draw in (0,1]. At u = 0 the code returns state -1 (C04_zero_draw). C04_law gives the Lebesgue measure; C04_any_table needs no exact arithmetic."
  },
  {
   "property": "C05",
   "status": "partial",
   "theorems": [
    "BFL.Props.C05_ordered",
    "BFL.Props.C05_equals_lookups",
    "BFL.Props.C05_inversions_partial",
    "BFL.Props.C05_zero_samples",
    "BFL.Props.C05_zero_draw",
    "BFL.Props.C05_pow_ok",
    "BFL.Props.C05_max_law"
   ],
   "note": "Proved for draws in (0,1]. A zero first draw gives state -1 (C05_zero_draw); N = 0 is undefined behaviour (C05_zero_samples)."
  },
  {
   "property": "C06",
   "status": "proved",
   "theorems": [
    "BFL.Props.C06_argmax"
   ],
   "note": ""
  },
  {
   "property": "C07",
   "status": "partial",
   "theorems": [
    "BFL.Props.C07_set_weighted",
    "BFL.Props.C07_update_weighted",
    "BFL.Props.C07_set_unweighted",
    "BFL.Props.C07_update_unweighted",
    "BFL.Props.C07_set_weighted_success_only",
    "BFL.Props.C07_rejected_replaces",
    "BFL.Props.C07_empty_accepted",
    "BFL.Props.C07_normalised"
   ],
   "note": "Proved for non-empty lists. An empty unweighted list is accepted and leaves no distribution (C07_empty_accepted)."
  },
  {
   "property": "C08",
   "status": "partial",
   "theorems": [
    "BFL.Props.C08_mismatch_ignored",
    "BFL.Props.C08_false",
    "BFL.Props.C08_same_length_partial"
   ],
   "note": "False in the code: C08_false. Holds when the lengths agree (C08_same_length_partial)."
  },
  {
   "property": "C09",
   "status": "partial",
   "theorems": [
    "BFL.Props.C09_inversion_partial",
    "BFL.Props.C09_interval",
    "BFL.Props.C09_zero_draw",
    "BFL.Props.C09_beyond_table",
    "BFL.Props.C09_ripley_equals_lookups",
    "BFL.Props.C09_ripley_partial",
    "BFL.Props.C09_ripley_zero_samples"
   ],
   "note": "Proved for draws in (0,1]. A zero draw (C09_zero_draw) or zero samples with RIPLEY (C09_ripley_zero_samples) is undefined behaviour."
  },
  {
   "property": "C10",
   "status": "proved",
   "theorems": [
    "BFL.Props.C10_unbiased",
    "BFL.Props.C10_mean"
   ],
   "note": "Expectation of any function of one resampled particle, over Lebesgue measure on (0,1]. The draw 0 (a null set) is excluded."
  },
  {
   "property": "C11",
   "status": "proved",
   "theorems": [
    "BFL.Props.C11_moments",
    "BFL.Props.C11_mean_between",
    "BFL.Props.C11_reorder",
    "BFL.Props.C11_rescale",
    "BFL.Props.C11_cov_psd",
    "BFL.Props.C11_cov_identity",
    "BFL.Props.C11_single"
   ],
   "note": ""
  },
  {
   "property": "C12",
   "status": "partial",
   "theorems": [
    "BFL.Props.C12_mean",
    "BFL.Props.C12_cov_partial",
    "BFL.Props.C12_false"
   ],
   "note": "The mean is proved for every particle set. The covariance is false in general (C12_false); proved when all particles are closer than 2^16 to the mean."
  },
  {
   "property": "C13",
   "status": "partial",
   "theorems": [
    "BFL.Props.C13_length",
    "BFL.Props.C13_survivors",
    "BFL.Props.C13_shrink_then_draw"
   ],
   "note": "Proved for the particle list. Drawing right after shrinking can be undefined behaviour (C13_shrink_then_draw)."
  },
  {
   "property": "C14",
   "status": "partial",
   "theorems": [
    "BFL.Props.C14_history",
    "BFL.Props.C14_exact_partial",
    "BFL.Props.C14_exact_false",
    "BFL.Props.C14_components",
    "BFL.Props.C14_weightsSet",
    "BFL.Props.C14_weightSet"
   ],
   "note": "Within 1e-9 for every successful history (C14_history). Exactly one unless WeightSet is used on a one-component mixture with a weight other than 1 (C14_exact_false)."
  },
  {
   "property": "C15",
   "status": "partial",
   "theorems": [
    "BFL.Props.C15_positive_remainder_partial",
    "BFL.Props.C15_last_component",
    "BFL.Props.C15_false",
    "BFL.Props.C15_witness"
   ],
   "note": "False in the code: C15_false, C15_witness. Holds when the remaining components carry weight, and for the last component."
  },
  {
   "property": "C16",
   "status": "partial",
   "theorems": [
    "BFL.Props.C16_round_trip_partial",
    "BFL.Props.C16_add_zero_weight",
    "BFL.Props.C16_first_component"
   ],
   "note": "Proved for exactly normalised mixtures and 0 <= w < 1. Adding with weight 1 and deleting again is the failing case of C15."
  },
  {
   "property": "C17",
   "status": "partial",
   "theorems": [
    "BFL.Props.C17_density",
    "BFL.Props.C17_between_partial",
    "BFL.Props.C17_discrete_partial",
    "BFL.Props.C17_mean"
   ],
   "note": "The average formula holds for every mixture; bounds and total mass are for exactly normalised weights."
  },
  {
   "property": "C18",
   "status": "partial",
   "theorems": [
    "BFL.Props.C18_inversion_partial",
    "BFL.Props.C18_exists",
    "BFL.Props.C18_zero_draw",
    "BFL.Props.C18_ripley_lookups"
   ],
   "note": "Proved for draws in (0,1] and exactly normalised weights; C18_exists covers weights normalised within 1e-9. The draw 0 is undefined behaviour (C18_zero_draw). C18_ripley_lookups assumes components that can draw with RIPLEY; see C51."
  },
  {
   "property": "C19",
   "status": "partial",
   "theorems": [
    "BFL.Props.C19_copy_partial",
    "BFL.Props.C19_false"
   ],
   "note": "Holds for non-empty mixtures; copying an empty mixture aborts (C19_false)."
  },
  {
   "property": "C20",
   "status": "proved",
   "theorems": [
    "BFL.Props.C20_addressing",
    "BFL.Props.C20_write_read",
    "BFL.Props.C20_table_semantics",
    "BFL.Props.C20_no_range_check",
    "BFL.Props.C20_more_arguments"
   ],
   "note": "In-range tuples. C20_no_range_check and C20_more_arguments describe what happens outside."
  },
  {
   "property": "C21",
   "status": "partial",
   "theorems": [
    "BFL.Props.C21_row_inversion_partial",
    "BFL.Props.C21_draws",
    "BFL.Props.C21_zero_draw",
    "BFL.Props.C21_zero_row",
    "BFL.Props.C21_law"
   ],
   "note": "Proved for every draw in (0,1]; the draw 0 yields state -1 (C21_zero_draw); a zero row aborts (C21_zero_row)."
  },
  {
   "property": "C22",
   "status": "proved",
   "theorems": [
    "BFL.Props.C22_normalised",
    "BFL.Props.C22_prediction",
    "BFL.Props.C22_missing_input"
   ],
   "note": "Exact arithmetic. C22_normalised covers transition tables whose columns do not sum to one. C22_missing_input: the overload without input on a model with inputs is undefined behaviour."
  },
  {
   "property": "C23",
   "status": "proved",
   "theorems": [
    "BFL.Props.C23_bayes",
    "BFL.Props.C23_commute"
   ],
   "note": "Exact arithmetic, positive evidence. C23_commute gives equality of the whole filter object."
  },
  {
   "property": "C24",
   "status": "partial",
   "theorems": [
    "BFL.Props.C24_false",
    "BFL.Props.C24_stays_zero",
    "BFL.Props.C24_positive_partial"
   ],
   "note": "False in the code: with zero evidence Update returns true and leaves the all-zero vector (C24_false), for ever (C24_stays_zero). Holds for positive evidence (C24_positive_partial)."
  },
  {
   "property": "C25",
   "status": "proved",
   "theorems": [
    "BFL.Props.C25_exact",
    "BFL.Props.C25_trajectories",
    "BFL.Props.C25_table_model"
   ],
   "note": "Exact arithmetic, positive evidence. C25_trajectories validates the enumeration of trajectories; C25_table_model connects the models of this library (DiscreteConditionalPdf) to the theorem. The time step stays 0 (see C31)."
  },
  {
   "property": "C26",
   "status": "partial",
   "theorems": [
    "BFL.Props.C26_measurement",
    "BFL.Props.C26_full_partial",
    "BFL.Props.C26_sensor",
    "BFL.Props.C26_sensor_false"
   ],
   "note": "Proved for measurement-only updates (all shapes) and for full updates without sensor parameters, any history. With sensor parameters the code uses the likelihood alone: C26_sensor characterises it, C26_sensor_false is the counterexample."
  },
  {
   "property": "C27",
   "status": "partial",
   "theorems": [
    "BFL.Props.C27_multinomial_partial",
    "BFL.Props.C27_schemes_false",
    "BFL.Props.C27_ek_false"
   ],
   "note": "Proved for the multinomial scheme of ParticleFilter, BootstrapFilter. C27_schemes_false: systematic, stratified and residual do nothing; C27_ek_false: EKParticleFilter keeps unequal weights."
  },
  {
   "property": "C28",
   "status": "partial",
   "theorems": [
    "BFL.Props.C28_mixture_false",
    "BFL.Props.C28_schedule",
    "BFL.Props.C28_effective_size"
   ],
   "note": "Proved for ParticleFilter and BootstrapFilter (C28_schedule, C28_effective_size; the threshold rule is in C26_measurement). C28_mixture_false: the mixture filters resample too early."
  },
  {
   "property": "C29",
   "status": "proved",
   "theorems": [
    "BFL.Props.C29_update",
    "BFL.Props.C29_equals_pf",
    "BFL.Props.C29_flag"
   ],
   "note": "C29_update, C29_flag, and C29_equals_pf for equality with the particle filter whose proposal is the system pdf (densities of drawn values nonzero)."
  },
  {
   "property": "C30",
   "status": "proved",
   "theorems": [
    "BFL.Props.C30_flattened",
    "BFL.Props.C30_component_weights"
   ],
   "note": "Flattened set for a fixed resampling period; component weights for both policies."
  },
  {
   "property": "C31",
   "status": "partial",
   "theorems": [
    "BFL.Props.C31_histogram_false",
    "BFL.Props.C31_kalman_false",
    "BFL.Props.C31_mixture_false",
    "BFL.Props.C31_particle_partial"
   ],
   "note": "proved for the plain particle filters (one step per update); the Kalman filters and the histogram filter never advance the step and the mixture particle filters advance it once per component (proved negations)"
  },
  {
   "property": "C32",
   "status": "proved",
   "theorems": [
    "BFL.Props.C32_predict",
    "BFL.Props.C32_run"
   ],
   "note": "prediction gives exactly F P F'+Q for both back ends; every run of valid updates succeeds with a valid covariance"
  },
  {
   "property": "C33",
   "status": "proved",
   "theorems": [
    "BFL.Props.C33_correct"
   ],
   "note": "explicit gain equation, Joseph form, PSD and never larger, for the extended filter and the iterated filter at its last linearisation point"
  },
  {
   "property": "C34",
   "status": "proved",
   "theorems": [
    "BFL.Props.C34_information",
    "BFL.Props.C34_minimiser",
    "BFL.Props.C34_bayes"
   ],
   "note": "information form, unique minimiser, and Bayes' rule with the actual normal densities over the reals"
  },
  {
   "property": "C35",
   "status": "proved",
   "theorems": [
    "BFL.Props.C35_stacked",
    "BFL.Props.C35_order",
    "BFL.Props.C35_permutation",
    "BFL.Props.C35_total"
   ],
   "note": "stacked = sequential, any permutation of any number of measurements, sum of information"
  },
  {
   "property": "C36",
   "status": "partial",
   "theorems": [
    "BFL.Props.C36_nis",
    "BFL.Props.C36_input_false"
   ],
   "note": "proved for measurement models with the state as only argument; NisGet passes an empty sensor parameter, undefined for models with two arguments (proved)"
  },
  {
   "property": "C37",
   "status": "partial",
   "theorems": [
    "BFL.Props.C37_kalman",
    "BFL.Props.C37_linear",
    "BFL.Props.C37_one_iteration",
    "BFL.Props.C37_nonlinear_differs",
    "BFL.Props.C37_zero_false",
    "BFL.Props.C37_converged"
   ],
   "note": "proved for iteration counts from one; zero iterations is accepted by the constructor and undefined (proved)"
  },
  {
   "property": "C38",
   "status": "partial",
   "theorems": [
    "BFL.Props.C38_covariance",
    "BFL.Props.C38_update_partial",
    "BFL.Props.C38_iekf_partial",
    "BFL.Props.C38_scalar",
    "BFL.Props.C38_construction",
    "BFL.Props.C38_prediction",
    "BFL.Props.C38_run_scalar",
    "BFL.Props.C38_measurement_false",
    "BFL.Props.C38_prediction_false",
    "BFL.Props.C38_prior_false"
   ],
   "note": "The covariance identity holds for the factors the formula is meant for (C38_covariance), and the whole update agrees with the iterated extended Kalman filter for scalar or decoupled measurements and for all histories with a one-dimensional state. The negation is proved for correlated vector measurements, after a prediction of a state with several components, and after PriorSet."
  },
  {
   "property": "C39",
   "status": "partial",
   "theorems": [
    "BFL.Props.C39_covariance",
    "BFL.Props.C39_formula_partial",
    "BFL.Props.C39_unchanged_partial",
    "BFL.Props.C39_jacobian_false",
    "BFL.Props.C39_unchanged_false"
   ],
   "note": "covariance validity and reduction proved in general; formula and 'nothing new' only for linear models, because the code linearises at the smoothed successor (negations proved)"
  },
  {
   "property": "C40",
   "status": "partial",
   "theorems": [
    "BFL.Props.C40_undefined_false",
    "BFL.Props.C40_sizes_false",
    "BFL.Props.C40_weights_false",
    "BFL.Props.C40_computes_partial"
   ],
   "note": "the code violates it: every update reads an uninitialised total (undefined behaviour), overruns a vector when there are more filtered than smoothed particles, and uses wrong densities and correction factors; what it computes on a machine where the total happens to be initialised is proved"
  },
  {
   "property": "C41",
   "status": "proved",
   "theorems": [
    "BFL.Props.C41_fresh",
    "BFL.Props.C41_density",
    "BFL.Props.C41_blank",
    "BFL.Props.C41_negative_determinant"
   ],
   "note": "every history of setters, copies, samples and queries; value equals that of a new object, and the normal density when positive definite"
  },
  {
   "property": "C42",
   "status": "partial",
   "theorems": [
    "BFL.Props.C42_semidefinite",
    "BFL.Props.C42_definite",
    "BFL.Props.C42_round_trip",
    "BFL.Props.C42_success_partial",
    "BFL.Props.C42_negative",
    "BFL.Props.C42_failure",
    "BFL.Props.C42_success_false",
    "BFL.Props.C42_small_false",
    "BFL.Props.C42_sample",
    "BFL.Props.C42_sample_moments",
    "BFL.Props.C42_sample_failure"
   ],
   "note": "semidefinite, definite and round-trip theorems for every dimension; success does not imply a factorisation for indefinite matrices, and pivots below epsilon are dropped (proved negations)"
  },
  {
   "property": "C43",
   "status": "partial",
   "theorems": [
    "BFL.Props.C43_density",
    "BFL.Props.C43_samples",
    "BFL.Props.C43_list",
    "BFL.Props.C43_getters",
    "BFL.Props.C43_methods",
    "BFL.Props.C43_default_false",
    "BFL.Props.C43_argument_false",
    "BFL.Props.C43_blank",
    "BFL.Props.C43_zero_width"
   ],
   "note": "proved for objects made with a centre and a width, points of the right dimension and positive widths, also after any sequence of UniformSet; the code violates it for default-constructed objects (sampling is undefined behaviour) and for points of another dimension"
  },
  {
   "property": "C44",
   "status": "proved",
   "theorems": [
    "BFL.Props.C44_mean",
    "BFL.Props.C44_make",
    "BFL.Props.C44_sizes",
    "BFL.Props.C44_more_arguments",
    "BFL.Props.C44_prediction",
    "BFL.Props.C44_prediction_no_input",
    "BFL.Props.C44_input_size",
    "BFL.Props.C44_kalman",
    "BFL.Props.C44_kalman_no_input"
   ],
   "note": "sizes that disagree are a precondition (C44_sizes); changing the number of arguments in the middle of a history is only covered by C44_more_arguments"
  },
  {
   "property": "C45",
   "status": "partial",
   "theorems": [
    "BFL.Props.C45_make_iff",
    "BFL.Props.C45_set_iff",
    "BFL.Props.C45_agreement_partial",
    "BFL.Props.C45_sequence",
    "BFL.Props.C45_empty"
   ],
   "note": "Proved for every model that was given a pdf. A model built with a NULL pdf is accepted with both members uninitialised; using it is undefined behaviour (C45_empty)."
  },
  {
   "property": "C46",
   "status": "partial",
   "theorems": [
    "BFL.Props.C46_get",
    "BFL.Props.C46_put",
    "BFL.Props.C46_make",
    "BFL.Props.C46_assign_eigen_partial",
    "BFL.Props.C46_assign_boost",
    "BFL.Props.C46_vectorAdd",
    "BFL.Props.C46_sub",
    "BFL.Props.C46_sub_bounds",
    "BFL.Props.C46_sub_vectorAdd",
    "BFL.Props.C46_vectorAdd_sub",
    "BFL.Props.C46_rowVectorAdd_boost_partial",
    "BFL.Props.C46_rowVectorAdd_eigen",
    "BFL.Props.C46_rowCopy_boost_partial",
    "BFL.Props.C46_symRowCopy",
    "BFL.Props.C46_rowCopy_bounds",
    "BFL.Props.C46_rowCopy_eigen",
    "BFL.Props.C46_rowCopy_backends_differ"
   ],
   "note": "false for assign under Boost, row vector vectorAdd and rowCopy/columnCopy under Eigen (proved); proved for everything else"
  },
  {
   "property": "C47",
   "status": "proved",
   "theorems": [
    "BFL.Props.C47_determinant",
    "BFL.Props.C47_inverse",
    "BFL.Props.C47_singular",
    "BFL.Props.C47_symInverse"
   ],
   "note": "sizes one and two, where the code has formulas; larger sizes are the back ends' LU decompositions"
  },
  {
   "property": "C48",
   "status": "proved",
   "theorems": [
    "BFL.Props.C48_pseudoinverse",
    "BFL.Props.C48_two_columns",
    "BFL.Props.C48_invertible",
    "BFL.Props.C48_truncated",
    "BFL.Props.C48_small",
    "BFL.Props.C48_default_epsilon",
    "BFL.Props.C48_epsilon_zero"
   ],
   "note": "singular values are zero or at least epsilon > 0, as stated; also proved: in general the small ones are dropped, so that the default epsilon = 0.01 maps (1/200) to 0. The assertion that SVD converged may stop the program with more than two columns"
  },
  {
   "property": "C49",
   "status": "partial",
   "theorems": [
    "BFL.Props.C49_smoother_partial",
    "BFL.Props.C49_prior_is_posterior",
    "BFL.Props.C49_double_delete",
    "BFL.Props.C49_mixture_prior",
    "BFL.Props.C49_kalman_partial",
    "BFL.Props.C49_square_root_ignores_covariance",
    "BFL.Props.C49_histogram_partial",
    "BFL.Props.C49_histogram_size",
    "BFL.Props.C49_particle_partial",
    "BFL.Props.C49_prior_changed_witness",
    "BFL.Props.C49_square_root_witness",
    "BFL.Props.C49_particle_static_witness",
    "BFL.Props.C49_mixture_static_witness"
   ],
   "note": "false: after Reset(p) the client's p is the posterior of the filter (changed by updates, deleted by the destructor); the square root filter keeps its old covariance factor, a histogram filter its old number of states, a particle filter its update count. First half true for the (iterated) extended Kalman filter, the histogram filter with the same number of states and the particle filter with dynamic multinomial resampling; second half true for the mixture filter's own Reset"
  },
  {
   "property": "C50",
   "status": "proved",
   "theorems": [
    "BFL.Props.C50_discretePdf",
    "BFL.Props.C50_discretePdf_others",
    "BFL.Props.C50_discreteConditionalPdf",
    "BFL.Props.C50_discreteConditionalPdf_others",
    "BFL.Props.C50_mcPdf",
    "BFL.Props.C50_mcPdf_others",
    "BFL.Props.C50_mixture",
    "BFL.Props.C50_mixture_others"
   ],
   "note": "refinement of client programs (create, clone, change, destroy in any order) to programs on independent values"
  },
  {
   "property": "C51",
   "status": "partial",
   "theorems": [
    "BFL.Props.C51_false",
    "BFL.Props.C51_library_components",
    "BFL.Props.C51_default_partial"
   ],
   "note": "False in the code for RIPLEY (C51_false, C51_library_components); holds for DEFAULT."
  },
  {
   "property": "C52",
   "status": "proved",
   "theorems": [
    "BFL.Props.C52_component",
    "BFL.Props.C52_state"
   ],
   "note": ""
  },
  {
   "property": "C53",
   "status": "partial",
   "theorems": [
    "BFL.Props.C53_update_false",
    "BFL.Props.C53_bootUpdate_false",
    "BFL.Props.C53_forever_false",
    "BFL.Props.C53_witness_false"
   ],
   "note": "The property is false; C53_*_false prove the opposite for every filter with a resampling threshold. The accepted measurement update is C30."
  },
  {
   "property": "C54",
   "status": "proved",
   "theorems": [
    "BFL.Props.C54_law",
    "BFL.Props.C54_total_mass"
   ],
   "note": "the law of the samples is the measure with the reported density (measure theory); total mass one"
  },
  {
   "property": "C55",
   "status": "proved",
   "theorems": [
    "BFL.Props.C55_marginals",
    "BFL.Props.C55_trajectory"
   ],
   "note": "any number of linear steps with or without measurement"
  },
  {
   "property": "C56",
   "status": "proved",
   "theorems": [
    "BFL.Props.C56_law"
   ],
   "note": "draws are inputs assumed independent uniform on the unit interval; exact reals"
  },
  {
   "property": "C57",
   "status": "proved",
   "theorems": [
    "BFL.Props.C57_with_input",
    "BFL.Props.C57_no_input",
    "BFL.Props.C57_overloads",
    "BFL.Props.C57_silent_failure"
   ],
   "note": "draws are inputs assumed independent standard normal; exact reals"
  },
  {
   "property": "C58",
   "status": "partial",
   "theorems": [
    "BFL.Props.C58_boost_partial",
    "BFL.Props.C58_eigen",
    "BFL.Props.C58_eigen_not_symmetric"
   ],
   "note": "proved for Boost; false for Eigen, where the two triangles are independent (proved)"
  },
  {
   "property": "C59",
   "status": "proved",
   "theorems": [
    "BFL.Props.C59_svd",
    "BFL.Props.C59_two_columns",
    "BFL.Props.C59_eigenvalues"
   ],
   "note": "exact arithmetic; convergence is proved for at most two columns, where one shifted step is exact"
  },
  {
   "property": "C60",
   "status": "partial",
   "theorems": [
    "BFL.Props.C60_discretePdf_shared",
    "BFL.Props.C60_discretePdf_witness",
    "BFL.Props.C60_discretePdf_double_delete",
    "BFL.Props.C60_mixture_double_delete",
    "BFL.Props.C60_conditional_shared",
    "BFL.Props.C60_conditional_witness",
    "BFL.Props.C60_reads_same_partial",
    "BFL.Props.C60_mcPdf"
   ],
   "note": "false for DiscretePdf, DiscreteConditionalPdf and Mixture, which own storage through pointers and have no assignment operator: storage is shared and deleted twice; true for MCPdf; for all of them the objects read the same directly after the assignment"
  },
  {
   "property": "C61",
   "status": "partial",
   "theorems": [
    "BFL.Props.C61_update_false",
    "BFL.Props.C61_update_undefined",
    "BFL.Props.C61_null",
    "BFL.Props.C61_old_samples",
    "BFL.Props.C61_run",
    "BFL.Props.C61_first_partial",
    "BFL.Props.C61_weights_false",
    "BFL.Props.C61_sensor_false"
   ],
   "note": "false: a constructed filter never completes an update (undefined write to an empty scratch vector); with that repaired, the first update without sensor parameters is right, later updates use the prior's particles and the last particle's covariance, and sensors with parameters omit transition and proposal"
  },
  {
   "property": "C62",
   "status": "proved",
   "theorems": [
    "BFL.Props.C62_fresh",
    "BFL.Props.C62_queries",
    "BFL.Props.C62_destroy",
    "BFL.Props.C62_single_model",
    "BFL.Props.C62_kalman",
    "BFL.Props.C62_bayes",
    "BFL.Props.C62_optimal"
   ],
   "note": ""
  },
  {
   "property": "C63",
   "status": "proved",
   "theorems": [
    "BFL.Props.C63_update",
    "BFL.Props.C63_run",
    "BFL.Props.C63_nis",
    "BFL.Props.C63_library_check_false"
   ],
   "note": ""
  },
  {
   "property": "C64",
   "status": "proved",
   "theorems": [
    "BFL.Props.C64_error",
    "BFL.Props.C64_best"
   ],
   "note": ""
  },
  {
   "property": "C65",
   "status": "proved",
   "theorems": [
    "BFL.Props.C65_mean"
   ],
   "note": ""
  },
  {
   "property": "C66",
   "status": "partial",
   "theorems": [
    "BFL.Props.C66_vector",
    "BFL.Props.C66_vector_type",
    "BFL.Props.C66_vector_malformed",
    "BFL.Props.C66_matrix_write_boost_partial",
    "BFL.Props.C66_matrix_write_eigen",
    "BFL.Props.C66_matrix_read_partial",
    "BFL.Props.C66_matrix_empty",
    "BFL.Props.C66_matrix_type",
    "BFL.Props.C66_matrix_half_written",
    "BFL.Props.C66_sym_read",
    "BFL.Props.C66_sym_triangle",
    "BFL.Props.C66_sym_not_square",
    "BFL.Props.C66_matrix_accepted",
    "BFL.Props.C66_matrix_ragged",
    "BFL.Props.C66_sym_refused",
    "BFL.Props.C66_probability",
    "BFL.Props.C66_probability_negative",
    "BFL.Props.C66_probability_missing",
    "BFL.Props.C66_weighted_sample"
   ],
   "note": "Holds for vectors, probabilities and weighted samples, for reading all matrix bags with a row, and for writing matrices with Boost. False: writing any matrix with Eigen (C66_matrix_write_eigen), matrices without rows (C66_matrix_empty), malformed bags (C66_vector_malformed, C66_matrix_half_written, C66_sym_not_square, C66_probability_negative). Not modelled: RTT itself; Sample<int> and Sample<double>, whose reading depends on RTT's treatment of plain properties."
  },
  {
   "property": "C67",
   "status": "partial",
   "theorems": [
    "BFL.Props.C67_vector",
    "BFL.Props.C67_typekit_eigen",
    "BFL.Props.C67_typekit_boost_partial",
    "BFL.Props.C67_typekit_boost_false",
    "BFL.Props.C67_toolkit_boost_partial",
    "BFL.Props.C67_toolkit_eigen_partial",
    "BFL.Props.C67_toolkit_false"
   ],
   "note": "Holds for vectors and for typekit with Eigen. False for the other three combinations (C67_typekit_boost_false, C67_toolkit_false); the exact behaviour of every index is proved."
  },
  {
   "property": "C68",
   "status": "partial",
   "theorems": [
    "BFL.Props.C68_mean_input",
    "BFL.Props.C68_mean_output",
    "BFL.Props.C68_jacobian_output",
    "BFL.Props.C68_jacobian_input_partial",
    "BFL.Props.C68_jacobian_input_actual",
    "BFL.Props.C68_jacobian_input_wrong",
    "BFL.Props.C68_other_argument",
    "BFL.Props.C68_linear",
    "BFL.Props.C68_mobile_same",
    "BFL.Props.C68_mobile",
    "BFL.Props.C68_model",
    "BFL.Props.C68_size",
    "BFL.Props.C68_size_unchecked"
   ],
   "note": "Proved for noise on the value and for the mobile robot; for noise on the inputs if the noise mean is zero. False otherwise (C68_jacobian_input_wrong). A noise of the wrong size on the value is not refused (C68_size_unchecked)."
  },
  {
   "property": "C69",
   "status": "partial",
   "theorems": [
    "BFL.Props.C69_covariance_partial",
    "BFL.Props.C69_wrong",
    "BFL.Props.C69_affine",
    "BFL.Props.C69_moments",
    "BFL.Props.C69_valid",
    "BFL.Props.C69_output"
   ],
   "note": "Linearised covariance proved if the noise mean is zero, false otherwise (C69_wrong). Exact moments for formulas linear in the noisy inputs proved for every noise mean."
  },
  {
   "property": "C70",
   "status": "partial",
   "theorems": [
    "BFL.Props.C70_density_partial",
    "BFL.Props.C70_density_factor",
    "BFL.Props.C70_density_wrong",
    "BFL.Props.C70_sample_partial",
    "BFL.Props.C70_sample_ub",
    "BFL.Props.C70_instance"
   ],
   "note": "Proved if the noise has the size of the value. False otherwise: density off by a factor (C70_density_factor, C70_density_wrong), sampling undefined behaviour (C70_sample_ub)."
  },
  {
   "property": "C71",
   "status": "proved",
   "theorems": [
    "BFL.Props.C71_more",
    "BFL.Props.C71_readings",
    "BFL.Props.C71_nonlinear"
   ],
   "note": "Any pair of runs; boundary for nonlinear sensors (C71_nonlinear)."
  },
  {
   "property": "C72",
   "status": "proved",
   "theorems": [
    "BFL.Props.C72_safe",
    "BFL.Props.C72_optimistic"
   ],
   "note": "Any history; boundary for understated noise (C72_optimistic)."
  },
  {
   "property": "C73",
   "status": "proved",
   "theorems": [
    "BFL.Props.C73_discretePdf",
    "BFL.Props.C73_discretePdf_default",
    "BFL.Props.C73_mcPdf"
   ],
   "note": "Joint law of the unordered list; DEFAULT gives the product law with order."
  },
  {
   "property": "C74",
   "status": "proved",
   "theorems": [
    "BFL.Props.C74_resampled",
    "BFL.Props.C74_update"
   ],
   "note": "Mean and variance, for the specification and for the filter."
  },
  {
   "property": "C75",
   "status": "proved",
   "theorems": [
    "BFL.Props.C75_particleFilter",
    "BFL.Props.C75_bootstrap",
    "BFL.Props.C75_prediction_false"
   ],
   "note": "Any number of updates without resampling, both filters; with a proposal that differs from the system model an update without a measurement tends to the wrong limit (C75_prediction_false). Convergence with resampling is C76."
  },
  {
   "property": "C76",
   "status": "proved",
   "theorems": [
    "BFL.Props.C76_particleFilter",
    "BFL.Props.C76_bootstrap"
   ],
   "note": "Any number of updates, static or dynamic multinomial resampling, particle filter with any covering proposal and bootstrap filter, convergence in probability for every integrable function. The roots of the sorted-uniform algorithm are exact."
  },
  {
   "property": "C77",
   "status": "proved",
   "theorems": [
    "BFL.Props.C77_forgets",
    "BFL.Props.C77_limit",
    "BFL.Props.C77_prediction",
    "BFL.Props.C77_static"
   ],
   "note": "Bound, uniform tolerance version, contraction of one prediction; C77_static shows that some mixing is needed."
  },
  {
   "property": "C78",
   "status": "proved",
   "theorems": [
    "BFL.Props.C78_history",
    "BFL.Props.C78_uniform",
    "BFL.Props.C78_underflow"
   ],
   "note": "Any history, any rounding with relative error u; nearest53 is an instance. C78_underflow shows why underflow has to be excluded."
  },
  {
   "property": "C79",
   "status": "proved",
   "theorems": [
    "BFL.Props.C79_sigmas",
    "BFL.Props.C79_sensor",
    "BFL.Props.C79_distance",
    "BFL.Props.C79_nonlinear"
   ],
   "note": "Linear models, any history, any back end; C79_nonlinear shows the boundary."
  },
  {
   "property": "C80",
   "status": "proved",
   "theorems": [
    "BFL.Props.C80_leastSquares",
    "BFL.Props.C80_order",
    "BFL.Props.C80_consistent"
   ],
   "note": "Least squares over any ordered field; consistency over the reals in exact arithmetic."
  },
  {
   "property": "C81",
   "status": "partial",
   "theorems": [
    "BFL.Props.C81_copy_undefined",
    "BFL.Props.C81_copy_no_value",
    "BFL.Props.C81_assign_shares",
    "BFL.Props.C81_assign_double_delete",
    "BFL.Props.C81_assign_leaks",
    "BFL.Props.C81_fork_partial",
    "BFL.Props.C81_classes_partial",
    "BFL.Props.C81_kalman_continues_partial",
    "BFL.Props.C81_smoother_continues_partial",
    "BFL.Props.C81_histogram_continues_partial"
   ],
   "note": "Holds for filters started from the posterior of another one; the copy constructor leaves the pointers without a value and the assignment shares the posterior."
  },
  {
   "property": "C82",
   "status": "partial",
   "theorems": [
    "BFL.Props.C82_contract_partial",
    "BFL.Props.C82_misfit",
    "BFL.Props.C82_toSym_halves",
    "BFL.Props.C82_toSym_differ",
    "BFL.Props.C82_symPut_differ",
    "BFL.Props.C82_resize_differ",
    "BFL.Props.C82_combineMat_differ",
    "BFL.Props.C82_symRows_differ"
   ],
   "note": "Holds for all programs within the contract; the theorems C82_*_differ state where the wrappers differ outside of it."
  },
  {
   "property": "C83",
   "status": "proved",
   "theorems": [
    "BFL.Props.C83_propagation",
    "BFL.Props.C83_one_step",
    "BFL.Props.C83_dead_reckoning",
    "BFL.Props.C83_frame"
   ],
   "note": "For models whose DfGet is the derivative of ExpectedValueGet; shown for the mobile robot."
  },
  {
   "property": "C84",
   "status": "partial",
   "theorems": [
    "BFL.Props.C84_likelihood",
    "BFL.Props.C84_likelihood_bias",
    "BFL.Props.C84_likelihood_sizes",
    "BFL.Props.C84_system_law",
    "BFL.Props.C84_system_methods",
    "BFL.Props.C84_system_flag",
    "BFL.Props.C84_move_law",
    "BFL.Props.C84_measure_law",
    "BFL.Props.C84_not_distance",
    "BFL.Props.C84_negated"
   ],
   "note": "Move, the system density and the negated measurement fit; Measure returns twice the documented distance (C84_not_distance), the likelihood has the sign of the noise reversed (C84_likelihood_bias), SampleFrom ignores failure (C84_system_flag) and is undefined for two methods (C84_system_methods)."
  },
  {
   "property": "C85",
   "status": "partial",
   "theorems": [
    "BFL.Props.C85_defined",
    "BFL.Props.C85_exact",
    "BFL.Props.C85_ripley",
    "BFL.Props.C85_32bit",
    "BFL.Props.C85_ripley_32bit",
    "BFL.Props.C85_overrun",
    "BFL.Props.C85_discrete"
   ],
   "note": "Draws are safe up to 1-(2n+2)u and hence for random numbers of 32 bits (C85_32bit, C85_ripley_32bit); a 53-bit draw next to 1 runs past the table of seven equal samples (C85_overrun)."
  },
  {
   "property": "C86",
   "status": "proved",
   "theorems": [
    "BFL.Props.C86_iterations",
    "BFL.Props.C86_square_root",
    "BFL.Props.C86_stationary",
    "BFL.Props.C86_converges",
    "BFL.Props.C86_worse"
   ],
   "note": "Contraction is a hypothesis of the convergence theorem; C86_worse shows a sensor where a second iteration makes the estimate less probable."
  },
  {
   "property": "C87",
   "status": "proved",
   "theorems": [
    "BFL.Props.C87_rate",
    "BFL.Props.C87_identifies",
    "BFL.Props.C87_limits"
   ],
   "note": "Exact arithmetic. Readings are independent with the density that the measurement model reports."
  },
  {
   "property": "C88",
   "status": "proved",
   "theorems": [
    "BFL.Props.C88_rate",
    "BFL.Props.C88_means",
    "BFL.Props.C88_settles",
    "BFL.Props.C88_needed",
    "BFL.Props.C88_when"
   ],
   "note": "Exact arithmetic. The process noise has to act in every direction; C80 treats the case without process noise."
  },
  {
   "property": "C89",
   "status": "partial",
   "theorems": [
    "BFL.Props.C89_contract_partial",
    "BFL.Props.C89_defined",
    "BFL.Props.C89_misfit",
    "BFL.Props.C89_missing",
    "BFL.Props.C89_order",
    "BFL.Props.C89_unique"
   ],
   "note": "Every accepted expression is right (C89_contract_partial, C89_defined). The last sentence of the claim is false: C89_missing proves that symmetric + matrix, symmetric - matrix and symmetric * symmetric are refused."
  },
  {
   "property": "C90",
   "status": "partial",
   "theorems": [
    "BFL.Props.C90_history_partial",
    "BFL.Props.C90_step",
    "BFL.Props.C90_negative",
    "BFL.Props.C90_squareroot",
    "BFL.Props.C90_prediction",
    "BFL.Props.C90_prediction_positive",
    "BFL.Props.C90_correction",
    "BFL.Props.C90_many_history_partial"
   ],
   "note": "Proved for the square root filter (any dimensions) and, for one state and scalar readings, for histories whose readings improve the variance by a bounded factor. The general claim is false: C90_negative. For several states: histories of motions (C90_prediction), one scalar reading (C90_correction), and mixed histories with a bound that is a recursion and holds while the innovation variance survives cancellation (C90_many_history_partial). Rounded vector readings are not analysed beyond C90_squareroot."
  },
  {
   "property": "C91",
   "status": "partial",
   "theorems": [
    "BFL.Props.C91_histogram",
    "BFL.Props.C91_particles_product",
    "BFL.Props.C91_particles_partial",
    "BFL.Props.C91_degenerate_false",
    "BFL.Props.C91_kalman",
    "BFL.Props.C91_nonlinear_false"
   ],
   "note": "Proved for the histogram filter, for the Kalman filters with linear readings and for the particle filter without degeneracy-triggered resampling. False for degeneracy-triggered resampling (C91_degenerate_false) and for nonlinear readings of the extended Kalman filter (C91_nonlinear_false)."
  },
  {
   "property": "C92",
   "status": "partial",
   "theorems": [
    "BFL.Props.C92_histogram",
    "BFL.Props.C92_kalman",
    "BFL.Props.C92_bootstrap",
    "BFL.Props.C92_mixture_bootstrap",
    "BFL.Props.C92_particle_partial",
    "BFL.Props.C92_proposal_false"
   ],
   "note": "Proved for the histogram, Kalman (extended, iterated), bootstrap and mixture bootstrap filters, and for the particle filter with a proposal that has the density of the motion model. False for the particle filter with another proposal (C92_proposal_false)."
  },
  {
   "property": "C93",
   "status": "partial",
   "theorems": [
    "BFL.Props.C93_history_partial",
    "BFL.Props.C93_bootstrap_partial",
    "BFL.Props.C93_early",
    "BFL.Props.C93_mean_partial",
    "BFL.Props.C93_flip",
    "BFL.Props.C93_underflow"
   ],
   "note": "Proved for histories whose resampling decisions have a margin proportional to the rounding unit, without underflow. False otherwise: a random number next to a running sum selects another particle (C93_flip), tiny likelihoods underflow and the update fails (C93_underflow). The k-th root is taken as a given function."
  },
  {
   "property": "C94",
   "status": "proved",
   "theorems": [
    "BFL.Props.C94_white",
    "BFL.Props.C94_independent",
    "BFL.Props.C94_sum"
   ],
   "note": ""
  },
  {
   "property": "C95",
   "status": "proved",
   "theorems": [
    "BFL.Props.C95_distribution",
    "BFL.Props.C95_coverage",
    "BFL.Props.C95_best"
   ],
   "note": ""
  },
  {
   "property": "C96",
   "status": "proved",
   "theorems": [
    "BFL.Props.C96_world",
    "BFL.Props.C96_calibrated",
    "BFL.Props.C96_best_guess",
    "BFL.Props.C96_brier"
   ],
   "note": ""
  },
  {
   "property": "C97",
   "status": "partial",
   "theorems": [
    "BFL.Props.C97_kept",
    "BFL.Props.C97_exact",
    "BFL.Props.C97_again_false"
   ],
   "note": "The exact reading and the conservation are proved without restriction. False for the repetition: a second reading of the same exact sensor divides by zero or fails an assertion (C97_again_false). Exact arithmetic."
  },
  {
   "property": "C98",
   "status": "proved",
   "theorems": [
    "BFL.Props.C98_prediction",
    "BFL.Props.C98_covariance",
    "BFL.Props.C98_correction",
    "BFL.Props.C98_sharp"
   ],
   "note": "One step; the assumption that the report before the step is right does not hold exactly after a nonlinear step."
  },
  {
   "property": "C99",
   "status": "proved",
   "theorems": [
    "BFL.Props.C99_error",
    "BFL.Props.C99_best",
    "BFL.Props.C99_hindsight",
    "BFL.Props.C99_distribution"
   ],
   "note": "Linear models; every motion has noise in all directions, so that the matrix inverted by the smoother is invertible."
  },
  {
   "property": "C100",
   "status": "proved",
   "theorems": [
    "BFL.Props.C100_particleFilter",
    "BFL.Props.C100_bootstrap"
   ],
   "note": "Without resampling (at most `period` updates, threshold at most 1), for particles drawn independently from the prior."
  },
  {
   "property": "C101",
   "status": "proved",
   "theorems": [
    "BFL.Props.C101_particleFilter",
    "BFL.Props.C101_bootstrap"
   ],
   "note": "Multinomial resampling; particles drawn independently from the prior; resampling at every update with `period = 1`, or by a threshold of at least N/s on the effective number."
  },
  {
   "property": "C102",
   "status": "proved",
   "theorems": [
    "BFL.Props.C102_particleFilter",
    "BFL.Props.C102_bootstrap"
   ],
   "note": "Multinomial resampling; particles drawn independently from the prior; the exact posterior has finite second moments."
  },
  {
   "property": "C103",
   "status": "proved",
   "theorems": [
    "BFL.Props.C103_kalman",
    "BFL.Props.C103_particleFilter",
    "BFL.Props.C103_bootstrap"
   ],
   "note": "Exact arithmetic; prior and noises positive definite (process noise by at least the threshold of the square root routine, see C42). For the bootstrap filter state, input and sensor parameter have the same size."
  },
  {
   "property": "C104",
   "status": "proved",
   "theorems": [
    "BFL.Props.C104_particleFilter",
    "BFL.Props.C104_bootstrap"
   ],
   "note": "Exact arithmetic; random numbers independent within every component (nothing is assumed between components); every component has positive and finite evidence at every step (a component that is ruled out makes the code fail or stay dead, see C53)."
  },
  {
   "property": "C105",
   "status": "partial",
   "theorems": [
    "BFL.Props.C105_extended",
    "BFL.Props.C105_iterated_partial",
    "BFL.Props.C105_checked_partial",
    "BFL.Props.C105_nis",
    "BFL.Props.C105_checked_false",
    "BFL.Props.C105_histogram"
   ],
   "note": "Proved for the extended and histogram filters, for iterated filters without a check, and with the library's check for measurements of one system at a time. False for the iterated filter with the library's check and a measurement of both systems (C105_checked_false): the check adds up both steps. Exact arithmetic."
  },
  {
   "property": "C106",
   "status": "proved",
   "theorems": [
    "BFL.Props.C106_kalman",
    "BFL.Props.C106_histogram"
   ],
   "note": "For iterated filters the check of the full filter has to look at the part (otherwise it may stop elsewhere, as in C63_library_check_false and C105_checked_false). Exact arithmetic."
  },
  {
   "property": "C107",
   "status": "proved",
   "theorems": [
    "BFL.Props.C107_superposition",
    "BFL.Props.C107_covariance",
    "BFL.Props.C107_nonlinear"
   ],
   "note": "Exact arithmetic. Linear models; for nonlinear ones the negation is `C107_nonlinear`."
  },
  {
   "property": "C108",
   "status": "proved",
   "theorems": [
    "BFL.Props.C108_particle",
    "BFL.Props.C108_bootstrap",
    "BFL.Props.C108_moments",
    "BFL.Props.C108_mixture",
    "BFL.Props.C108_mixture_bootstrap"
   ],
   "note": "Exact arithmetic (rounding depends on the units). Negative prior weights are excluded for the simple particle filters."
  },
  {
   "property": "C109",
   "status": "partial",
   "theorems": [
    "BFL.Props.C109_update",
    "BFL.Props.C109_partial",
    "BFL.Props.C109_wrong_ancestor",
    "BFL.Props.C109_prediction",
    "BFL.Props.C109_larger",
    "BFL.Props.C109_room",
    "BFL.Props.C109_measurement",
    "BFL.Props.C109_first_measurement",
    "BFL.Props.C109_first_measurement_lost",
    "BFL.Props.C109_draws"
   ],
   "note": "The class cannot be instantiated as it stands (its UpdateInternal has another return type than the base class and calls an undeclared ResampleStep); everything before that call is modelled. The claim is proved when all look-aheads have equal likelihood, and false otherwise (C109_wrong_ancestor): the look-aheads are not permuted by the resampling. Predictions alone are undefined (C109_prediction), measurements alone divide by left-over look-aheads (C109_measurement), and a second filter with more particles overruns the static table (C109_larger). Exact arithmetic, multinomial resampling."
  },
  {
   "property": "C110",
   "status": "proved",
   "theorems": [
    "BFL.Props.C110_merge",
    "BFL.Props.C110_renumber",
    "BFL.Props.C110_condition"
   ],
   "note": "Exact arithmetic. The most probable state may differ after renumbering if there are ties (C06)."
  },
  {
   "property": "C111",
   "status": "partial",
   "theorems": [
    "BFL.Props.C111_follows",
    "BFL.Props.C111_keeps",
    "BFL.Props.C111_own",
    "BFL.Props.C111_formulas_undefined",
    "BFL.Props.C111_leak",
    "BFL.Props.C111_formula_model"
   ],
   "note": "Proved for the general models (C111_follows). The models for formulas keep a copy instead, so that later changes of the pdf are not seen (C111_keeps, C111_formula_model) unless made through SystemPdfGet/MeasurementPdfGet (C111_own); asking them for the formulas is undefined because the pdf is cast to a model (C111_formulas_undefined); each one leaks its copy (C111_leak). Addresses are never reused in the model."
  },
  {
   "property": "C112",
   "status": "proved",
   "theorems": [
    "BFL.Props.C112_reports",
    "BFL.Props.C112_average",
    "BFL.Props.C112_mean",
    "BFL.Props.C112_decision",
    "BFL.Props.C112_variance",
    "BFL.Props.C112_entropy",
    "BFL.Props.C112_not_always"
   ],
   "note": "Exact arithmetic; the models of the filter are the true ones. Records with probability zero do not count."
  },
  {
   "property": "C113",
   "status": "proved",
   "theorems": [
    "BFL.Props.C113_coordinates",
    "BFL.Props.C113_superposition",
    "BFL.Props.C113_covariance"
   ],
   "note": "Exact arithmetic; process noise positive definite wherever the state moves, so that the matrix inverted by the smoother is regular."
  },
  {
   "property": "C114",
   "status": "partial",
   "theorems": [
    "BFL.Props.C114_pairing",
    "BFL.Props.C114_wrong",
    "BFL.Props.C114_constant_partial",
    "BFL.Props.C114_heading",
    "BFL.Props.C114_heading_junk",
    "BFL.Props.C114_usage"
   ],
   "note": "False: the programs store each filtered estimate after the update and step back with the estimate of the wrong time (C114_pairing, C114_wrong); the heading of the prior is never assigned (C114_heading, C114_heading_junk); the advised arguments are refused (C114_usage). Proved for states that do not move (C114_constant_partial); missing: states that move."
  },
  {
   "property": "C115",
   "status": "partial",
   "theorems": [
    "BFL.Props.C115_posterior",
    "BFL.Props.C115_nearest",
    "BFL.Props.C115_printed"
   ],
   "note": "The reported distribution is the exact posterior (C115_posterior) and prefers the place nearest to all readings (C115_nearest). False for the printed number of steps, which is one too large (C115_printed). Exact arithmetic."
  },
  {
   "property": "C116",
   "status": "partial",
   "theorems": [
    "BFL.Props.C116_models",
    "BFL.Props.C116_dead_reckoning",
    "BFL.Props.C116_printed",
    "BFL.Props.C116_drift",
    "BFL.Props.C116_y_bounded_partial"
   ],
   "note": "Completion, and a bounded error in y for every noise (C116_y_bounded_partial, C116_dead_reckoning). False for x: its estimate is dead reckoning with a heading that is not the robot's, so the error outgrows the reported deviation in long runs (C116_drift; after the 100 steps of the program as it is the error without noise is still within one deviation). False for the printed number of steps (C116_printed). Exact arithmetic."
  },
  {
   "property": "C117",
   "status": "partial",
   "theorems": [
    "BFL.Props.C117_asir",
    "BFL.Props.C117_ek",
    "BFL.Props.C117_ek_assertion",
    "BFL.Props.C117_usage",
    "BFL.Props.C117_blind",
    "BFL.Props.C117_same",
    "BFL.Props.C117_grows",
    "BFL.Props.C117_measured_partial",
    "BFL.Props.C117_printed",
    "BFL.Props.C117_nonlinear_kalman",
    "BFL.Props.C117_records",
    "BFL.Props.C117_readings"
   ],
   "note": "Proved for the Kalman filters if the readings are used (C117_measured_partial, C117_nonlinear_kalman, C117_readings). False as shipped: USE_MEASUREMENTS is 0, so the estimates do not depend on the robot or its readings (C117_blind) and the reported variances grow with every step (C117_grows). False for ASIR_filter, which is offered but not recognised (C117_asir), and for EK_particle_filter, which never completes a step (C117_ek). False for the printed number of steps (C117_printed). Exact arithmetic."
  },
  {
   "property": "C118",
   "status": "proved",
   "theorems": [
    "BFL.Props.C118_completes",
    "BFL.Props.C118_no_samples",
    "BFL.Props.C118_compare_completes",
    "BFL.Props.C118_same",
    "BFL.Props.C118_moves",
    "BFL.Props.C118_converges",
    "BFL.Props.C118_compare_converges",
    "BFL.Props.C118_compare_shipped"
   ],
   "note": "Random numbers are independent with the laws the library documents, uniform numbers positive (almost surely true). Exact arithmetic. The printed number of time steps is one too large (in C118_completes, see C117)."
  },
  {
   "property": "C119",
   "status": "proved",
   "theorems": [
    "BFL.Props.C119_at_once",
    "BFL.Props.C119_table",
    "BFL.Props.C119_only",
    "BFL.Props.C119_stationary",
    "BFL.Props.C119_settles",
    "BFL.Props.C119_swings"
   ],
   "note": "Exact arithmetic; convergence for real probabilities."
  },
  {
   "property": "C120",
   "status": "proved",
   "theorems": [
    "BFL.Props.C120_moments",
    "BFL.Props.C120_moments_unsigned",
    "BFL.Props.C120_draws",
    "BFL.Props.C120_draws_ripley",
    "BFL.Props.C120_draw",
    "BFL.Props.C120_reading",
    "BFL.Props.C120_readings",
    "BFL.Props.C120_effective_size",
    "BFL.Props.C120_three",
    "BFL.Props.C120_three_normalised",
    "BFL.Props.C120_resampling_false",
    "BFL.Props.C120_order_bootstrap",
    "BFL.Props.C120_order_particle"
   ],
   "note": "Exact arithmetic. Readings and moves for threshold at most 1 and no periodic resampling within the run; C120_resampling_false shows that the restriction is needed."
  },
  {
   "property": "C121",
   "status": "proved",
   "theorems": [
    "BFL.Props.C121_tables",
    "BFL.Props.C121_tables_forever",
    "BFL.Props.C121_rounding",
    "BFL.Props.C121_accumulates"
   ],
   "note": "Tables: exact arithmetic. Rounding: any rounding of bounded relative error, no overflow or underflow, as in C78; (2n+4)u at most half the tolerance of the code's check of the sum."
  },
  {
   "property": "C122",
   "status": "proved",
   "theorems": [
    "BFL.Props.C122_order",
    "BFL.Props.C122_moves_needed",
    "BFL.Props.C122_readings_needed",
    "BFL.Props.C122_dominance_false"
   ],
   "note": "Exact arithmetic. C122_dominance_false delimits the claim: stochastic dominance of the priors is not enough."
  },
  {
   "property": "C123",
   "status": "proved",
   "theorems": [
    "BFL.Props.C123_lasting",
    "BFL.Props.C123_particleFilter",
    "BFL.Props.C123_stuck",
    "BFL.Props.C123_forgetting_needed"
   ],
   "note": "Exact arithmetic, independent uniform random numbers. The factor f must be less than 1, which is no restriction. Other proposals: without sensor parameters (with them the code leaves out the proposal, C26) and with positive densities."
  },
  {
   "property": "C124",
   "status": "proved",
   "theorems": [
    "BFL.Props.C124_bootstrap",
    "BFL.Props.C124_particleFilter",
    "BFL.Props.C124_static",
    "BFL.Props.C124_moves_needed"
   ],
   "note": "Exact arithmetic, independent uniform random numbers; conditions of C123. The early updates must meet the conditions of C123 too, but need not be the true ones."
  },
  {
   "property": "C125",
   "status": "proved",
   "theorems": [
    "BFL.Props.C125_bootstrap",
    "BFL.Props.C125_particleFilter",
    "BFL.Props.C125_parts",
    "BFL.Props.C125_moves_needed"
   ],
   "note": "Exact arithmetic, independent uniform random numbers; conditions of C123. The factor 1 + d bounds ratios of probabilities, so true moves that the models call impossible are not covered."
  },
  {
   "property": "C126",
   "status": "proved",
   "theorems": [
    "BFL.Props.C126_gain",
    "BFL.Props.C126_outlier",
    "BFL.Props.C126_sharp",
    "BFL.Props.C126_nonlinear"
   ],
   "note": "Exact arithmetic. Linear models, positive definite sensor noise, at least one iteration of the iterated filter; false for nonlinear models (C126_nonlinear), as the property says."
  }
 ]
}
