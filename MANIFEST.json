{
 "claims": [
  {
   "property": "C01",
   "status": "proved",
   "theorems": [
    "Verif.Props.C01_car1_filter_exact"
   ],
   "note": ""
  },
  {
   "property": "C02",
   "status": "proved",
   "theorems": [
    "Verif.Props.C02_car1_predict_exact"
   ],
   "note": ""
  },
  {
   "property": "C03",
   "status": "proved",
   "theorems": [
    "Verif.Props.C03_carma_filter_exact"
   ],
   "note": ""
  },
  {
   "property": "C04",
   "status": "proved",
   "theorems": [
    "Verif.Props.C04_carma_predict_exact"
   ],
   "note": ""
  },
  {
   "property": "C05",
   "status": "proved",
   "theorems": [
    "Verif.Props.C05_car1_logpost"
   ],
   "note": "value on a newly constructed object; independence of history is C15; real arithmetic"
  },
  {
   "property": "C06",
   "status": "proved",
   "theorems": [
    "Verif.Props.C06_carma_logpost"
   ],
   "note": "CARp, CARMA(p,q), ZCARMA; real arithmetic"
  },
  {
   "property": "C07",
   "status": "proved",
   "theorems": [
    "Verif.Props.C07_variance",
    "Verif.Props.C07_variance_filter"
   ],
   "note": ""
  },
  {
   "property": "C08",
   "status": "proved",
   "theorems": [
    "Verif.Props.C08_car1_stdev",
    "Verif.Props.C08_carp_stdev"
   ],
   "note": ""
  },
  {
   "property": "C09",
   "status": "proved",
   "theorems": [
    "Verif.Props.C09_arRoots"
   ],
   "note": ""
  },
  {
   "property": "C10",
   "status": "proved",
   "theorems": [
    "Verif.Props.C10_carmaMA"
   ],
   "note": ""
  },
  {
   "property": "C100",
   "status": "partial",
   "theorems": [
    "Verif.Props.C100_run",
    "Verif.Props.C100_init",
    "Verif.Props.C100_search",
    "Verif.Props.C100_nearest",
    "Verif.Props.C100_throws",
    "Verif.Props.C100_twin",
    "Verif.Props.C100_throws_witness",
    "Verif.Props.C100_cold",
    "Verif.Props.C100_one_walker",
    "Verif.Props.C100_no_walker",
    "Verif.Props.C100_two_times"
   ],
   "note": "the claim about singular proposals is false for the code (C100_throws, C100_twin, C100_throws_witness); everything else in the statement is proved. Proposals of the search and random draws are arbitrary inputs, the search gives up after a bound of the model (timeout), uninitialised elements of value_ are 0"
  },
  {
   "property": "C101",
   "status": "proved",
   "theorems": [
    "Verif.Props.C101_predict_accurate",
    "Verif.Props.C101_forecast_accurate"
   ],
   "note": "as stated, for the sizes stated; that some such condition is needed is C91_witness (errors of 1e-9 of the standard deviation, K about 2^125: NaN). IEEE arithmetic and an accurate exp are hypotheses met by rounding to nearest (C72_nearest, C75_nearest)"
  },
  {
   "property": "C102",
   "status": "proved",
   "theorems": [
    "Verif.Props.C102_pass",
    "Verif.Props.C102_run",
    "Verif.Props.C102_exact"
   ],
   "note": "as stated. What Armadillo computes from vectors and what the generators draw are parameters; IEEE arithmetic, accurate exp and log are hypotheses met by rounding to nearest (C72_nearest, C75_nearest, C93_nearest). C102_pass for all four classes, C102_run for those RunCarmaSampler uses (CARp, CARMA, ZCAR)"
  },
  {
   "property": "C103",
   "status": "proved",
   "theorems": [
    "Verif.Props.C103_new",
    "Verif.Props.C103_predict",
    "Verif.Props.C103_simulate",
    "Verif.Props.C103_filter",
    "Verif.Props.C103_nan",
    "Verif.Props.C103_exact_refines",
    "Verif.Props.C103_exact"
   ],
   "note": "as stated; that an exception of Simulate leaves the object unchanged is read off the model (it throws before the first insertion). Complex operations, matrix products and solve are parameters (CArith), so no accuracy of the rounded values is claimed for CARMA (C101 does that for CAR(1))"
  },
  {
   "property": "C104",
   "status": "proved",
   "theorems": [
    "Verif.Props.C104_tail",
    "Verif.Props.C104_mean",
    "Verif.Props.C104_grab"
   ],
   "note": "as stated; the draws are assumed independent with the laws of Spec/Draws.lean (draws_exist). The constant c is not computed; real arithmetic"
  },
  {
   "property": "C105",
   "status": "proved",
   "theorems": [
    "Verif.Props.C105_shown",
    "Verif.Props.C105_outcome",
    "Verif.Props.C105_set",
    "Verif.Props.C105_data",
    "Verif.Props.C105_car1",
    "Verif.Props.C105_car1_set",
    "Verif.Props.C105_set_time"
   ],
   "note": "as stated; C105_set_time is the statement that SetTime has to be left out. Complex operations, matrix products and solve are parameters (CArith)"
  },
  {
   "property": "C106",
   "status": "proved",
   "theorems": [
    "Verif.Props.C106_nearest",
    "Verif.Props.C106_setup",
    "Verif.Props.C106_car1_filter",
    "Verif.Props.C106_carma_filter",
    "Verif.Props.C106_car1_density",
    "Verif.Props.C106_carma_density"
   ],
   "note": "as stated; zero is unsigned in the model, and that the complex product and scalar product of the library treat both signs alike is a hypothesis (SignFreeC)"
  },
  {
   "property": "C107",
   "status": "proved",
   "theorems": [
    "Verif.Props.C107_car1",
    "Verif.Props.C107_carma"
   ],
   "note": "as stated. The draws of StartingValue enter as the vectors it makes of them. That the scalar products and norm of the library treat both signs alike is a hypothesis (SignFreeM)"
  },
  {
   "property": "C108",
   "status": "proved",
   "theorems": [
    "Verif.Props.C108_init",
    "Verif.Props.C108_order",
    "Verif.Props.C108_unsorted"
   ],
   "note": "as stated; C108_unsorted records that the log-density does depend on the order (the machine version of C19). Assumed of arma::sort_index: it orders finite numbers (SortsFinite)"
  },
  {
   "property": "C109",
   "status": "proved",
   "theorems": [
    "Verif.Props.C109_car1_filter",
    "Verif.Props.C109_carma_filter",
    "Verif.Props.C109_car1_density",
    "Verif.Props.C109_carma_density"
   ],
   "note": "as stated"
  },
  {
   "property": "C11",
   "status": "proved",
   "theorems": [
    "Verif.Props.C11_polycoefs"
   ],
   "note": ""
  },
  {
   "property": "C110",
   "status": "proved",
   "theorems": [
    "Verif.Props.C110_car1",
    "Verif.Props.C110_carma",
    "Verif.Props.C110_car1_drawn",
    "Verif.Props.C110_carma_drawn"
   ],
   "note": "as stated"
  },
  {
   "property": "C12",
   "status": "proved",
   "theorems": [
    "Verif.Props.C12_zcarmaMA",
    "Verif.Props.C12_default_kappa"
   ],
   "note": ""
  },
  {
   "property": "C13",
   "status": "proved",
   "theorems": [
    "Verif.Props.C13_car1_bounds",
    "Verif.Props.C13_carp_bounds",
    "Verif.Props.C13_default_bounds"
   ],
   "note": "exact comparisons of reals; NaN entries of theta are not modelled"
  },
  {
   "property": "C14",
   "status": "proved",
   "theorems": [
    "Verif.Props.C14_unique_roots"
   ],
   "note": ""
  },
  {
   "property": "C15",
   "status": "proved",
   "theorems": [
    "Verif.Props.C15_car1_history",
    "Verif.Props.C15_carp_history"
   ],
   "note": "Histories: evaluations, both Save versions, SetLogDensity, sample recording, StartingValue, SetStartingValue, throwing calls (the filter's parameters, series and results then arbitrary), under any prior configuration."
  },
  {
   "property": "C16",
   "status": "proved",
   "theorems": [
    "Verif.Props.C16_car1_variance_bounds"
   ],
   "note": ""
  },
  {
   "property": "C17",
   "status": "proved",
   "theorems": [
    "Verif.Props.C17_car1_filter",
    "Verif.Props.C17_carma_filter",
    "Verif.Props.C17_car1_predict",
    "Verif.Props.C17_carma_predict"
   ],
   "note": "for the parameter values of C01 and C03: positive driving variance, admissible roots; c non-zero"
  },
  {
   "property": "C18",
   "status": "proved",
   "theorems": [
    "Verif.Props.C18_init"
   ],
   "note": "for every sort_index that returns a sorting permutation, without assuming stability"
  },
  {
   "property": "C19",
   "status": "partial",
   "theorems": [
    "Verif.Props.C19_filter_order_partial",
    "Verif.Props.C19_negation",
    "Verif.Props.C19_unsorted_rejected",
    "Verif.Props.C19_repeated_fault",
    "Verif.Props.C19_mle_scrambled"
   ],
   "note": "The property as stated is false for the code. Proved: the filter object is order independent for different times; LogDensity is -inf for all unsorted data, a bounds fault for repeated times, and pairs values with the wrong times in maximum-likelihood mode; concrete counterexample."
  },
  {
   "property": "C20",
   "status": "partial",
   "theorems": [
    "Verif.Props.C20_zcar_is_carp",
    "Verif.Props.C20_negation"
   ],
   "note": "The property as stated is false for the code: ZCAR evaluates the likelihood with moving-average polynomial 1. Proved for all data and theta, with a concrete counterexample."
  },
  {
   "property": "C21",
   "status": "proved",
   "theorems": [
    "Verif.Props.C21_car1_history",
    "Verif.Props.C21_carma_history"
   ],
   "note": "Histories: Filter, Predict, Simulate calls, returning or ending in a fault; an exception thrown inside Simulate ends the history (it leaves the edited series in the object)."
  },
  {
   "property": "C22",
   "status": "proved",
   "theorems": [
    "Verif.Props.C22_car1_simulate_exact",
    "Verif.Props.C22_carma_simulate_exact"
   ],
   "note": ""
  },
  {
   "property": "C23",
   "status": "proved",
   "theorems": [
    "Verif.Props.C23_balance",
    "Verif.Props.C23_ram_accepts",
    "Verif.Props.C23_ram_symmetric",
    "Verif.Props.C23_metro_accepts",
    "Verif.Props.C23_normal_density",
    "Verif.Props.C23_student_density",
    "Verif.Props.C23_multinormal_density",
    "Verif.Props.C23_lognormal_density"
   ],
   "note": "Balance equation for the densities; the correction returned by each Metropolis-Hastings proposal class is its density ratio. Draw distributions are not modelled (arbitrary streams)."
  },
  {
   "property": "C24",
   "status": "proved",
   "theorems": [
    "Verif.Props.C24_ram_step",
    "Verif.Props.C24_metro_step",
    "Verif.Props.C24_sweeps"
   ],
   "note": ""
  },
  {
   "property": "C25",
   "status": "proved",
   "theorems": [
    "Verif.Props.C25_carma",
    "Verif.Props.C25_car1"
   ],
   "note": ""
  },
  {
   "property": "C26",
   "status": "proved",
   "theorems": [
    "Verif.Props.C26_swap_probability",
    "Verif.Props.C26_reversible",
    "Verif.Props.C26_exchange"
   ],
   "note": ""
  },
  {
   "property": "C27",
   "status": "proved",
   "theorems": [
    "Verif.Props.C27_ram_update",
    "Verif.Props.C27_ram_forever"
   ],
   "note": ""
  },
  {
   "property": "C28",
   "status": "proved",
   "theorems": [
    "Verif.Props.C28_ram_stops",
    "Verif.Props.C28_sweeps",
    "Verif.Props.C28_carma",
    "Verif.Props.C28_car1"
   ],
   "note": ""
  },
  {
   "property": "C29",
   "status": "proved",
   "theorems": [
    "Verif.Props.C29_run"
   ],
   "note": ""
  },
  {
   "property": "C30",
   "status": "proved",
   "theorems": [
    "Verif.Props.C30_carma",
    "Verif.Props.C30_car1"
   ],
   "note": "CARMA kinds: unconditional. CAR(1): dichotomy, because its starting value may lie outside the prior (C32). Bounds and values are in C47."
  },
  {
   "property": "C31",
   "status": "partial",
   "theorems": [
    "Verif.Props.C31_temperatures_partial",
    "Verif.Props.C31_one_walker_temperature",
    "Verif.Props.C31_only_chain_0_recorded"
   ],
   "note": "Proved for two or more walkers. Disproved for one walker: the only chain has temperature 100."
  },
  {
   "property": "C32",
   "status": "proved",
   "theorems": [
    "Verif.Props.C32_start_finite",
    "Verif.Props.C32_setStart",
    "Verif.Props.C32_good_init_taken",
    "Verif.Props.C32_car1_frozen",
    "Verif.Props.C32_car1_stuck_outside"
   ],
   "note": ""
  },
  {
   "property": "C33",
   "status": "proved",
   "theorems": [
    "Verif.Props.C33_carma",
    "Verif.Props.C33_car1"
   ],
   "note": ""
  },
  {
   "property": "C34",
   "status": "partial",
   "theorems": [
    "Verif.Props.C34_draw",
    "Verif.Props.C34_correction_partial",
    "Verif.Props.C34_step_partial",
    "Verif.Props.C34_density",
    "Verif.Props.C34_balance",
    "Verif.Props.C34_small_move_uncorrected",
    "Verif.Props.C34_one_walker_hangs"
   ],
   "note": "Proved for moves of at least 1e-10 in some coordinate. Disproved for smaller moves: both log-densities are then equal and the correction is lost. With one walker the search for a partner does not end."
  },
  {
   "property": "C35",
   "status": "proved",
   "theorems": [
    "Verif.Props.C35_inverts",
    "Verif.Props.C35_distribution",
    "Verif.Props.C35_minus_one"
   ],
   "note": ""
  },
  {
   "property": "C36",
   "status": "proved",
   "theorems": [
    "Verif.Props.C36_log_prior"
   ],
   "note": ""
  },
  {
   "property": "C37",
   "status": "proved",
   "theorems": [
    "Verif.Props.C37_logit"
   ],
   "note": ""
  },
  {
   "property": "C38",
   "status": "proved",
   "theorems": [
    "Verif.Props.C38_validated",
    "Verif.Props.C38_same_file_erased",
    "Verif.Props.C38_first_valid",
    "Verif.Props.C38_word_for_burnin",
    "Verif.Props.C38_word_for_size_hangs"
   ],
   "note": "file system and terminal are parameters; the two *_word_for_* theorems state what happens on input that is not a number"
  },
  {
   "property": "C39",
   "status": "proved",
   "theorems": [
    "Verif.Props.C39_save_recover",
    "Verif.Props.C39_unopenable",
    "Verif.Props.C39_seed_choice"
   ],
   "note": "the generator text form of boost mt19937 is library code: assumed to read back"
  },
  {
   "property": "C40",
   "status": "proved",
   "theorems": [
    "Verif.Props.C40_choose_order",
    "Verif.Props.C40_exceptions",
    "Verif.Props.C40_param_count"
   ],
   "note": "the fits are parameters; C40_param_count: the criterion counts one parameter less than are fitted"
  },
  {
   "property": "C41",
   "status": "partial",
   "theorems": [
    "Verif.Props.C41_search_partial",
    "Verif.Props.C41_negation"
   ],
   "note": "the property is false: qmax is never used"
  },
  {
   "property": "C42",
   "status": "partial",
   "theorems": [
    "Verif.Props.C42_mle_value_partial",
    "Verif.Props.C42_negation",
    "Verif.Props.C42_car1_ignores_flag"
   ],
   "note": "The property as stated is false for the code: the log-prior is always added, and CAR1 ignores the flag. Proved: the bounds play no role for the other classes, and the exact value."
  },
  {
   "property": "C43",
   "status": "proved",
   "theorems": [
    "Verif.Props.C43_ar_coefs",
    "Verif.Props.C43_fourier",
    "Verif.Props.C43_autocovariance",
    "Verif.Props.C43_variance_pair"
   ],
   "note": "power_spectrum, np.poly and np.polyval modelled over the reals"
  },
  {
   "property": "C44",
   "status": "proved",
   "theorems": [
    "Verif.Props.C44_roundtrip",
    "Verif.Props.C44_python",
    "Verif.Props.C44_zero_centroid"
   ],
   "note": "Python agrees only for centroids above 1e-10; C44_zero_centroid shows the difference"
  },
  {
   "property": "C45",
   "status": "partial",
   "theorems": [
    "Verif.Props.C45_few_points",
    "Verif.Props.C45_unsorted_short",
    "Verif.Props.C45_car1_filter_needs_partial",
    "Verif.Props.C45_car1_filter_faults",
    "Verif.Props.C45_carma_filter_needs_partial",
    "Verif.Props.C45_carma_filter_faults",
    "Verif.Props.C45_carma_bad_order",
    "Verif.Props.C45_carma_unset_order",
    "Verif.Props.C45_car1_filter_iff",
    "Verif.Props.C45_carma_filter_iff",
    "Verif.Props.C45_mismatch_unnoticed",
    "Verif.Props.C45_set_time_unnoticed"
   ],
   "note": "Disproved for vectors that are too long, for CAR(1) values one short, and for times replaced through SetTime: these pass unnoticed."
  },
  {
   "property": "C46",
   "status": "proved",
   "theorems": [
    "Verif.Props.C46_carma_run_returns",
    "Verif.Props.C46_car1_run_returns",
    "Verif.Props.C46_car1_run_returns_any_init",
    "Verif.Props.C46_carma_run_any_init",
    "Verif.Props.C46_two_points_never_return",
    "Verif.Props.C46_two_points_hang",
    "Verif.Props.C46_constant_values_fail"
   ],
   "note": ""
  },
  {
   "property": "C47",
   "status": "proved",
   "theorems": [
    "Verif.Props.C47_carma",
    "Verif.Props.C47_car1"
   ],
   "note": ""
  },
  {
   "property": "C48",
   "status": "proved",
   "theorems": [
    "Verif.Props.C48_python_variance",
    "Verif.Props.C48_extra_ignored"
   ],
   "note": ""
  },
  {
   "property": "C49",
   "status": "proved",
   "theorems": [
    "Verif.Props.C49_car1",
    "Verif.Props.C49_car1_unsorted",
    "Verif.Props.C49_carma",
    "Verif.Props.C49_carma1"
   ],
   "note": "times of type double; np.random.normal(m,s) is m + s z"
  },
  {
   "property": "C50",
   "status": "proved",
   "theorems": [
    "Verif.Props.C50_data",
    "Verif.Props.C50_order",
    "Verif.Props.C50_car1_posterior"
   ],
   "note": ""
  },
  {
   "property": "C51",
   "status": "partial",
   "theorems": [
    "Verif.Props.C51_best_partial",
    "Verif.Props.C51_nan_first"
   ],
   "note": "false when the first trial is NaN"
  },
  {
   "property": "C52",
   "status": "proved",
   "theorems": [
    "Verif.Props.C52_start_in_box",
    "Verif.Props.C52_car1_box",
    "Verif.Props.C52_two_points"
   ],
   "note": "three or more observations; C52_two_points shows the empty interval for two"
  },
  {
   "property": "C53",
   "status": "proved",
   "theorems": [
    "Verif.Props.C53_derived"
   ],
   "note": ""
  },
  {
   "property": "C54",
   "status": "proved",
   "theorems": [
    "Verif.Props.C54_psd",
    "Verif.Props.C54_thin",
    "Verif.Props.C54_thin_repeats"
   ],
   "note": "C54_thin_repeats: the check of the number of samples has no effect"
  },
  {
   "property": "C55",
   "status": "partial",
   "theorems": [
    "Verif.Props.C55_carma_predict_partial",
    "Verif.Props.C55_car1_predict_partial",
    "Verif.Props.C55_scale_one",
    "Verif.Props.C55_carma_simulate_partial",
    "Verif.Props.C55_simulate_law_partial",
    "Verif.Props.C55_negation"
   ],
   "note": "the fitted error scale is ignored; holds when it is 1"
  },
  {
   "property": "C56",
   "status": "partial",
   "theorems": [
    "Verif.Props.C56_car1_loglik",
    "Verif.Props.C56_carma_loglik_partial",
    "Verif.Props.C56_negation",
    "Verif.Props.C56_dic"
   ],
   "note": "false for CarmaSample: the log-prior is included"
  },
  {
   "property": "C57",
   "status": "partial",
   "theorems": [
    "Verif.Props.C57_mean_partial",
    "Verif.Props.C57_mean_predict_partial",
    "Verif.Props.C57_negation"
   ],
   "note": "false when samples mix real and complex pairs"
  },
  {
   "property": "C58",
   "status": "proved",
   "theorems": [
    "Verif.Props.C58_carma",
    "Verif.Props.C58_carma_outcome",
    "Verif.Props.C58_loglik_is_logpost",
    "Verif.Props.C58_two_times",
    "Verif.Props.C58_car1",
    "Verif.Props.C58_car1_returns"
   ],
   "note": ""
  },
  {
   "property": "C59",
   "status": "proved",
   "theorems": [
    "Verif.Props.C59_numpy_filter_exact",
    "Verif.Props.C59_numpy_predict_exact",
    "Verif.Props.C59_numpy_simulate_exact",
    "Verif.Props.C59_numpy_agrees_with_compiled",
    "Verif.Props.C59_numpy_backcast_raises",
    "Verif.Props.C59_numpy_one_root_raises",
    "Verif.Props.C59_numpy_repeated_root_raises"
   ],
   "note": ""
  },
  {
   "property": "C60",
   "status": "partial",
   "theorems": [
    "Verif.Props.C60_car1_law",
    "Verif.Props.C60_carma_law",
    "Verif.Props.C60_car1_negation",
    "Verif.Props.C60_carma_negation",
    "Verif.Props.C60_numpy_negation",
    "Verif.Props.C60_car1_simulate_iff",
    "Verif.Props.C60_carma_simulate_iff"
   ],
   "note": "the property is false for the code: prediction at an error-free observation is NaN; the exact conditions under which Simulate returns are proved"
  },
  {
   "property": "C61",
   "status": "partial",
   "theorems": [
    "Verif.Props.C61_carma_residuals_partial",
    "Verif.Props.C61_car1_residuals_partial",
    "Verif.Props.C61_sum_of_squares",
    "Verif.Props.C61_negation"
   ],
   "note": "the property is false for the code when the fitted error scale is not 1; proved for the errors as given"
  },
  {
   "property": "C62",
   "status": "partial",
   "theorems": [
    "Verif.Props.C62_grid",
    "Verif.Props.C62_grid_negation_before",
    "Verif.Props.C62_grid_negation_after",
    "Verif.Props.C62_acorr",
    "Verif.Props.C62_short_raises",
    "Verif.Props.C62_car1_returns_partial",
    "Verif.Props.C62_carma_returns_partial",
    "Verif.Props.C62_car1_errorFree_negation",
    "Verif.Props.C62_carma_errorFree_negation"
   ],
   "note": "the property is false for the code; what is drawn is described exactly for more than fifty observations, bestfit='map'"
  },
  {
   "property": "C63",
   "status": "partial",
   "theorems": [
    "Verif.Props.C63_percentile",
    "Verif.Props.C63_percentile_exact",
    "Verif.Props.C63_percentile_fail",
    "Verif.Props.C63_band",
    "Verif.Props.C63_coverage_negation",
    "Verif.Props.C63_frequencies",
    "Verif.Props.C63_carma",
    "Verif.Props.C63_carma_thinned",
    "Verif.Props.C63_car1"
   ],
   "note": "the property is false for the code for two times, few samples, and CAR(1) with nsamples; what the curves are is proved for all series and samples"
  },
  {
   "property": "C64",
   "status": "proved",
   "theorems": [
    "Verif.Props.C64_summaries",
    "Verif.Props.C64_vector_raises"
   ],
   "note": ""
  },
  {
   "property": "C65",
   "status": "partial",
   "theorems": [
    "Verif.Props.C65_negation",
    "Verif.Props.C65_add_mle_partial",
    "Verif.Props.C65_other_order"
   ],
   "note": "the property is false for the code: under Python 3 add_mle always raises; proved with integer division"
  },
  {
   "property": "C66",
   "status": "partial",
   "theorems": [
    "Verif.Props.C66_median_predict_partial",
    "Verif.Props.C66_medians_exist",
    "Verif.Props.C66_single",
    "Verif.Props.C66_random_predict_partial",
    "Verif.Props.C66_median_negation",
    "Verif.Props.C66_car1_median",
    "Verif.Props.C66_car1_mean",
    "Verif.Props.C66_car1_random_negation"
   ],
   "note": "the property is false for the code: medians of roots need not describe a process, Car1Sample never uses the drawn sample"
  },
  {
   "property": "C67",
   "status": "proved",
   "theorems": [
    "Verif.Props.C67_carma",
    "Verif.Props.C67_car1"
   ],
   "note": ""
  },
  {
   "property": "C68",
   "status": "partial",
   "theorems": [
    "Verif.Props.C68_car1_proper_partial",
    "Verif.Props.C68_car_proper_partial",
    "Verif.Props.C68_carma_negation",
    "Verif.Props.C68_car1_negation",
    "Verif.Props.C68_car_negation"
   ],
   "note": "the property is false for the code: with moving-average parameters (q >= 1; ZCARMA cannot be reached from the run functions) the density has infinite mass at every temperature whatever the errors are; for CAR(1), CARp (p < 2500) and ZCAR the density to the power 1/T is proper if and only if fewer than 2T measurements are without error or two of those without error have different values"
  },
  {
   "property": "C69",
   "status": "proved",
   "theorems": [
    "Verif.Props.C69_car",
    "Verif.Props.C69_car1"
   ],
   "note": "conditional on the state at the end of the burn-in; independence of the later draws is a hypothesis"
  },
  {
   "property": "C70",
   "status": "proved",
   "theorems": [
    "Verif.Props.C70_carma",
    "Verif.Props.C70_car1",
    "Verif.Props.C70_carma_overflow",
    "Verif.Props.C70_car1_overflow",
    "Verif.Props.C70_carma_negative",
    "Verif.Props.C70_car1_negative",
    "Verif.Props.C70_carma_domain",
    "Verif.Props.C70_car1_domain",
    "Verif.Props.C70_carma_thin",
    "Verif.Props.C70_car1_thin"
   ],
   "note": "Overflow of report_iter for large arguments is a defect of the code, stated as it is."
  },
  {
   "property": "C71",
   "status": "proved",
   "theorems": [
    "Verif.Props.C71_carma",
    "Verif.Props.C71_car1",
    "Verif.Props.C71_carma_rates",
    "Verif.Props.C71_car1_rates",
    "Verif.Props.C71_fractions"
   ],
   "note": "The text of the lines and the rounding of the printed numbers are not modelled."
  },
  {
   "property": "C72",
   "status": "proved",
   "theorems": [
    "Verif.Props.C72_car1_finite",
    "Verif.Props.C72_nearest"
   ],
   "note": "each operation rounded by itself (no fused multiply-add, no extended precision); zero unsigned"
  },
  {
   "property": "C73",
   "status": "proved",
   "theorems": [
    "Verif.Props.C73_error_free_nan",
    "Verif.Props.C73_witness"
   ],
   "note": "a defect of the code, stated as it is; zero is unsigned in the model (matters in the mode that rounds downwards)"
  },
  {
   "property": "C74",
   "status": "proved",
   "theorems": [
    "Verif.Props.C74_exact_refines",
    "Verif.Props.C74_construct",
    "Verif.Props.C74_any_order"
   ],
   "note": ""
  },
  {
   "property": "C75",
   "status": "proved",
   "theorems": [
    "Verif.Props.C75_car1_accurate",
    "Verif.Props.C75_nearest"
   ],
   "note": "exp and log of the C library are assumed to have an error of at most one unit in the last place (C75_nearest shows a correctly rounded library has)"
  },
  {
   "property": "C76",
   "status": "proved",
   "theorems": [
    "Verif.Props.C76_exp",
    "Verif.Props.C76_normal",
    "Verif.Props.C76_lognormal",
    "Verif.Props.C76_uniform",
    "Verif.Props.C76_powerlaw",
    "Verif.Props.C76_tdist",
    "Verif.Props.C76_chisqr",
    "Verif.Props.C76_scaled_inverse_chisqr",
    "Verif.Props.C76_comment",
    "Verif.Props.C76_gamma",
    "Verif.Props.C76_invgamma",
    "Verif.Props.C76_prior",
    "Verif.Props.C76_standard_normal",
    "Verif.Props.C76_standard_lognormal",
    "Verif.Props.C76_standard_uniform",
    "Verif.Props.C76_multinormal"
   ],
   "note": "the laws of the Boost distribution objects are stated in Spec/Laws.lean and trusted; the comment on scaled_inverse_chisqr gives another density, which C76_comment disproves unless dof = 2"
  },
  {
   "property": "C77",
   "status": "proved",
   "theorems": [
    "Verif.Props.C77_run_returns",
    "Verif.Props.C77_grab",
    "Verif.Props.C77_grab_alone"
   ],
   "note": "the draws are assumed independent with the laws of Spec/Draws.lean; draws_exist shows that such draws exist"
  },
  {
   "property": "C78",
   "status": "partial",
   "theorems": [
    "Verif.Props.C78_car1_units",
    "Verif.Props.C78_carma_origin",
    "Verif.Props.C78_carma_units_partial",
    "Verif.Props.C78_unit_dependence"
   ],
   "note": "proved for CAR(1) and, in every class, for origin and direction of time and for unit, sign and origin of the values. For the unit of time in the other classes it holds where the ordering test gives the same answer in both units; without this it is false for the code (C78_unit_dependence)"
  },
  {
   "property": "C79",
   "status": "partial",
   "theorems": [
    "Verif.Props.C79_same_model",
    "Verif.Props.C79_represented",
    "Verif.Props.C79_identified_partial",
    "Verif.Props.C79_real_copies",
    "Verif.Props.C79_ma_copies",
    "Verif.Props.C79_copies"
   ],
   "note": "that one vector remains is proved for separate centroids and false for the code otherwise: C79_real_copies, C79_ma_copies and the witness C79_copies"
  },
  {
   "property": "C80",
   "status": "proved",
   "theorems": [
    "Verif.Props.C80_car1_predict",
    "Verif.Props.C80_carma_predict",
    "Verif.Props.C80_car1_coherent",
    "Verif.Props.C80_carma_coherent"
   ],
   "note": ""
  },
  {
   "property": "C81",
   "status": "proved",
   "theorems": [
    "Verif.Props.C81_car1_simulate",
    "Verif.Props.C81_carma_simulate",
    "Verif.Props.C81_numpy_simulate"
   ],
   "note": ""
  },
  {
   "property": "C82",
   "status": "proved",
   "theorems": [
    "Verif.Props.C82_car1_likelihood",
    "Verif.Props.C82_carma_likelihood",
    "Verif.Props.C82_logit"
   ],
   "note": ""
  },
  {
   "property": "C83",
   "status": "proved",
   "theorems": [
    "Verif.Props.C83_car_run",
    "Verif.Props.C83_car1_run",
    "Verif.Props.C83_car1_stuck"
   ],
   "note": "the draws are assumed independent with the laws of Spec/Draws.lean; draws_exist shows that such draws exist. For CAR(1) the alternative of a run that never moves is part of the statement, and C83_car1_stuck shows that it has positive probability"
  },
  {
   "property": "C84",
   "status": "proved",
   "theorems": [
    "Verif.Props.C84_carma_escapes",
    "Verif.Props.C84_carma_no_limit",
    "Verif.Props.C84_carma_no_law",
    "Verif.Props.C84_carma_one_walker",
    "Verif.Props.C84_carma_vanishes",
    "Verif.Props.C84_car1"
   ],
   "note": "from any state of a run after the burn-in; the draws to come are assumed independent as in C69. The statements are about all chains jointly; for two or more walkers nothing is claimed about the shares of the cold chain alone"
  },
  {
   "property": "C85",
   "status": "proved",
   "theorems": [
    "Verif.Props.C85_car",
    "Verif.Props.C85_car_cold",
    "Verif.Props.C85_car_unique",
    "Verif.Props.C85_car1"
   ],
   "note": "from any state of a run after the burn-in; the draws to come are assumed independent as in C69. No rate of convergence is claimed"
  },
  {
   "property": "C86",
   "status": "partial",
   "theorems": [
    "Verif.Props.C86_car1_identified_partial",
    "Verif.Props.C86_car1_conditions",
    "Verif.Props.C86_carma_identified_partial",
    "Verif.Props.C86_carma_alias_negation",
    "Verif.Props.C86_carma_cancel_negation"
   ],
   "note": "proved for CAR(1), with the two conditions it needs. For CARp, ZCAR and CARMA proved up to SameModel (the copies are the subject of C79) when the time differences contain 2p multiples of a spacing, the autoregressive roots are below its Nyquist frequency and no moving-average root cancels an autoregressive one; false at evenly spaced times without the Nyquist condition and, at all times, with cancelling roots, both of which the prior allows. Not decided for ZCARMA and for times without such differences"
  },
  {
   "property": "C87",
   "status": "partial",
   "theorems": [
    "Verif.Props.C87_from_files_partial",
    "Verif.Props.C87_name_negation",
    "Verif.Props.C87_copies_safe",
    "Verif.Props.C87_filename_ignored",
    "Verif.Props.C87_reload_partial",
    "Verif.Props.C87_reload_negation",
    "Verif.Props.C87_base_arguments"
   ],
   "note": "what is stored under which key, and that copies are safe, is proved; the documented behaviour (asking by parameter name, the argument filename, columns derived from a file) is false for the code. genfromtxt is a parameter"
  },
  {
   "property": "C88",
   "status": "proved",
   "theorems": [
    "Verif.Props.C88_car_law",
    "Verif.Props.C88_car1_law"
   ],
   "note": "the whole call: random starting values, burn-in with adaptation, thinning. CAR(1) does not check its starting value; the probability of the event that it has density 0 appears in the limit. No rate is claimed"
  },
  {
   "property": "C89",
   "status": "partial",
   "theorems": [
    "Verif.Props.C89_variance",
    "Verif.Props.C89_setup_partial",
    "Verif.Props.C89_fails",
    "Verif.Props.C89_exact",
    "Verif.Props.C89_negation"
   ],
   "note": "the property is false for the code: for values far from 0 compared with their spread the computed variance can be zero or negative (witness 300000002, 300000004 in the default rounding mode) and the run ends with an exception; proved with the error bound where the variance is at least 8 (n + 2) 2^-52 times the mean square"
  },
  {
   "property": "C90",
   "status": "partial",
   "theorems": [
    "Verif.Props.C90_car1_run",
    "Verif.Props.C90_nearest",
    "Verif.Props.C90_car1_accurate",
    "Verif.Props.C90_ensemble",
    "Verif.Props.C90_nan_stuck",
    "Verif.Props.C90_zero_draw",
    "Verif.Props.C90_exact_sampler",
    "Verif.Props.C90_exact_run"
   ],
   "note": "proved: runs return, every record carries the log-density of its sample, finiteness and prior bounds are kept, and the accuracy of C75 holds for every record. The part of the property that a chain whose adaptation is on can always move again is false: a zero vector of Student t variates puts a NaN into the proposal factor for good (C90_zero_draw). With exact arithmetic the machine sampler is the sampler over the reals (C90_exact_sampler, C90_exact_run). What StartingValue draws is arbitrary here and computed in C93"
  },
  {
   "property": "C91",
   "status": "partial",
   "theorems": [
    "Verif.Props.C91_predict_finite_partial",
    "Verif.Props.C91_predict_nan",
    "Verif.Props.C91_witness",
    "Verif.Props.C91_predict_repeatable",
    "Verif.Props.C91_exact_refines"
   ],
   "note": "false for the code next to a precisely measured observation: C91_predict_nan gives the condition and C91_witness a concrete case in the default rounding mode (NaN and variance 0 where the exact answer is finite and positive). Proved for every other request; nothing is claimed about the size of the rounding errors"
  },
  {
   "property": "C92",
   "status": "partial",
   "theorems": [
    "Verif.Props.C92_order_lost",
    "Verif.Props.C92_car1_aligned_iff",
    "Verif.Props.C92_carma_sorted_partial",
    "Verif.Props.C92_witness"
   ],
   "note": "false for the code: Simulate sorts its copy of the times and returns the values in sorted order. For CAR(1) it is decided exactly for which requests the values are aligned; for CARMA proved for increasing times"
  },
  {
   "property": "C93",
   "status": "partial",
   "theorems": [
    "Verif.Props.C93_values",
    "Verif.Props.C93_decides",
    "Verif.Props.C93_nearest",
    "Verif.Props.C93_run_inside_partial",
    "Verif.Props.C93_run_outside_negation",
    "Verif.Props.C93_exact"
   ],
   "note": "false for the code: StartingValue does not look at the lower frequency bound, and a run that starts below it records its start with log-density -inf throughout (C93_run_outside_negation). Proved for draws inside the bounds by a relative margin of 2^-40; C93_decides says for all draws what decides. What arma::var, mean and median and the Boost distributions return are parameters"
  },
  {
   "property": "C94",
   "status": "partial",
   "theorems": [
    "Verif.Props.C94_returns",
    "Verif.Props.C94_new_whole",
    "Verif.Props.C94_rejects",
    "Verif.Props.C94_repeatable",
    "Verif.Props.C94_exact_refines",
    "Verif.Props.C94_spread",
    "Verif.Props.C94_nan_data",
    "Verif.Props.C94_twice_nan",
    "Verif.Props.C94_close_nan",
    "Verif.Props.C94_observed_nan",
    "Verif.Props.C94_witness",
    "Verif.Props.C94_all_finite",
    "Verif.Props.C94_first_partial"
   ],
   "note": "false for the code: a time requested twice, requested times too close together, and times of error-free observations give NaN for the rest of the series (C94_twice_nan, C94_close_nan, C94_observed_nan; C94_witness in the default rounding mode). Return, restoration, independence of earlier calls and the exact case are proved without conditions on the numbers; that all values are finite for data, errors, parameters and draws of moderate size when no two requested times coincide and no computed decay factor since the preceding point is 1 (C94_all_finite); in wider ranges and for draws of any size only that the first value is not NaN (C94_first_partial)"
  },
  {
   "property": "C95",
   "status": "partial",
   "theorems": [
    "Verif.Props.C95_sequential",
    "Verif.Props.C95_pool_returns",
    "Verif.Props.C95_parallel_trials",
    "Verif.Props.C95_parallel_value",
    "Verif.Props.C95_parallel_again",
    "Verif.Props.C95_parallel_few",
    "Verif.Props.C95_parallel_same",
    "Verif.Props.C95_python3",
    "Verif.Props.C95_witness"
   ],
   "note": "false for the code with two or more processes: forked workers share the state of the generators, so the trials repeat each other, and repeated calls repeat the trials (C95_parallel_*). Proved for one process under Python 2 (C95_sequential); under Python 3 one process raises (C95_python3). The fork start method is assumed; trials that raise and workers that die are left out"
  },
  {
   "property": "C96",
   "status": "partial",
   "theorems": [
    "Verif.Props.C96_density",
    "Verif.Props.C96_run_never",
    "Verif.Props.C96_run_throws",
    "Verif.Props.C96_fit",
    "Verif.Props.C96_one_ignores_q",
    "Verif.Props.C96_zcar_ignores_q",
    "Verif.Props.C96_trial",
    "Verif.Props.C96_choose_order",
    "Verif.Props.C96_witness"
   ],
   "note": "proved for p >= 2, though not by the checks written for it; false for p = 1, where any q is accepted and ignored (C96_one_ignores_q, C96_witness). Assertions are off, as in the build"
  },
  {
   "property": "C97",
   "status": "partial",
   "theorems": [
    "Verif.Props.C97_car1",
    "Verif.Props.C97_carma",
    "Verif.Props.C97_carma_returns",
    "Verif.Props.C97_car1_best",
    "Verif.Props.C97_not_loglik"
   ],
   "note": "proved with minus the log-likelihood minus the log-prior of the error scale in place of minus the log-likelihood, which is false for the code (C97_not_loglik). The optimiser is a parameter with a contract (Spec/PyTrial.lean); the convergence of L-BFGS-B is not claimed"
  },
  {
   "property": "C98",
   "status": "partial",
   "theorems": [
    "Verif.Props.C98_doubles",
    "Verif.Props.C98_values",
    "Verif.Props.C98_integers",
    "Verif.Props.C98_zeros",
    "Verif.Props.C98_integer_negation",
    "Verif.Props.C98_repeated"
   ],
   "note": "false for the code with integer arrays of times (C98_integers, C98_zeros, C98_integer_negation) and with repeated times (C98_repeated says exactly which). Proved for arrays of doubles and distinct times (C98_values with C98_doubles, C49)"
  },
  {
   "property": "C99",
   "status": "partial",
   "theorems": [
    "Verif.Props.C99_never_pinf",
    "Verif.Props.C99_same",
    "Verif.Props.C99_exact",
    "Verif.Props.C99_exact_likelihood",
    "Verif.Props.C99_zcarma_edge",
    "Verif.Props.C99_zcarma_witness"
   ],
   "note": "false for ZCARMA far from zero (C99_zcarma_edge, C99_zcarma_witness: inv_logit is inf/inf, LogPrior overflows). Everything else in the statement is proved; complex operations and linear algebra are parameters, so no accuracy of the value is claimed (C90 does that for CAR(1)). Zero is unsigned"
  }
 ]
}