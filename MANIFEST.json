{
 "claims": [
  {
   "property": "C01",
   "status": "proved",
   "theorems": [
    "Sdepy.C01_outputs_at_requested_times"
   ],
   "note": ""
  },
  {
   "property": "C02",
   "status": "proved",
   "theorems": [
    "Sdepy.C02_euler",
    "Sdepy.C02_no_empty_slot",
    "Sdepy.C02_rounded",
    "Sdepy.C02_floats"
   ],
   "note": "C02_rounded assumes no laws of arithmetic; C02_floats is its instance for floating point numbers with rounding to nearest (no overflow)."
  },
  {
   "property": "C03",
   "status": "proved",
   "theorems": [
    "Sdepy.C03_points_touched",
    "Sdepy.C03_grid_unique",
    "Sdepy.C03_linspace",
    "Sdepy.C03_floats"
   ],
   "note": "C01 and C03 to C08 hold for floating point times: see Spec.SignOk and Verif/Props/Rounding.lean."
  },
  {
   "property": "C04",
   "status": "proved",
   "theorems": [
    "Sdepy.C04_rejected",
    "Sdepy.C04_accepted",
    "Sdepy.C04_few_points",
    "Sdepy.C04_short_side",
    "Sdepy.C04_deep_leaks_stopIteration"
   ],
   "note": "C04_short_side: with depth > 2 and too few points on one side, StopIteration leaks (C04_deep_leaks_stopIteration is an instance). enoughPoints_two: depth 2 always has enough points."
  },
  {
   "property": "C05",
   "status": "proved",
   "theorems": [
    "Sdepy.C05_two_way",
    "Sdepy.C05_initial_condition"
   ],
   "note": ""
  },
  {
   "property": "C06",
   "status": "proved",
   "theorems": [
    "Sdepy.C06_counters",
    "Sdepy.C06_counters_cumulate_both_directions"
   ],
   "note": "the statement that counters cover the forward part only (documentation) is disproved by C06_counters_cumulate_both_directions"
  },
  {
   "property": "C07",
   "status": "proved",
   "theorems": [
    "Sdepy.C07_step_control",
    "Sdepy.C07_exact"
   ],
   "note": "C07_exact compares with a subclass that checks its own moves."
  },
  {
   "property": "C08",
   "status": "proved",
   "theorems": [
    "Sdepy.C08_output_timeline_irrelevant"
   ],
   "note": ""
  },
  {
   "property": "C09",
   "status": "partial",
   "theorems": [
    "Sdepy.C09_log",
    "Sdepy.C09_systems_partial",
    "Sdepy.C09_systems_false"
   ],
   "note": "single equations: proved; systems of equations exponentiate twice, so the property is false for them (C09_systems_false), C09_systems_partial states what they return instead"
  },
  {
   "property": "C10",
   "status": "proved",
   "theorems": [
    "Sdepy.C10_args",
    "Sdepy.C10_served"
   ],
   "note": ""
  },
  {
   "property": "C11",
   "status": "proved",
   "theorems": [
    "Sdepy.C11_bad_sde_values",
    "Sdepy.C11_all_sources_realised",
    "Sdepy.C11_only_entries_matter"
   ],
   "note": ""
  },
  {
   "property": "C12",
   "status": "proved",
   "theorems": [
    "Sdepy.C12_pack",
    "Sdepy.C12_pack_rejects",
    "Sdepy.C12_unpack",
    "Sdepy.C12_unpack_pack",
    "Sdepy.C12_pack_unpack"
   ],
   "note": ""
  },
  {
   "property": "C13",
   "status": "proved",
   "theorems": [
    "Sdepy.C13_system",
    "Sdepy.C13_step",
    "Sdepy.C13_initial_condition",
    "Sdepy.C13_bad_sde_values"
   ],
   "note": ""
  },
  {
   "property": "C14",
   "status": "proved",
   "theorems": [
    "Sdepy.C14_wiener",
    "Sdepy.C14_wiener_memory",
    "Sdepy.C14_lognorm",
    "Sdepy.C14_lognorm_memory",
    "Sdepy.C14_jumpdiff"
   ],
   "note": ""
  },
  {
   "property": "C15",
   "status": "proved",
   "theorems": [
    "Sdepy.C15_lognorm_positive",
    "Sdepy.C15_jumpdiff_positive",
    "Sdepy.C15_heston_positive"
   ],
   "note": "Over the reals, for every timeline, source and parameter, every value delivered by lognorm_process, jumpdiff_process and heston/full_heston (x component) is strictly positive when x0 is."
  },
  {
   "property": "C16",
   "status": "proved",
   "theorems": [
    "Sdepy.C16_hull_white",
    "Sdepy.C16_hull_white_error",
    "Sdepy.C16_one_factor",
    "Sdepy.C16_ou_step"
   ],
   "note": ""
  },
  {
   "property": "C17",
   "status": "proved",
   "theorems": [
    "Sdepy.C17_full_heston",
    "Sdepy.C17_heston_component"
   ],
   "note": "Full Heston is the packed two-equation system, and heston_process delivers the first component of it with the same draws."
  },
  {
   "property": "C18",
   "status": "proved",
   "theorems": [
    "Sdepy.C18_cir_step",
    "Sdepy.C18_cir_never_nan",
    "Sdepy.C18_heston_step"
   ],
   "note": "Step formula with the truncated square root; exact real arithmetic with npSqrt failing on negative input."
  },
  {
   "property": "C19",
   "status": "proved",
   "theorems": [
    "Sdepy.C19_info_harmless",
    "Sdepy.C19_negative_y_count",
    "Sdepy.C19_jumps"
   ],
   "note": "getinfo never changes values, draws or exceptions; the counts refer to the last pass (forward if there is one)"
  },
  {
   "property": "C20",
   "status": "proved",
   "theorems": [
    "Sdepy.C20_integrate"
   ],
   "note": ""
  },
  {
   "property": "C21",
   "status": "proved",
   "theorems": [
    "Sdepy.C21_new",
    "Sdepy.C21_shape",
    "Sdepy.C21_covariance",
    "Sdepy.C21_uncorrelated"
   ],
   "note": "Means, variances and covariances of all increments of one or more calls, given normal variates (exists_rng shows that the hypotheses can be met); Gaussian marginal laws if variates are Gaussian. Independence is modelled as lack of correlation."
  },
  {
   "property": "C22",
   "status": "proved",
   "theorems": [
    "Sdepy.C22_antithetics",
    "Sdepy.C22_odd_wiener",
    "Sdepy.C22_even_poisson",
    "Sdepy.C22_even_cpoisson"
   ],
   "note": ""
  },
  {
   "property": "C23",
   "status": "proved",
   "theorems": [
    "Sdepy.C23_draws",
    "Sdepy.C23_sign",
    "Sdepy.C23_ok",
    "Sdepy.C23_law"
   ],
   "note": "The model of variates is an arbitrary generator; C23_law adds the law and mean of increments, given Poisson variates."
  },
  {
   "property": "C24",
   "status": "partial",
   "theorems": [
    "Sdepy.C24_jumps_partial",
    "Sdepy.C24_default",
    "Sdepy.C24_ok",
    "Sdepy.C24_false",
    "Sdepy.C24_false_error"
   ],
   "note": "Proved whatever the variates for the default poisson_source (C24_default), and for any underlying source returning increments of full shape and right sign (C24_jumps_partial). It fails for an underlying source of a shape to be broadcast, although accepted by the constructor (C24_false, C24_false_error)."
  },
  {
   "property": "C25",
   "status": "partial",
   "theorems": [
    "Sdepy.C25_one_path_partial",
    "Sdepy.C25_one_path_t0_zero",
    "Sdepy.C25_one_path_rtol_zero",
    "Sdepy.C25_repeat_partial",
    "Sdepy.C25_false"
   ],
   "note": "Proved for every history of any source with memory; times below t0 but within the tolerance of it are excluded, as for them the property fails (C25_false): bisect gives position 0, and t[-1] is compared. None are excluded if t0 = 0 or rtol = 0. Wiener and Poisson sources satisfy the hypotheses (lawful_wiener, lawful_poisson, lawful_cpoisson)."
  },
  {
   "property": "C26",
   "status": "partial",
   "theorems": [
    "Sdepy.C25_one_path_partial",
    "Sdepy.C25_one_path_t0_zero",
    "Sdepy.C25_one_path_rtol_zero",
    "Sdepy.C26_increments_add",
    "Sdepy.C25_false"
   ],
   "note": "Same exception as C25."
  },
  {
   "property": "C27",
   "status": "proved",
   "theorems": [
    "Sdepy.C27_call",
    "Sdepy.C27_bookkeeping",
    "Sdepy.C27_wiener_no_assertion",
    "Sdepy.C28_poisson_no_error",
    "Sdepy.C29_no_assertion"
   ],
   "note": "Whatever the tolerance."
  },
  {
   "property": "C28",
   "status": "partial",
   "theorems": [
    "Sdepy.C28_poisson_monotone_partial",
    "Sdepy.C28_poisson_monotone_t0_zero",
    "Sdepy.C28_poisson_no_error",
    "Sdepy.C28_underlying_source"
   ],
   "note": "Same exception as C25, for the monotonicity part."
  },
  {
   "property": "C29",
   "status": "proved",
   "theorems": [
    "Sdepy.C29_jumps_conserved",
    "Sdepy.C29_split",
    "Sdepy.C29_no_assertion",
    "Sdepy.C29_jumps_conserved_partial",
    "Sdepy.C29_split_partial",
    "Sdepy.C29_no_assertion_partial",
    "Sdepy.C29_false"
   ],
   "note": "For sources that make their own Poisson source, which starts at time 0 (unconditional), and (_partial) for a Poisson source given by the user with any starting time, excluding the times just below it (see C25). Variates are taken to be non zero, as the property says; C29_false shows that a zero variate makes the source raise AssertionError. When all values agree at both ends the source interpolates them as constant, as documented in the code."
  },
  {
   "property": "C30",
   "status": "proved",
   "theorems": [
    "Sdepy.C30_covariance",
    "Sdepy.C30_increments",
    "Sdepy.C30_bridge",
    "Sdepy.C30_underlying_source",
    "Sdepy.C30_law"
   ],
   "note": "Covariance of all values ever returned, for constant correlations and those linear in time, whatever the order of evaluation (C30_covariance, C30_increments); one step of the bridge for any time dependence (C30_bridge). Given jointly normal variates, the values returned have jointly the law of a Wiener process (C30_law). exists_normals and draws_of_normals show that the hypotheses on random variates can be met."
  },
  {
   "property": "C31",
   "status": "partial",
   "theorems": [
    "Sdepy.C31_one_path_partial",
    "Sdepy.C31_new",
    "Sdepy.C31_false"
   ],
   "note": "Proved at single times, for integers, slices and tuples of them, in any history that mixes the source and indexed sources. At arrays of times the property is false: the index applies to the axes of time (C31_false)."
  },
  {
   "property": "C32",
   "status": "proved",
   "theorems": [
    "Sdepy.C32_rho_matrix",
    "Sdepy.C32_rho_rejected",
    "Sdepy.C32_corr_overrides",
    "Sdepy.C32_rho",
    "Sdepy.C32_psd",
    "Sdepy.C32_callable",
    "Sdepy.C32_rho_process",
    "Sdepy.C32_corr_process"
   ],
   "note": ""
  },
  {
   "property": "C33",
   "status": "partial",
   "theorems": [
    "Sdepy.C33_norm_rv",
    "Sdepy.C33_uniform_rv",
    "Sdepy.C33_exp_rv",
    "Sdepy.C33_double_exp_rv_partial",
    "Sdepy.C33_norm",
    "Sdepy.C33_uniform",
    "Sdepy.C33_exp",
    "Sdepy.C33_double_exp_partial",
    "Sdepy.C33_rejected",
    "Sdepy.C33_variable",
    "Sdepy.C33_double_exp_variable",
    "Sdepy.C33_double_exp_false",
    "Sdepy.C33_uniform_false",
    "Sdepy.C33_exp_docstring_false"
   ],
   "note": "Moments are those of the law of the variates, as integrals on the real line, for scalar parameters (arrays: C71). Excluded: double_exp_rv with pa=0 and a>=1, where exp_mean is nan or inf (C33_double_exp_false); uniform_rv with a=b gives nan (C33_uniform_false)."
  },
  {
   "property": "C34",
   "status": "proved",
   "theorems": [
    "Sdepy.C34_rvmap",
    "Sdepy.C34_no_params",
    "Sdepy.C34_compose"
   ],
   "note": "Functions are known by their parameter names and by the result of calls with or without a time."
  },
  {
   "property": "C35",
   "status": "proved",
   "theorems": [
    "Sdepy.C35_mean",
    "Sdepy.C35_var",
    "Sdepy.C35_std_stderr",
    "Sdepy.C35_skew",
    "Sdepy.C35_kurtosis",
    "Sdepy.C35_nan",
    "Sdepy.C35_kurtosis_false",
    "Sdepy.C35_empty_false"
   ],
   "note": "For any sequence of updates with non empty samples. Kurtosis is the ratio of moments with two or more data, but the excess of kurtosis (-3) with one (C35_kurtosis_false). C35_nan says when empty samples make statistics not-a-number (C35_empty_false is an instance)."
  },
  {
   "property": "C36",
   "status": "proved",
   "theorems": [
    "Sdepy.C36_histogram",
    "Sdepy.C36_single",
    "Sdepy.C36_outpaths",
    "Sdepy.C36_bins",
    "Sdepy.C36_accepts",
    "Sdepy.C36_accepts_first",
    "Sdepy.C36_accepts_edges",
    "Sdepy.C36_empty_first",
    "Sdepy.C36_outerr"
   ],
   "note": "For data points of the same shape (see C58), empty samples included; the rules by which numpy chooses the bins given a string are arbitrary."
  },
  {
   "property": "C37",
   "status": "proved",
   "theorems": [
    "Sdepy.C37_statistics",
    "Sdepy.C37_statistics_real",
    "Sdepy.C37_histogram"
   ],
   "note": "Non empty samples, for statistics."
  },
  {
   "property": "C38",
   "status": "proved",
   "theorems": [
    "Sdepy.C38_values",
    "Sdepy.C38_even_mean",
    "Sdepy.C38_rejected",
    "Sdepy.C35_mean",
    "Sdepy.C36_histogram"
   ],
   "note": "The statistics and histograms of C35, C36 are those of the values described by C38_values."
  },
  {
   "property": "C39",
   "status": "proved",
   "theorems": [
    "Sdepy.C39_density",
    "Sdepy.C39_interp_cdf",
    "Sdepy.C39_gaussian_kde",
    "Sdepy.C39_default",
    "Sdepy.C39_errors"
   ],
   "note": "For histograms with strictly increasing edges and at least one value inside, which holds for any single valued instance with a given number of bins (C39_default); linear interpolation; positive bandwidth."
  },
  {
   "property": "C40",
   "status": "partial",
   "theorems": [
    "Sdepy.C40_index",
    "Sdepy.C40_values",
    "Sdepy.C40_values_real",
    "Sdepy.C40_histogram",
    "Sdepy.C40_follows_partial",
    "Sdepy.C40_follows_real_partial",
    "Sdepy.C40_stale",
    "Sdepy.C40_false",
    "Sdepy.C40_no_bins_false",
    "Sdepy.C40_empty_false"
   ],
   "note": "Indexing by a tuple of integers. Values at the time of indexing are proved; later updates are followed by paths and histograms, and by statistics only if more than one component is selected. For a single component, mean, moments and outpaths are copies (C40_false); without bins, or for an empty instance, indexing is not usable (C40_no_bins_false, C40_empty_false)."
  },
  {
   "property": "C41",
   "status": "partial",
   "theorems": [
    "Sdepy.C41_unchanged_partial",
    "Sdepy.C41_first_partial",
    "Sdepy.C41_false",
    "Sdepy.C41_missing_false",
    "Sdepy.C41_first_false"
   ],
   "note": "Proved unless data points differ from those cumulated just for leading axes of size one, and for the first sample if bins are not given as an array or a string. False otherwise: dimensions in excess change statistics and part of the histograms before IndexError is raised (C41_false); if dimensions are missing the sample is accepted, but the histograms are wrong (C41_missing_false); bins of wrong shape are lost (C41_first_false)."
  },
  {
   "property": "C42",
   "status": "partial",
   "theorems": [
    "Sdepy.C42_accept",
    "Sdepy.C42_x",
    "Sdepy.C42_v",
    "Sdepy.C42_c_partial",
    "Sdepy.C42_shape_partial",
    "Sdepy.C42_false",
    "Sdepy.C42_complex_false"
   ],
   "note": "Excluded, as the property fails for them: x of one dimension, accepted although values have no paths axis (C42_false); complex constants with more than one time, whose imaginary part is lost (C42_complex_false). Scalars and floats are the values of the given type."
  },
  {
   "property": "C43",
   "status": "partial",
   "theorems": [
    "Sdepy.C43_ufunc_partial",
    "Sdepy.C43_array_partial",
    "Sdepy.C43_false",
    "Sdepy.C43_array_false"
   ],
   "note": "One and two arguments: proved for processes, and for arrays with no more dimensions than the process. With three operands, or arrays with more axes, timelines or axes are mixed (C43_false, C43_array_false)."
  },
  {
   "property": "C44",
   "status": "partial",
   "theorems": [
    "Sdepy.C44_values_partial",
    "Sdepy.C44_constant",
    "Sdepy.C44_call",
    "Sdepy.C44_increment",
    "Sdepy.C44_rebase",
    "Sdepy.C44_rebase_self",
    "Sdepy.C44_int_false"
   ],
   "note": "Linear interpolation, strictly increasing timelines, floating point values; the values of processes of integers are truncated (C44_int_false)."
  },
  {
   "property": "C45",
   "status": "partial",
   "theorems": [
    "Sdepy.C45_time",
    "Sdepy.C45_paths_partial",
    "Sdepy.C45_values_partial",
    "Sdepy.C45_false",
    "Sdepy.C45_lists_false"
   ],
   "note": "Integers, slices and lists of integers. Excluded, as the property fails for them: an integer out of range as index of paths (C45_false); lists of integers separated by slices, for values (C45_lists_false)."
  },
  {
   "property": "C46",
   "status": "proved",
   "theorems": [
    "Sdepy.C46_add",
    "Sdepy.C46_remove"
   ],
   "note": "For processes with at least two axes (time and paths)."
  },
  {
   "property": "C47",
   "status": "partial",
   "theorems": [
    "Sdepy.C47_paths_partial",
    "Sdepy.C47_values",
    "Sdepy.C47_time_partial",
    "Sdepy.C47_cumsum",
    "Sdepy.C47_std_partial",
    "Sdepy.C47_int",
    "Sdepy.C47_int_false",
    "Sdepy.C47_int_var",
    "Sdepy.C47_int_var_false",
    "Sdepy.C47_int_std_false"
   ],
   "note": "Floating point values, at least one value to be summarised, ddof less than their number. For processes of integers, pmean and tmean are truncated to integers (C47_int, C47_int_false), so are pvar and tvar, computed from the truncated mean (C47_int_var, C47_int_var_false), while pstd and tstd raise TypeError (C47_int_std_false)."
  },
  {
   "property": "C48",
   "status": "partial",
   "theorems": [
    "Sdepy.C48_tdiff",
    "Sdepy.C48_single",
    "Sdepy.C48_tint_partial",
    "Sdepy.C48_tder_tint",
    "Sdepy.C48_tint_tder",
    "Sdepy.C48_int_false",
    "Sdepy.C48_int_tder_false"
   ],
   "note": "Exact arithmetic, strictly increasing timelines; the power of time increments is arbitrary. For processes of integers the integral is truncated at each step (C48_int_false), and tder, like tdiff with dt_exp other than 0, raises TypeError (C48_int_tder_false)."
  },
  {
   "property": "C49",
   "status": "proved",
   "theorems": [
    "Sdepy.C49_cdf",
    "Sdepy.C49_cdf_timeline",
    "Sdepy.C49_fraction",
    "Sdepy.C49_missing",
    "Sdepy.C49_chf",
    "Sdepy.C49_chf_timeline",
    "Sdepy.C49_average"
   ],
   "note": "At least one path; real values and points."
  },
  {
   "property": "C50",
   "status": "partial",
   "theorems": [
    "Sdepy.C50_forward",
    "Sdepy.C50_backward",
    "Sdepy.C50_mid_partial",
    "Sdepy.C50_modes",
    "Sdepy.C50_mid_false"
   ],
   "note": "Strictly increasing timelines. In mode 'mid', segments end half way between times, so that times are not their midpoints, as documented, unless evenly spaced (C50_mid_false)."
  },
  {
   "property": "C51",
   "status": "proved",
   "theorems": [
    "Sdepy.C51_merge",
    "Sdepy.C51_eval",
    "Sdepy.C51_plain",
    "Sdepy.C51_new_eval",
    "Sdepy.C51_stored",
    "Sdepy.C51_history",
    "Sdepy.C51_function",
    "Sdepy.C51_params"
   ],
   "note": "For wrapped classes with arbitrary __init__ and __call__, acting on the attributes of the instance only; for f(**a)(**b), b is not empty: f(**a)() is an evaluation (C51_plain)."
  },
  {
   "property": "C52",
   "status": "proved",
   "theorems": [
    "Sdepy.C52_class",
    "Sdepy.C52_function",
    "Sdepy.C52_misuse"
   ],
   "note": ""
  },
  {
   "property": "C53",
   "status": "proved",
   "theorems": [
    "Sdepy.C53_unique",
    "Sdepy.C53_wiener",
    "Sdepy.C53_lognorm",
    "Sdepy.C53_oruh",
    "Sdepy.C53_cir",
    "Sdepy.C53_hw2f",
    "Sdepy.C53_hw2f_std",
    "Sdepy.C53_heston",
    "Sdepy.C53_heston_nonneg",
    "Sdepy.C53_heston_unique",
    "Sdepy.C53_hw2f_unique",
    "Sdepy.C53_std"
   ],
   "note": "Scalar parameters, exact arithmetic; k not zero (and k1 + k2 not zero for hw2f), variances of cir and heston for x0, y0, k*theta nonnegative and abs(rho) <= 1. The moment equations have no other solution."
  },
  {
   "property": "C54",
   "status": "partial",
   "theorems": [
    "Sdepy.C54_wiener",
    "Sdepy.C54_lognorm",
    "Sdepy.C54_mjd",
    "Sdepy.C54_mjd_mean",
    "Sdepy.C54_kou",
    "Sdepy.C54_kou_mean_partial",
    "Sdepy.C54_kou_mean_false",
    "Sdepy.C54_zero",
    "Sdepy.C54_heston",
    "Sdepy.C54_heston_zero",
    "Sdepy.C54_heston_mean",
    "Sdepy.C54_heston_log_mean"
   ],
   "note": "Scalar parameters, exact arithmetic. kou_mean is finite also where the mean of the process is infinite, for upward jumps of mean a > 1 (C54_kou_mean_false). heston_log_chf: k > 0, xi not zero, abs(rho) <= 1, real u. That it is the characteristic function of the process, as the limit of simulated values, is in C76."
  },
  {
   "property": "C55",
   "status": "proved",
   "theorems": [
    "Sdepy.C55_parity",
    "Sdepy.C55_delta_parity",
    "Sdepy.C55_bounds",
    "Sdepy.C55_maturity",
    "Sdepy.C55_sigma_zero",
    "Sdepy.C55_delta",
    "Sdepy.C55_kink",
    "Sdepy.C55_continuous"
   ],
   "note": "Scalar parameters, exact arithmetic. Where t=0 or sigma=0, and the discounted strike is met, the price is not differentiable (C55_kink)."
  },
  {
   "property": "C56",
   "status": "proved",
   "theorems": [
    "Sdepy.C56_call",
    "Sdepy.C56_put",
    "Sdepy.C56_forward"
   ],
   "note": "Scalar parameters, exact arithmetic."
  },
  {
   "property": "C57",
   "status": "proved",
   "theorems": [
    "Sdepy.C57_source_setup"
   ],
   "note": ""
  },
  {
   "property": "C58",
   "status": "partial",
   "theorems": [
    "Sdepy.C58_no_bins_partial",
    "Sdepy.C58_accepts_partial",
    "Sdepy.C58_false",
    "Sdepy.C36_accepts",
    "Sdepy.C36_histogram",
    "Sdepy.C36_false",
    "Sdepy.C41_false"
   ],
   "note": "Samples of the same shape are cumulated properly (C36). Without bins, samples whose shape differs from that of the first one by leading axes of size one are summarised as if such axes were added or removed, for any sequence of updates (C58_no_bins_partial); all others, even if they could be broadcast, are rejected, and then nothing changes (C58_accepts_partial, C58_false). With bins, they may give wrong histograms (C36_false), or raise after part of the changes have been made (C41_false)."
  },
  {
   "property": "C59",
   "status": "partial",
   "theorems": [
    "Sdepy.C39_interp_pdf",
    "Sdepy.C39_int_bins_partial",
    "Sdepy.C39_int_bins_false"
   ],
   "note": "Proved for bins of a floating point type, linear interpolation. With bins given as integers midpoints are truncated, so that the pdf is wrong (C39_int_bins_false), unless midpoints are integers (C39_int_bins_partial)."
  },
  {
   "property": "C60",
   "status": "proved",
   "theorems": [
    "Sdepy.C60_wiener",
    "Sdepy.C60_lognorm",
    "Sdepy.C60_oruh",
    "Sdepy.C60_hw2f",
    "Sdepy.C60_degenerate"
   ],
   "note": "Scalar parameters, exact arithmetic. Densities and distribution functions of scipy are modelled by their formulas; with null variance, NaNs are returned (C60_degenerate)."
  },
  {
   "property": "C61",
   "status": "proved",
   "theorems": [
    "Sdepy.C61_inversion",
    "Sdepy.C61_mjd",
    "Sdepy.C61_kou",
    "Sdepy.C61_unique",
    "Sdepy.C61_no_diffusion",
    "Sdepy.C61_one_value"
   ],
   "note": "General inversion theorem for laws with an integrable characteristic function; unconditional for the Merton and Kou jump-diffusions; for heston_log_pdf it applies to any law that has heston_log_chf as an integrable characteristic function. scipy quad is taken as the exact integral. C61_no_diffusion: with sigma = 0 there is no density."
  },
  {
   "property": "C62",
   "status": "partial",
   "theorems": [
    "Sdepy.C62_density",
    "Sdepy.C62_moments",
    "Sdepy.C62_backward",
    "Sdepy.C62_initial",
    "Sdepy.C62_negative_false"
   ],
   "note": "Holds for x > 0. For x < 0 the code gives NaN, not 0 (C62_negative_false)."
  },
  {
   "property": "C63",
   "status": "proved",
   "theorems": [
    "Sdepy.C63_law",
    "Sdepy.C63_order",
    "Sdepy.C63_at",
    "Sdepy.C63_increment"
   ],
   "note": "The generator is specified by Spec.PoissonGenerator (law of each draw, independence of later draws); seed_generator shows there are such generators."
  },
  {
   "property": "C64",
   "status": "proved",
   "theorems": [
    "Sdepy.C64_wiener",
    "Sdepy.C64_lognorm",
    "Sdepy.C64_wiener_pdf",
    "Sdepy.C64_lognorm_pdf",
    "Sdepy.C64_black_scholes",
    "Sdepy.C64_source",
    "Sdepy.C64_source_plain"
   ],
   "note": "The random generator is specified by moments and joint normality (Spec.Normals, StdNormals, JointlyGaussian); exists_rng shows there are such generators. Correlations depending on time in other ways than linearly are integrated by the midpoint rule, hence not exactly."
  },
  {
   "property": "C65",
   "status": "proved",
   "theorems": [
    "Sdepy.C65_ou",
    "Sdepy.C65_hull_white",
    "Sdepy.C65_ou_order",
    "Sdepy.C65_ou_limit",
    "Sdepy.C65_mesh",
    "Sdepy.C65_ou_steps",
    "Sdepy.C65_hw_order",
    "Sdepy.C65_hw2f_limit"
   ],
   "note": "Exact law of the Euler scheme (jointly normal, Spec.eulerMean and Spec.eulerCov), then first order convergence of mean and variance, uniformly in timelines and steps, and convergence of distribution functions. Random generator as for C64."
  },
  {
   "property": "C66",
   "status": "proved",
   "theorems": [
    "Sdepy.C66_jumpdiff",
    "Sdepy.C66_jumpdiff_cell",
    "Sdepy.C66_source",
    "Sdepy.C66_noise",
    "Sdepy.C66_normal_variates",
    "Sdepy.C66_double_exp_variates",
    "Sdepy.C66_merton",
    "Sdepy.C66_kou",
    "Sdepy.C66_merton_source",
    "Sdepy.C66_kou_source"
   ],
   "note": "The random generator is specified by the law of each draw and of the state left (Spec.DrawsLaw: whatever is drawn, later draws are independent of it); itemRng_draws, itemDraw_draws, itemSample_draws show there are such generators. C66_merton and C66_kou cover the whole chain, from the setup of sources to the densities; mjd_log_pdf and kou_log_pdf take scipy quad as the exact integral, as for C61."
  },
  {
   "property": "C67",
   "status": "proved",
   "theorems": [
    "Sdepy.C67_cells",
    "Sdepy.C67_factors",
    "Sdepy.C67_euler",
    "Sdepy.C67_checked",
    "Sdepy.C67_x0",
    "Sdepy.C67_wiener",
    "Sdepy.C67_ornstein_uhlenbeck",
    "Sdepy.C67_hull_white",
    "Sdepy.C67_lognorm",
    "Sdepy.C67_cox_ingersoll_ross",
    "Sdepy.C67_jumpdiff"
   ],
   "note": "Equations built with elementwise operations (Model.ArrSDE.UExpr), as those of all presets are except Heston (packed components, C18). The preset versions reduce the array models to those of Model.Presets on cells, to which C14-C16, C64-C66 apply."
  },
  {
   "property": "C68",
   "status": "proved",
   "theorems": [
    "Sdepy.C68_unbiased",
    "Sdepy.C68_consistent",
    "Sdepy.C68_histogram",
    "Sdepy.C68_wiener",
    "Sdepy.C68_lognorm"
   ],
   "note": "The values are random variables on any probability space; Spec.Cumulates states which values have been cumulated. C68_wiener and C68_lognorm discharge the assumptions for simulated values, one of the examples joins them up to the price of an option computed by the library."
  },
  {
   "property": "C69",
   "status": "proved",
   "theorems": [
    "Sdepy.C69_wiener",
    "Sdepy.C69_lognorm",
    "Sdepy.C69_oruh",
    "Sdepy.C69_cir",
    "Sdepy.C69_heston",
    "Sdepy.C69_mjd",
    "Sdepy.C69_kou",
    "Sdepy.C69_bs"
   ],
   "note": "Functions integrating a characteristic function numerically (heston_log_pdf, mjd_log_pdf, kou_log_pdf) are not among them. The values for numbers are the subject of C24-C28, C54, C60-C62."
  },
  {
   "property": "C70",
   "status": "partial",
   "theorems": [
    "Sdepy.C70_moments_partial",
    "Sdepy.C70_distribution_partial",
    "Sdepy.C70_rejected",
    "Sdepy.C70_process_partial",
    "Sdepy.C70_mixed_false",
    "Sdepy.C70_vectors_false"
   ],
   "note": "Holds unless vectors are mixed with arrays: the code broadcasts the axis of a vector with the last axis of arrays, and gives a result of another shape with wrong values (C70_mixed_false); as defaults are vectors, it is enough to omit a parameter. Vectors are given to paths, not to factors, by hull_white_process (C70_vectors_false)."
  },
  {
   "property": "C71",
   "status": "partial",
   "theorems": [
    "Sdepy.C71_norm_rv",
    "Sdepy.C71_uniform_rv",
    "Sdepy.C71_exp_rv",
    "Sdepy.C71_double_exp_rv_partial",
    "Sdepy.C71_norm",
    "Sdepy.C71_uniform",
    "Sdepy.C71_exp",
    "Sdepy.C71_double_exp_partial",
    "Sdepy.C71_degenerate",
    "Sdepy.C71_rejected",
    "Sdepy.C71_variable",
    "Sdepy.C71_merton_partial",
    "Sdepy.C71_kou_partial",
    "Sdepy.C71_exp_mean_false",
    "Sdepy.C71_cpoisson_false"
   ],
   "note": "Distributions on their own behave as stated, but for exp_mean of double_exp_rv, which raises with more than one item (C71_exp_mean_false). As jumps of cpoisson_source, array parameters are matched with jump numbers, not with paths: wrong jumps or ValueError (C71_cpoisson_false); arrays with one item and no more than two axes are equivalent to numbers, also if they depend on time, for the sources of merton and kou processes (C71_merton_partial, C71_kou_partial), to which C66 applies. How scipy.stats checks sizes is a modelling assumption."
  },
  {
   "property": "C72",
   "status": "proved",
   "theorems": [
    "Sdepy.C72_defined",
    "Sdepy.C72_pcopy",
    "Sdepy.C72_xcopy",
    "Sdepy.C72_tcopy",
    "Sdepy.C72_ufunc",
    "Sdepy.C72_reference",
    "Sdepy.C72_scalar_time",
    "Sdepy.C72_dt",
    "Sdepy.C72_times",
    "Sdepy.C72_select",
    "Sdepy.C72_x"
   ],
   "note": "Model of memory: buffers, arrays as views, processes as objects that refer to them; NumPy rules on views and copies are modelling assumptions."
  },
  {
   "property": "C73",
   "status": "partial",
   "theorems": [
    "Sdepy.C73_tx",
    "Sdepy.C73_dtx",
    "Sdepy.C73_view_partial",
    "Sdepy.C73_new_partial",
    "Sdepy.C73_no_timeline",
    "Sdepy.C73_methods_false"
   ],
   "note": "True of processes that have a timeline. A method that changes the first axis leaves the result without a timeline, and on this any further method that returns a process raises AttributeError (C73_methods_false). Transposition is not modelled."
  },
  {
   "property": "C74",
   "status": "proved",
   "theorems": [
    "Sdepy.C74_cir_recursion",
    "Sdepy.C74_cir_below",
    "Sdepy.C74_cir_order",
    "Sdepy.C74_cir_steps"
   ],
   "note": "Noise is any source whose draws for the cell are normal with variance |dt|; C66_noise provides it for source_wiener. Mean and variance forward in time."
  },
  {
   "property": "C75",
   "status": "proved",
   "theorems": [
    "Sdepy.C75_heston_recursion",
    "Sdepy.C75_heston_mean",
    "Sdepy.C75_heston_order",
    "Sdepy.C75_heston_steps",
    "Sdepy.C75_corr_noise",
    "Sdepy.C75_plain_noise",
    "Sdepy.C75_rho"
   ],
   "note": "The generator's multivariate_normal is assumed to provide independent normal vectors with the covariance matrix it is given, when this is positive semidefinite (MvnDraws). rho is a constant array here. Moments forward in time."
  },
  {
   "property": "C76",
   "status": "proved",
   "theorems": [
    "Sdepy.C76_heston_order",
    "Sdepy.C76_heston_law",
    "Sdepy.C76_heston_conv",
    "Sdepy.C76_heston_steps",
    "Sdepy.C76_cir_conv",
    "Sdepy.C76_cir_steps"
   ],
   "note": "Exact arithmetic; the noises are normal variates of constant correlation, as C75_rho and C66_noise provide. Forward in time. Cumulative probabilities of the Heston price at values to which the limit law gives probability zero."
  },
  {
   "property": "C77",
   "status": "proved",
   "theorems": [
    "Sdepy.C77_accepted",
    "Sdepy.C77_wiener",
    "Sdepy.C77_replay",
    "Sdepy.C77_lognorm",
    "Sdepy.C77_parameters",
    "Sdepy.C77_intensity"
   ],
   "note": "Exact arithmetic; processes of floating point values (C44_int_false for integers), linear interpolation."
  },
  {
   "property": "C78",
   "status": "proved",
   "theorems": [
    "Sdepy.C78_law",
    "Sdepy.C78_noAtoms",
    "Sdepy.C78_positive",
    "Sdepy.C78_normal",
    "Sdepy.C78_double_exp",
    "Sdepy.C78_stuck",
    "Sdepy.C78_false"
   ],
   "note": "Exact arithmetic. The law holds for jumps that do not cancel out; C78_false: with two opposite jumps of positive probability it fails."
  },
  {
   "property": "C79",
   "status": "partial",
   "theorems": [
    "Sdepy.C79_kinds",
    "Sdepy.C79_single",
    "Sdepy.C79_default",
    "Sdepy.C79_shape",
    "Sdepy.C79_nodes",
    "Sdepy.C79_outside",
    "Sdepy.C79_previous",
    "Sdepy.C79_next",
    "Sdepy.C79_nearest",
    "Sdepy.C79_nearest_up",
    "Sdepy.C79_linear",
    "Sdepy.C79_call",
    "Sdepy.C79_rebase",
    "Sdepy.C79_rebase_self",
    "Sdepy.C79_piecewise_forward",
    "Sdepy.C79_piecewise_backward",
    "Sdepy.C79_piecewise_mid",
    "Sdepy.C79_pdf",
    "Sdepy.C79_cdf",
    "Sdepy.C79_pdf_nonneg",
    "Sdepy.C79_cdf_mono",
    "Sdepy.C79_pdf_cubic_false",
    "Sdepy.C79_cdf_cubic_false"
   ],
   "note": "Exact arithmetic, floating point values, strictly increasing timelines. Splines of order 2 or more are any function taking given values at given points. With kind='cubic' the pdf may be negative and the cdf above 1 and decreasing (C79_pdf_cubic_false, C79_cdf_cubic_false)."
  },
  {
   "property": "C80",
   "status": "proved",
   "theorems": [
    "Sdepy.C80_chf_moments",
    "Sdepy.C80_heston_density",
    "Sdepy.C80_heston_pdf",
    "Sdepy.C80_heston_std",
    "Sdepy.C80_heston_conv",
    "Sdepy.C80_heston_steps",
    "Sdepy.C80_heston_options",
    "Sdepy.C80_cir_conv",
    "Sdepy.C80_no_diffusion"
   ],
   "note": "Exact arithmetic; numerical integration is the exact integral. With sigma = 0 there is no density, although a number is returned (C80_no_diffusion)."
  },
  {
   "property": "C81",
   "status": "partial",
   "theorems": [
    "Sdepy.C81_finite_partial",
    "Sdepy.C81_hw2f_partial",
    "Sdepy.C81_pdf_partial",
    "Sdepy.C81_oruh_false",
    "Sdepy.C81_oruh_limit_partial",
    "Sdepy.C81_hw2f_false",
    "Sdepy.C81_hw2f_limit_partial",
    "Sdepy.C81_cir_false",
    "Sdepy.C81_cir_limit_partial",
    "Sdepy.C81_heston_false",
    "Sdepy.C81_heston_limit_partial",
    "Sdepy.C81_cir_pdf_false",
    "Sdepy.C81_cir_zero_limit_partial",
    "Sdepy.C81_cir_zero",
    "Sdepy.C81_initial_false",
    "Sdepy.C81_oruh_known_false",
    "Sdepy.C81_initial_limit_partial"
   ],
   "note": "The code violates it: NaN is returned at all such parameters (theorems _false, together with the values expected). Proved: elsewhere values are those of C53, and they tend to the values expected."
  },
  {
   "property": "C82",
   "status": "partial",
   "theorems": [
    "Sdepy.C82_law_partial",
    "Sdepy.C82_increments_partial",
    "Sdepy.C82_plain",
    "Sdepy.C82_plain_increments",
    "Sdepy.C82_trailing_axis_false",
    "Sdepy.C82_singular_false"
   ],
   "note": "The code violates it: callable correlations (processes among them) with matrices of shape (M, M, 1) raise whenever a value between two known ones is asked for, and so do singular ones, as rho = 1. Proved for all others: constants of any kind, callables that are not singular, as far as the midpoint rule integrates them exactly (no process has increments of the expected law otherwise); and for independent components."
  },
  {
   "property": "C83",
   "status": "proved",
   "theorems": [
    "Sdepy.C83_scheme",
    "Sdepy.C83_strong",
    "Sdepy.C83_true_wiener",
    "Sdepy.C83_solution"
   ],
   "note": "Solutions are defined as in textbooks: adapted, square integrable, and equal to the initial values plus the integral of a*dt + b*dw, integrals being limits in mean square of sums with coefficients at the start of each step. Existence and uniqueness of solutions, and of a Wiener process defined at all times (for the example), are proved here, as Mathlib has none. Times before t0, that the integrator also allows, are not covered. Mean squares are of logarithms, when logarithms are integrated."
  },
  {
   "property": "C84",
   "status": "proved",
   "theorems": [
    "Sdepy.C84_coupling",
    "Sdepy.C84_expectation",
    "Sdepy.C84_law"
   ],
   "note": "Order 1/2 is what is proved for expectations; for smooth functions order 1 is expected, and is not stated. The solution is driven by any Wiener process with the correlations integrated from those of the source; that it exists is C83_solution. Times before t0 are not covered. Values are logarithms, when logarithms are integrated."
  },
  {
   "property": "C85",
   "status": "proved",
   "theorems": [
    "Sdepy.C85_estimate",
    "Sdepy.C85_montecarlo"
   ],
   "note": "The link of simulation and montecarlo: draws made in different runs are those of further paths, paths are independent, each with the law of C84. Exact arithmetic; use='all', no antithetics. That updates of montecarlo succeed for such samples is C36."
  },
  {
   "property": "C86",
   "status": "proved",
   "theorems": [
    "Sdepy.C86_scheme",
    "Sdepy.C86_strong",
    "Sdepy.C86_solution"
   ],
   "note": "Exact arithmetic, times from the initial time on. The jump part is reduced to C83 by splitting the equation into one standardised noise for each source. Noise with jumps that meets the hypotheses at all times of an interval is constructed for the examples (exists_jumps, exists_product). That the library's own sources realise such noise is C18, C56, C66."
  },
  {
   "property": "C87",
   "status": "proved",
   "theorems": [
    "Sdepy.C87_coupling",
    "Sdepy.C87_expectation",
    "Sdepy.C87_law",
    "Sdepy.C87_sources",
    "Sdepy.C87_merton"
   ],
   "note": "Exact arithmetic, times from the initial time on. C87_sources and C87_merton cover sources with constant intensity and jump law, and uncorrelated Wiener components; correlated ones are in C84."
  },
  {
   "property": "C88",
   "status": "proved",
   "theorems": [
    "Sdepy.C88_scheme",
    "Sdepy.C88_solution"
   ],
   "note": "Exact arithmetic. The bound for values before log and let are applied, as in C83 and C86."
  },
  {
   "property": "C89",
   "status": "proved",
   "theorems": [
    "Sdepy.C89_estimate",
    "Sdepy.C89_montecarlo",
    "Sdepy.C89_sources"
   ],
   "note": "Exact arithmetic, times from the initial one on; a random generator that provides independent variates of the laws asked for. C89_sources: constant intensity and jump law, independent components."
  },
  {
   "property": "C90",
   "status": "partial",
   "theorems": [
    "Sdepy.C90_repeated_partial",
    "Sdepy.C90_iterator",
    "Sdepy.C90_one_point",
    "Sdepy.C90_false"
   ],
   "note": "The only attribute that calls may change, besides info and temporary ones, is steps, if it is an iterator: then the claim is false (C90_false), and C90_iterator states what calls do."
  },
  {
   "property": "C91",
   "status": "proved",
   "theorems": [
    "Sdepy.C91_scheme",
    "Sdepy.C91_strong",
    "Sdepy.C91_solution"
   ],
   "note": "Exact arithmetic, times from the initial time backwards; reduced to C86 by reflecting time about the initial one."
  },
  {
   "property": "C92",
   "status": "proved",
   "theorems": [
    "Sdepy.C92_coupling",
    "Sdepy.C92_expectation",
    "Sdepy.C92_law",
    "Sdepy.C92_sources"
   ],
   "note": "As C87, for times from the initial one backwards; exact arithmetic, ideal random generator."
  },
  {
   "property": "C93",
   "status": "proved",
   "theorems": [
    "Sdepy.C93_order_one",
    "Sdepy.C93_order_one_back",
    "Sdepy.C93_cells"
   ],
   "note": "Exact arithmetic. The solution is compared with simulations that realise its noise at the points of their grids."
  },
  {
   "property": "C94",
   "status": "partial",
   "theorems": [
    "Sdepy.C94_modes",
    "Sdepy.C94_array",
    "Sdepy.C94_whole",
    "Sdepy.C94_time_partial",
    "Sdepy.C94_paths_partial",
    "Sdepy.C94_values_partial",
    "Sdepy.C94_npint_paths",
    "Sdepy.C94_npint_time",
    "Sdepy.C94_false"
   ],
   "note": "Fails for NumPy integers after 't' or 'p' (C94_false): the axis of paths, or of time, is lost, so that components of values are returned as paths, or ValueError is raised; C94_npint_paths and C94_npint_time state what is returned. Excluded as in C45: Python integers out of range as index of paths; lists separated by slices, for values."
  },
  {
   "property": "C95",
   "status": "proved",
   "theorems": [
    "Sdepy.C95_expectation",
    "Sdepy.C95_expectation_back",
    "Sdepy.C95_montecarlo"
   ],
   "note": "Exact arithmetic. The sources of the library draw such noise by C87_sources, C89_sources and C92_sources; for a solution driven by any noise with the same laws."
  },
  {
   "property": "C96",
   "status": "partial",
   "theorems": [
    "Sdepy.C96_jumps_partial",
    "Sdepy.C96_default",
    "Sdepy.C96_float",
    "Sdepy.C96_types",
    "Sdepy.C96_even_class",
    "Sdepy.C96_even_default",
    "Sdepy.C96_false"
   ],
   "note": "Proved for integer increments. Fails otherwise: calls raise TypeError whenever increments of dn are not integers, with ptype=float as well as with any instance of even_poisson_source constructed without dtype (C96_float, C96_even_default, C96_false)."
  },
  {
   "property": "C97",
   "status": "partial",
   "theorems": [
    "Sdepy.C97_empty_partial",
    "Sdepy.C97_child",
    "Sdepy.C97_view",
    "Sdepy.C97_false",
    "Sdepy.C97_view_false"
   ],
   "note": "What holds: the first to be updated, of an empty instance and its components, goes on as a separate instance would, over all sequences of updates; components of an empty instance have the right bins. The rest fails: the others report its paths but hold no statistics and can never be updated (C97_empty_partial, C97_false); use is not passed on to components (C97_child, C97_false); updates of components of an instance that has data raise AttributeError (C97_view, C97_view_false)."
  },
  {
   "property": "C98",
   "status": "partial",
   "theorems": [
    "Sdepy.C98_index",
    "Sdepy.C98_values",
    "Sdepy.C98_follows_partial",
    "Sdepy.C98_stale",
    "Sdepy.C98_histogram",
    "Sdepy.C98_false"
   ],
   "note": "Values at the time of indexing, errors, number of paths and histograms hold for all indexes (also after updates); statistics follow updates for indexes made of integers and slices. With lists (or for a single number) they do not: they stay those of the data received before indexing (C98_stale, C98_false)."
  },
  {
   "property": "C99",
   "status": "partial",
   "theorems": [
    "Sdepy.C99_forward_partial",
    "Sdepy.C99_whole",
    "Sdepy.C99_false",
    "Sdepy.C99_backward_false"
   ],
   "note": "What is computed forwards is characterised for all inputs: the result along the same numbers, with requested points rounded down to whole numbers (C99_forward_partial), hence the same result if these are whole (C99_whole). False otherwise: steps are lost (C99_false), and backward integrations through points that are not in the timeline raise RuntimeError (C99_backward_false)."
  },
  {
   "property": "C100",
   "status": "proved",
   "theorems": [
    "Sdepy.C100_size",
    "Sdepy.C100_repeat",
    "Sdepy.C100_cpoisson",
    "Sdepy.C100_cpoisson_partial",
    "Sdepy.C100_split"
   ],
   "note": "C100_size and C100_repeat hold of any source whose methods are lawful, as are those of the Wiener and Poisson sources (lawful_wiener, lawful_poisson). C100_cpoisson_partial is the version for underlying Poisson sources given by the user, which may start at any time: times taken for this one by the tolerance are excluded (see C25)."
  },
  {
   "property": "C101",
   "status": "proved",
   "theorems": [
    "Sdepy.C101_error",
    "Sdepy.C101_bounds",
    "Sdepy.C101_order"
   ],
   "note": "The exact solution is that of C83: it exists and is unique (C83_solution). The noise has uncorrelated increments independent of the past, as that of a Wiener process (drives_of_wiener)."
  },
  {
   "property": "C102",
   "status": "proved",
   "theorems": [
    "Sdepy.C102_mean",
    "Sdepy.C102_order",
    "Sdepy.C102_draws"
   ],
   "note": "Noise as in C86 and C87. The ordinary differential equation is as in C88 (solutions exist and are unique)."
  },
  {
   "property": "C103",
   "status": "proved",
   "theorems": [
    "Sdepy.C103_paths",
    "Sdepy.C103_montecarlo",
    "Sdepy.C103_means",
    "Sdepy.C103_variances"
   ],
   "note": "Noise as in C89 (C89_sources shows that the sources of the library draw such noise). Mutual independence is proved for whole paths, that is for their values at all times of the timeline."
  },
  {
   "property": "C104",
   "status": "proved",
   "theorems": [
    "Sdepy.C104_squares",
    "Sdepy.C104_order",
    "Sdepy.C104_draws"
   ],
   "note": "Noise and solutions as in C86-C87 and C102. That increments of different sources are uncorrelated is an assumption of the first two theorems, and is proved for sources that draw independently."
  },
  {
   "property": "C105",
   "status": "proved",
   "theorems": [
    "Sdepy.C105_squares",
    "Sdepy.C105_order",
    "Sdepy.C105_draws"
   ],
   "note": "Noise and solutions backwards as in C91-C92."
  },
  {
   "property": "C106",
   "status": "proved",
   "theorems": [
    "Sdepy.C106_interval",
    "Sdepy.C106_simulation",
    "Sdepy.C106_solution",
    "Sdepy.C106_means"
   ],
   "note": "Noise as in C89. The limits are for more and more values or runs, for given integration steps; C106_interval is for any samples, C106_simulation, C106_solution and C106_means for one sample for each run."
  },
  {
   "property": "C107",
   "status": "proved",
   "theorems": [
    "Sdepy.C107_moments",
    "Sdepy.C107_cdf",
    "Sdepy.C107_density",
    "Sdepy.C107_simulation"
   ],
   "note": "The limit of kurtosis is the fourth standardised moment: 3 is not subtracted (see C35_kurtosis_false). Densities and distribution functions for edges given as an array, and for values that are numbers (or arrays with a single entry)."
  },
  {
   "property": "C108",
   "status": "proved",
   "theorems": [
    "Sdepy.C108_names",
    "Sdepy.C108_sdepy"
   ],
   "note": "Signatures of the classes and functions of the package are data of the model (functionSigs, classSigs), transcribed from the sources; C108_names holds for any namespace with signatures that can be wrapped, C108_sdepy tells that those of the package can."
  },
  {
   "property": "C109",
   "status": "proved",
   "theorems": [
    "Sdepy.C109_dw",
    "Sdepy.C109_dn",
    "Sdepy.C109_dj",
    "Sdepy.C109_seed",
    "Sdepy.C109_accepted",
    "Sdepy.C109_process",
    "Sdepy.C109_process_seed",
    "Sdepy.C109_isolated"
   ],
   "note": "What is computed out of the numbers drawn is a parameter of the model; memories of objects are not shared among them."
  },
  {
   "property": "C110",
   "status": "partial",
   "theorems": [
    "Sdepy.C110_intensity_partial",
    "Sdepy.C110_instance",
    "Sdepy.C110_false"
   ],
   "note": "Proved except for true_cpoisson_source with a class given as dn: lam is not handed on, and events have intensity 1 (C110_false)."
  },
  {
   "property": "C111",
   "status": "proved",
   "theorems": [
    "Sdepy.C111_pairs",
    "Sdepy.C111_odd_wiener",
    "Sdepy.C111_ornstein_uhlenbeck"
   ],
   "note": "In exact arithmetic."
  },
  {
   "property": "C112",
   "status": "proved",
   "theorems": [
    "Sdepy.C112_pairs",
    "Sdepy.C112_even_cpoisson",
    "Sdepy.C112_jumpdiff"
   ],
   "note": "In exact arithmetic. That odd_wiener_source has opposite increments is C111_odd_wiener."
  },
  {
   "property": "C113",
   "status": "proved",
   "theorems": [
    "Sdepy.C113_montecarlo",
    "Sdepy.C113_stderr"
   ],
   "note": "In exact arithmetic; C113_stderr, on instances that report zero variances, is to be combined with C113_montecarlo."
  },
  {
   "property": "C114",
   "status": "proved",
   "theorems": [
    "Sdepy.C114_variances"
   ],
   "note": "In exact arithmetic, for samples that are not empty."
  },
  {
   "property": "C115",
   "status": "proved",
   "theorems": [
    "Sdepy.C115_paths",
    "Sdepy.C115_montecarlo",
    "Sdepy.C115_odd",
    "Sdepy.C115_odd_wiener",
    "Sdepy.symmetric_normal"
   ],
   "note": "In exact arithmetic; for times from t0 on. C115_odd_wiener is for sources without correlations, as is the claim."
  }
 ]
}