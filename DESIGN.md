# Design: a machine-checked model of sdepy

Source under study: `/repo/sdepy` (`infrastructure.py`, `integration.py`, `kfun.py`,
`analytical.py`). The code is read as text; nothing in it is run.

## 1. Trusted base

* The Lean 4 kernel, and the axioms `propext`, `Classical.choice`, `Quot.sound`
  (the standard ones, used throughout Mathlib; see section 6).
* The reading of the python text into the Lean definitions of `Verif/Model/*`.
  Every definition cites the file and lines it models, and says what is simplified.
* The behaviour of python, NumPy and SciPy as described in `Verif/Py.lean`, `Verif/Np.lean`,
  `Verif/NpMore.lean`, `Verif/NpIndex.lean` and in the headers of the model files (broadcasting,
  indexing, `np.unique`, `np.linspace`, `np.roll`, `bisect_right`, `np.histogram`, `interp1d`,
  dictionaries, iterators, signatures).
* The statements of `Verif/Spec/*` and of the theorems, which say what is expected of the code.

### Simplifications common to all modules

* **Arithmetic is exact.** Floats are elements of an arbitrary linearly ordered field (runnable at
  `ℚ`), or of `ℝ`, `ℂ` where `exp`, `log`, `sqrt` occur. Rounding, overflow, NaN propagation and
  dtype casts are not modelled, except where NaN marks "no value" (`Option`, or a flag), or where a
  conversion to integers changes results (`cast` in `Model/Process.lean`, bins of integers in
  `Model/McPdf.lean`).
  The integration core is an exception: times are of any linearly ordered type where the sign of a difference
  tells which time comes first (`Spec.SignOk`), and steps are sums of products in an arithmetic with no laws
  (`C02_rounded`). Floating point numbers with rounding to nearest, ties to even, are an instance
  (`Spec/Rounding.lean`, `Props/Rounding.lean`: digits and least positive number of double precision, no
  overflow), so C01 to C08 hold for them.
* **Randomness is an oracle.** A random generator is an arbitrary state `σ` with arbitrary sampling
  functions `σ → α × σ`, and most theorems hold for every output of the generator. For statements
  on laws (C21, C23, C30, C63, C64, C65, C78) the variates are random variables on a probability space,
  specified by their moments (`Spec.Normals`, `Spec.StdNormals`), by joint normality
  (`Spec.JointlyGaussian`), or by law and independence (`Spec.PoissonGenerator`). That there are such
  generators is proved (`exists_rng`, `exists_normals`, `seed_generator`).
* **Exceptions are values**: `Except PyErr α`, with one constructor per python class.
* **Loops that may not end** (`while` in `_generate_paths`) take a fuel argument, whose exhaustion is a
  result of its own (`noFuel`).
* **Arrays** are `Arr α` (a shape, and a function from multi-indices) wherever shapes or
  indexing are what the property is about, and functions on cells where the code is elementwise.

## 2. Layout

`Verif/Py.lean`, `Verif/Np*.lean` — python and NumPy semantics. `Verif/Model/*.lean` — the code.
`Verif/Spec/*.lean` — what users expect; specifications do not refer to functions of the model, but
for the types of its inputs and outputs. `Verif/Lemmas/*.lean` — helper lemmas. `Verif/Props/*.lean`
— one group of theorems per property, with `example`s that meet the hypotheses in a concrete case.

What is modelled, by file of `Verif/Model`:

| model | code |
|-------|------|
| `PathsGenerator` | `paths_generator.__call__`, `_generate_paths`, `_store_if_reached`, `pace` (integration.py 40-584), any depth, any callbacks |
| `Calls` | repeated calls of a `paths_generator`, `steps` being an iterator (209-218, 498-535) |
| `SDE` | `integrator`, `SDE`: `begin`, `next`, `store`, `exit`, `euler_next`, checks of values returned by `sde` (596-1581) |
| `SDEs`, `Packing` | systems of equations: `pack`, `unpack`, `shapes`, `sde`, `init`, `result` (1584-1835) |
| `Args` | resolution of keyword parameters (970-1055), the `integrate` decorator (1843-1955) |
| `Presets`, `Heston`, `Info` | preset processes and their diagnostics (2056-2760) |
| `Params` | set up of parameters, correlations and sources (infrastructure.py 55-243) |
| `Process` | the `process` class (272-1281), `piecewise` |
| `Rv`, `Rvmap` | preset distributions of jumps with scalar parameters, `rvmap` (1640-1861) |
| `ProcessInt` | statistics and differences of processes of integers (871-889, 1009-1027, 1076-1080) |
| `ProcessKeys` | `process.__getitem__` as a whole: ordinary and special keys, booleans, NumPy integers (655-703) |
| `PoissonTypes` | `cpoisson_source.__init__`, its `dn` and `ptype`; data types of `poisson_source` and `even_poisson_source` (1602, 1986-2040, 2057-2091) |
| `McUpdate` | `montecarlo.update` of instances obtained by `__getitem__` (2824-2840, 2869-3021, 3025-3039) |
| `McSlice` | `montecarlo.__getitem__` by slices and lists (3025-3039), `histogram` of the result |
| `UnsignedTime` | `paths_generator.__call__`, `pace` along timelines of unsigned integers (189-218, 525-551) |
| `SourceSize` | `size`, `t`, `getsize` of sources with memory (2355-2376, 2704-2711) |
| `ProcMem` | processes as objects in memory: references, copies, cached increments, `__array_finalize__`, `tx`, `dtx` (423-538, 653-829) |
| `ArrRv` | preset distributions of jumps with array parameters (1640-1791), sources of jumps that make use of them (2003-2037) |
| `Sources` | sources without memory, antithetics (1388-2089) |
| `JumpSources` | `source_dj` of the jump-diffusion SDEs, with preset distributions (`integration.py` 1383-1423, 2698-2747) |
| `ArrSDE` | integration of equations on arrays: broadcasting of parameters, sources and initial conditions, shape errors (`integration.py` 596-779, 1057-1076, 1154-1234, 1469, 1528, 2272) |
| `ArrPresets` | preset processes with array parameters (`integration.py` 2056-2608) |
| `TrueSource`, `TrueWiener`, `ArrTrueWiener`, `TrueNoise`, `TrueCPoisson`, `Indexed` | sources with memory (2157-2711) |
| `MonteCarlo`, `McPdf`, `McIndex` | `montecarlo` (2822-3265) |
| `InterpKinds` | interpolation kinds of processes and histograms (364-372, 421, 544-647, 1280, 3174-3195) |
| `ProcSource` | processes as sources and parameters of other processes |
| `Kfunc` | `kfun.py` |
| `Shortcuts` | `shortcuts.py`: names bound to kfuncs, signatures of the classes and functions of the package |
| `Generators` | `rng` and `default_rng`: the generators that sources, nested sources and processes draw from; intensities handed on to nested sources |
| `Analytical`, `ChfPdf`, `CirPdf` | `analytical.py`, for scalar parameters |
| `FloatAnalytical` (with `NpFloat`) | functions of `analytical.py` that divide by parameters, on floats with infinities and NaN |
| `ArrAnalytical` | `analytical.py`, for array parameters, but for numerical integration |

Not modelled: the broadcasting of array parameters in `chf_to_pdf` and in densities that make use of it; the formulas of splines of order 2 or more; representations (`__repr__`), documentation, deprecated aliases and
warnings.

## 3. Properties: model, method, theorems

Status `partial` means that the code does not have the property as stated in `properties.jsonl` in
some cases (section 4), or that part of the proof is missing (section 5). Theorems with suffix
`_partial` say what holds instead; those with suffix `_false` are concrete counterexamples.

| id | status | property | model | method | theorems |
|----|--------|----------|-------|--------|----------|
| C01 | proved | Every requested time point is stored, exactly there | PathsGenerator | loop invariant on traces of events logged by an instrumented subclass | `C01_outputs_at_requested_times` |
| C02 | proved | The integrator computes the Euler-Maruyama recursion | SDE | refinement of the integrator to a recursion along the grid (`Spec.solutionOf`), in any arithmetic; then to sums over differentials, in exact arithmetic | `C02_euler` `C02_no_empty_slot` `C02_rounded` `C02_floats` |
| C03 | proved | Integration grid = timeline merged with requested steps | PathsGenerator | characterisation of the grid as a set, by sortedness | `C03_points_touched` `C03_grid_unique` `C03_linspace` `C03_floats` |
| C04 | proved | Timeline and i0 validation | PathsGenerator | case analysis; joint induction with a self-checking subclass | `C04_rejected` `C04_accepted` `C04_few_points` `C04_short_side` `C04_deep_leaks_stopIteration` |
| C05 | proved | Backward and forward integration from timeline[i0] | PathsGenerator | refinement to a two-way specification | `C05_two_way` `C05_initial_condition` |
| C06 | proved | Step counters in info | PathsGenerator | refinement; witness against the documentation | `C06_counters` `C06_counters_cumulate_both_directions` |
| C07 | proved | Steps outside the permitted interval are rejected | PathsGenerator | joint induction with a self-checking subclass | `C07_step_control` `C07_exact` |
| C08 | proved | Output timeline does not influence computed values | PathsGenerator | corollary of the refinement | `C08_output_timeline_irrelevant` |
| C09 | partial | Logarithmic integration is transparent | SDE, SDEs | refinement; witness for systems | `C09_log` `C09_systems_partial` `C09_systems_false` |
| C10 | proved | SDE keyword parameters are resolved or rejected | Args | association lists | `C10_args` `C10_served` |
| C11 | proved | Differentials: unknown keys rejected, absent ones contribute nothing | SDE | threading of the state of sources | `C11_bad_sde_values` `C11_all_sources_realised` `C11_only_entries_matter` |
| C12 | proved | SDEs pack / unpack are inverse and dispatch as documented | Packing | index arithmetic | `C12_pack` `C12_pack_rejects` `C12_unpack` `C12_unpack_pack` `C12_pack_unpack` |
| C13 | proved | A system of SDEs is integrated equation by equation | SDEs | simulation relation with a list of coupled equations | `C13_system` `C13_step` `C13_initial_condition` `C13_bad_sde_values` |
| C14 | proved | Wiener and lognormal processes: closed form along the grid | Presets | telescoping along the grid | `C14_wiener` `C14_wiener_memory` `C14_lognorm` `C14_lognorm_memory` `C14_jumpdiff` |
| C15 | proved | Lognormal and jump-diffusion values stay positive | Presets, Heston | positivity of the exponential along the grid | `C15_lognorm_positive` `C15_jumpdiff_positive` `C15_heston_positive` |
| C16 | proved | Hull-White process is the sum of its factors | Presets | linearity along the grid | `C16_hull_white` `C16_hull_white_error` `C16_one_factor` `C16_ou_step` |
| C17 | proved | heston_process is the x component of full_heston_process | Heston | simulation relation | `C17_full_heston` `C17_heston_component` |
| C18 | proved | Full truncation in square-root processes | Presets, Heston | case analysis; square root that fails on negative input | `C18_cir_step` `C18_cir_never_nan` `C18_heston_step` |
| C19 | proved | Diagnostic counts | Info | simulation with and without diagnostics | `C19_info_harmless` `C19_negative_y_count` `C19_jumps` |
| C20 | proved | integrate decorator infers equation structure | Args | decision table | `C20_integrate` |
| C21 | proved | Wiener source increments: shape, scaling, covariance | Sources | covariances of affine maps of normal variates | `C21_new` `C21_shape` `C21_covariance` `C21_uncorrelated` |
| C22 | proved | Antithetic sources | Sources | array algebra | `C22_antithetics` `C22_odd_wiener` `C22_even_poisson` `C22_even_cpoisson` |
| C23 | proved | Poisson source increments | Sources | array algebra; law of a draw | `C23_draws` `C23_sign` `C23_ok` `C23_law` |
| C24 | partial | Compound Poisson source increments | Sources | invariant of the loop over jump counts; witnesses | `C24_jumps_partial` `C24_default` `C24_ok` `C24_false` `C24_false_error` |
| C25 | partial | Sources with memory never change a realised value | TrueSource | induction over histories: all results are values of one path; witness | `C25_one_path_partial` `C25_one_path_t0_zero` `C25_one_path_rtol_zero` `C25_repeat_partial` `C25_false` |
| C26 | partial | Sources with memory: increments are differences | TrueSource | as C25 | `C25_one_path_partial` `C25_one_path_t0_zero` `C25_one_path_rtol_zero` `C26_increments_add` `C25_false` |
| C27 | proved | Sources with memory: bookkeeping | TrueSource, TrueWiener | invariant of the memory | `C27_call` `C27_bookkeeping` `C27_wiener_no_assertion` `C28_poisson_no_error` `C29_no_assertion` |
| C28 | partial | True Poisson source is a counting process | TrueSource, TrueWiener | invariant of the memory | `C28_poisson_monotone_partial` `C28_poisson_monotone_t0_zero` `C28_poisson_no_error` `C28_underlying_source` |
| C29 | proved | True compound Poisson source: jumps are conserved | TrueCPoisson | invariant; multisets of jumps; witness | `C29_jumps_conserved` `C29_split` `C29_no_assertion` `C29_jumps_conserved_partial` `C29_split_partial` `C29_no_assertion_partial` `C29_false` |
| C30 | proved | Brownian bridge has the right covariance | TrueWiener | covariance of the bridge, induction over histories; joint normality | `C30_covariance` `C30_increments` `C30_bridge` `C30_underlying_source` `C30_law` |
| C31 | partial | Indexed sources share memory | Indexed | as C25, with a shared memory; witness | `C31_one_path_partial` `C31_new` `C31_false` |
| C32 | proved | Correlation matrix built from rho | Params | matrix entries, quadratic forms | `C32_rho_matrix` `C32_rho_rejected` `C32_corr_overrides` `C32_rho` `C32_psd` `C32_callable` `C32_rho_process` `C32_corr_process` |
| C33 | partial | Preset jump distributions report correct moments | Rv | integrals on the laws of Mathlib; witnesses | `C33_norm_rv` `C33_uniform_rv` `C33_exp_rv` `C33_double_exp_rv_partial` `C33_norm` `C33_uniform` `C33_exp` `C33_double_exp_partial` `C33_rejected` `C33_variable` `C33_double_exp_variable` `C33_double_exp_false` `C33_uniform_false` `C33_exp_docstring_false` |
| C34 | proved | rvmap maps variates | Rvmap | case analysis | `C34_rvmap` `C34_no_params` `C34_compose` |
| C35 | proved | Monte Carlo statistics equal those of the pooled sample | MonteCarlo | induction over batches, algebra of central moments; witnesses | `C35_mean` `C35_var` `C35_std_stderr` `C35_skew` `C35_kurtosis` `C35_nan` `C35_kurtosis_false` `C35_empty_false` |
| C36 | proved | Monte Carlo histogram accounting | MonteCarlo | counting, induction over batches; witnesses | `C36_histogram` `C36_single` `C36_outpaths` `C36_bins` `C36_accepts` `C36_accepts_first` `C36_accepts_edges` `C36_empty_first` `C36_outerr` |
| C37 | proved | Monte Carlo results do not depend on how data are batched | MonteCarlo | corollary | `C37_statistics` `C37_statistics_real` `C37_histogram` |
| C38 | proved | Antithetic sampling in montecarlo | MonteCarlo | array algebra | `C38_values` `C38_even_mean` `C38_rejected` `C35_mean` `C36_histogram` |
| C39 | proved | Monte Carlo pdf and cdf estimates are distributions | McPdf | finite sums; Gaussian integrals | `C39_density` `C39_interp_cdf` `C39_gaussian_kde` `C39_default` `C39_errors` |
| C40 | partial | Indexing a montecarlo instance | McIndex | copies against references; witnesses | `C40_index` `C40_values` `C40_values_real` `C40_histogram` `C40_follows_partial` `C40_follows_real_partial` `C40_stale` `C40_false` `C40_no_bins_false` `C40_empty_false` |
| C41 | partial | A failed montecarlo update leaves the instance usable | MonteCarlo | state kept by failed updates; witnesses | `C41_unchanged_partial` `C41_first_partial` `C41_false` `C41_missing_false` `C41_first_false` |
| C42 | partial | Process construction | Process | decision table on shapes; witnesses | `C42_accept` `C42_x` `C42_v` `C42_c_partial` `C42_shape_partial` `C42_false` `C42_complex_false` |
| C43 | partial | Ufuncs on processes never mix timelines or axes | Process | pairwise compatibility; witnesses with three operands | `C43_ufunc_partial` `C43_array_partial` `C43_false` `C43_array_false` |
| C44 | partial | Interpolation of processes | Process | piecewise linear algebra; witness | `C44_values_partial` `C44_constant` `C44_call` `C44_increment` `C44_rebase` `C44_rebase_self` `C44_int_false` |
| C45 | partial | Process specific indexing | Process | index arithmetic; witnesses | `C45_time` `C45_paths_partial` `C45_values_partial` `C45_false` `C45_lists_false` |
| C46 | proved | shapeas | Process | shapes | `C46_add` `C46_remove` |
| C47 | partial | Summaries across paths, values and time | Process, ProcessInt | reductions along one axis; witness | `C47_paths_partial` `C47_values` `C47_time_partial` `C47_cumsum` `C47_std_partial` `C47_int` `C47_int_false` `C47_int_var` `C47_int_var_false` `C47_int_std_false` |
| C48 | partial | Time differences, derivative and integral | Process, ProcessInt | telescoping; witness | `C48_tdiff` `C48_single` `C48_tint_partial` `C48_tder_tint` `C48_tint_tder` `C48_int_false` `C48_int_tder_false` |
| C49 | proved | Empirical cdf and characteristic function | Process | finite averages | `C49_cdf` `C49_cdf_timeline` `C49_fraction` `C49_missing` `C49_chf` `C49_chf_timeline` `C49_average` |
| C50 | partial | Piecewise constant processes | Process | nearest neighbour interpolation; witness | `C50_forward` `C50_backward` `C50_mid_partial` `C50_modes` `C50_mid_false` |
| C51 | proved | kfunc parameter management | Kfunc | equational laws on a heap of objects, histories of calls | `C51_merge` `C51_eval` `C51_plain` `C51_new_eval` `C51_stored` `C51_history` `C51_function` `C51_params` |
| C52 | proved | kfunc validation | Kfunc | decision table on signatures | `C52_class` `C52_function` `C52_misuse` |
| C53 | proved | Analytical means and variances solve the moment equations | Analytical | derivatives; uniqueness of solutions | `C53_unique` `C53_wiener` `C53_lognorm` `C53_oruh` `C53_cir` `C53_hw2f` `C53_hw2f_std` `C53_heston` `C53_heston_nonneg` `C53_heston_unique` `C53_hw2f_unique` `C53_std` |
| C54 | partial | Analytical characteristic functions | Analytical | integrals, series; Riccati equations; witness | `C54_wiener` `C54_lognorm` `C54_mjd` `C54_mjd_mean` `C54_kou` `C54_kou_mean_partial` `C54_kou_mean_false` `C54_zero` `C54_heston` `C54_heston_zero` `C54_heston_mean` `C54_heston_log_mean` |
| C55 | proved | Black-Scholes identities | Analytical | derivatives, bounds, limits | `C55_parity` `C55_delta_parity` `C55_bounds` `C55_maturity` `C55_sigma_zero` `C55_delta` `C55_kink` `C55_continuous` |
| C56 | proved | Black-Scholes price is the risk neutral expectation | Analytical | Gaussian integrals | `C56_call` `C56_put` `C56_forward` |
| C57 | proved | Stochasticity source protocol | Params | decision table | `C57_source_setup` |
| C58 | partial | Samples of different shape are broadcast by montecarlo | MonteCarlo | induction over sequences of updates, with invariants on stored moments; witnesses | `C58_no_bins_partial` `C58_accepts_partial` `C58_false` `C36_accepts` `C36_histogram` `C36_false` `C41_false` |
| C59 | partial | The interpolated pdf follows the histogram | McPdf | piecewise linear algebra; witness | `C39_interp_pdf` `C39_int_bins_partial` `C39_int_bins_false` |
| C60 | proved | Analytical density and distribution functions | Analytical | densities of normal laws | `C60_wiener` `C60_lognorm` `C60_oruh` `C60_hw2f` `C60_degenerate` |
| C61 | proved | Densities computed from characteristic functions | ChfPdf | Fourier inversion | `C61_inversion` `C61_mjd` `C61_kou` `C61_unique` `C61_no_diffusion` `C61_one_value` |
| C62 | partial | Density of the Cox-Ingersoll-Ross process | CirPdf | Poisson mixture of gamma densities; witness | `C62_density` `C62_moments` `C62_backward` `C62_initial` `C62_negative_false` |
| C63 | proved | Law of the Poisson source with memory | TrueWiener | induction over histories, elementary probabilities of paths | `C63_law` `C63_order` `C63_at` `C63_increment` |
| C64 | proved | Simulated Wiener and lognormal processes have the exact law | Presets, TrueWiener | sums of jointly normal increments | `C64_wiener` `C64_lognorm` `C64_wiener_pdf` `C64_lognorm_pdf` `C64_black_scholes` `C64_source` `C64_source_plain` |
| C65 | proved | Simulated Ornstein-Uhlenbeck and Hull-White processes converge to the analytical laws | Presets, Analytical | moments of jointly normal values by induction along steps; discrete Gronwall estimate | `C65_ou` `C65_hull_white` `C65_ou_order` `C65_ou_limit` `C65_mesh` `C65_ou_steps` `C65_hw_order` `C65_hw2f_limit` |
| C66 | proved | Simulated jump-diffusion processes have the exact law | Sources, JumpSources, Rv, Presets, ChfPdf | product measures: law of the loop over numbers of jumps, then convolution semigroup of increments along the grid via characteristic functions | `C66_jumpdiff` `C66_jumpdiff_cell` `C66_source` `C66_noise` `C66_normal_variates` `C66_double_exp_variates` `C66_merton` `C66_kou` `C66_merton_source` `C66_kou_source` |
| C67 | proved | Array parameters are broadcast: each cell solves its own scalar equation | ArrSDE, ArrPresets | simulation between the array and the cellwise integration (callPG_sim); conversely, induction on the steps of a successful run | `C67_cells` `C67_factors` `C67_euler` `C67_checked` `C67_x0` `C67_wiener` `C67_ornstein_uhlenbeck` `C67_hull_white` `C67_lognorm` `C67_cox_ingersoll_ross` `C67_jumpdiff` |
| C68 | proved | Monte Carlo estimates are unbiased and consistent, and stderr measures their error | MonteCarlo, Presets | C35 and C36 for what is reported; variance of sums of uncorrelated variables, Chebyshev and strong law of large numbers of Mathlib; C64 for the law of simulated values | `C68_unbiased` `C68_consistent` `C68_histogram` `C68_wiener` `C68_lognorm` |
| C69 | proved | Analytical functions apply elementwise to array arguments | ArrAnalytical | broadcasting of lists of shapes characterised by Spec.Joint, which is unique; calculus of outcomes of elementwise computations (Ew) | `C69_wiener` `C69_lognorm` `C69_oruh` `C69_cir` `C69_heston` `C69_mjd` `C69_kou` `C69_bs` |
| C70 | partial | Two-factor Hull-White statistics: parameters as numbers, vectors or arrays | ArrAnalytical | as C69, after removing the axis of factors from the joint shape (joint_otherAxes); concrete witnesses for the violations | `C70_moments_partial` `C70_distribution_partial` `C70_rejected` `C70_process_partial` `C70_mixed_false` `C70_vectors_false` |
| C71 | partial | Array parameters of preset jump distributions | ArrRv | items of joint shapes (C69) and scalar moments (C33); zip with leading axes of size one; concrete witnesses | `C71_norm_rv` `C71_uniform_rv` `C71_exp_rv` `C71_double_exp_rv_partial` `C71_norm` `C71_uniform` `C71_exp` `C71_double_exp_partial` `C71_degenerate` `C71_rejected` `C71_variable` `C71_merton_partial` `C71_kou_partial` `C71_exp_mean_false` `C71_cpoisson_false` |
| C72 | proved | Copies, shared memory and cached increments of processes | ProcMem | invariant of programs: buffers reached only from given owners (Lemmas/ProcMem, Owned), objects persist (Later) | `C72_defined` `C72_pcopy` `C72_xcopy` `C72_tcopy` `C72_ufunc` `C72_reference` `C72_scalar_time` `C72_dt` `C72_times` `C72_select` `C72_x` |
| C73 | partial | Methods of numpy.ndarray inherited by processes; attributes tx, dtx | ProcMem | as C72; bget of a column; concrete witness | `C73_tx` `C73_dtx` `C73_view_partial` `C73_new_partial` `C73_no_timeline` `C73_methods_false` |
| C74 | proved | Simulated Cox-Ingersoll-Ross process and the functions cir_mean, cir_var | Presets, Analytical | recursion along the grid (Lemmas/Chain); exponential moment of the part below zero (Lemmas/CirLaw, below_step); moment recursion vs. its differential equation (Lemmas/StepMoments, recursion_order) | `C74_cir_recursion` `C74_cir_below` `C74_cir_order` `C74_cir_steps` |
| C75 | proved | Simulated Heston process, its correlated noise, and the functions heston_log_mean, heston_log_var | Presets, Sources, Analytical | recursion along the grid for the pair of values (Lemmas/Chain); second moments of the pair vs. a linear differential equation (Lemmas/HestonMoments); marginals of the multivariate Gaussian measure | `C75_heston_recursion` `C75_heston_mean` `C75_heston_order` `C75_heston_steps` `C75_corr_noise` `C75_plain_noise` `C75_rho` |
| C76 | proved | Convergence in distribution of simulated Heston and Cox-Ingersoll-Ross processes to heston_log_chf and cir_pdf | Presets, Sources, Analytical, CirPdf | exponentials of affine functions along a grid, with coefficients solving Riccati equations (Lemmas/AffineChf), exponential bounds for values below zero, Levy continuity theorem (Lemmas/LevyUnif), analytic continuation of the Laplace transform of cir_pdf (Lemmas/NcGammaChf) | `C76_heston_order` `C76_heston_law` `C76_heston_conv` `C76_heston_steps` `C76_cir_conv` `C76_cir_steps` |
| C77 | proved | Processes as stochasticity sources and as parameters of other processes | ProcSource, Process, Params, ArrPresets | the increments of a process telescope (C14 with memory), on cells (C67); uniqueness of the piecewise linear function | `C77_accepted` `C77_wiener` `C77_replay` `C77_lognorm` `C77_parameters` `C77_intensity` |
| C78 | proved | Law of compound Poisson sources with memory | TrueCPoisson, TrueSource, TruePoisson | for every path of numbers of jumps, evaluations preserve the product of the law of unrevealed jumps and of the generator (induction on the times); the events cover the space, hence the joint law | `C78_law` `C78_noAtoms` `C78_positive` `C78_normal` `C78_double_exp` `C78_stuck` `C78_false` |
| C79 | partial | Interpolation kinds | InterpKinds | positions found by searchsorted are characterised by order; kinds agree at nodes; monotone positions give monotone values | `C79_kinds` `C79_single` `C79_default` `C79_shape` `C79_nodes` `C79_outside` `C79_previous` `C79_next` `C79_nearest` `C79_nearest_up` `C79_linear` `C79_call` `C79_rebase` `C79_rebase_self` `C79_piecewise_forward` `C79_piecewise_backward` `C79_piecewise_mid` `C79_pdf` `C79_cdf` `C79_pdf_nonneg` `C79_cdf_mono` `C79_pdf_cubic_false` `C79_cdf_cubic_false` |
| C80 | proved | Density of Heston values | ChfPdf, Heston, Analytical | comparison for the Riccati equation gives exponential decay of the characteristic function, then Fourier inversion; expansions to the second order at zero; uniform convergence of cumulative probabilities to a continuous limit | `C80_chf_moments` `C80_heston_density` `C80_heston_pdf` `C80_heston_std` `C80_heston_conv` `C80_heston_steps` `C80_heston_options` `C80_cir_conv` `C80_no_diffusion` |
| C81 | partial | Analytical statistics where their formulas divide zero by zero | FloatAnalytical, NpFloat, CirPdf | evaluation of the formulas on floats with infinities and NaN; solutions of the moment equations at the singular parameters; continuity of integrals in a parameter, expansion of the exponential to the third order, dominated convergence of series | `C81_finite_partial` `C81_hw2f_partial` `C81_pdf_partial` `C81_oruh_false` `C81_oruh_limit_partial` `C81_hw2f_false` `C81_hw2f_limit_partial` `C81_cir_false` `C81_cir_limit_partial` `C81_heston_false` `C81_heston_limit_partial` `C81_cir_pdf_false` `C81_cir_zero_limit_partial` `C81_cir_zero` `C81_initial_false` `C81_oruh_known_false` `C81_initial_limit_partial` |
| C82 | partial | Wiener sources with memory accept the correlations of Wiener sources, and return arrays of values of a Wiener process | ArrTrueWiener, TrueWiener, TrueSource, Indexed, Sources, Params | simulation of the array-level source by the matrix-level one of C30, step by step, that carries its law over | `C82_law_partial` `C82_increments_partial` `C82_plain` `C82_plain_increments` `C82_trailing_axis_false` `C82_singular_false` |
| C83 | proved | Simulated values converge in mean square to the solution of the equation, as integration steps get shorter | PathsGenerator, SDE, TrueNoise, TrueWiener | mean square errors of two Euler schemes compared step by step (Gronwall, orthogonality of increments); solution as limit in L2; Wiener process from an orthonormal basis of L2 and independent normal variables | `C83_scheme` `C83_strong` `C83_true_wiener` `C83_solution` |
| C84 | proved | Expectations and laws of simulated values converge to those of the solution of the equation | PathsGenerator, SDE, Sources | the scheme is a function of the increments of the noise; increments drawn anew and increments of a Wiener process are Gaussian families with equal covariances, so have equal laws; then C83 on the second | `C84_coupling` `C84_expectation` `C84_law` |
| C85 | proved | Monte Carlo estimates from simulations converge to expectations of functions of the solution of the equation | PathsGenerator, SDE, Sources, MonteCarlo | independence of paths and of runs from Gaussian families with zero covariances; variance of means of independent variables; C83 for the bias, C35 for the mean | `C85_estimate` `C85_montecarlo` |
| C86 | proved | Simulations of equations with many sources of noise, jumps included, converge in mean square to the solution of the equation | PathsGenerator, SDE | reduction of any number of noise terms to C83 by splitting and standardising; compound Poisson processes at all times built from a Poisson number of marked points, with independence from characteristic functions | `C86_scheme` `C86_strong` `C86_solution` |
| C87 | proved | Expectations and laws of values simulated with many random sources, jumps included, converge to those of the solution | PathsGenerator, SDE, Sources, JumpLaw models | independence of draws from the fold of the realisation of all sources, identification of laws along the grid with those of increments of the driving noise, then C86 | `C87_coupling` `C87_expectation` `C87_law` `C87_sources` `C87_merton` |
| C88 | proved | Equations with no noise: errors proportional to the length of steps, before and after the initial time | PathsGenerator, SDE | global existence from the Picard-Lindelof theorem of Mathlib for a truncated coefficient, with a Gronwall bound; local and global errors of the Euler method; reflection of time for the steps backwards | `C88_scheme` `C88_solution` |
| C89 | proved | Monte Carlo estimates from simulations of equations with many sources of noise, jumps included, converge to expectations of functions of the solution | PathsGenerator, SDE, Sources, JumpSources, MonteCarlo | the state left by a run is independent of the noise realised; the noise of all paths has the law of copies of the noise of the solution, in a product space; bias and variance of the mean as in C85 | `C89_estimate` `C89_montecarlo` `C89_sources` |
| C90 | partial | Calls of the same integrator do not depend on previous calls, except for random draws | PathsGenerator, Calls | induction on calls, following the steps attribute; concrete witness | `C90_repeated_partial` `C90_iterator` `C90_one_point` `C90_false` |
| C91 | proved | Backwards from the initial time, simulations converge in mean square to the solution of the equation | PathsGenerator, SDE | reflection of time about the initial one, then C86 | `C91_scheme` `C91_strong` `C91_solution` |
| C92 | proved | Expectations and laws of values simulated backwards from the initial time converge to those of the solution | PathsGenerator, SDE, Sources, CPoisson | reflection of time and of the independent steps drawn, then as C87 | `C92_coupling` `C92_expectation` `C92_law` `C92_sources` |
| C93 | proved | Simulations of equations with additive noise converge with order one | PathsGenerator, SDE | comparison of a grid with any finer one, where the change of the drift due to noise has zero mean to the first order; then limit of finer grids, by existence and uniqueness as in C86; reflection of time | `C93_order_one` `C93_order_one_back` `C93_cells` |
| C94 | partial | Keys of process indexing: modes, booleans, NumPy integers | ProcessKeys | reduction of keys to the indexes of C45; booleans are lists of positions; NumPy integers separately | `C94_modes` `C94_array` `C94_whole` `C94_time_partial` `C94_paths_partial` `C94_values_partial` `C94_npint_paths` `C94_npint_time` `C94_false` |
| C95 | proved | Expectations and Monte Carlo estimates converge with order one if noise is additive | PathsGenerator, SDE, Sources, JumpSources, MonteCarlo | coupling as in C87, C89 and C92 of simulated values with schemes driven by the noise of the solution, at the distance of C93 | `C95_expectation` `C95_expectation_back` `C95_montecarlo` |
| C96 | partial | Compound Poisson sources on given sources and types of Poisson increments | PoissonTypes | attributes and increments of each class of sources; reduction to C24 for integers; the first iteration raises for floats | `C96_jumps_partial` `C96_default` `C96_float` `C96_types` `C96_even_class` `C96_even_default` `C96_false` |
| C97 | partial | Updating a component of a montecarlo instance | McUpdate | induction on sequences of updates of instances that share the number of paths | `C97_empty_partial` `C97_child` `C97_view` `C97_false` `C97_view_false` |
| C98 | partial | Indexing montecarlo instances by slices and lists | McSlice | indexing an array is indexing the array of positions; positions selected are shown to be valid, then C35, C36 | `C98_index` `C98_values` `C98_follows_partial` `C98_stale` `C98_histogram` `C98_false` |
| C99 | partial | Timelines of unsigned integers | PathsGenerator, UnsignedTime | simulation of the loop along the embedding of unsigned times into numbers; concrete witnesses | `C99_forward_partial` `C99_whole` `C99_false` `C99_backward_false` |
| C100 | proved | Sources with memory: how much they store | TrueSource, TrueCPoisson, SourceSize | induction on histories; the sizes of stored variates add up along the chain of stored times | `C100_size` `C100_repeat` `C100_cpoisson` `C100_cpoisson_partial` `C100_split` |
| C101 | proved | Multiplicative noise: the exact error of a simulation, and its order | PathsGenerator, SDE | second moments of two schemes on nested grids solve the same recursion; the finer grid is refined, its scheme converges in L2 to the solution (C83), and the product of factors to the exponential | `C101_error` `C101_bounds` `C101_order` |
| C102 | proved | Affine drifts: means of simulated values are exact Euler values, of order one | PathsGenerator, SDE | increments are independent of values at the start of each step, so that the mean of a step of the scheme is a step of the Euler method for the mean drift; the error bound is then that of C88 for ordinary differential equations, and the mean of solutions is the limit along finer grids; generators by equality in law with schemes driven by the noise of the solution | `C102_mean` `C102_order` `C102_draws` |
| C103 | proved | Paths simulated in all runs are independent and of the same law, and montecarlo measures the error of their mean exactly | PathsGenerator, SDE, MonteCarlo | each run draws, from the state left by the previous one, noise independent of it; a path is a measurable function of its own noise, so that paths inherit independence and law from the noise of single paths (C89); then means, variances and standard errors are those of C68, and the bias is that of C102 | `C103_paths` `C103_montecarlo` `C103_means` `C103_variances` |
| C104 | proved | Mean squares and variances of simulations of linear equations follow an exact recursion and have order one | SDE, Integrator | as simulated values only depend on noise so far, cross terms have mean zero and the square of the noise only enters through its variance; the pair of mean and mean square follows the Euler method for an ordinary differential equation, up to terms of order two, whose sum is bounded by the Gronwall inequality; solutions are limits of simulations, C87 | `C104_squares` `C104_order` `C104_draws` |
| C105 | proved | Means and variances of values simulated backwards have order one, for linear equations | SDE, Integrator | time is reflected around t0, which turns schemes, noise and solutions backwards into forward ones, C91; then as for C104 | `C105_squares` `C105_order` `C105_draws` |
| C106 | proved | Confidence intervals from the mean and stderr of a montecarlo instance are asymptotically exact | MC, SDE, Integrator | central limit theorem and Slutsky theorem of Mathlib for the mean divided by the standard error, C103 for independence and equality in law of paths; the bias with respect to solutions as for C89 and C102 | `C106_interval` `C106_simulation` `C106_solution` `C106_means` |
| C107 | proved | Skewness, kurtosis, densities and distribution functions estimated by montecarlo are consistent | MC | strong law of large numbers for powers and for indicators of bins (C68_histogram), sums over bins as probabilities of intervals, monotonicity of the cdf (C39) | `C107_moments` `C107_cdf` `C107_density` `C107_simulation` |
| C108 | proved | Names exported by the package are wrapped as kfuncs according to the configuration | PyVal, shortcutsModule, functionSigs, classSigs | induction on sequences of assignments with distinct targets, C52 for each wrapping; checks on the tables of names by decide | `C108_names` `C108_sdepy` |
| C109 | proved | Random numbers are drawn from the generator asked for, and from no other | Prog, GenSrc, newDw, newDn, newDj, newRngSim, RngWorld | computations drawing from generators as trees; using no other generators (a statement on execution) is preserved by composition; induction on histories for independence | `C109_dw` `C109_dn` `C109_dj` `C109_seed` `C109_accepted` `C109_process` `C109_process_seed` `C109_isolated` |
| C110 | partial | The intensity given is that of the Poisson events generated | newDn, newDj, sourceOf | case analysis on classes and parameters | `C110_intensity_partial` `C110_instance` `C110_false` |
| C111 | proved | With antithetic paths, averages of processes with additive noise are free of noise | SDE.call, antithetics, wienerCall, ouSDE, cellsSource | averages over pairs follow the recursion without noise: induction along both halves of the grid, through C02 and C22 | `C111_pairs` `C111_odd_wiener` `C111_ornstein_uhlenbeck` |
| C112 | proved | Antithetic paths of jump-diffusions keep jumps and drop noise from averages | SDE.call, antithetics, cpoissonCall, jumpdiffSDE, cellsSource | a relation between the states of two processes, that have the same averages over pairs, is preserved by steps and hence along both halves of the grid | `C112_pairs` `C112_even_cpoisson` `C112_jumpdiff` |
| C113 | proved | montecarlo reports exact means, and zero errors, for antithetic paths with additive noise | SDE.call, MC.update, MC.mean, MC.var, MC.std, MC.stderr | values that enter in statistics are all equal to the value without noise (C111, C38); then C35 | `C113_montecarlo` `C113_stderr` |
| C114 | proved | Variances of samples are split exactly between use='even' and use='odd' | MC.update, MC.mean, MC.var | moments of the values pooled over all samples (C35), and sums of squares of half sums and half differences, by induction on samples | `C114_variances` |
| C115 | proved | Means over antithetic paths are not biased, and their errors are as reported | SDE.call, antithetics, wienerCall, MC.update, MC.mean, MC.stderr | a pair of paths is taken as a single path with twice as many components, so that C103 applies to pairs; the scheme of a pair is compared with the scheme with the opposite noise, which has the same law | `C115_paths` `C115_montecarlo` `C115_odd` `C115_odd_wiener` `symmetric_normal` |

## 4. Disagreements between code, documentation and expectations

Proved, with a concrete witness:

1. `SDEs` with `log=True`: `SDE.exit` exponentiates, then `SDEs.result` exponentiates again
   (`C09_systems_false`).
2. Counters in `info` cumulate the backward and forward passes; the documentation says forward only
   (`C06_counters_cumulate_both_directions`).
3. With depth > 2, `i0` splitting the grid into a part shorter than `depth - 1` leaks `StopIteration`:
   the check is on the whole grid (`C04_short_side`, `C04_deep_leaks_stopIteration`).
4. Sources with memory: the tolerance check at the left end uses index -1 and wraps around, so that a
   time just below `t0` may get the value at the other end (`C25_false`).
5. `cpoisson_source` accepts an underlying `dn` whose values are to be broadcast, and then gives
   wrong jumps or raises (`C24_false`, `C24_false_error`).
6. `true_cpoisson_source._encode_y` asserts that no jump variate is zero (`C29_false`).
7. Indexed sources with memory apply the index to the axes of time, if times are an array
   (`C31_false`).
8. A process given as `rho`, with scalar values and many paths, is read as many correlations
   (`C32_rho_process`).
9. `double_exp_rv.exp_mean` is wrong for `pa = 0`, `a >= 1` (`C33_double_exp_false`); `uniform_rv` with
   `a = b` reports NaN moments (`C33_uniform_false`); the docstring of `exp_rv` gives a density with
   rate `a`, the code has scale `a` (`C33_exp_docstring_false`).
10. `montecarlo.kurtosis`: 3 is subtracted only with fewer than 2 data (`C35_kurtosis_false`); an empty
    sample makes statistics NaN for good (`C35_empty_false`); an empty first sample fixes bins
    (`C36_empty_first`).
11. `montecarlo.update` with data points of different shape gives wrong histograms (`C36_false`), or raises
    after having changed part of the state (`C41_false`, `C41_first_false`); samples that
    lack a leading axis of size one are accepted, with wrong histograms (`C41_missing_false`).
12. `montecarlo` with bins of integers: midpoints are truncated (`C39_int_bins_false`).
13. `montecarlo.__getitem__`: single components are copies, that do not follow updates (`C40_false`); unusable
    without bins (`C40_no_bins_false`) or when empty (`C40_empty_false`).
14. `process`: `x` of one dimension is accepted (`C42_false`); complex constants lose their imaginary part
    (`C42_complex_false`).
15. Ufuncs with three operands: compatibility of timelines is checked only against the process handling
    the call (`C43_false`); arrays with more axes than the process (`C43_array_false`).
16. Processes of integers: interpolated values, means, variances, integrals are truncated (`C44_int_false`,
    `C47_int_false`, `C47_int_var_false`, `C48_int_false`); `pstd`, `tstd`, `tder` raise `TypeError`
    (`C47_int_std_false`, `C48_int_tder_false`).
17. `p['p', i]` with an integer out of range silently yields zero paths (`C45_false`); lists of integers as
    indices of values move axes (`C45_lists_false`).
18. `piecewise` in mode `mid`: times are not midpoints, unless evenly spaced (`C50_mid_false`).
19. `kou_mean` is finite where the mean of the process is infinite (`C54_kou_mean_false`).
20. `cir_pdf` is NaN, not 0, for negative values (`C62_negative_false`).
21. Two-factor Hull-White statistics: vectors mixed with arrays give results of another shape with wrong values
    (`C70_mixed_false`); `hull_white_process` gives the items of vectors to paths, the statistics to factors
    (`C70_vectors_false`).
22. `cpoisson_source`, `merton_jumpdiff_process`, `kou_jumpdiff_process`: parameters of jumps documented as
    broadcastable to `vshape + (paths,)` are matched with jump numbers: a path gets jumps drawn with the
    parameters of another one, or `ValueError` is raised (`C71_cpoisson_false`).
23. `double_exp_rv(...).exp_mean()` raises with array parameters (`C71_exp_mean_false`).
24. `p.reshape(6).copy()`: methods of `numpy.ndarray` raise `AttributeError` on a process that an earlier method
    has left without a timeline (`C73_methods_false`).
25. `true_cpoisson_source.new_inside` takes the source as constant between two times with equal values, even if
    jumps occurred that cancel each other: for jumps that take two opposite values the values returned do not
    follow the law of a compound Poisson process (`C78_false`, `C78_stuck`).
26. With `kind='cubic'` the pdf of `montecarlo`, by method 'interp', may be negative, the cdf may decrease and be above 1
    (`C79_pdf_cubic_false`, `C79_cdf_cubic_false`).
27. `oruh_var`, `cir_var`, `heston_log_mean`, `heston_log_var` are NaN at `k=0`, `hw2f_var` also for `k1 + k2 = 0`, although
    the processes and their moments are well defined there (`C81_oruh_false`, `C81_cir_false`, `C81_heston_false`,
    `C81_hw2f_false`); `cir_pdf` is NaN for `x0=0` and `t=0` (`C81_cir_pdf_false`), functions `*_cdf` at `t=0`
    (`C81_initial_false`); `oruh_pdf` and `oruh_cdf` also return NaN at any time if `sigma = 0`
    (`C81_oruh_known_false`).
28. `true_wiener_source`, unlike `wiener_source`, does not work with callable correlations with a trailing axis, as those
    given by deterministic processes (`C82_trailing_axis_false`), or singular (`C82_singular_false`; perfect
    correlation works if constant): values between known ones cannot be asked for.
29. `paths_generator`: `steps` given as an iterator, documented as accepted (an iterable), is consumed by the first
    call; later calls of the same instance take no intermediate steps (`C90_false`).
30. `process.__getitem__` keeps the axis of an integer index only if it is a Python integer: `p['p', i]` with `i` a NumPy
    integer loses the axis of paths, and components of values become paths; `p['t', i]` raises `ValueError`, or
    takes an axis of size one as that of time (`C94_false`, `C94_npint_paths`, `C94_npint_time`).
31. Instances of `even_poisson_source` hold floats by default (`dtype=None`, against `int` for `poisson_source`): given as `dn` to
    `cpoisson_source` they are accepted, but all calls raise `TypeError` in `range(1, nmax+1)`; the same goes for
    `ptype=float` (`C96_false`, `C96_even_default`, `C96_float`).
32. Instances obtained by indexing a `montecarlo` instance cannot be updated: `_center` is not set by `__getitem__`, and `update`
    raises `AttributeError`; if the indexed instance was empty the update succeeds, but `use` is ignored, and
    the indexed instance then reports paths it does not hold, and cannot be updated any more (`C97_false`,
    `C97_view_false`, `C97_view`, `C97_empty_partial`).
33. `a[i]`, for a `montecarlo` instance and an index with lists, does not follow updates of `a`, though it is said to reference
    its statistics with no copying: mean, moments and `outpaths` are copies, while paths and histograms are
    shared (`C98_false`, `C98_stale`). With slices all follow (`C98_follows_partial`).
34. Timelines of unsigned integers are not converted to floats (only those of kind 'i' are, `integration.py` 529):
    integration steps are rounded down to whole numbers, so that less of them are taken than requested, and
    backward integrations through intermediate points raise `RuntimeError` (`C99_false`, `C99_backward_false`, `C99_forward_partial`).
35. `montecarlo.update` is documented to apply broadcasting rules to subsequent samples. Apart from leading axes of
    size one, samples to be broadcast are rejected (`C58_false`, `C58_accepts_partial`), as `sample - center` is assigned to an
    array of the shape of the sample (`infrastructure.py` 2945).
36. `true_cpoisson_source(dn=true_poisson_source, lam=5.)`: a class given as `dn` is instantiated with intensity 1, as
    `lam` and `ptype` are not handed on to `cpoisson_source` (`infrastructure.py` 2610-2612, "ptype, lam are set by dn").
    The same goes for processes, with `dj=true_cpoisson_source, dn=true_poisson_source, lam=5.`. Classes are documented
    as accepted by `cpoisson_source`, to which the documentation refers for `dn` (`C110_false`).

Found by reading, not formalised: `true_cpoisson_source` creates its `dn` with `t0=0` regardless of its own
`t0` (harmless: only increments are used); `interp_kind` is not kept by ufuncs; the docstring of `bscall` has a sign wrong; `f(**a)()` on a kfunc is an evaluation; "no less than 1
path" is not enforced; differences of unsigned times computed by `next`, in backward integrations, wrap around.

## 5. What is missing in partial results for reasons other than the code

* C44, C59: kinds of interpolation other than linear are treated in C50 (nearest) and C79.
* C40, C45: kinds of indices other than those said in the manifest.

## 6. Axiom audit

For all theorems of the modules `Verif.*` (9140, those generated by Lean for definitions included),
`Lean.collectAxioms` gives subsets of {`propext`, `Classical.choice`, `Quot.sound`}. There is no
`sorry`, no axiom declaration, no `native_decide` or `bv_decide`.

## 7. Tests of the theorems

`seeded/LOG.jsonl` records edits of the model that imitate plausible bugs, with the theorems that
fail. Where all theorems survived, either the edit does not change the behaviour, or the theorems were
strengthened until it was detected, as said in the record.
