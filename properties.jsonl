{"id": "C01", "title": "Every requested time point is stored, exactly there", "statement": "When a call p(timeline) of any paths_generator subclass returns, each slot i of the output was written by a store call made when the working time was exactly timeline[i], slots being filled once each and in simulation order; this holds whatever the subclass's next does to the step size, for any depth >= 2.", "quantifier": "all timelines, step lists, depths >= 2, subclass callbacks (including adaptive next), and forward or backward runs that terminate", "why_tests_cant": "adaptive step control makes the set of reachable step sequences infinite; a test fixes one subclass and one timeline", "anchors": ["sdepy/integration.py:paths_generator._generate_paths", "sdepy/integration.py:paths_generator._store_if_reached"]}
{"id": "C02", "title": "The integrator computes the Euler-Maruyama recursion", "statement": "p(timeline) for an SDE integrated with method 'euler' returns, at every timeline point, the value obtained by iterating x(s+ds) = x(s) + sum over differentials of coefficient(s, x(s)) * dZ(s, ds) along the merged step grid starting from the initial condition at timeline[i0].", "quantifier": "all SDE coefficient functions, noise realisations (rng states), step grids, timelines, i0, forward and backward", "why_tests_cant": "the recursion has unboundedly many steps and arbitrary coefficients and noise; tests check one equation against tolerances", "anchors": ["sdepy/integration.py:integrator.euler_next", "sdepy/integration.py:paths_generator._generate_paths", "sdepy/integration.py:SDE.A", "sdepy/integration.py:SDE.dZ"]}
{"id": "C03", "title": "Integration grid = timeline merged with requested steps", "statement": "The time points touched by an integration are, in strictly increasing order and without repetition, exactly the timeline points together with the points requested via steps that lie between the first and the last timeline point (for integer steps: that many equally spaced points from first to last).", "quantifier": "all strictly increasing timelines and all steps specifications (None, int, iterable), in exact arithmetic", "why_tests_cant": "unbounded timelines and step lists; boundary coincidences are rarely sampled", "anchors": ["sdepy/integration.py:paths_generator.pace", "sdepy/integration.py:paths_generator.__call__"]}
{"id": "C04", "title": "Timeline and i0 validation", "statement": "p(timeline) is rejected with ValueError unless timeline is one-dimensional and strictly increasing, with IndexError unless i0 indexes an element of it (negative values counting from the end), with ValueError when depth < 2, or when the grid has fewer than depth - 1 points; otherwise it is accepted, i.e. the only exceptions are those of the callbacks and RuntimeError (see C07), provided that there are at least depth - 1 grid points on each side of timeline[i0] to be integrated, as is always so for depth 2. (If one side only has too few points, StopIteration leaks.) Negative integer steps are left to np.linspace.", "quantifier": "all timelines (any list of numbers), all integer i0, all depths", "why_tests_cant": "the accept/reject frontier is infinite", "anchors": ["sdepy/integration.py:paths_generator.__call__"]}
{"id": "C05", "title": "Backward and forward integration from timeline[i0]", "statement": "For every valid i0 (also negative) every output slot is computed; the initial condition is imposed at timeline[i0] and appears there; slots before i0 result from integrating backwards from timeline[i0] through the grid points below it in descending order, slots after i0 forwards through those above it.", "quantifier": "all timelines, all valid i0 in [-n, n), all coefficients and noise", "why_tests_cant": "depends on index arithmetic over all sizes and signs of i0", "anchors": ["sdepy/integration.py:paths_generator.__call__"]}
{"id": "C06", "title": "Step counters in info", "statement": "After an integration with getinfo, info['computed_steps'] is the number of grid points minus one and info['stored_steps'] the number of timeline points minus one (depth 2, non adaptive), info t0/tmin/tmax being timeline[i0], first and last point. (The documentation says that for a both backwards and forwards run the counters cover the forward part only.)", "quantifier": "all timelines, grids and i0", "why_tests_cant": "counter drift shows only on particular combinations of grid, i0 and direction", "anchors": ["sdepy/integration.py:paths_generator._generate_paths", "sdepy/integration.py:paths_generator.__call__"]}
{"id": "C07", "title": "Steps outside the permitted interval are rejected", "statement": "If a subclass next moves the working time to a value not strictly after the previous one, or beyond the current target, the call raises RuntimeError; if it always stays within (previous, target], no RuntimeError and no StopIteration is raised (with enough grid points for the depth, see C04). So RuntimeError is raised exactly when a move made in the integration leaves the interval.", "quantifier": "all subclass next functions, grids, directions", "why_tests_cant": "quantifies over all adaptive step policies and all points of the run at which one misbehaves", "anchors": ["sdepy/integration.py:paths_generator._generate_paths"]}
{"id": "C08", "title": "Output timeline does not influence computed values", "statement": "Two integrations with the same grid, initial condition, coefficients and noise but different output timelines agree at every time point common to both outputs.", "quantifier": "all pairs of timelines with the same merged grid, the same starting point, and points on the same sides of it", "why_tests_cant": "relational property over all pairs of calls", "anchors": ["sdepy/integration.py:paths_generator.__call__", "sdepy/integration.py:paths_generator._generate_paths"]}
{"id": "C09", "title": "Logarithmic integration is transparent", "statement": "With log=True the result at timeline[i0] equals the (positive) initial condition x0, and the result elsewhere is the exponential of the Euler solution of the stated equation started at log(x0). For SDEs (systems) the same should hold component by component.", "quantifier": "all positive initial conditions, timelines, coefficients and noise", "why_tests_cant": "needs all inputs; the system case is only visible with log=True on SDEs", "anchors": ["sdepy/integration.py:SDE.begin", "sdepy/integration.py:SDE.exit", "sdepy/integration.py:SDEs.result"]}
{"id": "C10", "title": "SDE keyword parameters are resolved or rejected", "statement": "Instantiating an SDE with keyword arguments succeeds exactly when every given keyword appears in the signature of sde, init, more or a source method, every expected parameter has a given value or a default, and no parameter has two different defaults; then each parameter takes the given value if given and its default otherwise. All failures are TypeError, but for a declared differential without a source method, which is a ValueError.", "quantifier": "all signatures (parameter names and defaults) and all keyword dictionaries", "why_tests_cant": "combinatorial in the names", "anchors": ["sdepy/integration.py:SDE._inspect_args_defaults", "sdepy/integration.py:SDE._consolidate_args"]}
{"id": "C11", "title": "Differentials: unknown keys rejected, absent ones contribute nothing", "statement": "An sde returning a key that is not a declared source makes the step fail with KeyError; declared sources absent from the dictionary are still realised (consuming randomness, in ascending order of id) but contribute zero; the order of keys in the returned dictionary is irrelevant.", "quantifier": "all dictionaries returned by sde, all sets of sources", "why_tests_cant": "quantifies over all equations", "anchors": ["sdepy/integration.py:SDE._check_sde_values", "sdepy/integration.py:SDE.dZ", "sdepy/integration.py:integrator.euler_next"]}
{"id": "C12", "title": "SDEs pack / unpack are inverse and dispatch as documented", "statement": "unpack(pack(xs)) returns xs (broadcast to vshape+(paths,)) and pack(unpack(X)) returns X; with addaxis component [kk, i] of packed values is component kk of equation i, without it component [kk, i*N+h] is component [kk, h] of equation i.", "quantifier": "all q >= 1, all vshape and paths, both addaxis settings, all array values", "why_tests_cant": "index arithmetic over all shapes", "anchors": ["sdepy/integration.py:SDEs.pack", "sdepy/integration.py:SDEs.unpack", "sdepy/integration.py:SDEs.shapes"]}
{"id": "C13", "title": "A system of SDEs is integrated equation by equation", "statement": "Integrating an SDEs system yields, for each equation i, the Euler recursion of that equation with coefficients evaluated at the current values of all the components and with the i-th block of the source values as noise; differentials missing in an equation contribute zero to it.", "quantifier": "all q, equations, noise, grids", "why_tests_cant": "unbounded systems and recursions", "anchors": ["sdepy/integration.py:SDEs.A", "sdepy/integration.py:SDEs.pack", "sdepy/integration.py:SDEs.unpack", "sdepy/integration.py:integrator.euler_next"]}
{"id": "C14", "title": "Wiener and lognormal processes: closed form along the grid", "statement": "wiener_process with constant mu, sigma returns x0 + mu*(t - t0) + sigma*(sum of the realised dw up to t); lognorm_process returns x0*exp((mu - sigma**2/2)*(t-t0) + sigma*(sum of dw)). Hence with a source with memory the value at t does not depend on the grid.", "quantifier": "all parameters, grids, timelines, noise realisations", "why_tests_cant": "independence from the discretisation is a relational property over all grids", "anchors": ["sdepy/integration.py:wiener_SDE", "sdepy/integration.py:lognorm_SDE"]}
{"id": "C15", "title": "Lognormal and jump-diffusion values stay positive", "statement": "lognorm_process, jumpdiff_process, merton_jumpdiff_process, kou_jumpdiff_process, and the x component of heston processes only return positive values if x0 is positive.", "quantifier": "all parameters, noise and jump realisations, grids", "why_tests_cant": "rare noise realisations", "anchors": ["sdepy/integration.py:lognorm_SDE", "sdepy/integration.py:jumpdiff_SDE", "sdepy/integration.py:heston_SDE"]}
{"id": "C16", "title": "Hull-White process is the sum of its factors", "statement": "hull_white_process with F factors returns the sum of the F Ornstein-Uhlenbeck processes driven by the corresponding components of dw; with factors=1 it coincides with ornstein_uhlenbeck_process; one OU step is the stated affine contraction towards theta.", "quantifier": "all F >= 1, parameters, noise, grids", "why_tests_cant": "unbounded number of factors and steps", "anchors": ["sdepy/integration.py:hull_white_SDE", "sdepy/integration.py:ornstein_uhlenbeck_SDE"]}
{"id": "C17", "title": "heston_process is the x component of full_heston_process", "statement": "With the same parameters and noise, heston_process returns exactly the first process returned by full_heston_process, for both storage layouts (scalar and vector values).", "quantifier": "all parameters, vshape, noise, timelines", "why_tests_cant": "relational over two classes and all inputs", "anchors": ["sdepy/integration.py:heston_SDE", "sdepy/integration.py:full_heston_SDE"]}
{"id": "C18", "title": "Full truncation in square-root processes", "statement": "In cox_ingersoll_ross_process and the heston processes the square root is only ever taken of a non-negative number, whatever values the volatility reaches; at non-positive values the noise coefficient is zero and the drift is k*theta; at positive values the coefficients are those of the stated SDE.", "quantifier": "all states, parameters", "why_tests_cant": "negative excursions depend on the noise", "anchors": ["sdepy/integration.py:cox_ingersoll_ross_SDE.sde", "sdepy/integration.py:full_heston_SDE.sde"]}
{"id": "C19", "title": "Diagnostic counts", "statement": "After an integration with getinfo, full_heston_process info['negative_y_count'] is for each path the number of steps of the last pass (the forward one, if any) that started from negative y; jumpdiff_process info['jump_count'] is the total number of jumps realised by dj in each path during the (last) pass and jump_rate the rates between output points.", "quantifier": "all noise realisations, grids and timelines", "why_tests_cant": "cumulative over histories of arbitrary length", "anchors": ["sdepy/integration.py:full_heston_SDE.info_next", "sdepy/integration.py:jumpdiff_SDE.info_next"]}
{"id": "C20", "title": "integrate decorator infers equation structure", "statement": "integrate(f) builds a single-equation integrator when f evaluates to a dict, and a q-equation system when it evaluates to a non-empty list or tuple of q dicts, with sources the union of their keys; inconsistent q or sources, empty lists, entries that are not dicts, and failed test evaluations are rejected; giving both q and sources avoids the test evaluation.", "quantifier": "all test values, q and sources arguments", "why_tests_cant": "decision logic over all combinations", "anchors": ["sdepy/integration.py:_SDE_from_function", "sdepy/integration.py:integrate"]}
{"id": "C21", "title": "Wiener source increments: shape, scaling, covariance", "statement": "dw(t, dt) has shape (broadcast of t and dt) + vshape + (paths,), is sqrt(|dt|) times standard normals (correlated along the last axis of vshape according to corr, evaluated at t + dt/2 if time dependent), so it is zero for dt = 0 and its covariance matrix is corr*|dt|.", "quantifier": "all t, dt (any shape and sign), vshape, paths, corr, rng output", "why_tests_cant": "covariance identities cannot be decided by sampling", "anchors": ["sdepy/infrastructure.py:wiener_source.__call__"]}
{"id": "C22", "title": "Antithetic sources", "statement": "odd_wiener_source returns 2K paths with x[..., K+i] == -x[..., i], averaging exactly to zero across paths; even_* sources return x[..., K+i] == x[..., i]; odd path numbers are rejected.", "quantifier": "all K, shapes, underlying realisations", "why_tests_cant": "for all realisations", "anchors": ["sdepy/infrastructure.py:_antithetics"]}
{"id": "C23", "title": "Poisson source increments", "statement": "dn(t, dt) are integers with the sign of dt (zero if dt is zero), drawn for each time with intensity lam or lam(t+dt/2) times |dt|, with shape (broadcast of t and dt)+vshape+(paths,).", "quantifier": "all t, dt, lam, rng output", "why_tests_cant": "for all realisations", "anchors": ["sdepy/infrastructure.py:poisson_source.__call__"]}
{"id": "C24", "title": "Compound Poisson source increments", "statement": "dj(t, dt) is, in each cell, sign(dt) times the sum of exactly |dn| variates of y, where dn is the realised Poisson increment exposed as dn_value, every variate exposed in y_value being used exactly once; cells with dn == 0 get exactly 0.", "quantifier": "all dn realisations, y variates, shapes", "why_tests_cant": "the grouping of variates by jump count depends on every realisation", "anchors": ["sdepy/infrastructure.py:cpoisson_source.__call__"]}
{"id": "C25", "title": "Sources with memory never change a realised value", "statement": "For every source with memory, if dz(s) was returned once, then any later dz(s), after any sequence of other evaluations, returns the same value; in particular dz(t0) is z0 forever.", "quantifier": "all histories of evaluations, all s, t0, z0, rng output, all subclasses (wiener, poisson, cpoisson), rtol", "why_tests_cant": "quantifies over all interleavings of evaluations; failure needs particular orderings", "anchors": ["sdepy/infrastructure.py:true_source._retrieve_old_or_generate_new"]}
{"id": "C26", "title": "Sources with memory: increments are differences", "statement": "dz(t, dt) == dz(t+dt) - dz(t), so increments over adjacent intervals add up to the increment over their union, whatever was evaluated before, after or in between.", "quantifier": "all histories, all intervals", "why_tests_cant": "all orderings of evaluations", "anchors": ["sdepy/infrastructure.py:true_source.__call__"]}
{"id": "C27", "title": "Sources with memory: bookkeeping", "statement": "At any time the stored times are strictly increasing, contain t0, correspond one to one to stored values, the t attribute grows by at most one element per evaluated time, and the internal assertions on ordering never fail.", "quantifier": "all histories of evaluations", "why_tests_cant": "invariant over all histories", "anchors": ["sdepy/infrastructure.py:true_source", "sdepy/infrastructure.py:true_wiener_source.new_inside", "sdepy/infrastructure.py:true_wiener_source.new_outside"]}
{"id": "C28", "title": "True Poisson source is a counting process", "statement": "The values of a true_poisson_source are non-decreasing in time (in each path and component) over all evaluations ever made, in whatever order, forwards or backwards of t0; binomial sampling is never invoked with a negative count.", "quantifier": "all histories, rng outputs, lam >= 0", "why_tests_cant": "order of evaluation is arbitrary", "anchors": ["sdepy/infrastructure.py:true_poisson_source"]}
{"id": "C29", "title": "True compound Poisson source: jumps are conserved", "statement": "For a true_cpoisson_source (that makes its own Poisson source), between any two consecutive stored times the increment of dj is the sum of the stored jump variates, whose number in each cell is the increment of the underlying dn; inserting an intermediate time splits those variates without altering, losing or duplicating any of them (variates being non zero).", "quantifier": "all histories, variates, jump counts", "why_tests_cant": "decode/split/encode over all realisations and orders", "anchors": ["sdepy/infrastructure.py:true_cpoisson_source.new_inside", "sdepy/infrastructure.py:true_cpoisson_source._decode_y", "sdepy/infrastructure.py:true_cpoisson_source._encode_y"]}
{"id": "C30", "title": "Brownian bridge has the right covariance", "statement": "Evaluating a true_wiener_source at s between t1 and t2 yields w(s) such that w(s)-w(t1) and w(t2)-w(s) are uncorrelated with covariance matrices A and B (corr*(s-t1), corr*(t2-s)) and leaves w(t2)-w(t1) unchanged; new values outside extend with independent increments.", "quantifier": "all t1 < s < t2 on either side of t0, all (constant or time dependent) correlation matrices with A+B invertible", "why_tests_cant": "statistical identities are not decidable by sampling", "anchors": ["sdepy/infrastructure.py:true_wiener_source.new_inside"]}
{"id": "C31", "title": "Indexed sources share memory", "statement": "s[i](t) equals s(t) indexed by i, and evaluations through s or any s[i] update one common memory.", "quantifier": "all indices, all histories mixing s and s[i]", "why_tests_cant": "all interleavings", "anchors": ["sdepy/infrastructure.py:_indexed_true_source", "sdepy/infrastructure.py:true_source.__getitem__"]}
{"id": "C32", "title": "Correlation matrix built from rho", "statement": "For scalar rho the correlation matrix is ((1,rho),(rho,1)), for a K-vector it is ((I,R),(R,I)) with R=diag(rho): symmetric, unit diagonal, rho[i] at (i,K+i), zero elsewhere, positive semidefinite iff all |rho[i]| <= 1; badly shaped corr or rho are rejected; corr overrides rho.", "quantifier": "all K, rho, shapes", "why_tests_cant": "all sizes", "anchors": ["sdepy/infrastructure.py:_const_rho_to_corr", "sdepy/infrastructure.py:_get_corr_matrix", "sdepy/infrastructure.py:wiener_source.__init__"]}
{"id": "C33", "title": "Preset jump distributions report correct moments", "statement": "mean, var and exp_mean of norm_rv, uniform_rv, exp_rv, double_exp_rv are the mean, variance and mean of the exponential of the variates produced by rvs (inf where divergent); out of domain parameters are rejected.", "quantifier": "all parameter values", "why_tests_cant": "integrals over distributions, for all parameters", "anchors": ["sdepy/infrastructure.py:_norm_rv", "sdepy/infrastructure.py:_uniform_rv", "sdepy/infrastructure.py:_exp_rv", "sdepy/infrastructure.py:_double_exp_rv"]}
{"id": "C34", "title": "rvmap maps variates", "statement": "rvmap(f, y) yields variates f(y) (or f(t, y(t))), time dependent exactly if f's first parameter is named t or s or y is callable.", "quantifier": "all f, y, t", "why_tests_cant": "decision logic plus all variates", "anchors": ["sdepy/infrastructure.py:rvmap"]}
{"id": "C35", "title": "Monte Carlo statistics equal those of the pooled sample", "statement": "After any sequence of updates with non-empty samples, mean, var, std, skew and kurtosis (the latter not less 3, if there are at least two data) of a montecarlo instance are those of the concatenation of all the samples, paths is its size, and stderr is std/sqrt(paths-1).", "quantifier": "all numbers and positive sizes of batches, all sample values (exact arithmetic)", "why_tests_cant": "incremental formulae over unbounded histories; tests use tolerances on a few batches", "anchors": ["sdepy/infrastructure.py:montecarlo._update_moments", "sdepy/infrastructure.py:montecarlo.mean", "sdepy/infrastructure.py:montecarlo.var", "sdepy/infrastructure.py:montecarlo.skew", "sdepy/infrastructure.py:montecarlo.kurtosis", "sdepy/infrastructure.py:montecarlo.stderr"]}
{"id": "C36", "title": "Monte Carlo histogram accounting", "statement": "After any sequence of updates with data points of the same shape, the histogram counts are those of the pooled sample on the bins fixed by the first sample, and counts plus outpaths always sum to paths.", "quantifier": "all batches, bins specifications", "why_tests_cant": "all histories and boundary coincidences", "anchors": ["sdepy/infrastructure.py:montecarlo._update_histogram", "sdepy/infrastructure.py:montecarlo.histogram", "sdepy/infrastructure.py:montecarlo.outpaths"]}
{"id": "C37", "title": "Monte Carlo results do not depend on how data are batched", "statement": "Splitting the data after the first batch differently, or permuting it, does not change any statistic or histogram; for statistics not even the first batch matters.", "quantifier": "all ways of splitting and ordering", "why_tests_cant": "relational over all partitions", "anchors": ["sdepy/infrastructure.py:montecarlo.update"]}
{"id": "C38", "title": "Antithetic sampling in montecarlo", "statement": "With use='even' ('odd') a sample of size 2N is summarised as the N half sums (half differences) of antithetic values x[i], x[N+i]; even preserves the mean; odd sizes and unknown use values are rejected before any change.", "quantifier": "all samples", "why_tests_cant": "all sizes and values", "anchors": ["sdepy/infrastructure.py:montecarlo.update"]}
{"id": "C39", "title": "Monte Carlo pdf and cdf estimates are distributions", "statement": "For strictly increasing bins with at least one value inside: density_histogram integrates to one; the 'interp' cdf is non-decreasing, 0 below and 1 above the bins, and equals the cumulated frequency at bin boundaries; the 'gaussian_kde' pdf integrates to one and its cdf is the integral of the pdf.", "quantifier": "all bins, counts, bandwidths, x", "why_tests_cant": "integrals over the real line", "anchors": ["sdepy/infrastructure.py:montecarlo._pdf_or_cdf", "sdepy/infrastructure.py:montecarlo.density_histogram"]}
{"id": "C40", "title": "Indexing a montecarlo instance", "statement": "a[i] exposes the statistics and histogram of component i of a, sharing the count of paths, and follows subsequent updates of a.", "quantifier": "all shapes, histories", "why_tests_cant": "aliasing over histories", "anchors": ["sdepy/infrastructure.py:montecarlo.__getitem__"]}
{"id": "C41", "title": "A failed montecarlo update leaves the instance usable", "statement": "If update raises, previously cumulated statistics and subsequent updates are not affected.", "quantifier": "all failing inputs and crash points inside update", "why_tests_cant": "requires considering every exception point", "anchors": ["sdepy/infrastructure.py:montecarlo.update", "sdepy/infrastructure.py:montecarlo._update_histogram"]}
{"id": "C42", "title": "Process construction", "statement": "process(t, x|v|c) succeeds exactly when t is a scalar or non-empty vector, exactly one of x, v, c is given, and the leading size of the values matches t; p.shape == (N,)+vshape+(paths,), v gives a single path with the given values, c repeats the given value at all time points.", "quantifier": "all shapes and values", "why_tests_cant": "accept/reject frontier and values over all shapes", "anchors": ["sdepy/infrastructure.py:process.__new__"]}
{"id": "C43", "title": "Ufuncs on processes never mix timelines or axes", "statement": "A ufunc on processes either raises ValueError or returns a process whose timeline is the common timeline of the non constant operands, and each value of which is computed from the values of the operands at the same time, component and path (constant/size-one axes being repeated).", "quantifier": "all numbers of operands, shapes, timelines", "why_tests_cant": "broadcasting over all shapes; three-operand ufuncs", "anchors": ["sdepy/infrastructure.py:process.__array_prepare__", "sdepy/infrastructure.py:process.__array_wrap__", "sdepy/infrastructure.py:process._is_compatible"]}
{"id": "C44", "title": "Interpolation of processes", "statement": "p(s) equals p[i] at s == p.t[i], lies on the segment joining neighbouring values in between (default kind), is constant outside the timeline, and for a single time point is constant; p(s, ds) == p(s+ds) - p(s); result shape is s.shape+vshape+(paths,); p.rebase(p.t) has the same values.", "quantifier": "all timelines, values, s, ds", "why_tests_cant": "all real s", "anchors": ["sdepy/infrastructure.py:process.interp", "sdepy/infrastructure.py:process.__call__", "sdepy/infrastructure.py:process.rebase"]}
{"id": "C45", "title": "Process specific indexing", "statement": "p['t', i], p['p', i] with integer i (negative counting from the end) keep the indexed axis with size 1 and select exactly the i-th time or path; p['v', i] selects values for all times and paths; the timeline of the result corresponds to the selected values.", "quantifier": "all shapes, indices (integer, slice, list)", "why_tests_cant": "all sizes and signs of indices", "anchors": ["sdepy/infrastructure.py:process.__getitem__"]}
{"id": "C46", "title": "shapeas", "statement": "p.shapeas(vshape) only adds or removes leading size-one axes of the values, keeps all values, timeline and paths, has as many value axes as requested, and raises ValueError if a removed axis is not of size one.", "quantifier": "all shapes", "why_tests_cant": "all shapes", "anchors": ["sdepy/infrastructure.py:process.shapeas"]}
{"id": "C47", "title": "Summaries across paths, values and time", "statement": "pmin, pmax, psum, pmean, pvar, pstd (paths), vmin, ... (values), tmin, ..., tcumsum (time) return processes with the documented shape and timeline whose values are the corresponding statistic along exactly that axis.", "quantifier": "all shapes, values, ddof", "why_tests_cant": "all shapes and values", "anchors": ["sdepy/infrastructure.py:process.pmean", "sdepy/infrastructure.py:process.vsum", "sdepy/infrastructure.py:process.tsum", "sdepy/infrastructure.py:process.tcumsum"]}
{"id": "C48", "title": "Time differences, derivative and integral", "statement": "p.tdiff values are (p[i+1]-p[i])/(t[i+1]-t[i])**dt_exp at t[i] (t[i+1] if not fwd); p.tder().tint() == p['t',:-1]-p['t',0], p.tint().tder() == p['t',:-1].", "quantifier": "all timelines and values (exact arithmetic)", "why_tests_cant": "unbounded lengths", "anchors": ["sdepy/infrastructure.py:process.tdiff", "sdepy/infrastructure.py:process.tder", "sdepy/infrastructure.py:process.tint"]}
{"id": "C49", "title": "Empirical cdf and characteristic function", "statement": "p.cdf(t, x) is the fraction of paths not above x: between 0 and 1, non-decreasing in x; p.chf(t, u) is the average of exp(1j*u*p(t)): 1 at u=0, modulus at most 1, conjugate symmetric; both have shape t.shape+x.shape+vshape; omitting the first argument uses the process timeline.", "quantifier": "all processes, t, x, u", "why_tests_cant": "all arguments and shapes", "anchors": ["sdepy/infrastructure.py:process.cdf", "sdepy/infrastructure.py:process.chf"]}
{"id": "C50", "title": "Piecewise constant processes", "statement": "piecewise(t, x, mode) interpolates to x[i] on a segment that starts at t[i] ('forward'), ends at t[i] ('backward') or has t[i] as its midpoint ('mid'); it is constant outside the timeline; any other mode raises ValueError.", "quantifier": "all strictly increasing timelines, values, evaluation points", "why_tests_cant": "all real evaluation points", "anchors": ["sdepy/infrastructure.py:piecewise"]}
{"id": "C51", "title": "kfunc parameter management", "statement": "For a kfunc f, f(**a)(**b), b not empty, is equivalent to f(**{a,b}) with later values overriding; calling an instance with variables evaluates the wrapped object with stored parameters overridden by given ones, and never changes the parameters stored in the instance; params reports defaults overridden by stored values.", "quantifier": "all parameter dictionaries, all sequences of calls", "why_tests_cant": "all call histories", "anchors": ["sdepy/kfun.py:_kfunc_decorate_class", "sdepy/kfun.py:_kfunc_decorate_function", "sdepy/kfun.py:_kfunc_split_args"]}
{"id": "C52", "title": "kfunc validation", "statement": "Wrapping is refused when parameters are not keyword-only, when a parameter has the name of a variable, when nvar is not between 1 and the number of arguments, or when the decorator is misused.", "quantifier": "all signatures", "why_tests_cant": "decision logic over all signatures", "anchors": ["sdepy/kfun.py:kfunc", "sdepy/kfun.py:_kfunc_decorate_class", "sdepy/kfun.py:_kfunc_decorate_function"]}
{"id": "C53", "title": "Analytical means and variances solve the moment equations", "statement": "wiener, lognorm, oruh, hw2f, cir mean and var functions, and heston_log_mean/heston_log_var, equal the initial value at t=0 and satisfy the ordinary differential equations of the moments of the corresponding SDE; variances are non-negative for t >= 0. This for mean reversion rates other than 0 (documented formulas divide by them).", "quantifier": "all parameter values in the domain, all t", "why_tests_cant": "functional identities over the reals", "anchors": ["sdepy/analytical.py:wiener_mean", "sdepy/analytical.py:lognorm_var", "sdepy/analytical.py:oruh_var", "sdepy/analytical.py:hw2f_var", "sdepy/analytical.py:cir_var", "sdepy/analytical.py:heston_log_var"]}
{"id": "C54", "title": "Analytical characteristic functions", "statement": "wiener_chf, lognorm_log_chf, mjd_log_chf, kou_log_chf, heston_log_chf are 1 at u=0; wiener_chf is the characteristic function of the normal law with wiener_mean and wiener_var; lognorm_log_chf, mjd_log_chf and kou_log_chf are those of the logarithm of a geometric Brownian motion, with a Poisson number of normal, or double exponential, jumps added to the logarithm; mjd_mean and kou_mean are the means of these processes; heston_log_chf solves the backward Kolmogorov equation of the Heston process from exp(1j*u*log(x0)), for all times (no jump at the branch cut of the logarithm), and agrees with heston_log_mean and with the mean x0*exp(mu*t).", "quantifier": "all parameters in the domain, u, t >= 0", "why_tests_cant": "functional identities over the complex numbers; branch cuts", "anchors": ["sdepy/analytical.py:wiener_chf", "sdepy/analytical.py:lognorm_log_chf", "sdepy/analytical.py:mjd_log_chf", "sdepy/analytical.py:kou_log_chf", "sdepy/analytical.py:heston_log_chf", "sdepy/analytical.py:mjd_mean", "sdepy/analytical.py:kou_mean"]}
{"id": "C55", "title": "Black-Scholes identities", "statement": "bscall - bsput == x0*exp(-q*t) - k*exp(-r*t); deltas are the derivatives of the prices with respect to x0, wherever these exist; prices lie between the no-arbitrage bounds; in the limiting cases t=0 or sigma=0 the price is the discounted intrinsic value, and prices are continuous there.", "quantifier": "all k, x0 > 0, t, sigma >= 0, r, q", "why_tests_cant": "identities over the reals, singular limits", "anchors": ["sdepy/analytical.py:bscall", "sdepy/analytical.py:bsput", "sdepy/analytical.py:bscall_delta", "sdepy/analytical.py:bsd1d2"]}
{"id": "C56", "title": "Black-Scholes price is the risk neutral expectation", "statement": "bscall (bsput) is exp(-r*t) times the expectation of max(x(t)-k, 0) (of max(k-x(t), 0)) for x(t) lognormal as in lognorm_process with drift r-q.", "quantifier": "all parameters", "why_tests_cant": "an integral identity", "anchors": ["sdepy/analytical.py:bscall"]}
{"id": "C57", "title": "Stochasticity source protocol", "statement": "A source passed to a process is accepted iff it is callable with matching paths and vshape broadcastable to the required one; a class is instantiated; None gives the default source.", "quantifier": "all paths, vshapes, kinds of object", "why_tests_cant": "accept/reject frontier over all shapes", "anchors": ["sdepy/infrastructure.py:_check_source", "sdepy/infrastructure.py:_source_setup"]}
{"id": "C58", "title": "Samples of different shape are broadcast by montecarlo", "statement": "When cumulating subsequent samples, broadcasting rules apply (as documented): a sample whose data points broadcast to the shape of those already cumulated is summarised as if it had been broadcast beforehand, in statistics and histograms.", "quantifier": "all shapes and values", "why_tests_cant": "all pairs of shapes", "anchors": ["sdepy/infrastructure.py:montecarlo._update_moments", "sdepy/infrastructure.py:montecarlo._update_histogram"]}
{"id": "C59", "title": "The interpolated pdf follows the histogram", "statement": "With method='interp', pdf equals the density histogram count at each bin midpoint, is 0 at the bins boundaries and outside, is not negative, and is affine in between.", "quantifier": "all bins (of any numeric type), counts and x", "why_tests_cant": "the claim is about every bin of every histogram", "anchors": ["sdepy/infrastructure.py:montecarlo._pdf_or_cdf"]}
{"id": "C60", "title": "Analytical density and distribution functions", "statement": "wiener_pdf and wiener_cdf, oruh_pdf and oruh_cdf, hw2f_pdf and hw2f_cdf are the density and the distribution function of the normal law with the mean and the variance given by the corresponding functions; lognorm_pdf and lognorm_cdf are those of the geometric Brownian motion.", "quantifier": "all parameters with positive variance, all x", "why_tests_cant": "identities of measures on the line", "anchors": ["sdepy/analytical.py:wiener_pdf", "sdepy/analytical.py:wiener_cdf", "sdepy/analytical.py:lognorm_pdf", "sdepy/analytical.py:lognorm_cdf", "sdepy/analytical.py:oruh_pdf", "sdepy/analytical.py:oruh_cdf", "sdepy/analytical.py:hw2f_pdf", "sdepy/analytical.py:hw2f_cdf"]}
{"id": "C61", "title": "Densities computed from characteristic functions", "statement": "_chf_to_pdf(t, x, chf) gives, for scalar t (or scalar x), an array of the shape of x (of t) with the values of the continuous density of the law at time t, whenever chf(t, .) is an integrable characteristic function of that law; mjd_log_pdf and kou_log_pdf are the densities of the logarithm of the corresponding jump-diffusion processes for sigma != 0, t > 0. Numerical integration is taken as exact.", "quantifier": "all laws with integrable characteristic function; all parameters in the domain; all t > 0, x; all shapes", "why_tests_cant": "equality of measures; tests only compare some values with Monte Carlo histograms", "anchors": ["sdepy/analytical.py:_chf_to_pdf", "sdepy/analytical.py:mjd_log_pdf", "sdepy/analytical.py:kou_log_pdf", "sdepy/analytical.py:heston_log_pdf"]}
{"id": "C62", "title": "Density of the Cox-Ingersoll-Ross process", "statement": "cir_pdf(t, x) is, for x > 0, a probability density with mean cir_mean and variance cir_var, whose Laplace transform solves the backward Kolmogorov equation of dx = k*(theta-x)*dt + xi*sqrt(x)*dw, with initial value x0; it is 0 for x < 0.", "quantifier": "all x0, k*theta, t > 0, xi != 0, x", "why_tests_cant": "integral identities involving Bessel functions over all parameters", "anchors": ["sdepy/analytical.py:cir_pdf", "sdepy/analytical.py:cir_mean", "sdepy/analytical.py:cir_var"]}
{"id": "C63", "title": "Law of the Poisson source with memory", "statement": "With constant intensity lam, the values returned by a true_poisson_source at any sequence of times (in any order, before or after t0, with repetitions) have jointly the law of a Poisson process of intensity lam through z0 at t0: independent increments, Poisson distributed with mean lam times the time elapsed, independent across components and paths; dz(t, dt) is Poisson distributed with mean lam*dt.", "quantifier": "all intensities, initial times and values, sequences of query times no two of which coincide within rtol, all outcomes", "why_tests_cant": "a statement on joint probabilities for any query order; tests check moments on a few timelines", "anchors": ["sdepy/infrastructure.py:true_poisson_source.new_inside", "sdepy/infrastructure.py:true_poisson_source.new_outside", "sdepy/infrastructure.py:true_source._retrieve_old_or_generate_new"]}
{"id": "C64", "title": "Simulated Wiener and lognormal processes have the exact law", "statement": "With constant parameters and normal variates, the values simulated by wiener_process and lognorm_process at the points of any timeline are jointly distributed as x0 + mu*(t-t0) + sigma*W(t), resp. x0*exp((mu-sigma^2/2)*(t-t0) + sigma*W(t)), W being a Wiener process with the given correlations: whatever the integration steps there is no discretisation error. In particular values at t have density wiener_pdf (lognorm_pdf) and distribution function wiener_cdf (lognorm_cdf), and bscall, bsput are the expected discounted payoffs.", "quantifier": "all parameters, timelines, steps, initial indices, constant correlations and those linear in time, all shapes of values, all t after t0 in the timeline", "why_tests_cant": "an exact statement on probability laws; tests compare histograms of samples with the analytical laws within tolerances", "anchors": ["sdepy/integration.py:wiener_SDE", "sdepy/integration.py:lognorm_SDE", "sdepy/infrastructure.py:wiener_source.__call__", "sdepy/analytical.py:wiener_pdf", "sdepy/analytical.py:lognorm_pdf", "sdepy/analytical.py:bscall"]}
{"id": "C65", "title": "Simulated Ornstein-Uhlenbeck and Hull-White processes converge to the analytical laws", "statement": "With normal variates, the values simulated by ornstein_uhlenbeck_process and hull_white_process are jointly normal, with the means and covariances of the Euler recursion along the integration steps. With constant parameters, the mean and variance at t differ from oruh_mean, oruh_var (hw2f_mean, hw2f_var for two factors) by at most a constant times the longest step, and the distribution function converges to oruh_cdf (hw2f_cdf) as steps get shorter, hence as the number of steps increases.", "quantifier": "all parameters (mean reversion rates of any sign, with nonzero pairwise sums), timelines, steps, initial indices, correlations, numbers of factors; the moments of the recursion also for parameters depending on time, and backwards in time", "why_tests_cant": "a statement on probability laws and on a limit; tests compare a few histograms with loose tolerances", "anchors": ["sdepy/integration.py:ornstein_uhlenbeck_SDE", "sdepy/integration.py:hull_white_SDE", "sdepy/integration.py:integrator", "sdepy/analytical.py:oruh_mean", "sdepy/analytical.py:oruh_var", "sdepy/analytical.py:oruh_cdf", "sdepy/analytical.py:hw2f_var", "sdepy/analytical.py:hw2f_cdf"]}
{"id": "C66", "title": "Simulated jump-diffusion processes have the exact law", "statement": "With constant parameters, the logarithms of the values simulated by jumpdiff_process, relative to x0, are at the points of any timeline a process with independent increments, each the sum of a drift (mu-sigma^2/2)*h, a normal variate of variance sigma^2*h and a Poisson number, of mean lam*h, of independent jumps distributed as y: whatever the integration steps there is no discretisation error. Values in different cells are independent, unless noise is correlated. With the sources that merton_jumpdiff_process and kou_jumpdiff_process set up, values at t have in logarithm the density that mjd_log_pdf and kou_log_pdf compute for time t-t0.", "quantifier": "all parameters with positive x0, timelines (also before the initial time), steps, initial indices, shapes and numbers of paths, laws of jumps, generators drawing independent variates", "why_tests_cant": "an exact statement on probability laws; tests compare histograms of samples with the analytical laws within tolerances", "anchors": ["sdepy/integration.py:jumpdiff_SDE", "sdepy/integration.py:merton_jumpdiff_SDE.source_dj", "sdepy/integration.py:kou_jumpdiff_SDE.source_dj", "sdepy/infrastructure.py:cpoisson_source.__call__", "sdepy/infrastructure.py:poisson_source.__call__", "sdepy/infrastructure.py:wiener_source.__call__", "sdepy/infrastructure.py:_double_exp_rv.rvs", "sdepy/analytical.py:mjd_log_pdf", "sdepy/analytical.py:kou_log_pdf"]}
{"id": "C67", "title": "Array parameters are broadcast: each cell solves its own scalar equation", "statement": "A process with array parameters, initial conditions and sources (constant or depending on time, of any shapes that NumPy can broadcast to vshape + (paths,)) is integrated as if each component of each path were a scalar equation of its own, with the parameter values that broadcasting assigns to it; values have shape vshape + (paths,). For hull_white_process this holds for each factor, and values are sums over factors. If the integration succeeds, the initial condition and all parameters used fit that shape at each time where they are needed; an initial condition that does not fit raises ValueError.", "quantifier": "all shapes, numbers of paths, parameters (arrays or functions of time), equations built with elementwise operations, sources, timelines, steps, initial indices", "why_tests_cant": "broadcasting involves arbitrarily many axes and combinations of shapes; tests try a few shapes and compare shapes more than values", "anchors": ["sdepy/integration.py:SDE.A", "sdepy/integration.py:SDE.dZ", "sdepy/integration.py:integrator.euler_next", "sdepy/integration.py:SDE.begin", "sdepy/integration.py:SDE.let", "sdepy/integration.py:SDE.init", "sdepy/integration.py:hull_white_SDE.let"]}
{"id": "C68", "title": "Monte Carlo estimates are unbiased and consistent, and stderr measures their error", "statement": "If the N values of a component cumulated by montecarlo, in any number of samples, have the same mean m and variance v and are not correlated, the mean reported has expected value m and variance v/N, and, for N > 1, the square of the stderr reported has expected value v/N exactly; errors in excess of eps have probability at most v/(N*eps^2). If they are independent and identically distributed, as N grows mean and var converge almost surely to m and v, and, for given edges of bins, the fraction of values in each bin to its probability. Values simulated along different paths by wiener_process and lognorm_process, and the discounted payoffs of options on the latter, satisfy these assumptions, with means and variances given by wiener_mean, wiener_var, lognorm_mean, lognorm_var, and with bscall, bsput as means of payoffs.", "quantifier": "all sequences of samples of any shapes, numbers of values, options use, laws of values; all parameters, timelines and steps of simulated processes", "why_tests_cant": "concerns expected values and limits over infinitely many samples; tests check estimates within tolerances for given seeds", "anchors": ["sdepy/infrastructure.py:montecarlo.update", "sdepy/infrastructure.py:montecarlo.mean", "sdepy/infrastructure.py:montecarlo.var", "sdepy/infrastructure.py:montecarlo.stderr", "sdepy/infrastructure.py:montecarlo.histogram", "sdepy/analytical.py:bscall", "sdepy/analytical.py:lognorm_var", "sdepy/integration.py:lognorm_SDE"]}
{"id": "C69", "title": "Analytical functions apply elementwise to array arguments", "statement": "Each function of analytical.py that does not integrate numerically, called with array arguments, broadcasts all of them together, whichever of them it makes use of: the result has the shape that NumPy broadcasting gives to all arguments, and each of its items is the value of the function for the numbers that broadcasting assigns to that item. If arguments cannot be broadcast together, ValueError is raised.", "quantifier": "all arrays of all shapes, for each function of wiener, lognorm, oruh, cir, heston, mjd, kou and Black-Scholes stats", "why_tests_cant": "involves arbitrarily many axes and combinations of shapes of up to ten arguments; tests check the shapes of results for a few combinations", "anchors": ["sdepy/analytical.py:wiener_mean", "sdepy/analytical.py:lognorm_pdf", "sdepy/analytical.py:oruh_var", "sdepy/analytical.py:cir_pdf", "sdepy/analytical.py:heston_log_chf", "sdepy/analytical.py:mjd_log_chf", "sdepy/analytical.py:kou_log_chf", "sdepy/analytical.py:bsd1d2", "sdepy/analytical.py:bscall", "sdepy/analytical.py:bsput_delta"]}
{"id": "C70", "title": "Two-factor Hull-White statistics: parameters as numbers, vectors or arrays", "statement": "Each of the parameters x0, theta, k, sigma of hw2f_mean, hw2f_var, hw2f_std, hw2f_pdf, hw2f_cdf may be a number, valid for both factors, a vector with a value for each factor, or an array with the axis of factors before the last one. Other axes are broadcast together with rho, t and x; each item of the result is the value for the two-factor process with the parameters that belong to that item. Three or more factors raise ValueError. Parameters have the same meaning for hull_white_process.", "quantifier": "all arrays of all shapes for all parameters and variables", "why_tests_cant": "depends on combinations of shapes of seven arguments; tests use parameters of one kind only", "anchors": ["sdepy/analytical.py:_hw2f_args_setup", "sdepy/analytical.py:hw2f_mean", "sdepy/analytical.py:hw2f_var", "sdepy/analytical.py:hw2f_std", "sdepy/analytical.py:hw2f_pdf", "sdepy/analytical.py:hw2f_cdf"]}
{"id": "C71", "title": "Array parameters of preset jump distributions", "statement": "The parameters of norm_rv, uniform_rv, exp_rv and double_exp_rv may be arrays, or functions of time with values in arrays, of any shapes that can be broadcast together. Then variates of any size that parameters fit can be drawn, each item being given its own parameters and its own draw, other sizes raising ValueError; mean, var, std and exp_mean are arrays, and report the moments for each item. Parameters out of the domain raise ValueError, even if for an item only. As jumps y of cpoisson_source, parameters may have any shape broadcastable to vshape + (paths,): each path gets jumps drawn with its own parameters.", "quantifier": "all arrays of all shapes for all parameters, all sizes of variates, all generators, numbers of jumps", "why_tests_cant": "depends on shapes of parameters, on sizes that change at random with the number of jumps, and on laws of variates; tests use scalar parameters for jumps", "anchors": ["sdepy/infrastructure.py:_norm_rv", "sdepy/infrastructure.py:_uniform_rv", "sdepy/infrastructure.py:_exp_rv", "sdepy/infrastructure.py:_double_exp_rv", "sdepy/infrastructure.py:_make_rv_params_variable", "sdepy/infrastructure.py:cpoisson_source.__call__", "sdepy/integration.py:merton_jumpdiff_SDE.source_dj", "sdepy/integration.py:kou_jumpdiff_SDE.source_dj"]}
{"id": "C72", "title": "Copies, shared memory and cached increments of processes", "statement": "A process refers to the arrays of times and values it is created from, without copying them. pcopy is isolated from the original, both ways: no program that does not mention the copy can modify it, and no program that acts only on the copy, and on what is derived from it, can modify anything that existed before. xcopy copies values and shares the timeline, tcopy copies the timeline and shares values; results of ufuncs have their own values and share the timeline; process specific indexing, shapeas and x share memory. dt is computed upon the first call and cached: it does not reflect subsequent modifications of the timeline.", "quantifier": "all programs, i.e. all sequences of statements that create arrays and processes, index, copy, modify or compute them, executed before and after the operation", "why_tests_cant": "sharing shows up only after later writes through any alias, in any order; tests compare values right after copying", "anchors": ["sdepy/infrastructure.py:process.__new__", "sdepy/infrastructure.py:process.pcopy", "sdepy/infrastructure.py:process.xcopy", "sdepy/infrastructure.py:process.tcopy", "sdepy/infrastructure.py:process.dt", "sdepy/infrastructure.py:process.x", "sdepy/infrastructure.py:process.__getitem__", "sdepy/infrastructure.py:process.__array_wrap__"]}
{"id": "C73", "title": "Methods of numpy.ndarray inherited by processes; attributes tx, dtx", "statement": "All numpy.ndarray methods act upon the values of a process as would those of the parent class. A result that is a process keeps the timeline, by reference, if its first axis still has as many items as there are time points, and has none otherwise. tx and dtx can be broadcast to the values of the process across time: each item gets its own time or increment.", "quantifier": "all programs, all shapes, all selections of values done by a method that returns a view or a copy", "why_tests_cant": "depends on chains of methods and on accidental coincidence of shapes", "anchors": ["sdepy/infrastructure.py:process.__array_finalize__", "sdepy/infrastructure.py:process.__array_prepare__", "sdepy/infrastructure.py:process.tx", "sdepy/infrastructure.py:process.dtx"]}
{"id": "C74", "title": "Simulated Cox-Ingersoll-Ross process and the functions cir_mean, cir_var", "statement": "The values simulated for each cell follow the recursion of the stated equation, each step being driven by a normal variate whose variance is the length of the step, independent of the value the step starts from. With constant parameters (theta, k > 0, initial value not negative, any xi), simulated values are below zero by an amount that is on average at most of the order of the longest step, at any time; their mean and variance differ from cir_mean and cir_var by at most a constant times the longest step, so that with enough steps they are as near as wanted.", "quantifier": "all parameter values, timelines, integration steps, shapes, probability spaces and sources of normal noise, in the limit of short steps", "why_tests_cant": "a limit of distributions under step refinement is out of reach of finite samples; the error is hidden by sampling error", "anchors": ["sdepy/integration.py:cox_ingersoll_ross_SDE", "sdepy/integration.py:cox_ingersoll_ross_process", "sdepy/analytical.py:cir_mean", "sdepy/analytical.py:cir_var"]}
{"id": "C75", "title": "Simulated Heston process, its correlated noise, and the functions heston_log_mean, heston_log_var", "statement": "The logarithm of the price and the variance simulated for each component and path follow the recursion of the two stated equations, each step driven by the two noises of that component, independent of the values the step starts from; the price is always positive. With constant mu, and whatever the other parameters and the correlation, the mean of the price is exactly x0*exp(mu*t) for any number of steps. With constant parameters (theta, k > 0, y0 not negative), mean and variance of the logarithm of the price differ from heston_log_mean and heston_log_var, and those of y from cir_mean and cir_var, by at most a constant times the longest step. Given rho (any of its documented shapes), the source set up by the process drives x and y of each component by normal noises whose correlation is the item of rho for that component; without rho, by independent ones.", "quantifier": "all parameter values, correlations, timelines, integration steps, shapes (with and without an added axis), probability spaces, in the limit of short steps", "why_tests_cant": "a limit of distributions under step refinement is out of reach of finite samples; the effect of a misplaced correlation on a log-variance is hidden by sampling error", "anchors": ["sdepy/integration.py:full_heston_SDE", "sdepy/integration.py:heston_SDE", "sdepy/integration.py:SDEs", "sdepy/infrastructure.py:wiener_source", "sdepy/analytical.py:heston_log_mean", "sdepy/analytical.py:heston_log_var"]}
{"id": "C76", "title": "Convergence in distribution of simulated Heston and Cox-Ingersoll-Ross processes to heston_log_chf and cir_pdf", "statement": "With constant parameters (theta, k > 0, xi not zero), the characteristic function of the logarithm of the simulated Heston price differs from heston_log_chf by at most a constant times the longest step. heston_log_chf is the characteristic function of exactly one law, and the logarithm of the simulated price converges to it in distribution, as steps get short: averages of bounded continuous functions and cumulative probabilities do. Values simulated for a Cox-Ingersoll-Ross process converge in distribution to the law of density cir_pdf. This holds also where the Feller condition does not, and simulated values can go below zero.", "quantifier": "all parameter values, correlations in [-1, 1], initial values, timelines, shapes, generators with the stated laws, bounded continuous functions, in the limit of short steps", "why_tests_cant": "a limit in distribution under step refinement cannot be reached by finite samples; agreement at a few parameter values does not show that the formula is the law of the equation integrated", "anchors": ["sdepy/integration.py:full_heston_SDE", "sdepy/integration.py:heston_SDE", "sdepy/integration.py:cox_ingersoll_ross_SDE", "sdepy/analytical.py:heston_log_chf", "sdepy/analytical.py:cir_pdf"]}
{"id": "C77", "title": "Processes as stochasticity sources and as parameters of other processes", "statement": "A process p, e.g. the result of an earlier integration, is accepted as a source exactly if it has the paths of the equation and its vshape can be broadcast to the one required; ValueError otherwise. Let f be the function of time passing through the values of p, linear between any two times, constant before the first and after the last (there is exactly one). With p as source, wiener_process with constant parameters is x0 + mu*(t - t0) + sigma*(f(t) - f(t0)), lognorm_process is x0*exp((mu - sigma**2/2)*(t - t0) + sigma*(f(t) - f(t0))), whatever steps, timeline and initial time; no random number is drawn; with x0=p(t0), mu=0, sigma=1 the process p itself is obtained. With processes as mu and sigma, each cell is integrated with the values at time t of the functions they stand for.", "quantifier": "all processes with increasing timeline, shapes, timelines, steps, initial times, parameters", "why_tests_cant": "equality must hold for every pair of timelines, synchronised or not, and every choice of steps", "anchors": ["sdepy/infrastructure.py:process.__call__", "sdepy/infrastructure.py:process.interp", "sdepy/infrastructure.py:_check_source", "sdepy/infrastructure.py:_source_setup", "sdepy/infrastructure.py:_variable_param_setup", "sdepy/integration.py:SDE.dZ", "sdepy/integration.py:wiener_SDE", "sdepy/integration.py:lognorm_SDE"]}
{"id": "C78", "title": "Law of compound Poisson sources with memory", "statement": "Evaluated at any sequence of times, in any order, before or after t0, with repetitions, a true_cpoisson_source of constant intensity lam almost surely raises no exception, and returns the values of a process through z0 at t0 whose increments over disjoint intervals are independent, each being in each cell, independently, the sum of a Poisson number of independent jumps, of mean lam times the length of the interval. The underlying true_poisson_source may have any starting time and value. This holds for jumps that do not cancel out (e.g. atomless: norm_rv, double_exp_rv; or positive) and fails for any law of jumps that takes two opposite values with positive probability: if the values at t1 and t2 coincide, the source is taken as constant in between.", "quantifier": "all intensities, sequences of times apart from each other, laws of jumps without cancellations, shapes, random generators, starting values", "why_tests_cant": "a joint law over all orders of evaluation; needs conditional laws of Poisson bridges and the bookkeeping of the sizes of jumps; violations have small probability", "anchors": ["sdepy/infrastructure.py:true_cpoisson_source", "sdepy/infrastructure.py:true_cpoisson_source.new_inside", "sdepy/infrastructure.py:true_cpoisson_source.new_outside", "sdepy/infrastructure.py:true_cpoisson_source._decode_y", "sdepy/infrastructure.py:true_cpoisson_source._encode_y", "sdepy/infrastructure.py:true_poisson_source", "sdepy/infrastructure.py:true_source.__call__"]}
{"id": "C79", "title": "Interpolation kinds", "statement": "For every kind accepted by scipy.interpolate.interp1d (names and spline orders), given as argument or by the interp_kind attribute ('linear' if not set): p(s, kind=kind) equals p[i] at p.t[i] and is constant outside the timeline; it is the value at the latest time not after s ('previous', 'zero', 0), at the earliest not before s ('next'), at the closest ('nearest', 'nearest-up'), on the segment joining neighbouring values ('linear', 'slinear', 1). p(s, ds) is p(s+ds)-p(s); rebase to the same timeline keeps values, and returns a process of default kind. Unknown kinds, or splines with too few times, raise, except that a process with a single time is constant for any kind. piecewise processes are piecewise constant if evaluated without giving a kind. The pdf and cdf of montecarlo by method 'interp' evaluate to histogram densities at midpoints and to cumulated frequencies at bin endpoints for any kind, are not negative and do not decrease, respectively.", "quantifier": "all processes, kinds, times, histograms", "why_tests_cant": "all real times; all kinds; all histograms, negative densities appear for some only", "anchors": ["sdepy/infrastructure.py:process.interp", "sdepy/infrastructure.py:process.__call__", "sdepy/infrastructure.py:process.rebase", "sdepy/infrastructure.py:piecewise", "sdepy/infrastructure.py:montecarlo._pdf_or_cdf"]}
{"id": "C80", "title": "Density of Heston values", "statement": "For constant parameters with x0, theta, k > 0, y0 >= 0, xi, sigma != 0, |rho| < 1 and t > 0, heston_log_pdf(t, logx) is the continuous density of a probability law: never negative, with integral one, mean heston_log_mean, variance heston_log_var and characteristic function heston_log_chf. As integration steps get shorter, cumulative probabilities of values simulated by heston_process converge to its integrals, uniformly; so do means of bounded continuous functions of the logarithm, hence prices of put options, while the mean payoff of a call exceeds that of a put by exactly x0*exp(mu*t) - K whatever the steps. Cumulative probabilities of simulated Cox-Ingersoll-Ross values converge uniformly to integrals of cir_pdf.", "quantifier": "all parameters in the range said, all times, all values, all strikes, all layouts, components, paths", "why_tests_cant": "statements on limits and integrals over the real line; errors of a Monte Carlo test exceed those of a slightly wrong density", "anchors": ["sdepy/analytical.py:heston_log_pdf", "sdepy/analytical.py:heston_log_chf", "sdepy/analytical.py:heston_log_mean", "sdepy/analytical.py:heston_log_var", "sdepy/analytical.py:cir_pdf", "sdepy/integration.py:heston_process", "sdepy/integration.py:cox_ingersoll_ross_process"]}
{"id": "C81", "title": "Analytical statistics where their formulas divide zero by zero", "statement": "Processes with time-independent parameters are defined for k = 0 as well, and have moments there: oruh_var, hw2f_var, cir_var, heston_log_mean, heston_log_var and their standard deviations should return them for all k (k1, k2), as limits of their values nearby. Likewise cir_pdf should return the density of a process that starts at x0 = 0 (a gamma distribution, to which simulated values converge), and the functions *_cdf at t = 0 the distribution of the initial value.", "quantifier": "all parameters and times; limits in k, x0, t", "why_tests_cant": "tests evaluate the formulas at a few parameters, none of them singular; limits and laws of simulated values are not computable by tests", "anchors": ["sdepy/analytical.py:oruh_var", "sdepy/analytical.py:hw2f_var", "sdepy/analytical.py:cir_var", "sdepy/analytical.py:heston_log_mean", "sdepy/analytical.py:heston_log_var", "sdepy/analytical.py:cir_pdf", "sdepy/analytical.py:wiener_cdf"]}
{"id": "C82", "title": "Wiener sources with memory accept the correlations of Wiener sources, and return arrays of values of a Wiener process", "statement": "true_wiener_source, for values of any shape, takes corr and rho as wiener_source does: None, arrays, callables or deterministic processes, with matrices of shape (M, M) or (M, M, 1). Whatever the shape of the times asked for, it returns arrays of shape t.shape + vshape + (paths,): the values (or increments, if dt is given) of a Wiener process with these correlations along the last axis of vshape, independent along other axes and paths, that starts at t0 from z0, broadcast.", "quantifier": "all shapes of values, numbers of paths, initial values, correlations, arrays of times and of increments, tolerances; all distributions of the random generator with the law expected", "why_tests_cant": "tests build such sources with a few shapes and constant correlations; joint laws, over times asked for in any order, cannot be tested", "anchors": ["sdepy/infrastructure.py:true_wiener_source", "sdepy/infrastructure.py:true_wiener_source.__init__", "sdepy/infrastructure.py:true_wiener_source.new_outside", "sdepy/infrastructure.py:true_wiener_source.new_inside", "sdepy/infrastructure.py:true_source.__call__", "sdepy/infrastructure.py:wiener_source.__call__"]}
{"id": "C83", "title": "Simulated values converge in mean square to the solution of the equation, as integration steps get shorter", "statement": "Take dx = a(t, x)*dt + b(t, x)*dw, where a and b are Lipschitz in x, and Hoelder in t of order 1/2, on the times from t0 to t0 + T. The values computed by the integrator are those of the Euler scheme along its grid of steps, driven by the noise realised. If two simulations, with any timelines and steps, share the noise, then at times common to their timelines, from t0 to t0 + T, the mean square of the difference of their values is at most a constant times the longest step; so in particular if the noise is a true_wiener_source, first in use for one simulation, then for the other. If the noise is a Wiener process, defined at all times, the equation has one and only one solution, adapted to the noise; and the mean square of the difference between simulated values and the solution is at most a constant times the longest step. The constant depends on the equation, the initial values and T alone.", "quantifier": "all equations with one dt and one dw term and such coefficients, in any number of components, with log or not, all initial values; all timelines, steps and initial indexes; all noises with independent increments of mean zero, and of variance equal to the time elapsed", "why_tests_cant": "tests compare a few simulations with closed forms, within statistical errors; convergence for all equations at a given rate, as steps get shorter, is a statement about limits, and about a solution that has no closed form", "anchors": ["sdepy/integration.py:integrator.euler_next", "sdepy/integration.py:paths_generator._generate_paths", "sdepy/integration.py:SDE.dZ", "sdepy/infrastructure.py:true_source.__call__", "sdepy/infrastructure.py:true_wiener_source"]}
{"id": "C84", "title": "Expectations and laws of simulated values converge to those of the solution of the equation", "statement": "Take dx = a(t, x)*dt + b(t, x)*dw, with a and b as in C83, and the noise dw of a wiener_source, drawn anew at each step, with any correlations, constant or changing in time. Take any Wiener process with the same correlations, unrelated to the numbers drawn, and the solution of the equation driven by it. The values computed by the integrator have the joint law, at all times of the timeline from t0 to t0 + T, of values whose mean square distance from the solution is at most a constant times the longest step. So the expectation of any Lipschitz function of simulated values differs from that of the solution by at most a constant times the square root of the longest step, times the Lipschitz constant; and given simulations with shorter and shorter steps, the joint law of values at given times converges to that of the solution.", "quantifier": "all equations with one dt and one dw term and such coefficients, in any number of components, with log or not, all initial values; all correlations accepted, all timelines, steps and initial indexes; all Lipschitz functions, all finite sets of times", "why_tests_cant": "tests estimate a few means and quantiles with a finite number of paths; here the law itself is compared with that of a solution that has no closed form, as steps get shorter", "anchors": ["sdepy/integration.py:integrator.euler_next", "sdepy/integration.py:paths_generator._generate_paths", "sdepy/integration.py:SDE.dZ", "sdepy/infrastructure.py:wiener_source.__call__"]}
{"id": "C85", "title": "Monte Carlo estimates from simulations converge to expectations of functions of the solution of the equation", "statement": "Take an equation as in C83 and C84, the same for all paths, with the same initial values. It is integrated with a wiener_source, for any number of paths, in any number of runs, one after the other; a Lipschitz function of the values simulated for a time of the timeline is computed for each path, and these values are passed to a montecarlo instance, one sample for each run. Then the mean computed by montecarlo, as an estimate of the expectation of the function of the solution, has a mean square error of at most twice the variance of the function of the solution, divided by the number of all paths, plus 3*M**2*K*d, where M is the Lipschitz constant, d the longest step, and K depends only on the equation, the initial values and the time span.", "quantifier": "all equations with one dt and one dw term and such coefficients, in any number of components, with log or not, all initial values; all correlations accepted, all timelines, steps and initial indexes; all Lipschitz functions; any number of paths and runs; any bins", "why_tests_cant": "tests see one outcome of the random numbers at a time; here the error is averaged over all outcomes, and bounded for all numbers of paths and all steps, against a solution that has no closed form", "anchors": ["sdepy/integration.py:integrator.euler_next", "sdepy/integration.py:paths_generator._generate_paths", "sdepy/integration.py:SDE.dZ", "sdepy/infrastructure.py:wiener_source.__call__", "sdepy/infrastructure.py:montecarlo.update", "sdepy/infrastructure.py:montecarlo.mean"]}
{"id": "C86", "title": "Simulations of equations with many sources of noise, jumps included, converge in mean square to the solution of the equation", "statement": "Take dx = a(t, x)*dt plus any number of terms b(j, t, x)*dz(j), with coefficients that are Lipschitz in x and regular in t as in C83. The sources dz(j) are any noise - Wiener, Poisson, compound Poisson, their drifts included - with finite variance, whose increments have mean and variance proportional to the time elapsed, and do not depend on the past. Then the equation has one and only one solution; the integration returns the values of the Euler scheme along its grid, driven by the noise realised by all sources; and the mean square of the difference of the values simulated from the solution is at most a constant times the longest step, whatever timeline, steps and initial index: the same constant for all of them. The same holds between two simulations that realise the same noise on different grids.", "quantifier": "all equations with such coefficients, any number of noise sources and of components, with log or not, all initial values; all noise with such increments; all timelines, steps and initial indexes, times from the initial one on", "why_tests_cant": "tests see one outcome of the random numbers at a time, for given steps; here errors are averaged over all outcomes, and bounded for all steps, against a solution with jumps that has no closed form", "anchors": ["sdepy/integration.py:integrator.euler_next", "sdepy/integration.py:paths_generator._generate_paths", "sdepy/integration.py:SDE.dZ", "sdepy/integration.py:SDE.A"]}
{"id": "C87", "title": "Expectations and laws of values simulated with many random sources, jumps included, converge to those of the solution", "statement": "Take an equation as in C86, whose sources of noise draw from a random generator, independently of each other and from step to step. Then for any solution of the equation, driven by noise with the same laws of increments: the values simulated have, jointly over all requested times and all components, the same law as values whose mean square distance from the solution is at most a constant times the longest step; the expectation of any Lipschitz function of the values at one time differs from that for the solution by at most its Lipschitz constant times the square root of a constant times the longest step; and as the steps shrink, the joint law of the values at any finite set of times converges to that of the solution. The Wiener source and the source of jumps of merton_jumpdiff_process draw such noise.", "quantifier": "all equations with such coefficients, any number of noise sources and of components, all initial values; all laws of increments with mean and variance proportional to time; all timelines, steps and initial indexes, times from the initial one on; all Lipschitz functions", "why_tests_cant": "tests compare averages over a few random outcomes with closed forms, where these exist; here laws are compared exactly, for equations with jumps and no closed form, with a rate in the length of steps", "anchors": ["sdepy/integration.py:integrator.euler_next", "sdepy/integration.py:paths_generator._generate_paths", "sdepy/integration.py:SDE.dZ", "sdepy/infrastructure.py:wiener_source.__call__", "sdepy/infrastructure.py:cpoisson_source.__call__"]}
{"id": "C88", "title": "Equations with no noise: errors proportional to the length of steps, before and after the initial time", "statement": "Take an equation dx = a(t, x)*dt, with time as its only source, and a coefficient that is Lipschitz in x and in t. The integration returns the values of the Euler method along its grid, forwards and backwards from the initial time; these do not depend on the state of the random generators, nor change it. The differential equation has one and only one solution, at all times within T of the initial one; each component of the values returned differs from it, at all such times, by at most a constant times the longest step: the same constant for all timelines, steps and initial indexes.", "quantifier": "all equations with time as the only source and such a coefficient, any number of components, with log or not, all initial values, all horizons T, all timelines, steps and initial indexes, times before and after the initial one", "why_tests_cant": "tests compare values with a closed form for given steps; the bound holds for all coefficients and all steps, in particular where the solution has no closed form", "anchors": ["sdepy/integration.py:integrator.euler_next", "sdepy/integration.py:paths_generator._generate_paths", "sdepy/integration.py:SDE.dZ", "sdepy/integration.py:SDE.A"]}
{"id": "C89", "title": "Monte Carlo estimates from simulations of equations with many sources of noise, jumps included, converge to expectations of functions of the solution", "statement": "Take an equation with any number of sources of noise, as in C86 and C87, the same for all paths, with the same initial values; the sources draw from a random generator increments of given laws, independent for each path, as the wiener and compound Poisson sources do. It is integrated for any number of paths, in any number of runs, one after the other, each from the state of the generator left by the previous one; a Lipschitz function of the values simulated for a time of the timeline is computed for each path, and these values are passed to a montecarlo instance, one sample for each run. Then the mean computed by montecarlo, as an estimate of the expectation of the function of the solution for a single path, has a mean square error of at most twice the variance of the function of the solution, divided by the number of all paths, plus 3*M**2*K*d, where M is the Lipschitz constant, d the longest step, and K depends only on the equation of a single path, its noise, the initial values and the time span.", "quantifier": "all equations with such coefficients, any number of sources of noise with increments of finite variance, and of components, with log or not, all initial values; all timelines, steps and initial indexes; all Lipschitz functions; any number of paths and runs; any bins", "why_tests_cant": "tests see one outcome of the random numbers at a time; here the error is averaged over all outcomes, and bounded for all numbers of paths and all steps, against a solution with jumps that has no closed form; independence of runs and paths cannot be observed", "anchors": ["sdepy/integration.py:integrator.euler_next", "sdepy/integration.py:paths_generator._generate_paths", "sdepy/integration.py:SDE.dZ", "sdepy/infrastructure.py:wiener_source.__call__", "sdepy/infrastructure.py:cpoisson_source.__call__", "sdepy/infrastructure.py:montecarlo.update", "sdepy/infrastructure.py:montecarlo.mean"]}
{"id": "C90", "title": "Calls of the same integrator do not depend on previous calls, except for random draws", "statement": "A paths_generator instance, with any subclass methods, can be called several times, along any timelines, also if some of the calls raise. Each call gives the results of a new instance with the same parameters, called once with the random generators in the state found by that call. Whatever kind of steps is documented as accepted (None, an integer, an iterable) the points touched by each call are those set by steps. (False if steps is an iterator: its points are touched up to the first valid call with a timeline of two or more points, later calls touch timeline points only.)", "quantifier": "all subclass methods, depths, i0, steps and sequences of calls, with valid or invalid timelines", "why_tests_cant": "tests call instances once, or with lists as steps; a proof covers all sequences of calls", "anchors": ["sdepy/integration.py:paths_generator.__call__", "sdepy/integration.py:paths_generator.pace"]}
{"id": "C91", "title": "Backwards from the initial time, simulations converge in mean square to the solution of the equation", "statement": "If i0 is not the first index of the timeline, values at times before the initial one t0 are computed backwards from it. Take an equation as in C86, and noise whose increments, from t0 backwards, have mean and variance proportional to the time elapsed, and do not depend on the noise between their start and t0. Then, going backwards from the initial values, the equation has one and only one solution (coefficients being taken, in the sums that define its integrals, at the later end of each step); the integration returns the values of the Euler scheme followed backwards along its grid; and the mean square of the difference of the values simulated from the solution is at most a constant times the longest step, whatever timeline, steps and initial index. The same holds between two simulations that realise the same noise on different grids.", "quantifier": "all equations with such coefficients, any number of noise sources and of components, with log or not, all initial values; all noise with such increments; all timelines, steps and initial indexes, times from the initial one backwards", "why_tests_cant": "tests only check backward integration for a few equations and paths; here errors are averaged over all outcomes, and bounded for all steps, against a solution that has no closed form", "anchors": ["sdepy/integration.py:integrator.euler_next", "sdepy/integration.py:paths_generator._generate_paths", "sdepy/integration.py:paths_generator.__call__", "sdepy/integration.py:SDE.dZ"]}
{"id": "C92", "title": "Expectations and laws of values simulated backwards from the initial time converge to those of the solution", "statement": "Take an equation as in C91, whose sources of noise draw from a random generator, independently of each other and from step to step, with given laws over steps backwards. Then for any solution of the equation backwards from the initial time, driven by noise with the same laws of increments backwards: the values simulated at times before the initial one have, jointly over all requested times and all components, the same law as values whose mean square distance from the solution is at most a constant times the longest step; the expectation of any Lipschitz function of the values at one time differs from that for the solution by at most its Lipschitz constant times the square root of a constant times the longest step; and as the steps shrink, the joint law of the values at any finite set of times converges to that of the solution. The Wiener source draws such noise, with the same law as forwards; the source of jumps does, with as many jumps as forwards, of the opposite sign.", "quantifier": "all equations with such coefficients, any number of noise sources and of components, all initial values; all laws of increments with mean and variance proportional to time; all timelines, steps and initial indexes, times from the initial one backwards; all Lipschitz functions", "why_tests_cant": "tests do not compare laws of values computed backwards with anything; here laws are compared exactly, for equations with jumps and no closed form, with a rate in the length of steps", "anchors": ["sdepy/integration.py:integrator.euler_next", "sdepy/integration.py:paths_generator._generate_paths", "sdepy/integration.py:SDE.dZ", "sdepy/infrastructure.py:wiener_source.__call__", "sdepy/infrastructure.py:poisson_source.__call__", "sdepy/infrastructure.py:cpoisson_source.__call__"]}
{"id": "C93", "title": "Simulations of equations with additive noise converge with order one", "statement": "Take an equation whose noise coefficients do not depend on the values of the process, but only on time, with a smooth drift (Lipschitz, and approximated by linear functions up to terms of the second order), driven by any number of sources of noise, jumps included, whose increments are independent, with mean and variance proportional to the time elapsed. The equation has one and only one solution, and any simulation that realises the noise at the points of its grid yields values such that the mean square of their difference from the solution is at most a constant times the square of the longest step, where for general equations (C86) it is a constant times the longest step. The constant only depends on the equation, on mean and variance of the noise, on the initial values and on the time span. The same holds for times before the initial one.", "quantifier": "all equations with additive noise and smooth drift, any number of noise sources and of components, all initial values; all noises with such increments; all timelines, steps and initial indexes, times forwards and backwards from the initial one", "why_tests_cant": "tests use a few equations, steps and seeds, with tolerances too wide to tell one order of convergence from the other; here the bound holds for all grids, irregular ones included", "anchors": ["sdepy/integration.py:integrator.euler_next", "sdepy/integration.py:paths_generator._generate_paths", "sdepy/integration.py:SDE.dZ", "sdepy/integration.py:SDE.A"]}
{"id": "C94", "title": "Keys of process indexing: modes, booleans, NumPy integers", "statement": "p[key] gives a process if the key is, or starts with, one of the strings 'v', 't', 'p', and an array if it does not start with a string; any other string raises IndexError. p['v'], p['t'] and p['p'] are the process itself. p['t', i] and p['p', i] give the process at the times, or with the paths, at the positions selected by i, be it an integer, a slice, a list of integers, or booleans, and raise an error if i is not valid; integers select one time or path and keep its axis, whether they are Python integers or NumPy integers. p['v', i1, ..., ik] indexes values, at each time and for each path, as if they were an array. Items after the string may be given as a tuple; more than one item after 't' or 'p' raises AssertionError.", "quantifier": "all processes, all keys made of strings, Python and NumPy integers, slices, lists of integers and lists of booleans", "why_tests_cant": "tests use Python integers, slices and a few lists; an index that comes from NumPy, as in p[\"p\", x.argmax()], takes another branch", "anchors": ["sdepy/infrastructure.py:process.__getitem__", "sdepy/infrastructure.py:process.__new__"]}
{"id": "C95", "title": "Expectations and Monte Carlo estimates converge with order one if noise is additive", "statement": "For an equation whose coefficients of noise do not depend on the values of the process, with smooth drift, simulated with sources that draw increments of given laws, the expectation of any Lipschitz function of the values simulated for a time of the timeline differs from that of the solution by at most a constant times the longest step, forwards and backwards from the initial time. The mean computed by montecarlo, over the paths of any number of runs, has a mean square error of at most twice the variance of the function of the solution divided by the number of paths, plus a constant times the square of the longest step. Jumps are allowed.", "quantifier": "all such equations with any number of sources, all random generators that draw the given laws, all timelines, steps and initial indexes, all Lipschitz functions, any number of paths and runs", "why_tests_cant": "tests compare moments with one or two step sizes within statistical error, and cannot see the rate", "anchors": ["sdepy/integration.py:integrator.euler_next", "sdepy/integration.py:paths_generator._generate_paths", "sdepy/integration.py:SDE.dZ", "sdepy/infrastructure.py:wiener_source.__call__", "sdepy/infrastructure.py:cpoisson_source.__call__", "sdepy/infrastructure.py:montecarlo.update", "sdepy/infrastructure.py:montecarlo.mean"]}
{"id": "C96", "title": "Compound Poisson sources on given sources and types of Poisson increments", "statement": "A cpoisson_source may be given any source of Poisson increments as dn: None, the classes poisson_source and even_poisson_source, or instances of them, with any data type of increments (dtype of the instance, or ptype). In all cases the increment in each cell is the sum of exactly as many variates of y as the absolute value of the increment of dn in that cell, times the sign of the time step; each row of variates is used for exactly one cell; calls succeed whenever Poisson increments and variates can be drawn. With even_poisson_source, odd numbers of paths are rejected, and paths of the second half have as many jumps as those of the first half.", "quantifier": "all numbers of paths, shapes of values, intensities, Poisson and jump variates, times and time steps, forwards and backwards", "why_tests_cant": "tests construct compound sources with the default dn only; the type of increments is fixed by a default that differs between two classes", "anchors": ["sdepy/infrastructure.py:cpoisson_source.__init__", "sdepy/infrastructure.py:cpoisson_source.__call__", "sdepy/infrastructure.py:_antithetics", "sdepy/infrastructure.py:poisson_source"]}
{"id": "C97", "title": "Updating a component of a montecarlo instance", "statement": "An instance a[i] obtained by indexing a montecarlo instance can be updated with further samples of that component: the update succeeds whenever the sample has the given axis, and cumulates data points as a would, with its bins, range and use of antithetic values. After any sequence of updates of a and of its components, each of them reports as many paths as the data points cumulated in its own statistics, and can be updated further.", "quantifier": "all instances, empty or not, all indexes, any number of components, all sequences of successful and failed updates of them", "why_tests_cant": "tests index instances only to read statistics; what an update of a component does to the others shows up in later calls on other objects", "anchors": ["sdepy/infrastructure.py:montecarlo.__getitem__", "sdepy/infrastructure.py:montecarlo.update", "sdepy/infrastructure.py:montecarlo._update_moments"]}
{"id": "C98", "title": "Indexing montecarlo instances by slices and lists", "statement": "For a montecarlo instance a with bins that has received data, a[i] with i made of integers, slices and lists succeeds exactly if arrays of the shape of data points can be indexed so, and its statistics are those of a as arrays indexed by i. As documented (a new instance referencing statistics, no copying), they stay so if a is updated after indexing. If i selects a single component, histogram() is the one of all data of that component; if it selects more, IndexError is raised.", "quantifier": "all instances, all sequences of samples before and after indexing, all indexes made of integers, slices and lists", "why_tests_cant": "tests index with integers, right after the data has been cumulated; that slices give views and lists give copies shows only after a further update, and parts of a[i] then disagree with each other", "anchors": ["sdepy/infrastructure.py:montecarlo.__getitem__", "sdepy/infrastructure.py:montecarlo.histogram", "sdepy/infrastructure.py:montecarlo.mean"]}
{"id": "C99", "title": "Timelines of unsigned integers", "statement": "If the timeline passed to an integrator is of an integer type, the use of floats is forced in computations: integrating along a timeline of unsigned integers gives the result of integrating along the same numbers as floats, with the same integration steps, forwards and backwards.", "quantifier": "all integrators that take steps as they come, all steps parameters, all timelines of unsigned integers of any width, all states of the random generators", "why_tests_cant": "tests use timelines of floats, or of the default (signed) integer type; with an unsigned type a forward integration returns a plausible result, computed with fewer steps than requested", "anchors": ["sdepy/integration.py:paths_generator.__call__", "sdepy/integration.py:paths_generator.pace", "sdepy/integration.py:paths_generator._store_if_reached"]}
{"id": "C100", "title": "Sources with memory: how much they store", "statement": "The attribute `size` of a Wiener or Poisson source with memory is the number of its components and paths times the number of time points in its attribute `t`; it never decreases, grows by at most one value per component, path and time evaluated, and does not change if the source is evaluated at times already evaluated. For a compound Poisson source that makes its own Poisson source, with jumps that are never zero, `size` is the number of components and paths times the number of time points stored by the source and by its Poisson source, plus the number of jumps of the Poisson source from the first to the last time stored; evaluating between stored times adds no jumps.", "quantifier": "all sources, tolerances, histories of evaluations (of the source and of its underlying Poisson source, in any order), and realizations of the random generators", "why_tests_cant": "that no variate is lost or stored twice depends on the whole sequence of evaluations, and on how jumps happen to be split among intervals; tests only check `size` after a few of them", "anchors": ["sdepy/infrastructure.py:true_source.size", "sdepy/infrastructure.py:true_source.t", "sdepy/infrastructure.py:true_cpoisson_source.getsize", "sdepy/infrastructure.py:true_cpoisson_source.size"]}
{"id": "C101", "title": "Multiplicative noise: the exact error of a simulation, and its order", "statement": "Simulating dx = c*x*dw along any grid, the mean square of the difference between simulated values and the exact solution driven by the same noise is equal to x0^2*(exp(c^2*(t - t0)) - product of (1 + c^2*dt) over the steps dt from t0 to t). It is at least x0^2*(c^2*(t - t0))^2/(2*n), with n the number of steps, however steps are placed, and at most x0^2*exp(c^2*(t - t0))*c^2*(t - t0)*c^2*dtmax; so that no order of strong convergence better than one half holds.", "quantifier": "all coefficients c, initial values, numbers of components and paths, correlations among components, timelines, integration steps, and realizations of the noise in L2", "why_tests_cant": "mean square errors are expectations over the law of the noise, and a lower bound for all grids involves infinitely many simulations; a Monte Carlo test could only estimate a few of them", "anchors": ["sdepy/integration.py:integrator.euler_next", "sdepy/integration.py:paths_generator._generate_paths", "sdepy/integration.py:SDE.dZ"]}
{"id": "C102", "title": "Affine drifts: means of simulated values are exact Euler values, of order one", "statement": "Take an equation with any number of sources of noise, jumps included, whose increments are independent of the past and have mean and variance proportional to the time elapsed. If its drift, once each increment of noise is replaced by its mean, is an affine function of the values, then the means of simulated values are, exactly, the values of the same steps with no noise, each increment being replaced by its mean. Means of solutions solve the ordinary differential equation with the same replacement; and means of simulated values differ from them at most by a constant times the longest step (against its square root, for differences of values), also for simulations that draw from a random generator.", "quantifier": "all Lipschitz equations with an affine mean drift, initial values, laws of the noise with mean and variance, numbers of components and paths, timelines, and integration steps", "why_tests_cant": "means are expectations over the law of the noise, and the order of convergence involves infinitely many simulations; a Monte Carlo test has statistical errors larger than the bias", "anchors": ["sdepy/integration.py:integrator.euler_next", "sdepy/integration.py:paths_generator._generate_paths", "sdepy/integration.py:SDE.dZ"]}
{"id": "C103", "title": "Paths simulated in all runs are independent and of the same law, and montecarlo measures the error of their mean exactly", "statement": "Integrate an equation with any number of sources of noise, the same for all paths and with the same initial values, for any number of paths, in any number of runs, one after the other from the state of the random generator left by the previous one. The values simulated along a path, at all times of the timeline, have the same joint law whatever the path and the run, and the paths of all runs are mutually independent. Compute for each path a function of all these values, with mean m and variance v, and cumulate them in a montecarlo instance, a sample for each run, n values in all: the mean reported has mean square error exactly v/n + (m - c)^2 as an estimate of any number c, the square of the stderr reported has expected value exactly v/n, and, as runs are cumulated, mean and var converge almost surely to m and v. If the mean drift is affine, as in C102, the mean of a component differs from that of the solution, on average, at most by a constant times the longest step, and the mean square error is at most (s + sqrt(K*delta))^2/n + (K*delta)^2, where s is the standard deviation of the solution. If moreover the variance of noise is a quadratic function of the component, as in C104, the limits of the mean and variance reported differ from the mean and variance of the solution at most by a constant times the longest step.", "quantifier": "all Lipschitz equations, initial values, laws of the noise, numbers of components, paths and runs, timelines, integration steps, and measurable functions of a path with a variance", "why_tests_cant": "independence and equality in law are statements about the law of all draws; a test only sees a few realisations of a generator", "anchors": ["sdepy/integration.py:paths_generator._generate_paths", "sdepy/integration.py:SDE.dZ", "sdepy/infrastructure.py:montecarlo.update", "sdepy/infrastructure.py:montecarlo.stderr"]}
{"id": "C104", "title": "Mean squares and variances of simulations of linear equations follow an exact recursion and have order one", "statement": "Simulate an equation with any number of sources of noise, whose increments are independent of the past, uncorrelated between different sources, and have mean and variance proportional to the time elapsed. If the drift of each component, once increments of noise are replaced by their means, is p(t) + q(t)*x, and the variance per unit of time of its noise is r(t) + n(t)*x + w(t)*x^2, where x is the value of that component, then the mean e and mean square f of simulated values are exactly those given, step by step, by e += (p + q*e)*dt and f += (2*(p*e + q*f) + (r + n*e + w*f))*dt + (p^2 + 2*p*q*e + q^2*f)*dt^2. Means and mean squares of solutions solve de = p + q*e, df = 2*(p*e + q*f) + (r + n*e + w*f), and means, mean squares and variances of simulated values, also if the noise is drawn from a random generator, differ from those of solutions at most by a constant times the longest step.", "quantifier": "all Lipschitz equations of that form, initial values, laws of the noise with finite variance, timelines and integration steps forward from t0", "why_tests_cant": "a test that compares sample variances with known values cannot tell an error of order one in the step from statistical noise, and sees few equations, steps and laws of the noise", "anchors": ["sdepy/integration.py:integrator.euler_next", "sdepy/integration.py:SDE.next", "sdepy/integration.py:paths_generator._generate_paths"]}
{"id": "C105", "title": "Means and variances of values simulated backwards have order one, for linear equations", "statement": "Simulate an equation backwards in time from t0, with noise whose increments are independent of what happened between their start and t0, uncorrelated between different sources, and have mean and variance proportional to the time elapsed. If the change of each component per unit of time elapsed, once increments of noise are replaced by their means, is p(t) + q(t)*x, and the variance per unit of time of its noise is r(t) + n(t)*x + w(t)*x^2, means and mean squares of simulated values follow exactly the recursion of C104, with dt the time elapsed, and means, mean squares and variances, also if the noise is drawn from a random generator, differ from those of solutions at most by a constant times the longest step.", "quantifier": "all Lipschitz equations of that form, initial values, laws of the noise with finite variance, timelines and integration steps backward from t0", "why_tests_cant": "as for C104; tests only integrate a few equations backwards", "anchors": ["sdepy/integration.py:integrator.euler_next", "sdepy/integration.py:paths_generator._generate_paths", "sdepy/integration.py:paths_generator.__call__"]}
{"id": "C106", "title": "Confidence intervals from the mean and stderr of a montecarlo instance are asymptotically exact", "statement": "Cumulate in montecarlo instances more and more values that are independent and of the same law, with mean m and finite variance that is not zero, in samples of any sizes. The probability that the mean reported exceeds m by at most z times the stderr reported tends to the probability that a standard normal variable is at most z, and the probability that it differs from m by at most z times stderr tends to the probability that a standard normal variable is between -z and z. This holds in particular for any function of all the values along a path of an equation, simulated for any number of paths in more and more runs. Intervals for means of solutions, rather than of simulated values, must be extended by K*delta for a component if the mean drift is affine, and by B*sqrt(K*delta) for functions with Lipschitz constant B, where delta is the longest step and K does not depend on the steps: the probability that they contain the mean of the solution is then, in the limit, at least that of the normal interval.", "quantifier": "all laws with a finite variance, numbers of standard errors, sizes of the samples, Lipschitz equations, initial values, laws of the noise, numbers of components and paths, timelines, integration steps, and measurable functions of a path with a variance", "why_tests_cant": "coverage probabilities are limits over the law of all draws; a test only sees a few realisations, and may only check frequencies within wide tolerances", "anchors": ["sdepy/infrastructure.py:montecarlo.mean", "sdepy/infrastructure.py:montecarlo.stderr", "sdepy/infrastructure.py:montecarlo.update", "sdepy/integration.py:paths_generator.__call__"]}
{"id": "C107", "title": "Skewness, kurtosis, densities and distribution functions estimated by montecarlo are consistent", "statement": "Cumulate in montecarlo instances more and more values that are pairwise independent and of the same law. Almost surely, if the law has a fourth moment and its variance is not zero, from some number of values on skew and kurtosis report numbers, and these converge to the third and fourth moments of the standardised law. If values are numbers, the edges of bins are given and increasing, and values are in the bins with some probability, then from some number of values on density_histogram, pdf and cdf report numbers: the 'interp' cdf converges at each edge to the probability of being below it, given that values are in the bins, and its distance from the conditional distribution function is in the limit, uniformly, at most the conditional probability of one bin; values of density_histogram, and of the 'interp' pdf at midpoints, converge to conditional probabilities of bins divided by their widths; the 'gaussian_kde' pdf converges to the mixture of the normal densities of bins, weighed with their conditional probabilities. All this holds in particular for any function of all the values along a path of an equation, simulated for any number of paths in more and more runs.", "quantifier": "all laws (with a fourth moment and a variance, for skewness and kurtosis), sizes of the samples, increasing edges, bandwidths and arguments", "why_tests_cant": "these are almost sure limits over infinite sequences of values; a test only sees a few values, for a few laws, within wide tolerances", "anchors": ["sdepy/infrastructure.py:montecarlo.skew", "sdepy/infrastructure.py:montecarlo.kurtosis", "sdepy/infrastructure.py:montecarlo.density_histogram", "sdepy/infrastructure.py:montecarlo._pdf_or_cdf"]}
{"id": "C108", "title": "Names exported by the package are wrapped as kfuncs according to the configuration", "statement": "When the package is imported, any value of the KFUNC configuration parameter other than 'all', 'shortcuts' and None is rejected. Otherwise each shortcut stands for its source or process: with 'all', both names are bound to the class wrapped once as a kfunc; with 'shortcuts', the shortcut is bound to the class wrapped once, and the full name to the class itself; with None, both are bound to the class itself. Analytical functions are wrapped, unless KFUNC is None, with their positional parameters as variables (time alone for means, variances and standard deviations) and their keyword-only parameters, with defaults, as parameters. No other name is affected. No wrapping fails for the classes and functions of the package.", "quantifier": "all values of the configuration parameter, all namespaces in which classes and functions can be wrapped, and all names", "why_tests_cant": "the configuration is read once, upon import: a test suite runs under one value, and does not enumerate names, nor namespaces after changes of signatures", "anchors": ["sdepy/shortcuts.py:kfunc_all", "sdepy/kfun.py:kfunc", "sdepy/kfun.py:_kfunc_decorate_class", "sdepy/kfun.py:_kfunc_decorate_function"]}
{"id": "C109", "title": "Random numbers are drawn from the generator asked for, and from no other", "statement": "The generator used by a source or process is the one given as rng, or, if None, the default generator as of its instantiation. It is the one reported as rng, and all random numbers are drawn from it by the source, by all sources nested into it, and by all sources a process instantiates; only sources given as instances, and jump distributions not accepting a random_state, draw from generators of their own. Values returned by an object therefore do not depend on any calls of objects using other generators, nor on later assignments of default_rng. A seed in place of a generator is rejected with a TypeError by all source classes, and by processes as soon as they instantiate a source.", "quantifier": "all source classes, nested in all ways that are possible, all processes and all ways of giving their sources, all generators, and all histories of calls and of assignments of default_rng", "why_tests_cant": "a draw from the wrong generator gives samples with the same law: it may only show up as a change in reproducible results, for some combination of nested sources and order of calls", "anchors": ["sdepy/infrastructure.py:source.__init__", "sdepy/infrastructure.py:wiener_source", "sdepy/infrastructure.py:poisson_source", "sdepy/infrastructure.py:cpoisson_source.__init__", "sdepy/infrastructure.py:_antithetics", "sdepy/infrastructure.py:true_wiener_source.__init__", "sdepy/infrastructure.py:true_poisson_source.__init__", "sdepy/infrastructure.py:true_cpoisson_source.__init__", "sdepy/integration.py:SDE.__init__", "sdepy/integration.py:SDE.source_dj"]}
{"id": "C110", "title": "The intensity given is that of the Poisson events generated", "statement": "A source of Poisson events or jumps, if instantiated with intensity lam, draws events with that intensity: all source classes, with an underlying source that is not given or given as a class. An underlying source given as an instance is used with its own intensity.", "quantifier": "all source classes, all underlying sources given as classes or instances, all intensities and generators", "why_tests_cant": "combinations of source classes nested into each other are many, and a wrong intensity is only seen by a statistical test for the combination at issue", "anchors": ["sdepy/infrastructure.py:cpoisson_source.__init__", "sdepy/infrastructure.py:true_cpoisson_source.__init__", "sdepy/infrastructure.py:_source_setup", "sdepy/integration.py:SDE.source_dj"]}
{"id": "C111", "title": "With antithetic paths, averages of processes with additive noise are free of noise", "statement": "If increments in the second half of the paths are the opposite of those in the first half, as with odd_wiener_source, the drift is affine, and coefficients of noise do not depend on the process and are the same for all paths, then at each time of the timeline the average of the simulated values over each pair of paths, and over all paths, is exactly the value given by Euler's method, along the same integration steps, for the differential equation without noise, started from the average of initial values. In particular, for ornstein_uhlenbeck_process, it is that for m' = k*(theta - m).", "quantifier": "all affine drifts and coefficients of noise depending on time, with any number of components and sources, all numbers of pairs, timelines, steps and starting points i0, both forwards and backwards, and all random draws", "why_tests_cant": "tests compare averages to expected values within statistical errors, at given seeds: they cannot see that errors are exactly zero for all draws, equations and timelines", "anchors": ["sdepy/infrastructure.py:odd_wiener_source", "sdepy/infrastructure.py:_antithetics", "sdepy/integration.py:SDE.dZ", "sdepy/integration.py:integrator.euler_next", "sdepy/integration.py:paths_generator.__call__", "sdepy/integration.py:ornstein_uhlenbeck_SDE"]}
{"id": "C112", "title": "Antithetic paths of jump-diffusions keep jumps and drop noise from averages", "statement": "If sources such as odd_wiener_source give opposite increments in the two halves of the paths, and all others, such as even_cpoisson_source, give the same increments, then the average over each pair of paths of the simulated values does not depend on the coefficients of the former, provided that they do not depend on the process and that all other coefficients are affine: it is exactly the average for a process with the same sources, started from the same state of generators, where those coefficients are changed, or zero. For jumpdiff_process and its Merton and Kou versions, the product of the two values of a pair is that of the process with the same jumps, drift mu - sigma**2/2 and no diffusion.", "quantifier": "all such processes, with any number of components and sources, all numbers of pairs, timelines, steps and starting points i0, both forwards and backwards, all states of generators and random draws", "why_tests_cant": "two processes should be compared path by path from the same state of generators: errors in pairing would be seen as slightly larger statistical errors only", "anchors": ["sdepy/infrastructure.py:odd_wiener_source", "sdepy/infrastructure.py:even_cpoisson_source", "sdepy/infrastructure.py:_antithetics", "sdepy/integration.py:SDE.dZ", "sdepy/integration.py:integrator.euler_next", "sdepy/integration.py:jumpdiff_SDE"]}
{"id": "C113", "title": "montecarlo reports exact means, and zero errors, for antithetic paths with additive noise", "statement": "Let montecarlo be updated with values simulated, in any number of runs and for the same time of the timeline, by a process with paired paths with opposite increments of noise, affine drift and coefficients of noise that depend on time only. Then the mean it reports for each component is exactly the value given by Euler's method for the differential equation without noise, both with use='all' and with use='even'. With use='even', variance is exactly zero; so are standard deviation and standard error, as soon as there are two pairs.", "quantifier": "all such processes, timelines, steps and starting points, all numbers of pairs and of runs, of any sizes, all histories of updates, bins and ranges, and all random draws", "why_tests_cant": "tests that compare statistics to expected values allow for statistical errors, and for few runs and seeds only; the combination of sources, integration and statistics is not tested for exact results", "anchors": ["sdepy/infrastructure.py:montecarlo.update", "sdepy/infrastructure.py:montecarlo._update_moments", "sdepy/infrastructure.py:montecarlo.mean", "sdepy/infrastructure.py:montecarlo.var", "sdepy/infrastructure.py:montecarlo.stderr", "sdepy/infrastructure.py:odd_wiener_source", "sdepy/integration.py:integrator.euler_next"]}
{"id": "C114", "title": "Variances of samples are split exactly between use='even' and use='odd'", "statement": "Let three montecarlo instances, with use='all', use='even' and use='odd', be updated with the same samples, each with an even number of values. The first counts twice as many values as the others. The first two report the same mean, for each component. The variance reported by the first is exactly the sum of those reported by the other two, plus the square of the mean reported by the third. In particular, the variance reported with use='even' never exceeds the one reported with use='all'.", "quantifier": "all histories of updates, in any number and with samples of any shape and size, along any axis, all bins and ranges, possibly different for the three instances, and all components", "why_tests_cant": "tests check single statistics against numpy for some samples, within rounding; that the three modes are consistent with each other across updates, for all samples, is not tested", "anchors": ["sdepy/infrastructure.py:montecarlo.update", "sdepy/infrastructure.py:montecarlo._update_moments", "sdepy/infrastructure.py:montecarlo.mean", "sdepy/infrastructure.py:montecarlo.var"]}
{"id": "C115", "title": "Means over antithetic paths are not biased, and their errors are as reported", "statement": "odd_wiener_source, without correlations, draws increments that are independent and normal along the first half of the paths, and opposite along the others. With noise like this, or with any other symmetric law, all paths simulated, in both halves and in all runs, have the same joint law; pairs of paths, each as a whole, are independent. Hence, for any function of a path, the mean reported by montecarlo with use='even' has exactly the mean of the function along a single path, and its mean square error is the variance w of averages over a pair divided by the number of pairs; w never exceeds the variance of the function along a path, and w divided by the number of pairs is the mean of the square of the standard error reported. With use='odd' the mean reported is zero in the mean, and its mean square, again as reported, is the variance of half the difference within a pair divided by the number of pairs.", "quantifier": "all equations with any number of sources and of components, Lipschitz coefficients, timelines, steps, numbers of pairs and of runs, all functions of a path with finite variance, and all symmetric laws that are those of increments of some process", "why_tests_cant": "tests compare statistics with expected values, within statistical errors, for few processes; whether antithetic sampling is unbiased for all of them, and whether reported errors are right although paths are not independent, can not be tested", "anchors": ["sdepy/infrastructure.py:odd_wiener_source", "sdepy/infrastructure.py:montecarlo.update", "sdepy/infrastructure.py:montecarlo.mean", "sdepy/infrastructure.py:montecarlo.stderr", "sdepy/integration.py:integrator.euler_next", "sdepy/integration.py:SDE.dZ"]}
