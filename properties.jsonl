{"id": "C01", "title": "Filter covariances stay symmetric positive semidefinite", "statement": "For the standard Kalman filter, if the initial covariance P0, the observation covariance H and the shock covariance Q (at every time step) are symmetric positive semidefinite and the jitter is non-negative, then every predicted and every filtered covariance the filter returns is symmetric positive semidefinite, whatever the data and the system matrices. With partially missing rows this needs H to have no covariance between a missing and an observed series.", "quantifier": "all data sets of every length with any missing pattern, all dimensions, all time-varying system matrices", "why_tests_cant": "PSD-ness must survive arbitrarily many steps of an input-dependent recursion over real matrices of any size", "anchors": ["pymc_extras/statespace/filters/kalman_filter.py:StandardFilter.update", "pymc_extras/statespace/filters/kalman_filter.py:BaseFilter.predict", "pymc_extras/statespace/filters/kalman_filter.py:BaseFilter.kalman_step", "pymc_extras/statespace/filters/utilities.py:quad_form_sym", "pymc_extras/statespace/filters/utilities.py:stabilize"]}
{"id": "C02", "title": "The covariance update equals the textbook update", "statement": "With zero jitter and an invertible innovation covariance F, the filtered mean and covariance returned by the standard filter for a fully observed row are a + P Zᵀ F⁻¹ (y − d − Z a) and P − P Zᵀ F⁻¹ Z P, the conditional-Gaussian formulas in the docstring.", "quantifier": "all dimensions, all real matrices with P symmetric, H symmetric, F invertible", "why_tests_cant": "an identity over all real matrices; floating point tests compare a few random draws", "anchors": ["pymc_extras/statespace/filters/kalman_filter.py:StandardFilter.update"]}
{"id": "C03", "title": "A completely missing row carries no information", "statement": "When every entry of an observation row is missing (NaN or the fill value), the filtered mean equals the predicted mean, the filtered covariance equals the predicted covariance plus jitter on the diagonal, the log-likelihood contribution is zero, and the result does not depend on d, Z, H or on the marker used.", "quantifier": "all dimensions, all system matrices, all missing markers, jitter > 0", "why_tests_cant": "must hold for every matrix and dimension; a test covers a handful of patterns", "anchors": ["pymc_extras/statespace/filters/kalman_filter.py:BaseFilter.handle_missing_values", "pymc_extras/statespace/filters/kalman_filter.py:StandardFilter.update"]}
{"id": "C04", "title": "A partially missing row is filtered as if the missing series did not exist", "statement": "When some series are missing at a step and H has no covariance between the missing and the observed series, the filtered mean and covariance equal those obtained by deleting the missing series from y, d, Z and H.", "quantifier": "all dimensions, all missing patterns, all system matrices, jitter > 0", "why_tests_cant": "the claim ranges over all 2^k missing patterns and all matrices", "anchors": ["pymc_extras/statespace/filters/kalman_filter.py:BaseFilter.handle_missing_values", "pymc_extras/statespace/filters/kalman_filter.py:StandardFilter.update"]}
{"id": "C05", "title": "Likelihood of a row is the Gaussian log-density only for a single observed series", "statement": "For one observed series and zero jitter the standard filter's per-step log-likelihood is the log of the normal density of y given the past. For k observed series it differs from the multivariate normal log-density by the constant (k−1)/2·log(2π); and with partially missing rows it additionally contains, for each missing series with intercept d_i, the term −½(log j + d_i²/j) of the jitter j.", "quantifier": "all dimensions, all data, all system matrices", "why_tests_cant": "the discrepancy is a symbolic identity; numeric tests only compare filters with the same constant to each other", "anchors": ["pymc_extras/statespace/filters/kalman_filter.py:StandardFilter.update", "pymc_extras/statespace/filters/kalman_filter.py:MVN_CONST"]}
{"id": "C06", "title": "Sequential (univariate) filtering agrees with batch filtering", "statement": "For fully observed data, diagonal H with positive entries and zero jitter, processing the series one at a time (univariate filter) returns the same filtered and predicted means and covariances as the standard filter, row by row and over whole runs, and its log-likelihood is the full multivariate Gaussian log-density provided no single series' contribution log F + v²/F is exactly zero (each series where it is zero loses ½·log 2π). A NaN series is skipped whenever the step returns numbers; with jitter zero a NaN entry makes the whole result NaN, with a positive jitter and positive semidefinite inputs the step always returns numbers.", "quantifier": "all numbers of series and states, all P PSD, all Z, d, y", "why_tests_cant": "needs induction over the number of series with a Schur-complement argument for all matrices", "anchors": ["pymc_extras/statespace/filters/kalman_filter.py:UnivariateFilter._univariate_inner_filter_step", "pymc_extras/statespace/filters/kalman_filter.py:UnivariateFilter.kalman_step"]}
{"id": "C07", "title": "The square-root filter propagates a valid factor of the same covariances", "statement": "If the carried matrix L is a square root of P (P = L Lᵀ) then the square-root filter's prediction returns a square root of T P Tᵀ + R Q Rᵀ, and its update returns square roots of F = Z P Zᵀ + H and of the standard filter's filtered covariance, and the same filtered mean, for every QR factorisation the linear-algebra library may return with F_chol invertible.", "quantifier": "all dimensions, all system matrices, every orthogonal factor the QR routine may choose", "why_tests_cant": "the result must not depend on which of the infinitely many QR factorisations is returned", "anchors": ["pymc_extras/statespace/filters/kalman_filter.py:SquareRootFilter.predict", "pymc_extras/statespace/filters/kalman_filter.py:SquareRootFilter.update"]}
{"id": "C08", "title": "The square-root filter's log-likelihood is right only for one series", "statement": "For a single observed series the square-root filter's log-likelihood equals the Gaussian log-density; for two or more series there are inputs on which it differs from the standard filter's value by more than a constant.", "quantifier": "all single-series inputs; a witness for two series", "why_tests_cant": "the formula is wrong only off the diagonal of the Cholesky factor; scalar tests never see it", "anchors": ["pymc_extras/statespace/filters/kalman_filter.py:SquareRootFilter.update"]}
{"id": "C09", "title": "Time-varying matrices reach the filter step under their own names", "statement": "Whatever subset of c, d, T, Z, R, H, Q is time varying, each filter step of the standard filter receives, for each of the seven names, the value of that matrix at the current time index, together with the current data row and the carried state.", "quantifier": "all 128 subsets, all values, all time steps", "why_tests_cant": "the argument order is decided at run time from the subset; 2^7 subsets times all histories", "anchors": ["pymc_extras/statespace/filters/kalman_filter.py:BaseFilter.unpack_args", "pymc_extras/statespace/filters/kalman_filter.py:BaseFilter.build_graph", "pymc_extras/statespace/filters/utilities.py:split_vars_into_seq_and_nonseq"]}
{"id": "C10", "title": "The univariate filter scrambles time-varying arguments", "statement": "The univariate filter step receives its arguments positionally; the standardised order is obtained exactly when no matrix is time varying. For any non-empty set of time-varying matrices some parameter is bound to the wrong value.", "quantifier": "all subsets of time-varying matrices", "why_tests_cant": "only visible for particular subsets and distinguishable values", "anchors": ["pymc_extras/statespace/filters/kalman_filter.py:UnivariateFilter.kalman_step", "pymc_extras/statespace/filters/kalman_filter.py:BaseFilter.build_graph"]}
{"id": "C11", "title": "Predictions never look ahead", "statement": "The predicted state and covariance returned for time t, and the observation mean and covariance for time t, depend only on data rows before t (and the parameters); the filtered ones only on rows up to and including t. Entry 0 of the predictions is (a0, P0).", "quantifier": "all data sets, all pairs of data sets agreeing on a prefix, all t", "why_tests_cant": "a non-interference property over pairs of histories", "anchors": ["pymc_extras/statespace/filters/kalman_filter.py:BaseFilter.build_graph", "pymc_extras/statespace/filters/kalman_filter.py:BaseFilter._postprocess_scan_results"]}
{"id": "C12", "title": "Filter outputs are aligned with the data", "statement": "Every one of the seven filter outputs has exactly one entry per data row; predicted[t+1] is the transition applied to filtered[t].", "quantifier": "all data lengths ≥ 1", "why_tests_cant": "unbounded lengths", "anchors": ["pymc_extras/statespace/filters/kalman_filter.py:BaseFilter._postprocess_scan_results"]}
{"id": "C13", "title": "The smoother returns one state per time step and fixes the last one", "statement": "The smoothed states and covariances have the same length as the filtered ones, the last smoothed state/covariance are the last filtered ones, and entry t is obtained by the smoothing step from filtered[t] and smoothed[t+1], for static T, R, Q.", "quantifier": "all lengths ≥ 1, all filtered inputs", "why_tests_cant": "unbounded backward recursion", "anchors": ["pymc_extras/statespace/filters/kalman_smoother.py:KalmanSmoother.build_graph"]}
{"id": "C14", "title": "The smoother ignores the state intercept", "statement": "The smoothing step (zero filter jitter, invertible predicted covariance) returns the Rauch–Tung–Striebel mean plus G c, where G is the smoother gain and c the state intercept, because its one-step prediction omits c; it equals RTS exactly when G c = 0 (in particular when c = 0). Its covariance is the RTS covariance plus the default jitter, which is added whatever jitter the user asks for.", "quantifier": "all dimensions and matrices", "why_tests_cant": "symbolic identity for all matrices", "anchors": ["pymc_extras/statespace/filters/kalman_smoother.py:KalmanSmoother.predict", "pymc_extras/statespace/filters/kalman_smoother.py:KalmanSmoother.smoother_step"]}
{"id": "C15", "title": "Time-varying matrices are misaligned in the smoother", "statement": "When a transition matrix is time varying with one entry per observation, the smoothing step for time t uses the matrix of time t+1 rather than the matrix of time t that the filter used to predict t+1.", "quantifier": "all lengths ≥ 2", "why_tests_cant": "depends on scan's pairing of unequal-length sequences under go_backwards", "anchors": ["pymc_extras/statespace/filters/kalman_smoother.py:KalmanSmoother.build_graph"]}
{"id": "C16", "title": "Smoothing never increases uncertainty", "statement": "Smoothed covariances are positive semidefinite whenever the filtered ones are. Without jitter (including the default jitter the step always adds), smoothing never increases uncertainty: P_smooth[t] ≤ P_filtered[t] in the Loewner order at every t, for every fully observed data set and positive definite measurement covariance; one step with jitters exceeds P_filtered[t] by at most the jitters it adds.", "quantifier": "all dimensions and all covariance matrices", "why_tests_cant": "Loewner-order claim over all matrices", "anchors": ["pymc_extras/statespace/filters/kalman_smoother.py:KalmanSmoother.smoother_step"]}
{"id": "C17", "title": "Simulated and forecast trajectories obey the state-space equations", "statement": "Every latent trajectory drawn by the linear Gaussian state-space distribution satisfies x[t+1] = c + T x[t] + R η[t] and y[t+1] = d + Z x[t+1] + ε[t] for all t, for all noise draws, with slice t of every time-varying matrix driving the step from t to t+1; the latent/observed split of the returned array recovers x and y exactly; the initial observation is Z x0 + ε0, so it is the model's observation equation only when the observation intercept is zero.", "quantifier": "all noise sequences, lengths and system matrices", "why_tests_cant": "unbounded horizon and arbitrary noise", "anchors": ["pymc_extras/statespace/filters/distributions.py:LinearGaussianStateSpace", "pymc_extras/statespace/filters/distributions.py:_LinearGaussianStateSpace.rv_op"]}
{"id": "C18", "title": "Trajectory length", "statement": "A linear Gaussian state-space draw asked for `steps` steps returns steps+1 rows when the initial state is kept and steps rows otherwise.", "quantifier": "all step counts", "why_tests_cant": "all n", "anchors": ["pymc_extras/statespace/filters/distributions.py:_LinearGaussianStateSpace.rv_op"]}
{"id": "C19", "title": "Forecast index has the requested length and starts right after the start date", "statement": "With an integer time index 0..n−1 and a non-negative start s in it, asking for `periods` forecasts returns exactly the indices s+1, …, s+periods and the initial state is taken at s; negative starts count from the end; a start outside the index is rejected.", "quantifier": "all n, starts and period counts", "why_tests_cant": "all integers; off-by-one behaviour", "anchors": ["pymc_extras/statespace/core/statespace.py:PyMCStateSpace._build_forecast_index"]}
{"id": "C20", "title": "Forecast `end` is exclusive for integer indices", "statement": "With an integer index, forecasting from start s to end e returns indices s+1..e−1, so the requested end is not included, whereas for date indices the end is included.", "quantifier": "all s < e", "why_tests_cant": "boundary convention", "anchors": ["pymc_extras/statespace/core/statespace.py:PyMCStateSpace._build_forecast_index"]}
{"id": "C21", "title": "Impulse responses are linear in the shock and follow the transition", "statement": "The impulse response at step t to an initial shock u is T^t R u when c = 0, so responses are linear in the shock and responses to a shock trajectory are the superposition of the shifted single-shock responses; with c ≠ 0 the response also contains Σ T^i c.", "quantifier": "all horizons, shocks, matrices", "why_tests_cant": "unbounded horizon", "anchors": ["pymc_extras/statespace/core/statespace.py:PyMCStateSpace.impulse_response_function"]}
{"id": "C22", "title": "Reading back a stored system matrix returns what was stored", "statement": "After assigning a whole numpy array of the documented static shape (or a time-varying one with a leading time axis of length other than 1) to a named slot of the representation, reading that slot returns the assigned values; other slots are unchanged. Writing a scalar to an element or slice changes exactly the addressed entries (with one index fewer, only entries of the first time slice), and reading a written slice returns the written array. A store constructed without arrays has the documented shape for every name, and a value given with an explicit time axis of length one is read back as its slice at time zero.", "quantifier": "all matrix dimensions, all nine slots, all arrays, all index tuples of integers and unit-step slices, all stores in good order", "why_tests_cant": "ranges over all shapes, index tuples and previous contents of the store", "anchors": ["pymc_extras/statespace/core/representation.py: PytensorRepresentation.__getitem__, __setitem__, _add_time_dim_to_slice"]}
{"id": "C23", "title": "Unknown names, wrong ranks and bad time-varying shapes are rejected before the store changes", "statement": "Assigning to an unknown matrix name, assigning a numpy array with the wrong number of axes, or a time-varying numpy array whose trailing axes differ from the declared ones, raises and leaves values and recorded shapes unchanged; every failing slice assignment leaves the store unchanged.", "quantifier": "all stores in good order, all names, arrays, index tuples and values", "why_tests_cant": "ranges over all shapes and names", "anchors": ["pymc_extras/statespace/core/representation.py: _validate_matrix_shape, _validate_key, __setitem__"]}
{"id": "C24", "title": "Missing-value masking is faithful", "statement": "Masking replaces exactly the NaN and infinite entries by the fill value and leaves all others unchanged, and the returned mask marks exactly those entries; it raises exactly when the data contain both such an entry and the fill value; if it succeeds on data with such entries, their positions are recoverable as exactly the positions equal to the fill value.", "quantifier": "all tables of floats (NaN, infinities, finite), all fill values", "why_tests_cant": "ranges over all tables and fill values", "anchors": ["pymc_extras/statespace/utils/data_tools.py: mask_missing_values_in_data"]}
{"id": "C25", "title": "Fill-value collisions without NaNs go unnoticed", "statement": "If the data contain the fill value but no NaN, masking succeeds without an error and the filter then treats those real observations as missing.", "quantifier": "all such arrays", "why_tests_cant": "the error check is conditional on there being a NaN", "anchors": ["pymc_extras/statespace/utils/data_tools.py:mask_missing_values_in_data", "pymc_extras/statespace/filters/kalman_filter.py:BaseFilter.handle_missing_values"]}
{"id": "C26", "title": "Component addition superposes observations", "statement": "For structural components a and b, the observation mean produced by a+b from stacked states is the sum of the components' observation means, and the stacked state evolves as each component's state evolves on its own, for every trajectory length and all shocks.", "quantifier": "all components, state dimensions, shocks and horizons", "why_tests_cant": "unbounded horizon, arbitrary matrices", "anchors": ["pymc_extras/statespace/models/structural.py:Component.__add__", "pymc_extras/statespace/models/structural.py:Component._combine_statespace_representations"]}
{"id": "C27", "title": "Component addition is associative with respect to the combined system", "statement": "Building (a+b)+c and a+(b+c) gives the same combined transition, selection, shock covariance, design and intercepts up to re-association of the block index, and the same concatenated lists of state, shock and parameter names.", "quantifier": "all components", "why_tests_cant": "all dimensions", "anchors": ["pymc_extras/statespace/models/structural.py:Component.__add__"]}
{"id": "C28", "title": "Combining duplicate names", "statement": "Adding two components is refused exactly when they observe different numbers of series or share a component name that does not start with 'StateSpace'. When it succeeds, dictionary-valued properties (named variables, parameter info, coords) with equal keys are silently overwritten by the right operand, so a parameter of the left operand under a shared name becomes unreachable.", "quantifier": "all components", "why_tests_cant": "ranges over all components", "anchors": ["pymc_extras/statespace/models/structural.py: Component.__add__, _combine_component_info, _combine_property"]}
{"id": "C29", "title": "Seasonal dummies sum to zero over a season", "statement": "Without innovations, the time-domain seasonal component of season length s produces a pattern with period s whose any s consecutive values sum to zero.", "quantifier": "all s ≥ 2, all initial states, all times", "why_tests_cant": "all s and t", "anchors": ["pymc_extras/statespace/models/structural.py:TimeSeasonality.make_symbolic_graph"]}
{"id": "C30", "title": "Frequency seasonality is periodic", "statement": "Without innovations, the frequency-domain seasonal component with season length s and n harmonics produces observations with period s.", "quantifier": "all s, n, initial states", "why_tests_cant": "all s, n and t; trigonometric identity", "anchors": ["pymc_extras/statespace/models/structural.py:FrequencySeasonality.make_symbolic_graph"]}
{"id": "C31", "title": "Cycle amplitude is controlled by the dampening factor", "statement": "Without innovations, the squared norm of the cycle's state is multiplied by rho² each step; so it is preserved when undamped and tends to zero for 0 ≤ rho < 1.", "quantifier": "all rho, cycle lengths, initial states, times", "why_tests_cant": "all reals and t", "anchors": ["pymc_extras/statespace/models/structural.py:CycleComponent.make_symbolic_graph"]}
{"id": "C32", "title": "Level-trend is a polynomial in time", "statement": "Without innovations, the level of a trend component of order k at time t is Σ_j C(t+j-1,j)-weighted combination of the initial states as given by powers of the upper-triangular transition; for order 2 it is x0 + t·x1. For order 3 it is not the documented a + b t + c t² but a + b t + c t(t+1)/2.", "quantifier": "all orders, t, initial states", "why_tests_cant": "all t", "anchors": ["pymc_extras/statespace/models/structural.py:LevelTrendComponent.make_symbolic_graph"]}
{"id": "C33", "title": "Regression coefficients stay constant", "statement": "Without innovations, the regression component's states never change and its contribution at time t is the inner product of the t-th exogenous row with the initial coefficients.", "quantifier": "all data, k, t", "why_tests_cant": "all t", "anchors": ["pymc_extras/statespace/models/structural.py:RegressionComponent.make_symbolic_graph"]}
{"id": "C34", "title": "Autoregressive component satisfies its difference equation", "statement": "The autoregressive component with lag set L produces observations x_t = Σ_{i∈L} φ_i x_{t−i} + ε_t.", "quantifier": "all orders/lag masks, coefficients, shocks, t", "why_tests_cant": "all t", "anchors": ["pymc_extras/statespace/models/structural.py:AutoregressiveComponent.make_symbolic_graph"]}
{"id": "C35", "title": "SARIMAX satisfies the SARIMA difference equation", "statement": "For every accepted order (p,d,q)(P,D,Q,S), all parameters, initial states and shocks, the observation means satisfy φ(B)Φ(B^S)(1−B)^d(1−B^S)^D y_t = θ(B)Θ(B^S) e_t from time k_states on, in the fast form; and the same without differencing in the interpretable form.", "quantifier": "all orders, coefficients, shocks, initial states, times", "why_tests_cant": "all orders and horizons", "anchors": ["pymc_extras/statespace/models/SARIMAX.py:BayesianSARIMA.make_symbolic_graph", "pymc_extras/statespace/models/utilities.py:make_SARIMA_transition_matrix"]}
{"id": "C36", "title": "Seasonal lag polynomials multiply", "statement": "The AR column of the SARIMA transition matrix holds the coefficients of 1 − φ(B)Φ(B^S) and the selection column those of θ(B)Θ(B^S), for every accepted order; an order is refused exactly when a lag coincides with a seasonal lag of the same kind.", "quantifier": "all orders and coefficients", "why_tests_cant": "all orders", "anchors": ["pymc_extras/statespace/models/SARIMAX.py:BayesianSARIMA.make_symbolic_graph", "pymc_extras/statespace/models/utilities.py:make_SARIMA_transition_matrix"]}
{"id": "C37", "title": "State names match the state dimension", "statement": "For every SARIMAX, VARMAX and ETS configuration accepted, the number of state names equals the number of states (Harvey representation for SARIMAX).", "quantifier": "all orders", "why_tests_cant": "all orders", "anchors": ["pymc_extras/statespace/models/SARIMAX.py:BayesianSARIMA.state_names", "pymc_extras/statespace/models/utilities.py:make_harvey_state_names", "pymc_extras/statespace/models/VARMAX.py:BayesianVARMAX.state_names", "pymc_extras/statespace/models/ETS.py:BayesianETS.state_names"]}
{"id": "C38", "title": "The interpretable SARIMAX form mislabels states for purely seasonal models", "statement": "In the interpretable representation there are as many state names as states exactly when seasonal lags beyond the first are accompanied by a non-seasonal lag of the same kind (p = 0 implies P·S ≤ 1, q = 0 implies Q·S ≤ 1); otherwise there are fewer names than states.", "quantifier": "all orders", "why_tests_cant": "boundary case of orders", "anchors": ["pymc_extras/statespace/models/SARIMAX.py:BayesianSARIMA.state_names"]}
{"id": "C39", "title": "VARMAX satisfies the VARMA difference equation", "statement": "Each series of the VARMA(p,q) state space satisfies y_t = Σ A_l y_{t−l} + e_t + Σ M_l e_{t−l} with A_l, M_l the slices ar_params[:, l−1, :], ma_params[:, l−1, :], for all t > max(p,q).", "quantifier": "all numbers of series, p, q, parameter arrays, shocks, initial states, times", "why_tests_cant": "all orders and horizons", "anchors": ["pymc_extras/statespace/models/VARMAX.py:BayesianVARMAX.make_symbolic_graph"]}
{"id": "C40", "title": "ETS state space is the innovations form of exponential smoothing", "statement": "Every series of an ETS model follows l_t = l_{t−1}+φ b_{t−1}+α e_t, b_t = φ b_{t−1}+β e_t, s_t = s_{t−m}+γ e_t, y_t = l_{t−1}+φ b_{t−1}+s_{t−m}+e_t with its own parameters, shocks and initial values; β = αβ*, γ = (1−α)γ* unless the transformed parameterisation is used.", "quantifier": "all configurations, numbers of series, parameter values, season lengths, shocks, times", "why_tests_cant": "all m and t", "anchors": ["pymc_extras/statespace/models/ETS.py:BayesianETS.make_symbolic_graph"]}
{"id": "C41", "title": "Marginalising a discrete variable sums the joint probability", "statement": "The log-probability of a model in which a finite discrete variable has been marginalised equals log Σ over the variable's whole domain of the joint probability, for scalar and batched variables: for batched variables summing each element separately equals summing over all joint assignments provided each dependent factor uses one element.", "quantifier": "all domains, batch shapes, dependent variables and probabilities (including zero)", "why_tests_cant": "exponentially many assignments; all probability values", "anchors": ["pymc_extras/model/marginal/distributions.py:finite_discrete_marginal_rv_logp", "pymc_extras/model/marginal/marginal_model.py:MarginalModel.logp"]}
{"id": "C42", "title": "Marginalising several variables commutes with summing over all of them", "statement": "Marginalising variables one at a time, in reverse topological order, gives the sum of the joint over all assignments of all of them, and the result does not depend on the order in which the user lists them.", "quantifier": "all finite sets of variables and joints", "why_tests_cant": "all orders and models", "anchors": ["pymc_extras/model/marginal/marginal_model.py:MarginalModel._marginalize"]}
{"id": "C43", "title": "Batch-dimension tracking is sound", "statement": "If the graph analysis reports that axis j of a dependent variable corresponds to axis d of the marginalised variable for all its axes, then each entry of the dependent variable depends only on entries of the marginalised variable with those coordinates, for graphs of elementwise, dimshuffle, reduction, indexing and broadcasting operations, provided no reduction runs over axis 0 and no tracked length-one axis is broadcast.", "quantifier": "all graphs of supported operations, all shapes and values", "why_tests_cant": "all graphs", "anchors": ["pymc_extras/model/marginal/graph_analysis.py:_subgraph_batch_dim_connection", "pymc_extras/model/marginal/graph_analysis.py:_broadcast_dims"]}
{"id": "C44", "title": "Reductions over the first batch axis escape the mixing check", "statement": "A graph that sums the marginalised variable over its axis 0 is accepted although it mixes information across batch entries; the resulting log-probability is then not the marginal.", "quantifier": "witness for all batch lengths ≥ 2", "why_tests_cant": "truthiness of axis number 0", "anchors": ["pymc_extras/model/marginal/graph_analysis.py:_subgraph_batch_dim_connection"]}
{"id": "C45", "title": "Batch log-probabilities are aligned for up to two batch axes only", "statement": "Combining dependent log-probabilities re-orders their axes to match the marginalised variable correctly iff the axis permutation is its own inverse; always for one or two batch axes, not for cyclic permutations of three.", "quantifier": "all permutations of all numbers of axes", "why_tests_cant": "needs ≥3 axes and a cyclic permutation", "anchors": ["pymc_extras/model/marginal/distributions.py:reduce_batch_dependent_logps"]}
{"id": "C46", "title": "HMM marginalisation equals the sum over all state paths", "statement": "The forward algorithm used for marginalised discrete Markov chains returns the log of the sum over all state paths of initial × transition × emission probabilities.", "quantifier": "all chain lengths ≥ 2, numbers of states, probabilities", "why_tests_cant": "exponentially many paths", "anchors": ["pymc_extras/model/marginal/distributions.py:marginal_hmm_logp"]}
{"id": "C47", "title": "Recovered marginals are the exact conditional distribution", "statement": "For each posterior draw recover_marginals returns log-probabilities of each domain value that exponentiate to the posterior conditional p(x=k | rest), summing to one, in domain order; sampled values lie in the variable's domain.", "quantifier": "all models, draws, domains", "why_tests_cant": "all probabilities", "anchors": ["pymc_extras/model/marginal/marginal_model.py:MarginalModel.recover_marginals"]}
{"id": "C48", "title": "recover_marginals never rejects unknown names", "statement": "Names passed to recover_marginals that are not marginalised variables are silently ignored: the ValueError branch is unreachable.", "quantifier": "all name lists and models", "why_tests_cant": "unreachability", "anchors": ["pymc_extras/model/marginal/marginal_model.py:MarginalModel.recover_marginals"]}
{"id": "C49", "title": "marginalize validates its inputs, but a failure part-way leaves earlier variables marginalised", "statement": "marginalize raises ValueError for a variable that is not a free variable and NotImplementedError for unsupported distributions; variables listed before the offending one have already been removed from the free variables.", "quantifier": "all models and lists", "why_tests_cant": "all list positions", "anchors": ["pymc_extras/model/marginal/marginal_model.py:MarginalModel.marginalize"]}
{"id": "C50", "title": "Markov-chain log-probability is the product of transition probabilities", "statement": "The log-probability of a chain value with n_lags lags is the initial log-probability of the first n_lags entries plus Σ_t log P[x_t, …, x_{t+n_lags}] over every window of n_lags+1 consecutive entries, each window used exactly once in order.", "quantifier": "all chain lengths, lag orders, state counts", "why_tests_cant": "all lengths and slices with negative bounds", "anchors": ["pymc_extras/distributions/timeseries.py:DiscreteMarkovChain", "pymc_extras/distributions/timeseries.py:discrete_mc_logp"]}
{"id": "C51", "title": "Markov chain draws have n_lags + steps entries and start with the initial draw", "statement": "A generated chain has length n_lags+steps, its first n_lags entries are the initial distribution's draw, and each later entry is drawn from the transition row selected by the preceding n_lags entries in order.", "quantifier": "all lags, steps, draws", "why_tests_cant": "all lengths", "anchors": ["pymc_extras/distributions/timeseries.py:DiscreteMarkovChain.rv_op"]}
{"id": "C52", "title": "Saving and loading a model builder preserves it", "statement": "For a fitted model whose configuration consists of scalars, and of sub-dictionaries with scalars, numpy arrays, or tuples under 'dims', load(save(m)) succeeds and has the same model_config, sampler_config and id; loading under a class with a different recomputed id raises ValueError.", "quantifier": "all such configurations", "why_tests_cant": "all nested configurations", "anchors": ["pymc_extras/model_builder.py:ModelBuilder.save", "pymc_extras/model_builder.py:ModelBuilder.load", "pymc_extras/model_builder.py:ModelBuilder._model_config_formatting"]}
{"id": "C53", "title": "Some configurations cannot be loaded back", "statement": "A configuration with a tuple or array at top level, or a plain list in a sub-dictionary, is saved without complaint but comes back with a different printed form, so its id is recomputed from different text.", "quantifier": "all such configurations", "why_tests_cant": "depends on value types", "anchors": ["pymc_extras/model_builder.py:ModelBuilder._model_config_formatting", "pymc_extras/model_builder.py:ModelBuilder.load"]}
{"id": "C54", "title": "Model ids ignore configuration keys and field boundaries", "statement": "Two models whose configurations have equal values under different keys, or whose version/type strings concatenate equally, have the same id.", "quantifier": "all such pairs", "why_tests_cant": "collision existence", "anchors": ["pymc_extras/model_builder.py:ModelBuilder.id"]}
{"id": "C55", "title": "fit leaves the stored sampler configuration alone and call-time settings win", "statement": "fit passes to the sampler the stored sampler configuration overridden by progressbar and random_seed and then by the call's keyword arguments; the stored configuration is unchanged.", "quantifier": "all configurations and keyword sets", "why_tests_cant": "all dicts", "anchors": ["pymc_extras/model_builder.py:ModelBuilder.fit", "pymc_extras/model_builder.py:ModelBuilder.sample_model"]}
{"id": "C56", "title": "Predictions with extend_idata=False leave the stored inference data unchanged", "statement": "sample_prior_predictive and sample_posterior_predictive with extend_idata=False never change the stored inference data; with True the new groups are added and every other group is kept.", "quantifier": "all stored data and draws, any sequence of calls", "why_tests_cant": "histories of calls", "anchors": ["pymc_extras/model_builder.py:ModelBuilder.sample_prior_predictive", "pymc_extras/model_builder.py:ModelBuilder.sample_posterior_predictive"]}
{"id": "C57", "title": "Decorator coords are used only by the first call of a decorated model function", "statement": "The first call of a function decorated with as_model(coords=c) builds a model with c overridden by call-time coords; every later call builds one with the call-time coords alone.", "quantifier": "all coords and call histories", "why_tests_cant": "history dependence", "anchors": ["pymc_extras/model/model_api.py:as_model"]}
{"id": "C58", "title": "prior_from_idata flattening is a bijection", "statement": "The joint normal prior built from a trace assigns each selected variable its own contiguous block of the flat vector; the blocks are disjoint, cover the vector, and un-flattening returns each variable's own values in its own shape.", "quantifier": "all variable lists and shapes", "why_tests_cant": "all shapes", "anchors": ["pymc_extras/utils/prior.py:_flatten", "pymc_extras/utils/prior.py:_mvn_prior_from_flat_info"]}
{"id": "C59", "title": "VIP reparameterisation preserves the prior", "statement": "For every λ, the reparameterised normal variable θ = μ + σ^{1−λ}(η − λμ), η ~ N(λμ, σ^λ), has distribution N(μ, σ²); for exponential variables σ^{1−λ}·Exp(scale σ^λ) is Exp(scale σ).", "quantifier": "all μ, σ > 0, λ", "why_tests_cant": "equality of distributions", "anchors": ["pymc_extras/model/transforms/autoreparam.py:_vip_reparam_node"]}
{"id": "C60", "title": "truncate_lambda rounds as documented except at the boundary", "statement": "truncate_lambda(ε) with ε ≤ 1/2 sets λ to 0 below ε, to 1 above 1−ε, leaves it otherwise; a λ exactly equal to ε or 1−ε is left unchanged although the documentation says it is rounded.", "quantifier": "all λ, ε", "why_tests_cant": "boundary values", "anchors": ["pymc_extras/model/transforms/autoreparam.py:VIP.truncate_lambda"]}
{"id": "C61", "title": "R2D2M2CP prior moments", "statement": "The coefficient scale and location satisfy μ²+σ² = explained variance for every sign probability; masked coefficients are deterministic with the same square; if the importance weights sum to one, explained plus residual variance equals the output variance; with the default weights (all ones) and k variables the explained variance is k·r²·σ².", "quantifier": "all r², σ, φ, ψ", "why_tests_cant": "all reals", "anchors": ["pymc_extras/distributions/multivariate/r2d2m2cp.py:_psivar2musigma", "pymc_extras/distributions/multivariate/r2d2m2cp.py:R2D2M2CP"]}
{"id": "C62", "title": "Generalised extreme value: density, distribution function, mode and a wrong upper tail", "statement": "logp and logcdf raise exactly for invalid parameters and are -inf exactly outside the documented support; on the support exp(logcdf) is the documented cdf and exp(logp) is its derivative; the density integrates to one; the initial point is the unique mode; the sampler's SciPy parametrisation is the documented distribution. Defect: for negative shape and values at or above the upper end point logcdf is -inf although the cdf is 1, so the returned function is not monotone.", "quantifier": "all parameters and real values", "why_tests_cant": "analytic statements about all reals", "anchors": ["pymc_extras/distributions/continuous.py:GenExtreme"]}
{"id": "C63", "title": "Generalised Poisson log-probability", "statement": "For valid parameters exp(logp(x)) is the documented probability for every integer x (0 for negative counts and where mu + lam x <= 0); errors exactly outside the documented range; lam = 0 gives the Poisson distribution. Limit: for negative lam the probabilities do not sum to one in general (more than one at mu=4, lam=-1, less at mu=1, lam=-1/4).", "quantifier": "all parameters and integers", "why_tests_cant": "all counts and parameters", "anchors": ["pymc_extras/distributions/discrete.py:GeneralizedPoisson.logp"]}
{"id": "C64", "title": "Conjugate gradient: what a returned solution guarantees", "statement": "At every iteration of linear_cg, for any square matrix, the maintained residual equals rhs/‖rhs‖ − A x exactly, also when a safe division or the has_converged freeze is active. When linear_cg returns for a right-hand side that is not numerically zero, ‖rhs − A x‖ < max(tolerance, stop_updating_after) · ‖rhs‖; it raises exactly when the requested tridiagonalisation exceeds the iteration limit or no iteration up to the limit meets the break condition; once frozen the iterate never changes; and on symmetric positive definite matrices bounded below, with enough iterations, it returns.", "quantifier": "all matrices, right-hand sides, initial guesses, tolerances and iteration limits", "why_tests_cant": "unbounded iterations and all real inputs", "anchors": ["pymc_extras/utils/linear_cg.py:linear_cg", "pymc_extras/utils/linear_cg.py:linear_cg_updates"]}
{"id": "C65", "title": "Pivoted Cholesky returns a lower-bounding factor", "statement": "pivoted_cholesky of a symmetric PSD matrix with a finite rank limit returns a permutation and a factor L, triangular in permuted order with positive pivots, such that A − LᵀL is PSD and vanishes on every pivoted row and column; if it stops early, every entry and the trace of the remainder are at most error_tol times the largest diagonal entry; after n steps the factorisation is exact.", "quantifier": "all PSD matrices, tolerances ≥ 0 and iteration limits", "why_tests_cant": "all sizes and steps", "anchors": ["pymc_extras/utils/pivoted_cholesky.py:pivoted_cholesky"]}
{"id": "C66", "title": "The Laplace covariance", "statement": "For every symmetric Hessian, tolerance, jitter and on_bad_cov, if fit_mvn_to_MAP returns, the covariance is symmetric PSD. At a positive definite Hessian of the negative log-posterior with no nonzero entry below zero_tol it is exactly the inverse plus diag_jitter, silently and in every mode. With on_bad_cov='error' and no jitter it raises exactly when the thresholded Hessian is not positive definite (so also in the semi-definite case the documentation allows); otherwise it never raises, a replacement is the unique Frobenius-nearest PSD matrix (given orthogonal eigenvectors within an eigenvalue; the documented L1-nearest is refuted), and a warning is logged exactly under 'warn'. A positive curvature below zero_tol yields variance diag_jitter instead of more than 1/zero_tol.", "quantifier": "all sizes, symmetric Hessians, tolerances, jitters, modes", "why_tests_cant": "all real matrices", "anchors": ["pymc_extras/inference/laplace.py:fit_mvn_to_MAP", "pymc_extras/inference/find_map.py:get_nearest_psd"]}
{"id": "C67", "title": "SMC loop stops exactly when tempering reaches one and diagnostics match the run", "statement": "The SMC loop performs kernel steps while the exponent is below one and returns the particles of the first state whose exponent is not (at least one, or NaN), together with the number of steps; it ends if and only if such a state is reached; row i of every diagnosed series is that of step i when the step was made and zero otherwise.", "quantifier": "all kernels, keys, initial states and numbers of diagnosed iterations", "why_tests_cant": "unbounded loop over an arbitrary kernel", "anchors": ["pymc_extras/inference/smc/sampling.py:inference_loop", "pymc_extras/inference/smc/sampling.py:SMCDiagnostics"]}
{"id": "C68", "title": "Karhunen–Loève truncation never explains more than the requested share", "statement": "With a variance limit the expansion keeps the largest k eigenvalues whose share is at most the limit while k+1 would exceed it; it raises for a limit below the share of the first eigenvalue and for every limit of one or more; without a limit it works exactly for an explicit count between one and the number of inputs.", "quantifier": "all spectra, limits and counts", "why_tests_cant": "all spectra", "anchors": ["pymc_extras/gp/latent_approx.py:KarhunenLoeveExpansion._build_prior"]}
{"id": "C69", "title": "Projected process: prior and conditional", "statement": "The prior is mean + Kfu (Kuu+jitter)⁻¹ u; its law has covariance Kfu (Kuu+jitter)⁻¹ Kfuᵀ; the conditional at the prior's inputs has the prior as its mean, at the inducing points without jitter the mean plus u and zero covariance; integrating out the inducing values gives exactly the covariance of the process plus jitter; the conditional covariance is positive definite for positive jitter whenever the kernel is positive semidefinite.", "quantifier": "all kernels, means, inputs and jitters", "why_tests_cant": "all matrices", "anchors": ["pymc_extras/gp/latent_approx.py:ProjectedProcess"]}
{"id": "C70", "title": "Integer histogram approximation is exact without min_count", "statement": "For integer observations without min_count, the potential equals the sum of the log density over all data of the column; midpoints are the sorted distinct values over all columns, counts are the number of data points from a midpoint up to the next; the function raises exactly when no value is retained.", "quantifier": "all integer data sets, columns and log densities", "why_tests_cant": "all data sets", "anchors": ["pymc_extras/distributions/histogram_utils.py:discrete_histogram", "pymc_extras/distributions/histogram_utils.py:histogram_approximation"]}
{"id": "C71", "title": "The square-root filter treats the user's P0 as a factor", "statement": "The square-root filter uses the initial covariance passed by the user, P0, as if it were already a square root: the first predicted covariance it works with is P0·P0ᵀ, which equals P0 only for special P0 (a scalar P0: only 0 or 1).", "quantifier": "all initial covariances", "why_tests_cant": "Tests with identity initial covariance cannot see it; the claim is about every P0.", "anchors": ["pymc_extras/statespace/filters/kalman_filter.py: SquareRootFilter.update/predict/kalman_step"]}
{"id": "C72", "title": "The univariate filter treats the fill value as data", "statement": "The univariate filter skips only NaN entries: an entry equal to the missing-data fill value (which is what the statespace models feed it) is filtered as an ordinary observation and moves the state mean, unlike in the standard filter.", "quantifier": "all fill values, states and models with a positive innovation variance", "why_tests_cant": "Must be shown for every fill value and state.", "anchors": ["pymc_extras/statespace/filters/kalman_filter.py: UnivariateFilter.kalman_step, UnivariateFilter._univariate_inner_filter_step"]}
{"id": "C73", "title": "The square-root filter cannot process partially missing rows", "statement": "When at least one but not all series of a row are missing, the masked observation covariance handed to the Cholesky factorisation is singular or not positive definite, so no Cholesky factor with positive diagonal exists.", "quantifier": "all partially missing rows, all H", "why_tests_cant": "Must hold for every mask and every H.", "anchors": ["pymc_extras/statespace/filters/kalman_filter.py: SquareRootFilter.update, BaseFilter.handle_missing_values"]}
{"id": "C74", "title": "The univariate filter's observation forecast is that of the last series only", "statement": "The observation forecast and covariance reported by the univariate filter at a time step belong to the last series, computed after conditioning on the other series of the same row, not the one-step-ahead forecast of the whole row.", "quantifier": "all rows and parameters", "why_tests_cant": "Must hold for every number of series.", "anchors": ["pymc_extras/statespace/filters/kalman_filter.py: UnivariateFilter.kalman_step"]}
{"id": "C75", "title": "Simulated initial state, initial observation and first shock share their randomness", "statement": "In every draw of the linear Gaussian state-space distribution the initial state, the initial measurement error and the first state innovation are computed from the same generator state, so for one state and one series they are the same standard normal number, scaled: the independence assumed by the model does not hold.", "quantifier": "all generator states, means, scales", "why_tests_cant": "A statement about every draw; a test can only look at samples.", "anchors": ["pymc_extras/statespace/filters/distributions.py: _LinearGaussianStateSpace.rv_op"]}
{"id": "C76", "title": "Simulated observations use the previous slice of time-varying observation matrices", "statement": "When Z or d is time varying, the simulated observation at time t+1 is generated with slice t, whereas the Kalman filter pairs the datum at time t+1 with slice t+1; the two agree only if both slices map the state to the same value.", "quantifier": "all lengths, matrices, times, shocks", "why_tests_cant": "Index alignment for every length and every matrix sequence.", "anchors": ["pymc_extras/statespace/filters/distributions.py: _LinearGaussianStateSpace.rv_op"]}
{"id": "C77", "title": "Unconditional sampling with both steps and the data's time dimension always mismatches", "statement": "sample_unconditional_* returns steps+1 rows and as many time labels, except when use_data_time_dim=True is combined with an explicit steps: the only value accepted (the number of labels n) yields n+1 rows for n labels.", "quantifier": "all option combinations, all n", "why_tests_cant": "For every n and steps.", "anchors": ["pymc_extras/statespace/core/statespace.py: PyMCStateSpace._sample_unconditional"]}
{"id": "C78", "title": "Conditional observation samples omit the observation intercept", "statement": "The mean used by sample_conditional_* for observed trajectories is Z·mu: it differs from the filter's own observation forecast by exactly the observation intercept d, and the covariances differ only by the jitter.", "quantifier": "all states, matrices, fully observed rows", "why_tests_cant": "For all models; tests use models without intercept.", "anchors": ["pymc_extras/statespace/core/statespace.py: PyMCStateSpace._sample_conditional"]}
{"id": "C79", "title": "Forecasting on the scenario's index still needs periods or end", "statement": "With use_scenario_index=True, a call giving neither periods nor end is always rejected although both are documented as ignored; when one is given, the forecast labels are exactly the scenario's labels and the initial state is the one at the label just before the first.", "quantifier": "all indices, starts, scenarios", "why_tests_cant": "For all arguments.", "anchors": ["pymc_extras/statespace/core/statespace.py: PyMCStateSpace._validate_forecast_args, PyMCStateSpace._build_forecast_index"]}
{"id": "C80", "title": "A valid integer start label may be rejected", "statement": "For an integer index, a start that is one of its labels is rejected whenever its absolute value exceeds the number of observations (labels not starting at zero).", "quantifier": "all integer indices and starts", "why_tests_cant": "For all labels.", "anchors": ["pymc_extras/statespace/core/statespace.py: PyMCStateSpace._validate_forecast_args"]}
{"id": "C81", "title": "Orthogonalised impulse-response shocks are not", "statement": "With orthogonalize_shocks=True the matrix used as the shock covariance is the Cholesky factor divided column-wise by the variances: for one shock of variance q it is 1/√q (right only for q=1), and for several shocks it is not even symmetric unless the shocks were already uncorrelated.", "quantifier": "all shock covariances", "why_tests_cant": "For all covariance matrices.", "anchors": ["pymc_extras/statespace/core/statespace.py: PyMCStateSpace.impulse_response_function"]}
{"id": "C82", "title": "Scenario columns are never re-ordered", "statement": "A scenario data frame whose columns are a permutation of the expected ones is accepted and passed on in the order given (no re-ordering, no warning); missing, extra or too many columns are rejected.", "quantifier": "all column lists and data", "why_tests_cant": "For every permutation.", "anchors": ["pymc_extras/statespace/core/statespace.py: PyMCStateSpace._validate_scenario_data"]}
{"id": "C83", "title": "Scenario dictionaries are checked for shape but not for completeness", "statement": "An accepted scenario dictionary has only keys that are exogenous variables of the model, and all entries have the same number of time steps; but a dictionary that omits an exogenous variable of the model is accepted.", "quantifier": "all dictionaries", "why_tests_cant": "For all dictionaries.", "anchors": ["pymc_extras/statespace/core/statespace.py: PyMCStateSpace._validate_scenario_data"]}
{"id": "C84", "title": "Data registration accepts exactly the documented inputs", "statement": "Registering data succeeds exactly when they are two-dimensional with the declared number of columns, carry a range or datetime index if pandas, do not mix non-finite entries with the fill value, and match an already registered time coordinate; the time coordinate afterwards is the data's own.", "quantifier": "all inputs (arrays, frames, series, others), fill values, existing time coordinates", "why_tests_cant": "ranges over all inputs and model states", "anchors": ["pymc_extras/statespace/utils/data_tools.py: register_data_with_pymc, _validate_data_shape, preprocess_pandas_data, add_data_to_active_model"]}
{"id": "C85", "title": "Column names and range indices are ignored", "statement": "A DataFrame whose columns are named or ordered differently from the model's observed states is registered exactly as one with the right names (no reordering, no error), and a RangeIndex is renumbered from zero wherever it starts.", "quantifier": "all frames, column lists of equal length, observed-state lists, range indices", "why_tests_cant": "a claim about every pair of column lists", "anchors": ["pymc_extras/statespace/utils/data_tools.py: register_data_with_pymc, preprocess_pandas_data"]}
{"id": "C86", "title": "A static matrix of the wrong size is refused only after it is stored", "statement": "Assigning a static numpy array of the right rank but wrong size raises, yet the wrong array has replaced the old one: reading it back raises for matrices that may vary over time and returns the wrong array for the initial state and covariance. The constructor accepts such an array without error.", "quantifier": "all stores in good order, all slots, all wrongly sized arrays", "why_tests_cant": "ranges over all sizes and stores", "anchors": ["pymc_extras/statespace/core/representation.py: __setitem__, _update_shape, __init__"]}
{"id": "C87", "title": "A symbolic static matrix breaks later slice assignments", "statement": "Assigning a symbolic static matrix of the right shape to a slot that may vary over time succeeds, but every later slice assignment to that slot raises, and if the matrix's first dimension is 1 reading it back raises as well.", "quantifier": "all stores in good order, all time-varying-capable slots, all symbolic matrices of documented static shape, all index tuples and values", "why_tests_cant": "a claim about every later operation", "anchors": ["pymc_extras/statespace/core/representation.py: __setitem__, __getitem__, _update_shape"]}
{"id": "C88", "title": "Copies share recorded shapes with the original", "statement": "After copying a representation, assigning a matrix with a different time length to the copy leaves the original's values unchanged but makes every slice assignment to that matrix of the original raise.", "quantifier": "all stores in good order, slots that may vary over time, arrays of a different time length, index tuples", "why_tests_cant": "ranges over all histories of the two objects", "anchors": ["pymc_extras/statespace/core/representation.py: copy, __setitem__"]}
{"id": "C89", "title": "Component extraction reads each component's own states", "statement": "extract_components_from_idata returns, for a sum of components, the concatenation over components in order of what each component's own block of states gives: one inner product with its design row when its states are combined, its states one by one otherwise; and as many names as values.", "quantifier": "all lists of components, state vectors, design rows", "why_tests_cant": "ranges over all component lists", "anchors": ["pymc_extras/statespace/models/structural.py: StructuralTimeSeries._hidden_states_from_data, _get_subcomponent_names"]}
{"id": "C90", "title": "A component whose name starts with StateSpace vanishes from the records", "statement": "If the left operand of a sum has a name starting with 'StateSpace', the sum succeeds but no longer lists it: its states remain, and the first remaining component's slice starts at state 0, i.e. reads the vanished component's states.", "quantifier": "all components", "why_tests_cant": "ranges over all components and names", "anchors": ["pymc_extras/statespace/models/structural.py: _combine_component_info, _hidden_states_from_data"]}
{"id": "C91", "title": "Building a component changes it", "statement": "Building the same component m+1 times yields, the last time, a model whose parameter names contain 'P0' m+1 times, because each build appends to the component's own list.", "quantifier": "all components and numbers of builds", "why_tests_cant": "ranges over histories of builds", "anchors": ["pymc_extras/statespace/models/structural.py: Component.build, StructuralTimeSeries.__init__"]}
{"id": "C92", "title": "Where the seasonal pattern starts", "statement": "Without innovations, the time-domain seasonal component's first observation is the first entry of its initial conditions, the second is minus the sum of all of them, and the remaining entries follow in reverse order — not the documented order (minus the sum first).", "quantifier": "all season lengths ≥ 2 and initial conditions", "why_tests_cant": "ranges over all season lengths and values", "anchors": ["pymc_extras/statespace/models/structural.py: TimeSeasonality"]}
{"id": "C93", "title": "Announced and required AR parameter shapes", "statement": "The autoregressive component announces a parameter shape equal to the one its placeholder requires exactly when no lag is left out of the order mask.", "quantifier": "all lag masks", "why_tests_cant": "ranges over all masks", "anchors": ["pymc_extras/statespace/models/structural.py: AutoregressiveComponent"]}
{"id": "C94", "title": "Level-trend order masks", "statement": "A level-trend component has as many state names as states exactly when its order mask has no zero and at most seven entries; its number of shocks equals the number of columns of its selection matrix exactly when no shock is requested beyond the last state.", "quantifier": "all accepted masks", "why_tests_cant": "ranges over all masks", "anchors": ["pymc_extras/statespace/models/structural.py: LevelTrendComponent"]}
{"id": "C95", "title": "VARMAX sigma_obs is a variance", "statement": "The VARMAX model writes sigma_obs itself to the diagonal of the observation covariance, so that its value is the square of sigma_obs (as in every other model) only when sigma_obs is 0 or 1.", "quantifier": "all numbers of series and values", "why_tests_cant": "ranges over all values", "anchors": ["pymc_extras/statespace/models/VARMAX.py: make_symbolic_graph"]}
{"id": "C96", "title": "Stationary initialisation cannot work with differencing", "statement": "For every SARIMA order with d > 0 or D > 0 and all parameters, the matrix I − T used to solve for the stationary initial state is singular (T fixes a non-zero vector), although the constructor accepts stationary_initialization=True for such orders.", "quantifier": "all orders with differencing, all parameters", "why_tests_cant": "ranges over all orders and parameter values", "anchors": ["pymc_extras/statespace/models/SARIMAX.py: BayesianSARIMA._stationary_initialization, __init__"]}
{"id": "C97", "title": "ETS order strings", "statement": "An ETS order is accepted exactly when it has three entries, the first 'A', the second 'A', 'Ad' or 'N', the third 'A' or 'N', with a season length whenever the third is 'A'; the flags trend, damped_trend and seasonal are then ignored, and damping implies a trend.", "quantifier": "all order tuples and flags", "why_tests_cant": "ranges over all strings", "anchors": ["pymc_extras/statespace/models/ETS.py: BayesianETS.__init__"]}
{"id": "C98", "title": "ETS is the component form of exponential smoothing", "statement": "In the untransformed parameterisation level, slope and season of every series are the weighted averages l_t = α(y_t − s_{t−m}) + (1−α)(l_{t−1}+φb_{t−1}), b_t = β(l_t − l_{t−1}) + (1−β)φb_{t−1}, s_t = γ(y_t − l_t) + (1−γ)s_{t−m}.", "quantifier": "all configurations, parameters, shocks, times", "why_tests_cant": "ranges over all trajectories", "anchors": ["pymc_extras/statespace/models/ETS.py: make_symbolic_graph"]}
{"id": "C99", "title": "Multivariate dependents with extra batch axes are reduced over the wrong axes", "statement": "When combining log-probabilities, the axes to sum are computed for the dependent variable but applied to its log-probability, which has already lost its support axes: for a dependent with s support axes, axis j of the log-probability is summed exactly when axis j+s of the variable is an untracked batch axis; an untracked axis among the first s raises an axis error, and otherwise an untracked axis makes the code sum an axis of the marginalised variable.", "quantifier": "all dims connections, numbers of support axes, shapes", "why_tests_cant": "all combinations of axes", "anchors": ["pymc_extras/model/marginal/distributions.py:reduce_batch_dependent_logps"]}
{"id": "C100", "title": "Broadcasting a length-one marginalised variable is accepted and marginalised per result entry", "statement": "An elementwise use of a marginalised variable of shape (1,) in a longer result is accepted by the dimension analysis as if each result entry had its own copy of the variable, and the resulting log-probability can be finite where the true marginal probability is zero.", "quantifier": "all result lengths; existence of a wrong value", "why_tests_cant": "the acceptance holds for every elementwise function and length", "anchors": ["pymc_extras/model/marginal/graph_analysis.py:_subgraph_batch_dim_connection", "pymc_extras/model/marginal/distributions.py:finite_discrete_marginal_rv_logp"]}
{"id": "C101", "title": "recover_marginals can return the prior when marginalised variables share dependents", "statement": "When another marginalised variable y has an earlier dependent that does not depend on x, the joint log-probability of y's dependents is stored with that one, which recover_marginals does not include for x: the returned probabilities of x then ignore the observations.", "quantifier": "existence of a model; the positive theorem holds for every model in which the dependents found cover", "why_tests_cant": "concerns all shapes of dependency graph", "anchors": ["pymc_extras/model/marginal/marginal_model.py:MarginalModel.recover_marginals", "pymc_extras/model/marginal/distributions.py:finite_discrete_marginal_rv_logp"]}
{"id": "C102", "title": "Batched marginalised variables sharing a dependent get a wrong log-probability", "statement": "With vectors x and y marginalised, z1 computed from y and z2 from x and y, the analysis reports that z1 carries no axis of x; the joint log-probability stored with z1 is then summed over all entries, and the model's log-probability is not the log of the summed joint density.", "quantifier": "all elementwise functions (reported dims); existence of a wrong value", "why_tests_cant": "holds for every such graph", "anchors": ["pymc_extras/model/marginal/graph_analysis.py:_subgraph_batch_dim_connection", "pymc_extras/model/marginal/distributions.py:reduce_batch_dependent_logps"]}
{"id": "C103", "title": "unmarginalize works by variable, never by name", "statement": "unmarginalize with the name of a marginalised variable always raises KeyError; with the variable it puts it back with its dimension names, as the last free variable; marginalise-then-unmarginalise restores names, dims and the marginalised list.", "quantifier": "all consistent models and variables", "why_tests_cant": "all model states", "anchors": ["pymc_extras/model/marginal/marginal_model.py:MarginalModel.unmarginalize", "pymc_extras/model/marginal/marginal_model.py:MarginalModel._delete_rv_mappings"]}
{"id": "C104", "title": "MarginalModel.marginalize splits a single name into letters", "statement": "The method treats a string argument as a sequence of one-letter names, so it raises KeyError unless every letter names a variable; the function marginalize accepts the same string.", "quantifier": "all names and models", "why_tests_cant": "all strings", "anchors": ["pymc_extras/model/marginal/marginal_model.py:MarginalModel.marginalize", "pymc_extras/model/marginal/marginal_model.py:marginalize"]}
{"id": "C105", "title": "marginalize() removes dimension names from the original model", "statement": "The function marginalize shares the dictionary of dimension names between the original and the clone, so after a successful call the original model has lost the dimension names of exactly the marginalised variables.", "quantifier": "all models and lists of variables", "why_tests_cant": "aliasing, all lists", "anchors": ["pymc_extras/model/marginal/marginal_model.py:MarginalModel.from_model", "pymc_extras/model/marginal/marginal_model.py:marginalize"]}
{"id": "C106", "title": "recover_marginals moves dimension names back although the variables stay marginalised", "statement": "recover_marginals unmarginalises each variable in a clone that shares both dictionaries of dimension names, so the model it is called on ends with the dimension names of every recovered variable moved to its own dictionary.", "quantifier": "all consistent models and recovered lists", "why_tests_cant": "aliasing, all lists", "anchors": ["pymc_extras/model/marginal/marginal_model.py:MarginalModel.recover_marginals", "pymc_extras/model/marginal/marginal_model.py:MarginalModel.clone"]}
{"id": "C107", "title": "A Markov chain's support point follows a random draw of the initial distribution", "statement": "The support point of a DiscreteMarkovChain begins with the initial distribution's support point, but its later entries are the most likely transitions from a random draw of the initial distribution; when the draw differs from the support point the result can be a chain of probability zero.", "quantifier": "all lag orders, lengths, draws", "why_tests_cant": "depends on a random draw", "anchors": ["pymc_extras/distributions/timeseries.py:discrete_mc_moment", "pymc_extras/distributions/timeseries.py:_make_outputs_info"]}
{"id": "C108", "title": "predict overwrites the fitted model's observed data groups", "statement": "predict and sample_posterior_predictive with extend_idata=True replace every stored group their sampler also returns (observed_data, constant_data, posterior_predictive) by the prediction's value; after several such calls only the last one's values remain.", "quantifier": "all stored data, predictions and call histories", "why_tests_cant": "It concerns every history of calls and every group name.", "anchors": ["pymc_extras/model_builder.py:ModelBuilder.predict", "pymc_extras/model_builder.py:ModelBuilder.sample_posterior_predictive"]}
{"id": "C109", "title": "VIP helper store: set/get round trips and failure atomicity", "statement": "For the VIP helper returned by vip_reparametrize: set_lambda(k=x) followed by reading lambda gives exactly the filled value of x for k and leaves other variables alone; set_lambda with an unknown name raises only after the names before it have been written (not atomic), while truncate_lambda with an unknown name raises without changing anything; set_all_lambda writes every variable.", "quantifier": "all stores, names, values, call orders", "why_tests_cant": "all stores and keyword orders", "anchors": ["pymc_extras/model/transforms/autoreparam.py:VIP"]}
{"id": "C110", "title": "R2D2M2CP argument handling", "statement": "R2D2M2CP rejects the sign probabilities exactly when a nonzero uncertainty is given for a certain sign (probability 0 or 1); when accepted, a coefficient is deterministic exactly if its sign is certain and there is no mask exactly if no sign is certain. Weights: TypeError exactly when both variables_importance and variance_explained are given or either is given with at most one variable; fixed weights are used exactly when no importance and no concentration are given; variance_explained is used as is, even if it does not sum to one.", "quantifier": "all argument combinations and lengths", "why_tests_cant": "all combinations of optional arguments and vector values", "anchors": ["pymc_extras/distributions/multivariate/r2d2m2cp.py:R2D2M2CP"]}
{"id": "C111", "title": "Chi and Maxwell draws have the documented densities", "statement": "Draws of Chi(nu) have the documented density for every nu > 0; draws of Maxwell(a) have the documented density for every a > 0 and a <= 0 raises; Maxwell draws are positive with probability one. An unobserved Chi variable gets the log transform unless the caller chose one, Maxwell never does.", "quantifier": "all parameters, all measurable sets", "why_tests_cant": "equality of measures", "anchors": ["pymc_extras/distributions/continuous.py:Chi", "pymc_extras/distributions/continuous.py:Maxwell"]}
{"id": "C112", "title": "The generalised Poisson inverse sampler inverts the documented cdf", "statement": "For every vector of valid parameters with negative lam and uniform draws, the shared-counter loop terminates and each element is the least count whose cumulative documented probability reaches its draw; elements that finished early are not changed by the others. Defect: if the draw exceeds the total probability, the sampler returns a count to which logp gives -inf; this happens for mu=1, lam=-1/4.", "quantifier": "all vectors of parameters and draws", "why_tests_cant": "unbounded loop over a vector with a shared counter, floating special values", "anchors": ["pymc_extras/distributions/discrete.py:GeneralizedPoissonRV"]}
{"id": "C113", "title": "Beta negative binomial: logp is right, the draws are not", "statement": "exp(logp(x)) is the documented probability, which is that of the beta mixture of negative binomials; negative integers get 0, invalid parameters raise. Defect: the sampler passes p and r as mean and alpha, so a draw is 0 with probability at least 1/e whatever the parameters, and for r=1, beta >= 2 alpha draws and logp disagree.", "quantifier": "all parameters and counts", "why_tests_cant": "integral identities over all parameters", "anchors": ["pymc_extras/distributions/discrete.py:BetaNegativeBinomial"]}
{"id": "C114", "title": "Skellam is the difference of two Poisson counts, except for zero rates", "statement": "For positive rates exp(logp(d)) is the probability that the difference of independent Poisson counts is d, for every integer d; negative rates raise. Defect: a zero rate passes the check but logp is NaN at values of positive probability.", "quantifier": "all rates and integers", "why_tests_cant": "infinite series for every argument", "anchors": ["pymc_extras/distributions/discrete.py:Skellam"]}
{"id": "C115", "title": "Conjugate gradient optimality", "statement": "While no safe division has been triggered, on a symmetric matrix all residuals of linear_cg are mutually orthogonal, all search directions are A-conjugate, every iterate minimises the A-norm error over the affine Krylov space, and the residual vanishes after at most n iterations.", "quantifier": "all symmetric (PSD for the minimisation) matrices, right-hand sides, guesses and iteration numbers", "why_tests_cant": "all sizes and iteration counts", "anchors": ["pymc_extras/utils/linear_cg.py:linear_cg"]}
{"id": "C116", "title": "The tridiagonal matrix returned by linear_cg is the Lanczos matrix", "statement": "With n_tridiag set, on a symmetric matrix with no safe division triggered, the entries of the tridiagonal matrix linear_cg returns are the quadratic forms of A in the normalised residuals, with the sign convention of the code, for all filled rows and columns.", "quantifier": "all symmetric matrices, right-hand sides, iteration counts", "why_tests_cant": "all sizes and iteration counts", "anchors": ["pymc_extras/utils/linear_cg.py:linear_cg"]}
{"id": "C117", "title": "linear_cg on vectors, guesses and zero right-hand sides", "statement": "A one-dimensional right-hand side yields an n×n result whose columns are copies of the single-column solution computed with both tolerances divided by √n. The initial guess is interpreted for the normalised system rhs/‖rhs‖. For a right-hand side with norm below eps the result is frozen after one step, no missing convergence is ever reported, and the result can be wrong.", "quantifier": "all matrices, right-hand sides and guesses in the model", "why_tests_cant": "all sizes; the negative part needs a witness and a proof that nothing is raised", "anchors": ["pymc_extras/utils/linear_cg.py:linear_cg"]}
{"id": "C118", "title": "Iteration limits under which linear_cg must fail", "statement": "With terminate_cg_by_size on systems with at most ten rows linear_cg raises RuntimeError for every matrix and right-hand side unless the initial guess already meets the stopping threshold; with the default max_tridiag_iter, every call with max_iter < 20 raises even when no tridiagonalisation is requested.", "quantifier": "all matrices, right-hand sides, guesses", "why_tests_cant": "all inputs", "anchors": ["pymc_extras/utils/linear_cg.py:linear_cg"]}
{"id": "C119", "title": "A preconditioner cannot be used with an n×1 right-hand side", "statement": "With any preconditioner and an n×1 right-hand side, the first iteration of linear_cg raises a shape error unless n = 1 (the inner product omits the transpose of the branch without preconditioner, which is well-shaped for every n).", "quantifier": "all sizes", "why_tests_cant": "all sizes", "anchors": ["pymc_extras/utils/linear_cg.py:linear_cg"]}
{"id": "C120", "title": "pivoted_cholesky iteration limit", "statement": "Called with its default max_iter (infinity), pivoted_cholesky raises OverflowError for every matrix; with a finite limit it returns for every non-empty matrix.", "quantifier": "all matrices, tolerances, limits", "why_tests_cant": "all inputs", "anchors": ["pymc_extras/utils/pivoted_cholesky.py:pivoted_cholesky"]}
{"id": "C121", "title": "Where the Laplace Hessian is evaluated", "statement": "The Hessian used by fit_mvn_to_MAP is evaluated at the point passed in (and its rows labelled by the right variables), whatever the values, exactly when the dictionary lists the model's variables in the model's order. For the dictionary of find_MAP in the default constrained space this holds exactly when no variable with a transform is declared before one without; otherwise values are exchanged (sigma declared before mu: evaluated at sigma := mû, mu := sigmâ). In the unconstrained space it always holds if transformed values are included, and raises KeyError if they are not.", "quantifier": "all models (lists of variables with arbitrary positive sizes), dictionary orders and values", "why_tests_cant": "all models and declaration orders; tests only declare variables in the benign order", "anchors": ["pymc_extras/inference/laplace.py:fit_mvn_to_MAP", "pymc_extras/inference/find_map.py:find_MAP", "pymc_extras/inference/find_map.py:scipy_optimize_funcs_from_loss"]}
{"id": "C122", "title": "Posterior draws are attributed to the right variable", "statement": "sample_laplace_posterior cuts each draw into exactly the blocks it was assembled from, and for models without discrete variables names each block correctly for every declaration order; with a discrete free variable the draws of a continuous one are stored under the discrete one's name.", "quantifier": "all models, block sizes and draws", "why_tests_cant": "all models", "anchors": ["pymc_extras/inference/laplace.py:sample_laplace_posterior", "pymc_extras/inference/laplace.py:laplace_draws_to_inferencedata"]}
{"id": "C123", "title": "find_MAP and discrete variables", "statement": "find_MAP cannot call its compiled objective at the starting vector of any model with a non-empty discrete free variable (the vector holds only the continuous ones); without discrete variables every value variable receives its own initial value.", "quantifier": "all models and initial values", "why_tests_cant": "all models", "anchors": ["pymc_extras/inference/find_map.py:find_MAP"]}
{"id": "C124", "title": "Shapes of Laplace draws", "statement": "Sampling the Laplace approximation in the constrained space gets through exactly when the model has at least two scalar parameters, in the unconstrained space exactly when chains, draws and the number of parameters all differ from one.", "quantifier": "all numbers of chains and draws and all block sizes", "why_tests_cant": "all sizes", "anchors": ["pymc_extras/inference/laplace.py:sample_laplace_posterior"]}
{"id": "C125", "title": "Labels of the Laplace fit group, and return_raw", "statement": "The fit group can be labelled exactly when every variable without dims is a scalar (a vector declared with shape= makes fit_laplace raise); fit_laplace(return_raw=True) always raises.", "quantifier": "all models and dims", "why_tests_cant": "all models", "anchors": ["pymc_extras/inference/laplace.py:add_fit_to_inferencedata", "pymc_extras/inference/laplace.py:fit_laplace"]}
{"id": "C126", "title": "Which derivative functions the optimiser receives", "statement": "set_optimizer_function_defaults never selects both Hessian and Hessian-vector product and respects explicit choices, except that an explicitly requested Hessian is dropped when the product is on by the method's default. scipy_optimize_funcs_from_loss raises exactly for second derivatives without gradient, an unknown backend, or JAX gradients under another compile mode; otherwise it returns exactly the requested functions from the requested backend, and writes mode='JAX' into the caller's dictionary for JAX gradients.", "quantifier": "all flags, methods, backends and compile modes", "why_tests_cant": "all combinations of unchecked strings and flags", "anchors": ["pymc_extras/inference/find_map.py:set_optimizer_function_defaults", "pymc_extras/inference/find_map.py:scipy_optimize_funcs_from_loss"]}
{"id": "C127", "title": "The SMC diagnostics warning is reversed", "statement": "sample_smc logs that only the first iterations were diagnosed exactly when all of them were, with rows to spare, and stays silent when iterations are missing from the diagnostics.", "quantifier": "all runs and all numbers of diagnosed iterations", "why_tests_cant": "all runs", "anchors": ["pymc_extras/inference/smc/sampling.py:sample_smc_blackjax"]}
{"id": "C128", "title": "Inner kernel arguments of SMC", "statement": "The inner kernel is built exactly for HMC with step_size and integration_steps or NUTS with step_size, with the values given; with the default inner_kernel_params=None every call raises.", "quantifier": "all kernel names and parameter dictionaries", "why_tests_cant": "all strings and dictionaries", "anchors": ["pymc_extras/inference/smc/sampling.py:sample_smc_blackjax"]}
{"id": "C129", "title": "Particles survive the trip to BlackJax and back", "statement": "Leaf j of the particles holds the prior draws of the j-th value variable; with at least two particles and no value variable with an axis of length one, particle i of the returned trace holds draw i of every variable; otherwise building the trace raises, after the whole run.", "quantifier": "all models, shapes and numbers of particles", "why_tests_cant": "all shapes", "anchors": ["pymc_extras/inference/smc/sampling.py:arviz_from_particles", "pymc_extras/inference/smc/sampling.py:blackjax_particles_from_pymc_population", "pymc_extras/inference/smc/sampling.py:initialize_population"]}
{"id": "C130", "title": "Attributes written by SMC", "statement": "Every reserved attribute of the posterior is that of the run unless the caller's kernel parameters use the same name, in which case they win; only the running time is safe.", "quantifier": "all attribute and parameter dictionaries", "why_tests_cant": "all dictionaries", "anchors": ["pymc_extras/inference/smc/sampling.py:add_to_inference_data"]}
{"id": "C131", "title": "Where min_count puts removed values", "statement": "With min_count every data point contributes the log density at the largest retained value not above it (so removed values are counted at a smaller value), except points below all retained values or more than one above the largest, which contribute nothing.", "quantifier": "all integer data, min_count and log densities", "why_tests_cant": "all data sets", "anchors": ["pymc_extras/distributions/histogram_utils.py:discrete_histogram"]}
{"id": "C132", "title": "Quantile histogram: totals, bins and dispatch", "statement": "Without zero inflation there are n_quantiles−1 bins and the counts of every column add up to its number of data points; with zero inflation there is one more bin, for zeros, and the counts add up to the number of data points that are not negative; it raises exactly when there are no data (no positive data) to take quantiles of. histogram_approximation uses the integer histogram exactly for integer types and refuses the other's arguments.", "quantifier": "all real data, columns and numbers of quantiles", "why_tests_cant": "all data sets", "anchors": ["pymc_extras/distributions/histogram_utils.py:quantile_histogram", "pymc_extras/distributions/histogram_utils.py:histogram_approximation"]}
{"id": "C133", "title": "Inducing points of the projected process", "statement": "prior() finds its inducing points exactly when X is an array and they are given, or n_inducing is an integer between one and the number of inputs.", "quantifier": "all arguments", "why_tests_cant": "all arguments", "anchors": ["pymc_extras/gp/latent_approx.py:ProjectedProcess.prior"]}
{"id": "C134", "title": "Karhunen–Loève prior and conditional", "statement": "The prior is linear in the coefficients, with the truncated eigendecomposition as covariance, never above the covariance plus jitter and equal to it when nothing is cut; the mean function has no effect; the conditional at the prior's inputs without jitter has the prior as mean and the omitted part as covariance; it is positive definite for positive jitter whenever the kernel is positive semidefinite.", "quantifier": "all kernels, inputs, truncations and jitters", "why_tests_cant": "all matrices", "anchors": ["pymc_extras/gp/latent_approx.py:KarhunenLoeveExpansion"]}
{"id": "C135", "title": "B-spline basis", "statement": "The basis exists exactly when there are more coefficients than the degree; its rows add up to one everywhere, inside [0,1] values stay between the smallest and largest coefficient, depend on degree+1 neighbouring coefficients, and the curve starts at the first and ends at the last coefficient.", "quantifier": "all degrees, numbers of coefficients, coefficients and evaluation points", "why_tests_cant": "all degrees and points", "anchors": ["pymc_extras/utils/spline.py:numpy_bspline_basis", "pymc_extras/utils/spline.py:bspline_interpolation"]}
{"id": "C136", "title": "What bspline_interpolation interpolates", "statement": "With degree one the curve passes through the coefficients at the regular grid of [0,1]; with the default degree three it does not; evaluation points outside [0,1] are not rescaled but extrapolated; the call succeeds exactly when one of n and eval_points is given and there are enough coefficients.", "quantifier": "all coefficients, grids and arguments", "why_tests_cant": "all inputs", "anchors": ["pymc_extras/utils/spline.py:bspline_interpolation"]}
{"id": "C137", "title": "Placeholder registration", "statement": "After any sequence of make_and_register_variable / make_and_register_data calls, accepted or refused, the registered placeholders are exactly the declared names that some call used, each with the shape and dtype of the first such call; a further call is accepted exactly when its name is declared and not yet used, and parameters and data do not interfere.", "quantifier": "every list of declared names and every sequence of calls", "why_tests_cant": "All call histories, including refused calls in between.", "anchors": ["pymc_extras/statespace/core/statespace.py:make_and_register_variable", "pymc_extras/statespace/core/statespace.py:make_and_register_data", "pymc_extras/statespace/models/structural.py:Component.make_and_register_variable", "pymc_extras/statespace/models/structural.py:Component.make_and_register_data"]}
{"id": "C138", "title": "What build_statespace_graph needs from the PyMC model, and what it produces", "statement": "In an unnamed PyMC model, inserting parameters and data succeeds exactly when every declared parameter and data container is present, with compatible types, and every placeholder is used by the matrices; extra variables are ignored. Afterwards the matrices have, for all values of the variables, the values of the symbolic matrices with each placeholder set to the variable of its name, and no placeholder is left. Missing parameters are reported exactly; the report of excess parameters is never made.", "quantifier": "every model object, every PyMC model, every interpretation of the operations and all values", "why_tests_cant": "Ranges over all symbolic matrices and all models.", "anchors": ["pymc_extras/statespace/core/statespace.py:_insert_random_variables", "pymc_extras/statespace/core/statespace.py:_insert_data_variables", "pymc_extras/statespace/core/statespace.py:build_statespace_graph"]}
{"id": "C139", "title": "Builds do not depend on earlier builds", "statement": "Whatever builds were made or failed before with the same object, a build raises the same exception or leaves the same object as on a fresh one. A build that fails for a missing parameter keeps the matrices of the previous build; one that fails for missing exogenous data leaves matrices with the parameters filled in and the data placeholders open.", "quantifier": "every history of builds in any PyMC models", "why_tests_cant": "All histories, including failed builds.", "anchors": ["pymc_extras/statespace/core/statespace.py:build_statespace_graph", "pymc_extras/statespace/core/statespace.py:unpack_statespace"]}
{"id": "C140", "title": "Named PyMC models cannot be used", "statement": "Inside a PyMC model that has a name, every build of a state space model with at least one parameter raises the missing-parameter error, even if all parameters are there.", "quantifier": "every named model, every nonempty list of parameter names", "why_tests_cant": "All names; proved by a shortest-name argument.", "anchors": ["pymc_extras/statespace/core/statespace.py:_insert_random_variables"]}
{"id": "C141", "title": "Missing exogenous data", "statement": "If the parameters fit but a declared data container is absent, the build raises KeyError; the error that lists the missing data is never given by a build in an unnamed model.", "quantifier": "every object and PyMC model", "why_tests_cant": "Unreachability of a branch for all inputs.", "anchors": ["pymc_extras/statespace/core/statespace.py:_save_exogenous_data_info", "pymc_extras/statespace/core/statespace.py:_insert_data_variables"]}
{"id": "C142", "title": "The graph rebuilt after estimation", "statement": "Before a build, rebuilding raises AttributeError. After a successful build, the graph can always be rebuilt in a new model: one flat variable per parameter with the placeholder's type and the dims it had in the user's model, one data container per data name holding the scenario's value or else the value at build time, nothing else, and the same matrices.", "quantifier": "every successful build, every scenario", "why_tests_cant": "All models, dims, and scenarios.", "anchors": ["pymc_extras/statespace/core/statespace.py:_build_dummy_graph", "pymc_extras/statespace/core/statespace.py:_kalman_filter_outputs_from_dummy_graph"]}
{"id": "C143", "title": "Choice of the filter", "statement": "filter_type is looked up without regard to case and exactly standard, univariate and cholesky are known; the refusal of \"single\" with several series is never reached.", "quantifier": "every string and every number of observed series", "why_tests_cant": "All strings.", "anchors": ["pymc_extras/statespace/core/statespace.py:PyMCStateSpace.__init__", "pymc_extras/statespace/core/statespace.py:FILTER_FACTORY"]}
{"id": "C144", "title": "The fill value for missing data is forgotten after estimation", "statement": "If the data hold a missing cell and a real observation equal to the default fill value, a custom fill value lets the model be built, but every later function that conditions on the data registers them with the default fill value and raises; without a missing cell the observation is silently treated as missing.", "quantifier": "every data table with these features", "why_tests_cant": "All tables and fill values.", "anchors": ["pymc_extras/statespace/core/statespace.py:build_statespace_graph", "pymc_extras/statespace/core/statespace.py:_kalman_filter_outputs_from_dummy_graph", "pymc_extras/statespace/utils/data_tools.py:mask_missing_values_in_data"]}
{"id": "C145", "title": "SARIMAX announces exactly the parameters it needs", "statement": "For every SARIMAX order and every combination of options, param_names lists without repetition exactly the placeholders the model registers, param_info gives each one's registered shape, and the announced dims have one known coordinate per axis with as many labels as the axis has entries. In the interpretable form this holds for x0 and P0 exactly when the initial state is not a parameter or each seasonal polynomial comes with a non-seasonal one.", "quantifier": "all orders (p,d,q)(P,D,Q,S), both state structures, all flags", "why_tests_cant": "the space of orders and flags is infinite and the failing corner (seasonal terms without non-seasonal ones) is easily missed", "anchors": ["pymc_extras/statespace/models/SARIMAX.py: param_names, param_info, param_dims, coords, state_names, make_symbolic_graph", "pymc_extras/statespace/models/utilities.py: make_default_coords"]}
{"id": "C146", "title": "VARMAX announces its parameters, except sigma_obs", "statement": "A VARMAX model's names, shapes, dims and coordinates agree with the placeholders it registers exactly when it has no measurement error; with measurement error only sigma_obs is wrong: announced as a (k, k) positive semi-definite matrix, registered as a vector of length k.", "quantifier": "all orders, all lists of series names, all flags", "why_tests_cant": "infinitely many orders and numbers of series", "anchors": ["pymc_extras/statespace/models/VARMAX.py: param_names, param_info, param_dims, coords, make_symbolic_graph"]}
{"id": "C147", "title": "ETS announces its parameters, except initial_seasonal of several series", "statement": "An ETS model's names, shapes, dims and coordinates agree with what it registers exactly when it is not a seasonal model of several series (there initial_seasonal is announced as (periods,) but must be (k_endog, periods), while its dims are right); param_dims additionally has entries that are not parameters.", "quantifier": "all configurations of trend, damping, seasonality, covariance type, measurement error, initialisation, all numbers of series and periods", "why_tests_cant": "128 flag combinations times all sizes", "anchors": ["pymc_extras/statespace/models/ETS.py: param_names, param_info, param_dims, coords, make_symbolic_graph"]}
{"id": "C148", "title": "Each structural component announces its parameters", "statement": "For each structural component, names, shapes, dims and coordinates agree with the registered placeholders: always for measurement error, time and frequency seasonality and cycles; for level/trend exactly when no derivative is left out and at most seven are used; for autoregression exactly when no lag is left out; for regression exactly when it has no innovations.", "quantifier": "all names, orders, masks, season lengths, flags and lists of state names", "why_tests_cant": "infinitely many orders and names (including names for which parameter names might collide)", "anchors": ["pymc_extras/statespace/models/structural.py: populate_component_properties, make_symbolic_graph of each component"]}
{"id": "C149", "title": "Sums of consistent components build consistent models", "statement": "Adding any number of components that announce their parameters correctly, share no parameter name and give shared dimensions the same length yields a component that announces correctly; build then yields a model that announces correctly (including P0) exactly when every state has a name, provided no component dimension uses a reserved name.", "quantifier": "all finite lists of components and model names", "why_tests_cant": "unbounded number and kind of components", "anchors": ["pymc_extras/statespace/models/structural.py: Component.__add__, _combine_property, build, StructuralTimeSeries.__init__, _add_inital_state_cov_to_properties"]}
{"id": "C150", "title": "Clobbered and missing dimensions of structural models", "statement": "Two regression components with different numbers of regressors always give an inconsistent sum, because both use the dimension exog_state; a seasonal component named observed loses its labels to the model's own coordinate; scalar parameters have no entry in param_dims, so the documented lookups param_dims['sigma_obs'] and param_dims['sigma_ar'] fail.", "quantifier": "all regressions of different sizes, all state lists, all component names", "why_tests_cant": "needs all pairs of components", "anchors": ["pymc_extras/statespace/models/structural.py: RegressionComponent, TimeSeasonality, MeasurementError, AutoregressiveComponent, StructuralTimeSeries.__init__"]}
{"id": "C151", "title": "model_table lists every variable once", "statement": "If model_table succeeds, its rows other than parameter counts are exactly the model's variables: with split_groups the data, free, deterministic, potential and observed variables in that order, without it all named variables in order of definition; both layouts list the same variables. Each row shows the name with '~' for random variables and '=' otherwise, PyMC's expression for it and its dimensions. The table can be made exactly when each variable has an expression and dimensions; a deterministic whose name contains ' ~ ' makes the whole table fail.", "quantifier": "all models (any number of variables of every kind, any names, dims and shapes), all option values", "why_tests_cant": "the layout depends on which groups are empty and on arbitrary names; tests compare one rendered table", "anchors": ["pymc_extras/printing.py:model_table", "pymc_extras/printing.py:variable_expression"]}
{"id": "C152", "title": "The parameter count in model_table", "statement": "With split_groups the count row is the last row of the free variables' section, present exactly when there are free variables and the count is requested, and shows the total number of elements of the free random variables; every non-empty group ends a section. Without groups it is the last row whenever the model has a variable; a model without free variables then shows '0.0'.", "quantifier": "all models whose free variables belong to no other group, all option values", "why_tests_cant": "must hold for every combination of empty and non-empty groups", "anchors": ["pymc_extras/printing.py:model_table", "pymc_extras/printing.py:model_parameter_count"]}
{"id": "C153", "title": "Truncation of deterministic expressions", "statement": "With truncate_deterministic=t an expression f(a, b, ...) of at most t characters is left alone; a longer one shows a proper prefix of its arguments, the longest whose total width (two more than its length for each argument) is within t, followed by ', ...)'. The result is at most max(8, t+6) characters long, so it may exceed t and even be longer than the text it replaces.", "quantifier": "all argument lists without commas in names, all limits", "why_tests_cant": "ranges over all lengths of names and limits; off-by-one cases occur at particular lengths", "anchors": ["pymc_extras/printing.py:variable_expression"]}
{"id": "C154", "title": "Dimensions shown by model_table", "statement": "A variable with distinct named dims shows each with its current length, in order; one without dims shows its shape, and a scalar nothing. A variable with an unnamed (None) axis makes the table fail with KeyError, and a dim used for two axes is shown once.", "quantifier": "all models, variables, dims and lengths", "why_tests_cant": "depends on arbitrary dims lists; the failing cases are never rendered in tests", "anchors": ["pymc_extras/printing.py:dims_expression"]}
{"id": "C155", "title": "Time-varying matrices reach the simulation step under their own names", "statement": "For every choice of time-varying matrices among c, d, T, Z, R, H, Q, given to LinearGaussianStateSpace as sequence_names in any order without repetition, each simulation step receives the seven matrices in canonical order, together with the previous state and the random generator. A list with a repetition or with another name (also x0 or P0, which the signature accepts) makes the construction fail with AttributeError.", "quantifier": "all lists of sequence names, all matrix values", "why_tests_cant": "128 subsets in all orders, plus ill-formed lists; tests use none or one time-varying matrix", "anchors": ["pymc_extras/statespace/filters/distributions.py:_LinearGaussianStateSpace.rv_op"]}
{"id": "C156", "title": "Signature of the state-space distribution", "statement": "The operator's signature has a leading time axis exactly for the matrices listed in sequence_names, and an unknown name raises KeyError.", "quantifier": "all duplicate-free lists of sequence names", "why_tests_cant": "all subsets and orders", "anchors": ["pymc_extras/statespace/filters/distributions.py:make_signature"]}
{"id": "C157", "title": "States and observations are separated at the right column only for constant matrices", "statement": "With a constant transition matrix LinearGaussianStateSpace.dist separates each row into the states and the observations, and the named distribution does so when k_endog is given or H is constant. With a time-varying T, dist cuts at the number of time steps instead, so the result is right only if that equals the number of states (or exceeds it and nothing is observed); with a T of unknown length both outputs are the whole row; a time-varying H without k_endog cuts at the number of time steps or raises.", "quantifier": "all numbers of states, series and time steps, all rows", "why_tests_cant": "tests always use constant T or pass k_endog", "anchors": ["pymc_extras/statespace/filters/distributions.py:LinearGaussianStateSpace.dist", "pymc_extras/statespace/filters/distributions.py:LinearGaussianStateSpace.__new__"]}
{"id": "C158", "title": "The filter distribution's log-probability ignores the value", "statement": "The log-probability of the data variable is the one computed by the Kalman filter from the registered data, whatever value it is evaluated at; the only check is that the value's first axis has as many entries as there are time steps. With batch axes on the left the variable's shape is that of its means, but the check compares the first batch axis with the number of time steps.", "quantifier": "all shapes, values and log-probabilities, any number of batch axes", "why_tests_cant": "tests evaluate the density only at the registered data and never with batches", "anchors": ["pymc_extras/statespace/filters/distributions.py:SequenceMvNormal.rv_op", "pymc_extras/statespace/filters/distributions.py:sequence_mvnormal_logp"]}
{"id": "C159", "title": "Simulators made by compile_statespace", "statement": "A simulator called with exactly the model's inputs returns states and observations of shape (draws, steps+1, width) with every axis of length one removed, so one draw of a one-state model is one-dimensional. The default of 100 steps can never take effect: a simulator compiled without steps raises TypeError when steps is left out, one compiled with steps raises TypeError when steps is passed.", "quantifier": "all numbers of draws, steps, states and series, all input names", "why_tests_cant": "there are no tests of this function, and the shape rule depends on coincidences of sizes", "anchors": ["pymc_extras/statespace/core/compile.py:compile_statespace"]}
{"id": "C160", "title": "What data LinearModel accepts", "statement": "A data set with one feature and n ≠ 1 rows is accepted and its n observations are used. A single observation is always refused, for fitting and for prediction. One row with k ≥ 2 features is silently taken for k observations; every table with several rows and several features is refused. When only the target is refused, the new features stay in the model next to the old target.", "quantifier": "all table shapes, all earlier states", "why_tests_cant": "tests use one shape", "anchors": ["pymc_extras/linearmodel.py:LinearModel._data_setter", "pymc_extras/linearmodel.py:LinearModel.build_model"]}
{"id": "C161", "title": "Pathfinder samples are reported for the variables they were drawn for", "statement": "When PyMC's initial point lists the value variables in the model's order, the reported values of a sample are computed from exactly the assignment at which its density was evaluated, and the flat starting position decodes to the initial point; the result depends on the two orders agreeing. fit() runs the named algorithm, raises RuntimeError for pathfinder without BlackJAX, and returns None for any other method name.", "quantifier": "all models (any number of value variables of any sizes), all flat samples, all method names", "why_tests_cant": "a permutation of blocks of equal size would go unnoticed in tests with one or two variables", "anchors": ["pymc_extras/inference/pathfinder.py:convert_flat_trace_to_idata", "pymc_extras/inference/pathfinder.py:fit_pathfinder", "pymc_extras/inference/fit.py:fit"]}
{"id": "C162", "title": "The filter's states are the best linear predictors and its covariances are the true error covariances", "statement": "For every process that satisfies the state-space equations with the matrices given to the filter (no Gaussian assumption), run on realised data without missing entries and without jitter: the predicted state is an affine function of earlier observations, its error has mean zero and is uncorrelated with them, the reported predicted covariance is the covariance matrix of that error, and no affine function of the earlier observations has a smaller mean square error for any state. The same holds for filtered states and the observations up to and including their date.", "quantifier": "all state, series and shock dimensions, all (time-varying) system matrices, all probability spaces, all processes on them none of whose observations is determined by the earlier ones (e.g. positive definite H; also H = 0 with enough shocks), all lengths and dates", "why_tests_cant": "a statement about expectations over all processes and all competing predictors; simulation only approximates it for one model", "anchors": ["pymc_extras/statespace/filters/kalman_filter.py:StandardFilter.update", "pymc_extras/statespace/filters/kalman_filter.py:BaseFilter.predict", "pymc_extras/statespace/filters/kalman_filter.py:BaseFilter.build_graph"]}
{"id": "C163", "title": "Innovations are white with the reported covariance, and the log-likelihoods add up to the joint log-density", "statement": "For every process that satisfies the state-space equations, the one-step forecast errors computed from the filter's observed-state output have mean zero, are uncorrelated at different dates, and their covariance matrix is the reported observation covariance. For every data set, the reported log-likelihoods of all dates add up to the Gaussian log-density of the whole sample, computed from the mean vector and covariance matrix of all observations of the process, plus (k-1)/2*log(2*pi) per date (k the number of series), so exactly the joint log-density when there is one series. The filter's observation covariances are all nonsingular exactly when the joint covariance matrices of the observations are.", "quantifier": "all dimensions, system matrices, processes none of whose observations is determined by the earlier ones (e.g. positive definite H; also H = 0 with enough shocks), lengths, pairs of dates; the log-likelihood for every data set", "why_tests_cant": "statement about expectations of all processes and all pairs of dates", "anchors": ["pymc_extras/statespace/filters/kalman_filter.py:StandardFilter.update", "pymc_extras/statespace/filters/kalman_filter.py:BaseFilter.build_graph"]}
{"id": "C164", "title": "Smoothed states are the best linear predictors given the whole sample", "statement": "For every process that satisfies the state-space equations without state intercept and with constant transition, selection and shock covariance matrices, filtering and then smoothing the realised data (no missing entries, no jitter): the smoothed state is an affine function of the whole sample, its error has mean zero and is uncorrelated with every observation of the sample, earlier or later, the smoothed covariance is the covariance matrix of that error, and no affine function of the sample has a smaller mean square error. This includes singular predicted covariances, where the code uses a pseudo-inverse.", "quantifier": "all dimensions, all such system matrices, all processes none of whose observations is determined by the earlier ones (e.g. positive definite H; also H = 0 with enough shocks), all lengths and dates, all competing predictors", "why_tests_cant": "a statement about expectations over all processes and competing predictors; the existing tests compare with one other implementation on a few models", "anchors": ["pymc_extras/statespace/filters/kalman_smoother.py:KalmanSmoother.smoother_step", "pymc_extras/statespace/filters/kalman_smoother.py:KalmanSmoother.build_graph"]}
{"id": "C165", "title": "A marginalised Markov chain hides its time axis from later marginalisations", "statement": "The axes a marginalised variable reports as its support are exact for finite discrete variables; for a Markov chain the time axis is never reported. A vector that enters the observations time by time and is marginalised after the chain is accepted, and the log-probability then sums over constant vectors only: it can be minus infinity for observations of positive probability, for every length of the chain.", "quantifier": "all dims connections that list every axis of the marginalised variable; all chains, lengths at least two and emission functions", "why_tests_cant": "ranges over all shapes; the wrong value needs a particular elimination order", "anchors": ["pymc_extras/model/marginal/distributions.py:MarginalRV.support_axes", "pymc_extras/model/marginal/graph_analysis.py:_subgraph_batch_dim_connection"]}
{"id": "C166", "title": "extract_components_from_idata keeps and combines by the length of the last axis", "statement": "For a structural model with k hidden states, extract_components_from_idata keeps exactly the variables whose last axis has length k, in order, names all others in its warning, and raises ValueError exactly when there are none (IndexError if some variable has no axis). In every kept variable, at every index of the leading axes, the last axis becomes the components' values, component after component, under as many labels. Because only the length of the last axis is tested and only that axis is reduced, a covariance keeps one row per state and holds covariances of states with components, not component variances, and a scalar parameter drawn k times has its draws combined.", "quantifier": "every sum of components with well-formed records, every dataset (any number of variables, axes, shapes and values)", "why_tests_cant": "tests look at one model and one dataset; the rule has to hold for all models, shapes and values", "anchors": ["pymc_extras/statespace/models/structural.py:StructuralTimeSeries.extract_components_from_idata", "pymc_extras/statespace/models/structural.py:StructuralTimeSeries._hidden_states_from_data", "pymc_extras/statespace/models/structural.py:StructuralTimeSeries._get_subcomponent_names"]}
{"id": "C167", "title": "Adding components with time-varying matrices", "statement": "Adding two components whose design matrices are static or vary over time succeeds exactly if one is static or both vary over the same number of dates, and then at every date the design of the sum is the two designs side by side, the static one being repeated; observation covariances are added date by date under the same condition. State or observation intercepts that vary over time can never be added (not even to a static one). The helper refuses two tensors exactly if their names differ and neither is the name of a statespace matrix, and expands nothing unless both have a time axis and exactly one has static length one.", "quantifier": "all pairs of stored matrices: any core sizes, any known or unknown number of dates, any values", "why_tests_cant": "the combination has to be right for every number of dates, known or unknown in advance, and all sizes", "anchors": ["pymc_extras/statespace/models/utilities.py:conform_time_varying_and_time_invariant_matrices", "pymc_extras/statespace/models/structural.py:Component._combine_statespace_representations", "pymc_extras/statespace/core/representation.py:PytensorRepresentation._check_provided_tensor"]}
{"id": "C168", "title": "sample_statespace_matrices returns the requested matrices or fails by name", "statement": "After a successful build, sample_statespace_matrices returns, for requested short or long matrix names none of which is a parameter or data name and no matrix under both names, exactly those names, each standing for that matrix as the build filled it in. A request under a name that a parameter or data already has always raises: in particular matrix_names=None raises for every model with a parameter P0 or x0, hence for every structural model. An unknown name, or a matrix requested under both names, raises KeyError, unless the name is that of another variable, which is then returned; any group but prior and posterior is refused.", "quantifier": "every built model, every list of requested names and every set of coordinates", "why_tests_cant": "depends on the interplay of arbitrary parameter names with the eighteen matrix names", "anchors": ["pymc_extras/statespace/core/statespace.py:PyMCStateSpace.sample_statespace_matrices", "pymc_extras/statespace/core/statespace.py:_verify_group"]}
{"id": "C169", "title": "With missing data the filter tends to the best linear filter as the jitter vanishes", "statement": "Let states and observations follow a linear state-space model (square-integrable, uncorrelated shocks; not necessarily Gaussian) with positive definite measurement covariance, and let any fixed pattern of entries be missing such that missing and recorded series have uncorrelated measurement errors. For almost every realisation, as cov_jitter tends to zero from above, the predicted (filtered) states returned by the standard filter converge to the best affine predictor of the state from the entries recorded before (up to) its date, and the returned covariances converge to the covariance of that predictor's error: unbiased, uncorrelated with every recorded entry, and no affine function of the recorded entries has a smaller mean square error.", "quantifier": "every model with time-varying or static matrices, every process following it, every pattern of missing entries, every length and date", "why_tests_cant": "a limit statement about expectations over all processes and all patterns of missing data", "anchors": ["pymc_extras/statespace/filters/kalman_filter.py:BaseFilter.handle_missing_values", "pymc_extras/statespace/filters/kalman_filter.py:StandardFilter.update", "pymc_extras/statespace/filters/kalman_filter.py:BaseFilter.build_graph"]}
{"id": "C170", "title": "Stationary initialisation is the stationary distribution of the model", "statement": "When the powers of the transition matrix die out (equivalently, all its complex eigenvalues lie inside the unit circle), stationary initialisation solves two nonsingular systems and returns the only mean and covariance that one step of the model leaves unchanged; the covariance is positive semidefinite and is the sum of the contributions of all past shocks; dates with no data change neither (up to cov_jitter). Any process following the model from this start is weakly stationary (means, state covariances and autocovariances of the data do not depend on the date), and no other start has that property. Stability is not checked: with a real explosive direction that shocks reach, a negative initial variance is returned.", "quantifier": "all intercepts, transition, selection and shock covariance matrices of all sizes, all processes, dates and lags", "why_tests_cant": "quantifies over all stable systems and all processes; stationarity is about all dates", "anchors": ["pymc_extras/statespace/models/SARIMAX.py:BayesianSARIMA._stationary_initialization", "pymc_extras/statespace/models/VARMAX.py:BayesianVARMAX.make_symbolic_graph"]}
{"id": "C171", "title": "SARIMA stationary initialisation is well posed exactly for stationary AR polynomials", "statement": "For a SARIMA model without differencing, in either state structure, the transition matrix is stable exactly when all complex roots of the non-seasonal and the seasonal autoregressive lag polynomials lie outside the unit circle; the moving-average parameters do not matter. Then the stationary initialisation is well posed, has mean zero and a positive semidefinite covariance unchanged by a step.", "quantifier": "all orders accepted by the constructor without differencing, both structures, all parameter values", "why_tests_cant": "infinitely many orders and parameter values, and a statement about limits of matrix powers", "anchors": ["pymc_extras/statespace/models/SARIMAX.py:BayesianSARIMA.make_symbolic_graph", "pymc_extras/statespace/models/SARIMAX.py:BayesianSARIMA._stationary_initialization", "pymc_extras/statespace/models/utilities.py:make_SARIMA_transition_matrix"]}
{"id": "C172", "title": "ETS as-if-stationary initial covariance", "statement": "With stationary_initialization=True and any accepted initialization_dampening, the system used to compute the initial covariance is stable exactly when no series has |phi| >= 1 (always, without a damped trend); then the initial covariance is the unique fixed point of the dampened system and positive semidefinite. It is not stationary for the model itself: whenever shocks to some series have a permanent effect, no covariance matrix is left unchanged by a step of the model.", "quantifier": "all trend/damping/seasonal settings, seasonal lengths, numbers of series, parameters, dampening values and shock covariances", "why_tests_cant": "all seasonal lengths, numbers of series and parameters", "anchors": ["pymc_extras/statespace/models/ETS.py:BayesianETS._stationary_initialization", "pymc_extras/statespace/models/ETS.py:BayesianETS.make_symbolic_graph"]}
{"id": "C173", "title": "VARMAX stationary initialisation is well posed exactly for stationary AR matrices", "statement": "For a VARMAX model the transition matrix is stable exactly when the matrix I - A_1 w - ... - A_p w^p is singular only for |w| > 1, whatever the moving-average coefficients. Then stationary initialisation is well posed, with mean zero and a positive semidefinite covariance unchanged by a step.", "quantifier": "all numbers of series, orders and coefficient arrays", "why_tests_cant": "infinitely many orders, dimensions and parameter values, and a statement about limits of matrix powers", "anchors": ["pymc_extras/statespace/models/VARMAX.py:BayesianVARMAX.make_symbolic_graph"]}
{"id": "C174", "title": "Scenario data reach the model unchanged; the caller's dictionary and frames are re-labelled in place", "statement": "When forecast succeeds with scenario data, the model receives for every exogenous variable exactly the numbers the user supplied for it (data frame, series, array or list), in order, one row per forecast date; a scenario with another number of rows, or data frames with different dates, is always refused. The numbers held by the user's dictionary and data frames are never changed by any sequence of calls, raising or not, and frames outside the dictionary are untouched. But the dictionary's entries are replaced by data frames and the user's own data frames get the forecast dates as index in place, also partly when the call raises, so a later call with use_scenario_index=True uses the dates of the earlier call. Repeating a successful call gives the same forecast and changes nothing more.", "quantifier": "all scenario dictionaries, heaps of data frames, fit indices and histories of calls", "why_tests_cant": "unboundedly many dictionaries, aliased frames and call sequences, including calls that fail half way", "anchors": ["pymc_extras/statespace/core/statespace.py:PyMCStateSpace.forecast", "pymc_extras/statespace/core/statespace.py:PyMCStateSpace._validate_scenario_data", "pymc_extras/statespace/core/statespace.py:PyMCStateSpace._finalize_scenario_initialization"]}
{"id": "C175", "title": "use_scenario_index takes the first entry of the dictionary", "statement": "With use_scenario_index=True a data frame that comes first in the scenario dictionary supplies the forecast dates, and the forecast starts one step before its first date, which must be in the fit data. If an array comes first, the frames' index is ignored: the forecast is for the dates start, start+1, ... and starts one step before start, whereas the same start without use_scenario_index forecasts the dates after start. Dates without a frequency raise TypeError, dates for a model fit on integers raise AttributeError.", "quantifier": "all dictionaries, starts, fit indices", "why_tests_cant": "unboundedly many combinations of entries, orders and dates", "anchors": ["pymc_extras/statespace/core/statespace.py:PyMCStateSpace._build_forecast_index", "pymc_extras/statespace/core/statespace.py:PyMCStateSpace._validate_forecast_args"]}
{"id": "C176", "title": "vip_reparametrize preserves the posterior of a whole model", "statement": "For every model, every list of accepted names and every value of the lambda parameters, the model returned by vip_reparametrize has the same posterior over the original named variables as the original model, provided no observed variable was named. The call succeeds exactly for names of exponential variables and of normal variables without transform; an observed variable that is named silently loses its observation. Initially every lambda is one half.", "quantifier": "all models (hierarchies of any depth), all names, all lambda values", "why_tests_cant": "equality of two posterior measures for every model and every lambda", "anchors": ["pymc_extras/model/transforms/autoreparam.py:vip_reparametrize", "pymc_extras/model/transforms/autoreparam.py:vip_reparam_node"]}
{"id": "C177", "title": "Batches of Markov chains", "statement": "A DiscreteMarkovChain can be created only with one more matrix axis than lags (a batch of transition matrices is always refused); a batch of chains draws every chain separately, has the log-probability of each chain when the initial distribution is common, has no support point, and with one initial distribution per chain the log-probability is wrong (all initial distributions are summed, or lags and chains are mixed up, or a shape error).", "quantifier": "all numbers of lags, batch sizes, chains, transition matrices and initial distributions", "why_tests_cant": "unboundedly many shapes and chains", "anchors": ["pymc_extras/distributions/timeseries.py:DiscreteMarkovChain.rv_op", "pymc_extras/distributions/timeseries.py:discrete_mc_logp", "pymc_extras/distributions/timeseries.py:discrete_mc_moment"]}
{"id": "C178", "title": "The Gibbs sampler for Markov chains updates every coordinate once", "statement": "The step method's coordinate list contains every coordinate of the concatenated chains exactly once with the number of states of its own chain; an explicit order is accepted exactly when it is a permutation of the coordinates and is then followed; other variables and unknown proposals are refused.", "quantifier": "all lists of variables, sizes, orders and proposal names", "why_tests_cant": "unboundedly many lists of chains and orders", "anchors": ["pymc_extras/distributions/timeseries.py:DiscreteMarkovChainGibbsMetropolis.__init__"]}
{"id": "C179", "title": "A saved model builder is rebuilt on its training data only if the two indices agree", "statement": "fit pairs features and targets by position, but the data stored with the fit (and used by load) are paired by label. If the target has the features' index, load rebuilds the fitted model; for labels without repetition this holds for all numbers exactly when the indices are equal in order. Disjoint indices give twice as many rows each with a missing value; differing indices with repeated labels, and numpy features, make fit raise after sampling and leave a file that cannot be loaded.", "quantifier": "all indices, features, targets and configurations", "why_tests_cant": "unboundedly many index combinations; tests use the default index", "anchors": ["pymc_extras/model_builder.py:ModelBuilder.fit", "pymc_extras/model_builder.py:ModelBuilder.save", "pymc_extras/model_builder.py:ModelBuilder.load"]}
{"id": "C180", "title": "What a model builder is conditioned on after any history of calls", "statement": "fit conditions on its own data and the current configuration whatever was called before; no other call changes the stored posterior, training data or configuration. sample_model conditions on whatever the model now holds: after predict the prediction's features with the training targets (or a shape error), after sample_prior_predictive zero targets. set_params does not touch the built model, so sample_model then labels draws of the old configuration with the new one. Before fit nothing can be predicted or saved.", "quantifier": "all histories of fit, predict, sample_prior_predictive, set_params, sample_model, save and load", "why_tests_cant": "unboundedly many histories", "anchors": ["pymc_extras/model_builder.py:ModelBuilder.sample_model", "pymc_extras/model_builder.py:ModelBuilder.set_params", "pymc_extras/model_builder.py:ModelBuilder.get_params", "pymc_extras/model_builder.py:ModelBuilder.sample_posterior_predictive", "pymc_extras/linearmodel.py:LinearModel._data_setter"]}
{"id": "C181", "title": "The generalised Poisson branching sampler draws from the documented distribution", "statement": "For 0 <= lam <= 1 each element drawn by the branching sampler equals x with exactly the documented probability, for every count x; the loop ends with probability one; the documented probabilities add up to one. Elements drawn together get the sizes of their own families, independently of each other's values.", "quantifier": "all mu > 0, 0 <= lam <= 1, all counts, all vectors of elements and draws", "why_tests_cant": "equality of distributions over infinitely many counts, and almost-sure termination", "anchors": ["pymc_extras/distributions/discrete.py:GeneralizedPoissonRV._branching_rng_fn", "pymc_extras/distributions/discrete.py:GeneralizedPoisson.logp"]}
{"id": "C182", "title": "Mean and variance of the generalised Poisson distribution", "statement": "For 0 <= lam < 1 the probabilities that logp documents have mean mu/(1-lam) and variance mu/(1-lam)^3, as documented; at the allowed end lam = 1 the mean is infinite.", "quantifier": "all mu > 0 and 0 <= lam <= 1", "why_tests_cant": "infinite sums over all counts for a continuum of parameters", "anchors": ["pymc_extras/distributions/discrete.py:GeneralizedPoisson"]}
{"id": "C183", "title": "Simulated and forecast trajectories have the model's mean but not its covariance", "statement": "A trajectory drawn by the simulator (unconditional sampling and forecasting) has at every date the mean the model implies. Its covariance is the model's recursion plus an extra term, because the initial state and the first innovations are drawn from the same state of the random generator and so reuse the same standard normal numbers. With no more states than shocks and series together, the covariances are right at all dates exactly if T0 L_P E L_Q' R0' plus its transpose is zero; for the local level model started from variance v the variance at every later date is too large by 2 sqrt(v q). A forecast row is the same row of the trajectory without its initial row.", "quantifier": "all system matrices (also time-varying), initial means and covariances, matrix factors, lengths, dates, and all generators producing uncorrelated numbers of mean 0 and variance 1", "why_tests_cant": "a test compares a few sampled paths with a tolerance; the covariance is a statement about all draws and all parameter values", "anchors": ["pymc_extras/statespace/filters/distributions.py:_LinearGaussianStateSpace.rv_op", "pymc_extras/statespace/core/statespace.py:PyMCStateSpace.forecast", "pymc_extras/statespace/core/statespace.py:PyMCStateSpace._sample_unconditional"]}
{"id": "C184", "title": "Averaged forecasts are best linear predictions from the data known at the start date", "statement": "For a model with constant matrices and fully recorded data, averaging the forecast draws gives, at every horizon, a value that is an affine function of the observations known at the start (up to the start date for filtered starts and for smoothed starts at the last date; before the start date for predicted starts), whose error has mean zero, is uncorrelated with those observations, follows the forecast-error covariance recursion from the reported start covariance, and has the smallest mean square error of all affine functions of them; the same for the series. The spread of the draws is that error covariance plus T^h (W + W') T^h'. A smoothed start before the last date uses later observations, so the default forecast of a date inside the sample depends on the value it forecasts.", "quantifier": "all processes following the model (no normality assumed) none of whose observations is determined by the earlier ones (e.g. positive definite H; also H = 0 with enough shocks), all system matrices, all sample lengths, start dates, horizons, filter outputs, states and series", "why_tests_cant": "optimality is a comparison with all affine predictors for all processes; tests only check shapes and a few sampled values", "anchors": ["pymc_extras/statespace/core/statespace.py:PyMCStateSpace.forecast", "pymc_extras/statespace/filters/distributions.py:_LinearGaussianStateSpace.rv_op", "pymc_extras/statespace/filters/kalman_filter.py:BaseFilter.build_graph", "pymc_extras/statespace/filters/kalman_smoother.py:KalmanSmoother.build_graph"]}
{"id": "C185", "title": "Conditional samples are right date by date but are not trajectories", "statement": "sample_conditional_prior/posterior draws at every date states with the mean and covariance of the filter output and observations with mean Z x and covariance Z P Z' + H. Draws at different dates are uncorrelated for every model, and the observation draws are uncorrelated with the state draws of the same date. In a process that follows the model, the deviations of neighbouring states from their smoothed values have covariance P_filtered T' P_predicted^-1 P_smoothed, which is positive at every date for every local level model; so functions of more than one date (differences, sums, maxima) of the sampled 'trajectories' have the wrong distribution.", "quantifier": "all system matrices, data, filter outputs, dates, generators of uncorrelated numbers; for the comparison all processes following the model (none of whose observations is determined by the earlier ones (e.g. positive definite H; also H = 0 with enough shocks)) with no state intercept", "why_tests_cant": "tests check shapes and per-date averages; the dependence between dates is a property of the joint distribution", "anchors": ["pymc_extras/statespace/core/statespace.py:PyMCStateSpace._sample_conditional", "pymc_extras/statespace/filters/distributions.py:SequenceMvNormal.rv_op", "pymc_extras/statespace/filters/kalman_smoother.py:KalmanSmoother.build_graph"]}
{"id": "C186", "title": "The SARIMA likelihood is the exact Gaussian likelihood of the ARMA process", "statement": "For a SARIMA model without differencing whose autoregressive roots lie outside the unit circle, in either representation, with stationary initialisation and with or without measurement error, the log-likelihoods the filter reports add up, for every complete sample, to the Gaussian log-density of the sample with mean zero and covariance matrix gamma(|s-t|) (plus the measurement error variance on the diagonal), where gamma(k) = sigma_state^2 * sum_m psi_m psi_(m+k) and psi is the power series theta(B)Theta(B^S)/(phi(B)Phi(B^S)). That matrix is nonsingular and the series converge. For all models with fixed matrices the autocovariance of lag k under the stationary initialisation is the sum of the products of the responses Z T^m R.", "quantifier": "all orders p, q, P, Q, S accepted by the constructor, all coefficients with stationary autoregressive part, all sigma_state different from 0, all sigma_obs, all sample sizes and data", "why_tests_cant": "an identity between an algorithm and a closed form for all orders, coefficients and sample sizes; tests compare a handful of models with statsmodels", "anchors": ["pymc_extras/statespace/models/SARIMAX.py:BayesianSARIMA.make_symbolic_graph", "pymc_extras/statespace/models/SARIMAX.py:BayesianSARIMA._stationary_initialization", "pymc_extras/statespace/filters/kalman_filter.py:BaseFilter.build_graph"]}
{"id": "C187", "title": "The VARMA likelihood is the joint Gaussian density of the stationary vector process", "statement": "For a VARMAX model whose autoregressive lag matrix is singular only outside the unit circle, with positive definite shock covariance and stationary initialisation, with or without measurement error, the shock responses are the moving-average matrices Psi (Psi_0 = 1, Psi_m = sum A_l Psi_(m-l) + M_m), which are unique, and the log-likelihoods the filter reports add up, for every complete sample, to the Gaussian log-density of the whole sample with mean zero and autocovariances Gamma(k) = sum_m Psi_(m+k) Q Psi_m' (sigma_obs, not its square, added to the variances) plus (k-1)/2*log(2*pi) per date, k the number of series.", "quantifier": "all numbers of series, orders p and q, coefficient matrices with roots outside, positive definite shock covariances, nonnegative sigma_obs, sample sizes and data", "why_tests_cant": "an identity between an algorithm and a closed form for all orders, coefficients and sample sizes", "anchors": ["pymc_extras/statespace/models/VARMAX.py:BayesianVARMAX.make_symbolic_graph", "pymc_extras/statespace/filters/kalman_filter.py:BaseFilter.build_graph"]}
{"id": "C188", "title": "The univariate filter is optimal for diagonal H, with any missing data and without invertibility", "statement": "With constant matrices and a diagonal measurement covariance (zeros allowed), for almost every realisation the univariate filter returns numbers for every positive jitter, and up to an error at most proportional to the jitter its predicted and filtered states are the best affine predictions of the state from the entries recorded before, respectively up to, the date, and its covariances are those of the errors — for any pattern of NaN entries, and even when observations are exact linear combinations of earlier ones. It reads only the diagonal of H: off-diagonal entries never change its output, and with perfectly correlated errors its filtered state is not the best prediction.", "quantifier": "all numbers of states, series and shocks, all constant matrices with diagonal H, all NaN patterns, all square-integrable processes following the model, all dates", "why_tests_cant": "optimality compares with every affine function of the recorded data, for every process and every pattern of missing entries", "anchors": ["pymc_extras/statespace/filters/kalman_filter.py:UnivariateFilter._univariate_inner_filter_step", "pymc_extras/statespace/filters/kalman_filter.py:UnivariateFilter.kalman_step", "pymc_extras/statespace/filters/kalman_filter.py:BaseFilter.build_graph", "pymc_extras/statespace/filters/kalman_filter.py:BaseFilter._postprocess_scan_results"]}
{"id": "C189", "title": "For normal models the filter and smoother outputs are the conditional distributions", "statement": "If the initial state, the state shocks and the measurement errors are jointly normal and follow the model's equations, and no date's observations are determined by the past, then (run without jitter on fully observed data) for almost every realisation: the conditional distribution of the state given the earlier observations is normal with the reported predicted mean and covariance; given the observations up to its own date it is normal with the filtered mean and covariance; the conditional distribution of the next observation is normal with the reported observed_states forecast and covariance; and given the whole sample it is normal with the smoothed mean and covariance (no state intercept, constant transition).", "quantifier": "every probability space, every normal process, all (time-varying) system matrices, every sample length and date, every fill value", "why_tests_cant": "Conditional distributions on a continuous space are defined almost everywhere; no finite sample determines them.", "anchors": ["pymc_extras/statespace/filters/kalman_filter.py:BaseFilter.build_graph", "pymc_extras/statespace/filters/kalman_filter.py:StandardFilter.update", "pymc_extras/statespace/filters/kalman_smoother.py:KalmanSmoother.build_graph"]}
{"id": "C190", "title": "The likelihood is the density of the data", "statement": "For a normal process that follows the model, the law of the first N dates of data has a Lebesgue density. For a single series the density at a sample is the exponential of the sum of the per-date log-likelihoods the filter returns. For k series it is that value divided by (2 pi)^(N (k-1)/2): the returned likelihood integrates to (2 pi)^(N (k-1)/2) over all samples, so it is a probability density exactly when k = 1 (or N = 0).", "quantifier": "every normal process, all system matrices, every number of series, every N, every fill value", "why_tests_cant": "An identity of measures on R^(N k), and an integral over all samples.", "anchors": ["pymc_extras/statespace/filters/kalman_filter.py:StandardFilter.update", "pymc_extras/statespace/filters/distributions.py:sequence_mvnormal_logp"]}
{"id": "C191", "title": "With missing data the limits are conditional distributions given the recorded entries", "statement": "For normal models with any pattern of missing entries, the best affine prediction given the recorded entries and its error covariance are the mean and covariance of the conditional distribution given those entries, which is normal. Hence as the jitter vanishes the standard filter (positive definite H, errors of missing entries uncorrelated with those of recorded ones) and the univariate filter (diagonal, possibly singular H) report the conditional distributions given what was recorded before, and up to, each date.", "quantifier": "every normal process, every missing-data pattern, all dates and lengths, jitter tending to zero", "why_tests_cant": "A limit statement about conditional distributions for every pattern of missing data.", "anchors": ["pymc_extras/statespace/filters/kalman_filter.py:BaseFilter.handle_missing_values", "pymc_extras/statespace/filters/kalman_filter.py:UnivariateFilter"]}
{"id": "C192", "title": "When prior_from_idata works, and what distribution it gives", "statement": "prior_from_idata fails with LinAlgError exactly when some non-trivial linear combination of the requested scalars (on their transformed scale) is constant over the draws: always with as few draws as scalars, always for an untransformed vector with constant sum such as a simplex; it then leaves the model untouched. Otherwise it succeeds iff base and result names are new, distinct and the dims accepted, and the new variables are the back-transforms of a jointly normal vector in which every linear combination has as mean and variance the average and the sample variance of the same combination over the draws. An empty request does nothing; an unknown variable is an error.", "quantifier": "all traces, shapes, transforms, numbers of draws, requests, models and linear combinations", "why_tests_cant": "the distributional statement ranges over all traces and all linear combinations; failure depends on exact rank", "anchors": ["pymc_extras/utils/prior.py:prior_from_idata", "pymc_extras/utils/prior.py:_mean_chol", "pymc_extras/utils/prior.py:_mvn_prior_from_flat_info"]}
{"id": "C193", "title": "The SARIMA likelihood is the density of the stationary solution of the ARMA equation", "statement": "Let y be a two-sided series with bounded second moments that satisfies phi(B) Phi(B^S) y_t = theta(B) Theta(B^S) eps_t almost surely at every date, for independent normal shocks of non-zero standard deviation, with autoregressive roots outside the unit circle, observed exactly or with independent normal errors. Then for either state-space form, every sample length and fill value, the exponential of the log-likelihood reported under the stationary initialisation is the Lebesgue density of the data. Such a series exists for all orders and all such parameters.", "quantifier": "all orders (including seasonal), all parameters with roots outside the circle, all such processes on any probability space, both state-space forms, all sample lengths", "why_tests_cant": "An identity of measures on R^N for every N and every process with these properties.", "anchors": ["pymc_extras/statespace/models/SARIMAX.py:make_symbolic_graph", "pymc_extras/statespace/filters/kalman_filter.py:StandardFilter.update"]}
{"id": "C194", "title": "The stationary initialisation is the law of a process without beginning", "statement": "Take any bounded normal process that has followed the transition equation of a stable model at every date, past and future (no first date). Seen from date 0 on it is a process whose initial mean and covariance are exactly the ones the stationary initialisation computes; hence the density of its data is the exponential of the reported log likelihood, up to the constant of C190. Such processes exist for every stable model with positive semidefinite covariances.", "quantifier": "every stable model (all dimensions), every two-sided normal process with bounded second moments following it, every sample length and fill value", "why_tests_cant": "A test can simulate a long burn-in and compare sample moments; that the start is exactly the law of the process without beginning is a statement about limits in mean square for all models.", "anchors": ["/repo/pymc_extras/statespace/models/SARIMAX.py:make_symbolic_graph", "/repo/pymc_extras/statespace/models/VARMAX.py:make_symbolic_graph", "/repo/pymc_extras/statespace/filters/kalman_filter.py:StandardFilter.update"]}
{"id": "C195", "title": "The VARMA likelihood is, up to the C190 factor, the density of the stationary solution of the vector ARMA equation", "statement": "For all orders and all coefficients whose autoregressive polynomial has its roots outside the unit circle: if a vector series y solves y_t = sum A_l y_{t-l} + e_t + sum B_l e_{t-l} at all integer dates with bounded second moments, normal white shocks with positive definite covariance and optional measurement error, then the density of N observed dates is exp(reported log likelihood) divided by (2 pi)^(N (k-1)/2), where the log likelihood is the filter's for the matrices the model builds with stationary initialisation. Such series exist.", "quantifier": "every number of series k>0, every p, q, every coefficient array with stable roots, every positive definite shock covariance, every optional non-negative measurement error, every N", "why_tests_cant": "The repository's tests compare with statsmodels on a few orders; the identity with the density of the difference equation's stationary solution is over all orders, coefficients and data.", "anchors": ["/repo/pymc_extras/statespace/models/VARMAX.py:make_symbolic_graph", "/repo/pymc_extras/statespace/filters/kalman_filter.py:StandardFilter.update"]}
{"id": "C196", "title": "The univariate filter's likelihood is the density of the recorded data, whatever is missing", "statement": "For every normal process that follows the model (constant matrices, diagonal H, zeros allowed) and every pattern of recorded entries none of which is determined by the others, the law of the recorded entries has a Lebesgue density, and for almost every data set the total log-likelihood the univariate filter reports tends to the logarithm of that density as the jitter tends to zero; for complete data it equals it at jitter zero, for any number of series.", "quantifier": "all model matrices with diagonal H, normal processes that follow the model, numbers of series and dates, patterns of missing entries, almost all data sets", "why_tests_cant": "A statement about the law of arbitrarily long data under every missing pattern; a test compares numbers on one data set with another implementation.", "anchors": ["pymc_extras/statespace/filters/kalman_filter.py:UnivariateFilter.kalman_step", "pymc_extras/statespace/filters/kalman_filter.py:UnivariateFilter._univariate_inner_filter_step", "pymc_extras/statespace/filters/kalman_filter.py:BaseFilter.build_graph"]}
{"id": "C197", "title": "The jitter of the fit is forgotten after estimation", "statement": "build_statespace_graph runs the filter with the cov_jitter it is given, so that the likelihood is that of the filter with this jitter; sample_conditional_* and forecast always draw from a filter and a smoother run again with the default jitter, whatever was given at the fit and whatever was called before. So two fits of the same data with different jitters are followed by identical sampled distributions, which differ from those of the fitted model: when the first date has no data the filtered covariances differ by exactly the difference of the jitters times the identity, and with one state and one observed series the first filtered states agree only if the jitters agree or the observation carries no correction.", "quantifier": "every model, data set, pair of jitters and history of fits and samplings on the same model object", "why_tests_cant": "it quantifies over all histories of calls and all data; the default jitter is so small that tests compare with tolerances that hide it", "anchors": ["pymc_extras/statespace/core/statespace.py:build_statespace_graph", "pymc_extras/statespace/core/statespace.py:_kalman_filter_outputs_from_dummy_graph", "pymc_extras/statespace/filters/kalman_filter.py:build_graph"]}
{"id": "C198", "title": "Saved Kalman filter outputs", "statement": "With save_kalman_filter_outputs_in_idata=True (and at least one date) exactly eight variables are added to the model; each holds the sequence its name says: filtered, predicted and observation-forecast means and covariances of the filter run with the fit's jitter, and smoothed means and covariances of a smoother that uses the default jitter instead. Their dims are time and the state or observation axes, axis by axis, unnamed where the model has no such coordinate. The likelihood is unaffected. With no date at all saving fails although the model could be built.", "quantifier": "every model, data set, jitter, set of coordinates", "why_tests_cant": "a swapped pairing of two equally shaped outputs or a wrong dim for some coordinate set is visible only for particular models", "anchors": ["pymc_extras/statespace/core/statespace.py:_register_kalman_filter_outputs_with_pymc_model", "pymc_extras/statespace/core/statespace.py:_build_smoother_graph", "pymc_extras/statespace/utils/constants.py:FILTER_OUTPUT_DIMS"]}
{"id": "C199", "title": "filter_output spelling and sampler keyword arguments", "statement": "forecast works exactly with filter_output 'filtered', 'predicted' and 'smoothed' and then uses the pair it names; other mixtures of upper and lower case of these words pass the validation at the start and raise only after the graph has been rebuilt. Passing compile_kwargs (or var_names) through to the sampler always ends in a TypeError in conditional and unconditional sampling and forecasting; in impulse_response_function a compile mode that is not None and differs from the fit's raises ValueError, any other compile_kwargs raises TypeError, after the caller's dictionary has had its mode overwritten. Keyword arguments with other names go through.", "quantifier": "every string and every collection of keyword arguments", "why_tests_cant": "all strings and all dictionaries are quantified over", "anchors": ["pymc_extras/statespace/core/statespace.py:_validate_filter_arg", "pymc_extras/statespace/core/statespace.py:forecast", "pymc_extras/statespace/core/statespace.py:impulse_response_function", "pymc_extras/statespace/core/statespace.py:_sample_conditional", "pymc_extras/statespace/core/statespace.py:_sample_unconditional"]}
{"id": "C200", "title": "With a factor of the initial covariance, the square-root filter reports conditional distributions", "statement": "Take data from a normal state-space model whose initial covariance is L0 L0^T and none of whose observations is determined by the past, and pass L0 as P0 to the square-root filter without jitter. With probability one all matrix factorisations the filter asks for exist; whichever valid factors the linear-algebra library returns, the predicted, filtered and forecast means and covariances of every date are those of the conditional distributions given the data; and for a single series the total log-likelihood is the logarithm of the Lebesgue density of the data. If instead the covariance P0 itself is passed, as for the other filters, the first reported prediction is the law of the initial state only when P0 P0^T = P0.", "quantifier": "every dimension, every time-varying parameter sequence, every normal process, every date and sample length, every valid result of Cholesky and QR", "why_tests_cant": "A test compares two filters on a few simulated series; that the reported numbers are conditional means and covariances is a statement about all realisations and about measures.", "anchors": ["pymc_extras/statespace/filters/kalman_filter.py: SquareRootFilter.predict, SquareRootFilter.update, SquareRootFilter._postprocess_scan_results"]}
{"id": "C201", "title": "Jitter and generous covariances never make the filter overconfident", "statement": "If the data come from a state-space process and the standard filter is run with the right dynamics (transition, design, selection matrices and intercepts) but with an initial covariance, shock covariance and measurement covariance that are each at least as large as the true ones, with any non-negative covariance jitter and with any fixed pattern of missing entries whose measurement errors are uncorrelated with the recorded ones, then predicted and filtered states and one-step forecasts of the recorded entries have mean-zero errors, and for every linear combination of entries the variance of the error is at most what the reported covariance says (for filtered states and forecasts, at most that minus the jitter). If the process is normal, intervals of z reported standard deviations around the reported values contain the truth at least as often as a standard normal variable falls within z. On complete data, whenever the forecast covariances without jitter are invertible (for example when the measurement covariance is positive definite), running the filter with jitter reports predicted, filtered and forecast covariances that are at least those of the run without jitter, the last two by at least the jitter.", "quantifier": "every process, true parameters and user parameters with covariances at least as large, time-varying or not, every jitter ≥ 0, missing pattern, run length, date, linear combination and z ≥ 0", "why_tests_cant": "The claim is about probabilities over all processes and an order between matrices for all combinations; the bound has to be carried through every date by induction.", "anchors": ["pymc_extras/statespace/filters/kalman_filter.py: StandardFilter.update, BaseFilter.predict, BaseFilter.handle_missing_values, BaseFilter.build_graph", "pymc_extras/statespace/filters/utilities.py: stabilize, quad_form_sym"]}
{"id": "C202", "title": "SARIMAX state names are distinct and say which differences and lags", "statement": "For every order (p,d,q)(P,D,Q)_S the state names of the fast form are exactly: the data and its differences of order below d; for every number of seasonal differences the differenced data with 0..S-1 lags; the fully differenced data; then numbered states, with L0, D0 and the exponent 1 left out. All names of a model are distinct, in both forms. Exception: an exponent whose decimal text starts with 1 loses that digit, so the state of the tenth difference is labelled D10.data, the label of a step-ten difference.", "quantifier": "all orders (with a seasonal length whenever there is a seasonal term), both state structures", "why_tests_cant": "Names are produced by text replacement, which depends on decimal digits of unbounded orders; uniqueness is a statement about all pairs of states of all orders.", "anchors": ["pymc_extras/statespace/models/utilities.py:cleanup_states", "pymc_extras/statespace/models/utilities.py:make_harvey_state_names", "pymc_extras/statespace/models/SARIMAX.py:BayesianSARIMA.state_names"]}
{"id": "C203", "title": "What the named SARIMAX states hold", "statement": "In the fast form with differencing, the state labelled with i ordinary differences, j seasonal ones and r lags holds that difference of the observations r+1 dates before; in particular the state called data is the observation of the previous date and equals the current one only where the data do not move. data_star is the fully differenced data of the same date. In the interpretable form L{k}.data is the observation k dates before and L{k}.innovations the shock that entered k dates before.", "quantifier": "all orders, parameters, initial states, shock sequences, dates late enough for the differences to be defined", "why_tests_cant": "A statement about every trajectory and every order; tests compare names only as strings.", "anchors": ["pymc_extras/statespace/models/utilities.py:make_harvey_state_names", "pymc_extras/statespace/models/utilities.py:make_SARIMA_transition_matrix", "pymc_extras/statespace/models/SARIMAX.py:BayesianSARIMA.state_names"]}
{"id": "C204", "title": "What the lag-labelled states of VARMAX, ETS and autoregressive models hold", "statement": "In the state trajectories returned by the filter, smoother and simulators, the coordinate label of a state tells what the state is. For VARMAX the states labelled x, L1.x, L2.x, ... hold the observation of series x 0, 1, 2, ... dates before, at every date and for all orders; but the states labelled L1.x_innov, L2.x_innov, ... hold the shocks of the observations 0, 1, ... dates before (one lag fewer than the label). For ETS, level, trend and seasonality are the components of the error-correction equations and L{a}.season is the season a dates before, but innovation is the shock scaled by 1 - alpha - gamma. For the autoregressive component of a structural model, L1.data is the current value of the series, L2.data the value one date before, and so on (one lag fewer than the label).", "quantifier": "all numbers of series, orders, parameter values, initial states, shock sequences, dates and state positions", "why_tests_cant": "orders, number of series, parameters and histories are unbounded; tests check only that the number of labels matches", "anchors": ["pymc_extras/statespace/models/VARMAX.py:state_names", "pymc_extras/statespace/models/ETS.py:state_names", "pymc_extras/statespace/models/structural.py:AutoregressiveComponent.populate_component_properties"]}
{"id": "C205", "title": "The mappings of a MarginalModel stay consistent", "statement": "After any history of creating variables, MarginalModel.marginalize and unmarginalize calls, successful or failing part-way: free and observed variables are distinct, exactly they have a value variable (which points back), a transform entry and are found under their own name; exactly the free ones have an initial-value entry; marginalised variables are in none of these mappings. The marginalised clone that logp works with has, at the same positions, a stand-in for every variable with the same name, value variable, transform and initial value, so the inputs of logp do not change; logp(vars=...) returns the terms of the stand-ins in the order asked, and raises KeyError for a marginalised variable. unmarginalize gives a variable a new value variable, the default transform and no initial value (a user's initval is lost), and if another variable has taken its name raises ValueError and loses the variable.", "quantifier": "all models, all sequences of calls, all topological orders and numbers of marginalised variables", "why_tests_cant": "invariant over unbounded histories and graphs", "anchors": ["pymc_extras/model/marginal/marginal_model.py:_delete_rv_mappings", "pymc_extras/model/marginal/marginal_model.py:_transfer_rv_mappings", "pymc_extras/model/marginal/marginal_model.py:_marginalize", "pymc_extras/model/marginal/marginal_model.py:from_model", "pymc_extras/model/marginal/marginal_model.py:logp", "pymc_extras/model/marginal/marginal_model.py:unmarginalize"]}
{"id": "C206", "title": "What predict and predict_posterior return", "statement": "predict returns for each row the average over all chains and draws of the draws that predict_posterior returns for the same data, leaving NaN draws out silently; it lies between the smallest and the largest draw. With combined=True entry c*D+d of the sample axis is draw d of chain c. For a linear model the point prediction contains the average of the drawn noise. If the output variable is missing both raise KeyError, but only after the model's data were replaced and the inference data extended; predict_posterior validates its input first and refuses without change, predict does not validate. predict_proba differs from predict_posterior in the default of combined.", "quantifier": "all samplers, numbers of chains, draws and rows, all data, objects in any state", "why_tests_cant": "all arrays and all object states", "anchors": ["pymc_extras/model_builder.py:predict", "pymc_extras/model_builder.py:predict_posterior", "pymc_extras/model_builder.py:predict_proba", "pymc_extras/model_builder.py:sample_posterior_predictive"]}
{"id": "C207", "title": "The order of series, states and shocks does not matter", "statement": "Listing the hidden states, the observed series or the shocks in a different order (with the data columns, initial state and matrices rearranged accordingly) rearranges the seven filter outputs and the smoother outputs in the same way and changes nothing else; the log-likelihood of every date is the same number, for any jitter, fill value, missing pattern and time-varying matrices.", "quantifier": "all bijections of states, series and shocks, all models, data, missing patterns, jitters, fill values and lengths", "why_tests_cant": "a statement about all permutations of all models and data", "anchors": ["pymc_extras/statespace/filters/kalman_filter.py:StandardFilter.update", "pymc_extras/statespace/filters/kalman_filter.py:handle_missing_values", "pymc_extras/statespace/filters/kalman_smoother.py:smoother_step"]}
{"id": "C208", "title": "Coordinates of the state do not matter, units of the data do only through the jitter", "statement": "Writing the same model in other coordinates of the hidden state and shocks (any invertible matrices) gives the same observation forecasts, forecast covariances and log-likelihoods, and the states and covariances in the new coordinates, for any missing pattern; with positive jitter this holds for orthogonal changes. Re-expressing fully recorded data in other units (A y + k) without jitter leaves the states alone, re-expresses the forecasts and lowers each log-likelihood contribution by log|det A|. With any positive jitter the units of the data change the filtered states.", "quantifier": "all invertible changes of coordinates and units, all models, data and lengths", "why_tests_cant": "universal over matrices, models and data", "anchors": ["pymc_extras/statespace/filters/kalman_filter.py:StandardFilter.update", "pymc_extras/statespace/filters/kalman_filter.py:predict", "pymc_extras/statespace/filters/utilities.py:stabilize"]}
{"id": "C209", "title": "Two unrelated models stacked into one are filtered separately", "statement": "If all matrices and the initial covariance are block diagonal, the filter outputs of the stacked model are those of the two models side by side, whatever is missing in either. The log-likelihood of a date is the sum of the two plus ½ log 2π (the constant is subtracted once per date, not per series), zero if nothing is recorded, and where only one model records something, its value minus ½(k log jitter + |d|²/jitter) for the k masked series of the other.", "quantifier": "all pairs of models with invertible forecast covariances, all data, missing patterns, jitters and lengths", "why_tests_cant": "universal over pairs of models and missing patterns", "anchors": ["pymc_extras/statespace/filters/kalman_filter.py:StandardFilter.update", "pymc_extras/statespace/filters/kalman_filter.py:handle_missing_values"]}
{"id": "C210", "title": "Rows with nothing recorded are forecasts", "statement": "Appending dates on which nothing is recorded leaves every earlier output unchanged and appends the model's own forecasts: predicted and filtered means follow m → T m + c, covariances V → T (V + jitter·1) T' + R Q R' from the last filtered law (in closed form for constant matrices), and log-likelihood contributions are zero; the reported observation forecasts of those dates are however d alone with covariance jitter·1, not d + Z m.", "quantifier": "all models, data, gap lengths and positive jitters", "why_tests_cant": "any number of appended rows, any data before them", "anchors": ["pymc_extras/statespace/filters/kalman_filter.py:handle_missing_values", "pymc_extras/statespace/filters/kalman_filter.py:predict", "pymc_extras/statespace/filters/kalman_filter.py:_postprocess_scan_results"]}
{"id": "C211", "title": "The order in which structural components are added does not matter", "statement": "Adding the same structural components in any other order gives the same model up to the order of its states and shocks: there is one rearrangement of the states such that for every initial covariance (rearranged accordingly), data set, missing pattern, jitter and fill value the log-likelihoods, observation forecasts and their covariances are identical and all state outputs are the same numbers rearranged.", "quantifier": "all finite lists of components of any sizes, all their permutations, all data and initial covariances", "why_tests_cant": "any number and kind of components, any permutation and any data", "anchors": ["pymc_extras/statespace/models/structural.py:Component.__add__", "pymc_extras/statespace/models/structural.py:Component._combine_statespace_representations", "pymc_extras/statespace/filters/kalman_filter.py:StandardFilter.update"]}
{"id": "C212", "title": "The Laplace approximation is exact for normal posteriors, but off-centre in the unconstrained space", "statement": "If the log-posterior is a positive definite quadratic function of untransformed parameters, fit_laplace's point, mean and covariance are those of the posterior and its draws are draws from the posterior (plus diag_jitter on the variances). If the posterior is exactly normal N(m, V) in the unconstrained space and some parameters are on the log scale (positive parameters by default), fit_in_unconstrained_space=True reports covariance V but mean m - V 1_J (J: the parameters on the log scale), because the point is found without the Jacobian and the curvature is taken with it; the draws then never have the posterior distribution. For one log-normal parameter with log-variance v all draws are too small by the factor exp(-v); fitted in the constrained space, some draws are negative.", "quantifier": "every dimension, mean, covariance, choice of the parameters on the log scale, tolerance below the nonzero curvatures, pseudo-inverse and eigenvector routine", "why_tests_cant": "The existing tests compare one or two fits with loose tolerances; exactness of a distribution and its failure for every transformed model are statements about all posteriors", "anchors": ["pymc_extras/inference/laplace.py:fit_mvn_to_MAP", "pymc_extras/inference/laplace.py:fit_laplace", "pymc_extras/inference/laplace.py:sample_laplace_posterior", "pymc_extras/inference/find_map.py:find_MAP"]}
{"id": "C213", "title": "Marginalising, sampling and recovering reproduces the original posterior, one variable at a time", "statement": "Draw the other parameters from the posterior of the marginalised model and, at every draw, recover one marginalised variable: the pair (parameters, value) then has exactly the joint posterior distribution of the original model (any further marginalised variables summed out), for every set of parameter values and every set of values of the variable. Two variables recovered in the same call are drawn independently given the parameters, so their pairs do not follow their joint posterior: in a model where exactly one of x and y is one, the impossible pair (0, 0) is returned with probability 3/16.", "quantifier": "every model with discrete variables of the supported families and any other parameters (with any reference measure), every set of marginalised variables for which the library finds all the terms that depend on the recovered one (C101 shows when it does not), every measurable event of parameters and values", "why_tests_cant": "the claim is an identity of distributions over continuous parameters and all events; a test compares a few Monte Carlo averages", "anchors": ["pymc_extras/model/marginal/marginal_model.py: MarginalModel.recover_marginals", "pymc_extras/model/marginal/distributions.py: finite_discrete_marginal_rv_logp"]}
{"id": "C214", "title": "The univariate filter: jitter is measurement error, and the order of the series does not matter", "statement": "On a complete row the univariate filter with cov_jitter j conditions the state on the data exactly as if j had been added to the measurement error variance of every series (correlations of the errors dropped), and then adds j once more to the variances of the filtered state. With a positive jitter and non-negative error variances its filtered and predicted means and covariances are the same whatever the order of the series, at every date and with any entries missing. Its log-likelihood is not: a series' log 2π is counted only if its term log F + v²/F is not exactly zero, and for a state with variance 1/2 seen by two series with error variances 1/2 and 1, both observed at their forecasts, the two orders differ by ½ log 2π.", "quantifier": "all numbers of states and series, all permutations, all constant matrices with non-negative error variances, all data, missing patterns, jitters and lengths", "why_tests_cant": "a test compares two orders of one data set up to a tolerance; the claim is for all orders, models and missing patterns", "anchors": ["pymc_extras/statespace/filters/kalman_filter.py: UnivariateFilter._univariate_inner_filter_step, UnivariateFilter.kalman_step"]}
{"id": "C215", "title": "The univariate filter is never overconfident when its variances are generous", "statement": "Let the data follow the state-space equations, with measurement errors that may be correlated, and let the univariate filter be given the right dynamics, initial and shock covariances at least as large as the true ones, and measurement variances which, put on a diagonal with cov_jitter added, exceed the true error covariance in the matrix order. Any fixed entries may be missing if the jitter is positive. Then the run never fails, its reported covariances do not depend on the data, the errors of the predicted and filtered states have mean zero, and no combination of them has a variance above the reported one (for filtered states even with the jitter taken off). For normal processes intervals of z reported standard deviations contain the truth at least as often as a standard normal variable falls into [-z, z]. The condition on the variances is needed: given the true parameters of a process with positively correlated errors, complete data and no jitter, the filter can report a variance smaller than that of its error.", "quantifier": "all state-space processes, all constant parameters covering them, all missing patterns, jitters, lengths, dates and combinations of states", "why_tests_cant": "the claim is about probabilities over all processes and about every combination of states; a test estimates a few coverages of one model", "anchors": ["pymc_extras/statespace/filters/kalman_filter.py: UnivariateFilter._univariate_inner_filter_step, UnivariateFilter.kalman_step, UnivariateFilter.handle_missing_values"]}
{"id": "C216", "title": "More data and smaller variances never increase the univariate filter's reported uncertainty; the standard filter's they can", "statement": "Run the univariate filter twice on constant matrices, with the same transition, design, selection and jitter, the second time with initial covariance, shock covariance and measurement variances that are not larger and with everything recorded the first time still recorded. Then no reported predicted or filtered variance, of any combination of states at any date, is larger the second time, whatever the numbers, intercepts and initial means. The standard filter has this property on complete data without jitter (non-singular error covariance, matrices may vary over time). With any positive jitter it has not: for a state observed without error, tripling a prior variance equal to the jitter lowers the reported filtered variance; and for a state seen exactly by one series, recording a second, noisy series can raise it.", "quantifier": "all pairs of parameter sets and missing patterns ordered as described, all data, jitters, lengths, dates and combinations of states; for the counterexamples all positive jitters", "why_tests_cant": "the ordering must hold for every pair of models and every missing pattern; a test compares a few", "anchors": ["pymc_extras/statespace/filters/kalman_filter.py: UnivariateFilter.kalman_step, StandardFilter.update, BaseFilter.build_graph"]}
{"id": "C217", "title": "When the state can be tracked from what is recorded, the reported covariances settle and the start is forgotten", "statement": "Let the matrices be constant, always the same series missing, and the jitter positive (or nothing missing and all measurement variances positive). Let the state be tracked: with some fixed gain using only the recorded series, the errors of the past die out; this is so exactly if every deviation of the state that the recorded series never show dies out by itself, and exactly if every mode of the transition that does not die out moves some recorded series. Without jitter let the shocks also reach every mode of the transition that does not die out. Both hold for every stable transition, and also for, e.g., a level and slope with shocks. Then the univariate filter's predicted and filtered covariances converge; the limits do not depend on the initial mean, on the initial covariance or on the data, and the limit of the predicted ones is the only covariance a date leaves unchanged. Conversely, if they converge from one start the state is tracked. The condition on the shocks is needed: for a state that doubles without shocks the reported variances stay at 0 or at 3 if started there. For a random walk (shock variance q) seen with noise (variance h) the limit is (q + sqrt(q^2+4qh))/2. Two runs on the same data with the same initial covariance but different initial means have predicted states whose difference tends to zero. Started from a known state (zero covariance) the predicted covariances never decrease, tracked or not; started from the stationary initialisation of a stable transition, complete data and no jitter, they never increase. On complete data without jitter, and with a non-singular error covariance, the standard filter's predicted covariances converge to one limit for every start too.", "quantifier": "all constant matrices as described, all jitters, initial means and covariances, data and missing patterns that do not change over time", "why_tests_cant": "the claim is about a limit as the number of dates grows, and about all starts at once; a test looks at a finite run from a few starts", "anchors": ["pymc_extras/statespace/filters/kalman_filter.py: UnivariateFilter.kalman_step, StandardFilter.update, BaseFilter.predict, BaseFilter.build_graph"]}
{"id": "C218", "title": "Long simulations and forecasts end in the stationary distribution; impulse responses end at the stationary mean", "statement": "Let the matrices be constant and the transition stable. As the number of steps grows, mean and covariance of the last simulated state tend to those of the stationary initialisation, whatever the initial mean and covariance (so the numbers shared by initial state and first shocks, C183, are forgotten). The same holds for forecast draws as the horizon grows, whatever the data, the start date and the filter output started from; the mean of the forecast series tends to d + Z times the stationary mean. The filter's own forecasts for appended dates on which nothing is recorded have the right limiting mean, but their covariance tends to the stationary one plus jitter times the solution of G = TGT' + TT', which is at least TT'. The impulse response to an initial shock tends to the stationary mean (1-T)^(-1) c, so it dies out exactly if the state intercept is zero.", "quantifier": "all constant matrices with a stable transition, all initial means and covariances, data sets, start dates, filter outputs, shocks and positive jitters", "why_tests_cant": "limits as the horizon grows, for every start and every model", "anchors": ["pymc_extras/statespace/filters/distributions.py: _LinearGaussianStateSpace.rv_op", "pymc_extras/statespace/core/statespace.py: PyMCStateSpace.forecast, PyMCStateSpace.impulse_response_function", "pymc_extras/statespace/filters/kalman_filter.py: BaseFilter.handle_missing_values, BaseFilter.predict"]}
{"id": "C219", "title": "Which structural components meet the conditions under which the filter settles", "statement": "From a level-trend component of any order, a time-domain seasonal component of any length, or an autoregressive component with any lags and coefficients, every lasting mode (one that does not die out) moves the observation. The shocks of a level-trend reach every lasting mode exactly if its highest derivative has a shock with a standard deviation that is not zero; the shock of a season or an autoregression always does. A season has no constant mode and a trend no other, so neither hides the other: in a sum without common lasting mode every lasting mode stays visible, and the shocks of a sum reach every lasting mode if those of both parts do; a mode hidden in one part stays hidden in every sum. A cycle longer than 2, dampened or not, and a frequency-domain season with fewer than s/2 harmonics also show every lasting mode and, with a shock, reach it. A season with exactly s/2 harmonics, the default for an even length, hides one: added to any model with measurement errors, with a jitter, or with a shock (and the rest reaching its lasting modes), the reported predicted covariances converge for no start and no data. Hence a trend whose highest derivative has a shock, plus a season with a shock, plus a stable autoregression, plus measurement errors, filtered on complete data with any jitter, has predicted and filtered covariances that converge, to the same limits for every start and all data.", "quantifier": "all orders of the trend, choices of innovations, standard deviations, season lengths, numbers of harmonics, cycle lengths and dampings, lags, coefficients (stable for the last claim), initial states and covariances, jitters, and complete data sets of any length", "why_tests_cant": "a test fixes one order, one season length and one set of values, and convergence is a statement about infinitely many dates and all starts", "anchors": ["pymc_extras/statespace/models/structural.py: LevelTrendComponent, TimeSeasonality, AutoregressiveComponent, FrequencySeasonality, CycleComponent, MeasurementError, Component.__add__, _combine_statespace_representations", "pymc_extras/statespace/filters/kalman_filter.py: UnivariateFilter"]}
