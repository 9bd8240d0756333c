## 5. Disagreements between code and documentation found while modelling

Each item is a theorem (a negation with a concrete witness, or an exact characterisation) about the property in
brackets, unless it is marked *(read, not modelled)*. They are facts about the pinned commit; the properties in
`properties.jsonl` state what the code really guarantees.

**Filters, smoother, likelihood.** Likelihood constants of the filters differ (C05, C08): with k > 1 series the total is off by
(k−1)/2·log 2π per date, and every missing series adds −½(log j + d²/j) for jitter j. The univariate filter rejects or
misreads time-varying matrices (C10). The smoother ignores c and the user's cov_jitter (C14, C15). Optimality of the
filter and smoother is exact only with jitter 0 and complete data, and with missing data only in the limit j → 0 when H has no
covariance between missing and recorded series (C169). Custom missing_fill_value and cov_jitter are forgotten in
conditional sampling and forecasting (C144, C197), saved smoother outputs use the default jitter (C198), compile_kwargs can never be passed (C199). The square-root filter gives the same laws up to signs of factors (C200); jitter and generous covariances only ever enlarge the reported uncertainty (C201); reading `ssm["initial_state_cov", :]` returns only the first row (C22); ten or more repeated differences are mislabelled in SARIMAX state names (C202), and the fast form's states named `data`, `D1.data`, ... hold the values of the previous date (C203); the "single" filter check is dead (C143); fill value (C25).

**Simulation, forecast, conditional samples.** The initial observation omits d (C17); the end of a forecast is exclusive (C20).
Simulated trajectories have the right mean and the wrong covariance, because x0, y0 and the first shocks use the same
generator numbers (C183). Forecast draws have the best linear predictor as mean, but a smoothed start (the default)
before the last date looks ahead, a predicted start ignores the last observation, and the spread is off (C184).
Conditional samples have the right marginal at every date but dates are drawn independently, so draws are not trajectories
(C185), and d is omitted (C78). A scenario dictionary or frame is changed in place, also when the call fails; a list of
lists is flattened; column order is never fixed (C82, C174, C175).

**Univariate filter.** Off-diagonal measurement covariances are ignored, which is harmless only for generous variances (C215); with a diagonal one it is optimal under any NaN pattern
(C188). **Exact likelihoods.** For one series exp(log-likelihood) is a probability density; for several
series it is not normalised, by an explicit constant factor per date (C190). The univariate filter's value is properly normalised, whatever is missing (C196), but depends on the order of the series when a term is exactly zero (C214). With jitter the standard filter can report less uncertainty for a vaguer start and more for more data; the univariate filter cannot (C216). With stationary initialisation SARIMA and VARMA are filtered with their true autocovariances (C186,
C187), and exp of the reported value is the Lebesgue density of the stationary solution of the ARMA equation (C193); for VARMA likewise, up to the factor of C190 (C195); the stationary start is the law of the process without beginning (C194).

**Model building.** A named PyMC model always fails (C140); the "excess" and missing-exog errors are unreachable (C138, C141);
failed builds leave stale matrices (C139); matrix_names=None raises for models with a parameter called "P0" or "x0" (C168);
time-varying c or d can never be added (C167); state extraction tests only the last axis (C166).

**SARIMAX, VARMAX, ETS, structural.** Trend polynomial (C32), state names (C38), parameter tables of the interpretable SARIMAX, of VARMAX's sigma_obs, of ETS's
initial_seasonal and of the structural components (C145–C150). Nothing checks stability in the stationary
initialisation: an unstable parameter gives a negative initial variance (C170–C173); with differencing I−T is singular (C96). VARMAX `L{n}.x_innov` and autoregressive `L{n}.data` labels count one lag too
many, ETS `innovation` is the scaled shock (C204); fast SARIMAX states are one date late (C203). With a non-zero state intercept impulse responses do not return to zero (C218).

**Marginalisation and reparametrisation.** C44, C45, C48, C49, C99–C106; variables recovered in one call are drawn independently (C213); a custom initval is lost by unmarginalize (C205); support axes use the wrong rank (C165); vip_reparametrize silently drops
the observation of an observed variable (C176); as_model (C57).

**Distributions.** C60 (truncate boundary), C61 (default weights), C62 (GEV logcdf), C155–C159 (state space distributions and
compile_statespace), C177/C178 (batched Markov chains always refused or wrong), C181/C182 (generalised Poisson), histogram
C70, C131, C132; prior_from_idata raises LinAlgError for a simplex and for as few draws as scalars (C192); R2D2M2CP default weights all one *(read, not modelled)*.

**Inference.** Laplace: Hessian at a permuted point (C121), discrete variables (C122, C123), single-parameter models (C124),
labels and return_raw (C125), requested Hessian dropped (C126), semidefinite Hessian (C66), the unconstrained fit
centred away from the posterior's mean (C212). SMC: NaN exponent stops the loop
(C67), reversed warning (C127), default kernel parameters always KeyError (C128), particle shapes (C129), attributes (C130).
fit() with an unknown method returns None (C161).

**Gaussian processes, numerics.** C68 and C134 (Karhunen–Loève), C133 (projected process), C136 (splines), C117–C120 (conjugate gradients and
pivoted Cholesky).

**ModelBuilder, printing.** C53, C54 (save/load, id), C55 (sampler_config overridden), C160 (LinearModel), C179/C180 (fit pairs rows by position but
stores them by label; predict leaves its inputs in the model), C206 (KeyError only after the object changed; NaN draws skipped; predict does not validate), C151–C154 (truncated tables).
