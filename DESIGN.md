# Formal model of pymc-experimental (`pymc_extras`) in Lean 4

## 1. Trusted base

* Lean 4.33.0's kernel, and the Mathlib definitions used in theorem statements (matrices, `PosSemidef`,
  `Real.log`, `Real.exp`, `ENNReal`, `EReal`, `gaussianReal`, polynomials, `Finset` sums, `List`).
* Axioms: only `propext`, `Classical.choice`, `Quot.sound` (the three standard ones; `#print axioms` was run on the
  property theorems during development). No axiom is added here, and no compiled evaluation is used.
* The hand translation from Python to Lean: each definition in the model carries the file and lines it translates.
  The translation is what a reader must check; everything after it is checked by the kernel.

## 2. Modelling conventions

* **Shallow and function by function.** One Lean `def` per Python function (or per branch-bearing block of it), same
  branches, same order. Exceptions are values of `Except`; mutation of Python objects is modelled by returning the new
  object; aliasing is modelled where it matters (e.g. `as_model`'s closure dictionary, lists extended in place).
* **Numbers.** PyTensor/NumPy floating point arithmetic is modelled by exact arithmetic over `ℝ` (or any field /
  commutative ring where the statement permits); rounding, overflow, and NaN propagation are not modelled. NaN is
  modelled only as a *missing* marker (`Option`-like), where the code tests for it. `-inf` log-probabilities are
  modelled with `EReal`, probabilities with `ENNReal`, so that zero probabilities are covered.
* **Tensors.** Vectors and matrices are functions on finite index types (`Fin n → ℝ`, `Matrix m n ℝ`). NumPy slices
  with negative bounds are modelled explicitly on `List`s when the slice arithmetic is the point of the property.
* **Library routines** (`solve`, `cholesky`, `qr`, `pinv`, `eig`, samplers) are modelled by their contracts: the
  theorem quantifies over every result satisfying the contract (e.g. every `B` with `BᵀB = AᵀA`), or the routine is
  replaced by the mathematical operation it computes (`F⁻¹`). These contracts are stated in the hypotheses.
* **`pytensor.scan`** is modelled by a fold that feeds sequences, previous outputs and non-sequences to the step
  function in that order; unequal lengths are truncated to the shortest (scan semantics), `go_backwards` reverses each
  sequence before truncation.
* **Random draws** are universally quantified inputs (noise sequences) or exact distributions (measures).

## 3. What is modelled and what is not

Modelled: see the table in section 4 and the citations in each file. Not modelled: PyTensor graph construction,
compilation and rewriting; PyMC's samplers, `Model` internals other than the name/value maps the code here reads;
plotting; xarray/arviz/pandas internals (only the dictionary/group structure and index arithmetic that the code
relies on); netCDF (assumed to be a faithful store of attributes and groups); SHA-256 (an uninterpreted function of the
hashed text); JAX/BlackJAX/SciPy numerical kernels; floating point error.

Layout: `lean/Verif/<Area>/Model.lean` holds the translation, `Lemmas.lean` helper lemmas, `Props.lean` the property
theorems with witnesses beside them. `Spec.lean`, where present, holds the independent specification.

## 4. Per-property plan

### C01 Filter covariances stay symmetric positive semidefinite

Model `handle_missing`, `update`, `predict`, `kalman_step`, and the whole scan over a list of rows with per-step matrices (Kalman/Model). Prove by induction over the list that every covariance is `PosSemidef`: congruence and sums of PSD matrices are PSD; Joseph form. Hypothesis on H for partially missing rows is shown necessary by a witness.

### C02 The covariance update equals the textbook update

Matrix algebra with `Matrix.nonsing_inv`; specification written with the docstring formulas, independent of the model's `K`/Joseph definitions.

### C03 A completely missing row carries no information

Direct computation: W = 0 so Zm = 0, Hm = 0, F = jI invertible, K = 0.

### C04 A partially missing row is filtered as if the missing series did not exist

Specification: filter step on the subtype of observed indices. Show F is block structured, invert on the subtype, and compare K v and the covariance.

### C05 Likelihood of a row is the Gaussian log-density only for a single observed series

Specification: multivariate normal log-density as `-(k/2) log 2π - ½ log det F - ½ vᵀF⁻¹v` (and Mathlib's `gaussianPDFReal` for k=1). Characterise the difference exactly.

### C06 Sequential (univariate) filtering agrees with batch filtering

Induction over the list of series: the information form P⁻¹-free statement; show after i series the pair (a,P) equals the batch update with the first i rows, using block inversion (Schur complement).

### C07 The square-root filter propagates a valid factor of the same covariances

Contract for QR: any R with RᵀR = MᵀM. Block matrix algebra (`Matrix.fromBlocks`).

### C08 The square-root filter's log-likelihood is right only for one series

k=1 equality by algebra; explicit 2x2 witness for the difference.

### C09 Time-varying matrices reach the filter step under their own names

Model `split_vars_into_seq_and_nonseq`, scan's argument order and `unpack_args` on lists of named values; prove for all subsets by general list lemmas (no enumeration of values).

### C10 The univariate filter scrambles time-varying arguments

Model `split_vars_into_seq_and_nonseq`, scan's argument order and `unpack_args` on lists of named values; prove for all subsets by general list lemmas (no enumeration of values).

### C11 Predictions never look ahead

Model of the scan as a list recursion; non-interference by induction on the common prefix.

### C12 Filter outputs are aligned with the data

Model of the scan as a list recursion; non-interference by induction on the common prefix.

### C13 The smoother returns one state per time step and fixes the last one

Model `smoother_step`, `build_graph` as right fold; RTS specification separately; Loewner order via `PosSemidef` of the difference; scan pairing of unequal length reversed sequences as list functions.

### C14 The smoother ignores the state intercept

Model `smoother_step`, `build_graph` as right fold; RTS specification separately; Loewner order via `PosSemidef` of the difference; scan pairing of unequal length reversed sequences as list functions.

### C15 Time-varying matrices are misaligned in the smoother

Model `smoother_step`, `build_graph` as right fold; RTS specification separately; Loewner order via `PosSemidef` of the difference; scan pairing of unequal length reversed sequences as list functions.

### C16 Smoothing never increases uncertainty

Model `smoother_step`, `build_graph` as right fold; RTS specification separately; Loewner order via `PosSemidef` of the difference; scan pairing of unequal length reversed sequences as list functions.

### C17 Simulated and forecast trajectories obey the state-space equations

Model of the scan in `_LinearGaussianStateSpace.rv_op` with noise sequences as inputs; induction over time.

### C18 Trajectory length

Model of the scan in `_LinearGaussianStateSpace.rv_op` with noise sequences as inputs; induction over time.

### C19 Forecast index has the requested length and starts right after the start date

Model `_build_forecast_index` for integer indices with Python range semantics; theorems about lists of integers.

### C20 Forecast `end` is exclusive for integer indices

Model `_build_forecast_index` for integer indices with Python range semantics; theorems about lists of integers.

### C21 Impulse responses are linear in the shock and follow the transition

Model of the IRF scan; closed form by induction.

### C22 Reading back a stored system matrix returns what was stored

Representation/Model: arrays as shape plus index function, numpy index resolution; Spec.WF store; theorems by case analysis on the slot kind and induction on the index list.

### C23 Unknown names, wrong ranks and bad time-varying shapes are rejected before the store changes

Failing operations return the store they leave behind; case analysis.

### C24 Missing-value masking is faithful

Cells as an inductive type, tables as lists of rows; cellwise characterisation.

### C25 Fill-value collisions without NaNs go unnoticed

Model arrays as lists of optional values.

### C26 Component addition superposes observations

Components as records of block matrices; `fromBlocks` for block_diag; trajectories by induction; names as lists.

### C27 Component addition is associative with respect to the combined system

Components as records of block matrices; `fromBlocks` for block_diag; trajectories by induction; names as lists.

### C28 Combining duplicate names

Components as records of block matrices; `fromBlocks` for block_diag; trajectories by induction; names as lists.

### C29 Seasonal dummies sum to zero over a season

Each component's matrices written as the code writes them (entry functions), dynamics iterated, statement about observations for all t.

### C30 Frequency seasonality is periodic

Each component's matrices written as the code writes them (entry functions), dynamics iterated, statement about observations for all t.

### C31 Cycle amplitude is controlled by the dampening factor

Each component's matrices written as the code writes them (entry functions), dynamics iterated, statement about observations for all t.

### C32 Level-trend is a polynomial in time

Each component's matrices written as the code writes them (entry functions), dynamics iterated, statement about observations for all t.

### C33 Regression coefficients stay constant

Each component's matrices written as the code writes them (entry functions), dynamics iterated, statement about observations for all t.

### C34 Autoregressive component satisfies its difference equation

Each component's matrices written as the code writes them (entry functions), dynamics iterated, statement about observations for all t.

### C35 SARIMAX satisfies the SARIMA difference equation

Matrices built by the code's own assignment sequence; lag polynomials as Mathlib `Polynomial`; induction over differencing blocks and lags.

### C36 Seasonal lag polynomials multiply

Same model.

### C37 State names match the state dimension

Matrices by entries exactly as assigned by the code; recurrences for all t; lag polynomials as Mathlib `Polynomial`; name lists and their lengths.

### C38 The interpretable SARIMAX form mislabels states for purely seasonal models

Matrices by entries exactly as assigned by the code; recurrences for all t; lag polynomials as Mathlib `Polynomial`; name lists and their lengths.

### C39 VARMAX satisfies the VARMA difference equation

Matrices by entries exactly as assigned by the code; recurrences for all t; lag polynomials as Mathlib `Polynomial`; name lists and their lengths.

### C40 ETS state space is the innovations form of exponential smoothing

Matrices by entries exactly as assigned by the code; recurrences for all t; lag polynomials as Mathlib `Polynomial`; name lists and their lengths.

### C41 Marginalising a discrete variable sums the joint probability

Probabilities in `ENNReal`, log-probabilities in `EReal`; logsumexp defined by exp/log; `Finset.prod_univ_sum` for batches; induction over chain length for the forward algorithm; softmax normalisation.

### C42 Marginalising several variables commutes with summing over all of them

Probabilities in `ENNReal`, log-probabilities in `EReal`; logsumexp defined by exp/log; `Finset.prod_univ_sum` for batches; induction over chain length for the forward algorithm; softmax normalisation.

### C43 Batch-dimension tracking is sound

A deep embedding of tensor graphs (elementwise, dimshuffle, reduce, index) with shape-indexed semantics and the code's dims analysis; soundness by induction over graphs; permutations as `Equiv.Perm (Fin n)`.

### C44 Reductions over the first batch axis escape the mixing check

A deep embedding of tensor graphs (elementwise, dimshuffle, reduce, index) with shape-indexed semantics and the code's dims analysis; soundness by induction over graphs; permutations as `Equiv.Perm (Fin n)`.

### C45 Batch log-probabilities are aligned for up to two batch axes only

A deep embedding of tensor graphs (elementwise, dimshuffle, reduce, index) with shape-indexed semantics and the code's dims analysis; soundness by induction over graphs; permutations as `Equiv.Perm (Fin n)`.

### C46 HMM marginalisation equals the sum over all state paths

Probabilities in `ENNReal`, log-probabilities in `EReal`; logsumexp defined by exp/log; `Finset.prod_univ_sum` for batches; induction over chain length for the forward algorithm; softmax normalisation.

### C47 Recovered marginals are the exact conditional distribution

Probabilities in `ENNReal`, log-probabilities in `EReal`; logsumexp defined by exp/log; `Finset.prod_univ_sum` for batches; induction over chain length for the forward algorithm; softmax normalisation.

### C48 recover_marginals never rejects unknown names

Model of the model's variable lists as lists of records; exceptions as `Except` with the mutated state.

### C49 marginalize validates its inputs, but a failure part-way leaves earlier variables marginalised

Model of the model's variable lists as lists of records; exceptions as `Except` with the mutated state.

### C50 Markov-chain log-probability is the product of transition probabilities

Python slices on lists; sum over windows; scan with multiple taps.

### C51 Markov chain draws have n_lags + steps entries and start with the initial draw

Python slices on lists; sum over windows; scan with multiple taps.

### C52 Saving and loading a model builder preserves it

JSON-like inductive type for configurations; dictionaries as association lists with Python's insertion-order semantics; the object as a record; sequences of calls as lists of operations.

### C53 Some configurations cannot be loaded back

JSON-like inductive type for configurations; dictionaries as association lists with Python's insertion-order semantics; the object as a record; sequences of calls as lists of operations.

### C54 Model ids ignore configuration keys and field boundaries

JSON-like inductive type for configurations; dictionaries as association lists with Python's insertion-order semantics; the object as a record; sequences of calls as lists of operations.

### C55 fit leaves the stored sampler configuration alone and call-time settings win

JSON-like inductive type for configurations; dictionaries as association lists with Python's insertion-order semantics; the object as a record; sequences of calls as lists of operations.

### C56 Predictions with extend_idata=False leave the stored inference data unchanged

JSON-like inductive type for configurations; dictionaries as association lists with Python's insertion-order semantics; the object as a record; sequences of calls as lists of operations.

### C57 Decorator coords are used only by the first call of a decorated model function

JSON-like inductive type for configurations; dictionaries as association lists with Python's insertion-order semantics; the object as a record; sequences of calls as lists of operations.

### C58 prior_from_idata flattening is a bijection

JSON-like inductive type for configurations; dictionaries as association lists with Python's insertion-order semantics; the object as a record; sequences of calls as lists of operations.

### C59 VIP reparameterisation preserves the prior

Mathlib measures: `gaussianReal` under affine maps; exponential via its density/cdf.

### C60 truncate_lambda rounds as documented except at the boundary

Real analysis on the scalar formulas as written, extended reals for -inf.

### C61 R2D2M2CP prior moments

Real analysis on the scalar formulas as written, extended reals for -inf.

### C62 Generalised extreme value: density, distribution function, mode and a wrong upper tail

Functions on the reals branch by branch; HasDerivAt, improper integral by the fundamental theorem on half lines, mode by substitution s = t^(-1/xi) and log s <= s - 1.

### C63 Generalised Poisson log-probability

logp with -inf as a value; algebra of exponentials; certified bounds on e for the two counterexamples.

### C64 Conjugate gradient: what a returned solution guarantees

Model the loop with a fuel counter equal to the iteration limit, prove the residual invariant by induction, characterise the returned iterate as the first to satisfy the stopping test.

### C65 Pivoted Cholesky returns a lower-bounding factor

Schur-complement invariant over the loop; PSD of Schur complements proved from dot products.

### C66 The Laplace covariance

pinv by the Penrose conditions, eig by its documented contract; projection theorem for the PSD cone in the Frobenius inner product; PosDef of the lower-mirrored matrix for numpy's cholesky.

### C67 SMC loop stops exactly when tempering reaches one and diagnostics match the run

Smc/Model: fuelled while loop with the code's carry; specification by plain iteration of the kernel; invariant on the carry by induction, for every amount of fuel.

### C68 Karhunen–Loève truncation never explains more than the requested share

Gp/Model keptCount, lastN; characterisation of the first index above the limit; shape failure of the slice [-0:].

### C69 Projected process: prior and conditional

matrix algebra over ℝ, Schur complement.

### C70 Integer histogram approximation is exact without min_count

Hist/Model; induction over the bins.

### C71 The square-root filter treats the user's P0 as a factor

Exact characterisation from the square-root step model.

### C72 The univariate filter treats the fill value as data

Model of the univariate step over option-valued rows.

### C73 The square-root filter cannot process partially missing rows

Row of W*H is zero, hence no positive-diagonal factor.

### C74 The univariate filter's observation forecast is that of the last series only

Direct from the scan over series.

### C75 Simulated initial state, initial observation and first shock share their randomness

Model the generator as a pure source of normals; `init_x_`, `init_y_` and step 0 all receive the same generator.

### C76 Simulated observations use the previous slice of time-varying observation matrices

From the trajectory theorem C17 by index arithmetic.

### C77 Unconditional sampling with both steps and the data's time dimension always mismatches

Case analysis of the option logic.

### C78 Conditional observation samples omit the observation intercept

Compare with the filter step model.

### C79 Forecasting on the scenario's index still needs periods or end

Model of validation and index construction.

### C80 A valid integer start label may be rejected

Model of validation.

### C81 Orthogonalised impulse-response shocks are not

Entry-wise model of `cholesky(Q) / diag(Q)`.

### C82 Scenario columns are never re-ordered

Model of the validation; the condition negates a generator object.

### C83 Scenario dictionaries are checked for shape but not for completeness

Model of the dictionary branch.

### C84 Data registration accepts exactly the documented inputs

Data/Model: the whole registration pipeline as a function to Except; iff theorem by cases.

### C85 Column names and range indices are ignored

Equality of two runs of the registration function.

### C86 A static matrix of the wrong size is refused only after it is stored

Model keeps the order setattr before _update_shape; the state after the error is returned.

### C87 A symbolic static matrix breaks later slice assignments

Symbolic values are stored without a time axis; shapes record one; specify_shape then fails.

### C88 Copies share recorded shapes with the original

Two attribute maps over one shapes dictionary.

### C89 Component extraction reads each component's own states

List model of the name/slice bookkeeping, induction over the component list.

### C90 A component whose name starts with StateSpace vanishes from the records

Same model.

### C91 Building a component changes it

Mutating build as state transformer, induction on m.

### C92 Where the seasonal pattern starts

Companion-matrix shift lemma.

### C93 Announced and required AR parameter shapes

Lengths and counts of masks.

### C94 Level-trend order masks

Lengths and counts of masks.

### C95 VARMAX sigma_obs is a variance

Direct.

### C96 Stationary initialisation cannot work with differencing

Explicit fixed vector: first state, or all ones on the first seasonal block.

### C97 ETS order strings

Case analysis of the constructor's branches.

### C98 ETS is the component form of exponential smoothing

Algebra from C40.

### C99 Multivariate dependents with extra batch axes are reduced over the wrong axes

characterise the summed axes by arithmetic on positions; concrete witness against the per-entry grouping specification

### C100 Broadcasting a length-one marginalised variable is accepted and marginalised per result entry

run the dimension analysis symbolically; witness with one coin and two contradictory observations

### C101 recover_marginals can return the prior when marginalised variables share dependents

explicit four-variable model; compute the library's answer and the true conditional

### C102 Batched marginalised variables sharing a dependent get a wrong log-probability

run the dimension analysis on the inner graph; witness with two coins

### C103 unmarginalize works by variable, never by name

bookkeeping state machine with an invariant preserved by every call

### C104 MarginalModel.marginalize splits a single name into letters

model the argument normalisation of both entry points

### C105 marginalize() removes dimension names from the original model

dictionaries as heap objects; induction over the list

### C106 recover_marginals moves dimension names back although the variables stay marginalised

heap model, induction over the recovered list

### C107 A Markov chain's support point follows a random draw of the initial distribution

model the scan; equate the tail with the greedy chain from the draw; witness of probability zero

### C108 predict overwrites the fitted model's observed data groups

Builder/Model.lean step/runCalls; theorem on the last call of any history.

### C109 VIP helper store: set/get round trips and failure atomicity

Store as a partial map from names to vectors of logits; loops as folds with exceptions; induction over the keyword list.

### C110 R2D2M2CP argument handling

Argument dispatch modelled branch by branch with exceptions as values; theorems by case analysis over all optional arguments and vectors.

### C111 Chi and Maxwell draws have the documented densities

Laws as measures: push-forward of the gamma measure under sqrt and scaling; change of variables.

### C112 The generalised Poisson inverse sampler inverts the documented cdf

Loop with fuel over a vector and a shared counter, log-scale values with -inf and NaN; invariant: log_p, log_s are the logs of pmf and its partial sums; monotonicity makes stopping permanent.

### C113 Beta negative binomial: logp is right, the draws are not

Beta integral from Mathlib's normalised beta density; lower bound (r/(r+p))^r >= e^-p.

### C114 Skellam is the difference of two Poisson counts, except for zero rates

Bessel function by its series; termwise comparison with the double Poisson sum; float special values for the zero rate.

### C115 Conjugate gradient optimality

Classical induction on the CG recurrences extracted from the modelled loop; Krylov spaces as Submodule.span.

### C116 The tridiagonal matrix returned by linear_cg is the Lanczos matrix

Track the tridiagonal update beside the iterates and use orthogonality of residuals.

### C117 linear_cg on vectors, guesses and zero right-hand sides

Model the broadcasting to n×n separately and prove a simulation by the single-column model; concrete witness for the wrong answer.

### C118 Iteration limits under which linear_cg must fail

The stopping test requires k ≥ min(10, max_iter−1)-style bounds; unfold and compare with the loop range.

### C119 A preconditioner cannot be used with an n×1 right-hand side

Model the numpy broadcasting rule used at the call.

### C120 pivoted_cholesky iteration limit

Model int(min(max_iter, n)) style conversion and its exception as a value.

### C121 Where the Laplace Hessian is evaluated

Model ravel and join_nonshared_inputs on named blocks; induction with indicator values for the converse; stable-partition lemma for find_MAP's key order.

### C122 Posterior draws are attributed to the right variable

List lemmas on prefix sums, zip with the default variable names.

### C123 find_MAP and discrete variables

Same block model.

### C124 Shapes of Laplace draws

Model scipy's squeezing of the sample array and numpy's slicing/reshape rules on shapes.

### C125 Labels of the Laplace fit group, and return_raw

Count labels of the cartesian product against block sizes.

### C126 Which derivative functions the optimiser receives

Branch-by-branch model and case analysis.

### C127 The SMC diagnostics warning is reversed

from C67 diagnostics.

### C128 Inner kernel arguments of SMC

case analysis.

### C129 Particles survive the trip to BlackJax and back

row-major arrays with squeeze, newaxis and indexing; induction over variables.

### C130 Attributes written by SMC

fold of dictionary updates.

### C131 Where min_count puts removed values

Hist/Props; induction over the bins; witness.

### C132 Quantile histogram: totals, bins and dispatch

model of np.percentile with linear interpolation; monotone edges from minimum to maximum.

### C133 Inducing points of the projected process

case analysis.

### C134 Karhunen–Loève prior and conditional

spectral sums over kept indices; Schur complement.

### C135 B-spline basis

Cox–de Boor recursion; induction over the degree.

### C136 What bspline_interpolation interpolates

Spline/Props.

### C137 Placeholder registration

Registry/Model: object with two registries, exceptions as values. Induction over the call sequence.

### C138 What build_statespace_graph needs from the PyMC model, and what it produces

Expression trees over leaves, graph_replace(strict) as substitution with the unused and type checks; iff and evaluation lemma.

### C139 Builds do not depend on earlier builds

Static fields are invariant under build; induction over the history.

### C140 Named PyMC models cannot be used

The name with prefix is compared with the name without; the shortest declared name can never be found.

### C141 Missing exogenous data

Order of the three steps in build.

### C142 The graph rebuilt after estimation

Folds that add variables to a model; composition with C138.

### C143 Choice of the filter

Case analysis.

### C144 The fill value for missing data is forgotten after estimation

Uses the data registration model of C24/C84 twice.

### C145 SARIMAX announces exactly the parameters it needs

Model param_names/info/dims/coords as the literal list and dictionary edits of the code and the registration calls as a list; specification Consistent relates them; prove by lookup lemmas, using C37/C38 for the number of state names.

### C146 VARMAX announces its parameters, except sigma_obs

Same specification as C145; an iff theorem and a per-parameter theorem.

### C147 ETS announces its parameters, except initial_seasonal of several series

Same specification as C145.

### C148 Each structural component announces its parameters

One definition per component; iff theorems; distinctness of generated parameter names by length and letter counting.

### C149 Sums of consistent components build consistent models

Induction over the list with dictionary-update lemmas.

### C150 Clobbered and missing dimensions of structural models

Negative theorems with concrete witnesses over the model of C148/C149.

### C151 model_table lists every variable once

model_table as a list of rows built by the loop over groups; row content and order by induction over the groups, splitting and joining of text by induction over characters.

### C152 The parameter count in model_table

explicit form of the whole row list with section marks, by induction over the groups.

### C153 Truncation of deterministic expressions

the loop's invariant by induction over the arguments, and that splitting on ', ' inverts joining.

### C154 Dimensions shown by model_table

dictionary of dims as first-occurrence list; induction over the dims.

### C155 Time-varying matrices reach the simulation step under their own names

arguments as a list of named values; take/drop arithmetic and lookup by name, for all lists of names.

### C156 Signature of the state-space distribution

the loop over names as updates of a dictionary; induction over the names.

### C157 States and observations are separated at the right column only for constant matrices

rows as lists; take/drop lengths.

### C158 The filter distribution's log-probability ignores the value

shape-level model of the axis moves and of the check; list lemmas for arbitrary batch prefixes.

### C159 Simulators made by compile_statespace

shapes and keyword matching as lists; case analysis.

### C160 What data LinearModel accepts

shape-level model of squeeze and set_data; case analysis over all shapes.

### C161 Pathfinder samples are reported for the variables they were drawn for

flat layout definitions shared with the Laplace model; induction over the blocks.

### C162 The filter's states are the best linear predictors and its covariances are the true error covariances

Replay the filter in the vector space of square-integrable random variables with covariance as bilinear form; induction over time on orthogonality and error covariance; link to the list model of build_graph; existence of such processes for all PSD matrices shown separately.

### C163 Innovations are white with the reported covariance, and the log-likelihoods add up to the joint log-density

From the orthogonality of prediction errors and past data (C162).

### C164 Smoothed states are the best linear predictors given the whole sample

Backward induction: the part of the filtered error not explained by the next state's error is uncorrelated with all later states and observations; gain solves its normal equations through positive semidefiniteness.

### C165 A marginalised Markov chain hides its time axis from later marginalisations

supportAxes and marginalOutDims follow the two loops; exactness by the completeness of the dims connection, the missed axis by comparing the dim with the number of axes; the wrong value by computing the code's formula with the HMM model and a positive term of the true sum.

### C166 extract_components_from_idata keeps and combines by the length of the last axis

Dataset-level model on top of the row-level model of C89 (Structural/Extract); kept/dropped variables, values and labels for all datasets; witnesses for covariances and parameters.

### C167 Adding components with time-varying matrices

Tensors with static and run-time shapes (Structural/Conform); case analysis on which operand is static.

### C168 sample_statespace_matrices returns the requested matrices or fails by name

On top of the rebuilt graph of C142 (Registry/Matrices): registration loop and name lookup, by induction over the matrices and the request.

### C169 With missing data the filter tends to the best linear filter as the jitter vanishes

C04 reduces each step (jitter > 0) to the model without the missing series; continuity of the step in jitter, mean and covariance at an invertible innovation covariance gives convergence of the whole recursion by induction over dates; the limit is the recursion of C162 generalised to a set of series that changes with the date.

### C170 Stationary initialisation is the stationary distribution of the model

Lyapunov equation through the Kronecker system; stability as powers tending to zero, eigenvalue criterion by Gelfand's formula; covariance recursions of the process of C162.

### C171 SARIMA stationary initialisation is well posed exactly for stationary AR polynomials

Eigenvectors of the two companion forms by recursion; the product polynomial of C36; C170.

### C172 ETS as-if-stationary initial covariance

Block-diagonal reduction, row-by-row eigenvector equations; left eigenvector for eigenvalue one for the negative part.

### C173 VARMAX stationary initialisation is well posed exactly for stationary AR matrices

Eigenvectors of the block companion form; C170.

### C174 Scenario data reach the model unchanged; the caller's dictionary and frames are re-labelled in place

Model with a heap of frames and a mutable dictionary, both returned also on failure (Forecast/Scenario.lean); specification of the numbers supplied apart (Forecast/ScenarioSpec.lean). Invariants of the two loops by induction over the entries, histories by induction over the calls.

### C175 use_scenario_index takes the first entry of the dictionary

Case analysis on the first entry in the model of C174; a witness for order dependence.

### C176 vip_reparametrize preserves the posterior of a whole model

A model is a list of nodes in dependency order, its posterior a fold of bind/withDensity; prove the first marginal of the new fold equals the old fold by induction, each step by C59 and measurability of the kernels.

### C177 Batches of Markov chains

Model the axis counts, the batched scan and the broadcasting of the initial term; induction on steps and chains.

### C178 The Gibbs sampler for Markov chains updates every coordinate once

Model the loop that builds dimcats and the checks; induction on the list of variables with a separate owner function.

### C179 A saved model builder is rebuilt on its training data only if the two indices agree

Model labelled data, concat(axis=1), fit, save, load with posteriors represented by what they are conditioned on; prove the round trip and its converse with a position-revealing target.

### C180 What a model builder is conditioned on after any history of calls

State machine over the object with induction on histories.

### C181 The generalised Poisson branching sampler draws from the documented distribution

Law of the loop as nested binds of Poisson measures; strong induction on the count with the binomial theorem; extinction probability by its fixed point; normalisation as a corollary. Array program: invariant over passes.

### C182 Mean and variance of the generalised Poisson distribution

Size-biased recursion H(v) = 1 + lam H(v+lam), bounded partial sums and uniqueness of bounded solutions; the same for the second moment.

### C183 Simulated and forecast trajectories have the model's mean but not its covariance

Extend the simulation model (C17/C18) by a generator modelled as a stream of numbers; express each row as a linear function of the stream and compute mean and covariance in the space of square-integrable random variables; compare with any process obeying the model equations.

### C184 Averaged forecasts are best linear predictions from the data known at the start date

Compose the filter model, the smoother model and the simulation model (C183) into one function from data to draws; carry the orthogonality facts of C162/C164 ahead by induction on the horizon; compare with any affine predictor; a two-observation local level for the look-ahead.

### C185 Conditional samples are right date by date but are not trajectories

Model the scan over dates with its generator, compute the joint second moments of all draws, and compare with the smoothing errors of a process (extending C164 to neighbouring dates).

### C186 The SARIMA likelihood is the exact Gaussian likelihood of the ARMA process

Generic: C170 sum of past shocks gives the series for Z T^k P0 Z' (absolute convergence by Cauchy-Schwarz in Q); Sarima: a pulse as shock in C35's equation gives the recursion of psi, power series cancellation; C163 with the undetermined-observations criterion gives the likelihood.

### C187 The VARMA likelihood is the joint Gaussian density of the stationary vector process

As C186, with matrix responses: a pulse in one series inserted into C39's equation, C173 for stability, C163 for the total.

### C188 The univariate filter is optimal for diagonal H, with any missing data and without invertibility

Run of the univariate filter replayed in L2: after each scalar observation the error is uncorrelated with everything read so far and has the carried covariance (a zero-variance innovation is null by Cauchy-Schwarz); the estimate stays in the span of the constant and the entries read. Evaluation at a realisation commutes with the replay. Counterexample for correlated errors.

### C189 For normal models the filter and smoother outputs are the conditional distributions

Gaussian process of sources; everything is affine in them; uncorrelated implies independent; conditional law of known plus independent part; link to the second-moment theorems C162-C164.

### C190 The likelihood is the density of the data

Lebesgue density of the multivariate normal by change of variables; C163 expresses the summed terms by the joint covariance matrix.

### C191 With missing data the limits are conditional distributions given the recorded entries

Bridge from BestAffine (C169, C188) to conditional laws via the tools of C189.

### C192 When prior_from_idata works, and what distribution it gives

`Builder/PriorLaw.lean` models the remaining functions (np.linalg.cholesky by its specification); `Builder/PriorLawProps.lean`: positive definiteness of the sample covariance by rank, law via affine images of independent normals.

### C193 The SARIMA likelihood is the density of the stationary solution of the ARMA equation

L2 approach: the lag polynomial acts on bounded families in L2; its inverse power series has square summable coefficients, so the truncated moving average converges to y in L2; limits of Gaussian vectors are Gaussian; covariances are the autocovariances of C186, whose likelihood theorem then gives the density.

### C194 The stationary initialisation is the law of a process without beginning

Iterate the transition equation k dates back, use stability to send the remainder to zero in L2, identify the limit's second moments with the Lyapunov solution, then apply C190; construct a process from independent normals as the limit of the moving-average sums.

### C195 The VARMA likelihood is, up to the C190 factor, the density of the stationary solution of the vector ARMA equation

Stack current values, past values and past shocks; show the stack follows the model's transition, apply C194; non-degeneracy of the data from the positive definite shock entering the current values.

### C196 The univariate filter's likelihood is the density of the recorded data, whatever is missing

Replay the univariate run on coordinate functions of the data and on square integrable random variables; both replays read the same numbers. The scalar forecasts depend on earlier entries only, their errors are uncorrelated with everything read before, and a normal vector's density is the product of the error densities through a unit triangular change of variables. The program is within O(jitter) of the replay; the set where a term is exactly zero (C06) is null.

### C197 The jitter of the fit is forgotten after estimation

Verif/PostEstimation: the object's attributes are explicit state, calls are steps; induction over histories; the difference from C03 and an explicit one-dimensional update.

### C198 Saved Kalman filter outputs

Verif/PostEstimation: the pairing of outputs, names and dims is computed by the model and compared with a specification by name and by kind of value.

### C199 filter_output spelling and sampler keyword arguments

Verif/PostEstimation: branch-by-branch model of the checks; Python's duplicate-keyword rule.

### C200 With a factor of the initial covariance, the square-root filter reports conditional distributions

Verif/Kalman/SqrtGaussian.lean: existence of valid factors by induction over the rows; C07 relates the run to the standard filter; C189/C190 give the laws and the density.

### C201 Jitter and generous covariances never make the filter overconfident

Errors are written as elements of L2; the covariance recursion of the actual gain (Joseph form) is compared with the reported recursion by induction, using that congruence preserves the semidefinite order. Intervals: an affine image of jointly normal sources with smaller variance. Jitter against no jitter: the exact gain minimises the Joseph form.

### C202 SARIMAX state names are distinct and say which differences and lags

Model text replacement on character lists; compute the cleaned list against an index-to-name specification by block lemmas; distinctness by parsing labels (first character, digit runs, occurrences of D).

### C203 What the named SARIMAX states hold

Induction on the number of differences with the modelled transition matrix (as for C35), names from C202.

### C204 What the lag-labelled states of VARMAX, ETS and autoregressive models hold

Index the flattened label lists by (block, series) and combine with the lag lemmas behind C39, C40, C75: state k*b+i of VARMAX is the observation b dates before; the equations of C40 restated with the states at the labelled positions instead of existentially; the wrong labels proved right iff successive shocks (values) coincide.

### C205 The mappings of a MarginalModel stay consistent

variables as objects with mutable names and the eight mappings as functions; consistency is an invariant of delete, transfer, register and clone; the marginalisation loop by induction over the order with a stand-in function composed step by step

### C206 What predict and predict_posterior return

the sampler is an arbitrary function of model data and stored groups; averages as finite sums, stacking by the product-index equivalence

### C207 The order of series, states and shocks does not matter

Relabelling as submatrix by equivalences; each operation (masking, gain, inverse, determinant, pseudo-inverse) commutes with it; induction over the scan (Verif/Kalman/Relabel.lean).

### C208 Coordinates of the state do not matter, units of the data do only through the jitter

Conjugation of one step, induction over the scan; a concrete one-state model for the jitter (Verif/Kalman/Units.lean).

### C209 Two unrelated models stacked into one are filtered separately

Block-diagonal algebra for one step, induction over the scan (Verif/Kalman/Blocks.lean).

### C210 Rows with nothing recorded are forecasts

The missing-row step (C03) iterated; list decomposition of the scan at the last recorded row; closed form by induction on the horizon (Verif/Kalman/Gap.lean).

### C211 The order in which structural components are added does not matter

Sum of components commutative and associative up to relabelling, induction on the permutation, then C207 (Verif/Structural/Order.lean).

### C212 The Laplace approximation is exact for normal posteriors, but off-centre in the unconstrained space

Model find_MAP's loss (no Jacobian), the Hessian's loss (Jacobian only with transform_samples), the mean vector and the law of the draws as functions of the log-posterior, with identity and log transforms; the Hessian as iterated derivatives. Prove the change of variables, the Hessian of a quadratic, the unique minimiser by completing the square, and the density of the normal law.

### C213 Marginalising, sampling and recovering reproduces the original posterior, one variable at a time

Law of the recovered index as a finite sum of point masses; joint posterior as a normalised sum of measures with density; C42 and C47 give the density identity, integrated over every measurable set; the pair law is a product of measures, evaluated on the C42 example (Verif/Marginal/Posterior.lean).

### C214 The univariate filter: jitter is measurement error, and the order of the series does not matter

A jittered scalar update equals an exact update with a larger error variance (the zero-variance flag included, since P z = 0 when z'Pz = 0); sequential equals batch (C06); batch conditioning is invariant under reindexing the series; induction over the rows; the likelihood counterexample is computed (Verif/Kalman/UnivariateOrder.lean).

### C215 The univariate filter is never overconfident when its variances are generous

The masked row equals one batch conditioning with diagonal errors (C214); its gain only reads recorded entries; Joseph form under that gain; the true error under arbitrary gains as a square-integrable process; covariance inequality by induction over dates (Verif/Kalman/UnivariateConservative.lean).

### C216 More data and smaller variances never increase the univariate filter's reported uncertainty; the standard filter's they can

The reported update is the smallest Joseph form over all gains that read only recorded entries; hence monotone in prior, error covariance and recorded set; induction over dates. Counterexamples computed in closed form (Verif/Kalman/MoreData.lean).

### C217 When the state can be tracked from what is recorded, the reported covariances settle and the start is forgotten

Proved in Verif/Kalman/Riccati.lean, SettleProps.lean, Forget.lean and Detect.lean: the covariance recursion is monotone and below every fixed-gain recursion, in particular below that of the tracking gain, whose Lyapunov solution bounds it from above; from zero it increases to a fixed point; at a fixed point the closed loop is stable (an eigenvector of modulus at least 1 would be an eigenvector of the transition that no shock reaches), which squeezes every other start to the same limit; the converse is the same closed-loop lemma. The difference of two predicted states follows the time-varying closed loop, which tends to a stable matrix. Tracked iff the unseen dies out: with unit noise, steering by the observability Gramian (a generalised inverse of it) bounds the variances, so the recursion converges and its limiting gain tracks.

### C218 Long simulations and forecasts end in the stationary distribution; impulse responses end at the stationary mean

Proved in Verif/Stationary/LongRun.lean from the moment recursions of C183, C184 and the closed form of C210 and C21: affine recursions with a stable matrix tend to their fixed point; the fixed points are those of C170.

### C219 Which structural components meet the conditions under which the filter settles

Structural/Settle.lean. Specifications Spec.Visible (an eigenvector of T with |z| >= 1 is not mapped to 0 by Z) and Spec.Excited (an eigenvector of T^T with |z| >= 1 is not mapped to 0 by RQR^T), for the component matrices of Structural/Model.lean, any number of states. Trends: neighbouring rows of (T - z)v = 0 differ by one entry, so the entries vanish one after the other; seasons and autoregressions: the companion matrix shifts. Sums: block-diagonal matrices split eigenvectors. The settling claim combines these with C217 through C217_tracked_iff_visible (Kalman/Visible.lean). SettleFreq.lean: a rotation block's modes solve z^2 - 2 z cos + 1 = 0, and cos is injective on (0, pi), so at most one harmonic carries a mode; for 2n = s the block of the last harmonic is -1 and its second state is never observed, so C217_only_if_tracked refutes convergence.

## 5. Disagreements between code and documentation found while modelling

Each item is a theorem (a negation with a concrete witness, or an exact characterisation) about the property in
brackets, unless it is marked *(read, not modelled)*. They are facts about the pinned commit; the properties in
`properties.jsonl` state what the code really guarantees.

**Filters, smoother, likelihood.** Likelihood constants of the filters differ (C05, C08): with k > 1 series the total is off by
(k−1)/2·log 2π per date, and every missing series adds −½(log j + d²/j) for jitter j. The univariate filter rejects or
misreads time-varying matrices (C10). The smoother ignores c and the user's cov_jitter (C14, C15). Optimality of the
filter and smoother is exact only with jitter 0 and complete data, and with missing data only in the limit j → 0 when H has no
covariance between missing and recorded series (C169). Custom missing_fill_value and cov_jitter are forgotten in
conditional sampling and forecasting (C144, C197), saved smoother outputs use the default jitter (C198), compile_kwargs can never be passed (C199). The square-root filter gives the same laws up to signs of factors (C200); jitter and generous covariances only ever enlarge the reported uncertainty (C201); reading `ssm["initial_state_cov", :]` returns only the first row (C22); ten or more repeated differences are mislabelled in SARIMAX state names (C202), and the fast form's states named `data`, `D1.data`, ... hold the values of the previous date (C203); the "single" filter check is dead (C143); fill value (C25).

**Simulation, forecast, conditional samples.** The initial observation omits d (C17); the end of a forecast is exclusive (C20).
Simulated trajectories have the right mean and the wrong covariance, because x0, y0 and the first shocks use the same
generator numbers (C183). Forecast draws have the best linear predictor as mean, but a smoothed start (the default)
before the last date looks ahead, a predicted start ignores the last observation, and the spread is off (C184).
Conditional samples have the right marginal at every date but dates are drawn independently, so draws are not trajectories
(C185), and d is omitted (C78). A scenario dictionary or frame is changed in place, also when the call fails; a list of
lists is flattened; column order is never fixed (C82, C174, C175).

**Univariate filter.** Off-diagonal measurement covariances are ignored, which is harmless only for generous variances (C215); with a diagonal one it is optimal under any NaN pattern
(C188). **Exact likelihoods.** For one series exp(log-likelihood) is a probability density; for several
series it is not normalised, by an explicit constant factor per date (C190). The univariate filter's value is properly normalised, whatever is missing (C196), but depends on the order of the series when a term is exactly zero (C214). With jitter the standard filter can report less uncertainty for a vaguer start and more for more data; the univariate filter cannot (C216). With stationary initialisation SARIMA and VARMA are filtered with their true autocovariances (C186,
C187), and exp of the reported value is the Lebesgue density of the stationary solution of the ARMA equation (C193); for VARMA likewise, up to the factor of C190 (C195); the stationary start is the law of the process without beginning (C194).

**Model building.** A named PyMC model always fails (C140); the "excess" and missing-exog errors are unreachable (C138, C141);
failed builds leave stale matrices (C139); matrix_names=None raises for models with a parameter called "P0" or "x0" (C168);
time-varying c or d can never be added (C167); state extraction tests only the last axis (C166).

**SARIMAX, VARMAX, ETS, structural.** Trend polynomial (C32), state names (C38), parameter tables of the interpretable SARIMAX, of VARMAX's sigma_obs, of ETS's
initial_seasonal and of the structural components (C145–C150). Nothing checks stability in the stationary
initialisation: an unstable parameter gives a negative initial variance (C170–C173); with differencing I−T is singular (C96). VARMAX `L{n}.x_innov` and autoregressive `L{n}.data` labels count one lag too
many, ETS `innovation` is the scaled shock (C204); fast SARIMAX states are one date late (C203). With a non-zero state intercept impulse responses do not return to zero (C218).

**Marginalisation and reparametrisation.** C44, C45, C48, C49, C99–C106; variables recovered in one call are drawn independently (C213); a custom initval is lost by unmarginalize (C205); support axes use the wrong rank (C165); vip_reparametrize silently drops
the observation of an observed variable (C176); as_model (C57).

**Distributions.** C60 (truncate boundary), C61 (default weights), C62 (GEV logcdf), C155–C159 (state space distributions and
compile_statespace), C177/C178 (batched Markov chains always refused or wrong), C181/C182 (generalised Poisson), histogram
C70, C131, C132; prior_from_idata raises LinAlgError for a simplex and for as few draws as scalars (C192); R2D2M2CP default weights all one *(read, not modelled)*.

**Inference.** Laplace: Hessian at a permuted point (C121), discrete variables (C122, C123), single-parameter models (C124),
labels and return_raw (C125), requested Hessian dropped (C126), semidefinite Hessian (C66), the unconstrained fit
centred away from the posterior's mean (C212). SMC: NaN exponent stops the loop
(C67), reversed warning (C127), default kernel parameters always KeyError (C128), particle shapes (C129), attributes (C130).
fit() with an unknown method returns None (C161).

**Gaussian processes, numerics.** C68 and C134 (Karhunen–Loève), C133 (projected process), C136 (splines), C117–C120 (conjugate gradients and
pivoted Cholesky).

**ModelBuilder, printing.** C53, C54 (save/load, id), C55 (sampler_config overridden), C160 (LinearModel), C179/C180 (fit pairs rows by position but
stores them by label; predict leaves its inputs in the model), C206 (KeyError only after the object changed; NaN draws skipped; predict does not validate), C151–C154 (truncated tables).
