{
"C01": "Model `handle_missing`, `update`, `predict`, `kalman_step`, and the whole scan over a list of rows with per-step matrices (Kalman/Model). Prove by induction over the list that every covariance is `PosSemidef`: congruence and sums of PSD matrices are PSD; Joseph form. Hypothesis on H for partially missing rows is shown necessary by a witness.",
"C02": "Matrix algebra with `Matrix.nonsing_inv`; specification written with the docstring formulas, independent of the model's `K`/Joseph definitions.",
"C03": "Direct computation: W = 0 so Zm = 0, Hm = 0, F = jI invertible, K = 0.",
"C04": "Specification: filter step on the subtype of observed indices. Show F is block structured, invert on the subtype, and compare K v and the covariance.",
"C05": "Specification: multivariate normal log-density as `-(k/2) log 2\u03c0 - \u00bd log det F - \u00bd v\u1d40F\u207b\u00b9v` (and Mathlib's `gaussianPDFReal` for k=1). Characterise the difference exactly.",
"C06": "Induction over the list of series: the information form P\u207b\u00b9-free statement; show after i series the pair (a,P) equals the batch update with the first i rows, using block inversion (Schur complement).",
"C07": "Contract for QR: any R with R\u1d40R = M\u1d40M. Block matrix algebra (`Matrix.fromBlocks`).",
"C08": "k=1 equality by algebra; explicit 2x2 witness for the difference.",
"C09": "Model `split_vars_into_seq_and_nonseq`, scan's argument order and `unpack_args` on lists of named values; prove for all subsets by general list lemmas (no enumeration of values).",
"C10": "Model `split_vars_into_seq_and_nonseq`, scan's argument order and `unpack_args` on lists of named values; prove for all subsets by general list lemmas (no enumeration of values).",
"C11": "Model of the scan as a list recursion; non-interference by induction on the common prefix.",
"C12": "Model of the scan as a list recursion; non-interference by induction on the common prefix.",
"C13": "Model `smoother_step`, `build_graph` as right fold; RTS specification separately; Loewner order via `PosSemidef` of the difference; scan pairing of unequal length reversed sequences as list functions.",
"C14": "Model `smoother_step`, `build_graph` as right fold; RTS specification separately; Loewner order via `PosSemidef` of the difference; scan pairing of unequal length reversed sequences as list functions.",
"C15": "Model `smoother_step`, `build_graph` as right fold; RTS specification separately; Loewner order via `PosSemidef` of the difference; scan pairing of unequal length reversed sequences as list functions.",
"C16": "Model `smoother_step`, `build_graph` as right fold; RTS specification separately; Loewner order via `PosSemidef` of the difference; scan pairing of unequal length reversed sequences as list functions.",
"C17": "Model of the scan in `_LinearGaussianStateSpace.rv_op` with noise sequences as inputs; induction over time.",
"C18": "Model of the scan in `_LinearGaussianStateSpace.rv_op` with noise sequences as inputs; induction over time.",
"C19": "Model `_build_forecast_index` for integer indices with Python range semantics; theorems about lists of integers.",
"C20": "Model `_build_forecast_index` for integer indices with Python range semantics; theorems about lists of integers.",
"C21": "Model of the IRF scan; closed form by induction.",
"C22": "Representation/Model: arrays as shape plus index function, numpy index resolution; Spec.WF store; theorems by case analysis on the slot kind and induction on the index list.",
"C23": "Failing operations return the store they leave behind; case analysis.",
"C24": "Cells as an inductive type, tables as lists of rows; cellwise characterisation.",
"C25": "Model arrays as lists of optional values.",
"C26": "Components as records of block matrices; `fromBlocks` for block_diag; trajectories by induction; names as lists.",
"C27": "Components as records of block matrices; `fromBlocks` for block_diag; trajectories by induction; names as lists.",
"C28": "Components as records of block matrices; `fromBlocks` for block_diag; trajectories by induction; names as lists.",
"C29": "Each component's matrices written as the code writes them (entry functions), dynamics iterated, statement about observations for all t.",
"C30": "Each component's matrices written as the code writes them (entry functions), dynamics iterated, statement about observations for all t.",
"C31": "Each component's matrices written as the code writes them (entry functions), dynamics iterated, statement about observations for all t.",
"C32": "Each component's matrices written as the code writes them (entry functions), dynamics iterated, statement about observations for all t.",
"C33": "Each component's matrices written as the code writes them (entry functions), dynamics iterated, statement about observations for all t.",
"C34": "Each component's matrices written as the code writes them (entry functions), dynamics iterated, statement about observations for all t.",
"C35": "Matrices built by the code's own assignment sequence; lag polynomials as Mathlib `Polynomial`; induction over differencing blocks and lags.",
"C36": "Same model.",
"C37": "Matrices by entries exactly as assigned by the code; recurrences for all t; lag polynomials as Mathlib `Polynomial`; name lists and their lengths.",
"C38": "Matrices by entries exactly as assigned by the code; recurrences for all t; lag polynomials as Mathlib `Polynomial`; name lists and their lengths.",
"C39": "Matrices by entries exactly as assigned by the code; recurrences for all t; lag polynomials as Mathlib `Polynomial`; name lists and their lengths.",
"C40": "Matrices by entries exactly as assigned by the code; recurrences for all t; lag polynomials as Mathlib `Polynomial`; name lists and their lengths.",
"C41": "Probabilities in `ENNReal`, log-probabilities in `EReal`; logsumexp defined by exp/log; `Finset.prod_univ_sum` for batches; induction over chain length for the forward algorithm; softmax normalisation.",
"C42": "Probabilities in `ENNReal`, log-probabilities in `EReal`; logsumexp defined by exp/log; `Finset.prod_univ_sum` for batches; induction over chain length for the forward algorithm; softmax normalisation.",
"C46": "Probabilities in `ENNReal`, log-probabilities in `EReal`; logsumexp defined by exp/log; `Finset.prod_univ_sum` for batches; induction over chain length for the forward algorithm; softmax normalisation.",
"C47": "Probabilities in `ENNReal`, log-probabilities in `EReal`; logsumexp defined by exp/log; `Finset.prod_univ_sum` for batches; induction over chain length for the forward algorithm; softmax normalisation.",
"C43": "A deep embedding of tensor graphs (elementwise, dimshuffle, reduce, index) with shape-indexed semantics and the code's dims analysis; soundness by induction over graphs; permutations as `Equiv.Perm (Fin n)`.",
"C44": "A deep embedding of tensor graphs (elementwise, dimshuffle, reduce, index) with shape-indexed semantics and the code's dims analysis; soundness by induction over graphs; permutations as `Equiv.Perm (Fin n)`.",
"C45": "A deep embedding of tensor graphs (elementwise, dimshuffle, reduce, index) with shape-indexed semantics and the code's dims analysis; soundness by induction over graphs; permutations as `Equiv.Perm (Fin n)`.",
"C48": "Model of the model's variable lists as lists of records; exceptions as `Except` with the mutated state.",
"C49": "Model of the model's variable lists as lists of records; exceptions as `Except` with the mutated state.",
"C50": "Python slices on lists; sum over windows; scan with multiple taps.",
"C51": "Python slices on lists; sum over windows; scan with multiple taps.",
"C52": "JSON-like inductive type for configurations; dictionaries as association lists with Python's insertion-order semantics; the object as a record; sequences of calls as lists of operations.",
"C53": "JSON-like inductive type for configurations; dictionaries as association lists with Python's insertion-order semantics; the object as a record; sequences of calls as lists of operations.",
"C54": "JSON-like inductive type for configurations; dictionaries as association lists with Python's insertion-order semantics; the object as a record; sequences of calls as lists of operations.",
"C55": "JSON-like inductive type for configurations; dictionaries as association lists with Python's insertion-order semantics; the object as a record; sequences of calls as lists of operations.",
"C56": "JSON-like inductive type for configurations; dictionaries as association lists with Python's insertion-order semantics; the object as a record; sequences of calls as lists of operations.",
"C57": "JSON-like inductive type for configurations; dictionaries as association lists with Python's insertion-order semantics; the object as a record; sequences of calls as lists of operations.",
"C58": "JSON-like inductive type for configurations; dictionaries as association lists with Python's insertion-order semantics; the object as a record; sequences of calls as lists of operations.",
"C59": "Mathlib measures: `gaussianReal` under affine maps; exponential via its density/cdf.",
"C60": "Real analysis on the scalar formulas as written, extended reals for -inf.",
"C61": "Real analysis on the scalar formulas as written, extended reals for -inf.",
"C62": "Functions on the reals branch by branch; HasDerivAt, improper integral by the fundamental theorem on half lines, mode by substitution s = t^(-1/xi) and log s <= s - 1.",
"C63": "logp with -inf as a value; algebra of exponentials; certified bounds on e for the two counterexamples.",
"C64": "Model the loop with a fuel counter equal to the iteration limit, prove the residual invariant by induction, characterise the returned iterate as the first to satisfy the stopping test.",
"C65": "Schur-complement invariant over the loop; PSD of Schur complements proved from dot products.",
"C66": "pinv by the Penrose conditions, eig by its documented contract; projection theorem for the PSD cone in the Frobenius inner product; PosDef of the lower-mirrored matrix for numpy's cholesky.",
"C67": "Smc/Model: fuelled while loop with the code's carry; specification by plain iteration of the kernel; invariant on the carry by induction, for every amount of fuel.",
"C68": "Gp/Model keptCount, lastN; characterisation of the first index above the limit; shape failure of the slice [-0:].",
"C69": "matrix algebra over \u211d, Schur complement.",
"C70": "Hist/Model; induction over the bins.",
"C71": "Exact characterisation from the square-root step model.",
"C72": "Model of the univariate step over option-valued rows.",
"C73": "Row of W*H is zero, hence no positive-diagonal factor.",
"C74": "Direct from the scan over series.",
"C75": "Model the generator as a pure source of normals; `init_x_`, `init_y_` and step 0 all receive the same generator.",
"C76": "From the trajectory theorem C17 by index arithmetic.",
"C77": "Case analysis of the option logic.",
"C78": "Compare with the filter step model.",
"C79": "Model of validation and index construction.",
"C80": "Model of validation.",
"C81": "Entry-wise model of `cholesky(Q) / diag(Q)`.",
"C82": "Model of the validation; the condition negates a generator object.",
"C83": "Model of the dictionary branch.",
"C84": "Data/Model: the whole registration pipeline as a function to Except; iff theorem by cases.",
"C85": "Equality of two runs of the registration function.",
"C86": "Model keeps the order setattr before _update_shape; the state after the error is returned.",
"C87": "Symbolic values are stored without a time axis; shapes record one; specify_shape then fails.",
"C88": "Two attribute maps over one shapes dictionary.",
"C89": "List model of the name/slice bookkeeping, induction over the component list.",
"C90": "Same model.",
"C91": "Mutating build as state transformer, induction on m.",
"C92": "Companion-matrix shift lemma.",
"C93": "Lengths and counts of masks.",
"C94": "Lengths and counts of masks.",
"C95": "Direct.",
"C96": "Explicit fixed vector: first state, or all ones on the first seasonal block.",
"C97": "Case analysis of the constructor's branches.",
"C98": "Algebra from C40.",
"C99": "characterise the summed axes by arithmetic on positions; concrete witness against the per-entry grouping specification",
"C100": "run the dimension analysis symbolically; witness with one coin and two contradictory observations",
"C101": "explicit four-variable model; compute the library's answer and the true conditional",
"C102": "run the dimension analysis on the inner graph; witness with two coins",
"C103": "bookkeeping state machine with an invariant preserved by every call",
"C104": "model the argument normalisation of both entry points",
"C105": "dictionaries as heap objects; induction over the list",
"C106": "heap model, induction over the recovered list",
"C107": "model the scan; equate the tail with the greedy chain from the draw; witness of probability zero",
"C108": "Builder/Model.lean step/runCalls; theorem on the last call of any history.",
"C109": "Store as a partial map from names to vectors of logits; loops as folds with exceptions; induction over the keyword list.",
"C110": "Argument dispatch modelled branch by branch with exceptions as values; theorems by case analysis over all optional arguments and vectors.",
"C111": "Laws as measures: push-forward of the gamma measure under sqrt and scaling; change of variables.",
"C112": "Loop with fuel over a vector and a shared counter, log-scale values with -inf and NaN; invariant: log_p, log_s are the logs of pmf and its partial sums; monotonicity makes stopping permanent.",
"C113": "Beta integral from Mathlib's normalised beta density; lower bound (r/(r+p))^r >= e^-p.",
"C114": "Bessel function by its series; termwise comparison with the double Poisson sum; float special values for the zero rate.",
"C115": "Classical induction on the CG recurrences extracted from the modelled loop; Krylov spaces as Submodule.span.",
"C116": "Track the tridiagonal update beside the iterates and use orthogonality of residuals.",
"C117": "Model the broadcasting to n\u00d7n separately and prove a simulation by the single-column model; concrete witness for the wrong answer.",
"C118": "The stopping test requires k \u2265 min(10, max_iter\u22121)-style bounds; unfold and compare with the loop range.",
"C119": "Model the numpy broadcasting rule used at the call.",
"C120": "Model int(min(max_iter, n)) style conversion and its exception as a value.",
"C121": "Model ravel and join_nonshared_inputs on named blocks; induction with indicator values for the converse; stable-partition lemma for find_MAP's key order.",
"C122": "List lemmas on prefix sums, zip with the default variable names.",
"C123": "Same block model.",
"C124": "Model scipy's squeezing of the sample array and numpy's slicing/reshape rules on shapes.",
"C125": "Count labels of the cartesian product against block sizes.",
"C126": "Branch-by-branch model and case analysis.",
"C127": "from C67 diagnostics.",
"C128": "case analysis.",
"C129": "row-major arrays with squeeze, newaxis and indexing; induction over variables.",
"C130": "fold of dictionary updates.",
"C131": "Hist/Props; induction over the bins; witness.",
"C132": "model of np.percentile with linear interpolation; monotone edges from minimum to maximum.",
"C133": "case analysis.",
"C134": "spectral sums over kept indices; Schur complement.",
"C135": "Cox\u2013de Boor recursion; induction over the degree.",
"C136": "Spline/Props.",
"C137": "Registry/Model: object with two registries, exceptions as values. Induction over the call sequence.",
"C138": "Expression trees over leaves, graph_replace(strict) as substitution with the unused and type checks; iff and evaluation lemma.",
"C139": "Static fields are invariant under build; induction over the history.",
"C140": "The name with prefix is compared with the name without; the shortest declared name can never be found.",
"C141": "Order of the three steps in build.",
"C142": "Folds that add variables to a model; composition with C138.",
"C143": "Case analysis.",
"C144": "Uses the data registration model of C24/C84 twice.",
"C145": "Model param_names/info/dims/coords as the literal list and dictionary edits of the code and the registration calls as a list; specification Consistent relates them; prove by lookup lemmas, using C37/C38 for the number of state names.",
"C146": "Same specification as C145; an iff theorem and a per-parameter theorem.",
"C147": "Same specification as C145.",
"C148": "One definition per component; iff theorems; distinctness of generated parameter names by length and letter counting.",
"C149": "Induction over the list with dictionary-update lemmas.",
"C150": "Negative theorems with concrete witnesses over the model of C148/C149.",
"C151": "model_table as a list of rows built by the loop over groups; row content and order by induction over the groups, splitting and joining of text by induction over characters.",
"C152": "explicit form of the whole row list with section marks, by induction over the groups.",
"C153": "the loop's invariant by induction over the arguments, and that splitting on ', ' inverts joining.",
"C154": "dictionary of dims as first-occurrence list; induction over the dims.",
"C155": "arguments as a list of named values; take/drop arithmetic and lookup by name, for all lists of names.",
"C156": "the loop over names as updates of a dictionary; induction over the names.",
"C157": "rows as lists; take/drop lengths.",
"C158": "shape-level model of the axis moves and of the check; list lemmas for arbitrary batch prefixes.",
"C159": "shapes and keyword matching as lists; case analysis.",
"C160": "shape-level model of squeeze and set_data; case analysis over all shapes.",
"C161": "flat layout definitions shared with the Laplace model; induction over the blocks.",
"C162": "Replay the filter in the vector space of square-integrable random variables with covariance as bilinear form; induction over time on orthogonality and error covariance; link to the list model of build_graph; existence of such processes for all PSD matrices shown separately.",
"C163": "From the orthogonality of prediction errors and past data (C162).",
"C164": "Backward induction: the part of the filtered error not explained by the next state's error is uncorrelated with all later states and observations; gain solves its normal equations through positive semidefiniteness.",
"C165": "supportAxes and marginalOutDims follow the two loops; exactness by the completeness of the dims connection, the missed axis by comparing the dim with the number of axes; the wrong value by computing the code's formula with the HMM model and a positive term of the true sum.",
"C166": "Dataset-level model on top of the row-level model of C89 (Structural/Extract); kept/dropped variables, values and labels for all datasets; witnesses for covariances and parameters.",
"C167": "Tensors with static and run-time shapes (Structural/Conform); case analysis on which operand is static.",
"C168": "On top of the rebuilt graph of C142 (Registry/Matrices): registration loop and name lookup, by induction over the matrices and the request.",
"C169": "C04 reduces each step (jitter > 0) to the model without the missing series; continuity of the step in jitter, mean and covariance at an invertible innovation covariance gives convergence of the whole recursion by induction over dates; the limit is the recursion of C162 generalised to a set of series that changes with the date.",
"C170": "Lyapunov equation through the Kronecker system; stability as powers tending to zero, eigenvalue criterion by Gelfand's formula; covariance recursions of the process of C162.",
"C171": "Eigenvectors of the two companion forms by recursion; the product polynomial of C36; C170.",
"C172": "Block-diagonal reduction, row-by-row eigenvector equations; left eigenvector for eigenvalue one for the negative part.",
"C173": "Eigenvectors of the block companion form; C170.",
"C174": "Model with a heap of frames and a mutable dictionary, both returned also on failure (Forecast/Scenario.lean); specification of the numbers supplied apart (Forecast/ScenarioSpec.lean). Invariants of the two loops by induction over the entries, histories by induction over the calls.",
"C175": "Case analysis on the first entry in the model of C174; a witness for order dependence.",
"C176": "A model is a list of nodes in dependency order, its posterior a fold of bind/withDensity; prove the first marginal of the new fold equals the old fold by induction, each step by C59 and measurability of the kernels.",
"C177": "Model the axis counts, the batched scan and the broadcasting of the initial term; induction on steps and chains.",
"C178": "Model the loop that builds dimcats and the checks; induction on the list of variables with a separate owner function.",
"C179": "Model labelled data, concat(axis=1), fit, save, load with posteriors represented by what they are conditioned on; prove the round trip and its converse with a position-revealing target.",
"C180": "State machine over the object with induction on histories.",
"C181": "Law of the loop as nested binds of Poisson measures; strong induction on the count with the binomial theorem; extinction probability by its fixed point; normalisation as a corollary. Array program: invariant over passes.",
"C182": "Size-biased recursion H(v) = 1 + lam H(v+lam), bounded partial sums and uniqueness of bounded solutions; the same for the second moment.",
"C183": "Extend the simulation model (C17/C18) by a generator modelled as a stream of numbers; express each row as a linear function of the stream and compute mean and covariance in the space of square-integrable random variables; compare with any process obeying the model equations.",
"C184": "Compose the filter model, the smoother model and the simulation model (C183) into one function from data to draws; carry the orthogonality facts of C162/C164 ahead by induction on the horizon; compare with any affine predictor; a two-observation local level for the look-ahead.",
"C185": "Model the scan over dates with its generator, compute the joint second moments of all draws, and compare with the smoothing errors of a process (extending C164 to neighbouring dates).",
"C186": "Generic: C170 sum of past shocks gives the series for Z T^k P0 Z' (absolute convergence by Cauchy-Schwarz in Q); Sarima: a pulse as shock in C35's equation gives the recursion of psi, power series cancellation; C163 with the undetermined-observations criterion gives the likelihood.",
"C187": "As C186, with matrix responses: a pulse in one series inserted into C39's equation, C173 for stability, C163 for the total.",
"C188": "Run of the univariate filter replayed in L2: after each scalar observation the error is uncorrelated with everything read so far and has the carried covariance (a zero-variance innovation is null by Cauchy-Schwarz); the estimate stays in the span of the constant and the entries read. Evaluation at a realisation commutes with the replay. Counterexample for correlated errors.",
"C189": "Gaussian process of sources; everything is affine in them; uncorrelated implies independent; conditional law of known plus independent part; link to the second-moment theorems C162-C164.",
"C190": "Lebesgue density of the multivariate normal by change of variables; C163 expresses the summed terms by the joint covariance matrix.",
"C191": "Bridge from BestAffine (C169, C188) to conditional laws via the tools of C189.",
"C192": "`Builder/PriorLaw.lean` models the remaining functions (np.linalg.cholesky by its specification); `Builder/PriorLawProps.lean`: positive definiteness of the sample covariance by rank, law via affine images of independent normals.",
"C193": "L2 approach: the lag polynomial acts on bounded families in L2; its inverse power series has square summable coefficients, so the truncated moving average converges to y in L2; limits of Gaussian vectors are Gaussian; covariances are the autocovariances of C186, whose likelihood theorem then gives the density.",
"C194": "Iterate the transition equation k dates back, use stability to send the remainder to zero in L2, identify the limit's second moments with the Lyapunov solution, then apply C190; construct a process from independent normals as the limit of the moving-average sums.",
"C195": "Stack current values, past values and past shocks; show the stack follows the model's transition, apply C194; non-degeneracy of the data from the positive definite shock entering the current values.",
"C196": "Replay the univariate run on coordinate functions of the data and on square integrable random variables; both replays read the same numbers. The scalar forecasts depend on earlier entries only, their errors are uncorrelated with everything read before, and a normal vector's density is the product of the error densities through a unit triangular change of variables. The program is within O(jitter) of the replay; the set where a term is exactly zero (C06) is null.",
"C197": "Verif/PostEstimation: the object's attributes are explicit state, calls are steps; induction over histories; the difference from C03 and an explicit one-dimensional update.",
"C198": "Verif/PostEstimation: the pairing of outputs, names and dims is computed by the model and compared with a specification by name and by kind of value.",
"C199": "Verif/PostEstimation: branch-by-branch model of the checks; Python's duplicate-keyword rule.",
"C200": "Verif/Kalman/SqrtGaussian.lean: existence of valid factors by induction over the rows; C07 relates the run to the standard filter; C189/C190 give the laws and the density.",
"C201": "Errors are written as elements of L2; the covariance recursion of the actual gain (Joseph form) is compared with the reported recursion by induction, using that congruence preserves the semidefinite order. Intervals: an affine image of jointly normal sources with smaller variance. Jitter against no jitter: the exact gain minimises the Joseph form.",
"C202": "Model text replacement on character lists; compute the cleaned list against an index-to-name specification by block lemmas; distinctness by parsing labels (first character, digit runs, occurrences of D).",
"C203": "Induction on the number of differences with the modelled transition matrix (as for C35), names from C202.",
"C204": "Index the flattened label lists by (block, series) and combine with the lag lemmas behind C39, C40, C75: state k*b+i of VARMAX is the observation b dates before; the equations of C40 restated with the states at the labelled positions instead of existentially; the wrong labels proved right iff successive shocks (values) coincide.",
"C205": "variables as objects with mutable names and the eight mappings as functions; consistency is an invariant of delete, transfer, register and clone; the marginalisation loop by induction over the order with a stand-in function composed step by step",
"C206": "the sampler is an arbitrary function of model data and stored groups; averages as finite sums, stacking by the product-index equivalence",
"C207": "Relabelling as submatrix by equivalences; each operation (masking, gain, inverse, determinant, pseudo-inverse) commutes with it; induction over the scan (Verif/Kalman/Relabel.lean).",
"C208": "Conjugation of one step, induction over the scan; a concrete one-state model for the jitter (Verif/Kalman/Units.lean).",
"C209": "Block-diagonal algebra for one step, induction over the scan (Verif/Kalman/Blocks.lean).",
"C210": "The missing-row step (C03) iterated; list decomposition of the scan at the last recorded row; closed form by induction on the horizon (Verif/Kalman/Gap.lean).",
"C211": "Sum of components commutative and associative up to relabelling, induction on the permutation, then C207 (Verif/Structural/Order.lean).",
"C212": "Model find_MAP's loss (no Jacobian), the Hessian's loss (Jacobian only with transform_samples), the mean vector and the law of the draws as functions of the log-posterior, with identity and log transforms; the Hessian as iterated derivatives. Prove the change of variables, the Hessian of a quadratic, the unique minimiser by completing the square, and the density of the normal law.",
"C213": "Law of the recovered index as a finite sum of point masses; joint posterior as a normalised sum of measures with density; C42 and C47 give the density identity, integrated over every measurable set; the pair law is a product of measures, evaluated on the C42 example (Verif/Marginal/Posterior.lean).",
"C214": "A jittered scalar update equals an exact update with a larger error variance (the zero-variance flag included, since P z = 0 when z'Pz = 0); sequential equals batch (C06); batch conditioning is invariant under reindexing the series; induction over the rows; the likelihood counterexample is computed (Verif/Kalman/UnivariateOrder.lean).",
"C215": "The masked row equals one batch conditioning with diagonal errors (C214); its gain only reads recorded entries; Joseph form under that gain; the true error under arbitrary gains as a square-integrable process; covariance inequality by induction over dates (Verif/Kalman/UnivariateConservative.lean).",
"C216": "The reported update is the smallest Joseph form over all gains that read only recorded entries; hence monotone in prior, error covariance and recorded set; induction over dates. Counterexamples computed in closed form (Verif/Kalman/MoreData.lean).",
"C217": "Proved in Verif/Kalman/Riccati.lean, SettleProps.lean, Forget.lean and Detect.lean: the covariance recursion is monotone and below every fixed-gain recursion, in particular below that of the tracking gain, whose Lyapunov solution bounds it from above; from zero it increases to a fixed point; at a fixed point the closed loop is stable (an eigenvector of modulus at least 1 would be an eigenvector of the transition that no shock reaches), which squeezes every other start to the same limit; the converse is the same closed-loop lemma. The difference of two predicted states follows the time-varying closed loop, which tends to a stable matrix. Tracked iff the unseen dies out: with unit noise, steering by the observability Gramian (a generalised inverse of it) bounds the variances, so the recursion converges and its limiting gain tracks.",
"C218": "Proved in Verif/Stationary/LongRun.lean from the moment recursions of C183, C184 and the closed form of C210 and C21: affine recursions with a stable matrix tend to their fixed point; the fixed points are those of C170.",
"C219": "Structural/Settle.lean. Specifications Spec.Visible (an eigenvector of T with |z| >= 1 is not mapped to 0 by Z) and Spec.Excited (an eigenvector of T^T with |z| >= 1 is not mapped to 0 by RQR^T), for the component matrices of Structural/Model.lean, any number of states. Trends: neighbouring rows of (T - z)v = 0 differ by one entry, so the entries vanish one after the other; seasons and autoregressions: the companion matrix shifts. Sums: block-diagonal matrices split eigenvectors. The settling claim combines these with C217 through C217_tracked_iff_visible (Kalman/Visible.lean). SettleFreq.lean: a rotation block's modes solve z^2 - 2 z cos + 1 = 0, and cos is injective on (0, pi), so at most one harmonic carries a mode; for 2n = s the block of the last harmonic is -1 and its second state is never observed, so C217_only_if_tracked refutes convergence."
}