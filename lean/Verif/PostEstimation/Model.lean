import Verif.Kalman.Model
import Verif.Smoother.Model

/-!
# What is run again after estimation: translation of parts of `statespace/core/statespace.py`

`build_statespace_graph`, `_build_smoother_graph`, `_kalman_filter_outputs_from_dummy_graph`, the registration of saved
filter outputs, the choice of `filter_output` in `forecast` and the keyword arguments handed on to
`pm.sample_posterior_predictive`.  The filter is the standard one.  Registration of the data (and with it
`missing_fill_value`, see `Verif.Registry`) is left out: the data here are the registered ones and the fill value is
the default everywhere.  The system matrices at the parameter values of one posterior draw are given as a function of
the date (constant for static ones).
-/

set_option autoImplicit false

open Matrix

namespace Verif.PostEstimation

open Verif.Kalman

variable {n p r : Type} [Fintype n] [Fintype p] [Fintype r] [DecidableEq n] [DecidableEq p] [DecidableEq r]

/-- `JITTER_DEFAULT` and `MISSING_FILL`. pymc_extras/statespace/utils/constants.py:19-20 -/
structure Defaults where
  jitter : ℝ
  fill : ℝ

/-- The initial state and the system matrices at one parameter value, `unpack_statespace`.
pymc_extras/statespace/core/statespace.py:334-346 -/
structure System (n p r : Type) where
  a0 : n → ℝ
  P0 : Matrix n n ℝ
  θ : ℕ → Kalman.Params n p r

/-- The rows of the filter's scan: the data with the matrices of their dates.
pymc_extras/statespace/filters/kalman_filter.py:213-226 -/
def System.rows (M : System n p r) (data : List (Row p)) : List (Row p × Kalman.Params n p r) :=
  data.zip ((List.range data.length).map M.θ)

/-- The matrices the smoother receives. pymc_extras/statespace/core/statespace.py:940-944, 1049-1051 -/
def System.smoothParams (M : System n p r) (data : List (Row p)) : List (Smoother.Params n r) :=
  (List.range data.length).map fun t => ⟨(M.θ t).T, (M.θ t).R, (M.θ t).Q⟩

/-- The attributes of the model object that these functions read or write: the data of the last fit and the jitters
stored on the filter and on the smoother by their last `build_graph`.
pymc_extras/statespace/core/statespace.py:860; filters/kalman_filter.py:202-204; filters/kalman_smoother.py:69-70 -/
structure Obj (p : Type) where
  fitData : Option (List (Row p))
  filterJitter : Option ℝ
  smootherJitter : ℝ

/-- `BaseFilter.build_graph`: an absent `cov_jitter` is replaced by the default, the value is stored on the filter and
read from there by every step. pymc_extras/statespace/filters/kalman_filter.py:197-238 -/
noncomputable def filterGraph (D : Defaults) (M : System n p r) (o : Obj p) (data : List (Row p)) (jitter : Option ℝ) :
    Obj p × FilterOut n p :=
  let o' := { o with filterJitter := some (jitter.getD D.jitter) }
  (o', Kalman.buildGraph (o'.filterJitter.getD 0) D.fill M.a0 M.P0 (M.rows data))

/-- `KalmanSmoother.build_graph`: the jitter is stored on the smoother and read from there by every step; `none` when
there are no data (`filtered_states[-1]` fails). pymc_extras/statespace/filters/kalman_smoother.py:66-105 -/
noncomputable def smootherGraph (D : Defaults) (M : System n p r) (o : Obj p) (data : List (Row p))
    (states : List (n → ℝ)) (covs : List (Matrix n n ℝ)) (jitter : ℝ) :
    Obj p × Option (List ((n → ℝ) × Matrix n n ℝ)) :=
  let o' := { o with smootherJitter := jitter }
  (o', Smoother.buildGraph o'.smootherJitter D.jitter (states.zip covs) (M.smoothParams data))

/-- A value registered in the model: a sequence of state vectors, observation vectors or matrices.
pymc_extras/statespace/core/statespace.py:771-795 -/
inductive Val (n p : Type) where
  | states (xs : List (n → ℝ))
  | obs (xs : List (p → ℝ))
  | stateCovs (xs : List (Matrix n n ℝ))
  | obsCovs (xs : List (Matrix p p ℝ))

/-- A `pm.Deterministic`: name, value, dims. pymc_extras/statespace/core/statespace.py:795 -/
structure Det (n p : Type) where
  name : String
  val : Val n p
  dims : List (Option String)

/-- `FILTER_OUTPUT_DIMS`. pymc_extras/statespace/utils/constants.py:62-71 -/
def filterOutputDims : List (String × List String) :=
  [("filtered_state", ["time", "state"]),
   ("smoothed_state", ["time", "state"]),
   ("predicted_state", ["time", "state"]),
   ("filtered_covariance", ["time", "state", "state_aux"]),
   ("smoothed_covariance", ["time", "state", "state_aux"]),
   ("predicted_covariance", ["time", "state", "state_aux"]),
   ("predicted_observed_state", ["time", "observed_state"]),
   ("predicted_observed_covariance", ["time", "observed_state", "observed_state_aux"])]

/-- `state_names`. pymc_extras/statespace/core/statespace.py:778-783 -/
def stateNames : List String :=
  ["filtered_state", "predicted_state", "predicted_observed_state", "smoothed_state"]

/-- `cov_names`. pymc_extras/statespace/core/statespace.py:784-789 -/
def covNames : List String :=
  ["filtered_covariance", "predicted_covariance", "predicted_observed_covariance", "smoothed_covariance"]

/-- `_register_kalman_filter_outputs_with_pymc_model`: the first four outputs are the states, the rest the covariances;
they are paired with the names in order; a dim that is not a coordinate of the model becomes `None`. A name without
entry in the table would make the comprehension fail (`none`).
pymc_extras/statespace/core/statespace.py:771-795 -/
def registerOutputs (coords : List String) (outputs : List (Val n p)) : Option (List (Det n p)) :=
  let states := outputs.take 4
  let covs := outputs.drop 4
  ((states ++ covs).zip (stateNames ++ covNames)).mapM fun vn =>
    (filterOutputDims.lookup vn.2).map fun dimNames =>
      ⟨vn.2, vn.1, dimNames.map fun d => if d ∈ coords then some d else none⟩

/-- What a fit leaves in the user's model: the mean, covariance and log-likelihood sequences of the observed variable
and the saved filter outputs. pymc_extras/statespace/core/statespace.py:867-900 -/
structure Fit (n p : Type) where
  mus : List (p → ℝ)
  covs : List (Matrix p p ℝ)
  logp : List ℝ
  saved : List (Det n p)

/-- `build_statespace_graph(data, cov_jitter, save_kalman_filter_outputs_in_idata)`. The smoother of the saved outputs
is called through `_build_smoother_graph`, whose own `cov_jitter` default is used.
pymc_extras/statespace/core/statespace.py:798-901, 903-951 -/
noncomputable def buildStatespaceGraph (D : Defaults) (coords : List String) (M : System n p r) (o : Obj p)
    (data : List (Row p)) (covJitter : Option ℝ) (save : Bool) : Obj p × Option (Fit n p) :=
  let o := { o with fitData := some data }
  let (o, f) := filterGraph D M o data covJitter
  if save then
    let (o, s) := smootherGraph D M o data f.filteredStates f.filteredCovs D.jitter
    (o, s.bind fun s =>
      (registerOutputs coords
        [.states f.filteredStates, .states f.predictedStates, .obs f.observedStates, .states (s.map Prod.fst),
         .stateCovs f.filteredCovs, .stateCovs f.predictedCovs, .obsCovs f.observedCovs,
         .stateCovs (s.map Prod.snd)]).map fun saved =>
        ⟨f.observedStates, f.observedCovs, f.loglike, saved⟩)
  else
    (o, some ⟨f.observedStates, f.observedCovs, f.loglike, []⟩)

/-- Mean and covariance sequences of one kind of output. pymc_extras/statespace/core/statespace.py:1053-1058 -/
abbrev Group (n : Type) := List (n → ℝ) × List (Matrix n n ℝ)

/-- `_kalman_filter_outputs_from_dummy_graph`: filter and smoother are run again, on the data given or else those of
the fit, without passing a jitter to either. No data at all is an error.
pymc_extras/statespace/core/statespace.py:971-1058; the check at 1097-1098 -/
noncomputable def dummyOutputs (D : Defaults) (M : System n p r) (o : Obj p) (given : Option (List (Row p))) :
    Obj p × Option (List (Group n)) :=
  match given.or o.fitData with
  | none => (o, none)
  | some data =>
    let (o, f) := filterGraph D M o data none
    let (o, s) := smootherGraph D M o data f.filteredStates f.filteredCovs D.jitter
    (o, s.map fun s =>
      [(f.filteredStates, f.filteredCovs), (f.predictedStates, f.predictedCovs),
       (s.map Prod.fst, s.map Prod.snd)])

/-- One call on the model object. pymc_extras/statespace/core/statespace.py:798-901, 971-1058 -/
inductive Call (n p r : Type) where
  | fit (coords : List String) (M : System n p r) (data : List (Row p)) (covJitter : Option ℝ) (save : Bool)
  | post (M : System n p r) (given : Option (List (Row p)))

/-- The object after a call. pymc_extras/statespace/core/statespace.py:798-901, 971-1058 -/
noncomputable def Call.after (D : Defaults) (o : Obj p) : Call n p r → Obj p
  | .fit coords M data j save => (buildStatespaceGraph D coords M o data j save).1
  | .post M given => (dummyOutputs D M o given).1

/-! ### Options of `forecast` and keyword arguments of the sampling functions -/

/-- Exceptions. pymc_extras/statespace/core/statespace.py:58-62, 1159-1169, 2024-2025 -/
inductive Err where
  | valueError
  | typeError
  deriving DecidableEq, Repr

/-- `FILTER_OUTPUT_TYPES`. pymc_extras/statespace/utils/constants.py:22 -/
def filterOutputTypes : List String := ["filtered", "predicted", "smoothed"]

/-- `str.lower`, on ASCII letters (other letters occur in none of the accepted values).
pymc_extras/statespace/core/statespace.py:59 -/
def lower (s : String) : String := String.ofList (s.toList.map Char.toLower)

/-- `_validate_filter_arg`. pymc_extras/statespace/core/statespace.py:58-62 -/
def validateFilterArg (s : String) : Except Err Unit :=
  if lower s ∈ filterOutputTypes then .ok () else .error .valueError

/-- `FILTER_OUTPUT_TYPES.index(filter_output)` and the choice of the pair.
pymc_extras/statespace/core/statespace.py:2024-2025 -/
def chooseGroup (s : String) (groups : List (Group n)) : Except Err (Group n) :=
  match filterOutputTypes.idxOf? s with
  | none => .error .valueError
  | some i => match groups[i]? with
    | some g => .ok g
    | none => .error .valueError

/-- `forecast` as far as `filter_output` is concerned: validation at the beginning, the choice of the pair after the
graph has been rebuilt. pymc_extras/statespace/core/statespace.py:1962, 2020-2025 -/
def forecastGroup (s : String) (groups : List (Group n)) : Except Err (Group n) :=
  match validateFilterArg s with
  | .error e => .error e
  | .ok () => chooseGroup s groups

/-- The value of a keyword argument: a dictionary from option to optional string, or something else.
pymc_extras/statespace/core/statespace.py:1159-1169, 2219-2239 -/
inductive KwVal where
  | dict (xs : List (String × Option String))
  | other

/-- Python's call of `pm.sample_posterior_predictive(idata, var_names=…, compile_kwargs=…, random_seed=…, **kwargs)`:
a keyword given twice (or the name of the positional parameter) is a `TypeError`; otherwise the call goes through.
pymc_extras/statespace/core/statespace.py:1159-1169, 1278-1284, 2064-2070, 2233-2239 -/
def samplePP (kwargs : List (String × KwVal)) : Except Err Unit :=
  if kwargs.any fun kv => kv.1 ∈ ["trace", "var_names", "compile_kwargs", "random_seed"] then .error .typeError
  else .ok ()

/-- The sampling step of `sample_conditional_*`, `sample_unconditional_*` and `forecast`: the caller's keyword
arguments are handed on. pymc_extras/statespace/core/statespace.py:1159-1169, 1278-1284, 2064-2070 -/
def sampleStep (kwargs : List (String × KwVal)) : Except Err Unit := samplePP kwargs

/-- `dict.update({"mode": m})` on an association list with that key.
pymc_extras/statespace/core/statespace.py:2231 -/
def setMode (m : Option String) (xs : List (String × Option String)) : List (String × Option String) :=
  xs.map fun kv => if kv.1 = "mode" then ("mode", m) else kv

/-- The sampling step of `impulse_response_function`: the compile mode of the caller is compared with the mode of the
fit, the caller's dictionary is updated in place, and the sampler is called with `compile_kwargs` and the caller's
keyword arguments. Result: the outcome and the caller's dictionary afterwards.
A `compile_kwargs` that is not a dictionary has no `keys` (an error of its own, given as `typeError`).
pymc_extras/statespace/core/statespace.py:2219-2239 -/
def irfSampleStep (fitMode : Option String) (kwargs : List (String × KwVal)) :
    Except Err Unit × Option (List (String × Option String)) :=
  match kwargs.lookup "compile_kwargs" with
  | none => (samplePP kwargs, none)
  | some .other => (.error .typeError, none)
  | some (.dict xs) =>
    match xs.lookup "mode" with
    | none => (samplePP kwargs, some xs)
    | some mode =>
      if mode ≠ none ∧ mode ≠ fitMode then (.error .valueError, some xs)
      else (samplePP kwargs, some (setMode fitMode xs))

end Verif.PostEstimation
