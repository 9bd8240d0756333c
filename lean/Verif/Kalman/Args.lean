import Mathlib.Data.List.Basic
import Mathlib.Data.List.Nodup
import Mathlib.Tactic.FinCases

/-!
How static and time-varying parameters reach the filter step: translation of `filters/utilities.py` and of
`BaseFilter.unpack_args`/`build_graph` and `KalmanSmoother.unpack_args`/`build_graph`. Tensors are opaque values of
a type `V`; only the number of dimensions, the static value and the slices along the first axis matter.
-/

namespace Verif.Kalman.Args

/-- A symbolic tensor: its `ndim`, the value it has as a whole, and its slices along axis 0.
pymc_extras/statespace/filters/utilities.py:8-29 -/
structure Tensor (V : Type*) where
  ndim : ℕ
  whole : V
  slices : List V

/-- `VECTOR_VALUED`. pymc_extras/statespace/utils/constants.py:17 -/
def vectorValued : List String := ["initial_state", "state_intercept", "obs_intercept", "a0", "c", "d"]

/-- `NEVER_TIME_VARYING`. pymc_extras/statespace/utils/constants.py:16 -/
def neverTimeVarying : List String := ["initial_state", "initial_state_cov", "a0", "P0"]

/-- `PARAM_NAMES`. pymc_extras/statespace/filters/kalman_filter.py:22 -/
def paramNames : List String := ["c", "d", "T", "Z", "R", "H", "Q"]

/-- `decide_if_x_time_varies`; `none` is the `ValueError` for a wrong number of dimensions.
pymc_extras/statespace/filters/utilities.py:8-29 -/
def decideTimeVaries {V : Type*} (x : Tensor V) (name : String) : Option Bool :=
  if name ∈ neverTimeVarying then some false
  else if name ∈ vectorValued then
    if x.ndim = 1 ∨ x.ndim = 2 then some (x.ndim = 2) else none
  else
    if x.ndim = 2 ∨ x.ndim = 3 then some (x.ndim = 3) else none

/-- The four lists built by `split_vars_into_seq_and_nonseq`. pymc_extras/statespace/filters/utilities.py:32-47 -/
structure Split (V : Type*) where
  seqs : List (Tensor V)
  nonSeqs : List (Tensor V)
  seqNames : List String
  nonSeqNames : List String

/-- `split_vars_into_seq_and_nonseq` (the appends of the loop become conses in front of the recursive result).
pymc_extras/statespace/filters/utilities.py:32-47 -/
def splitVars {V : Type*} : List (Tensor V × String) → Option (Split V)
  | [] => some ⟨[], [], [], []⟩
  | (x, name) :: rest =>
    match decideTimeVaries x name, splitVars rest with
    | some true, some s => some { s with seqs := x :: s.seqs, seqNames := name :: s.seqNames }
    | some false, some s => some { s with nonSeqs := x :: s.nonSeqs, nonSeqNames := name :: s.nonSeqNames }
    | _, _ => none

/-- The `t`-th slices of a list of tensors, if all are long enough.
`pytensor.scan` over sequences, pymc_extras/statespace/filters/kalman_filter.py:224-232 -/
def slicesAt {V : Type*} : List (Tensor V) → ℕ → Option (List V)
  | [], _ => some []
  | x :: xs, t =>
    match x.slices[t]?, slicesAt xs t with
    | some v, some vs => some (v :: vs)
    | _, _ => none

/-- What `pytensor.scan` passes to the inner function at step `t`: the `t`-th slice of every sequence (data first), the
carried values, then the non-sequences; `none` if some sequence is too short.
pymc_extras/statespace/filters/kalman_filter.py:224-232 -/
def scanArgs {V : Type*} (lead : List V) (carried : List V) (s : Split V) (t : ℕ) : Option (List V) :=
  (slicesAt s.seqs t).map fun sl => lead ++ sl ++ carried ++ s.nonSeqs.map Tensor.whole

/-- The look-up loop of `unpack_args`: by name in `seq_names`, else in `non_seq_names`.
pymc_extras/statespace/filters/kalman_filter.py:131-140 -/
def reorder {V : Type*} (names seqNames nonSeqNames : List String) (seqs nonSeqs : List V) : Option (List V) :=
  match names with
  | [] => some []
  | name :: rest =>
    match (if name ∈ seqNames then seqs[seqNames.idxOf name]? else nonSeqs[nonSeqNames.idxOf name]?),
      reorder rest seqNames nonSeqNames seqs nonSeqs with
    | some v, some vs => some (v :: vs)
    | _, _ => none

/-- `BaseFilter.unpack_args` (`k = 1` leading argument `y`) and `KalmanSmoother.unpack_args` (`k = 2` leading arguments
`a`, `P`); two carried values. With no sequences the arguments are returned as they are.
pymc_extras/statespace/filters/kalman_filter.py:110-142,
pymc_extras/statespace/filters/kalman_smoother.py:27-64 -/
def unpackArgs {V : Type*} (k : ℕ) (names : List String) (s : Split V) (args : List V) : Option (List V) :=
  let nSeq := s.seqNames.length
  if nSeq = 0 then some args
  else
    let lead := args.take k
    let rest := args.drop k
    let seqs := rest.take nSeq
    let carried := (rest.drop nSeq).take 2
    let nonSeqs := rest.drop (nSeq + 2)
    (reorder names s.seqNames s.nonSeqNames seqs nonSeqs).map fun r => lead ++ carried ++ r

/-- `add_check_on_time_varying_shapes`: every time-varying tensor must have as many slices as there are data rows.
pymc_extras/statespace/filters/kalman_filter.py:76-108 -/
def shapesOk {V : Type*} (nData : ℕ) (s : Split V) : Prop := ∀ x ∈ s.seqs, x.slices.length = nData

end Verif.Kalman.Args
