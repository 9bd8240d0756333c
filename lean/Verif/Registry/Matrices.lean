import Verif.Registry.Model

/-!
# `sample_statespace_matrices`: translation of `statespace/core/statespace.py`

What is drawn is described by where it comes from: the expression of a matrix with the labels of its axes, or a variable of
the model that happens to have the requested name.  The evaluation itself (`pm.sample_posterior_predictive`) and
`freeze_dims_and_data` are not modelled.
-/

set_option autoImplicit false

namespace Verif.Registry

/-- The ways it fails. pymc_extras/statespace/core/statespace.py:65-67, 1473-1507 -/
inductive SampleErr
  | badGroup
  | build (e : Err)
  | duplicateName
  | keyError
deriving DecidableEq

/-- `MATRIX_NAMES` with `SHORT_NAME_TO_LONG`. pymc_extras/statespace/utils/constants.py:24-38 -/
def shortLong : List (String × String) :=
  [("x0", "initial_state"), ("P0", "initial_state_cov"), ("c", "state_intercept"), ("d", "obs_intercept"),
   ("T", "transition"), ("Z", "design"), ("R", "selection"), ("H", "obs_cov"), ("Q", "state_cov")]

/-- `MATRIX_DIMS`. pymc_extras/statespace/utils/constants.py:50-60 -/
def matrixDims (short : String) : List String :=
  match short with
  | "x0" => ["state"]
  | "P0" => ["state", "state_aux"]
  | "c" => ["state"]
  | "d" => ["observed_state"]
  | "T" => ["state", "state_aux"]
  | "Z" => ["observed_state", "state"]
  | "R" => ["state", "shock"]
  | "H" => ["observed_state", "observed_state_aux"]
  | "Q" => ["shock", "shock_aux"]
  | _ => []

/-- What a requested name stands for in the new model. pymc_extras/statespace/core/statespace.py:1488-1502 -/
inductive Drawn
  | matrix (e : Expr) (labels : List (Option String))
  | variable (name : String)

/-- The name under which a matrix is registered: the long name if it is requested, else the short one.
pymc_extras/statespace/core/statespace.py:1489-1491 -/
def chosen (req : List String) (p : String × String) : Option String :=
  if p.2 ∈ req then some p.2 else if p.1 ∈ req then some p.1 else none

/-- The labels: names without coordinates become `None`. pymc_extras/statespace/core/statespace.py:1492 -/
def labelsOf (coords : List String) (short : String) : List (Option String) :=
  (matrixDims short).map fun d => if d ∈ coords then some d else none

/-- The loop that registers the requested matrices; `taken` are the names in use.
pymc_extras/statespace/core/statespace.py:1488-1493 -/
def addMatrices (req coords : List String) : List String → List ((String × String) × Expr) →
    Except SampleErr (List (String × Drawn))
  | _, [] => .ok []
  | taken, (p, e) :: rest =>
    match chosen req p with
    | none => addMatrices req coords taken rest
    | some n =>
      if n ∈ taken then .error .duplicateName
      else match addMatrices req coords (n :: taken) rest with
        | .error err => .error err
        | .ok ds => .ok ((n, .matrix e (labelsOf coords p.1)) :: ds)

/-- `model[name]` for one requested name. pymc_extras/statespace/core/statespace.py:1500-1502 -/
def lookupDrawn (dets : List (String × Drawn)) (names : List String) (n : String) : Except SampleErr Drawn :=
  match dets.lookup n with
  | some d => .ok d
  | none => if n ∈ names then .ok (.variable n) else .error .keyError

/-- `[model[name] for name in var_names]`. pymc_extras/statespace/core/statespace.py:1500-1502 -/
def lookupAll (dets : List (String × Drawn)) (names : List String) : List String →
    Except SampleErr (List (String × Drawn))
  | [] => .ok []
  | n :: rest =>
    match lookupDrawn dets names n with
    | .error e => .error e
    | .ok d =>
      match lookupAll dets names rest with
      | .error e => .error e
      | .ok ds => .ok ((n, d) :: ds)

/-- `sample_statespace_matrices(idata, matrix_names, group)`; a single name is the list of that name, `none` stands for
`None`; `coords` are the names in `_fit_coords`. The data containers are created as in the rebuilt graph (there is no clash
with other names to skip). pymc_extras/statespace/core/statespace.py:1473-1509 -/
def sampleMatrices (floatX : String) (o : Obj) (coords : List String) (req : Option (List String)) (group : String) :
    Except SampleErr (List (String × Drawn)) :=
  if group ≠ "posterior" ∧ group ≠ "prior" then .error .badGroup
  else
    let names := req.getD (shortLong.map Prod.fst)
    match dummyMatrices floatX o [] with
    | .error e => .error (.build e)
    | .ok (m, s) =>
      match addMatrices names coords (m.entries.map Entry.short) (shortLong.zip s) with
      | .error e => .error e
      | .ok dets => lookupAll dets (m.entries.map Entry.short) names

end Verif.Registry
