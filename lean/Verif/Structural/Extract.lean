import Verif.Structural.Meta

/-!
# `extract_components_from_idata` on a whole dataset: translation of `statespace/models/structural.py`

An xarray variable is a list of axis names, a shape and its values; a dataset is the list of its variables in order.  The
`xr.Dataset` built at the end is the list of the new variables: xarray's alignment of variables whose new labels disagree is
not modelled.
-/

set_option autoImplicit false

namespace Verif.Structural.Extract

open Verif.Structural

/-- An `xarray.DataArray`. pymc_extras/statespace/models/structural.py:280-315 -/
structure DataArray where
  dims : List String
  shape : List ℕ
  data : List ℕ → ℝ

/-- A variable of the result: the row at each index of the leading axes and the labels of the last axis.
pymc_extras/statespace/models/structural.py:280-315 -/
structure Out where
  dims : List String
  rows : List ℕ → List ℝ
  labels : List String

/-- The ways extraction fails: a variable without axes, no variable with all states, fewer than two axes, a row that cannot
be read, labels not as many as values. pymc_extras/statespace/models/structural.py:280-315 -/
inductive Err where
  | indexError
  | noStates
  | unpack
  | row
  | labels
deriving DecidableEq

/-- The last axis of a variable at an index of the leading axes. pymc_extras/statespace/models/structural.py:280-315 -/
def lastAxis (k : ℕ) (a : DataArray) (pre : List ℕ) : List ℝ := (List.range k).map fun j => a.data (pre ++ [j])

/-- `_extract_and_transform_variable`: `apply_ufunc` with the last two axes as core axes hands the whole array to
`_hidden_states_from_data`, which works along the last axis; whether it succeeds and how many values it returns do not depend
on the values, so that is decided on a row of zeros.
pymc_extras/statespace/models/structural.py:280-291 -/
def extractVar (k : ℕ) (names : List String) (infos : List (String × Info)) (a : DataArray) : Except Err Out :=
  if a.dims.length < 2 then .error .unpack
  else
    match hiddenStates names (List.replicate k 0) infos with
    | none => .error .row
    | some z =>
      if z.length ≠ (subNames names infos).length then .error .labels
      else .ok ⟨a.dims, fun pre => (hiddenStates names (lastAxis k a pre) infos).getD [], subNames names infos⟩

/-- `idata[name].shape[-1] == self.k_states`. pymc_extras/statespace/models/structural.py:294 -/
def isLatent (k : ℕ) (a : DataArray) : Option Bool := a.shape.getLast?.map (· == k)

/-- The dictionary comprehension over the kept variables. pymc_extras/statespace/models/structural.py:309-312 -/
def extractAll (k : ℕ) (names : List String) (infos : List (String × Info)) :
    List (String × DataArray) → Except Err (List (String × Out))
  | [] => .ok []
  | (n, a) :: rest =>
    match extractVar k names infos a with
    | .error e => .error e
    | .ok o =>
      match extractAll k names infos rest with
      | .error e => .error e
      | .ok os => .ok ((n, o) :: os)

/-- `extract_components_from_idata`: the names listed in the warning and the new variables.
pymc_extras/statespace/models/structural.py:293-315 -/
def extract (k : ℕ) (names : List String) (infos : List (String × Info)) (ds : List (String × DataArray)) :
    Except Err (List String × List (String × Out)) :=
  match ds.mapM fun e => isLatent k e.2 with
  | none => .error .indexError
  | some flags =>
    let latent := ((flags.zip ds).filter (·.1)).map (·.2)
    let dropped := ((flags.zip ds).filter fun e => !e.1).map (·.2.1)
    if dropped.length = ds.length then .error .noStates
    else
      match extractAll k names infos latent with
      | .error e => .error e
      | .ok out => .ok (dropped, out)

end Verif.Structural.Extract
