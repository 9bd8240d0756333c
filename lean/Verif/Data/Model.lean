import Mathlib.Data.List.Basic
import Mathlib.Data.Int.Notation
import Mathlib.Data.Nat.Notation
import Mathlib.Data.List.Range

/-!
# Data registration: translation of `statespace/utils/data_tools.py`

Warnings are not modelled (they have no effect on the result).  A table is a list of rows.  `α` is the type of finite
floats.
-/

namespace Verif.Data

/-- A float cell: NaN, an infinity, or a finite value. pymc_extras/statespace/utils/data_tools.py:138-161 -/
inductive Cell (α : Type) where
  | nan
  | inf (neg : Bool)
  | val (x : α)
deriving DecidableEq

/-- The ways data registration fails. pymc_extras/statespace/utils/data_tools.py:38-106, 115-125, 164-182 -/
inductive Err where
  | notTwoDim
  | wrongColumns
  | missingNames
  | badIndex
  | collision
  | timeIndexMismatch
  | badType
deriving DecidableEq

variable {α : Type} [DecidableEq α]

/-- `np.ma.masked_invalid`: a cell is masked if it is not finite (NaN *or* ±inf).
pymc_extras/statespace/utils/data_tools.py:142 -/
def Cell.invalid : Cell α → Bool
  | .val _ => false
  | _ => true

/-- `values == missing_fill_value` for one cell; NaN compares unequal to everything, the fill value is finite.
pymc_extras/statespace/utils/data_tools.py:147 -/
def Cell.eqFill (fill : α) : Cell α → Bool
  | .val x => x == fill
  | _ => false

/-- `masked_values.filled(missing_fill_value)` for one cell. pymc_extras/statespace/utils/data_tools.py:143 -/
def Cell.filled (fill : α) (c : Cell α) : Cell α := if c.invalid then .val fill else c

/-- `mask_missing_values_in_data`: `default` is `MISSING_FILL`, `fill?` the optional argument.  The collision test is
only reached when some cell is masked. pymc_extras/statespace/utils/data_tools.py:138-161 -/
def maskMissing (default : α) (fill? : Option α) (values : List (List (Cell α))) :
    Except Err (List (List (Cell α)) × List (List Bool)) :=
  let fill := fill?.getD default
  let filled := values.map (·.map (Cell.filled fill))
  let mask := values.map (·.map Cell.invalid)
  if mask.any (·.any id) then
    if values.any (·.any (Cell.eqFill fill)) then .error .collision else .ok (filled, mask)
  else .ok (filled, mask)

/-- A row index: an unnamed range, dates with their labels, or any other pandas index.
pymc_extras/statespace/utils/data_tools.py:90-106 -/
inductive Index where
  | range (start : ℤ) (len : ℕ)
  | dates (labels : List ℤ)
  | other
deriving DecidableEq

/-- Labels of the time coordinate. pymc_extras/statespace/utils/data_tools.py:87-106 -/
inductive Label where
  | pos (i : ℕ)
  | date (d : ℤ)
deriving DecidableEq

/-- What the user may pass as data: an array or tensor with its shape and (if 2-d) its rows, a pandas frame with named
columns, a pandas series, or something else. pymc_extras/statespace/utils/data_tools.py:167-174 -/
inductive Input (α : Type) where
  | array (shape : List ℕ) (rows : List (List (Cell α)))
  | frame (columns : List String) (index : Index) (rows : List (List (Cell α)))
  | series (name : Option String) (index : Index) (column : List (Cell α))
  | unsupported

/-- `_validate_data_shape`. pymc_extras/statespace/utils/data_tools.py:38-58 -/
def validateShape (shape : List ℕ) (nObs : ℕ) (obsCoords : List String) (checkCols : Bool) (colNames : List String) :
    Except Err Unit :=
  if shape.length ≠ 2 then .error .notTwoDim
  else if shape.getLast? ≠ some nObs then .error .wrongColumns
  else if checkCols && obsCoords.any (fun c => !colNames.contains c) then .error .missingNames
  else .ok ()

/-- `preprocess_numpy_data` and `preprocess_tensor_data` (the tensor is evaluated): the index is `arange(n)`.
pymc_extras/statespace/utils/data_tools.py:61-78 -/
def preprocessArray (shape : List ℕ) (rows : List (List (Cell α))) (nObs : ℕ) (obsCoords : List String) :
    Except Err (List (List (Cell α)) × List Label) :=
  match validateShape shape nObs obsCoords false [] with
  | .error e => .error e
  | .ok _ => .ok (rows, (List.range (shape.headD 0)).map Label.pos)

/-- `preprocess_pandas_data` for a frame: a `RangeIndex` is thrown away and replaced by `arange(n)`; dates are kept.
pymc_extras/statespace/utils/data_tools.py:87-106 -/
def preprocessFrame (columns : List String) (index : Index) (rows : List (List (Cell α))) (nObs : ℕ)
    (obsCoords : List String) (checkCols : Bool) : Except Err (List (List (Cell α)) × List Label) :=
  match validateShape [rows.length, columns.length] nObs obsCoords checkCols columns with
  | .error e => .error e
  | .ok _ =>
    match index with
    | .range _ _ => preprocessArray [rows.length, columns.length] rows nObs obsCoords
    | .dates ls => .ok (rows, ls.map Label.date)
    | .other => .error .badIndex

/-- The type dispatch of `register_data_with_pymc`; `check_column_names` is never passed, so it is `False`; a series
becomes a frame with one column (called "data" if it had no name).
pymc_extras/statespace/utils/data_tools.py:167-174, 82-85 -/
def preprocess (x : Input α) (nObs : ℕ) (obsCoords : List String) :
    Except Err (List (List (Cell α)) × List Label) :=
  match x with
  | .array shape rows => preprocessArray shape rows nObs obsCoords
  | .frame cols idx rows => preprocessFrame cols idx rows nObs obsCoords false
  | .series name idx col => preprocessFrame [name.getD "data"] idx (col.map fun c => [c]) nObs obsCoords false
  | .unsupported => .error .badType

/-- The model's entry for the time dimension: absent, present without values, or with values.
pymc_extras/statespace/utils/data_tools.py:115-125 -/
inductive TimeCoord where
  | absent
  | empty
  | values (ls : List Label)
deriving DecidableEq

/-- The time coordinate after `add_data_to_active_model`. pymc_extras/statespace/utils/data_tools.py:115-125 -/
def addTime (tc : TimeCoord) (index : List Label) : Except Err TimeCoord :=
  match tc with
  | .absent => .ok (.values index)
  | .empty => .ok (.values index)
  | .values found => if found = index then .ok (.values found) else .error .timeIndexMismatch

/-- What registration returns: the filled table, the mask, and the model's time coordinate.
pymc_extras/statespace/utils/data_tools.py:164-182 -/
structure Registered (α : Type) where
  data : List (List (Cell α))
  mask : List (List Bool)
  time : TimeCoord

/-- `register_data_with_pymc`. pymc_extras/statespace/utils/data_tools.py:164-182 -/
def register (default : α) (x : Input α) (nObs : ℕ) (obsCoords : List String) (registerData : Bool)
    (fill? : Option α) (tc : TimeCoord) : Except Err (Registered α) :=
  match preprocess x nObs obsCoords with
  | .error e => .error e
  | .ok (values, index) =>
    match maskMissing default fill? values with
    | .error e => .error e
    | .ok (data, mask) =>
      if registerData then
        match addTime tc index with
        | .error e => .error e
        | .ok tc' => .ok ⟨data, mask, tc'⟩
      else .ok ⟨data, mask, tc⟩

end Verif.Data
