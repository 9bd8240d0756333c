import Mathlib.Data.List.Basic
import Mathlib.Data.Int.Basic
import Mathlib.Tactic.Linarith

/-!
# Forecast index and scenario validation: translation of `statespace/core/statespace.py`

An integer time index is the list of its labels. A date index is modelled by the list of positions of its dates on the
calendar grid of its frequency, so `pd.date_range(start, end=e)` is every grid point from `start` to `e` inclusive.
-/

namespace Verif.Forecast

/-- Python exceptions that occur here. pymc_extras/statespace/core/statespace.py:1511-1832 -/
inductive Err where
  | valueError | indexError | typeError | notImplemented | keyError
  deriving DecidableEq, Repr

/-- Python sequence indexing `xs[i]` with negative positions counting from the end.
pymc_extras/statespace/core/statespace.py:1786-1832 -/
def pyGet (xs : List ℤ) (i : ℤ) : Except Err ℤ :=
  let j := if i < 0 then i + xs.length else i
  if j < 0 then .error .indexError
  else match xs[j.toNat]? with
    | some x => .ok x
    | none => .error .indexError

/-- `pd.RangeIndex(a, b, step=1)`. pymc_extras/statespace/core/statespace.py:1812, 1814 -/
def pyRange (a b : ℤ) : List ℤ := (List.range (b - a).toNat).map fun i : ℕ => a + i

/-- The user's `start`: absent, a Python `int`, or a label that is not a Python `int` (a timestamp, or the NumPy integer
the method substitutes for a missing start). pymc_extras/statespace/core/statespace.py:1881, 1966-1971 -/
inductive Start where
  | absent
  | int (s : ℤ)
  | label (s : ℤ)
  deriving DecidableEq, Repr

/-- `_validate_forecast_args`. `scenarioFrame`: `none` without scenario, `some b` where `b` says whether it is (or its
dictionary contains) a DataFrame or Series. The logging at the end has no effect on the result.
pymc_extras/statespace/core/statespace.py:1511-1552 -/
def validateForecastArgs (isDate : Bool) (timeIndex : List ℤ) (start : Start) (periods end_ : Option ℤ)
    (scenarioFrame : Option Bool) (useScenarioIndex : Bool) : Except Err Unit :=
  let startBad := match start with
    | .label s => isDate && decide (s ∉ timeIndex)
    | .int s => decide (s.natAbs > timeIndex.length)
    | .absent => false
  if startBad then .error .valueError
  else if periods.isNone && end_.isNone then .error .valueError
  else if periods.isSome && end_.isSome then .error .valueError
  else if scenarioFrame.isNone && useScenarioIndex then .error .valueError
  else if useScenarioIndex && scenarioFrame == some false then .error .valueError
  else .ok ()

/-- The last part of `_build_forecast_index`. `x0` is set only when the scenario's index is used.
pymc_extras/statespace/core/statespace.py:1823-1832 -/
def finishIndex (timeIndex : List ℤ) (x0 : Option ℤ) (fi : List ℤ) : Except Err (ℤ × List ℤ) := do
  let (x0, fi) ← match x0, fi with
    | some x, fi => Except.ok (x, fi)
    | none, [] => .error .indexError
    | none, x :: rest => .ok (x, rest)
  if x0 ∈ fi then .error .valueError
  else if x0 ∉ timeIndex then .error .valueError
  else .ok (x0, fi)

/-- `_build_forecast_index` for an integer index (`useScenarioIndex = none`) or with the index of a scenario data frame
(`useScenarioIndex = some idx`). Comparing a missing start with `0` is a `TypeError`; when neither `end` nor `periods`
is given `forecast_index` stays `None` and subscripting it is a `TypeError`.
pymc_extras/statespace/core/statespace.py:1772-1832 -/
def buildIndexInt (timeIndex : List ℤ) (start : Start) (end_ periods : Option ℤ) (scenarioIndex : Option (List ℤ)) :
    Except Err (ℤ × List ℤ) :=
  match scenarioIndex with
  | some idx =>
    match idx with
    | [] => .error .indexError
    | x :: _ => finishIndex timeIndex (some (x - 1)) idx
  | none => do
    let s ← match start with
      | .absent => .error .typeError
      | .int s => .ok s
      | .label s => .ok s
    let s ← if s < 0 then pyGet timeIndex s else .ok s
    let fi := match periods, end_ with
      | some k, _ => some (pyRange s (s + k + 1))
      | none, some e => some (pyRange s e)
      | none, none => none
    match fi with
    | none => .error .typeError
    | some fi => finishIndex timeIndex none fi

/-- `_build_forecast_index` for a date index. An integer start is a position; `endIsInt` marks an integer `end`.
`pd.date_range(None, end=e)` (missing start) is not modelled further: it is an error here.
pymc_extras/statespace/core/statespace.py:1786-1804, 1823-1832 -/
def buildIndexDate (timeIndex : List ℤ) (start : Start) (end_ periods : Option ℤ) (endIsInt : Bool) :
    Except Err (ℤ × List ℤ) := do
  let s ← match start with
    | .absent => .error .typeError
    | .int s => pyGet timeIndex s
    | .label s => .ok s
  if endIsInt then .error .valueError
  else
    let fi := match periods, end_ with
      | some k, _ => if k + 1 < 0 then none else some (pyRange s (s + k + 1))
      | none, some e => some (pyRange s (e + 1))
      | none, none => none
    match fi with
    | none => .error .valueError
    | some fi => finishIndex timeIndex none fi

/-- `np.flatnonzero(time_index == t0)[0]`. pymc_extras/statespace/core/statespace.py:2009 -/
def positionOf (timeIndex : List ℤ) (t0 : ℤ) : ℕ := timeIndex.idxOf t0

/-- The index part of `forecast` for an integer time index: default start, validation, index construction, position of
the initial state, number of simulated steps.
pymc_extras/statespace/core/statespace.py:1964-2009, 2050 -/
def planInt (timeIndex : List ℤ) (start : Start) (periods end_ : Option ℤ) (verbose : Bool)
    (scenarioFrame : Option Bool) (scenarioIndex : Option (List ℤ)) : Except Err (ℕ × List ℤ) := do
  let start ← match start with
    | .absent => if verbose then do let x ← pyGet timeIndex (-1); Except.ok (Start.label x) else .ok .absent
    | s => .ok s
  validateForecastArgs false timeIndex start periods end_ scenarioFrame scenarioIndex.isSome
  let (t0, fi) ← buildIndexInt timeIndex start end_ periods scenarioIndex
  .ok (positionOf timeIndex t0, fi)

/-! ### Scenario data -/

/-- A scenario for one variable. Columns are labels; only shapes and labels matter, plus the rows of data.
pymc_extras/statespace/core/statespace.py:1569-1708 -/
inductive Scenario (V : Type) where
  | frame (cols : List String) (rows : List (List V))
  | series (rows : List (List V))
  | array (ncols : ℕ) (rows : List (List V))

/-- Number of time steps (`shape[0]`). pymc_extras/statespace/core/statespace.py:1630 -/
def Scenario.steps {V : Type} : Scenario V → ℕ
  | .frame _ rows => rows.length
  | .series rows => rows.length
  | .array _ rows => rows.length

/-- The non-dictionary branch of `_validate_scenario_data`, for a variable whose expected columns are `expected`.
`not (a == b for a, b in zip(expected_cols, cols))` negates a generator object, which is always truthy, so the
re-ordering at the end is never reached. Lists, tuples and one-dimensional arrays are `array 1`.
pymc_extras/statespace/core/statespace.py:1644-1708 -/
def validateOne {V : Type} (expected : List String) (s : Scenario V) : Except Err (Scenario V) :=
  match s with
  | .array ncols rows =>
    if ncols ≠ expected.length then .error .valueError else .ok (.array ncols rows)
  | .series rows =>
    if expected.length > 1 then .error .valueError else .ok (.series rows)
  | .frame cols rows =>
    if (expected.filter fun c => c ∉ cols).length > 0 then .error .valueError
    else if (cols.filter fun c => c ∉ expected).length > 0 then .error .valueError
    else
      let generatorIsFalsy := false
      if generatorIsFalsy then .ok (.frame expected rows) else .ok (.frame cols rows)

/-- Validation of one entry of a scenario dictionary. pymc_extras/statespace/core/statespace.py:1613-1622 -/
def validateEntry {V : Type} (exog : List (String × List String)) (x : String × Scenario V) :
    Except Err (String × Scenario V) :=
  match exog.lookup x.1 with
  | none => .error .valueError
  | some expected => (validateOne expected x.2).map fun s' => (x.1, s')

/-- The dictionary branch of `_validate_scenario_data`: each entry is validated, then the numbers of time steps must
agree. (The comparison of the indices of data frames is not modelled.) An empty dictionary makes
`next(iter(...))` raise `StopIteration`, here an index error.
pymc_extras/statespace/core/statespace.py:1612-1642 -/
def validateDict {V : Type} (exog : List (String × List String)) (scenario : List (String × Scenario V)) :
    Except Err (List (String × Scenario V)) := do
  let validated ← scenario.mapM (validateEntry exog)
  match validated with
  | [] => .error .indexError
  | (_, first) :: _ =>
    if validated.all fun x => x.2.steps == first.steps then .ok validated else .error .valueError

end Verif.Forecast
