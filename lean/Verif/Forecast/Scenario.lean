import Verif.Forecast.Model

/-!
# Scenario data in `forecast`, with Python's object identity: translation of `statespace/core/statespace.py`

Data frames are mutable objects, so they live in a heap and a dictionary entry refers to one by its address; the user's
dictionary is mutated in place and is therefore part of the state.  Functions return the new state also when they raise.
Dates are positions on the calendar grid of the fit data's frequency, as in `Verif/Forecast/Model.lean`.
-/

set_option autoImplicit false

namespace Verif.Forecast.Obj

/-- Exceptions (those of `Forecast.Err` and two more). pymc_extras/statespace/core/statespace.py:1511-1889 -/
inductive Err where
  | valueError | indexError | typeError | notImplemented | keyError | attributeError | stopIteration
  deriving DecidableEq, Repr

/-- Exceptions of the functions modelled in `Verif/Forecast/Model.lean`.
pymc_extras/statespace/core/statespace.py:1511-1832 -/
def Err.ofBasic : Forecast.Err → Err
  | .valueError => .valueError
  | .indexError => .indexError
  | .typeError => .typeError
  | .notImplemented => .notImplemented
  | .keyError => .keyError

/-- `freq` of a date index, compared with the frequency of the data the model was fit to.
pymc_extras/statespace/core/statespace.py:1776-1781 -/
inductive Freq where
  | none | same | other
  deriving DecidableEq, Repr

/-- An index: dates or integers. `freq` is read for dates only. pymc_extras/statespace/core/statespace.py:1749-1770 -/
structure Idx where
  isDate : Bool
  labels : List ℤ
  freq : Freq
  deriving DecidableEq

/-- `a.equals(b)`: same kind and labels; the frequency is not compared.
pymc_extras/statespace/core/statespace.py:1636, 1868 -/
def Idx.equals (a b : Idx) : Bool := a.isDate == b.isDate && a.labels == b.labels

/-- A data frame object. pymc_extras/statespace/core/statespace.py:1604-1642, 1864-1876 -/
structure Frame (V : Type) where
  idx : Idx
  cols : List String
  rows : List (List V)

/-- The data frames that exist; the address of a frame is its position.
pymc_extras/statespace/core/statespace.py:1868-1869 (frames are changed in place) -/
abbrev Heap (V : Type) := List (Frame V)

/-- A value in the scenario dictionary. `pyList` is a list or tuple of rows (a row of length one stands for a number),
`vector` a one-dimensional array, `other` an object of any other type. pymc_extras/statespace/core/statespace.py:1604-1708 -/
inductive Val (V : Type) where
  | none
  | frame (id : ℕ)
  | series (idx : Idx) (vals : List V)
  | array (ncols : ℕ) (rows : List (List V))
  | vector (vals : List V)
  | pyList (rows : List (List V))
  | other

/-- The scenario dictionary. pymc_extras/statespace/core/statespace.py:1612-1642 -/
abbrev Dict (V : Type) := List (String × Val V)

variable {V : Type}

/-- Width check for arrays. pymc_extras/statespace/core/statespace.py:1664-1670 -/
def checkWidth (coords : List (String × List String)) (name : String) (ncols : ℕ) (rows : List (List V)) :
    Except Err (Val V) :=
  match coords.lookup name with
  | none => .error .keyError
  | some expected => if ncols ≠ expected.length then .error .valueError else .ok (.array ncols rows)

/-- `_validate_scenario_data` on one (named) value. Lists, tuples and vectors become arrays with one column:
`np.array(scenario).reshape(-1, 1)`, which flattens nested lists. An object of an unsupported type falls off the end of the
function, which returns `None`. The re-ordering of columns is dead code (see C82).
pymc_extras/statespace/core/statespace.py:1604-1610, 1644-1708 -/
def validateVal (coords : List (String × List String)) (heap : Heap V) (name : String) : Val V → Except Err (Val V)
  | .none => .error .valueError
  | .other => .ok .none
  | .pyList rows => checkWidth coords name 1 (rows.flatten.map fun x => [x])
  | .vector vals => checkWidth coords name 1 (vals.map fun x => [x])
  | .array ncols rows => checkWidth coords name ncols rows
  | .series idx vals =>
    match coords.lookup name with
    | none => .error .keyError
    | some expected => if expected.length > 1 then .error .valueError else .ok (.series idx vals)
  | .frame id =>
    match heap[id]?, coords.lookup name with
    | some f, some expected =>
      if (expected.filter fun c => c ∉ f.cols).length > 0 then .error .valueError
      else if (f.cols.filter fun c => c ∉ expected).length > 0 then .error .valueError
      else .ok (.frame id)
    | _, _ => .error .keyError

/-- The loop over the dictionary: entries are replaced one after the other, and stay replaced if a later one raises.
pymc_extras/statespace/core/statespace.py:1612-1622 -/
def validateLoop (exog : List String) (coords : List (String × List String)) (heap : Heap V) :
    Dict V → Dict V → Except Err Unit × Dict V
  | done, [] => (.ok (), done)
  | done, (n, v) :: rest =>
    if n ∉ exog then (.error .valueError, done ++ (n, v) :: rest)
    else match validateVal coords heap n v with
      | .error e => (.error e, done ++ (n, v) :: rest)
      | .ok v' => validateLoop exog coords heap (done ++ [(n, v')]) rest

/-- `data.shape[0]`. pymc_extras/statespace/core/statespace.py:1630 -/
def steps (heap : Heap V) : Val V → Except Err ℕ
  | .none => .error .attributeError
  | .other => .error .attributeError
  | .pyList _ => .error .attributeError
  | .vector vals => .ok vals.length
  | .array _ rows => .ok rows.length
  | .series _ vals => .ok vals.length
  | .frame id => match heap[id]? with
    | some f => .ok f.rows.length
    | none => .error .keyError

/-- `all(data.shape[0] == first_scenario.shape[0] for data in scenario.values())`, raising when it is false.
pymc_extras/statespace/core/statespace.py:1627, 1630-1633 -/
def checkSteps (heap : Heap V) (n : ℕ) : Dict V → Except Err Unit
  | [] => .ok ()
  | (_, v) :: rest =>
    match steps heap v with
    | .error e => .error e
    | .ok k => if k = n then checkSteps heap n rest else .error .valueError

/-- The index of a data frame, nothing for other objects. pymc_extras/statespace/core/statespace.py:1628, 1635-1640 -/
def frameIndex (heap : Heap V) : String × Val V → Option Idx
  | (_, .frame id) => (heap[id]?).map fun f => f.idx
  | _ => none

/-- The indices of all data frames of a dictionary. pymc_extras/statespace/core/statespace.py:1635-1639 -/
def frameIndices (heap : Heap V) (d : Dict V) : List Idx := d.filterMap (frameIndex heap)

/-- All data frames must have the same index. pymc_extras/statespace/core/statespace.py:1628, 1635-1640 -/
def checkIndices (heap : Heap V) (d : Dict V) : Except Err Unit :=
  match frameIndices heap d with
  | [] => .ok ()
  | i :: is => if (i :: is).all fun j => j.equals i then .ok () else .error .valueError

/-- `_validate_scenario_data` on a dictionary. pymc_extras/statespace/core/statespace.py:1612-1642 -/
def validate (exog : List String) (coords : List (String × List String)) (heap : Heap V) (d : Dict V) :
    Except Err Unit × Dict V :=
  match validateLoop exog coords heap [] d with
  | (.error e, d') => (.error e, d')
  | (.ok (), d') =>
    match d' with
    | [] => (.error .stopIteration, d')
    | (_, first) :: _ =>
      match steps heap first with
      | .error e => (.error e, d')
      | .ok n => match checkSteps heap n d' with
        | .error e => (.error e, d')
        | .ok () => match checkIndices heap d' with
          | .error e => (.error e, d')
          | .ok () => (.ok (), d')

/-- `get_or_create_index` on the first value of the dictionary.
pymc_extras/statespace/core/statespace.py:1749-1770, 1775 -/
def getOrCreateIndex (fit : Idx) (start : Start) (heap : Heap V) : Val V → Except Err Idx
  | .frame id => match heap[id]? with
    | some f => .ok f.idx
    | none => .error .keyError
  | .series idx _ => .ok idx
  | .array _ rows => make rows.length
  | .vector vals => make vals.length
  | .pyList rows => make rows.length
  | .none => .error .valueError
  | .other => .error .valueError
where
  /-- The branch for objects without an index. pymc_extras/statespace/core/statespace.py:1755-1767 -/
  make (n : ℕ) : Except Err Idx :=
    match start with
    | .absent => .error .valueError
    | .int s => match pyGet fit.labels s with
      | .error e => .error (.ofBasic e)
      | .ok s => .ok ⟨fit.isDate, pyRange s (n + s), .same⟩
    | .label s => .ok ⟨fit.isDate, pyRange s (n + s), .same⟩

/-- With `use_scenario_index=True` the index is taken as it is and the forecast starts one step before its first label.
Subtracting a missing frequency is a `TypeError`; an integer `time_index` has no attribute `freq`.
pymc_extras/statespace/core/statespace.py:1776-1781, 1816-1832 -/
def stepBack (fit idx : Idx) : Except Err (ℤ × Idx) :=
  match idx.labels with
  | [] => .error .indexError
  | x :: _ =>
    if idx.isDate ∧ idx.freq = .none then .error .typeError
    else if idx.isDate ∧ fit.isDate = false then .error .attributeError
    else if idx.isDate ∧ idx.freq ≠ .same then .error .valueError
    else if idx.isDate ≠ fit.isDate then .error .valueError
    else match finishIndex fit.labels (some (x - 1)) idx.labels with
      | .error e => .error (.ofBasic e)
      | .ok r => .ok (r.1, ⟨idx.isDate, r.2, idx.freq⟩)

/-- `_build_forecast_index` with `use_scenario_index=True`: the index of the first value of the dictionary.
pymc_extras/statespace/core/statespace.py:1749-1770, 1774-1781, 1816-1832 -/
def buildFromScenario (fit : Idx) (start : Start) (heap : Heap V) (d : Dict V) : Except Err (ℤ × Idx) :=
  match d with
  | [] => .error .stopIteration
  | (_, first) :: _ =>
    match getOrCreateIndex fit start heap first with
    | .error e => .error e
    | .ok idx => stepBack fit idx

/-- `scenario.index = forecast_index` unless it is equal already. pymc_extras/statespace/core/statespace.py:1868-1869 -/
def setIndex (fi : Idx) (id : ℕ) (heap : Heap V) : Except Err (Val V) × Heap V :=
  match heap[id]? with
  | none => (.error .keyError, heap)
  | some f =>
    if f.idx.equals fi then (.ok (.frame id), heap)
    else if fi.labels.length ≠ f.rows.length then (.error .valueError, heap)
    else (.ok (.frame id), heap.set id { f with idx := fi })

/-- `_finalize_scenario_initialization` on one (named) value: frames keep their identity and get the forecast index, series and
arrays become new frames. pymc_extras/statespace/core/statespace.py:1864-1876 -/
def finalizeVal (coords : List (String × List String)) (fi : Idx) (name : String) (heap : Heap V) :
    Val V → Except Err (Val V) × Heap V
  | .frame id => setIndex fi id heap
  | .series idx vals =>
    match coords.lookup name with
    | none => (.error .keyError, heap)
    | some [] => (.error .indexError, heap)
    | some (c :: _) => setIndex fi heap.length (heap ++ [⟨idx, [c], vals.map fun x => [x]⟩])
  | .array ncols rows =>
    match coords.lookup name with
    | none => (.error .keyError, heap)
    | some cols =>
      if rows.length ≠ fi.labels.length ∨ ncols ≠ cols.length then (.error .valueError, heap)
      else (.ok (.frame heap.length), heap ++ [⟨fi, cols, rows⟩])
  | v => (.ok v, heap)

/-- The loop over the dictionary, again in place. pymc_extras/statespace/core/statespace.py:1856-1859 -/
def finalizeLoop (coords : List (String × List String)) (fi : Idx) :
    Dict V → Dict V → Heap V → Except Err Unit × Dict V × Heap V
  | done, [], heap => (.ok (), done, heap)
  | done, (n, v) :: rest, heap =>
    match finalizeVal coords fi n heap v with
    | (.error e, heap') => (.error e, done ++ (n, v) :: rest, heap')
    | (.ok v', heap') => finalizeLoop coords fi (done ++ [(n, v')]) rest heap'

/-- The values substituted for one exogenous variable: `scenario.get(data_name)`; a missing one is `None`, which cannot become
a tensor. pymc_extras/statespace/core/statespace.py:2035-2040 -/
def usedRows (heap : Heap V) (d : Dict V) (name : String) : Except Err (String × List (List V)) :=
  match d.lookup name with
  | some (.frame id) => match heap[id]? with
    | some f => .ok (name, f.rows)
    | none => .error .keyError
  | _ => .error .typeError

/-- Arguments of one call of `forecast` (`start` after the default of lines 1966-1971).
pymc_extras/statespace/core/statespace.py:1878-1889 -/
structure Call where
  start : Start
  periods : Option ℤ
  end_ : Option ℤ
  endIsInt : Bool
  useScenarioIndex : Bool

/-- What the model is given: the label the forecast starts from, the forecast index and the rows of every exogenous variable.
pymc_extras/statespace/core/statespace.py:2002-2050 -/
structure Plan (V : Type) where
  t0 : ℤ
  index : List ℤ
  used : List (String × List (List V))

/-- Frames or series among the values. pymc_extras/statespace/core/statespace.py:1536-1539 -/
def hasFrame (d : Dict V) : Bool := d.any fun x => match x.2 with
  | .frame _ => true
  | .series _ _ => true
  | _ => false

/-- The index part of `forecast`. pymc_extras/statespace/core/statespace.py:1984-2001 -/
def buildIndex (fit : Idx) (c : Call) (heap : Heap V) (d : Dict V) : Except Err (ℤ × Idx) :=
  match validateForecastArgs fit.isDate fit.labels c.start c.periods c.end_ (some (hasFrame d)) c.useScenarioIndex with
  | .error e => .error (.ofBasic e)
  | .ok () =>
    if c.useScenarioIndex then buildFromScenario fit c.start heap d
    else
      match (if fit.isDate then buildIndexDate fit.labels c.start c.end_ c.periods c.endIsInt
        else buildIndexInt fit.labels c.start c.end_ c.periods none) with
      | .error e => .error (.ofBasic e)
      | .ok r => .ok (r.1, ⟨fit.isDate, r.2, .same⟩)

/-- `forecast` of a model with exogenous variables, up to the point where the data reach the model; the dictionary and the
heap are returned because the user sees them. pymc_extras/statespace/core/statespace.py:1973-2002, 2034-2040 -/
def forecast (exog : List String) (coords : List (String × List String)) (fit : Idx) (c : Call) (d : Dict V)
    (heap : Heap V) : Except Err (Plan V) × Dict V × Heap V :=
  match validate exog coords heap d with
  | (.error e, d1) => (.error e, d1, heap)
  | (.ok (), d1) =>
    match buildIndex fit c heap d1 with
    | .error e => (.error e, d1, heap)
    | .ok (t0, fi) =>
      match finalizeLoop coords fi [] d1 heap with
      | (.error e, d2, h2) => (.error e, d2, h2)
      | (.ok (), d2, h2) =>
        match exog.mapM (usedRows h2 d2) with
        | .error e => (.error e, d2, h2)
        | .ok used => (.ok ⟨t0, fi.labels, used⟩, d2, h2)

/-- `forecast` when the scenario is not a dictionary: it is wrapped in a new one, so only the heap is visible afterwards.
pymc_extras/statespace/core/statespace.py:1973-1980 -/
def forecastSingle (exog : List String) (coords : List (String × List String)) (fit : Idx) (c : Call) (v : Val V)
    (heap : Heap V) : Except Err (Plan V) × Heap V :=
  match exog with
  | [name] => let r := forecast exog coords fit c [(name, v)] heap; (r.1, r.2.2)
  | _ => (.error .valueError, heap)

end Verif.Forecast.Obj
