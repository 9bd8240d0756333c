import Verif.Params.Meta
import Verif.Structural.Meta

/-!
# What structural components tell the user about their parameters

`populate_component_properties` against the variables that `make_symbolic_graph` registers, for each component of
`statespace/models/structural.py`, and the merging of both by `__add__` and `build`.
-/

set_option autoImplicit false

namespace Verif.Params.Structural

/-- The parameter bookkeeping of a component. `info` holds shape and dims, as in `param_info`; `registered` is
`_name_to_variable` with the placeholder's shape. pymc_extras/statespace/models/structural.py:362-393 -/
structure Comp where
  kStates : ℕ
  stateNames : List String
  shockNames : List String
  names : List String
  info : Dict (List ℕ × Dims)
  dims : Dict Dims
  coords : Dict (List String)
  registered : Dict (List ℕ)

/-- `LevelTrendComponent` with order mask `mask` and (uncut) innovations mask `innov`: `k_states = len(mask)`,
`k_posdef = sum(innov)`. The loop 855-856 copies the dims into `param_info`.
pymc_extras/statespace/models/structural.py:813, 825-826, 838-856, 859, 870-871; utils/constants.py:73 -/
def levelTrend (mask innov : List Bool) : Comp :=
  let k := mask.length
  let posdef := innov.count true
  let states := Verif.Structural.trendStateNames mask
  let slice := ["level", "trend", "acceleration", "jerk", "snap", "crackle", "pop"].take k
  let shocks := ((slice.zip (innov.take k)).filter (·.2)).map Prod.fst
  if 0 < posdef then
    { kStates := k, stateNames := states, shockNames := shocks, names := ["initial_trend", "sigma_trend"]
      info := [("initial_trend", [k], some ["trend_state"]), ("sigma_trend", [posdef], some ["trend_shock"])]
      dims := [("initial_trend", some ["trend_state"]), ("sigma_trend", some ["trend_shock"])]
      coords := [("trend_state", states), ("trend_shock", shocks)]
      registered := [("initial_trend", [k]), ("sigma_trend", [posdef])] }
  else
    { kStates := k, stateNames := states, shockNames := [], names := ["initial_trend"]
      info := [("initial_trend", [k], some ["trend_state"])]
      dims := [("initial_trend", some ["trend_state"])]
      coords := [("trend_state", states)]
      registered := [("initial_trend", [k])] }

/-- `MeasurementError`. pymc_extras/statespace/models/structural.py:915-937 -/
def measurementError (name : String) : Comp :=
  { kStates := 0, stateNames := [], shockNames := [], names := ["sigma_" ++ name]
    info := [("sigma_" ++ name, [], none)]
    dims := []
    coords := []
    registered := [("sigma_" ++ name, [])] }

/-- `np.flatnonzero(order) + 1` as labels. pymc_extras/statespace/models/structural.py:1001, 1022 -/
def lagLabels (order : List Bool) : List String :=
  ((order.zipIdx).filter (·.1)).map (fun e => toString (e.2 + 1))

/-- `AutoregressiveComponent`. pymc_extras/statespace/models/structural.py:999-1036 -/
def autoregressive (name : String) (order : List Bool) : Comp :=
  { kStates := order.length
    stateNames := (List.range order.length).map (fun i => s!"L{i + 1}.data")
    shockNames := [name ++ "_innovation"]
    names := ["ar_params", "sigma_ar"]
    info := [("ar_params", [order.length], some ["ar_lag"]), ("sigma_ar", [], none)]
    dims := [("ar_params", some ["ar_lag"])]
    coords := [("ar_lag", lagLabels order)]
    registered := [("ar_params", [order.count true]), ("sigma_ar", [])] }

/-- `TimeSeasonality` with `pop_state=True` (otherwise `k_states` is unbound); `states` are the names left after
`pop(0)`. pymc_extras/statespace/models/structural.py:1160-1218, 1227-1234 -/
def timeSeasonality (name : String) (states : List String) (innovations : Bool) : Comp :=
  { kStates := states.length, stateNames := states
    shockNames := if innovations then [name] else []
    names := [name ++ "_coefs"] ++ (if innovations then ["sigma_" ++ name] else [])
    info := [(name ++ "_coefs", [states.length], some [name ++ "_state"])] ++
      (if innovations then [("sigma_" ++ name, [], none)] else [])
    dims := [(name ++ "_coefs", some [name ++ "_state"])]
    coords := [(name ++ "_state", states)]
    registered := [(name ++ "_coefs", [states.length])] ++
      (if innovations then [("sigma_" ++ name, [])] else []) }

/-- `FrequencySeasonality` of season length `s` with `n` frequencies; `s / n == 2.0` is `s = 2 n`.
pymc_extras/statespace/models/structural.py:1290-1362 -/
def frequencySeasonality (name : String) (s n : ℕ) (innovations : Bool) : Comp :=
  let last : ℕ := if s = 2 * n then 1 else 0
  let states := (List.range n).flatMap (fun i => [s!"{name}_Cos_{i}", s!"{name}_Sin_{i}"])
  { kStates := n * 2, stateNames := states
    shockNames := if innovations then states else []
    names := [name] ++ (if innovations then ["sigma_" ++ name] else [])
    info := [(name, [n * 2 - last], some [name ++ "_state"])] ++
      (if innovations then [("sigma_" ++ name, [], none)] else [])
    dims := [(name, some [name ++ "_state"])]
    coords := [(name ++ "_state", if s = 2 * n then states.dropLast else states)]
    registered := [(name, [n * 2 - last])] ++ (if innovations then [("sigma_" ++ name, [])] else []) }

/-- `CycleComponent`. pymc_extras/statespace/models/structural.py:1466-1513, 1516-1551 -/
def cycle (name : String) (estimate dampen innovations : Bool) : Comp :=
  let opt : List String := (if estimate then [name ++ "_length"] else []) ++
    (if dampen then [name ++ "_dampening_factor"] else []) ++ (if innovations then ["sigma_" ++ name] else [])
  { kStates := 2, stateNames := [name ++ "_Cos", name ++ "_Sin"]
    shockNames := if innovations then [name ++ "_Cos", name ++ "_Sin"] else []
    names := [name] ++ opt
    info := [(name, [2], some [name ++ "_state"])] ++ opt.map (fun n => (n, [], none))
    dims := [(name, some [name ++ "_state"])]
    coords := [(name ++ "_state", [name ++ "_Cos", name ++ "_Sin"])]
    registered := [(name, [2])] ++ opt.map (fun n => (n, [])) }

/-- `RegressionComponent`; the `param_dims` entry of `sigma_beta` is the plain string "exog_state", written here as the
list of its one name (pymc accepts both). pymc_extras/statespace/models/structural.py:1562-1617, 1619-1651 -/
def regression (name : String) (states : List String) (innovations : Bool) : Comp :=
  { kStates := states.length, stateNames := states, shockNames := states
    names := ["beta_" ++ name] ++ (if innovations then ["sigma_beta_" ++ name] else [])
    info := [("beta_" ++ name, [states.length], some ["exog_state"])] ++
      (if innovations then [("sigma_beta_" ++ name, [], some ["exog_state"])] else [])
    dims := [("beta_" ++ name, some ["exog_state"])] ++
      (if innovations then [("sigma_beta_" ++ name, some ["exog_state"])] else [])
    coords := [("exog_state", states)]
    registered := [("beta_" ++ name, [states.length])] ++
      (if innovations then [("sigma_beta_" ++ name, [states.length])] else []) }

/-- `a.copy(); .update(b)`. pymc_extras/statespace/models/structural.py:570-573 -/
def update {V : Type} (a b : Dict V) : Dict V := b.foldl (fun d e => put e.1 e.2 d) a

/-- `Component.__add__` (the duplicate-component check is modelled elsewhere).
pymc_extras/statespace/models/structural.py:596-645 -/
def add (a b : Comp) : Comp :=
  { kStates := a.kStates + b.kStates
    stateNames := a.stateNames ++ b.stateNames
    shockNames := a.shockNames ++ b.shockNames
    names := a.names ++ b.names
    info := update a.info b.info
    dims := update a.dims b.dims
    coords := update a.coords b.coords
    registered := update a.registered b.registered }

/-- What the user sees of a component. pymc_extras/statespace/models/structural.py:362-393 -/
def Comp.view (c : Comp) : Meta :=
  { names := c.names, info := some c.info, dims := c.dims, coords := c.coords, registered := c.registered }

/-- `build(name)`: "P0" is announced and registered, the default coordinates overwrite the component's.
pymc_extras/statespace/models/structural.py:91-105, 136-149, 163-165 -/
def build (c : Comp) (name : String) : Meta :=
  { names := c.names ++ ["P0"]
    info := some (put "P0" ([c.kStates, c.kStates], some ["state", "state_aux"]) c.info)
    dims := put "P0" (some ["state", "state_aux"]) c.dims
    coords := update c.coords (defaultCoords c.stateNames [name] c.shockNames)
    registered := c.registered ++ [("P0", [c.kStates, c.kStates])] }

end Verif.Params.Structural
