import Mathlib.Data.List.Basic
import Mathlib.Data.List.Nodup
import Mathlib.Data.Real.Basic

/-!
# Names, dictionaries and bookkeeping of structural components: translation of parts of `statespace/models/structural.py`
-/

set_option autoImplicit false

namespace Verif.Structural

/-- The ways combining fails. pymc_extras/statespace/models/structural.py:503-645 -/
inductive Err where
  | endogMismatch
  | duplicateComponent
deriving DecidableEq

/-- An entry of `_component_info`; `obs` is `None` or the 0/1 indicator of observed states.
pymc_extras/statespace/models/structural.py:395-403 -/
structure Info where
  kStates : ℕ
  combine : Bool
  obs : Option (List Bool)
deriving DecidableEq

/-- A Python dictionary whose order does not matter. pymc_extras/statespace/models/structural.py:560-573 -/
abbrev Dict (V : Type) := String → Option V

/-- The bookkeeping attributes of a `Component`; `V` stands for whatever the dictionaries hold (shapes, dims, labels,
placeholder variables). pymc_extras/statespace/models/structural.py:362-403 -/
structure Meta (V : Type) where
  kEndog : ℕ
  stateNames : List String
  dataNames : List String
  shockNames : List String
  paramNames : List String
  exogNames : List String
  paramInfo : Dict V
  dataInfo : Dict V
  paramDims : Dict V
  coords : Dict V
  nameToVar : Dict V
  nameToData : Dict V
  info : List (String × Info)

variable {V : Type}

/-- `_combine_property` for dictionaries: `copy` then `update`.
pymc_extras/statespace/models/structural.py:570-573 -/
def update (a b : Dict V) : Dict V := fun k => (b k).orElse fun _ => a k

/-- `key.startswith("StateSpace")`. pymc_extras/statespace/models/structural.py:578 -/
def hidden (key : String) : Bool := "StateSpace".toList.isPrefixOf key.toList

/-- One of the two loops of `_combine_component_info`.
pymc_extras/statespace/models/structural.py:577-587 -/
def insertAll (acc : List (String × Info)) : List (String × Info) → Except Err (List (String × Info))
  | [] => .ok acc
  | (k, v) :: rest =>
    if hidden k then insertAll acc rest
    else if acc.any (fun e => e.1 == k) then .error .duplicateComponent
    else insertAll (acc ++ [(k, v)]) rest

/-- `_combine_component_info`. pymc_extras/statespace/models/structural.py:575-589 -/
def combineInfo (a b : List (String × Info)) : Except Err (List (String × Info)) :=
  match insertAll [] a with
  | .error e => .error e
  | .ok acc => insertAll acc b

/-- `Component.__add__`, bookkeeping part; the new component has `k_endog = 1`.
pymc_extras/statespace/models/structural.py:596-645 -/
def add (a b : Meta V) : Except Err (Meta V) :=
  if a.kEndog ≠ b.kEndog then .error .endogMismatch
  else
    match combineInfo a.info b.info with
    | .error e => .error e
    | .ok info => .ok {
        kEndog := 1
        stateNames := a.stateNames ++ b.stateNames
        dataNames := a.dataNames ++ b.dataNames
        shockNames := a.shockNames ++ b.shockNames
        paramNames := a.paramNames ++ b.paramNames
        exogNames := a.exogNames ++ b.exogNames
        paramInfo := update a.paramInfo b.paramInfo
        dataInfo := update a.dataInfo b.dataInfo
        paramDims := update a.paramDims b.paramDims
        coords := update a.coords b.coords
        nameToVar := update a.nameToVar b.nameToVar
        nameToData := update a.nameToData b.nameToData
        info := info }

/-- `Component.build`: `_add_inital_state_cov_to_properties` appends "P0" to the *component's own* list of parameter
names, which the model then copies. Returns the model's parameter names and the component afterwards (only the parameter
names are tracked). pymc_extras/statespace/models/structural.py:91-97, 139-149, 670-688 -/
def build (c : Meta V) : List String × Meta V :=
  let names := c.paramNames ++ ["P0"]
  (names, { c with paramNames := names })

/-- `_state_slices_from_info`: consecutive pairs of the cumulative sums of the state counts, from `off`.
pymc_extras/statespace/models/structural.py:199-204 -/
def stateSlices (off : ℕ) : List (String × Info) → List (ℕ × ℕ)
  | [] => []
  | (_, i) :: rest => (off, off + i.kStates) :: stateSlices (off + i.kStates) rest

/-- `l[lo:hi]`. pymc_extras/statespace/models/structural.py:212-224 -/
def pySlice {α : Type} (l : List α) (lo hi : ℕ) : List α := (l.drop lo).take (hi - lo)

/-- `X[..., np.flatnonzero(obs_idx)].sum(axis=-1)`; `none` if an index is out of range.
pymc_extras/statespace/models/structural.py:219-220 -/
def sumObserved : List Bool → List ℝ → Option ℝ
  | [], _ => some 0
  | true :: os, x :: xs => (sumObserved os xs).map (x + ·)
  | true :: _, [] => none
  | false :: os, xs => sumObserved os xs.tail

/-- The body of the loop of `_hidden_states_from_data` for one component; the loop over `comp_names` reads one entry for
each state *name* in the slice. pymc_extras/statespace/models/structural.py:212-224 -/
def extractOne (names : List String) (data : List ℝ) (i : Info) (s : ℕ × ℕ) : Option (List ℝ) :=
  match i.obs with
  | none => some []
  | some o =>
    let x := pySlice data s.1 s.2
    if i.combine then (sumObserved o x).map ([·])
    else
      let m := (pySlice names s.1 s.2).length
      if m ≤ x.length then some (x.take m) else none

/-- `_hidden_states_from_data` for one row of data. pymc_extras/statespace/models/structural.py:206-226 -/
def hiddenStates (names : List String) (data : List ℝ) (infos : List (String × Info)) : Option (List ℝ) :=
  ((infos.zip (stateSlices 0 infos)).mapM fun e => extractOne names data e.1.2 e.2).map List.flatten

/-- `_get_subcomponent_names`. pymc_extras/statespace/models/structural.py:228-240 -/
def subNames (names : List String) (infos : List (String × Info)) : List String :=
  ((infos.zip (stateSlices 0 infos)).map fun e =>
    if e.1.2.combine then [e.1.1] else (pySlice names e.2.1 e.2.2).map fun n => e.1.1 ++ "[" ++ n ++ "]").flatten

/-- The state names of a `LevelTrendComponent` with order mask `mask`: the names are zipped with the mask and those
masked out are dropped. pymc_extras/statespace/models/structural.py:839-841; utils/constants.py:73 -/
def trendStateNames (mask : List Bool) : List String :=
  (((["level", "trend", "acceleration", "jerk", "snap", "crackle", "pop"].take mask.length).zip mask).filter
    (·.2)).map Prod.fst

/-- The constructor's treatment of `order`: the number of states, or an error if the mask is empty or ends in a zero.
pymc_extras/statespace/models/structural.py:803-813 -/
def trendKStates (mask : List Bool) : Option ℕ := if mask.getLast? = some true then some mask.length else none

/-- `k_posdef` (computed from the full mask) and the number of columns of the selection matrix (computed from the mask
cut to `k_states`). pymc_extras/statespace/models/structural.py:825-826, 864-866 -/
def trendShocks (kStates : ℕ) (innov : List Bool) : ℕ × ℕ := (innov.count true, (innov.take kStates).count true)

/-- Shape of `ar_params` announced in `param_info` and shape of the placeholder actually registered.
pymc_extras/statespace/models/structural.py:1025-1026, 1034-1035 -/
def arParamShapes (order : List Bool) : ℕ × ℕ := (order.length, order.count true)

end Verif.Structural
