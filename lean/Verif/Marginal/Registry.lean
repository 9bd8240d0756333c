import Mathlib.Data.List.Basic
import Mathlib.Data.Nat.Notation

/-!
# The variable registry of a `MarginalModel`

Model of the mappings of `pymc_extras/model/marginal/marginal_model.py`: `_delete_rv_mappings` (94-114),
`_transfer_rv_mappings` (116-141), `_marginalize` (143-206), `logp` (211-217), `from_model`/`clone` (219-258), `marginalize`
(260-299), `unmarginalize` (319-328), with `Model.register_rv` of PyMC as far as these mappings go.

`Marginal/State.lean` follows dimension names through shared dictionaries and identifies variables with their names; here
variables are objects (numbers) with a mutable name, and value variables, transforms and initial values are kept.  Value
variables are objects of their own.  The order of `named_vars` is not modelled, dimension names are those of one model.
-/

set_option autoImplicit false

namespace MargReg

/-- Exceptions. pymc_extras/model/marginal/marginal_model.py:99, 119-120, 160-170, 196, 216, 272, 323, 551 -/
inductive Err
  | assertion | valueError | keyError | notImplemented
  deriving DecidableEq, Repr

/-- The mappings of a model.  `T` transforms (`none`: no transform), `I` initial values (`none`: not given).
pymc_extras/model/marginal/marginal_model.py:89-92, 101-114 -/
structure Reg (T I : Type) where
  /-- the `name` attribute of variable objects -/
  name : ℕ → String
  named : String → Option ℕ
  dims : String → Option (List String)
  mdims : String → Option (List String)
  toValue : ℕ → Option ℕ
  toRv : ℕ → Option ℕ
  transform : ℕ → Option (Option T)
  initial : ℕ → Option (Option I)
  free : List ℕ
  observed : List ℕ
  marg : List ℕ

/-- `basic_RVs`: the free and the observed variables. Used at marginal_model.py:99, 119, 144 -/
def Reg.basic {T I : Type} (r : Reg T I) : List ℕ := r.free ++ r.observed

/-- `d[k] = v`, `d.pop(k)`. pymc_extras/model/marginal/marginal_model.py:102-112, 122-137 -/
def upd {K V : Type} [DecidableEq K] (d : K → Option V) (k : K) (v : Option V) : K → Option V :=
  fun q => if q = k then v else d q

/-- `_delete_rv_mappings`. pymc_extras/model/marginal/marginal_model.py:94-114 -/
def delete {T I : Type} (r : Reg T I) (x : ℕ) : Except Err (Reg T I) :=
  if x ∉ r.basic then .error .assertion
  else
    let r1 : Reg T I := { r with
      named := upd r.named (r.name x) none
      dims := upd r.dims (r.name x) none
      toValue := upd r.toValue x none
      toRv := match r.toValue x with
        | some v => upd r.toRv v none
        | none => r.toRv
      transform := upd r.transform x none }
    if x ∈ r.free then .ok { r1 with free := r.free.erase x, initial := upd r.initial x none }
    else .ok { r1 with observed := r.observed.erase x }

/-- `index = l.index(old); l.pop(index); l.insert(index, new)`. pymc_extras/model/marginal/marginal_model.py:132-141, 189-191 -/
def putAt (l : List ℕ) (old new : ℕ) : List ℕ :=
  ((l.eraseIdx (l.idxOf old)).insertIdx (l.idxOf old) new)

/-- `_transfer_rv_mappings`.  Line 125 looks a variable up among names, which never succeeds, so dimension names stay
with the name. pymc_extras/model/marginal/marginal_model.py:116-141 -/
def transfer {T I : Type} (r : Reg T I) (old new : ℕ) : Except Err (Reg T I) :=
  if old ∉ r.basic then .error .assertion
  else if new ∈ r.basic then .error .assertion
  else
    let n := r.name old
    let r1 : Reg T I := { r with
      name := fun q => if q = new then n else r.name q
      named := upd (upd r.named n none) n (some new)
      toValue := upd (upd r.toValue old none) new (r.toValue old)
      toRv := match r.toValue old with
        | some v => upd r.toRv v (some new)
        | none => r.toRv
      transform := upd (upd r.transform old none) new (r.transform old) }
    if old ∈ r.free then
      .ok { r1 with free := putAt r.free old new
                    initial := upd (upd r.initial old none) new (r.initial old) }
    else if old ∈ r.observed then .ok { r1 with observed := putAt r.observed old new }
    else .ok r1

/-- `Model.register_rv(rv, name=..., dims=...)` of PyMC without observations: the variable is appended to the free variables
and given the value variable `v` and the default transform `t` before the name is tested.
Called at pymc_extras/model/marginal/marginal_model.py:328 -/
def register {T I : Type} (r : Reg T I) (x v : ℕ) (t : Option T) (i : Option I) (d : Option (List String)) :
    Reg T I × Option Err :=
  let r1 : Reg T I := { r with
    free := r.free ++ [x]
    toValue := upd r.toValue x (some v)
    toRv := upd r.toRv v (some x)
    transform := upd r.transform x (some t) }
  if (r.named (r.name x)).isSome then (r1, some .valueError)
  else ({ r1 with
      named := upd r.named (r.name x) (some x)
      dims := match d with
        | some d => upd r.dims (r.name x) (some d)
        | none => r.dims
      initial := upd r.initial x (some i) }, none)

/-- The same with observations: no initial value. PyMC's `register_rv`, whose result marginal_model.py:95-114 removes -/
def registerObserved {T I : Type} (r : Reg T I) (x v : ℕ) (t : Option T) (d : Option (List String)) : Reg T I × Option Err :=
  if (r.named (r.name x)).isSome then (r, some .valueError)
  else ({ r with
      observed := r.observed ++ [x]
      toValue := upd r.toValue x (some v)
      toRv := upd r.toRv v (some x)
      transform := upd r.transform x (some t)
      named := upd r.named (r.name x) (some x)
      dims := match d with
        | some d => upd r.dims (r.name x) (some d)
        | none => r.dims }, none)

/-- Lines 291-293: the dimension names are kept aside. pymc_extras/model/marginal/marginal_model.py:291-293 -/
def keepDims {T I : Type} (r : Reg T I) (x : ℕ) : Reg T I :=
  { r with mdims := match r.dims (r.name x) with
      | some d => upd r.mdims (r.name x) (some d)
      | none => r.mdims }

/-- One variable of `marginalize`: the checks (`ok` stands for lines 276-289), the dimension names, the deletion.
pymc_extras/model/marginal/marginal_model.py:270-296 -/
def marginalizeOne {T I : Type} (ok : ℕ → Bool) (r : Reg T I) (x : ℕ) : Reg T I × Option Err :=
  if x ∉ r.free then (r, some .valueError)
  else if ok x = false then (r, some .notImplemented)
  else
    match delete (keepDims r x) x with
    | .error e => (keepDims r x, some e)
    | .ok r2 => ({ r2 with marg := r2.marg ++ [x] }, none)

/-- The loop of `marginalize`. pymc_extras/model/marginal/marginal_model.py:270-296 -/
def marginalize {T I : Type} (ok : ℕ → Bool) : List ℕ → Reg T I → Reg T I × Option Err
  | [], r => (r, none)
  | x :: xs, r => match marginalizeOne ok r x with
    | (r', some e) => (r', some e)
    | (r', none) => marginalize ok xs r'

/-- One variable (not a name) of `unmarginalize`; `v` is the new value variable, `t` the default transform of the
distribution. pymc_extras/model/marginal/marginal_model.py:319-328 -/
def unmarginalizeOne {T I : Type} (defaultTransform : ℕ → Option T) (r : Reg T I) (x v : ℕ) : Reg T I × Option Err :=
  if x ∉ r.marg then (r, some .valueError)
  else register { r with marg := r.marg.erase x, mdims := upd r.mdims (r.name x) none } x v (defaultTransform x) none
    (r.mdims (r.name x))

/-- The loop of `unmarginalize`, with the new value variables. pymc_extras/model/marginal/marginal_model.py:319-328 -/
def unmarginalize {T I : Type} (defaultTransform : ℕ → Option T) : List (ℕ × ℕ) → Reg T I → Reg T I × Option Err
  | [], r => (r, none)
  | p :: ps, r => match unmarginalizeOne defaultTransform r p.1 p.2 with
    | (r', some e) => (r', some e)
    | (r', none) => unmarginalize defaultTransform ps r'

/-- `from_model`: every variable is replaced by its clone `φ x`, which has the same name; `ψ` gives the original of a clone.
Value variables, transforms and initial values are kept as they are. pymc_extras/model/marginal/marginal_model.py:219-255 -/
def clone {T I : Type} (φ : ℕ → ℕ) (ψ : ℕ → Option ℕ) (r : Reg T I) : Reg T I where
  name q := match ψ q with
    | some x => r.name x
    | none => r.name q
  named n := (r.named n).map φ
  dims := r.dims
  mdims := r.mdims
  toValue q := (ψ q).bind r.toValue
  toRv v := (r.toRv v).map φ
  transform q := (ψ q).bind r.transform
  initial q := (ψ q).bind r.initial
  free := r.free.map φ
  observed := r.observed.map φ
  marg := r.marg.map φ

/-- Lines 186-193 for one pair of an old and a new variable. pymc_extras/model/marginal/marginal_model.py:185-193 -/
def replaceOne {T I : Type} (r : Reg T I) (old new : ℕ) : Except Err (Reg T I) :=
  let r1 : Reg T I := { r with name := fun q => if q = new then r.name old else r.name q }
  let r2 : Reg T I := if old ∈ r1.marg then { r1 with marg := putAt r1.marg old new } else r1
  if old ∈ r2.basic then transfer r2 old new else .ok r2

/-- Lines 185-193 for all pairs. pymc_extras/model/marginal/marginal_model.py:185-193 -/
def replaceAll {T I : Type} : List (ℕ × ℕ) → Reg T I → Except Err (Reg T I)
  | [], r => .ok r
  | p :: ps, r => match replaceOne r p.1 p.2 with
    | .error e => .error e
    | .ok r' => replaceAll ps r'

/-- `_marginalize`: for each variable in the given order, the checks and the construction of the new variables (`build`, which
gives the pairs of old and new variables or an exception, 153-175), then `rvs_left_to_marginalize.remove`, which acts on the
list of marginalised variables itself (147), then the replacements. pymc_extras/model/marginal/marginal_model.py:143-206 -/
def marginalizeGraph {T I : Type} (build : Reg T I → ℕ → Except Err (List (ℕ × ℕ))) :
    List ℕ → Reg T I → Except Err (Reg T I)
  | [], r => .ok r
  | x :: xs, r => match build r x with
    | .error e => .error e
    | .ok pairs =>
      if x ∉ r.marg then .error .valueError
      else match replaceAll pairs { r with marg := r.marg.erase x } with
        | .error e => .error e
        | .ok r' => marginalizeGraph build xs r'

/-- `value_vars`: the value variables of the free variables, the inputs of `logp`. Used at marginal_model.py:439 -/
def Reg.valueVars {T I : Type} (r : Reg T I) : List (Option ℕ) := r.free.map r.toValue

/-- `m[name]` Used at marginal_model.py:216 -/
def Reg.get {T I : Type} (r : Reg T I) (n : String) : Except Err ℕ :=
  match r.named n with
  | some x => .ok x
  | none => .error .keyError

/-- `logp(vars=...)`: the variables of the marginalised clone whose log-probabilities are returned, in order.
pymc_extras/model/marginal/marginal_model.py:211-217 -/
def logpVars {T I : Type} (build : Reg T I → ℕ → Except Err (List (ℕ × ℕ))) (order : List ℕ) (φ : ℕ → ℕ) (ψ : ℕ → Option ℕ)
    (r : Reg T I) (vars : List ℕ) : Except Err (List ℕ) :=
  match marginalizeGraph build order (clone φ ψ r) with
  | .error e => .error e
  | .ok m => vars.mapM fun x => m.get (r.name x)

end MargReg
