import Mathlib.Data.List.Basic
import Mathlib.Data.Nat.Notation

/-!
# Bookkeeping of marginalised variables

Model of `pymc_extras/model/marginal/marginal_model.py`: `MarginalModel.from_model` (219-258),
`_delete_rv_mappings` (94-114), `marginalize` (260-299), `unmarginalize` (319-328), the name handling
of `recover_marginals` (381-388, 424-425) and the function `marginalize` (516-542).

Variables are identified by their names (names are unique in a PyMC model).  Dictionaries are objects
in a heap, because models can share them: `named_vars_to_dims` and `_marginalized_named_vars_to_dims`
are assigned, not copied, in `from_model` (239, 224, 254).  Value variables, transforms and initial
values are not modelled.  `named` lists all keys of `named_vars`, including deterministics and data.
-/

set_option autoImplicit false

namespace MargState

/-- A dictionary from variable names to dimension names. pymc_extras/model/marginal/marginal_model.py:92, 239, 254 -/
abbrev Dict := String → Option (List String)

/-- Dictionary objects. pymc_extras/model/marginal/marginal_model.py:224, 239, 254 -/
structure Heap where
  dict : ℕ → Dict
  next : ℕ

/-- A `MarginalModel` (or a plain model, whose `marg` is empty and `mdims` unused).
pymc_extras/model/marginal/marginal_model.py:89-92 -/
structure Mdl where
  named : List String
  free : List String
  observed : List String
  marg : List String
  /-- reference to `named_vars_to_dims` -/
  dims : ℕ
  /-- reference to `_marginalized_named_vars_to_dims` -/
  mdims : ℕ
  deriving DecidableEq

/-- What line 276-289 look at. pymc_extras/model/marginal/marginal_model.py:276-289 -/
inductive Kind
  | finite
  | chain (nLags pNdim : ℕ)
  | other
  deriving DecidableEq

/-- Exceptions. pymc_extras/model/marginal/marginal_model.py:272, 279-289, 388 -/
inductive Err
  | keyError
  | valueError
  | notImplemented
  | check
  deriving DecidableEq

/-- How the user designates a variable. pymc_extras/model/marginal/marginal_model.py:266-268, 319-322 -/
inductive Item
  | name (s : String)
  | var (s : String)
  deriving DecidableEq

/-- Line 384: the name in a designation. pymc_extras/model/marginal/marginal_model.py:384 -/
def Item.target : Item → String
  | .name s => s
  | .var s => s

/-- Update one dictionary object. pymc_extras/model/marginal/marginal_model.py:293, 325 -/
def Heap.set (h : Heap) (r : ℕ) (k : String) (v : Option (List String)) : Heap :=
  { h with dict := fun r' => if r' = r then (fun k' => if k' = k then v else h.dict r' k')
      else h.dict r' }

/-- `self[var] if isinstance(var, str) else var` (266-268): `Model.__getitem__` raises KeyError for a
name that is not in `named_vars`.  (Name prefixes are not modelled.) pymc_extras/model/marginal/marginal_model.py:266-268 -/
def resolve (m : Mdl) : Item → Except Err String
  | .name s => if s ∈ m.named then .ok s else .error .keyError
  | .var s => .ok s

/-- Lines 276-289: `none` is accepted. pymc_extras/model/marginal/marginal_model.py:276-289 -/
def kindError : Kind → Option Err
  | .chain n p => if n > 1 then some .notImplemented
      else if p > 2 then some .notImplemented else none
  | .finite => none
  | .other => some .notImplemented

/-- Lines 94-114 `_delete_rv_mappings` for a free variable. pymc_extras/model/marginal/marginal_model.py:94-114 -/
def deleteRv (h : Heap) (m : Mdl) (x : String) : Heap × Mdl :=
  (h.set m.dims x none,
   { m with named := m.named.erase x, free := m.free.erase x })

/-- Lines 291-296: one iteration after the checks. pymc_extras/model/marginal/marginal_model.py:291-296 -/
def moveOne (h : Heap) (m : Mdl) (x : String) : Heap × Mdl :=
  let h' := match h.dict m.dims x with
    | some d => h.set m.mdims x (some d)
    | none => h
  let p := deleteRv h' m x
  (p.1, { p.2 with marg := p.2.marg ++ [x] })

/-- Lines 270-296: the loop.  The state is returned with the exception.
pymc_extras/model/marginal/marginal_model.py:270-296 -/
def marginalizeLoop (kind : String → Kind) : List String → Heap → Mdl → (Heap × Mdl) × Option Err
  | [], h, m => ((h, m), none)
  | x :: xs, h, m =>
    if x ∉ m.free then ((h, m), some .valueError)
    else match kindError (kind x) with
      | some e => ((h, m), some e)
      | none => let p := moveOne h m x; marginalizeLoop kind xs p.1 p.2

/-- Lines 264-268: the argument of the method.  A string is itself a `Sequence`.
pymc_extras/model/marginal/marginal_model.py:264-268 -/
inductive Arg
  | str (s : String)
  | var (s : String)
  | list (l : List Item)

/-- Lines 264-265. pymc_extras/model/marginal/marginal_model.py:264-265 -/
def Arg.items : Arg → List Item
  | .str s => s.toList.map (fun c => Item.name (String.singleton c))
  | .var s => [.var s]
  | .list l => l

/-- Lines 260-299 `MarginalModel.marginalize`.  `check` is the outcome of
`self.clone()._marginalize(user_warnings=True)` on the resulting model (299), which works on a clone
and changes no dictionary. pymc_extras/model/marginal/marginal_model.py:260-299 -/
def marginalizeMethod (kind : String → Kind) (check : Mdl → Bool) (a : Arg) (h : Heap) (m : Mdl) :
    (Heap × Mdl) × Option Err :=
  match a.items.mapM (resolve m) with
  | .error e => ((h, m), some e)
  | .ok xs =>
    match marginalizeLoop kind xs h m with
    | (s, some e) => (s, some e)
    | (s, none) => if check s.2 then (s, none) else (s, some .check)

/-- Lines 219-255 `from_model`: a plain model gets a new, empty dictionary of marginalised dims; both
other dictionaries are shared with the original. pymc_extras/model/marginal/marginal_model.py:219-255 -/
def fromModel (h : Heap) (m : Mdl) (isMarginal : Bool) : Heap × Mdl :=
  if isMarginal then (h, m)
  else ({ dict := fun r => if r = h.next then fun _ => none else h.dict r, next := h.next + 1 },
        { m with marg := [], mdims := h.next })

/-- Lines 516-542: the function `marginalize`, whose argument may be a single name or variable; names
are taken from variables (538).  Returns the heap, the new model and the exception.
pymc_extras/model/marginal/marginal_model.py:516-542 -/
def marginalizeFun (kind : String → Kind) (check : Mdl → Bool) (names : List String) (isMarginal : Bool)
    (h : Heap) (m : Mdl) : (Heap × Mdl) × Option Err :=
  let p := fromModel h m isMarginal
  marginalizeMethod kind check (.list (names.map Item.name)) p.1 p.2

/-- Lines 319-328, one iteration of `unmarginalize`: `Model.register_rv` appends the variable to the
free variables and raises ValueError if the name is taken. pymc_extras/model/marginal/marginal_model.py:319-328 -/
def unmarginalizeOne (h : Heap) (m : Mdl) (i : Item) : (Heap × Mdl) × Option Err :=
  match resolve m i with
  | .error e => ((h, m), some e)
  | .ok x =>
    if x ∉ m.marg then ((h, m), some .valueError)
    else
      let m1 := { m with marg := m.marg.erase x }
      let d := h.dict m.mdims x
      let h1 := h.set m.mdims x none
      if x ∈ m1.named then ((h1, m1), some .valueError)
      else
        let h2 := match d with
          | some d => h1.set m.dims x (some d)
          | none => h1
        ((h2, { m1 with named := m1.named ++ [x], free := m1.free ++ [x] }), none)

/-- Lines 319-328: the loop. pymc_extras/model/marginal/marginal_model.py:319-328 -/
def unmarginalize : List Item → Heap → Mdl → (Heap × Mdl) × Option Err
  | [], h, m => ((h, m), none)
  | i :: is, h, m => match unmarginalizeOne h m i with
    | (s, some e) => (s, some e)
    | (s, none) => unmarginalize is s.1 s.2

/-- Lines 381-388: the variables to recover, or the ValueError. pymc_extras/model/marginal/marginal_model.py:381-388 -/
def recoverTargets (m : Mdl) (names : Option (List Item)) : Except Err (List String) :=
  let ns : List String := match names with
    | none => m.marg
    | some l => l.map Item.target
  let vars := m.marg.filter (fun v => decide (v ∈ ns))
  let missing := vars.filter (fun v => decide (v ∉ m.marg))
  if missing ≠ [] then .error .valueError else .ok vars

/-- Lines 415-425: for each target, a clone is made and the target unmarginalised in it.  Only the
effect on the shared dictionaries is returned. pymc_extras/model/marginal/marginal_model.py:415-425 -/
def recoverEffect : List String → Heap → Mdl → Heap
  | [], h, _ => h
  | x :: xs, h, m =>
    let c := fromModel h m true
    recoverEffect xs (unmarginalizeOne c.1 c.2 (.var x)).1.1 m

end MargState
