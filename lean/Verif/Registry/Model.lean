import Verif.Data.Model
import Mathlib.Data.List.Basic
import Mathlib.Data.Nat.Notation
import Mathlib.Data.Int.Notation

/-!
# Placeholders, and how `build_statespace_graph` fills them from a PyMC model

pymc_extras/statespace/core/statespace.py:459-542, 638-738, 851-901, 953-1014 and the same registration functions of a
structural component (pymc_extras/statespace/models/structural.py:405-484).

A symbolic matrix is an expression tree over leaves; sharing in the PyTensor graph is not represented.  A placeholder is
identified by the dictionary it lives in and its name (the registries never hold two entries under one name).  What the
remaining steps of `build_statespace_graph` do (registering the observed data, building the filter) is a parameter: they
succeed or fail.  A value held by a data container is represented by a number.
-/

set_option autoImplicit false

namespace Verif.Registry

/-- Exceptions of this part. pymc_extras/statespace/core/statespace.py:489-499, 644, 692-703, 731-735, 965-969 -/
inductive Err
  | notDeclared
  | alreadyRegistered
  | missing (names : List String)
  | excess (names : List String)
  | missingData (names : List String)
  | keyError
  | attributeError
  | unusedReplacement
  | typeError
  | duplicateName
  | notBuilt
  | other
deriving DecidableEq

/-- Type of a tensor: dtype and static shape, an entry `none` being unknown.
pymc_extras/statespace/core/statespace.py:501, 540 -/
structure Ty where
  dtype : String
  shape : List (Option ℕ)
deriving DecidableEq

/-- A leaf of a symbolic matrix: a parameter placeholder, a data placeholder, or a variable of the PyMC model.
pymc_extras/statespace/core/statespace.py:501-502, 540-541, 707, 737 -/
inductive Leaf
  | param (name : String)
  | data (name : String)
  | model (name : String)
deriving DecidableEq

/-- A symbolic matrix. pymc_extras/statespace/core/statespace.py:544-599 -/
inductive Expr
  | const (c : ℤ)
  | leaf (l : Leaf)
  | app (f : String) (n : ℕ) (args : Fin n → Expr)

/-- The leaves of an expression, from left to right. pymc_extras/statespace/core/statespace.py:708 -/
def Expr.leaves : Expr → List Leaf
  | .const _ => []
  | .leaf l => [l]
  | .app _ _ args => (List.ofFn fun i => (args i).leaves).flatten

/-- Replacement of leaves. pymc_extras/statespace/core/statespace.py:708 -/
def Expr.subst (σ : Leaf → Leaf) : Expr → Expr
  | .const c => .const c
  | .leaf l => .leaf (σ l)
  | .app f n args => .app f n fun i => (args i).subst σ

/-- The value of an expression, for an interpretation of constants and operations and values of the leaves.
pymc_extras/statespace/core/statespace.py:708 -/
def Expr.eval {V : Type} (K : ℤ → V) (I : String → (n : ℕ) → (Fin n → V) → V) (ρ : Leaf → V) : Expr → V
  | .const c => K c
  | .leaf l => ρ l
  | .app f n args => I f n fun i => (args i).eval K I ρ

/-- A variable of the PyMC model: a random variable, or a data container with its current value.
pymc_extras/statespace/core/statespace.py:643-649, 687 -/
inductive Kind
  | rv
  | data (value : ℕ)
deriving DecidableEq

/-- A named variable of the PyMC model; `short` is the name without the prefix of a named model.
pymc_extras/statespace/core/statespace.py:643-649, 687 -/
structure Entry where
  short : String
  kind : Kind
  ty : Ty
  dims : Option (List String)
deriving DecidableEq

/-- The PyMC model on the context stack: its own name and its variables. pymc_extras/statespace/core/statespace.py:683 -/
structure Pm where
  pre : String
  entries : List Entry
deriving DecidableEq

/-- The `name` attribute of a variable: PyMC prepends the name of a named model.
pymc_extras/statespace/core/statespace.py:689, 728 -/
def Pm.full (m : Pm) (n : String) : String := if m.pre = "" then n else m.pre ++ "::" ++ n

/-- `getattr(pymc_model, name, None)`: attributes are set under the name without prefix.  Names that clash with other
attributes of the model object are not modelled. pymc_extras/statespace/core/statespace.py:687, 726 -/
def Pm.attr (m : Pm) (n : String) : Option Entry := m.entries.find? fun e => e.short = n

/-- `pymc_model[name]`: the full name is tried first, then the name with the prefix added.
pymc_extras/statespace/core/statespace.py:644, 707, 737 -/
def Pm.item (m : Pm) (n : String) : Option Entry :=
  match m.entries.find? fun e => m.full e.short = n with
  | some e => some e
  | none => m.entries.find? fun e => m.full e.short = m.full n

/-- The state space object. pymc_extras/statespace/core/statespace.py:224-241 -/
structure Obj where
  paramNames : List String
  dataNames : List String
  vars : List (String × Ty)
  datas : List (String × Ty)
  matrices : List Expr
  subbed : Option (List Expr)
  exogInfo : List (String × Entry)
  fitDims : Option (List (String × List String))
  fitData : Option ℕ

/-- The object at the start of `make_symbolic_graph`. pymc_extras/statespace/core/statespace.py:224-244 -/
def Obj.fresh (paramNames dataNames : List String) : Obj :=
  { paramNames, dataNames, vars := [], datas := [], matrices := [], subbed := none, exogInfo := [], fitDims := none,
    fitData := none }

/-- `make_and_register_variable(name, shape, dtype)`.
pymc_extras/statespace/core/statespace.py:489-503; pymc_extras/statespace/models/structural.py:433-447 -/
def registerVariable (o : Obj) (name : String) (ty : Ty) : Except Err (Obj × Leaf) :=
  if name ∉ o.paramNames then .error .notDeclared
  else if name ∈ o.vars.map Prod.fst then .error .alreadyRegistered
  else .ok ({ o with vars := o.vars ++ [(name, ty)] }, .param name)

/-- `make_and_register_data(name, shape, dtype)`.
pymc_extras/statespace/core/statespace.py:528-542; pymc_extras/statespace/models/structural.py:470-484 -/
def registerData (o : Obj) (name : String) (ty : Ty) : Except Err (Obj × Leaf) :=
  if name ∉ o.dataNames then .error .notDeclared
  else if name ∈ o.datas.map Prod.fst then .error .alreadyRegistered
  else .ok ({ o with datas := o.datas ++ [(name, ty)] }, .data name)

/-- Whether a variable of type `b` may replace a placeholder of type `a`: same dtype, same number of axes, and no two known
lengths that differ. pymc_extras/statespace/core/statespace.py:708, 738 -/
def Ty.accepts (a b : Ty) : Bool :=
  a.dtype == b.dtype && a.shape.length == b.shape.length &&
    (a.shape.zip b.shape).all fun p => match p.1, p.2 with
      | some x, some y => x == y
      | _, _ => true

/-- One replacement: a placeholder and the variable that takes its place. pymc_extras/statespace/core/statespace.py:707, 737 -/
structure Repl where
  key : Leaf
  keyTy : Ty
  new : Leaf
  newTy : Ty

/-- The leaf that takes the place of `l`. pymc_extras/statespace/core/statespace.py:708, 738 -/
def applyRepl (rs : List Repl) (l : Leaf) : Leaf :=
  match rs.find? fun r => r.key = l with
  | some r => r.new
  | none => l

/-- `graph_replace(outputs, replace=…, strict=True)`: a key that does not occur in the outputs raises, then a replacement of
the wrong type raises. pymc_extras/statespace/core/statespace.py:708, 738 -/
def graphReplace (outs : List Expr) (rs : List Repl) : Except Err (List Expr) :=
  if rs.any fun r => outs.all fun e => r.key ∉ e.leaves then .error .unusedReplacement
  else if rs.any fun r => !r.keyTy.accepts r.newTy then .error .typeError
  else .ok (outs.map fun e => e.subst (applyRepl rs))

/-- One entry of the replacement dictionary: the placeholder and the variable `pymc_model[name]`.
pymc_extras/statespace/core/statespace.py:707, 737 -/
def replaceOne (mk : String → Leaf) (m : Pm) (p : String × Ty) : Except Err Repl :=
  match m.item p.1 with
  | none => .error .keyError
  | some e => .ok ⟨mk p.1, p.2, .model (m.full e.short), e.ty⟩

/-- The replacement dictionary: one entry for each registered placeholder.
pymc_extras/statespace/core/statespace.py:707, 737 -/
def replacements (mk : String → Leaf) (m : Pm) (reg : List (String × Ty)) : Except Err (List Repl) :=
  reg.mapM (replaceOne mk m)

/-- `_insert_random_variables`: the new value of `subbed_ssm`. pymc_extras/statespace/core/statespace.py:683-708 -/
def insertRandom (o : Obj) (m : Pm) : Except Err (List Expr) :=
  let found := o.paramNames.filterMap fun n => (m.attr n).map fun e => m.full e.short
  let miss := o.paramNames.filter fun n => n ∉ found
  let exc := found.filter fun n => n ∉ o.paramNames
  if miss ≠ [] then .error (.missing miss)
  else if exc ≠ [] then .error (.excess exc)
  else do
    let rs ← replacements .param m o.vars
    graphReplace o.matrices rs

/-- The record kept for one data name: name, value and dims; a random variable has no `get_value`.
pymc_extras/statespace/core/statespace.py:644-649 -/
def saveOne (m : Pm) (n : String) : Except Err (String × Entry) :=
  match m.item n with
  | none => .error .keyError
  | some e => match e.kind with
    | .rv => .error .attributeError
    | .data _ => .ok (n, { e with short := n })

/-- `_save_exogenous_data_info`. pymc_extras/statespace/core/statespace.py:642-649 -/
def saveExog (o : Obj) (m : Pm) : Except Err (List (String × Entry)) := o.dataNames.mapM (saveOne m)

/-- `_insert_data_variables`: the new value of `subbed_ssm`. pymc_extras/statespace/core/statespace.py:717-738 -/
def insertData (o : Obj) (m : Pm) (subbed : List Expr) : Except Err (List Expr) :=
  let found := o.dataNames.filterMap fun n => (m.attr n).map fun e => m.full e.short
  let miss := o.dataNames.filter fun n => n ∉ found
  if miss ≠ [] then .error (.missingData miss)
  else do
    let rs ← replacements .data m o.datas
    graphReplace subbed rs

/-- `named_vars_to_dims`. pymc_extras/statespace/core/statespace.py:900 -/
def Pm.varDims (m : Pm) : List (String × List String) :=
  m.entries.filterMap fun e => e.dims.map fun d => (m.full e.short, d)

/-- `build_statespace_graph(data)`: the object afterwards and the exception, if one was raised.  `rest` says how the steps
that are not modelled end; `data` stands for the data object passed in, kept by reference.
pymc_extras/statespace/core/statespace.py:851-901 -/
def build (o : Obj) (m : Pm) (data : ℕ) (rest : Except Err Unit) : Obj × Option Err :=
  match insertRandom o m with
  | .error e => (o, some e)
  | .ok s1 =>
    let o1 := { o with subbed := some s1 }
    match saveExog o1 m with
    | .error e => (o1, some e)
    | .ok info =>
      let o2 := { o1 with exogInfo := info }
      match insertData o2 m s1 with
      | .error e => (o2, some e)
      | .ok s2 =>
        let o3 := { o2 with subbed := some s2, fitData := some data }
        match rest with
        | .error e => (o3, some e)
        | .ok _ => ({ o3 with fitDims := some m.varDims }, none)

/-- `unpack_statespace()`. pymc_extras/statespace/core/statespace.py:339-346 -/
def unpack (o : Obj) : Except Err (List Expr) :=
  match o.subbed with
  | none => .error .notBuilt
  | some s => .ok s

/-- Adding a named variable to a PyMC model: a name already in use is refused.
pymc_extras/statespace/core/statespace.py:965, 1006 -/
def Pm.add (m : Pm) (e : Entry) : Except Err Pm :=
  if e.short ∈ m.entries.map Entry.short then .error .duplicateName else .ok { m with entries := m.entries ++ [e] }

/-- `_build_dummy_graph`: one flat variable per parameter, with the shape of its placeholder and the dims found when the
model was built; `floatX` is the dtype PyMC gives it. pymc_extras/statespace/core/statespace.py:964-969 -/
def dummy (floatX : String) (o : Obj) (m : Pm) : Except Err Pm :=
  o.paramNames.foldlM (fun m n =>
    match o.vars.lookup n with
    | none => .error .keyError
    | some ty => match o.fitDims with
      | none => .error .attributeError
      | some dims => m.add ⟨n, .rv, { ty with dtype := floatX }, dims.lookup n⟩) m

/-- `pm.Data(**self._exog_data_info[name])` for every data name that the model does not hold yet.
pymc_extras/statespace/core/statespace.py:1004-1006 -/
def addExog (o : Obj) (m : Pm) : Except Err Pm :=
  o.dataNames.foldlM (fun m n =>
    if n ∈ m.entries.map Entry.short then .ok m
    else match o.exogInfo.lookup n with
      | none => .error .keyError
      | some e => m.add { e with short := n }) m

/-- `pm.set_data({name: scenario[name]})` for every data name in the scenario.
pymc_extras/statespace/core/statespace.py:1010-1012 -/
def setScenario (o : Obj) (scenario : List (String × ℕ)) (m : Pm) : Pm :=
  { m with entries := m.entries.map fun e =>
      if e.short ∈ o.dataNames then
        match scenario.lookup e.short with
        | some v => { e with kind := .data v }
        | none => e
      else e }

/-- The part of `_kalman_filter_outputs_from_dummy_graph` that produces the matrices, in a new PyMC model without a name:
the model with the dummy variables and data, and the matrices. pymc_extras/statespace/core/statespace.py:997-1017 -/
def dummyMatrices (floatX : String) (o : Obj) (scenario : List (String × ℕ)) : Except Err (Pm × List Expr) := do
  let m ← dummy floatX o ⟨"", []⟩
  let s1 ← insertRandom o m
  let m' ← addExog o m
  let s2 ← insertData { o with subbed := some s1 } m' s1
  .ok (setScenario o scenario m', s2)

/-- Registration of the data inside `build_statespace_graph`: the caller's fill value is passed on.
pymc_extras/statespace/core/statespace.py:857-866 -/
def fitRegister {α : Type} [DecidableEq α] (dflt : α) (x : Data.Input α) (nObs : ℕ) (obsCoords : List String)
    (registerData : Bool) (fill? : Option α) (tc : Data.TimeCoord) : Except Data.Err (Data.Registered α) :=
  Data.register dflt x nObs obsCoords registerData fill? tc

/-- Registration of the data by every function that conditions on it after estimation: the data kept from the fit when no
other is given, always registered, and no fill value passed.
pymc_extras/statespace/core/statespace.py:1016-1027 -/
def conditionalRegister {α : Type} [DecidableEq α] (dflt : α) (given? : Option (Data.Input α)) (kept : Data.Input α)
    (nObs : ℕ) (obsCoords : List String) (tc : Data.TimeCoord) : Except Data.Err (Data.Registered α) :=
  Data.register dflt (given?.getD kept) nObs obsCoords true none tc

/-- `FILTER_FACTORY`. pymc_extras/statespace/core/statespace.py:51-55 -/
inductive FilterKind
  | standard
  | univariate
  | cholesky
deriving DecidableEq

/-- The lookup in `FILTER_FACTORY`. pymc_extras/statespace/core/statespace.py:51-55, 245, 253 -/
def factory (s : String) : Option FilterKind :=
  if s = "standard" then some .standard
  else if s = "univariate" then some .univariate
  else if s = "cholesky" then some .cholesky
  else none

/-- The ways the choice of a filter fails. pymc_extras/statespace/core/statespace.py:245-251 -/
inductive FilterErr
  | notImplemented
  | valueError
deriving DecidableEq

/-- Choice of the filter in `PyMCStateSpace.__init__`. pymc_extras/statespace/core/statespace.py:245-253 -/
def chooseFilter (filterType : String) (kEndog : ℕ) : Except FilterErr FilterKind :=
  match factory filterType.toLower with
  | none => .error .notImplemented
  | some k => if filterType = "single" ∧ kEndog > 1 then .error .valueError else .ok k

end Verif.Registry
