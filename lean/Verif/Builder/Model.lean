import Mathlib.Data.List.Basic
import Mathlib.Data.Nat.Notation
import Mathlib.Data.Int.Notation

/-!
# ModelBuilder

Model of `pymc_extras/model_builder.py`: identifiers (736-759), attributes (343-355), saving and
loading (387-458), the sampler arguments of `fit` and `sample_model` (305-311, 510-514), and the
effect of the prediction methods on the stored inference data and on the model's data (605-657).

Configuration values are Python values as a tree.  Dictionary keys are strings; floats are their
`repr` token (JSON round-trips it exactly); string escapes are not modelled; arrays carry a dtype and
their nested list of values.  SHA-256 is an arbitrary function of the text.
-/

set_option autoImplicit false

namespace Builder

/-- A Python configuration value. pymc_extras/model_builder.py:54-86 (model_config, sampler_config) -/
inductive Val
  | none
  | bool (b : Bool)
  | int (n : ℤ)
  | float (token : String)
  | str (s : String)
  | list (l : List Val)
  | tuple (l : List Val)
  | arr (dtype : String) (data : List Val)
  | dict (l : List (String × Val))

/-- Exceptions. pymc_extras/model_builder.py:346, 391, 454 -/
inductive BErr
  | typeError
  | valueError
  | runtimeError
  | keyError
  deriving DecidableEq, Repr

/-- `", ".join` Used by Python's repr, pymc_extras/model_builder.py:756 -/
def joinWith (sep : String) : List String → String
  | [] => ""
  | [a] => a
  | a :: b :: r => a ++ sep ++ joinWith sep (b :: r)

mutual
/-- Python `repr` (used by `str(model_config.values())`, model_builder.py:756).  NumPy writes the dtype
of an array only when it is not the default and formats long or nested arrays differently; here it is
always written. -/
def repr : Val → String
  | .none => "None"
  | .bool b => if b then "True" else "False"
  | .int n => toString n
  | .float t => t
  | .str s => "'" ++ s ++ "'"
  | .list l => "[" ++ joinWith ", " (reprList l) ++ "]"
  | .tuple l => if l.length = 1 then "(" ++ joinWith ", " (reprList l) ++ ",)"
      else "(" ++ joinWith ", " (reprList l) ++ ")"
  | .arr dt l => "array([" ++ joinWith ", " (reprList l) ++ "], dtype=" ++ dt ++ ")"
  | .dict l => "{" ++ joinWith ", " (reprPairs l) ++ "}"
/-- `repr` of each element. pymc_extras/model_builder.py:756 -/
def reprList : List Val → List String
  | [] => []
  | v :: l => repr v :: reprList l
/-- `repr` of each item. pymc_extras/model_builder.py:756 -/
def reprPairs : List (String × Val) → List String
  | [] => []
  | (k, v) :: l => ("'" ++ k ++ "': " ++ repr v) :: reprPairs l
end

mutual
/-- `json.loads(json.dumps(v))`: tuples come back as lists, arrays are not serialisable
(model_builder.py:350-351, 441-444). -/
def jsonTrip : Val → Except BErr Val
  | .none => .ok .none
  | .bool b => .ok (.bool b)
  | .int n => .ok (.int n)
  | .float t => .ok (.float t)
  | .str s => .ok (.str s)
  | .list l => do let l' ← jsonTripList l; .ok (.list l')
  | .tuple l => do let l' ← jsonTripList l; .ok (.list l')
  | .arr _ _ => .error .typeError
  | .dict l => do let l' ← jsonTripPairs l; .ok (.dict l')
/-- Elementwise. pymc_extras/model_builder.py:350-351, 441-444 -/
def jsonTripList : List Val → Except BErr (List Val)
  | [] => .ok []
  | v :: l => do let v' ← jsonTrip v; let l' ← jsonTripList l; .ok (v' :: l')
/-- On items. pymc_extras/model_builder.py:350-351, 441-444 -/
def jsonTripPairs : List (String × Val) → Except BErr (List (String × Val))
  | [] => .ok []
  | (k, v) :: l => do let v' ← jsonTrip v; let l' ← jsonTripPairs l; .ok ((k, v') :: l')
end

/-- A configuration: the items of the dictionary, in insertion order. pymc_extras/model_builder.py:81-84 -/
abbrev Config := List (String × Val)

/-- model_builder.py:402-408: one value of a sub-dictionary.  `dtypeOf` is the dtype `np.array`
chooses. -/
def formatSub (dtypeOf : List Val → String) (k : String) : Val → Val
  | .list l => if k = "dims" then .tuple l else .arr (dtypeOf l) l
  | v => v

/-- model_builder.py:399-408: one top-level value. -/
def formatTop (dtypeOf : List Val → String) : Val → Val
  | .dict l => .dict (l.map (fun p => (p.1, formatSub dtypeOf p.1 p.2)))
  | v => v

/-- model_builder.py:394-409 `_model_config_formatting`. -/
def formatting (dtypeOf : List Val → String) (c : Config) : Config :=
  c.map (fun p => (p.1, formatTop dtypeOf p.2))

/-- model_builder.py:756-758: the text that is hashed. -/
def idText (c : Config) (version modelType : String) : String :=
  "dict_values([" ++ joinWith ", " (c.map (fun p => repr p.2)) ++ "])" ++ version ++ modelType

/-- model_builder.py:736-759 `id`: the first 16 characters of the hash (the documentation says the
last). -/
def modelId (sha : String → String) (c : Config) (version modelType : String) : String :=
  String.ofList ((sha (idText c version modelType)).toList.take 16)

/-- A subclass of `ModelBuilder`: type, version and `_serializable_model_config` (675-686).
pymc_extras/model_builder.py:49-50, 675-686 -/
structure Cls where
  modelType : String
  version : String
  ser : Config → Config

/-- What a saved file contains (347-351, 387-389). pymc_extras/model_builder.py:347-351, 387-389 -/
structure File where
  id : String
  modelConfig : Config
  samplerConfig : Config

/-- model_builder.py:343-355 then 387-389: attributes written to the inference data and saved. -/
def save (sha : String → String) (c : Cls) (mc sc : Config) : Except BErr File := do
  let sc' ← jsonTripPairs sc
  let mc' ← jsonTripPairs (c.ser mc)
  .ok ⟨modelId sha mc c.version c.modelType, mc', sc'⟩

/-- model_builder.py:412-458 `load`: returns the configurations of the new model. -/
def load (sha : String → String) (dtypeOf : List Val → String) (c : Cls) (f : File) :
    Except BErr (Config × Config) :=
  let mc := formatting dtypeOf f.modelConfig
  if modelId sha mc c.version c.modelType ≠ f.id then .error .valueError
  else .ok (mc, f.samplerConfig)

/-! ### Sampler arguments -/

/-- Keyword arguments: a dictionary. pymc_extras/model_builder.py:305, 510-513 -/
abbrev Kw (V : Type) := String → Option V

/-- `{**a, **b}` and `a.update(**b)`. pymc_extras/model_builder.py:306, 513 -/
def merge {V : Type} (a b : Kw V) : Kw V := fun k => (b k).or (a k)

/-- Dictionary objects. pymc_extras/model_builder.py:510 -/
structure DictHeap (V : Type) where
  dict : ℕ → Kw V
  next : ℕ

/-- `d.copy()` pymc_extras/model_builder.py:510 -/
def DictHeap.copy {V : Type} (h : DictHeap V) (r : ℕ) : DictHeap V × ℕ :=
  (⟨fun q => if q = h.next then h.dict r else h.dict q, h.next + 1⟩, h.next)

/-- Replace the contents of a dictionary object. pymc_extras/model_builder.py:511-513 -/
def DictHeap.put {V : Type} (h : DictHeap V) (r : ℕ) (d : Kw V) : DictHeap V :=
  ⟨fun q => if q = r then d else h.dict q, h.next⟩

/-- `d[k] = v` pymc_extras/model_builder.py:511-512 -/
def setKey {V : Type} (d : Kw V) (k : String) (v : V) : Kw V := fun q => if q = k then some v else d q

/-- model_builder.py:510-514 and 306: `stored` refers to `self.sampler_config`; returns the heap and
the keyword arguments given to `pm.sample`. -/
def fitSampler {V : Type} (h : DictHeap V) (stored : ℕ) (progressbar seed : V) (kwargs : Kw V) :
    DictHeap V × Kw V :=
  let c := h.copy stored
  let h1 := c.1.put c.2 (setKey (c.1.dict c.2) "progressbar" progressbar)
  let h2 := h1.put c.2 (setKey (h1.dict c.2) "random_seed" seed)
  let h3 := h2.put c.2 (merge (h2.dict c.2) kwargs)
  (h3, merge (h3.dict stored) (h3.dict c.2))

/-! ### Stored inference data -/

/-- Inference data: groups by name. pymc_extras/model_builder.py:519, 619, 651 -/
abbrev Groups (G : Type) := String → Option G

/-- `InferenceData.extend(other, join="right")`. pymc_extras/model_builder.py:308-309, 619, 651 -/
def extendRight {G : Type} (a b : Groups G) : Groups G := fun k => (b k).or (a k)

/-- A builder object: stored inference data and the data last set on the model (`none`: not built).
pymc_extras/model_builder.py:82-86 -/
structure Obj (G X : Type) where
  idata : Option (Groups G)
  data : Option X

/-- Calls on a builder object.  The groups a sampler returns are part of the call. pymc_extras/model_builder.py:575-657 -/
inductive Call (G X : Type)
  | fit (x : X) (sampled prior post : Groups G) (fitData : G)
  | priorPredictive (x : X) (result : Groups G) (extend : Bool)
  | posteriorPredictive (x : X) (result : Groups G) (extend : Bool)

/-- One call: model_builder.py:305-311 and 502-527 (`fit`), 605-625, 646-657.
`sample_posterior_predictive` before `fit` is an error (`self.idata` or the model is None, or there is
no posterior group to sample from). -/
def step {G X : Type} (o : Obj G X) : Call G X → Option (Obj G X)
  | .fit x s pr po fd =>
    some ⟨some (fun k => if k = "fit_data" then some fd
      else extendRight (extendRight s pr) po k), some x⟩
  | .priorPredictive x r ext =>
    if ext then
      match o.idata with
      | some g => some ⟨some (extendRight g r), some x⟩
      | none => some ⟨some r, some x⟩
    else some ⟨o.idata, some x⟩
  | .posteriorPredictive x r ext =>
    match o.data, o.idata with
    | some _, some g =>
      if (g "posterior").isNone then none
      else some ⟨some (if ext then extendRight g r else g), some x⟩
    | _, _ => none

/-- A history of calls. pymc_extras/model_builder.py:575-657 -/
def runCalls {G X : Type} : List (Call G X) → Obj G X → Option (Obj G X)
  | [], o => some o
  | c :: cs, o => (step o c).bind (runCalls cs)

/-! ### as_model -/

/-- model_api.py:46-54: a call of the decorated function.  The state is whether `model_kwargs` still
holds `coords`; the result is the coords of the model. -/
def asModelCall {V : Type} (state : Option (Kw V)) (call : Kw V) : Option (Kw V) × Kw V :=
  (none, merge (state.getD (fun _ => none)) call)

/-- A history of calls. pymc_extras/model/model_api.py:46-54 -/
def asModelCalls {V : Type} : List (Kw V) → Option (Kw V) → List (Kw V)
  | [], _ => []
  | c :: cs, s => (asModelCall s c).2 :: asModelCalls cs (asModelCall s c).1

end Builder
