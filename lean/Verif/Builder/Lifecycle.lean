import Mathlib.Data.Int.Notation
import Mathlib.Data.Nat.Notation
import Mathlib.Data.List.Nodup

/-!
# A model builder's life: what it is conditioned on and what it writes to disk

Model of `pymc_extras/model_builder.py` (`fit` 460-527, `sample_model` 271-312, `predict` 529-573, `sample_prior_predictive`
575-625, `sample_posterior_predictive` 627-657, `get_params`/`set_params` 659-673, `save` 357-391, `load` 412-458) with the data
handling of `pymc_extras/linearmodel.py` (48-130).  One feature row is an element of `α`, one target value an element of `β`;
`none` is a missing value (`NaN`).  What `pm.sample` returns is represented by what it is conditioned on: the configuration the
model was built with and the data in it.  Configurations are taken to survive the JSON round trip (C52, C53 say which do).
-/

set_option autoImplicit false

namespace Lifecycle

/-- Exceptions. pymc_extras/model_builder.py:301, 391, 454, 566 -/
inductive Err
  | attributeError | runtimeError | shapeError | invalidIndex | assertion | keyError
  deriving DecidableEq, Repr

/-! ### The data frame stored with the fit -/

/-- Labels (index) and values. pymc_extras/model_builder.py:504-506, 516-517 -/
structure Labelled (α : Type) where
  labels : List ℤ
  vals : List α

/-- `Index` of a frame made from plain values. model_builder.py:506 -/
def rangeIndex {α : Type} (vals : List α) : Labelled α := ⟨(List.range vals.length).map fun i : ℕ => (i : ℤ), vals⟩

/-- Value at a label: pandas' `reindex`. pymc_extras/model_builder.py:516-517 -/
def Labelled.at? {α : Type} (s : Labelled α) (l : ℤ) : Option α :=
  ((s.labels.zip s.vals).find? fun p => p.1 == l).map Prod.snd

/-- The features: a data frame (with the truth value of all its column names) or a numpy array.
pymc_extras/model_builder.py:502-506 -/
inductive XArg (α : Type)
  | frame (s : Labelled α) (namesNonEmpty : Bool)
  | array (vals : List α)

/-- The rows. pymc_extras/model_builder.py:502-506 -/
def XArg.vals {α : Type} : XArg α → List α
  | .frame s _ => s.vals
  | .array v => v

/-- The target: a series with an index, plain values, or nothing. pymc_extras/model_builder.py:502-506 -/
inductive YArg (β : Type)
  | series (s : Labelled β)
  | plain (vals : List β)
  | absent

/-- `y = np.zeros(X.shape[0])` if absent; `y = pd.DataFrame({self.output_var: y})`. model_builder.py:504-506 -/
def yFrame {α β : Type} (zero : β) (x : XArg α) : YArg β → Labelled β
  | .series s => s
  | .plain v => rangeIndex v
  | .absent => rangeIndex (x.vals.map fun _ => zero)

/-- `pd.concat([X_df, y], axis=1)`: equal indices are kept as they are, otherwise the union of the labels is used (those of the
first frame, then the others), for which every index must be free of repetitions. (For date indices pandas may sort the union.)
model_builder.py:516-517 -/
def concat {α β : Type} (x : Labelled α) (y : Labelled β) : Except Err (List (Option α × Option β)) :=
  if x.labels = y.labels then .ok ((x.vals.zip y.vals).map fun p => (some p.1, some p.2))
  else if x.labels.Nodup ∧ y.labels.Nodup then
    .ok ((x.labels ++ y.labels.filter fun l => l ∉ x.labels).map fun l => (x.at? l, y.at? l))
  else .error .invalidIndex

/-! ### State -/

/-- A built PyMC model: the configuration used by `build_model` and the two data containers. linearmodel.py:68-101 -/
structure Model (C α β : Type) where
  config : C
  x : List (Option α)
  y : List (Option β)

/-- The groups of the inference data that matter here: the posterior (what it is conditioned on), the configuration written into
the attributes, and the `fit_data` group. pymc_extras/model_builder.py:305-312, 516-519 -/
structure Idata (C α β : Type) where
  posterior : Option (Model C α β)
  attrs : C
  fitData : Option (List (Option α × Option β))

/-- The estimator object. model_builder.py:75-86 -/
structure Est (C α β : Type) where
  config : C
  model : Option (Model C α β)
  idata : Option (Idata C α β)

/-- `__init__` with a configuration. model_builder.py:54-86 -/
def init {C α β : Type} (c : C) : Est C α β := ⟨c, none, none⟩

/-- `build_model`: a new model, then `_data_setter`. linearmodel.py:48-95 -/
def build {C α β : Type} (c : C) (x : List (Option α)) (y : List (Option β)) : Model C α β := ⟨c, x, y⟩

/-- `_data_setter`: the target only if one is given. linearmodel.py:97-101 -/
def dataSetter {C α β : Type} (m : Model C α β) (x : List (Option α)) (y : Option (List (Option β))) : Model C α β :=
  match y with
  | none => { m with x := x }
  | some y => { m with x := x, y := y }

/-- `sample_model`: the posterior given the data now in the model; data of different lengths cannot be evaluated.
model_builder.py:300-312 -/
def sampleModel {C α β : Type} (e : Est C α β) : Except Err (Idata C α β) :=
  match e.model with
  | none => .error .runtimeError
  | some m => if m.x.length = m.y.length then .ok ⟨some m, e.config, none⟩ else .error .shapeError

/-- `fit`: the object afterwards, and the exception if there was one. model_builder.py:502-527, linearmodel.py:130 -/
def fit {C α β : Type} (zero : β) (e : Est C α β) (x : XArg α) (y : YArg β) : Est C α β × Option Err :=
  let yf := yFrame zero x y
  let e1 : Est C α β := { e with model := some (build e.config (x.vals.map some) (yf.vals.map some)) }
  match sampleModel e1 with
  | .error err => (e1, some err)
  | .ok idata =>
    let e2 : Est C α β := { e1 with idata := some idata }
    match x with
    | .array _ => (e2, some .attributeError)
    | .frame s named =>
      match concat s yf with
      | .error err => (e2, some err)
      | .ok rows =>
        if named then ({ e2 with idata := some { idata with fitData := some rows } }, none)
        else (e2, some .assertion)

/-- `sample_posterior_predictive` (and `predict`, `predict_posterior`): sets the features, then needs a posterior. The draws
are those of the stored posterior at the new features. model_builder.py:646-657 -/
def predict {C α β : Type} (e : Est C α β) (x : List α) : Est C α β × Except Err (Model C α β × List α) :=
  match e.model with
  | none => (e, .error .attributeError)
  | some m =>
    let e1 : Est C α β := { e with model := some (dataSetter m (x.map some) none) }
    match e.idata with
    | none => (e1, .error .attributeError)
    | some i =>
      match i.posterior with
      | none => (e1, .error .attributeError)
      | some p => (e1, .ok (p, x))

/-- `sample_prior_predictive`. model_builder.py:605-621 -/
def priorPredictive {C α β : Type} (zero : β) (e : Est C α β) (x : List α) (y : Option (List β)) (extend : Bool) : Est C α β :=
  let ys := (y.getD (x.map fun _ => zero)).map some
  let m := match e.model with
    | none => build e.config (x.map some) ys
    | some m => dataSetter m (x.map some) (some ys)
  let idata := match extend, e.idata with
    | false, i => i
    | true, some i => some i
    | true, none => some ⟨none, e.config, none⟩
  ⟨e.config, some m, idata⟩

/-- `set_params(model_config=..., sampler_config=...)`. model_builder.py:668-673 -/
def setParams {C α β : Type} (e : Est C α β) (c : C) : Est C α β := { e with config := c }

/-- `get_params`. model_builder.py:659-666 -/
def getParams {C α β : Type} (e : Est C α β) : C := e.config

/-- `save`: what is in the file. model_builder.py:387-391 -/
def save {C α β : Type} (e : Est C α β) : Except Err (Idata C α β) :=
  match e.idata with
  | none => .error .runtimeError
  | some i => if i.posterior.isSome then .ok i else .error .runtimeError

/-- `load`: a new object with the stored configuration, rebuilt on the `fit_data` group. model_builder.py:438-458 -/
def load {C α β : Type} (i : Idata C α β) : Except Err (Est C α β) :=
  match i.fitData with
  | none => .error .attributeError
  | some rows => .ok ⟨i.attrs, some (build i.attrs (rows.map Prod.fst) (rows.map Prod.snd)), some i⟩

/-! ### Histories -/

/-- One call of the user. The public methods, pymc_extras/model_builder.py:357, 412, 460, 529, 575, 627, 668 -/
inductive Call (C α β : Type)
  | fit (x : XArg α) (y : YArg β)
  | predict (x : List α)
  | priorPredictive (x : List α) (y : Option (List β)) (extend : Bool)
  | setParams (c : C)
  | sampleModel
  | saveAndLoad

/-- The object after a call (exceptions are caught by the user; a failing `load` leaves the old object).
pymc_extras/model_builder.py:357-391, 412-458, 460-527, 575-657, 668-673 -/
def step {C α β : Type} (zero : β) (e : Est C α β) : Call C α β → Est C α β
  | .fit x y => (fit zero e x y).1
  | .predict x => (predict e x).1
  | .priorPredictive x y ex => priorPredictive zero e x y ex
  | .setParams c => setParams e c
  | .sampleModel => e
  | .saveAndLoad =>
    match save e with
    | .error _ => e
    | .ok f => match load f with
      | .error _ => e
      | .ok e' => e'

/-- The object after a history. Any sequence of the public calls, pymc_extras/model_builder.py:357-673 -/
def run {C α β : Type} (zero : β) (e : Est C α β) (cs : List (Call C α β)) : Est C α β := cs.foldl (step zero) e

end Lifecycle
