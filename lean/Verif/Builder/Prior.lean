import Mathlib.Algebra.Field.Defs
import Mathlib.Algebra.BigOperators.Group.List.Basic

/-!
# prior_from_idata

Model of `pymc_extras/utils/prior.py`.  A posterior variable is its shape (without the chain and draw
axes) and, for each draw of the stacked chains, the flat row-major list of its values.  A transform
acts on one draw at a time (the code applies it to all draws at once and to one vector on the way
back).  The Cholesky factor is an argument.
-/

set_option autoImplicit false

namespace PriorFrom

/-- A dense array: shape and row-major values. pymc_extras/utils/prior.py:86-100 -/
structure Arr (α : Type) where
  shape : List ℕ
  vals : List α

/-- The number of values fits the shape. NumPy's invariant, used at pymc_extras/utils/prior.py:95-100 -/
def Arr.wf {α : Type} (a : Arr α) : Prop := a.vals.length = a.shape.prod

/-- A transform (`pymc.logprob.transforms.Transform`): new shape and values of one draw.
pymc_extras/utils/prior.py:90-93, 126-127 -/
structure Transform (α : Type) where
  forward : Arr α → Arr α
  backward : Arr α → Arr α

/-- prior.py:27-30 `ParamCfg`. -/
structure Cfg (α : Type) where
  name : String
  transform : Option (Transform α)
  dims : Option (List String)

/-- The forms a keyword argument may take (49-63). pymc_extras/utils/prior.py:49-63 -/
inductive Arg (α : Type)
  | none
  | dims (d : List String)
  | rename (s : String)
  | transform (t : Transform α)
  | cfg (name : Option String) (transform : Option (Transform α)) (dims : Option (List String))

/-- prior.py:49-63 `_arg_to_param_cfg`. -/
def argToCfg {α : Type} (key : String) : Arg α → Cfg α
  | .none => ⟨key, .none, .none⟩
  | .dims d => ⟨key, .none, some d⟩
  | .rename s => ⟨s, .none, .none⟩
  | .transform t => ⟨key, some t, .none⟩
  | .cfg n t d => ⟨n.getD key, t, d⟩

/-- `d[k] = v` on an insertion-ordered dictionary. pymc_extras/utils/prior.py:73 -/
def dictSet {β : Type} (d : List (String × β)) (k : String) (v : β) : List (String × β) :=
  if d.any (fun p => p.1 == k) then d.map (fun p => if p.1 = k then (k, v) else p) else d ++ [(k, v)]

/-- prior.py:66-74 `_parse_args`. -/
def parseArgs {α : Type} (varNames : List String) (kwargs : List (String × Arg α)) :
    List (String × Cfg α) :=
  let r1 := varNames.foldl (fun d v => dictSet d v (argToCfg v Arg.none)) []
  kwargs.foldl (fun d p => dictSet d p.1 (argToCfg p.1 p.2)) r1

/-- prior.py:102-104: information about one variable. -/
structure Info (α : Type) where
  shape : List ℕ
  start : ℕ
  stop : ℕ
  cfg : Cfg α

/-- prior.py:95-97: the transform, if any. -/
def fwd {α : Type} (c : Cfg α) (a : Arr α) : Arr α :=
  match c.transform with
  | some t => t.forward a
  | none => a

/-- prior.py:126-127 -/
def bwd {α : Type} (c : Cfg α) (a : Arr α) : Arr α :=
  match c.transform with
  | some t => t.backward a
  | none => a

/-- A posterior group: for every variable its draws (at least one, all of the same shape).
pymc_extras/utils/prior.py:78-88 -/
abbrev Posterior (α : Type) := String → Option (List (Arr α))

/-- prior.py:82-105: the loop of `_flatten`.  `rows` is the concatenation so far, one list per draw.
`posterior[key]` of an unknown variable is a KeyError (`none`); the shape is that of the first draw. -/
def flattenLoop {α : Type} (post : Posterior α) : List (String × Cfg α) → ℕ → List (List α) →
    List (Info α) → Option (List (List α) × List (Info α))
  | [], _, rows, infos => some (rows, infos)
  | (key, cfg) :: rest, start, rows, infos =>
    match post key with
    | none => none
    | some draws =>
      let data := draws.map (fwd cfg)
      let shape := (data.head?.map Arr.shape).getD []
      let width := (data.head?.map (fun a => a.vals.length)).getD 0
      let stop := start + width
      flattenLoop post rest stop (List.zipWith (fun r a => r ++ a.vals) rows data)
        (infos ++ [⟨shape, start, stop, cfg⟩])

/-- prior.py:77-106 `_flatten` for `S` draws. -/
def flatten {α : Type} (post : Posterior α) (S : ℕ) (cfgs : List (String × Cfg α)) :
    Option (List (List α) × List (Info α)) :=
  flattenLoop post cfgs 0 (List.replicate S []) []

/-- `v[slice(a, b)]` pymc_extras/utils/prior.py:103, 125 -/
def slice {α : Type} (a b : ℕ) (v : List α) : List α := (v.drop a).take (b - a)

/-- prior.py:122-129: one entry of the result, from the joint vector. -/
def unflatten {α : Type} (interim : List α) (i : Info α) : String × Arr α :=
  (i.cfg.name, bwd i.cfg ⟨i.shape, slice i.start i.stop interim⟩)

/-- prior.py:110: `flat_array.mean(0)` of rows of width `n`. -/
def meanRow {K : Type} [Field K] (n : ℕ) (rows : List (List K)) : List K :=
  (List.range n).map (fun j => (rows.map (fun r => r.getD j 0)).sum / (rows.length : K))

/-- prior.py:120: `mean + chol @ base_dist`. -/
def interim {K : Type} [Field K] (n : ℕ) (mean : List K) (chol : ℕ → ℕ → K) (z : ℕ → K) : List K :=
  (List.range n).map (fun i => mean.getD i 0 + ((List.range n).map (fun j => chol i j * z j)).sum)

end PriorFrom
