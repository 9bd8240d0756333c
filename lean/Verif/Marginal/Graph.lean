import Mathlib.Data.List.Basic
import Mathlib.Data.List.Nodup
import Mathlib.Data.List.Perm.Basic
import Mathlib.Data.List.Range
import Mathlib.Data.List.GetD
import Mathlib.Data.Nat.Notation

/-!
# Batch-dimension tracking between a marginalised variable and its dependents

Model of `pymc_extras/model/marginal/graph_analysis.py` lines 73-372
(`_advanced_indexing_axis_and_ndim`, `_broadcast_dims`, `_subgraph_batch_dim_connection`,
`subgraph_batch_dim_connection`) together with a denotation of the tensor operations the analysis
walks over, so that the reported dims can be compared with what the graph really computes.

Simplifications.
* A graph is the list of nodes in the order `io_toposort` visits them; variables are numbers.
* Every node has one output.  (Nodes with several outputs give each of them the same batch dims.)
* The wildcard nodes of lines 149-177 (nested marginal variables, symbolic variables without
  signature), boolean indexing, partial slices and new axes inside array indexing are left out.
* Tensors are functions of an index `ℕ → ℕ` (coordinate by axis); only the first `ndim` coordinates
  of an index are meaningful.
-/

set_option autoImplicit false

namespace Marginal

/-- Known dims of one tensor: for each axis the axis of the marginalised variable it carries
(graph_analysis.py:99 `DIMS`). -/
abbrev Dims := List (Option ℕ)

/-- The two exceptions of the analysis (graph_analysis.py:121, 128, 200, 223, 242, 288, 318). -/
inductive GErr
  | valueError
  | notImplemented
  deriving DecidableEq, Repr

/-- graph_analysis.py:116-123: the inner loop over the entries of one broadcast column. -/
def mergeCol (col : List (Option ℕ)) : Except GErr (Option ℕ) :=
  col.foldlM (fun out d =>
    match d with
    | none => .ok out
    | some v => if out ≠ none ∧ out ≠ some v then .error .valueError else .ok (some v)) none

/-- graph_analysis.py:109-111: missing dims are added on the left. -/
def padDims (n : ℕ) (d : Dims) : Dims := List.replicate (n - d.length) none ++ d

/-- graph_analysis.py:103-130 `_broadcast_dims`. -/
def broadcastDims (ins : List Dims) : Except GErr Dims := do
  let n := (ins.map List.length).foldl max 0
  let padded := ins.map (padDims n)
  let out ← (List.range n).mapM (fun j => mergeCol (padded.map (fun d => d.getD j none)))
  let known := out.filterMap id
  if known.length > known.dedup.length then .error .valueError else .ok out

/-- One basic-indexing key (graph_analysis.py:237-247): a full slice, another slice, or a scalar
index held by a variable. -/
inductive Key
  | full
  | part (start step : ℕ)
  | int (v : ℕ)
  deriving DecidableEq, Repr

/-- One key of an array-indexing node (graph_analysis.py:253): a full slice or an integer array. -/
inductive AKey
  | full
  | arr (v : ℕ)
  deriving DecidableEq, Repr

/-- Test for an array key (graph_analysis.py:84 `isinstance(idx.type, TensorType)`). -/
def AKey.isArr : AKey → Bool
  | .full => false
  | .arr _ => true

/-- graph_analysis.py:81-93: the loop computing the axis of the advanced-indexing group, with the
loop state `(adv_group_axis, simple_group_after_adv)`; `axis` is the loop counter. -/
def advAxisLoop : List AKey → ℕ → Option ℕ → Bool → Option ℕ
  | [], _, ax, _ => ax
  | .arr _ :: ks, axis, ax, after =>
      if after then some 0
      else match ax with
        | none => advAxisLoop ks (axis + 1) (some axis) after
        | some a => advAxisLoop ks (axis + 1) (some a) after
  | .full :: ks, axis, ax, after =>
      advAxisLoop ks (axis + 1) ax (if ax ≠ none then true else after)

/-- graph_analysis.py:73-96, first component. -/
def advAxis (keys : List AKey) : ℕ := (advAxisLoop keys 0 none false).getD 0

/-- The operations the analysis distinguishes, with what they compute.
* `dimshuffle order` (144-147);
* `blockwise sym B core outShape f` (179-211): elementwise, blockwise and random-variable nodes with
  `B` batch axes.  `sym` marks symbolic random variables (187-195), whose parameters may lack
  leading batch axes.  `core` lists the number of core axes of each input, `f` computes one core
  output from the core parts of the inputs at one batch position;
* `reduce axes red` (213-228), `red` an arbitrary reduction of the slice being reduced;
* `subtensor keys` (230-249), the value is the first input;
* `advanced keys blockShape` (251-315), the value is the first input;
* `other` (317-318). graph_analysis.py:144-318 -/
inductive Op (V : Type)
  | dimshuffle (order : List (Option ℕ))
  | blockwise (sym : Bool) (B : ℕ) (core : List ℕ) (outShape : ℕ → ℕ)
      (f : List ((ℕ → ℕ) → V) → (ℕ → ℕ) → V)
  | reduce (axes : List ℕ) (red : (ℕ → ℕ) → ((ℕ → ℕ) → V) → V)
  | subtensor (keys : List Key)
  | advanced (keys : List AKey) (blockShape : ℕ → ℕ)
  | other

/-- A graph node with its inputs and its output (graph_analysis.py:134-138). -/
structure Node (V : Type) where
  op : Op V
  ins : List ℕ
  out : ℕ

/-- The dictionary `var_dims` (graph_analysis.py:100). -/
abbrev VarDims := ℕ → Option Dims

/-- graph_analysis.py:136: dims of an input, all unknown when it is not in the dictionary. -/
def getDims (ndim : ℕ → ℕ) (vd : VarDims) (v : ℕ) : Dims :=
  (vd v).getD (List.replicate (ndim v) none)

/-- graph_analysis.py:227: entries at the positions for which `keep` holds; `i` is the position of
the head. -/
def keepFrom (keep : ℕ → Bool) : ℕ → Dims → Dims
  | _, [] => []
  | i, d :: ds => if keep i then d :: keepFrom keep (i + 1) ds else keepFrom keep (i + 1) ds

/-- The `zip_longest(value_dims, keys, fillvalue=slice(None))` key of axis `a`
(graph_analysis.py:237). -/
def keyAt (keys : List Key) (a : ℕ) : Key := keys.getD a .full

/-- The `zip_longest` key of axis `a` (graph_analysis.py:283). -/
def akeyAt (keys : List AKey) (a : ℕ) : AKey := keys.getD a .full

/-- Whether a basic key keeps its axis (graph_analysis.py:238-247). -/
def Key.keeps : Key → Bool
  | .int _ => false
  | _ => true

/-- graph_analysis.py:236-249: `Subtensor`.  Raises when a known axis has any key but a full
slice. -/
def subtensorDims (value : Dims) (keys : List Key) : Except GErr Dims :=
  if (List.range value.length).any
      (fun a => keyAt keys a != .full && (value.getD a none).isSome) then .error .valueError
  else .ok (keepFrom (fun a => (keyAt keys a).keeps) 0 value)

/-- graph_analysis.py:271-315: `AdvancedSubtensor`; `keyDims` are the dims of the key inputs (full
slices have none) and `g` the dimensionality of the advanced group. -/
def advancedDims (value : Dims) (keyDims : List Dims) (keys : List AKey) (g outNdim : ℕ) :
    Except GErr Dims :=
  if value.any (·.isSome) && keyDims.any (fun d => d.any (·.isSome)) then .error .notImplemented
  else if value.any (·.isSome) then
    if (List.range value.length).any
        (fun a => (akeyAt keys a).isArr && (value.getD a none).isSome) then .error .valueError
    else
      let nonAdv := keepFrom (fun a => !(akeyAt keys a).isArr) 0 value
      .ok (nonAdv.take (advAxis keys) ++ List.replicate g none ++ nonAdv.drop (advAxis keys))
  else do
    let adv ← broadcastDims keyDims
    .ok (List.replicate (advAxis keys) none ++ adv ++
      List.replicate (outNdim - advAxis keys - g) none)

/-- The variable read by an array key. graph_analysis.py:253-254 -/
def AKey.var : AKey → Option ℕ
  | .full => none
  | .arr v => some v

/-- graph_analysis.py:95: the largest `ndim` among the array keys. -/
def advNdim (ndim : ℕ → ℕ) (keys : List AKey) : ℕ :=
  ((keys.filterMap AKey.var).map ndim).foldl max 0

/-- Dims of one array-indexing key input (graph_analysis.py:136, 254): full slices have no `ndim`
attribute and get the empty tuple. -/
def akeyDims (ndim : ℕ → ℕ) (vd : VarDims) : AKey → Dims
  | .full => []
  | .arr v => getDims ndim vd v

/-- graph_analysis.py:187-195: symbolic random variables get explicit unknown dims on the left of
parameters that lack batch axes. -/
def symPad (B : ℕ) (d : Dims) (core : ℕ) : Dims :=
  List.replicate (B - (d.length - core)) none ++ d

/-- Python truth value of an entry of a dims tuple (graph_analysis.py:222): `None` and `0` are
false. -/
def truthy : Option ℕ → Bool
  | none => false
  | some d => d != 0

/-- graph_analysis.py:135-318: dims of the output of one node, `none` when the node is skipped
because no input carries a known dim (140-142). -/
def nodeDims {V : Type} (ndim : ℕ → ℕ) (vd : VarDims) (nd : Node V) :
    Except GErr (Option Dims) :=
  let inDims := nd.ins.map (getDims ndim vd)
  if inDims.all (fun ds => ds.all (fun d => d.isNone)) then .ok none
  else match nd.op with
    | .dimshuffle order =>
        let ds := inDims.getD 0 []
        .ok (some (order.map (fun o => o.bind (fun i => ds.getD i none))))
    | .blockwise sym B core _ _ =>
        let inDims := if sym then List.zipWith (symPad B) inDims core else inDims
        if inDims.any (fun ds => (ds.drop B).any (·.isSome)) then .error .valueError
        else do
          let b ← broadcastDims (inDims.map (·.take B))
          .ok (some (b ++ List.replicate (ndim nd.out - B) none))
    | .reduce axes _ =>
        let ds := inDims.getD 0 []
        -- line 222: `any(input_dims[axis] for axis in axes)`
        if axes.any (fun a => truthy (ds.getD a none)) then .error .valueError
        else .ok (some (keepFrom (fun a => !axes.contains a) 0 ds))
    | .subtensor keys => do
        let r ← subtensorDims (inDims.getD 0 []) keys
        .ok (some r)
    | .advanced keys _ => do
        let r ← advancedDims (inDims.getD 0 []) (keys.map (akeyDims ndim vd)) keys
          (advNdim ndim keys) (ndim nd.out)
        .ok (some r)
    | .other => .error .notImplemented

/-- Dictionary update (graph_analysis.py:147, 211, 228, 249, 315). -/
def setDims (vd : VarDims) (v : ℕ) (d : Dims) : VarDims := fun u => if u = v then some d else vd u

/-- One iteration of the loop at graph_analysis.py:134. -/
def stepDims {V : Type} (ndim : ℕ → ℕ) (vd : VarDims) (nd : Node V) : Except GErr VarDims := do
  match ← nodeDims ndim vd nd with
  | none => .ok vd
  | some d => .ok (setDims vd nd.out d)

/-- graph_analysis.py:133-320 `_subgraph_batch_dim_connection`. -/
def analyse {V : Type} (ndim : ℕ → ℕ) : List (Node V) → VarDims → Except GErr VarDims
  | [], vd => .ok vd
  | nd :: g, vd => do
      let vd' ← stepDims ndim vd nd
      analyse ndim g vd'

/-- graph_analysis.py:323-372 `subgraph_batch_dim_connection`: the input variable starts with its
axes in order, and dims of the requested variable are looked up at the end. -/
def batchDimConnection {V : Type} (ndim : ℕ → ℕ) (x : ℕ) (g : List (Node V)) (outs : List ℕ) :
    Except GErr (List Dims) := do
  let vd ← analyse ndim g (fun v => if v = x then some ((List.range (ndim x)).map some) else none)
  .ok (outs.map (getDims ndim vd))

/-! ### What the operations compute -/

/-- A tensor-valued expression of the marginalised variable: `at x idx` is the entry at `idx` when
the marginalised variable (with `n` axes) has value `x`. Semantics of the graphs analysed at graph_analysis.py:133-320. -/
structure Tn (V : Type) (n : ℕ) where
  shape : ℕ → ℕ
  entry : ((Fin n → ℕ) → V) → (ℕ → ℕ) → V

/-- NumPy broadcasting: coordinate of an operand along an axis where it has length `s` and the
result has length `o`. Semantics of the nodes at graph_analysis.py:205-212. -/
def bcast (s o i : ℕ) : ℕ := if s = 1 ∧ o ≠ 1 then 0 else i

/-- Number of kept axes before axis `a`: the position of axis `a` in the result of dropping the
other axes. Semantics of the nodes at graph_analysis.py:214-249. -/
def keptBefore (keep : ℕ → Bool) (a : ℕ) : ℕ := ((List.range a).filter keep).length

/-- Inverse of `keptBefore` on kept axes below `n`; used only for shapes.
Semantics of the nodes at graph_analysis.py:214-249. -/
def nthKept (keep : ℕ → Bool) (n j : ℕ) : ℕ := ((List.range n).filter keep).getD j 0

/-- NumPy's rule for the position of the advanced-indexing group in the result: where the array
keys are consecutive, the number of axes before them; otherwise the front. -/
def advAxisSpec (keys : List AKey) : ℕ :=
  let pre := keys.takeWhile (fun k => !k.isArr)
  let rest := (keys.dropWhile (fun k => !k.isArr)).dropWhile (fun k => k.isArr)
  if rest.any (·.isArr) then 0 else pre.length

/-- Axis of the result carrying the `p`-th not array-indexed axis, when the group of `g` axes sits
at `ax`. Semantics of the nodes at graph_analysis.py:271-315. -/
def aroundGroup (ax g p : ℕ) : ℕ := if p < ax then p else p + g

variable {V : Type} {n : ℕ}

/-- Denotation of a node (standard NumPy semantics of the operations named in
graph_analysis.py:144-318); `toNat` reads an index out of a tensor entry. -/
def evalNode (toNat : V → ℕ) (dflt : V) (ndim : ℕ → ℕ) (env : ℕ → Tn V n) (nd : Node V) : Tn V n :=
  let arg := fun k => env (nd.ins.getD k 0)
  match nd.op with
  | .dimshuffle order =>
      { shape := fun j => match order.getD j none with
          | none => 1
          | some a => (arg 0).shape a
        entry := fun x idx => (arg 0).entry x (fun a =>
          match order.idxOf? (some a) with
          | some j => idx j
          | none => 0) }
  | .blockwise _ B core outShape f =>
      { shape := outShape
        entry := fun x idx => f
          ((nd.ins.zip core).map (fun vc => fun c => (env vc.1).entry x (fun a =>
              let p := B - (ndim vc.1 - vc.2)
              if a + p < B then bcast ((env vc.1).shape a) (outShape (a + p)) (idx (a + p))
              else c (a + p - B))))
          (fun c => idx (B + c)) }
  | .reduce axes red =>
      { shape := fun j => (arg 0).shape (nthKept (fun a => !axes.contains a) (ndim (nd.ins.getD 0 0)) j)
        entry := fun x idx => red (arg 0).shape (fun r => (arg 0).entry x (fun a =>
          if axes.contains a then r a else idx (keptBefore (fun a => !axes.contains a) a))) }
  | .subtensor keys =>
      { shape := fun j => (arg 0).shape (nthKept (fun a => (keyAt keys a).keeps) (ndim (nd.ins.getD 0 0)) j)
        entry := fun x idx => (arg 0).entry x (fun a =>
          match keyAt keys a with
          | .full => idx (keptBefore (fun a => (keyAt keys a).keeps) a)
          | .part start step => start + step * idx (keptBefore (fun a => (keyAt keys a).keeps) a)
          | .int v => toNat ((env v).entry x (fun _ => 0))) }
  | .advanced keys blockShape =>
      let ax := advAxisSpec keys
      let g := advNdim ndim keys
      { shape := fun j => if ax ≤ j ∧ j < ax + g then blockShape (j - ax) else
          (arg 0).shape (nthKept (fun a => !(akeyAt keys a).isArr) (ndim (nd.ins.getD 0 0))
            (if j < ax then j else j - g))
        entry := fun x idx => (arg 0).entry x (fun a =>
          match akeyAt keys a with
          | .full => idx (aroundGroup ax g (keptBefore (fun a => !(akeyAt keys a).isArr) a))
          | .arr v => toNat ((env v).entry x (fun c =>
              let p := g - ndim v
              bcast ((env v).shape c) (blockShape (c + p)) (idx (ax + (c + p)))))) }
  | .other => { shape := fun _ => 1, entry := fun _ _ => dflt }

/-- Running the graph. Semantics of the graphs analysed at graph_analysis.py:133-320. -/
def run (toNat : V → ℕ) (dflt : V) (ndim : ℕ → ℕ) : List (Node V) → (ℕ → Tn V n) → (ℕ → Tn V n)
  | [], env => env
  | nd :: g, env =>
      run toNat dflt ndim g (fun u => if u = nd.out then evalNode toNat dflt ndim env nd else env u)

end Marginal
