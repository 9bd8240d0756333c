import Mathlib.Data.List.Basic
import Mathlib.Data.Real.Basic

/-!
# Laplace approximation: the order of the variables in flat vectors

`fit_mvn_to_MAP` flattens the optimised point in the order of the dictionary it receives, while the function it compiles
for the Hessian reads the flat vector in the order of the model's value variables
(pymc_extras/inference/laplace.py:279-306).  `sample_laplace_posterior` cuts draws by the first order and names the pieces
by a third list (lines 392-404).  Values are kept as raveled lists.

Three facts about PyMC are built in: `DictToArrayBijection.map` concatenates in dictionary order;
`join_nonshared_inputs` assigns consecutive pieces of the joint vector to `inputs` in their order, with the sizes found in
`point`; `Model.unobserved_value_vars` lists the value variables of all free variables, then the back-transformed values
of those with a transform, then the deterministics.
-/

set_option autoImplicit false

namespace Verif.Laplace

/-- Exceptions of this part. pymc_extras/inference/laplace.py:292, 295-306; pymc_extras/inference/find_map.py:255-275 -/
inductive LErr
  | keyError
  | shapeError
  | valueError
  | attributeError
  | typeError
deriving DecidableEq

/-- A dictionary from names to raveled values, in insertion order. pymc_extras/inference/laplace.py:235 -/
abbrev Point := List (String × List ℝ)

/-- `{k: v for k, v in optimized_point.items() if k in variable_names}`.
pymc_extras/inference/laplace.py:291-292 -/
def freeParams (vars : List String) (p : Point) : Point := p.filter fun kv => decide (kv.1 ∈ vars)

/-- `DictToArrayBijection.map(optimized_free_params).data`. pymc_extras/inference/laplace.py:293 -/
def ravel (p : Point) : List ℝ := p.flatMap Prod.snd

/-- The pieces of a joint vector that `join_nonshared_inputs` assigns to its inputs; a piece that comes out too short
cannot be reshaped. pymc_extras/inference/find_map.py:280-282 -/
def assign : List (String × ℕ) → List ℝ → Except LErr Point
  | [], _ => .ok []
  | (v, k) :: rest, x =>
    if (x.take k).length = k then (assign rest (x.drop k)).map fun tl => (v, x.take k) :: tl
    else .error .shapeError

/-- The sizes `point[var.name].shape` of the inputs. pymc_extras/inference/find_map.py:280-282 -/
def inputSizes (vars : List String) (point : Point) : Except LErr (List (String × ℕ)) :=
  vars.mapM fun v => match point.lookup v with
    | some x => .ok (v, x.length)
    | none => .error .keyError

/-- The assignment of values to variables at which `f_hess(mu.data)` is evaluated.
pymc_extras/inference/laplace.py:291-306 -/
def hessianPoint (vars : List String) (optimized : Point) : Except LErr Point := do
  let free := freeParams vars optimized
  let sizes ← inputSizes vars free
  assign sizes (ravel free)

/-- Which variable and element a position of a flat vector belongs to, for blocks laid out in this order.
pymc_extras/inference/laplace.py:136, 393-397 (`mu.point_map_info`); pymc_extras/inference/find_map.py:280-282 -/
def layout (blocks : List (String × ℕ)) : List (String × ℕ) :=
  blocks.flatMap fun b => (List.range b.2).map fun i => (b.1, i)

/-- A free variable of the model: its name, the name of its transformed value (if it has a transform), whether it is
discrete, and its raveled size. pymc_extras/inference/laplace.py:283-289 -/
structure RV where
  name : String
  transformed : Option String
  discrete : Bool
  size : ℕ

/-- The name of the value variable. pymc_extras/inference/laplace.py:289 -/
def RV.valueName (v : RV) : String := v.transformed.getD v.name

/-- Keys of the dictionary returned by `find_MAP`, in order: `get_default_varnames(model.unobserved_value_vars,
include_transformed)`. pymc_extras/inference/find_map.py:419-426 -/
def findMapKeys (rvs : List RV) (deterministics : List String) (includeTransformed : Bool) : List String :=
  (rvs.filter fun v => includeTransformed || v.transformed.isNone).map RV.valueName ++
    (rvs.filter fun v => v.transformed.isSome).map RV.name ++ deterministics

/-- Names of the Hessian's inputs: the continuous value variables of the model without value transforms, or of the model
itself. Assumes the model transformations keep the declaration order.
pymc_extras/inference/laplace.py:283-291 -/
def hessianVars (rvs : List RV) (transformSamples : Bool) : List String :=
  (rvs.filter fun v => !v.discrete).map fun v => if transformSamples then v.valueName else v.name

/-- `slices = [slice(sum(flat_shapes[:i]), sum(flat_shapes[: i + 1])) for i in range(len(flat_shapes))]`.
pymc_extras/inference/laplace.py:394-397 -/
def slices (sizes : List ℕ) : List (ℕ × ℕ) :=
  (List.range sizes.length).map fun i => ((sizes.take i).sum, (sizes.take (i + 1)).sum)

/-- The pieces of one draw. pymc_extras/inference/laplace.py:399-402 -/
def pieces {α : Type} (sizes : List ℕ) (draw : List α) : List (List α) :=
  (slices sizes).map fun s => (draw.drop s.1).take (s.2 - s.1)

/-- Names given to the pieces: `get_default_varnames(model.unobserved_value_vars, include_transformed=False)`.
pymc_extras/inference/laplace.py:91-93 -/
def posteriorNames (rvs : List RV) (deterministics : List String) : List String := findMapKeys rvs deterministics false

/-- The posterior group for one draw: `zip(names, posterior_draws)`. pymc_extras/inference/laplace.py:94-102 -/
def posterior {α : Type} (rvs : List RV) (deterministics : List String) (sizes : List ℕ) (draw : List α) :
    List (String × List α) :=
  (posteriorNames rvs deterministics).zip (pieces sizes draw)

/-- `itertools.product`. pymc_extras/inference/laplace.py:151 -/
def cartesian : List (List String) → List (List String)
  | [] => [[]]
  | d :: ds => d.flatMap fun x => (cartesian ds).map fun l => x :: l

/-- `make_unpacked_variable_names`; `dims name` are the coordinate lists of the variable's dims, if it has dims.
pymc_extras/inference/laplace.py:138-152 -/
def unpackedNames (dims : String → Option (List (List String))) (name : String) : List String :=
  match dims name with
  | none => [name]
  | some ds => (cartesian ds).map fun l => name ++ "[" ++ ",".intercalate l ++ "]"

/-- `add_fit_to_inferencedata`: the row labels, or xarray's error when their number differs from the length of the mean
vector. pymc_extras/inference/laplace.py:154-163 -/
def fitLabels (dims : String → Option (List (List String))) (info : List (String × ℕ)) : Except LErr (List String) :=
  let labels := info.flatMap fun b => unpackedNames dims b.1
  if labels.length = (info.map Prod.snd).sum then .ok labels else .error .valueError

/-- `_squeeze_output` of `scipy.stats.multivariate_normal.rvs`: axes of length one are removed.
pymc_extras/inference/laplace.py:371-374 -/
def squeeze (sh : List ℕ) : List ℕ := sh.filter fun k => k != 1

/-- Shape of `posterior_draws`. pymc_extras/inference/laplace.py:374 -/
def rvsShape (chains draws d : ℕ) : List ℕ := squeeze [chains, draws, d]

/-- `posterior_draws[..., idx].reshape((chains, draws, *shape))`: slicing the last axis of a zero-dimensional array is an
error, and so is a reshape to another number of elements. pymc_extras/inference/laplace.py:399-400 -/
def cutOk (sh : List ℕ) (chains draws size : ℕ) (s : ℕ × ℕ) : Bool :=
  match sh.getLast? with
  | none => false
  | some l => (sh.dropLast ++ [min s.2 l - min s.1 l]).prod == chains * draws * size

/-- Does the untransformed branch of `sample_laplace_posterior` get through for blocks of these sizes?
pymc_extras/inference/laplace.py:392-402 -/
def sampleOk (chains draws : ℕ) (sizes : List ℕ) : Bool :=
  (sizes.zip (slices sizes)).all fun b => cutOk (rvsShape chains draws sizes.sum) chains draws b.1 b.2

/-- The transformed branch: the compiled function takes an array with exactly three axes.
pymc_extras/inference/laplace.py:376-390 -/
def sampleTransformedOk (chains draws d : ℕ) : Bool := (rvsShape chains draws d).length == 3

/-- The flat input of the objective in `find_MAP` is split over the continuous and the discrete value variables, but the
starting vector holds the continuous ones only. `value v` is the initial value.
pymc_extras/inference/find_map.py:383-401, 409 -/
def findMapFirstCall (rvs : List RV) (value : RV → List ℝ) : Except LErr Point :=
  let continuous := rvs.filter fun v => !v.discrete
  let discrete := rvs.filter fun v => v.discrete
  assign ((continuous ++ discrete).map fun v => (v.valueName, (value v).length)) (continuous.flatMap value)

/-- What `find_MAP` returns: a dictionary, or a pair when `return_raw`. pymc_extras/inference/find_map.py:428-431 -/
inductive MapResult
  | dict (p : Point)
  | pair (p : Point)

/-- `find_MAP`'s last lines. pymc_extras/inference/find_map.py:428-431 -/
def mapResult (returnRaw : Bool) (p : Point) : MapResult := if returnRaw then .pair p else .dict p

/-- `fit_laplace` up to the Hessian: `return_raw` is passed on to `find_MAP`, and `fit_mvn_to_MAP` calls `.items()` on
whatever comes back. pymc_extras/inference/laplace.py:533-558, 292 -/
def fitLaplaceHessianPoint (returnRaw : Bool) (vars : List String) (p : Point) : Except LErr Point :=
  match mapResult returnRaw p with
  | .dict q => hessianPoint vars q
  | .pair _ => .error .attributeError

/-! ### Which functions are compiled -/

/-- The entry of `better_optimize.constants.MINIMIZE_MODE_KWARGS` for a method.
pymc_extras/inference/find_map.py:31 -/
structure MethodInfo where
  usesGrad : Bool
  usesHess : Bool
  usesHessp : Bool

/-- `set_optimizer_function_defaults`. pymc_extras/inference/find_map.py:30-40 -/
def optimizerDefaults (info : MethodInfo) (useGrad useHess useHessp : Option Bool) : Bool × Bool × Bool :=
  let useGrad := useGrad.getD info.usesGrad
  let useHess := useHess.getD info.usesHess
  let useHessp := useHessp.getD info.usesHessp
  let useHess := if useHess && useHessp then false else useHess
  (useGrad, useHess, useHessp)

/-- A compiled function: by PyTensor or by JAX. pymc_extras/inference/find_map.py:288-306 -/
inductive Fn
  | pytensorLoss | pytensorLossGrad | pytensorHess | pytensorHessp
  | jaxLossGrad | jaxHess | jaxHessp
deriving DecidableEq

/-- `_compile_functions`: a list of one or of three entries. pymc_extras/inference/find_map.py:189-210 -/
def compileFunctions (grad hess hessp : Bool) : List (Option Fn) :=
  if grad then
    [some .pytensorLossGrad, if hess then some .pytensorHess else none, if hessp then some .pytensorHessp else none]
  else [some .pytensorLoss]

/-- `_compile_jax_gradients`. pymc_extras/inference/find_map.py:100-152 -/
def jaxGradients (hess hessp : Bool) : Option Fn × Option Fn × Option Fn :=
  (some .jaxLossGrad, if hess then some .jaxHess else none, if hessp then some .jaxHessp else none)

/-- `list.pop(0)` on a list that may be empty (an `IndexError`, here `none`).
pymc_extras/inference/find_map.py:298-300 -/
def pop0 (l : List (Option Fn)) : Option (Option Fn) × List (Option Fn) :=
  match l with
  | [] => (none, [])
  | a :: r => (some a, r)

/-- `scipy_optimize_funcs_from_loss`: the three functions and the `"mode"` entry left in the caller's `compile_kwargs`
dictionary. pymc_extras/inference/find_map.py:255-306 -/
def optimizeFuncs (useGrad useHess useHessp : Bool) (backend : String) (mode : Option String) :
    Except LErr ((Option Fn × Option Fn × Option Fn) × Option String) :=
  if (useHess || useHessp) && !useGrad then .error .valueError
  else if backend ≠ "pytensor" ∧ backend ≠ "jax" then .error .valueError
  else
    let useJax := backend == "jax" && useGrad
    if mode.isSome && mode ≠ some "JAX" && useJax then .error .valueError
    else
      let mode' := if mode.isNone && useJax then some "JAX" else mode
      let cg := useGrad && !useJax
      let funcs := compileFunctions cg (useHess && !useJax) (useHessp && !useJax)
      match pop0 funcs with
      | (none, _) => .error .keyError
      | (some fLoss, r1) =>
        if cg then
          match pop0 r1 with
          | (none, _) => .error .keyError
          | (some fHess, r2) =>
            match pop0 r2 with
            | (none, _) => .error .keyError
            | (some fHessp, _) =>
              .ok (if useJax then jaxGradients useHess useHessp else (fLoss, fHess, fHessp), mode')
        else .ok (if useJax then jaxGradients useHess useHessp else (fLoss, none, none), mode')

end Verif.Laplace
