import Verif.Laplace.Layout

/-!
# `fit_pathfinder` layout and `fit` dispatch (pymc_extras/inference/pathfinder.py, pymc_extras/inference/fit.py)

The optimiser and its samples are arbitrary; only the layout of flat vectors is modelled, with the definitions of
`Verif.Laplace.Layout`.
-/

set_option autoImplicit false

namespace Verif.Laplace

/-- The assignment of values at which the log density is evaluated for a flat vector `x`: `join_nonshared_inputs(ip, ...,
model.value_vars)` cuts `x` by the value variables, with sizes from the initial point.
pymc_extras/inference/pathfinder.py:102-112 -/
def pathfinderLogpPoint (valueVars : List String) (ip : Point) (x : List ℝ) : Except LErr Point := do
  let sizes ← inputSizes valueVars ip
  assign sizes x

/-- `DictToArrayBijection.rmap(RaveledVars(sample, info), ip)`: cut by the initial point's own order.
pymc_extras/inference/pathfinder.py:39-44 -/
def pathfinderPoint (ip : Point) (sample : List ℝ) : Except LErr Point :=
  assign (ip.map fun kv => (kv.1, kv.2.length)) sample

/-- The positional arguments of the function that computes the reported variables: the values of `trace`, in its order, for the
inputs `model.value_vars`. pymc_extras/inference/pathfinder.py:41-56 -/
def pathfinderInputs (valueVars : List String) (ip : Point) (sample : List ℝ) : Except LErr Point :=
  (pathfinderPoint ip sample).map fun p => valueVars.zip (p.map Prod.snd)

/-- Outcome of `fit`. pymc_extras/inference/fit.py:33-44 -/
inductive FitOutcome where
  | runtimeError
  | pathfinder
  | laplace
  | returnsNone
deriving DecidableEq

/-- `fit(method)`. pymc_extras/inference/fit.py:17-44 -/
def fitDispatch (method : String) (hasBlackjax : Bool) : FitOutcome :=
  if method = "pathfinder" then if hasBlackjax then .pathfinder else .runtimeError
  else if method = "laplace" then .laplace
  else .returnsNone

end Verif.Laplace
