import Mathlib.Analysis.SpecialFunctions.Pow.Real
import Mathlib.Analysis.SpecialFunctions.Log.Basic

/-!
# Generalised extreme value distribution

Model of `pymc_extras/distributions/continuous.py:37-219`.  Real arithmetic; floating-point rounding is
not modelled.  Values, parameters: scalars (the code broadcasts elementwise).
-/

set_option autoImplicit false

open scoped Classical

/-- A log-probability as returned by a `logp` function: a real number, `-inf` or NaN.
pymc_extras/distributions/continuous.py:154-210 -/
inductive LogP
  | negInf
  | fin (r : ℝ)
  | nan

/-- The probability or density a log-probability stands for (NaN has none).
Reading of the value returned at pymc_extras/distributions/continuous.py:181-183, 208-210 -/
noncomputable def LogP.exp : LogP → Option ℝ
  | .negInf => some 0
  | .fin r => some (Real.exp r)
  | .nan => none

/-- Errors: `check_parameters` raises `ParameterValueError`. pymc_extras/distributions/continuous.py:181-183, 208-210 -/
inductive DistErr
  | parameterValueError
  deriving DecidableEq

namespace Gev

/-- continuous.py:172, 203, 216: `pt.isclose(xi, 0)` with the default tolerances rtol 1e-5 and atol 1e-8,
so `|xi - 0| ≤ 1e-8 + 1e-5 * |0|`. -/
def closeToZero (xi : ℝ) : Prop := |xi - 0| ≤ 1e-8 + 1e-5 * |(0 : ℝ)|

/-- continuous.py:169-177: the expression of the log-density. `log1p (ξ z)` is `log (1 + ξ z)`. -/
noncomputable def logpExpr (value mu sigma xi : ℝ) : ℝ :=
  let scaled := (value - mu) / sigma
  if closeToZero xi then -Real.log sigma - scaled - Real.exp (-scaled)
  else -Real.log sigma - ((xi + 1) / xi) * Real.log (1 + xi * scaled) - (1 + xi * scaled) ^ (-1 / xi)

/-- continuous.py:181-183, 208-210: `check_parameters`. -/
noncomputable def check (r : LogP) (sigma xi : ℝ) : Except DistErr LogP :=
  if sigma > 0 ∧ xi > -1 ∧ xi < 1 then .ok r else .error .parameterValueError

/-- continuous.py:154-183: `logp`. -/
noncomputable def logp (value mu sigma xi : ℝ) : Except DistErr LogP :=
  let scaled := (value - mu) / sigma
  check (if 1 + xi * scaled > 0 then .fin (logpExpr value mu sigma xi) else .negInf) sigma xi

/-- continuous.py:185-210: `logcdf`. -/
noncomputable def logcdf (value mu sigma xi : ℝ) : Except DistErr LogP :=
  let scaled := (value - mu) / sigma
  let expr := if closeToZero xi then -Real.exp (-scaled) else -(1 + xi * scaled) ^ (-1 / xi)
  check (if 1 + xi * (value - mu) / sigma > 0 then .fin expr else .negInf) sigma xi

/-- continuous.py:212-219: `support_point` (without the `size` broadcast). -/
noncomputable def supportPoint (mu sigma xi : ℝ) : ℝ :=
  if closeToZero xi then mu else mu + sigma * ((1 + xi) ^ (-xi) - 1) / xi

/-- continuous.py:144-152: the shape stored by `dist`, given the `scipy` flag. -/
def distShape (xi : ℝ) (scipy : Bool) : ℝ := if scipy then -xi else xi

/-- continuous.py:56: the shape `c` passed to `scipy.stats.genextreme.rvs`. -/
def samplerShape (xi : ℝ) : ℝ := -xi

end Gev
