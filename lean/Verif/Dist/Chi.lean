import Mathlib.Probability.Distributions.Gamma
import Verif.Dist.Gev

/-!
# Chi and Maxwell distributions

Model of `pymc_extras/distributions/continuous.py:222-351`.  PyMC's `ChiSquared.dist(nu)` is taken to be
the gamma distribution with shape `nu/2` and rate `1/2`; the log-probability that PyMC derives for the
`CustomDist` is not modelled, only the law of the draws.
-/

set_option autoImplicit false

open MeasureTheory ProbabilityTheory
open scoped Classical

namespace Chi

/-- External: `pm.ChiSquared.dist(nu)`. Used at pymc_extras/distributions/continuous.py:274-277 -/
noncomputable def chiSquared (nu : ℝ) : Measure ℝ := gammaMeasure (nu / 2) (1 / 2)

/-- continuous.py:270-272: `chi_dist`. -/
noncomputable def chiDist (nu : ℝ) : Measure ℝ := (chiSquared nu).map Real.sqrt

/-- continuous.py:326-333: `maxwell_dist`; raises unless `a > 0`. -/
noncomputable def maxwellDist (a : ℝ) : Except DistErr (Measure ℝ) :=
  if a > 0 then .ok ((chiDist 3).map (fun x => x * a)) else .error .parameterValueError

/-- A transform choice: none given, or an explicit one. pymc_extras/distributions/continuous.py:270-272 -/
inductive Transform
  | unset | log | user (name : String)
  deriving DecidableEq

/-- continuous.py:274-277: the default transform `Chi` passes on, given the caller's keywords
(`setdefault` keeps the caller's choice). -/
def chiTransform (observed : Bool) (given : Option Transform) : Transform :=
  if observed then given.getD .unset else given.getD .log

/-- continuous.py:335-342: `Maxwell` passes the caller's keywords on unchanged. -/
def maxwellTransform (_observed : Bool) (given : Option Transform) : Transform := given.getD .unset

end Chi
