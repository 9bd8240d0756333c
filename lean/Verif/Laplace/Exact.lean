import Verif.Laplace.Cov
import Mathlib.Analysis.Calculus.Deriv.Basic
import Mathlib.Analysis.SpecialFunctions.Exp
import Mathlib.MeasureTheory.Measure.MeasureSpace
import Mathlib.Probability.Distributions.Gaussian.Multivariate

/-!
# Laplace approximation from the log-posterior on

The chain `find_MAP` → `fit_mvn_to_MAP` → `sample_laplace_posterior` as a function of the log-posterior. The transforms covered are
none and the logarithm (the default for positive variables), one scalar parameter each. The optimiser is taken to return a point
that minimises its objective; derivatives are exact. The point handed over is the one found: order and names of the variables are
the subject of `Verif.Laplace.Layout`.
-/

set_option autoImplicit false

open Matrix MeasureTheory

namespace Verif.Laplace

/-- The value transform of a scalar parameter. pymc_extras/inference/laplace.py:283-289 -/
inductive Tr
  | ident
  | log
deriving DecidableEq

/-- `transform.backward`: from the unconstrained to the constrained value. pymc_extras/inference/laplace.py:375-387 -/
noncomputable def Tr.bwd : Tr → ℝ → ℝ
  | .ident, x => x
  | .log, x => Real.exp x

/-- `transform.log_jac_det`: `log |d backward / dx|`. pymc_extras/inference/laplace.py:288 -/
def Tr.logJac : Tr → ℝ → ℝ
  | .ident, _ => 0
  | .log, x => x

variable {n : ℕ}

/-- All parameters, backwards. pymc_extras/inference/laplace.py:375-387 -/
noncomputable def backward (tr : Fin n → Tr) (x : Fin n → ℝ) : Fin n → ℝ := fun i => (tr i).bwd (x i)

/-- `model.logp(jacobian=...)` as a function of the unconstrained values; `lp` is the log-posterior (up to a constant) as a function
of the constrained ones. pymc_extras/inference/find_map.py:393, pymc_extras/inference/laplace.py:285, 288 -/
noncomputable def modelLogp (lp : (Fin n → ℝ) → ℝ) (tr : Fin n → Tr) (jacobian : Bool) (x : Fin n → ℝ) : ℝ :=
  lp (backward tr x) + if jacobian then ∑ i, (tr i).logJac (x i) else 0

/-- The loss of `find_MAP`: without the Jacobian, in the unconstrained values. pymc_extras/inference/find_map.py:393 -/
noncomputable def mapLoss (lp : (Fin n → ℝ) → ℝ) (tr : Fin n → Tr) (x : Fin n → ℝ) : ℝ := -modelLogp lp tr false x

/-- The matrix of second partial derivatives. pymc_extras/inference/laplace.py:294-306 -/
noncomputable def hessian (f : (Fin n → ℝ) → ℝ) (x : Fin n → ℝ) : Matrix (Fin n) (Fin n) ℝ :=
  Matrix.of fun i j => deriv (fun s : ℝ => deriv (fun t : ℝ => f (x + s • Pi.single i 1 + t • Pi.single j 1)) 0) 0

/-- The loss whose Hessian is taken: of the model without transforms, or, with `transform_samples`, of the transformed model
*with* the Jacobian. pymc_extras/inference/laplace.py:283-299 -/
noncomputable def fitLoss (lp : (Fin n → ℝ) → ℝ) (tr : Fin n → Tr) (transformSamples : Bool) (x : Fin n → ℝ) : ℝ :=
  if transformSamples then -modelLogp lp tr true x else -modelLogp lp (fun _ => .ident) false x

/-- The mean: the optimised values themselves, constrained or unconstrained. pymc_extras/inference/laplace.py:291-292 -/
noncomputable def fitMean (tr : Fin n → Tr) (transformSamples : Bool) (xhat : Fin n → ℝ) : Fin n → ℝ :=
  if transformSamples then xhat else backward tr xhat

/-- `fit_mvn_to_MAP` at the point found by `find_MAP`. pymc_extras/inference/laplace.py:281-330 -/
noncomputable def fitMvn (pinv : Matrix (Fin n) (Fin n) ℝ → Matrix (Fin n) (Fin n) ℝ)
    (eig : Matrix (Fin n) (Fin n) ℝ → (Fin n → ℝ) × Matrix (Fin n) (Fin n) ℝ) (onBadCov : String) (zeroTol : ℝ)
    (diagJitter : Option ℝ) (lp : (Fin n → ℝ) → ℝ) (tr : Fin n → Tr) (transformSamples : Bool) (xhat : Fin n → ℝ) :
    Except Err ((Fin n → ℝ) × Out n) :=
  let mu := fitMean tr transformSamples xhat
  (fitCov pinv eig onBadCov zeroTol diagJitter (hessian (fitLoss lp tr transformSamples) mu)).map fun o => (mu, o)

/-- The law of one posterior draw of `sample_laplace_posterior`, in the constrained space.
pymc_extras/inference/laplace.py:366-402 -/
noncomputable def drawLaw (tr : Fin n → Tr) (transformSamples : Bool) (mu : Fin n → ℝ) (H_inv : Matrix (Fin n) (Fin n) ℝ) :
    Measure (Fin n → ℝ) :=
  let z := (ProbabilityTheory.multivariateGaussian (WithLp.toLp 2 mu) H_inv).map WithLp.ofLp
  if transformSamples then z.map (backward tr) else z

end Verif.Laplace
