import Verif.Dist.Gev
import Mathlib.Probability.Distributions.Beta
import Mathlib.Topology.Algebra.InfiniteSum.Real
import Mathlib.Data.EReal.Operations

/-!
# Beta negative binomial and Skellam distributions

Model of `pymc_extras/distributions/discrete.py:185-399`.  Real arithmetic; `betaln`, `gammaln`, `factln`
are the logarithms of the beta function, the gamma function and the factorial; `iv` is the modified Bessel
function of the first kind of integer order, given by its series.  For Skellam with a zero rate the
arithmetic of infinities and NaN is modelled (`none` is NaN).
-/

set_option autoImplicit false

open MeasureTheory ProbabilityTheory
open scoped Classical Nat ENNReal

namespace Bnb

/-- discrete.py:256-277: `beta_negative_binomial_logp`. -/
noncomputable def logp (value : ℤ) (alpha beta' r : ℝ) : Except DistErr LogP :=
  let res := Real.log (beta (r + value) (alpha + beta')) - Real.log (beta r alpha)
    + Real.log (Real.Gamma (value + beta')) - Real.log (value.toNat ! : ℝ) - Real.log (Real.Gamma beta')
  let res := if value < 0 then LogP.negInf else .fin res
  if alpha > 0 ∧ beta' > 0 ∧ r > 0 then .ok res else .error .parameterValueError

/-- External: the negative binomial probability of `x` with `n` successes and success probability `p`
(`pm.NegativeBinomial` with `n`, `p`). Used at pymc_extras/distributions/discrete.py:248-254 -/
noncomputable def nbPmf (n p : ℝ) (x : ℕ) : ℝ :=
  Real.Gamma (x + n) / ((x ! : ℝ) * Real.Gamma n) * p ^ n * (1 - p) ^ x

/-- External: `pm.NegativeBinomial.dist(mu=None, alpha=None, p=None, n=None)`: the first two positional
arguments are the mean and `alpha`, converted to `n = alpha`, `p = alpha / (mu + alpha)`.
Used at pymc_extras/distributions/discrete.py:248-254 -/
noncomputable def nbDistPositional (mu alpha : ℝ) (x : ℕ) : ℝ := nbPmf alpha (alpha / (mu + alpha)) x

/-- discrete.py:248-254: the probability that a draw of `beta_negative_binomial_dist` equals `x`:
`p ~ Beta(alpha, beta)`, then `NegativeBinomial.dist(p, r)`. -/
noncomputable def drawProb (alpha beta' r : ℝ) (x : ℕ) : ℝ≥0∞ :=
  ∫⁻ p, ENNReal.ofReal (nbDistPositional p r x) ∂(betaMeasure alpha beta')

end Bnb

namespace Skellam

/-- A float; `none` is NaN. pymc_extras/distributions/discrete.py:364-377 -/
abbrev F := Option EReal

/-- Float addition: `inf - inf` is NaN. pymc_extras/distributions/discrete.py:364-377 -/
noncomputable def F.add : F → F → F
  | some a, some b => if (a = ⊤ ∧ b = ⊥) ∨ (a = ⊥ ∧ b = ⊤) then none else some (a + b)
  | _, _ => none

/-- Float negation. pymc_extras/distributions/discrete.py:364-377 -/
noncomputable def F.neg : F → F
  | some a => some (-a)
  | none => none

/-- Multiplication by a finite float: `0 * inf` is NaN. pymc_extras/distributions/discrete.py:364-377 -/
noncomputable def F.smul (c : ℝ) : F → F
  | some a => if c = 0 ∧ (a = ⊤ ∨ a = ⊥) then none else some (c * a)
  | none => none

/-- `log` on nonnegative reals. pymc_extras/distributions/discrete.py:364-377 -/
noncomputable def F.log (x : ℝ) : F := if x = 0 then some ⊥ else some ((Real.log x : ℝ) : EReal)

/-- External: the modified Bessel function of the first kind of integer order, by its series
`I_n(z) = Σ_k (z/2)^(2k+|n|) / (k! (k+|n|)!)` (and `I_{-n} = I_n`). Used at pymc_extras/distributions/discrete.py:364-377 -/
noncomputable def iv (n : ℤ) (z : ℝ) : ℝ :=
  ∑' k : ℕ, (z / 2) ^ (2 * k + n.natAbs) / ((k ! : ℝ) * ((k + n.natAbs)! : ℝ))

/-- discrete.py:364-377: `skellam_logp`. -/
noncomputable def logp (value : ℤ) (mu1 mu2 : ℝ) : Except DistErr F :=
  let res := F.add (F.add (some (((-mu1 - mu2 : ℝ)) : EReal))
      (F.smul (0.5 * value) (F.add (F.log mu1) (F.neg (F.log mu2)))))
    (F.log (iv value (2 * √(mu1 * mu2))))
  if mu1 ≥ 0 ∧ mu2 ≥ 0 then .ok res else .error .parameterValueError

end Skellam
