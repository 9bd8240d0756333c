import Mathlib.Probability.Distributions.Poisson.Basic

/-!
# The generalised Poisson sampler for `lam ≥ 0`

Model of `pymc_extras/distributions/discrete.py:93-103` (`_branching_rng_fn`).  Two views: the array program as a function of
the Poisson numbers it draws, and the law of one element's result.  Integer overflow of the counters is not modelled.
-/

set_option autoImplicit false

open MeasureTheory ProbabilityTheory
open scoped NNReal ENNReal

namespace GenPoisson

/-! ### The array program -/

/-- discrete.py:99-102: the loop.  `pois k i r` is the `k`-th number drawn for element `i`, with rate `r`; `y` the last
generation, `x` the totals; `mask` the elements drawn by this method. `none`: still running after the given number of passes. -/
def branchLoop {ι : Type} (pois : ℕ → ι → ℝ≥0 → ℕ) (lam : ι → ℝ≥0) (mask : ι → Prop)
    [∀ y : ι → ℕ, Decidable (∃ i, mask i ∧ 0 < y i)] : ℕ → ℕ → (ι → ℕ) → (ι → ℕ) → Option (ι → ℕ)
  | 0, _, x, y => if ∃ i, mask i ∧ 0 < y i then none else some x
  | fuel + 1, k, x, y =>
    if ∃ i, mask i ∧ 0 < y i then
      let y' : ι → ℕ := fun i => pois k i (lam i * y i)
      branchLoop pois lam mask fuel (k + 1) (fun i => if 0 < y i then x i + y' i else x i) y'
    else some x

/-- discrete.py:94-103: `_branching_rng_fn`, given the Poisson draws; `lam` is already non-negative here (95, 53-58). -/
def branchVec {ι : Type} (pois : ℕ → ι → ℝ≥0 → ℕ) (theta lam : ι → ℝ≥0) (mask : ι → Prop)
    [∀ y : ι → ℕ, Decidable (∃ i, mask i ∧ 0 < y i)] (fuel : ℕ) : Option (ι → ℕ) :=
  let y : ι → ℕ := fun i => pois 0 i (theta i)
  branchLoop pois lam mask fuel 1 y y

/-! ### The law of one element -/

/-- discrete.py:99-102, one element: the law of the total for runs whose last generation dies out within the given number of
passes (mass missing to one: still running). -/
noncomputable def loopLaw (lam : ℝ≥0) : ℕ → ℕ → ℕ → Measure ℕ
  | 0, x, y => if 0 < y then 0 else Measure.dirac x
  | n + 1, x, y =>
    if 0 < y then (poissonMeasure (lam * y)).bind fun y' => loopLaw lam n (x + y') y' else Measure.dirac x

/-- discrete.py:96-103, one element. -/
noncomputable def branchLaw (theta lam : ℝ≥0) (n : ℕ) : Measure ℕ :=
  (poissonMeasure theta).bind fun y => loopLaw lam n y y

end GenPoisson
