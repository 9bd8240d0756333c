import Verif.Marginal.GraphProps

/-! # C165: the support axes a marginalised variable reports to a later marginalisation

`pymc_extras/model/marginal/distributions.py:29-44` and the branch of the dimension analysis that looks into a marginalised
variable, `graph_analysis.py:149-177`. -/

set_option autoImplicit false

namespace Marginal

open scoped BigOperators ENNReal

/-- `MarginalRV.support_axes` for one dependent variable with dims connection `dims`, when the marginalised variable has
`nSupp` support axes: the numbers `i` of the axes `-i`. The condition compares with the number of axes of the *dependent*
variable. pymc_extras/model/marginal/distributions.py:29-44 -/
def supportAxes (nSupp : ℕ) (dims : Dims) : List ℕ :=
  ((List.range dims.length).map (· + 1)).filter fun i =>
    match dims.reverse.getD (i - 1) none with
    | none => true
    | some k => decide ((k : ℤ) > dims.length - nSupp)

/-- The dims of one output of a marginalised variable, given the dims found inside it (`inner`) and its support axes.
pymc_extras/model/marginal/graph_analysis.py:166-177 -/
def marginalOutDims (support : List ℕ) (inner : Dims) : Except GErr Dims :=
  if support.any fun i => (inner.reverse.getD (i - 1) none).isSome then .error .valueError else .ok inner

/-- The log-probability of observations of a hidden chain with `K` states and `T` times, where the observation at time `t`
also depends on entry `t` of a vector `x`, after the chain has been eliminated: all times are collapsed.
pymc_extras/model/marginal/distributions.py:207-276 -/
noncomputable def chainDep {K : ℕ} (init : Fin K → EReal) (logP : Fin K → Fin K → EReal) (T : ℕ)
    (em : ℕ → Fin K → ℤ → EReal) : Dep :=
  ⟨[some 0], 0, [], fun x _ => (hmmLogp init logP T fun t k => em t k (x [t])).getD ⊥⟩

end Marginal
