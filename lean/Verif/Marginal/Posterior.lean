import Verif.Marginal.Factors
import Mathlib.MeasureTheory.Measure.Dirac
import Mathlib.MeasureTheory.Measure.Prod

/-!
# The values drawn by `recover_marginals`
-/

set_option autoImplicit false

open MeasureTheory

namespace Marginal

/-- The law of the value drawn for one variable at one posterior draw: a categorical index with the returned log-probabilities (the
softmax of the same logits), turned into a value. pymc_extras/model/marginal/marginal_model.py:461-468 -/
noncomputable def recoverLaw (d : Dist) (dom : List ℤ) (ls : List EReal) : Measure ℤ :=
  ∑ c ∈ Finset.range ls.length, (ls.getD c ⊥).exp • Measure.dirac (recoverDraw d dom c)

/-- The law of the values drawn for two variables at the same posterior draw: each has its own pass of the loop, with its own
categorical variable and seed. pymc_extras/model/marginal/marginal_model.py:390-393, 414-491 -/
noncomputable def recoverPairLaw (dx dy : Dist) (domx domy : List ℤ) (lx ly : List EReal) : Measure (ℤ × ℤ) :=
  (recoverLaw dx domx lx).prod (recoverLaw dy domy ly)

end Marginal
