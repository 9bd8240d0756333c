import Mathlib.Algebra.Order.Archimedean.Real.Basic
import Mathlib.Data.Finset.Sort
import Mathlib.Data.Finset.Max
import Mathlib.Algebra.Order.Floor.Defs

/-!
# Histogram approximation of a likelihood

pymc_extras/distributions/histogram_utils.py.  Observations are kept as a list of columns (axis 0 runs along a column); the
dask branches and the reshaping of the results are left out.  Two facts about libraries are built in: `np.unique` returns
the distinct values in increasing order, and `xhistogram.core.histogram` counts `edge ≤ x < next edge` per bin, the last
bin including its right edge (as tests/test_histogram_approximation.py:48 checks).  Arithmetic is exact.
-/

set_option autoImplicit false

namespace Verif.Hist

open scoped Classical

/-- Exceptions of this part. pymc_extras/distributions/histogram_utils.py:45, 86 -/
inductive HErr
  | valueError
  | indexError
  | typeError
deriving DecidableEq

/-- `xhistogram.core.histogram(data, bins=[edges], axis=0)` for one column.
pymc_extras/distributions/histogram_utils.py:48, 89 -/
noncomputable def counts {α : Type} [LinearOrder α] : List α → List α → List ℕ
  | [a, b], data => [data.countP fun x => decide (a ≤ x ∧ x ≤ b)]
  | a :: b :: rest, data => (data.countP fun x => decide (a ≤ x ∧ x < b)) :: counts (b :: rest) data
  | _, _ => []

/-- `np.unique(data)`, the values. pymc_extras/distributions/histogram_utils.py:82 -/
noncomputable def uniq (data : List ℤ) : List ℤ := data.toFinset.sort (· ≤ ·)

/-- `mid`: distinct values, and those repeated at least `min_count` times when that is given.
pymc_extras/distributions/histogram_utils.py:82-84 -/
noncomputable def mids (data : List ℤ) (minCount : Option ℕ) : List ℤ :=
  match minCount with
  | none => uniq data
  | some k => (uniq data).filter fun m => decide (k ≤ data.count m)

/-- `bins = np.concatenate([mid, [mid.max() + 1]])`; the maximum of an empty array raises ValueError.
pymc_extras/distributions/histogram_utils.py:86 -/
def bins (mid : List ℤ) : Except HErr (List ℤ) :=
  match mid.max? with
  | none => .error .valueError
  | some m => .ok (mid ++ [m + 1])

/-- `discrete_histogram`: midpoints (common to all columns, found over the flattened data) and counts per column.
pymc_extras/distributions/histogram_utils.py:69-92 -/
noncomputable def discreteHistogram (cols : List (List ℤ)) (minCount : Option ℕ) :
    Except HErr (List ℤ × List (List ℕ)) := do
  let mid := mids cols.flatten minCount
  let b ← bins mid
  .ok (mid, cols.map fun c => counts b c)

/-- The potential of one column: `logp(dist, mid) * count`, summed when the joint log density is formed.
pymc_extras/distributions/histogram_utils.py:163 -/
noncomputable def potential {α : Type} (logp : α → ℝ) (mid : List α) (count : List ℕ) : ℝ :=
  ((mid.zip count).map fun x => logp x.1 * (x.2 : ℝ)).sum

/-! ### Quantiles -/

/-- The entry of a sorted sample at an integer position, the last entry beyond its end (`np.percentile` never reads beyond
it with a weight other than zero). pymc_extras/distributions/histogram_utils.py:45 -/
def entry (s : List ℝ) (i : ℕ) : ℝ := s.getD (min i (s.length - 1)) 0

/-- Linear interpolation of a sorted sample at position `h`, the default method of `np.percentile`.
pymc_extras/distributions/histogram_utils.py:45 -/
noncomputable def interp (s : List ℝ) (h : ℝ) : ℝ :=
  entry s ⌊h⌋₊ + (h - ⌊h⌋₊) * (entry s (⌊h⌋₊ + 1) - entry s ⌊h⌋₊)

/-- `np.percentile(qdata, np.linspace(0, 100, n_quantiles))`; an empty sample raises IndexError.
pymc_extras/distributions/histogram_utils.py:45 -/
noncomputable def quantiles (qdata : List ℝ) (n : ℕ) : Except HErr (List ℝ) :=
  if qdata = [] then .error .indexError
  else .ok ((List.range n).map fun i : ℕ =>
    interp (qdata.mergeSort (fun a b => decide (a ≤ b))) ((qdata.length - 1 : ℝ) * ((i : ℝ) / (n - 1 : ℝ))))

/-- `quantile_histogram`: lower edges, upper edges, and counts per column.
The mask put on zeros has no effect in this model: with zero inflation all edges are positive.
pymc_extras/distributions/histogram_utils.py:24-66 -/
noncomputable def quantileHistogram (cols : List (List ℝ)) (n : ℕ) (zeroInflation : Bool) :
    Except HErr (List ℝ × List ℝ × List (List ℕ)) := do
  let data := cols.flatten
  let qdata := if zeroInflation then data.filter fun x => decide (0 < x) else data
  let q ← quantiles qdata n
  let count := cols.map fun c => counts q c
  let lower := q.dropLast
  let upper := q.tail
  if zeroInflation then
    .ok (0 :: lower, 0 :: upper, (cols.zip count).map fun x => x.1.countP (fun v => decide (v = 0)) :: x.2)
  else .ok (lower, upper, count)

/-- The keyword arguments the two histogram functions take. pymc_extras/distributions/histogram_utils.py:24-26, 69 -/
def acceptedKwargs (discrete : Bool) : List String :=
  if discrete then ["min_count"] else ["n_quantiles", "zero_inflation"]

/-- Which histogram `histogram_approximation` builds: the integer one exactly for integer types; an argument of the other
histogram raises TypeError. pymc_extras/distributions/histogram_utils.py:157-160 -/
def dispatch (isInteger : Bool) (kwargs : List String) : Except HErr Bool :=
  if kwargs.all fun k => decide (k ∈ acceptedKwargs isInteger) then .ok isInteger else .error .typeError

end Verif.Hist
