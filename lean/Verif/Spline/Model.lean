import Mathlib.Algebra.Order.Archimedean.Real.Basic
import Mathlib.Algebra.BigOperators.Group.Finset.Basic
import Mathlib.Algebra.BigOperators.Intervals
import Mathlib.Tactic.Ring

/-!
# B-spline interpolation

pymc_extras/utils/spline.py.  The knots are computed as in `numpy_bspline_basis`; `scipy.interpolate.BSpline` is modelled by
the Cox–de Boor recursion on the knot interval it selects: the interval that contains the point, the first or last proper
interval for points outside `[0, 1]` (its default is to extrapolate) and for the right end.  Sparse and dense results are
not told apart.  Arithmetic is exact.
-/

set_option autoImplicit false

namespace Verif.Spline

open Finset

/-- Exceptions of this part. pymc_extras/utils/spline.py:27-29, 121-126 -/
inductive SpErr
  | valueError
deriving DecidableEq

/-- The knots for `k` coefficients and degree `d` as a function of the position:
`[0] * d ++ linspace(0, 1, k + 1 - d) ++ [1] * d`, when `d < k`. pymc_extras/utils/spline.py:26-28 -/
noncomputable def knot (k d i : ℕ) : ℝ :=
  if i < d then 0
  else if i < k + 1 then ((i - d : ℕ) : ℝ) / ((k - d : ℕ) : ℝ)
  else 1

/-- The number of knots built: `d + (k + d + 1 - 2 d) + d`; `linspace` refuses a negative number, and `BSpline` asks for at least
`2 d + 2` knots. pymc_extras/utils/spline.py:26-29 -/
def knotCount (k d : ℕ) : Except SpErr ℕ :=
  if k + d + 1 < 2 * d then .error .valueError
  else
    let count := d + (k + d + 1 - 2 * d) + d
    if count < 2 * d + 2 then .error .valueError else .ok count

/-- One step of the recursion for degree `p`: weight of knot interval `i` in `[t i, t (i + p)]`.
pymc_extras/utils/spline.py:29-30 -/
noncomputable def ramp (t : ℕ → ℝ) (x : ℝ) (p i : ℕ) : ℝ := (x - t i) / (t (i + p) - t i)

/-- The basis functions of degree `p` at `x`, computed on the knot interval number `m`.
pymc_extras/utils/spline.py:29-30 -/
noncomputable def bspline (t : ℕ → ℝ) (x : ℝ) (m : ℕ) : ℕ → ℕ → ℝ
  | 0, i => if i = m then 1 else 0
  | p + 1, i => ramp t x (p + 1) i * bspline t x m p i + (1 - ramp t x (p + 1) (i + 1)) * bspline t x m p (i + 1)

/-- The knot interval chosen for a point, as an offset from the first proper one: there are `g = k - d` proper intervals of
width `1 / g`; points to the left use the first, points to the right and the right end use the last.
pymc_extras/utils/spline.py:29-30 -/
noncomputable def interval (k d : ℕ) (x : ℝ) : ℕ := d + min ⌊x * ((k - d : ℕ) : ℝ)⌋₊ (k - d - 1)

/-- Entry of the basis matrix for the evaluation point `x` and coefficient `i`. pymc_extras/utils/spline.py:25-31 -/
noncomputable def basisEntry (k d : ℕ) (x : ℝ) (i : ℕ) : ℝ := bspline (knot k d) x (interval k d x) d i

/-- The interpolated value at one evaluation point: `dot(basis, x)`. pymc_extras/utils/spline.py:127-131 -/
noncomputable def interpolate (k d : ℕ) (coef : ℕ → ℝ) (x : ℝ) : ℝ := ∑ i ∈ range k, basisEntry k d x i * coef i

/-- `np.linspace(0, 1, n)`. pymc_extras/utils/spline.py:70, 124 -/
noncomputable def linspace (n : ℕ) : List ℝ := (List.range n).map fun i : ℕ => (i : ℝ) / ((n - 1 : ℕ) : ℝ)

/-- The choice of evaluation points in `bspline_interpolation`. pymc_extras/utils/spline.py:121-126 -/
noncomputable def evalPoints (n : Option ℕ) (points : Option (List ℝ)) : Except SpErr (List ℝ) :=
  match n, points with
  | some _, some _ => .error .valueError
  | some n, none => .ok (linspace n)
  | none, some p => .ok p
  | none, none => .error .valueError

/-- `bspline_interpolation(x, n=…, eval_points=…, degree=…)` for `k` coefficients.
pymc_extras/utils/spline.py:74-131 -/
noncomputable def bsplineInterpolation (k d : ℕ) (coef : ℕ → ℝ) (n : Option ℕ) (points : Option (List ℝ)) :
    Except SpErr (List ℝ) := do
  let pts ← evalPoints n points
  let _ ← knotCount k d
  .ok (pts.map fun x => interpolate k d coef x)

end Verif.Spline
