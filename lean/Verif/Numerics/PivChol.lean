import Mathlib.LinearAlgebra.Matrix.PosDef
import Mathlib.Data.List.MinMax
import Mathlib.Data.List.FinRange
import Mathlib.Analysis.SpecialFunctions.Pow.NNReal

/-!
# `pivoted_cholesky` (pymc_extras/utils/pivoted_cholesky.py)

Over the real numbers; a division by a zero `orig_error` gives `0` here and NaN in numpy, both of which end the loop for
a nonnegative tolerance.
-/

set_option autoImplicit false

open Matrix
open scoped Classical

namespace Verif.Numerics.PivChol

/-- What the call can raise: `int(np.inf)` is an `OverflowError` (line 22) and `np.max` of an empty diagonal is a
`ValueError` (line 25): pymc_extras/utils/pivoted_cholesky.py:15-25. -/
inductive Err where
  | overflow
  | emptyMax
deriving DecidableEq

/-- Loop variables `d`, `pi`, `L`, `error`: pymc_extras/utils/pivoted_cholesky.py:24-29. -/
structure St (n : ℕ) where
  d : Fin n → ℝ
  pi : Fin n → Fin n
  L : ℕ → Fin n → ℝ
  err : ℝ

variable {n : ℕ}

/-- `np.argmax(permuted_d[m:]) + m`: pymc_extras/utils/pivoted_cholesky.py:33-37 (first position of a maximum). -/
noncomputable def argmaxFrom (f : Fin n → ℝ) (m : Fin n) : Fin n :=
  (((List.finRange n).filter fun k => m ≤ k).argmax f).getD m

/-- One pass through the loop: pymc_extras/utils/pivoted_cholesky.py:33-68.  `apply_permutation(mat, pim)` is row `pim`
of the matrix (lines 46-49). -/
noncomputable def step (A : Matrix (Fin n) (Fin n) ℝ) (orig : ℝ) (m : Fin n) (s : St n) : St n :=
  let permuted := fun k => s.d (s.pi k)
  let i := argmaxFrom permuted m
  let maxVal := permuted i
  let pi := fun k => s.pi (Equiv.swap m i k)
  let pim := pi m
  let later := fun j => ∃ k, m < k ∧ pi k = j
  let L := Function.update s.L m.val (Function.update (s.L m.val) pim (Real.sqrt maxVal))
  if m.val + 1 < n then
    let new := fun j => (A pim j - ∑ k ∈ Finset.range m.val, L k pim * L k j) / L m.val pim
    let L := Function.update L m.val fun j => if later j then new j else L m.val j
    let d := fun j => if later j then s.d j - new j ^ 2 else s.d j
    ⟨d, pi, L, (∑ k ∈ Finset.univ.filter (fun k => m < k), |d (pi k)|) / orig⟩
  else ⟨s.d, pi, L, s.err⟩

/-- The `while` loop from step `m` with `left` steps allowed; also returns the number of steps made:
pymc_extras/utils/pivoted_cholesky.py:31-69. -/
noncomputable def loop (A : Matrix (Fin n) (Fin n) ℝ) (orig tol : ℝ) : ℕ → ℕ → St n → ℕ × St n
  | m, 0, s => (m, s)
  | m, left + 1, s =>
    if h : m < n then
      if s.err > tol then loop A orig tol (m + 1) left (step A orig ⟨m, h⟩ s) else (m, s)
    else (m, s)

/-- `np.max(d)` of a nonempty diagonal: pymc_extras/utils/pivoted_cholesky.py:25. -/
noncomputable def origError (A : Matrix (Fin n) (Fin n) ℝ) : ℝ := ⨆ i, A i i

/-- The loop variables before the first step: pymc_extras/utils/pivoted_cholesky.py:24-29. -/
noncomputable def start (A : Matrix (Fin n) (Fin n) ℝ) : St n :=
  ⟨fun i => A i i, id, fun _ _ => 0, (∑ i, |A i i|) / origError A⟩

/-- Result: the factor (`rows` rows), the permutation, and the number of steps made (not returned by the code).
pymc_extras/utils/pivoted_cholesky.py:69. -/
structure Out (n : ℕ) where
  rows : ℕ
  L : ℕ → Fin n → ℝ
  pi : Fin n → Fin n
  steps : ℕ

/-- `pivoted_cholesky(mat, error_tol, max_iter)`; `maxIter = none` is the default `np.inf`:
pymc_extras/utils/pivoted_cholesky.py:15-69. -/
noncomputable def pivotedCholesky (A : Matrix (Fin n) (Fin n) ℝ) (tol : ℝ) (maxIter : Option ℕ) : Except Err (Out n) :=
  match maxIter with
  | none => .error .overflow
  | some k =>
    let maxIter := min k n
    if n = 0 then .error .emptyMax
    else
      let r := loop A (origError A) tol 0 maxIter (start A)
      .ok ⟨maxIter, r.2.L, r.2.pi, r.1⟩

end Verif.Numerics.PivChol
