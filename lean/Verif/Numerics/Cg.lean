import Mathlib.LinearAlgebra.Matrix.Hadamard
import Mathlib.Analysis.CStarAlgebra.Matrix
import Mathlib.Analysis.SpecialFunctions.Pow.NNReal

/-!
# `linear_cg` (pymc_extras/utils/linear_cg.py)

The conjugate gradient routine, branch by branch, over the real numbers (no rounding, no NaN: the `allclose` check of
lines 117-118 cannot fail there).  A right-hand side given as an `n × 1` array is modelled by `linearCg`; one given as a
1-d array is modelled by `linearCgVector`, because the code reshapes `rhs` (lines 94-96) only after it has built the
default initial guess from the 1-d array (lines 70-71), so that `rhs - mat @ initial_guess` (line 112) broadcasts an
`(n, 1)` array against an `(n,)` array.
-/

set_option autoImplicit false

open Matrix
open scoped Classical

namespace Verif.Numerics.Cg

/-- Numeric arguments of `linear_cg`: pymc_extras/utils/linear_cg.py:56-69.  `nTri` is the truth value of `n_tridiag`
(every requested tridiagonal matrix is the same one for a single right-hand side); `tol` is the tolerance after
lines 82-86. -/
structure Cfg where
  nTri : Bool
  tol : ℝ
  eps : ℝ
  stop : ℝ
  maxIter : ℕ
  maxTri : ℕ
  bySize : Bool

/-- `tolerance is None` handling: pymc_extras/utils/linear_cg.py:18-19, 82-86. -/
noncomputable def tolOf (tolerance : Option ℝ) (useEval : Bool) : ℝ :=
  match tolerance with
  | some t => t
  | none => if useEval then 1 / 100 else 1

/-- The two `RuntimeError`s of pymc_extras/utils/linear_cg.py:89-92 and 266-273 (the second one reports the number of
iterations). -/
inductive Err where
  | tridiagTooLarge
  | notConverged (iterations : ℕ)
deriving DecidableEq

/-- Safe division: pymc_extras/utils/linear_cg.py:38-42 and 198-201 (`masked_fill` before and after the quotient). -/
noncomputable def safeDiv (eps num den : ℝ) : ℝ :=
  let isZero := den < eps
  let den := if isZero then 1 else den
  let q := num / den
  if isZero then 0 else q

variable {n : Type} [Fintype n]

/-- Loop variables of `linear_cg`: `result`, `residual`, `curr_conjugate_vec`, `residual_inner_prod`, `residual_norm`,
`alpha`, `beta` (pymc_extras/utils/linear_cg.py:111-137). -/
structure St (n : Type) where
  x : n → ℝ
  r : n → ℝ
  p : n → ℝ
  rz : ℝ
  norm : ℝ
  alpha : ℝ
  beta : ℝ

/-- `np.linalg.norm(v, 2)` of an `n × 1` array: pymc_extras/utils/linear_cg.py:103, 122, 227. -/
noncomputable def norm2 (v : n → ℝ) : ℝ := Real.sqrt (v ⬝ᵥ v)

/-- `linear_cg_updates`: pymc_extras/utils/linear_cg.py:28-53. -/
noncomputable def updates (eps : ℝ) (s : St n) (alpha : ℝ) (residual precond : n → ℝ) : St n :=
  let result := s.x + alpha • s.p
  let rz := residual ⬝ᵥ precond
  let beta := safeDiv eps rz s.rz
  { s with x := result, r := residual, rz := rz, alpha := alpha, beta := beta, p := beta • s.p + precond }

/-- One pass through the loop body without preconditioner, up to the update of `has_converged`:
pymc_extras/utils/linear_cg.py:155, 193-229. -/
noncomputable def step (A : Matrix n n ℝ) (c : Cfg) (rhsIsZero : Prop) (s : St n) : St n :=
  let mvms := A *ᵥ s.p
  let alpha := safeDiv c.eps s.rz (s.p ⬝ᵥ mvms)
  let alpha := if s.norm < c.stop then 0 else alpha
  let residual := s.r - alpha • mvms
  let s' := updates c.eps s alpha residual residual
  { s' with norm := if rhsIsZero then 0 else norm2 residual }

/-- State of the tridiagonal bookkeeping: `t_mat`, `last_tridiag_iter`, `update_tridiag`, `prev_alpha_reciprocal`,
`prev_beta`: pymc_extras/utils/linear_cg.py:139-148. -/
structure Tri where
  t : ℕ → ℕ → ℝ
  last : ℕ
  upd : Bool
  pa : ℝ
  pb : ℝ

/-- Zeroed storage: pymc_extras/utils/linear_cg.py:139-148. -/
def Tri.init : Tri := ⟨fun _ _ => 0, 0, true, 0, 0⟩

/-- `t[i, j] = v` (pymc_extras/utils/linear_cg.py:250-254). -/
def setAt (t : ℕ → ℕ → ℝ) (i j : ℕ) (v : ℝ) : ℕ → ℕ → ℝ := fun a b => if a = i ∧ b = j then v else t a b

/-- Update of the tridiagonal matrix: pymc_extras/utils/linear_cg.py:239-262. -/
noncomputable def Tri.update (c : Cfg) (nTriIter k : ℕ) (alpha beta : ℝ) (T : Tri) : Tri :=
  if c.nTri = true ∧ k < nTriIter ∧ T.upd = true then
    let isZero := alpha = 0
    let alphaReciprocal := 1 / (if isZero then 1 else alpha)
    if k = 0 then
      { t := setAt T.t k k alphaReciprocal, last := k, upd := true, pa := alphaReciprocal, pb := beta }
    else
      let t := setAt T.t k k (T.t k k + (alphaReciprocal + T.pb * T.pa))
      let t := setAt t k (k - 1) (Real.sqrt T.pb * T.pa)
      let t := setAt t (k - 1) k (t k (k - 1))
      { t := t, last := k, upd := if t (k - 1) k < 1 / 1000000 then false else true,
        pa := alphaReciprocal, pb := beta }
  else T

/-- The break condition: pymc_extras/utils/linear_cg.py:231-235.  Python's `max_iter - 1` may be `-1`. -/
def breaks (c : Cfg) (nTriIter k : ℕ) (norm : ℝ) : Prop :=
  min (10 : ℤ) (c.maxIter - 1) ≤ k ∧ norm < c.tol ∧
    ¬ (c.nTri = true ∧ (k : ℤ) < min (nTriIter : ℤ) (c.maxIter - 1))

/-- The `for` loop from iteration `k` with `left` iterations to go: pymc_extras/utils/linear_cg.py:153-262.  Returns
`tolerance_reached`, the loop variables and the tridiagonal bookkeeping. -/
noncomputable def loop (A : Matrix n n ℝ) (c : Cfg) (rhsIsZero : Prop) (nTriIter : ℕ) :
    ℕ → ℕ → St n → Tri → Bool × St n × Tri
  | _, 0, s, T => (false, s, T)
  | k, left + 1, s, T =>
    let s' := step A c rhsIsZero s
    if breaks c nTriIter k s'.norm then (true, s', T)
    else loop A c rhsIsZero nTriIter (k + 1) left s' (T.update c nTriIter k s'.alpha s'.beta)

/-- `rhs_norm` after `masked_fill`: pymc_extras/utils/linear_cg.py:103-106. -/
noncomputable def rhsNorm (eps : ℝ) (rhs : n → ℝ) : ℝ := if norm2 rhs < eps then 1 else norm2 rhs

/-- Loop variables before the first iteration: pymc_extras/utils/linear_cg.py:108-137. -/
noncomputable def start (A : Matrix n n ℝ) (c : Cfg) (rhs guess : n → ℝ) : St n :=
  let residual := (rhsNorm c.eps rhs)⁻¹ • rhs - A *ᵥ guess
  { x := guess, r := residual, p := residual, rz := residual ⬝ᵥ residual, norm := norm2 residual, alpha := 0, beta := 0 }

/-- `n_iter` after the early-convergence test: pymc_extras/utils/linear_cg.py:98-99, 125-126. -/
noncomputable def nIter (c : Cfg) (numRows : ℕ) (norm : ℝ) : ℕ :=
  let m := if c.bySize then min c.maxIter numRows else c.maxIter
  if norm < c.stop ∧ c.nTri = false then 0 else m

/-- What `linear_cg` returns: the solution and, when `n_tridiag` is set, the leading block of `t_mat` of the given
size (pymc_extras/utils/linear_cg.py:264-290; otherwise identity matrices are returned, not modelled). -/
structure Out (n : Type) where
  result : n → ℝ
  size : ℕ
  t : ℕ → ℕ → ℝ

/-- `linear_cg` for an `n × 1` right-hand side without preconditioner: pymc_extras/utils/linear_cg.py:56-290. -/
noncomputable def linearCg (c : Cfg) (A : Matrix n n ℝ) (rhs : n → ℝ) (initialGuess : Option (n → ℝ)) :
    Except Err (Out n) :=
  let guess := initialGuess.getD 0
  if c.maxTri > c.maxIter then .error .tridiagTooLarge
  else
    let numRows := Fintype.card n
    let nTriIter := min c.maxTri numRows
    let rhsIsZero := norm2 rhs < c.eps
    let s0 := start A c rhs guess
    let m := nIter c numRows s0.norm
    let o := loop A c rhsIsZero nTriIter 0 m s0 Tri.init
    if o.1 = false ∧ 0 < m then .error (.notConverged m)
    else .ok ⟨rhsNorm c.eps rhs • o.2.1.x, o.2.2.last + 1, o.2.2.t⟩

/-! ### A 1-d right-hand side -/

open scoped Matrix.Norms.L2Operator

/-- Loop variables when `rhs` was 1-d: every array of lines 112-137 is `n × n`
(pymc_extras/utils/linear_cg.py:94-96, 112, 131). -/
structure StV (n : Type) where
  x : Matrix n n ℝ
  r : Matrix n n ℝ
  p : Matrix n n ℝ
  rz : Matrix n n ℝ
  norm : ℝ

/-- Entrywise safe division of `n × n` arrays: pymc_extras/utils/linear_cg.py:38-42, 198-201. -/
noncomputable def safeDivM (eps : ℝ) (num den : Matrix n n ℝ) : Matrix n n ℝ :=
  of fun i j => safeDiv eps (num i j) (den i j)

/-- The loop body on `n × n` arrays: `alpha * mvms` and `beta * curr_conjugate_vec` are entrywise products
(pymc_extras/utils/linear_cg.py:32-43, 155, 193-229). -/
noncomputable def stepV [DecidableEq n] (A : Matrix n n ℝ) (c : Cfg) (rhsIsZero : Prop) (s : StV n) : StV n :=
  let mvms := A * s.p
  let alpha := safeDivM c.eps s.rz (s.pᵀ * mvms)
  let alpha := if s.norm < c.stop then 0 else alpha
  let residual := s.r - alpha ⊙ mvms
  let rz := residualᵀ * residual
  let beta := safeDivM c.eps rz s.rz
  { x := s.x + alpha ⊙ s.p, r := residual, rz := rz, p := beta ⊙ s.p + residual,
    norm := if rhsIsZero then 0 else ‖residual‖ }

/-- Start for a 1-d `rhs` and a 1-d guess: `rhs[:, None] - mat @ guess` is the `n × n` array with entries
`rhs i - (mat @ guess) j`, and the 1-d guess broadcasts along rows (pymc_extras/utils/linear_cg.py:70-71, 94-96,
111-115, 130-131). -/
noncomputable def startV [DecidableEq n] (A : Matrix n n ℝ) (c : Cfg) (rhs guess : n → ℝ) : StV n :=
  let residual : Matrix n n ℝ := of fun i j => ((rhsNorm c.eps rhs)⁻¹ • rhs) i - (A *ᵥ guess) j
  { x := of fun _ j => guess j, r := residual, p := residual, rz := residualᵀ * residual, norm := ‖residual‖ }

/-- The loop without tridiagonal bookkeeping for a 1-d `rhs` (pymc_extras/utils/linear_cg.py:153-237). -/
noncomputable def loopV [DecidableEq n] (A : Matrix n n ℝ) (c : Cfg) (rhsIsZero : Prop) (nTriIter : ℕ) :
    ℕ → ℕ → StV n → Bool × StV n
  | _, 0, s => (false, s)
  | k, left + 1, s =>
    let s' := stepV A c rhsIsZero s
    if breaks c nTriIter k s'.norm then (true, s')
    else loopV A c rhsIsZero nTriIter (k + 1) left s'

/-- The value returned for a 1-d `rhs`: the guess itself when no iteration runs, an `n × n` array otherwise
(pymc_extras/utils/linear_cg.py:115, 264-265). -/
inductive OutV (n : Type) where
  | vector (v : n → ℝ)
  | matrix (M : Matrix n n ℝ)

/-- `linear_cg` for a 1-d right-hand side, without preconditioner and with `n_tridiag = 0`:
pymc_extras/utils/linear_cg.py:56-290. -/
noncomputable def linearCgVector [DecidableEq n] (c : Cfg) (A : Matrix n n ℝ) (rhs : n → ℝ)
    (initialGuess : Option (n → ℝ)) : Except Err (OutV n) :=
  let guess := initialGuess.getD 0
  if c.maxTri > c.maxIter then .error .tridiagTooLarge
  else
    let numRows := Fintype.card n
    let nTriIter := min c.maxTri numRows
    let rhsIsZero := norm2 rhs < c.eps
    let s0 := startV A c rhs guess
    let m := nIter c numRows s0.norm
    let o := loopV A c rhsIsZero nTriIter 0 m s0
    if o.1 = false ∧ 0 < m then .error (.notConverged m)
    else if m = 0 then .ok (.vector (rhsNorm c.eps rhs • guess))
    else .ok (.matrix (rhsNorm c.eps rhs • o.2.x))

end Verif.Numerics.Cg
