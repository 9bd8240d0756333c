import Mathlib.Data.Real.Basic
import Mathlib.Algebra.BigOperators.Group.Finset.Basic

/-!
# VARMAX: translation of `statespace/models/VARMAX.py`

Matrices are functions on index pairs; every assignment made by the code stays inside `k_states`, and every sum runs over
indices below `k_states`. Negative slice bounds are resolved against `k_states` as Python does. Placeholders are replaced
by the values they will receive; real arithmetic replaces floating point.
-/

set_option autoImplicit false

open Finset

namespace Verif.Varmax

/-- Number of series and the two orders. pymc_extras/statespace/models/VARMAX.py:152-163 -/
structure Order where
  k : ℕ
  p : ℕ
  q : ℕ

/-- `k_states`. pymc_extras/statespace/models/VARMAX.py:166-167 -/
def Order.kStates (o : Order) : ℕ := o.k * (max o.p 1 + o.q)

/-- `M[r0:r1, c0:c1] = B`. Used by pymc_extras/statespace/models/VARMAX.py:324, 331, 343, 348, 362, 365 -/
def setBlock (M : ℕ → ℕ → ℝ) (r0 r1 c0 c1 : ℕ) (B : ℕ → ℕ → ℝ) : ℕ → ℕ → ℝ :=
  fun a b => if r0 ≤ a ∧ a < r1 ∧ c0 ≤ b ∧ b < c1 then B (a - r0) (b - c0) else M a b

/-- `np.eye`. pymc_extras/statespace/models/VARMAX.py:324, 331, 348, 365 -/
def eye : ℕ → ℕ → ℝ := fun a b => if a = b then 1 else 0

/-- The values given to `ar_params` and `ma_params`, indexed (equation, lag, series).
pymc_extras/statespace/models/VARMAX.py:338-340, 357-359 -/
structure Params where
  ar : ℕ → ℕ → ℕ → ℝ
  ma : ℕ → ℕ → ℕ → ℝ

/-- `params.reshape((k, k * n))`: row-major, so column `j` is lag `j / k` of series `j % k`.
pymc_extras/statespace/models/VARMAX.py:342, 361 -/
def reshape (k : ℕ) (A : ℕ → ℕ → ℕ → ℝ) : ℕ → ℕ → ℝ := fun i j => A i (j / k) (j % k)

/-- The transition matrix. pymc_extras/statespace/models/VARMAX.py:318-343, 349-362 -/
def transition (o : Order) (θ : Params) : ℕ → ℕ → ℝ :=
  let K := o.kStates
  let T : ℕ → ℕ → ℝ := fun _ _ => 0
  let T := if 1 < o.p then setBlock T o.k (o.k * o.p) 0 (o.k * (o.p - 1)) eye else T
  let T := if 1 < o.q then setBlock T (K - o.k * (o.q - 1)) K (K - o.k * o.q) (K - o.k) eye else T
  let T := if 0 < o.p then setBlock T 0 o.k 0 (o.k * o.p) (reshape o.k θ.ar) else T
  if 0 < o.q then setBlock T 0 o.k (o.k * max 1 o.p) K (reshape o.k θ.ma) else T

/-- The selection matrix. pymc_extras/statespace/models/VARMAX.py:347-348, 364-365 -/
def selection (o : Order) : ℕ → ℕ → ℝ :=
  let K := o.kStates
  let R : ℕ → ℕ → ℝ := setBlock (fun _ _ => 0) 0 o.k 0 o.k eye
  if 0 < o.q then setBlock R (K - o.k * o.q) (if 1 < o.q then K - o.k * (o.q - 1) else K) 0 o.k eye else R

/-- The design matrix: ones at `np.diag_indices(k_endog)`. pymc_extras/statespace/models/VARMAX.py:311 -/
def design (o : Order) : ℕ → ℕ → ℝ := fun i j => if i = j ∧ i < o.k then 1 else 0

/-- The observation covariance: `sigma_obs` itself is written to the diagonal (not its square).
pymc_extras/statespace/models/VARMAX.py:367-372 -/
def obsCov (o : Order) (σ : ℕ → ℝ) : ℕ → ℕ → ℝ := fun i j => if i = j ∧ i < o.k then σ i else 0

/-- `x_{t+1} = T x_t + R ε_t`. pymc_extras/statespace/filters/distributions.py:239-256 -/
def state (o : Order) (θ : Params) (x0 : ℕ → ℝ) (ε : ℕ → ℕ → ℝ) : ℕ → ℕ → ℝ
  | 0 => x0
  | t + 1 => fun i => ∑ j ∈ range o.kStates, transition o θ i j * state o θ x0 ε t j +
      ∑ j ∈ range o.k, selection o i j * ε t j

/-- The observation mean of series `i`, `Z x_t`. pymc_extras/statespace/filters/distributions.py:253 -/
def obs (o : Order) (θ : Params) (x0 : ℕ → ℝ) (ε : ℕ → ℕ → ℝ) (t i : ℕ) : ℝ :=
  ∑ j ∈ range o.kStates, design o i j * state o θ x0 ε t j

/-- `state_names`. pymc_extras/statespace/models/VARMAX.py:237-247 -/
def stateNames (endog : List String) (p q : ℕ) : List String :=
  endog ++ ((List.range (p - 1)).flatMap fun i => endog.map fun s => s!"L{i + 1}.{s}") ++
    (List.range q).flatMap fun i => endog.map fun s => s!"L{i + 1}.{s}_innov"

/-- The arguments `endog_names` and `k_endog` and what the constructor makes of them (`none`: `ValueError`).
pymc_extras/statespace/models/VARMAX.py:152-162 -/
def resolveNames (names : Option (List String)) (k : Option ℕ) : Option (List String × ℕ) :=
  match names, k with
  | none, none => none
  | some l, none => some (l, l.length)
  | none, some k => some ((List.range k).map fun i => s!"state.{i + 1}", k)
  | some l, some k => if l.length ≠ k then none else some (l, k)

end Verif.Varmax
