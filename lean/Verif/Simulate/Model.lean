import Verif.Kalman.Model
import Mathlib.Data.Fin.Tuple.Basic

/-!
# Simulation: translation of `statespace/filters/distributions.py` (`_LinearGaussianStateSpace`,
`LinearGaussianStateSpace`) and of the parts of `statespace/core/statespace.py` that call it.

Random innovations are inputs. The random-generator plumbing is modelled separately (`Rng`, `initDraws`).
-/

open Matrix

namespace Verif.Simulate

open Verif.Kalman (Params)

variable {k p r : ℕ}

/-- A row of the combined array: latent states followed by observed states (`pt.concatenate([a_next, y_next])`).
pymc_extras/statespace/filters/distributions.py:256, 266 -/
def joinRow (a : Fin k → ℝ) (y : Fin p → ℝ) : List ℝ := List.ofFn a ++ List.ofFn y

/-- Read the first `k` entries of a row as a vector (`state[:k]`).
pymc_extras/statespace/filters/distributions.py:245 -/
def firstK (k : ℕ) (row : List ℝ) : Fin k → ℝ := fun i => row.getD i 0

/-- Python `row[:-m]` (`row[:0]` when `m = 0`). pymc_extras/statespace/filters/distributions.py:354, 357 -/
def sliceToNeg (m : ℕ) (row : List ℝ) : List ℝ := if m = 0 then [] else row.take (row.length - m)

/-- Python `row[-m:]` (`row[0:]` when `m = 0`). pymc_extras/statespace/filters/distributions.py:355, 358 -/
def sliceFromNeg (m : ℕ) (row : List ℝ) : List ℝ := if m = 0 then row else row.drop (row.length - m)

/-- The innovations of one step. pymc_extras/statespace/filters/distributions.py:247-248 -/
structure Noise (p r : ℕ) where
  eta : Fin r → ℝ
  eps : Fin p → ℝ

/-- `step_fn`, with matrices in canonical order (`sort_args` looks them up by name).
pymc_extras/statespace/filters/distributions.py:239-258 -/
def stepFn (θ : Params (Fin k) (Fin p) (Fin r)) (e : Noise p r) (state : List ℝ) : List ℝ :=
  let a := firstK k state
  let aNext := θ.c + θ.T *ᵥ a + θ.R *ᵥ e.eta
  let yNext := θ.d + θ.Z *ᵥ aNext + e.eps
  joinRow aNext yNext

/-- The scan: step `i` receives slice `i` of every time-varying matrix.
pymc_extras/statespace/filters/distributions.py:268-276 -/
def scan (state : List ℝ) : List (Params (Fin k) (Fin p) (Fin r) × Noise p r) → List (List ℝ)
  | [] => []
  | (θ, e) :: rest =>
    let s := stepFn θ e state
    s :: scan s rest

/-- `_LinearGaussianStateSpace.rv_op`: the initial row is `x0` (drawn from `N(a0, P0)`, here an input) and
`Z_init x0 + ε0`, with `Z_init` the first slice of `Z`; scan with `n_steps = steps` fails when a sequence is shorter
(`none`), and only the first `steps` slices are used.
pymc_extras/statespace/filters/distributions.py:260-283 -/
def simulate (appendX0 : Bool) (steps : ℕ) (x0 : Fin k → ℝ) (eps0 : Fin p → ℝ) (Zinit : Matrix (Fin p) (Fin k) ℝ)
    (θs : List (Params (Fin k) (Fin p) (Fin r))) (noise : ℕ → Noise p r) : Option (List (List ℝ)) :=
  if steps ≤ θs.length then
    let initRow := joinRow x0 (Zinit *ᵥ x0 + eps0)
    let rest := scan initRow ((θs.take steps).mapIdx fun i θ => (θ, noise i))
    some (if appendX0 then initRow :: rest else rest)
  else none

/-- `LinearGaussianStateSpace.__new__`: split of the combined array into latent and observed part.
pymc_extras/statespace/filters/distributions.py:352-363 -/
def splitRows (kEndog : ℕ) (rows : List (List ℝ)) : List (List ℝ) × List (List ℝ) :=
  (rows.map (sliceToNeg kEndog), rows.map (sliceFromNeg kEndog))

/-- A random generator: from a state `g`, `normals g i` is the `i`-th standard normal it will produce.
`MvNormal` draws as many standard normals as its dimension and does not change the generator object it is given (PyTensor
random variables are pure: the advanced state is a separate output).
pymc_extras/statespace/filters/distributions.py:221, 247-248, 263-264 -/
structure Rng (G : Type*) where
  normals : G → ℕ → ℝ
  advance : G → ℕ → G

/-- One draw `mu + L z`, where `L Lᵀ` is the covariance. pymc_extras/statespace/filters/distributions.py:59-65 -/
def mvDraw {G : Type*} (R : Rng G) (g : G) {m : ℕ} (mu : Fin m → ℝ) (L : Matrix (Fin m) (Fin m) ℝ) : Fin m → ℝ :=
  mu + L *ᵥ (fun i => R.normals g i)

/-- `init_x_` and `init_y_`: both are given the *same* generator `rng`.
pymc_extras/statespace/filters/distributions.py:263-264 -/
def initDraws {G : Type*} (R : Rng G) (g : G) (a0 : Fin k → ℝ) (LP : Matrix (Fin k) (Fin k) ℝ)
    (Z : Matrix (Fin p) (Fin k) ℝ) (LH : Matrix (Fin p) (Fin p) ℝ) : (Fin k → ℝ) × (Fin p → ℝ) :=
  let x := mvDraw R g a0 LP
  (x, mvDraw R g (Z *ᵥ x) LH)

/-- The innovations of the first step of the scan: state innovation from `rng` (again the same generator, passed as a
non-sequence), measurement innovation from the advanced generator.
pymc_extras/statespace/filters/distributions.py:247-248, 272 -/
def firstNoise {G : Type*} (R : Rng G) (g : G) (LQ : Matrix (Fin r) (Fin r) ℝ) (LH : Matrix (Fin p) (Fin p) ℝ) :
    Noise p r :=
  ⟨mvDraw R g 0 LQ, mvDraw R (R.advance g r) 0 LH⟩

/-- The time-dimension logic of `_sample_unconditional`: number of time labels and number of steps, or the `ValueError`
(`none`). `n` is the number of time labels of the data.
pymc_extras/statespace/core/statespace.py:1228-1239 -/
def unconditionalSteps (useDataTimeDim : Bool) (steps : Option ℕ) (n : ℕ) : Option (ℕ × ℤ) :=
  match useDataTimeDim, steps with
  | false, some s => some (1 + s, ((1 + s : ℕ) : ℤ) - 1)
  | true, some s => if n ≠ s then none else some (n, s)
  | _, none => some (n, (n : ℤ) - 1)

/-- Mean and covariance used by `_sample_conditional` for the observed counterpart of a filter output.
pymc_extras/statespace/core/statespace.py:1141-1142 -/
def conditionalObs (Z : Matrix (Fin p) (Fin k) ℝ) (H : Matrix (Fin p) (Fin p) ℝ) (mu : Fin k → ℝ)
    (cov : Matrix (Fin k) (Fin k) ℝ) : (Fin p → ℝ) × Matrix (Fin p) (Fin p) ℝ :=
  (Z *ᵥ mu, Z * cov * Zᵀ + H)

/-- `irf_step` and its scan. pymc_extras/statespace/core/statespace.py:2205-2217 -/
def irfScan (c : Fin k → ℝ) (T : Matrix (Fin k) (Fin k) ℝ) (R : Matrix (Fin k) (Fin r) ℝ) (x : Fin k → ℝ) :
    List (Fin r → ℝ) → List (Fin k → ℝ)
  | [] => []
  | shock :: rest =>
    let next := c + T *ᵥ x + R *ᵥ shock
    next :: irfScan c T R next rest

/-- The shock trajectory when none is given: zeros with the initial shock written into row 0 (`none`: the assignment to
row 0 of an empty array fails). pymc_extras/statespace/core/statespace.py:2190-2200 -/
def initialShockTrajectory (nSteps : ℕ) (u : Fin r → ℝ) : Option (List (Fin r → ℝ)) :=
  match nSteps with
  | 0 => none
  | m + 1 => some (u :: List.replicate m 0)

/-- Which shocks the impulse response uses. pymc_extras/statespace/core/statespace.py:2181-2203 -/
inductive ShockSource where
  | posteriorCov | givenCov | size | trajectory | nothing
  deriving DecidableEq, Repr

/-- The option handling of `impulse_response_function`; `none` is the `ValueError` for more than one option.
pymc_extras/statespace/core/statespace.py:2143-2151, 2181-2203 -/
def shockSource (usePosterior size cov trajectory : Bool) : Option ShockSource :=
  let nOptions := (if size then 1 else 0) + (if cov then 1 else 0) + (if trajectory then 1 else 0)
  if nOptions > 1 then none
  else
    let use := if nOptions = 1 then false else usePosterior
    some (if trajectory then .trajectory
      else if use then .posteriorCov
      else if cov then .givenCov
      else if size then .size
      else .nothing)

/-- `Q = pt.linalg.cholesky(Q) / pt.diag(Q)`: column `j` of the factor `L` is divided by `Q[j, j]`.
pymc_extras/statespace/core/statespace.py:2184, 2188 -/
noncomputable def orthogonalized (L Q : Matrix (Fin r) (Fin r) ℝ) : Matrix (Fin r) (Fin r) ℝ :=
  fun i j => L i j / Q j j

end Verif.Simulate
