import Mathlib.Data.Matrix.Block
import Mathlib.Data.Matrix.ColumnRowPartitioned
import Mathlib.Data.Real.Basic
import Mathlib.Analysis.SpecialFunctions.Trigonometric.Basic

/-!
# Structural components: translation of the system matrices built in `statespace/models/structural.py`

Real arithmetic replaces floating point; symbolic placeholders are replaced by the values they will receive.  `n` indexes
states, `r` shocks, `p` observed series.  Only the design matrix may vary over time (as in the code's components); a
static one is a constant function of time, which is what `conform_time_varying_and_time_invariant_matrices` makes of it
when the other operand varies.
-/

set_option autoImplicit false

open Matrix

namespace Verif.Structural

/-- The matrices of a component's `PytensorRepresentation`.
pymc_extras/statespace/core/representation.py:191-202 -/
structure Sys (n r p : Type) where
  x0 : n → ℝ
  P0 : Matrix n n ℝ
  c : n → ℝ
  d : p → ℝ
  T : Matrix n n ℝ
  Z : ℕ → Matrix p n ℝ
  R : Matrix n r ℝ
  H : Matrix p p ℝ
  Q : Matrix r r ℝ

/-- `_combine_statespace_representations`: initial states, state intercepts and designs are concatenated, `P0`, `T`, `R`,
`Q` are put in block-diagonal form, observation intercepts and covariances are added.
pymc_extras/statespace/models/structural.py:503-564 -/
def combine {n r n' r' p : Type} (a : Sys n r p) (b : Sys n' r' p) : Sys (n ⊕ n') (r ⊕ r') p where
  x0 := Sum.elim a.x0 b.x0
  P0 := fromBlocks a.P0 0 0 b.P0
  c := Sum.elim a.c b.c
  d := a.d + b.d
  T := fromBlocks a.T 0 0 b.T
  Z := fun t => fromCols (a.Z t) (b.Z t)
  R := fromBlocks a.R 0 0 b.R
  H := a.H + b.H
  Q := fromBlocks a.Q 0 0 b.Q

/-- The all-zero representation a component starts from. pymc_extras/statespace/core/representation.py:204-219 -/
def zeroSys (n r p : Type) : Sys n r p := ⟨0, 0, 0, 0, 0, fun _ => 0, 0, 0, 0⟩

/-- The row vector `[1, 0, …, 0]` written to the design matrix.
pymc_extras/statespace/models/structural.py:868, 1041, 1225 -/
def firstState (k : ℕ) : Matrix (Fin 1) (Fin k) ℝ := fun _ j => if j.val = 0 then 1 else 0

/-- The column `[1, 0, …, 0]ᵀ` written to the selection matrix.
pymc_extras/statespace/models/structural.py:1040, 1233 -/
def firstShock (k : ℕ) : Matrix (Fin k) (Fin 1) ℝ := fun i _ => if i.val = 0 then 1 else 0

/-- `LevelTrendComponent`: the transition has ones on and above the diagonal; `innov` marks the states with
innovations. `P0` is set later by the built model. pymc_extras/statespace/models/structural.py:858-874 -/
def levelTrend (k : ℕ) (innov : Fin k → Bool) (init : Fin k → ℝ) (σ : {i // innov i = true} → ℝ) :
    Sys (Fin k) {i // innov i = true} (Fin 1) :=
  { zeroSys (Fin k) {i // innov i = true} (Fin 1) with
    x0 := init
    T := fun i j => if i ≤ j then 1 else 0
    Z := fun _ => firstState k
    R := fun i s => if i = s.val then 1 else 0
    Q := diagonal fun s => σ s ^ 2 }

/-- `MeasurementError`: no states, variance `σ²` added to the observation covariance.
pymc_extras/statespace/models/structural.py:915-940 -/
def measurementError (σ : ℝ) : Sys (Fin 0) (Fin 0) (Fin 1) :=
  { zeroSys (Fin 0) (Fin 0) (Fin 1) with H := diagonal fun _ => σ ^ 2 }

/-- A companion matrix: `np.eye(k, k=-1)` whose first row is overwritten.
pymc_extras/statespace/models/structural.py:1038-1044, 1221-1222 -/
def companion (k : ℕ) (row : Fin k → ℝ) : Matrix (Fin k) (Fin k) ℝ :=
  fun i j => if i.val = 0 then row j else if j.val + 1 = i.val then 1 else 0

/-- `AutoregressiveComponent`: `order` marks the lags present, `φ` are their coefficients in increasing order of lag.
No initial-state parameter is registered, so the initial state is zero.
pymc_extras/statespace/models/structural.py:1033-1047 -/
def autoregressive (k : ℕ) (order : Fin k → Bool) (φ : {i // order i = true} → ℝ) (σ : ℝ) :
    Sys (Fin k) (Fin 1) (Fin 1) :=
  { zeroSys (Fin k) (Fin 1) (Fin 1) with
    T := companion k fun j => if h : order j = true then φ ⟨j, h⟩ else 0
    Z := fun _ => firstState k
    R := firstShock k
    Q := diagonal fun _ => σ ^ 2 }

/-- `TimeSeasonality` with `k = season_length - 1` states; without innovations `k_posdef = 0`, which gives the same
trajectories as `σ = 0` and no shocks. pymc_extras/statespace/models/structural.py:1181-1236 -/
def timeSeasonality (k : ℕ) (init : Fin k → ℝ) (σ : ℝ) : Sys (Fin k) (Fin 1) (Fin 1) :=
  { zeroSys (Fin k) (Fin 1) (Fin 1) with
    x0 := init
    T := companion k fun _ => -1
    Z := fun _ => firstState k
    R := firstShock k
    Q := diagonal fun _ => σ ^ 2 }

/-- `_frequency_transition_block`. pymc_extras/statespace/models/structural.py:43-46 -/
noncomputable def freqBlock (s : ℝ) (j : ℕ) : Matrix (Fin 2) (Fin 2) ℝ :=
  let lam := 2 * Real.pi * j / s
  !![Real.cos lam, Real.sin lam; -Real.sin lam, Real.cos lam]

/-- `FrequencySeasonality`: a block-diagonal transition, the observation is the sum of the first entries of the blocks.
State `2·j + f` of the code is the pair `(j, f)` here.  `init` has a zero for the unidentified last state of a saturated
model. pymc_extras/statespace/models/structural.py:1296-1335 -/
noncomputable def freqSeasonality (s : ℝ) (n : ℕ) (init : Fin n × Fin 2 → ℝ) (σ : ℝ) :
    Sys (Fin n × Fin 2) (Fin n × Fin 2) (Fin 1) :=
  { zeroSys (Fin n × Fin 2) (Fin n × Fin 2) (Fin 1) with
    x0 := init
    T := fun i j => if i.1 = j.1 then freqBlock s (i.1.val + 1) i.2 j.2 else 0
    Z := fun _ _ j => if j.2 = 0 then 1 else 0
    R := 1
    Q := σ ^ 2 • (1 : Matrix _ _ ℝ) }

/-- `CycleComponent`; `ρ = 1` when not dampened. pymc_extras/statespace/models/structural.py:1489-1514 -/
noncomputable def cycle (len ρ : ℝ) (init : Fin 2 → ℝ) (σ : ℝ) : Sys (Fin 2) (Fin 2) (Fin 1) :=
  { zeroSys (Fin 2) (Fin 2) (Fin 1) with
    x0 := init
    T := ρ • freqBlock len 1
    Z := fun _ => firstState 2
    R := 1
    Q := σ ^ 2 • (1 : Matrix _ _ ℝ) }

/-- `RegressionComponent` with data rows `X t`. pymc_extras/statespace/models/structural.py:1601-1617 -/
def regression (k : ℕ) (X : ℕ → Fin k → ℝ) (β : Fin k → ℝ) (σ : Fin k → ℝ) : Sys (Fin k) (Fin k) (Fin 1) :=
  { zeroSys (Fin k) (Fin k) (Fin 1) with
    x0 := β
    T := 1
    Z := fun t _ j => X t j
    R := 1
    Q := diagonal fun i => σ i ^ 2 }

section trajectories

variable {n r p : Type} [Fintype n] [Fintype r] [Fintype p]

/-- The state at time `t` for shocks `η`: the state equation assumed by the filters, whose first prediction is `x0`.
pymc_extras/statespace/filters/kalman_filter.py:362-410 (mean: `a_hat = T a + c`; `R` carries the shocks) -/
def state (s : Sys n r p) (η : ℕ → r → ℝ) : ℕ → n → ℝ
  | 0 => s.x0
  | t + 1 => s.T *ᵥ state s η t + s.c + s.R *ᵥ η t

/-- The observation at time `t`, without observation noise (`y_hat = d + Z a`).
pymc_extras/statespace/filters/kalman_filter.py:594 -/
def obs (s : Sys n r p) (η : ℕ → r → ℝ) (t : ℕ) : p → ℝ := s.Z t *ᵥ state s η t + s.d

/-- The covariance of the state at time `t` implied by `P0` and the shocks' covariance (before any observation).
pymc_extras/statespace/filters/kalman_filter.py:362-410 -/
def stateCov (s : Sys n r p) : ℕ → Matrix n n ℝ
  | 0 => s.P0
  | t + 1 => s.T * stateCov s t * s.Tᵀ + s.R * s.Q * s.Rᵀ

/-- The covariance of the observation at time `t` (`F = Z P Zᵀ + H`).
pymc_extras/statespace/filters/kalman_filter.py:597-598 -/
def obsCov (s : Sys n r p) (t : ℕ) : Matrix p p ℝ := s.Z t * stateCov s t * (s.Z t)ᵀ + s.H

end trajectories

end Verif.Structural
