import Verif.Simulate.MomentsProps

/-!
# Forecast trajectories: from the filter's output to the draws

The numerical part of `forecast` for a model whose system matrices do not vary over time and that has no exogenous data. Dates
and indices are modelled in `Verif.Forecast` (C19, C20); here `t0` is the position of the start date in the data.
-/

set_option autoImplicit false

open Matrix MeasureTheory ProbabilityTheory

namespace Verif.Simulate

open Verif.Kalman (Params)
open Verif.Kalman.Orthogonal
open Verif.Kalman

/-- The accepted values of the argument `filter_output`.
pymc_extras/statespace/utils/constants.py:22 -/
inductive FilterOutput where
  | filtered
  | predicted
  | smoothed

/-- Means and covariances of the chosen filter output, one pair per date. The smoother gets the filtered states and covariances and
the static matrices `T`, `R`, `Q`; jitter is zero here (the effect of the jitter is studied in C05, C169).
pymc_extras/statespace/core/statespace.py:1026-1059 -/
noncomputable def outputGroup {k p r : ℕ} (fill : ℝ) (o : FilterOutput) (θ : Params (Fin k) (Fin p) (Fin r)) (a0 : Fin k → ℝ)
    (P0 : Matrix (Fin k) (Fin k) ℝ) (data : List (Row (Fin p))) : List ((Fin k → ℝ) × Matrix (Fin k) (Fin k) ℝ) :=
  let out := buildGraph 0 fill a0 P0 (data.map fun y => (y, θ))
  match o with
  | .filtered => out.filteredStates.zip out.filteredCovs
  | .predicted => out.predictedStates.zip out.predictedCovs
  | .smoothed =>
    (Smoother.buildGraph 0 0 (out.filteredStates.zip out.filteredCovs) (List.replicate data.length ⟨θ.T, θ.R, θ.Q⟩)).getD []

/-- Mean and covariance of the chosen filter output at the start date.
pymc_extras/statespace/core/statespace.py:2020-2036 -/
noncomputable def forecastStart {k p r : ℕ} (fill : ℝ) (o : FilterOutput) (θ : Params (Fin k) (Fin p) (Fin r)) (a0 : Fin k → ℝ)
    (P0 : Matrix (Fin k) (Fin k) ℝ) (data : List (Row (Fin p))) (t0 : ℕ) : Option ((Fin k → ℝ) × Matrix (Fin k) (Fin k) ℝ) :=
  (outputGroup fill o θ a0 P0 data)[t0]?

/-- One draw of a forecast of `steps` periods: `none` when the start is outside the data. The row of the start date itself is not
kept (`append_x0=False`).
pymc_extras/statespace/core/statespace.py:2018-2060 -/
noncomputable def forecast {G : Type*} {k p r : ℕ} (F : ∀ m : ℕ, Matrix (Fin m) (Fin m) ℝ → Matrix (Fin m) (Fin m) ℝ) (R : Rng G)
    (g : G) (fill : ℝ) (o : FilterOutput) (θ : Params (Fin k) (Fin p) (Fin r)) (a0 : Fin k → ℝ) (P0 : Matrix (Fin k) (Fin k) ℝ)
    (data : List (Row (Fin p))) (t0 steps : ℕ) : Option (List (List ℝ)) :=
  match forecastStart fill o θ a0 P0 data t0 with
  | none => none
  | some (x0, P) => draw F R g false steps x0 P fun _ => θ

/-! ### Conditional samples -/

/-- `SequenceMvNormal.rv_op` for means without batch axes: a scan over the dates, each step drawing from the generator left by the
previous one.
pymc_extras/statespace/filters/distributions.py:405-434 -/
def seqDraws {G : Type*} {m : ℕ} (F : ∀ m : ℕ, Matrix (Fin m) (Fin m) ℝ → Matrix (Fin m) (Fin m) ℝ) (R : Rng G) :
    G → List ((Fin m → ℝ) × Matrix (Fin m) (Fin m) ℝ) → List (Fin m → ℝ)
  | _, [] => []
  | g, (mu, cov) :: rest => mvDraw R g mu (F m cov) :: seqDraws F R (R.advance g m) rest

/-- The variable `{name}_{group}` of `_sample_conditional`: sampled states.
pymc_extras/statespace/core/statespace.py:1119-1139 -/
noncomputable def conditionalStates {G : Type*} {k p r : ℕ} (F : ∀ m : ℕ, Matrix (Fin m) (Fin m) ℝ → Matrix (Fin m) (Fin m) ℝ)
    (R : Rng G) (g : G) (fill : ℝ) (o : FilterOutput) (θ : Params (Fin k) (Fin p) (Fin r)) (a0 : Fin k → ℝ)
    (P0 : Matrix (Fin k) (Fin k) ℝ) (data : List (Row (Fin p))) : List (Fin k → ℝ) :=
  seqDraws F R g (outputGroup fill o θ a0 P0 data)

/-- The variable `{name}_{group}_observed`: sampled observations, with a generator of its own.
pymc_extras/statespace/core/statespace.py:1141-1150 -/
noncomputable def conditionalObserved {G : Type*} {k p r : ℕ} (F : ∀ m : ℕ, Matrix (Fin m) (Fin m) ℝ → Matrix (Fin m) (Fin m) ℝ)
    (R : Rng G) (g : G) (fill : ℝ) (o : FilterOutput) (θ : Params (Fin k) (Fin p) (Fin r)) (a0 : Fin k → ℝ)
    (P0 : Matrix (Fin k) (Fin k) ℝ) (data : List (Row (Fin p))) : List (Fin p → ℝ) :=
  seqDraws F R g ((outputGroup fill o θ a0 P0 data).map fun m => conditionalObs θ.Z θ.H m.1 m.2)

end Verif.Simulate
