import Verif.Kalman.Model
import Mathlib.Probability.Moments.Covariance
import Mathlib.Probability.Moments.Variance

/-!
# What a linear state-space process is

Specification for the optimality theorems, independent of the filter: random variables on a probability space that satisfy the
two equations of the model, with shocks that have the stated covariances and are uncorrelated with each other, over time and
with the initial state.  Gaussianity is not assumed.
-/

set_option autoImplicit false

open Matrix MeasureTheory ProbabilityTheory

namespace Verif.Kalman.Spec

variable {Ω : Type*} [MeasurableSpace Ω]
variable {n p r : Type*} [Fintype n] [Fintype p] [Fintype r]

/-- States `X`, observations `Y`, state shocks `η` and measurement errors `ε` follow the state-space model with matrices `θ`
and an initial state of mean `a0` and covariance `P0`. -/
structure Process (μ : Measure Ω) (θ : ℕ → Params n p r) (a0 : n → ℝ) (P0 : Matrix n n ℝ) (X : ℕ → n → Ω → ℝ)
    (Y : ℕ → p → Ω → ℝ) (η : ℕ → r → Ω → ℝ) (ε : ℕ → p → Ω → ℝ) : Prop where
  transition : ∀ t i ω, X (t + 1) i ω =
    ∑ j, (θ t).T i j * X t j ω + (θ t).c i + ∑ j, (θ t).R i j * η t j ω
  observation : ∀ t i ω, Y t i ω = ∑ j, (θ t).Z i j * X t j ω + (θ t).d i + ε t i ω
  sqInt_initial : ∀ i, MemLp (X 0 i) 2 μ
  sqInt_shock : ∀ t i, MemLp (η t i) 2 μ
  sqInt_error : ∀ t i, MemLp (ε t i) 2 μ
  mean_initial : ∀ i, ∫ ω, X 0 i ω ∂μ = a0 i
  mean_shock : ∀ t i, ∫ ω, η t i ω ∂μ = 0
  mean_error : ∀ t i, ∫ ω, ε t i ω ∂μ = 0
  cov_initial : ∀ i j, cov[X 0 i, X 0 j; μ] = P0 i j
  cov_shock : ∀ t i j, cov[η t i, η t j; μ] = (θ t).Q i j
  cov_error : ∀ t i j, cov[ε t i, ε t j; μ] = (θ t).H i j
  shocks_uncorrelated : ∀ s t i j, s ≠ t → cov[η s i, η t j; μ] = 0
  errors_uncorrelated : ∀ s t i j, s ≠ t → cov[ε s i, ε t j; μ] = 0
  shocks_errors_uncorrelated : ∀ s t i j, cov[η s i, ε t j; μ] = 0
  initial_shocks_uncorrelated : ∀ t i j, cov[X 0 i, η t j; μ] = 0
  initial_errors_uncorrelated : ∀ t i j, cov[X 0 i, ε t j; μ] = 0

/-- No date's observations are determined by the past: a linear combination of the series of one date that differs from a linear
combination of earlier observations only by a constant has weights zero. -/
def Undetermined (μ : Measure Ω) (Y : ℕ → p → Ω → ℝ) : Prop :=
  ∀ (t : ℕ) (w : p → ℝ) (v : ℕ → p → ℝ),
    Var[fun ω => ∑ i, w i * Y t i ω - ∑ s ∈ Finset.range t, ∑ j, v s j * Y s j ω; μ] = 0 → w = 0

/-- The rows handed to the filter: the realised observations of the first `N` dates, none missing. -/
def rows (θ : ℕ → Params n p r) (Y : ℕ → p → Ω → ℝ) (N : ℕ) (ω : Ω) : List (Row p × Params n p r) :=
  (List.range N).map fun t => (fun i => some (Y t i ω), θ t)

end Verif.Kalman.Spec
