import Verif.Kalman.OptimalSpec
import Mathlib.Probability.Distributions.Gaussian.IsGaussianProcess.Def
import Mathlib.Probability.Distributions.Gaussian.Multivariate
import Mathlib.Probability.Kernel.CondDistrib

/-!
# Normal state-space processes

Specification for C189 and C190, independent of the filter.
-/

set_option autoImplicit false

open Matrix MeasureTheory ProbabilityTheory

namespace Verif.Kalman.Spec

variable {Ω : Type*} [MeasurableSpace Ω]
variable {n p r : Type*} [Fintype n] [Fintype p] [Fintype r]

/-- Initial states, state shocks and measurement errors of all dates, as one family. -/
def sources (X : ℕ → n → Ω → ℝ) (η : ℕ → r → Ω → ℝ) (ε : ℕ → p → Ω → ℝ) : n ⊕ (ℕ × r) ⊕ (ℕ × p) → Ω → ℝ
  | .inl i => X 0 i
  | .inr (.inl q) => η q.1 q.2
  | .inr (.inr q) => ε q.1 q.2

/-- A state-space process whose initial state, shocks and errors are jointly normal. -/
structure NormalProcess (μ : Measure Ω) (θ : ℕ → Params n p r) (a0 : n → ℝ) (P0 : Matrix n n ℝ) (X : ℕ → n → Ω → ℝ)
    (Y : ℕ → p → Ω → ℝ) (η : ℕ → r → Ω → ℝ) (ε : ℕ → p → Ω → ℝ) : Prop extends Process μ θ a0 P0 X Y η ε where
  normal : IsGaussianProcess (sources X η ε) μ

/-- The observations of the first `t` dates, as one random vector. -/
def data (Y : ℕ → p → Ω → ℝ) (t : ℕ) (ω : Ω) : Fin t × p → ℝ := fun q => Y q.1 q.2 ω

/-- A random vector, as a point of Euclidean space. -/
def vec {k : Type*} (x : k → Ω → ℝ) (ω : Ω) : EuclideanSpace ℝ k := WithLp.toLp 2 fun i => x i ω

/-- The normal distribution with mean vector `m` and covariance matrix `P`. -/
noncomputable abbrev N {k : Type*} [Fintype k] [DecidableEq k] (m : k → ℝ) (P : Matrix k k ℝ) : Measure (EuclideanSpace ℝ k) :=
  multivariateGaussian (WithLp.toLp 2 m) P

/-- The conditional law of the random vector `x` given the first `t` dates of data, at the realisation `ω`. -/
noncomputable def given {k : Type*} [Fintype k] (μ : Measure Ω) [IsProbabilityMeasure μ] (x : k → Ω → ℝ) (Y : ℕ → p → Ω → ℝ)
    (t : ℕ) (ω : Ω) : Measure (EuclideanSpace ℝ k) :=
  condDistrib (vec x) (data Y t) μ (data Y t ω)

end Verif.Kalman.Spec
