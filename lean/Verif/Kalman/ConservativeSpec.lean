import Verif.Kalman.MissingLimitProps
import Verif.Kalman.GaussianProps

/-!
# Specification for C201

Independent of the filter.
-/

set_option autoImplicit false

open Matrix MeasureTheory ProbabilityTheory

namespace Verif.Kalman.Spec

variable {Ω : Type*} [MeasurableSpace Ω] {n p r k : Type*} [Fintype n] [Fintype p] [Fintype r] [Fintype k]

/-- The parameters `θ` describe the same dynamics as `θ'`, with shock and error covariances at least as large. -/
structure Covers (θ θ' : Params n p r) : Prop where
  c : θ.c = θ'.c
  d : θ.d = θ'.d
  T : θ.T = θ'.T
  Z : θ.Z = θ'.Z
  R : θ.R = θ'.R
  H : (θ.H - θ'.H).PosSemidef
  Q : (θ.Q - θ'.Q).PosSemidef

/-- The estimation error `e` has mean zero, and no combination of its entries varies more than the covariance matrix `V`
says. -/
structure Conservative (μ : Measure Ω) (e : k → Ω → ℝ) (V : Matrix k k ℝ) : Prop where
  square_integrable : ∀ i, MemLp (e i) 2 μ
  mean : ∀ i, ∫ ω, e i ω ∂μ = 0
  variance : ∀ w : k → ℝ, Var[fun ω => ∑ i, w i * e i ω; μ] ≤ ∑ i, ∑ l, w i * V i l * w l

end Verif.Kalman.Spec
