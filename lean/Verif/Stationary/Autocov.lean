import Verif.Stationary.Props
import Verif.Kalman.OptimalLoglik
import Verif.Kalman.OptimalExists

/-!
# C186: autocovariances under the stationary initialisation

Property theorems.  The specification is the moving-average form of the model: the response to a shock after `m` periods is
`Z Tᵐ R`, and the autocovariance of lag `k` is the sum over `m` of `(Z Tᵐ⁺ᵏ R) Q (Z Tᵐ R)ᵀ`.
-/

set_option autoImplicit false

open Matrix Filter Topology MeasureTheory ProbabilityTheory

namespace Verif.Stationary

open Kalman.Orthogonal

variable {n p r : Type*} [Fintype n] [Fintype p] [Fintype r] [DecidableEq n] [DecidableEq p] [DecidableEq r]

/-- Specification: the response of the observations to the shocks of one date, `m` periods after they enter the state. -/
def Spec.impulse (θ : Kalman.Params n p r) (m : ℕ) : Matrix p r ℝ := θ.Z * θ.T ^ m * θ.R

theorem psd_cross {Q : Matrix r r ℝ} (hQ : Q.PosSemidef) (a b : r → ℝ) :
    |a ⬝ᵥ (Q *ᵥ b)| ≤ (a ⬝ᵥ (Q *ᵥ a) + b ⬝ᵥ (Q *ᵥ b)) / 2 := by
  have hs : Qᵀ = Q := Kalman.PosSemidef.transpose_eq hQ
  have hsym : b ⬝ᵥ (Q *ᵥ a) = a ⬝ᵥ (Q *ᵥ b) := by
    rw [dotProduct_mulVec, ← mulVec_transpose, hs, dotProduct_comm]
  have h1 := hQ.dotProduct_mulVec_nonneg (a - b)
  have h2 := hQ.dotProduct_mulVec_nonneg (a + b)
  simp only [star_trivial, mulVec_sub, mulVec_add, sub_dotProduct, dotProduct_sub, add_dotProduct, dotProduct_add, hsym] at h1 h2
  rw [abs_le]
  constructor <;> linarith

/-- The series of response products. -/
theorem hasSum_impulse (c : n → ℝ) {θ : Kalman.Params n p r} (hT : Spec.Stable θ.T) (hQ : θ.Q.PosSemidef) (k : ℕ) (i j : p) :
    HasSum (fun m => (Spec.impulse θ (m + k) * θ.Q * (Spec.impulse θ m)ᵀ) i j)
      ((θ.Z * (θ.T ^ k * (stationaryInit c θ.T θ.R θ.Q).2) * θ.Zᵀ) i j) := by
  have hlim := C170_sum_of_past_shocks c hT θ.R θ.Q
  have hpart : ∀ k N : ℕ, ∑ m ∈ Finset.range N, Spec.impulse θ (m + k) * θ.Q * (Spec.impulse θ m)ᵀ =
      θ.Z * (θ.T ^ k * ∑ m ∈ Finset.range N, θ.T ^ m * (θ.R * θ.Q * θ.Rᵀ) * (θ.T ^ m)ᵀ) * θ.Zᵀ := by
    intro k N
    rw [Matrix.mul_sum, Matrix.mul_sum, Matrix.sum_mul]
    refine Finset.sum_congr rfl fun m _ => ?_
    simp only [Spec.impulse, transpose_mul, Matrix.mul_assoc, Nat.add_comm m k, pow_add]
  have hten : ∀ (k : ℕ) (i j : p), Tendsto (fun N => ∑ m ∈ Finset.range N, (Spec.impulse θ (m + k) * θ.Q * (Spec.impulse θ m)ᵀ) i j)
      atTop (𝓝 ((θ.Z * (θ.T ^ k * (stationaryInit c θ.T θ.R θ.Q).2) * θ.Zᵀ) i j)) := by
    intro k i j
    have hc : Continuous fun A : Matrix n n ℝ => (θ.Z * (θ.T ^ k * A) * θ.Zᵀ) i j :=
      ((continuous_const.matrix_mul (continuous_const.matrix_mul continuous_id)).matrix_mul continuous_const).matrix_elem i j
    have h2 := (hc.tendsto _).comp hlim
    refine h2.congr fun N => ?_
    simp only [Function.comp]
    rw [← hpart k N, Matrix.sum_apply]
  have hrow : ∀ (a b : ℕ) (i j : p), (Spec.impulse θ a * θ.Q * (Spec.impulse θ b)ᵀ) i j =
      Spec.impulse θ a i ⬝ᵥ (θ.Q *ᵥ Spec.impulse θ b j) := by
    intro a b i j
    rw [Matrix.mul_assoc]
    rfl
  have hsq : ∀ i, Summable fun m => Spec.impulse θ m i ⬝ᵥ (θ.Q *ᵥ Spec.impulse θ m i) := by
    intro i
    have h0 : ∀ m, 0 ≤ Spec.impulse θ m i ⬝ᵥ (θ.Q *ᵥ Spec.impulse θ m i) := fun m => by
      simpa using hQ.dotProduct_mulVec_nonneg (Spec.impulse θ m i)
    have h1 := hten 0 i i
    simp only [Nat.add_zero, hrow] at h1
    exact ((hasSum_iff_tendsto_nat_of_nonneg h0 _).2 h1).summable
  have hsum : Summable fun m => (Spec.impulse θ (m + k) * θ.Q * (Spec.impulse θ m)ᵀ) i j := by
    refine Summable.of_norm_bounded (((((summable_nat_add_iff k).2 (hsq i)).add (hsq j)).div_const 2)) fun m => ?_
    rw [hrow, Real.norm_eq_abs]
    exact psd_cross hQ _ _
  have := hsum.hasSum
  rwa [tendsto_nhds_unique this.tendsto_sum_nat (hten k i j)] at this

variable {Ω : Type*} [MeasurableSpace Ω] {μ : Measure Ω} [IsProbabilityMeasure μ]
variable {θ : Kalman.Params n p r} {a0 : n → ℝ} {P0 : Matrix n n ℝ} {X : ℕ → n → Ω → ℝ} {Y : ℕ → p → Ω → ℝ}
  {η : ℕ → r → Ω → ℝ} {ε : ℕ → p → Ω → ℝ}

/-- The mean of the observations. -/
theorem mean_obs (h : Kalman.Spec.Process μ (fun _ => θ) a0 P0 X Y η ε) (hT : Spec.Stable θ.T)
    (h0 : (a0, P0) = stationaryInit θ.c θ.T θ.R θ.Q) (t : ℕ) (i : p) : ∫ ω, Y t i ω ∂μ = (θ.Z *ᵥ a0 + θ.d) i := by
  rw [(C170_process_stationary h hT h0 0 t).2.2.1 i]
  have h1 := congrArg (mean μ) (congrFun ((toProc h).obs 0) i)
  have hε : mean μ (liftε h 0 i) = 0 := h.mean_error 0 i
  have h2 : mean μ (one μ) = 1 := by simp [mean_apply, Kalman.Orthogonal.one]
  have h5 : ∀ j, mean μ (liftX h 0 j) = a0 j := fun j => h.mean_initial j
  simp only [Pi.add_apply, map_add, act, map_sum, map_smul, const, hε, h2, smul_eq_mul, add_zero, mul_one, h5] at h1
  exact h1

/-- **C186** (all models with fixed matrices): in a process that follows the model and starts from the stationary
initialisation, the covariance of two observations `k` periods apart is the sum of the products of the shock responses, plus the
measurement error covariance when `k = 0`. -/
theorem C186_autocovariance (h : Kalman.Spec.Process μ (fun _ => θ) a0 P0 X Y η ε) (hT : Spec.Stable θ.T)
    (h0 : (a0, P0) = stationaryInit θ.c θ.T θ.R θ.Q) (s k : ℕ) (i j : p) :
    HasSum (fun m => (Spec.impulse θ (m + k) * θ.Q * (Spec.impulse θ m)ᵀ) i j)
      (cov[Y (s + k) i, Y s j; μ] - if k = 0 then θ.H i j else 0) := by
  have hQ : θ.Q.PosSemidef := by
    rw [← (toProc h).ηη 0]; exact covM_posSemidef _ (toProc h).sym covB_self_nonneg _
  obtain ⟨-, -, -, h4, -⟩ := C170_fixed_point θ.c hT θ.R hQ
  obtain ⟨-, hP⟩ := Prod.mk.inj h0
  have hcov : ∀ t, covM (covB μ) (liftX h t) (liftX h t) = P0 := by
    intro t
    induction t with
    | zero => exact (toProc h).x0
    | succ t ih => rw [cov_step h t, ih]; exact (h4 P0).2 hP
  have h1 := cov_obs_lag h s k
  rw [hcov, cov_state_error, Matrix.mul_zero] at h1
  have h2 : cov[Y (s + k) i, Y s j; μ] = (θ.Z * (θ.T ^ k * P0) * θ.Zᵀ + if k = 0 then θ.H else 0) i j :=
    congrFun (congrFun h1 i) j
  have h3 : cov[Y (s + k) i, Y s j; μ] - (if k = 0 then θ.H i j else 0) = (θ.Z * (θ.T ^ k * P0) * θ.Zᵀ) i j := by
    rw [h2]
    by_cases hk : k = 0 <;> simp [hk]
  rw [h3, hP]
  exact hasSum_impulse θ.c hT hQ k i j

end Verif.Stationary
