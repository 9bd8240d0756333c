import Verif.Structural.Combine
import Verif.Structural.Components

/-!
# Structural components: how the shocks enter, and their variances

`sigma` parameters are standard deviations; the innovation of a state reaches that state only.
-/

set_option autoImplicit false

open Matrix

namespace Verif.Structural

/-- **C32** The trend recursion with shocks: each state adds up itself and all higher-order states, and receives its own
innovation and no other. -/
theorem C32_trend_shocks (k : ℕ) (innov : Fin k → Bool) (init : Fin k → ℝ) (σ : {i // innov i = true} → ℝ)
    (η : ℕ → {i // innov i = true} → ℝ) (t : ℕ) (i : Fin k) :
    state (levelTrend k innov init σ) η (t + 1) i =
      (∑ j ∈ Finset.univ.filter (fun j => i ≤ j), state (levelTrend k innov init σ) η t j) +
        (if h : innov i = true then η t ⟨i, h⟩ else 0) := by
  rw [state_succ_apply]
  have e1 : ((levelTrend k innov init σ).T *ᵥ state (levelTrend k innov init σ) η t) i =
      ∑ j ∈ Finset.univ.filter (fun j => i ≤ j), state (levelTrend k innov init σ) η t j := by
    rw [Finset.sum_filter]
    simp only [mulVec, dotProduct]
    refine Finset.sum_congr rfl fun j _ => ?_
    change (if i ≤ j then (1 : ℝ) else 0) * _ = _
    split <;> simp
  have e2 : ((levelTrend k innov init σ).R *ᵥ η t) i = if h : innov i = true then η t ⟨i, h⟩ else 0 := by
    simp only [mulVec, dotProduct]
    change ∑ s : {i // innov i = true}, (if i = s.val then (1 : ℝ) else 0) * η t s = _
    split
    · next h =>
      rw [Finset.sum_eq_single ⟨i, h⟩]
      · simp
      · intro b _ hb
        rw [if_neg, zero_mul]
        intro h'; exact hb (Subtype.ext h'.symm)
      · simp
    · next h =>
      refine Finset.sum_eq_zero fun b _ => ?_
      rw [if_neg, zero_mul]
      intro h'; exact h (h' ▸ b.2)
  have e3 : (levelTrend k innov init σ).c i = 0 := rfl
  simp only [mulVec, dotProduct] at e1 e2 ⊢
  linarith [e1, e2, e3]

/-- **C32** The variance added to the trend's states in one step: `sigma²` on each state with an innovation. -/
theorem C32_trend_variance (k : ℕ) (innov : Fin k → Bool) (init : Fin k → ℝ) (σ : {i // innov i = true} → ℝ) :
    stateCov (levelTrend k innov init σ) 1 = diagonal fun i => if h : innov i = true then σ ⟨i, h⟩ ^ 2 else 0 := by
  have h0 : stateCov (levelTrend k innov init σ) 0 = 0 := rfl
  have : stateCov (levelTrend k innov init σ) 1 = (levelTrend k innov init σ).R * (levelTrend k innov init σ).Q *
      (levelTrend k innov init σ).Rᵀ := by
    change _ * stateCov (levelTrend k innov init σ) 0 * _ + _ = _
    rw [h0]; simp
  rw [this]
  ext i j
  rw [mul_apply]
  have hq : ∀ s, ((levelTrend k innov init σ).R * (levelTrend k innov init σ).Q) i s =
      (if i = s.val then 1 else 0) * σ s ^ 2 := fun s => by
    change ((levelTrend k innov init σ).R * diagonal fun s => σ s ^ 2) i s = _
    rw [mul_diagonal]; rfl
  simp only [hq, transpose_apply]
  change ∑ s : {i // innov i = true}, (if i = s.val then (1 : ℝ) else 0) * σ s ^ 2 * (if j = s.val then 1 else 0) = _
  rw [diagonal_apply]
  by_cases hij : i = j
  · subst hij
    rw [if_pos rfl]
    split
    · next h =>
      rw [Finset.sum_eq_single ⟨i, h⟩]
      · simp
      · intro b _ hb
        have : ¬ i = b.val := fun h' => hb (Subtype.ext h'.symm)
        simp [this]
      · simp
    · next h =>
      refine Finset.sum_eq_zero fun b _ => ?_
      have : ¬ i = b.val := fun h' => h (h' ▸ b.2)
      simp [this]
  · rw [if_neg hij]
    refine Finset.sum_eq_zero fun b _ => ?_
    by_cases h1 : i = b.val
    · have : ¬ j = b.val := fun h2 => hij (h1.trans h2.symm)
      simp [this]
    · simp [h1]

/-- A local linear trend whose slope alone is stochastic. -/
example : stateCov (levelTrend 2 (fun i => i = 1) ![5, 1] fun _ => 3) 1 = diagonal ![0, 9] := by
  rw [C32_trend_variance]
  congr 1
  ext i
  fin_cases i <;> norm_num

/-- **C26** Adding `MeasurementError(sigma)` to a model adds `sigma²` to the variance of the observation and changes
nothing else. -/
theorem C26_measurement_error {n r : Type} [Fintype n] [Fintype r] (a : Sys n r (Fin 1)) (σ : ℝ) (η : ℕ → r → ℝ)
    (η' : ℕ → Fin 0 → ℝ) (t : ℕ) :
    obs (combine a (measurementError σ)) (fun t => Sum.elim (η t) (η' t)) t = obs a η t ∧
    obsCov (combine a (measurementError σ)) t = obsCov a t + diagonal fun _ => σ ^ 2 := by
  constructor
  · rw [(C26_superposition a (measurementError σ) η η' t).2]
    have : obs (measurementError σ) η' t = 0 := by
      ext i; simp [obs, measurementError, zeroSys, mulVec, dotProduct]
    rw [this, add_zero]
  · rw [(C26_superposition_cov a (measurementError σ) t).2]
    congr 1
    simp [obsCov, measurementError, zeroSys]

/-- **C33** The regression coefficients are random walks: after `t` steps the variance of coefficient `i` is
`t · sigma_i²` and different coefficients are uncorrelated. -/
theorem C33_coefficient_variance (k : ℕ) (X : ℕ → Fin k → ℝ) (β σ : Fin k → ℝ) (t : ℕ) :
    stateCov (regression k X β σ) t = diagonal fun i => t * σ i ^ 2 := by
  induction t with
  | zero =>
    change (0 : Matrix (Fin k) (Fin k) ℝ) = _
    ext i j; simp [diagonal_apply]
  | succ t ih =>
    change (1 : Matrix (Fin k) (Fin k) ℝ) * stateCov (regression k X β σ) t * 1ᵀ +
      1 * (diagonal fun i => σ i ^ 2) * 1ᵀ = _
    rw [ih]
    simp only [transpose_one, one_mul, mul_one, diagonal_add]
    congr 1; ext i; push_cast; ring

/-- **C34**, **C29** The shock of an autoregressive or a time-dummy seasonal component enters the current value only,
with variance `sigma²`. -/
theorem C34_shock_variance (k : ℕ) (order : Fin (k + 1) → Bool) (φ : {i // order i = true} → ℝ) (init : Fin (k + 1) → ℝ)
    (σ : ℝ) :
    stateCov (autoregressive (k + 1) order φ σ) 1 = diagonal (fun i => if i = 0 then σ ^ 2 else 0) ∧
    stateCov (timeSeasonality (k + 1) init σ) 1 = diagonal (fun i => if i = 0 then σ ^ 2 else 0) := by
  have key : firstShock (k + 1) * (diagonal fun _ => σ ^ 2) * (firstShock (k + 1))ᵀ =
      diagonal (fun i : Fin (k + 1) => if i = 0 then σ ^ 2 else 0) := by
    ext i j
    rw [mul_apply, Fin.sum_univ_one, mul_diagonal, diagonal_apply]
    simp only [firstShock, transpose_apply, Fin.val_eq_zero_iff]
    by_cases hi : i = 0 <;> by_cases hj : j = 0 <;> simp_all
    · intro h; exact absurd h.symm hj
  constructor
  · change _ * (0 : Matrix (Fin (k + 1)) (Fin (k + 1)) ℝ) * _ + firstShock (k + 1) * (diagonal fun _ => σ ^ 2) *
      (firstShock (k + 1))ᵀ = _
    rw [key]; simp
  · change _ * (0 : Matrix (Fin (k + 1)) (Fin (k + 1)) ℝ) * _ + firstShock (k + 1) * (diagonal fun _ => σ ^ 2) *
      (firstShock (k + 1))ᵀ = _
    rw [key]; simp

/-- **C30**, **C31** Every state of a frequency seasonality and of a cycle receives its own shock, with variance
`sigma²`. -/
theorem C30_shock_variance (s : ℝ) (n : ℕ) (init : Fin n × Fin 2 → ℝ) (len ρ : ℝ) (init' : Fin 2 → ℝ) (σ : ℝ) :
    stateCov (freqSeasonality s n init σ) 1 = diagonal (fun _ => σ ^ 2) ∧
    stateCov (cycle len ρ init' σ) 1 = diagonal (fun _ => σ ^ 2) := by
  constructor
  · change _ * (0 : Matrix (Fin n × Fin 2) (Fin n × Fin 2) ℝ) * _ + 1 * (σ ^ 2 • (1 : Matrix _ _ ℝ)) * 1ᵀ = _
    ext i j; simp [Matrix.smul_apply, one_apply, diagonal_apply]
  · change _ * (0 : Matrix (Fin 2) (Fin 2) ℝ) * _ + 1 * (σ ^ 2 • (1 : Matrix _ _ ℝ)) * 1ᵀ = _
    ext i j; simp [Matrix.smul_apply, one_apply, diagonal_apply]

end Verif.Structural
