import Verif.Structural.Model
import Mathlib.Algebra.BigOperators.Fin
import Mathlib.Algebra.BigOperators.Intervals
import Mathlib.Data.Nat.Choose.Sum
import Mathlib.Data.Nat.Choose.Cast
import Mathlib.Tactic.Ring
import Mathlib.Tactic.LinearCombination
import Mathlib.Analysis.SpecificLimits.Basic

/-!
C29 to C34 and C92: what each component produces.
-/

set_option autoImplicit false

open Matrix

namespace Verif.Structural

/-- The observed scalar of a univariate system. -/
def Spec.y {n r : Type} [Fintype n] [Fintype r] (s : Sys n r (Fin 1)) (η : ℕ → r → ℝ) (t : ℕ) : ℝ := obs s η t 0

theorem state_succ_apply {n r p : Type} [Fintype n] [Fintype r] (s : Sys n r p) (η : ℕ → r → ℝ) (t : ℕ) (i : n) :
    state s η (t + 1) i = (∑ j, s.T i j * state s η t j) + s.c i + ∑ j, s.R i j * η t j := rfl

section companion

variable {k : ℕ} {s : Sys (Fin (k + 1)) (Fin 1) (Fin 1)} {row : Fin (k + 1) → ℝ}

theorem companion_state_succ (hT : s.T = companion (k + 1) row) (hc : s.c = 0) (hR : s.R = firstShock (k + 1))
    (η : ℕ → Fin 1 → ℝ) (t : ℕ) :
    (state s η (t + 1) 0 = (∑ i, row i * state s η t i) + η t 0) ∧
    ∀ i : Fin k, state s η (t + 1) i.succ = state s η t i.castSucc := by
  constructor
  · simp [state, hT, hc, hR, companion, firstShock, mulVec, dotProduct]
  · intro i
    simp only [state, hT, hc, hR, companion, firstShock, mulVec, dotProduct, Pi.add_apply, Fin.val_succ]
    simp only [Nat.add_eq_zero_iff, one_ne_zero, and_false, if_false, Nat.add_right_cancel_iff, ite_mul, one_mul,
      zero_mul, Finset.sum_const_zero, add_zero, Pi.zero_apply]
    rw [Finset.sum_eq_single i.castSucc]
    · simp
    · intro j _ hj
      rw [if_neg]
      intro h
      exact hj (Fin.ext (by simpa using h))
    · simp

theorem companion_shift (hT : s.T = companion (k + 1) row) (hc : s.c = 0) (hR : s.R = firstShock (k + 1))
    (η : ℕ → Fin 1 → ℝ) (t : ℕ) : ∀ i : Fin (k + 1), state s η (t + i) i = state s η t 0 := by
  intro i
  induction i using Fin.induction with
  | zero => simp
  | succ i ih =>
    have := (companion_state_succ hT hc hR η (t + i)).2 i
    rw [Fin.val_succ, ← add_assoc, this]
    simpa using ih

theorem companion_y (hZ : s.Z = fun _ => firstState (k + 1)) (hd : s.d = 0) (η : ℕ → Fin 1 → ℝ) (t : ℕ) :
    Spec.y s η t = state s η t 0 := by
  simp only [Spec.y, obs, hZ, hd, mulVec, dotProduct, firstState, Pi.add_apply, Pi.zero_apply, add_zero, ite_mul,
    one_mul, zero_mul]
  rw [Finset.sum_eq_single 0] <;> simp
  intro j hj h
  exact absurd h hj

/-- The difference equation of a companion system. -/
theorem companion_diff (hT : s.T = companion (k + 1) row) (hc : s.c = 0) (hR : s.R = firstShock (k + 1))
    (hZ : s.Z = fun _ => firstState (k + 1)) (hd : s.d = 0) (η : ℕ → Fin 1 → ℝ) (t : ℕ) :
    Spec.y s η (t + (k + 1)) = (∑ i : Fin (k + 1), row i * Spec.y s η (t + k - i)) + η (t + k) 0 := by
  rw [companion_y hZ hd, ← add_assoc, (companion_state_succ hT hc hR η (t + k)).1]
  congr 1
  refine Finset.sum_congr rfl fun i _ => ?_
  have h := companion_shift hT hc hR η (t + k - i) i
  rw [companion_y hZ hd, ← h]
  have : t + k - i + i = t + k := by omega
  rw [this]

end companion

/-- **C34**: for every set of lags and every sequence of shocks, the autoregressive component's value is the sum, over
the lags `i + 1` in the set, of the lag's coefficient times the value `i + 1` periods earlier, plus the current shock. -/
theorem C34_autoregressive (k : ℕ) (order : Fin (k + 1) → Bool) (φ : {i // order i = true} → ℝ) (σ : ℝ)
    (η : ℕ → Fin 1 → ℝ) (t : ℕ) :
    Spec.y (autoregressive (k + 1) order φ σ) η (t + (k + 1)) =
      (∑ i : {i // order i = true},
        φ i * Spec.y (autoregressive (k + 1) order φ σ) η (t + (k + 1) - (i.val.val + 1))) + η (t + k) 0 := by
  rw [companion_diff (s := autoregressive (k + 1) order φ σ) rfl rfl rfl rfl rfl]
  congr 1
  rw [← Fintype.sum_subtype_add_sum_subtype (fun i => order i = true)]
  have h0 : ∑ i : {i // ¬ order i = true}, (if h : order i.val = true then φ ⟨i.val, h⟩ else 0) *
      Spec.y (autoregressive (k + 1) order φ σ) η (t + k - i.val.val) = 0 :=
    Finset.sum_eq_zero fun i _ => by simp [i.2]
  rw [h0, add_zero]
  refine Finset.sum_congr rfl fun i _ => ?_
  have e : t + (k + 1) - (i.val.val + 1) = t + k - i.val.val := by omega
  simp [i.2, e]

example : ∃ i : Fin 3, (![true, false, true] : Fin 3 → Bool) i = true ∧ i ≠ 0 := ⟨2, by decide⟩

/-- **C29**: with `s = k + 2` seasons, at every time the sum of `s` consecutive seasonal values is the latest shock; so
without shocks it is zero and the pattern has period `s`. -/
theorem C29_seasonal_sum (k : ℕ) (init : Fin (k + 1) → ℝ) (σ : ℝ) (η : ℕ → Fin 1 → ℝ) (t : ℕ) :
    ∑ i ∈ Finset.range (k + 2), Spec.y (timeSeasonality (k + 1) init σ) η (t + i) = η (t + k) 0 := by
  rw [Finset.sum_range_succ, companion_diff (s := timeSeasonality (k + 1) init σ) rfl rfl rfl rfl rfl]
  have : ∑ i : Fin (k + 1), (-1 : ℝ) * Spec.y (timeSeasonality (k + 1) init σ) η (t + k - i) =
      - ∑ i ∈ Finset.range (k + 1), Spec.y (timeSeasonality (k + 1) init σ) η (t + i) := by
    rw [← Finset.sum_range_reflect, ← Fin.sum_univ_eq_sum_range, ← Finset.sum_neg_distrib]
    refine Finset.sum_congr rfl fun i _ => ?_
    have : t + (k + 1 - 1 - i.val) = t + k - i.val := by omega
    rw [this]; ring
  rw [this]; ring

theorem C29_seasonal_periodic (k : ℕ) (init : Fin (k + 1) → ℝ) (σ : ℝ) (t : ℕ) :
    Spec.y (timeSeasonality (k + 1) init σ) (fun _ _ => 0) (t + (k + 2)) =
      Spec.y (timeSeasonality (k + 1) init σ) (fun _ _ => 0) t := by
  have h1 := C29_seasonal_sum k init σ (fun _ _ => 0) t
  have h2 := C29_seasonal_sum k init σ (fun _ _ => 0) (t + 1)
  rw [Finset.sum_range_succ'] at h1
  rw [Finset.sum_range_succ] at h2
  have : ∑ i ∈ Finset.range (k + 1), Spec.y (timeSeasonality (k + 1) init σ) (fun _ _ => 0) (t + (i + 1)) =
      ∑ i ∈ Finset.range (k + 1), Spec.y (timeSeasonality (k + 1) init σ) (fun _ _ => 0) (t + 1 + i) :=
    Finset.sum_congr rfl fun i _ => by rw [add_comm i 1, ← add_assoc]
  have e : t + 1 + (k + 1) = t + (k + 2) := by omega
  rw [e] at h2
  rw [this, add_zero] at h1
  linarith

/-- **C92**: without shocks the first observation is the *first* initial condition, the second is minus the sum of all,
and from the third on the initial conditions follow in reverse order, down to the second (the documentation starts the
pattern at minus the sum). -/
theorem C92_seasonal_pattern (k : ℕ) (init : Fin (k + 1) → ℝ) (σ : ℝ) :
    Spec.y (timeSeasonality (k + 1) init σ) (fun _ _ => 0) 0 = init 0 ∧
    Spec.y (timeSeasonality (k + 1) init σ) (fun _ _ => 0) 1 = - ∑ i, init i ∧
    ∀ i : Fin (k + 1), i ≠ 0 →
      Spec.y (timeSeasonality (k + 1) init σ) (fun _ _ => 0) (k + 2 - i) = init i := by
  have hy := companion_y (s := timeSeasonality (k + 1) init σ) rfl rfl (fun _ _ => 0)
  have hs := companion_state_succ (s := timeSeasonality (k + 1) init σ) rfl rfl rfl (fun _ _ => 0)
  have hshift : ∀ t i, (h : i + t < k + 1) → state (timeSeasonality (k + 1) init σ) (fun _ _ => 0) t ⟨i + t, h⟩ =
      init ⟨i, by omega⟩ := by
    intro t
    induction t with
    | zero => intro i h; rfl
    | succ t ih =>
      intro i h
      have := (hs t).2 ⟨i + t, by omega⟩
      rw [← ih i (by omega)]
      exact this
  have hlast : ∀ t, state (timeSeasonality (k + 1) init σ) (fun _ _ => 0) (t + 2) 0 =
      state (timeSeasonality (k + 1) init σ) (fun _ _ => 0) t (Fin.last k) := by
    intro t
    have h1 := (hs (t + 1)).1
    have h2 := (hs t).1
    have h3 := fun i => (hs t).2 i
    rw [Fin.sum_univ_succ] at h1
    simp only [h3] at h1
    rw [Fin.sum_univ_castSucc] at h2
    simp only [neg_mul, one_mul, add_zero, Finset.sum_neg_distrib] at h1 h2
    rw [h1, h2]; ring
  refine ⟨by rw [hy]; rfl, ?_, ?_⟩
  · rw [hy, (hs 0).1]
    simp [state, timeSeasonality]
  · intro i hi
    have hik : i.val ≤ k := by omega
    have e : k + 2 - i.val = (k - i.val) + 2 := by omega
    rw [hy, e, hlast]
    have := hshift (k - i.val) i.val (by omega)
    rw [← this]
    congr 1
    ext
    simp; omega

example : Spec.y (timeSeasonality 3 ![1, 2, 5] 0) (fun _ _ => 0) 1 = -8 := by
  rw [(C92_seasonal_pattern 2 ![1, 2, 5] 0).2.1]
  simp [Fin.sum_univ_three]; norm_num

section rotation

theorem freqBlock_state (s : ℝ) (j : ℕ) (ρ a b : ℝ) (t : ℕ) :
    (ρ • freqBlock s j) *ᵥ ![ρ ^ t * (a * Real.cos (2 * Real.pi * j / s * t) + b * Real.sin (2 * Real.pi * j / s * t)),
      ρ ^ t * (b * Real.cos (2 * Real.pi * j / s * t) - a * Real.sin (2 * Real.pi * j / s * t))] =
    ![ρ ^ (t + 1) * (a * Real.cos (2 * Real.pi * j / s * (t + 1 : ℕ)) + b * Real.sin (2 * Real.pi * j / s * (t + 1 : ℕ))),
      ρ ^ (t + 1) * (b * Real.cos (2 * Real.pi * j / s * (t + 1 : ℕ)) - a * Real.sin (2 * Real.pi * j / s * (t + 1 : ℕ)))] := by
  have e : 2 * Real.pi * j / s * ((t + 1 : ℕ) : ℝ) = 2 * Real.pi * j / s * t + 2 * Real.pi * j / s := by
    push_cast; ring
  rw [e, Real.cos_add, Real.sin_add]
  funext i
  fin_cases i <;> simp [freqBlock, mulVec, dotProduct, Fin.sum_univ_two] <;> ring

end rotation

/-- **C31**, closed form: without shocks the cycle's value is `ρᵗ (a cos λt + b sin λt)` with `λ = 2π / length`, and the
squared length of its state is multiplied by `ρ²` each period. -/
theorem C31_cycle_closed_form (len ρ : ℝ) (init : Fin 2 → ℝ) (σ : ℝ) (t : ℕ) :
    Spec.y (cycle len ρ init σ) (fun _ _ => 0) t =
      ρ ^ t * (init 0 * Real.cos (2 * Real.pi / len * t) + init 1 * Real.sin (2 * Real.pi / len * t)) ∧
    state (cycle len ρ init σ) (fun _ _ => 0) (t + 1) 0 ^ 2 + state (cycle len ρ init σ) (fun _ _ => 0) (t + 1) 1 ^ 2 =
      ρ ^ 2 * (state (cycle len ρ init σ) (fun _ _ => 0) t 0 ^ 2 +
        state (cycle len ρ init σ) (fun _ _ => 0) t 1 ^ 2) := by
  have hs : ∀ t : ℕ, state (cycle len ρ init σ) (fun _ _ => 0) t =
      ![ρ ^ t * (init 0 * Real.cos (2 * Real.pi * (1 : ℕ) / len * t) + init 1 * Real.sin (2 * Real.pi * (1 : ℕ) / len * t)),
      ρ ^ t * (init 1 * Real.cos (2 * Real.pi * (1 : ℕ) / len * t) -
        init 0 * Real.sin (2 * Real.pi * (1 : ℕ) / len * t))] := by
    intro t
    induction t with
    | zero => funext i; fin_cases i <;> simp [state, cycle]
    | succ t ih =>
      rw [← freqBlock_state len 1 ρ (init 0) (init 1) t, ← ih]
      have : (fun _ : Fin 2 => (0 : ℝ)) = 0 := rfl
      simp [state, cycle, zeroSys, this]
  constructor
  · have : Spec.y (cycle len ρ init σ) (fun _ _ => 0) t = state (cycle len ρ init σ) (fun _ _ => 0) t 0 := by
      simp [Spec.y, obs, cycle, firstState, mulVec, dotProduct, zeroSys, Fin.sum_univ_two]
    rw [this, hs]
    simp
  · rw [hs, hs]
    simp only [cons_val_zero, cons_val_one]
    have h1 := Real.cos_sq_add_sin_sq (2 * Real.pi * (1 : ℕ) / len * t)
    have h2 := Real.cos_sq_add_sin_sq (2 * Real.pi * (1 : ℕ) / len * (t + 1 : ℕ))
    linear_combination (ρ ^ (t + 1)) ^ 2 * (init 0 ^ 2 + init 1 ^ 2) * (h2 - h1)

/-- **C31**: undamped cycles keep their amplitude; damped ones (`0 ≤ ρ < 1`) die out. -/
theorem C31_cycle_amplitude (len : ℝ) (init : Fin 2 → ℝ) (σ : ℝ) :
    (∀ t, state (cycle len 1 init σ) (fun _ _ => 0) t 0 ^ 2 + state (cycle len 1 init σ) (fun _ _ => 0) t 1 ^ 2 =
      init 0 ^ 2 + init 1 ^ 2) ∧
    ∀ ρ, 0 ≤ ρ → ρ < 1 → Filter.Tendsto (fun t => Spec.y (cycle len ρ init σ) (fun _ _ => 0) t) Filter.atTop (nhds 0) := by
  constructor
  · intro t
    induction t with
    | zero => rfl
    | succ t ih => rw [(C31_cycle_closed_form len 1 init σ t).2, ih]; ring
  · intro ρ h0 h1
    refine squeeze_zero_norm (a := fun t => ρ ^ t * (|init 0| + |init 1|)) (fun t => ?_) ?_
    · rw [(C31_cycle_closed_form len ρ init σ t).1, Real.norm_eq_abs, abs_mul, abs_of_nonneg (pow_nonneg h0 t)]
      refine mul_le_mul_of_nonneg_left ?_ (pow_nonneg h0 t)
      refine (abs_add_le _ _).trans (add_le_add ?_ ?_) <;> rw [abs_mul]
      · exact mul_le_of_le_one_right (abs_nonneg _) (Real.abs_cos_le_one _)
      · exact mul_le_of_le_one_right (abs_nonneg _) (Real.abs_sin_le_one _)
    · simpa using (tendsto_pow_atTop_nhds_zero_of_lt_one h0 h1).mul_const (|init 0| + |init 1|)

example : (0 : ℝ) ≤ 0.9 ∧ (0.9 : ℝ) < 1 := by norm_num

/-- **C30**, closed form: without shocks the frequency-domain seasonal value is the sum over harmonics `j` of
`aⱼ cos(2πj t/s) + bⱼ sin(2πj t/s)`. -/
theorem C30_frequency_closed_form (s : ℝ) (n : ℕ) (init : Fin n × Fin 2 → ℝ) (σ : ℝ) (t : ℕ) :
    Spec.y (freqSeasonality s n init σ) (fun _ _ => 0) t =
      ∑ j : Fin n, (init (j, 0) * Real.cos (2 * Real.pi * (j.val + 1 : ℕ) / s * t) +
        init (j, 1) * Real.sin (2 * Real.pi * (j.val + 1 : ℕ) / s * t)) := by
  have hs : ∀ (t : ℕ) (j : Fin n), (fun f => state (freqSeasonality s n init σ) (fun _ _ => 0) t (j, f)) =
      ![(1 : ℝ) ^ t * (init (j, 0) * Real.cos (2 * Real.pi * (j.val + 1 : ℕ) / s * t) +
          init (j, 1) * Real.sin (2 * Real.pi * (j.val + 1 : ℕ) / s * t)),
        (1 : ℝ) ^ t * (init (j, 1) * Real.cos (2 * Real.pi * (j.val + 1 : ℕ) / s * t) -
          init (j, 0) * Real.sin (2 * Real.pi * (j.val + 1 : ℕ) / s * t))] := by
    intro t
    induction t with
    | zero => intro j; funext i; fin_cases i <;> simp [state, freqSeasonality]
    | succ t ih =>
      intro j
      rw [← freqBlock_state s (j.val + 1) 1 (init (j, 0)) (init (j, 1)) t, ← ih j]
      funext f
      rw [state_succ_apply]
      have hc : (freqSeasonality s n init σ).c (j, f) = 0 := rfl
      have hT : ∀ i, (freqSeasonality s n init σ).T (j, f) i =
        if j = i.1 then freqBlock s (j.val + 1) f i.2 else 0 := fun _ => rfl
      simp only [hc, hT, mul_zero, Finset.sum_const_zero, add_zero, Fintype.sum_prod_type, one_smul, mulVec, dotProduct]
      rw [Finset.sum_eq_single j]
      · simp
      · intro b _ hb; simp [Ne.symm hb]
      · simp
  simp only [Spec.y, obs, freqSeasonality, zeroSys, mulVec, dotProduct, Fintype.sum_prod_type, Fin.sum_univ_two,
    Pi.add_apply, Pi.zero_apply, add_zero]
  refine Finset.sum_congr rfl fun j _ => ?_
  have := congrFun (hs t j) 0
  simp only [cons_val_zero, one_pow, one_mul] at this
  rw [← this]
  simp [freqSeasonality, zeroSys]

/-- **C30**: for an integer season length `s ≥ 1` and any number of harmonics, the seasonal value has period `s`. -/
theorem C30_frequency_periodic (s : ℕ) (hs : s ≠ 0) (n : ℕ) (init : Fin n × Fin 2 → ℝ) (σ : ℝ) (t : ℕ) :
    Spec.y (freqSeasonality s n init σ) (fun _ _ => 0) (t + s) =
      Spec.y (freqSeasonality s n init σ) (fun _ _ => 0) t := by
  rw [C30_frequency_closed_form, C30_frequency_closed_form]
  refine Finset.sum_congr rfl fun j _ => ?_
  have hs' : (s : ℝ) ≠ 0 := by exact_mod_cast hs
  have e : 2 * Real.pi * (j.val + 1 : ℕ) / s * ((t + s : ℕ) : ℝ) =
      2 * Real.pi * (j.val + 1 : ℕ) / s * t + (j.val + 1 : ℕ) * (2 * Real.pi) := by
    push_cast; field_simp
  rw [e, Real.cos_add_nat_mul_two_pi, Real.sin_add_nat_mul_two_pi]

example : (12 : ℕ) ≠ 0 := by decide

/-- **C33**: without shocks the regression states are the coefficients at all times, and the observation at time `t` is
the inner product of row `t` with the coefficients. With shocks each coefficient is its initial value plus the sum of its
own past shocks. -/
theorem C33_regression (k : ℕ) (X : ℕ → Fin k → ℝ) (β σ : Fin k → ℝ) (η : ℕ → Fin k → ℝ) (t : ℕ) :
    (∀ i, state (regression k X β σ) η t i = β i + ∑ u ∈ Finset.range t, η u i) ∧
    Spec.y (regression k X β σ) (fun _ _ => 0) t = ∑ i, X t i * β i := by
  have h : ∀ η : ℕ → Fin k → ℝ, ∀ t i, state (regression k X β σ) η t i = β i + ∑ u ∈ Finset.range t, η u i := by
    intro η t
    induction t with
    | zero => intro i; simp [state, regression]
    | succ t ih =>
      intro i
      rw [Finset.sum_range_succ, ← add_assoc, ← ih i]
      simp [state, regression, zeroSys]
  refine ⟨h η t, ?_⟩
  have h0 := h (fun _ _ => 0) t
  simp only [Spec.y, obs, mulVec, dotProduct, Pi.add_apply]
  simp only [h0]
  simp [regression, zeroSys]

section trend

/-- Sum of the weights of one more period. -/
theorem choose_sum (t m : ℕ) : ∑ l ∈ Finset.range (m + 1), (t + l - 1).choose l = (t + m).choose m := by
  induction m with
  | zero => simp
  | succ m ih =>
    rw [Finset.sum_range_succ, ih]
    have : t + (m + 1) - 1 = t + m := by omega
    rw [this, ← add_assoc, Nat.choose_succ_succ]

/-- The weights with which initial states enter state `i` at time `t`. Proof notion, no code behind it. -/
def trendWeight (t i j : ℕ) : ℕ := if i ≤ j then (t + (j - i) - 1).choose (j - i) else 0

theorem trendWeight_step {k : ℕ} (t : ℕ) (i j : Fin k) :
    ∑ l : Fin k, (if i ≤ l then trendWeight t l j else 0) = trendWeight (t + 1) i j := by
  have h1 : ∑ l : Fin k, (if i ≤ l then trendWeight t l j else 0) =
      ∑ l ∈ Finset.range k, (if i.val ≤ l ∧ l ≤ j.val then (t + (j.val - l) - 1).choose (j.val - l) else 0) := by
    rw [← Fin.sum_univ_eq_sum_range (fun l => if i.val ≤ l ∧ l ≤ j.val then (t + (j.val - l) - 1).choose (j.val - l) else 0)]
    refine Finset.sum_congr rfl fun l _ => ?_
    simp only [trendWeight, Fin.le_def]
    split_ifs <;> simp_all
  rw [h1, ← Finset.sum_filter]
  by_cases hij : i.val ≤ j.val
  · have h2 : (Finset.range k).filter (fun l => i.val ≤ l ∧ l ≤ j.val) = Finset.Ico i.val (j.val + 1) := by
      ext l; simp only [Finset.mem_filter, Finset.mem_range, Finset.mem_Ico]; omega
    rw [h2, Finset.sum_Ico_eq_sum_range, ← Finset.sum_range_reflect]
    have h3 : j.val + 1 - i.val = (j.val - i.val) + 1 := by omega
    rw [h3]
    simp only [trendWeight, hij, if_true]
    have h4 : t + 1 + (j.val - i.val) - 1 = t + (j.val - i.val) := by omega
    rw [h4, ← choose_sum]
    refine Finset.sum_congr rfl fun l hl => ?_
    have hl' := Finset.mem_range.1 hl
    have h5 : j.val - (i.val + (j.val - i.val + 1 - 1 - l)) = l := by omega
    rw [h5]
  · have h2 : (Finset.range k).filter (fun l => i.val ≤ l ∧ l ≤ j.val) = ∅ := by
      ext l; simp only [Finset.mem_filter, Finset.mem_range, Finset.notMem_empty, iff_false]; omega
    rw [h2]; simp [trendWeight, hij]

/-- **C32**: for every order, without shocks the level at time `t` is the sum over the initial states `j` of
`C(t + j - 1, j)` times the initial state. -/
theorem C32_trend_polynomial (k : ℕ) (innov : Fin (k + 1) → Bool) (init : Fin (k + 1) → ℝ)
    (σ : {i // innov i = true} → ℝ) (t : ℕ) :
    Spec.y (levelTrend (k + 1) innov init σ) (fun _ _ => 0) t =
      ∑ j : Fin (k + 1), ((t + j.val - 1).choose j.val : ℝ) * init j := by
  have hs : ∀ t i, state (levelTrend (k + 1) innov init σ) (fun _ _ => 0) t i =
      ∑ j : Fin (k + 1), (trendWeight t i j : ℝ) * init j := by
    intro t
    induction t with
    | zero =>
      intro i
      rw [Finset.sum_eq_single i]
      · simp [state, levelTrend, trendWeight]
      · intro j _ hj
        simp only [trendWeight]
        split_ifs with h
        · have h1 : i.val ≠ j.val := fun h' => hj (Fin.ext h'.symm)
          rw [Nat.choose_eq_zero_of_lt (by omega)]; simp
        · simp
      · simp
    | succ t ih =>
      intro i
      have : (fun _ : {i // innov i = true} => (0 : ℝ)) = 0 := rfl
      simp only [state, levelTrend, zeroSys, mulVec, dotProduct, Pi.add_apply, Pi.zero_apply, add_zero, mul_zero,
        Finset.sum_const_zero]
      have e : ∀ l, state (levelTrend (k + 1) innov init σ) (fun _ _ => 0) t l =
        ∑ j : Fin (k + 1), (trendWeight t l j : ℝ) * init j := ih
      simp only [levelTrend, zeroSys] at e
      simp only [e, Finset.mul_sum]
      rw [Finset.sum_comm]
      refine Finset.sum_congr rfl fun j _ => ?_
      rw [← trendWeight_step, Nat.cast_sum, Finset.sum_mul]
      refine Finset.sum_congr rfl fun l _ => ?_
      split_ifs <;> simp
  have hy : Spec.y (levelTrend (k + 1) innov init σ) (fun _ _ => 0) t =
      state (levelTrend (k + 1) innov init σ) (fun _ _ => 0) t 0 := by
    simp only [Spec.y, obs, levelTrend, zeroSys, mulVec, dotProduct, firstState, Pi.add_apply, Pi.zero_apply, add_zero,
      ite_mul, one_mul, zero_mul]
    rw [Finset.sum_eq_single 0] <;> simp
    intro j hj h
    exact absurd h hj
  rw [hy, hs]
  refine Finset.sum_congr rfl fun j _ => ?_
  simp [trendWeight]

/-- **C32**, low orders: order 2 is the line `a + b t`; order 3 is `a + b t + c t (t + 1) / 2`, which is not the
documented `a + b t + c t²` whenever `c ≠ 0` and `t ≥ 2`. -/
theorem C32_trend_low_orders (a b c : ℝ) (t : ℕ) (i2 : Fin 2 → Bool) (i3 : Fin 3 → Bool)
    (σ2 : {i // i2 i = true} → ℝ) (σ3 : {i // i3 i = true} → ℝ) :
    Spec.y (levelTrend 2 i2 ![a, b] σ2) (fun _ _ => 0) t = a + b * t ∧
    Spec.y (levelTrend 3 i3 ![a, b, c] σ3) (fun _ _ => 0) t = a + b * t + c * (t * (t + 1) / 2) ∧
    (c ≠ 0 → 2 ≤ t → Spec.y (levelTrend 3 i3 ![a, b, c] σ3) (fun _ _ => 0) t ≠ a + b * t + c * t ^ 2) := by
  have h3 : Spec.y (levelTrend 3 i3 ![a, b, c] σ3) (fun _ _ => 0) t = a + b * t + c * (t * (t + 1) / 2) := by
    rw [C32_trend_polynomial 2]
    have e : ((t + 2 - 1).choose 2 : ℝ) = t * (t + 1) / 2 := by
      have : t + 2 - 1 = t + 1 := by omega
      rw [this, Nat.cast_choose_two]; push_cast; ring
    rw [Fin.sum_univ_three]
    have e1 : ((t + 1 - 1).choose 1 : ℝ) = t := by simp
    have e0 : ((t + 0 - 1).choose 0 : ℝ) = 1 := by simp
    show ((t + 0 - 1).choose 0 : ℝ) * a + ((t + 1 - 1).choose 1 : ℝ) * b + ((t + 2 - 1).choose 2 : ℝ) * c = _
    rw [e, e1, e0]; ring
  refine ⟨?_, h3, fun hc ht => ?_⟩
  · rw [C32_trend_polynomial 1]
    simp [Fin.sum_univ_two]; ring
  · rw [h3]
    intro h
    have h4 : c * ((t : ℝ) * (t - 1)) = 0 := by linear_combination (-2) * h
    have ht' : (2 : ℝ) ≤ t := by exact_mod_cast ht
    rcases mul_eq_zero.1 h4 with h5 | h5
    · exact hc h5
    · rcases mul_eq_zero.1 h5 with h6 | h6 <;> linarith

end trend

end Verif.Structural
