import Verif.Stationary.Nat
import Verif.Sarima.Stationary
import Mathlib.Algebra.Polynomial.AlgebraMap

/-!
# C171: SARIMA without differencing, when the stationary initialisation is well posed
-/

set_option autoImplicit false

open Finset Polynomial

namespace Verif.Sarima

open Verif.Stationary

/-- Specification: both autoregressive lag polynomials have all their complex roots outside the unit circle. -/
def Spec.RootsOutside (o : Order) (θ : Params) : Prop :=
  ∀ w : ℂ, aeval w (Spec.arPoly o θ) = 0 ∨ aeval w (Spec.sarPoly o θ) = 0 → 1 < ‖w‖

theorem roots_iff (o : Order) (θ : Params) (hS : Spec.Proper o) (K : ℕ) (hK : o.p + o.P * o.S ≤ K) :
    Spec.RootsOutside o θ ↔ ∀ w : ℂ,
      ∑ i ∈ range K, (coef o.p o.P arA (arB o.S) (arC o.S) θ.ar θ.sar (-1) i : ℂ) * w ^ (i + 1) = 1 → 1 < ‖w‖ := by
  have hSP : 0 < o.P → 0 < o.S := fun h => Nat.pos_of_ne_zero fun h0 => by have := hS h0; omega
  have h1 := coef_ar_poly o.p o.P o.S θ.ar θ.sar (-1) K hK hSP
  have h2 : Spec.arPoly o θ * Spec.sarPoly o θ =
      1 - ∑ i ∈ range K, C (coef o.p o.P arA (arB o.S) (arC o.S) θ.ar θ.sar (-1) i) * X ^ (i + 1) := by
    rw [h1]
    simp only [Spec.arPoly, Spec.sarPoly, C_neg, C_1]
    ring
  refine forall_congr' fun w => ?_
  rw [← mul_eq_zero, ← map_mul, h2]
  have h3 : aeval w (1 - ∑ i ∈ range K, C (coef o.p o.P arA (arB o.S) (arC o.S) θ.ar θ.sar (-1) i) * X ^ (i + 1)) =
      1 - ∑ i ∈ range K, (coef o.p o.P arA (arB o.S) (arC o.S) θ.ar θ.sar (-1) i : ℂ) * w ^ (i + 1) := by
    simp [map_sum, aeval_C]
  rw [h3, sub_eq_zero]
  exact imp_congr_left eq_comm

/-- First column of coefficients, ones above the diagonal. -/
theorem column_companion (K : ℕ) (hK : 0 < K) (a : ℕ → ℝ) (T : ℕ → ℕ → ℝ)
    (hT : ∀ i < K, ∀ j < K, T i j = (if j = 0 then a i else 0) + if j = i + 1 then 1 else 0) :
    Stationary.Spec.Stable (toMat K T) ↔ ∀ w : ℂ, ∑ i ∈ range K, (a i : ℂ) * w ^ (i + 1) = 1 → 1 < ‖w‖ := by
  have hrow : ∀ (u : ℕ → ℂ), ∀ i < K, ∑ j ∈ range K, (T i j : ℂ) * u j = a i * u 0 + if i + 1 < K then u (i + 1) else 0 := by
    intro u i hi
    have : ∀ j ∈ range K, (T i j : ℂ) * u j = (if j = 0 then (a i : ℂ) * u j else 0) + if j = i + 1 then u j else 0 := by
      intro j hj
      rw [hT i hi j (mem_range.1 hj)]
      split_ifs <;> simp [add_mul]
    rw [sum_congr rfl this, sum_add_distrib, sum_ite_eq', sum_ite_eq']
    simp [hK]
  rw [stable_toMat]
  constructor
  · intro h w hw
    by_contra hc
    have hw0 : w ≠ 0 := by
      rintro rfl
      simp at hw
    let z := w⁻¹
    have hz : ¬ ‖z‖ < 1 := by
      rw [norm_inv, not_lt]
      exact (one_le_inv₀ (norm_pos_iff.2 hw0)).2 (not_lt.1 hc)
    refine hz (h z (fun i => z ^ i - ∑ j ∈ range i, (a j : ℂ) * z ^ (i - 1 - j)) ⟨0, hK, by simp⟩ fun i hi => ?_)
    rw [hrow _ i hi]
    have hs : z * ∑ j ∈ range i, (a j : ℂ) * z ^ (i - 1 - j) + a i = ∑ j ∈ range (i + 1), (a j : ℂ) * z ^ (i + 1 - 1 - j) := by
      rw [sum_range_succ, mul_sum]
      congr 1
      · refine sum_congr rfl fun j hj => ?_
        have := mem_range.1 hj
        rw [show i + 1 - 1 - j = (i - 1 - j) + 1 by omega, pow_succ]; ring
      · simp
    split_ifs with hlt
    · simp only [range_zero, sum_empty, pow_zero]
      rw [← hs]; ring
    · have hiK : i + 1 = K := by omega
      have hz1 : z * w = 1 := inv_mul_cancel₀ hw0
      have hsum : ∑ j ∈ range (i + 1), (a j : ℂ) * z ^ (i + 1 - 1 - j) = z ^ (i + 1) := by
        have : z ^ (i + 1) * ∑ j ∈ range K, (a j : ℂ) * w ^ (j + 1) = z ^ (i + 1) := by rw [hw, mul_one]
        rw [← this, hiK, mul_sum]
        refine sum_congr rfl fun j hj => ?_
        have := mem_range.1 hj
        have e : z ^ K = z ^ (K - 1 - j) * z ^ (j + 1) := by rw [← pow_add]; congr 1; omega
        rw [e]
        have e2 : z ^ (j + 1) * w ^ (j + 1) = 1 := by rw [← mul_pow, hz1, one_pow]
        linear_combination (-(a j : ℂ) * z ^ (K - 1 - j)) * e2
      have hp : z * z ^ i = z ^ (i + 1) := (pow_succ' z i).symm
      simp only [range_zero, sum_empty, pow_zero]
      linear_combination hs + hsum - hp
  · rintro h z u ⟨i0, hi0, hne⟩ he
    by_contra hc
    have hz0 : z ≠ 0 := by rintro rfl; simp at hc
    have hu : ∀ i < K, u i = u 0 * (z ^ i - ∑ j ∈ range i, (a j : ℂ) * z ^ (i - 1 - j)) := by
      intro i hi
      induction i with
      | zero => simp
      | succ i ih =>
        have h1 := he i (by omega)
        rw [hrow u i (by omega), if_pos hi, ih (by omega)] at h1
        have hs : z * ∑ j ∈ range i, (a j : ℂ) * z ^ (i - 1 - j) + a i = ∑ j ∈ range (i + 1), (a j : ℂ) * z ^ (i + 1 - 1 - j) := by
          rw [sum_range_succ, mul_sum]
          congr 1
          · refine sum_congr rfl fun j hj => ?_
            have := mem_range.1 hj
            rw [show i + 1 - 1 - j = (i - 1 - j) + 1 by omega, pow_succ]; ring
          · simp
        rw [← hs, pow_succ]
        linear_combination h1
    have hu0 : u 0 ≠ 0 := fun h0 => hne (by rw [hu i0 hi0, h0, zero_mul])
    have hlast := he (K - 1) (by omega)
    rw [hrow u (K - 1) (by omega), if_neg (by omega), hu (K - 1) (by omega)] at hlast
    have hs : z * ∑ j ∈ range (K - 1), (a j : ℂ) * z ^ (K - 1 - 1 - j) + a (K - 1) = ∑ j ∈ range K, (a j : ℂ) * z ^ (K - 1 - j) := by
      conv_rhs => rw [show K = K - 1 + 1 by omega]
      rw [sum_range_succ, mul_sum]
      congr 1
      · refine sum_congr rfl fun j hj => ?_
        have := mem_range.1 hj
        rw [show K - 1 + 1 - 1 - j = (K - 1 - 1 - j) + 1 by omega, pow_succ]; ring
      · simp
    have hp : z * z ^ (K - 1) = z ^ K := by rw [← pow_succ']; congr 1; omega
    have hroot : ∑ j ∈ range K, (a j : ℂ) * z ^ (K - 1 - j) = z ^ K := by
      refine mul_left_cancel₀ hu0 ?_
      linear_combination hlast - u 0 * hs + u 0 * hp
    have hw : ∑ i ∈ range K, (a i : ℂ) * z⁻¹ ^ (i + 1) = 1 := by
      have : z ^ K * ∑ i ∈ range K, (a i : ℂ) * z⁻¹ ^ (i + 1) = z ^ K * 1 := by
        rw [mul_one, mul_sum]
        conv_rhs => rw [← hroot]
        refine sum_congr rfl fun j hj => ?_
        have := mem_range.1 hj
        have e : z ^ K = z ^ (K - 1 - j) * z ^ (j + 1) := by rw [← pow_add]; congr 1; omega
        have e2 : z ^ (j + 1) * z⁻¹ ^ (j + 1) = 1 := by rw [← mul_pow, mul_inv_cancel₀ hz0, one_pow]
        rw [e]
        linear_combination ((a j : ℂ) * z ^ (K - 1 - j)) * e2
      exact mul_left_cancel₀ (pow_ne_zero _ hz0) this
    have := h _ hw
    rw [norm_inv] at this
    have h1 := not_lt.1 hc
    have h2 := inv_le_one_of_one_le₀ h1
    linarith

/-- **C171**: without differencing, the powers of the transition matrix of the "fast" form die out exactly when all roots of the
two autoregressive lag polynomials lie outside the unit circle. -/
theorem C171_fast_stable_iff (o : Order) (θ : Params) (hS : Spec.Proper o) (hv : verifyOrder o = true) (hd : o.d = 0)
    (hD : o.D = 0) :
    Stationary.Spec.Stable (toMat (fast o θ).k fun i j => (fast o θ).T (i, j)) ↔ Spec.RootsOutside o θ := by
  have hk : o.kDiffs = 0 := by simp [Order.kDiffs, hd, hD]
  have hks : o.kStates = o.kLags := by simp [Order.kStates, hk]
  have hSP : 0 < o.P → 0 < o.S := fun h => Nat.pos_of_ne_zero fun h0 => by have := hS h0; omega
  have hSD : 0 < o.D → 0 < o.S := fun h => by omega
  rw [roots_iff o θ hS o.kStates (by rw [hks]; simp only [Order.kLags]; omega)]
  refine column_companion o.kStates (by rw [hks]; simp only [Order.kLags]; omega) _ _ fun i hi j hj => ?_
  show transition o θ (i, j) = _
  by_cases h0 : j = 0
  · subst h0
    have := transition_col o θ hS hv i
    rw [hk, Nat.zero_add] at this
    simp [this]
  · rw [transition_off o θ hSP i j (Or.inl (by omega))]
    have := row_star o hSD i j
    rw [hk, Nat.zero_add] at this
    rw [this, if_neg h0, zero_add]
    exact if_congr (by omega) rfl rfl

/-- **C171** (interpretable form): the same condition. -/
theorem C171_interpretable_stable_iff (o : Order) (θ : Params) (hS : Spec.Proper o) (hv : verifyOrder o = true) :
    Stationary.Spec.Stable (toMat (interpretable o θ).k fun i j => (interpretable o θ).T (i, j)) ↔ Spec.RootsOutside o θ := by
  have hpm := pMax_le o
  rw [roots_iff o θ hS o.pMax hpm.1, stable_toMat]
  show (∀ (z : ℂ) (u : ℕ → ℂ), (∃ i, i < o.pMax + o.qMax ∧ u i ≠ 0) →
    (∀ i, i < o.pMax + o.qMax → ∑ j ∈ range (o.pMax + o.qMax), (transitionI o θ (i, j) : ℂ) * u j = z * u i) → ‖z‖ < 1) ↔ _
  set a : ℕ → ℝ := coef o.p o.P arA (arB o.S) (arC o.S) θ.ar θ.sar (-1) with ha
  set b : ℕ → ℝ := coef o.q o.Q arA (arB o.S) (arC o.S) θ.ma θ.sma 1 with hb
  have h0 : ∀ u : ℕ → ℂ, ∑ j ∈ range (o.pMax + o.qMax), (transitionI o θ (0, j) : ℂ) * u j =
      ∑ j ∈ range o.pMax, (a j : ℂ) * u j + ∑ j ∈ range o.qMax, (b j : ℂ) * u (o.pMax + j) := by
    intro u
    rw [sum_range_add]
    congr 1
    · exact sum_congr rfl fun j hj => by rw [transitionI_ar o θ hS hv j (mem_range.1 hj)]
    · exact sum_congr rfl fun j hj => by rw [transitionI_ma o θ hS hv j]
  have h1 : ∀ (u : ℕ → ℂ) i, i + 1 < o.pMax + o.qMax → ∑ j ∈ range (o.pMax + o.qMax), (transitionI o θ (i + 1, j) : ℂ) * u j =
      if i + 1 = o.pMax then 0 else u i := by
    intro u i hi
    have : ∀ j ∈ range (o.pMax + o.qMax), (transitionI o θ (i + 1, j) : ℂ) * u j =
        if j = i then (if i + 1 = o.pMax then 0 else u i) else 0 := by
      intro j _
      rw [transitionI_row o θ (i + 1) j (by omega)]
      by_cases hj : j = i
      · subst hj; by_cases hp : j + 1 = o.pMax <;> simp [hp]
      · simp [hj]
    rw [sum_congr rfl this, sum_ite_eq', if_pos (mem_range.2 (by omega))]
  constructor
  · intro h w hw
    by_contra hc
    have hw0 : w ≠ 0 := by rintro rfl; simp at hw
    have hz : ¬ ‖w⁻¹‖ < 1 := by
      rw [norm_inv, not_lt]
      exact (one_le_inv₀ (norm_pos_iff.2 hw0)).2 (not_lt.1 hc)
    refine hz (h w⁻¹ (fun i => if i < o.pMax then w ^ i else 0) ⟨0, by omega, by simp; omega⟩ fun i hi => ?_)
    rcases i with _ | i
    · rw [h0, if_pos (by omega)]
      have e1 : ∑ j ∈ range o.qMax, (b j : ℂ) * (if o.pMax + j < o.pMax then w ^ (o.pMax + j) else 0) = 0 :=
        sum_eq_zero fun j _ => by rw [if_neg (by omega), mul_zero]
      rw [e1, add_zero, pow_zero, mul_one, ← mul_left_inj' hw0, inv_mul_cancel₀ hw0, ← hw, sum_mul]
      refine sum_congr rfl fun j hj => ?_
      rw [if_pos (mem_range.1 hj), pow_succ]; ring
    · rw [h1 _ i hi]
      by_cases hp : i + 1 = o.pMax
      · rw [if_pos hp, if_neg (by omega), mul_zero]
      · rw [if_neg hp]
        by_cases hlt : i + 1 < o.pMax
        · rw [if_pos (by omega), if_pos hlt, pow_succ]
          field_simp
        · rw [if_neg (by omega), if_neg hlt, mul_zero]
  · rintro h z u ⟨i0, hi0, hne⟩ he
    by_contra hc
    have hz0 : z ≠ 0 := by rintro rfl; simp at hc
    have hMA : ∀ k < o.qMax, u (o.pMax + k) = 0 := by
      intro k hk
      induction k with
      | zero =>
        obtain ⟨m, hm⟩ : ∃ m, o.pMax = m + 1 := ⟨o.pMax - 1, by omega⟩
        have := he o.pMax (by omega)
        have e := h1 u m (by omega)
        rw [if_pos hm.symm, ← hm] at e
        rw [e] at this
        rw [Nat.add_zero]
        exact (mul_eq_zero.1 this.symm).resolve_left hz0
      | succ k ih =>
        have := he (o.pMax + k + 1) (by omega)
        rw [h1 u (o.pMax + k) (by omega), if_neg (by omega), ih (by omega)] at this
        exact (mul_eq_zero.1 this.symm).resolve_left hz0
    have hAR : ∀ k < o.pMax, u k = u 0 * z⁻¹ ^ k := by
      intro k hk
      induction k with
      | zero => simp
      | succ k ih =>
        have := he (k + 1) (by omega)
        rw [h1 u k (by omega), if_neg (by omega), ih (by omega)] at this
        rw [pow_succ, ← mul_assoc, this]
        field_simp
    have hu0 : u 0 ≠ 0 := by
      intro h0
      by_cases hi : i0 < o.pMax
      · exact hne (by rw [hAR i0 hi, h0, zero_mul])
      · exact hne (by rw [show i0 = o.pMax + (i0 - o.pMax) by omega]; exact hMA _ (by omega))
    have h2 := he 0 (by omega)
    rw [h0, sum_eq_zero (s := range o.qMax) (fun j hj => by rw [hMA j (mem_range.1 hj), mul_zero]), add_zero] at h2
    have hw : ∑ i ∈ range o.pMax, (a i : ℂ) * z⁻¹ ^ (i + 1) = 1 := by
      refine mul_left_cancel₀ (mul_ne_zero hz0 hu0) ?_
      rw [mul_one]
      conv_rhs => rw [← h2]
      rw [mul_sum]
      refine sum_congr rfl fun j hj => ?_
      rw [hAR j (mem_range.1 hj), pow_succ]
      field_simp
    have := h _ hw
    rw [norm_inv] at this
    have h3 := inv_le_one_of_one_le₀ (not_lt.1 hc)
    linarith

/-- **C171** (consequence): with all roots outside the unit circle the stationary initialisation of both forms is well posed: both
linear systems it solves are nonsingular, and its covariance is positive semidefinite. -/
theorem C171_well_posed (o : Order) (θ : Params) (hS : Spec.Proper o) (hv : verifyOrder o = true) (hd : o.d = 0)
    (hD : o.D = 0) (hr : Spec.RootsOutside o θ) (s : Sys) (hs : s = fast o θ ∨ s = interpretable o θ) (σ2 : ℝ) (hσ : 0 ≤ σ2) :
    let T := toMat s.k fun i j => s.T (i, j)
    let R : Matrix (Fin s.k) (Fin 1) ℝ := Matrix.of fun i _ => s.R i
    let Q : Matrix (Fin 1) (Fin 1) ℝ := Matrix.of fun _ _ => σ2
    let x0P0 := stationaryInit 0 T R Q
    IsUnit (1 - T).det ∧ IsUnit (1 - Matrix.kronecker T T).det ∧ x0P0.1 = 0 ∧
      T * x0P0.2 * T.transpose + R * Q * R.transpose = x0P0.2 ∧ x0P0.2.PosSemidef := by
  intro T R Q x0P0
  have hT : Stationary.Spec.Stable T := by
    rcases hs with rfl | rfl
    · exact (C171_fast_stable_iff o θ hS hv hd hD).2 hr
    · exact (C171_interpretable_stable_iff o θ hS hv).2 hr
  have hQ : Q.PosSemidef := by
    have : Q = σ2 • (1 : Matrix (Fin 1) (Fin 1) ℝ) := by ext i j; simp [Q, Subsingleton.elim i j]
    rw [this]; exact Matrix.PosSemidef.one.smul hσ
  have h2 := stable_unit_kron hT
  have h3 := lyapunov_solves (R * Q * R.transpose) h2
  refine ⟨stable_unit hT, h2, by simp [x0P0, stationaryInit], h3, ?_⟩
  have hW : (R * Q * R.transpose).PosSemidef := by
    have := hQ.mul_mul_conjTranspose_same R
    rwa [Matrix.conjTranspose_eq_transpose_of_trivial] at this
  exact posSemidef_of_stable hT hW h3

/-- An AR(1) with coefficient 1/2 and a moving-average term meets the hypotheses. -/
example : let o : Order := ⟨1, 0, 1, 0, 0, 0, 0⟩
    Spec.Proper o ∧ verifyOrder o = true ∧ o.d = 0 ∧ o.D = 0 ∧
      Spec.RootsOutside o ⟨fun _ => 1 / 2, fun _ => 0, fun _ => 1, fun _ => 0⟩ := by
  refine ⟨fun _ => ⟨rfl, rfl, rfl⟩, by decide, rfl, rfl, fun w hw => ?_⟩
  simp only [Spec.arPoly, Spec.sarPoly, range_one, sum_singleton, range_zero, sum_empty, map_sub, map_one, map_mul, aeval_C,
    map_pow, aeval_X, sub_zero, one_ne_zero, or_false] at hw
  have : w = 2 := by
    have h : (1 : ℂ) - (algebraMap ℝ ℂ (1 / 2)) * w ^ (0 + 1) = 1 - w / 2 := by simp; ring
    rw [h] at hw
    linear_combination (-2 : ℂ) * hw
  rw [this]; norm_num

/-- A random walk (AR coefficient 1) does not. -/
example : ¬ Spec.RootsOutside ⟨1, 0, 0, 0, 0, 0, 0⟩ ⟨fun _ => 1, fun _ => 0, fun _ => 0, fun _ => 0⟩ := by
  intro h
  have := h 1 (Or.inl (by simp [Spec.arPoly]))
  simp at this

end Verif.Sarima
