import Verif.Sarima.Props

/-!
# SARIMA: C96, stationary initialisation with differencing
-/

set_option autoImplicit false

open Finset
open scoped Classical

namespace Verif.Sarima

theorem sum_transition (o : Order) (θ : Params) (hS : Spec.Proper o) (v : ℕ → ℝ) (hn : v o.kDiffs = 0) (i : ℕ) :
    ∑ j ∈ range o.kStates, transition o θ (i, j) * v j = ∑ j ∈ range o.kStates, transitionBase o (i, j) * v j := by
  have hSP : 0 < o.P → 0 < o.S := fun h => Nat.pos_of_ne_zero fun h0 => by have := hS h0; omega
  refine sum_congr rfl fun j _ => ?_
  by_cases h : j = o.kDiffs
  · rw [h, hn, mul_zero, mul_zero]
  · rw [transition_off o θ hSP i j (Or.inl h)]

/-- **C96**: with any differencing (`d > 0` or `D > 0`) the matrix `I - T`, with which the stationary initialisation
solves for the initial state, is singular whatever the parameters: `T` fixes a non-zero vector. -/
theorem C96_differencing_singular (o : Order) (θ : Params) (hS : Spec.Proper o) (hd : 0 < o.d ∨ 0 < o.D) :
    ∃ v : ℕ → ℝ, (∃ j, j < o.kStates ∧ v j ≠ 0) ∧
      ∀ i, i < o.kStates → ∑ j ∈ range o.kStates, transition o θ (i, j) * v j = v i := by
  have hSD : 0 < o.D → 0 < o.S := fun h => Nat.pos_of_ne_zero fun h0 => by have := hS h0; omega
  have hpos := kStates_pos o
  rcases Nat.eq_zero_or_pos o.d with h0 | h0
  · have hD : 0 < o.D := by omega
    have hs := hSD hD
    have hle : o.S ≤ o.kDiffs := by
      simp only [Order.kDiffs, h0, Nat.add_zero]; exact Nat.le_mul_of_pos_right _ hD
    refine ⟨fun j => if j < o.S then 1 else 0, ⟨0, by omega, by simp [hs]⟩, fun i hi => ?_⟩
    rw [sum_transition o θ hS _ (if_neg (by omega))]
    by_cases hin : i < o.kDiffs
    · have hdm := Nat.div_add_mod i o.S
      have hm : i / o.S < o.D := Nat.div_lt_of_lt_mul (by simp only [Order.kDiffs, h0] at hin; omega)
      have hr := Nat.mod_lt i hs
      have hi' : i = o.d + o.S * (i / o.S) + i % o.S := by omega
      have hv : ∀ m r, r < o.S → ((o.S * m + r < o.S) ↔ m = 0) := by
        intro m r hr
        constructor
        · intro h
          by_contra hc
          have : o.S ≤ o.S * m := Nat.le_mul_of_pos_right _ (by omega)
          omega
        · rintro rfl; simpa using hr
      generalize i / o.S = m at *
      generalize i % o.S = r at *
      rcases Nat.eq_zero_or_pos r with hr0 | hr0
      · rw [hi', hr0, Nat.add_zero]
        simp only [row_season o hSD m _ hm, add_mul, sum_add_distrib, sum_mul]
        rw [sum_ind _ _ hpos, if_neg (c := o.kDiffs < o.S) (by omega), add_zero, sum_comm, h0, Nat.zero_add]
        have hx : ∀ m' ∈ range o.D, ∑ j ∈ range o.kStates, (if m ≤ m' ∧ lastCol o m' = j then (1 : ℝ) else 0) *
            (if j < o.S then 1 else 0) = if m' = 0 then (if m = 0 then 1 else 0) else 0 := by
          intro m' hm'
          have hm' := mem_range.1 hm'
          have hl : lastCol o m' = o.S * m' + (o.S - 1) := by
            simp only [lastCol, h0, Nat.mul_add, Nat.mul_one]; omega
          have hlt : lastCol o m' < o.kStates := lastCol_lt o hSD hm'
          by_cases hmm : m ≤ m'
          · simp only [hmm, true_and]
            rw [sum_ind _ _ hlt]
            rw [hl, if_congr (hv m' (o.S - 1) (by omega)) rfl rfl]
            by_cases hz : m' = 0
            · rw [if_pos hz, if_pos hz, if_pos (by omega)]
            · rw [if_neg hz, if_neg hz]
          · simp only [hmm, false_and, if_false, zero_mul, sum_const_zero]
            split_ifs <;> first | rfl | omega
        rw [sum_congr rfl hx, sum_ite_eq', if_pos (mem_range.2 hD)]
        have := hv m 0 hs
        rw [Nat.add_zero] at this
        exact (if_congr this rfl rfl).symm
      · obtain ⟨r, rfl⟩ : ∃ s, r = s + 1 := ⟨r - 1, by omega⟩
        rw [hi', show o.d + o.S * m + (r + 1) = o.d + o.S * m + r + 1 by omega]
        simp only [row_roll o hSD m r _ hm hr]
        rw [sum_ind _ _ (by omega), h0, Nat.zero_add]
        have h1 := hv m r (by omega)
        have h2 := hv m (r + 1) hr
        exact if_congr (by rw [h1, ← h2]; rfl) rfl rfl
    · obtain ⟨j, rfl⟩ : ∃ j, i = o.kDiffs + j := ⟨i - o.kDiffs, by omega⟩
      show _ = if o.kDiffs + j < o.S then (1 : ℝ) else 0
      rw [if_neg (c := o.kDiffs + j < o.S) (by omega)]
      refine sum_eq_zero fun b _ => ?_
      rw [row_star o hSD]
      by_cases h : o.kDiffs + j + 1 = b ∧ b < o.kStates
      · rw [if_neg (c := b < o.S) (by omega), mul_zero]
      · rw [if_neg h, zero_mul]
  · have hdn : o.d ≤ o.kDiffs := by simp only [Order.kDiffs]; omega
    refine ⟨fun j => if j = 0 then 1 else 0, ⟨0, by omega, by simp⟩, fun i hi => ?_⟩
    rw [sum_transition o θ hS _ (if_neg (by omega)), sum_eq_single 0]
    · rw [if_pos rfl, mul_one, base_entry o hSD]
      have hc : ∀ m, m < o.D → 0 = lastCol o m → False := fun m hm h => by
        have := (lastCol_range o (hSD (by omega)) hm).1; omega
      rw [if_neg (by omega), if_neg (by rintro ⟨-, m, hm, h, -⟩; exact hc m hm h), if_neg (by omega), if_neg]
      · exact if_congr (by omega) rfl rfl
      · rintro (⟨-, ⟨m, hm, h⟩ | h⟩ | ⟨k, hk, -, ⟨m, -, hm, h⟩ | h⟩)
        · exact hc m hm h
        · omega
        · exact hc m hm h
        · omega
    · intro j _ hj; rw [if_neg hj, mul_zero]
    · intro h; exact absurd (mem_range.2 (by omega)) h

/-- ARIMA(1,1,0) meets the hypotheses. -/
example : Spec.Proper ⟨1, 1, 0, 0, 0, 0, 0⟩ ∧ (0 < (⟨1, 1, 0, 0, 0, 0, 0⟩ : Order).d ∨ 0 < (⟨1, 1, 0, 0, 0, 0, 0⟩ : Order).D) :=
  ⟨fun _ => ⟨rfl, rfl, rfl⟩, Or.inl Nat.one_pos⟩

end Verif.Sarima
