import Verif.Sarima.Coeffs
import Mathlib.Data.List.ProdSigma

set_option autoImplicit false
set_option linter.unusedSectionVars false

open Finset Polynomial
open scoped Classical

namespace Verif.Sarima

/-- Column of the last lag of seasonal block `m`. Proof notion, no code behind it. -/
def lastCol (o : Order) (m : ℕ) : ℕ := o.d + o.S * (m + 1) - 1

theorem baseCol_eq (o : Order) (hS : 0 < o.D → 0 < o.S) (hD : 0 < o.D) :
    baseCol o = (List.range o.D).map (lastCol o) ++ [o.kDiffs] := by
  have hS := hS hD
  have hne : (List.range o.D).map (fun m => o.d + o.S + m * o.S - 1) ≠ [] := by
    simp [List.range_eq_nil]; omega
  simp only [baseCol, hne, dite_false]
  obtain ⟨D, hD'⟩ : ∃ D, o.D = D + 1 := ⟨o.D - 1, by omega⟩
  congr 1
  · refine List.map_congr_left fun m _ => ?_
    simp only [lastCol, Nat.mul_add, Nat.mul_one, Nat.mul_comm m]; omega
  · simp only [hD', List.range_succ, List.map_append, List.map_cons, List.map_nil, List.getLast_append_singleton,
      Order.kDiffs, Nat.mul_add, Nat.mul_one, Nat.mul_comm D]
    congr 1; omega

theorem mem_baseCol_drop (o : Order) (hS : 0 < o.D → 0 < o.S) (hD : 0 < o.D) (i : ℕ) (hi : i ≤ o.D) (c : ℕ) :
    c ∈ (baseCol o).drop i ↔ (∃ m, i ≤ m ∧ m < o.D ∧ c = lastCol o m) ∨ c = o.kDiffs := by
  rw [baseCol_eq o hS hD, List.drop_append_of_le_length (by simp; exact hi), List.mem_append, List.mem_singleton]
  refine or_congr ?_ Iff.rfl
  rw [List.mem_drop_iff_getElem]
  simp only [List.length_map, List.length_range, List.getElem_map, List.getElem_range]
  constructor
  · rintro ⟨j, hj, rfl⟩; exact ⟨i + j, by omega, by omega, rfl⟩
  · rintro ⟨m, h1, h2, rfl⟩
    exact ⟨m - i, by omega, by rw [show i + (m - i) = m by omega]⟩

theorem mem_diffIdx (o : Order) (hS : 0 < o.D → 0 < o.S) (a b : ℕ) : (a, b) ∈ diffIdx o ↔
    (a < o.d ∧ ((∃ m, m < o.D ∧ b = lastCol o m) ∨ b = o.kDiffs)) ∨
    (∃ i, i < o.D ∧ a = o.d + o.S * i ∧ ((∃ m, i ≤ m ∧ m < o.D ∧ b = lastCol o m) ∨ b = o.kDiffs)) := by
  rcases Nat.eq_zero_or_pos o.D with hD | hD
  · rcases Nat.eq_zero_or_pos o.d with hd | hd
    · simp [diffIdx, hD, hd]
    · simp only [diffIdx, hD, hd, and_self, if_true, List.mem_map, List.mem_range, Prod.mk.injEq, Order.kDiffs,
        Nat.mul_zero, Nat.zero_add]
      constructor
      · rintro ⟨i, h1, rfl, rfl⟩; exact Or.inl ⟨h1, Or.inr rfl⟩
      · rintro (⟨h1, ⟨m, hm, _⟩ | rfl⟩ | ⟨i, hi, _⟩)
        · omega
        · exact ⟨a, h1, rfl, rfl⟩
        · omega
  · have h : ¬ (o.D = 0 ∧ 0 < o.d) := by omega
    have h0 : ∀ c, c ∈ baseCol o ↔ (∃ m, m < o.D ∧ c = lastCol o m) ∨ c = o.kDiffs := by
      intro c
      have := mem_baseCol_drop o hS hD 0 (Nat.zero_le _) c
      simpa using this
    simp only [diffIdx, h, if_false, List.mem_append, List.mem_flatMap, List.mem_range, List.mem_map, Prod.mk.injEq]
    refine or_congr ?_ ?_
    · constructor
      · rintro ⟨i, hi, c, hc, rfl, rfl⟩; exact ⟨hi, (h0 c).1 hc⟩
      · rintro ⟨ha, hb⟩; exact ⟨a, ha, b, (h0 b).2 hb, rfl, rfl⟩
    · constructor
      · rintro ⟨i, hi, c, hc, rfl, rfl⟩; exact ⟨i, hi, rfl, (mem_baseCol_drop o hS hD i (by omega) c).1 hc⟩
      · rintro ⟨i, hi, rfl, hb⟩
        exact ⟨i, hi, b, (mem_baseCol_drop o hS hD i (by omega) b).2 hb, rfl, rfl⟩

theorem mem_triu (d a b : ℕ) : (a, b) ∈ triu d ↔ a ≤ b ∧ b < d := by
  simp only [triu, List.mem_filter, List.mem_product, List.mem_range, decide_eq_true_eq]
  omega

theorem mem_rollIdx (o : Order) (a b : ℕ) : (a, b) ∈ rollIdx o ↔ a = b + 1 ∧ o.d ≤ b ∧ b < o.kDiffs := by
  simp only [rollIdx, List.mem_map, List.mem_range, Prod.mk.injEq, Order.kDiffs]
  constructor
  · rintro ⟨k, h1, rfl, rfl⟩; omega
  · rintro ⟨rfl, h1, h2⟩; exact ⟨b - o.d, by omega, by omega, by omega⟩

theorem mem_zeroIdx (o : Order) (hS : 0 < o.S) (a b : ℕ) : (a, b) ∈ zeroIdx o ↔
    ∃ m, m < o.D ∧ b = lastCol o m ∧ a = b + 1 := by
  simp only [zeroIdx, List.mem_map, List.mem_filter, List.mem_range, decide_eq_true_eq, Prod.mk.injEq, lastCol]
  constructor
  · rintro ⟨k, ⟨h1, h2⟩, rfl, rfl⟩
    have h3 := Nat.div_add_mod k o.S
    refine ⟨k / o.S, Nat.div_lt_of_lt_mul h1, ?_, by omega⟩
    rw [Nat.mul_add, Nat.mul_one]
    omega
  · rintro ⟨m, h1, rfl, rfl⟩
    refine ⟨o.S * m + (o.S - 1), ⟨?_, ?_⟩, ?_, ?_⟩
    · calc o.S * m + (o.S - 1) < o.S * m + o.S := by omega
        _ = o.S * (m + 1) := by ring
        _ ≤ o.S * o.D := Nat.mul_le_mul_left _ h1
    · rw [Nat.mul_add_mod, Nat.mod_eq_of_lt (by omega)]
    · rw [Nat.mul_add, Nat.mul_one]; omega
    · rw [Nat.mul_add, Nat.mul_one]; omega

theorem mem_starIdx (o : Order) (a b : ℕ) : (a, b) ∈ starIdx o ↔ b = a + 1 ∧ o.kDiffs ≤ a ∧ b < o.kStates := by
  simp only [starIdx, List.mem_map, List.mem_range, Prod.mk.injEq, Order.kStates]
  constructor
  · rintro ⟨k, h1, rfl, rfl⟩; omega
  · rintro ⟨rfl, h1, h2⟩; exact ⟨a - o.kDiffs, by omega, by omega, by omega⟩

theorem lastCol_range (o : Order) (hS : 0 < o.S) {m : ℕ} (hm : m < o.D) :
    o.d ≤ lastCol o m ∧ lastCol o m < o.kDiffs ∧ lastCol o m + 1 = o.d + o.S * (m + 1) := by
  have h1 : o.S * (m + 1) ≤ o.S * o.D := Nat.mul_le_mul_left _ hm
  have h2 : o.S ≤ o.S * (m + 1) := Nat.le_mul_of_pos_right _ (by omega)
  simp only [lastCol, Order.kDiffs]
  omega

theorem lastCol_inj (o : Order) (hS : 0 < o.S) {m m' : ℕ} (h : lastCol o m = lastCol o m') : m = m' := by
  have h2 : o.S ≤ o.S * (m + 1) := Nat.le_mul_of_pos_right _ (by omega)
  have h3 : o.S ≤ o.S * (m' + 1) := Nat.le_mul_of_pos_right _ (by omega)
  simp only [lastCol] at h
  have : o.S * (m + 1) = o.S * (m' + 1) := by omega
  have := Nat.eq_of_mul_eq_mul_left hS this
  omega

/-- The entries of the transition matrix before the parameters are written. -/
theorem base_entry (o : Order) (hS : 0 < o.D → 0 < o.S) (a b : ℕ) :
    transitionBase o (a, b) =
      if (b = a + 1 ∧ o.kDiffs ≤ a ∧ b < o.kStates) then 1
      else if 0 < o.S ∧ ∃ m, m < o.D ∧ b = lastCol o m ∧ a = b + 1 then 0
      else if 0 < o.S ∧ a = b + 1 ∧ o.d ≤ b ∧ b < o.kDiffs then 1
      else if (a < o.d ∧ ((∃ m, m < o.D ∧ b = lastCol o m) ∨ b = o.kDiffs)) ∨
          (∃ i, i < o.D ∧ a = o.d + o.S * i ∧ ((∃ m, i ≤ m ∧ m < o.D ∧ b = lastCol o m) ∨ b = o.kDiffs)) then 1
      else if a ≤ b ∧ b < o.d then 1 else 0 := by
  simp only [transitionBase, fill, mem_starIdx]
  by_cases hs : 0 < o.S
  · simp only [hs, if_true, fill, mem_zeroIdx o hs, mem_rollIdx, mem_diffIdx o hS, mem_triu, true_and]
  · simp only [hs, if_false, fill, mem_diffIdx o hS, mem_triu, false_and]

/-- Rows of the ARIMA differences. -/
theorem row_diff (o : Order) (hS : 0 < o.D → 0 < o.S) (i j : ℕ) (hi : i < o.d) :
    transitionBase o (i, j) = (if i ≤ j ∧ j < o.d then 1 else 0) +
      (∑ m ∈ range o.D, if lastCol o m = j then 1 else 0) + if o.kDiffs = j then 1 else 0 := by
  have hd : o.d ≤ o.kDiffs := by simp only [Order.kDiffs]; omega
  have hc : ∀ m, m < o.D → o.d ≤ lastCol o m ∧ lastCol o m < o.kDiffs := fun m hm =>
    ⟨(lastCol_range o (hS (by omega)) hm).1, (lastCol_range o (hS (by omega)) hm).2.1⟩
  rw [base_entry o hS]
  rw [if_neg (by omega), if_neg (by rintro ⟨-, m, hm, rfl, h⟩; have := hc m hm; omega), if_neg (by omega)]
  have hx : ¬ ∃ k, k < o.D ∧ i = o.d + o.S * k ∧
      ((∃ m, k ≤ m ∧ m < o.D ∧ j = lastCol o m) ∨ j = o.kDiffs) := by rintro ⟨k, _, h, _⟩; omega
  simp only [hx, or_false, hi, true_and]
  by_cases h1 : ∃ m, m < o.D ∧ j = lastCol o m
  · obtain ⟨m, hm, rfl⟩ := h1
    have := hc m hm
    rw [if_pos (Or.inl ⟨m, hm, rfl⟩), if_neg (by omega), if_neg (by omega), sum_eq_single m]
    · simp
    · intro m' _ hne
      rw [if_neg fun h => hne (lastCol_inj o (hS (by omega)) h)]
    · intro h; exact absurd (mem_range.2 hm) h
  · have hz : ∑ m ∈ range o.D, (if lastCol o m = j then (1 : ℝ) else 0) = 0 :=
      sum_eq_zero fun m hm => if_neg fun h => h1 ⟨m, mem_range.1 hm, h.symm⟩
    rw [hz]
    simp only [h1, false_or]
    by_cases h2 : j = o.kDiffs
    · rw [if_pos h2, if_neg (by omega), if_pos h2.symm]; ring
    · rw [if_neg h2, if_neg (c := o.kDiffs = j) (fun h => h2 h.symm)]; ring

/-- First row of each seasonal block. -/
theorem row_season (o : Order) (hS : 0 < o.D → 0 < o.S) (i j : ℕ) (hi : i < o.D) :
    transitionBase o (o.d + o.S * i, j) = (∑ m ∈ range o.D, if i ≤ m ∧ lastCol o m = j then 1 else 0) +
      if o.kDiffs = j then 1 else 0 := by
  have hs := hS (by omega)
  have hlt : o.d + o.S * i < o.kDiffs := by
    have : o.S * i < o.S * o.D := (Nat.mul_lt_mul_left hs).2 hi
    simp only [Order.kDiffs]; omega
  have hc := fun m (hm : m < o.D) => lastCol_range o hs hm
  have hle : ∀ m, m < o.D → i ≤ m → o.d + o.S * i ≤ lastCol o m := by
    intro m hm him
    have h1 := (hc m hm).2.2
    have : o.S * i + o.S ≤ o.S * (m + 1) := by
      calc o.S * i + o.S = o.S * (i + 1) := by ring
        _ ≤ _ := Nat.mul_le_mul_left _ (by omega)
    omega
  rw [base_entry o hS, if_neg (by omega)]
  by_cases h1 : 0 < o.S ∧ ∃ m, m < o.D ∧ j = lastCol o m ∧ o.d + o.S * i = j + 1
  · rw [if_pos h1]
    obtain ⟨-, m, hm, rfl, he⟩ := h1
    have hz : ∑ m' ∈ range o.D, (if i ≤ m' ∧ lastCol o m' = lastCol o m then (1 : ℝ) else 0) = 0 := by
      refine sum_eq_zero fun m' hm' => if_neg fun h => ?_
      have := lastCol_inj o hs h.2
      subst this
      have := hle m' (mem_range.1 hm') h.1
      omega
    have := hc m hm
    rw [hz, if_neg (by omega)]; ring
  · rw [if_neg h1]
    have h2 : ¬ (0 < o.S ∧ o.d + o.S * i = j + 1 ∧ o.d ≤ j ∧ j < o.kDiffs) := by
      rintro ⟨-, h, h3, -⟩
      refine h1 ⟨hs, i - 1, by omega, ?_, h⟩
      have hi0 : 0 < i := by
        rcases Nat.eq_zero_or_pos i with rfl | h'
        · simp at h; omega
        · exact h'
      simp only [lastCol, show i - 1 + 1 = i by omega]; omega
    rw [if_neg h2]
    have h3 : ((o.d + o.S * i < o.d ∧ ((∃ m, m < o.D ∧ j = lastCol o m) ∨ j = o.kDiffs)) ∨
        ∃ k, k < o.D ∧ o.d + o.S * i = o.d + o.S * k ∧
          ((∃ m, k ≤ m ∧ m < o.D ∧ j = lastCol o m) ∨ j = o.kDiffs)) ↔
        ((∃ m, i ≤ m ∧ m < o.D ∧ j = lastCol o m) ∨ j = o.kDiffs) := by
      constructor
      · rintro (⟨h, -⟩ | ⟨k, hk, he, h⟩)
        · omega
        · have : i = k := Nat.eq_of_mul_eq_mul_left hs (by omega)
          subst this; exact h
      · intro h; exact Or.inr ⟨i, hi, rfl, h⟩
    rw [if_congr h3 rfl rfl]
    by_cases h4 : ∃ m, i ≤ m ∧ m < o.D ∧ j = lastCol o m
    · rw [if_pos (Or.inl h4)]
      obtain ⟨m, him, hm, rfl⟩ := h4
      rw [sum_eq_single m]
      · have := hc m hm
        rw [if_pos ⟨him, rfl⟩, if_neg (by omega)]; ring
      · intro m' _ hne
        rw [if_neg fun h => hne (lastCol_inj o hs h.2)]
      · intro h; exact absurd (mem_range.2 hm) h
    · have hz : ∑ m ∈ range o.D, (if i ≤ m ∧ lastCol o m = j then (1 : ℝ) else 0) = 0 :=
        sum_eq_zero fun m hm => if_neg fun h => h4 ⟨m, h.1, mem_range.1 hm, h.2.symm⟩
      rw [hz]
      simp only [h4, false_or]
      by_cases h5 : j = o.kDiffs
      · rw [if_pos h5, if_pos h5.symm]; ring
      · rw [if_neg h5, if_neg (by have : o.d ≤ o.kDiffs := by simp only [Order.kDiffs]; omega
                                  intro h; omega), if_neg (fun h => h5 h.symm)]
        ring

/-- Remaining rows of a seasonal block. -/
theorem row_roll (o : Order) (hS : 0 < o.D → 0 < o.S) (i r j : ℕ) (hi : i < o.D) (hr : r + 1 < o.S) :
    transitionBase o (o.d + o.S * i + r + 1, j) = if o.d + o.S * i + r = j then 1 else 0 := by
  have hs := hS (by omega)
  have hlt : o.d + o.S * i + r + 1 < o.kDiffs := by
    have h1 : o.S * i + o.S ≤ o.S * o.D := by
      calc o.S * i + o.S = o.S * (i + 1) := by ring
        _ ≤ _ := Nat.mul_le_mul_left _ hi
    simp only [Order.kDiffs]; omega
  rw [base_entry o hS, if_neg (by omega)]
  have h1 : ¬ (0 < o.S ∧ ∃ m, m < o.D ∧ j = lastCol o m ∧ o.d + o.S * i + r + 1 = j + 1) := by
    rintro ⟨-, m, hm, rfl, h⟩
    have h2 := (lastCol_range o hs hm).2.2
    have h3 : (m + 1) * o.S + 0 = i * o.S + (r + 1) := by
      rw [Nat.mul_comm, Nat.mul_comm i]; omega
    have := split_inj (S := o.S) hs (by omega) h3
    omega
  rw [if_neg h1]
  by_cases h2 : o.d + o.S * i + r = j
  · rw [if_pos h2, if_pos ⟨hs, by omega, by omega, by omega⟩]
  · rw [if_neg h2, if_neg (by rintro ⟨-, h, -⟩; omega), if_neg, if_neg (by omega)]
    rintro (⟨h, -⟩ | ⟨k, hk, he, -⟩)
    · omega
    · have h3 : i * o.S + (r + 1) = k * o.S + 0 := by
        rw [Nat.mul_comm, Nat.mul_comm k]; omega
      have := split_inj (S := o.S) (by omega) hs h3
      omega

/-- Rows of the ARMA states. -/
theorem row_star (o : Order) (hS : 0 < o.D → 0 < o.S) (i j : ℕ) :
    transitionBase o (o.kDiffs + i, j) = if o.kDiffs + i + 1 = j ∧ j < o.kStates then 1 else 0 := by
  rw [base_entry o hS]
  have hd : o.d ≤ o.kDiffs := by simp only [Order.kDiffs]; omega
  by_cases h : o.kDiffs + i + 1 = j ∧ j < o.kStates
  · rw [if_pos h, if_pos (by omega)]
  · rw [if_neg h, if_neg (by omega)]
    by_cases h1 : 0 < o.S ∧ ∃ m, m < o.D ∧ j = lastCol o m ∧ o.kDiffs + i = j + 1
    · rw [if_pos h1]
    · rw [if_neg h1, if_neg, if_neg, if_neg (by omega)]
      · rintro (⟨h, -⟩ | ⟨k, hk, he, -⟩)
        · omega
        · have : o.S * k < o.S * o.D := (Nat.mul_lt_mul_left (hS (by omega))).2 hk
          simp only [Order.kDiffs] at he; omega
      · rintro ⟨hs, h2, h3, h4⟩
        have hD : 0 < o.D := by
          rcases Nat.eq_zero_or_pos o.D with h' | h'
          · simp [Order.kDiffs, h'] at h4; omega
          · exact h'
        refine h1 ⟨hs, o.D - 1, by omega, ?_, h2⟩
        simp only [lastCol, show o.D - 1 + 1 = o.D by omega]
        simp only [Order.kDiffs] at h2 h4; omega

end Verif.Sarima
