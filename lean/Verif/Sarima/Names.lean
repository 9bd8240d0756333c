import Verif.Sarima.NamesSpec
import Verif.Params.Meta
import Verif.Printing.Lemmas
import Mathlib.Tactic.Ring
import Mathlib.Tactic.IntervalCases

/-!
# Lemmas for C202: what cleaning a state name does
-/

set_option autoImplicit false

namespace Verif.Params.Sarimax
open Verif.Sarima Verif.Printing

theorem del2_ne {a b c : Char} (h : c ≠ a) (v : List Char) : del2 a b (c :: v) = c :: del2 a b v := by
  cases v with
  | nil => simp [del2]
  | cons d r => rw [del2, if_neg (fun hh => h hh.1)]

theorem del2_free {a b : Char} {u : List Char} (h : a ∉ u) (v : List Char) : del2 a b (u ++ v) = u ++ del2 a b v := by
  induction u with
  | nil => rfl
  | cons c u ih =>
    simp only [List.mem_cons, not_or] at h
    rw [List.cons_append, del2_ne (fun e => h.1 e.symm), ih h.2]; rfl

theorem del2_hit (a b : Char) (v : List Char) : del2 a b (a :: b :: v) = del2 a b v := by simp [del2]

theorem del2_miss {a b c : Char} (h : c ≠ b) (v : List Char) : del2 a b (a :: c :: v) = a :: del2 a b (c :: v) := by
  rw [del2, if_neg (fun hh => h hh.2)]

theorem digits_isDigit {n : ℕ} {c : Char} (h : c ∈ digits n) : c.isDigit = true := by
  unfold digits at h
  rw [Nat.toString_eq_ofList_toDigits, String.toList_ofList] at h
  exact Nat.isDigit_of_mem_toDigits (b := 10) (n := n) (by decide) (by decide) h

theorem not_digit {n : ℕ} {c : Char} (hc : c.isDigit = false) : c ∉ digits n := fun h => by
  rw [digits_isDigit h] at hc; cases hc

theorem digits_zero : digits 0 = ['0'] := by decide

theorem toDigits_head : ∀ n : ℕ, 0 < n → ∃ c r, Nat.toDigits 10 n = c :: r ∧ c ≠ '0' := by
  intro n
  induction n using Nat.strong_induction_on with
  | _ n ih =>
    intro hn
    by_cases h : n < 10
    · rw [Nat.toDigits_of_lt_base h]
      refine ⟨_, _, rfl, ?_⟩
      interval_cases n <;> decide
    · obtain ⟨c, r, hc, hne⟩ := ih (n / 10) (by omega) (by omega)
      rw [Nat.toDigits_of_base_le (by decide) (by omega), hc]
      exact ⟨c, _, rfl, hne⟩

/-- The first digit of a positive number is not zero. -/
theorem digits_head {n : ℕ} (hn : 0 < n) : ∃ c r, digits n = c :: r ∧ c ≠ '0' := by
  unfold digits
  rw [Nat.toString_eq_ofList_toDigits, String.toList_ofList]
  exact toDigits_head n hn

/-- What remains of the text of an exponent after cleaning. Proof notion, no code behind it. -/
def pw (k : ℕ) : List Char := match digits k with
  | '0' :: r => r
  | '1' :: r => r
  | l => '^' :: l

/-- Removing `^1` and then `^0`. Proof notion, no code behind it. -/
def passP (l : List Char) : List Char := del2 '^' '0' (del2 '^' '1' l)

/-- Removing `L0` and then `D0`. Proof notion, no code behind it. -/
def passQ (l : List Char) : List Char := del2 'D' '0' (del2 'L' '0' l)

theorem clean_eq (l : List Char) : clean l = passQ (passP l) := rfl

theorem passP_free {u : List Char} (h : '^' ∉ u) (v : List Char) : passP (u ++ v) = u ++ passP v := by
  rw [passP, del2_free h, del2_free h]; rfl

theorem passP_nil : passP [] = [] := rfl

theorem passP_pow (k : ℕ) (v : List Char) : passP ('^' :: digits k ++ v) = pw k ++ passP v := by
  have hd : ∀ c ∈ digits k, c ≠ '^' := fun c hc e => not_digit (n := k) (by decide) (e ▸ hc)
  rcases Nat.eq_zero_or_pos k with rfl | hk
  · rw [pw, digits_zero]
    show del2 '^' '0' (del2 '^' '1' ('^' :: '0' :: v)) = passP v
    rw [del2_miss (b := '1') (c := '0') (by decide), del2_ne (a := '^') (b := '1') (c := '0') (by decide), del2_hit]; rfl
  · obtain ⟨c, r, h, hc⟩ := digits_head hk
    have hr : '^' ∉ r := fun hm => hd _ (by rw [h]; exact List.mem_cons_of_mem _ hm) rfl
    have hcc : c ≠ '^' := hd c (by rw [h]; simp)
    unfold passP
    by_cases h1 : c = '1'
    · subst h1
      rw [pw, h]
      simp only [List.cons_append]
      rw [del2_hit, del2_free hr, del2_free hr]
    · have hp : pw k = '^' :: c :: r := by
        rw [pw, h]
        split
        · rename_i he; cases he; exact absurd rfl hc
        · rename_i he; cases he; exact absurd rfl h1
        · rfl
      rw [hp, h]
      simp only [List.cons_append]
      rw [del2_miss h1, del2_ne hcc, del2_free hr, del2_miss hc, del2_ne hcc, del2_free hr]

theorem pw_mem {k : ℕ} {c : Char} (h : c ∈ pw k) : c = '^' ∨ c.isDigit = true := by
  unfold pw at h
  split at h
  · rename_i r he
    exact Or.inr (digits_isDigit (n := k) (by rw [he]; exact List.mem_cons_of_mem _ h))
  · rename_i r he
    exact Or.inr (digits_isDigit (n := k) (by rw [he]; exact List.mem_cons_of_mem _ h))
  · rcases List.mem_cons.1 h with h | h
    · exact Or.inl h
    · exact Or.inr (digits_isDigit h)

theorem pw_inj {a b : ℕ} (ha : 0 < a) (hb : 0 < b) (h : pw a = pw b) : a = b := by
  apply digits_injective
  obtain ⟨c, r, hc, hc0⟩ := digits_head ha
  obtain ⟨c', r', hc', hc0'⟩ := digits_head hb
  have e : ∀ {n : ℕ} {c r}, digits n = c :: r → c ≠ '0' → pw n = if c = '1' then r else '^' :: c :: r := by
    intro n c r hn h0
    rw [pw, hn]
    split
    · rename_i he; cases he; exact absurd rfl h0
    · rename_i he; cases he; simp
    · rename_i he h1
      rw [if_neg]
      rintro rfl; exact h1 _ rfl
  have nd : ∀ {n : ℕ} {c : Char} {r : List Char}, digits n = c :: r → '^' ∉ r := fun {n c r} hn hm =>
    not_digit (n := n) (c := '^') (by decide) (by rw [hn]; exact List.mem_cons_of_mem _ hm)
  rw [e hc hc0, e hc' hc0'] at h
  rw [hc, hc']
  split_ifs at h with h1 h2 h2
  · rw [h1, h2, h]
  · exact absurd (by rw [h]; simp) (nd hc)
  · exact absurd (by rw [← h]; simp) (nd hc')
  · injection h

theorem pw_free {c : Char} (hc : c ≠ '^') (hd : c.isDigit = false) (k : ℕ) : c ∉ pw k := fun h => by
  rcases pw_mem h with h | h
  · exact hc h
  · rw [h] at hd; cases hd

theorem passQ_free {u : List Char} (hL : 'L' ∉ u) (hD : 'D' ∉ u) (v : List Char) : passQ (u ++ v) = u ++ passQ v := by
  rw [passQ, del2_free hL, del2_free hD]; rfl

theorem passQ_lag {j : ℕ} (hj : 0 < j) (v : List Char) : passQ ('L' :: digits j ++ v) = 'L' :: digits j ++ passQ v := by
  obtain ⟨c, r, h, hc⟩ := digits_head hj
  have hL : 'L' ∉ digits j := not_digit (by decide)
  have hD : 'D' ∉ 'L' :: digits j := by
    simp only [List.mem_cons, not_or]; exact ⟨by decide, not_digit (by decide)⟩
  unfold passQ
  have : del2 'L' '0' ('L' :: digits j ++ v) = 'L' :: digits j ++ del2 'L' '0' v := by
    rw [List.cons_append, List.cons_append, ← del2_free hL, h, List.cons_append, del2_miss hc]
  rw [this, del2_free hD]

theorem passQ_diff {j : ℕ} (hj : 0 < j) (v : List Char) : passQ ('D' :: digits j ++ v) = 'D' :: digits j ++ passQ v := by
  obtain ⟨c, r, h, hc⟩ := digits_head hj
  have hD : 'D' ∉ digits j := not_digit (by decide)
  have hL : 'L' ∉ 'D' :: digits j := by
    simp only [List.mem_cons, not_or]; exact ⟨by decide, not_digit (by decide)⟩
  unfold passQ
  rw [del2_free hL, List.cons_append, List.cons_append, ← del2_free hD, h, List.cons_append, del2_miss hc]

theorem passQ_zero (v : List Char) : passQ ('D' :: '0' :: v) = passQ v := by
  have := del2_free (a := 'L') (b := '0') (u := ['D', '0']) (by decide) v
  unfold passQ
  rw [show 'D' :: '0' :: v = ['D', '0'] ++ v from rfl, this]
  exact del2_hit _ _ _

theorem passQ_pw (k : ℕ) (v : List Char) : passQ (pw k ++ v) = pw k ++ passQ v :=
  passQ_free (pw_free (by decide) (by decide) k) (pw_free (by decide) (by decide) k) v

end Verif.Params.Sarimax
