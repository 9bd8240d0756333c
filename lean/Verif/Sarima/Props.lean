import Verif.Sarima.Dynamics
import Mathlib.Tactic.NormNum

/-!
# SARIMA: C35, C36, C37, C38

The specification is in `Verif/Sarima/Lemmas.lean`: `Spec.lag` (a lag polynomial applied to a sequence) and the textbook
lag polynomials `Spec.arPoly`, `Spec.sarPoly`, `Spec.maPoly`, `Spec.smaPoly`, `Spec.diffPoly`.
-/

set_option autoImplicit false
set_option linter.unusedSectionVars false

open Finset Polynomial
open scoped Classical

namespace Verif.Sarima

/-- **C35** (fast form). For every order accepted by the constructor, all parameters, initial states and shocks, the
observations satisfy the SARIMA equation `φ(B) Φ(B^S) (1-B)^d (1-B^S)^D y_t = θ(B) Θ(B^S) e_t` from time `k_states` on,
where `e_t = ε_{t-1}` is the shock that enters the state at time `t`. -/
theorem C35_sarima_equation (o : Order) (θ : Params) (hS : Spec.Proper o) (hv : verifyOrder o = true)
    (x0 ε : ℕ → ℝ) (t : ℕ) (ht : o.kStates ≤ t) :
    Spec.lag (Spec.arPoly o θ * Spec.sarPoly o θ * Spec.diffPoly o) (obs (fast o θ) x0 ε) t =
      Spec.lag (Spec.maPoly o θ * Spec.smaPoly o θ) (fun s => ε (s - 1)) t := by
  rw [lag_mul, lag_congr _ o.kLags _ _ (fun s => state (fast o θ) x0 ε s o.kDiffs) t
    (fun i hi => lag_diff o θ x0 ε hS _ (by simp only [Order.kStates] at ht; omega))]
  · have hu := star_unroll o θ x0 ε hS hv o.kLags 0 t (by omega) (by simp only [Order.kStates] at ht; omega)
    rw [if_pos (by simp only [Order.kLags]; omega)] at hu
    simp only [Nat.zero_add, Nat.add_zero, sum_add_distrib] at hu
    rw [arSar_poly o θ hS, maSma_poly o θ hS hv, lag_sub, lag_one, lag_sum, lag_sum]
    simp only [lag_monomial]
    rw [hu, add_sub_cancel_left]
    exact sum_congr rfl fun i _ => by rw [Nat.sub_sub]
  · intro i hi
    rw [arSar_poly o θ hS, coeff_sub, finset_sum_coeff, coeff_one, if_neg (by omega), sum_eq_zero, sub_zero]
    intro j hj
    have := mem_range.1 hj
    rw [coeff_C_mul, coeff_X_pow, if_neg (by omega), mul_zero]

/-- A seasonal order that meets the hypotheses: SARIMA(2,1,1)(1,1,2,4). -/
example : Spec.Proper ⟨2, 1, 1, 1, 1, 2, 4⟩ ∧ verifyOrder ⟨2, 1, 1, 1, 1, 2, 4⟩ = true := by
  refine ⟨fun h => absurd h (by decide), by decide⟩

/-- **C36**: below the differencing rows, the AR column of the transition matrix holds the coefficients of
`1 - φ(B) Φ(B^S)`, and the selection column those of `θ(B) Θ(B^S)`. -/
theorem C36_seasonal_polynomials (o : Order) (θ : Params) (hS : Spec.Proper o) (hv : verifyOrder o = true) :
    (∀ i, i < o.kLags →
      transition o θ (o.kDiffs + i, o.kDiffs) = -(Spec.arPoly o θ * Spec.sarPoly o θ).coeff (i + 1)) ∧
    (∀ i, i < o.kLags → selection o θ (o.kDiffs + i) = (Spec.maPoly o θ * Spec.smaPoly o θ).coeff i) ∧
    (∀ i, o.kLags < i → (Spec.arPoly o θ * Spec.sarPoly o θ).coeff i = 0) ∧
    (∀ i, o.kLags ≤ i → (Spec.maPoly o θ * Spec.smaPoly o θ).coeff i = 0) := by
  refine ⟨fun i hi => ?_, fun i hi => ?_, fun i hi => ?_, fun i hi => ?_⟩
  · rw [arSar_poly o θ hS, transition_col o θ hS hv, coeff_sub, finset_sum_coeff, coeff_one, if_neg (by omega), zero_sub,
      neg_neg, sum_eq_single i]
    · rw [coeff_C_mul, coeff_X_pow, if_pos rfl, mul_one]
    · intro j _ hj; rw [coeff_C_mul, coeff_X_pow, if_neg (by omega), mul_zero]
    · intro h; exact absurd (mem_range.2 hi) h
  · rw [maSma_poly o θ hS hv, finset_sum_coeff, sum_eq_single i]
    · rw [coeff_C_mul, coeff_X_pow, if_pos rfl, mul_one]
    · intro j _ hj; rw [coeff_C_mul, coeff_X_pow, if_neg (by omega), mul_zero]
    · intro h; exact absurd (mem_range.2 hi) h
  · rw [arSar_poly o θ hS, coeff_sub, finset_sum_coeff, coeff_one, if_neg (by omega), sum_eq_zero, sub_zero]
    intro j hj
    have := mem_range.1 hj
    rw [coeff_C_mul, coeff_X_pow, if_neg (by omega), mul_zero]
  · rw [maSma_poly o θ hS hv, finset_sum_coeff, sum_eq_zero]
    intro j hj
    have := mem_range.1 hj
    rw [coeff_C_mul, coeff_X_pow, if_neg (by omega), mul_zero]

/-- **C36** (what is rejected): an order with a seasonal length is refused exactly when a lag coincides with a seasonal
lag of the same kind. -/
theorem C36_rejected (o : Order) (hS : 0 < o.S) : verifyOrder o = false ↔
    (∃ k, 1 ≤ k ∧ k ≤ o.p ∧ ∃ m, 1 ≤ m ∧ m ≤ o.P ∧ k = m * o.S) ∨
    (∃ k, 1 ≤ k ∧ k ≤ o.q ∧ ∃ m, 1 ≤ m ∧ m ≤ o.Q ∧ k = m * o.S) := by
  have key : ∀ a A : ℕ, (∃ k, 1 ≤ k ∧ k ≤ a ∧ ∃ m, 1 ≤ m ∧ m ≤ A ∧ k = m * o.S) ↔ ¬ (0 < A → 0 < o.S → a < o.S) := by
    intro a A
    constructor
    · rintro ⟨k, h1, h2, m, h3, h4, rfl⟩ h
      have := h (by omega) hS
      have : o.S ≤ m * o.S := Nat.le_mul_of_pos_left _ h3
      omega
    · intro h
      push Not at h
      exact ⟨o.S, hS, h.2.2, 1, le_rfl, h.1, by omega⟩
  rw [key, key, ← not_and_or, ← verify_iff, Bool.not_eq_true]

example : verifyOrder ⟨4, 0, 0, 1, 0, 0, 4⟩ = false := by decide

/-! ### The interpretable form -/

section
variable (o : Order) (θ : Params) (x0 ε : ℕ → ℝ)

local notation "x" => state (interpretable o θ) x0 ε

theorem pMax_le : o.p + o.P * o.S ≤ o.pMax ∧ 1 ≤ o.pMax ∧ o.q + o.Q * o.S ≤ o.qMax ∧ 1 ≤ o.qMax := by
  simp only [Order.pMax, Order.qMax]; omega

theorem idx_lt {P p S k : ℕ} (hk : k < P * p) (hS : 0 < S) (hp : p < S) :
    (1 + k / p) * S - 1 + k % p + 1 < p + P * S ∧ k / p < P ∧ k % p < p ∧ S ≤ (1 + k / p) * S := by
  have hp0 : 0 < p := Nat.pos_of_ne_zero fun h => by simp [h] at hk
  have h1 : k / p < P := Nat.div_lt_of_lt_mul (by rwa [Nat.mul_comm])
  have h2 := Nat.mod_lt k hp0
  have h3 := mul_lt_step (S := S) h1
  have h4 : S ≤ (1 + k / p) * S := Nat.le_mul_of_pos_left _ (Nat.add_pos_left Nat.one_pos _)
  refine ⟨?_, h1, h2, h4⟩
  generalize (1 + k / p) * S = z at *
  generalize k % p = r at *
  generalize P * S = y at *
  omega

/-- The six assignments touch row `0` only. -/
theorem transitionI_row (a b : ℕ) (ha : a ≠ 0) : transitionI o θ (a, b) =
    if b + 1 = a ∧ a ≠ o.pMax then 1 else 0 := by
  simp only [transitionI]
  have h := pMax_le o
  iterate 6 rw [write_miss _ _ _ _ _ fun k _ he => ha (by simp only [Prod.mk.injEq] at he; exact he.1.symm)]
  by_cases h1 : a = o.pMax ∧ b = o.pMax - 1
  · obtain ⟨rfl, rfl⟩ := h1
    rw [show (o.pMax, o.pMax - 1) = (o.pMax + o.qMax - o.qMax, o.pMax - 1) by rw [Nat.add_sub_cancel],
      Function.update_self, if_neg (by simp)]
  · rw [Function.update_of_ne (by simp only [ne_eq, Prod.mk.injEq, Nat.add_sub_cancel]; exact h1)]
    exact if_congr (by omega) rfl rfl

theorem transitionI_ar (hS : Spec.Proper o) (hv : verifyOrder o = true) (i : ℕ) (hi : i < o.pMax) :
    transitionI o θ (0, i) = coef o.p o.P arA (arB o.S) (arC o.S) θ.ar θ.sar (-1) i := by
  have hv := (verify_iff o).1 hv
  have h := pMax_le o
  have hSP : 0 < o.P → 0 < o.S := fun h => Nat.pos_of_ne_zero fun h0 => by have := hS h0; omega
  have hSQ : 0 < o.Q → 0 < o.S := fun h => Nat.pos_of_ne_zero fun h0 => by have := hS h0; omega
  simp only [transitionI]
  rw [write_miss _ (o.Q * o.q), write_miss _ o.Q, write_miss _ o.q]
  · have key := ar_writes (fun i => ((0 : ℕ), i)) (fun a b h => by simpa using h)
      (Function.update (fun a : ℕ × ℕ => if a.2 + 1 = a.1 then (1 : ℝ) else 0) (o.pMax + o.qMax - o.qMax, o.pMax - 1) 0)
      o.p o.P o.S θ.ar θ.sar (fun i _ => by
        rw [Function.update_of_ne (by simp; omega)]; simp) hSP hv.1 i
    rw [Function.update_of_ne (by simp; omega)] at key
    simp only [Nat.add_eq_zero_iff, one_ne_zero, and_false, if_false, zero_add] at key
    exact key
  · intro k hk he; simp only [Prod.mk.injEq] at he; omega
  · intro m hm he
    have : o.S ≤ (1 + m) * o.S := Nat.le_mul_of_pos_left _ (by omega)
    have := hSQ (by omega)
    simp only [Prod.mk.injEq] at he; omega
  · intro k hk he
    have hQ : 0 < o.Q := Nat.pos_of_ne_zero fun h => by simp [h] at hk
    have := idx_lt hk (hSQ hQ) (hv.2 hQ (hSQ hQ))
    simp only [Prod.mk.injEq] at he
    generalize (1 + k / o.q) * o.S = z at *
    have := hSQ hQ
    omega

theorem transitionI_ma (hS : Spec.Proper o) (hv : verifyOrder o = true) (i : ℕ) :
    transitionI o θ (0, o.pMax + i) = coef o.q o.Q arA (arB o.S) (arC o.S) θ.ma θ.sma 1 i := by
  have hv := (verify_iff o).1 hv
  have h := pMax_le o
  have hSP : 0 < o.P → 0 < o.S := fun h => Nat.pos_of_ne_zero fun h0 => by have := hS h0; omega
  have hSQ : 0 < o.Q → 0 < o.S := fun h => Nat.pos_of_ne_zero fun h0 => by have := hS h0; omega
  have hh : ∀ m, m < o.Q → o.S ≤ (1 + m) * o.S ∧ 0 < o.S := fun m hm =>
    ⟨Nat.le_mul_of_pos_left _ (by omega), hSQ (by omega)⟩
  simp only [transitionI]
  rw [write_congr (n := o.Q) (idx := fun m => (0, o.pMax + (1 + m) * o.S - 1))
    (idx' := fun m => (0, o.pMax + arB o.S m)) _ _ fun m hm => by
      have := hh m hm
      simp only [arB, Prod.mk.injEq, true_and]; omega]
  rw [write_congr (n := o.Q * o.q) (idx' := fun k => (0, o.pMax + arC o.S (k / o.q) (k % o.q))) _ _ _ fun k hk => by
      have hp : 0 < o.q := Nat.pos_of_ne_zero fun h => by simp [h] at hk
      have := hh (k / o.q) (Nat.div_lt_of_lt_mul (by rwa [Nat.mul_comm]))
      simp only [arC, Prod.mk.injEq, true_and]
      generalize (1 + k / o.q) * o.S = z at *
      omega]
  have hz : ∀ j, write (write (write (Function.update (fun a : ℕ × ℕ => if a.2 + 1 = a.1 then (1 : ℝ) else 0)
      (o.pMax + o.qMax - o.qMax, o.pMax - 1) 0) o.p (fun k => (0, k)) θ.ar) o.P
        (fun m => (0, (1 + m) * o.S - 1)) θ.sar) (o.P * o.p) (fun k => (0, (1 + k / o.p) * o.S - 1 + k % o.p + 1))
        (fun k => -(θ.sar (k / o.p)) * θ.ar (k % o.p)) (0, o.pMax + j) = 0 := by
    intro j
    rw [write_miss, write_miss, write_miss, Function.update_of_ne (by simp; omega)]
    · simp
    · intro k hk he; simp only [Prod.mk.injEq] at he; omega
    · intro m hm he
      have := mul_lt_step (S := o.S) hm
      have : o.S ≤ (1 + m) * o.S := Nat.le_mul_of_pos_left _ (by omega)
      have := hSP (by omega)
      simp only [Prod.mk.injEq] at he; omega
    · intro k hk he
      have hP : 0 < o.P := Nat.pos_of_ne_zero fun h => by simp [h] at hk
      have := idx_lt hk (hSP hP) (hv.1 hP (hSP hP))
      simp only [Prod.mk.injEq] at he
      generalize (1 + k / o.p) * o.S = z at *
      omega
  have key := ma_writes (fun i => ((0 : ℕ), o.pMax + i)) (fun a b h => by simpa using h)
    _ o.q o.Q o.S θ.ma θ.sma (fun j _ => hz j) hSQ hv.2 i
  rw [hz i, zero_add] at key
  exact key

theorem selectionI_eq (i : ℕ) : selectionI o i = if i = 0 ∨ i = o.pMax then 1 else 0 := by
  simp only [selectionI, Nat.add_sub_cancel]
  by_cases h : i = o.pMax
  · subst h; simp
  · rw [Function.update_of_ne h]; simp [h]

theorem stateI_succ (t i : ℕ) : x (t + 1) i = ∑ j ∈ range (o.pMax + o.qMax), transitionI o θ (i, j) * x t j +
    selectionI o i * ε t := rfl

theorem obsI_eq (t : ℕ) : obs (interpretable o θ) x0 ε t = x t 0 := by
  have := pMax_le o
  simp only [obs]
  show ∑ j ∈ range (o.pMax + o.qMax), (if j = 0 then (1 : ℝ) else 0) * x t j = _
  rw [sum_eq_single 0]
  · simp
  · intro j _ hj; simp [hj]
  · intro h; exact absurd (mem_range.2 (by omega)) h

theorem stateI_roll (t i : ℕ) (hi : i + 1 < o.pMax + o.qMax) (h : i + 1 ≠ o.pMax) : x (t + 1) (i + 1) = x t i := by
  have := pMax_le o
  rw [stateI_succ, selectionI_eq, if_neg (by omega), zero_mul, add_zero, sum_eq_single i]
  · rw [transitionI_row o θ _ _ (by omega), if_pos ⟨rfl, h⟩, one_mul]
  · intro j _ hj
    rw [transitionI_row o θ _ _ (by omega), if_neg (by omega), zero_mul]
  · intro h; exact absurd (mem_range.2 (by omega)) h

theorem stateI_shock (t : ℕ) : x (t + 1) o.pMax = ε t := by
  have := pMax_le o
  rw [stateI_succ, selectionI_eq, if_pos (Or.inr rfl), one_mul, sum_eq_zero, zero_add]
  intro j _
  rw [transitionI_row o θ _ _ (by omega), if_neg (by simp), zero_mul]

theorem stateI_lag (k : ℕ) (hk : k < o.pMax) : ∀ t, k ≤ t → x t k = x (t - k) 0 := by
  have := pMax_le o
  induction k with
  | zero => intro t _; rfl
  | succ k ih =>
    intro t ht
    obtain ⟨t, rfl⟩ : ∃ s, t = s + 1 := ⟨t - 1, by omega⟩
    rw [stateI_roll o θ x0 ε t k (by omega) (by omega), ih (by omega) t (by omega)]
    congr 1; omega

theorem stateI_innov (k : ℕ) (hk : k < o.qMax) : ∀ t, k + 1 ≤ t → x t (o.pMax + k) = ε (t - k - 1) := by
  have := pMax_le o
  induction k with
  | zero =>
    intro t ht
    obtain ⟨t, rfl⟩ : ∃ s, t = s + 1 := ⟨t - 1, by omega⟩
    show state (interpretable o θ) x0 ε (t + 1) o.pMax = ε (t + 1 - 0 - 1)
    rw [stateI_shock]; simp
  | succ k ih =>
    intro t ht
    obtain ⟨t, rfl⟩ : ∃ s, t = s + 1 := ⟨t - 1, by omega⟩
    rw [← Nat.add_assoc, stateI_roll o θ x0 ε t (o.pMax + k) (by omega) (by omega), ih (by omega) t (by omega)]
    congr 1; omega

end

/-- **C35** (interpretable form). For every accepted order, the observations satisfy
`φ(B) Φ(B^S) y_t = θ(B) Θ(B^S) e_t` from time `k_states` on. -/
theorem C35_interpretable_equation (o : Order) (θ : Params) (hS : Spec.Proper o) (hv : verifyOrder o = true)
    (x0 ε : ℕ → ℝ) (t : ℕ) (ht : (interpretable o θ).k ≤ t) :
    Spec.lag (Spec.arPoly o θ * Spec.sarPoly o θ) (obs (interpretable o θ) x0 ε) t =
      Spec.lag (Spec.maPoly o θ * Spec.smaPoly o θ) (fun s => ε (s - 1)) t := by
  have hp := pMax_le o
  change o.pMax + o.qMax ≤ t at ht
  have hSP : 0 < o.P → 0 < o.S := fun h => Nat.pos_of_ne_zero fun h0 => by have := hS h0; omega
  have hSQ : 0 < o.Q → 0 < o.S := fun h => Nat.pos_of_ne_zero fun h0 => by have := hS h0; omega
  obtain ⟨t, rfl⟩ : ∃ s, t = s + 1 := ⟨t - 1, by omega⟩
  have hobs : obs (interpretable o θ) x0 ε = fun s => state (interpretable o θ) x0 ε s 0 :=
    funext fun s => obsI_eq o θ x0 ε s
  have har : Spec.arPoly o θ * Spec.sarPoly o θ =
      1 - ∑ i ∈ range o.pMax, C (coef o.p o.P arA (arB o.S) (arC o.S) θ.ar θ.sar (-1) i) * X ^ (i + 1) := by
    rw [coef_ar_poly o.p o.P o.S θ.ar θ.sar (-1) o.pMax hp.1 hSP]
    simp only [Spec.arPoly, Spec.sarPoly, C_neg, C_1]
    ring
  have hma : Spec.maPoly o θ * Spec.smaPoly o θ =
      1 + ∑ i ∈ range o.qMax, C (coef o.q o.Q arA (arB o.S) (arC o.S) θ.ma θ.sma 1 i) * X ^ (i + 1) := by
    rw [coef_ar_poly o.q o.Q o.S θ.ma θ.sma 1 o.qMax hp.2.2.1 hSQ]
    simp only [Spec.maPoly, Spec.smaPoly, C_1]
    ring
  have hx := stateI_succ o θ x0 ε t 0
  rw [selectionI_eq, if_pos (Or.inl rfl), one_mul, sum_range_add] at hx
  rw [hobs, har, hma, lag_sub, lag_add, lag_one, lag_one, lag_sum, lag_sum]
  simp only [lag_monomial]
  rw [hx, Nat.add_sub_cancel]
  have h1 : ∑ i ∈ range o.pMax, transitionI o θ (0, i) * state (interpretable o θ) x0 ε t i =
      ∑ i ∈ range o.pMax, coef o.p o.P arA (arB o.S) (arC o.S) θ.ar θ.sar (-1) i *
        state (interpretable o θ) x0 ε (t + 1 - (i + 1)) 0 := by
    refine sum_congr rfl fun i hi => ?_
    have hi := mem_range.1 hi
    rw [transitionI_ar o θ hS hv i hi, stateI_lag o θ x0 ε i hi t (by omega), Nat.add_sub_add_right]
  have h2 : ∑ i ∈ range o.qMax, transitionI o θ (0, o.pMax + i) * state (interpretable o θ) x0 ε t (o.pMax + i) =
      ∑ i ∈ range o.qMax, coef o.q o.Q arA (arB o.S) (arC o.S) θ.ma θ.sma 1 i * ε (t + 1 - (i + 1) - 1) := by
    refine sum_congr rfl fun i hi => ?_
    have hi := mem_range.1 hi
    rw [transitionI_ma o θ hS hv i, stateI_innov o θ x0 ε i hi t (by omega)]
    congr 2; omega
  rw [h1, h2]
  ring

/-! ### State names -/

/-- **C37** (SARIMA): the fast form has as many state names as states. -/
theorem C37_harvey_names (o : Order) (hS : Spec.Proper o) : (harveyNames o).length = o.kStates := by
  have hb : ∀ D S : ℕ, ∀ f : ℕ → ℕ → String, ∀ g : ℕ → String, (D = 0 ∨ 0 < S) →
      ((List.range D).flatMap fun i => (List.range (S - 1)).map (f i) ++ (if i ≠ D - 1 then [g i] else [])).length =
        S * D - (if 0 < D then 1 else 0) := by
    intro D S f g h
    rw [List.length_flatMap]
    rcases Nat.eq_zero_or_pos D with rfl | hD
    · simp
    obtain ⟨E, rfl⟩ : ∃ E, D = E + 1 := ⟨D - 1, by omega⟩
    have hS : 0 < S := by omega
    rw [List.range_succ, List.map_append, List.sum_append]
    have : (List.range E).map (fun i => ((List.range (S - 1)).map (f i) ++
        (if i ≠ E + 1 - 1 then [g i] else [])).length) = (List.range E).map fun _ => S := by
      refine List.map_congr_left fun i hi => ?_
      have := List.mem_range.1 hi
      rw [if_pos (by omega)]; simp; omega
    rw [this]
    simp only [List.map_const', List.sum_replicate, List.length_range, smul_eq_mul, List.map_cons, List.map_nil,
      List.sum_cons, List.sum_nil, Nat.add_sub_cancel, ne_eq, not_true_eq_false, if_false, List.append_nil,
      List.length_map, Nat.add_zero, Nat.succ_pos, if_true]
    rw [Nat.mul_add, Nat.mul_comm E]; omega
  have hD : o.D = 0 ∨ 0 < o.S := by
    rcases Nat.eq_zero_or_pos o.S with h | h
    · exact Or.inl (hS h).2.1
    · exact Or.inr h
  have hk : 1 ≤ o.kLags := by simp only [Order.kLags]; omega
  simp only [harveyNames, List.length_append, List.length_map, List.length_dropLast, List.length_range,
    List.length_cons, List.length_nil]
  rw [hb o.D o.S _ _ hD]
  have hm : 0 < o.D → 1 ≤ o.S * o.D := fun h => Nat.mul_pos (by omega) h
  simp only [Order.kStates, Order.kDiffs]
  by_cases h1 : 0 < o.D
  · have := hm h1
    simp only [h1, if_true, show 0 < o.d + o.D by omega, List.length_cons, List.length_nil]
    omega
  · have h0 : o.D = 0 := by omega
    simp only [h0, Nat.mul_zero, lt_irrefl, if_false, Nat.add_zero, Nat.zero_add]
    by_cases h2 : 0 < o.d
    · simp only [h2, if_true, List.length_cons, List.length_nil]; omega
    · simp only [h2, if_false, List.length_nil]; omega

/-- **C38**: the interpretable form has as many state names as states exactly when every kind of seasonal lag beyond the
first is accompanied by a non-seasonal lag of the same kind; otherwise it has too few. -/
theorem C38_interpretable_names (o : Order) (θ : Params) :
    ((interpretableNames o).length = (interpretable o θ).k ↔
      (o.p = 0 → o.P * o.S ≤ 1) ∧ (o.q = 0 → o.Q * o.S ≤ 1)) ∧
    (interpretableNames o).length ≤ (interpretable o θ).k := by
  have h : (interpretableNames o).length =
      1 + (if 0 < o.p then o.pMax - 1 else 0) + 1 + if 0 < o.q then o.qMax - 1 else 0 := by
    simp only [interpretableNames, List.length_append, List.length_cons, List.length_nil]
    split_ifs <;> simp
  have hk : (interpretable o θ).k = o.pMax + o.qMax := rfl
  rw [h, hk]
  simp only [Order.pMax, Order.qMax]
  split_ifs <;> constructor <;> omega

/-- A purely seasonal monthly model: 2 names for 13 states. -/
example : (interpretableNames ⟨0, 0, 0, 1, 0, 0, 12⟩).length = 2 ∧
    (interpretable ⟨0, 0, 0, 1, 0, 0, 12⟩ ⟨0, 0, 0, 0⟩).k = 13 := by
  constructor
  · rfl
  · rfl

end Verif.Sarima
