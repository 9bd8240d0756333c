import Verif.Sarima.Rows
import Mathlib.Data.List.GetD

set_option autoImplicit false
set_option linter.unusedSectionVars false

open Finset Polynomial
open scoped Classical

namespace Verif.Sarima

variable (o : Order) (θ : Params)

theorem kStates_pos : o.kDiffs < o.kStates := by simp only [Order.kStates, Order.kLags]; omega

theorem transition_off (hS : 0 < o.P → 0 < o.S) (a b : ℕ) (h : b ≠ o.kDiffs ∨ a < o.kDiffs) :
    transition o θ (a, b) = transitionBase o (a, b) := by
  have hh : ∀ m, m < o.P → o.S ≤ (1 + m) * o.S ∧ 0 < o.S := fun m hm =>
    ⟨Nat.le_mul_of_pos_left _ (by omega), hS (by omega)⟩
  simp only [transition]
  rw [write_miss, write_miss, write_miss]
  · intro k _ he; simp only [Prod.mk.injEq] at he; omega
  · intro m hm he; have := hh m hm; simp only [Prod.mk.injEq] at he; omega
  · intro k hk he
    have hp : 0 < o.p := Nat.pos_of_ne_zero fun h => by simp [h] at hk
    have h1 := hh (k / o.p) (Nat.div_lt_of_lt_mul (by rwa [Nat.mul_comm]))
    simp only [Prod.mk.injEq] at he
    generalize (1 + k / o.p) * o.S = z at *
    omega

theorem transition_col (hS : Spec.Proper o) (hv : verifyOrder o = true) (i : ℕ) :
    transition o θ (o.kDiffs + i, o.kDiffs) = coef o.p o.P arA (arB o.S) (arC o.S) θ.ar θ.sar (-1) i := by
  have hv := (verify_iff o).1 hv
  have hSP : 0 < o.P → 0 < o.S := fun h => Nat.pos_of_ne_zero fun h0 => by have := hS h0; omega
  have hSD : 0 < o.D → 0 < o.S := fun h => Nat.pos_of_ne_zero fun h0 => by have := hS h0; omega
  have h0 : ∀ i, transitionBase o (o.kDiffs + i, o.kDiffs) = 0 := fun i => by
    rw [row_star o hSD, if_neg (by omega)]
  have hh : ∀ m, m < o.P → o.S ≤ (1 + m) * o.S ∧ 0 < o.S := fun m hm =>
    ⟨Nat.le_mul_of_pos_left _ (by omega), hSP (by omega)⟩
  have key := ar_writes (fun i => (o.kDiffs + i, o.kDiffs)) (fun a b h => by simpa using h) (transitionBase o)
    o.p o.P o.S θ.ar θ.sar (fun i _ => h0 i) hSP hv.1 i
  rw [h0, zero_add] at key
  rw [← key]
  simp only [transition]
  rw [write_congr (n := o.P) (idx := fun m => (o.kDiffs + (1 + m) * o.S - 1, o.kDiffs))
    (idx' := fun m => (o.kDiffs + arB o.S m, o.kDiffs)) _ _ fun m hm => by
      have := hh m hm
      simp only [arB, Prod.mk.injEq, and_true]; omega]
  rw [write_congr (n := o.P * o.p) (idx' := fun k => (o.kDiffs + arC o.S (k / o.p) (k % o.p), o.kDiffs)) _ _ _ fun k hk => by
      have hp : 0 < o.p := Nat.pos_of_ne_zero fun h => by simp [h] at hk
      have := hh (k / o.p) (Nat.div_lt_of_lt_mul (by rwa [Nat.mul_comm]))
      simp only [arC, Prod.mk.injEq, and_true]
      generalize (1 + k / o.p) * o.S = z at *
      omega]

theorem selection_top (i : ℕ) (hi : i < o.kDiffs) : selection o θ i = 0 := by
  simp only [selection]
  rw [write_miss, write_miss, write_miss, if_neg (by omega)]
  · intro k _ he; omega
  · intro m _ he; generalize (1 + m) * o.S = z at *; omega
  · intro k _ he; generalize (1 + k / o.q) * o.S = z at *; omega

theorem selection_col (hS : Spec.Proper o) (hv : verifyOrder o = true) :
    selection o θ o.kDiffs = 1 ∧
    ∀ i, selection o θ (o.kDiffs + i + 1) = coef o.q o.Q arA (arB o.S) (arC o.S) θ.ma θ.sma 1 i := by
  have hv := (verify_iff o).1 hv
  have hSQ : 0 < o.Q → 0 < o.S := fun h => Nat.pos_of_ne_zero fun h0 => by have := hS h0; omega
  have hh : ∀ m, m < o.Q → o.S ≤ (1 + m) * o.S ∧ 0 < o.S := fun m hm =>
    ⟨Nat.le_mul_of_pos_left _ (by omega), hSQ (by omega)⟩
  constructor
  · simp only [selection]
    rw [write_miss, write_miss, write_miss, if_pos rfl]
    · intro k _ he; omega
    · intro m hm he; have := hh m hm; omega
    · intro k _ he; generalize (1 + k / o.q) * o.S = z at *; omega
  · intro i
    have key := ma_writes (fun i => o.kDiffs + i + 1) (fun a b h => by simpa using h)
      (fun i => if i = o.kDiffs then (1 : ℝ) else 0) o.q o.Q o.S θ.ma θ.sma
      (fun i _ => if_neg (by omega)) hSQ hv.2 i
    rw [if_neg (by omega), zero_add] at key
    rw [← key]
    simp only [selection]
    rw [write_congr (n := o.q) (idx := fun k => 1 + o.kDiffs + k) (idx' := fun k => o.kDiffs + k + 1) _ _
      fun k _ => by omega]
    rw [write_congr (n := o.Q) (idx := fun m => o.kDiffs + (1 + m) * o.S)
      (idx' := fun m => o.kDiffs + arB o.S m + 1) _ _ fun m hm => by
        have := hh m hm
        simp only [arB]; omega]
    rw [write_congr (n := o.Q * o.q) (idx' := fun k => o.kDiffs + arC o.S (k / o.q) (k % o.q) + 1) _ _ _ fun k hk => by
        have hp : 0 < o.q := Nat.pos_of_ne_zero fun h => by simp [h] at hk
        have := hh (k / o.q) (Nat.div_lt_of_lt_mul (by rwa [Nat.mul_comm]))
        simp only [arC]
        generalize (1 + k / o.q) * o.S = z at *
        omega]

/-! ### The design row -/

theorem blocks_getD (S D k : ℕ) (hS : 0 < S) :
    ((List.replicate D (List.replicate (S - 1) (0 : ℝ) ++ [1])).flatten).getD k 0 =
      ∑ m ∈ range D, if S * (m + 1) - 1 = k then 1 else 0 := by
  induction D generalizing k with
  | zero => simp
  | succ D ih =>
    rw [List.replicate_succ, List.flatten_cons, sum_range_succ']
    have hlen : (List.replicate (S - 1) (0 : ℝ) ++ [1]).length = S := by simp; omega
    by_cases hk : k < S
    · rw [List.getD_append _ _ _ _ (by rw [hlen]; exact hk)]
      have hz : ∑ m ∈ range D, (if S * (m + 1 + 1) - 1 = k then (1 : ℝ) else 0) = 0 := by
        refine sum_eq_zero fun m _ => if_neg fun h => ?_
        have : S * (m + 1 + 1) = S * m + S + S := by ring
        omega
      rw [hz, zero_add]
      by_cases h1 : k < S - 1
      · rw [List.getD_append _ _ _ _ (by simpa using h1), if_neg (by simp; omega)]
        simp [List.getD_eq_getElem?_getD, h1]
      · have : k = S - 1 := by omega
        subst this
        rw [List.getD_append_right _ _ _ _ (by simp)]
        simp
    · rw [List.getD_append_right _ _ _ _ (by rw [hlen]; omega), hlen, ih]
      rw [if_neg (by simp; omega), add_zero]
      refine sum_congr rfl fun m _ => ?_
      have : S * (m + 1 + 1) = S * (m + 1) + S := by ring
      have h2 : S ≤ S * (m + 1) := Nat.le_mul_of_pos_right _ (by omega)
      exact if_congr (by omega) rfl rfl

theorem design_entry (hS : 0 < o.D → 0 < o.S) (j : ℕ) :
    (designRow o).getD j 0 = (if j < o.d then 1 else 0) +
      (∑ m ∈ range o.D, if lastCol o m = j then 1 else 0) + if o.kDiffs = j then 1 else 0 := by
  have hc : ∀ m, m < o.D → o.d ≤ lastCol o m ∧ lastCol o m < o.kDiffs := fun m hm =>
    ⟨(lastCol_range o (hS (by omega)) hm).1, (lastCol_range o (hS (by omega)) hm).2.1⟩
  have hd : o.d ≤ o.kDiffs := by simp only [Order.kDiffs]; omega
  have hz : ∀ j, (j < o.d ∨ o.kDiffs ≤ j) → ∑ m ∈ range o.D, (if lastCol o m = j then (1 : ℝ) else 0) = 0 :=
    fun j h => sum_eq_zero fun m hm => if_neg fun he => by have := hc m (mem_range.1 hm); omega
  have hblen : ((List.replicate o.D (List.replicate (o.S - 1) (0 : ℝ) ++ [1])).flatten).length = o.S * o.D := by
    rcases Nat.eq_zero_or_pos o.D with h | h
    · simp [h]
    · have := hS h
      simp only [List.length_flatten, List.map_replicate, List.length_append, List.length_replicate, List.length_cons,
        List.length_nil, List.sum_replicate, smul_eq_mul]
      rw [show o.S - 1 + (0 + 1) = o.S by omega, Nat.mul_comm]
  simp only [designRow, List.append_assoc]
  by_cases h1 : j < o.d
  · rw [List.getD_append _ _ _ _ (by simpa using h1), hz j (Or.inl h1), if_pos h1, if_neg (by omega)]
    simp [List.getD_eq_getElem?_getD, h1]
  · rw [List.getD_append_right _ _ _ _ (by simp; omega), List.length_replicate, if_neg h1]
    by_cases h2 : j < o.kDiffs
    · have hD : 0 < o.D := by
        rcases Nat.eq_zero_or_pos o.D with h | h
        · simp [Order.kDiffs, h] at h2; omega
        · exact h
      rw [List.getD_append _ _ _ _ (by rw [hblen]; simp only [Order.kDiffs] at h2; omega), blocks_getD _ _ _ (hS hD),
        if_neg (c := o.kDiffs = j) (by omega), add_zero, zero_add]
      refine sum_congr rfl fun m hm => ?_
      have h5 := (lastCol_range o (hS hD) (mem_range.1 hm)).2.2
      have h6 : o.S ≤ o.S * (m + 1) := Nat.le_mul_of_pos_right _ (by omega)
      have h7 := hS hD
      generalize o.S * (m + 1) = z at *
      exact if_congr (by omega) rfl rfl
    · rw [List.getD_append_right _ _ _ _ (by rw [hblen]; simp only [Order.kDiffs] at h2; omega), hblen,
        hz j (Or.inr (by omega)), show j - o.d - o.S * o.D = j - o.kDiffs by simp only [Order.kDiffs]; omega]
      by_cases h3 : o.kDiffs = j
      · rw [if_pos h3, h3]; simp
      · rw [if_neg h3]
        obtain ⟨k, hk⟩ : ∃ k, j - o.kDiffs = k + 1 := ⟨j - o.kDiffs - 1, by omega⟩
        rw [hk]
        simp only [List.singleton_append, List.getD_cons_succ]
        simp [List.getD_eq_getElem?_getD, List.getElem?_replicate]
        split <;> simp

/-! ### Trajectories -/

theorem sum_ind (K c : ℕ) (hc : c < K) (f : ℕ → ℝ) : ∑ j ∈ range K, (if c = j then (1 : ℝ) else 0) * f j = f c := by
  simp [hc]

theorem sum_ind_le (K d i : ℕ) (hd : d ≤ K) (f : ℕ → ℝ) :
    ∑ j ∈ range K, (if i ≤ j ∧ j < d then (1 : ℝ) else 0) * f j = ∑ j ∈ range d, if i ≤ j then f j else 0 := by
  rw [← sum_subset (range_mono hd)]
  · refine sum_congr rfl fun j hj => ?_
    simp only [mem_range.1 hj, and_true]
    split <;> simp
  · intro j _ h
    rw [if_neg (by simp at h; omega), zero_mul]

section
variable (x0 ε : ℕ → ℝ)

local notation "x" => state (fast o θ) x0 ε

theorem state_succ (t i : ℕ) : x (t + 1) i = ∑ j ∈ range o.kStates, transition o θ (i, j) * x t j +
    selection o θ i * ε t := rfl

/-- The partially summed level. Proof notion, no code behind it. -/
def u (i t : ℕ) : ℝ := (∑ j ∈ range o.d, if i ≤ j then x t j else 0) + (∑ m ∈ range o.D, x t (lastCol o m)) + x t o.kDiffs

/-- The partially summed seasonal level. Proof notion, no code behind it. -/
def v (i t : ℕ) : ℝ := (∑ m ∈ range o.D, if i ≤ m then x t (lastCol o m) else 0) + x t o.kDiffs

theorem lastCol_lt (hS : 0 < o.D → 0 < o.S) {m : ℕ} (hm : m < o.D) : lastCol o m < o.kStates :=
  ((lastCol_range o (hS (by omega)) hm).2.1).trans (kStates_pos o)

theorem obs_eq (hS : 0 < o.D → 0 < o.S) (t : ℕ) : obs (fast o θ) x0 ε t = u o θ x0 ε 0 t := by
  have hd : o.d ≤ o.kStates := by simp only [Order.kStates, Order.kDiffs]; omega
  simp only [obs]
  show ∑ j ∈ range o.kStates, (designRow o).getD j 0 * x t j = _
  simp only [design_entry o hS, add_mul, sum_add_distrib, u]
  rw [sum_ind _ _ (kStates_pos o)]
  congr 1
  congr 1
  · have := sum_ind_le o.kStates o.d 0 hd (x t)
    simpa using this
  · simp only [sum_mul]
    rw [sum_comm]
    exact sum_congr rfl fun m hm => sum_ind _ _ (lastCol_lt o hS (mem_range.1 hm)) _

theorem state_diff (hS : Spec.Proper o) (i t : ℕ) (hi : i < o.d) : x (t + 1) i = u o θ x0 ε i t := by
  have hSP : 0 < o.P → 0 < o.S := fun h => Nat.pos_of_ne_zero fun h0 => by have := hS h0; omega
  have hSD : 0 < o.D → 0 < o.S := fun h => Nat.pos_of_ne_zero fun h0 => by have := hS h0; omega
  have hd : o.d ≤ o.kDiffs := by simp only [Order.kDiffs]; omega
  have hd' : o.d ≤ o.kStates := by simp only [Order.kStates]; omega
  rw [state_succ, selection_top o θ i (by omega), zero_mul, add_zero]
  simp only [transition_off o θ hSP i _ (Or.inr (show i < o.kDiffs by omega)), row_diff o hSD i _ hi, add_mul,
    sum_add_distrib, u]
  rw [sum_ind _ _ (kStates_pos o), sum_ind_le _ _ _ hd']
  congr 2
  simp only [sum_mul]
  rw [sum_comm]
  exact sum_congr rfl fun m hm => sum_ind _ _ (lastCol_lt o hSD (mem_range.1 hm)) _

theorem state_season (hS : Spec.Proper o) (i t : ℕ) (hi : i < o.D) : x (t + 1) (o.d + o.S * i) = v o θ x0 ε i t := by
  have hSP : 0 < o.P → 0 < o.S := fun h => Nat.pos_of_ne_zero fun h0 => by have := hS h0; omega
  have hSD : 0 < o.D → 0 < o.S := fun h => Nat.pos_of_ne_zero fun h0 => by have := hS h0; omega
  have hlt : o.d + o.S * i < o.kDiffs := by
    have : o.S * i < o.S * o.D := (Nat.mul_lt_mul_left (hSD (by omega))).2 hi
    simp only [Order.kDiffs]; omega
  rw [state_succ, selection_top o θ _ hlt, zero_mul, add_zero]
  simp only [transition_off o θ hSP _ _ (Or.inr hlt), row_season o hSD i _ hi, add_mul, sum_add_distrib, v]
  rw [sum_ind _ _ (kStates_pos o)]
  congr 1
  simp only [sum_mul]
  rw [sum_comm]
  refine sum_congr rfl fun m hm => ?_
  by_cases h : i ≤ m
  · simp only [h, true_and, if_true]
    exact sum_ind _ _ (lastCol_lt o hSD (mem_range.1 hm)) _
  · simp [h]

theorem state_roll (hS : Spec.Proper o) (i r t : ℕ) (hi : i < o.D) (hr : r + 1 < o.S) :
    x (t + 1) (o.d + o.S * i + r + 1) = x t (o.d + o.S * i + r) := by
  have hSP : 0 < o.P → 0 < o.S := fun h => Nat.pos_of_ne_zero fun h0 => by have := hS h0; omega
  have hSD : 0 < o.D → 0 < o.S := fun h => Nat.pos_of_ne_zero fun h0 => by have := hS h0; omega
  have hlt : o.d + o.S * i + r + 1 < o.kDiffs := by
    have h1 : o.S * i + o.S ≤ o.S * o.D := by
      calc o.S * i + o.S = o.S * (i + 1) := by ring
        _ ≤ _ := Nat.mul_le_mul_left _ hi
    simp only [Order.kDiffs]; omega
  rw [state_succ, selection_top o θ _ hlt, zero_mul, add_zero]
  simp only [transition_off o θ hSP _ _ (Or.inr hlt), row_roll o hSD i r _ hi hr]
  exact sum_ind _ _ (by have := kStates_pos o; omega) _

theorem state_lag (hS : Spec.Proper o) (i t : ℕ) (hi : i < o.D) : x (t + o.S) (lastCol o i) = v o θ x0 ε i t := by
  have hs : 0 < o.S := Nat.pos_of_ne_zero fun h0 => by have := hS h0; omega
  have key : ∀ r, r < o.S → x (t + 1 + r) (o.d + o.S * i + r) = v o θ x0 ε i t := by
    intro r
    induction r with
    | zero => intro _; exact state_season o θ x0 ε hS i t hi
    | succ r ih =>
      intro hr
      rw [← ih (by omega)]
      exact state_roll o θ x0 ε hS i r (t + 1 + r) hi hr
  have := key (o.S - 1) (by omega)
  rw [show t + 1 + (o.S - 1) = t + o.S by omega] at this
  rw [← this]
  congr 1
  simp only [lastCol, Nat.mul_add, Nat.mul_one]; omega

theorem state_star (hS : Spec.Proper o) (hv : verifyOrder o = true) (i t : ℕ) (hi : i < o.kLags) :
    x (t + 1) (o.kDiffs + i) = coef o.p o.P arA (arB o.S) (arC o.S) θ.ar θ.sar (-1) i * x t o.kDiffs +
      (if i + 1 < o.kLags then x t (o.kDiffs + (i + 1)) else 0) + selection o θ (o.kDiffs + i) * ε t := by
  have hSP : 0 < o.P → 0 < o.S := fun h => Nat.pos_of_ne_zero fun h0 => by have := hS h0; omega
  have hSD : 0 < o.D → 0 < o.S := fun h => Nat.pos_of_ne_zero fun h0 => by have := hS h0; omega
  rw [state_succ]
  congr 1
  rw [← sum_erase_add _ _ (mem_range.2 (kStates_pos o)), transition_col o θ hS hv, add_comm]
  congr 1
  have : ∀ j ∈ (range o.kStates).erase o.kDiffs, transition o θ (o.kDiffs + i, j) * x t j =
      (if o.kDiffs + i + 1 = j ∧ j < o.kStates then (1 : ℝ) else 0) * x t j := by
    intro j hj
    rw [transition_off o θ hSP _ _ (Or.inl (Finset.mem_erase.1 hj).1), row_star o hSD]
  rw [sum_congr rfl this, sum_erase _ (by rw [if_neg (by omega), zero_mul])]
  split_ifs with h
  · rw [sum_eq_single (o.kDiffs + i + 1)]
    · rw [if_pos ⟨rfl, by simp only [Order.kStates]; omega⟩, one_mul]; rfl
    · intro j _ hne; rw [if_neg (by omega), zero_mul]
    · intro hc; exact absurd (mem_range.2 (by simp only [Order.kStates]; omega)) hc
  · exact sum_eq_zero fun j _ => by
      rw [if_neg, zero_mul]
      simp only [Order.kStates]; omega

theorem u_step (hS : Spec.Proper o) (i t : ℕ) (hi : i < o.d) :
    u o θ x0 ε i (t + 1) - u o θ x0 ε i t = u o θ x0 ε (i + 1) (t + 1) := by
  rw [← state_diff o θ x0 ε hS i t hi]
  simp only [u]
  have : (∑ j ∈ range o.d, if i ≤ j then x (t + 1) j else 0) =
      (∑ j ∈ range o.d, if i + 1 ≤ j then x (t + 1) j else 0) + x (t + 1) i := by
    rw [← sum_ind o.d i hi (x (t + 1)), ← sum_add_distrib]
    refine sum_congr rfl fun j _ => ?_
    by_cases h : i ≤ j
    · by_cases h' : i = j
      · subst h'; simp
      · rw [if_pos h, if_pos (by omega), if_neg h']; ring
    · rw [if_neg h, if_neg (by omega), if_neg (by omega)]; ring
  rw [this]; ring

theorem v_step (hS : Spec.Proper o) (i t : ℕ) (hi : i < o.D) :
    v o θ x0 ε i (t + o.S) - v o θ x0 ε i t = v o θ x0 ε (i + 1) (t + o.S) := by
  rw [← state_lag o θ x0 ε hS i t hi]
  simp only [v]
  have : (∑ m ∈ range o.D, if i ≤ m then x (t + o.S) (lastCol o m) else 0) =
      (∑ m ∈ range o.D, if i + 1 ≤ m then x (t + o.S) (lastCol o m) else 0) + x (t + o.S) (lastCol o i) := by
    rw [← sum_ind o.D i hi (fun m => x (t + o.S) (lastCol o m)), ← sum_add_distrib]
    refine sum_congr rfl fun j _ => ?_
    by_cases h : i ≤ j
    · by_cases h' : i = j
      · subst h'; simp
      · rw [if_pos h, if_pos (by omega), if_neg h']; ring
    · rw [if_neg h, if_neg (by omega), if_neg (by omega)]; ring
  rw [this]; ring

theorem u_last (t : ℕ) : u o θ x0 ε o.d t = v o θ x0 ε 0 t := by
  simp only [u, v]
  have : (∑ j ∈ range o.d, if o.d ≤ j then x t j else 0) = 0 :=
    sum_eq_zero fun j hj => if_neg (by have := mem_range.1 hj; omega)
  rw [this]; simp

theorem v_last (t : ℕ) : v o θ x0 ε o.D t = x t o.kDiffs := by
  simp only [v]
  have : (∑ m ∈ range o.D, if o.D ≤ m then x t (lastCol o m) else 0) = 0 :=
    sum_eq_zero fun j hj => if_neg (by have := mem_range.1 hj; omega)
  rw [this, zero_add]

theorem lag_diff1 (f : ℕ → ℝ) (S t : ℕ) : Spec.lag (1 - X ^ S) f t = f t - f (t - S) := by
  rw [lag_sub, lag_one]
  have := lag_monomial S 1 f t
  rw [C_1, one_mul] at this
  rw [this]; ring

/-- Differencing the observations gives the ARMA state. -/
theorem lag_diff (hS : Spec.Proper o) (t : ℕ) (ht : o.kDiffs ≤ t) :
    Spec.lag (Spec.diffPoly o) (obs (fast o θ) x0 ε) t = x t o.kDiffs := by
  have hSD : 0 < o.D → 0 < o.S := fun h => Nat.pos_of_ne_zero fun h0 => by have := hS h0; omega
  have h1 : ∀ i, i ≤ o.d → ∀ t, i ≤ t → Spec.lag ((1 - X) ^ i) (obs (fast o θ) x0 ε) t = u o θ x0 ε i t := by
    intro i
    induction i with
    | zero => intro _ t _; rw [pow_zero, lag_one, obs_eq o θ x0 ε hSD]
    | succ i ih =>
      intro hi t ht
      obtain ⟨t, rfl⟩ : ∃ s, t = s + 1 := ⟨t - 1, by omega⟩
      rw [pow_succ', lag_mul]
      have := lag_diff1 (Spec.lag ((1 - X) ^ i) (obs (fast o θ) x0 ε)) 1 (t + 1)
      rw [pow_one] at this
      rw [this, ih (by omega) _ (by omega), Nat.add_sub_cancel, ih (by omega) _ (by omega),
        u_step o θ x0 ε hS i t (by omega)]
  have h2 : ∀ i, i ≤ o.D → ∀ t, o.S * i + o.d ≤ t →
      Spec.lag ((1 - X ^ o.S) ^ i * (1 - X) ^ o.d) (obs (fast o θ) x0 ε) t = v o θ x0 ε i t := by
    intro i
    induction i with
    | zero => intro _ t ht; rw [pow_zero, one_mul, h1 o.d le_rfl t (by omega), u_last]
    | succ i ih =>
      intro hi t ht
      have hm : o.S * (i + 1) = o.S * i + o.S := by ring
      obtain ⟨t, rfl⟩ : ∃ s, t = s + o.S := ⟨t - o.S, by omega⟩
      rw [pow_succ', mul_assoc, lag_mul, lag_diff1, ih (by omega) _ (by omega), Nat.add_sub_cancel,
        ih (by omega) _ (by omega), v_step o θ x0 ε hS i t (by omega)]
  rw [Spec.diffPoly, mul_comm, h2 o.D le_rfl t ht, v_last]

/-- The ARMA state as a sum over past values and shocks. -/
theorem star_unroll (hS : Spec.Proper o) (hv : verifyOrder o = true) (k : ℕ) : ∀ i t, i + k = o.kLags → k ≤ t →
    (if i < o.kLags then x t (o.kDiffs + i) else 0) =
      ∑ j ∈ range k, (coef o.p o.P arA (arB o.S) (arC o.S) θ.ar θ.sar (-1) (i + j) * x (t - (j + 1)) o.kDiffs +
        selection o θ (o.kDiffs + (i + j)) * ε (t - (j + 1))) := by
  induction k with
  | zero => intro i t hi _; simp; omega
  | succ k ih =>
    intro i t hi ht
    obtain ⟨t, rfl⟩ : ∃ s, t = s + 1 := ⟨t - 1, by omega⟩
    rw [if_pos (by omega), state_star o θ x0 ε hS hv i t (by omega), ih (i + 1) t (by omega) (by omega),
      sum_range_succ']
    simp only [Nat.add_zero, Nat.zero_add, Nat.add_sub_cancel]
    rw [show ∀ a b c : ℝ, a + b + c = b + (a + c) from fun a b c => by ring]
    congr 1
    refine sum_congr rfl fun j _ => ?_
    rw [show i + 1 + j = i + (j + 1) by omega, show t + 1 - (j + 1 + 1) = t - (j + 1) by omega]

end

theorem arSar_poly (hS : Spec.Proper o) : Spec.arPoly o θ * Spec.sarPoly o θ =
    1 - ∑ i ∈ range o.kLags, C (coef o.p o.P arA (arB o.S) (arC o.S) θ.ar θ.sar (-1) i) * X ^ (i + 1) := by
  have hSP : 0 < o.P → 0 < o.S := fun h => Nat.pos_of_ne_zero fun h0 => by have := hS h0; omega
  rw [coef_ar_poly o.p o.P o.S θ.ar θ.sar (-1) o.kLags (by simp only [Order.kLags]; omega) hSP]
  simp only [Spec.arPoly, Spec.sarPoly, C_neg, C_1]
  ring

theorem maSma_poly (hS : Spec.Proper o) (hv : verifyOrder o = true) : Spec.maPoly o θ * Spec.smaPoly o θ =
    ∑ i ∈ range o.kLags, C (selection o θ (o.kDiffs + i)) * X ^ i := by
  have hSQ : 0 < o.Q → 0 < o.S := fun h => Nat.pos_of_ne_zero fun h0 => by have := hS h0; omega
  obtain ⟨L, hL⟩ : ∃ L, o.kLags = L + 1 := ⟨o.kLags - 1, by simp only [Order.kLags]; omega⟩
  rw [hL, sum_range_succ', Nat.add_zero, (selection_col o θ hS hv).1, pow_zero]
  have : ∑ k ∈ range L, C (selection o θ (o.kDiffs + (k + 1))) * X ^ (k + 1) =
      ∑ i ∈ range L, C (coef o.q o.Q arA (arB o.S) (arC o.S) θ.ma θ.sma 1 i) * X ^ (i + 1) :=
    sum_congr rfl fun k _ => by rw [← (selection_col o θ hS hv).2 k]; rfl
  rw [this, coef_ar_poly o.q o.Q o.S θ.ma θ.sma 1 L (by simp only [Order.kLags] at hL; omega) hSQ]
  simp only [Spec.maPoly, Spec.smaPoly, C_1]
  ring

end Verif.Sarima
