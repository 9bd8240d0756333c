import Verif.Varmax.Model
import Mathlib.Algebra.BigOperators.Ring.Finset
import Mathlib.Algebra.BigOperators.Intervals
import Mathlib.Tactic.Ring
import Mathlib.Tactic.Linarith
import Mathlib.Tactic.NormNum

/-!
# VARMAX: C39, C37 (state names), C95 (observation noise)
-/

set_option autoImplicit false

open Finset

namespace Verif.Varmax

theorem sum_divmod (P p : ℕ) (g : ℕ → ℕ → ℝ) :
    ∑ j ∈ range (p * P), g (j / p) (j % p) = ∑ m ∈ range P, ∑ r ∈ range p, g m r := by
  rcases Nat.eq_zero_or_pos p with rfl | hp
  · simp
  induction P with
  | zero => simp
  | succ P ih =>
    rw [Nat.mul_succ, sum_range_add, ih, sum_range_succ]
    congr 1
    refine sum_congr rfl fun r hr => ?_
    have hr := mem_range.1 hr
    rw [Nat.mul_add_div hp, Nat.mul_add_mod, Nat.div_eq_of_lt hr, Nat.mod_eq_of_lt hr, Nat.add_zero]

variable (o : Order) (θ : Params) (x0 : ℕ → ℝ) (ε : ℕ → ℕ → ℝ)

local notation "x" => state o θ x0 ε

/-- Number of states before the innovation block. -/
def off : ℕ := o.k * max 1 o.p

theorem kStates_eq : o.kStates = off o + o.k * o.q := by
  simp only [Order.kStates, off, Nat.mul_add, max_comm]

theorem off_facts : o.k * o.p ≤ off o ∧ o.k ≤ off o ∧ (0 < o.p → off o = o.k * o.p) ∧ (o.p = 0 → off o = o.k) := by
  refine ⟨Nat.mul_le_mul_left _ (le_max_right _ _), Nat.le_mul_of_pos_right _ (by omega), fun h => ?_, fun h => ?_⟩
  · simp only [off]; rw [max_eq_right (by omega)]
  · simp [off, h]

theorem mulsub (a n : ℕ) (h : 0 < n) : a * (n - 1) + a = a * n := by
  obtain ⟨m, rfl⟩ : ∃ m, n = m + 1 := ⟨n - 1, by omega⟩
  simp [Nat.mul_succ]

/-- First `k` rows. -/
theorem row_top (i j : ℕ) (hi : i < o.k) (hj : j < o.kStates) : transition o θ i j =
    if off o ≤ j then θ.ma i ((j - off o) / o.k) ((j - off o) % o.k)
    else if j < o.k * o.p then θ.ar i (j / o.k) (j % o.k) else 0 := by
  have h1 := kStates_eq o
  obtain ⟨h2, h3, h4, h5⟩ := off_facts o
  have hq0 : o.q = 0 → off o ≤ j → False := fun h => by rw [h, Nat.mul_zero] at h1; omega
  have hp0 : o.p = 0 → j < o.k * o.p → False := fun h => by simp [h]
  simp only [transition]
  change (if 0 < o.q then setBlock _ 0 o.k (off o) o.kStates (reshape o.k θ.ma) else _) i j = _
  by_cases hq : 0 < o.q
  · rw [if_pos hq]
    simp only [setBlock, reshape, Nat.zero_le, hi, true_and, hj, and_true, Nat.sub_zero]
    by_cases h : off o ≤ j
    · rw [if_pos h, if_pos h]
    · rw [if_neg h, if_neg h]
      by_cases hp : 0 < o.p
      · simp only [hp, if_true, setBlock, reshape, Nat.zero_le, hi, true_and, Nat.sub_zero]
        by_cases h' : j < o.k * o.p
        · rw [if_pos h', if_pos h']
        · exfalso; have := h4 hp; omega
      · rw [if_neg (c := 0 < o.p) hp, if_neg (fun h => hp0 (by omega) h)]
        have hp1 : ¬ 1 < o.p := by omega
        by_cases hq1 : 1 < o.q
        · have := mulsub o.k o.q hq
          simp only [hq1, if_true, setBlock]
          rw [if_neg (by omega), if_neg (c := 1 < o.p) hp1]
        · rw [if_neg hq1, if_neg hp1]
  · rw [if_neg hq, if_neg (fun h => hq0 (by omega) h)]
    have hq1 : ¬ 1 < o.q := by omega
    by_cases hp : 0 < o.p
    · simp only [hp, if_true, setBlock, reshape, Nat.zero_le, hi, true_and, Nat.sub_zero]
      by_cases h' : j < o.k * o.p
      · rw [if_pos h', if_pos h']
      · exfalso; have := h4 hp; have h0 : o.q = 0 := by omega
        rw [h0, Nat.mul_zero] at h1; omega
    · rw [if_neg hp, if_neg hq1, if_neg (by omega), if_neg (fun h => hp0 (by omega) h)]

/-- The remaining rows shift blocks down by one, except the first innovation block. -/
theorem row_below (i j : ℕ) (hi : o.k ≤ i) (hi' : i < o.kStates) (hj : j < o.kStates) : transition o θ i j =
    if j + o.k = i ∧ (i < off o ∨ off o + o.k ≤ i) then 1 else 0 := by
  have h1 := kStates_eq o
  obtain ⟨h2, h3, h4, h5⟩ := off_facts o
  have key : transition o θ i j = (if 1 < o.q then setBlock (if 1 < o.p then
      setBlock (fun _ _ => 0) o.k (o.k * o.p) 0 (o.k * (o.p - 1)) eye else fun _ _ => 0)
      (o.kStates - o.k * (o.q - 1)) o.kStates (o.kStates - o.k * o.q) (o.kStates - o.k) eye else
      (if 1 < o.p then setBlock (fun _ _ => 0) o.k (o.k * o.p) 0 (o.k * (o.p - 1)) eye else fun _ _ => 0)) i j := by
    simp only [transition]
    by_cases hq : 0 < o.q
    · rw [if_pos hq]
      conv_lhs => rw [setBlock]
      rw [if_neg (by omega)]
      by_cases hp : 0 < o.p
      · rw [if_pos hp]
        conv_lhs => rw [setBlock]
        rw [if_neg (by omega)]
      · rw [if_neg hp]
    · rw [if_neg hq]
      by_cases hp : 0 < o.p
      · rw [if_pos hp]
        conv_lhs => rw [setBlock]
        rw [if_neg (by omega)]
      · rw [if_neg hp]
  have hpart : (if 1 < o.p then setBlock (fun _ _ => (0 : ℝ)) o.k (o.k * o.p) 0 (o.k * (o.p - 1)) eye
      else fun _ _ => 0) i j = if j + o.k = i ∧ i < off o then 1 else 0 := by
    by_cases hp : 1 < o.p
    · have := mulsub o.k o.p (by omega)
      have h6 := h4 (by omega)
      simp only [hp, if_true, setBlock, eye, Nat.sub_zero]
      by_cases h : j + o.k = i ∧ i < off o
      · rw [if_pos (by omega), if_pos (by omega), if_pos h]
      · rw [if_neg h]
        by_cases h' : o.k ≤ i ∧ i < o.k * o.p ∧ 0 ≤ j ∧ j < o.k * (o.p - 1)
        · rw [if_pos h', if_neg (by omega)]
        · rw [if_neg h']
    · rw [if_neg hp, if_neg]
      rcases Nat.eq_zero_or_pos o.p with h0 | h0
      · have := h5 h0; omega
      · have h6 := h4 h0
        have h7 : o.p = 1 := by omega
        rw [h7, Nat.mul_one] at h6
        omega
  rw [key]
  by_cases hq : 1 < o.q
  · have hm := mulsub o.k o.q (by omega)
    have hm' := mulsub o.k (o.q - 1) (by omega)
    simp only [hq, if_true]
    conv_lhs => rw [setBlock]
    rw [hpart]
    by_cases h : o.kStates - o.k * (o.q - 1) ≤ i ∧ i < o.kStates ∧ o.kStates - o.k * o.q ≤ j ∧ j < o.kStates - o.k
    · rw [if_pos h, eye]
      exact if_congr (by omega) rfl rfl
    · rw [if_neg h]
      exact if_congr (by omega) rfl rfl
  · rw [if_neg hq, hpart]
    refine if_congr ?_ rfl rfl
    rcases Nat.eq_zero_or_pos o.q with h0 | h0
    · rw [h0, Nat.mul_zero] at h1; omega
    · have : o.q = 1 := by omega
      rw [this, Nat.mul_one] at h1
      omega

theorem selection_eq (i j : ℕ) (hi : i < o.kStates) (hj : j < o.k) : selection o i j =
    if i = j ∨ (0 < o.q ∧ i = off o + j) then 1 else 0 := by
  have h1 := kStates_eq o
  obtain ⟨h2, h3, h4, h5⟩ := off_facts o
  have ht : setBlock (fun _ _ => (0 : ℝ)) 0 o.k 0 o.k eye i j = if i = j then 1 else 0 := by
    simp only [setBlock, eye, Nat.zero_le, hj, true_and, and_true, Nat.sub_zero]
    by_cases h : i < o.k
    · rw [if_pos h]
    · rw [if_neg h, if_neg (by omega)]
  simp only [selection]
  by_cases hq : 0 < o.q
  · have hm := mulsub o.k o.q (by omega)
    have hk : o.k ≤ o.k * o.q := Nat.le_mul_of_pos_right _ hq
    rw [if_pos hq]
    conv_lhs => rw [setBlock]
    rw [ht, show o.kStates - o.k * o.q = off o by omega]
    have hend : (if 1 < o.q then o.kStates - o.k * (o.q - 1) else o.kStates) = off o + o.k := by
      split_ifs with h
      · omega
      · have : o.q = 1 := by omega
        rw [this, Nat.mul_one] at h1; exact h1
    rw [hend]
    by_cases h : off o ≤ i ∧ i < off o + o.k ∧ 0 ≤ j ∧ j < o.k
    · rw [if_pos h, eye]
      exact if_congr (by omega) rfl rfl
    · rw [if_neg h]
      exact if_congr (by omega) rfl rfl
  · rw [if_neg hq, ht]
    exact if_congr (by omega) rfl rfl

theorem k_le : o.k ≤ o.kStates := by have := kStates_eq o; have := (off_facts o).2.1; omega

theorem obs_eq (t i : ℕ) (hi : i < o.k) : obs o θ x0 ε t i = x t i := by
  have := k_le o
  simp only [obs, design]
  rw [sum_eq_single i]
  · simp [hi]
  · intro j _ hj; rw [if_neg (fun h => hj h.1.symm), zero_mul]
  · intro h; exact absurd (mem_range.2 (by omega)) h

theorem state_roll (t j : ℕ) (h : j + o.k < off o ∨ (off o ≤ j ∧ j + o.k < o.kStates)) :
    x (t + 1) (j + o.k) = x t j := by
  have h1 := kStates_eq o
  have hlt : j + o.k < o.kStates := by omega
  have h3 := (off_facts o).2.1
  show ∑ j' ∈ range o.kStates, transition o θ (j + o.k) j' * x t j' +
    ∑ j' ∈ range o.k, selection o (j + o.k) j' * ε t j' = _
  rw [sum_eq_single j, row_below o θ _ _ (by omega) hlt (by omega), if_pos ⟨rfl, by omega⟩, one_mul, sum_eq_zero, add_zero]
  · intro j' hj'
    have := mem_range.1 hj'
    rw [selection_eq o _ _ hlt this, if_neg (by omega), zero_mul]
  · intro j' hj' hne
    rw [row_below o θ _ _ (by omega) hlt (mem_range.1 hj'), if_neg (by omega), zero_mul]
  · intro h; exact absurd (mem_range.2 (by omega)) h

theorem state_shock (t i : ℕ) (hi : i < o.k) (hq : 0 < o.q) : x (t + 1) (off o + i) = ε t i := by
  have h1 := kStates_eq o
  have h3 := (off_facts o).2.1
  have hk : o.k ≤ o.k * o.q := Nat.le_mul_of_pos_right _ hq
  show ∑ j' ∈ range o.kStates, transition o θ (off o + i) j' * x t j' +
    ∑ j' ∈ range o.k, selection o (off o + i) j' * ε t j' = _
  rw [sum_eq_zero, zero_add, sum_eq_single i, selection_eq o _ _ (by omega) hi, if_pos (Or.inr ⟨hq, rfl⟩), one_mul]
  · intro j hj hne
    have := mem_range.1 hj
    rw [selection_eq o _ _ (by omega) this, if_neg (by omega), zero_mul]
  · intro h; exact absurd (mem_range.2 hi) h
  · intro j hj
    rw [row_below o θ _ _ (by omega) (by omega) (mem_range.1 hj), if_neg (by omega), zero_mul]

theorem state_lag (i : ℕ) (hi : i < o.k) (b : ℕ) (hb : b < o.p) : ∀ t, b ≤ t → x t (o.k * b + i) = x (t - b) i := by
  have h4 := (off_facts o).2.2.1 (by omega)
  induction b with
  | zero => intro t _; simp
  | succ b ih =>
    intro t ht
    obtain ⟨t, rfl⟩ : ∃ s, t = s + 1 := ⟨t - 1, by omega⟩
    have hle : o.k * (b + 1 + 1) ≤ o.k * o.p := Nat.mul_le_mul_left _ hb
    have e1 : o.k * (b + 1 + 1) = o.k * b + o.k + o.k := by ring
    have e2 : o.k * (b + 1) = o.k * b + o.k := by ring
    rw [show o.k * (b + 1) + i = (o.k * b + i) + o.k by omega, state_roll o θ x0 ε t _ (Or.inl (by omega)),
      ih (by omega) t (by omega)]
    congr 1; omega

theorem state_innov (i : ℕ) (hi : i < o.k) (b : ℕ) (hb : b < o.q) : ∀ t, b + 1 ≤ t →
    x t (off o + (o.k * b + i)) = ε (t - b - 1) i := by
  have h1 := kStates_eq o
  induction b with
  | zero =>
    intro t ht
    obtain ⟨t, rfl⟩ : ∃ s, t = s + 1 := ⟨t - 1, by omega⟩
    have := state_shock o θ x0 ε t i hi (by omega)
    simpa using this
  | succ b ih =>
    intro t ht
    obtain ⟨t, rfl⟩ : ∃ s, t = s + 1 := ⟨t - 1, by omega⟩
    have hle : o.k * (b + 1 + 1) ≤ o.k * o.q := Nat.mul_le_mul_left _ hb
    have e1 : o.k * (b + 1 + 1) = o.k * b + o.k + o.k := by ring
    have e2 : o.k * (b + 1) = o.k * b + o.k := by ring
    rw [show off o + (o.k * (b + 1) + i) = (off o + (o.k * b + i)) + o.k by omega,
      state_roll o θ x0 ε t _ (Or.inr (by omega)), ih (by omega) t (by omega)]
    congr 1; omega

/-- **C39**: from time `max(p, q) + 1` on, each series satisfies the vector ARMA equation
`y_t = Σ_l A_l y_{t-l} + e_t + Σ_l M_l e_{t-l}`, `e_t = ε_{t-1}` being the shock that enters at time `t` and `A_l`, `M_l`
the slices `ar_params[:, l-1, :]`, `ma_params[:, l-1, :]`. -/
theorem C39_varma_equation (o : Order) (θ : Params) (x0 : ℕ → ℝ) (ε : ℕ → ℕ → ℝ) (t i : ℕ) (hi : i < o.k)
    (ht : max o.p o.q + 1 ≤ t) :
    obs o θ x0 ε t i =
      (∑ l ∈ range o.p, ∑ j ∈ range o.k, θ.ar i l j * obs o θ x0 ε (t - (l + 1)) j) + ε (t - 1) i +
        ∑ l ∈ range o.q, ∑ j ∈ range o.k, θ.ma i l j * ε (t - (l + 1) - 1) j := by
  have h1 := kStates_eq o
  have hk := k_le o
  obtain ⟨h2, h3, h4, h5⟩ := off_facts o
  obtain ⟨t, rfl⟩ : ∃ s, t = s + 1 := ⟨t - 1, by omega⟩
  rw [obs_eq o θ x0 ε _ _ hi]
  show ∑ j ∈ range o.kStates, transition o θ i j * state o θ x0 ε t j + ∑ j ∈ range o.k, selection o i j * ε t j = _
  have hsel : ∑ j ∈ range o.k, selection o i j * ε t j = ε t i := by
    rw [sum_eq_single i, selection_eq o _ _ (by omega) hi, if_pos (Or.inl rfl), one_mul]
    · intro j hj hne
      rw [selection_eq o _ _ (by omega) (mem_range.1 hj), if_neg (by omega), zero_mul]
    · intro h; exact absurd (mem_range.2 hi) h
  have htop : ∑ j ∈ range o.kStates, transition o θ i j * state o θ x0 ε t j =
      (∑ j ∈ range (o.k * o.p), θ.ar i (j / o.k) (j % o.k) * state o θ x0 ε t j) +
        ∑ j ∈ range (o.k * o.q), θ.ma i (j / o.k) (j % o.k) * state o θ x0 ε t (off o + j) := by
    rw [h1, sum_range_add]
    congr 1
    · rw [← sum_subset (range_mono h2)]
      · refine sum_congr rfl fun j hj => ?_
        have hj := mem_range.1 hj
        have hlt : j < off o := by omega
        rw [row_top o θ i j hi (by omega), if_neg (by omega), if_pos hj]
      · intro j hj hn
        have hj := mem_range.1 hj
        rw [row_top o θ i j hi (by omega), if_neg (by omega), if_neg (fun h => hn (mem_range.2 h)), zero_mul]
    · refine sum_congr rfl fun j hj => ?_
      have hj := mem_range.1 hj
      rw [row_top o θ i _ hi (by omega), if_pos (by omega), Nat.add_sub_cancel_left]
  have har : ∑ j ∈ range (o.k * o.p), θ.ar i (j / o.k) (j % o.k) * state o θ x0 ε t j =
      ∑ l ∈ range o.p, ∑ j ∈ range o.k, θ.ar i l j * obs o θ x0 ε (t + 1 - (l + 1)) j := by
    rw [← sum_divmod o.p o.k fun l j => θ.ar i l j * obs o θ x0 ε (t + 1 - (l + 1)) j]
    refine sum_congr rfl fun j hj => ?_
    have hj := mem_range.1 hj
    have hl : j / o.k < o.p := Nat.div_lt_of_lt_mul hj
    have hm : j % o.k < o.k := Nat.mod_lt _ (by omega)
    rw [obs_eq o θ x0 ε _ _ hm, Nat.add_sub_add_right, ← state_lag o θ x0 ε _ hm _ hl t (by
      generalize j / o.k = z at *; omega),
      Nat.div_add_mod]
  have hma : ∑ j ∈ range (o.k * o.q), θ.ma i (j / o.k) (j % o.k) * state o θ x0 ε t (off o + j) =
      ∑ l ∈ range o.q, ∑ j ∈ range o.k, θ.ma i l j * ε (t + 1 - (l + 1) - 1) j := by
    rw [← sum_divmod o.q o.k fun l j => θ.ma i l j * ε (t + 1 - (l + 1) - 1) j]
    refine sum_congr rfl fun j hj => ?_
    have hj := mem_range.1 hj
    have hl : j / o.k < o.q := Nat.div_lt_of_lt_mul hj
    have hm : j % o.k < o.k := Nat.mod_lt _ (by omega)
    have := state_innov o θ x0 ε _ hm _ hl t (by generalize j / o.k = z at *; omega)
    rw [Nat.div_add_mod] at this
    rw [this, Nat.add_sub_add_right]
  rw [htop, hsel, har, hma, Nat.add_sub_cancel]
  ring

/-- A VARMA(2,1) in two series, at time 3. -/
example : ∃ o : Order, ∃ t i, i < o.k ∧ max o.p o.q + 1 ≤ t ∧ 0 < o.p ∧ 0 < o.q := ⟨⟨2, 2, 1⟩, 3, 1, by decide⟩

/-- **C37** (VARMAX): whenever the constructor accepts its arguments there are as many series names as series and as many
state names as states. -/
theorem C37_varmax_names (names : Option (List String)) (k : Option ℕ) (l : List String) (n p q : ℕ)
    (h : resolveNames names k = some (l, n)) :
    l.length = n ∧ (stateNames l p q).length = (Order.mk n p q).kStates := by
  have hl : l.length = n := by
    cases names <;> cases k <;> simp only [resolveNames] at h
    · simp at h
    · simp only [Option.some.injEq, Prod.mk.injEq] at h
      obtain ⟨rfl, rfl⟩ := h; simp
    · simp only [Option.some.injEq, Prod.mk.injEq] at h
      obtain ⟨rfl, rfl⟩ := h; rfl
    · split_ifs at h with hc
      simp only [Option.some.injEq, Prod.mk.injEq] at h
      obtain ⟨rfl, rfl⟩ := h
      simpa using hc
  refine ⟨hl, ?_⟩
  simp only [stateNames, List.length_append, List.length_flatMap, List.length_map, List.map_const', List.sum_replicate,
    List.length_range, smul_eq_mul, hl, Order.kStates]
  have : n + (p - 1) * n = n * max p 1 := by
    rcases Nat.eq_zero_or_pos p with rfl | hp
    · simp
    · rw [max_eq_left hp]
      obtain ⟨m, rfl⟩ : ∃ m, p = m + 1 := ⟨p - 1, by omega⟩
      simp only [Nat.add_sub_cancel]; ring
  rw [this, Nat.mul_add, Nat.mul_comm q]

example : resolveNames (some ["a", "b"]) none = some (["a", "b"], 2) := rfl

/-- **C95**: the observation noise variance of series `i` is `sigma_obs[i]`, which is the square of `sigma_obs[i]` (the
convention of every other model of the package) only if `sigma_obs[i]` is zero or one. -/
theorem C95_sigma_obs_is_variance (o : Order) (σ : ℕ → ℝ) (i : ℕ) (hi : i < o.k) :
    obsCov o σ i i = σ i ∧ (obsCov o σ i i = σ i ^ 2 ↔ σ i = 0 ∨ σ i = 1) := by
  have : obsCov o σ i i = σ i := by simp [obsCov, hi]
  refine ⟨this, ?_⟩
  rw [this]
  constructor
  · intro h
    have : σ i * (σ i - 1) = 0 := by ring_nf; linarith
    rcases mul_eq_zero.1 this with h | h
    · exact Or.inl h
    · exact Or.inr (by linarith)
  · rintro (h | h) <;> rw [h] <;> norm_num

end Verif.Varmax
