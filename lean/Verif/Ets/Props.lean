import Verif.Ets.Model
import Mathlib.Algebra.BigOperators.Ring.Finset
import Mathlib.Tactic.Ring
import Mathlib.Tactic.Linarith
import Mathlib.Tactic.FinCases

/-!
# ETS: C40, C37 (state names), C97 (order resolution), C98 (component form)
-/

set_option autoImplicit false

open Finset

namespace Verif.Ets

/-! ## Specification: additive-error exponential smoothing -/

/-- Smoothing weights of one series as they enter the error-correction equations. -/
structure Spec.Weights where
  α : ℝ
  β : ℝ
  γ : ℝ
  φ : ℝ

/-- The error-correction form for one series: level `l`, slope `b`, seasonal `s` (with `s0 r` the seasonal value used at
step `r < m` before any seasonal value has been produced), observations `y` and shocks `e`, for season length `m`.
`y_{t+1} = l_t + φ b_t + s_{t+1-m} + e`, `l_{t+1} = l_t + φ b_t + α e`, `b_{t+1} = φ b_t + β e`,
`s_{t+1} = s_{t+1-m} + γ e`. -/
structure Spec.ErrorCorrection (w : Spec.Weights) (m : ℕ) (s0 : ℕ → ℝ) (l b s y e : ℕ → ℝ) : Prop where
  obs : ∀ t, y (t + 1) = l t + w.φ * b t + (if m ≤ t + 1 then s (t + 1 - m) else s0 t) + e t
  level : ∀ t, l (t + 1) = l t + w.φ * b t + w.α * e t
  slope : ∀ t, b (t + 1) = w.φ * b t + w.β * e t
  season : ∀ t, s (t + 1) = (if m ≤ t + 1 then s (t + 1 - m) else s0 t) + w.γ * e t

/-- The weights a configuration stands for: without trend there is no slope shock, without damping `φ = 1`, without
seasonality no seasonal shock; in the untransformed parameterisation `β = α β*`, `γ = (1 - α) γ*`. -/
def Spec.weights (c : Cfg) (p : Params) : Spec.Weights :=
  ⟨p.α, if c.trend then (if c.transformed then p.β else p.α * p.β) else 0,
    if c.seasonal then (if c.transformed then p.γ else (1 - p.α) * p.γ) else 0, if c.damped then p.φ else 1⟩

variable {k : ℕ} (c : Cfg) (p : Fin k → Params) (ε : ℕ → Fin k → ℝ)

local notation "st" => state c p ε

theorem state_succ (t : ℕ) (i : Fin k) (a : ℕ) : st (t + 1) (i, a) =
    (∑ b ∈ range c.kEach, tBlock c (p i) 1 a b * st t (i, b)) + selCol c (p i) a * ε t i := by
  show (∑ j : Fin k, ∑ b ∈ range c.kEach, transition c p (i, a) (j, b) * st t (j, b)) +
      ∑ j : Fin k, selection c p (i, a) j * ε t j = _
  congr 1
  · rw [sum_eq_single i]
    · simp only [transition, if_true]
    · intro j _ hj
      exact sum_eq_zero fun b _ => by simp only [transition, if_neg (Ne.symm hj), zero_mul]
    · intro h; exact absurd (mem_univ i) h
  · rw [sum_eq_single i]
    · simp only [selection, if_true]
    · intro j _ hj; simp only [selection, if_neg (Ne.symm hj), zero_mul]
    · intro h; exact absurd (mem_univ i) h

theorem obs_eq (t : ℕ) (i : Fin k) (hm : c.seasonal = true → 0 < c.periods) :
    obs c p ε t i = st t (i, 0) + st t (i, 1) + if c.seasonal then st t (i, 2 + c.tr) else 0 := by
  have h0 : obs c p ε t i = ∑ b ∈ range c.kEach, designRow c b * st t (i, b) := by
    rw [obs, sum_eq_single i]
    · simp only [design, if_true]
    · intro j _ hj
      exact sum_eq_zero fun b _ => by simp only [design, if_neg (Ne.symm hj), zero_mul]
    · intro h; exact absurd (mem_univ i) h
  have hd : ∀ b, designRow c b = (if b = 0 then 1 else 0) + (if b = 1 then 1 else 0) +
      if b = 2 + c.tr ∧ c.seasonal = true then 1 else 0 := by
    intro b
    simp only [designRow]
    by_cases hs : c.seasonal = true
    · simp only [hs, if_true, and_true, Function.update_apply]
      by_cases h1 : b = 2 + c.tr
      · rw [if_pos h1, if_pos h1, if_neg (by omega), if_neg (by omega)]; ring
      · rw [if_neg h1, if_neg h1]
        by_cases h2 : b = 1
        · rw [if_pos h2, if_pos h2, if_neg (by omega)]; ring
        · rw [if_neg h2, if_neg h2]; ring
    · rw [if_neg hs, if_neg (c := b = 2 + c.tr ∧ c.seasonal = true) (fun h => hs h.2)]
      simp only [Function.update_apply]
      by_cases h2 : b = 1
      · rw [if_pos h2, if_pos h2, if_neg (by omega)]; ring
      · rw [if_neg h2, if_neg h2]; ring
  have hk : 2 + c.tr ≤ c.kEach := by simp only [Cfg.kEach]; omega
  rw [h0]
  simp only [hd, add_mul, sum_add_distrib]
  congr 1
  · congr 1
    · rw [sum_eq_single 0]
      · simp
      · intro b _ hb; simp [hb]
      · intro h; exact absurd (mem_range.2 (by omega)) h
    · rw [sum_eq_single 1]
      · simp
      · intro b _ hb; simp [hb]
      · intro h; exact absurd (mem_range.2 (by omega)) h
  · by_cases hs : c.seasonal = true
    · simp only [hs, and_true, if_true]
      rw [sum_eq_single (2 + c.tr)]
      · simp
      · intro b _ hb; simp [hb]
      · intro h; exact absurd (mem_range.2 (by simp only [Cfg.kEach, hs, if_true]; have := hm hs; omega)) h
    · simp [hs]


theorem tr_le : c.tr ≤ 1 := by simp only [Cfg.tr]; split <;> omega

theorem sel_entries (q : Params) (hd : c.seasonal = true → 0 < c.periods) :
    selCol c q 0 = 1 - (Spec.weights c q).α - (Spec.weights c q).γ ∧ selCol c q 1 = (Spec.weights c q).α ∧
    (c.trend = true → selCol c q 2 = (Spec.weights c q).β) ∧
    (c.seasonal = true → selCol c q (2 + c.tr) = (Spec.weights c q).γ) ∧
    (∀ a, 2 + c.tr < a → selCol c q a = 0) := by
  obtain ⟨tr, da, se, m, tf⟩ := c
  cases tr <;> cases se <;> simp [selCol, Spec.weights, Cfg.tr, Function.update_apply, trendCoef, seasonCoef] <;>
    intro a ha <;> (repeat rw [if_neg (by omega)])

/-- Innovation row. -/
theorem state_innov (t : ℕ) (i : Fin k) (hd : c.seasonal = true → 0 < c.periods) :
    st (t + 1) (i, 0) = (1 - (Spec.weights c (p i)).α - (Spec.weights c (p i)).γ) * ε t i := by
  rw [state_succ, (sel_entries c (p i) hd).1, sum_eq_zero, zero_add]
  intro b _
  have : tBlock c (p i) 1 0 b = 0 := by
    simp only [tBlock]
    by_cases h : 0 < 2 + c.tr ∧ b < 2 + c.tr
    · rw [if_pos h]
      simp [tBase]
    · rw [if_neg h, if_neg (by omega)]
  rw [this, zero_mul]

theorem state_level (t : ℕ) (i : Fin k) (hd : c.seasonal = true → 0 < c.periods) (htr : c.damped = true → c.trend = true) :
    st (t + 1) (i, 1) = st t (i, 1) + (Spec.weights c (p i)).φ * (if c.trend then st t (i, 2) else 0) +
      (Spec.weights c (p i)).α * ε t i := by
  rw [state_succ, (sel_entries c (p i) hd).2.1]
  congr 1
  have hk : 2 + c.tr ≤ c.kEach := by simp only [Cfg.kEach]; omega
  by_cases ht : c.trend = true
  · have h1 : c.tr = 1 := by simp [Cfg.tr, ht]
    have : ∀ b ∈ range c.kEach, tBlock c (p i) 1 1 b * st t (i, b) =
        (if b = 1 then st t (i, b) else 0) + if b = 2 then (Spec.weights c (p i)).φ * st t (i, b) else 0 := by
      intro b _
      simp only [tBlock, h1, tBase, ht, if_true, Spec.weights]
      by_cases hb : b < 3
      · rw [if_pos (by omega)]
        by_cases hb2 : b = 2
        · subst hb2
          by_cases hda : c.damped = true <;> simp [hda]
        · by_cases hb1 : b = 1
          · subst hb1; simp
          · rw [if_neg (fun h => hb2 h.2.2), if_neg (by omega), if_neg (by omega), if_neg hb1, if_neg hb2]; ring
      · rw [if_neg (by omega), if_neg (by omega), if_neg (by omega), if_neg (by omega)]; ring
    rw [sum_congr rfl this, sum_add_distrib, sum_ite_eq', sum_ite_eq', if_pos (mem_range.2 (by omega)),
      if_pos (mem_range.2 (by omega)), if_pos ht]
  · have h1 : c.tr = 0 := by simp [Cfg.tr, ht]
    have : ∀ b ∈ range c.kEach, tBlock c (p i) 1 1 b * st t (i, b) = if b = 1 then st t (i, b) else 0 := by
      intro b _
      simp only [tBlock, h1, tBase, ht]
      by_cases hb : b = 1
      · subst hb; simp
      · rw [if_neg hb]
        by_cases hb2 : b < 2
        · rw [if_pos (by omega)]; simp [hb]
        · rw [if_neg (by omega), if_neg (by omega), zero_mul]
    rw [sum_congr rfl this, sum_ite_eq', if_pos (mem_range.2 (by omega)), if_neg ht, mul_zero, add_zero]

theorem state_slope (t : ℕ) (i : Fin k) (hd : c.seasonal = true → 0 < c.periods) (ht : c.trend = true) :
    st (t + 1) (i, 2) = (Spec.weights c (p i)).φ * st t (i, 2) + (Spec.weights c (p i)).β * ε t i := by
  rw [state_succ, (sel_entries c (p i) hd).2.2.1 ht]
  congr 1
  have hk : 2 + c.tr ≤ c.kEach := by simp only [Cfg.kEach]; omega
  have h1 : c.tr = 1 := by simp [Cfg.tr, ht]
  have : ∀ b ∈ range c.kEach, tBlock c (p i) 1 2 b * st t (i, b) =
      if b = 2 then (Spec.weights c (p i)).φ * st t (i, b) else 0 := by
    intro b _
    simp only [tBlock, h1, tBase, ht, if_true, Spec.weights]
    by_cases hb : b < 3
    · rw [if_pos (by omega)]
      by_cases hb2 : b = 2
      · subst hb2
        by_cases hda : c.damped = true <;> simp [hda]
      · rw [if_neg (fun h => hb2 h.2.2), if_neg (by omega), if_neg (by omega), if_neg hb2]; ring
    · rw [if_neg (by omega), if_neg (by omega), if_neg (by omega)]; ring
  rw [sum_congr rfl this, sum_ite_eq', if_pos (mem_range.2 (by omega))]

theorem season_block (q : Params) (a b : ℕ) (hs : c.seasonal = true) :
    tBlock c q 1 (2 + c.tr + a) b = if 2 + c.tr ≤ b then tSeason c.periods 1 a (b - (2 + c.tr)) else 0 := by
  simp only [tBlock]
  rw [if_neg (by omega)]
  by_cases h : 2 + c.tr ≤ b
  · rw [if_pos ⟨by omega, h, hs⟩, if_pos h, Nat.add_sub_cancel_left]
  · rw [if_neg (by omega), if_neg h]

theorem state_season (t : ℕ) (i : Fin k) (hd : 0 < c.periods) (hs : c.seasonal = true) :
    st (t + 1) (i, 2 + c.tr) = st t (i, 2 + c.tr + (c.periods - 1)) + (Spec.weights c (p i)).γ * ε t i := by
  rw [state_succ, (sel_entries c (p i) fun _ => hd).2.2.2.1 hs]
  congr 1
  rw [sum_eq_single (2 + c.tr + (c.periods - 1))]
  · have := season_block c (p i) 0 (2 + c.tr + (c.periods - 1)) hs
    rw [Nat.add_zero] at this
    rw [this, if_pos (by omega), Nat.add_sub_cancel_left, tSeason, if_pos ⟨rfl, rfl⟩, one_mul]
  · intro b _ hb
    have := season_block c (p i) 0 b hs
    rw [Nat.add_zero] at this
    rw [this]
    by_cases h : 2 + c.tr ≤ b
    · rw [if_pos h, tSeason, if_neg (by omega), if_neg (by omega), zero_mul]
    · rw [if_neg h, zero_mul]
  · intro h; exact absurd (mem_range.2 (by simp only [Cfg.kEach, hs, if_true]; omega)) h

theorem state_roll (t : ℕ) (i : Fin k) (a : ℕ) (ha : a + 1 < c.periods) (hs : c.seasonal = true) :
    st (t + 1) (i, 2 + c.tr + (a + 1)) = st t (i, 2 + c.tr + a) := by
  rw [state_succ, (sel_entries c (p i) fun _ => by omega).2.2.2.2 _ (by omega), zero_mul, add_zero,
    sum_eq_single (2 + c.tr + a)]
  · rw [season_block c (p i) _ _ hs, if_pos (by omega), Nat.add_sub_cancel_left, tSeason, if_neg (by omega), if_pos rfl,
      one_mul]
  · intro b _ hb
    rw [season_block c (p i) _ _ hs]
    by_cases h : 2 + c.tr ≤ b
    · rw [if_pos h, tSeason, if_neg (by omega), if_neg (by omega), zero_mul]
    · rw [if_neg h, zero_mul]
  · intro h; exact absurd (mem_range.2 (by simp only [Cfg.kEach, hs, if_true]; omega)) h

theorem state_lag (i : Fin k) (hs : c.seasonal = true) (a : ℕ) (ha : a < c.periods) : ∀ t,
    st t (i, 2 + c.tr + a) = if a ≤ t then st (t - a) (i, 2 + c.tr) else (p i).season (a - t) := by
  induction a with
  | zero => intro t; simp
  | succ a ih =>
    intro t
    cases t with
    | zero =>
      rw [if_neg (by omega)]
      show init c (p i) (2 + c.tr + (a + 1)) = _
      simp only [init, hs, if_true]
      rw [if_pos (by omega), Nat.add_sub_cancel_left, Nat.sub_zero]
    | succ t =>
      rw [state_roll c p ε t i a ha hs, ih (by omega) t, Nat.add_sub_add_right, Nat.add_sub_add_right]
      exact if_congr (by omega) rfl rfl

/-- The equations of C40 with the states that carry them written out. -/
theorem named_equations {k : ℕ} (c : Cfg) (p : Fin k → Params) (ε : ℕ → Fin k → ℝ) (i : Fin k)
    (hd : c.seasonal = true → 0 < c.periods) (htr : c.damped = true → c.trend = true) :
    Spec.ErrorCorrection (Spec.weights c (p i)) c.periods
        (fun t => if c.seasonal then (p i).season (c.periods - 1 - t) else 0)
        (fun t => state c p ε t (i, 1)) (fun t => if c.trend then state c p ε t (i, 2) else 0)
        (fun t => if c.seasonal then state c p ε t (i, 2 + c.tr) else 0)
        (fun t => obs c p ε t i) (fun t => ε t i) ∧
      state c p ε 0 (i, 1) = (p i).level ∧
      (if c.trend then state c p ε 0 (i, 2) else 0) = (if c.trend then (p i).slope else 0) ∧
      (if c.seasonal then state c p ε 0 (i, 2 + c.tr) else 0) = (if c.seasonal then (p i).season 0 else 0) := by
  refine ⟨?_, ?_, ?_, ?_⟩
  · have hsea : ∀ t, (if c.seasonal = true then state c p ε (t + 1) (i, 2 + c.tr) else 0) =
        (if c.periods ≤ t + 1 then (if c.seasonal = true then state c p ε (t + 1 - c.periods) (i, 2 + c.tr) else 0)
          else (if c.seasonal = true then (p i).season (c.periods - 1 - t) else 0)) +
        (Spec.weights c (p i)).γ * ε t i := by
      intro t
      by_cases hs : c.seasonal = true
      · have hm := hd hs
        simp only [hs, if_true]
        rw [state_season c p ε t i hm hs, state_lag c p ε i hs _ (by omega) t]
        congr 1
        by_cases h : c.periods ≤ t + 1
        · rw [if_pos h, if_pos (by omega)]; congr 1; omega
        · rw [if_neg h, if_neg (by omega)]
      · simp [hs, Spec.weights]
    constructor
    · intro t
      rw [obs_eq c p ε (t + 1) i hd, state_innov c p ε t i hd, state_level c p ε t i hd htr]
      rw [hsea t]
      ring
    · intro t; exact state_level c p ε t i hd htr
    · intro t
      by_cases ht : c.trend = true
      · simp only [ht, if_true]
        exact state_slope c p ε t i hd ht
      · simp [ht, Spec.weights]
    · intro t; exact hsea t
  · show init c (p i) 1 = _
    have := tr_le c
    simp only [init]
    split_ifs <;> simp [Function.update_apply]
    all_goals omega
  · by_cases ht : c.trend = true
    · simp only [ht, if_true]
      show init c (p i) 2 = _
      have : c.tr = 1 := by simp [Cfg.tr, ht]
      simp only [init, ht, if_true, this]
      split_ifs <;> simp [Function.update_apply]
    · simp [ht]
  · by_cases hs : c.seasonal = true
    · simp only [hs, if_true]
      show init c (p i) (2 + c.tr) = _
      simp only [init, hs, if_true, le_refl, Nat.sub_self]
    · simp [hs]

/-- **C40**: every series of an ETS model follows the error-correction equations of additive-error exponential smoothing
with its own parameters and shocks, from its own initial level, slope and seasonal values. -/
theorem C40_ets_equations {k : ℕ} (c : Cfg) (p : Fin k → Params) (ε : ℕ → Fin k → ℝ) (i : Fin k)
    (hd : c.seasonal = true → 0 < c.periods) (htr : c.damped = true → c.trend = true) :
    ∃ l b s : ℕ → ℝ,
      Spec.ErrorCorrection (Spec.weights c (p i)) c.periods
        (fun t => if c.seasonal then (p i).season (c.periods - 1 - t) else 0) l b s
        (fun t => obs c p ε t i) (fun t => ε t i) ∧
      l 0 = (p i).level ∧ (b 0 = if c.trend then (p i).slope else 0) ∧
      (s 0 = if c.seasonal then (p i).season 0 else 0) :=
  ⟨_, _, _, named_equations c p ε i hd htr⟩

/-- A damped, seasonal configuration meets the hypotheses. -/
example : ∃ c : Cfg, c.damped = true ∧ c.seasonal = true ∧ (c.seasonal = true → 0 < c.periods) ∧
    (c.damped = true → c.trend = true) := ⟨⟨true, true, true, 4, false⟩, by decide⟩

/-- **C98**: in the untransformed parameterisation the same model is the classical component form of exponential
smoothing: level, slope and seasonal are weighted averages of the new evidence and of their previous values. -/
theorem C98_component_form {k : ℕ} (c : Cfg) (p : Fin k → Params) (ε : ℕ → Fin k → ℝ) (i : Fin k)
    (hd : c.seasonal = true → 0 < c.periods) (htr : c.damped = true → c.trend = true) (hun : c.transformed = false) :
    ∃ l b s : ℕ → ℝ, l 0 = (p i).level ∧ ∀ t,
      let prev := l t + (if c.damped then (p i).φ else 1) * b t
      let slag := if c.periods ≤ t + 1 then s (t + 1 - c.periods) else
        if c.seasonal then (p i).season (c.periods - 1 - t) else 0
      obs c p ε (t + 1) i = prev + slag + ε t i ∧
      l (t + 1) = (p i).α * (obs c p ε (t + 1) i - slag) + (1 - (p i).α) * prev ∧
      (c.trend = true → b (t + 1) = (p i).β * (l (t + 1) - l t) +
        (1 - (p i).β) * ((if c.damped then (p i).φ else 1) * b t)) ∧
      (c.trend = false → b (t + 1) = 0) ∧
      (c.seasonal = true → s (t + 1) = (p i).γ * (obs c p ε (t + 1) i - l (t + 1)) + (1 - (p i).γ) * slag) := by
  obtain ⟨l, b, s, h, h0, hb0, -⟩ := C40_ets_equations c p ε i hd htr
  refine ⟨l, b, s, h0, fun t => ?_⟩
  have ho := h.obs t
  have hl := h.level t
  have hb := h.slope t
  have hs := h.season t
  simp only [Spec.weights, hun] at ho hl hb hs
  dsimp only
  set slag := if c.periods ≤ t + 1 then s (t + 1 - c.periods) else
        if c.seasonal then (p i).season (c.periods - 1 - t) else 0 with hslag
  set φ := if c.damped = true then (p i).φ else 1 with hφ
  refine ⟨ho, ?_, ?_, ?_, ?_⟩
  · rw [ho, hl]; ring
  · intro ht
    rw [if_pos ht] at hb
    rw [hb, hl]; simp; ring
  · intro ht
    have hz : ∀ t, b t = 0 := by
      intro t
      induction t with
      | zero => rw [hb0, ht]; simp
      | succ t ih =>
        have := h.slope t
        simp only [Spec.weights, ht] at this
        rw [this, ih]; simp
    exact hz _
  · intro hse
    rw [if_pos hse] at hs
    rw [hs, ho, hl]; simp; ring

/-- **C97**: which orders are accepted, and what they mean; the `trend`, `damped_trend`, `seasonal` flags are then
ignored. -/
theorem C97_order (order : List String) (tr da se tf : Bool) (periods : Option ℕ) (c : Cfg) :
    resolve (some order) tr da se periods tf true = .ok c ↔
      ∃ b s, order = ["A", b, s] ∧ (b = "A" ∨ b = "Ad" ∨ b = "N") ∧ (s = "A" ∨ s = "N") ∧
        (s = "A" → periods ≠ none) ∧
        c = ⟨decide (b ≠ "N"), decide (b = "Ad"), decide (s = "A"), periods.getD 0, tf⟩ := by
  constructor
  · intro h
    match order, h with
    | [], h => simp [resolve] at h
    | [_], h => simp [resolve] at h
    | [_, _], h => simp [resolve] at h
    | _ :: _ :: _ :: _ :: _, h => simp [resolve] at h
    | [a, b, s], h =>
      simp only [resolve] at h
      by_cases ha : a = "A"
      · rw [if_neg (by simpa using ha)] at h
        by_cases hb : b = "A" ∨ b = "Ad" ∨ b = "N"
        · rw [if_neg (not_not.2 hb)] at h
          by_cases hs : s = "A" ∨ s = "N"
          · rw [if_neg (not_not.2 hs)] at h
            simp only [Bool.true_eq_false, if_false] at h
            by_cases hp : decide (s = "A") = true ∧ periods = none
            · rw [if_pos hp] at h; simp at h
            · rw [if_neg hp] at h
              simp only [Except.ok.injEq] at h
              exact ⟨b, s, by rw [ha], hb, hs, fun h1 h2 => hp ⟨by simpa using h1, h2⟩, h.symm⟩
          · rw [if_pos hs] at h; simp at h
        · rw [if_pos hb] at h; simp at h
      · rw [if_pos (by simpa using ha)] at h; simp at h
  · rintro ⟨b, s, rfl, hb, hs, hp, rfl⟩
    simp only [resolve]
    rw [if_neg (by simp), if_neg (not_not.2 hb), if_neg (not_not.2 hs)]
    simp only [Bool.true_eq_false, if_false]
    rw [if_neg (fun h => hp (by simpa using h.1) h.2)]

example : resolve (some ["A", "Ad", "A"]) false false false (some 12) false true = .ok ⟨true, true, true, 12, false⟩ := rfl

/-- **C97** (consequence): an accepted order never asks for damping without a trend. -/
theorem C97_damped_has_trend (order : List String) (tr da se tf : Bool) (periods : Option ℕ) (c : Cfg)
    (h : resolve (some order) tr da se periods tf true = .ok c) : c.damped = true → c.trend = true := by
  obtain ⟨b, s, -, -, -, -, rfl⟩ := (C97_order order tr da se tf periods c).1 h
  simp only [decide_eq_true_eq]
  rintro rfl
  decide

/-- **C37** (ETS): as many state names as states, for a positive season length and at least one series. -/
theorem C37_ets_names (c : Cfg) (endog : List String) (h : 0 < endog.length) (hd : c.seasonal = true → 0 < c.periods) :
    (stateNames c endog).length = c.kEach * endog.length := by
  have hst : (["innovation", "level"] ++ (if c.trend then ["trend"] else []) ++
    (if c.seasonal then ["seasonality"] ++ (List.range (c.periods - 1)).map fun i => s!"L{i + 1}.season" else [])).length =
      c.kEach := by
    simp only [Cfg.kEach, Cfg.tr, List.length_append]
    by_cases ht : c.trend = true <;> by_cases hs : c.seasonal = true
    · have := hd hs; simp [ht, hs]; omega
    · simp [ht, hs]
    · have := hd hs; simp [ht, hs]; omega
    · simp [ht, hs]
  simp only [stateNames]
  by_cases h1 : 1 < endog.length
  · rw [if_pos h1]
    simp only [List.length_flatMap, List.length_map, List.map_const', List.sum_replicate, smul_eq_mul]
    rw [hst, Nat.mul_comm]
  · rw [if_neg h1, hst, show endog.length = 1 by omega, Nat.mul_one]

end Verif.Ets
