import Verif.Sarima.NamesProps

/-!
# C203: what the named states of a SARIMAX model hold
-/

set_option autoImplicit false

namespace Verif.Sarima
open Polynomial Finset

variable (o : Order) (θ : Params) (x0 ε : ℕ → ℝ)

theorem lag_u (hS : Spec.Proper o) : ∀ i, i ≤ o.d → ∀ t, i ≤ t →
    Spec.lag ((1 - X) ^ i) (obs (fast o θ) x0 ε) t = u o θ x0 ε i t := by
  have hSD : 0 < o.D → 0 < o.S := fun h => Nat.pos_of_ne_zero fun h0 => by have := hS h0; omega
  intro i
  induction i with
  | zero => intro _ t _; rw [pow_zero, lag_one, obs_eq o θ x0 ε hSD]
  | succ i ih =>
    intro hi t ht
    obtain ⟨t, rfl⟩ : ∃ s, t = s + 1 := ⟨t - 1, by omega⟩
    rw [pow_succ', lag_mul]
    have := lag_diff1 (Spec.lag ((1 - X) ^ i) (obs (fast o θ) x0 ε)) 1 (t + 1)
    rw [pow_one] at this
    rw [this, ih (by omega) _ (by omega), Nat.add_sub_cancel, ih (by omega) _ (by omega),
      u_step o θ x0 ε hS i t (by omega)]

theorem lag_v (hS : Spec.Proper o) : ∀ i, i ≤ o.D → ∀ t, o.S * i + o.d ≤ t →
    Spec.lag ((1 - X) ^ o.d * (1 - X ^ o.S) ^ i) (obs (fast o θ) x0 ε) t = v o θ x0 ε i t := by
  intro i
  induction i with
  | zero => intro _ t ht; rw [pow_zero, mul_one, lag_u o θ x0 ε hS o.d le_rfl t (by omega), u_last]
  | succ i ih =>
    intro hi t ht
    have hm : o.S * (i + 1) = o.S * i + o.S := by ring
    obtain ⟨t, rfl⟩ : ∃ s, t = s + o.S := ⟨t - o.S, by omega⟩
    rw [show (1 - X : ℝ[X]) ^ o.d * (1 - X ^ o.S) ^ (i + 1) = (1 - X ^ o.S) * ((1 - X) ^ o.d * (1 - X ^ o.S) ^ i) by ring,
      lag_mul, lag_diff1, ih (by omega) _ (by omega), Nat.add_sub_cancel,
      ih (by omega) _ (by omega), v_step o θ x0 ε hS i t (by omega)]

theorem nameAt (c : Params.Sarimax.Opts) (hf : c.fast = true) (hS : Spec.Proper c.o) (m : ℕ) (hm : m < c.o.kStates) :
    c.stateNames[m]? = some (Spec.name Spec.shortPower c.o m) := by
  have hk : m < c.kStates := by rwa [Params.Sarimax.Opts.kStates, if_pos hf]
  rw [Params.Sarimax.C202_names c hf hS, List.getElem?_map, List.getElem?_range hk]; rfl

theorem diffs_lt (o : Order) : o.d + o.S * o.D < o.kStates := by
  have : 1 ≤ o.kLags := by simp only [Order.kLags]; omega
  simp only [Order.kStates, Order.kDiffs]; omega

/-- **C203**: the state labelled "data differenced `i` times" holds, at every date, that difference **of the date before**.
-/
theorem C203_differences (c : Params.Sarimax.Opts) (hf : c.fast = true) (hS : Spec.Proper c.o) (i t : ℕ) (hi : i < c.o.d)
    (ht : i ≤ t) :
    c.stateNames[i]? = some (Spec.label Spec.shortPower c.o.S 0 i 0) ∧
    state (fast c.o θ) x0 ε (t + 1) i = Spec.lag ((1 - X) ^ i) (obs (fast c.o θ) x0 ε) t := by
  refine ⟨by rw [nameAt c hf hS i (by have := diffs_lt c.o; omega), Spec.name, if_pos hi], ?_⟩
  rw [state_diff c.o θ x0 ε hS i t hi, lag_u c.o θ x0 ε hS i hi.le t ht]

/-- **C203**: the state labelled "`r` lags of the data differenced `d` times, and `i` times with the season" holds that
difference `r + 1` dates ago. -/
theorem C203_seasonal (c : Params.Sarimax.Opts) (hf : c.fast = true) (hS : Spec.Proper c.o) (i r t : ℕ) (hi : i < c.o.D)
    (hr : r < c.o.S) (ht : c.o.d + c.o.S * i + r ≤ t) :
    c.stateNames[c.o.d + (c.o.S * i + r)]? = some (Spec.label Spec.shortPower c.o.S r c.o.d i) ∧
    state (fast c.o θ) x0 ε (t + 1) (c.o.d + (c.o.S * i + r)) =
      Spec.lag ((1 - X) ^ c.o.d * (1 - X ^ c.o.S) ^ i) (obs (fast c.o θ) x0 ε) (t - r) := by
  have hlt : c.o.S * i + r < c.o.S * c.o.D := by
    have : c.o.S * (i + 1) ≤ c.o.S * c.o.D := Nat.mul_le_mul_left _ hi
    rw [Nat.mul_add, Nat.mul_one] at this
    omega
  refine ⟨?_, ?_⟩
  · rw [nameAt c hf hS _ (by have := diffs_lt c.o; omega), Spec.name, if_neg (by omega), if_pos (by omega),
      Nat.add_sub_cancel_left, Nat.mul_add_mod, Nat.mod_eq_of_lt hr, Nat.mul_add_div (by omega), Nat.div_eq_of_lt hr,
      Nat.add_zero]
  · rw [lag_v c.o θ x0 ε hS i hi.le (t - r) (by omega)]
    have key : ∀ r, r < c.o.S → ∀ s, state (fast c.o θ) x0 ε (s + 1 + r) (c.o.d + (c.o.S * i + r)) = v c.o θ x0 ε i s := by
      intro r
      induction r with
      | zero => intro _ s; exact state_season c.o θ x0 ε hS i s hi
      | succ r ih =>
        intro hr s
        rw [← ih (by omega) s]
        have := state_roll c.o θ x0 ε hS i r (s + 1 + r) hi hr
        simp only [Nat.add_assoc] at this ⊢
        exact this
    have := key r hr (t - r)
    rwa [show t - r + 1 + r = t + 1 by omega] at this

/-- **C203**: the state labelled `data_star` (`data` if there is no differencing) is the fully differenced data of the same
date. -/
theorem C203_star (c : Params.Sarimax.Opts) (hf : c.fast = true) (hS : Spec.Proper c.o) (t : ℕ)
    (ht : c.o.d + c.o.S * c.o.D ≤ t) :
    c.stateNames[c.o.d + c.o.S * c.o.D]? = some (if c.o.d + c.o.D = 0 then "data" else "data_star") ∧
    state (fast c.o θ) x0 ε t (c.o.d + c.o.S * c.o.D) =
      Spec.lag ((1 - X) ^ c.o.d * (1 - X ^ c.o.S) ^ c.o.D) (obs (fast c.o θ) x0 ε) t := by
  refine ⟨by rw [nameAt c hf hS _ (diffs_lt c.o), Spec.name, if_neg (by omega), if_neg (by omega), if_pos rfl], ?_⟩
  have e : c.o.d + c.o.S * c.o.D = c.o.kDiffs := by simp only [Order.kDiffs]; omega
  rw [e]
  exact (lag_diff c.o θ x0 ε hS t (by omega)).symm

/-- **C203**: in a model with differencing the state called `data` is the observation of the date before; it equals the
observation of its own date only where the data do not move. -/
theorem C203_data_is_late (c : Params.Sarimax.Opts) (hf : c.fast = true) (hS : Spec.Proper c.o) (h : 0 < c.o.d + c.o.D)
    (t : ℕ) :
    c.stateNames[0]? = some "data" ∧ state (fast c.o θ) x0 ε (t + 1) 0 = obs (fast c.o θ) x0 ε t ∧
    (state (fast c.o θ) x0 ε (t + 1) 0 = obs (fast c.o θ) x0 ε (t + 1) ↔
      obs (fast c.o θ) x0 ε (t + 1) = obs (fast c.o θ) x0 ε t) := by
  have key : c.stateNames[0]? = some "data" ∧ state (fast c.o θ) x0 ε (t + 1) 0 = obs (fast c.o θ) x0 ε t := by
    rcases Nat.eq_zero_or_pos c.o.d with hd | hd
    · have hs : 0 < c.o.S := Nat.pos_of_ne_zero fun h0 => by have := hS h0; omega
      obtain ⟨h1, h2⟩ := C203_seasonal θ x0 ε c hf hS 0 0 t (by omega) hs (by omega)
      simp only [hd, Nat.mul_zero, Nat.add_zero, pow_zero, mul_one, Nat.sub_zero] at h1 h2
      exact ⟨h1, by rw [h2, lag_one]⟩
    · obtain ⟨h1, h2⟩ := C203_differences θ x0 ε c hf hS 0 t hd (by omega)
      exact ⟨h1, by rw [h2, pow_zero, lag_one]⟩
  refine ⟨key.1, key.2, ?_⟩
  rw [key.2]; exact eq_comm

/-- **C203**: the interpretable form has no such shift: the state `L{k}.data` is the observation `k` dates before, and the
state `L{k}.innovations` the shock that entered `k` dates before. -/
theorem C203_interpretable (o : Order) (t : ℕ) :
    (∀ k, k < o.pMax → k ≤ t → state (interpretable o θ) x0 ε t k = obs (interpretable o θ) x0 ε (t - k)) ∧
    (∀ k, k < o.qMax → k + 1 ≤ t → state (interpretable o θ) x0 ε t (o.pMax + k) = ε (t - k - 1)) :=
  ⟨fun k hk ht => by rw [stateI_lag o θ x0 ε k hk t ht, obsI_eq], fun k hk ht => stateI_innov o θ x0 ε k hk t ht⟩

/-- A seasonal model: the state `L1D1D4.data` at date 21 is the twice differenced data of date 19. -/
example (θ : Params) (x0 ε : ℕ → ℝ) : Params.Sarimax.Example.sarima.stateNames[6]? = some "L1D1D4.data" ∧
    state (fast ⟨1, 1, 0, 0, 2, 0, 4⟩ θ) x0 ε 21 6 =
      Spec.lag ((1 - X) ^ 1 * (1 - X ^ 4) ^ 1) (obs (fast ⟨1, 1, 0, 0, 2, 0, 4⟩ θ) x0 ε) 19 := by
  have := C203_seasonal θ x0 ε Params.Sarimax.Example.sarima rfl (fun h => absurd h (by decide)) 1 1 20 (by decide)
    (by decide) (by decide)
  exact ⟨this.1.trans (congrArg some (by decide)), this.2⟩

example (θ : Params) (x0 ε : ℕ → ℝ) (t : ℕ) :
    state (fast ⟨1, 1, 0, 0, 2, 0, 4⟩ θ) x0 ε (t + 1) 0 = obs (fast ⟨1, 1, 0, 0, 2, 0, 4⟩ θ) x0 ε t :=
  (C203_data_is_late θ x0 ε Params.Sarimax.Example.sarima rfl (fun h => absurd h (by decide)) (by decide) t).2.1

end Verif.Sarima
