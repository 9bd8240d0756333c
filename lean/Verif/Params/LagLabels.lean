import Verif.Varmax.Props
import Verif.Ets.Props
import Verif.Structural.Components
import Verif.Params.Components

/-!
# C204: what the named states of VARMAX, ETS and autoregressive models hold

Specification: a label is read as English.  `x` is the value of series `x` at this date, `L2.x` its value two dates before,
`L2.x_innov` the shock of the observation two dates before, `innovation` the shock of this observation, `level`, `trend`,
`seasonality` the components of the smoothing equations.  The shock of the observation of date `t` is the one that entered at
the step from `t - 1` to `t` (C39, C40).
-/

set_option autoImplicit false

namespace Verif
open Finset

/-- Reading a block list: entry `n·b + i` is entry `i` of block `b`. -/
theorem getElem?_blocks {α β : Type*} (l : List α) (f : ℕ → α → β) (m b i : ℕ) (hb : b < m) (hi : i < l.length) :
    ((List.range m).flatMap fun b => l.map (f b))[l.length * b + i]? = some (f b l[i]) := by
  induction m generalizing b with
  | zero => omega
  | succ m ih =>
    rw [List.range_succ, List.flatMap_append]
    have hlen : ((List.range m).flatMap fun b => l.map (f b)).length = l.length * m := by
      simp only [List.length_flatMap, List.length_map, List.map_const', List.length_range, List.sum_replicate, smul_eq_mul]
      rw [Nat.mul_comm]
    by_cases h : b < m
    · rw [List.getElem?_append_left, ih b h]
      rw [hlen]
      have : l.length * (b + 1) ≤ l.length * m := Nat.mul_le_mul_left _ h
      rw [Nat.mul_add] at this; omega
    · have hbm : b = m := by omega
      subst hbm
      rw [List.getElem?_append_right (by rw [hlen]; omega), hlen, Nat.add_sub_cancel_left]
      simp [hi]

/-- Reading a block list made from a list of blocks. -/
theorem getElem?_flatMap_list {α β γ : Type*} (l : List α) (m : List γ) (f : α → γ → β) (b i : ℕ) (hb : b < l.length)
    (hi : i < m.length) : (l.flatMap fun a => m.map (f a))[m.length * b + i]? = some (f l[b] m[i]) := by
  induction l generalizing b with
  | nil => simp at hb
  | cons a l ih =>
    rw [List.flatMap_cons]
    cases b with
    | zero => rw [List.getElem?_append_left (by simpa using hi)]; simp [hi]
    | succ b =>
      rw [List.getElem?_append_right (by simp [Nat.mul_add]; omega)]
      have := ih b (by simpa using hb)
      rw [List.length_map, show m.length * (b + 1) + i - m.length = m.length * b + i by rw [Nat.mul_add]; omega, this]
      rfl

namespace Varmax

/-- **C204**: the VARMAX state labelled with a series, or with a series and a lag, holds the observation of that series, that
many dates before. -/
theorem C204_varmax_lags (endog : List String) (p q : ℕ) (θ : Params) (x0 : ℕ → ℝ) (ε : ℕ → ℕ → ℝ) (b i t : ℕ)
    (hi : i < endog.length) (hb : b < max p 1) (ht : b ≤ t) :
    (stateNames endog p q)[endog.length * b + i]? = some (if b = 0 then endog[i] else s!"L{b}.{endog[i]}") ∧
    state ⟨endog.length, p, q⟩ θ x0 ε t (endog.length * b + i) = obs ⟨endog.length, p, q⟩ θ x0 ε (t - b) i := by
  constructor
  · rw [stateNames]
    cases b with
    | zero =>
      rw [List.getElem?_append_left (by simp; omega), List.getElem?_append_left (by simpa using hi)]
      simp [hi]
    | succ b =>
      have hbp : b < p - 1 := by omega
      have hle : endog.length * (b + 1) ≤ endog.length * (p - 1) := Nat.mul_le_mul_left _ hbp
      have e : endog.length * (b + 1) = endog.length * b + endog.length := by ring
      have hlen : ((List.range (p - 1)).flatMap fun i => endog.map fun s => s!"L{i + 1}.{s}").length =
          endog.length * (p - 1) := by
        simp only [List.length_flatMap, List.length_map, List.map_const', List.length_range, List.sum_replicate, smul_eq_mul]
        rw [Nat.mul_comm]
      rw [List.getElem?_append_left (by rw [List.length_append, hlen]; omega), List.getElem?_append_right (by omega),
        show endog.length * (b + 1) + i - endog.length = endog.length * b + i by omega]
      exact getElem?_blocks endog (fun i s => s!"L{i + 1}.{s}") (p - 1) b i hbp hi
  · rw [obs_eq _ _ _ _ _ _ hi]
    cases b with
    | zero => simp
    | succ b => exact state_lag ⟨endog.length, p, q⟩ θ x0 ε i hi (b + 1) (by show b + 1 < p; omega) t ht

/-- **C204**: the VARMAX state labelled `L{n}.x_innov` holds the shock of series `x` of the observation `n - 1` dates before
(`n = b + 1`): the label counts one lag too many. It is right only where two successive shocks are equal. -/
theorem C204_varmax_innovations (endog : List String) (p q : ℕ) (θ : Params) (x0 : ℕ → ℝ) (ε : ℕ → ℕ → ℝ) (e : ℕ → ℕ → ℝ)
    (he : ∀ t, e (t + 1) = ε t) (b i t : ℕ) (hi : i < endog.length) (hb : b < q) (ht : b + 1 ≤ t) :
    (stateNames endog p q)[endog.length * (max p 1) + (endog.length * b + i)]? = some s!"L{b + 1}.{endog[i]}_innov" ∧
    state ⟨endog.length, p, q⟩ θ x0 ε t (endog.length * (max p 1) + (endog.length * b + i)) = e (t - b) i ∧
    (state ⟨endog.length, p, q⟩ θ x0 ε t (endog.length * (max p 1) + (endog.length * b + i)) = e (t - (b + 1)) i ↔
      e (t - b) i = e (t - (b + 1)) i) := by
  have hs : state ⟨endog.length, p, q⟩ θ x0 ε t (endog.length * (max p 1) + (endog.length * b + i)) = e (t - b) i := by
    have h := state_innov ⟨endog.length, p, q⟩ θ x0 ε i hi b hb t ht
    obtain ⟨s, hs⟩ : ∃ s, t - b = s + 1 := ⟨t - b - 1, by omega⟩
    rw [hs, he]
    rw [hs, Nat.add_sub_cancel] at h
    rw [off, Nat.max_comm] at h
    exact h
  refine ⟨?_, hs, by rw [hs]⟩
  rw [stateNames]
  have hlen : (endog ++ ((List.range (p - 1)).flatMap fun i => endog.map fun s => s!"L{i + 1}.{s}")).length =
      endog.length * max p 1 := by
    simp only [List.length_append, List.length_flatMap, List.length_map, List.map_const', List.length_range,
      List.sum_replicate, smul_eq_mul]
    obtain ⟨n, hn⟩ : ∃ n, max p 1 = n + 1 := ⟨max p 1 - 1, by omega⟩
    rw [hn, show p - 1 = n by omega]; ring
  rw [List.getElem?_append_right (by rw [hlen]; omega), hlen, Nat.add_sub_cancel_left]
  exact getElem?_blocks endog (fun i s => s!"L{i + 1}.{s}_innov") q b i hb hi

/-- A VARMA(2,1) of two series: state 3 is `L1.b`, and it is last date's `b`; state 4 is `L1.a_innov`, and it is the shock
of `a` that has just entered. -/
example (θ : Params) (x0 : ℕ → ℝ) (ε : ℕ → ℕ → ℝ) (t : ℕ) :
    (stateNames ["a", "b"] 2 1)[3]? = some "L1.b" ∧
    state ⟨2, 2, 1⟩ θ x0 ε (t + 1) 3 = obs ⟨2, 2, 1⟩ θ x0 ε t 1 ∧
    (stateNames ["a", "b"] 2 1)[4]? = some "L1.a_innov" ∧ state ⟨2, 2, 1⟩ θ x0 ε (t + 1) 4 = ε t 0 := by
  have h1 := C204_varmax_lags ["a", "b"] 2 1 θ x0 ε 1 1 (t + 1) (by decide) (by decide) (by omega)
  have h2 := C204_varmax_innovations ["a", "b"] 2 1 θ x0 ε (fun t => ε (t - 1)) (fun t => rfl) 0 0 (t + 1) (by decide)
    (by decide) (by omega)
  exact ⟨h1.1, h1.2, h2.1, h2.2.1⟩

end Varmax

namespace Ets

/-- Names of the states of one series, by position. Specification of C204. -/
def Spec.label (c : Cfg) (a : ℕ) : String :=
  if a = 0 then "innovation" else if a = 1 then "level" else if c.trend = true ∧ a = 2 then "trend"
  else if a = 2 + c.tr then "seasonality" else s!"L{a - (2 + c.tr)}.season"

theorem names_single (c : Cfg) (hd : c.seasonal = true → 0 < c.periods) (a : ℕ) (ha : a < c.kEach) :
    (["innovation", "level"] ++ (if c.trend then ["trend"] else []) ++
      (if c.seasonal then ["seasonality"] ++ (List.range (c.periods - 1)).map fun i => s!"L{i + 1}.season" else []))[a]? =
      some (Spec.label c a) := by
  have key : ∀ n m, n < m - 1 →
      (["seasonality"] ++ (List.range (m - 1)).map fun i => s!"L{i + 1}.season")[n + 1]? = some s!"L{n + 1}.season" := by
    intro n m h
    rw [List.getElem?_append_right (by simp)]
    simp only [List.length_singleton, Nat.add_sub_cancel, List.getElem?_map, List.getElem?_range h, Option.map_some]
  obtain ⟨tr, da, se, m, tf⟩ := c
  cases tr <;> cases se <;> simp only [Cfg.kEach, Cfg.tr, Spec.label, if_true, Bool.false_eq_true, if_false, false_and,
    true_and, List.append_nil] at ha hd ⊢
  · match a, ha with
    | 0, _ => rfl
    | 1, _ => rfl
    | a + 2, h => omega
  · match a, ha with
    | 0, _ => rfl
    | 1, _ => rfl
    | 2, _ => rfl
    | a + 3, h =>
      have := key a m (by have := hd trivial; omega)
      rw [List.getElem?_append_right (by simp), if_neg (by omega), if_neg (by omega), if_neg (by omega)]
      simp only [List.length_cons, List.length_nil]
      rw [show a + 3 - (0 + 1 + 1) = a + 1 by omega, this]
  · match a, ha with
    | 0, _ => rfl
    | 1, _ => rfl
    | 2, _ => rfl
    | a + 3, h => omega
  · match a, ha with
    | 0, _ => rfl
    | 1, _ => rfl
    | 2, _ => rfl
    | 3, _ => rfl
    | a + 4, h =>
      have := key a m (by have := hd trivial; omega)
      rw [List.getElem?_append_right (by simp), if_neg (by omega), if_neg (by omega), if_neg (by omega),
        if_neg (by omega)]
      simp only [List.length_cons, List.length_append, List.length_nil]
      rw [show a + 4 - (0 + 1 + 1 + (0 + 1)) = a + 1 by omega, this]

/-- **C204**: the states of series `i` of an ETS model carry, in order, the labels of `Spec.label`, with the name of the
series in front when there are several. -/
theorem C204_ets_names (c : Cfg) (endog : List String) (hd : c.seasonal = true → 0 < c.periods) (i a : ℕ)
    (hi : i < endog.length) (ha : a < c.kEach) :
    (stateNames c endog)[c.kEach * i + a]? =
      some (if endog.length = 1 then Spec.label c a else s!"{endog[i]}_{Spec.label c a}") := by
  have hn := names_single c hd
  have hl := C37_ets_names c [""] (by simp) hd
  rw [stateNames, if_neg (by simp), List.length_singleton, Nat.mul_one] at hl
  rw [stateNames]
  by_cases h1 : 1 < endog.length
  · rw [if_pos h1, if_neg (show ¬ endog.length = 1 by omega)]
    have ha' := ha
    rw [← hl] at ha' ⊢
    have := getElem?_flatMap_list endog _ (fun name s => s!"{name}_{s}") i a hi ha'
    refine this.trans ?_
    have e := hn a ha
    rw [List.getElem?_eq_getElem ha'] at e
    exact congrArg (fun s => some s!"{endog[i]}_{s}") (Option.some.inj e)
  · rw [if_neg h1, if_pos (show endog.length = 1 by omega), show i = 0 by omega, Nat.mul_zero, Nat.zero_add]
    exact hn a ha

/-- **C204**: the ETS states labelled `level`, `trend` and `seasonality` are the level, slope and season of the
error-correction equations; `L{a}.season` is the season of `a` dates before; but `innovation` is the shock of this
observation scaled by `1 - α - γ`, not the shock: the two differ unless that shock or the smoothing weights vanish. -/
theorem C204_ets_states {k : ℕ} (c : Cfg) (p : Fin k → Params) (ε : ℕ → Fin k → ℝ) (i : Fin k)
    (hd : c.seasonal = true → 0 < c.periods) (htr : c.damped = true → c.trend = true) :
    Spec.ErrorCorrection (Spec.weights c (p i)) c.periods
      (fun t => if c.seasonal then (p i).season (c.periods - 1 - t) else 0)
      (fun t => state c p ε t (i, 1)) (fun t => if c.trend then state c p ε t (i, 2) else 0)
      (fun t => if c.seasonal then state c p ε t (i, 2 + c.tr) else 0)
      (fun t => obs c p ε t i) (fun t => ε t i) ∧
    (∀ a t, c.seasonal = true → a < c.periods → a ≤ t →
      state c p ε t (i, 2 + c.tr + a) = state c p ε (t - a) (i, 2 + c.tr)) ∧
    (∀ t, state c p ε (t + 1) (i, 0) = (1 - (Spec.weights c (p i)).α - (Spec.weights c (p i)).γ) * ε t i) ∧
    (∀ t, state c p ε (t + 1) (i, 0) = ε t i ↔ ε t i = 0 ∨ (Spec.weights c (p i)).α + (Spec.weights c (p i)).γ = 0) := by
  refine ⟨(named_equations c p ε i hd htr).1, fun a t hs ha ht => by rw [state_lag c p ε i hs a ha t, if_pos ht],
    fun t => state_innov c p ε t i hd, fun t => ?_⟩
  rw [state_innov c p ε t i hd]
  constructor
  · intro h
    by_cases h0 : ε t i = 0
    · exact Or.inl h0
    · right
      have : (1 - (Spec.weights c (p i)).α - (Spec.weights c (p i)).γ - 1) * ε t i = 0 := by linear_combination h
      rcases mul_eq_zero.1 this with h' | h'
      · linear_combination -h'
      · exact absurd h' h0
  · rintro (h | h)
    · rw [h, mul_zero]
    · linear_combination (-ε t i) * h

/-- A quarterly model of one series: state 4 is `L1.season`, and it is last date's season. -/
example (p : Fin 1 → Params) (ε : ℕ → Fin 1 → ℝ) (t : ℕ) :
    (stateNames ⟨true, false, true, 4, false⟩ ["x"])[4]? = some "L1.season" ∧
    state ⟨true, false, true, 4, false⟩ p ε (t + 1) (0, 4) = state ⟨true, false, true, 4, false⟩ p ε t (0, 3) := by
  have h1 := C204_ets_names ⟨true, false, true, 4, false⟩ ["x"] (by decide) 0 4 (by decide) (by decide)
  have h2 := (C204_ets_states ⟨true, false, true, 4, false⟩ p ε 0 (by decide) (by decide)).2.1 1 (t + 1) rfl (by decide)
    (by omega)
  exact ⟨h1.trans (congrArg some (by decide)), h2⟩

end Ets

namespace Structural

/-- **C204**: the state of the autoregressive component labelled `L{n}.data` holds the series `n - 1` dates before
(`n = i + 1`): the first, `L1.data`, is the current value, so the label counts one lag too many and is right only where the
series does not move. -/
theorem C204_autoregressive (name : String) {k : ℕ} (order : Fin (k + 1) → Bool) (φ : {i // order i = true} → ℝ) (σ : ℝ)
    (η : ℕ → Fin 1 → ℝ) (i : Fin (k + 1)) (t : ℕ) :
    (Params.Structural.autoregressive name (List.ofFn order)).stateNames[(i : ℕ)]? = some s!"L{(i : ℕ) + 1}.data" ∧
    state (autoregressive (k + 1) order φ σ) η (t + i) i = Spec.y (autoregressive (k + 1) order φ σ) η t ∧
    (state (autoregressive (k + 1) order φ σ) η (t + 1 + i) i = Spec.y (autoregressive (k + 1) order φ σ) η t ↔
      Spec.y (autoregressive (k + 1) order φ σ) η (t + 1) = Spec.y (autoregressive (k + 1) order φ σ) η t) := by
  have h : ∀ t, state (autoregressive (k + 1) order φ σ) η (t + i) i = Spec.y (autoregressive (k + 1) order φ σ) η t := by
    intro t
    rw [companion_shift (s := autoregressive (k + 1) order φ σ) rfl rfl rfl η t i,
      companion_y (s := autoregressive (k + 1) order φ σ) rfl rfl η t]
  refine ⟨?_, h t, by rw [h (t + 1)]⟩
  simp only [Params.Structural.autoregressive, List.length_ofFn, List.getElem?_map, List.getElem?_range i.isLt, Option.map_some]

/-- An AR(2): `L1.data` of date 5 is the series of date 5. -/
example (φ : {i : Fin 2 // (fun _ => true) i = true} → ℝ) (η : ℕ → Fin 1 → ℝ) :
    state (autoregressive 2 (fun _ => true) φ 1) η 5 0 = Spec.y (autoregressive 2 (fun _ => true) φ 1) η 5 :=
  (C204_autoregressive "ar" (fun _ => true) φ 1 η 0 5).2.1

end Structural

end Verif
