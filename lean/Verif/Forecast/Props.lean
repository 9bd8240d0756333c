import Verif.Forecast.Model
import Mathlib.Tactic.Tauto
import Mathlib.Data.List.Range
import Mathlib.Data.List.Nodup

/-!
C19, C20, C79, C80 (forecast index), C82, C83 (scenario data).
-/

namespace Verif.Forecast

/-- Specification: the integers `a+1, …, a+k`. -/
def Spec.after (a : ℤ) (k : ℕ) : List ℤ := (List.range k).map fun i : ℕ => a + 1 + i

theorem pyRange_cons (a : ℤ) (k : ℕ) : pyRange a (a + k + 1) = a :: Spec.after a k := by
  have h : (a + k + 1 - a).toNat = k + 1 := by omega
  rw [pyRange, h, List.range_succ_eq_map, List.map_cons, List.map_map, Spec.after]
  simp only [Nat.cast_zero, add_zero, List.cons.injEq, true_and]
  refine List.map_congr_left fun i _ => ?_
  simp; omega

theorem pyRange_empty {a b : ℤ} (h : b ≤ a) : pyRange a b = [] := by
  rw [pyRange, Int.toNat_of_nonpos (by omega)]; rfl

theorem not_mem_after (a : ℤ) (k : ℕ) : a ∉ Spec.after a k := by
  simp only [Spec.after, List.mem_map, List.mem_range, not_exists, not_and]
  intro i _; omega

theorem finishIndex_after (ti : List ℤ) (a : ℤ) (k : ℕ) :
    finishIndex ti none (a :: Spec.after a k) = if a ∈ ti then .ok (a, Spec.after a k) else .error .valueError := by
  simp [finishIndex, not_mem_after, bind, Except.bind]

/-- The usual integer index `0, …, n−1`. -/
def Spec.rangeIndex (n : ℕ) : List ℤ := (List.range n).map fun i : ℕ => (i : ℤ)

theorem mem_rangeIndex (n : ℕ) (a : ℤ) : a ∈ Spec.rangeIndex n ↔ 0 ≤ a ∧ a < n := by
  simp only [Spec.rangeIndex, List.mem_map, List.mem_range]
  constructor
  · rintro ⟨i, hi, rfl⟩; omega
  · rintro ⟨h0, h1⟩; exact ⟨a.toNat, by omega, by omega⟩

theorem rangeIndex_length (n : ℕ) : (Spec.rangeIndex n).length = n := by simp [Spec.rangeIndex]

theorem position_rangeIndex (n s : ℕ) (h : s < n) : positionOf (Spec.rangeIndex n) s = s := by
  have hnd : (Spec.rangeIndex n).Nodup := List.Nodup.map (fun a b h => by simpa using h) List.nodup_range
  have hg : (Spec.rangeIndex n)[s]'(by simpa [rangeIndex_length] using h) = (s : ℤ) := by
    simp [Spec.rangeIndex]
  rw [positionOf, ← hg]
  exact List.Nodup.idxOf_getElem hnd s _

theorem pyGet_rangeIndex (n : ℕ) (s : ℤ) (h1 : -n ≤ s) (h2 : s < 0) : pyGet (Spec.rangeIndex n) s = .ok (n + s) := by
  have hj : (s + (n : ℤ)).toNat < n := by omega
  have hnn : ¬ (s + (n : ℤ) < 0) := by omega
  simp only [pyGet, h2, if_true, rangeIndex_length, hnn, if_false]
  rw [List.getElem?_eq_getElem (by simpa [rangeIndex_length] using hj)]
  simp [Spec.rangeIndex]; omega

theorem validate_int (ti : List ℤ) (s : ℤ) (h : ¬ s.natAbs > ti.length) (p e : Option ℤ) (hpe : p.isSome ≠ e.isSome) :
    validateForecastArgs false ti (.int s) p e none false = .ok () := by
  cases p <;> cases e <;> simp [validateForecastArgs] at hpe ⊢ <;> omega

theorem plan_int (ti : List ℤ) (s : ℤ) (h : ¬ s.natAbs > ti.length) (h0 : ¬ s < 0) (p e : Option ℤ)
    (hpe : p.isSome ≠ e.isSome) (v : Bool) (fi : List ℤ)
    (hfi : (match p, e with
      | some k, _ => some (pyRange s (s + k + 1))
      | none, some e => some (pyRange s e)
      | none, none => none) = some fi) :
    planInt ti (.int s) p e v none none =
      (finishIndex ti none fi).map fun x => (positionOf ti x.1, x.2) := by
  simp only [planInt, bind, Except.bind, Option.isSome_none, validate_int ti s h p e hpe, buildIndexInt, h0, if_false]
  cases p <;> cases e <;> simp only [Option.some.injEq, reduceCtorEq] at hfi
  · subst hfi; simp only; cases finishIndex ti none _ <;> rfl
  · subst hfi; simp only; cases finishIndex ti none _ <;> rfl
  · simp at hpe

/-- **C19.** Index `0..n−1`, non-negative `start = s < n`: `periods = k` gives exactly `s+1, …, s+k`, and the initial
state is taken at position `s`. -/
theorem C19_forecast_periods (n s k : ℕ) (hs : s < n) (v : Bool) :
    planInt (Spec.rangeIndex n) (.int s) (some k) none v none none = .ok (s, Spec.after s k) := by
  have hv : ¬ ((s : ℤ).natAbs > (Spec.rangeIndex n).length) := by rw [rangeIndex_length]; omega
  have hm : (s : ℤ) ∈ Spec.rangeIndex n := (mem_rangeIndex n s).2 (by omega)
  rw [plan_int _ _ hv (by omega) _ _ (by simp) v _ rfl, pyRange_cons, finishIndex_after, if_pos hm]
  simp [Except.map, position_rangeIndex n s hs]

/-- **C19 (negative start).** A negative start counts from the end. -/
theorem C19_forecast_negative_start (n k : ℕ) (s : ℤ) (h1 : -n ≤ s) (h2 : s < 0) (v : Bool) :
    planInt (Spec.rangeIndex n) (.int s) (some k) none v none none =
      .ok ((n + s).toNat, Spec.after (n + s) k) := by
  have hv : ¬ (s.natAbs > (Spec.rangeIndex n).length) := by rw [rangeIndex_length]; omega
  have hm : (n + s : ℤ) ∈ Spec.rangeIndex n := (mem_rangeIndex n _).2 (by omega)
  obtain ⟨m, hmn⟩ : ∃ m : ℕ, (n : ℤ) + s = m := ⟨(n + s).toNat, by omega⟩
  have hp : positionOf (Spec.rangeIndex n) (n + s) = (n + s).toNat := by
    rw [hmn, position_rangeIndex n m (by omega)]; simp
  simp [planInt, validateForecastArgs, hv, buildIndexInt, bind, Except.bind, pyRange_cons, finishIndex_after, hm, h2,
    pyGet_rangeIndex n s h1 h2, hp]

/-- **C19 (default start).** Without a start the last label is used, provided `verbose` is left on; with
`verbose=False` the call fails. -/
theorem C19_forecast_default_start (n k : ℕ) (hn : 0 < n) :
    planInt (Spec.rangeIndex n) .absent (some k) none true none none = .ok (n - 1, Spec.after (n - 1 : ℕ) k) ∧
      planInt (Spec.rangeIndex n) .absent (some k) none false none none = .error .typeError := by
  have hg : pyGet (Spec.rangeIndex n) (-1) = .ok (((n - 1 : ℕ) : ℤ)) := by
    rw [pyGet_rangeIndex n (-1) (by omega) (by omega)]; congr 1; omega
  have hm : ((n - 1 : ℕ) : ℤ) ∈ Spec.rangeIndex n := (mem_rangeIndex n _).2 (by omega)
  have hlt : ¬ (((n - 1 : ℕ) : ℤ) < 0) := by omega
  constructor
  · simp only [planInt, hg, bind, Except.bind, if_true, validateForecastArgs, buildIndexInt, Bool.false_and,
      Option.isNone_some, Option.isSome_some, Option.isSome_none, Option.isNone_none, Bool.false_eq_true, if_false,
      hlt, pyRange_cons, finishIndex_after, hm, position_rangeIndex n (n - 1) (by omega), Bool.and_false, Bool.and_true]
  · simp [planInt, validateForecastArgs, buildIndexInt, bind, Except.bind]

/-- **C19 (rejection).** A start outside `-n .. n−1` is rejected. -/
theorem C19_forecast_start_outside (n k : ℕ) (s : ℤ) (h : s < -n ∨ (n : ℤ) ≤ s) (v : Bool) :
    ∃ e, planInt (Spec.rangeIndex n) (.int s) (some k) none v none none = .error e := by
  by_cases hv : s.natAbs > (Spec.rangeIndex n).length
  · exact ⟨.valueError, by simp [planInt, validateForecastArgs, hv, bind, Except.bind]⟩
  · rw [rangeIndex_length] at hv
    have hsn : s = n := by omega
    have h0 : ¬ (s < 0) := by omega
    have hm : s ∉ Spec.rangeIndex n := fun hm => by have := (mem_rangeIndex n s).1 hm; omega
    have hv' : ¬ (s.natAbs > (Spec.rangeIndex n).length) := by rw [rangeIndex_length]; exact hv
    exact ⟨.valueError, by
      simp [planInt, validateForecastArgs, hv', buildIndexInt, bind, Except.bind, pyRange_cons, finishIndex_after, hm, h0]⟩

/-- **C19 (any index).** Whatever the integer index: a successful call with `periods = k` returns `k` consecutive labels
following a label of the index, and the initial state is taken at the first position of that label. -/
theorem C19_forecast_any_index (ti : List ℤ) (start : Start) (k : ℕ) (v : Bool) (pos : ℕ) (fi : List ℤ)
    (h : planInt ti start (some k) none v none none = .ok (pos, fi)) :
    ∃ t0 ∈ ti, pos = ti.idxOf t0 ∧ fi = Spec.after t0 k ∧ fi.length = k := by
  have core : ∀ st : Start, ∀ x : ℤ × List ℤ, buildIndexInt ti st none (some k) none = .ok x →
      x.1 ∈ ti ∧ x.2 = Spec.after x.1 k := by
    intro st x hx
    have fin : ∀ s : ℤ, finishIndex ti none (pyRange s (s + k + 1)) = .ok x → x.1 ∈ ti ∧ x.2 = Spec.after x.1 k := by
      intro s hs
      rw [pyRange_cons, finishIndex_after] at hs
      split at hs
      · rename_i hm; obtain rfl := Except.ok.inj hs; exact ⟨hm, rfl⟩
      · simp at hs
    have aux : ∀ s : ℤ, (do let s ← (if s < 0 then pyGet ti s else Except.ok s)
                            finishIndex ti none (pyRange s (s + k + 1))) = Except.ok x →
        x.1 ∈ ti ∧ x.2 = Spec.after x.1 k := by
      intro s hs
      split at hs
      · cases hg : pyGet ti s with
        | error e => simp [hg, bind, Except.bind] at hs
        | ok s' => simp only [hg, bind, Except.bind] at hs; exact fin s' hs
      · exact fin s hs
    cases st with
    | absent => simp [buildIndexInt, bind, Except.bind] at hx
    | int s => exact aux s (by by_cases hs : s < 0 <;> simp only [buildIndexInt, hs, if_true, if_false, bind, Except.bind] at hx ⊢ <;> exact hx)
    | label s => exact aux s (by by_cases hs : s < 0 <;> simp only [buildIndexInt, hs, if_true, if_false, bind, Except.bind] at hx ⊢ <;> exact hx)
  have fin2 : ∀ st : Start, (do validateForecastArgs false ti st (some (k : ℤ)) none none (none : Option (List ℤ)).isSome
                                let (t0, fi) ← buildIndexInt ti st none (some k) none
                                Except.ok (positionOf ti t0, fi)) = Except.ok (pos, fi) →
      ∃ t0 ∈ ti, pos = ti.idxOf t0 ∧ fi = Spec.after t0 k ∧ fi.length = k := by
    intro st hst
    cases hv : validateForecastArgs false ti st (some (k : ℤ)) none none (none : Option (List ℤ)).isSome with
    | error e => simp only [hv, bind, Except.bind] at hst; exact absurd hst (by simp)
    | ok u =>
      cases hb : buildIndexInt ti st none (some k) none with
      | error e => simp only [hv, hb, bind, Except.bind] at hst; exact absurd hst (by simp)
      | ok x =>
        simp only [hv, hb, bind, Except.bind, Except.ok.injEq, Prod.mk.injEq] at hst
        obtain ⟨h1, h2⟩ := core st x hb
        exact ⟨x.1, h1, by rw [← hst.1]; rfl, by rw [← hst.2]; exact h2, by rw [← hst.2, h2]; simp [Spec.after]⟩
  cases start with
  | absent =>
    cases v with
    | false => exact fin2 .absent h
    | true =>
      cases hg : pyGet ti (-1) with
      | error e => simp [planInt, hg, bind, Except.bind] at h
      | ok x =>
        refine fin2 (.label x) ?_
        rw [← h]; simp only [planInt, hg, bind, Except.bind, if_true]
  | int s => exact fin2 (.int s) h
  | label s => exact fin2 (.label s) h

/-- **C20.** With an integer index the requested end is *excluded*: `end = e` gives `s+1, …, e−1`. -/
theorem C20_integer_end_exclusive (n s e : ℕ) (hs : s < n) (he : s < e) (v : Bool) :
    planInt (Spec.rangeIndex n) (.int s) none (some e) v none none = .ok (s, Spec.after s (e - s - 1)) ∧
      (e : ℤ) ∉ Spec.after s (e - s - 1) := by
  have hv : ¬ ((s : ℤ).natAbs > (Spec.rangeIndex n).length) := by rw [rangeIndex_length]; omega
  have hm : (s : ℤ) ∈ Spec.rangeIndex n := (mem_rangeIndex n s).2 (by omega)
  have hr : pyRange s e = (s : ℤ) :: Spec.after s (e - s - 1) := by
    rw [← pyRange_cons]; congr 1; omega
  constructor
  · rw [plan_int _ _ hv (by omega) _ _ (by simp) v _ rfl, hr, finishIndex_after, if_pos hm]
    simp [Except.map, position_rangeIndex n s hs]
  · simp only [Spec.after, List.mem_map, List.mem_range, not_exists, not_and]; intro i hi; omega

/-- **C20 (dates).** With a date index the requested end is *included*: `s+1, …, e`. -/
theorem C20_date_end_inclusive (ti : List ℤ) (s e : ℤ) (hs : s ∈ ti) (he : s ≤ e) :
    buildIndexDate ti (.label s) (some e) none false = .ok (s, Spec.after s (e - s).toNat) ∧
      (s < e → e ∈ Spec.after s (e - s).toNat) := by
  have hr : pyRange s (e + 1) = s :: Spec.after s (e - s).toNat := by
    rw [← pyRange_cons]; congr 1; omega
  constructor
  · simp [buildIndexDate, bind, Except.bind, hr, finishIndex_after, hs]
  · intro h
    simp only [Spec.after, List.mem_map, List.mem_range]
    exact ⟨(e - s).toNat - 1, by omega, by omega⟩

/-- An end at or before the start fails. -/
theorem C20_integer_end_before_start (n s : ℕ) (e : ℤ) (he : e ≤ s) (v : Bool) (hs : s ≤ n) :
    planInt (Spec.rangeIndex n) (.int s) none (some e) v none none = .error .indexError := by
  have hv : ¬ ((s : ℤ).natAbs > (Spec.rangeIndex n).length) := by rw [rangeIndex_length]; omega
  rw [plan_int _ _ hv (by omega) _ _ (by simp) v _ rfl, pyRange_empty he]
  rfl

/-- Date index: `periods = k` gives the `k` dates after the start. -/
theorem C20_date_periods (ti : List ℤ) (s : ℤ) (k : ℕ) (hs : s ∈ ti) :
    buildIndexDate ti (.label s) none (some k) false = .ok (s, Spec.after s k) := by
  have hk : ¬ ((k : ℤ) + 1 < 0) := by omega
  simp [buildIndexDate, bind, Except.bind, hk, pyRange_cons, finishIndex_after, hs]

/-- **C79.** With the scenario's index, leaving out both `periods` and `end` is always rejected although both are
documented as ignored; and giving both is rejected too. -/
theorem C79_scenario_index_needs_periods (ti : List ℤ) (start : Start) (v : Bool) (fr : Option Bool) (idx : List ℤ) :
    (∃ e, planInt ti start none none v fr (some idx) = .error e) ∧
      ∀ k e, ∃ er, planInt ti start (some k) (some e) v fr (some idx) = .error er := by
  have hval : ∀ st : Start, validateForecastArgs false ti st none none fr true = .error .valueError := by
    intro st; cases st <;> simp [validateForecastArgs]
  have hval2 : ∀ (st : Start) k e, validateForecastArgs false ti st (some k) (some e) fr true = .error .valueError := by
    intro st k e; cases st <;> simp [validateForecastArgs]
  constructor
  · cases start with
    | absent =>
      cases v with
      | false => exact ⟨.valueError, by simp only [planInt, Bool.false_eq_true, if_false, bind, Except.bind, Option.isSome_some, hval]⟩
      | true =>
        cases hg : pyGet ti (-1) with
        | error e => exact ⟨e, by simp [planInt, hg, bind, Except.bind]⟩
        | ok x => exact ⟨.valueError, by simp only [planInt, hg, if_true, bind, Except.bind, Option.isSome_some, hval]⟩
    | int s => exact ⟨.valueError, by simp only [planInt, bind, Except.bind, Option.isSome_some, hval]⟩
    | label s => exact ⟨.valueError, by simp only [planInt, bind, Except.bind, Option.isSome_some, hval]⟩
  · intro k e
    cases start with
    | absent =>
      cases v with
      | false => exact ⟨.valueError, by simp only [planInt, Bool.false_eq_true, if_false, bind, Except.bind, Option.isSome_some, hval2]⟩
      | true =>
        cases hg : pyGet ti (-1) with
        | error e => exact ⟨e, by simp [planInt, hg, bind, Except.bind]⟩
        | ok x => exact ⟨.valueError, by simp only [planInt, hg, if_true, bind, Except.bind, Option.isSome_some, hval2]⟩
    | int s => exact ⟨.valueError, by simp only [planInt, bind, Except.bind, Option.isSome_some, hval2]⟩
    | label s => exact ⟨.valueError, by simp only [planInt, bind, Except.bind, Option.isSome_some, hval2]⟩

/-- With the scenario's index and `periods` given (any value), the scenario's labels are the forecast labels and the
initial state is the one just before the first of them. -/
theorem C79_scenario_index_used (ti : List ℤ) (x : ℤ) (rest : List ℤ) (hx : x - 1 ∈ ti) (hn : x - 1 ∉ x :: rest)
    (s : ℤ) (hs : s.natAbs ≤ ti.length) (k : ℤ) (v : Bool) :
    planInt ti (.int s) (some k) none v (some true) (some (x :: rest)) = .ok (ti.idxOf (x - 1), x :: rest) := by
  have hv : ¬ (s.natAbs > ti.length) := by omega
  have hn' : ¬ (x - 1 = x ∨ x - 1 ∈ rest) := by simpa using hn
  simp only [planInt, bind, Except.bind, validateForecastArgs, hv, decide_false, Bool.false_eq_true, if_false,
    Option.isNone_some, Option.isSome_some, Option.isSome_none, Option.isNone_none, Bool.and_false, Bool.false_and,
    Bool.true_and, buildIndexInt, finishIndex, List.mem_cons, hn', hx, not_true_eq_false, positionOf]
  rfl

/-- **C80.** On an integer index whose labels do not start at zero, a start that *is* a label of the index is rejected
when it exceeds the number of observations. -/
theorem C80_label_start_rejected (ti : List ℤ) (s : ℤ) (h : s.natAbs > ti.length) (k : ℤ) (v : Bool) :
    planInt ti (.int s) (some k) none v none none = .error .valueError := by
  simp [planInt, validateForecastArgs, h, bind, Except.bind]

/-- Witness: labels `100, …, 104`, start `102`. -/
example : (102 : ℤ) ∈ [100, 101, 102, 103, 104] ∧
    planInt [100, 101, 102, 103, 104] (.int 102) (some 3) none true none none = .error .valueError ∧
    planInt [100, 101, 102, 103, 104] .absent (some 3) none true none none = .ok (4, [105, 106, 107]) := by
  refine ⟨by simp, C80_label_start_rejected _ _ (by simp) _ _, by decide⟩

/-! ### Scenario data -/

/-- **C82.** A data frame with the right set of columns in a different order is accepted and handed on with its columns
in the *given* order: they are never re-ordered, although the values are later used by position. -/
theorem C82_columns_never_reordered {V : Type} (expected cols : List String) (rows : List (List V))
    (h : ∀ c, c ∈ expected ↔ c ∈ cols) :
    validateOne expected (.frame cols rows) = .ok (.frame cols rows) := by
  have h1 : expected.filter (fun c => c ∉ cols) = [] := by
    rw [List.filter_eq_nil_iff]; intro c hc; simp [(h c).1 hc]
  have h2 : cols.filter (fun c => c ∉ expected) = [] := by
    rw [List.filter_eq_nil_iff]; intro c hc; simp [(h c).2 hc]
  simp only [validateOne]
  rw [if_neg (by rw [h1]; simp), if_neg (by rw [h2]; simp)]
  simp

/-- Witness: two swapped columns are accepted unchanged. -/
example : validateOne ["price", "promo"] (.frame ["promo", "price"] [[(1 : ℕ), 2]]) =
    .ok (.frame ["promo", "price"] [[1, 2]]) := C82_columns_never_reordered _ _ _ (by simp; tauto)

/-- **C82 (rejection).** Missing or extra columns, and a wrong number of columns, are rejected. -/
theorem C82_wrong_columns_rejected {V : Type} (expected cols : List String) (rows : List (List V))
    (h : ¬ ∀ c, c ∈ expected ↔ c ∈ cols) :
    validateOne expected (.frame cols rows) = .error .valueError := by
  simp only [validateOne]
  split
  · rfl
  · rename_i h1
    split
    · rfl
    · rename_i h2
      exfalso; apply h
      have e1 : expected.filter (fun c => decide (c ∉ cols)) = [] := by
        exact List.eq_nil_of_length_eq_zero (by omega)
      have e2 : cols.filter (fun c => decide (c ∉ expected)) = [] := by
        exact List.eq_nil_of_length_eq_zero (by omega)
      rw [List.filter_eq_nil_iff] at e1 e2
      exact fun c => ⟨fun hc => by simpa using e1 c hc, fun hc => by simpa using e2 c hc⟩

theorem C82_wrong_width_rejected {V : Type} (expected : List String) (m : ℕ) (rows : List (List V)) :
    validateOne expected (.array m rows) = (if m = expected.length then .ok (.array m rows) else .error .valueError) := by
  by_cases h : m = expected.length <;> simp [validateOne, h]

/-- **C82** A series (a single column) is accepted exactly when at most one column is expected, and then unchanged. -/
theorem C82_series {V : Type} (expected : List String) (rows : List (List V)) :
    (expected.length ≤ 1 → validateOne expected (.series rows) = .ok (.series rows)) ∧
    (1 < expected.length → validateOne expected (.series rows) = .error .valueError) := by
  constructor
  · intro h; simp only [validateOne]; rw [if_neg (by omega)]
  · intro h; simp only [validateOne]; rw [if_pos h]

example : validateOne ["price", "promo"] (.series [[(1 : ℕ)]]) = .error .valueError :=
  (C82_series _ _).2 (by simp)

theorem mapM_ok {V : Type} (exog : List (String × List String)) (sc out : List (String × Scenario V))
    (h : sc.mapM (validateEntry exog) = .ok out) :
    out.map Prod.fst = sc.map Prod.fst ∧ ∀ x ∈ sc, ∃ e, exog.lookup x.1 = some e := by
  induction sc generalizing out with
  | nil => simp [pure, Except.pure] at h; subst h; simp
  | cons x rest ih =>
    rw [List.mapM_cons] at h
    cases hv : validateEntry exog x with
    | error er => simp [hv, bind, Except.bind] at h
    | ok s' =>
      cases hr : rest.mapM (validateEntry exog) with
      | error er => simp [hv, hr, bind, Except.bind] at h
      | ok v =>
        simp only [hv, hr, bind, Except.bind, pure, Except.pure, Except.ok.injEq] at h
        obtain ⟨i1, i2⟩ := ih v hr
        subst h
        rw [validateEntry] at hv
        cases hl : exog.lookup x.1 with
        | none => simp [hl] at hv
        | some e =>
          have hs : s'.1 = x.1 := by
            simp only [hl] at hv
            cases hq : validateOne e x.2 with
            | error er => simp [hq, Except.map] at hv
            | ok q => simp only [hq, Except.map, Except.ok.injEq] at hv; rw [← hv]
          refine ⟨by simp [i1, hs], ?_⟩
          intro y hy
          rcases List.mem_cons.1 hy with rfl | hy
          · exact ⟨e, hl⟩
          · exact i2 y hy

/-- **C83.** What an accepted scenario dictionary guarantees: every key is an exogenous variable of the model and all
entries have the same number of time steps. -/
theorem C83_accepted_dict {V : Type} (exog : List (String × List String)) (sc out : List (String × Scenario V))
    (h : validateDict exog sc = .ok out) :
    out.map Prod.fst = sc.map Prod.fst ∧ (∀ x ∈ sc, ∃ e, exog.lookup x.1 = some e) ∧
      ∃ k, ∀ x ∈ out, (∀ cols rows, x.2 = .frame cols rows → rows.length = k) ∧ (∀ rows, x.2 = .series rows → rows.length = k) ∧
        ∀ w rows, x.2 = .array w rows → rows.length = k := by
  simp only [validateDict] at h
  cases hm : sc.mapM (validateEntry exog) with
  | error e => simp [hm, bind, Except.bind] at h
  | ok v =>
    obtain ⟨h1, h2⟩ := mapM_ok exog sc v hm
    simp only [hm, bind, Except.bind] at h
    cases v with
    | nil => simp at h
    | cons first rest =>
      simp only at h
      split at h
      · rename_i hall
        obtain rfl := Except.ok.inj h
        refine ⟨h1, h2, first.2.steps, fun x hx => ?_⟩
        rw [List.all_eq_true] at hall
        have a := hall x hx
        simp only [beq_iff_eq] at a
        rw [← a]
        exact ⟨fun _ _ e => by rw [e]; rfl, fun _ e => by rw [e]; rfl, fun _ _ e => by rw [e]; rfl⟩
      · simp at h

/-- **C83 (gap).** It does *not* guarantee that every exogenous variable of the model is present: with two exogenous
variables, a dictionary for only the first is accepted. -/
theorem C83_missing_variable_accepted {V : Type} (a b : String) (ca cb : List String) (rows : List (List V)) :
    validateDict [(a, ca), (b, cb)] [(a, .frame ca rows)] = .ok [(a, .frame ca rows)] := by
  have : validateEntry [(a, ca), (b, cb)] (a, Scenario.frame ca rows) = .ok (a, .frame ca rows) := by
    simp [validateEntry, C82_columns_never_reordered, Except.map]
  simp [validateDict, this, bind, Except.bind, pure, Except.pure]

end Verif.Forecast
