import Verif.Hist.Props
import Mathlib.Data.List.GetD
import Mathlib.Tactic.FieldSimp
import Mathlib.Tactic.Positivity
import Mathlib.Algebra.Order.Floor.Semiring

/-!
# Properties of the histogram approximation for continuous data
-/

set_option autoImplicit false

namespace Verif.Hist

open scoped Classical

/-! ### Quantiles -/

/-- pymc_extras/distributions/histogram_utils.py:45 -/
theorem entry_mono (s : List ℝ) (hs : s.Pairwise (· ≤ ·)) (hne : s ≠ []) {i j : ℕ} (h : i ≤ j) :
    entry s i ≤ entry s j := by
  have hl : 0 < s.length := List.length_pos_of_ne_nil hne
  unfold entry
  have h1 : min i (s.length - 1) < s.length := by omega
  have h2 : min j (s.length - 1) < s.length := by omega
  rw [List.getD_eq_getElem _ _ h1, List.getD_eq_getElem _ _ h2]
  rcases Nat.lt_or_ge (min i (s.length - 1)) (min j (s.length - 1)) with h3 | h3
  · exact List.pairwise_iff_getElem.1 hs _ _ h1 h2 h3
  · have : min i (s.length - 1) = min j (s.length - 1) := by omega
    simp [this]

/-- pymc_extras/distributions/histogram_utils.py:45 -/
theorem interp_between (s : List ℝ) (hs : s.Pairwise (· ≤ ·)) (hne : s ≠ []) {h : ℝ} (h0 : 0 ≤ h) :
    entry s ⌊h⌋₊ ≤ interp s h ∧ interp s h ≤ entry s (⌊h⌋₊ + 1) := by
  have h1 : (⌊h⌋₊ : ℝ) ≤ h := Nat.floor_le h0
  have h2 : h < ⌊h⌋₊ + 1 := Nat.lt_floor_add_one h
  have h3 : entry s ⌊h⌋₊ ≤ entry s (⌊h⌋₊ + 1) := entry_mono s hs hne (by omega)
  unfold interp
  constructor
  · have := mul_nonneg (sub_nonneg.2 h1) (sub_nonneg.2 h3)
    linarith
  · have := mul_le_mul_of_nonneg_right (show h - ⌊h⌋₊ ≤ 1 by linarith) (sub_nonneg.2 h3)
    linarith

/-- pymc_extras/distributions/histogram_utils.py:45 -/
theorem interp_mono (s : List ℝ) (hs : s.Pairwise (· ≤ ·)) (hne : s ≠ []) {h k : ℝ} (h0 : 0 ≤ h) (hk : h ≤ k) :
    interp s h ≤ interp s k := by
  have hf : ⌊h⌋₊ ≤ ⌊k⌋₊ := Nat.floor_mono hk
  rcases Nat.lt_or_ge ⌊h⌋₊ ⌊k⌋₊ with hlt | hge
  · exact (interp_between s hs hne h0).2.trans ((entry_mono s hs hne (by omega)).trans
      (interp_between s hs hne (h0.trans hk)).1)
  · have he : ⌊h⌋₊ = ⌊k⌋₊ := le_antisymm hf hge
    have h3 : entry s ⌊h⌋₊ ≤ entry s (⌊h⌋₊ + 1) := entry_mono s hs hne (by omega)
    unfold interp
    rw [← he]
    have := mul_le_mul_of_nonneg_right (show h - ⌊h⌋₊ ≤ k - ⌊h⌋₊ by linarith) (sub_nonneg.2 h3)
    linarith

/-- pymc_extras/distributions/histogram_utils.py:45 -/
theorem interp_nat (s : List ℝ) (i : ℕ) : interp s i = entry s i := by simp [interp]

/-- Sorted sample of the data. pymc_extras/distributions/histogram_utils.py:45 -/
theorem mergeSort_sorted (l : List ℝ) : (l.mergeSort fun a b => decide (a ≤ b)).Pairwise (· ≤ ·) := by
  have := List.pairwise_mergeSort (le := fun a b : ℝ => decide (a ≤ b))
    (fun a b c h1 h2 => by simp only [decide_eq_true_eq] at *; exact h1.trans h2)
    (fun a b => by simp only [Bool.or_eq_true, decide_eq_true_eq]; exact le_total a b) l
  simpa using this

/-- What the quantiles of a non-empty sample are: `n` numbers in nondecreasing order, the first the smallest and the last
the largest data point. pymc_extras/distributions/histogram_utils.py:45 -/
theorem quantiles_spec (qdata : List ℝ) (n : ℕ) (hn : 2 ≤ n) (q : List ℝ) (h : quantiles qdata n = .ok q) :
    q.length = n ∧ q.Pairwise (· ≤ ·) ∧
      (∃ lo, q.head? = some lo ∧ lo ∈ qdata ∧ ∀ x ∈ qdata, lo ≤ x) ∧
      (∃ hi, q.getLast? = some hi ∧ hi ∈ qdata ∧ ∀ x ∈ qdata, x ≤ hi) := by
  unfold quantiles at h
  by_cases he : qdata = []
  · simp [he] at h
  rw [if_neg he] at h
  simp only [Except.ok.injEq] at h
  set s := qdata.mergeSort fun a b => decide (a ≤ b) with hsdef
  have hs : s.Pairwise (· ≤ ·) := mergeSort_sorted qdata
  have hperm : s.Perm qdata := List.mergeSort_perm _ _
  have hlen : s.length = qdata.length := hperm.length_eq
  have hpos : 0 < qdata.length := List.length_pos_of_ne_nil he
  have hne : s ≠ [] := by intro hh; rw [hh] at hlen; simp at hlen; omega
  have hn1 : (0 : ℝ) < (n : ℝ) - 1 := by
    have : (2 : ℝ) ≤ n := by exact_mod_cast hn
    linarith
  have hN : (0 : ℝ) ≤ (qdata.length : ℝ) - 1 := by
    have : (1 : ℝ) ≤ qdata.length := by exact_mod_cast hpos
    linarith
  have hbound : ∀ i : ℕ, entry s i ∈ qdata := by
    intro i
    unfold entry
    rw [List.getD_eq_getElem _ _ (by omega)]
    exact hperm.mem_iff.1 (List.getElem_mem _)
  have hrange : ∀ x ∈ qdata, entry s 0 ≤ x ∧ x ≤ entry s (s.length - 1) := by
    intro x hx
    obtain ⟨i, hi, rfl⟩ := List.mem_iff_getElem.1 (hperm.mem_iff.2 hx)
    have : s[i] = entry s i := by
      unfold entry
      rw [List.getD_eq_getElem _ _ (by omega)]
      congr 1; omega
    rw [this]
    exact ⟨entry_mono s hs hne (by omega), entry_mono s hs hne (by omega)⟩
  subst h
  refine ⟨by simp, ?_, ⟨entry s 0, ?_, hbound 0, fun x hx => (hrange x hx).1⟩,
    ⟨entry s (s.length - 1), ?_, hbound _, fun x hx => (hrange x hx).2⟩⟩
  · rw [List.pairwise_map]
    refine List.Pairwise.imp (R := (· < ·)) ?_ List.pairwise_lt_range
    intro a b hab
    refine interp_mono s hs hne (mul_nonneg hN (div_nonneg (Nat.cast_nonneg _) hn1.le)) ?_
    refine mul_le_mul_of_nonneg_left ?_ hN
    exact div_le_div_of_nonneg_right (by exact_mod_cast hab.le) hn1.le
  · obtain ⟨m, rfl⟩ : ∃ m, n = m + 1 := ⟨n - 1, by omega⟩
    rw [List.range_succ_eq_map]
    simp only [List.map_cons, List.head?_cons, Nat.cast_zero, zero_div, mul_zero]
    rw [show (0 : ℝ) = ((0 : ℕ) : ℝ) by simp, interp_nat]
  · obtain ⟨m, rfl⟩ : ∃ m, n = m + 1 := ⟨n - 1, by omega⟩
    rw [List.range_succ]
    simp only [List.map_append, List.map_cons, List.map_nil, List.getLast?_append, List.getLast?_singleton,
      Option.or_some, Option.getD_some]
    simp only [Option.or, Option.some.injEq]
    have : ((qdata.length : ℝ) - 1) * ((m : ℝ) / (((m + 1 : ℕ) : ℝ) - 1)) = ((s.length - 1 : ℕ) : ℝ) := by
      rw [Nat.cast_sub (by omega), hlen]
      have hm : (m : ℝ) ≠ 0 := by
        have : 1 ≤ m := by omega
        positivity
      push_cast
      rw [show (m : ℝ) + 1 - 1 = m by ring, div_self hm, mul_one]
    rw [this, interp_nat]

/-! ### Totals -/

/-- The bins of a nondecreasing sequence of edges count every point between its ends once.
pymc_extras/distributions/histogram_utils.py:48 -/
theorem counts_sum {α : Type} [LinearOrder α] (data : List α) : ∀ (e : List α) (lo hi : α), 2 ≤ e.length →
    e.Pairwise (· ≤ ·) → e.head? = some lo → e.getLast? = some hi →
      (counts e data).sum = data.countP fun x => decide (lo ≤ x ∧ x ≤ hi)
  | [], _, _ => by simp
  | [_], _, _ => by simp
  | [a, b], lo, hi => by
    intro _ _ h1 h2
    simp only [List.head?_cons, Option.some.injEq, List.getLast?_cons_cons, List.getLast?_singleton] at h1 h2
    subst h1; subst h2
    simp [counts]
  | a :: b :: c :: rest, lo, hi => by
    intro _ hs h1 h2
    have hs' := List.pairwise_cons.1 hs
    have ih := counts_sum data (b :: c :: rest) b hi (by simp) hs'.2 rfl (by simpa using h2)
    simp only [List.head?_cons, Option.some.injEq] at h1
    subst h1
    have hab : a ≤ b := hs'.1 b (by simp)
    have hbhi : b ≤ hi := by
      have hmem : hi ∈ c :: rest := by
        refine List.mem_of_getLast? ?_
        simpa using h2
      exact (List.pairwise_cons.1 hs'.2).1 hi hmem
    simp only [counts, List.sum_cons]
    rw [ih]
    clear ih
    induction data with
    | nil => rfl
    | cons x data ih' =>
      simp only [List.countP_cons, decide_eq_true_eq]
      have : (if a ≤ x ∧ x < b then 1 else 0) + (if b ≤ x ∧ x ≤ hi then 1 else 0) =
          (if a ≤ x ∧ x ≤ hi then 1 else (0 : ℕ)) := by
        by_cases h3 : x < b
        · have e2 : ¬ b ≤ x := not_le.2 h3
          by_cases h4 : a ≤ x
          · simp [h3, h4, e2, (h3.le.trans hbhi)]
          · simp [h4, e2]
        · have e2 : b ≤ x := not_lt.1 h3
          by_cases h4 : x ≤ hi
          · simp [h3, h4, e2, hab.trans e2]
          · simp [h3, h4]
      omega

/-! ### Properties -/

/-- Without zero inflation: `n_quantiles - 1` bins (not `n_quantiles`), whose counts in every column add up to the number of
data points of the column. pymc_extras/distributions/histogram_utils.py:42-51 -/
theorem C132_total (cols : List (List ℝ)) (n : ℕ) (hn : 2 ≤ n) (lower upper : List ℝ) (cnt : List (List ℕ))
    (h : quantileHistogram cols n false = .ok (lower, upper, cnt)) :
    lower.length = n - 1 ∧ upper.length = n - 1 ∧ cnt.length = cols.length ∧
      ∀ c col, cols[c]? = some col → (cnt.getD c []).length = n - 1 ∧ (cnt.getD c []).sum = col.length := by
  unfold quantileHistogram at h
  simp only [bind, Except.bind, Bool.false_eq_true, ↓reduceIte] at h
  cases hq : quantiles cols.flatten n with
  | error e => rw [hq] at h; cases h
  | ok q =>
    rw [hq] at h
    simp only [Except.ok.injEq, Prod.mk.injEq] at h
    obtain ⟨rfl, rfl, rfl⟩ := h
    obtain ⟨h1, h2, ⟨lo, h3, _, h4⟩, ⟨hi, h5, _, h6⟩⟩ := quantiles_spec _ n hn q hq
    refine ⟨by simp [h1], by simp [h1], by simp, fun c col hc => ?_⟩
    rw [show (cols.map fun c => counts q c).getD c [] = counts q col by simp [List.getD, hc]]
    refine ⟨by rw [counts_length, h1], ?_⟩
    rw [counts_sum col q lo hi (by omega) h2 h3 h5, List.countP_eq_length]
    intro x hx
    have hmem : x ∈ cols.flatten := List.mem_flatten.2 ⟨col, List.mem_of_getElem? hc, hx⟩
    simpa using ⟨h4 x hmem, h6 x hmem⟩

/-- Every bin counts the data points of the column between its own edges (the last bin includes its upper edge), the edges
follow one another and do not decrease, the first is the smallest and the last the largest data point.
pymc_extras/distributions/histogram_utils.py:42-51 -/
theorem C132_bins (cols : List (List ℝ)) (n : ℕ) (hn : 2 ≤ n) (lower upper : List ℝ) (cnt : List (List ℕ))
    (h : quantileHistogram cols n false = .ok (lower, upper, cnt)) :
    (∀ (c j : ℕ) (col : List ℝ) (a b : ℝ), cols[c]? = some col → lower[j]? = some a → upper[j]? = some b →
      a ≤ b ∧ (cnt.getD c [])[j]? = some (col.countP fun x => decide (a ≤ x ∧ if j + 2 = n then x ≤ b else x < b))) ∧
    (∀ (j : ℕ) (a b : ℝ), lower[j + 1]? = some a → upper[j]? = some b → a = b) ∧
    (∃ lo, lower.head? = some lo ∧ lo ∈ cols.flatten ∧ ∀ x ∈ cols.flatten, lo ≤ x) ∧
    (∃ hi, upper.getLast? = some hi ∧ hi ∈ cols.flatten ∧ ∀ x ∈ cols.flatten, x ≤ hi) := by
  unfold quantileHistogram at h
  simp only [bind, Except.bind, Bool.false_eq_true, ↓reduceIte] at h
  cases hq : quantiles cols.flatten n with
  | error e => rw [hq] at h; cases h
  | ok q =>
    rw [hq] at h
    simp only [Except.ok.injEq, Prod.mk.injEq] at h
    obtain ⟨rfl, rfl, rfl⟩ := h
    obtain ⟨h1, h2, ⟨lo, h3, hl, h4⟩, ⟨hi, h5, hh, h6⟩⟩ := quantiles_spec _ n hn q hq
    have low : ∀ (j : ℕ) (a : ℝ), q.dropLast[j]? = some a → q[j]? = some a := by
      intro j a ha
      obtain ⟨hj, rfl⟩ := List.getElem?_eq_some_iff.mp ha
      rw [List.getElem_dropLast]
      exact List.getElem?_eq_getElem _
    refine ⟨?_, ?_, ⟨lo, ?_, hl, h4⟩, ⟨hi, ?_, hh, h6⟩⟩
    · intro c j col a b hc ha hb
      rw [List.getElem?_tail] at hb
      have ha' := low j a ha
      refine ⟨?_, ?_⟩
      · obtain ⟨hj, rfl⟩ := List.getElem?_eq_some_iff.mp ha'
        obtain ⟨hj', rfl⟩ := List.getElem?_eq_some_iff.mp hb
        exact List.pairwise_iff_getElem.mp h2 j (j + 1) hj hj' (by omega)
      · rw [show (cols.map fun c => counts q c).getD c [] = counts q col by simp [List.getD, hc],
          counts_get col q j a b ha' hb, h1]
    · intro j a b ha hb
      rw [List.getElem?_tail] at hb
      have := low _ a ha
      rw [this] at hb
      exact Option.some.inj hb
    · match q, h1, h3 with
      | x :: y :: q, _, h3 => simpa using h3
      | [x], h1, _ => simp at h1; omega
      | [], h1, _ => simp at h1; omega
    · match q, h1, h5 with
      | x :: y :: q, _, h5 => simpa using h5
      | [x], h1, _ => simp at h1; omega
      | [], h1, _ => simp at h1; omega

/-- With zero inflation there is one more bin, at zero, which counts the zeros of the column; the counts of a column add up
to the number of its data points that are not negative. pymc_extras/distributions/histogram_utils.py:38-41, 53-56 -/
theorem C132_zero_inflation (cols : List (List ℝ)) (n : ℕ) (hn : 2 ≤ n) (lower upper : List ℝ) (cnt : List (List ℕ))
    (h : quantileHistogram cols n true = .ok (lower, upper, cnt)) :
    lower.length = n ∧ upper.length = n ∧ lower.head? = some 0 ∧ upper.head? = some 0 ∧
      ∀ c col, cols[c]? = some col →
        (cnt.getD c []).head? = some (col.countP fun v => decide (v = 0)) ∧
        (cnt.getD c []).sum = col.countP fun v => decide (0 ≤ v) := by
  unfold quantileHistogram at h
  simp only [bind, Except.bind, ↓reduceIte] at h
  cases hq : quantiles (cols.flatten.filter fun x => decide (0 < x)) n with
  | error e => rw [hq] at h; cases h
  | ok q =>
    rw [hq] at h
    simp only [Except.ok.injEq, Prod.mk.injEq] at h
    obtain ⟨rfl, rfl, rfl⟩ := h
    obtain ⟨h1, h2, ⟨lo, h3, hlo, h4⟩, ⟨hi, h5, _, h6⟩⟩ := quantiles_spec _ n hn q hq
    have hlo0 : 0 < lo := by simpa using (List.mem_filter.1 hlo).2
    refine ⟨by simp [h1]; omega, by simp [h1]; omega, rfl, rfl, fun c col hc => ?_⟩
    have hz : ((cols.zip (cols.map fun c => counts q c)).map fun x =>
        x.1.countP (fun v => decide (v = 0)) :: x.2).getD c [] =
        col.countP (fun v => decide (v = 0)) :: counts q col := by
      simp [List.getD, List.getElem?_map, List.zip, List.getElem?_zipWith, hc]
    rw [hz]
    refine ⟨rfl, ?_⟩
    rw [List.sum_cons, counts_sum col q lo hi (by omega) h2 h3 h5]
    have hmem : ∀ x ∈ col, x ∈ cols.flatten := fun x hx => List.mem_flatten.2 ⟨col, List.mem_of_getElem? hc, hx⟩
    clear hz hc
    induction col with
    | nil => rfl
    | cons x col ih =>
      have ih' := ih fun y hy => hmem y (by simp [hy])
      simp only [List.countP_cons, decide_eq_true_eq]
      have : (if x = 0 then 1 else 0) + (if lo ≤ x ∧ x ≤ hi then 1 else 0) = (if 0 ≤ x then 1 else (0 : ℕ)) := by
        rcases lt_trichotomy x 0 with hx | hx | hx
        · have e1 : ¬ lo ≤ x := not_le.2 (hx.trans hlo0)
          simp [hx.ne, e1, not_le.2 hx]
        · have e1 : ¬ lo ≤ x := by rw [hx]; exact not_le.2 hlo0
          simp [hx, hlo0.not_ge]
        · have hq' : x ∈ cols.flatten.filter fun x => decide (0 < x) := by
            simp only [List.mem_filter, decide_eq_true_eq]
            exact ⟨hmem x (by simp), hx⟩
          simp [hx.ne', hx.le, h4 x hq', h6 x hq']
      omega

/-- The function raises exactly when there are no data to take quantiles of: no data at all, or no positive data with zero
inflation. pymc_extras/distributions/histogram_utils.py:38-45 -/
theorem C132_raises_iff (cols : List (List ℝ)) (n : ℕ) (z : Bool) :
    quantileHistogram cols n z = .error .indexError ↔ ∀ x ∈ cols.flatten, z = true ∧ x ≤ 0 := by
  unfold quantileHistogram quantiles
  cases z
  · simp only [bind, Except.bind, Bool.false_eq_true, ↓reduceIte, false_and, imp_false]
    by_cases h : cols.flatten = []
    · simp [h]
    · simp only [h, ↓reduceIte, reduceCtorEq, false_iff]
      intro hh
      exact h (List.eq_nil_iff_forall_not_mem.2 hh)
  · simp only [bind, Except.bind, ↓reduceIte, true_and]
    by_cases h : cols.flatten.filter (fun x => decide (0 < x)) = []
    · simp only [h, ↓reduceIte, true_iff]
      intro x hx
      have := List.filter_eq_nil_iff.1 h x hx
      simpa using this
    · simp only [h, ↓reduceIte, reduceCtorEq, false_iff]
      intro hh
      refine h (List.filter_eq_nil_iff.2 fun x hx => ?_)
      simpa using hh x hx

/-- Integer observations use the exact histogram and refuse the arguments of the other, and conversely; in particular
`min_count` cannot be used with floating-point observations of counts.
pymc_extras/distributions/histogram_utils.py:157-160 -/
theorem C132_dispatch (isInteger : Bool) (kwargs : List String) :
    (dispatch isInteger kwargs = .ok true ↔ isInteger = true ∧ ∀ k ∈ kwargs, k = "min_count") ∧
    (dispatch isInteger kwargs = .ok false ↔
      isInteger = false ∧ ∀ k ∈ kwargs, k = "n_quantiles" ∨ k = "zero_inflation") := by
  unfold dispatch acceptedKwargs
  cases isInteger
  · by_cases h : kwargs.all (fun k => decide (k ∈ ["n_quantiles", "zero_inflation"])) = true
    · simp only [Bool.false_eq_true, ↓reduceIte, h]
      simp only [List.all_eq_true, decide_eq_true_eq, List.mem_cons, List.not_mem_nil, or_false] at h
      simpa using h
    · simp only [Bool.false_eq_true, ↓reduceIte, h, reduceCtorEq, false_and, true_and, false_iff, iff_self]
      intro hh
      refine h ?_
      simp only [List.all_eq_true, decide_eq_true_eq, List.mem_cons, List.not_mem_nil, or_false]
      exact hh
  · by_cases h : kwargs.all (fun k => decide (k ∈ ["min_count"])) = true
    · simp only [↓reduceIte, h]
      simp only [List.all_eq_true, decide_eq_true_eq, List.mem_cons, List.not_mem_nil, or_false] at h
      simpa using h
    · simp only [↓reduceIte, h, Bool.false_eq_true, reduceCtorEq, false_and, true_and, false_iff, iff_self, and_true]
      intro hh
      refine h ?_
      simp only [List.all_eq_true, decide_eq_true_eq, List.mem_cons, List.not_mem_nil, or_false]
      exact hh

/-- Positive data admit a histogram in both modes. pymc_extras/distributions/histogram_utils.py:24-66 -/
example : (∃ r, quantileHistogram [[0, 1, 2], [3, 0, 0]] 3 true = .ok r) ∧
    (∃ r, quantileHistogram [[0, 1, 2], [3, 0, 0]] 3 false = .ok r) := by
  constructor
  · cases h : quantileHistogram [[0, 1, 2], [3, 0, 0]] 3 true with
    | ok r => exact ⟨r, rfl⟩
    | error e =>
      exfalso
      have he : e = .indexError := by
        unfold quantileHistogram quantiles at h
        simp only [bind, Except.bind, ↓reduceIte] at h
        split at h
        · rename_i g; split at g <;> simp_all
        · cases h
      subst he
      rw [C132_raises_iff] at h
      have := (h 1 (by simp)).2
      norm_num at this
  · cases h : quantileHistogram [[0, 1, 2], [3, 0, 0]] 3 false with
    | ok r => exact ⟨r, rfl⟩
    | error e =>
      exfalso
      have he : e = .indexError := by
        unfold quantileHistogram quantiles at h
        simp only [bind, Except.bind, Bool.false_eq_true, ↓reduceIte] at h
        split at h
        · rename_i g; split at g <;> simp_all
        · cases h
      subst he
      rw [C132_raises_iff] at h
      have := (h 1 (by simp)).1
      cases this

end Verif.Hist
