import Verif.Hist.Model
import Mathlib.Algebra.BigOperators.Group.List.Basic
import Mathlib.Data.List.Count
import Mathlib.Tactic.Linarith
import Mathlib.Tactic.Ring
import Mathlib.Tactic.NormNum

/-!
# Properties of the histogram approximation for integer data
-/

set_option autoImplicit false

namespace Verif.Hist

open scoped Classical

/-! ### Specification -/

/-- The largest of the retained values that does not exceed `x`. pymc_extras/distributions/histogram_utils.py:82-86 -/
def IsFloor (mid : List ℤ) (x m : ℤ) : Prop := m ∈ mid ∧ m ≤ x ∧ ∀ m' ∈ mid, m' ≤ x → m' ≤ m

/-! ### Lemmas -/

/-- pymc_extras/distributions/histogram_utils.py:89 -/
theorem counts_length {α : Type} [LinearOrder α] (data : List α) : ∀ (e : List α), (counts e data).length = e.length - 1
  | [] => rfl
  | [_] => rfl
  | [_, _] => rfl
  | _ :: b :: c :: rest => by
    have := counts_length data (b :: c :: rest)
    simp only [counts, List.length_cons] at this ⊢
    omega

/-- Bin `j`. pymc_extras/distributions/histogram_utils.py:48, 89 -/
theorem counts_get {α : Type} [LinearOrder α] (data : List α) : ∀ (e : List α) (j : ℕ) (a b : α),
    e[j]? = some a → e[j + 1]? = some b →
      (counts e data)[j]? = some (data.countP fun x =>
        decide (a ≤ x ∧ if j + 2 = e.length then x ≤ b else x < b))
  | [], j, a, b => by simp
  | [_], j, a, b => by simp
  | [u, v], j, a, b => by
    intro h1 h2
    cases j with
    | zero =>
      simp only [List.getElem?_cons_zero, Option.some.injEq, Nat.zero_add, List.getElem?_cons_succ] at h1 h2
      subst h1; subst h2
      simp [counts]
    | succ j => simp at h2
  | u :: v :: w :: rest, j, a, b => by
    intro h1 h2
    cases j with
    | zero =>
      simp only [List.getElem?_cons_zero, Option.some.injEq, Nat.zero_add, List.getElem?_cons_succ] at h1 h2
      subst h1; subst h2
      have : ¬ 2 = (u :: v :: w :: rest).length := by simp
      simp [counts]
    | succ j =>
      have := counts_get data (v :: w :: rest) j a b (by simpa using h1) (by simpa using h2)
      have he : (j + 1 + 2 = (u :: v :: w :: rest).length) ↔ (j + 2 = (v :: w :: rest).length) := by
        simp only [List.length_cons]; omega
      simp only [counts, List.getElem?_cons_succ, he]
      exact this

/-- pymc_extras/distributions/histogram_utils.py:82 -/
theorem uniq_sorted (data : List ℤ) : (uniq data).Pairwise (· < ·) := Finset.sortedLT_sort _ |>.pairwise

/-- pymc_extras/distributions/histogram_utils.py:82 -/
theorem mem_uniq (data : List ℤ) (x : ℤ) : x ∈ uniq data ↔ x ∈ data := by simp [uniq]

/-- pymc_extras/distributions/histogram_utils.py:82-84 -/
theorem mids_sorted (data : List ℤ) (mc : Option ℕ) : (mids data mc).Pairwise (· < ·) := by
  cases mc with
  | none => exact uniq_sorted data
  | some k => exact (uniq_sorted data).filter _

/-- pymc_extras/distributions/histogram_utils.py:82-84 -/
theorem mem_mids (data : List ℤ) (mc : Option ℕ) (x : ℤ) :
    x ∈ mids data mc ↔ x ∈ data ∧ ∀ k, mc = some k → k ≤ data.count x := by
  cases mc with
  | none => simp [mids, mem_uniq]
  | some k => simp [mids, mem_uniq, List.mem_filter]

/-- pymc_extras/distributions/histogram_utils.py:86 -/
theorem bins_eq (mid : List ℤ) (hs : mid.Pairwise (· < ·)) (hne : mid ≠ []) :
    bins mid = .ok (mid ++ [mid.getLast hne + 1]) := by
  have : mid.max? = some (mid.getLast hne) := by
    rw [List.max?_eq_some_iff]
    refine ⟨List.getLast_mem hne, fun b hb => ?_⟩
    rw [← List.dropLast_append_getLast hne] at hb hs
    rcases List.mem_append.1 hb with h | h
    · exact le_of_lt ((List.pairwise_append.1 hs).2.2 b h _ (by simp))
    · simp at h; exact le_of_eq h
  simp [bins, this]

/-- The value a data point is counted at, if any. pymc_extras/distributions/histogram_utils.py:89 -/
noncomputable def slot (mid : List ℤ) (x : ℤ) : Option ℤ :=
  if ∃ M ∈ mid, x ≤ M + 1 ∧ ∀ m ∈ mid, m ≤ M then (mid.filter fun m => decide (m ≤ x)).getLast? else none

/-- pymc_extras/distributions/histogram_utils.py:89 -/
theorem slot_singleton (m x : ℤ) : slot [m] x = if m ≤ x ∧ x ≤ m + 1 then some m else none := by
  unfold slot
  by_cases h1 : m ≤ x <;> by_cases h2 : x ≤ m + 1 <;> simp [h1, h2]

/-- pymc_extras/distributions/histogram_utils.py:89 -/
theorem slot_cons (m m' x : ℤ) (ms : List ℤ) (hs : (m :: m' :: ms).Pairwise (· < ·)) :
    slot (m :: m' :: ms) x = if m ≤ x ∧ x < m' then some m else slot (m' :: ms) x := by
  have hm : ∀ k ∈ m' :: ms, m < k := (List.pairwise_cons.1 hs).1
  have hs' := (List.pairwise_cons.1 hs).2
  have hm' : ∀ k ∈ ms, m' < k := (List.pairwise_cons.1 hs').1
  have hmm : m < m' := hm m' (by simp)
  have hex : (∃ M ∈ m :: m' :: ms, x ≤ M + 1 ∧ ∀ k ∈ m :: m' :: ms, k ≤ M) ↔
      (∃ M ∈ m' :: ms, x ≤ M + 1 ∧ ∀ k ∈ m' :: ms, k ≤ M) := by
    constructor
    · rintro ⟨M, hM, hx, hall⟩
      rcases List.mem_cons.1 hM with e | e
      · subst e; have := hall m' (by simp); omega
      · exact ⟨M, e, hx, fun k hk => hall k (by simp [List.mem_cons.1 hk])⟩
    · rintro ⟨M, hM, hx, hall⟩
      refine ⟨M, by simp [List.mem_cons.1 hM], hx, fun k hk => ?_⟩
      rcases List.mem_cons.1 hk with e | e
      · subst e; have := hall m' (by simp); omega
      · exact hall k e
  by_cases h : m ≤ x ∧ x < m'
  · rw [if_pos h]
    unfold slot
    have hmax : ∃ M ∈ m :: m' :: ms, x ≤ M + 1 ∧ ∀ k ∈ m :: m' :: ms, k ≤ M := by
      rw [hex]
      have hmem : (m' :: ms).getLast (by simp) ∈ m' :: ms := List.getLast_mem _
      refine ⟨_, hmem, ?_, ?_⟩
      · have : m' ≤ (m' :: ms).getLast (by simp) := by
          rcases List.mem_cons.1 hmem with e | e
          · exact le_of_eq e.symm
          · exact le_of_lt (hm' _ e)
        omega
      · intro k hk
        have hne : m' :: ms ≠ [] := by simp
        have hs'' := hs'
        rw [← List.dropLast_append_getLast hne] at hk hs''
        rcases List.mem_append.1 hk with g | g
        · exact le_of_lt ((List.pairwise_append.1 hs'').2.2 k g _ (by simp))
        · simp at g; exact le_of_eq g
    rw [if_pos hmax]
    have : (m' :: ms).filter (fun k => decide (k ≤ x)) = [] := by
      rw [List.filter_eq_nil_iff]
      intro k hk
      have : m' ≤ k := by
        rcases List.mem_cons.1 hk with e | e
        · exact le_of_eq e.symm
        · exact le_of_lt (hm' k e)
      simp; omega
    rw [List.filter_cons, if_pos (by simpa using h.1), this]
    rfl
  · rw [if_neg h]
    unfold slot
    by_cases hc : ∃ M ∈ m' :: ms, x ≤ M + 1 ∧ ∀ k ∈ m' :: ms, k ≤ M
    · rw [if_pos hc, if_pos (hex.2 hc)]
      by_cases hx : m ≤ x
      · have hx' : m' ≤ x := by
          by_contra hh
          exact h ⟨hx, by omega⟩
        rw [List.filter_cons, if_pos (by simpa using hx)]
        rw [List.filter_cons, if_pos (by simpa using hx')]
        simp [List.getLast?_cons_cons]
      · rw [List.filter_cons, if_neg (by simpa using hx)]
    · rw [if_neg hc, if_neg (fun g => hc (hex.1 g))]

/-- pymc_extras/distributions/histogram_utils.py:89 -/
theorem sum_map_ite {α : Type} (p : α → Prop) [DecidablePred p] (c : ℝ) (data : List α) :
    (data.map fun x => if p x then c else 0).sum = c * (data.countP fun x => decide (p x) : ℕ) := by
  induction data with
  | nil => simp
  | cons a data ih =>
    by_cases h : p a
    · simp [h, ih]; ring
    · simp [h, ih]

/-- pymc_extras/distributions/histogram_utils.py:89, 163 -/
theorem potential_counts (logp : ℤ → ℝ) (data : List ℤ) : ∀ (mid : List ℤ) (_ : mid.Pairwise (· < ·)) (hne : mid ≠ []),
    potential logp mid (counts (mid ++ [mid.getLast hne + 1]) data) =
      (data.map fun x => ((slot mid x).map logp).getD 0).sum
  | [], _, hne => absurd rfl hne
  | [m], _, _ => by
    have : (data.map fun x => ((slot [m] x).map logp).getD 0) =
        data.map fun x => if m ≤ x ∧ x ≤ m + 1 then logp m else 0 := by
      refine List.map_congr_left fun x _ => ?_
      rw [slot_singleton]
      by_cases h : m ≤ x ∧ x ≤ m + 1 <;> simp [h]
    rw [this, sum_map_ite (fun x => m ≤ x ∧ x ≤ m + 1)]
    simp [potential, counts]
  | m :: m' :: ms, hs, hne => by
    have ih := potential_counts logp data (m' :: ms) (List.pairwise_cons.1 hs).2 (by simp)
    have hgl : (m :: m' :: ms).getLast hne = (m' :: ms).getLast (by simp) := List.getLast_cons _
    have hmm : m < m' := (List.pairwise_cons.1 hs).1 m' (by simp)
    rw [hgl]
    have hcount : counts (m :: m' :: ms ++ [(m' :: ms).getLast (by simp) + 1]) data =
        (data.countP fun x => decide (m ≤ x ∧ x < m')) ::
          counts (m' :: ms ++ [(m' :: ms).getLast (by simp) + 1]) data := by
      cases ms with
      | nil => rfl
      | cons k ms => rfl
    rw [hcount]
    have hp : potential logp (m :: m' :: ms) ((data.countP fun x => decide (m ≤ x ∧ x < m')) ::
          counts (m' :: ms ++ [(m' :: ms).getLast (by simp) + 1]) data) =
        logp m * (data.countP fun x => decide (m ≤ x ∧ x < m') : ℕ) +
          potential logp (m' :: ms) (counts (m' :: ms ++ [(m' :: ms).getLast (by simp) + 1]) data) := by
      simp [potential]
    rw [hp, ih, ← sum_map_ite (fun x => m ≤ x ∧ x < m'), ← List.sum_map_add]
    refine congrArg List.sum (List.map_congr_left fun x _ => ?_)
    rw [slot_cons m m' x ms hs]
    by_cases h : m ≤ x ∧ x < m'
    · have hno : slot (m' :: ms) x = none := by
        unfold slot
        have : (m' :: ms).filter (fun k => decide (k ≤ x)) = [] := by
          rw [List.filter_eq_nil_iff]
          intro k hk
          have : m' ≤ k := by
            rcases List.mem_cons.1 hk with e | e
            · exact le_of_eq e.symm
            · exact le_of_lt ((List.pairwise_cons.1 (List.pairwise_cons.1 hs).2).1 k e)
          simp; omega
        rw [this]
        split <;> rfl
      simp [h, hno]
    · simp [h]

/-- A data point is counted at the largest retained value not above it, provided it is not more than one above the largest
retained value. pymc_extras/distributions/histogram_utils.py:86-89 -/
theorem slot_eq_some_iff (mid : List ℤ) (hs : mid.Pairwise (· < ·)) (x m : ℤ) :
    slot mid x = some m ↔ IsFloor mid x m ∧ ∃ M ∈ mid, x ≤ M + 1 := by
  unfold slot
  have hsf := hs.filter fun k => decide (k ≤ x)
  have hlast : (mid.filter fun k => decide (k ≤ x)).getLast? = some m ↔ IsFloor mid x m := by
    unfold IsFloor
    constructor
    · intro h
      have hmem := List.mem_of_getLast? h
      simp only [List.mem_filter, decide_eq_true_eq] at hmem
      refine ⟨hmem.1, hmem.2, fun m' h1 h2 => ?_⟩
      have hm' : m' ∈ mid.filter fun k => decide (k ≤ x) := by simp [h1, h2]
      obtain ⟨l, hl⟩ := List.getLast?_eq_some_iff.1 h
      rw [hl] at hm' hsf
      rcases List.mem_append.1 hm' with g | g
      · exact le_of_lt ((List.pairwise_append.1 hsf).2.2 m' g m (by simp))
      · simp at g; exact le_of_eq g
    · rintro ⟨h1, h2, h3⟩
      have hm : m ∈ mid.filter fun k => decide (k ≤ x) := by simp [h1, h2]
      have hne : (mid.filter fun k => decide (k ≤ x)) ≠ [] := List.ne_nil_of_mem hm
      rw [List.getLast?_eq_getLast_of_ne_nil hne]
      congr 1
      have hg := List.getLast_mem hne
      simp only [List.mem_filter, decide_eq_true_eq] at hg
      refine le_antisymm (h3 _ hg.1 hg.2) ?_
      rw [← List.dropLast_append_getLast hne] at hm hsf
      rcases List.mem_append.1 hm with g | g
      · exact le_of_lt ((List.pairwise_append.1 hsf).2.2 m g _ (by simp))
      · exact le_of_eq (List.mem_singleton.1 g)
  have hmax : ∀ M ∈ mid, ∃ M' ∈ mid, M ≤ M' ∧ ∀ k ∈ mid, k ≤ M' := by
    intro M hM
    have hne : mid ≠ [] := List.ne_nil_of_mem hM
    have hall : ∀ k ∈ mid, k ≤ mid.getLast hne := by
      intro k hk
      have hs' := hs
      rw [← List.dropLast_append_getLast hne] at hk hs'
      rcases List.mem_append.1 hk with g | g
      · exact le_of_lt ((List.pairwise_append.1 hs').2.2 k g _ (by simp))
      · simp at g; exact le_of_eq g
    exact ⟨mid.getLast hne, List.getLast_mem hne, hall M hM, hall⟩
  by_cases hc : ∃ M ∈ mid, x ≤ M + 1 ∧ ∀ k ∈ mid, k ≤ M
  · rw [if_pos hc, hlast]
    obtain ⟨M, hM, hx, _⟩ := hc
    exact ⟨fun h => ⟨h, M, hM, hx⟩, fun h => h.1⟩
  · rw [if_neg hc]
    constructor
    · intro h; cases h
    · rintro ⟨_, M, hM, hx⟩
      obtain ⟨M', h1, h2, h3⟩ := hmax M hM
      exact absurd ⟨M', h1, by omega, h3⟩ hc

/-! ### Properties -/

/-- The midpoints are, in increasing order, the distinct values of all columns (those repeated at least `min_count` times
when it is given), the same for all columns; there is one count per midpoint and column.
pymc_extras/distributions/histogram_utils.py:69-92 -/
theorem C70_midpoints (cols : List (List ℤ)) (mc : Option ℕ) (mid : List ℤ) (cnt : List (List ℕ))
    (h : discreteHistogram cols mc = .ok (mid, cnt)) :
    mid.Pairwise (· < ·) ∧ (∀ x, x ∈ mid ↔ x ∈ cols.flatten ∧ ∀ k, mc = some k → k ≤ cols.flatten.count x) ∧
      cnt.length = cols.length ∧ ∀ c ∈ cnt, c.length = mid.length := by
  unfold discreteHistogram at h
  simp only [bind, Except.bind] at h
  by_cases hne : mids cols.flatten mc = []
  · simp [hne, bins] at h
  · rw [bins_eq _ (mids_sorted _ _) hne] at h
    simp only [Except.ok.injEq, Prod.mk.injEq] at h
    obtain ⟨rfl, rfl⟩ := h
    refine ⟨mids_sorted _ _, fun x => mem_mids _ _ _, by simp, ?_⟩
    intro c hc
    obtain ⟨col, _, rfl⟩ := List.mem_map.1 hc
    rw [counts_length]; simp

/-- The function raises exactly when no value is retained: without data, or when no value is repeated `min_count` times.
pymc_extras/distributions/histogram_utils.py:84-86 -/
theorem C70_raises_iff (cols : List (List ℤ)) (mc : Option ℕ) :
    discreteHistogram cols mc = .error .valueError ↔
      ∀ x ∈ cols.flatten, ∃ k, mc = some k ∧ cols.flatten.count x < k := by
  unfold discreteHistogram
  simp only [bind, Except.bind]
  by_cases hne : mids cols.flatten mc = []
  · rw [hne]
    simp only [bins, List.max?_nil, true_iff]
    intro x hx
    by_contra hc
    have : x ∈ mids cols.flatten mc := by
      rw [mem_mids]
      refine ⟨hx, fun k hk => ?_⟩
      by_contra hlt
      exact hc ⟨k, hk, by omega⟩
    rw [hne] at this; simp at this
  · rw [bins_eq _ (mids_sorted _ _) hne]
    constructor
    · intro h; cases h
    · intro h
      exfalso
      obtain ⟨x, hx⟩ := List.exists_mem_of_ne_nil _ hne
      rw [mem_mids] at hx
      obtain ⟨k, hk, hlt⟩ := h x hx.1
      have := hx.2 k hk
      omega

/-- The count of a midpoint in a column is the number of data points at or above it and below the next midpoint; the last
midpoint counts the points at it and one above it. pymc_extras/distributions/histogram_utils.py:86-89 -/
theorem C70_count (cols : List (List ℤ)) (mc : Option ℕ) (mid : List ℤ) (cnt : List (List ℕ))
    (h : discreteHistogram cols mc = .ok (mid, cnt)) (c : ℕ) (col : List ℤ) (hc : cols[c]? = some col) (j : ℕ) (m : ℤ)
    (hj : mid[j]? = some m) :
    (cnt.getD c []).getD j 0 = match mid[j + 1]? with
      | some m' => col.countP fun x => decide (m ≤ x ∧ x < m')
      | none => col.countP fun x => decide (x = m ∨ x = m + 1) := by
  unfold discreteHistogram at h
  simp only [bind, Except.bind] at h
  by_cases hne : mids cols.flatten mc = []
  · simp [hne, bins] at h
  · rw [bins_eq _ (mids_sorted _ _) hne] at h
    simp only [Except.ok.injEq, Prod.mk.injEq] at h
    obtain ⟨h1, rfl⟩ := h
    rw [h1] at hne
    simp only [h1]
    have hjl : j < mid.length := (List.getElem?_eq_some_iff.1 hj).1
    rw [show (cols.map fun c => counts (mid ++ [mid.getLast hne + 1]) c).getD c [] =
      counts (mid ++ [mid.getLast hne + 1]) col by simp [List.getD, hc]]
    cases hn : mid[j + 1]? with
    | some m' =>
      have hj1 : j + 1 < mid.length := (List.getElem?_eq_some_iff.1 hn).1
      have := counts_get col (mid ++ [mid.getLast hne + 1]) j m m'
        (by rw [List.getElem?_append_left hjl]; exact hj) (by rw [List.getElem?_append_left hj1]; exact hn)
      rw [List.getD, this]
      have hlen : ¬ j + 2 = (mid ++ [mid.getLast hne + 1]).length := by simp; omega
      simp only [if_neg hlen, Option.getD_some]
    | none =>
      have hj1 : mid.length ≤ j + 1 := List.getElem?_eq_none_iff.1 hn
      have hjj : j = mid.length - 1 := by omega
      have hml : m = mid.getLast hne := by
        rw [List.getLast_eq_getElem]
        rw [List.getElem?_eq_some_iff] at hj
        obtain ⟨_, hj⟩ := hj
        subst hjj; exact hj.symm
      have := counts_get col (mid ++ [mid.getLast hne + 1]) j m (m + 1)
        (by rw [List.getElem?_append_left hjl]; exact hj)
        (by rw [List.getElem?_append_right hj1, show j + 1 - mid.length = 0 by omega, ← hml]; rfl)
      rw [List.getD, this]
      have hlen : j + 2 = (mid ++ [mid.getLast hne + 1]).length := by simp; omega
      simp only [hlen, ↓reduceIte, Option.getD_some]
      refine List.countP_congr fun x _ => ?_
      simp only [decide_eq_true_eq]
      omega

/-- Without `min_count` the approximation is exact: for every column and every log density, the potential is the sum of the
log density over the data. pymc_extras/distributions/histogram_utils.py:82-92, 163 -/
theorem C70_exact_without_min_count (cols : List (List ℤ)) (logp : ℤ → ℝ) (mid : List ℤ) (cnt : List (List ℕ))
    (h : discreteHistogram cols none = .ok (mid, cnt)) (c : ℕ) (col : List ℤ) (hc : cols[c]? = some col) :
    potential logp mid (cnt.getD c []) = (col.map logp).sum := by
  have hmid := C70_midpoints cols none mid cnt h
  unfold discreteHistogram at h
  simp only [bind, Except.bind] at h
  by_cases hne : mids cols.flatten none = []
  · simp [hne, bins] at h
  · rw [bins_eq _ (mids_sorted _ _) hne] at h
    simp only [Except.ok.injEq, Prod.mk.injEq] at h
    obtain ⟨h1, rfl⟩ := h
    rw [h1] at hne
    simp only [h1]
    rw [show (cols.map fun c => counts (mid ++ [mid.getLast hne + 1]) c).getD c [] =
      counts (mid ++ [mid.getLast hne + 1]) col by simp [List.getD, hc], potential_counts logp col mid hmid.1 hne]
    refine congrArg List.sum (List.map_congr_left fun x hx => ?_)
    have hxm : x ∈ mid := (hmid.2.1 x).2 ⟨List.mem_flatten.2 ⟨col, List.mem_of_getElem? hc, hx⟩, by simp⟩
    have : slot mid x = some x := (slot_eq_some_iff mid hmid.1 x x).2
      ⟨⟨hxm, le_refl _, fun m' _ h => h⟩, x, hxm, by omega⟩
    rw [this]; rfl

/-- With any `min_count`, the potential of a column is the sum over its data points of the log density at the largest
retained value not above the point; points below every retained value, or more than one above all of them, contribute
nothing. pymc_extras/distributions/histogram_utils.py:82-92, 163 -/
theorem C131_where_values_are_counted (cols : List (List ℤ)) (mc : Option ℕ) (logp : ℤ → ℝ) (mid : List ℤ)
    (cnt : List (List ℕ)) (h : discreteHistogram cols mc = .ok (mid, cnt)) (c : ℕ) (col : List ℤ)
    (hc : cols[c]? = some col) :
    ∃ at_ : ℤ → Option ℤ,
      (∀ x m, at_ x = some m ↔ IsFloor mid x m ∧ ∃ M ∈ mid, x ≤ M + 1) ∧
      potential logp mid (cnt.getD c []) = (col.map fun x => ((at_ x).map logp).getD 0).sum := by
  have hmid := C70_midpoints cols mc mid cnt h
  unfold discreteHistogram at h
  simp only [bind, Except.bind] at h
  by_cases hne : mids cols.flatten mc = []
  · simp [hne, bins] at h
  · rw [bins_eq _ (mids_sorted _ _) hne] at h
    simp only [Except.ok.injEq, Prod.mk.injEq] at h
    obtain ⟨h1, rfl⟩ := h
    rw [h1] at hne
    simp only [h1]
    refine ⟨slot mid, fun x m => slot_eq_some_iff mid hmid.1 x m, ?_⟩
    rw [show (cols.map fun c => counts (mid ++ [mid.getLast hne + 1]) c).getD c [] =
      counts (mid ++ [mid.getLast hne + 1]) col by simp [List.getD, hc], potential_counts logp col mid hmid.1 hne]

/-- The midpoints of the data 0 0 1 2 2 4 with `min_count=2` are 0 and 2. pymc_extras/distributions/histogram_utils.py:82-84 -/
theorem mids_example : mids [0, 0, 1, 2, 2, 4] (some 2) = [0, 2] := by
  have hs := mids_sorted [0, 0, 1, 2, 2, 4] (some 2)
  have hm := mem_mids [0, 0, 1, 2, 2, 4] (some 2)
  refine List.Perm.eq_of_pairwise (le := (· < ·)) (fun a b _ _ h1 h2 => absurd h1 (not_lt.2 h2.le)) hs (by simp) ?_
  rw [List.perm_ext_iff_of_nodup (hs.imp ne_of_lt) (by simp)]
  intro a
  rw [hm]
  simp only [List.mem_cons, List.not_mem_nil, or_false, Option.some.injEq, forall_eq']
  constructor
  · rintro ⟨h | h | h | h | h | h, hk⟩ <;> subst h <;> first | (simp; done) | (exfalso; simp [List.count_cons] at hk)
  · rintro (h | h) <;> subst h <;> decide

/-- A removed value is counted at a smaller value it is not equal to, and a removed largest value is lost: for the data
0 0 1 2 2 4 and `min_count=2` the counts are 3 and 2, although 0 occurs twice and there are six data points.
pymc_extras/distributions/histogram_utils.py:82-92 -/
theorem C131_removed_values_are_misplaced :
    discreteHistogram [[0, 0, 1, 2, 2, 4]] (some 2) = .ok ([0, 2], [[3, 2]]) := by
  unfold discreteHistogram
  have hf : ([[0, 0, 1, 2, 2, 4]] : List (List ℤ)).flatten = [0, 0, 1, 2, 2, 4] := by simp
  rw [hf, mids_example]
  simp [bind, Except.bind, bins, List.max?, counts]

end Verif.Hist
