import Verif.Builder.Linear

/-!
# Properties of `LinearModel` (C160)
-/

set_option autoImplicit false

namespace Verif.Builder.Linear

theorem setData1_squeeze (sh : List ℕ) (n : ℕ) : setData1 (squeeze sh) = some n ↔ squeeze sh = [n] := by
  unfold setData1
  split
  · next m h => simp [h]
  · next h =>
    simp only [reduceCtorEq, false_iff]
    exact fun e => h n e

/-- **C160** A data set of `n ≠ 1` rows with one feature and one target is accepted, and the containers hold its `n`
observations. -/
theorem C160_accepts (n : ℕ) (hn : n ≠ 1) (s : St) :
    buildModel [n, 1] [n] = (⟨n, n⟩, true) ∧ buildModel [n, 1] [n, 1] = (⟨n, n⟩, true) ∧
    dataSetter s [n, 1] none = (⟨n, s.y⟩, true) ∧ dataSetter s [n] none = (⟨n, s.y⟩, true) := by
  simp [buildModel, dataSetter, squeeze, setData1, hn]

/-- Five rows. -/
example : buildModel [5, 1] [5] = (⟨5, 5⟩, true) := (C160_accepts 5 (by decide) ⟨1, 1⟩).1

/-- **C160** A single observation is refused, for fitting and for prediction: the squeeze removes its only axis. -/
theorem C160_single_row (s : St) (y : Option (List ℕ)) :
    dataSetter s [1, 1] y = (s, false) ∧ dataSetter s [1] y = (s, false) := by
  simp [dataSetter, squeeze, setData1]

/-- **C160** Exactly the inputs with at most one axis longer than one — and not all axes of length one — are accepted; so one row
with `k ≥ 2` features is taken for `k` observations of the single feature, and any larger table is refused. -/
theorem C160_accepts_iff (s : St) (r c : ℕ) :
    ((dataSetter s [r, c] none).2 = true ↔ (r ≠ 1 ∧ c = 1) ∨ (r = 1 ∧ c ≠ 1)) ∧
    (c ≠ 1 → dataSetter s [1, c] none = (⟨c, s.y⟩, true)) ∧
    (r ≠ 1 → c ≠ 1 → dataSetter s [r, c] none = (s, false)) := by
  refine ⟨?_, ?_, ?_⟩
  · by_cases hr : r = 1 <;> by_cases hc : c = 1 <;> simp [dataSetter, squeeze, setData1, hr, hc]
  · intro hc
    simp [dataSetter, squeeze, setData1, hc]
  · intro hr hc
    simp [dataSetter, squeeze, setData1, hr, hc]

/-- **C160** Failures leave the containers alone when the features are refused, but when only the target is refused the new
features stay next to the old target. -/
theorem C160_failure (s : St) (x y : List ℕ) (h : (dataSetter s x (some y)).2 = false) :
    ((∀ n, squeeze x ≠ [n]) → (dataSetter s x (some y)).1 = s) ∧
    (∀ n, squeeze x = [n] → (dataSetter s x (some y)).1 = ⟨n, s.y⟩) := by
  unfold dataSetter at h ⊢
  cases hx : setData1 (squeeze x) with
  | none =>
    refine ⟨fun _ => rfl, fun n hn => ?_⟩
    rw [(setData1_squeeze x n).mpr hn] at hx
    simp at hx
  | some m =>
    rw [hx] at h
    have hm := (setData1_squeeze x m).mp hx
    refine ⟨fun h0 => absurd hm (h0 m), fun n hn => ?_⟩
    have : m = n := by rw [hm] at hn; simpa using hn
    subst this
    cases hy : setData1 (squeeze y) with
    | none => simp [hy]
    | some k => simp [hy] at h

/-- Two rows of features with a single target value. -/
example : dataSetter ⟨7, 7⟩ [2, 1] (some [1]) = (⟨2, 7⟩, false) := by decide

end Verif.Builder.Linear
