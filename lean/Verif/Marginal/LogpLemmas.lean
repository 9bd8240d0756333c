import Verif.Marginal.Logp
import Verif.Marginal.GraphLemmas
import Mathlib.Data.List.NodupEquivFin
import Mathlib.Algebra.BigOperators.Fin

/-! # Lemmas for the log-probabilities of marginalised variables -/

set_option autoImplicit false

namespace Marginal

open scoped BigOperators

/-! ### exponentials and sums -/

theorem exp_list_sum (l : List EReal) : EReal.exp l.sum = (l.map EReal.exp).prod := by
  induction l with
  | nil => simp
  | cons a l ih => simp [EReal.exp_add, ih]

theorem exp_finset_sum {ι : Type} (s : Finset ι) (f : ι → EReal) :
    EReal.exp (∑ i ∈ s, f i) = ∏ i ∈ s, EReal.exp (f i) := by
  classical
  induction s using Finset.induction_on with
  | empty => simp
  | insert a s ha ih => rw [Finset.sum_insert ha, Finset.prod_insert ha, EReal.exp_add, ih]

theorem exp_logsumexp (l : List EReal) : EReal.exp (logsumexp l) = (l.map EReal.exp).sum := by
  rw [logsumexp, ENNReal.exp_log]

/-! ### boxes -/

theorem mem_box {s e : List ℕ} :
    e ∈ box s ↔ e.length = s.length ∧ ∀ j < s.length, e.getD j 0 < s.getD j 0 := by
  induction s generalizing e with
  | nil => simp [box]
  | cons k s ih =>
    rw [box, List.mem_flatMap]
    constructor
    · rintro ⟨i, hi, he⟩
      rw [List.mem_map] at he
      obtain ⟨r, hr, rfl⟩ := he
      obtain ⟨h1, h2⟩ := ih.1 hr
      refine ⟨by simp [h1], ?_⟩
      intro j hj
      cases j with
      | zero => simpa using hi
      | succ j => simpa using h2 j (by simpa using hj)
    · rintro ⟨h1, h2⟩
      cases e with
      | nil => simp at h1
      | cons c r =>
        refine ⟨c, by simpa using h2 0 (by simp), List.mem_map.2 ⟨r, ih.2 ⟨by simpa using h1, ?_⟩, rfl⟩⟩
        intro j hj
        simpa using h2 (j + 1) (by simpa using hj)

theorem nodup_box (s : List ℕ) : (box s).Nodup := by
  induction s with
  | nil => simp [box]
  | cons k s ih =>
    rw [box, List.nodup_flatMap]
    refine ⟨fun i _ => ih.map (fun a b h => by simpa using h), ?_⟩
    rw [List.pairwise_iff_getElem]
    intro a b ha hb hab
    simp only [List.getElem_range]
    rw [Function.onFun, List.disjoint_left]
    intro e he he'
    rw [List.mem_map] at he he'
    obtain ⟨r, _, rfl⟩ := he
    obtain ⟨r', _, h⟩ := he'
    simp at h
    omega

theorem list_sum_eq_finset {M : Type} [AddCommMonoid M] {α : Type} [DecidableEq α] (l : List α)
    (h : l.Nodup) (f : α → M) : (l.map f).sum = ∑ a ∈ l.toFinset, f a := by
  rw [List.sum_toFinset f h]

/-! ### picking the known coordinates -/

theorem pick_eq (dims : Dims) : ∀ (keep : ℕ → Bool) (e : List ℕ),
    (dims.filterMap id).Nodup → e.length ≤ dims.length →
    (∀ j < e.length, keep j = (dims.getD j none).isSome) →
    (∀ (j d : ℕ), dims[j]? = some (some d) → j < e.length) →
    pick keep e = (dims.filterMap id).map (fun q => e.getD (dims.idxOf (some q)) 0) := by
  induction dims with
  | nil =>
    intro keep e _ hl _ _
    have : e = [] := List.length_eq_zero_iff.1 (by simpa using hl)
    subst this
    rfl
  | cons o ds ih =>
    intro keep e hnd hl hk hin
    cases e with
    | nil =>
      have hnone : (o :: ds).filterMap id = [] := by
        rw [List.filterMap_eq_nil_iff]
        intro x hx
        cases x with
        | none => rfl
        | some d =>
          obtain ⟨j, hj, he⟩ := List.getElem_of_mem hx
          exact absurd (hin j d (by rw [List.getElem?_eq_getElem hj, he])) (by simp)
      rw [hnone]; rfl
    | cons c e =>
      have hk' : ∀ j < e.length, keep (j + 1) = (ds.getD j none).isSome := by
        intro j hj
        simpa using hk (j + 1) (by simpa using hj)
      have hin' : ∀ (j d : ℕ), ds[j]? = some (some d) → j < e.length := by
        intro j d hj
        simpa using hin (j + 1) d (by simpa using hj)
      have hl' : e.length ≤ ds.length := by simpa using hl
      have hk0 := hk 0 (by simp)
      cases o with
      | none =>
        have ih' := ih (fun j => keep (j + 1)) e (by simpa using hnd) hl' hk' hin'
        rw [pick, if_neg (by rw [hk0]; simp), ih']
        simp only [List.filterMap_cons, id]
        apply List.map_congr_left
        intro q _
        rw [List.idxOf_cons_ne _ (by simp)]
        simp
      | some q0 =>
        have hnd' : q0 ∉ ds.filterMap id ∧ (ds.filterMap id).Nodup := by
          simpa [List.filterMap_cons] using hnd
        have ih' := ih (fun j => keep (j + 1)) e hnd'.2 hl' hk' hin'
        rw [pick, if_pos (by rw [hk0]; simp), ih']
        simp only [List.filterMap_cons, id, List.map_cons]
        congr 1
        · simp
        · apply List.map_congr_left
          intro q hq
          have hne : (some q0 : Option ℕ) ≠ some q := by
            rintro h
            injection h with h
            subst h
            exact hnd'.1 hq
          rw [List.idxOf_cons_ne _ hne]
          simp

/-! ### the summed axes -/

theorem reverse_getD (dims : Dims) (i : ℕ) (h1 : 1 ≤ i) (h2 : i ≤ dims.length) :
    dims.reverse.getD (i - 1) none = dims.getD (dims.length - i) none := by
  rw [List.getD_eq_getElem?_getD, List.getD_eq_getElem?_getD, List.getElem?_reverse (by omega)]
  congr 2
  omega

/-- Which axes are listed. -/
theorem mem_suppAxes {dims : Dims} {supp i : ℕ} :
    i ∈ suppAxes dims supp ↔
      supp < i ∧ 1 ≤ i ∧ i ≤ dims.length ∧ dims.getD (dims.length - i) none = none := by
  unfold suppAxes
  rw [List.mem_filter, List.mem_map]
  constructor
  · rintro ⟨⟨a, ha, rfl⟩, h⟩
    rw [List.mem_range] at ha
    rw [Bool.and_eq_true, reverse_getD dims (a + 1) (by omega) (by omega)] at h
    refine ⟨by simpa using h.2, by omega, by omega, by simpa using h.1⟩
  · rintro ⟨h1, h2, h3, h4⟩
    refine ⟨⟨i - 1, by rw [List.mem_range]; omega, by omega⟩, ?_⟩
    rw [Bool.and_eq_true, reverse_getD dims i h2 h3, h4]
    refine ⟨rfl, by simpa using h1⟩

/-- The log-probability axis `j` is summed exactly when *variable* axis `j + supp` is an untracked
batch axis. -/
theorem contains_suppAxes {dims : Dims} {supp m j : ℕ} (hm : m + supp = dims.length) (hj : j < m) :
    (suppAxes dims supp).contains (m - j) = true ↔
      j + supp < m ∧ dims.getD (j + supp) none = none := by
  rw [List.contains_iff_mem, mem_suppAxes]
  have e : dims.length - (m - j) = j + supp := by omega
  rw [e]
  constructor
  · rintro ⟨h1, _, _, h4⟩
    exact ⟨by omega, h4⟩
  · rintro ⟨h1, h2⟩
    exact ⟨by omega, by omega, by omega, h2⟩

/-! ### permutations as lists -/

/-- A list of axes that is its own inverse as a permutation. -/
def SelfInverse (p : List ℕ) : Prop := ∀ a < p.length, p.idxOf a = p.getD a 0

theorem getD_idxOf {p : List ℕ} {a : ℕ} (h : a ∈ p) : p.getD (p.idxOf a) 0 = a := by
  have hl := List.idxOf_lt_length_iff.2 h
  rw [List.getD_eq_getElem _ _ hl]
  exact List.getElem_idxOf hl

theorem map_getD_perm {p : List ℕ} {n : ℕ} (hp : p.Perm (List.range n)) {i i' : List ℕ}
    (hi : i.length = n) (hi' : i'.length = n)
    (h : p.map (fun q => i.getD q 0) = p.map (fun q => i'.getD q 0)) : i = i' := by
  apply List.ext_getElem (by omega)
  intro q h1 h2
  have hq : q ∈ p := hp.mem_iff.2 (List.mem_range.2 (by omega))
  have := List.map_inj_left.1 h q hq
  rwa [List.getD_eq_getElem _ _ h1, List.getD_eq_getElem _ _ h2] at this

theorem transposeArgs_eq {α : Type} (p : List ℕ) (t : List ℕ → α) (idx : List ℕ)
    (h : idx.length = p.length) : transposeArgs p t idx = transposeT p t idx := by
  unfold transposeArgs
  by_cases hp : p = []
  · subst hp
    have : idx = [] := List.length_eq_zero_iff.1 h
    subst this
    rfl
  · rw [if_neg hp]

/-- For a self-inverse permutation the code's index equals the wanted one. -/
theorem unperm_eq {p : List ℕ} {n : ℕ} (hp : p.Perm (List.range n)) (hs : SelfInverse p)
    (idx : List ℕ) :
    (List.range p.length).map (fun a => idx.getD (p.idxOf a) 0) = p.map (fun q => idx.getD q 0) := by
  have _ := hp
  apply List.ext_getElem (by simp)
  intro a h1 h2
  have ha : a < p.length := by simpa using h1
  simp only [List.getElem_map, List.getElem_range]
  rw [hs a ha, List.getD_eq_getElem _ _ ha]

end Marginal
