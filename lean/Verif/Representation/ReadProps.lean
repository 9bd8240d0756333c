import Verif.Representation.Props
import Mathlib.Data.List.Range

/-!
C22: reading slices of stored matrices.
-/

set_option autoImplicit false

namespace Verif.Representation

variable {V : Type}

open Classical in
/-- Specification: the positions of an axis of length `n` that an index item addresses, in order. -/
noncomputable def Spec.positions (n : ℕ) (ix : Ix) : List ℕ := (List.range n).filter fun i => decide (Spec.addressed n i ix)

/-- Specification: the shape of what is read: an integer removes its axis, a slice leaves as many positions as it addresses,
axes without an index item stay. -/
noncomputable def Spec.readShape : List ℕ → List Ix → List ℕ
  | sh, [] => sh
  | [], _ :: _ => []
  | _ :: sh, .int _ :: ixs => Spec.readShape sh ixs
  | n :: sh, .slice lo hi :: ixs => (Spec.positions n (.slice lo hi)).length :: Spec.readShape sh ixs

/-- Specification: the entry of the array found at a position of what is read. -/
noncomputable def Spec.source : List ℕ → List Ix → List ℕ → List ℕ
  | _, [], sub => sub
  | n :: sh, .int k :: ixs, sub => (Spec.positions n (.int k)).headD 0 :: Spec.source sh ixs sub
  | n :: sh, .slice lo hi :: ixs, i :: sub => (Spec.positions n (.slice lo hi)).getD i 0 :: Spec.source sh ixs sub
  | _, _, _ => []

/-- Specification: `y` is what numpy indexing with `ixs` reads from `a`. -/
def Spec.Reads (a : Arr V) (ixs : List Ix) (y : Arr V) : Prop :=
  y.shape = Spec.readShape a.shape ixs ∧ ∀ sub, Spec.InRange y.shape sub → y.data sub = a.data (Spec.source a.shape ixs sub)

theorem positions_of {n l len : ℕ} {ix : Ix} (hl : l + len ≤ n) (h : ∀ i, i < n → ((l ≤ i ∧ i < l + len) ↔ Spec.addressed n i ix)) :
    Spec.positions n ix = List.range' l len := by
  have hsplit : List.range n = List.range' 0 l ++ (List.range' l len ++ List.range' (l + len) (n - (l + len))) := by
    have h2 : List.range' l len ++ List.range' (l + len) (n - (l + len)) = List.range' l (n - l) := by
      have := List.range'_append_1 (s := l) (m := len) (n := n - (l + len))
      rw [this]; congr 1; omega
    have h1 := List.range'_append_1 (s := 0) (m := l) (n := n - l)
    rw [Nat.zero_add] at h1
    rw [h2, h1, List.range_eq_range']; congr 1; omega
  rw [Spec.positions, hsplit, List.filter_append, List.filter_append]
  have e1 : (List.range' 0 l).filter (fun i => @decide (Spec.addressed n i ix) (Classical.propDecidable _)) = [] := by
    refine List.filter_eq_nil_iff.2 fun i hi => ?_
    rw [List.mem_range'_1] at hi
    have := h i (by omega)
    simp only [decide_eq_true_eq, ← this]; omega
  have e2 : (List.range' l len).filter (fun i => @decide (Spec.addressed n i ix) (Classical.propDecidable _)) = List.range' l len := by
    refine List.filter_eq_self.2 fun i hi => ?_
    rw [List.mem_range'_1] at hi
    have := h i (by omega)
    simp only [decide_eq_true_eq, ← this]; omega
  have e3 : (List.range' (l + len) (n - (l + len))).filter (fun i => @decide (Spec.addressed n i ix) (Classical.propDecidable _)) = [] := by
    refine List.filter_eq_nil_iff.2 fun i hi => ?_
    rw [List.mem_range'_1] at hi
    have := h i (by omega)
    simp only [decide_eq_true_eq, ← this]; omega
  rw [e1, e2, e3]; simp

theorem positions_slice {n : ℕ} {lo hi : Option ℤ} {s : Sel} (h : resolve n (.slice lo hi) = some s) :
    ∃ l len, s = .range l len ∧ Spec.positions n (.slice lo hi) = List.range' l len := by
  obtain ⟨l, len, rfl, hp⟩ := resolve_slice h
  refine ⟨l, len, rfl, positions_of ?_ hp⟩
  simp only [resolve, Option.some.injEq, Sel.range.injEq] at h
  obtain ⟨rfl, rfl⟩ := h
  have hc : ∀ b, clamp n b ≤ n := by intro b; simp only [clamp]; omega
  rcases lo with _ | lo <;> rcases hi with _ | hi <;>
    simp only [Option.map_some, Option.map_none, Option.getD_some, Option.getD_none]
  · omega
  · have := hc hi; omega
  · have := hc lo; omega
  · have := hc hi; have := hc lo; omega

theorem positions_int {n : ℕ} {k : ℤ} {s : Sel} (h : resolve n (.int k) = some s) :
    ∃ p, s = .pos p ∧ Spec.positions n (.int k) = [p] := by
  obtain ⟨p, rfl, hp, hpe⟩ := resolve_pos h
  refine ⟨p, rfl, ?_⟩
  have := positions_of (n := n) (l := p) (len := 1) (ix := .int k) (by omega) (fun i hi => by rw [← hpe i hi]; omega)
  rw [this]; rfl

theorem resolveAll_nil (sh : List ℕ) : ∃ ss, resolveAll sh [] = some ss ∧ selShape ss = sh ∧
    ∀ sub, Spec.InRange sh sub → expand ss sub = sub := by
  induction sh with
  | nil => exact ⟨[], rfl, rfl, fun sub h => by cases sub with | nil => rfl | cons a t => simp [Spec.InRange] at h⟩
  | cons n sh ih =>
    obtain ⟨ss, h1, h2, h3⟩ := ih
    refine ⟨.range 0 n :: ss, by simp [resolveAll, h1], by simp [selShape, h2], fun sub h => ?_⟩
    obtain ⟨i, t, rfl, -, ht⟩ := inRange_cons h
    simp [expand, h3 t ht]

theorem resolveAll_reads : ∀ (sh : List ℕ) (ixs : List Ix) (ss : List Sel), resolveAll sh ixs = some ss →
    selShape ss = Spec.readShape sh ixs ∧ ∀ sub, Spec.InRange (selShape ss) sub → expand ss sub = Spec.source sh ixs sub := by
  intro sh ixs
  induction ixs generalizing sh with
  | nil =>
    intro ss h
    obtain ⟨ss', h1, h2, h3⟩ := resolveAll_nil sh
    rw [h1, Option.some.injEq] at h
    subst h
    refine ⟨by simp [h2, Spec.readShape], fun sub hs => ?_⟩
    rw [h3 sub (h2 ▸ hs)]; cases sh <;> simp [Spec.source]
  | cons ix ixs ih =>
    intro ss h
    cases sh with
    | nil => simp [resolveAll] at h
    | cons n sh =>
      simp only [resolveAll] at h
      cases hr : resolve n ix with
      | none => simp [hr] at h
      | some s =>
        cases hra : resolveAll sh ixs with
        | none => simp [hr, hra] at h
        | some ss' =>
          simp only [hr, hra, Option.some.injEq] at h
          subst h
          obtain ⟨i1, i2⟩ := ih sh ss' hra
          cases ix with
          | int k =>
            obtain ⟨p, rfl, hp⟩ := positions_int hr
            refine ⟨by simp [selShape, Spec.readShape, i1], fun sub hs => ?_⟩
            simp only [expand, Spec.source, hp, List.headD_cons]
            rw [i2 sub hs]
          | slice lo hi =>
            obtain ⟨l, len, rfl, hp⟩ := positions_slice hr
            refine ⟨by simp [selShape, Spec.readShape, i1, hp], fun sub hs => ?_⟩
            simp only [selShape] at hs
            obtain ⟨i, t, rfl, hi', ht⟩ := inRange_cons hs
            simp only [expand, Spec.source, hp]
            rw [i2 t ht]
            simp [List.getD_eq_getElem?_getD, hi']

theorem subtensor_reads {a y : Arr V} {ixs : List Ix} (h : subtensor a ixs = .ok y) : Spec.Reads a ixs y := by
  simp only [subtensor] at h
  cases hr : resolveAll a.shape ixs with
  | none => simp [hr] at h
  | some ss =>
    simp only [hr, Except.ok.injEq] at h
    subst h
    obtain ⟨h1, h2⟩ := resolveAll_reads _ _ _ hr
    exact ⟨h1, fun sub hs => by rw [← h2 sub hs]⟩

theorem positions_all (n : ℕ) : Spec.positions n .all = List.range n := by
  obtain ⟨l, len, h1, h2⟩ := positions_slice (n := n) (lo := none) (hi := none) (s := .range 0 n) (by simp [resolve])
  injection h1 with h1 h1'
  subst h1 h1'
  rw [Ix.all, h2, List.range_eq_range']

/-- Trailing full slices change nothing. -/
theorem all_reads : ∀ (sh : List ℕ) (j : ℕ), j ≤ sh.length → Spec.readShape sh (List.replicate j Ix.all) = sh ∧
    ∀ sub, Spec.InRange sh sub → Spec.source sh (List.replicate j Ix.all) sub = sub := by
  intro sh j
  induction j generalizing sh with
  | zero => intro _; exact ⟨by simp [Spec.readShape], fun sub _ => by cases sh <;> simp [Spec.source]⟩
  | succ j ih =>
    intro hj
    cases sh with
    | nil => simp at hj
    | cons n sh =>
      obtain ⟨h1, h2⟩ := ih sh (by simpa using hj)
      have hp := positions_all n
      rw [Ix.all] at hp
      refine ⟨by rw [List.replicate_succ]; simp only [Ix.all, Spec.readShape]; rw [hp]; rw [Ix.all] at h1; simp [h1], fun sub hs => ?_⟩
      obtain ⟨i, t, rfl, hi, ht⟩ := inRange_cons hs
      rw [List.replicate_succ]
      simp only [Ix.all, Spec.source]
      rw [Ix.all] at h2
      rw [hp, h2 t ht]
      simp [List.getD_eq_getElem?_getD, hi]

theorem reads_append_all {a y : Arr V} {ixs : List Ix} {j : ℕ} (hj : ixs.length + j ≤ a.shape.length)
    (h : Spec.Reads a (ixs ++ List.replicate j Ix.all) y) : Spec.Reads a ixs y := by
  have key : ∀ (sh : List ℕ) (ixs : List Ix), ixs.length + j ≤ sh.length →
      Spec.readShape sh (ixs ++ List.replicate j Ix.all) = Spec.readShape sh ixs ∧
      ∀ sub, Spec.InRange (Spec.readShape sh ixs) sub → Spec.source sh (ixs ++ List.replicate j Ix.all) sub = Spec.source sh ixs sub := by
    intro sh ixs
    induction ixs generalizing sh with
    | nil =>
      intro hl
      obtain ⟨h1, h2⟩ := all_reads sh j (by simpa using hl)
      refine ⟨by simp [h1, Spec.readShape], fun sub hs => ?_⟩
      rw [List.nil_append, h2 sub (by simpa [Spec.readShape] using hs)]; cases sh <;> simp [Spec.source]
    | cons ix ixs ih =>
      intro hl
      cases sh with
      | nil => simp at hl
      | cons n sh =>
        obtain ⟨i1, i2⟩ := ih sh (by simp at hl; omega)
        cases ix with
        | int k =>
          refine ⟨by simp [Spec.readShape, i1], fun sub hs => ?_⟩
          simp only [List.cons_append, Spec.source]
          rw [i2 sub (by simpa [Spec.readShape] using hs)]
        | slice lo hi =>
          refine ⟨by simp [Spec.readShape, i1], fun sub hs => ?_⟩
          simp only [Spec.readShape] at hs
          obtain ⟨i, t, rfl, hi', ht⟩ := inRange_cons hs
          simp only [List.cons_append, Spec.source]
          rw [i2 t ht]
  obtain ⟨h1, h2⟩ := key a.shape ixs hj
  refine ⟨h.1.trans h1, fun sub hs => ?_⟩
  rw [h.2 sub hs, h2 sub (by rw [← h1, ← h.1]; exact hs)]

/-- **C22 (reading slices).** In a store in good order, reading a matrix with one index item for every axis, or an initial
state or initial covariance with one item per axis, returns what numpy indexing reads from the stored array; reading a matrix
that may vary over time with fewer items reads its first time slice with them. -/
theorem C22_slice_read (kE kS kP : ℕ) (rep : Rep V) (hw : Spec.WF kE kS kP rep) (name : String) (ixs : List Ix) (y : Arr V)
    (h : getSlice rep name ixs = .ok y) :
    (ixs.length = (rep.attrs name).shape.length → Spec.Reads (rep.attrs name) ixs y) ∧
    (ixs.length < (rep.attrs name).shape.length → ¬ Spec.Fixed name → Spec.Reads (rep.attrs name) (.int 0 :: ixs) y) := by
  simp only [getSlice] at h
  cases hc : Spec.core kE kS kP name with
  | none =>
    have := hw name
    simp only [hc] at this
    simp [this] at h
  | some core =>
    obtain ⟨hs, hsc⟩ := wf_slot hw hc
    obtain ⟨hf, -⟩ := core_cases hc
    simp only [hs] at h
    constructor
    · intro hl
      split at h
      · next heq =>
        rw [Except.ok.injEq] at h
        subst h
        obtain ⟨h1, h2⟩ := all_reads (rep.attrs name).shape (rep.attrs name).shape.length le_rfl
        rw [heq]
        exact ⟨h1.symm, fun sub hs => by rw [h2 sub hs]⟩
      · next heq =>
        split at h
        · next heq' =>
          exfalso
          rw [heq', List.length_replicate] at hl
          have h0 : (rep.attrs name).shape.length = 0 := by omega
          exact heq (by rw [heq', h0])
        · simp only [addTimeDim] at h
          split at h
          · cases h
          · next ixs' hix =>
            have : ixs' = ixs := by
              split at hix
              · simpa using hix.symm
              · simpa [hl] using hix.symm
            subst this
            exact subtensor_reads h
    · intro hl hnf
      have hn : never name = false := by
        cases hnv : never name
        · rfl
        · exact absurd (hf.1 hnv) hnf
      split at h
      · next heq => rw [heq, List.length_replicate] at hl; omega
      · split at h
        · next heq' =>
          simp only [specifyShape] at h
          split at h
          · rw [Except.ok.injEq] at h
            subst h
            obtain ⟨n, hn'⟩ : ∃ n, (rep.attrs name).shape = n :: core := by
              rcases hsc with hsc | hsc
              · exact absurd hsc.1 hnf
              · exact hsc.2
            obtain ⟨h1, h2⟩ := all_reads core core.length le_rfl
            have hcl : (rep.attrs name).shape.length - 1 = core.length := by simp [hn']
            have h0 : (Spec.positions n (.int 0)).headD 0 = 0 := by
              cases n with
              | zero => simp [Spec.positions]
              | succ n =>
                obtain ⟨p, h3, h4⟩ := positions_int (n := n + 1) (k := 0) (s := .pos 0) (by simp [resolve])
                injection h3 with h3
                rw [h4, ← h3]; rfl
            refine ⟨?_, fun sub hsub => ?_⟩
            · rw [heq', hcl, hn', Spec.readShape, h1]; simp [Arr.dropTime, hn']
            · have hsub' : Spec.InRange core sub := by simpa [Arr.dropTime, hn'] using hsub
              rw [heq', hcl, hn', Spec.source, h0, h2 sub hsub']; rfl
          · cases h
        · simp only [addTimeDim, hn] at h
          split at h
          · cases h
          · next ixs' hix =>
            have : ixs' = .int 0 :: ixs ++ List.replicate ((rep.attrs name).shape.length - ixs.length - 1) .all := by
              simpa [hl, hl.ne] using hix.symm
            subst this
            exact reads_append_all (by simp; omega) (subtensor_reads h)

/-- C22 applies to the last two rows of the second column of a fresh transition matrix. -/
example : ∃ (rep : Rep ℤ) (y : Arr ℤ), Spec.WF 1 3 1 rep ∧ getSlice rep "transition" [.slice (some (-2)) none, .int 1] = .ok y ∧
    y.shape = [2] := by
  obtain ⟨rep, h, hw⟩ := C22_initial_shapes (0 : ℤ) 1 3 1
  cases h
  exact ⟨_, _, hw, rfl, rfl⟩

/-- **C22 (a slice of the initial covariance).** Asking for the initial covariance with a single full slice returns its first
row, not the matrix: the code takes one full slice fewer than axes to mean "without the time axis", which the initial
covariance does not have. -/
theorem C22_initial_cov_slice_first_row (kE kS kP : ℕ) (rep : Rep V) (hw : Spec.WF kE kS kP rep) :
    ∃ y, getSlice rep "initial_state_cov" [.all] = .ok y ∧ y.shape = [kS] ∧
      ∀ i, y.data [i] = (rep.attrs "initial_state_cov").data [0, i] := by
  obtain ⟨hs, hsc⟩ := wf_slot hw (name := "initial_state_cov") (core := [kS, kS]) rfl
  have hsh : (rep.attrs "initial_state_cov").shape = [kS, kS] := by
    rcases hsc with hsc | hsc
    · exact hsc.2
    · exact absurd (Or.inr rfl) hsc.1
  refine ⟨(rep.attrs "initial_state_cov").dropTime, ?_, by simp [Arr.dropTime, hsh], fun i => rfl⟩
  simp [getSlice, hs, hsh, specifyShape, Arr.dropTime, List.replicate]

end Verif.Representation
