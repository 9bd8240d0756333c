import Verif.Forecast.ScenarioSpec
import Mathlib.Data.List.Forall2

/-! # Lemmas about scenario data with object identity -/

set_option autoImplicit false

namespace Verif.Forecast.Obj

variable {V : Type}


open Spec

theorem Spec.Kept.refl (heap : Heap V) : Kept heap heap := fun _ f h => ⟨f, h, rfl, rfl⟩

theorem Spec.Kept.trans {a b c : Heap V} (h : Kept a b) (k : Kept b c) : Kept a c := by
  intro i f hf
  obtain ⟨f', h1, h2, h3⟩ := h i f hf
  obtain ⟨f'', k1, k2, k3⟩ := k i f' h1
  exact ⟨f'', k1, k2.trans h2, k3.trans h3⟩

theorem Spec.Kept.length_le {a b : Heap V} (h : Kept a b) : a.length ≤ b.length := by
  by_contra hc
  push Not at hc
  obtain ⟨f', h1, _⟩ := h b.length a[b.length] (List.getElem?_eq_getElem hc)
  simp at h1

theorem Spec.Kept.rowsGiven {a b : Heap V} (h : Kept a b) (v : Val V) (hv : ∀ id, v = .frame id → id < a.length) :
    rowsGiven b v = rowsGiven a v := by
  cases v <;> try rfl
  rename_i id
  have hi := hv id rfl
  obtain ⟨f', h1, _, h3⟩ := h id a[id] (List.getElem?_eq_getElem hi)
  simp [Spec.rowsGiven, h1, h3, List.getElem?_eq_getElem hi]

theorem Spec.Kept.append (a : Heap V) (f : Frame V) : Kept a (a ++ [f]) := by
  intro i g hg
  have hi : i < a.length := by
    by_contra hc
    rw [List.getElem?_eq_none (by omega)] at hg
    exact absurd hg (by simp)
  exact ⟨g, by rw [List.getElem?_append_left hi]; exact hg, rfl, rfl⟩

theorem Spec.Kept.set (a : Heap V) (id : ℕ) (f : Frame V) (fi : Idx) (h : a[id]? = some f) :
    Kept a (a.set id { f with idx := fi }) := by
  intro i g hg
  by_cases hi : id = i
  · subst hi
    rw [h] at hg
    cases hg
    have hl : id < a.length := by
      by_contra hc
      rw [List.getElem?_eq_none (by omega)] at h
      exact absurd h (by simp)
    refine ⟨{ f with idx := fi }, ?_, rfl, rfl⟩
    rw [List.getElem?_set_self hl]
  · exact ⟨g, by rw [List.getElem?_set_ne hi]; exact hg, rfl, rfl⟩

theorem Idx.equals_refl (a : Idx) : a.equals a = true := by simp [Idx.equals]

theorem Idx.equals_iff (a b : Idx) : a.equals b = true ↔ a.isDate = b.isDate ∧ a.labels = b.labels := by
  simp [Idx.equals]

/-! ### Validation -/

theorem checkWidth_ok {coords : List (String × List String)} {name : String} {k : ℕ} {rows : List (List V)} {v : Val V}
    (h : checkWidth coords name k rows = .ok v) :
    v = .array k rows ∧ ∃ e, coords.lookup name = some e ∧ k = e.length := by
  unfold checkWidth at h
  split at h
  · cases h
  · rename_i e he
    split at h
    · cases h
    · rename_i hk
      cases h
      exact ⟨rfl, e, he, not_not.mp hk⟩

theorem validateVal_rows {coords : List (String × List String)} {heap : Heap V} {name : String} {v v' : Val V}
    (h : validateVal coords heap name v = .ok v') : rowsGiven heap v' = rowsGiven heap v := by
  cases v with
  | none => simp [validateVal] at h
  | other => simp [validateVal] at h; subst h; rfl
  | pyList rows => obtain ⟨rfl, _⟩ := checkWidth_ok h; rfl
  | vector vals => obtain ⟨rfl, _⟩ := checkWidth_ok h; rfl
  | array k rows => obtain ⟨rfl, _⟩ := checkWidth_ok h; rfl
  | series i vals =>
    simp only [validateVal] at h
    split at h
    · cases h
    · split at h
      · cases h
      · cases h; rfl
  | frame id =>
    simp only [validateVal] at h
    split at h
    · split at h
      · cases h
      · split at h
        · cases h
        · cases h; rfl
    · cases h

/-- A validated value is a frame (the same one), a series (the same one) or an array, or nothing. -/
theorem validateVal_kind {coords : List (String × List String)} {heap : Heap V} {name : String} {v v' : Val V}
    (h : validateVal coords heap name v = .ok v') :
    (∃ id, v' = .frame id ∧ v = .frame id) ∨ (∃ i x, v' = .series i x ∧ v = .series i x) ∨
      (∃ k r, v' = .array k r) ∨ v' = .none := by
  cases v with
  | none => simp [validateVal] at h
  | other => simp [validateVal] at h; subst h; simp
  | pyList rows => obtain ⟨rfl, _⟩ := checkWidth_ok h; simp
  | vector vals => obtain ⟨rfl, _⟩ := checkWidth_ok h; simp
  | array k rows => obtain ⟨rfl, _⟩ := checkWidth_ok h; simp
  | series i vals =>
    simp only [validateVal] at h
    split at h
    · cases h
    · split at h
      · cases h
      · cases h; simp
  | frame id =>
    simp only [validateVal] at h
    split at h
    · split at h
      · cases h
      · split at h
        · cases h
        · cases h; simp
    · cases h

/-- A relation between the dictionary before and after validation that every entry satisfies, validated or not. -/
theorem validateLoop_forall₂ (exog : List String) (coords : List (String × List String)) (heap : Heap V)
    (R : String × Val V → String × Val V → Prop) (hrefl : ∀ x, R x x)
    (hstep : ∀ n v v', validateVal coords heap n v = .ok v' → R (n, v) (n, v')) :
    ∀ (rest done d0 : Dict V), List.Forall₂ R d0 done →
      List.Forall₂ R (d0 ++ rest) (validateLoop exog coords heap done rest).2
  | [], done, d0, h => by simpa [validateLoop] using h
  | (n, v) :: rest, done, d0, h => by
    have hr : ∀ l : Dict V, List.Forall₂ R l l := fun l => by
      induction l with
      | nil => exact .nil
      | cons x l ih => exact .cons (hrefl x) ih
    unfold validateLoop
    split
    · exact List.rel_append h (hr _)
    · split
      · exact List.rel_append h (hr _)
      · rename_i v' hv
        have := validateLoop_forall₂ exog coords heap R hrefl hstep rest (done ++ [(n, v')]) (d0 ++ [(n, v)])
          (List.rel_append h (.cons (hstep n v v' hv) .nil))
        simpa using this

/-- After a successful pass every entry is validated and names an exogenous variable. -/
theorem validateLoop_ok (exog : List String) (coords : List (String × List String)) (heap : Heap V) :
    ∀ (rest done d0 d' : Dict V), 
      List.Forall₂ (fun x y => x.1 = y.1 ∧ x.1 ∈ exog ∧ validateVal coords heap x.1 x.2 = .ok y.2) d0 done →
      validateLoop exog coords heap done rest = (.ok (), d') →
      List.Forall₂ (fun x y => x.1 = y.1 ∧ x.1 ∈ exog ∧ validateVal coords heap x.1 x.2 = .ok y.2) (d0 ++ rest) d'
  | [], done, d0, d', h, he => by
    simp only [validateLoop, Prod.mk.injEq, true_and] at he
    subst he; simpa using h
  | (n, v) :: rest, done, d0, d', h, he => by
    unfold validateLoop at he
    split at he
    · simp at he
    · rename_i hn
      split at he
      · simp at he
      · rename_i v' hv
        have := validateLoop_ok exog coords heap rest (done ++ [(n, v')]) (d0 ++ [(n, v)]) d'
          (List.rel_append h (.cons ⟨rfl, not_not.mp hn, hv⟩ .nil)) he
        simpa using this

theorem validateLoop_ok_iff (exog : List String) (coords : List (String × List String)) (heap : Heap V) :
    ∀ (rest done d' : Dict V),
      List.Forall₂ (fun x y => x.1 = y.1 ∧ x.1 ∈ exog ∧ validateVal coords heap x.1 x.2 = .ok y.2) rest d' →
      validateLoop exog coords heap done rest = (.ok (), done ++ d')
  | [], done, d', h => by cases h; simp [validateLoop]
  | (n, v) :: rest, done, d', h => by
    cases h with
    | @cons _ y _ d'' h1 h2 =>
      obtain ⟨hn, hm, hv⟩ := h1
      obtain ⟨m, w⟩ := y
      simp only at hn hm hv
      subst hn
      unfold validateLoop
      simp only [hm, not_true_eq_false, if_false, hv]
      rw [validateLoop_ok_iff exog coords heap rest _ d'' h2]
      simp

theorem checkSteps_ok {heap : Heap V} {n : ℕ} :
    ∀ {d : Dict V}, checkSteps heap n d = .ok () ↔ ∀ x ∈ d, steps heap x.2 = .ok n
  | [] => by simp [checkSteps]
  | (m, v) :: rest => by
    simp only [checkSteps, List.mem_cons, forall_eq_or_imp]
    split
    · rename_i e he
      simp [he]
    · rename_i k hk
      split
      · rename_i hkn
        subst hkn
        rw [checkSteps_ok]
        simp [hk]
      · rename_i hkn
        simp only [hk, reduceCtorEq, false_iff, not_and]
        intro h
        cases h
        exact absurd rfl hkn

theorem steps_rows {heap : Heap V} {v : Val V} {n : ℕ} (h : steps heap v = .ok n) :
    (∃ vals, v = .vector vals) ∨ (∃ id, v = .frame id) ∨ (∃ i x, v = .series i x) ∨ (∃ k r, v = .array k r) := by
  cases v <;> simp [steps] at h ⊢

theorem steps_eq {heap : Heap V} {v : Val V} {n : ℕ} {rows : List (List V)} (h : steps heap v = .ok n)
    (hr : rowsGiven heap v = some rows) : rows.length = n := by
  cases v <;> simp [steps, rowsGiven] at h hr <;> subst_vars <;> try simp
  obtain ⟨f, hf, rfl⟩ := hr
  rw [hf] at h
  simpa using h

/-- What a successful validation establishes. -/
theorem validate_ok {exog : List String} {coords : List (String × List String)} {heap : Heap V} {d d' : Dict V}
    (h : validate exog coords heap d = (.ok (), d')) :
    List.Forall₂ (fun x y => x.1 = y.1 ∧ x.1 ∈ exog ∧ validateVal coords heap x.1 x.2 = .ok y.2) d d' ∧
    (∃ n, ∀ x ∈ d', steps heap x.2 = .ok n) ∧ d' ≠ [] ∧
    (∀ i ∈ frameIndices heap d', ∀ j ∈ frameIndices heap d', i.equals j = true) := by
  unfold validate at h
  split at h
  · simp at h
  · rename_i d1 h1
    have hl := validateLoop_ok exog coords heap d [] [] d1 .nil h1
    rw [List.nil_append] at hl
    split at h
    · simp at h
    · rename_i m first rest 
      split at h
      · simp at h
      · rename_i n hn
        split at h
        · simp at h
        · rename_i hc
          split at h
          · simp at h
          · rename_i hi
            simp only [Prod.mk.injEq, true_and] at h
            subst h
            refine ⟨hl, ⟨n, checkSteps_ok.mp hc⟩, by simp, ?_⟩
            unfold checkIndices at hi
            split at hi
            · rename_i he
              simp [he]
            · rename_i i is he
              rw [he]
              split at hi
              · rename_i ha
                simp only [List.all_eq_true] at ha
                intro a hma b hmb
                have h1 := (Idx.equals_iff _ _).mp (ha a hma)
                have h2 := (Idx.equals_iff _ _).mp (ha b hmb)
                exact (Idx.equals_iff _ _).mpr ⟨h1.1.trans h2.1.symm, h1.2.trans h2.2.symm⟩
              · cases hi

theorem validate_dict (exog : List String) (coords : List (String × List String)) (heap : Heap V) (d : Dict V) :
    (validate exog coords heap d).2 = (validateLoop exog coords heap [] d).2 := by
  unfold validate
  split
  · rename_i h; rw [h]
  · rename_i d1 h
    rw [h]
    split
    · rfl
    · split
      · rfl
      · split
        · rfl
        · split <;> rfl

theorem validate_forall₂ (exog : List String) (coords : List (String × List String)) (heap : Heap V) (d : Dict V)
    (R : String × Val V → String × Val V → Prop) (hrefl : ∀ x, R x x)
    (hstep : ∀ n v v', validateVal coords heap n v = .ok v' → R (n, v) (n, v')) :
    List.Forall₂ R d (validate exog coords heap d).2 := by
  rw [validate_dict]
  simpa using validateLoop_forall₂ exog coords heap R hrefl hstep d [] [] .nil

/-! ### The index is written -/

theorem setIndex_kept (fi : Idx) (id : ℕ) (heap : Heap V) : Kept heap (setIndex fi id heap).2 := by
  unfold setIndex
  split
  · exact Kept.refl _
  · rename_i f hf
    split
    · exact Kept.refl _
    · split
      · exact Kept.refl _
      · exact Kept.set _ _ _ _ hf

theorem setIndex_ok {fi : Idx} {id : ℕ} {heap heap' : Heap V} {v : Val V} (h : setIndex fi id heap = (.ok v, heap')) :
    v = .frame id ∧ ∃ f, heap'[id]? = some f ∧ f.idx.equals fi = true := by
  unfold setIndex at h
  split at h
  · simp at h
  · rename_i f hf
    split at h
    · rename_i he
      simp only [Prod.mk.injEq, Except.ok.injEq] at h
      obtain ⟨rfl, rfl⟩ := h
      exact ⟨rfl, f, hf, he⟩
    · split at h
      · simp at h
      · simp only [Prod.mk.injEq, Except.ok.injEq] at h
        obtain ⟨rfl, rfl⟩ := h
        have hl : id < heap.length := by
          by_contra hc
          rw [List.getElem?_eq_none (by omega)] at hf
          exact absurd hf (by simp)
        exact ⟨rfl, { f with idx := fi }, by rw [List.getElem?_set_self hl], Idx.equals_refl _⟩

theorem setIndex_untouched (fi : Idx) (id i : ℕ) (heap : Heap V) (h : i ≠ id) :
    (setIndex fi id heap).2[i]? = heap[i]? := by
  unfold setIndex
  split
  · rfl
  · split
    · rfl
    · split
      · rfl
      · simp only
        rw [List.getElem?_set_ne (Ne.symm h)]

theorem setIndex_rect (fi : Idx) (id : ℕ) (heap : Heap V) (h : Rect heap) : Rect (setIndex fi id heap).2 := by
  unfold setIndex
  split
  · exact h
  · rename_i f hf
    split
    · exact h
    · split
      · exact h
      · rename_i hl
        intro g hg
        rcases List.mem_or_eq_of_mem_set hg with hg | rfl
        · exact h g hg
        · simpa using (not_not.mp hl).symm

theorem setIndex_persist (fi : Idx) (id i : ℕ) (heap : Heap V) (f : Frame V) (hf : heap[i]? = some f)
    (he : f.idx.equals fi = true) : (setIndex fi id heap).2[i]? = some f := by
  by_cases h : i = id
  · subst h
    simp [setIndex, hf, he]
  · rw [setIndex_untouched fi id i heap h, hf]

theorem finalizeVal_kept (coords : List (String × List String)) (fi : Idx) (name : String) (heap : Heap V) (v : Val V) :
    Kept heap (finalizeVal coords fi name heap v).2 := by
  cases v with
  | frame id => exact setIndex_kept _ _ _
  | series i vals =>
    simp only [finalizeVal]
    split
    · exact Kept.refl _
    · exact Kept.refl _
    · exact (Kept.append _ _).trans (setIndex_kept _ _ _)
  | array k rows =>
    simp only [finalizeVal]
    split
    · exact Kept.refl _
    · split
      · exact Kept.refl _
      · exact Kept.append _ _
  | _ => exact Kept.refl _

theorem finalizeVal_untouched (coords : List (String × List String)) (fi : Idx) (name : String) (heap : Heap V) (v : Val V)
    (i : ℕ) (hi : i < heap.length) (hv : v ≠ .frame i) :
    (finalizeVal coords fi name heap v).2[i]? = heap[i]? := by
  cases v with
  | frame id => exact setIndex_untouched _ _ _ _ (fun h => hv (by rw [h]))
  | series j vals =>
    simp only [finalizeVal]
    split
    · rfl
    · rfl
    · rw [setIndex_untouched _ _ _ _ (by omega), List.getElem?_append_left hi]
  | array k rows =>
    simp only [finalizeVal]
    split
    · rfl
    · split
      · rfl
      · rw [List.getElem?_append_left hi]
  | _ => rfl

theorem finalizeVal_persist (coords : List (String × List String)) (fi : Idx) (name : String) (heap : Heap V) (v : Val V)
    (i : ℕ) (f : Frame V) (hf : heap[i]? = some f) (he : f.idx.equals fi = true) :
    (finalizeVal coords fi name heap v).2[i]? = some f := by
  have hi : i < heap.length := by
    by_contra hc
    rw [List.getElem?_eq_none (by omega)] at hf
    exact absurd hf (by simp)
  by_cases hv : v = .frame i
  · subst hv
    exact setIndex_persist _ _ _ _ _ hf he
  · rw [finalizeVal_untouched _ _ _ _ _ i hi hv, hf]

theorem finalizeVal_rect (coords : List (String × List String)) (fi : Idx) (name : String) (heap : Heap V) (v : Val V)
    (h : Rect heap) (hs : ∀ i vals, v = .series i vals → vals.length = i.labels.length) :
    Rect (finalizeVal coords fi name heap v).2 := by
  cases v with
  | frame id => exact setIndex_rect _ _ _ h
  | series j vals =>
    simp only [finalizeVal]
    split
    · exact h
    · exact h
    · refine setIndex_rect _ _ _ ?_
      intro g hg
      rcases List.mem_append.mp hg with hg | hg
      · exact h g hg
      · simp only [List.mem_singleton] at hg
        subst hg
        simpa using hs j vals rfl
  | array k rows =>
    simp only [finalizeVal]
    split
    · exact h
    · split
      · exact h
      · rename_i hc
        push Not at hc
        intro g hg
        rcases List.mem_append.mp hg with hg | hg
        · exact h g hg
        · simp only [List.mem_singleton] at hg
          subst hg
          exact hc.1
  | _ => exact h

/-- One finalised value: a frame with the forecast index and the user's numbers. -/
theorem finalizeVal_ok {coords : List (String × List String)} {fi : Idx} {name : String} {heap heap' : Heap V} {v v' : Val V}
    (h : finalizeVal coords fi name heap v = (.ok v', heap')) :
    (v' = v ∧ heap' = heap ∧ (v = .none ∨ v = .other ∨ (∃ x, v = .vector x) ∨ ∃ x, v = .pyList x)) ∨
    ∃ id f, v' = .frame id ∧ heap'[id]? = some f ∧ f.idx.equals fi = true ∧ rowsGiven heap v = some f.rows := by
  cases v with
  | frame id =>
    right
    obtain ⟨rfl, f, hf, he⟩ := setIndex_ok h
    refine ⟨id, f, rfl, hf, he, ?_⟩
    have hk := setIndex_kept fi id heap
    simp only [finalizeVal] at h
    rw [h] at hk
    have : ∃ g, heap[id]? = some g := by
      unfold setIndex at h
      split at h
      · simp at h
      · exact ⟨_, by assumption⟩
    obtain ⟨g, hg⟩ := this
    obtain ⟨f', h1, _, h3⟩ := hk id g hg
    simp only at h1
    rw [hf] at h1
    cases h1
    simp [rowsGiven, hg, h3]
  | series j vals =>
    right
    simp only [finalizeVal] at h
    split at h
    · simp at h
    · simp at h
    · rename_i c cs hc
      obtain ⟨rfl, f, hf, he⟩ := setIndex_ok h
      refine ⟨_, f, rfl, hf, he, ?_⟩
      have hk := setIndex_kept fi heap.length (heap ++ [⟨j, [c], vals.map fun x => [x]⟩])
      rw [h] at hk
      obtain ⟨f', h1, _, h3⟩ := hk heap.length ⟨j, [c], vals.map fun x => [x]⟩ (by simp)
      simp only at h1
      rw [hf] at h1
      cases h1
      simp [rowsGiven, h3]
  | array k rows =>
    right
    simp only [finalizeVal] at h
    split at h
    · simp at h
    · rename_i cols hc
      split at h
      · simp at h
      · simp only [Prod.mk.injEq, Except.ok.injEq] at h
        obtain ⟨rfl, rfl⟩ := h
        exact ⟨_, ⟨fi, cols, rows⟩, rfl, by simp, Idx.equals_refl _, rfl⟩
  | none => left; simp only [finalizeVal, Prod.mk.injEq, Except.ok.injEq] at h; obtain ⟨rfl, rfl⟩ := h; simp
  | other => left; simp only [finalizeVal, Prod.mk.injEq, Except.ok.injEq] at h; obtain ⟨rfl, rfl⟩ := h; simp
  | vector x => left; simp only [finalizeVal, Prod.mk.injEq, Except.ok.injEq] at h; obtain ⟨rfl, rfl⟩ := h; simp
  | pyList x => left; simp only [finalizeVal, Prod.mk.injEq, Except.ok.injEq] at h; obtain ⟨rfl, rfl⟩ := h; simp

theorem finalizeLoop_kept (coords : List (String × List String)) (fi : Idx) :
    ∀ (rest done : Dict V) (heap : Heap V), Kept heap (finalizeLoop coords fi done rest heap).2.2
  | [], done, heap => Kept.refl _
  | (n, v) :: rest, done, heap => by
    unfold finalizeLoop
    have hk := finalizeVal_kept coords fi n heap v
    split
    · rename_i e heap' he
      rw [he] at hk; exact hk
    · rename_i v' heap' he
      rw [he] at hk
      exact hk.trans (finalizeLoop_kept coords fi rest _ heap')

theorem finalizeLoop_untouched (coords : List (String × List String)) (fi : Idx) (i : ℕ) :
    ∀ (rest done : Dict V) (heap : Heap V), i < heap.length → (∀ n, (n, Val.frame i) ∉ rest) →
      (finalizeLoop coords fi done rest heap).2.2[i]? = heap[i]?
  | [], done, heap, _, _ => rfl
  | (n, v) :: rest, done, heap, hi, hr => by
    have hv : v ≠ .frame i := fun h => hr n (by simp [h])
    have hu := finalizeVal_untouched coords fi n heap v i hi hv
    have hk := finalizeVal_kept coords fi n heap v
    unfold finalizeLoop
    split
    · rename_i e heap' he
      rw [he] at hu; exact hu
    · rename_i v' heap' he
      rw [he] at hu hk
      rw [finalizeLoop_untouched coords fi i rest _ heap' (lt_of_lt_of_le hi hk.length_le)
        (fun m hm => hr m (by simp [hm])), hu]

theorem finalizeLoop_persist (coords : List (String × List String)) (fi : Idx) (i : ℕ) (f : Frame V)
    (he : f.idx.equals fi = true) :
    ∀ (rest done : Dict V) (heap : Heap V), heap[i]? = some f →
      (finalizeLoop coords fi done rest heap).2.2[i]? = some f
  | [], done, heap, hf => hf
  | (n, v) :: rest, done, heap, hf => by
    have hu := finalizeVal_persist coords fi n heap v i f hf he
    unfold finalizeLoop
    split
    · rename_i e heap' h
      rw [h] at hu; exact hu
    · rename_i v' heap' h
      rw [h] at hu
      exact finalizeLoop_persist coords fi i f he rest _ heap' hu

theorem finalizeLoop_rect (coords : List (String × List String)) (fi : Idx) :
    ∀ (rest done : Dict V) (heap : Heap V), Rect heap → RectDict rest →
      Rect (finalizeLoop coords fi done rest heap).2.2
  | [], done, heap, h, _ => h
  | (n, v) :: rest, done, heap, h, hd => by
    have hu := finalizeVal_rect coords fi n heap v h (fun i vals hv => hd n i vals (by simp [hv]))
    unfold finalizeLoop
    split
    · rename_i e heap' h
      rw [h] at hu; exact hu
    · rename_i v' heap' h
      rw [h] at hu
      exact finalizeLoop_rect coords fi rest _ heap' hu (fun m i x hm => hd m i x (by simp [hm]))

/-- The numbers in the dictionary never change, whether or not the loop finishes. -/
theorem finalizeLoop_rows (coords : List (String × List String)) (fi : Idx) (h0 : Heap V) :
    ∀ (rest done d0 : Dict V) (heap : Heap V), Kept h0 heap → Valid heap rest →
      (∀ x ∈ d0, ∀ id, x.2 = .frame id → id < h0.length) → (∀ x ∈ rest, ∀ id, x.2 = .frame id → id < h0.length) →
      List.Forall₂ (fun x y => x.1 = y.1 ∧ rowsGiven heap y.2 = rowsGiven h0 x.2 ∧
        ∀ id, y.2 = .frame id → id < heap.length) d0 done →
      List.Forall₂ (fun x y => x.1 = y.1 ∧
        rowsGiven (finalizeLoop coords fi done rest heap).2.2 y.2 = rowsGiven h0 x.2 ∧
        ∀ id, y.2 = .frame id → id < (finalizeLoop coords fi done rest heap).2.2.length)
        (d0 ++ rest) (finalizeLoop coords fi done rest heap).2.1
  | [], done, d0, heap, _, _, _, _, hd => by simpa [finalizeLoop] using hd
  | (n, v) :: rest, done, d0, heap, hk0, hv, hvd, hvr, hd => by
    have hk := finalizeVal_kept coords fi n heap v
    have hmono : ∀ heap' : Heap V, Kept heap heap' →
        List.Forall₂ (fun x y => x.1 = y.1 ∧ rowsGiven heap' y.2 = rowsGiven h0 x.2 ∧
        ∀ id, y.2 = .frame id → id < heap'.length) d0 done := by
      intro heap' hh
      refine hd.imp ?_
      rintro x y ⟨h1, h2, h3⟩
      refine ⟨h1, ?_, fun id hid => lt_of_lt_of_le (h3 id hid) hh.length_le⟩
      rw [hh.rowsGiven _ h3, h2]
    have hrest : ∀ heap' : Heap V, Kept heap heap' → ∀ l : Dict V, (∀ x ∈ l, ∀ id, x.2 = .frame id → id < h0.length) →
        List.Forall₂ (fun x y => x.1 = y.1 ∧ rowsGiven heap' y.2 = rowsGiven h0 x.2 ∧
        ∀ id, y.2 = .frame id → id < heap'.length) l l := by
      intro heap' hh l hl
      have hk' := hk0.trans hh
      induction l with
      | nil => exact .nil
      | cons x l ih =>
        refine .cons ⟨rfl, hk'.rowsGiven _ (hl x (by simp)), fun id hid => ?_⟩ (ih fun y hy => hl y (by simp [hy]))
        exact lt_of_lt_of_le (hl x (by simp) id hid) hk'.length_le
    unfold finalizeLoop
    split
    · rename_i e heap' he
      rw [he] at hk
      exact List.rel_append (hmono heap' hk) (hrest heap' hk _ hvr)
    · rename_i v' heap' he
      rw [he] at hk
      have hvv : rowsGiven heap' v' = rowsGiven h0 v ∧ ∀ id, v' = .frame id → id < heap'.length := by
        have hvx : ∀ id, v = .frame id → id < heap.length := fun id h => hv n id (by simp [h])
        have hvx0 : ∀ id, v = .frame id → id < h0.length := fun id h => hvr (n, v) (by simp) id h
        have e0 : rowsGiven heap v = rowsGiven h0 v := hk0.rowsGiven v hvx0
        rcases finalizeVal_ok he with ⟨rfl, rfl, _⟩ | ⟨id, f, rfl, hf, _, hr⟩
        · exact ⟨e0, hvx⟩
        · refine ⟨?_, ?_⟩
          · rw [← e0, hr]; simp [rowsGiven, hf]
          · intro id' h
            cases h
            by_contra hc
            rw [List.getElem?_eq_none (by omega)] at hf
            exact absurd hf (by simp)
      have := finalizeLoop_rows coords fi h0 rest (done ++ [(n, v')]) (d0 ++ [(n, v)]) heap' (hk0.trans hk)
        (fun m id hm => lt_of_lt_of_le (hv m id (by simp [hm])) hk.length_le)
        (by
          intro x hx
          rcases List.mem_append.mp hx with hx | hx
          · exact hvd x hx
          · simp only [List.mem_singleton] at hx; subst hx; exact hvr (n, v) (by simp))
        (fun x hx => hvr x (by simp [hx]))
        (List.rel_append (hmono heap' hk) (.cons ⟨rfl, hvv⟩ .nil))
      simpa using this

/-- After a successful loop every entry is a frame with the forecast index, and whatever holds of each frame when it is
written still holds at the end. -/
theorem finalizeLoop_ok (coords : List (String × List String)) (fi : Idx) (Q : String → Frame V → Prop) (h0 : Heap V) :
    ∀ (rest done d' : Dict V) (heap heap' : Heap V), Kept h0 heap →
      (∀ x ∈ done, ∃ id f, x.2 = .frame id ∧ heap[id]? = some f ∧ f.idx.equals fi = true ∧ Q x.1 f) →
      (∀ x ∈ rest, ∀ (h1 h2 : Heap V) (v' : Val V), Kept h0 h1 → finalizeVal coords fi x.1 h1 x.2 = (.ok v', h2) →
        ∃ id f, v' = .frame id ∧ h2[id]? = some f ∧ f.idx.equals fi = true ∧ Q x.1 f) →
      finalizeLoop coords fi done rest heap = (.ok (), d', heap') →
      ∀ x ∈ d', ∃ id f, x.2 = .frame id ∧ heap'[id]? = some f ∧ f.idx.equals fi = true ∧ Q x.1 f
  | [], done, d', heap, heap', _, hd, _, h => by
    simp only [finalizeLoop, Prod.mk.injEq, true_and] at h
    obtain ⟨rfl, rfl⟩ := h
    exact hd
  | (n, v) :: rest, done, d', heap, heap', hk, hd, hr, h => by
    unfold finalizeLoop at h
    split at h
    · simp at h
    · rename_i v' heap1 he
      have hk1 := finalizeVal_kept coords fi n heap v
      rw [he] at hk1
      refine finalizeLoop_ok coords fi Q h0 rest (done ++ [(n, v')]) d' heap1 heap' (hk.trans hk1) ?_
        (fun x hx => hr x (by simp [hx])) h
      intro x hx
      rcases List.mem_append.mp hx with hx | hx
      · obtain ⟨id, f, h1, h2, h3, h4⟩ := hd x hx
        have := finalizeVal_persist coords fi n heap v id f h2 h3
        rw [he] at this
        exact ⟨id, f, h1, this, h3, h4⟩
      · simp only [List.mem_singleton] at hx
        subst hx
        exact hr (n, v) (by simp) heap heap1 v' hk he

/-- The loop keeps what is already done in front. -/
theorem finalizeLoop_prefix (coords : List (String × List String)) (fi : Idx) :
    ∀ (rest done : Dict V) (heap : Heap V), ∃ tl, (finalizeLoop coords fi done rest heap).2.1 = done ++ tl
  | [], done, heap => ⟨[], by simp [finalizeLoop]⟩
  | (n, v) :: rest, done, heap => by
    unfold finalizeLoop
    split
    · exact ⟨_, rfl⟩
    · rename_i v' heap' _
      obtain ⟨tl, h⟩ := finalizeLoop_prefix coords fi rest (done ++ [(n, v')]) heap'
      exact ⟨(n, v') :: tl, by rw [h]; simp⟩

/-- A relation between the dictionary before and after the loop that every entry satisfies, finalised or not. -/
theorem finalizeLoop_forall₂ (coords : List (String × List String)) (fi : Idx)
    (R : String × Val V → String × Val V → Prop) (hrefl : ∀ x, R x x)
    (hstep : ∀ n heap v v' heap', finalizeVal coords fi n heap v = (.ok v', heap') → R (n, v) (n, v')) :
    ∀ (rest done d0 : Dict V) (heap : Heap V), List.Forall₂ R d0 done →
      List.Forall₂ R (d0 ++ rest) (finalizeLoop coords fi done rest heap).2.1
  | [], done, d0, heap, h => by simpa [finalizeLoop] using h
  | (n, v) :: rest, done, d0, heap, h => by
    have hr : ∀ l : Dict V, List.Forall₂ R l l := fun l => by
      induction l with
      | nil => exact .nil
      | cons x l ih => exact .cons (hrefl x) ih
    unfold finalizeLoop
    split
    · exact List.rel_append h (hr _)
    · rename_i v' heap' hv
      have := finalizeLoop_forall₂ coords fi R hrefl hstep rest (done ++ [(n, v')]) (d0 ++ [(n, v)]) heap'
        (List.rel_append h (.cons (hstep n heap v v' heap' hv) .nil))
      simpa using this

theorem lookup_forall₂ {R : String × Val V → String × Val V → Prop} (hk : ∀ x y, R x y → x.1 = y.1) {n : String}
    {w : Val V} : ∀ {d d' : Dict V}, List.Forall₂ R d d' → d'.lookup n = some w →
      ∃ v, d.lookup n = some v ∧ R (n, v) (n, w)
  | [], _, h, hl => by cases h; simp at hl
  | (m, v) :: d, _, h, hl => by
    cases h with
    | @cons _ y _ d' h1 h2 =>
      obtain ⟨m', v'⟩ := y
      have := hk _ _ h1
      simp only at this
      subst this
      simp only [List.lookup_cons] at hl ⊢
      by_cases hm : n = m
      · subst hm
        simp only [BEq.rfl] at hl ⊢
        cases hl
        exact ⟨v, rfl, h1⟩
      · have hb : (n == m) = false := by simpa using hm
        simp only [hb] at hl ⊢
        exact lookup_forall₂ hk h2 hl

theorem forall₂_mem {α β : Type} {R : α → β → Prop} : ∀ {l : List α} {l' : List β}, List.Forall₂ R l l' →
    ∀ x ∈ l, ∃ y ∈ l', R x y
  | [], _, _, x, hx => by simp at hx
  | a :: l, _, h, x, hx => by
    cases h with
    | @cons _ b _ l' h1 h2 =>
      rcases List.mem_cons.mp hx with rfl | hx
      · exact ⟨b, by simp, h1⟩
      · obtain ⟨y, hy, hr⟩ := forall₂_mem h2 x hx
        exact ⟨y, by simp [hy], hr⟩

theorem forall₂_mem' {α β : Type} {R : α → β → Prop} : ∀ {l : List α} {l' : List β}, List.Forall₂ R l l' →
    ∀ y ∈ l', ∃ x ∈ l, R x y
  | _, [], _, x, hx => by simp at hx
  | _, b :: l', h, y, hy => by
    cases h with
    | @cons a _ l _ h1 h2 =>
      rcases List.mem_cons.mp hy with rfl | hy
      · exact ⟨a, by simp, h1⟩
      · obtain ⟨x, hx, hr⟩ := forall₂_mem' h2 y hy
        exact ⟨x, by simp [hx], hr⟩

/-- When every entry is a frame that already has the forecast index, the loop changes nothing. -/
theorem finalizeLoop_fixed (coords : List (String × List String)) (fi : Idx) :
    ∀ (rest done : Dict V) (heap : Heap V),
      (∀ x ∈ rest, ∃ id f, x.2 = .frame id ∧ heap[id]? = some f ∧ f.idx.equals fi = true) →
      finalizeLoop coords fi done rest heap = (.ok (), done ++ rest, heap)
  | [], done, heap, _ => by simp [finalizeLoop]
  | (n, v) :: rest, done, heap, h => by
    obtain ⟨id, f, h1, h2, h3⟩ := h (n, v) (by simp)
    simp only at h1
    subst h1
    have : finalizeVal coords fi n heap (.frame id) = (.ok (.frame id), heap) := by
      simp [finalizeVal, setIndex, h2, h3]
    unfold finalizeLoop
    rw [this]
    simp only
    rw [finalizeLoop_fixed coords fi rest _ heap (fun x hx => h x (by simp [hx]))]
    simp

end Verif.Forecast.Obj
