import Verif.Marginal.State
import Mathlib.Data.List.Nodup

/-! # C48, C49, C103–C106: bookkeeping of marginalised variables -/

set_option autoImplicit false

namespace MargState

/-! ### Specification -/

/-- A distribution the library can marginalise: a finite discrete one, or a first-order Markov chain
with a matrix of transition probabilities. -/
def Supported (k : Kind) : Prop :=
  k = .finite ∨ ∃ n p, k = .chain n p ∧ n ≤ 1 ∧ p ≤ 2

/-- Consistent bookkeeping: free variables are registered under their names once; marginalised ones are
not registered; the two dictionaries are different objects. -/
structure WF (m : Mdl) : Prop where
  named : m.named.Nodup
  free : m.free.Nodup
  marg : m.marg.Nodup
  sub : ∀ x ∈ m.free, x ∈ m.named
  disj : ∀ x ∈ m.marg, x ∉ m.named
  refs : m.dims ≠ m.mdims

/-! ### Lemmas -/

theorem kindError_none_iff (k : Kind) : kindError k = none ↔ Supported k := by
  cases k with
  | finite => simp [kindError, Supported]
  | chain n p =>
    unfold kindError Supported
    by_cases h1 : n > 1
    · simp [h1]; omega
    · by_cases h2 : p > 2
      · simp [h1, h2]
      · simp [h1, h2]; omega
  | other => simp [kindError, Supported]

theorem kindError_some {k : Kind} {e : Err} (h : kindError k = some e) : e = .notImplemented := by
  cases k with
  | finite => simp [kindError] at h
  | chain n p =>
    by_cases h1 : n > 1
    · simpa [kindError, h1] using h.symm
    · by_cases h2 : p > 2
      · simpa [kindError, h1, h2] using h.symm
      · simp [kindError, h1, h2] at h
  | other => simpa [kindError] using h.symm

theorem moveOne_marg (h : Heap) (m : Mdl) (x : String) : (moveOne h m x).2.marg = m.marg ++ [x] := rfl
theorem moveOne_free (h : Heap) (m : Mdl) (x : String) : (moveOne h m x).2.free = m.free.erase x := rfl
theorem moveOne_named (h : Heap) (m : Mdl) (x : String) :
    (moveOne h m x).2.named = m.named.erase x := rfl

/-! ### C48 -/

/-- **C48.** `recover_marginals` never raises for unknown names: it recovers the marginalised
variables that were named, in the order of marginalisation, and ignores all other names. -/
theorem C48_unknown_names_ignored (m : Mdl) (names : List Item) :
    recoverTargets m (some names)
      = .ok (m.marg.filter (fun v => decide (v ∈ names.map Item.target))) := by
  unfold recoverTargets
  simp only
  rw [if_neg]
  rw [ne_eq, not_not, List.filter_eq_nil_iff]
  intro a ha
  have := (List.mem_filter.1 ha).1
  simp [this]

/-- **C48.** Without names, all marginalised variables are recovered. -/
theorem C48_default_recovers_all (m : Mdl) : recoverTargets m none = .ok m.marg := by
  unfold recoverTargets
  have h1 : m.marg.filter (fun v => decide (v ∈ m.marg)) = m.marg := by
    rw [List.filter_eq_self]
    intro a ha
    simp [ha]
  simp only [h1]
  rw [if_neg]
  rw [ne_eq, not_not, List.filter_eq_nil_iff]
  intro a ha
  simp [ha]

/-- A misspelt name is ignored. -/
example : recoverTargets ⟨["y"], [], ["y"], ["x"], 0, 1⟩ (some [.name "z"]) = .ok [] := by decide

/-! ### C49 -/

/-- **C49.** The loop of `marginalize` either moves every listed variable from the free to the
marginalised ones, or stops at the first offending one (not free, listed twice, or of an unsupported
distribution) with exactly the earlier ones moved. -/
theorem C49_stops_at_first_offender (kind : String → Kind) (xs : List String) :
    ∀ (h : Heap) (m : Mdl), m.free.Nodup →
    let r := marginalizeLoop kind xs h m
    (r.2 = none ∧ r.1.2.marg = m.marg ++ xs ∧ r.1.2.free = m.free.filter (fun v => decide (v ∉ xs)) ∧
      xs.Nodup ∧ ∀ x ∈ xs, x ∈ m.free ∧ Supported (kind x)) ∨
    ∃ pre x post err, xs = pre ++ x :: post ∧ r.2 = some err ∧ r.1.2.marg = m.marg ++ pre ∧
      r.1.2.free = m.free.filter (fun v => decide (v ∉ pre)) ∧
      (pre.Nodup ∧ ∀ y ∈ pre, y ∈ m.free ∧ Supported (kind y)) ∧
      (((x ∉ m.free ∨ x ∈ pre) ∧ err = .valueError) ∨
       (x ∈ m.free ∧ x ∉ pre ∧ ¬ Supported (kind x) ∧ err = .notImplemented)) := by
  induction xs with
  | nil =>
    intro h m hf
    left
    simp [marginalizeLoop]
  | cons x xs ih =>
    intro h m hf
    simp only [marginalizeLoop]
    by_cases hx : x ∉ m.free
    · rw [if_pos hx]
      right
      refine ⟨[], x, xs, .valueError, rfl, rfl, by simp, (List.filter_eq_self.2 (by simp)).symm, by simp, Or.inl ⟨Or.inl hx, rfl⟩⟩
    · rw [if_neg hx]
      have hx' : x ∈ m.free := by simpa using hx
      cases hk : kindError (kind x) with
      | some e =>
        right
        refine ⟨[], x, xs, e, rfl, rfl, by simp, (List.filter_eq_self.2 (by simp)).symm, by simp, Or.inr ⟨hx', by simp, ?_,
          kindError_some hk⟩⟩
        rw [← kindError_none_iff, hk]
        simp
      | none =>
        have hsup : Supported (kind x) := (kindError_none_iff _).1 hk
        have hfree : (moveOne h m x).2.free = m.free.filter (fun v => decide (v ≠ x)) := by
          rw [moveOne_free, hf.erase_eq_filter]
          apply List.filter_congr
          intro a _
          by_cases ha : a = x <;> simp [ha]
        have hnd : (moveOne h m x).2.free.Nodup := by rw [hfree]; exact hf.filter _
        have hmem : ∀ y, y ∈ (moveOne h m x).2.free ↔ y ∈ m.free ∧ y ≠ x := by
          intro y; rw [hfree, List.mem_filter]; simp
        have hfilter : ∀ l : List String, (m.free.filter (fun v => decide (v ≠ x))).filter
            (fun v => decide (v ∉ l)) = m.free.filter (fun v => decide (v ∉ x :: l)) := by
          intro l
          rw [List.filter_filter]
          apply List.filter_congr
          intro a _
          by_cases ha : a = x <;> simp [ha]
        rcases ih (moveOne h m x).1 (moveOne h m x).2 hnd with ⟨h1, h2, h3, h4, h5⟩ |
          ⟨pre, y, post, err, h1, h2, h3, h4, h5, h6⟩
        · left
          refine ⟨h1, ?_, ?_, ?_, ?_⟩
          · rw [h2, moveOne_marg]; simp
          · rw [h3, hfree, hfilter]
          · rw [List.nodup_cons]
            exact ⟨fun hm => ((hmem x).1 (h5 x hm).1).2 rfl, h4⟩
          · intro y hy
            rcases List.mem_cons.1 hy with rfl | hy
            · exact ⟨hx', hsup⟩
            · exact ⟨((hmem y).1 (h5 y hy).1).1, (h5 y hy).2⟩
        · right
          refine ⟨x :: pre, y, post, err, by rw [h1]; rfl, h2, ?_, ?_, ?_, ?_⟩
          · rw [h3, moveOne_marg]; simp
          · rw [h4, hfree, hfilter]
          · refine ⟨?_, ?_⟩
            · rw [List.nodup_cons]
              exact ⟨fun hm => ((hmem x).1 (h5.2 x hm).1).2 rfl, h5.1⟩
            · intro z hz
              rcases List.mem_cons.1 hz with rfl | hz
              · exact ⟨hx', hsup⟩
              · exact ⟨((hmem z).1 (h5.2 z hz).1).1, (h5.2 z hz).2⟩
          · rcases h6 with ⟨h7 | h7, h8⟩ | ⟨h7, h8, h9, h10⟩
            · left
              refine ⟨?_, h8⟩
              by_cases hyx : y = x
              · right; simp [hyx]
              · left; exact fun hm => h7 ((hmem y).2 ⟨hm, hyx⟩)
            · left
              exact ⟨Or.inr (by simp [h7]), h8⟩
            · right
              have := (hmem y).1 h7
              exact ⟨this.1, by simp [h8, this.2], h9, h10⟩

theorem mapM_resolve_error {m : Mdl} {l : List Item} {s : String} (hs : Item.name s ∈ l)
    (hn : s ∉ m.named) : l.mapM (resolve m) = .error .keyError := by
  induction l with
  | nil => simp at hs
  | cons i l ih =>
    rw [List.mapM_cons]
    rcases List.mem_cons.1 hs with rfl | hs
    · have hr : resolve m (.name s) = .error .keyError := by
        unfold resolve
        exact if_neg hn
      rw [hr]
      rfl
    · cases hi : resolve m i with
      | error e =>
        have : e = .keyError := by
          cases i with
          | name t =>
            by_cases ht : t ∈ m.named
            · simp [resolve, ht] at hi
            · simpa [resolve, ht] using hi.symm
          | var t => simp [resolve] at hi
        subst this
        rfl
      | ok a => rw [ih hs]; rfl

/-- **C49.** A name that is not in the model, wherever it stands in the list, raises KeyError and
nothing is changed. -/
theorem C49_unknown_name_changes_nothing (kind : String → Kind) (check : Mdl → Bool) {l : List Item}
    {s : String} (h : Heap) (m : Mdl) (hs : Item.name s ∈ l) (hn : s ∉ m.named) :
    marginalizeMethod kind check (.list l) h m = ((h, m), some .keyError) := by
  unfold marginalizeMethod
  simp only [Arg.items, mapM_resolve_error hs hn]

/-- **C49.** If the final check on the whole model fails (for instance because nothing depends on a
variable), the exception is raised after every listed variable has been removed. -/
theorem C49_check_failure_leaves_all_removed (kind : String → Kind) {xs : List String} (h : Heap)
    {m : Mdl} (hf : m.free.Nodup) (hxs : xs.Nodup) (hfree : ∀ x ∈ xs, x ∈ m.free)
    (hsup : ∀ x ∈ xs, Supported (kind x)) :
    ∃ h' m', marginalizeMethod kind (fun _ => false) (.list (xs.map Item.var)) h m
        = ((h', m'), some .check) ∧
      m'.marg = m.marg ++ xs ∧ m'.free = m.free.filter (fun v => decide (v ∉ xs)) := by
  unfold marginalizeMethod
  have hr : (Arg.list (xs.map Item.var)).items.mapM (resolve m) = .ok xs := by
    simp only [Arg.items]
    clear hxs hfree hsup
    induction xs with
    | nil => rfl
    | cons x xs ih => rw [List.map_cons, List.mapM_cons, ih]; rfl
  rw [hr]
  simp only
  rcases C49_stops_at_first_offender kind xs h m hf with ⟨h1, h2, h3, _⟩ |
    ⟨pre, x, post, err, h1, _, _, _, _, h6⟩
  · generalize hL : marginalizeLoop kind xs h m = L at h1 h2 h3 ⊢
    obtain ⟨⟨h', m'⟩, e⟩ := L
    simp only at h1 h2 h3
    subst h1
    exact ⟨h', m', by simp, h2, h3⟩
  · exfalso
    have hxmem : x ∈ xs := by rw [h1]; simp
    rcases h6 with ⟨h7 | h7, _⟩ | ⟨_, _, h9, _⟩
    · exact h7 (hfree x hxmem)
    · rw [h1] at hxs
      exact (List.nodup_append.1 hxs).2.2 x h7 x (by simp) rfl
    · exact h9 (hsup x hxmem)

/-- A concrete failing call: the second of three variables is continuous; the first is gone. -/
example : marginalizeLoop (fun s => if s = "mu" then .other else .finite) ["a", "mu", "b"]
    ⟨fun _ _ => none, 2⟩ ⟨["a", "b", "mu", "y"], ["a", "b", "mu"], ["y"], [], 0, 1⟩
    |>.1.2 |> fun m => m = ⟨["b", "mu", "y"], ["b", "mu"], ["y"], ["a"], 0, 1⟩ := by decide

/-! ### The bookkeeping stays consistent -/

theorem WF_moveOne {h : Heap} {m : Mdl} (w : WF m) {x : String} (hx : x ∈ m.free) :
    WF (moveOne h m x).2 := by
  have hxn := w.sub x hx
  constructor
  · rw [moveOne_named]; exact w.named.erase x
  · rw [moveOne_free]; exact w.free.erase x
  · rw [moveOne_marg, List.nodup_append]
    refine ⟨w.marg, by simp, ?_⟩
    intro a ha b hb
    have hb' : b = x := by simpa using hb
    subst hb'
    rintro rfl
    exact w.disj a ha hxn
  · intro y hy
    rw [moveOne_free, w.free.mem_erase_iff] at hy
    rw [moveOne_named, w.named.mem_erase_iff]
    exact ⟨hy.1, w.sub y hy.2⟩
  · intro y hy hc
    rw [moveOne_named, w.named.mem_erase_iff] at hc
    rw [moveOne_marg, List.mem_append] at hy
    rcases hy with hy | hy
    · exact w.disj y hy hc.2
    · exact hc.1 (by simpa using hy)
  · exact w.refs

theorem WF_loop (kind : String → Kind) (xs : List String) : ∀ (h : Heap) (m : Mdl), WF m →
    WF (marginalizeLoop kind xs h m).1.2 := by
  induction xs with
  | nil => intro h m w; exact w
  | cons x xs ih =>
    intro h m w
    simp only [marginalizeLoop]
    by_cases hx : x ∉ m.free
    · rw [if_pos hx]; exact w
    · rw [if_neg hx]
      cases kindError (kind x) with
      | some e => exact w
      | none => exact ih _ _ (WF_moveOne w (by simpa using hx))

/-- Consistency is preserved by `marginalize`, whether it succeeds or fails. -/
theorem WF_marginalize (kind : String → Kind) (check : Mdl → Bool) (a : Arg) (h : Heap) (m : Mdl)
    (w : WF m) : WF (marginalizeMethod kind check a h m).1.2 := by
  unfold marginalizeMethod
  cases hr : a.items.mapM (resolve m) with
  | error e => exact w
  | ok xs =>
    have hw := WF_loop kind xs h m w
    simp only
    generalize marginalizeLoop kind xs h m = L at hw ⊢
    obtain ⟨s, e⟩ := L
    cases e with
    | some e => exact hw
    | none =>
      simp only
      by_cases hc : check s.2 = true
      · rw [if_pos hc]; exact hw
      · rw [if_neg hc]; exact hw

theorem WF_unmarginalizeOne (h : Heap) (m : Mdl) (i : Item) (w : WF m) :
    WF (unmarginalizeOne h m i).1.2 := by
  unfold unmarginalizeOne
  cases resolve m i with
  | error e => exact w
  | ok x =>
    simp only
    by_cases hx : x ∉ m.marg
    · rw [if_pos hx]; exact w
    · rw [if_neg hx]
      have hx' : x ∈ m.marg := by simpa using hx
      have hn := w.disj x hx'
      rw [if_neg hn]
      constructor
      · show (m.named ++ [x]).Nodup
        rw [List.nodup_append]
        exact ⟨w.named, by simp, by
          intro a ha b hb; have : b = x := by simpa using hb
          subst this; rintro rfl; exact hn ha⟩
      · show (m.free ++ [x]).Nodup
        rw [List.nodup_append]
        exact ⟨w.free, by simp, by
          intro a ha b hb; have : b = x := by simpa using hb
          subst this; rintro rfl; exact hn (w.sub _ ha)⟩
      · exact w.marg.erase x
      · intro y hy
        show y ∈ m.named ++ [x]
        have hy' : y ∈ m.free ++ [x] := hy
        rw [List.mem_append] at hy' ⊢
        exact hy'.imp (w.sub y) id
      · intro y hy hc
        have hy' : y ∈ m.marg.erase x := hy
        have hc' : y ∈ m.named ++ [x] := hc
        rw [w.marg.mem_erase_iff] at hy'
        rw [List.mem_append] at hc'
        rcases hc' with hc' | hc'
        · exact w.disj y hy'.2 hc'
        · exact hy'.1 (by simpa using hc')
      · exact w.refs

/-! ### C103 -/

/-- **C103.** `unmarginalize` accepts names according to its signature, but the name of a marginalised
variable always raises KeyError: the variable was removed from the named variables when it was
marginalised. -/
theorem C103_by_name_always_fails (h : Heap) (m : Mdl) (w : WF m) {x : String} (hx : x ∈ m.marg) :
    unmarginalizeOne h m (.name x) = ((h, m), some .keyError) := by
  have hr : resolve m (.name x) = .error .keyError := by
    unfold resolve
    exact if_neg (w.disj x hx)
  unfold unmarginalizeOne
  rw [hr]

/-- **C103.** By variable it succeeds: the variable leaves the marginalised list, becomes the *last*
free variable, and gets its dimension names back. -/
theorem C103_by_variable_restores (h : Heap) (m : Mdl) (w : WF m) {x : String} (hx : x ∈ m.marg) :
    ∃ h' m', unmarginalizeOne h m (.var x) = ((h', m'), none) ∧
      m'.marg = m.marg.erase x ∧ m'.free = m.free ++ [x] ∧
      (∀ d, h.dict m.mdims x = some d → h'.dict m'.dims x = some d) ∧
      (∀ y ≠ x, h'.dict m'.dims y = h.dict m.dims y) := by
  unfold unmarginalizeOne resolve
  simp only
  rw [if_neg (by simpa using hx), if_neg (w.disj x hx)]
  refine ⟨_, _, rfl, rfl, rfl, ?_, ?_⟩
  · intro d hd
    simp only [hd, Heap.set, if_true]
  · intro y hy
    cases hd : h.dict m.mdims x with
    | none => simp [Heap.set, w.refs]
    | some d => simp [Heap.set, hy, w.refs]

/-- The step of `C103_list`. -/
theorem unmarginalizeOne_dicts (h : Heap) (m : Mdl) (w : WF m) {x : String} (hx : x ∈ m.marg) :
    ∃ h' m', unmarginalizeOne h m (.var x) = ((h', m'), none) ∧ m'.marg = m.marg.erase x ∧ m'.free = m.free ++ [x] ∧
      m'.named = m.named ++ [x] ∧ m'.dims = m.dims ∧ m'.mdims = m.mdims ∧
      (∀ d, h.dict m.mdims x = some d → h'.dict m.dims x = some d) ∧ (∀ y ≠ x, h'.dict m.dims y = h.dict m.dims y) ∧
      ∀ y ≠ x, h'.dict m.mdims y = h.dict m.mdims y := by
  unfold unmarginalizeOne resolve
  simp only
  rw [if_neg (by simpa using hx), if_neg (w.disj x hx)]
  refine ⟨_, _, rfl, rfl, rfl, rfl, rfl, rfl, ?_, ?_, ?_⟩
  · intro d hd
    simp only [hd, Heap.set, if_true]
  · intro y hy
    cases hd : h.dict m.mdims x with
    | none => simp [Heap.set, w.refs]
    | some d => simp [Heap.set, hy, w.refs]
  · intro y hy
    cases hd : h.dict m.mdims x with
    | none => simp [Heap.set, hy]
    | some d => simp [Heap.set, hy, w.refs.symm]

/-- **C103.** A whole list of distinct marginalised variables: all of them leave the marginalised list, become the last free
variables in the order of the list, and each gets its dimension names back. -/
theorem C103_list (xs : List String) (h : Heap) (m : Mdl) (w : WF m) (hx : ∀ x ∈ xs, x ∈ m.marg) (hn : xs.Nodup) :
    ∃ h' m', unmarginalize (xs.map .var) h m = ((h', m'), none) ∧
      (∀ y, y ∈ m'.marg ↔ y ∈ m.marg ∧ y ∉ xs) ∧ m'.free = m.free ++ xs ∧
      (∀ x ∈ xs, ∀ d, h.dict m.mdims x = some d → h'.dict m'.dims x = some d) ∧
      (∀ y, y ∉ xs → h'.dict m'.dims y = h.dict m.dims y) := by
  suffices H : ∃ h' m', unmarginalize (xs.map .var) h m = ((h', m'), none) ∧
      (∀ y, y ∈ m'.marg ↔ y ∈ m.marg ∧ y ∉ xs) ∧ m'.free = m.free ++ xs ∧ m'.dims = m.dims ∧
      (∀ x ∈ xs, ∀ d, h.dict m.mdims x = some d → h'.dict m.dims x = some d) ∧
      (∀ y, y ∉ xs → h'.dict m.dims y = h.dict m.dims y) by
    obtain ⟨h', m', h1, h2, h3, h4, h5, h6⟩ := H
    exact ⟨h', m', h1, h2, h3, by rw [h4]; exact h5, by rw [h4]; exact h6⟩
  induction xs generalizing h m with
  | nil => exact ⟨h, m, rfl, by simp, by simp, rfl, by simp, by simp⟩
  | cons x xs ih =>
    obtain ⟨hxn, hn'⟩ := List.nodup_cons.1 hn
    obtain ⟨h1, m1, e1, e2, e3, e4, e5, e6, e7, e8, e9⟩ := unmarginalizeOne_dicts h m w (hx x (by simp))
    have w1 : WF m1 := by have := WF_unmarginalizeOne h m (.var x) w; rw [e1] at this; exact this
    obtain ⟨h2, m2, f1, f2, f3, f4, f5, f6⟩ := ih h1 m1 w1 (fun y hy => by
      rw [e2]
      exact (List.mem_erase_of_ne (by rintro rfl; exact hxn hy)).2 (hx y (by simp [hy]))) hn'
    refine ⟨h2, m2, ?_, ?_, ?_, f4.trans e5, ?_, ?_⟩
    · rw [List.map_cons, unmarginalize, e1]; exact f1
    · intro y
      rw [f2, e2, w.marg.mem_erase_iff]
      simp only [List.mem_cons, not_or]; tauto
    · rw [f3, e3]; simp
    · intro y hy d hd
      rcases List.mem_cons.1 hy with rfl | hy'
      · have := f6 y hxn
        rw [e5] at this
        rw [this]; exact e7 d hd
      · have hyx : y ≠ x := fun he => hxn (he ▸ hy')
        have := f5 y hy' d (by rw [e6, e9 y hyx]; exact hd)
        rwa [e5] at this
    · intro y hy
      simp only [List.mem_cons, not_or] at hy
      have := f6 y hy.2
      rw [e5] at this
      rw [this, e8 y hy.1]

/-- **C103.** If an item of the list fails, the variables before it stay unmarginalised. -/
theorem C103_failure_keeps_earlier (xs : List String) (x : String) (is : List Item) (h : Heap) (m : Mdl) (w : WF m)
    (hx : ∀ y ∈ xs, y ∈ m.marg) (hn : xs.Nodup) (hxm : x ∈ m.marg) (hxs : x ∉ xs) :
    ∃ h' m', unmarginalize (xs.map .var ++ .name x :: is) h m = ((h', m'), some .keyError) ∧ m'.free = m.free ++ xs ∧
      unmarginalize (xs.map .var) h m = ((h', m'), none) := by
  induction xs generalizing h m with
  | nil =>
    refine ⟨h, m, ?_, by simp, rfl⟩
    rw [List.map_nil, List.nil_append, unmarginalize, C103_by_name_always_fails h m w hxm]
  | cons y ys ih =>
    obtain ⟨hyn, hn'⟩ := List.nodup_cons.1 hn
    obtain ⟨h1, m1, e1, e2, e3, -⟩ := unmarginalizeOne_dicts h m w (hx y (by simp))
    have w1 : WF m1 := by have := WF_unmarginalizeOne h m (.var y) w; rw [e1] at this; exact this
    simp only [List.mem_cons, not_or] at hxs
    obtain ⟨h2, m2, f1, f2, f3⟩ := ih h1 m1 w1 (fun z hz => by
      rw [e2]
      exact (List.mem_erase_of_ne (by rintro rfl; exact hyn hz)).2 (hx z (by simp [hz]))) hn'
      (by rw [e2]; exact (List.mem_erase_of_ne hxs.1).2 hxm) hxs.2
    refine ⟨h2, m2, ?_, by rw [f2, e3]; simp, ?_⟩
    · rw [List.map_cons, List.cons_append, unmarginalize, e1]; exact f1
    · rw [List.map_cons, unmarginalize, e1]; exact f3

/-- C103 applies to two marginalised variables, one with dimension names. -/
example : ∃ h' m', unmarginalize [.var "x", .var "y"] ⟨fun r s => if r = 1 ∧ s = "y" then some ["time"] else none, 2⟩
    ⟨["p"], ["p"], [], ["x", "y"], 0, 1⟩ = ((h', m'), none) ∧ m'.free = ["p", "x", "y"] ∧ h'.dict 0 "y" = some ["time"] :=
  ⟨_, _, rfl, rfl, rfl⟩

/-- **C103.** Marginalising a variable and unmarginalising it again (by variable) gives back the same
registered variables, the same marginalised ones and the same dimension names; the only change is that
the variable moves to the end of the free variables.  (`hmd`: no dimension names are left over from an
earlier variable of the same name.) -/
theorem C103_round_trip (kind : String → Kind) (h : Heap) (m : Mdl) (w : WF m) {x : String}
    (hx : x ∈ m.free) (hs : Supported (kind x))
    (hmd : h.dict m.dims x = none → h.dict m.mdims x = none) :
    ∃ h' m', unmarginalizeOne (marginalizeLoop kind [x] h m).1.1 (marginalizeLoop kind [x] h m).1.2
        (.var x) = ((h', m'), none) ∧
      (∀ y, y ∈ m'.named ↔ y ∈ m.named) ∧ m'.marg = m.marg ∧
      m'.free = m.free.filter (fun v => decide (v ≠ x)) ++ [x] ∧
      (∀ y, h'.dict m'.dims y = h.dict m.dims y) := by
  have hl : marginalizeLoop kind [x] h m = (moveOne h m x, none) := by
    simp only [marginalizeLoop]
    rw [if_neg (by simpa using hx), (kindError_none_iff _).2 hs]
  rw [hl]
  have w' := WF_moveOne (h := h) w hx
  have hxm : x ∈ (moveOne h m x).2.marg := by rw [moveOne_marg]; simp
  unfold unmarginalizeOne resolve
  simp only
  rw [if_neg (by simpa using hxm), if_neg (w'.disj x hxm)]
  have hxmarg : x ∉ m.marg := fun hm => w.disj x hm (w.sub x hx)
  refine ⟨_, _, rfl, ?_, ?_, ?_, ?_⟩
  · intro y
    show y ∈ m.named.erase x ++ [x] ↔ _
    rw [List.mem_append, w.named.mem_erase_iff]
    by_cases hy : y = x
    · subst hy; simp [w.sub _ hx]
    · simp [hy]
  · show (m.marg ++ [x]).erase x = m.marg
    rw [List.erase_append_right _ hxmarg]
    simp
  · show m.free.erase x ++ [x] = _
    rw [w.free.erase_eq_filter]
    congr 1
    apply List.filter_congr
    intro a _
    by_cases ha : a = x <;> simp [ha]
  · intro y
    have hr := w.refs
    have hr' := w.refs.symm
    cases hd : h.dict m.dims x with
    | none =>
      have e0 : (moveOne h m x).1 = h.set m.dims x none := by simp [moveOne, hd, deleteRv]
      have e2 : (moveOne h m x).2.mdims = m.mdims := rfl
      have e3 : (moveOne h m x).2.dims = m.dims := rfl
      have e1 : (h.set m.dims x none).dict m.mdims x = h.dict m.mdims x := by
        simp [Heap.set, hr']
      simp only [e0, e2, e3, e1, hmd hd]
      by_cases hy : y = x
      · subst hy; simp [Heap.set, hr, hd]
      · simp [Heap.set, hr, hy]
    | some d =>
      have e0 : (moveOne h m x).1 = (h.set m.mdims x (some d)).set m.dims x none := by
        simp [moveOne, hd, deleteRv]
      have e2 : (moveOne h m x).2.mdims = m.mdims := rfl
      have e3 : (moveOne h m x).2.dims = m.dims := rfl
      have e1 : ((h.set m.mdims x (some d)).set m.dims x none).dict m.mdims x = some d := by
        simp [Heap.set, hr']
      simp only [e0, e2, e3, e1]
      by_cases hy : y = x
      · subst hy; simp [Heap.set, hd]
      · simp [Heap.set, hr, hy]

/-- The hypotheses hold in a model with two indicator variables, the first with named dimensions. -/
example : WF ⟨["a", "b", "y"], ["a", "b"], ["y"], [], 0, 1⟩ :=
  ⟨by decide, by decide, by decide, by decide, by decide, by decide⟩

/-! ### C104 -/

/-- **C104.** Passing a single name to the method `MarginalModel.marginalize` treats it as a list of
one-letter names: unless every letter of the name is itself the name of a model variable, the call
raises KeyError, even when the name is that of a free variable. -/
theorem C104_string_is_split (kind : String → Kind) (check : Mdl → Bool) {s : String} {c : Char}
    (h : Heap) (m : Mdl) (hc : c ∈ s.toList) (hn : String.singleton c ∉ m.named) :
    marginalizeMethod kind check (.str s) h m = ((h, m), some .keyError) := by
  have := C49_unknown_name_changes_nothing kind check (l := (Arg.str s).items)
    (s := String.singleton c) h m (List.mem_map.2 ⟨c, hc, rfl⟩) hn
  unfold marginalizeMethod at this ⊢
  exact this

/-- **C104.** The function `marginalize` accepts the same name. -/
theorem C104_function_accepts_name (kind : String → Kind) {s : String} (h : Heap) (m : Mdl)
    (hs : s ∈ m.free) (hn : s ∈ m.named) (hk : Supported (kind s)) :
    (marginalizeFun kind (fun _ => true) [s] false h m).2 = none := by
  unfold marginalizeFun marginalizeMethod fromModel
  simp [Arg.items, resolve, hn, marginalizeLoop, hs, (kindError_none_iff _).2 hk, bind, Except.bind,
    pure, Except.pure]

/-- With variables `ab`, `a` and `b`, the method call `marginalize("ab")` marginalises `a` and `b`. -/
example : (marginalizeMethod (fun _ => .finite) (fun _ => true) (.str "ab") ⟨fun _ _ => none, 2⟩
    ⟨["ab", "a", "b", "y"], ["ab", "a", "b"], ["y"], [], 0, 1⟩).1.2.marg = ["a", "b"] := by decide

/-- And with only `ab` it raises KeyError. -/
example : (marginalizeMethod (fun _ => .finite) (fun _ => true) (.str "ab") ⟨fun _ _ => none, 2⟩
    ⟨["ab", "y"], ["ab"], ["y"], [], 0, 1⟩).2 = some .keyError := by decide

/-! ### C105 -/

theorem moveOne_dims {h : Heap} {m : Mdl} {x : String} (hr : m.dims ≠ m.mdims) (y : String) :
    (moveOne h m x).1.dict m.dims y = if y = x then none else h.dict m.dims y := by
  unfold moveOne deleteRv
  cases hd : h.dict m.dims x with
  | none => simp [Heap.set]
  | some d => simp [Heap.set, hr]

theorem loop_dims (kind : String → Kind) (xs : List String) : ∀ (h : Heap) (m : Mdl),
    m.dims ≠ m.mdims → (marginalizeLoop kind xs h m).2 = none →
    ∀ y, (marginalizeLoop kind xs h m).1.1.dict m.dims y
      = if y ∈ xs then none else h.dict m.dims y := by
  induction xs with
  | nil => intro h m _ _ y; simp [marginalizeLoop]
  | cons x xs ih =>
    intro h m hr hok y
    simp only [marginalizeLoop] at hok ⊢
    by_cases hx : x ∉ m.free
    · rw [if_pos hx] at hok; simp at hok
    · rw [if_neg hx] at hok ⊢
      cases hk : kindError (kind x) with
      | some e => rw [hk] at hok; simp at hok
      | none =>
        rw [hk] at hok
        have := ih (moveOne h m x).1 (moveOne h m x).2 hr hok y
        have hd : (moveOne h m x).2.dims = m.dims := rfl
        rw [hd] at this
        rw [this, moveOne_dims hr]
        by_cases h1 : y ∈ xs
        · simp [h1]
        · by_cases h2 : y = x <;> simp [h1, h2]

theorem mapM_resolve_names {m : Mdl} {names : List String} (h : ∀ s ∈ names, s ∈ m.named) :
    (names.map Item.name).mapM (resolve m) = .ok names := by
  induction names with
  | nil => rfl
  | cons s names ih =>
    rw [List.map_cons, List.mapM_cons, ih (fun t ht => h t (by simp [ht]))]
    have hr : resolve m (.name s) = .ok s := by
      unfold resolve
      exact if_pos (h s (by simp))
    rw [hr]
    rfl

/-- **C105.** The function `marginalize` promises to clone the model, but the clone shares the
dictionary of dimension names with the original (`m.dims` is the original's dictionary): after a
successful call the *original* model has lost the dimension names of exactly the marginalised
variables. -/
theorem C105_original_loses_dims (kind : String → Kind) (check : Mdl → Bool) {names : List String}
    {h : Heap} {m : Mdl} (hlt : m.dims < h.next) (hn : ∀ s ∈ names, s ∈ m.named)
    (hok : (marginalizeFun kind check names false h m).2 = none) (y : String) :
    (marginalizeFun kind check names false h m).1.1.dict m.dims y
      = if y ∈ names then none else h.dict m.dims y := by
  unfold marginalizeFun at hok ⊢
  set p := fromModel h m false with hp
  have hpd : p.2.dims = m.dims := rfl
  have hpm : p.2.mdims = h.next := rfl
  have hph : p.1.dict m.dims = h.dict m.dims := by
    show (if m.dims = h.next then _ else _) = _
    rw [if_neg (by omega)]
  have hpn : ∀ s ∈ names, s ∈ p.2.named := hn
  unfold marginalizeMethod at hok ⊢
  dsimp only at hok ⊢
  have hr : (Arg.list (names.map Item.name)).items.mapM (resolve p.2) = .ok names :=
    mapM_resolve_names hpn
  rw [hr] at hok ⊢
  simp only at hok ⊢
  have hl := loop_dims kind names p.1 p.2 (by rw [hpd, hpm]; omega)
  generalize marginalizeLoop kind names p.1 p.2 = L at hok hl ⊢
  obtain ⟨s, e⟩ := L
  cases e with
  | some e => simp at hok
  | none =>
    have := hl rfl y
    rw [hpd, hph] at this
    simp only
    by_cases hc : check s.2 = true
    · rw [if_pos hc]; exact this
    · rw [if_neg hc]; exact this

/-- The original's dimension names for `a` disappear. -/
example :
    let h : Heap := ⟨fun r k => if r = 0 ∧ k = "a" then some ["group"] else none, 1⟩
    let m : Mdl := ⟨["a", "y"], ["a"], ["y"], [], 0, 0⟩
    h.dict m.dims "a" = some ["group"] ∧
    (marginalizeFun (fun _ => .finite) (fun _ => true) ["a"] false h m).2 = none ∧
    (marginalizeFun (fun _ => .finite) (fun _ => true) ["a"] false h m).1.1.dict m.dims "a" = none := by
  decide

/-! ### C106 -/

theorem unmarginalizeOne_heap (h : Heap) (m : Mdl) (w : WF m) {x : String} (hx : x ∈ m.marg) :
    (∀ y, (unmarginalizeOne h m (.var x)).1.1.dict m.mdims y
      = if y = x then none else h.dict m.mdims y) ∧
    (∀ y, (unmarginalizeOne h m (.var x)).1.1.dict m.dims y
      = if y = x then (h.dict m.mdims x).or (h.dict m.dims x) else h.dict m.dims y) := by
  unfold unmarginalizeOne resolve
  simp only
  rw [if_neg (by simpa using hx), if_neg (w.disj x hx)]
  have hr := w.refs
  have hr' := w.refs.symm
  cases hd : h.dict m.mdims x with
  | none =>
    constructor
    · intro y; simp [Heap.set]
    · intro y
      by_cases hy : y = x
      · subst hy; simp [Heap.set, hr]
      · simp [Heap.set, hr, hy]
  | some d =>
    constructor
    · intro y; simp [Heap.set, hr']
    · intro y; simp [Heap.set, hr]

/-- **C106.** `recover_marginals` changes the model it is called on: the dimension names of every
recovered variable move from the dictionary of marginalised variables back to the model's own
dictionary, although the variables stay marginalised. -/
theorem C106_recover_moves_dims (xs : List String) : ∀ (h : Heap) (m : Mdl), WF m → xs.Nodup →
    (∀ x ∈ xs, x ∈ m.marg) → ∀ y,
      (recoverEffect xs h m).dict m.mdims y = (if y ∈ xs then none else h.dict m.mdims y) ∧
      (recoverEffect xs h m).dict m.dims y
        = if y ∈ xs then (h.dict m.mdims y).or (h.dict m.dims y) else h.dict m.dims y := by
  induction xs with
  | nil => intro h m _ _ _ y; simp [recoverEffect]
  | cons x xs ih =>
    intro h m w hnd hmem y
    rw [List.nodup_cons] at hnd
    obtain ⟨a1, a2⟩ := unmarginalizeOne_heap h m w (hmem x (by simp))
    have := ih (unmarginalizeOne h m (.var x)).1.1 m w hnd.2 (fun z hz => hmem z (by simp [hz])) y
    rw [a1, a2] at this
    show (recoverEffect xs (unmarginalizeOne h m (.var x)).1.1 m).dict m.mdims y = _ ∧
      (recoverEffect xs (unmarginalizeOne h m (.var x)).1.1 m).dict m.dims y = _
    rw [this.1, this.2]
    by_cases h1 : y ∈ xs
    · have hyx : y ≠ x := fun e => hnd.1 (e ▸ h1)
      simp [h1, hyx]
    · by_cases h2 : y = x
      · subst h2; simp [h1]
      · simp [h1, h2]

/-- The model's own dictionary gains an entry for a variable that is still marginalised. -/
example :
    let h : Heap := ⟨fun r k => if r = 1 ∧ k = "a" then some ["group"] else none, 2⟩
    let m : Mdl := ⟨["y"], [], ["y"], ["a"], 0, 1⟩
    h.dict m.dims "a" = none ∧ (recoverEffect ["a"] h m).dict m.dims "a" = some ["group"] ∧
    (recoverEffect ["a"] h m).dict m.mdims "a" = none := by
  decide

end MargState
