import Verif.Marginal.Graph
import Mathlib.Data.List.Dedup
import Mathlib.Tactic.Linarith
import Mathlib.Tactic.Tauto

/-! # Lemmas about the dimension analysis -/

set_option autoImplicit false

namespace Marginal

/-! ### `keepFrom` -/

theorem keepFrom_get (keep : ℕ → Bool) (ds : Dims) : ∀ (i j : ℕ) (e : Option ℕ),
    (keepFrom keep i ds)[j]? = some e →
    ∃ a, ds[a]? = some e ∧ keep (i + a) = true ∧
      j = ((List.range a).filter (fun b => keep (i + b))).length := by
  induction ds with
  | nil => intro i j e h; simp [keepFrom] at h
  | cons d ds ih =>
    intro i j e h
    rw [keepFrom] at h
    by_cases hk : keep i = true
    · rw [if_pos hk] at h
      cases j with
      | zero => exact ⟨0, by simpa using h, by simpa using hk, by simp⟩
      | succ j =>
        obtain ⟨a, h1, h2, h3⟩ := ih (i + 1) j e (by simpa using h)
        refine ⟨a + 1, by simpa using h1, by rw [← h2]; congr 1; omega, ?_⟩
        rw [List.range_succ_eq_map, List.filter_cons, if_pos (by simpa using hk), List.length_cons,
          List.filter_map, List.length_map, h3]
        congr 2
        apply List.filter_congr
        intro b _
        simp only [Function.comp]
        congr 1; omega
    · rw [if_neg hk] at h
      obtain ⟨a, h1, h2, h3⟩ := ih (i + 1) j e h
      refine ⟨a + 1, by simpa using h1, by rw [← h2]; congr 1; omega, ?_⟩
      rw [List.range_succ_eq_map, List.filter_cons, if_neg (by simpa using hk),
          List.filter_map, List.length_map, h3]
      congr 1
      apply List.filter_congr
      intro b _
      simp only [Function.comp]
      congr 1; omega

theorem keepFrom_get0 (keep : ℕ → Bool) (ds : Dims) (j : ℕ) (e : Option ℕ)
    (h : (keepFrom keep 0 ds)[j]? = some e) :
    ∃ a, ds[a]? = some e ∧ keep a = true ∧ j = keptBefore keep a := by
  obtain ⟨a, h1, h2, h3⟩ := keepFrom_get keep ds 0 j e h
  exact ⟨a, h1, by simpa using h2, by simpa [keptBefore] using h3⟩

theorem keepFrom_length (keep : ℕ → Bool) (ds : Dims) : ∀ i,
    (keepFrom keep i ds).length = ((List.range ds.length).filter (fun b => keep (i + b))).length := by
  induction ds with
  | nil => intro i; simp [keepFrom]
  | cons d ds ih =>
    intro i
    have key : (List.range (d :: ds).length).filter (fun b => keep (i + b))
        = if keep i then 0 :: ((List.range ds.length).filter (fun b => keep (i + 1 + b))).map (· + 1)
          else ((List.range ds.length).filter (fun b => keep (i + 1 + b))).map (· + 1) := by
      rw [List.length_cons, List.range_succ_eq_map, List.filter_cons, List.filter_map]
      have : List.filter ((fun b => keep (i + b)) ∘ Nat.succ) (List.range ds.length)
          = List.filter (fun b => keep (i + 1 + b)) (List.range ds.length) := by
        apply List.filter_congr
        intro b _
        simp only [Function.comp]
        congr 1; omega
      rw [this]
      simp
    rw [key, keepFrom]
    by_cases hk : keep i = true
    · simp [hk, ih]
    · simp [hk, ih]

/-- Dropping unknown entries does not change the known ones. -/
theorem keepFrom_known (keep : ℕ → Bool) (ds : Dims) : ∀ i,
    (∀ a d, ds[a]? = some (some d) → keep (i + a) = true) →
    (keepFrom keep i ds).filterMap id = ds.filterMap id := by
  induction ds with
  | nil => intro i _; rfl
  | cons e ds ih =>
    intro i h
    have ih' := ih (i + 1) (fun a d ha => by
      have := h (a + 1) d (by simpa using ha)
      rw [← this]; congr 1; omega)
    rw [keepFrom]
    by_cases hk : keep i = true
    · rw [if_pos hk]
      cases e with
      | none => simpa [List.filterMap_cons] using ih'
      | some d => simpa [List.filterMap_cons] using ih'
    · rw [if_neg hk]
      cases e with
      | none => simpa [List.filterMap_cons] using ih'
      | some d => exact absurd (by simpa using h 0 d (by simp)) hk

/-! ### known entries -/

theorem mem_known {ds : Dims} {d : ℕ} : d ∈ ds.filterMap id ↔ ∃ a : ℕ, ds[a]? = some (some d) := by
  simp only [List.mem_filterMap, id]
  constructor
  · rintro ⟨e, h1, rfl⟩
    obtain ⟨a, ha, h⟩ := List.getElem_of_mem h1
    exact ⟨a, by rw [List.getElem?_eq_getElem ha, h]⟩
  · rintro ⟨a, h⟩
    exact ⟨some d, List.mem_of_getElem? h, rfl⟩

theorem known_pos_unique {ds : Dims} (h : (ds.filterMap id).Nodup) {a b d : ℕ}
    (ha : ds[a]? = some (some d)) (hb : ds[b]? = some (some d)) : a = b := by
  induction ds generalizing a b with
  | nil => simp at ha
  | cons e ds ih =>
    have hnd : (ds.filterMap id).Nodup := by
      cases e with
      | none => simpa using h
      | some e => simp only [List.filterMap_cons, id] at h; exact (List.nodup_cons.1 h).2
    cases a with
    | zero =>
      cases b with
      | zero => rfl
      | succ b =>
        exfalso
        simp only [List.getElem?_cons_zero, Option.some.injEq] at ha
        subst ha
        simp only [List.filterMap_cons, id] at h
        exact (List.nodup_cons.1 h).1 (mem_known.2 ⟨b, by simpa using hb⟩)
    | succ a =>
      cases b with
      | zero =>
        exfalso
        simp only [List.getElem?_cons_zero, Option.some.injEq] at hb
        subst hb
        simp only [List.filterMap_cons, id] at h
        exact (List.nodup_cons.1 h).1 (mem_known.2 ⟨a, by simpa using ha⟩)
      | succ b => exact congrArg (· + 1) (ih hnd (a := a) (b := b) (by simpa using ha) (by simpa using hb))

theorem getD_none_some {ds : Dims} {a d : ℕ} (h : ds.getD a none = some d) :
    ds[a]? = some (some d) := by
  rw [List.getD_eq_getElem?_getD] at h
  cases hh : ds[a]? with
  | none => rw [hh] at h; simp at h
  | some e => rw [hh] at h; simp at h; rw [h]

theorem getD_of_some {ds : Dims} {a d : ℕ} (h : ds[a]? = some (some d)) :
    ds.getD a none = some d := by
  rw [List.getD_eq_getElem?_getD, h]; rfl

/-! ### `_broadcast_dims` -/

theorem mergeCol_fold (col : List (Option ℕ)) : ∀ (o r : Option ℕ),
    col.foldlM (fun out d =>
      match d with
      | none => (.ok out : Except GErr (Option ℕ))
      | some v => if out ≠ none ∧ out ≠ some v then .error .valueError else .ok (some v)) o = .ok r →
    (∀ v, o = some v → r = some v) ∧ (∀ v, some v ∈ col → r = some v) ∧
      (r = none ∨ r = o ∨ r ∈ col) := by
  induction col with
  | nil =>
    intro o r h
    rw [List.foldlM_nil] at h
    injection h with h
    subst h
    exact ⟨fun v h => h, by simp, Or.inr (Or.inl rfl)⟩
  | cons d col ih =>
    intro o r h
    rw [List.foldlM_cons] at h
    cases d with
    | none =>
      obtain ⟨h1, h2, h3⟩ := ih o r h
      refine ⟨h1, fun v hv => h2 v (by simpa using hv), ?_⟩
      rcases h3 with h3 | h3 | h3
      · exact Or.inl h3
      · exact Or.inr (Or.inl h3)
      · exact Or.inr (Or.inr (by simp [h3]))
    | some w =>
      by_cases hc : o ≠ none ∧ o ≠ some w
      · simp only [if_pos hc] at h
        exact absurd h (by simp [bind, Except.bind])
      · simp only [if_neg hc] at h
        obtain ⟨h1, h2, h3⟩ := ih (some w) r h
        refine ⟨fun v hv => ?_, fun v hv => ?_, ?_⟩
        · subst hv
          have : some v = some w := by
            by_contra hne
            exact hc ⟨by simp, hne⟩
          rw [this]; exact h1 w rfl
        · rcases List.mem_cons.1 hv with hv | hv
          · injection hv with hv; subst hv; exact h1 v rfl
          · exact h2 v hv
        · rcases h3 with h3 | h3 | h3
          · exact Or.inl h3
          · exact Or.inr (Or.inr (by simp [h3]))
          · exact Or.inr (Or.inr (by simp [h3]))

theorem mapM_ok_get {α β : Type} {f : α → Except GErr β} : ∀ (l : List α) (r : List β),
    l.mapM f = .ok r → r.length = l.length ∧
      ∀ (j : ℕ) (a : α), l[j]? = some a → ∃ b, f a = .ok b ∧ r[j]? = some b := by
  intro l
  induction l with
  | nil =>
    intro r h
    rw [List.mapM_nil] at h
    injection h with h
    subst h
    exact ⟨rfl, by simp⟩
  | cons a l ih =>
    intro r h
    rw [List.mapM_cons] at h
    cases hfa : f a with
    | error e => rw [hfa] at h; exact absurd h (by simp [bind, Except.bind])
    | ok b =>
      rw [hfa] at h
      cases hl : l.mapM f with
      | error e => rw [hl] at h; exact absurd h (by simp [bind, Except.bind])
      | ok bs =>
        rw [hl] at h
        change Except.ok (b :: bs) = Except.ok r at h
        injection h with h
        subst h
        obtain ⟨h1, h2⟩ := ih bs hl
        refine ⟨by simp [h1], ?_⟩
        intro j c hc
        cases j with
        | zero =>
          simp only [List.getElem?_cons_zero, Option.some.injEq] at hc
          subst hc
          exact ⟨b, hfa, by simp⟩
        | succ j =>
          obtain ⟨d, hd, hj⟩ := h2 j c (by simpa using hc)
          exact ⟨d, hd, by simpa using hj⟩

theorem foldl_max_ge (l : List ℕ) : ∀ (m : ℕ), m ≤ l.foldl max m ∧ ∀ a ∈ l, a ≤ l.foldl max m := by
  induction l with
  | nil => intro m; simp
  | cons b l ih =>
    intro m
    obtain ⟨h1, h2⟩ := ih (max m b)
    simp only [List.foldl_cons]
    refine ⟨le_trans (le_max_left _ _) h1, ?_⟩
    intro a ha
    rcases List.mem_cons.1 ha with rfl | ha
    · exact le_trans (le_max_right _ _) h1
    · exact h2 a ha

theorem foldl_max_le (l : List ℕ) : ∀ (m b : ℕ), m ≤ b → (∀ a ∈ l, a ≤ b) → l.foldl max m ≤ b := by
  induction l with
  | nil => intro m b h _; simpa using h
  | cons c l ih =>
    intro m b h hl
    simp only [List.foldl_cons]
    exact ih _ _ (max_le h (hl c (by simp))) (fun a ha => hl a (by simp [ha]))

theorem nodup_of_dedup_length (l : List ℕ) (h : ¬ l.length > l.dedup.length) : l.Nodup := by
  rw [← List.dedup_eq_self]
  exact (List.dedup_sublist l).eq_of_length (le_antisymm (List.dedup_sublist l).length_le (not_lt.1 h))

theorem padDims_get {n : ℕ} {d : Dims} {a : ℕ} {e : Option ℕ} (h : d[a]? = some e) :
    (padDims n d)[a + (n - d.length)]? = some e := by
  rw [padDims, List.getElem?_append_right (by simp)]
  simpa using h

theorem padDims_get_some {n : ℕ} {d : Dims} {j v : ℕ} (h : (padDims n d)[j]? = some (some v)) :
    ∃ a, d[a]? = some (some v) ∧ j = a + (n - d.length) := by
  rw [padDims] at h
  by_cases hj : j < n - d.length
  · rw [List.getElem?_append_left (by simpa using hj), List.getElem?_replicate] at h
    simp [hj] at h
  · rw [List.getElem?_append_right (by simpa using hj)] at h
    simp only [List.length_replicate] at h
    exact ⟨_, h, by omega⟩

/-- What a successful `_broadcast_dims` guarantees. -/
theorem broadcastDims_ok {ins : List Dims} {out : Dims} (h : broadcastDims ins = .ok out) :
    out.length = (ins.map List.length).foldl max 0 ∧
    (out.filterMap id).Nodup ∧
    (∀ ds ∈ ins, ∀ a d, ds[a]? = some (some d) →
      out[a + (out.length - ds.length)]? = some (some d)) ∧
    (∀ j d, out[j]? = some (some d) → ∃ ds ∈ ins, ∃ a, ds[a]? = some (some d) ∧
      j = a + (out.length - ds.length)) := by
  unfold broadcastDims at h
  simp only [] at h
  set n := (ins.map List.length).foldl max 0 with hn
  cases hm : (List.range n).mapM
      (fun j => mergeCol ((ins.map (padDims n)).map (fun d => d.getD j none))) with
  | error e => rw [hm] at h; exact absurd h (by simp [bind, Except.bind])
  | ok o =>
    rw [hm] at h
    change (if (o.filterMap id).length > ((o.filterMap id).dedup).length
      then (Except.error GErr.valueError : Except GErr Dims) else .ok o) = .ok out at h
    by_cases hc : (o.filterMap id).length > ((o.filterMap id).dedup).length
    · rw [if_pos hc] at h; exact absurd h (by simp)
    · rw [if_neg hc] at h
      injection h with h
      subst h
      obtain ⟨hlen, hget⟩ := mapM_ok_get _ _ hm
      have hlen' : o.length = n := by simpa using hlen
      refine ⟨hlen', nodup_of_dedup_length _ hc, ?_, ?_⟩
      · intro ds hds a d had
        have hle : ds.length ≤ n := (foldl_max_ge (ins.map List.length) 0).2 _
          (List.mem_map_of_mem hds)
        have hal : a < ds.length := by
          by_contra hcon
          rw [List.getElem?_eq_none (by omega)] at had
          simp at had
        rw [hlen']
        obtain ⟨b, hb1, hb2⟩ := hget (a + (n - ds.length)) (a + (n - ds.length))
          (by rw [List.getElem?_range (by omega)])
        rw [hb2]
        have := (mergeCol_fold _ none b hb1).2.1 d (by
          rw [List.mem_map]
          exact ⟨padDims n ds, List.mem_map_of_mem hds, getD_of_some (padDims_get had)⟩)
        rw [this]
      · intro j d hj
        have hjn : j < n := by
          by_contra hcon
          rw [List.getElem?_eq_none (by omega)] at hj
          simp at hj
        obtain ⟨b, hb1, hb2⟩ := hget j j (by rw [List.getElem?_range hjn])
        rw [hb2] at hj
        injection hj with hj
        subst hj
        rcases (mergeCol_fold _ none _ hb1).2.2 with h3 | h3 | h3
        · simp at h3
        · simp at h3
        · rw [List.mem_map] at h3
          obtain ⟨e, he, hed⟩ := h3
          rw [List.mem_map] at he
          obtain ⟨ds, hds, rfl⟩ := he
          obtain ⟨a, ha, hja⟩ := padDims_get_some (getD_none_some hed)
          exact ⟨ds, hds, a, ha, by rw [hlen']; exact hja⟩

/-! ### the advanced-indexing axis -/

theorem advAxisLoop_after (ks : List AKey) : ∀ (axis a : ℕ),
    advAxisLoop ks axis (some a) true = some (if ks.any (·.isArr) then 0 else a) := by
  induction ks with
  | nil => intro axis a; rfl
  | cons k ks ih =>
    intro axis a
    cases k with
    | full =>
      rw [advAxisLoop]
      simp only [ne_eq, reduceCtorEq, not_false_eq_true, if_true]
      rw [ih]
      simp [AKey.isArr]
    | arr v => simp [advAxisLoop, AKey.isArr]

theorem advAxisLoop_in (ks : List AKey) : ∀ (axis a : ℕ),
    advAxisLoop ks axis (some a) false
      = some (if (ks.dropWhile (fun k => k.isArr)).any (·.isArr) then 0 else a) := by
  induction ks with
  | nil => intro axis a; rfl
  | cons k ks ih =>
    intro axis a
    cases k with
    | full =>
      rw [advAxisLoop]
      simp only [ne_eq, reduceCtorEq, not_false_eq_true, if_true]
      rw [advAxisLoop_after]
      simp [AKey.isArr, List.dropWhile]
    | arr v =>
      rw [advAxisLoop]
      simp only [Bool.false_eq_true, if_false]
      rw [ih]
      simp [AKey.isArr, List.dropWhile]

theorem advAxisLoop_pre (ks : List AKey) : ∀ (axis : ℕ), ks.any (·.isArr) = true →
    advAxisLoop ks axis none false
      = some (if ((ks.dropWhile (fun k => !k.isArr)).dropWhile (fun k => k.isArr)).any (·.isArr)
          then 0 else axis + (ks.takeWhile (fun k => !k.isArr)).length) := by
  induction ks with
  | nil => intro axis h; simp at h
  | cons k ks ih =>
    intro axis h
    cases k with
    | full =>
      rw [advAxisLoop]
      simp only [ne_eq, not_true_eq_false, if_false]
      rw [ih (axis + 1) (by simpa [AKey.isArr] using h)]
      simp [AKey.isArr, List.dropWhile, List.takeWhile]
      congr 1
      omega
    | arr v =>
      rw [advAxisLoop]
      simp only [Bool.false_eq_true, if_false]
      rw [advAxisLoop_in]
      simp [AKey.isArr, List.dropWhile, List.takeWhile]

/-- The loop computes NumPy's rule. -/
theorem advAxis_eq_spec (keys : List AKey) (h : keys.any (·.isArr) = true) :
    advAxis keys = advAxisSpec keys := by
  unfold advAxis advAxisSpec
  rw [advAxisLoop_pre keys 0 h]
  simp

end Marginal
