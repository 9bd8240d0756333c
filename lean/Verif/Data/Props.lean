import Verif.Data.Model
import Verif.Kalman.Model

/-!
C24, C25, C84, C85: missing-value masking and data registration.
-/

set_option linter.unusedSectionVars false

namespace Verif.Data

variable {α : Type} [DecidableEq α]

/-- Specification: the cell in row `t`, column `i`, if there is one. -/
def Spec.cell {β : Type} (tab : List (List β)) (t i : ℕ) : Option β := (tab[t]?).bind (·[i]?)

/-- Specification: NaN or infinite. -/
def Spec.NotFinite (c : Cell α) : Prop := c = .nan ∨ ∃ s, c = .inf s

theorem invalid_iff (c : Cell α) : c.invalid = true ↔ Spec.NotFinite c := by
  cases c <;> simp [Cell.invalid, Spec.NotFinite]

theorem cell_map {β γ : Type} (f : β → γ) (tab : List (List β)) (t i : ℕ) :
    Spec.cell (tab.map (·.map f)) t i = (Spec.cell tab t i).map f := by
  simp only [Spec.cell, List.getElem?_map]
  cases tab[t]? <;> simp

theorem any_any {β : Type} (p : β → Bool) (tab : List (List β)) :
    tab.any (·.any p) = true ↔ ∃ t i c, Spec.cell tab t i = some c ∧ p c = true := by
  simp only [List.any_eq_true, Spec.cell]
  constructor
  · rintro ⟨r, hr, c, hc, h⟩
    obtain ⟨t, ht⟩ := List.mem_iff_getElem?.1 hr
    obtain ⟨i, hi⟩ := List.mem_iff_getElem?.1 hc
    exact ⟨t, i, c, by simp [ht, hi], h⟩
  · rintro ⟨t, i, c, h, hp⟩
    cases hr : tab[t]? with
    | none => simp [hr] at h
    | some r =>
      simp only [hr, Option.bind_some] at h
      exact ⟨r, List.mem_of_getElem? hr, c, List.mem_of_getElem? h, hp⟩

theorem mask_any (tab : List (List (Cell α))) :
    (tab.map (·.map Cell.invalid)).any (·.any id) = true ↔
      ∃ t i c, Spec.cell tab t i = some c ∧ Spec.NotFinite c := by
  rw [any_any]
  simp only [cell_map, Option.map_eq_some_iff, id]
  constructor
  · rintro ⟨t, i, b, ⟨c, hc, rfl⟩, hb⟩; exact ⟨t, i, c, hc, (invalid_iff c).1 hb⟩
  · rintro ⟨t, i, c, hc, hb⟩; exact ⟨t, i, _, ⟨c, hc, rfl⟩, (invalid_iff c).2 hb⟩

theorem eqFill_iff (fill : α) (c : Cell α) : c.eqFill fill = true ↔ c = .val fill := by
  cases c <;> simp [Cell.eqFill]

theorem fill_any (fill : α) (tab : List (List (Cell α))) :
    tab.any (·.any (Cell.eqFill fill)) = true ↔ ∃ t i, Spec.cell tab t i = some (.val fill) := by
  rw [any_any]
  constructor
  · rintro ⟨t, i, c, h, hc⟩; exact ⟨t, i, by rw [h, (eqFill_iff _ _).1 hc]⟩
  · rintro ⟨t, i, h⟩; exact ⟨t, i, _, h, (eqFill_iff _ _).2 rfl⟩

theorem maskMissing_eq (dflt : α) (fill? : Option α) (tab : List (List (Cell α))) (data : List (List (Cell α)))
    (mask : List (List Bool)) (h : maskMissing dflt fill? tab = .ok (data, mask)) :
    data = tab.map (·.map (Cell.filled (fill?.getD dflt))) ∧ mask = tab.map (·.map Cell.invalid) := by
  simp only [maskMissing] at h
  split at h
  · split at h
    · simp at h
    · simp only [Except.ok.injEq, Prod.mk.injEq] at h; exact ⟨h.1.symm, h.2.symm⟩
  · simp only [Except.ok.injEq, Prod.mk.injEq] at h; exact ⟨h.1.symm, h.2.symm⟩

/-- **C24**, values: after a successful masking every non-finite cell (NaN or infinite) holds the fill value, every
finite cell is unchanged, no cell is added or removed, and the returned mask is true exactly at the non-finite cells. -/
theorem C24_mask_values (dflt : α) (fill? : Option α) (tab data : List (List (Cell α))) (mask : List (List Bool))
    (h : maskMissing dflt fill? tab = .ok (data, mask)) (t i : ℕ) :
    (∀ c, Spec.cell tab t i = some c →
      (Spec.NotFinite c → Spec.cell data t i = some (.val (fill?.getD dflt)) ∧ Spec.cell mask t i = some true) ∧
      (¬ Spec.NotFinite c → Spec.cell data t i = some c ∧ Spec.cell mask t i = some false)) ∧
    (Spec.cell tab t i = none → Spec.cell data t i = none ∧ Spec.cell mask t i = none) := by
  obtain ⟨rfl, rfl⟩ := maskMissing_eq _ _ _ _ _ h
  refine ⟨fun c hc => ⟨fun hn => ?_, fun hn => ?_⟩, fun hc => by simp [cell_map, hc]⟩
  · have := (invalid_iff c).2 hn
    simp [cell_map, hc, Cell.filled, this]
  · have : c.invalid = false := by rw [← Bool.not_eq_true, invalid_iff]; exact hn
    simp [cell_map, hc, Cell.filled, this]

/-- **C24**, failure: masking fails exactly when the table has both a non-finite cell and a cell equal to the fill
value. -/
theorem C24_mask_error_iff (dflt : α) (fill? : Option α) (tab : List (List (Cell α))) :
    maskMissing dflt fill? tab = .error .collision ↔
      (∃ t i c, Spec.cell tab t i = some c ∧ Spec.NotFinite c) ∧
      (∃ t i, Spec.cell tab t i = some (.val (fill?.getD dflt))) := by
  rw [← mask_any, ← fill_any]
  simp only [maskMissing]
  split_ifs with h1 h2
  · simp only [h1, h2, and_self]
  · simp only [h1, h2, reduceCtorEq, and_false, Bool.false_eq_true]
  · simp only [h1, reduceCtorEq, false_and, Bool.false_eq_true]

/-- **C24**, recoverability: if the table has a non-finite cell and masking succeeds, then the cells of the result that
equal the fill value are exactly the non-finite cells of the input. -/
theorem C24_mask_recoverable (dflt : α) (fill? : Option α) (tab data : List (List (Cell α))) (mask : List (List Bool))
    (h : maskMissing dflt fill? tab = .ok (data, mask))
    (hbad : ∃ t i c, Spec.cell tab t i = some c ∧ Spec.NotFinite c) (t i : ℕ) :
    Spec.cell data t i = some (.val (fill?.getD dflt)) ↔ ∃ c, Spec.cell tab t i = some c ∧ Spec.NotFinite c := by
  have hno : ¬ ∃ t i, Spec.cell tab t i = some (.val (fill?.getD dflt)) := by
    intro hc
    rw [(C24_mask_error_iff dflt fill? tab).2 ⟨hbad, hc⟩] at h
    simp at h
  obtain ⟨h1, h2⟩ := C24_mask_values dflt fill? tab data mask h t i
  cases hc : Spec.cell tab t i with
  | none => simp [(h2 hc).1]
  | some c =>
    by_cases hn : Spec.NotFinite c
    · simp [((h1 c hc).1 hn).1, hn]
    · rw [((h1 c hc).2 hn).1]
      constructor
      · intro h; exact absurd ⟨t, i, hc.trans h⟩ hno
      · rintro ⟨c', h, h'⟩; rw [Option.some.inj h] at hn; exact absurd h' hn

example : ∃ data mask, maskMissing (-9999 : ℤ) none [[.val 1, .nan], [.inf true, .val 2]] = .ok (data, mask) ∧
    data = [[.val 1, .val (-9999)], [.val (-9999), .val 2]] := ⟨_, _, rfl, rfl⟩

example : maskMissing (-9999 : ℤ) none [[.val 1, .nan], [.val (-9999), .val 2]] = .error .collision := rfl

/-- **C25**: a table with no non-finite cell is accepted unchanged whatever it contains; if it contains the fill value,
the filter's own missing-value test (`Kalman.nanMask`) marks that real observation as missing. -/
theorem C25_collision_unnoticed (dflt : ℝ) (fill? : Option ℝ) (tab : List (List (Cell ℝ)))
    (hfin : ∀ t i c, Spec.cell tab t i = some c → ¬ Spec.NotFinite c) :
    (∃ mask, maskMissing dflt fill? tab = .ok (tab, mask) ∧ ∀ t i, Spec.cell mask t i ≠ some true) ∧
    ∀ {p : Type} (y : Kalman.Row p) (t : ℕ) (col : p → ℕ),
      (∀ j, ∃ x, Spec.cell tab t (col j) = some (.val x) ∧ y j = some x) →
      ∀ j, Spec.cell tab t (col j) = some (.val (fill?.getD dflt)) → Kalman.nanMask (fill?.getD dflt) y j := by
  constructor
  · have hm : (tab.map (·.map Cell.invalid)).any (·.any id) = false := by
      rw [← Bool.not_eq_true, mask_any]
      rintro ⟨t, i, c, h, h'⟩; exact hfin t i c h h'
    refine ⟨tab.map (·.map Cell.invalid), ?_, ?_⟩
    · simp only [maskMissing, hm]
      have : tab.map (·.map (Cell.filled (fill?.getD dflt))) = tab := by
        · refine (List.map_congr_left (g := id) fun r hr => ?_).trans (List.map_id _)
          refine (List.map_congr_left (g := id) fun c hc => ?_).trans (List.map_id _)
          obtain ⟨t, ht⟩ := List.mem_iff_getElem?.1 hr
          obtain ⟨i, hi⟩ := List.mem_iff_getElem?.1 hc
          have hn := hfin t i c (by simp [Spec.cell, ht, hi])
          have : c.invalid = false := by rw [← Bool.not_eq_true, invalid_iff]; exact hn
          simp [Cell.filled, this]
      simp [this]
    · intro t i h
      rw [cell_map, Option.map_eq_some_iff] at h
      obtain ⟨c, hc, hi⟩ := h
      exact hfin t i c hc ((invalid_iff c).1 hi)
  · intro p y t col hy j hj
    obtain ⟨x, hx, hyx⟩ := hy j
    rw [hj] at hx
    simp only [Option.some.injEq, Cell.val.injEq] at hx
    exact Or.inr (by rw [hyx, hx])

example : ∀ t i c, Spec.cell [[Cell.val (-9999 : ℝ)], [Cell.val 3]] t i = some c → ¬ Spec.NotFinite c := by
  intro t i c h
  rcases t with _ | _ | t <;> rcases i with _ | i <;> simp [Spec.cell] at h <;> subst h <;> simp [Spec.NotFinite]

/-- Specification of acceptance: what registration requires of the input. -/
def Spec.shapeOk (nObs : ℕ) : Input α → Prop
  | .array shape _ => ∃ n, shape = [n, nObs]
  | .frame cols idx _ => cols.length = nObs ∧ idx ≠ .other
  | .series _ idx _ => nObs = 1 ∧ idx ≠ .other
  | .unsupported => False

/-- Specification: the time labels the registered data get. -/
def Spec.labels : Input α → List Label
  | .array shape _ => (List.range (shape.headD 0)).map .pos
  | .frame _ (.dates ls) _ => ls.map .date
  | .frame _ _ rows => (List.range rows.length).map .pos
  | .series _ (.dates ls) _ => ls.map .date
  | .series _ _ col => (List.range col.length).map .pos
  | .unsupported => []

/-- Specification: the table of cells passed by the user. -/
def Spec.table : Input α → List (List (Cell α))
  | .array _ rows => rows
  | .frame _ _ rows => rows
  | .series _ _ col => col.map fun c => [c]
  | .unsupported => []

theorem validate_ok {shape : List ℕ} {nObs : ℕ} {oc cn : List String} :
    validateShape shape nObs oc false cn = .ok () ↔ ∃ n, shape = [n, nObs] := by
  simp only [validateShape]
  rcases shape with _ | ⟨a, _ | ⟨b, _ | ⟨c, l⟩⟩⟩ <;> simp

theorem validate_cases (shape : List ℕ) (nObs : ℕ) (oc cn : List String) :
    validateShape shape nObs oc false cn = .ok () ∨ ∃ e, validateShape shape nObs oc false cn = .error e := by
  cases h : validateShape shape nObs oc false cn with
  | error e => exact Or.inr ⟨e, rfl⟩
  | ok u => exact Or.inl rfl

theorem array_ok {shape : List ℕ} {rows : List (List (Cell α))} {nObs : ℕ} {oc : List String}
    {r : List (List (Cell α)) × List Label} :
    preprocessArray shape rows nObs oc = .ok r ↔
      (∃ n, shape = [n, nObs]) ∧ r = (rows, (List.range (shape.headD 0)).map Label.pos) := by
  simp only [preprocessArray]
  rcases validate_cases shape nObs oc [] with h | ⟨e, h⟩
  · rw [h]; simp only [Except.ok.injEq, validate_ok.1 h, true_and]; exact eq_comm
  · rw [h]; simp only [reduceCtorEq, false_iff]
    rintro ⟨h', -⟩
    rw [validate_ok.2 h'] at h; simp at h

theorem frame_ok {cols : List String} {idx : Index} {rows : List (List (Cell α))} {nObs : ℕ} {oc : List String}
    {r : List (List (Cell α)) × List Label} :
    preprocessFrame cols idx rows nObs oc false = .ok r ↔
      cols.length = nObs ∧ idx ≠ .other ∧ r = (rows, Spec.labels (.frame cols idx rows)) := by
  simp only [preprocessFrame]
  rcases validate_cases [rows.length, cols.length] nObs oc cols with h | ⟨e, h⟩
  · have hl : cols.length = nObs := by
      obtain ⟨n, hn⟩ := validate_ok.1 h
      simp only [List.cons.injEq, and_true] at hn
      exact hn.2
    rw [h]
    cases idx with
    | range a b =>
      simp only [array_ok]
      subst hl
      simp [Spec.labels]
    | dates ls => simp [hl, Spec.labels, eq_comm]
    | other => simp
  · rw [h]
    simp only [reduceCtorEq, false_iff]
    rintro ⟨rfl, -⟩
    rw [validate_ok.2 ⟨_, rfl⟩] at h; simp at h

theorem preprocess_ok {x : Input α} {nObs : ℕ} {oc : List String} {r : List (List (Cell α)) × List Label} :
    preprocess x nObs oc = .ok r ↔ Spec.shapeOk nObs x ∧ r = (Spec.table x, Spec.labels x) := by
  cases x with
  | array s rows => simp only [preprocess, array_ok]; rfl
  | frame c i rows => simp only [preprocess, frame_ok, Spec.shapeOk, Spec.table, and_assoc]
  | series n i col =>
    simp only [preprocess, frame_ok, Spec.shapeOk, Spec.table, and_assoc, List.length_singleton]
    have : Spec.labels (Input.frame [n.getD "data"] i (col.map fun c => [c])) = Spec.labels (.series n i col) := by
      cases i <;> simp [Spec.labels]
    rw [this, @eq_comm _ 1 nObs]
  | unsupported => simp [preprocess, Spec.shapeOk]

/-- **C84**: registration succeeds exactly when the input has the declared number of columns and an acceptable index,
it does not contain both a non-finite cell and the fill value, and (if it is to be registered) an already present time
coordinate equals the data's own; the data are then the filled table and the time coordinate the data's labels. -/
theorem C84_register_ok_iff (dflt : α) (x : Input α) (nObs : ℕ) (oc : List String) (reg : Bool) (fill? : Option α)
    (tc : TimeCoord) (out : Registered α) :
    register dflt x nObs oc reg fill? tc = .ok out ↔
      Spec.shapeOk nObs x ∧ maskMissing dflt fill? (Spec.table x) = .ok (out.data, out.mask) ∧
      (reg = true → (∀ ls, tc = .values ls → ls = Spec.labels x) ∧ out.time = .values (Spec.labels x)) ∧
      (reg = false → out.time = tc) := by
  simp only [register]
  cases hp : preprocess x nObs oc with
  | error e =>
    have : ¬ Spec.shapeOk nObs x := by
      intro hs; rw [preprocess_ok.2 ⟨hs, rfl⟩] at hp; simp at hp
    simp [this]
  | ok r =>
    obtain ⟨hs, rfl⟩ := preprocess_ok.1 hp
    cases hm : maskMissing dflt fill? (Spec.table x) with
    | error e => simp [hm]
    | ok dm =>
      obtain ⟨data, mask⟩ := dm
      obtain ⟨od, om, ot⟩ := out
      cases reg with
      | false => simp [hs, hm]; tauto
      | true =>
        cases tc with
        | absent => simp [hs, hm, addTime]; tauto
        | empty => simp [hs, hm, addTime]; tauto
        | values ls =>
          by_cases h : ls = Spec.labels x
          · simp [hs, hm, addTime, h]; tauto
          · simp [hs, hm, addTime, h]

example : ∃ out, register (-9999 : ℤ) (.frame ["b", "a"] (.dates [10, 11]) [[.val 1, .nan], [.val 3, .val 4]]) 2 ["a", "b"]
    true none .empty = .ok out ∧ out.time = .values [.date 10, .date 11] := ⟨_, rfl, rfl⟩

/-- **C85**: column names are never consulted: a frame whose columns are named or ordered differently from the model's
observed states is registered exactly as one with the right names, without reordering, and a `RangeIndex`, wherever it
starts, is renumbered from zero. -/
theorem C85_names_ignored (dflt : α) (cols cols' : List String) (h : cols.length = cols'.length)
    (rows : List (List (Cell α))) (nObs : ℕ) (oc oc' : List String) (reg : Bool) (fill? : Option α) (tc : TimeCoord)
    (s s' : ℤ) (n n' : ℕ) (idx : Index) :
    register dflt (.frame cols idx rows) nObs oc reg fill? tc =
      register dflt (.frame cols' idx rows) nObs oc' reg fill? tc ∧
    register dflt (.frame cols (.range s n) rows) nObs oc reg fill? tc =
      register dflt (.frame cols' (.range s' n') rows) nObs oc' reg fill? tc := by
  have hv : ∀ oc oc' : List String, validateShape [rows.length, cols.length] nObs oc false cols =
      validateShape [rows.length, cols'.length] nObs oc' false cols' := by
    intro oc oc'; simp [validateShape, h]
  have hv2 : ∀ a b : List String, validateShape [rows.length, cols.length] nObs a false [] =
      validateShape [rows.length, cols'.length] nObs b false [] := by
    intro oc oc'; simp [validateShape, h]
  constructor
  · have : preprocess (.frame cols idx rows) nObs oc = preprocess (.frame cols' idx rows) nObs oc' := by
      simp only [preprocess, preprocessFrame, preprocessArray, hv oc oc', hv2 oc oc', List.headD_cons]
    simp only [register, this]
  · have : preprocess (.frame cols (.range s n) rows) nObs oc = preprocess (.frame cols' (.range s' n') rows) nObs oc' := by
      simp only [preprocess, preprocessFrame, preprocessArray, hv oc oc', hv2 oc oc', List.headD_cons]
    simp only [register, this]

end Verif.Data
