import Verif.Builder.Lifecycle
import Mathlib.Data.List.Perm.Subperm
import Mathlib.Data.List.Basic

/-! # C179, C180: what a saved model is rebuilt on; what a model builder is conditioned on -/

set_option autoImplicit false

namespace Lifecycle

/-! ### C179 -/

/-- After `fit`, `save` and `load` the new object's model has the data and configuration of the fitted one, and its posterior. -/
def Spec.Restored {C α β : Type} (zero : β) (e : Est C α β) (x : XArg α) (y : YArg β) : Prop :=
  ∃ e1 f e2, fit zero e x y = (e1, none) ∧ save e1 = .ok f ∧ load f = .ok e2 ∧
    e2.model = some ⟨e.config, x.vals.map some, (yFrame zero x y).vals.map some⟩ ∧
    e2.idata = e1.idata ∧ e2.config = e.config

/-- A data frame has one label for each row. -/
def Labelled.wf {α : Type} (s : Labelled α) : Prop := s.labels.length = s.vals.length

theorem rangeIndex_wf {α : Type} (v : List α) : (rangeIndex v).wf := by simp [Labelled.wf, rangeIndex]

theorem fit_frame {C α β : Type} (zero : β) (e : Est C α β) (s : Labelled α) (y : YArg β)
    (hl : s.vals.length = (yFrame zero (.frame s true) y).vals.length) :
    fit zero e (.frame s true) y =
      let m : Model C α β := ⟨e.config, s.vals.map some, (yFrame zero (.frame s true) y).vals.map some⟩
      match concat s (yFrame zero (.frame s true) y) with
      | .error err => (⟨e.config, some m, some ⟨some m, e.config, none⟩⟩, some err)
      | .ok rows => (⟨e.config, some m, some ⟨some m, e.config, some rows⟩⟩, none) := by
  simp only [fit, sampleModel, build, XArg.vals, List.length_map, hl, if_true]
  rfl

theorem fst_zip_map {α β : Type} : ∀ (x : List α) (y : List β), x.length = y.length →
    ((x.zip y).map fun p => (some p.1, some p.2)).map Prod.fst = x.map some ∧
    ((x.zip y).map fun p => (some p.1, some p.2)).map Prod.snd = y.map some
  | [], [], _ => ⟨rfl, rfl⟩
  | a :: x, b :: y, h => by
    have := fst_zip_map x y (by simpa using h)
    simp only [List.zip_cons_cons, List.map_cons]
    exact ⟨by rw [this.1], by rw [this.2]⟩

/-- **C179.** If the target has the index of the features, or is a plain array and the features have the default index, the
loaded model is the fitted one. -/
theorem C179_same_index {C α β : Type} (zero : β) (e : Est C α β) (s : Labelled α) (y : YArg β)
    (hl : s.vals.length = (yFrame zero (.frame s true) y).vals.length)
    (hi : s.labels = (yFrame zero (.frame s true) y).labels) :
    Spec.Restored zero e (.frame s true) y := by
  have hf := fit_frame zero e s y hl
  simp only [concat, hi, if_true] at hf
  refine ⟨_, _, _, hf, rfl, rfl, ?_, rfl, rfl⟩
  have := fst_zip_map s.vals (yFrame zero (.frame s true) y).vals hl
  simp only [build, this.1, this.2, XArg.vals]

theorem at?_getElem {α : Type} (s : Labelled α) (hs : s.wf) (hn : s.labels.Nodup) (i : ℕ) (l : ℤ)
    (hl : s.labels[i]? = some l) : s.at? l = s.vals[i]? := by
  obtain ⟨labels, vals⟩ := s
  simp only [Labelled.wf] at hs hn hl
  unfold Labelled.at?
  simp only
  induction labels generalizing vals i with
  | nil => simp at hl
  | cons a ls ih =>
    cases vals with
    | nil => simp at hs
    | cons v vs =>
      simp only [List.zip_cons_cons, List.find?_cons]
      cases i with
      | zero =>
        simp at hl
        simp [hl]
      | succ i =>
        simp at hl
        have hne : a ≠ l := by
          rintro rfl
          exact (List.nodup_cons.mp hn).1 (List.mem_of_getElem? hl)
        have : (a == l) = false := by simpa using hne
        simp only [this]
        exact ih i vs (by simpa using hs) (List.nodup_cons.mp hn).2 hl

theorem at?_none {α : Type} (s : Labelled α) (l : ℤ) (h : l ∉ s.labels) : s.at? l = none := by
  unfold Labelled.at?
  rw [Option.map_eq_none_iff, List.find?_eq_none]
  rintro ⟨a, v⟩ hm
  have := (List.of_mem_zip hm).1
  simp
  rintro rfl
  exact h this

theorem map_at? {α : Type} (s : Labelled α) (hs : s.wf) (hn : s.labels.Nodup) : s.labels.map s.at? = s.vals.map some := by
  apply List.ext_getElem?
  intro i
  rw [List.getElem?_map, List.getElem?_map]
  cases h : s.labels[i]? with
  | none =>
    rw [List.getElem?_eq_none_iff] at h
    have : s.vals[i]? = none := by rw [List.getElem?_eq_none_iff]; unfold Labelled.wf at hs; omega
    simp [this]
  | some l =>
    have h' : i < s.vals.length := by
      have := List.getElem?_eq_some_iff.mp h
      unfold Labelled.wf at hs
      obtain ⟨w, _⟩ := this
      omega
    simp only [Option.map_some]
    rw [at?_getElem s hs hn i l h, List.getElem?_eq_getElem h']
    rfl

/-- **C179.** Labels without repetition: whatever the numbers are, the saved model can be restored exactly when the two indices
are equal, in the same order. (`fit` itself pairs rows by position and never looks at the labels.) -/
theorem C179_restored_iff {C : Type} (e : Est C ℕ ℕ) (lx ly : List ℤ) (hx : lx.Nodup) (hy : ly.Nodup)
    (hlen : lx.length = ly.length) :
    (∀ xs ys : List ℕ, xs.length = lx.length → ys.length = lx.length →
      Spec.Restored 0 e (.frame ⟨lx, xs⟩ true) (.series ⟨ly, ys⟩)) ↔ lx = ly := by
  constructor
  · intro h
    by_contra hne
    obtain ⟨e1, f, e2, hf, hs, hld, hm, _, _⟩ :=
      h (List.range lx.length) (List.range lx.length) (by simp) (by simp)
    rw [fit_frame 0 e ⟨lx, _⟩ _ (by simp [yFrame])] at hf
    simp only [yFrame, concat, hne, if_false, hx, hy, and_self, if_true, Prod.mk.injEq, and_true] at hf
    subst hf
    simp only [save, Option.isSome_some, if_true, Except.ok.injEq] at hs
    subst hs
    simp only [load, Except.ok.injEq] at hld
    subst hld
    simp only [build, Option.some.injEq, Model.mk.injEq, true_and, List.map_map, XArg.vals, yFrame] at hm
    obtain ⟨h1, h2⟩ := hm
    have hfil : (ly.filter fun l => l ∉ lx) = [] := by
      have := congrArg List.length h1
      simp at this
      rw [List.filter_eq_nil_iff]
      intro a ha
      simpa using this a ha
    rw [hfil, List.append_nil] at h2
    apply hne
    apply List.ext_getElem?
    intro i
    by_cases hi : i < lx.length
    · have h3 := congrArg (fun l => l[i]?) h2
      simp only [List.getElem?_map, List.getElem?_eq_getElem hi, Option.map_some, Function.comp,
        List.getElem?_range hi, Option.some.injEq] at h3
      have hmem : lx[i] ∈ ly := by
        by_contra hn
        rw [at?_none ⟨ly, List.range lx.length⟩ _ hn] at h3
        cases h3
      obtain ⟨j, hj⟩ := List.getElem?_of_mem hmem
      have hjl : j < lx.length := by
        obtain ⟨w, _⟩ := List.getElem?_eq_some_iff.mp hj
        omega
      rw [at?_getElem ⟨ly, List.range lx.length⟩ (by simp [Labelled.wf, hlen]) hy j _ hj] at h3
      simp only [List.getElem?_range hjl, Option.some.injEq] at h3
      subst h3
      rw [hj, List.getElem?_eq_getElem hi]
    · rw [List.getElem?_eq_none (by omega), List.getElem?_eq_none (by omega)]
  · rintro rfl xs ys h1 h2
    exact C179_same_index 0 e _ _ (by simp [yFrame, h1, h2]) rfl

/-- **C179.** Disjoint indices, for example an array as target and features labelled by dates: `fit` succeeds, and the model that
is loaded has twice as many rows, each with either the features or the target missing. -/
theorem C179_disjoint {C α β : Type} (zero : β) (e : Est C α β) (s : Labelled α) (t : Labelled β) (hs : s.wf) (ht : t.wf)
    (hl : s.vals.length = t.vals.length) (hn : s.labels.Nodup) (hn' : t.labels.Nodup) (hne : s.labels ≠ [])
    (hd : ∀ l ∈ t.labels, l ∉ s.labels) :
    ∃ e1 f e2, fit zero e (.frame s true) (.series t) = (e1, none) ∧ save e1 = .ok f ∧ load f = .ok e2 ∧
      e2.model = some ⟨e.config, s.vals.map some ++ t.vals.map (fun _ => none), s.vals.map (fun _ => none) ++ t.vals.map some⟩ ∧
      ∃ p, e2.idata = some p ∧ p.posterior = some ⟨e.config, s.vals.map some, t.vals.map some⟩ := by
  have hf := fit_frame zero e s (.series t) hl
  have hneq : s.labels ≠ t.labels := by
    intro h
    cases hsl : s.labels with
    | nil => exact hne hsl
    | cons a ls =>
      have ha : a ∈ s.labels := by rw [hsl]; simp
      exact hd a (h ▸ ha) ha
  have hfil : (t.labels.filter fun l => l ∉ s.labels) = t.labels := by
    rw [List.filter_eq_self]
    intro a ha
    simpa using hd a ha
  simp only [yFrame, concat, hneq, if_false, hn, hn', and_self, if_true, hfil] at hf
  refine ⟨_, _, _, hf, rfl, rfl, ?_, ⟨_, rfl, rfl⟩⟩
  have e1 : t.labels.map s.at? = t.vals.map fun _ => none := by
    rw [List.map_congr_left (g := fun _ => (none : Option α)) fun l hl => at?_none s l (hd l hl)]
    apply List.ext_getElem (by simpa [Labelled.wf] using ht)
    simp
  have e2 : s.labels.map t.at? = s.vals.map fun _ => none := by
    rw [List.map_congr_left (g := fun _ => (none : Option β)) fun l hl => at?_none t l fun h => hd l h hl]
    apply List.ext_getElem (by simpa [Labelled.wf] using hs)
    simp
  simp only [build, List.map_map, List.map_append, Option.some.injEq, Model.mk.injEq, true_and]
  refine ⟨?_, ?_⟩
  · change s.labels.map s.at? ++ t.labels.map s.at? = _
    rw [map_at? s hs hn, e1]
  · change s.labels.map t.at? ++ t.labels.map t.at? = _
    rw [map_at? t ht hn', e2]

/-- **C179.** Features as a numpy array: the model is sampled, the posterior is stored, and then `fit` raises `AttributeError`;
the object can be saved but the file cannot be loaded. -/
theorem C179_array_features {C α β : Type} (zero : β) (e : Est C α β) (v : List α) (y : YArg β)
    (hl : v.length = (yFrame zero (.array v) y).vals.length) :
    ∃ e1 f, fit zero e (.array v) y = (e1, some .attributeError) ∧ save e1 = .ok f ∧
      f.posterior = some ⟨e.config, v.map some, (yFrame zero (.array v) y).vals.map some⟩ ∧ load f = .error .attributeError := by
  have hf : fit zero e (.array v) y = (⟨e.config, some ⟨e.config, v.map some, (yFrame zero (.array v) y).vals.map some⟩,
      some ⟨some ⟨e.config, v.map some, (yFrame zero (.array v) y).vals.map some⟩, e.config, none⟩⟩, some .attributeError) := by
    simp only [fit, sampleModel, build, XArg.vals, List.length_map, hl, if_true]
  exact ⟨_, _, hf, rfl, rfl, rfl⟩

/-- **C179.** Indices that differ and one of which has repeated labels: `fit` raises after sampling, and the saved file cannot be
loaded. -/
theorem C179_repeated_labels {C α β : Type} (zero : β) (e : Est C α β) (s : Labelled α) (y : YArg β)
    (hl : s.vals.length = (yFrame zero (.frame s true) y).vals.length)
    (hi : s.labels ≠ (yFrame zero (.frame s true) y).labels)
    (hd : ¬(s.labels.Nodup ∧ (yFrame zero (.frame s true) y).labels.Nodup)) :
    ∃ e1 f, fit zero e (.frame s true) y = (e1, some .invalidIndex) ∧ save e1 = .ok f ∧ load f = .error .attributeError := by
  have hf := fit_frame zero e s y hl
  simp only [concat, hi, if_false, hd] at hf
  exact ⟨_, _, hf, rfl, rfl⟩

/-- **C179.** Features whose labels are none of the row numbers (dates, customer ids) and a plain array as target: `fit` succeeds
and conditions on the right pairs, but the model that is loaded has twice as many rows, each with a value missing. -/
theorem C179_plain_target {C α β : Type} (zero : β) (e : Est C α β) (s : Labelled α) (v : List β) (hs : s.wf)
    (hl : s.vals.length = v.length) (hn : s.labels.Nodup) (hne : v ≠ []) (hd : ∀ i : ℕ, i < v.length → (i : ℤ) ∉ s.labels) :
    ∃ e1 f e2, fit zero e (.frame s true) (.plain v) = (e1, none) ∧ save e1 = .ok f ∧ load f = .ok e2 ∧
      e2.model = some ⟨e.config, s.vals.map some ++ v.map (fun _ => none), s.vals.map (fun _ => none) ++ v.map some⟩ ∧
      ∃ p, e2.idata = some p ∧ p.posterior = some ⟨e.config, s.vals.map some, v.map some⟩ := by
  have he : fit zero e (.frame s true) (.plain v) = fit zero e (.frame s true) (.series (rangeIndex v)) := rfl
  rw [he]
  refine C179_disjoint zero e s (rangeIndex v) hs (rangeIndex_wf v) hl hn ?_ ?_ ?_
  · simp only [rangeIndex]
    exact List.Nodup.map (fun a b h => by exact Int.ofNat.inj h) List.nodup_range
  · intro h
    unfold Labelled.wf at hs
    rw [h, hl] at hs
    exact hne (List.length_eq_zero_iff.mp hs.symm)
  · intro l h
    simp only [rangeIndex, List.mem_map, List.mem_range] at h
    obtain ⟨i, hi, rfl⟩ := h
    exact hd i hi

/-- **C179.** A column with an empty name: the model is sampled and the posterior kept, then `fit` raises `AssertionError`; the
object can be saved but the file cannot be loaded. -/
theorem C179_empty_names {C α β : Type} (zero : β) (e : Est C α β) (s : Labelled α) (y : YArg β)
    (hl : s.vals.length = (yFrame zero (.frame s false) y).vals.length)
    (hi : s.labels = (yFrame zero (.frame s false) y).labels) :
    ∃ e1 f, fit zero e (.frame s false) y = (e1, some .assertion) ∧ save e1 = .ok f ∧
      f.posterior = some ⟨e.config, s.vals.map some, (yFrame zero (.frame s false) y).vals.map some⟩ ∧
      load f = .error .attributeError := by
  have hf : fit zero e (.frame s false) y =
      (⟨e.config, some ⟨e.config, s.vals.map some, (yFrame zero (.frame s false) y).vals.map some⟩,
        some ⟨some ⟨e.config, s.vals.map some, (yFrame zero (.frame s false) y).vals.map some⟩, e.config, none⟩⟩,
        some .assertion) := by
    simp only [fit, sampleModel, build, XArg.vals, List.length_map, hl, if_true, concat, hi]
    rfl
  exact ⟨_, _, hf, rfl, rfl, rfl⟩

/-- Fitting on rows labelled 10, 11 with a plain target: four rows after loading. -/
example : ∃ e1 f e2, fit 0 (init () : Est Unit ℕ ℕ) (.frame ⟨[10, 11], [7, 8]⟩ true) (.plain [1, 2]) = (e1, none) ∧
    save e1 = .ok f ∧ load f = .ok e2 ∧
    e2.model = some ⟨(), [some 7, some 8, none, none], [none, none, some 1, some 2]⟩ := ⟨_, _, _, rfl, rfl, rfl, rfl⟩

/-- The same labels in another order: the loaded model pairs the first row with the second target. -/
example : ∃ e1 f e2, fit 0 (init () : Est Unit ℕ ℕ) (.frame ⟨[0, 1], [7, 8]⟩ true) (.series ⟨[1, 0], [1, 2]⟩) = (e1, none) ∧
    save e1 = .ok f ∧ load f = .ok e2 ∧ e1.model = some ⟨(), [some 7, some 8], [some 1, some 2]⟩ ∧
    e2.model = some ⟨(), [some 7, some 8], [some 2, some 1]⟩ := ⟨_, _, _, rfl, rfl, rfl, rfl, rfl⟩

/-! ### C180 -/

/-- **C180.** Whatever was done with the object before, `fit` conditions on exactly its own data and the current
configuration. -/
theorem C180_fit_forgets_history {C α β : Type} (zero : β) (c : C) (cs : List (Call C α β)) (x : XArg α) (y : YArg β)
    (hl : x.vals.length = (yFrame zero x y).vals.length) :
    ∃ i, (fit zero (run zero (init c) cs) x y).1.idata = some i ∧
      i.posterior = some ⟨(run zero (init c) cs).config, x.vals.map some, (yFrame zero x y).vals.map some⟩ ∧
      i.attrs = (run zero (init c) cs).config := by
  generalize run zero (init c) cs = e
  cases x with
  | array v =>
    simp only [XArg.vals] at hl
    refine ⟨⟨some ⟨e.config, v.map some, (yFrame zero (.array v) y).vals.map some⟩, e.config, none⟩, ?_, rfl, rfl⟩
    simp only [fit, sampleModel, build, XArg.vals, List.length_map, hl, if_true]
  | frame s named =>
    simp only [XArg.vals] at hl
    simp only [fit, sampleModel, build, XArg.vals, List.length_map, hl, if_true]
    cases concat s (yFrame zero (.frame s named) y) with
    | error err => exact ⟨_, rfl, rfl, rfl⟩
    | ok rows =>
      cases named with
      | true => exact ⟨_, rfl, rfl, rfl⟩
      | false => exact ⟨_, rfl, rfl, rfl⟩

/-- A call other than `fit`. -/
def Spec.NotFit {C α β : Type} : Call C α β → Prop
  | .fit _ _ => False
  | _ => True

/-- **C180.** No other call changes the stored posterior, the stored training data or the stored configuration. -/
theorem C180_stored_results_kept {C α β : Type} (zero : β) (e : Est C α β) (i : Idata C α β) (hi : e.idata = some i)
    (cs : List (Call C α β)) (h : ∀ c ∈ cs, Spec.NotFit c) : (run zero e cs).idata = some i := by
  induction cs generalizing e with
  | nil => exact hi
  | cons c cs ih =>
    refine ih (step zero e c) ?_ fun d hd => h d (by simp [hd])
    have hc := h c (by simp)
    cases c with
    | fit x y => exact hc.elim
    | predict x =>
      simp only [step, predict]
      cases e.model with
      | none => exact hi
      | some m =>
        simp only [hi]
        cases i.posterior <;> rfl
    | priorPredictive x y ex =>
      simp only [step, priorPredictive, hi]
      cases ex <;> rfl
    | setParams c => exact hi
    | sampleModel => exact hi
    | saveAndLoad =>
      simp only [step, save, hi]
      by_cases hp : i.posterior.isSome = true
      · simp only [hp, if_true]
        unfold load
        cases i.fitData with
        | none => exact hi
        | some rows => rfl
      · simp only [hp]
        exact hi

/-- Predictions only. -/
def Spec.predictions {C α β : Type} (xs : List (List α)) : List (Call C α β) := xs.map .predict

theorem run_predictions {C α β : Type} (zero : β) (xs : List (List α)) (last : List α) (e : Est C α β) (m : Model C α β)
    (hm : e.model = some m) :
    run zero e (Spec.predictions (xs ++ [last])) = { e with model := some { m with x := last.map some } } := by
  induction xs generalizing e m with
  | nil =>
    simp only [Spec.predictions, List.nil_append, List.map_cons, List.map_nil, run, List.foldl_cons, List.foldl_nil, step, predict,
      hm, dataSetter]
    cases e.idata with
    | none => rfl
    | some i =>
      simp only
      cases i.posterior <;> rfl
  | cons x xs ih =>
    have hs : step zero e (.predict x) = { e with model := some { m with x := x.map some } } := by
      simp only [step, predict, hm, dataSetter]
      cases e.idata with
      | none => rfl
      | some i =>
        simp only
        cases i.posterior <;> rfl
    have := ih (step zero e (.predict x)) { m with x := x.map some } (by rw [hs])
    simp only [Spec.predictions, List.cons_append, List.map_cons, run, List.foldl_cons] at this ⊢
    rw [this, hs]

/-- **C180.** After predictions `sample_model` no longer uses the training data: if the last prediction had as many rows as the
training data it silently conditions on the prediction's features with the training targets, otherwise it fails. -/
theorem C180_sample_model_after_predict {C α β : Type} (zero : β) (e : Est C α β) (m : Model C α β) (hm : e.model = some m)
    (xs : List (List α)) (last : List α) :
    sampleModel (run zero e (Spec.predictions (xs ++ [last]))) =
      if last.length = m.y.length then .ok ⟨some ⟨m.config, last.map some, m.y⟩, e.config, none⟩ else .error .shapeError := by
  rw [run_predictions zero xs last e m hm]
  simp [sampleModel]

/-- **C180.** After `sample_prior_predictive` without target it conditions on targets that are all zero. -/
theorem C180_sample_model_after_prior {C α β : Type} (zero : β) (e : Est C α β) (x : List α) (ex : Bool) :
    ∃ i c, sampleModel (step zero e (.priorPredictive x none ex)) = .ok i ∧
      i.posterior = some ⟨c, x.map some, x.map fun _ => some zero⟩ := by
  cases hm : e.model with
  | none =>
    refine ⟨⟨some ⟨e.config, x.map some, x.map fun _ => some zero⟩, e.config, none⟩, e.config, ?_, rfl⟩
    simp [step, priorPredictive, sampleModel, hm, build, Function.comp_def]
  | some m =>
    refine ⟨⟨some ⟨m.config, x.map some, x.map fun _ => some zero⟩, e.config, none⟩, m.config, ?_, rfl⟩
    simp [step, priorPredictive, sampleModel, hm, dataSetter, Function.comp_def]

/-- **C180.** `set_params` changes what `get_params` returns and nothing else: the built model keeps its configuration, so
predictions are unchanged and `sample_model` returns draws for the old configuration labelled with the new one. -/
theorem C180_set_params {C α β : Type} (e : Est C α β) (c : C) :
    getParams (setParams e c) = c ∧ (setParams e c).model = e.model ∧ save (setParams e c) = save e ∧
    (∀ x, (predict (setParams e c) x).2 = (predict e x).2) ∧
    ∀ i, sampleModel e = .ok i → sampleModel (setParams e c) = .ok { i with attrs := c } := by
  refine ⟨rfl, rfl, rfl, ?_, ?_⟩
  · intro x
    simp only [setParams, predict]
    cases e.model with
    | none => rfl
    | some m =>
      simp only
      cases e.idata with
      | none => rfl
      | some i =>
        simp only
        cases i.posterior <;> rfl
  · intro i h
    unfold sampleModel at h ⊢
    simp only [setParams]
    cases hm : e.model with
    | none => rw [hm] at h; cases h
    | some m =>
      rw [hm] at h
      simp only at h ⊢
      split at h
      · rename_i hc
        cases h
        simp [hc]
      · cases h

/-- **C180.** Setting the parameters an object already has changes nothing, and a fresh object with them has the same ones. -/
theorem C180_get_set {C α β : Type} (e : Est C α β) :
    setParams e (getParams e) = e ∧ getParams (init (getParams e) : Est C α β) = getParams e := ⟨rfl, rfl⟩

/-- **C180.** Before any `fit` (and any load of a fit) no prediction is possible and nothing can be saved, whatever else was
called. -/
theorem C180_nothing_before_fit {C α β : Type} (zero : β) (c : C) (cs : List (Call C α β)) (h : ∀ d ∈ cs, Spec.NotFit d) :
    save (run zero (init c) cs) = .error .runtimeError ∧ ∀ x, (predict (run zero (init c) cs) x).2 = .error .attributeError := by
  have inv : ∀ (cs : List (Call C α β)) (e : Est C α β), (∀ d ∈ cs, Spec.NotFit d) →
      (∀ i, e.idata = some i → i.posterior = none) → ∀ i, (run zero e cs).idata = some i → i.posterior = none := by
    intro cs
    induction cs with
    | nil => intro e _ he; exact he
    | cons d cs ih =>
      intro e hd he
      refine ih (step zero e d) (fun d' hd' => hd d' (by simp [hd'])) ?_
      have hc := hd d (by simp)
      cases d with
      | fit x y => exact hc.elim
      | predict x =>
        have : (step zero e (.predict x)).idata = e.idata := by
          simp only [step, predict]
          cases hm : e.model with
          | none => rfl
          | some m =>
            simp only
            cases e.idata with
            | none => rfl
            | some i =>
              simp only
              cases i.posterior <;> rfl
        rw [this]; exact he
      | priorPredictive x y ex =>
        intro i hi
        simp only [step, priorPredictive] at hi
        cases ex with
        | false => exact he i hi
        | true =>
          cases hid : e.idata with
          | none => rw [hid] at hi; cases hi; rfl
          | some j => rw [hid] at hi; cases hi; exact he _ hid
      | setParams c => exact he
      | sampleModel => exact he
      | saveAndLoad =>
        have : save e = .error .runtimeError := by
          unfold save
          cases hid : e.idata with
          | none => rfl
          | some j => simp [he j hid]
        simp only [step, this]
        exact he
  have hinv := inv cs (init c) h (by intro i hi; cases hi)
  generalize run zero (init c) cs = e at hinv
  constructor
  · unfold save
    cases hid : e.idata with
    | none => rfl
    | some j => simp [hinv j hid]
  · intro x
    unfold predict
    cases e.model with
    | none => rfl
    | some m =>
      simp only
      cases hid : e.idata with
      | none => rfl
      | some j => simp [hinv j hid]

/-- Fit, predict on two other rows, then call the sampler: the new features with the old targets. -/
example : sampleModel (run 0 (init 1 : Est ℕ ℕ ℕ)
    [.fit (.frame ⟨[0, 1], [7, 8]⟩ true) (.plain [1, 2]), .predict [50, 60]]) =
    .ok ⟨some ⟨1, [some 50, some 60], [some 1, some 2]⟩, 1, none⟩ := rfl

end Lifecycle
