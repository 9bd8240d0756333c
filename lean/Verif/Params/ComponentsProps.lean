import Verif.Params.Components
import Verif.Params.Props
import Verif.Structural.MetaProps

/-! # C148-C150: what structural components say about their parameters -/

set_option autoImplicit false

namespace Verif.Params.Structural

open Verif.Params

/-! ### Lemmas -/

theorem get_singleton {V : Type} (k : String) (v : V) (n : String) : get [(k, v)] n = if k = n then some v else none := by
  rw [get_cons]; rfl

/-- Two words of the same length differ if a letter occurs a different number of times. -/
theorem sigma_ne_coefs (name : String) : "sigma_" ++ name ≠ name ++ "_coefs" := by
  intro h
  have h := congrArg (fun s => s.toList.count 'a') h
  simp only [String.toList_append, List.count_append] at h
  have h1 : "sigma_".toList.count 'a' = 1 := by decide
  have h2 : "_coefs".toList.count 'a' = 0 := by decide
  omega

theorem ne_of_length {a b : String} (h : a.length ≠ b.length) : a ≠ b := fun e => h (by rw [e])

theorem len_sigma (name : String) : ("sigma_" ++ name).length = 6 + name.length := by
  rw [String.length_append]; rfl

theorem fits_scalar (c : Dict (List String)) : Spec.Fits c none [] := rfl

/-- A component announces consistently if it does so entry by entry. -/
theorem view_consistent (c : Comp) (hn : c.names.Nodup) (hr : c.registered.map Prod.fst = c.names)
    (hi : c.info.map Prod.fst = c.names)
    (h : ∀ e ∈ c.registered, ∃ d, get c.info e.1 = some (e.2, d) ∧ Spec.Fits c.coords d e.2) :
    Spec.Consistent c.view := by
  refine ⟨hn, List.Perm.of_eq hr, ⟨c.info, rfl, hi⟩, fun e he => ?_⟩
  obtain ⟨d, h1, h2⟩ := h e he
  exact ⟨c.info, d, rfl, h1, h2⟩

theorem announced_view {c : Comp} {e : String × List ℕ} (h : Spec.Announced c.view e) :
    ∃ d, get c.info e.1 = some (e.2, d) ∧ Spec.Fits c.coords d e.2 := by
  obtain ⟨info, d, h1, h2, h3⟩ := h
  injection h1 with h1
  subst h1
  exact ⟨d, h2, h3⟩

theorem fits_one_iff {c : Dict (List String)} {a : String} {n : ℕ} {l : List String} (h : get c a = some l) :
    Spec.Fits c (some [a]) [n] ↔ l.length = n := by
  constructor
  · intro hf
    cases hf with
    | cons h1 _ =>
      obtain ⟨l', h2, h3⟩ := h1
      rw [h] at h2
      injection h2 with h2
      rw [h2]; exact h3
  · exact fun hl => fits_one h hl

/-! ### The components -/

theorem count_zip_names (ns : List String) (m : List Bool) (h : m.length ≤ ns.length) :
    (((ns.zip m).filter (·.2)).map Prod.fst).length = m.count true := by
  induction m generalizing ns with
  | nil => simp
  | cons b m ih =>
    cases ns with
    | nil => simp at h
    | cons a ns =>
      have := ih ns (by simpa using h)
      cases b <;> simp at this ⊢ <;> omega

/-- **C148** (level and trend). For an accepted order mask and an innovations mask that fits it, the announcement is
right exactly when the order leaves out no derivative and asks for at most seven. -/
theorem C148_level_trend (mask innov : List Bool) (hm : mask.getLast? = some true) (hi : innov.length ≤ mask.length) :
    Spec.Consistent (levelTrend mask innov).view ↔ (∀ b ∈ mask, b = true) ∧ mask.length ≤ 7 := by
  have hnames : (Verif.Structural.trendStateNames mask).length = mask.length ↔
      (∀ b ∈ mask, b = true) ∧ mask.length ≤ 7 :=
    Verif.Structural.C94_trend_names mask mask.length (by simp [Verif.Structural.trendKStates, hm])
  rw [← hnames]
  constructor
  · rintro ⟨-, -, -, h⟩
    have hx : ("initial_trend", [mask.length]) ∈ (levelTrend mask innov).view.registered := by
      unfold levelTrend
      by_cases hp : 0 < innov.count true <;> simp [hp, Comp.view]
    obtain ⟨d, h1, h2⟩ := announced_view (h _ hx)
    have e1 : get (levelTrend mask innov).info "initial_trend" = some ([mask.length], some ["trend_state"]) := by
      unfold levelTrend
      by_cases hp : 0 < innov.count true <;> simp [hp, get_cons]
    have e2 : get (levelTrend mask innov).coords "trend_state" = some (Verif.Structural.trendStateNames mask) := by
      unfold levelTrend
      by_cases hp : 0 < innov.count true <;> simp [hp, get_cons]
    rw [e1] at h1
    simp only [Option.some.injEq, Prod.mk.injEq, true_and] at h1
    rw [← h1] at h2
    exact (fits_one_iff e2).1 h2
  · intro hl
    have h7 := (hnames.1 hl).2
    by_cases hp : 0 < innov.count true
    · refine view_consistent _ ?_ ?_ ?_ ?_
      · simp [levelTrend, hp]
      · simp [levelTrend, hp]
      · simp [levelTrend, hp]
      · intro e he
        simp only [levelTrend, hp, if_true, List.mem_cons, List.not_mem_nil, or_false] at he ⊢
        rcases he with rfl | rfl
        · exact ⟨some ["trend_state"], by simp [get_cons], fits_one (by simp [get_cons]) hl⟩
        · refine ⟨some ["trend_shock"], by simp [get_cons], fits_one (by simp [get_cons]; rfl) ?_⟩
          rw [List.take_of_length_le hi]
          refine count_zip_names _ _ ?_
          rw [List.length_take]
          simp
          omega
    · refine view_consistent _ ?_ ?_ ?_ ?_
      · simp [levelTrend, hp]
      · simp [levelTrend, hp]
      · simp [levelTrend, hp]
      · intro e he
        simp only [levelTrend, hp, if_false, List.mem_cons, List.not_mem_nil, or_false] at he ⊢
        subst he
        exact ⟨some ["trend_state"], by simp [get_cons], fits_one (by simp [get_cons]) hl⟩

/-- **C148** (measurement error): always right. -/
theorem C148_measurement_error (name : String) : Spec.Consistent (measurementError name).view := by
  refine view_consistent _ (by simp [measurementError]) rfl rfl ?_
  intro e he
  simp only [measurementError, List.mem_singleton] at he
  subst he
  exact ⟨none, by simp [measurementError, get_cons], rfl⟩

theorem lagLabels_length (order : List Bool) : (lagLabels order).length = order.count true := by
  have key : ∀ (l : List Bool) (n : ℕ), (((l.zipIdx n).filter (·.1)).length) = l.count true := by
    intro l
    induction l with
    | nil => simp
    | cons b l ih => intro n; cases b <;> simp [List.zipIdx_cons, ih]
  simp [lagLabels, key]

/-- **C148** (autoregression): right exactly when every lag is included; the dims always fit. -/
theorem C148_autoregressive (name : String) (order : List Bool) :
    (Spec.Consistent (autoregressive name order).view ↔ ∀ b ∈ order, b = true) ∧
    ∀ e ∈ (autoregressive name order).registered, e.1 = "ar_params" →
      Spec.Fits (autoregressive name order).coords (some ["ar_lag"]) e.2 := by
  rw [← Verif.Structural.C93_ar_param_shape]
  simp only [Verif.Structural.arParamShapes]
  have hf : Spec.Fits (autoregressive name order).coords (some ["ar_lag"]) [order.count true] :=
    fits_one (by simp [autoregressive, get_cons]) (lagLabels_length order)
  refine ⟨⟨?_, ?_⟩, ?_⟩
  · rintro ⟨-, -, -, h⟩
    have hx : ("ar_params", [order.count true]) ∈ (autoregressive name order).view.registered := by
      simp [autoregressive, Comp.view]
    obtain ⟨d, h1, -⟩ := announced_view (h _ hx)
    simp [autoregressive, get_cons] at h1
    exact h1.1
  · intro hl
    refine view_consistent _ (by simp [autoregressive]) rfl rfl ?_
    intro e he
    simp only [autoregressive, List.mem_cons, List.not_mem_nil, or_false] at he
    rcases he with rfl | rfl
    · exact ⟨some ["ar_lag"], by simp [autoregressive, get_cons, hl], hf⟩
    · exact ⟨none, by simp [autoregressive, get_cons], rfl⟩
  · intro e he hn
    simp only [autoregressive, List.mem_cons, List.not_mem_nil, or_false] at he
    rcases he with rfl | rfl
    · exact hf
    · simp at hn

/-- **C148** (seasonality in the time domain): always right. -/
theorem C148_time_seasonality (name : String) (states : List String) (innov : Bool) :
    Spec.Consistent (timeSeasonality name states innov).view := by
  have hne := sigma_ne_coefs name
  refine view_consistent _ ?_ ?_ ?_ ?_
  · cases innov <;> simp [timeSeasonality, hne.symm]
  · cases innov <;> simp [timeSeasonality]
  · cases innov <;> simp [timeSeasonality]
  · intro e he
    have h1 : e = (name ++ "_coefs", [states.length]) ∨ (innov = true ∧ e = ("sigma_" ++ name, [])) := by
      cases innov <;> simpa [timeSeasonality] using he
    rcases h1 with rfl | ⟨rfl, rfl⟩
    · exact ⟨some [name ++ "_state"], by simp [timeSeasonality, get_cons],
        fits_one (by simp [timeSeasonality, get_cons]) rfl⟩
    · exact ⟨none, by simp [timeSeasonality, get_cons, hne.symm], rfl⟩

/-- **C148** (seasonality in the frequency domain): always right, whether or not the last coefficient is dropped. -/
theorem C148_frequency_seasonality (name : String) (s n : ℕ) (innov : Bool) :
    Spec.Consistent (frequencySeasonality name s n innov).view := by
  have hne : name ≠ "sigma_" ++ name := ne_of_length (by rw [len_sigma]; omega)
  have hst : ((List.range n).flatMap (fun i => [s!"{name}_Cos_{i}", s!"{name}_Sin_{i}"])).length = n * 2 := by
    rw [List.length_flatMap]
    simp
  refine view_consistent _ ?_ ?_ ?_ ?_
  · cases innov <;> simp [frequencySeasonality, hne]
  · cases innov <;> simp [frequencySeasonality]
  · cases innov <;> simp [frequencySeasonality]
  · intro e he
    have h1 : e = (name, [n * 2 - if s = 2 * n then 1 else 0]) ∨ (innov = true ∧ e = ("sigma_" ++ name, [])) := by
      cases innov <;> simpa [frequencySeasonality] using he
    rcases h1 with rfl | ⟨rfl, rfl⟩
    · refine ⟨some [name ++ "_state"], by simp [frequencySeasonality, get_cons],
        fits_one (l := if s = 2 * n then ((List.range n).flatMap
          (fun i => [s!"{name}_Cos_{i}", s!"{name}_Sin_{i}"])).dropLast else
            (List.range n).flatMap (fun i => [s!"{name}_Cos_{i}", s!"{name}_Sin_{i}"])) ?_ ?_⟩
      · simp only [frequencySeasonality, get_cons, if_true]
      · split_ifs
        · rw [List.length_dropLast, hst]
        · rw [hst]; rfl
    · exact ⟨none, by simp [frequencySeasonality, get_cons, hne], rfl⟩

theorem cycle_names (name : String) (e d i : Bool) : (cycle name e d i).names.Nodup := by
  have l1 : (name ++ "_length").length = name.length + 7 := by rw [String.length_append]; rfl
  have l2 : (name ++ "_dampening_factor").length = name.length + 17 := by rw [String.length_append]; rfl
  have l3 := len_sigma name
  have n1 : name ≠ name ++ "_length" := ne_of_length (by omega)
  have n2 : name ≠ name ++ "_dampening_factor" := ne_of_length (by omega)
  have n3 : name ≠ "sigma_" ++ name := ne_of_length (by omega)
  have n4 : name ++ "_length" ≠ name ++ "_dampening_factor" := ne_of_length (by omega)
  have n5 : name ++ "_length" ≠ "sigma_" ++ name := ne_of_length (by omega)
  have n6 : name ++ "_dampening_factor" ≠ "sigma_" ++ name := ne_of_length (by omega)
  cases e <;> cases d <;> cases i <;> simp [cycle, n1, n2, n3, n4, n5, n6]

/-- **C148** (cycle): always right. -/
theorem C148_cycle (name : String) (estimate dampen innov : Bool) :
    Spec.Consistent (cycle name estimate dampen innov).view := by
  have hnd := cycle_names name estimate dampen innov
  refine view_consistent _ hnd ?_ ?_ ?_
  · simp [cycle, List.map_map, Function.comp_def]
  · simp [cycle, List.map_map, Function.comp_def]
  · intro e he
    have hs : (cycle name estimate dampen innov).names =
      name :: (cycle name estimate dampen innov).names.tail := rfl
    have hreg : (cycle name estimate dampen innov).registered =
      (name, [2]) :: (cycle name estimate dampen innov).names.tail.map (fun n => (n, [])) := rfl
    have hinf : (cycle name estimate dampen innov).info =
      (name, [2], some [name ++ "_state"]) ::
        (cycle name estimate dampen innov).names.tail.map (fun n => (n, [], none)) := rfl
    rw [hs] at hnd
    rw [hreg] at he
    rw [hinf]
    generalize (cycle name estimate dampen innov).names.tail = t at *
    have getmap : ∀ (t : List String) (x : String), x ∈ t →
        get (t.map (fun n => (n, ([] : List ℕ), (none : Dims)))) x = some ([], none) := by
      intro t
      induction t with
      | nil => simp
      | cons a t ih =>
        intro x hx
        rw [List.map_cons, get_cons]
        by_cases ha : a = x
        · simp [ha]
        · rw [if_neg ha]; exact ih x ((List.mem_cons.1 hx).resolve_left (fun h => ha h.symm))
    rcases List.mem_cons.1 he with rfl | he
    · exact ⟨some [name ++ "_state"], by simp [get_cons], fits_one (by simp [cycle, get_cons]; rfl) rfl⟩
    · obtain ⟨x, hx, rfl⟩ := List.mem_map.1 he
      refine ⟨none, ?_, rfl⟩
      rw [get_cons, if_neg (fun h => (List.nodup_cons.1 hnd).1 (by rw [h]; exact hx))]
      exact getmap t x hx

/-- **C148** (regression): right exactly without innovations; the standard deviations of the innovations are announced as
a scalar but registered as a vector, one per regressor. -/
theorem C148_regression (name : String) (states : List String) (innov : Bool) :
    Spec.Consistent (regression name states innov).view ↔ innov = false := by
  have hne : "beta_" ++ name ≠ "sigma_beta_" ++ name := by
    refine ne_of_length ?_
    rw [String.length_append, String.length_append]
    have h1 : "beta_".length = 5 := rfl
    have h2 : "sigma_beta_".length = 11 := rfl
    omega
  constructor
  · rintro ⟨-, -, -, h⟩
    by_contra hi
    have hi : innov = true := by simpa using hi
    subst hi
    have hx : ("sigma_beta_" ++ name, [states.length]) ∈ (regression name states true).view.registered := by
      simp [regression, Comp.view]
    obtain ⟨d, h1, -⟩ := announced_view (h _ hx)
    simp [regression, get_cons, hne] at h1
  · rintro rfl
    refine view_consistent _ (by simp [regression]) (by simp [regression]) (by simp [regression]) ?_
    intro e he
    simp [regression] at he
    subst he
    exact ⟨some ["exog_state"], by simp [regression, get_cons], fits_one (by simp [regression, get_cons]) rfl⟩

example : Spec.Consistent (levelTrend [true, true] [true, false]).view :=
  (C148_level_trend _ _ rfl (by simp)).2 (by simp)
example : (levelTrend [true, false, true] [true, false, true]).registered = [("initial_trend", [3]), ("sigma_trend", [2])] ∧
    get (levelTrend [true, false, true] [true, false, true]).coords "trend_state" = some ["level", "acceleration"] := by
  decide +kernel
example : (autoregressive "ar" [true, false, true]).info =
      [("ar_params", [3], some ["ar_lag"]), ("sigma_ar", [], none)] ∧
    (autoregressive "ar" [true, false, true]).registered = [("ar_params", [2]), ("sigma_ar", [])] ∧
    (autoregressive "ar" [true, false, true]).coords = [("ar_lag", ["1", "3"])] := by decide +kernel
example : (frequencySeasonality "f" 4 2 true).registered = [("f", [3]), ("sigma_f", [])] := by decide +kernel


/-! ### Sums and models -/

/-- A component whose announcement is right, whose states are all named, and which uses none of the names the model adds. -/
structure Spec.Good (c : Comp) : Prop where
  consistent : Spec.Consistent c.view
  states : c.stateNames.length = c.kStates
  p0 : "P0" ∉ c.names
  dict : (c.coords.map Prod.fst).Nodup
  reserved : ∀ k ∈ ["state", "state_aux", "observed_state", "observed_state_aux", "shock", "shock_aux"],
    get c.coords k = none

/-- Two components can be added: no parameter in common, and a dimension in common has the same length in both. -/
def Spec.Compatible (a b : Comp) : Prop :=
  (∀ n ∈ a.names, n ∉ b.names) ∧
  ∀ k l l', get a.coords k = some l → get b.coords k = some l' → l.length = l'.length

theorem get_none_iff {V : Type} (d : Dict V) (n : String) : get d n = none ↔ n ∉ d.map Prod.fst := by
  induction d with
  | nil => simp [get]
  | cons e d ih =>
    obtain ⟨a, b⟩ := e
    rw [get_cons]
    by_cases h : a = n
    · simp [h]
    · rw [if_neg h, ih, List.map_cons, List.mem_cons, not_or]
      exact ⟨fun h' => ⟨fun e => h e.symm, h'⟩, fun h' => h'.2⟩

theorem get_append {V : Type} (a b : Dict V) (n : String) : get (a ++ b) n = (get a n).orElse (fun _ => get b n) := by
  induction a with
  | nil => simp [get]
  | cons e a ih =>
    obtain ⟨k, v⟩ := e
    rw [List.cons_append, get_cons, get_cons]
    split_ifs
    · rfl
    · exact ih

theorem put_new {V : Type} (d : Dict V) (k : String) (v : V) (h : k ∉ d.map Prod.fst) : put k v d = d ++ [(k, v)] := by
  unfold put
  rw [if_neg]
  intro h'
  obtain ⟨e, he, hk⟩ := List.any_eq_true.1 h'
  exact h (List.mem_map.2 ⟨e, he, by simpa using hk⟩)

theorem update_disjoint {V : Type} (b : Dict V) : ∀ (a : Dict V), (b.map Prod.fst).Nodup →
    (∀ k ∈ a.map Prod.fst, k ∉ b.map Prod.fst) → update a b = a ++ b := by
  induction b with
  | nil => intro a _ _; simp [update]
  | cons e b ih =>
    intro a hn hd
    have hk : e.1 ∉ a.map Prod.fst := fun h => hd _ h (by simp)
    have : update a (e :: b) = update (put e.1 e.2 a) b := rfl
    rw [this, put_new a e.1 e.2 hk, ih _ (by simpa using (List.nodup_cons.1 hn).2)]
    · simp
    · intro k hk'
      rw [List.map_append, List.mem_append] at hk'
      rcases hk' with h | h
      · exact fun h' => hd k h (by simp at h' ⊢; exact .inr h')
      · simp at h
        subst h
        exact (List.nodup_cons.1 hn).1

theorem get_update {V : Type} (b : Dict V) (n : String) : ∀ (a : Dict V), (b.map Prod.fst).Nodup →
    get (update a b) n = (get b n).orElse (fun _ => get a n) := by
  induction b with
  | nil => intro a _; simp [update, get]
  | cons e b ih =>
    intro a hn
    obtain ⟨k, v⟩ := e
    have : update a ((k, v) :: b) = update (put k v a) b := rfl
    rw [this, ih _ (List.nodup_cons.1 hn).2, get_put, get_cons]
    by_cases h : k = n
    · subst h
      rw [if_pos rfl, if_pos rfl, (get_none_iff b k).2 (List.nodup_cons.1 hn).1]
      rfl
    · rw [if_neg h, if_neg h]

theorem update_keys {V : Type} (b : Dict V) : ∀ (a : Dict V), (a.map Prod.fst).Nodup →
    ((update a b).map Prod.fst).Nodup := by
  have hput : ∀ (a : Dict V) (k : String) (v : V), (a.map Prod.fst).Nodup → ((put k v a).map Prod.fst).Nodup := by
    intro a k v h
    by_cases hk : k ∈ a.map Prod.fst
    · have : (put k v a).map Prod.fst = a.map Prod.fst := by
        unfold put
        rw [if_pos]
        · rw [List.map_map]
          refine List.map_congr_left fun e _ => ?_
          simp only [Function.comp]
          split_ifs with he
          · exact he.symm
          · rfl
        · obtain ⟨e, he, rfl⟩ := List.mem_map.1 hk
          exact List.any_eq_true.2 ⟨e, he, by simp⟩
      rw [this]; exact h
    · rw [put_new a k v hk, List.map_append]
      exact List.Nodup.append h (by simp) (by simpa using hk)
  induction b with
  | nil => intro a h; exact h
  | cons e b ih => intro a h; exact ih _ (hput a _ _ h)

theorem fits_mono {c c' : Dict (List String)} {d : Dims} {sh : List ℕ} (hf : Spec.Fits c d sh)
    (h : ∀ k l, get c k = some l → ∃ l', get c' k = some l' ∧ l'.length = l.length) : Spec.Fits c' d sh := by
  cases d with
  | none => exact hf
  | some ds =>
    simp only [Spec.Fits] at hf ⊢
    refine hf.imp ?_
    rintro k n ⟨l, h1, h2⟩
    obtain ⟨l', h3, h4⟩ := h k l h1
    exact ⟨l', h3, h4.trans h2⟩

theorem info_keys {c : Comp} (h : Spec.Consistent c.view) : c.info.map Prod.fst = c.names := by
  obtain ⟨-, -, ⟨i, h1, h2⟩, -⟩ := h
  injection h1 with h1
  rw [h1]; exact h2

theorem get_mem {V : Type} {d : Dict V} {n : String} {v : V} (h : get d n = some v) : n ∈ d.map Prod.fst := by
  by_contra hn
  rw [(get_none_iff d n).2 hn] at h
  simp at h

/-- Adding two compatible components whose announcements are right gives one whose announcement is right. -/
theorem add_consistent {a b : Comp} (ha : Spec.Consistent a.view) (hb : Spec.Consistent b.view)
    (hbd : (b.coords.map Prod.fst).Nodup) (h : Spec.Compatible a b) : Spec.Consistent (add a b).view := by
  have ia := info_keys ha
  have ib := info_keys hb
  have na : a.names.Nodup := ha.1
  have nb : b.names.Nodup := hb.1
  have pa : (a.registered.map Prod.fst).Perm a.names := ha.2.1
  have pb : (b.registered.map Prod.fst).Perm b.names := hb.2.1
  have e1 : (add a b).registered = a.registered ++ b.registered :=
    update_disjoint _ _ (pb.nodup_iff.2 nb) (fun k hk hk' => h.1 k (pa.mem_iff.1 hk) (pb.mem_iff.1 hk'))
  have e2 : (add a b).info = a.info ++ b.info :=
    update_disjoint _ _ (by rw [ib]; exact nb) (fun k hk hk' => h.1 k (by rwa [ia] at hk) (by rwa [ib] at hk'))
  refine ⟨?_, ?_, ⟨_, rfl, ?_⟩, ?_⟩
  · exact List.Nodup.append na nb (fun x hx hx' => h.1 x hx hx')
  · show ((add a b).registered.map Prod.fst).Perm (a.names ++ b.names)
    rw [e1, List.map_append]
    exact pa.append pb
  · show (add a b).info.map Prod.fst = a.names ++ b.names
    rw [e2, List.map_append, ia, ib]
  · intro e he
    have he : e ∈ a.registered ++ b.registered := by rw [← e1]; exact he
    refine ⟨(add a b).info, ?_⟩
    rcases List.mem_append.1 he with he | he
    · obtain ⟨d, h1, h2⟩ := announced_view (ha.2.2.2 e he)
      refine ⟨d, rfl, ?_, fits_mono h2 ?_⟩
      · rw [e2, get_append, h1]; rfl
      · intro k l hl
        show ∃ l', get (update a.coords b.coords) k = some l' ∧ _
        rw [get_update _ _ _ hbd]
        cases hk : get b.coords k with
        | none => exact ⟨l, hl, rfl⟩
        | some l' => exact ⟨l', rfl, (h.2 k l l' hl hk).symm⟩
    · obtain ⟨d, h1, h2⟩ := announced_view (hb.2.2.2 e he)
      have hnb : e.1 ∈ b.names := by rw [← ib]; exact get_mem h1
      refine ⟨d, rfl, ?_, fits_mono h2 ?_⟩
      · rw [e2, get_append, (get_none_iff a.info e.1).2 (by rw [ia]; exact fun hx => h.1 _ hx hnb), h1]; rfl
      · intro k l hl
        show ∃ l', get (update a.coords b.coords) k = some l' ∧ _
        rw [get_update _ _ _ hbd, hl]
        exact ⟨l, rfl, rfl⟩

theorem add_good {a b : Comp} (ha : Spec.Good a) (hb : Spec.Good b) (h : Spec.Compatible a b) : Spec.Good (add a b) where
  consistent := add_consistent ha.consistent hb.consistent hb.dict h
  states := by simp [add, ha.states, hb.states]
  p0 := by simp [add, ha.p0, hb.p0]
  dict := update_keys _ _ ha.dict
  reserved := by
    intro k hk
    show get (update a.coords b.coords) k = none
    rw [get_update _ _ _ hb.dict, hb.reserved k hk, ha.reserved k hk]
    rfl

/-- **C149**: the sum of any number of components, each of them announcing its parameters correctly and naming all its
states, with no parameter in common and dimensions in common of the same length, again has these properties. -/
theorem C149_sum : ∀ (cs : List Comp) (c : Comp), Spec.Good c → (∀ d ∈ cs, Spec.Good d) →
    (c :: cs).Pairwise Spec.Compatible → Spec.Good (cs.foldl add c)
  | [], _, hc, _, _ => hc
  | d :: cs, c, hc, h, hp => by
    have hd := h d (by simp)
    have hcd : Spec.Compatible c d := (List.pairwise_cons.1 hp).1 d (by simp)
    refine C149_sum cs (add c d) (add_good hc hd hcd) (fun e he => h e (by simp [he])) ?_
    have hp2 := (List.pairwise_cons.1 hp).2
    refine List.pairwise_cons.2 ⟨fun e he => ?_, (List.pairwise_cons.1 hp2).2⟩
    have h1 := (List.pairwise_cons.1 hp).1 e (by simp [he])
    have h2 := (List.pairwise_cons.1 hp2).1 e he
    refine ⟨fun n hn => ?_, fun k l l' hl hl' => ?_⟩
    · rcases List.mem_append.1 hn with hn | hn
      · exact h1.1 n hn
      · exact h2.1 n hn
    · have hl : get (update c.coords d.coords) k = some l := hl
      rw [get_update _ _ _ hd.dict] at hl
      cases hk : get d.coords k with
      | none => rw [hk] at hl; exact h1.2 k l l' hl hl'
      | some m => rw [hk] at hl; exact h2.2 k l l' (by rw [hk]; exact hl) hl'

/-- **C149**: for a component that announces its parameters correctly and uses none of the model's own names, `build`
gives a model whose announcement is right exactly when every state has a name. -/
theorem C149_build (c : Comp) (name : String) (hc : Spec.Consistent c.view) (hp : "P0" ∉ c.names)
    (hr : ∀ k ∈ ["state", "state_aux", "observed_state", "observed_state_aux", "shock", "shock_aux"],
      get c.coords k = none) :
    Spec.Consistent (build c name) ↔ c.stateNames.length = c.kStates := by
  have ic := info_keys hc
  have hdn : ((defaultCoords c.stateNames [name] c.shockNames).map Prod.fst).Nodup := by simp [defaultCoords]
  have hinfo : put "P0" ([c.kStates, c.kStates], some ["state", "state_aux"]) c.info
      = c.info ++ [("P0", [c.kStates, c.kStates], some ["state", "state_aux"])] :=
    put_new _ _ _ (by rw [ic]; exact hp)
  have gc : ∀ k, get (build c name).coords k =
      (get (defaultCoords c.stateNames [name] c.shockNames) k).orElse (fun _ => get c.coords k) :=
    fun k => get_update _ _ _ hdn
  have gs : get (build c name).coords "state" = some c.stateNames := by rw [gc, get_default]; rfl
  have gsa : get (build c name).coords "state_aux" = some c.stateNames := by rw [gc, get_default]; rfl
  constructor
  · rintro ⟨-, -, -, h⟩
    have hx : ("P0", [c.kStates, c.kStates]) ∈ (build c name).registered := by simp [build]
    obtain ⟨info, d, h1, h2, h3⟩ := h _ hx
    injection h1 with h1
    rw [← h1, get_put, if_pos rfl] at h2
    simp only [Option.some.injEq, Prod.mk.injEq, true_and] at h2
    rw [← h2] at h3
    cases h3 with
    | cons h4 _ =>
      obtain ⟨l, h5, h6⟩ := h4
      rw [gs] at h5
      injection h5 with h5
      rw [h5]; exact h6
  · intro hl
    refine ⟨?_, ?_, ⟨_, rfl, ?_⟩, ?_⟩
    · exact List.Nodup.append hc.1 (by simp) (by simpa using hp)
    · show ((c.registered ++ [("P0", [c.kStates, c.kStates])]).map Prod.fst).Perm (c.names ++ ["P0"])
      rw [List.map_append]
      exact List.Perm.append hc.2.1 (List.Perm.refl _)
    · rw [hinfo, List.map_append, ic]; rfl
    · intro e he
      refine ⟨put "P0" ([c.kStates, c.kStates], some ["state", "state_aux"]) c.info, ?_⟩
      rcases List.mem_append.1 he with he | he
      · obtain ⟨d, h1, h2⟩ := announced_view (hc.2.2.2 e he)
        refine ⟨d, rfl, ?_, fits_mono h2 ?_⟩
        · rw [hinfo, get_append, h1]; rfl
        · intro k l hk
          have hnk : ∀ s ∈ ["state", "state_aux", "observed_state", "observed_state_aux", "shock", "shock_aux"],
              k ≠ s := by
            rintro s hs rfl
            rw [hr k hs] at hk
            simp at hk
          refine ⟨l, ?_, rfl⟩
          rw [gc, get_default, if_neg, if_neg, if_neg, hk]
          · rfl
          · simp [hnk]
          · simp [hnk]
          · simp [hnk]
      · simp only [List.mem_singleton] at he
        subst he
        refine ⟨some ["state", "state_aux"], rfl, ?_, fits_two gs hl gsa hl⟩
        rw [get_put, if_pos rfl]

theorem level_trend_good (mask innov : List Bool) (hm : mask.getLast? = some true) (hi : innov.length ≤ mask.length)
    (hall : ∀ b ∈ mask, b = true) (h7 : mask.length ≤ 7) : Spec.Good (levelTrend mask innov) where
  consistent := (C148_level_trend mask innov hm hi).2 ⟨hall, h7⟩
  states := by
    have h := (Verif.Structural.C94_trend_names mask mask.length (by simp [Verif.Structural.trendKStates, hm])).2
      ⟨hall, h7⟩
    unfold levelTrend
    by_cases hp : 0 < innov.count true <;> simp [hp, h]
  p0 := by unfold levelTrend; by_cases hp : 0 < innov.count true <;> simp [hp]
  dict := by unfold levelTrend; by_cases hp : 0 < innov.count true <;> simp [hp]
  reserved := by
    unfold levelTrend
    by_cases hp : 0 < innov.count true <;> simp [hp, get_cons, get_nil]

theorem measurement_good (name : String) : Spec.Good (measurementError name) where
  consistent := C148_measurement_error name
  states := rfl
  p0 := by
    have : ("sigma_" ++ name) ≠ "P0" := ne_of_length (by rw [len_sigma]; have : "P0".length = 2 := rfl; omega)
    simp [measurementError, this.symm]
  dict := by simp [measurementError]
  reserved := by simp [measurementError, get_nil]

/-- A local linear trend with a quarterly seasonal pattern and measurement error. -/
def demo : List Comp :=
  [timeSeasonality "q" ["q_1", "q_2", "q_3"] true, measurementError "obs"]

/-- The hypotheses of `C149_sum` and `C149_build` are met by it, and its announcement is right. -/
example : Spec.Consistent (build (demo.foldl add (levelTrend [true, true] [true, true])) "data") := by
  have hs : Spec.Good (timeSeasonality "q" ["q_1", "q_2", "q_3"] true) :=
    ⟨C148_time_seasonality _ _ _, rfl, by decide +kernel, by decide +kernel, by decide +kernel⟩
  have hg := C149_sum demo (levelTrend [true, true] [true, true])
    (level_trend_good _ _ rfl (by simp) (by simp) (by simp))
    (by
      intro d hd
      simp only [demo, List.mem_cons, List.not_mem_nil, or_false] at hd
      rcases hd with rfl | rfl
      · exact hs
      · exact measurement_good _)
    (by
      have nocoord : ∀ k, get (measurementError "obs").coords k = none := fun _ => rfl
      refine List.pairwise_cons.2 ⟨?_, List.pairwise_cons.2 ⟨?_, List.pairwise_cons.2 ⟨by simp, .nil⟩⟩⟩
      · intro d hd
        simp only [demo, List.mem_cons, List.not_mem_nil, or_false] at hd
        rcases hd with rfl | rfl
        · refine ⟨by decide +kernel, fun k l l' h1 h2 => ?_⟩
          have h1 := get_mem h1
          have h2 := get_mem h2
          have e1 : (levelTrend [true, true] [true, true]).coords.map Prod.fst = ["trend_state", "trend_shock"] := by
            decide +kernel
          have e2 : (timeSeasonality "q" ["q_1", "q_2", "q_3"] true).coords.map Prod.fst = ["q_state"] := by
            decide +kernel
          rw [e1] at h1
          rw [e2] at h2
          simp at h1 h2
          subst h2
          simp at h1
        · exact ⟨by decide +kernel, fun k l l' _ h2 => by rw [nocoord] at h2; simp at h2⟩
      · intro d hd
        simp only [List.mem_singleton] at hd
        subst hd
        exact ⟨by decide +kernel, fun k l l' _ h2 => by rw [nocoord] at h2; simp at h2⟩)
  exact (C149_build _ _ hg.consistent hg.p0 hg.reserved).2 hg.states

/-- **C150**, shared dimension: every regression component calls its dimension "exog_state". When two regressions with
different numbers of regressors are added, the first one's coefficients no longer fit the dimension they are announced
with. -/
theorem C150_two_regressions (n1 n2 : String) (s1 s2 : List String) (hn : n1 ≠ n2) (hl : s1.length ≠ s2.length) :
    ¬ Spec.Consistent (add (regression n1 s1 false) (regression n2 s2 false)).view := by
  rintro ⟨-, -, -, h⟩
  have hne : "beta_" ++ n2 ≠ "beta_" ++ n1 := by
    intro e
    have := congrArg String.toList e
    simp only [String.toList_append] at this
    exact hn (String.toList_inj.1 (List.append_cancel_left this)).symm
  have hupd : (add (regression n1 s1 false) (regression n2 s2 false)).registered
      = [("beta_" ++ n1, [s1.length]), ("beta_" ++ n2, [s2.length])] := by
    simp [add, update, regression, put, hne.symm]
  have hinf : (add (regression n1 s1 false) (regression n2 s2 false)).info
      = [("beta_" ++ n1, [s1.length], some ["exog_state"]), ("beta_" ++ n2, [s2.length], some ["exog_state"])] := by
    simp [add, update, regression, put, hne.symm]
  have hco : (add (regression n1 s1 false) (regression n2 s2 false)).coords = [("exog_state", s2)] := by
    simp [add, update, regression, put]
  have hx : ("beta_" ++ n1, [s1.length]) ∈ (add (regression n1 s1 false) (regression n2 s2 false)).view.registered := by
    show _ ∈ (add (regression n1 s1 false) (regression n2 s2 false)).registered
    rw [hupd]; simp
  obtain ⟨d, h1, h2⟩ := announced_view (h _ hx)
  rw [hinf] at h1
  simp only [get_cons, if_true, Option.some.injEq, Prod.mk.injEq, true_and] at h1
  rw [← h1, hco] at h2
  exact hl ((fits_one_iff (l := s2) (by simp [get_cons])).1 h2).symm

example : "a" ≠ "b" ∧ ["x"].length ≠ ["y", "z"].length := by decide

/-- **C150**, clobbered dimension: a seasonal component named "observed" labels its coefficients with the dimension
"observed_state", which `build` overwrites with the single name of the data. -/
theorem C150_observed_clobbered (states : List String) (innov : Bool) (name : String) (hl : states.length ≠ 1) :
    ¬ Spec.Consistent (build (timeSeasonality "observed" states innov) name) := by
  rintro ⟨-, -, -, h⟩
  have hx : ("observed_coefs", [states.length]) ∈ (build (timeSeasonality "observed" states innov) name).registered := by
    simp only [build, timeSeasonality, List.mem_append, List.mem_singleton]
    exact .inl (.inl rfl)
  obtain ⟨info, d, h1, h2, h3⟩ := h _ hx
  injection h1 with h1
  rw [← h1, get_put, if_neg (by simp)] at h2
  have e1 : get (timeSeasonality "observed" states innov).info "observed_coefs"
      = some ([states.length], some ["observed_state"]) := by
    simp only [timeSeasonality, get_append, get_singleton]
    rfl
  rw [e1] at h2
  simp only [Option.some.injEq, Prod.mk.injEq, true_and] at h2
  rw [← h2] at h3
  have gs : get (build (timeSeasonality "observed" states innov) name).coords "observed_state" = some [name] := by
    show get (update _ _) _ = _
    rw [get_update _ _ _ (by simp [defaultCoords]), get_default]
    rfl
  exact hl ((fits_one_iff gs).1 h3).symm

/-- **C150**, missing entries: the documented lookups `param_dims["sigma_obs"]` and `param_dims["sigma_ar"]` fail; scalar
parameters have no entry, and the measurement error's parameter is named after the component ("sigma_MeasurementError"
by default). -/
theorem C150_no_dims_for_scalars (name : String) (order : List Bool) (states : List String) (innov : Bool) :
    (measurementError name).names = ["sigma_" ++ name] ∧
    get (measurementError name).dims ("sigma_" ++ name) = none ∧
    get (autoregressive name order).dims "sigma_ar" = none ∧
    get (timeSeasonality name states innov).dims ("sigma_" ++ name) = none := by
  refine ⟨rfl, rfl, by simp [autoregressive, get_cons, get_nil], ?_⟩
  have := (sigma_ne_coefs name).symm
  simp [timeSeasonality, get_cons, get_nil, this]

/-- **C148** The labels of the lags of an autoregression are the lags that are estimated, counted from one, in order. -/
theorem C148_lag_labels (name : String) (order : List Bool) :
    get (autoregressive name order).coords "ar_lag" =
      some (((List.range order.length).filter fun i => order[i]? = some true).map fun i => toString (i + 1)) := by
  have key : ∀ (l : List Bool) (n : ℕ), ((l.zipIdx n).filter (·.1)).map (fun e => toString (e.2 + 1)) =
      ((List.range l.length).filter fun i => l[i]? = some true).map fun i => toString (i + n + 1) := by
    intro l
    induction l with
    | nil => intro n; rfl
    | cons b l ih =>
      intro n
      rw [List.zipIdx_cons, List.length_cons, List.range_succ_eq_map]
      have h2 : ((List.map Nat.succ (List.range l.length)).filter fun i => (b :: l)[i]? = some true).map
          (fun i => toString (i + n + 1)) =
          ((List.range l.length).filter fun i => l[i]? = some true).map fun i => toString (i + (n + 1) + 1) := by
        rw [List.filter_map, List.map_map]
        have h3 : ((fun i => decide ((b :: l)[i]? = some true)) ∘ Nat.succ) = fun i => decide (l[i]? = some true) := by
          funext i; simp
        rw [h3]
        apply List.map_congr_left
        intro i _
        simp only [Function.comp_apply]
        congr 1
        omega
      cases b
      · rw [List.filter_cons_of_neg (by simp), List.filter_cons_of_neg (by simp), h2, ih]
      · rw [List.filter_cons_of_pos (by simp), List.filter_cons_of_pos (by simp), List.map_cons, List.map_cons, h2, ih]
        simp
  simp only [autoregressive, get_cons, if_true, lagLabels]
  rw [key order 0]

example : get (autoregressive "ar" [true, false, true]).coords "ar_lag" = some ["1", "3"] := by
  rw [C148_lag_labels]; decide +kernel

/-- **C148** The optional parameters of a cycle are there exactly when asked for. -/
theorem C148_cycle_parameters (name : String) (estimate dampen innov : Bool) :
    (name ++ "_length" ∈ (cycle name estimate dampen innov).names ↔ estimate = true) ∧
    (name ++ "_dampening_factor" ∈ (cycle name estimate dampen innov).names ↔ dampen = true) ∧
    ("sigma_" ++ name ∈ (cycle name estimate dampen innov).names ↔ innov = true) := by
  have hnd := cycle_names name true true true
  simp only [cycle, if_true, List.cons_append, List.nil_append, List.nodup_cons, List.mem_cons, List.not_mem_nil,
    or_false, not_or] at hnd
  obtain ⟨⟨h1, h2, h3⟩, ⟨h4, h5⟩, h6, -⟩ := hnd
  cases estimate <;> cases dampen <;> cases innov <;>
    simp [cycle, h1, h2, h3, h4, h5, h6, Ne.symm h1, Ne.symm h2, Ne.symm h3, Ne.symm h4, Ne.symm h5, Ne.symm h6]

/-- **C149** A dims entry, an announcement or a coordinate given by both components is the later component's. -/
theorem C149_later_wins (a b : Comp) (k : String) :
    ((b.dims.map Prod.fst).Nodup → get (add a b).dims k = (get b.dims k).or (get a.dims k)) ∧
    ((b.info.map Prod.fst).Nodup → get (add a b).info k = (get b.info k).or (get a.info k)) ∧
    ((b.coords.map Prod.fst).Nodup → get (add a b).coords k = (get b.coords k).or (get a.coords k)) :=
  ⟨fun h => by rw [add, get_update _ _ _ h]; cases get b.dims k <;> rfl,
    fun h => by rw [add, get_update _ _ _ h]; cases get b.info k <;> rfl,
    fun h => by rw [add, get_update _ _ _ h]; cases get b.coords k <;> rfl⟩

end Verif.Params.Structural
