import Verif.Representation.Model

/-!
C22, C23, C86, C87, C88: the store of system matrices.
-/

set_option autoImplicit false

namespace Verif.Representation

variable {V : Type}

/-- Specification: the documented (static) shape of each matrix. -/
def Spec.core (kEndog kStates kPosdef : ℕ) (name : String) : Option (List ℕ) :=
  match name with
  | "design" => some [kEndog, kStates]
  | "obs_intercept" => some [kEndog]
  | "obs_cov" => some [kEndog, kEndog]
  | "transition" => some [kStates, kStates]
  | "state_intercept" => some [kStates]
  | "selection" => some [kStates, kPosdef]
  | "state_cov" => some [kPosdef, kPosdef]
  | "initial_state" => some [kStates]
  | "initial_state_cov" => some [kStates, kStates]
  | _ => none

/-- Specification: the two matrices that cannot vary over time. -/
def Spec.Fixed (name : String) : Prop := name = "initial_state" ∨ name = "initial_state_cov"

/-- Specification: a store in good order: the known names are the nine documented ones, every slot holds an array of the
recorded shape, which is the documented shape, preceded by a time axis for the matrices that may vary over time. -/
def Spec.WF (kE kS kP : ℕ) (rep : Rep V) : Prop :=
  ∀ name, match Spec.core kE kS kP name with
    | none => rep.shapes name = none
    | some core => rep.shapes name = some (rep.attrs name).shape ∧
        ((Spec.Fixed name ∧ (rep.attrs name).shape = core) ∨
          (¬ Spec.Fixed name ∧ ∃ n, (rep.attrs name).shape = n :: core))

/-- Specification: an index list within a shape. -/
def Spec.InRange : List ℕ → List ℕ → Prop
  | [], [] => True
  | n :: sh, i :: idx => i < n ∧ Spec.InRange sh idx
  | _, _ => False

/-- Specification: same shape and same entries. -/
def Spec.Same (a b : Arr V) : Prop := a.shape = b.shape ∧ ∀ idx, Spec.InRange a.shape idx → a.data idx = b.data idx

theorem core_cases {kE kS kP : ℕ} {name : String} {core : List ℕ} (h : Spec.core kE kS kP name = some core) :
    (never name = true ↔ Spec.Fixed name) ∧
    ((isVector name = true ∧ ∃ a, core = [a]) ∨ (isVector name = false ∧ ∃ a b, core = [a, b])) := by
  unfold Spec.core at h
  split at h <;> simp_all [never, isVector, Spec.Fixed] <;> simp [← h]

theorem initShapes_core (kE kS kP : ℕ) (name : String) :
    initShapes kE kS kP name = (Spec.core kE kS kP name).map fun c => if never name then c else 1 :: c := by
  by_cases hn : name ∈ ["design", "obs_intercept", "obs_cov", "transition", "state_intercept", "selection", "state_cov",
    "initial_state", "initial_state_cov"]
  · simp only [List.mem_cons, List.not_mem_nil, or_false] at hn
    rcases hn with rfl | rfl | rfl | rfl | rfl | rfl | rfl | rfl | rfl <;> simp [Spec.core, initShapes, never]
  · have : Spec.core kE kS kP name = none := by
      unfold Spec.core; split <;> simp_all
    rw [this]
    simp only [List.mem_cons, List.not_mem_nil, or_false, not_or] at hn
    simp [initShapes, hn]

theorem zipAllEq_self (l : List ℕ) : zipAllEq l l = true := by induction l <;> simp_all [zipAllEq]

theorem zipAllEq_eq : ∀ (l l' : List ℕ), l.length = l'.length → zipAllEq l l' = true → l = l'
  | [], [], _, _ => rfl
  | a :: l, b :: l', hl, h => by
    simp only [zipAllEq, Bool.and_eq_true, beq_iff_eq] at h
    rw [h.1, zipAllEq_eq l l' (by simpa using hl) h.2]

/-- The recorded shape of a slot in a store in good order. -/
theorem wf_slot {kE kS kP : ℕ} {rep : Rep V} (h : Spec.WF kE kS kP rep) {name : String} {core : List ℕ}
    (hc : Spec.core kE kS kP name = some core) : rep.shapes name = some (rep.attrs name).shape ∧
        ((Spec.Fixed name ∧ (rep.attrs name).shape = core) ∨
          (¬ Spec.Fixed name ∧ ∃ n, (rep.attrs name).shape = n :: core)) := by
  have := h name; rw [hc] at this; exact this

theorem wf_update {kE kS kP : ℕ} {rep : Rep V} (h : Spec.WF kE kS kP rep) {name : String} {core : List ℕ}
    (hc : Spec.core kE kS kP name = some core) {x : Arr V}
    (hx : (Spec.Fixed name ∧ x.shape = core) ∨ (¬ Spec.Fixed name ∧ ∃ n, x.shape = n :: core)) :
    Spec.WF kE kS kP ⟨Function.update rep.shapes name (some x.shape), Function.update rep.attrs name x⟩ := by
  intro m
  by_cases hm : m = name
  · subst hm; rw [hc]; simpa using hx
  · have := h m
    simp only [Function.update_of_ne hm]
    exact this

/-- What a whole-matrix assignment stores for an accepted numpy array. -/
theorem setWhole_numpy_ok {kE kS kP : ℕ} {rep : Rep V} (h : Spec.WF kE kS kP rep) {name : String} {core : List ℕ}
    (hc : Spec.core kE kS kP name = some core) {x : Arr V}
    (hx : x.shape = core ∨ (¬ Spec.Fixed name ∧ ∃ n, x.shape = n :: core)) :
    setWhole rep name false x = (.ok (), ⟨Function.update rep.shapes name
        (some (if ¬ never name ∧ x.shape = core then x.addTime else x).shape),
      Function.update rep.attrs name (if ¬ never name ∧ x.shape = core then x.addTime else x)⟩) := by
  obtain ⟨hs, hw⟩ := wf_slot h hc
  obtain ⟨hf, hv⟩ := core_cases hc
  simp only [setWhole, hs]
  by_cases hnv : never name = true
  · have hfx := hf.1 hnv
    have hxs : x.shape = core := hx.resolve_right fun h' => h'.1 hfx
    have hrs : (rep.attrs name).shape = core := by
      rcases hw with hw | hw
      · exact hw.2
      · exact absurd hfx hw.1
    rcases hv with ⟨hv, a, rfl⟩ | ⟨hv, a, b, rfl⟩ <;>
      simp [numpyToPytensor, validateMatrixShape, hnv, hv, hxs, hrs, updateShape, zipAllEq_self]
  · have hnf : ¬ Spec.Fixed name := fun h' => hnv (hf.2 h')
    obtain ⟨m, hrs⟩ : ∃ n, (rep.attrs name).shape = n :: core := by
      rcases hw with hw | hw
      · exact absurd hw.1 hnf
      · exact hw.2
    simp only [Bool.not_eq_true] at hnv
    rcases hx with hxs | ⟨-, n, hxs⟩ <;> rcases hv with ⟨hv, a, rfl⟩ | ⟨hv, a, b, rfl⟩ <;>
      simp [numpyToPytensor, validateMatrixShape, hnv, hv, hxs, hrs, updateShape, lastN, zipAllEq, Arr.addTime]

theorem inRange_cons {n : ℕ} {sh idx : List ℕ} (h : Spec.InRange (n :: sh) idx) :
    ∃ i t, idx = i :: t ∧ i < n ∧ Spec.InRange sh t := by
  cases idx with
  | nil => simp [Spec.InRange] at h
  | cons i t => exact ⟨i, t, rfl, h.1, h.2⟩

/-- **C22**, whole matrices: assigning a numpy array of the documented static shape succeeds, keeps the store in good
order, leaves every other slot alone, and reading the slot returns the array; assigning a time-varying array (a leading
time axis of any length but 1 in front of the documented shape) reads back whole. -/
theorem C22_read_back (kE kS kP : ℕ) (rep : Rep V) (h : Spec.WF kE kS kP rep) (name : String) (core : List ℕ)
    (hc : Spec.core kE kS kP name = some core) (x : Arr V)
    (hx : x.shape = core ∨ (¬ Spec.Fixed name ∧ ∃ n, n ≠ 1 ∧ x.shape = n :: core)) :
    ∃ rep', setWhole rep name false x = (.ok (), rep') ∧ Spec.WF kE kS kP rep' ∧
      (∃ y, getWhole rep' name = .ok y ∧ Spec.Same y x) ∧
      ∀ m, m ≠ name → rep'.attrs m = rep.attrs m ∧ rep'.shapes m = rep.shapes m := by
  obtain ⟨hf, hv⟩ := core_cases hc
  have hlen : core ≠ [] := by rcases hv with ⟨_, a, rfl⟩ | ⟨_, a, b, rfl⟩ <;> simp
  refine ⟨_, setWhole_numpy_ok h hc (hx.imp_right fun h' => ⟨h'.1, h'.2.imp fun _ h'' => h''.2⟩), ?_, ?_, ?_⟩
  · refine wf_update h hc ?_
    by_cases hnv : never name = true
    · left
      refine ⟨hf.1 hnv, ?_⟩
      have hxs : x.shape = core := hx.resolve_right fun h' => h'.1 (hf.1 hnv)
      simp [hnv, hxs]
    · right
      refine ⟨fun h' => hnv (hf.2 h'), ?_⟩
      rcases hx with hxs | ⟨-, n, -, hxs⟩
      · exact ⟨1, by simp [hnv, hxs, Arr.addTime]⟩
      · have : n :: core ≠ core := by simp
        exact ⟨n, by simp [hxs]⟩
  · by_cases hnv : never name = true
    · refine ⟨x, by simp [getWhole, hnv], rfl, fun _ _ => rfl⟩
    · rcases hx with hxs | ⟨-, n, hn1, hxs⟩
      · refine ⟨x.addTime.dropTime, by simp [getWhole, hnv, hxs, Arr.addTime, specifyShape, Arr.dropTime], ?_, ?_⟩
        · simp [Arr.addTime, Arr.dropTime]
        · intro idx _; simp [Arr.addTime, Arr.dropTime]
      · refine ⟨x, by simp [getWhole, hnv, hxs, hn1], rfl, fun _ _ => rfl⟩
  · intro m hm; simp [Function.update_of_ne hm]

/-- **C22** The freshly constructed store has the documented shape for every named matrix. -/
theorem C22_initial_shapes (zero : V) (kE kS kP : ℕ) :
    ∃ rep, init zero kE kS kP (fun _ => none) = .ok rep ∧ Spec.WF kE kS kP rep := by
  refine ⟨_, rfl, fun name => ?_⟩
  by_cases hn : name ∈ ["design", "obs_intercept", "obs_cov", "transition", "state_intercept", "selection", "state_cov",
    "initial_state", "initial_state_cov"]
  · simp only [List.mem_cons, List.not_mem_nil, or_false] at hn
    rcases hn with rfl | rfl | rfl | rfl | rfl | rfl | rfl | rfl | rfl <;>
      simp [Spec.core, Function.update, Spec.Fixed, initShapes]
  · have : Spec.core kE kS kP name = none := by
      unfold Spec.core; split <;> simp_all
    rw [this]
    show initShapes kE kS kP name = none
    simp [initShapes_core, this]

example : ∃ rep : Rep ℤ, Spec.WF 1 2 1 rep ∧ ∃ rep', setWhole rep "transition" false ⟨[2, 2], fun _ => 7⟩ = (.ok (), rep') := by
  obtain ⟨rep, -, h⟩ := C22_initial_shapes (0 : ℤ) 1 2 1
  obtain ⟨rep', h', -⟩ := C22_read_back 1 2 1 rep h "transition" [2, 2] rfl ⟨[2, 2], fun _ => 7⟩ (Or.inl rfl)
  exact ⟨rep, h, rep', h'⟩

/-- Specification: position `i` of an axis of length `n` is addressed by the index item, and where it lies within the
addressed part (integers select one position, counted from the end if negative; slices select a range whose negative
bounds count from the end). -/
def Spec.addressed (n i : ℕ) : Ix → Prop
  | .int k => (i : ℤ) = k ∨ (i : ℤ) = k + n
  | .slice lo hi =>
    (∀ l, lo = some l → (0 ≤ l → l ≤ i) ∧ (l < 0 → l + n ≤ i)) ∧
    (∀ h, hi = some h → (0 ≤ h → (i : ℤ) < h) ∧ (h < 0 → (i : ℤ) < h + n))

/-- Specification: an entry of an array of shape `sh` is addressed by a list of index items, one for each of its leading
axes. -/
def Spec.Addressed : List ℕ → List ℕ → List Ix → Prop
  | n :: sh, i :: idx, ix :: ixs => Spec.addressed n i ix ∧ Spec.Addressed sh idx ixs
  | _, _, [] => True
  | _, _, _ => False

theorem resolve_pos {n : ℕ} {k : ℤ} {s : Sel} (h : resolve n (.int k) = some s) :
    ∃ p, s = .pos p ∧ p < n ∧ ∀ i, i < n → (i = p ↔ Spec.addressed n i (.int k)) := by
  simp only [resolve, Option.ite_none_right_eq_some, Option.some.injEq] at h
  obtain ⟨hk, rfl⟩ := h
  refine ⟨_, rfl, ?_, fun i hi => ?_⟩
  · split at hk <;> simp_all <;> omega
  · simp only [Spec.addressed]
    split at hk <;> simp_all <;> omega

theorem resolve_slice {n : ℕ} {lo hi : Option ℤ} {s : Sel} (h : resolve n (.slice lo hi) = some s) :
    ∃ l len, s = .range l len ∧ ∀ i, i < n → ((l ≤ i ∧ i < l + len) ↔ Spec.addressed n i (.slice lo hi)) := by
  simp only [resolve, Option.some.injEq] at h
  refine ⟨_, _, h.symm, fun i hi' => ?_⟩
  rcases lo with _ | lo <;> rcases hi with _ | hi <;>
    simp only [Spec.addressed, Option.map_some, Option.map_none, Option.getD_some, Option.getD_none, clamp,
      Option.some.injEq, reduceCtorEq, IsEmpty.forall_iff, implies_true, true_and, and_true, forall_eq', iff_true] <;>
    (try split) <;> (try split) <;> omega

theorem locate_addressed : ∀ (sh : List ℕ) (ixs : List Ix) (ss : List Sel), resolveAll sh ixs = some ss →
    ∀ idx, Spec.InRange sh idx → ((locate ss idx).isSome ↔ Spec.Addressed sh idx ixs) := by
  intro sh
  induction sh with
  | nil =>
    intro ixs ss h idx hi
    cases ixs with
    | nil =>
      simp only [resolveAll, Option.some.injEq] at h; subst h
      cases idx with
      | nil => simp [locate, Spec.Addressed]
      | cons i t => simp [Spec.InRange] at hi
    | cons ix ixs => simp [resolveAll] at h
  | cons n sh ih =>
    intro ixs ss h idx hi
    obtain ⟨i, t, rfl, hin, hit⟩ := inRange_cons hi
    cases ixs with
    | nil =>
      simp only [resolveAll, Option.map_eq_some_iff] at h
      obtain ⟨ss', h', rfl⟩ := h
      have := ih [] ss' h' t hit
      have e1 : Spec.Addressed sh t [] := by cases sh <;> cases t <;> simp [Spec.Addressed]
      simp only [locate, Nat.zero_le, true_and, Nat.zero_add, hin, if_true, Option.isSome_map, this, e1,
        Spec.Addressed]
    | cons ix ixs =>
      simp only [resolveAll] at h
      cases hr : resolve n ix with
      | none => simp [hr] at h
      | some s =>
        cases hra : resolveAll sh ixs with
        | none => simp [hr, hra] at h
        | some ss' =>
          simp only [hr, hra, Option.some.injEq] at h
          subst h
          have hrec := ih ixs ss' hra t hit
          simp only [Spec.Addressed]
          cases ix with
          | int k =>
            obtain ⟨p, rfl, hp, hpe⟩ := resolve_pos hr
            rw [← hpe i hin, ← hrec]
            simp only [locate]
            split <;> simp_all
          | slice lo hi =>
            obtain ⟨l, len, rfl, hpe⟩ := resolve_slice hr
            rw [← hpe i hin, ← hrec]
            simp only [locate]
            split <;> simp_all

/-- The part of an array written by a slice assignment, entry by entry. -/
theorem setSubtensor_spec {a m : Arr V} {ixs : List Ix} {v : Value V} (h : setSubtensor a ixs v = .ok m) :
    m.shape = a.shape ∧ ∀ idx, Spec.InRange a.shape idx →
      (¬ Spec.Addressed a.shape idx ixs → m.data idx = a.data idx) ∧
      (∀ x, v = .scalar x → Spec.Addressed a.shape idx ixs → m.data idx = x) := by
  simp only [setSubtensor] at h
  cases hr : resolveAll a.shape ixs with
  | none => simp [hr] at h
  | some ss =>
    rw [hr] at h
    have hl := locate_addressed _ _ _ hr
    cases v with
    | scalar x =>
      simp only [Except.ok.injEq] at h
      subst h
      refine ⟨rfl, fun idx hi => ⟨fun hn => ?_, fun y hy hn => ?_⟩⟩
      · have : locate ss idx = none := by
          rw [← hl idx hi] at hn; simpa using hn
        simp [this]
      · rw [← hl idx hi, Option.isSome_iff_exists] at hn
        obtain ⟨s, hs⟩ := hn
        simp only [hs]
        exact (Value.scalar.inj hy)
    | array w =>
      simp only at h
      split at h
      · simp only [Except.ok.injEq] at h
        subst h
        refine ⟨rfl, fun idx hi => ⟨fun hn => ?_, fun y hy => by simp at hy⟩⟩
        have : locate ss idx = none := by
          rw [← hl idx hi] at hn; simpa using hn
        simp [this]
      · simp at h

theorem locate_expand : ∀ (ss : List Sel) (sub : List ℕ), Spec.InRange (selShape ss) sub →
    locate ss (expand ss sub) = some sub := by
  intro ss
  induction ss with
  | nil =>
    intro sub h
    cases sub with
    | nil => rfl
    | cons a t => simp [selShape, Spec.InRange] at h
  | cons s ss ih =>
    intro sub h
    cases s with
    | pos k => simp only [selShape] at h; simp [expand, locate, ih sub h]
    | range lo len =>
      simp only [selShape] at h
      obtain ⟨i, t, rfl, hi, ht⟩ := inRange_cons h
      simp [expand, locate, ih t ht, hi]

/-- Shape and success of a slice assignment in a store in good order. -/
theorem setSlice_ok {kE kS kP : ℕ} {rep rep' : Rep V} (hw : Spec.WF kE kS kP rep) {name : String} {ixs : List Ix}
    {v : Value V} (h : setSlice rep name ixs v = (.ok (), rep')) :
    ∃ core ixs' m, Spec.core kE kS kP name = some core ∧
      addTimeDim name ixs (rep.attrs name).shape.length = .ok ixs' ∧
      setSubtensor (rep.attrs name) ixs' v = .ok m ∧ rep' = ⟨rep.shapes, Function.update rep.attrs name m⟩ := by
  have hwn := hw name
  cases hc : Spec.core kE kS kP name with
  | none =>
    rw [hc] at hwn
    simp only at hwn
    simp [setSlice, hwn] at h
  | some core =>
    rw [hc] at hwn
    simp only at hwn
    simp only [setSlice, hwn.1] at h
    cases ht : addTimeDim name ixs (rep.attrs name).shape.length with
    | error e => simp [ht] at h
    | ok ixs' =>
      rw [ht] at h
      cases hs : setSubtensor (rep.attrs name) ixs' v with
      | error e => simp [hs] at h
      | ok m =>
        simp only [hs, specifyShape, (setSubtensor_spec hs).1, if_true, Prod.mk.injEq, true_and] at h
        exact ⟨core, ixs', m, rfl, rfl, hs, h.symm⟩

/-- **C22**, slices: in a store in good order, a successful assignment of a scalar to a slice of a matrix addressed with
all its axes changes exactly the addressed entries; with one index fewer on a matrix that may vary over time the indices
address the first time slice only, and all later time slices keep their values.  Every other slot is untouched and the
store stays in good order. -/
theorem C22_slice_write (kE kS kP : ℕ) (rep rep' : Rep V) (hw : Spec.WF kE kS kP rep) (name : String) (ixs : List Ix)
    (x : V) (h : setSlice rep name ixs (.scalar x) = (.ok (), rep')) :
    Spec.WF kE kS kP rep' ∧ (∀ m, m ≠ name → rep'.attrs m = rep.attrs m) ∧ rep'.shapes = rep.shapes ∧
    (ixs.length = (rep.attrs name).shape.length ∨ Spec.Fixed name → ∀ idx, Spec.InRange (rep.attrs name).shape idx →
      (Spec.Addressed (rep.attrs name).shape idx ixs → (rep'.attrs name).data idx = x) ∧
      (¬ Spec.Addressed (rep.attrs name).shape idx ixs → (rep'.attrs name).data idx = (rep.attrs name).data idx)) ∧
    (ixs.length < (rep.attrs name).shape.length → ¬ Spec.Fixed name → ∀ t idx,
      Spec.InRange (rep.attrs name).shape (t :: idx) →
      (t = 0 ∧ Spec.Addressed (rep.attrs name).shape.tail idx ixs → (rep'.attrs name).data (t :: idx) = x) ∧
      (¬ (t = 0 ∧ Spec.Addressed (rep.attrs name).shape.tail idx ixs) →
        (rep'.attrs name).data (t :: idx) = (rep.attrs name).data (t :: idx))) := by
  obtain ⟨core, ixs', m, hc, ht, hs, rfl⟩ := setSlice_ok hw h
  obtain ⟨hsh, hsp⟩ := setSubtensor_spec hs
  obtain ⟨hf, -⟩ := core_cases hc
  obtain ⟨hss, hsc⟩ := wf_slot hw hc
  refine ⟨?_, fun m hm => by simp [Function.update_of_ne hm], rfl, ?_, ?_⟩
  · have := wf_update hw hc (x := m) (by rw [hsh]; exact hsc)
    rw [hsh, ← hss, Function.update_eq_self] at this
    exact this
  · intro hl idx hi
    have : ixs' = ixs := by
      rcases hl with hl | hl
      · by_cases hn : never name = true
        · simp only [addTimeDim, hn, if_true, Except.ok.injEq] at ht; exact ht.symm
        · simp only [addTimeDim, hn, hl, if_true, Except.ok.injEq] at ht
          simpa using ht.symm
      · simp only [addTimeDim, hf.2 hl, if_true, Except.ok.injEq] at ht; exact ht.symm
    subst this
    simp only [Function.update_self]
    exact ⟨(hsp idx hi).2 x rfl, (hsp idx hi).1⟩
  · intro hl hnf t idx hi
    have hn : ¬ never name = true := fun h' => hnf (hf.1 h')
    have e : ixs' = .int 0 :: ixs ++ List.replicate ((rep.attrs name).shape.length - ixs.length - 1) .all := by
      simp only [addTimeDim, hn, hl, if_true, Nat.ne_of_lt hl, if_false] at ht
      simpa using ht.symm
    subst e
    obtain ⟨n, hrs⟩ : ∃ n, (rep.attrs name).shape = n :: core := by
      rcases hsc with hsc | hsc
      · exact absurd hsc.1 hnf
      · exact hsc.2
    have key : Spec.Addressed (rep.attrs name).shape (t :: idx) (.int 0 :: ixs ++
        List.replicate ((rep.attrs name).shape.length - ixs.length - 1) .all) ↔
        (t = 0 ∧ Spec.Addressed (rep.attrs name).shape.tail idx ixs) := by
      rw [hrs] at hi ⊢
      have hit : Spec.InRange core idx := hi.2
      have htn : t < n := hi.1
      simp only [List.cons_append, Spec.Addressed, List.tail_cons, Spec.addressed]
      have e1 : ((t : ℤ) = 0 ∨ (t : ℤ) = 0 + n) ↔ t = 0 := by omega
      rw [e1]
      refine and_congr_right fun _ => ?_
      clear hsp hs ht hi e1
      have hl' : ixs.length ≤ core.length := by rw [hrs] at hl; simpa using Nat.lt_succ_iff.1 hl
      have hk : (n :: core).length - ixs.length - 1 = core.length - ixs.length := by simp; omega
      rw [hk]
      clear hk
      have hrep : ∀ (k : ℕ) (sh idx : List ℕ), Spec.InRange sh idx → k ≤ sh.length →
          Spec.Addressed sh idx (List.replicate k Ix.all) := by
        intro k
        induction k with
        | zero => intro sh idx _ _; cases sh <;> cases idx <;> simp [Spec.Addressed]
        | succ k ih =>
          intro sh idx hi hk
          cases sh with
          | nil => simp at hk
          | cons a sh =>
            obtain ⟨i, t, rfl, _, ht⟩ := inRange_cons hi
            rw [List.replicate_succ]
            refine ⟨by simp [Spec.addressed, Ix.all], ih sh t ht (by simpa using hk)⟩
      have happ : ∀ (sh idx : List ℕ) (ixs : List Ix), Spec.InRange sh idx → ixs.length ≤ sh.length →
          (Spec.Addressed sh idx (ixs ++ List.replicate (sh.length - ixs.length) Ix.all) ↔
            Spec.Addressed sh idx ixs) := by
        intro sh
        induction sh with
        | nil =>
          intro idx ixs hi hl
          have : ixs = [] := by simpa using hl
          subst this; simp
        | cons a sh ih =>
          intro idx ixs hi hl
          cases ixs with
          | nil =>
            simp only [List.nil_append, List.length_nil, Nat.sub_zero]
            have := hrep (a :: sh).length (a :: sh) idx hi (Nat.le_refl _)
            refine ⟨fun _ => by cases idx <;> simp [Spec.Addressed], fun _ => this⟩
          | cons ix ixs =>
            obtain ⟨i, t, rfl, _, ht⟩ := inRange_cons hi
            have := ih t ixs ht (by simpa using hl)
            simp only [List.cons_append, Spec.Addressed, List.length_cons, Nat.add_sub_add_right, this]
      exact happ core idx ixs hit hl'
    simp only [Function.update_self]
    have := hsp (t :: idx) hi
    rw [key] at this
    exact ⟨this.2 x rfl, this.1⟩

example : ∃ rep' : Rep ℤ, setSlice ⟨initShapes 1 2 1, fun n => ⟨(initShapes 1 2 1 n).getD [], fun _ => 0⟩⟩ "transition"
    [.int 0, .int (-1)] (.scalar 5) = (.ok (), rep') ∧ (rep'.attrs "transition").data [0, 0, 1] = 5 ∧
    (rep'.attrs "transition").data [0, 1, 1] = 0 := ⟨_, rfl, rfl, rfl⟩

/-- **C22**, slices with array values: after a successful assignment of an array to a slice addressed by at least one
integer index, reading the same slice returns the array. -/
theorem C22_slice_read_back (kE kS kP : ℕ) (rep rep' : Rep V) (hw : Spec.WF kE kS kP rep) (name : String)
    (ixs : List Ix) (k : ℤ) (hk : Ix.int k ∈ ixs) (w : Arr V)
    (h : setSlice rep name ixs (.array w) = (.ok (), rep')) :
    ∃ y, getSlice rep' name ixs = .ok y ∧ Spec.Same y w := by
  obtain ⟨core, ixs', m, hc, ht, hs, rfl⟩ := setSlice_ok hw h
  obtain ⟨hsh, hsp⟩ := setSubtensor_spec hs
  obtain ⟨hss, hsc⟩ := wf_slot hw hc
  have hne : ∀ j, ixs ≠ List.replicate j Ix.all := by
    rintro j rfl
    have := List.eq_of_mem_replicate hk
    simp [Ix.all] at this
  simp only [setSubtensor] at hs
  cases hr : resolveAll (rep.attrs name).shape ixs' with
  | none => simp [hr] at hs
  | some ss =>
    simp only [hr] at hs
    split at hs
    · next hws =>
      simp only [Except.ok.injEq] at hs
      subst hs
      have hg := show getSlice ⟨rep.shapes, Function.update rep.attrs name ⟨(rep.attrs name).shape, fun idx =>
          match locate ss idx with
          | none => (rep.attrs name).data idx
          | some sub => w.data sub⟩⟩ name ixs = .ok ⟨selShape ss, fun sub =>
            match locate ss (expand ss sub) with
            | none => (rep.attrs name).data (expand ss sub)
            | some sub => w.data sub⟩ by
        simp only [getSlice, hss, hne, if_false, Function.update_self, ht, subtensor, hr]
      refine ⟨_, hg, ?_, ?_⟩
      · exact hws.symm
      · intro sub hsub
        simp only [locate_expand ss sub hsub]
    · simp at hs

example : ∃ rep' : Rep ℤ, setSlice ⟨initShapes 1 2 1, fun n => ⟨(initShapes 1 2 1 n).getD [], fun _ => 0⟩⟩ "transition"
    [.int 1, .all] (.array ⟨[2], fun _ => 5⟩) = (.ok (), rep') := ⟨_, rfl⟩

/-- **C23**: assigning to a name that is not one of the nine matrices, a numpy array with the wrong number of axes, or a
time-varying numpy array whose axes after the first differ from the documented shape, fails and leaves the whole store
as it was; so does any failing slice assignment. -/
theorem C23_rejected_unchanged (kE kS kP : ℕ) (rep : Rep V) (hw : Spec.WF kE kS kP rep) (name : String) (x : Arr V)
    (symbolic : Bool) (ixs : List Ix) (v : Value V) :
    (Spec.core kE kS kP name = none → ∃ e, setWhole rep name symbolic x = (.error e, rep)) ∧
    (∀ core, Spec.core kE kS kP name = some core →
      (x.shape.length ≠ core.length ∧ (Spec.Fixed name ∨ x.shape.length ≠ core.length + 1) ∨
        (x.shape.length = core.length + 1 ∧ x.shape.tail ≠ core)) →
      ∃ e, setWhole rep name false x = (.error e, rep)) ∧
    (∀ e rep', setSlice rep name ixs v = (.error e, rep') → rep' = rep) := by
  refine ⟨fun hc => ?_, fun core hc hx => ?_, fun e rep' h => ?_⟩
  · have := hw name
    rw [hc] at this
    exact ⟨.unknownName, by simp only at this; simp [setWhole, this]⟩
  · obtain ⟨hs, hsc⟩ := wf_slot hw hc
    obtain ⟨hf, hv⟩ := core_cases hc
    have : ∃ e, validateMatrixShape name (rep.attrs name).shape x.shape = .error e := by
      by_cases hn : never name = true
      · rcases hv with ⟨hv, a, rfl⟩ | ⟨hv, a, b, rfl⟩ <;>
          simp only [List.length_singleton, List.length_cons, List.length_nil] at hx <;>
          refine ⟨.badNdim, ?_⟩ <;> simp only [validateMatrixShape, hn, hv, if_true, Bool.false_eq_true, if_false] <;>
          rw [if_pos] <;> omega
      · have hnf : ¬ Spec.Fixed name := fun h' => hn (hf.2 h')
        obtain ⟨n, hrs⟩ : ∃ n, (rep.attrs name).shape = n :: core := by
          rcases hsc with hsc | hsc
          · exact absurd hsc.1 hnf
          · exact hsc.2
        rcases hv with ⟨hv, a, rfl⟩ | ⟨hv, a, b, rfl⟩ <;>
          simp only [List.length_singleton, List.length_cons, List.length_nil, hnf, false_or] at hx <;>
          rcases hx with hx | hx
        · exact ⟨.badNdim, by simp only [validateMatrixShape, hn, hv, if_true]; simp; omega⟩
        · exact ⟨.badTimeVarying, by simp [validateMatrixShape, hn, hv, hx, hrs]⟩
        · exact ⟨.badNdim, by simp only [validateMatrixShape, hn, hv]; simp; omega⟩
        · exact ⟨.badTimeVarying, by simp [validateMatrixShape, hn, hv, hx, hrs]⟩
    obtain ⟨e, he⟩ := this
    exact ⟨e, by simp [setWhole, hs, numpyToPytensor, he]⟩
  · simp only [setSlice] at h
    split at h
    · simp_all
    · split at h
      · simp_all
      · split at h
        · simp_all
        · split at h <;> simp_all

/-- **C86**: a static numpy array of the right rank but the wrong size is refused only *after* it was stored: the
assignment fails, the slot holds the wrong array, and reading it back fails too for a matrix that may vary over time and
returns the wrong array for one that may not. -/
theorem C86_wrong_size_stored (kE kS kP : ℕ) (rep : Rep V) (hw : Spec.WF kE kS kP rep) (name : String)
    (core : List ℕ) (hc : Spec.core kE kS kP name = some core) (x : Arr V) (hl : x.shape.length = core.length)
    (hx : x.shape ≠ core) :
    ∃ rep', setWhole rep name false x = (.error .badCore, rep') ∧
      (Spec.Fixed name → getWhole rep' name = .ok x) ∧
      (¬ Spec.Fixed name → getWhole rep' name = .error .specifyShape) := by
  obtain ⟨hs, hsc⟩ := wf_slot hw hc
  obtain ⟨hf, hv⟩ := core_cases hc
  have hz : zipAllEq x.shape core = false := by
    rw [← Bool.not_eq_true]; exact fun h => hx (zipAllEq_eq _ _ hl h)
  by_cases hn : never name = true
  · have hrs : (rep.attrs name).shape = core := by
      rcases hsc with hsc | hsc
      · exact hsc.2
      · exact absurd (hf.1 hn) hsc.1
    refine ⟨⟨rep.shapes, Function.update rep.attrs name x⟩, ?_, fun _ => ?_, fun h => absurd (hf.1 hn) h⟩
    · rcases hv with ⟨hv, a, rfl⟩ | ⟨hv, a, b, rfl⟩ <;>
        simp_all [setWhole, numpyToPytensor, validateMatrixShape, updateShape, lastN]
    · simp [getWhole, hs, hn]
  · have hnf : ¬ Spec.Fixed name := fun h' => hn (hf.2 h')
    obtain ⟨n, hrs⟩ : ∃ n, (rep.attrs name).shape = n :: core := by
      rcases hsc with hsc | hsc
      · exact absurd hsc.1 hnf
      · exact hsc.2
    refine ⟨⟨rep.shapes, Function.update rep.attrs name x.addTime⟩, ?_, fun h => absurd h hnf, fun _ => ?_⟩
    · simp only [Bool.not_eq_true] at hn
      rcases hv with ⟨hv, a, rfl⟩ | ⟨hv, a, b, rfl⟩ <;>
        simp_all [setWhole, numpyToPytensor, validateMatrixShape, updateShape, lastN, Arr.addTime]
    · simp [getWhole, hs, hn, hrs, Arr.addTime, Arr.dropTime, specifyShape, hx]

example : ([3, 3] : List ℕ).length = [2, 2].length ∧ Spec.core 1 2 1 "transition" = some [2, 2] := by decide

/-- **C22**: a value given with an explicit time axis of length one is read back without it, as its slice at time
zero. -/
theorem C22_single_slice_roundtrip (kE kS kP : ℕ) (rep : Rep V) (hw : Spec.WF kE kS kP rep) (name : String)
    (core : List ℕ) (hc : Spec.core kE kS kP name = some core) (hnf : ¬ Spec.Fixed name) (symbolic : Bool) (x : Arr V)
    (hx : x.shape = 1 :: core) :
    ∃ rep' a, setWhole rep name symbolic x = (.ok (), rep') ∧ getWhole rep' name = .ok a ∧ a.shape = core ∧
      ∀ idx, a.data idx = x.data (0 :: idx) := by
  obtain ⟨hs, hsc⟩ := wf_slot hw hc
  obtain ⟨hf, hv⟩ := core_cases hc
  have hn : ¬ never name = true := fun h' => hnf (hf.1 h')
  obtain ⟨n, hrs⟩ : ∃ n, (rep.attrs name).shape = n :: core := by
    rcases hsc with hsc | hsc
    · exact absurd hsc.1 hnf
    · exact hsc.2
  refine ⟨⟨Function.update rep.shapes name (some (1 :: core)), Function.update rep.attrs name x⟩, x.dropTime, ?_, ?_,
    ?_, fun idx => rfl⟩
  · simp only [Bool.not_eq_true] at hn
    rcases hv with ⟨hv, a, rfl⟩ | ⟨hv, a, b, rfl⟩ <;> cases symbolic <;>
      simp [setWhole, numpyToPytensor, validateMatrixShape, hs, updateShape, lastN, hx, hrs, hn, hv, zipAllEq]
  · simp [getWhole, hx, hn, specifyShape, Arr.dropTime]
  · simp [Arr.dropTime, hx]

example : Spec.core 1 2 1 "transition" = some [2, 2] ∧ ¬ Spec.Fixed "transition" := by
  simp [Spec.core, Spec.Fixed]

/-- **C86**, constructor: passing a static transition matrix of the wrong size to the constructor is accepted without any
error; only reading it back fails. -/
theorem C86_constructor_accepts (zero : V) (kE kS kP a b : ℕ) (hab : [a, b] ≠ [kS, kS]) (f : List ℕ → V) :
    ∃ rep, init zero kE kS kP (fun n => if n = "transition" then some ⟨[a, b], f⟩ else none) = .ok rep ∧
      getWhole rep "transition" = .error .specifyShape := by
  refine ⟨_, rfl, ?_⟩
  simp [getWhole, initShapes, Function.update, Arr.addTime, never, specifyShape, Arr.dropTime]
  simpa using hab

example : ([3, 3] : List ℕ) ≠ [2, 2] := by decide

/-- **C87**: a symbolic static matrix is stored without a time axis although one is recorded: assigning it succeeds, but
every later slice assignment to it fails, and if its first dimension is 1 even reading it back fails. -/
theorem C87_symbolic_static (kE kS kP : ℕ) (rep : Rep V) (hw : Spec.WF kE kS kP rep) (name : String)
    (core : List ℕ) (hc : Spec.core kE kS kP name = some core) (hnf : ¬ Spec.Fixed name) (x : Arr V)
    (hx : x.shape = core) :
    ∃ rep', setWhole rep name true x = (.ok (), rep') ∧
      (∀ ixs v, ∃ e, setSlice rep' name ixs v = (.error e, rep')) ∧
      (core.head? = some 1 → getWhole rep' name = .error .specifyShape) ∧
      (core.head? ≠ some 1 → getWhole rep' name = .ok x) := by
  obtain ⟨hs, hsc⟩ := wf_slot hw hc
  obtain ⟨hf, hv⟩ := core_cases hc
  have hn : ¬ never name = true := fun h' => hnf (hf.1 h')
  obtain ⟨n, hrs⟩ : ∃ n, (rep.attrs name).shape = n :: core := by
    rcases hsc with hsc | hsc
    · exact absurd hsc.1 hnf
    · exact hsc.2
  refine ⟨⟨Function.update rep.shapes name (some (1 :: core)), Function.update rep.attrs name x⟩, ?_, ?_, ?_, ?_⟩
  · simp only [Bool.not_eq_true] at hn
    rcases hv with ⟨hv, a, rfl⟩ | ⟨hv, a, b, rfl⟩ <;>
      simp [setWhole, hs, updateShape, lastN, hx, hrs, hn, hv, zipAllEq]
  · intro ixs v
    simp only [setSlice, Function.update_self]
    split
    · exact ⟨_, rfl⟩
    · split
      · exact ⟨_, rfl⟩
      · next m hm =>
        have : m.shape ≠ 1 :: core := by
          rw [(setSubtensor_spec hm).1, hx]
          exact fun h => by simpa using congrArg List.length h
        exact ⟨.specifyShape, by simp [specifyShape, this]⟩
  · intro h1
    have : core.tail ≠ core := by
      intro h
      have := congrArg List.length h
      cases core <;> simp at h1 this
    simp [getWhole, hx, h1, hn, specifyShape, Arr.dropTime, this]
  · intro h1
    simp [getWhole, hx, h1]

example : Spec.core 1 1 1 "transition" = some [1, 1] ∧ ¬ Spec.Fixed "transition" := by
  simp [Spec.core, Spec.Fixed]

/-- **C88**: a copy of the store shares the recorded shapes with its original: assigning a time-varying matrix to the
copy leaves the original's values unchanged, but from then on every slice assignment to that matrix of the original
fails. -/
theorem C88_copy_shares_shapes (kE kS kP : ℕ) (rep : Rep V) (hw : Spec.WF kE kS kP rep) (name : String)
    (core : List ℕ) (hc : Spec.core kE kS kP name = some core) (hnf : ¬ Spec.Fixed name) (x : Arr V) (n : ℕ)
    (hx : x.shape = n :: core) (hne : (rep.attrs name).shape ≠ n :: core) :
    ∃ p, (copy rep).setWholeCopy name false x = (.ok (), p) ∧ p.orig.attrs = rep.attrs ∧
      ∀ ixs v, ∃ e, setSlice p.orig name ixs v = (.error e, p.orig) := by
  have hlen : n :: core ≠ core := by simp
  have := setWhole_numpy_ok hw hc (x := x) (Or.inr ⟨hnf, n, hx⟩)
  simp only [hx, hlen, and_false, if_false] at this
  refine ⟨⟨Function.update rep.shapes name (some (n :: core)), rep.attrs, Function.update rep.attrs name x⟩,
    by simp only [copy, Pair.setWholeCopy, this], rfl, ?_⟩
  intro ixs v
  simp only [Pair.orig, setSlice, Function.update_self]
  split
  · exact ⟨_, rfl⟩
  · split
    · exact ⟨_, rfl⟩
    · next m hm =>
      have : m.shape ≠ n :: core := by rw [(setSubtensor_spec hm).1]; exact hne
      exact ⟨.specifyShape, by simp [specifyShape, this]⟩

example : ∃ p : Pair ℤ, (copy ⟨initShapes 1 2 1, fun n => ⟨(initShapes 1 2 1 n).getD [], fun _ => 0⟩⟩).setWholeCopy
    "design" false ⟨[10, 1, 2], fun _ => 1⟩ = (.ok (), p) := ⟨_, rfl⟩

end Verif.Representation
