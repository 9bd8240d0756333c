import Verif.Structural.Meta

/-!
C27 (names), C28, C89, C90, C91, C93, C94: bookkeeping of structural components.
-/

set_option autoImplicit false
set_option linter.unusedSectionVars false

namespace Verif.Structural

variable {V : Type}

/-- Specification: the component names recorded in an info list. -/
def Spec.keys (l : List (String × Info)) : List String := l.map Prod.fst

/-- Specification: the name starts with "StateSpace". -/
def Spec.Hidden (key : String) : Prop := ∃ rest, key = "StateSpace" ++ rest

theorem hidden_iff (key : String) : hidden key = true ↔ Spec.Hidden key := by
  rw [hidden, List.isPrefixOf_iff_prefix, Spec.Hidden]
  constructor
  · rintro ⟨l, hl⟩
    exact ⟨String.ofList l, by rw [← String.toList_inj, ← hl]; simp [String.toList_append]⟩
  · rintro ⟨rest, rfl⟩
    exact ⟨rest.toList, by rw [String.toList_append]⟩

open Classical in
/-- Specification: the entries whose name does not start with "StateSpace". -/
noncomputable def Spec.visible (l : List (String × Info)) : List (String × Info) := l.filter fun e => decide (¬ Spec.Hidden e.1)

theorem visible_append (l l' : List (String × Info)) : Spec.visible (l ++ l') = Spec.visible l ++ Spec.visible l' := by
  simp [Spec.visible]

theorem visible_idem (l : List (String × Info)) : Spec.visible (Spec.visible l) = Spec.visible l := by
  simp [Spec.visible]

open Classical in
theorem insertAll_eq (l : List (String × Info)) : ∀ acc, (Spec.keys acc).Nodup →
    insertAll acc l = if (Spec.keys (acc ++ Spec.visible l)).Nodup then .ok (acc ++ Spec.visible l)
      else .error .duplicateComponent := by
  induction l with
  | nil => intro acc h; simp [insertAll, Spec.visible, h]
  | cons e l ih =>
    intro acc h
    obtain ⟨k, v⟩ := e
    simp only [insertAll]
    by_cases hk : hidden k = true
    · have : Spec.visible ((k, v) :: l) = Spec.visible l := by simp [Spec.visible, (hidden_iff k).1 hk]
      rw [if_pos hk, ih acc h, this]
    · have hv : Spec.visible ((k, v) :: l) = (k, v) :: Spec.visible l := by simp [Spec.visible, ← hidden_iff k, hk]
      rw [if_neg hk, hv]
      by_cases hd : acc.any (fun e => e.1 == k) = true
      · rw [if_pos hd, if_neg]
        intro hn
        simp only [Spec.keys, List.map_append, List.map_cons] at hn
        have := (List.nodup_append.1 hn).2.2
        rw [List.any_eq_true] at hd
        obtain ⟨e, he, hek⟩ := hd
        simp only [beq_iff_eq] at hek
        exact this e.1 (List.mem_map_of_mem he) k (by simp) hek
      · rw [if_neg hd]
        have hn : (Spec.keys (acc ++ [(k, v)])).Nodup := by
          simp only [Spec.keys, List.map_append, List.map_cons, List.map_nil]
          refine List.nodup_append.2 ⟨h, by simp, fun x hx y hy => ?_⟩
          simp only [List.mem_singleton] at hy
          subst hy
          rintro rfl
          simp only [List.any_eq_true, beq_iff_eq, not_exists, not_and] at hd
          obtain ⟨e, he, hex⟩ := List.mem_map.1 hx
          exact hd e he hex
        rw [ih _ hn, List.append_assoc]
        rfl

theorem keys_visible_nodup {l : List (String × Info)} (h : (Spec.keys l).Nodup) : (Spec.keys (Spec.visible l)).Nodup :=
  (List.filter_sublist.map _).nodup h

open Classical in
theorem combineInfo_eq (a b : List (String × Info)) (ha : (Spec.keys a).Nodup) :
    combineInfo a b = if (Spec.keys (Spec.visible a ++ Spec.visible b)).Nodup then
      .ok (Spec.visible a ++ Spec.visible b) else .error .duplicateComponent := by
  have h := insertAll_eq a [] (by simp [Spec.keys])
  simp only [List.nil_append, keys_visible_nodup ha, if_true] at h
  simp only [combineInfo, h]
  exact insertAll_eq b _ (keys_visible_nodup ha)

/-- **C28**, duplicates: adding two components is rejected exactly when they observe different numbers of series or both
record a component of the same name (names starting with "StateSpace" do not count). -/
theorem C28_duplicate_rejected (a b : Meta V) (ha : (Spec.keys a.info).Nodup) (hb : (Spec.keys b.info).Nodup) :
    (∃ e, add a b = .error e) ↔
      a.kEndog ≠ b.kEndog ∨ ∃ k, k ∈ Spec.keys a.info ∧ k ∈ Spec.keys b.info ∧ ¬ Spec.Hidden k := by
  simp only [add]
  by_cases hk : a.kEndog = b.kEndog
  · simp only [hk, ne_eq, not_true_eq_false, if_false, false_or]
    rw [combineInfo_eq _ _ ha]
    split_ifs with hn
    · simp only [reduceCtorEq, exists_false, false_iff, not_exists, not_and]
      intro k h1 h2 h3
      simp only [Spec.keys, List.map_append] at hn
      obtain ⟨ea, hea, rfl⟩ := List.mem_map.1 h1
      obtain ⟨eb, heb, hab⟩ := List.mem_map.1 h2
      refine (List.nodup_append.1 hn).2.2 ea.1 (List.mem_map_of_mem ?_) eb.1 (List.mem_map_of_mem ?_) hab.symm
      · simp [Spec.visible, hea, h3]
      · simp [Spec.visible, heb, hab, h3]
    · simp only [Except.error.injEq, exists_eq', true_iff]
      by_contra hc
      simp only [not_exists, not_and, not_not] at hc
      refine hn ?_
      simp only [Spec.keys, List.map_append]
      refine List.nodup_append.2 ⟨keys_visible_nodup ha, keys_visible_nodup hb, ?_⟩
      intro x hx y hy hxy
      obtain ⟨ea, hea, rfl⟩ := List.mem_map.1 hx
      obtain ⟨eb, heb, rfl⟩ := List.mem_map.1 hy
      simp only [Spec.visible, List.mem_filter, decide_eq_true_eq] at hea heb
      have := hc ea.1 (List.mem_map_of_mem hea.1) (hxy ▸ List.mem_map_of_mem heb.1)
      exact hea.2 this
  · simp [hk]

example : ("StateSpace[a, b]" = "StateSpace[a, b]") ∧ hidden "StateSpace[a, b]" = true ∧ hidden "LevelTrend" = false := by
  decide

/-- **C28**, overwriting: when the addition succeeds, every dictionary of the sum maps a key to the right operand's entry
if it has one, otherwise to the left's. So if both operands have an entry for a parameter, the left one's placeholder is
no longer reachable from the sum's dictionary (provided it was reachable only under that name), although the left
operand's matrices still contain it. -/
theorem C28_right_biased (a b s : Meta V) (h : add a b = .ok s) :
    (∀ k v, b.nameToVar k = some v → s.nameToVar k = some v) ∧
    (∀ k, b.nameToVar k = none → s.nameToVar k = a.nameToVar k) ∧
    (∀ k v, b.paramInfo k = some v → s.paramInfo k = some v) ∧
    (∀ k, b.paramInfo k = none → s.paramInfo k = a.paramInfo k) ∧
    (∀ k v, b.coords k = some v → s.coords k = some v) ∧
    (∀ k, b.coords k = none → s.coords k = a.coords k) ∧
    (∀ k v v', a.nameToVar k = some v → b.nameToVar k = some v' → (∀ k', a.nameToVar k' = some v → k' = k) →
      (∀ k', b.nameToVar k' ≠ some v) → ∀ k', s.nameToVar k' ≠ some v) := by
  simp only [add] at h
  split at h
  · simp at h
  · split at h
    · simp at h
    · simp only [Except.ok.injEq] at h
      subst h
      have h1 : ∀ (x y : Dict V) k v, y k = some v → update x y k = some v := fun x y k v hv => by simp [update, hv]
      have h2 : ∀ (x y : Dict V) k, y k = none → update x y k = x k := fun x y k hv => by simp [update, hv]
      refine ⟨h1 _ _, h2 _ _, h1 _ _, h2 _ _, h1 _ _, h2 _ _, ?_⟩
      intro k v v' hva hvb hu hnb k' hk'
      change update a.nameToVar b.nameToVar k' = some v at hk'
      cases hb : b.nameToVar k' with
      | some w =>
        have := h1 a.nameToVar b.nameToVar k' w hb
        rw [this] at hk'
        exact hnb k' (by rw [hb, hk'])
      | none =>
        have := h2 a.nameToVar b.nameToVar k' hb
        rw [this] at hk'
        rw [hu k' hk', hvb] at hb
        simp at hb

theorem update_assoc (a b c : Dict V) : update (update a b) c = update a (update b c) := by
  funext k; simp only [update]; cases c k <;> simp

/-- Success of an addition, spelled out. -/
theorem add_ok_iff (a b s : Meta V) (ha : (Spec.keys a.info).Nodup) :
    add a b = .ok s ↔ a.kEndog = b.kEndog ∧ (Spec.keys (Spec.visible a.info ++ Spec.visible b.info)).Nodup ∧
      s = { kEndog := 1
            stateNames := a.stateNames ++ b.stateNames
            dataNames := a.dataNames ++ b.dataNames
            shockNames := a.shockNames ++ b.shockNames
            paramNames := a.paramNames ++ b.paramNames
            exogNames := a.exogNames ++ b.exogNames
            paramInfo := update a.paramInfo b.paramInfo
            dataInfo := update a.dataInfo b.dataInfo
            paramDims := update a.paramDims b.paramDims
            coords := update a.coords b.coords
            nameToVar := update a.nameToVar b.nameToVar
            nameToData := update a.nameToData b.nameToData
            info := Spec.visible a.info ++ Spec.visible b.info } := by
  simp only [add]
  by_cases hk : a.kEndog = b.kEndog
  · rw [if_neg (by simp [hk]), combineInfo_eq _ _ ha]
    split_ifs with hn
    · simp only [hk, hn, true_and, Except.ok.injEq]; exact eq_comm
    · simp [hn]
  · simp [hk]

/-- **C27**, names: for univariate components `(a + b) + c` is accepted exactly when `a + (b + c)` is, and then all
lists of names, all dictionaries and the component records are the same. -/
theorem C27_names_assoc (a b c : Meta V) (ha : (Spec.keys a.info).Nodup) (hb : (Spec.keys b.info).Nodup)
    (ea : a.kEndog = 1) (eb : b.kEndog = 1) (ec : c.kEndog = 1) (s : Meta V) :
    (∃ ab, add a b = .ok ab ∧ add ab c = .ok s) ↔ (∃ bc, add b c = .ok bc ∧ add a bc = .ok s) := by
  have vis : ∀ l l' : List (String × Info), Spec.visible (Spec.visible l ++ Spec.visible l') =
      Spec.visible l ++ Spec.visible l' := fun l l' => by rw [visible_append, visible_idem, visible_idem]
  constructor
  · rintro ⟨ab, h1, h2⟩
    obtain ⟨-, n1, rfl⟩ := (add_ok_iff a b ab ha).1 h1
    obtain ⟨-, n2, rfl⟩ := (add_ok_iff _ c s n1).1 h2
    simp only [vis] at n2
    have nbc : (Spec.keys (Spec.visible b.info ++ Spec.visible c.info)).Nodup := by
      rw [List.append_assoc] at n2
      simp only [Spec.keys, List.map_append] at n2 ⊢
      exact (List.nodup_append.1 n2).2.1
    refine ⟨_, (add_ok_iff b c _ hb).2 ⟨eb.trans ec.symm, nbc, rfl⟩, (add_ok_iff a _ _ ha).2 ⟨ea, ?_, ?_⟩⟩
    · simpa only [vis, List.append_assoc] using n2
    · simp only [vis, List.append_assoc, update_assoc]
  · rintro ⟨bc, h1, h2⟩
    obtain ⟨-, n1, rfl⟩ := (add_ok_iff b c bc hb).1 h1
    obtain ⟨-, n2, rfl⟩ := (add_ok_iff a _ s ha).1 h2
    simp only [vis] at n2
    have nab : (Spec.keys (Spec.visible a.info ++ Spec.visible b.info)).Nodup := by
      rw [← List.append_assoc] at n2
      simp only [Spec.keys, List.map_append] at n2 ⊢
      exact (List.nodup_append.1 n2).1
    refine ⟨_, (add_ok_iff a b _ ha).2 ⟨ea.trans eb.symm, nab, rfl⟩, (add_ok_iff _ c _ nab).2 ⟨ec.symm, ?_, ?_⟩⟩
    · simpa only [vis, List.append_assoc] using n2
    · simp only [vis, List.append_assoc, update_assoc]

/-- A component with one recorded name, used in the examples. -/
def Spec.single (name : String) (i : Info) (ps : List String) : Meta ℕ where
  kEndog := 1
  stateNames := []
  dataNames := []
  shockNames := []
  paramNames := ps
  exogNames := []
  paramInfo := fun _ => none
  dataInfo := fun _ => none
  paramDims := fun _ => none
  coords := fun _ => none
  nameToVar := fun k => if k ∈ ps then some 0 else none
  nameToData := fun _ => none
  info := [(name, i)]

example : ∃ s, add (Spec.single "a" ⟨2, true, none⟩ ["x"]) (Spec.single "b" ⟨1, true, none⟩ ["y"]) = .ok s ∧
    s.paramNames = ["x", "y"] := ⟨_, rfl, rfl⟩

example : add (Spec.single "a" ⟨2, true, none⟩ ["x"]) (Spec.single "a" ⟨1, true, none⟩ ["y"]) =
    .error .duplicateComponent := rfl

/-- Specification: one component's own states, names and record. -/
structure Spec.Part where
  name : String
  info : Info
  names : List String
  x : List ℝ

/-- Specification: a part whose lists have the recorded lengths. -/
def Spec.Part.Ok (q : Spec.Part) : Prop :=
  q.names.length = q.info.kStates ∧ q.x.length = q.info.kStates ∧ ∀ o, q.info.obs = some o → o.length = q.info.kStates

/-- Specification: the sum of the entries of `x` marked in `o`. -/
def Spec.observedSum (o : List Bool) (x : List ℝ) : ℝ := ((o.zip x).map fun e => if e.1 then e.2 else 0).sum

/-- Specification: what extraction should return for one component: nothing for one without states to report, the sum of
its observed states if they are to be combined, else all its states. -/
def Spec.extract (q : Spec.Part) : List ℝ :=
  match q.info.obs with
  | none => []
  | some o => if q.info.combine then [Spec.observedSum o q.x] else q.x

theorem sumObserved_eq : ∀ (o : List Bool) (x : List ℝ), o.length = x.length →
    sumObserved o x = some (Spec.observedSum o x)
  | [], [], _ => by simp [sumObserved, Spec.observedSum]
  | true :: o, x :: xs, h => by
    simp [sumObserved, sumObserved_eq o xs (by simpa using h), Spec.observedSum]
  | false :: o, x :: xs, h => by
    simp [sumObserved, sumObserved_eq o xs (by simpa using h), Spec.observedSum]

theorem pySlice_mid {α : Type} (a b c : List α) : pySlice (a ++ (b ++ c)) a.length (a.length + b.length) = b := by
  simp [pySlice]

theorem extract_mapM (ps : List Spec.Part) (h : ∀ q ∈ ps, q.Ok) : ∀ (pre : List ℝ) (pn : List String),
    pre.length = pn.length →
    ((ps.map fun q => (q.name, q.info)).zip (stateSlices pre.length (ps.map fun q => (q.name, q.info)))).mapM
      (fun e => extractOne (pn ++ (ps.map (·.names)).flatten) (pre ++ (ps.map (·.x)).flatten) e.1.2 e.2) =
    some (ps.map Spec.extract) := by
  induction ps with
  | nil => intro pre pn _; rfl
  | cons q ps ih =>
    intro pre pn hl
    obtain ⟨hn, hx, ho⟩ := h q (by simp)
    have ih' := ih (fun q hq => h q (by simp [hq])) (pre ++ q.x) (pn ++ q.names) (by simp [hl, hx, hn])
    simp only [List.map_cons, stateSlices, List.zip_cons_cons, List.mapM_cons, List.flatten_cons]
    have e1 : extractOne (pn ++ (q.names ++ (ps.map (·.names)).flatten)) (pre ++ (q.x ++ (ps.map (·.x)).flatten)) q.info
        (pre.length, pre.length + q.info.kStates) = some (Spec.extract q) := by
      have s1 : pySlice (pre ++ (q.x ++ (ps.map (·.x)).flatten)) pre.length (pre.length + q.info.kStates) = q.x := by
        rw [← hx]; exact pySlice_mid _ _ _
      have s2 : pySlice (pn ++ (q.names ++ (ps.map (·.names)).flatten)) pre.length (pre.length + q.info.kStates) =
          q.names := by rw [hl, ← hn]; exact pySlice_mid _ _ _
      simp only [extractOne, Spec.extract]
      cases hobs : q.info.obs with
      | none => rfl
      | some o =>
        simp only [s1, s2]
        split_ifs with hc hle
        · rw [sumObserved_eq o q.x (by rw [ho o hobs, hx])]; rfl
        · rw [hn, ← hx, List.take_length]
        · exact absurd (by rw [hn, hx]) hle
    rw [e1]
    have e2 : pre.length + q.info.kStates = (pre ++ q.x).length := by simp [hx]
    rw [e2]
    simp only [List.append_assoc] at ih'
    rw [ih']
    rfl

/-- **C89**: from the stacked states of a sum of components, extraction reads each component's own states: it returns,
component after component, the sum of its observed states or all its states; and it returns as many values as names,
provided a component without observed states has no states to list. -/
theorem C89_extraction (ps : List Spec.Part) (h : ∀ q ∈ ps, q.Ok) :
    hiddenStates (ps.map (·.names)).flatten (ps.map (·.x)).flatten (ps.map fun q => (q.name, q.info)) =
      some (ps.map Spec.extract).flatten ∧
    ((∀ q ∈ ps, q.info.obs = none → q.info.combine = false ∧ q.info.kStates = 0) →
      (subNames (ps.map (·.names)).flatten (ps.map fun q => (q.name, q.info))).length =
        ((ps.map Spec.extract).flatten).length) := by
  constructor
  · have := extract_mapM ps h [] [] rfl
    simp only [List.nil_append, List.length_nil] at this
    simp only [hiddenStates, this, Option.map_some]
  · intro hobs
    have key : ∀ (ps : List Spec.Part), (∀ q ∈ ps, q.Ok) →
        (∀ q ∈ ps, q.info.obs = none → q.info.combine = false ∧ q.info.kStates = 0) → ∀ (pn : List String),
        ((((ps.map fun q => (q.name, q.info)).zip (stateSlices pn.length (ps.map fun q => (q.name, q.info)))).map
          fun e => if e.1.2.combine then [e.1.1] else
            (pySlice (pn ++ (ps.map (·.names)).flatten) e.2.1 e.2.2).map fun n => e.1.1 ++ "[" ++ n ++ "]").flatten).length =
          ((ps.map Spec.extract).flatten).length := by
      intro ps
      induction ps with
      | nil => intro _ _ pn; rfl
      | cons q ps ih =>
        intro h hobs pn
        obtain ⟨hn, hx, ho⟩ := h q (by simp)
        have ih' := ih (fun q hq => h q (by simp [hq])) (fun q hq => hobs q (by simp [hq])) (pn ++ q.names)
        simp only [List.append_assoc] at ih'
        have e2 : pn.length + q.info.kStates = (pn ++ q.names).length := by simp [hn]
        have s2 : pySlice (pn ++ (q.names ++ (ps.map (·.names)).flatten)) pn.length (pn.length + q.info.kStates) =
            q.names := by rw [← hn]; exact pySlice_mid _ _ _
        simp only [List.map_cons, stateSlices, List.zip_cons_cons, List.flatten_cons, List.length_append, s2]
        rw [e2, ih']
        congr 1
        simp only [Spec.extract]
        cases hq : q.info.obs with
        | none =>
          obtain ⟨h1, h2⟩ := hobs q (by simp) hq
          simp [h1, hn, h2]
        | some o =>
          split_ifs <;> simp [hn, hx]
    simpa [subNames] using key ps h hobs []

example : Spec.Part.Ok ⟨"season", ⟨3, true, some [true, false, false]⟩, ["a", "b", "c"], [1, 2, 3]⟩ := by
  simp [Spec.Part.Ok]

/-- **C90**: a component whose name starts with "StateSpace" vanishes from the records when it is added to another: its
states stay in the stacked state vector, so the first recorded component is read from *its* position. -/
theorem C90_prefix_vanishes (a b s : Meta V) (name : String) (i : Info) (ha : a.info = [(name, i)])
    (hn : Spec.Hidden name) (h : add a b = .ok s) :
    s.info = Spec.visible b.info ∧ s.stateNames = a.stateNames ++ b.stateNames ∧
    stateSlices 0 s.info = stateSlices 0 (Spec.visible b.info) := by
  have hk : (Spec.keys a.info).Nodup := by simp [ha, Spec.keys]
  obtain ⟨-, -, rfl⟩ := (add_ok_iff a b s hk).1 h
  have : Spec.visible a.info = [] := by simp [ha, Spec.visible, hn]
  simp [this]

example : ∃ s, add (Spec.single "StateSpaceX" ⟨2, true, none⟩ ["x"]) (Spec.single "b" ⟨1, true, none⟩ ["y"]) = .ok s ∧
    stateSlices 0 s.info = [(0, 1)] := ⟨_, rfl, rfl⟩

/-- Specification: the parameter names of the model built by the `m`-th of a series of builds of the same component, and
the component afterwards. -/
def Spec.builds (c : Meta V) : ℕ → List String × Meta V
  | 0 => build c
  | m + 1 => build (Spec.builds c m).2

/-- **C91**: building mutates the component: the model from the `m`-th build (counting from 0) lists "P0" `m + 1` times
in its parameter names. -/
theorem C91_build_mutates (c : Meta V) (h : "P0" ∉ c.paramNames) (m : ℕ) :
    ((Spec.builds c m).1).count "P0" = m + 1 ∧ (Spec.builds c m).2.paramNames = (Spec.builds c m).1 := by
  induction m with
  | zero => simp [Spec.builds, build, List.count_eq_zero.2 h]
  | succ m ih =>
    refine ⟨?_, rfl⟩
    simp only [Spec.builds, build, List.count_append, ih.2, ih.1]
    simp

example : "P0" ∉ (Spec.single "a" ⟨2, true, none⟩ ["x"]).paramNames := by simp [Spec.single]

/-- **C93**: the shape announced for the autoregressive parameters is the shape required exactly when no lag is left
out. -/
theorem C93_ar_param_shape (order : List Bool) :
    (arParamShapes order).1 = (arParamShapes order).2 ↔ ∀ b ∈ order, b = true := by
  simp only [arParamShapes, eq_comm (a := order.length), List.count_eq_length]
  exact ⟨fun h b hb => (h b hb).symm, fun h b hb => (h b hb).symm⟩

/-- **C94**: an accepted level-trend order gives as many state names as states exactly when the mask has no zero and at
most seven entries. -/
theorem C94_trend_names (mask : List Bool) (k : ℕ) (h : trendKStates mask = some k) :
    (trendStateNames mask).length = k ↔ (∀ b ∈ mask, b = true) ∧ k ≤ 7 := by
  have hk : k = mask.length := by
    simp only [trendKStates, Option.ite_none_right_eq_some, Option.some.injEq] at h
    exact h.2.symm
  subst hk
  have key : ∀ (ns : List String) (m : List Bool), (((ns.zip m).filter (·.2)).map Prod.fst).length = m.length ↔
      (∀ b ∈ m, b = true) ∧ m.length ≤ ns.length := by
    intro ns
    induction ns with
    | nil => intro m; cases m <;> simp
    | cons n ns ih =>
      intro m
      cases m with
      | nil => simp
      | cons b m =>
        have := ih m
        cases b with
        | true => simpa using this
        | false =>
          simp only [List.zip_cons_cons, List.mem_cons, forall_eq_or_imp, Bool.false_eq_true, false_and, iff_false]
          rw [List.filter_cons_of_neg (by simp), List.length_map]
          have h1 := List.length_filter_le (fun e : String × Bool => e.2) (ns.zip m)
          have h2 : (ns.zip m).length ≤ m.length := by simp
          simp only [List.length_cons]
          omega
  rw [trendStateNames, key]
  simp only [List.length_take, List.length_cons, List.length_nil]
  constructor
  · rintro ⟨h1, h2⟩; exact ⟨h1, by omega⟩
  · rintro ⟨h1, h2⟩; exact ⟨h1, by omega⟩

example : trendKStates [true, false, true] = some 3 ∧ trendStateNames [true, false, true] = ["level", "acceleration"] := by
  decide

/-- **C94**, shocks: the declared number of shocks is the number of columns of the selection matrix exactly when the
innovations mask marks nothing beyond the number of states. -/
theorem C94_trend_shocks (k : ℕ) (innov : List Bool) :
    (trendShocks k innov).1 = (trendShocks k innov).2 ↔ ∀ b ∈ innov.drop k, b = false := by
  simp only [trendShocks]
  have h : innov.count true = (innov.take k).count true + (innov.drop k).count true := by
    rw [← List.count_append, List.take_append_drop]
  rw [h]
  constructor
  · intro he b hb
    have : (innov.drop k).count true = 0 := by omega
    rw [List.count_eq_zero] at this
    cases b with
    | false => rfl
    | true => exact absurd hb this
  · intro hz
    have : (innov.drop k).count true = 0 := List.count_eq_zero.2 fun hm => by simpa using hz _ hm
    omega

end Verif.Structural
