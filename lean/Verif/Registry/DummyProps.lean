import Verif.Registry.BuildProps

/-!
# Properties of the graph rebuilt after estimation
-/

set_option autoImplicit false

namespace Verif.Registry

/-! ### Lemmas -/

theorem lookup_mem {β : Type} {l : List (String × β)} (hn : (l.map Prod.fst).Nodup) {n : String} {b : β} (h : (n, b) ∈ l) :
    l.lookup n = some b := by
  induction l with
  | nil => simp at h
  | cons p l ih =>
    obtain ⟨k, v⟩ := p
    simp only [List.map_cons, List.nodup_cons] at hn
    rcases List.mem_cons.1 h with h | h
    · cases h; simp [List.lookup]
    · have hne : n ≠ k := by
        intro hc
        exact hn.1 (List.mem_map.2 ⟨(n, b), h, hc⟩)
      simp only [List.lookup, beq_eq_false_iff_ne.2 hne]
      exact ih hn.2 h

theorem lookup_varDims {m : Pm} (hm : (m.entries.map Entry.short).Nodup) (h : m.pre = "") {e : Entry} (he : e ∈ m.entries) :
    m.varDims.lookup e.short = e.dims := by
  simp only [Pm.varDims, full_plain h]
  generalize m.entries = es at hm he
  induction es with
  | nil => simp at he
  | cons x es ih =>
    simp only [List.map_cons, List.nodup_cons] at hm
    simp only [List.filterMap_cons]
    rcases List.mem_cons.1 he with rfl | he'
    · cases hd : e.dims with
      | some d => simp
      | none =>
        simp only [Option.map_none]
        rw [List.lookup_eq_none_iff]
        intro p hp
        simp only [List.mem_filterMap, Option.map_eq_some_iff] at hp
        obtain ⟨x, hx, d, -, rfl⟩ := hp
        simp only [ne_eq, bne_iff_ne]
        intro hc
        exact hm.1 (List.mem_map.2 ⟨x, hx, hc.symm⟩)
    · have hne : e.short ≠ x.short := fun hc => hm.1 (List.mem_map.2 ⟨e, he', hc⟩)
      cases hd : x.dims with
      | none => simpa using ih hm.2 he'
      | some d =>
        simp only [Option.map_some, List.lookup, beq_eq_false_iff_ne.2 hne]
        exact ih hm.2 he'

/-- The dummy variable for a parameter. -/
def dummyEntry (floatX : String) (o : Obj) (dims : List (String × List String)) (n : String) : Entry :=
  ⟨n, .rv, { ((o.vars.lookup n).getD ⟨floatX, []⟩) with dtype := floatX }, dims.lookup n⟩

theorem dummy_fold (floatX : String) (o : Obj) (dims : List (String × List String)) (hd : o.fitDims = some dims)
    (ns : List String) (hns : ns.Nodup) (hreg : ∀ n ∈ ns, (o.vars.lookup n).isSome) (m : Pm)
    (hdis : ∀ n ∈ ns, n ∉ m.entries.map Entry.short) :
    ns.foldlM (fun m n =>
      match o.vars.lookup n with
      | none => .error .keyError
      | some ty => match o.fitDims with
        | none => .error .attributeError
        | some dims => m.add ⟨n, .rv, { ty with dtype := floatX }, dims.lookup n⟩) m =
      Except.ok { m with entries := m.entries ++ ns.map (dummyEntry floatX o dims) } := by
  induction ns generalizing m with
  | nil => simp [pure, Except.pure]
  | cons n ns ih =>
    obtain ⟨ty, hty⟩ := Option.isSome_iff_exists.1 (hreg n (by simp))
    rw [List.nodup_cons] at hns
    have hn : n ∉ m.entries.map Entry.short := hdis n (by simp)
    simp only [List.foldlM_cons, hty, hd, Pm.add]
    rw [if_neg hn]
    simp only [hd] at ih
    have := ih hns.2 (fun k hk => hreg k (by simp [hk]))
      { m with entries := m.entries ++ [⟨n, .rv, { ty with dtype := floatX }, dims.lookup n⟩] } (by
        intro k hk
        simp only [List.map_append, List.map_cons, List.map_nil, List.mem_append, List.mem_singleton, not_or]
        exact ⟨hdis k (by simp [hk]), fun h => hns.1 (h ▸ hk)⟩)
    refine Eq.trans this ?_
    simp [dummyEntry, hty]

theorem exog_fold (o : Obj) (ns : List String) (hns : ns.Nodup) (hinfo : ∀ n ∈ ns, (o.exogInfo.lookup n).isSome) (m : Pm)
    (hdis : ∀ n ∈ ns, n ∉ m.entries.map Entry.short) (dflt : Entry) :
    ns.foldlM (fun m n =>
      if n ∈ m.entries.map Entry.short then .ok m
      else match o.exogInfo.lookup n with
        | none => .error .keyError
        | some e => m.add { e with short := n }) m =
      Except.ok { m with entries := m.entries ++ ns.map fun n => { ((o.exogInfo.lookup n).getD dflt) with short := n } } := by
  induction ns generalizing m with
  | nil => simp [pure, Except.pure]
  | cons n ns ih =>
    obtain ⟨e, he⟩ := Option.isSome_iff_exists.1 (hinfo n (by simp))
    rw [List.nodup_cons] at hns
    have hn : n ∉ m.entries.map Entry.short := hdis n (by simp)
    simp only [List.foldlM_cons, he, Pm.add]
    rw [if_neg hn, if_neg hn]
    have := ih hns.2 (fun k hk => hinfo k (by simp [hk])) { m with entries := m.entries ++ [{ e with short := n }] } (by
        intro k hk
        simp only [List.map_append, List.map_cons, List.map_nil, List.mem_append, List.mem_singleton, not_or]
        exact ⟨hdis k (by simp [hk]), fun h => hns.1 (h ▸ hk)⟩)
    refine Eq.trans this ?_
    simp [he]

/-! ### C142 -/

/-- C142. Before a build, every function that rebuilds the graph raises: the dims found at build time are not there. -/
theorem C142_before_build (floatX : String) (o : Obj) (scenario : List (String × ℕ)) (h : o.fitDims = none) (n : String)
    (ns : List String) (hp : o.paramNames = n :: ns) (ty : Ty) (hr : o.vars.lookup n = some ty) :
    dummyMatrices floatX o scenario = .error .attributeError := by
  have : dummy floatX o ⟨"", []⟩ = .error .attributeError := by
    simp only [dummy, hp, List.foldlM_cons, hr, h]
    rfl
  simp only [dummyMatrices, this]
  rfl

/-- C142. After a successful build the graph can be rebuilt, in a new model, whatever the scenario.  It has one flat variable
for each parameter, of the placeholder's type and with the dims the parameter had in the user's model, and one data container
for each data name, holding the scenario's value or else the value at the time of the build; nothing else.  The matrices are
those of the build. -/
theorem C142_rebuild (floatX : String) (o o' : Obj) (m : Pm) (data : ℕ) (rest : Except Err Unit)
    (scenario : List (String × ℕ)) (hw : Spec.WellFormed o) (hm : (m.entries.map Entry.short).Nodup) (h : m.pre = "")
    (hb : build o m data rest = (o', none))
    (hreg : ∀ n ∈ o.paramNames, ∃ ty, (n, ty) ∈ o.vars) (hdt : ∀ p ∈ o.vars, p.2.dtype = floatX)
    (hpn : o.paramNames.Nodup) (hdn : o.dataNames.Nodup) (hdis : ∀ n ∈ o.paramNames, n ∉ o.dataNames) :
    ∃ m2 s, dummyMatrices floatX o' scenario = .ok (m2, s) ∧ unpack o' = .ok s ∧ m2.pre = "" ∧
      m2.entries.map Entry.short = o.paramNames ++ o.dataNames ∧
      (∀ n ∈ o.paramNames, ∃ e ∈ m2.entries, ∃ e0 ∈ m.entries, e.short = n ∧ e0.short = n ∧ e.kind = .rv ∧
        (n, e.ty) ∈ o.vars ∧ e.dims = e0.dims) ∧
      (∀ n ∈ o.dataNames, ∃ e ∈ m2.entries, ∃ e0 ∈ m.entries, e.short = n ∧ e0.short = n ∧ e.ty = e0.ty ∧
        e.dims = e0.dims ∧ (∀ v, scenario.lookup n = some v → e.kind = .data v) ∧
        (scenario.lookup n = none → e.kind = e0.kind)) := by
  obtain ⟨hrest, ho'⟩ := build_success hw.vars_declared hw.datas_declared hm h hb
  have hfits : Spec.Fits o m := by
    rw [← C138_build_iff o m data hw hm h, ← hrest, hb]
  have hlook : ∀ n ∈ o.paramNames, ∃ ty, o.vars.lookup n = some ty ∧ (n, ty) ∈ o.vars ∧ ({ ty with dtype := floatX } : Ty) = ty := by
    intro n hn
    obtain ⟨ty, hty⟩ := hreg n hn
    refine ⟨ty, lookup_mem hw.vars_nodup hty, hty, ?_⟩
    have := hdt _ hty
    simp only at this
    rw [← this]
  -- the dummy variables
  have hd : dummy floatX o' ⟨"", []⟩ = .ok ⟨"", o.paramNames.map (dummyEntry floatX o' m.varDims)⟩ := by
    have := dummy_fold floatX o' m.varDims (by rw [ho']) o.paramNames hpn (by
      intro n hn
      obtain ⟨ty, h1, -, -⟩ := hlook n hn
      rw [ho']; simp [h1]) ⟨"", []⟩ (by simp)
    simp only [List.nil_append] at this
    have e2 : o'.paramNames = o.paramNames := by rw [ho']
    rw [← this, ← e2]
    rfl
  have hshort : (o.paramNames.map (dummyEntry floatX o' m.varDims)).map Entry.short = o.paramNames := by
    rw [List.map_map]
    exact (List.map_congr_left (g := id) fun n _ => rfl).trans (List.map_id _)
  -- the parameters
  have hnd1 : ((⟨"", o.paramNames.map (dummyEntry floatX o' m.varDims)⟩ : Pm).entries.map Entry.short).Nodup := by
    show (List.map Entry.short _).Nodup
    rw [hshort]; exact hpn
  have hentTy : ∀ n ∈ o.paramNames, (n, (dummyEntry floatX o' m.varDims n).ty) ∈ o.vars := by
    intro n hn
    obtain ⟨ty, h1, h2, h3⟩ := hlook n hn
    have : o'.vars = o.vars := by rw [ho']
    simp only [dummyEntry, this, h1, Option.getD_some, h3]
    exact h2
  have tyRefl : ∀ t : Ty, Spec.TypeOk t t := by
    intro t
    refine ⟨rfl, rfl, ?_⟩
    intro i x y hx hy
    rw [hx] at hy
    simpa using hy
  have hs1 : insertRandom o' ⟨"", o.paramNames.map (dummyEntry floatX o' m.varDims)⟩ =
      .ok (o.matrices.map fun M => M.subst (swap .param (o.vars.map Prod.fst))) := by
    have e1 : o'.vars = o.vars := by rw [ho']
    have e2 : o'.paramNames = o.paramNames := by rw [ho']
    have e3 : o'.matrices = o.matrices := by rw [ho']
    rw [insertRandom_ok (by rw [e1, e2]; exact hw.vars_declared) hnd1 rfl]
    rw [e1, e2, e3]
    refine ⟨?_, hfits.paramsUsed, ?_, rfl⟩
    · intro n hn
      exact ⟨_, List.mem_map.2 ⟨n, hn, rfl⟩, rfl⟩
    · intro p hp e he hes
      obtain ⟨n, hn, rfl⟩ := List.mem_map.1 he
      have hnp : n = p.1 := hes
      have h1 := hentTy n hn
      rw [hnp] at h1
      have : p.2 = (dummyEntry floatX o' m.varDims p.1).ty := by
        have a := lookup_mem hw.vars_nodup h1
        have b := lookup_mem hw.vars_nodup (n := p.1) (b := p.2) hp
        rw [a] at b
        exact (Option.some.inj b).symm
      rw [hnp, this]
      exact tyRefl _
  -- the data
  have hinfo : ∀ n ∈ o.dataNames, ∃ e ∈ m.entries, e.short = n ∧ o'.exogInfo.lookup n = some e := by
    intro n hn
    obtain ⟨e, he, hes, -⟩ := hfits.datas n hn
    refine ⟨e, he, hes, ?_⟩
    have hx : o'.exogInfo = o.dataNames.filterMap fun n => (m.attr n).map fun e => (n, e) := by rw [ho']
    rw [hx]
    apply lookup_mem
    · have hall : ∀ k ∈ o.dataNames, ∃ e, m.attr k = some e := by
        intro k hk
        obtain ⟨e, he, hes, -⟩ := hfits.datas k hk
        exact ⟨e, hes ▸ attr_mem hm he⟩
      have : (o.dataNames.filterMap fun n => (m.attr n).map fun e => (n, e)).map Prod.fst = o.dataNames := by
        rw [List.map_filterMap]
        have : ∀ ks : List String, (∀ k ∈ ks, ∃ e, m.attr k = some e) →
            ks.filterMap (fun n => Option.map Prod.fst ((m.attr n).map fun e => (n, e))) = ks := by
          intro ks hks
          induction ks with
          | nil => rfl
          | cons k ks ih =>
            obtain ⟨e, he⟩ := hks k (by simp)
            simp only [List.filterMap_cons, he, Option.map_some, List.cons.injEq, true_and]
            exact ih fun k' hk' => hks k' (by simp [hk'])
        exact this _ hall
      rw [this]; exact hdn
    · rw [List.mem_filterMap]
      exact ⟨n, hn, by rw [← hes, attr_mem hm he]; rfl⟩
  have hdn' : o'.dataNames = o.dataNames := by rw [ho']
  have hex : addExog o' ⟨"", o.paramNames.map (dummyEntry floatX o' m.varDims)⟩ =
      .ok ⟨"", o.paramNames.map (dummyEntry floatX o' m.varDims) ++
        o.dataNames.map fun n => { ((o'.exogInfo.lookup n).getD ⟨"", .rv, ⟨"", []⟩, none⟩) with short := n }⟩ := by
    simp only [addExog, hdn']
    refine exog_fold o' o.dataNames hdn ?_ ⟨"", o.paramNames.map (dummyEntry floatX o' m.varDims)⟩ ?_ _
    · intro n hn
      obtain ⟨e, -, -, he⟩ := hinfo n hn
      rw [he]; rfl
    · intro n hn
      show n ∉ List.map Entry.short _
      rw [hshort]
      exact fun hc => hdis n hc hn
  have hshort2 : ((o.paramNames.map (dummyEntry floatX o' m.varDims) ++
        o.dataNames.map fun n => { ((o'.exogInfo.lookup n).getD ⟨"", .rv, ⟨"", []⟩, none⟩) with short := n }).map
        Entry.short) = o.paramNames ++ o.dataNames := by
    rw [List.map_append, hshort, List.map_map]
    congr 1
    exact (List.map_congr_left (g := id) fun n _ => rfl).trans (List.map_id _)
  have hdatEnt : ∀ n ∈ o.dataNames, ∃ e ∈ m.entries, e.short = n ∧
      ({ ((o'.exogInfo.lookup n).getD ⟨"", .rv, ⟨"", []⟩, none⟩) with short := n } : Entry) = e := by
    intro n hn
    obtain ⟨e, he, hes, hl⟩ := hinfo n hn
    refine ⟨e, he, hes, ?_⟩
    rw [hl, Option.getD_some, ← hes]
  have hused : ∀ p ∈ o.datas, ∃ M ∈ o.matrices.map fun M => M.subst (swap .param (o.vars.map Prod.fst)), Leaf.data p.1 ∈ M.leaves := by
    intro p hp
    obtain ⟨M, hM, hl⟩ := hfits.datasUsed p hp
    refine ⟨_, List.mem_map.2 ⟨M, hM, rfl⟩, ?_⟩
    rw [leaves_subst, List.mem_map]
    exact ⟨_, hl, swap_other (by simp)⟩
  have hs2 : insertData { o' with subbed := some (o.matrices.map fun M => M.subst (swap .param (o.vars.map Prod.fst))) }
      ⟨"", o.paramNames.map (dummyEntry floatX o' m.varDims) ++
        o.dataNames.map fun n => { ((o'.exogInfo.lookup n).getD ⟨"", .rv, ⟨"", []⟩, none⟩) with short := n }⟩
      (o.matrices.map fun M => M.subst (swap .param (o.vars.map Prod.fst))) =
      .ok ((o.matrices.map fun M => M.subst (swap .param (o.vars.map Prod.fst))).map fun M =>
        M.subst (swap .data (o.datas.map Prod.fst))) := by
    have e1 : o'.datas = o.datas := by rw [ho']
    rw [insertData_ok (by show ∀ p ∈ o'.datas, p.1 ∈ o'.dataNames; rw [e1, hdn']; exact hw.datas_declared) (by
      show (List.map Entry.short _).Nodup
      rw [hshort2, List.nodup_append]
      exact ⟨hpn, hdn, fun a ha b hb hab => hdis a ha (hab ▸ hb)⟩) rfl]
    simp only [e1, hdn']
    refine ⟨?_, hused, ?_, trivial⟩
    · intro n hn
      exact ⟨_, List.mem_append_right _ (List.mem_map.2 ⟨n, hn, rfl⟩), rfl⟩
    · intro p hp e he hes
      rcases List.mem_append.1 he with he | he
      · obtain ⟨n, hn, rfl⟩ := List.mem_map.1 he
        have : n = p.1 := hes
        exact absurd (hw.datas_declared p hp) (this ▸ hdis n hn)
      · obtain ⟨n, hn, rfl⟩ := List.mem_map.1 he
        obtain ⟨e, he, hes', heq⟩ := hdatEnt n hn
        have : n = p.1 := hes
        rw [heq]
        exact hfits.dataTypes p hp e he (hes'.trans this)
  refine ⟨setScenario o' scenario ⟨"", o.paramNames.map (dummyEntry floatX o' m.varDims) ++
      o.dataNames.map fun n => { ((o'.exogInfo.lookup n).getD ⟨"", .rv, ⟨"", []⟩, none⟩) with short := n }⟩,
    (o.matrices.map fun M => M.subst (swap .param (o.vars.map Prod.fst))).map fun M =>
        M.subst (swap .data (o.datas.map Prod.fst)), ?_, ?_, rfl, ?_, ?_, ?_⟩
  · simp only [dummyMatrices, hd]
    show (insertRandom o' _ >>= _) = _
    rw [hs1]
    show (addExog o' _ >>= _) = _
    rw [hex]
    show (insertData _ _ _ >>= _) = _
    rw [hs2]
    rfl
  · rw [ho']
    simp only [unpack, List.map_map, Function.comp_def]
  · simp only [setScenario, List.map_map]
    rw [← hshort2]
    apply List.map_congr_left
    intro e _
    simp only [Function.comp_apply]
    split_ifs
    · split <;> rfl
    · rfl
  · intro n hn
    obtain ⟨e0, he0, hes0⟩ := hfits.params n hn
    refine ⟨dummyEntry floatX o' m.varDims n, ?_, e0, he0, rfl, hes0, rfl, hentTy n hn, ?_⟩
    · simp only [setScenario, List.mem_map]
      refine ⟨dummyEntry floatX o' m.varDims n, List.mem_append_left _ (List.mem_map.2 ⟨n, hn, rfl⟩), ?_⟩
      rw [if_neg]
      rw [hdn']
      exact hdis n hn
    · show m.varDims.lookup n = e0.dims
      rw [← hes0]
      exact lookup_varDims hm h he0
  · intro n hn
    obtain ⟨e0, he0, hes0, heq⟩ := hdatEnt n hn
    refine ⟨match scenario.lookup n with
      | some v => { e0 with kind := .data v }
      | none => e0, ?_, e0, he0, ?_, hes0, ?_, ?_, ?_, ?_⟩
    · simp only [setScenario, List.mem_map]
      refine ⟨e0, List.mem_append_right _ (List.mem_map.2 ⟨n, hn, heq⟩), ?_⟩
      rw [if_pos (by rw [hdn', hes0]; exact hn), hes0]
      cases scenario.lookup n <;> rfl
    · split <;> exact hes0
    · split <;> rfl
    · split <;> rfl
    · intro v hv; rw [hv]
    · intro hv; rw [hv]

example : ∃ o', build Example.obj Example.pm 3 (.ok ()) = (o', none) ∧
    (dummyMatrices "float64" o' [("exog", 12)]).toOption.map (fun r => r.1.entries.map fun e => (e.short, e.kind, e.dims)) =
      some [("rho", .rv, some ["ar_lag"]), ("sigma", .rv, none), ("exog", .data 12, some ["time", "exog_state"])] :=
  ⟨_, rfl, by rfl⟩

/-! ### C144: the fill value after estimation -/

/-- C144. If the data have a missing cell and also a real observation equal to the default fill value, the documented remedy, a
fill value of one's own that does not occur in the data, lets the model be built; but every function that conditions on the
data afterwards registers them again with the default fill value, and raises. -/
theorem C144_fill_value_forgotten {α : Type} [DecidableEq α] (dflt fill : α) (x : Data.Input α) (nObs : ℕ)
    (oc : List String) (reg : Bool) (hs : Data.Spec.shapeOk nObs x)
    (hmiss : ∃ t i c, Data.Spec.cell (Data.Spec.table x) t i = some c ∧ Data.Spec.NotFinite c)
    (hreal : ∃ t i, Data.Spec.cell (Data.Spec.table x) t i = some (.val dflt))
    (hfree : ∀ t i, Data.Spec.cell (Data.Spec.table x) t i ≠ some (.val fill)) :
    (∃ out, fitRegister dflt x nObs oc reg (some fill) .absent = .ok out) ∧
    ∀ tc, conditionalRegister dflt none x nObs oc tc = .error .collision := by
  constructor
  · cases hmm : Data.maskMissing dflt (some fill) (Data.Spec.table x) with
    | error e =>
      have he : e = .collision := by
        simp only [Data.maskMissing] at hmm
        split_ifs at hmm
        cases hmm; rfl
      rw [he, Data.C24_mask_error_iff] at hmm
      obtain ⟨-, t, i, h⟩ := hmm
      exact absurd h (hfree t i)
    | ok r =>
      refine ⟨⟨r.1, r.2, if reg then .values (Data.Spec.labels x) else .absent⟩, ?_⟩
      rw [fitRegister, Data.C84_register_ok_iff]
      refine ⟨hs, hmm, ?_, ?_⟩
      · intro hr; simp [hr]
      · intro hr; simp [hr]
  · intro tc
    have hmm := (Data.C24_mask_error_iff dflt none (Data.Spec.table x)).2 ⟨hmiss, hreal⟩
    simp only [conditionalRegister, Option.getD_none, Data.register]
    rw [Data.preprocess_ok.2 ⟨hs, rfl⟩]
    simp only [hmm]

/-- C144. Without a missing cell the data are accepted both times, but the mask of the filter differs: what was observed at
the fit is treated as missing afterwards. -/
theorem C144_observed_becomes_missing (dflt fill : ℝ) (hne : fill ≠ dflt) {p : Type} (y : Kalman.Row p) (j : p)
    (hy : y j = some dflt) : ¬ Kalman.nanMask fill y j ∧ Kalman.nanMask dflt y j := by
  constructor
  · rintro (h | h)
    · rw [hy] at h; cases h
    · rw [hy] at h
      exact hne (Option.some.inj h).symm
  · exact Or.inr hy

example : (∃ out, fitRegister (-9999 : ℤ) (.frame ["a"] (.dates [10, 11]) [[.val (-9999)], [.nan]]) 1 ["a"] true (some 5) .absent = .ok out)
    ∧ conditionalRegister (-9999 : ℤ) none (.frame ["a"] (.dates [10, 11]) [[.val (-9999)], [.nan]]) 1 ["a"] .absent =
      .error .collision := ⟨⟨_, rfl⟩, rfl⟩

/-- C144. Data given to a function that conditions afterwards are the ones registered; those kept from the fit are used only when
none are given. -/
theorem C144_given_data {α : Type} [DecidableEq α] (dflt : α) (x kept : Data.Input α) (nObs : ℕ) (oc : List String)
    (tc : Data.TimeCoord) :
    (conditionalRegister dflt (some x) kept nObs oc tc = conditionalRegister dflt none x nObs oc tc) ∧
    ∀ out, conditionalRegister dflt (some x) kept nObs oc tc = .ok out →
      Data.maskMissing dflt none (Data.Spec.table x) = .ok (out.data, out.mask) := by
  refine ⟨rfl, fun out h => ?_⟩
  simp only [conditionalRegister, Option.getD_some, Data.C84_register_ok_iff] at h
  exact h.2.1

end Verif.Registry
