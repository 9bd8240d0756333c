import Verif.Marginal.GraphSound

/-! # Soundness of the dimension analysis: array indexing and whole graphs -/

set_option autoImplicit false
set_option linter.unusedSectionVars false

namespace Marginal

variable {V : Type} {n : ℕ}

theorem filter_range_prefix (keep : ℕ → Bool) (m L : ℕ) (hL : L ≤ m) (h : ∀ a < L, keep a = true) :
    L ≤ ((List.range m).filter keep).length := by
  have hsub : (List.range L).Sublist (List.range m) := List.range_sublist.2 hL
  have h2 := (hsub.filter keep).length_le
  rwa [List.filter_eq_self.2 (fun a ha => h a (List.mem_range.1 ha)), List.length_range] at h2

theorem takeWhile_full (keys : List AKey) (a : ℕ)
    (h : a < (keys.takeWhile (fun k => !k.isArr)).length) : (akeyAt keys a).isArr = false := by
  unfold akeyAt
  induction keys generalizing a with
  | nil => simp at h
  | cons k ks ih =>
    by_cases hk : k.isArr
    · simp [List.takeWhile, hk] at h
    · cases a with
      | zero => simpa using hk
      | succ a =>
        simp only [List.takeWhile, hk, Bool.not_false, List.length_cons] at h
        simpa using ih a (by omega)

theorem advAxisSpec_le (keys : List AKey) (m : ℕ) (hm : keys.length ≤ m) :
    advAxisSpec keys ≤ ((List.range m).filter (fun a => !(akeyAt keys a).isArr)).length := by
  unfold advAxisSpec
  simp only []
  split
  · exact Nat.zero_le _
  · apply filter_range_prefix
    · exact le_trans (List.takeWhile_sublist _).length_le hm
    · intro a ha
      simp [takeWhile_full keys a ha]

theorem advNdim_eq (ndim : ℕ → ℕ) (vd : VarDims)
    (hl : ∀ v, (getDims ndim vd v).length = ndim v) (keys : List AKey) : ∀ m,
    ((keys.map (akeyDims ndim vd)).map List.length).foldl max m
      = ((keys.filterMap AKey.var).map ndim).foldl max m := by
  induction keys with
  | nil => intro m; rfl
  | cons k ks ih =>
    intro m
    cases k with
    | full =>
      simp only [List.map_cons, akeyDims, List.length_nil, List.foldl_cons, Nat.max_zero]
      rw [ih]
      rfl
    | arr v =>
      simp only [List.map_cons, akeyDims, List.foldl_cons, hl]
      rw [ih]
      rfl

theorem akeyAt_arr {keys : List AKey} {a v : ℕ} (h : akeyAt keys a = AKey.arr v) :
    AKey.arr v ∈ keys := by
  unfold akeyAt at h
  rw [List.getD_eq_getElem?_getD] at h
  cases hh : keys[a]? with
  | none => rw [hh] at h; simp at h
  | some k => rw [hh] at h; simp at h; exact h ▸ List.mem_of_getElem? hh

theorem keyAt_int {keys : List Key} {a v : ℕ} (h : keyAt keys a = Key.int v) :
    Key.int v ∈ keys := by
  unfold keyAt at h
  rw [List.getD_eq_getElem?_getD] at h
  cases hh : keys[a]? with
  | none => rw [hh] at h; simp at h
  | some k => rw [hh] at h; simp at h; exact h ▸ List.mem_of_getElem? hh

theorem good_advanced (toNat : V → ℕ) (ndim : ℕ → ℕ) (vd : VarDims) (env : ℕ → Tn V n)
    (hg : ∀ v, Good (ndim v) (getDims ndim vd v) (env v))
    (keys : List AKey) (blockShape : ℕ → ℕ) (u r : ℕ) (b : Dims) (t' : Tn V n)
    (hkl : keys.length ≤ ndim u) (harr : keys.any (·.isArr) = true)
    (hr : r = ((List.range (ndim u)).filter (fun a => !(akeyAt keys a).isArr)).length
          + advNdim ndim keys)
    (hsafe : ∀ v, AKey.arr v ∈ keys → ∀ (a d : ℕ), (getDims ndim vd v)[a]? = some (some d) →
          ¬ ((env v).shape a = 1 ∧ blockShape (a + (advNdim ndim keys - ndim v)) ≠ 1))
    (hsome : (∃ d, some d ∈ getDims ndim vd u) ∨
      ∃ v, AKey.arr v ∈ keys ∧ ∃ d, some d ∈ getDims ndim vd v)
    (hb : advancedDims (getDims ndim vd u) (keys.map (akeyDims ndim vd)) keys
      (advNdim ndim keys) r = .ok b)
    (ht : ∀ x idx, t'.entry x idx = (env u).entry x (fun a =>
          match akeyAt keys a with
          | .full => idx (aroundGroup (advAxisSpec keys) (advNdim ndim keys)
              (keptBefore (fun a => !(akeyAt keys a).isArr) a))
          | .arr v => toNat ((env v).entry x (fun c =>
              let p := advNdim ndim keys - ndim v
              bcast ((env v).shape c) (blockShape (c + p)) (idx (advAxisSpec keys + (c + p))))))) :
    Good r b t' := by
  have hl : ∀ v, (getDims ndim vd v).length = ndim v := fun v => (hg v).1
  have hax := advAxis_eq_spec keys harr
  have haxle := advAxisSpec_le keys (ndim u) hkl
  unfold advancedDims at hb
  rw [hax] at hb
  set ds := getDims ndim vd u with hds
  by_cases hval : ds.any (·.isSome) = true
  · -- the indexed variable is tracked
    obtain ⟨d0, hd0⟩ : ∃ d, some d ∈ ds := by
      rw [List.any_eq_true] at hval
      obtain ⟨e, he, h1⟩ := hval
      cases e with
      | none => simp at h1
      | some d => exact ⟨d, he⟩
    have hn : 0 < n := lt_of_le_of_lt (Nat.zero_le _) ((hg u).lt hd0)
    rw [hval] at hb
    by_cases hkd : (keys.map (akeyDims ndim vd)).any (fun d => d.any (·.isSome)) = true
    · rw [hkd] at hb; simp at hb
    · have hkd' : (keys.map (akeyDims ndim vd)).any (fun d => d.any (·.isSome)) = false := by
        simpa using hkd
      rw [hkd'] at hb
      simp only [Bool.true_and, Bool.false_eq_true, if_false, if_true] at hb
      by_cases hbad : (List.range ds.length).any
          (fun a => (akeyAt keys a).isArr && (ds.getD a none).isSome) = true
      · rw [if_pos hbad] at hb; simp at hb
      · rw [if_neg hbad] at hb
        injection hb with hb
        subst hb
        have hkeep : ∀ (a d : ℕ), ds[a]? = some (some d) → (!(akeyAt keys a).isArr) = true := by
          intro a d ha
          by_contra hcon
          apply hbad
          rw [List.any_eq_true]
          refine ⟨a, ?_, ?_⟩
          · rw [List.mem_range]
            by_contra hc
            rw [List.getElem?_eq_none (by omega)] at ha
            simp at ha
          · rw [getD_of_some ha]
            simpa using hcon
        have hindep : ∀ v, AKey.arr v ∈ keys → Indep (env v) := by
          intro v hv
          apply (hg v).indep hn
          intro e he
          cases e with
          | none => rfl
          | some d =>
            exfalso
            apply hkd
            rw [List.any_eq_true]
            refine ⟨getDims ndim vd v, List.mem_map.2 ⟨AKey.arr v, hv, rfl⟩, ?_⟩
            rw [List.any_eq_true]
            exact ⟨_, he, rfl⟩
        set keep : ℕ → Bool := fun a => !(akeyAt keys a).isArr with hkeepdef
        have htr := (hg u).tracked (hds ▸ hd0)
        have hklen : (keepFrom keep 0 ds).length = ((List.range (ndim u)).filter keep).length := by
          rw [keepFrom_length, hl u]; simp
        have hknown : (keepFrom keep 0 ds).filterMap id = ds.filterMap id :=
          keepFrom_known keep ds 0 (fun a d ha => by rw [Nat.zero_add]; exact hkeep a d ha)
        have hkn2 : ((keepFrom keep 0 ds).take (advAxisSpec keys)
            ++ List.replicate (advNdim ndim keys) none
            ++ (keepFrom keep 0 ds).drop (advAxisSpec keys)).filterMap id = ds.filterMap id := by
          rw [List.filterMap_append, known_append_none, ← List.filterMap_append,
            List.take_append_drop, hknown]
        refine ⟨?_, Or.inl ⟨by rw [hkn2]; exact htr.1, ?_⟩⟩
        · simp only [List.length_append, List.length_take, List.length_replicate, List.length_drop,
            hklen]
          omega
        · intro x x' idx hx
          rw [ht, ht]
          have hsrc : (fun a =>
              match akeyAt keys a with
              | .full => idx (aroundGroup (advAxisSpec keys) (advNdim ndim keys)
                  (keptBefore (fun a => !(akeyAt keys a).isArr) a))
              | .arr v => toNat ((env v).entry x (fun c =>
                  let p := advNdim ndim keys - ndim v
                  bcast ((env v).shape c) (blockShape (c + p)) (idx (advAxisSpec keys + (c + p))))))
            = (fun a =>
              match akeyAt keys a with
              | .full => idx (aroundGroup (advAxisSpec keys) (advNdim ndim keys)
                  (keptBefore (fun a => !(akeyAt keys a).isArr) a))
              | .arr v => toNat ((env v).entry x' (fun c =>
                  let p := advNdim ndim keys - ndim v
                  bcast ((env v).shape c) (blockShape (c + p))
                    (idx (advAxisSpec keys + (c + p)))))) := by
            funext a
            cases hka : akeyAt keys a with
            | full => rfl
            | arr v => simp only []; rw [hindep v (akeyAt_arr hka) x x']
          rw [hsrc]
          apply htr.2
          intro i hm
          apply hx
          intro j d hj
          -- where does the entry at `j` come from
          obtain ⟨p, hp, hjp⟩ : ∃ p : ℕ, (keepFrom keep 0 ds)[p]? = some (some d.val) ∧
              j = aroundGroup (advAxisSpec keys) (advNdim ndim keys) p := by
            have htl : ((keepFrom keep 0 ds).take (advAxisSpec keys)).length = advAxisSpec keys := by
              rw [List.length_take, hklen]; omega
            rw [List.append_assoc] at hj
            by_cases h1 : j < advAxisSpec keys
            · rw [List.getElem?_append_left (by rw [htl]; exact h1),
                List.getElem?_take_of_lt h1] at hj
              exact ⟨j, hj, by rw [aroundGroup, if_pos h1]⟩
            · rw [List.getElem?_append_right (by rw [htl]; omega), htl] at hj
              obtain ⟨a, ha, hja⟩ := get_none_append hj
              rw [List.getElem?_drop] at ha
              refine ⟨advAxisSpec keys + a, ha, ?_⟩
              rw [aroundGroup, if_neg (by omega)]
              omega
          obtain ⟨a, h1, h2, h3⟩ := keepFrom_get0 keep ds p _ hp
          have := hm a d h1
          rw [this, hjp, h3]
          have hfull : akeyAt keys a = .full := by
            cases hka : akeyAt keys a with
            | full => rfl
            | arr v => rw [hkeepdef] at h2; simp [hka, AKey.isArr] at h2
          show (match akeyAt keys a with
              | .full => idx (aroundGroup (advAxisSpec keys) (advNdim ndim keys)
                  (keptBefore (fun a => !(akeyAt keys a).isArr) a))
              | .arr v => toNat ((env v).entry x' (fun c =>
                  let p := advNdim ndim keys - ndim v
                  bcast ((env v).shape c) (blockShape (c + p))
                    (idx (advAxisSpec keys + (c + p)))))) = _
          rw [hfull]
  · -- the index arrays are tracked
    have hval' : ds.any (·.isSome) = false := by simpa using hval
    have hnone : ∀ e ∈ ds, e = none := by
      intro e he
      cases e with
      | none => rfl
      | some d =>
        exfalso; apply hval
        rw [List.any_eq_true]
        exact ⟨_, he, rfl⟩
    obtain ⟨v0, hv0, d0, hd0⟩ : ∃ v, AKey.arr v ∈ keys ∧ ∃ d, some d ∈ getDims ndim vd v := by
      rcases hsome with ⟨d, hd⟩ | h
      · exact absurd (hnone _ hd) (by simp)
      · exact h
    have hn : 0 < n := lt_of_le_of_lt (Nat.zero_le _) ((hg v0).lt hd0)
    rw [hval'] at hb
    simp only [Bool.false_and, Bool.false_eq_true, if_false] at hb
    cases hbc : broadcastDims (keys.map (akeyDims ndim vd)) with
    | error e => rw [hbc] at hb; exact absurd hb (by simp [bind, Except.bind])
    | ok adv =>
      rw [hbc] at hb
      change Except.ok _ = Except.ok b at hb
      injection hb with hb
      obtain ⟨hbl, hbnd, hbf, hbb⟩ := broadcastDims_ok hbc
      have hgl : adv.length = advNdim ndim keys := by
        rw [hbl, advNdim_eq ndim vd hl keys 0]; rfl
      have hindepu : Indep (env u) := (hg u).indep hn hnone
      -- the block seen as a tensor of its own
      have hout : ∀ (j d : ℕ), b[j]? = some (some d) →
          ∃ a, adv[a]? = some (some d) ∧ j = advAxisSpec keys + a := by
        intro j d hj
        rw [← hb] at hj
        exact get_none_append (get_append_none hj)
      have hin : ∀ (a d : ℕ), adv[a]? = some (some d) →
          b[advAxisSpec keys + a]? = some (some d) := by
        intro a d ha
        have hal : a < adv.length := by
          by_contra hc
          rw [List.getElem?_eq_none (by omega)] at ha
          simp at ha
        rw [← hb, List.getElem?_append_left (by simp; omega),
          List.getElem?_append_right (by simp)]
        simpa using ha
      have hkn : b.filterMap id = adv.filterMap id := by
        rw [← hb, known_append_none, known_none_append]
      have key := good_broadcast (b := b) (t' := t') (keys.filterMap AKey.var)
        (fun v => getDims ndim vd v) env ndim
        (fun v => advAxisSpec keys + (advNdim ndim keys - ndim v))
        (fun v _ => hg v)
        ⟨v0, List.mem_filterMap.2 ⟨_, hv0, rfl⟩, d0, hd0⟩ (by rw [hkn]; exact hbnd)
        (by
          intro v hv a d ha
          rw [List.mem_filterMap] at hv
          obtain ⟨k, hk, hkv⟩ := hv
          have hkk : k = AKey.arr v := by
            cases k with
            | full => simp [AKey.var] at hkv
            | arr w => simp [AKey.var] at hkv; rw [hkv]
          subst hkk
          have := hbf (getDims ndim vd v) (List.mem_map.2 ⟨_, hk, rfl⟩) a d ha
          rw [hl, hgl] at this
          have h2 := hin _ d this
          rw [← h2]; congr 1; omega)
        (by
          intro j d hj
          obtain ⟨a, ha, _⟩ := hout j d hj
          obtain ⟨ds', hds', a', ha', _⟩ := hbb a d ha
          rw [List.mem_map] at hds'
          obtain ⟨k, hk, rfl⟩ := hds'
          cases k with
          | full => simp [akeyDims] at ha'
          | arr v =>
            exact ⟨v, List.mem_filterMap.2 ⟨_, hk, rfl⟩, List.mem_of_getElem? ha'⟩)
        (by
          intro x x' idx h
          rw [ht, ht]
          rw [hindepu x x']
          congr 1
          funext a
          cases hka : akeyAt keys a with
          | full => rfl
          | arr v =>
            have hv := akeyAt_arr hka
            simp only []
            rw [h v (List.mem_filterMap.2 ⟨_, hv, rfl⟩)]
            intro c d hc
            rw [bcast, if_neg (hsafe v hv c d hc)]
            congr 1; omega)
      refine ⟨?_, Or.inl key⟩
      rw [← hb]
      simp only [List.length_append, List.length_replicate, hgl]
      omega

/-- One step of the analysis keeps the invariant. -/
theorem good_node (toNat : V → ℕ) (dflt : V) (ndim : ℕ → ℕ) (vd : VarDims) (env : ℕ → Tn V n)
    (nd : Node V) (hs : SafeNode ndim vd env nd)
    (hg : ∀ v, Good (ndim v) (getDims ndim vd v) (env v)) (od : Option Dims)
    (h : nodeDims ndim vd nd = .ok od) :
    Good (ndim nd.out) (od.getD (List.replicate (ndim nd.out) none))
      (evalNode toNat dflt ndim env nd) := by
  unfold nodeDims at h
  simp only [] at h
  by_cases hall : (nd.ins.map (getDims ndim vd)).all (fun ds => ds.all (fun d => d.isNone)) = true
  · rw [if_pos hall] at h
    injection h with h
    subst h
    have hnone : ∀ v ∈ nd.ins, ∀ e ∈ getDims ndim vd v, e = none := by
      intro v hv e he
      rw [List.all_eq_true] at hall
      have := hall _ (List.mem_map_of_mem hv)
      rw [List.all_eq_true] at this
      simpa using this e he
    rcases Nat.eq_zero_or_pos n with hn | hn
    · subst hn
      refine ⟨by simp, Or.inl ⟨perm_zero_of_none (fun e he => ?_), onlyMatching_zero _⟩⟩
      exact (List.mem_replicate.1 he).2
    · exact good_of_indep (evalNode_indep toNat dflt ndim vd env nd hs
        (fun v hv => (hg v).indep hn (hnone v hv)))
  · rw [if_neg hall] at h
    have hsome : ∃ v ∈ nd.ins, ∃ d, some d ∈ getDims ndim vd v := by
      by_contra hcon
      apply hall
      rw [List.all_eq_true]
      intro ds hds
      rw [List.mem_map] at hds
      obtain ⟨v, hv, rfl⟩ := hds
      rw [List.all_eq_true]
      intro e he
      cases e with
      | none => rfl
      | some d => exact absurd ⟨v, hv, d, he⟩ hcon
    obtain ⟨op, ins, out⟩ := nd
    cases op with
    | dimshuffle order =>
      obtain ⟨_, u, hu, hr, hnd, hdrop⟩ := hs
      simp only at hu hr hnd hdrop h hsome
      subst hu
      injection h with h
      subst h
      obtain ⟨v, hv, d, hd⟩ := hsome
      rw [List.mem_singleton] at hv
      subst hv
      exact good_dimshuffle order ((hg v).tracked hd) hr hnd hdrop (fun x idx => rfl)
    | blockwise sym B core outShape f =>
      obtain ⟨_, hlen, hB, hsafe⟩ := hs
      simp only at hlen hB hsafe h hsome
      set D := (if sym = true then List.zipWith (symPad B) (ins.map (getDims ndim vd)) core
        else ins.map (getDims ndim vd)) with hD
      by_cases hcore : D.any (fun ds => (ds.drop B).any (·.isSome)) = true
      · rw [if_pos hcore] at h; simp at h
      · rw [if_neg hcore] at h
        cases hb : broadcastDims (D.map (·.take B)) with
        | error e => rw [hb] at h; exact absurd h (by simp [bind, Except.bind])
        | ok b =>
          rw [hb] at h
          change Except.ok _ = Except.ok od at h
          injection h with h
          subst h
          refine good_blockwise ndim vd env hg sym B core outShape ins (ndim out) b _ hlen hB hsafe
            hsome D hD (by simpa using hcore) hb ?_
          intro x x' idx hvc
          show f _ _ = f _ _
          congr 1
          apply List.map_congr_left
          intro vc hmem
          funext c
          exact hvc vc hmem c
    | reduce axes red =>
      obtain ⟨_, u, hu, hr, hz⟩ := hs
      simp only at hu hr hz h hsome
      subst hu
      obtain ⟨v, hv, d, hd⟩ := hsome
      rw [List.mem_singleton] at hv
      subst hv
      simp only [List.map_cons, List.map_nil, List.getD_cons_zero] at h
      by_cases hbad : (axes.any fun a => truthy ((getDims ndim vd v).getD a none)) = true
      · rw [if_pos hbad] at h; simp at h
      · rw [if_neg hbad] at h
        injection h with h
        subst h
        refine good_keep (fun a => !axes.contains a) ((hg v).tracked hd) (by rw [hr, (hg v).1]) ?_ ?_
        · intro a e ha
          by_contra hcon
          have hmem : a ∈ axes := by simpa using hcon
          apply hbad
          rw [List.any_eq_true]
          refine ⟨a, hmem, ?_⟩
          rw [getD_of_some ha]
          have : e ≠ 0 := by
            rintro rfl
            exact hz a hmem ha
          simpa [truthy] using this
        · intro x x' idx hsrc
          show red _ _ = red _ _
          congr 1
          funext r
          apply hsrc
          intro a e ha
          have hmem : ¬ axes.contains a = true := by
            intro hcon
            apply hbad
            rw [List.any_eq_true]
            refine ⟨a, by simpa using hcon, ?_⟩
            rw [getD_of_some ha]
            have : e ≠ 0 := by
              rintro rfl
              exact hz a (by simpa using hcon) ha
            simpa [truthy] using this
          rw [if_neg hmem]
    | subtensor keys =>
      obtain ⟨_, u, rest, hu, hr, hk, hk0⟩ := hs
      simp only at hu hr hk hk0 h hsome
      subst hu
      have hrest : ∀ v ∈ rest, getDims ndim vd v = [] := by
        intro v hv
        have := (hg v).1
        rw [hk0 v hv] at this
        exact List.length_eq_zero_iff.1 this
      obtain ⟨v, hv, d, hd⟩ := hsome
      have hvu : v = u := by
        rcases List.mem_cons.1 hv with h1 | h1
        · exact h1
        · rw [hrest v h1] at hd; simp at hd
      subst hvu
      have hn : 0 < n := lt_of_le_of_lt (Nat.zero_le _) ((hg v).lt hd)
      simp only [List.map_cons, List.getD_cons_zero] at h
      unfold subtensorDims at h
      by_cases hbad : (List.range (getDims ndim vd v).length).any
          (fun a => keyAt keys a != .full && ((getDims ndim vd v).getD a none).isSome) = true
      · rw [if_pos hbad] at h
        exact absurd h (by simp [bind, Except.bind])
      · rw [if_neg hbad] at h
        change Except.ok _ = Except.ok od at h
        injection h with h
        subst h
        have hfull : ∀ (a d : ℕ), (getDims ndim vd v)[a]? = some (some d) → keyAt keys a = .full := by
          intro a e ha
          by_contra hcon
          apply hbad
          rw [List.any_eq_true]
          refine ⟨a, ?_, ?_⟩
          · rw [List.mem_range]
            by_contra hc
            rw [List.getElem?_eq_none (by omega)] at ha
            simp at ha
          · rw [getD_of_some ha]
            simpa using hcon
        refine good_keep (fun a => (keyAt keys a).keeps) ((hg v).tracked hd) (by rw [hr, (hg v).1])
          ?_ ?_
        · intro a e ha
          simp [hfull a e ha, Key.keeps]
        · intro x x' idx hsrc
          have hidx : ∀ i i' : ℕ → ℕ, i = i' → (∀ (a e : ℕ),
              (getDims ndim vd v)[a]? = some (some e) →
                i a = idx (keptBefore (fun a => (keyAt keys a).keeps) a)) →
              (env v).entry x i = (env v).entry x' i' := by
            rintro i _ rfl hi
            exact hsrc i hi
          apply hidx
          · funext a
            cases hka : keyAt keys a with
            | full => rfl
            | part s t => rfl
            | int w =>
              simp only []
              have hw := hk w (keyAt_int hka)
              have : Indep (env w) := (hg w).indep hn (by rw [hrest w hw]; simp)
              rw [this x x']
          · intro a e ha
            rw [hfull a e ha]
    | advanced keys blockShape =>
      obtain ⟨_, u, rest, hu, hkl, harr, hrest, hr, hsafe⟩ := hs
      simp only at hu hkl harr hrest hr hsafe h hsome
      subst hu
      simp only [List.map_cons, List.getD_cons_zero] at h
      cases hb : advancedDims (getDims ndim vd u) (keys.map (akeyDims ndim vd)) keys
          (advNdim ndim keys) (ndim out) with
      | error e => rw [hb] at h; exact absurd h (by simp [bind, Except.bind])
      | ok b =>
        rw [hb] at h
        change Except.ok _ = Except.ok od at h
        injection h with h
        subst h
        refine good_advanced toNat ndim vd env hg keys blockShape u (ndim out) b _ hkl harr hr hsafe
          ?_ hb (fun x idx => rfl)
        obtain ⟨v, hv, d, hd⟩ := hsome
        rcases List.mem_cons.1 hv with h1 | h1
        · subst h1; exact Or.inl ⟨d, hd⟩
        · right
          rw [hrest, List.mem_filterMap] at h1
          obtain ⟨k, hk, hkv⟩ := h1
          have hkk : k = AKey.arr v := by
            cases k with
            | full => simp [AKey.var] at hkv
            | arr w => simp [AKey.var] at hkv; rw [hkv]
          exact ⟨v, hkk ▸ hk, d, hd⟩
    | other => simp only at h; exact absurd h (by simp)

/-- `SafeNode` along the whole graph, each node judged in the state it is reached in.
Hypothesis of the soundness theorem, no code behind it. -/
def SafeGraph (toNat : V → ℕ) (dflt : V) (ndim : ℕ → ℕ) :
    List (Node V) → VarDims → (ℕ → Tn V n) → Prop
  | [], _, _ => True
  | nd :: g, vd, env =>
      SafeNode ndim vd env nd ∧
      ∀ vd', stepDims ndim vd nd = .ok vd' →
        SafeGraph toNat dflt ndim g vd'
          (fun u => if u = nd.out then evalNode toNat dflt ndim env nd else env u)

/-- The invariant along the whole graph. -/
theorem good_graph (toNat : V → ℕ) (dflt : V) (ndim : ℕ → ℕ) (g : List (Node V)) :
    ∀ (vd vd' : VarDims) (env : ℕ → Tn V n),
    SafeGraph toNat dflt ndim g vd env →
    (∀ v, Good (ndim v) (getDims ndim vd v) (env v)) →
    analyse ndim g vd = .ok vd' →
    ∀ v, Good (ndim v) (getDims ndim vd' v) (run toNat dflt ndim g env v) := by
  induction g with
  | nil =>
    intro vd vd' env _ hg h
    injection h with h
    subst h
    exact hg
  | cons nd g ih =>
    intro vd vd' env hs hg h
    rw [analyse] at h
    cases h1 : stepDims ndim vd nd with
    | error e => rw [h1] at h; exact absurd h (by simp [bind, Except.bind])
    | ok vd1 =>
      rw [h1] at h
      change analyse ndim g vd1 = .ok vd' at h
      rw [run]
      refine ih vd1 vd' _ (hs.2 vd1 h1) ?_ h
      unfold stepDims at h1
      cases h2 : nodeDims ndim vd nd with
      | error e => rw [h2] at h1; exact absurd h1 (by simp [bind, Except.bind])
      | ok od =>
        rw [h2] at h1
        have hgood := good_node toNat dflt ndim vd env nd hs.1 hg od h2
        have hfresh := hs.1.1
        cases od with
        | none =>
          change Except.ok vd = Except.ok vd1 at h1
          injection h1 with h1
          subst h1
          intro v
          by_cases hv : v = nd.out
          · subst hv
            simp only [if_true]
            have e : getDims ndim vd nd.out = List.replicate (ndim nd.out) none := by
              rw [getDims, hfresh]; rfl
            rw [e]
            exact hgood
          · simp only [if_neg hv]
            exact hg v
        | some d =>
          change Except.ok (setDims vd nd.out d) = Except.ok vd1 at h1
          injection h1 with h1
          subst h1
          intro v
          by_cases hv : v = nd.out
          · subst hv
            simp only [if_true]
            have e : getDims ndim (setDims vd nd.out d) nd.out = d := by
              simp [getDims, setDims]
            rw [e]
            exact hgood
          · simp only [if_neg hv]
            have e : getDims ndim (setDims vd nd.out d) v = getDims ndim vd v := by
              simp [getDims, setDims, hv]
            rw [e]
            exact hg v

end Marginal
