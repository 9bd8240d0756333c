import Verif.Marginal.GraphLemmas

/-! # Soundness of the dimension analysis: invariant and its preservation -/

set_option autoImplicit false
set_option linter.unusedSectionVars false

namespace Marginal

variable {V : Type} {n : ℕ}

/-- Coordinates `i` of the marginalised variable that agree with position `idx` of a tensor on every
axis reported as known. Proof notion, no code behind it. -/
def Matches (ds : Dims) (idx : ℕ → ℕ) (i : Fin n → ℕ) : Prop :=
  ∀ (j : ℕ) (d : Fin n), ds[j]? = some (some d.val) → i d = idx j

/-- Each entry depends on the marginalised variable only through its entries with matching
coordinates. Proof notion, no code behind it. -/
def OnlyMatching (ds : Dims) (t : Tn V n) : Prop :=
  ∀ (x x' : (Fin n → ℕ) → V) (idx : ℕ → ℕ),
    (∀ i, Matches ds idx i → x i = x' i) → t.entry x idx = t.entry x' idx

/-- The tensor does not depend on the marginalised variable. Proof notion, no code behind it. -/
def Indep (t : Tn V n) : Prop := ∀ (x x' : (Fin n → ℕ) → V) (idx : ℕ → ℕ), t.entry x idx = t.entry x' idx

/-- The invariant of the analysis for one variable. Proof notion, no code behind it. -/
def Good (r : ℕ) (ds : Dims) (t : Tn V n) : Prop :=
  ds.length = r ∧
    (((ds.filterMap id).Perm (List.range n) ∧ OnlyMatching ds t) ∨
     ((∀ e ∈ ds, e = none) ∧ Indep t))

/-- Conditions on a node under which the analysis of that node is claimed to be sound: graph
well-formedness (as guaranteed by the tensor library), and the three exclusions named in the
property: no known axis of length one is broadcast or dropped, and no known dimension `0` is
reduced. Hypothesis of the soundness theorem, no code behind it. -/
def SafeNode (ndim : ℕ → ℕ) (vd : VarDims) (env : ℕ → Tn V n) (nd : Node V) : Prop :=
  vd nd.out = none ∧
  match nd.op with
  | .dimshuffle order =>
      ∃ u, nd.ins = [u] ∧ ndim nd.out = order.length ∧ (order.filterMap id).Nodup ∧
        -- no known axis is dropped
        ∀ (a d : ℕ), (getDims ndim vd u)[a]? = some (some d) → some a ∈ order
  | .blockwise sym B core outShape _ =>
      core.length = nd.ins.length ∧ B ≤ ndim nd.out ∧
      ∀ vc ∈ nd.ins.zip core, (∃ d, some d ∈ getDims ndim vd vc.1) →
        vc.2 ≤ ndim vc.1 ∧ ndim vc.1 ≤ B + vc.2 ∧ (sym = false → ndim vc.1 = B + vc.2) ∧
        -- no known axis is broadcast
        ∀ (a d : ℕ), (getDims ndim vd vc.1)[a]? = some (some d) →
          ¬ ((env vc.1).shape a = 1 ∧ outShape (a + (B - (ndim vc.1 - vc.2))) ≠ 1)
  | .reduce axes _ =>
      ∃ u, nd.ins = [u] ∧
        ndim nd.out = ((List.range (ndim u)).filter (fun a => !axes.contains a)).length ∧
        -- no reduction of known dimension 0
        ∀ a ∈ axes, (getDims ndim vd u)[a]? ≠ some (some 0)
  | .subtensor keys =>
      ∃ u rest, nd.ins = u :: rest ∧
        ndim nd.out = ((List.range (ndim u)).filter (fun a => (keyAt keys a).keeps)).length ∧
        (∀ v, Key.int v ∈ keys → v ∈ rest) ∧ ∀ v ∈ rest, ndim v = 0
  | .advanced keys blockShape =>
      ∃ u rest, nd.ins = u :: rest ∧ keys.length ≤ ndim u ∧ keys.any (·.isArr) = true ∧
        rest = keys.filterMap AKey.var ∧
        ndim nd.out = ((List.range (ndim u)).filter (fun a => !(akeyAt keys a).isArr)).length
          + advNdim ndim keys ∧
        -- no known axis of an index array is broadcast
        ∀ v, AKey.arr v ∈ keys → ∀ (a d : ℕ), (getDims ndim vd v)[a]? = some (some d) →
          ¬ ((env v).shape a = 1 ∧ blockShape (a + (advNdim ndim keys - ndim v)) ≠ 1)
  | .other => True

/-- Good variables without known dims are independent of the marginalised variable (when it has at
least one axis). -/
theorem Good.indep {r : ℕ} {ds : Dims} {t : Tn V n} (h : Good r ds t) (hn : 0 < n)
    (hnone : ∀ e ∈ ds, e = none) : Indep t := by
  rcases h.2 with h | h
  · exfalso
    have : (0 : ℕ) ∈ ds.filterMap id := h.1.mem_iff.2 (List.mem_range.2 hn)
    rw [List.mem_filterMap] at this
    obtain ⟨e, he, h0⟩ := this
    rw [hnone e he] at h0
    simp at h0
  · exact h.2

theorem onlyMatching_zero {ds : Dims} (t : Tn V 0) : OnlyMatching ds t := by
  intro x x' idx h
  have : x = x' := funext fun i => h i (fun _ d => d.elim0)
  rw [this]

theorem perm_zero_of_none {ds : Dims} (h : ∀ e ∈ ds, e = none) :
    (ds.filterMap id).Perm (List.range 0) := by
  have : ds.filterMap id = [] := by
    rw [List.filterMap_eq_nil_iff]
    intro e he
    rw [h e he]; rfl
  rw [this]
  exact List.Perm.refl _

theorem good_of_indep {r : ℕ} {t : Tn V n} (h : Indep t) : Good r (List.replicate r none) t :=
  ⟨by simp, Or.inr ⟨fun e he => (List.mem_replicate.1 he).2, h⟩⟩

/-- The output of a node all of whose inputs are independent is independent. -/
theorem evalNode_indep (toNat : V → ℕ) (dflt : V) (ndim : ℕ → ℕ) (vd : VarDims) (env : ℕ → Tn V n)
    (nd : Node V) (hs : SafeNode ndim vd env nd) (h : ∀ v ∈ nd.ins, Indep (env v)) :
    Indep (evalNode toNat dflt ndim env nd) := by
  intro x x' idx
  unfold evalNode
  obtain ⟨op, ins, out⟩ := nd
  cases op with
  | dimshuffle order =>
    obtain ⟨_, u, hu, _⟩ := hs
    simp only at hu
    subst hu
    exact h u (by simp) _ _ _
  | blockwise sym B core outShape f =>
    simp only
    congr 1
    apply List.map_congr_left
    intro vc hvc
    funext c
    exact h vc.1 (List.of_mem_zip hvc).1 _ _ _
  | reduce axes red =>
    obtain ⟨_, u, hu, _⟩ := hs
    simp only at hu
    subst hu
    simp only
    congr 1
    funext r
    exact h u (by simp) _ _ _
  | subtensor keys =>
    obtain ⟨_, u, rest, hu, _, hk, _⟩ := hs
    simp only at hu
    subst hu
    simp only
    have hkk : ∀ a v, keyAt keys a = Key.int v → v ∈ rest := by
      intro a v hav
      unfold keyAt at hav
      rw [List.getD_eq_getElem?_getD] at hav
      cases hh : keys[a]? with
      | none => rw [hh] at hav; simp at hav
      | some k => rw [hh] at hav; simp at hav; exact hk v (hav ▸ List.mem_of_getElem? hh)
    have hu' : ∀ i i' : ℕ → ℕ, i = i' →
        (env u).entry x i = (env u).entry x' i' := by
      rintro i _ rfl
      exact h u (by simp) _ _ _
    apply hu'
    funext a
    cases hka : keyAt keys a with
    | full => rfl
    | part s t => rfl
    | int v =>
      simp only []
      rw [h v (by simp [hkk a v hka]) x x']
  | advanced keys blockShape =>
    obtain ⟨_, u, rest, hu, _, _, hr, _⟩ := hs
    simp only at hu
    subst hu
    simp only
    have hkk : ∀ a v, akeyAt keys a = AKey.arr v → v ∈ rest := by
      intro a v hav
      unfold akeyAt at hav
      rw [List.getD_eq_getElem?_getD] at hav
      cases hh : keys[a]? with
      | none => rw [hh] at hav; simp at hav
      | some k =>
        rw [hh] at hav; simp at hav
        rw [hr, List.mem_filterMap]
        exact ⟨k, List.mem_of_getElem? hh, by rw [hav]; rfl⟩
    have hu' : ∀ i i' : ℕ → ℕ, i = i' →
        (env u).entry x i = (env u).entry x' i' := by
      rintro i _ rfl
      exact h u (by simp) _ _ _
    apply hu'
    funext a
    cases hka : akeyAt keys a with
    | full => rfl
    | arr v =>
      simp only []
      rw [h v (by simp [hkk a v hka]) x x']
  | other => rfl

/-! ### Preservation, operation by operation -/

/-- A variable with a known dim is fully tracked. -/
theorem Good.tracked {r : ℕ} {ds : Dims} {t : Tn V n} (h : Good r ds t) {d : ℕ}
    (hd : some d ∈ ds) : (ds.filterMap id).Perm (List.range n) ∧ OnlyMatching ds t := by
  rcases h.2 with h | h
  · exact h
  · exact absurd (h.1 _ hd) (by simp)

theorem Good.lt {r : ℕ} {ds : Dims} {t : Tn V n} (h : Good r ds t) {d : ℕ}
    (hd : some d ∈ ds) : d < n :=
  List.mem_range.1 ((h.tracked hd).1.mem_iff.1 (List.mem_filterMap.2 ⟨some d, hd, rfl⟩))

theorem good_dimshuffle {r : ℕ} {ds : Dims} {t t' : Tn V n} (order : List (Option ℕ))
    (h : (ds.filterMap id).Perm (List.range n) ∧ OnlyMatching ds t)
    (hr : r = order.length) (hnd : (order.filterMap id).Nodup)
    (hall : ∀ (a d : ℕ), ds[a]? = some (some d) → some a ∈ order)
    (ht : ∀ x idx, t'.entry x idx = t.entry x (fun a =>
          match order.idxOf? (some a) with
          | some j => idx j
          | none => 0)) :
    Good r (order.map (fun o => o.bind (fun i => ds.getD i none))) t' := by
  have hnodup : (ds.filterMap id).Nodup := h.1.nodup_iff.2 List.nodup_range
  have hget : ∀ (j d : ℕ), (order.map (fun o => o.bind (fun i => ds.getD i none)))[j]? = some (some d) →
      ∃ a : ℕ, order[j]? = some (some a) ∧ ds[a]? = some (some d) := by
    intro j d hj
    rw [List.getElem?_map] at hj
    cases ho : order[j]? with
    | none => rw [ho] at hj; simp at hj
    | some o =>
      rw [ho] at hj
      cases o with
      | none => simp at hj
      | some a =>
        simp only [Option.map_some, Option.bind_some, Option.some.injEq] at hj
        exact ⟨a, rfl, getD_none_some hj⟩
  have hback : ∀ (j a d : ℕ), order[j]? = some (some a) → ds[a]? = some (some d) →
      (order.map (fun o => o.bind (fun i => ds.getD i none)))[j]? = some (some d) := by
    intro j a d h1 h2
    rw [List.getElem?_map, h1]
    exact congrArg some (getD_of_some h2)
  have hinj : ∀ (j j' a : ℕ), order[j]? = some (some a) → order[j']? = some (some a) → j = j' :=
    fun j j' a h1 h2 => known_pos_unique hnd h1 h2
  have hidx : ∀ (j a : ℕ), order[j]? = some (some a) → order.idxOf? (some a) = some j := by
    intro j a hj
    cases hh : order.idxOf? (some a) with
    | none =>
      rw [List.idxOf?_eq_none_iff] at hh
      exact absurd (List.mem_of_getElem? hj) hh
    | some j' =>
      rw [List.idxOf?_eq_some_iff] at hh
      obtain ⟨hlt, he, _⟩ := hh
      have : order[j']? = some (some a) := by rw [List.getElem?_eq_getElem hlt, he]
      rw [hinj j j' a hj this]
  refine ⟨by simp [hr], Or.inl ⟨?_, ?_⟩⟩
  · rw [List.perm_ext_iff_of_nodup _ List.nodup_range]
    · intro d
      rw [← h.1.mem_iff, mem_known, mem_known]
      constructor
      · rintro ⟨j, hj⟩
        obtain ⟨a, _, ha⟩ := hget j d hj
        exact ⟨a, ha⟩
      · rintro ⟨a, ha⟩
        obtain ⟨j, hj, he⟩ := List.getElem_of_mem (hall a d ha)
        exact ⟨j, hback j a d (by rw [List.getElem?_eq_getElem hj, he]) ha⟩
    · -- no duplicates
      rw [List.filterMap_map]
      have hm : order.filterMap (id ∘ fun o => o.bind (fun i => ds.getD i none))
          = (order.filterMap id).filterMap (fun i => ds.getD i none) := by
        rw [List.filterMap_filterMap]
        rfl
      rw [hm]
      apply hnd.filterMap
      intro a a' d h1 h2
      rw [Option.mem_def] at h1 h2
      exact known_pos_unique hnodup (getD_none_some h1) (getD_none_some h2)
  · intro x x' idx hx
    rw [ht, ht]
    apply h.2
    intro i hm
    apply hx
    intro j d hj
    obtain ⟨a, h1, h2⟩ := hget j d hj
    have := hm a d h2
    rw [this]
    show (match order.idxOf? (some a) with | some j => idx j | none => 0) = idx j
    rw [hidx j a h1]

theorem good_keep {r : ℕ} {ds : Dims} {t t' : Tn V n} (keep : ℕ → Bool)
    (h : (ds.filterMap id).Perm (List.range n) ∧ OnlyMatching ds t)
    (hr : r = ((List.range ds.length).filter keep).length)
    (hk : ∀ (a d : ℕ), ds[a]? = some (some d) → keep a = true)
    (ht : ∀ (x x' : (Fin n → ℕ) → V) idx,
      (∀ src : ℕ → ℕ, (∀ (a d : ℕ), ds[a]? = some (some d) → src a = idx (keptBefore keep a)) →
        t.entry x src = t.entry x' src) → t'.entry x idx = t'.entry x' idx) :
    Good r (keepFrom keep 0 ds) t' := by
  have hkn := keepFrom_known keep ds 0 (fun a d ha => by simpa using hk a d ha)
  refine ⟨by rw [keepFrom_length, hr]; simp, Or.inl ⟨by rw [hkn]; exact h.1, ?_⟩⟩
  intro x x' idx hx
  apply ht
  intro src hsrc
  apply h.2
  intro i hm
  apply hx
  intro j d hj
  obtain ⟨a, h1, _, h3⟩ := keepFrom_get0 keep ds j _ hj
  rw [hm a d h1, hsrc a d h1, h3]

theorem known_append_none (l : Dims) (k : ℕ) :
    (l ++ List.replicate k none).filterMap id = l.filterMap id := by
  rw [List.filterMap_append]
  have : (List.replicate k (none : Option ℕ)).filterMap id = [] := by
    rw [List.filterMap_eq_nil_iff]
    intro e he
    rw [(List.mem_replicate.1 he).2]; rfl
  rw [this, List.append_nil]

theorem known_none_append (l : Dims) (k : ℕ) :
    (List.replicate k none ++ l).filterMap id = l.filterMap id := by
  rw [List.filterMap_append]
  have : (List.replicate k (none : Option ℕ)).filterMap id = [] := by
    rw [List.filterMap_eq_nil_iff]
    intro e he
    rw [(List.mem_replicate.1 he).2]; rfl
  rw [this, List.nil_append]

theorem get_append_none {l : Dims} {k j d : ℕ}
    (h : (l ++ List.replicate k none)[j]? = some (some d)) : l[j]? = some (some d) := by
  by_cases hj : j < l.length
  · rwa [List.getElem?_append_left hj] at h
  · rw [List.getElem?_append_right (by omega), List.getElem?_replicate] at h
    split at h <;> simp at h

theorem get_none_append {l : Dims} {k j d : ℕ}
    (h : (List.replicate k none ++ l)[j]? = some (some d)) :
    ∃ a, l[a]? = some (some d) ∧ j = k + a := by
  by_cases hj : j < k
  · rw [List.getElem?_append_left (by simpa using hj), List.getElem?_replicate] at h
    simp [hj] at h
  · rw [List.getElem?_append_right (by simpa using hj)] at h
    simp only [List.length_replicate] at h
    exact ⟨_, h, by omega⟩

/-- Broadcasting several inputs, each read at a position that agrees with the output position on its
known axes.  `off k` is the axis of the broadcast result holding axis `0` of input `k`. -/
theorem good_broadcast {ι : Type} {b : Dims} {t' : Tn V n} (l : List ι)
    (dims : ι → Dims) (tens : ι → Tn V n) (rank off : ι → ℕ)
    (hgood : ∀ k ∈ l, Good (rank k) (dims k) (tens k))
    (hsome : ∃ k ∈ l, ∃ d, some d ∈ dims k)
    (hnd : (b.filterMap id).Nodup)
    (hfwd : ∀ k ∈ l, ∀ (a d : ℕ), (dims k)[a]? = some (some d) → b[a + off k]? = some (some d))
    (hbwd : ∀ (j d : ℕ), b[j]? = some (some d) → ∃ k ∈ l, some d ∈ dims k)
    (ht : ∀ (x x' : (Fin n → ℕ) → V) idx,
      (∀ k ∈ l, ∀ src : ℕ → ℕ,
        (∀ (a d : ℕ), (dims k)[a]? = some (some d) → src a = idx (a + off k)) →
          (tens k).entry x src = (tens k).entry x' src) → t'.entry x idx = t'.entry x' idx) :
    (b.filterMap id).Perm (List.range n) ∧ OnlyMatching b t' := by
  constructor
  · rw [List.perm_ext_iff_of_nodup hnd List.nodup_range]
    intro d
    rw [mem_known, List.mem_range]
    constructor
    · rintro ⟨j, hj⟩
      obtain ⟨k, hk, hd⟩ := hbwd j d hj
      exact (hgood k hk).lt hd
    · intro hd
      obtain ⟨k, hk, d0, hd0⟩ := hsome
      have := ((hgood k hk).tracked hd0).1.mem_iff.2 (List.mem_range.2 hd)
      obtain ⟨a, ha⟩ := mem_known.1 this
      exact ⟨_, hfwd k hk a d ha⟩
  · intro x x' idx hx
    apply ht
    intro k hk src hsrc
    rcases (hgood k hk).2 with h | h
    · apply h.2
      intro i hm
      apply hx
      intro j d hj
      obtain ⟨a, ha⟩ := mem_known.1 (h.1.mem_iff.2 (List.mem_range.2 d.2))
      have hpos : j = a + off k := known_pos_unique hnd hj (hfwd k hk a d ha)
      rw [hm a d ha, hsrc a d ha, hpos]
    · exact h.2 _ _ _

theorem onlyMatching_congr {b b' : Dims} {t : Tn V n}
    (h : OnlyMatching b t) (hb : ∀ (j d : ℕ), b'[j]? = some (some d) → b[j]? = some (some d)) :
    OnlyMatching b' t := by
  intro x x' idx hx
  apply h
  intro i hm
  apply hx
  intro j d hj
  exact hm j d (hb j d hj)

theorem good_blockwise (ndim : ℕ → ℕ) (vd : VarDims) (env : ℕ → Tn V n)
    (hg : ∀ v, Good (ndim v) (getDims ndim vd v) (env v))
    (sym : Bool) (B : ℕ) (core : List ℕ) (outShape : ℕ → ℕ) (ins : List ℕ) (r : ℕ) (b : Dims)
    (t' : Tn V n)
    (hlen : core.length = ins.length) (hB : B ≤ r)
    (hsafe : ∀ vc ∈ ins.zip core, (∃ d, some d ∈ getDims ndim vd vc.1) →
        vc.2 ≤ ndim vc.1 ∧ ndim vc.1 ≤ B + vc.2 ∧ (sym = false → ndim vc.1 = B + vc.2) ∧
        ∀ (a d : ℕ), (getDims ndim vd vc.1)[a]? = some (some d) →
          ¬ ((env vc.1).shape a = 1 ∧ outShape (a + (B - (ndim vc.1 - vc.2))) ≠ 1))
    (hsome : ∃ v ∈ ins, ∃ d, some d ∈ getDims ndim vd v)
    (D : List Dims)
    (hD : D = if sym then List.zipWith (symPad B) (ins.map (getDims ndim vd)) core
      else ins.map (getDims ndim vd))
    (hcore : D.any (fun ds => (ds.drop B).any (·.isSome)) = false)
    (hb : broadcastDims (D.map (·.take B)) = .ok b)
    (ht : ∀ x x' idx,
      (∀ vc ∈ ins.zip core, ∀ c : ℕ → ℕ,
        (env vc.1).entry x (fun a =>
          let p := B - (ndim vc.1 - vc.2)
          if a + p < B then bcast ((env vc.1).shape a) (outShape (a + p)) (idx (a + p))
              else c (a + p - B))
        = (env vc.1).entry x' (fun a =>
          let p := B - (ndim vc.1 - vc.2)
          if a + p < B then bcast ((env vc.1).shape a) (outShape (a + p)) (idx (a + p))
              else c (a + p - B))) → t'.entry x idx = t'.entry x' idx) :
    Good r (b ++ List.replicate (r - B) none) t' := by
  obtain ⟨hbl, hbnd, hbf, hbb⟩ := broadcastDims_ok hb
  set F : ℕ × ℕ → Dims := fun vc =>
    if sym then symPad B (getDims ndim vd vc.1) vc.2 else getDims ndim vd vc.1 with hF
  have hDF : D = (ins.zip core).map F := by
    rw [hD, hF]
    cases sym with
    | true =>
      simp only [if_true]
      rw [List.zipWith_map_left, List.zip_eq_zipWith, List.map_zipWith]
    | false =>
      simp only [Bool.false_eq_true, if_false]
      have : ins = (ins.zip core).map Prod.fst := by
        rw [List.map_fst_zip (by omega)]
      conv_lhs => rw [this]
      rw [List.map_map]
      rfl
  have hpos : ∀ vc ∈ ins.zip core, ∀ (a d : ℕ), (getDims ndim vd vc.1)[a]? = some (some d) →
      (F vc)[a + (B - (ndim vc.1 - vc.2))]? = some (some d) := by
    intro vc hvc a d ha
    have hs := hsafe vc hvc ⟨d, List.mem_of_getElem? ha⟩
    have hl := (hg vc.1).1
    rw [hF]
    cases sym with
    | true =>
      simp only [if_true, symPad]
      rw [List.getElem?_append_right (by rw [List.length_replicate, hl]; omega),
        List.length_replicate, hl]
      simpa using ha
    | false =>
      have := hs.2.2.1 rfl
      simp only [Bool.false_eq_true, if_false]
      have e : a + (B - (ndim vc.1 - vc.2)) = a := by omega
      rw [e]; exact ha
  have hposlt : ∀ vc ∈ ins.zip core, ∀ (a d : ℕ), (getDims ndim vd vc.1)[a]? = some (some d) →
      a + (B - (ndim vc.1 - vc.2)) < B := by
    intro vc hvc a d ha
    by_contra hcon
    have h1 := hpos vc hvc a d ha
    have : D.any (fun ds => (ds.drop B).any (·.isSome)) = true := by
      rw [List.any_eq_true]
      refine ⟨F vc, by rw [hDF]; exact List.mem_map_of_mem hvc, ?_⟩
      rw [List.any_eq_true]
      refine ⟨some d, ?_, rfl⟩
      apply List.mem_of_getElem? (i := a + (B - (ndim vc.1 - vc.2)) - B)
      rw [List.getElem?_drop]
      rw [← h1]; congr 1; omega
    rw [hcore] at this
    exact absurd this (by simp)
  have htake : ∀ vc ∈ ins.zip core, ∀ (a d : ℕ), (getDims ndim vd vc.1)[a]? = some (some d) →
      ((F vc).take B).length = B ∧
      ((F vc).take B)[a + (B - (ndim vc.1 - vc.2))]? = some (some d) := by
    intro vc hvc a d ha
    have hs := hsafe vc hvc ⟨d, List.mem_of_getElem? ha⟩
    have hl := (hg vc.1).1
    refine ⟨?_, ?_⟩
    · rw [List.length_take, hF]
      cases sym with
      | true => simp only [if_true, symPad, List.length_append, List.length_replicate, hl]; omega
      | false =>
        have := hs.2.2.1 rfl
        simp only [Bool.false_eq_true, if_false, hl]; omega
    · rw [List.getElem?_take_of_lt (hposlt vc hvc a d ha)]
      exact hpos vc hvc a d ha
  have hex : ∃ vc ∈ ins.zip core, ∃ d, some d ∈ getDims ndim vd vc.1 := by
    obtain ⟨v, hv, d, hd⟩ := hsome
    obtain ⟨k, hk, hkv⟩ := List.getElem_of_mem hv
    refine ⟨(ins[k], core[k]'(by omega)), ?_, d, by rw [hkv]; exact hd⟩
    rw [List.mem_iff_getElem]
    exact ⟨k, by rw [List.length_zip]; omega, by simp⟩
  have hbB : b.length = B := by
    apply le_antisymm
    · rw [hbl]
      apply foldl_max_le _ _ _ (Nat.zero_le _)
      intro a ha
      rw [List.map_map, List.mem_map] at ha
      obtain ⟨ds, _, rfl⟩ := ha
      simp
    · obtain ⟨vc, hvc, d, hd⟩ := hex
      obtain ⟨a, ha', hae⟩ := List.getElem_of_mem hd
      have ha : (getDims ndim vd vc.1)[a]? = some (some d) := by
        rw [List.getElem?_eq_getElem ha', hae]
      rw [hbl, ← (htake vc hvc a d ha).1]
      apply (foldl_max_ge _ 0).2
      rw [List.map_map, List.mem_map, hDF]
      exact ⟨F vc, List.mem_map_of_mem hvc, by simp⟩
  have key := good_broadcast (b := b) (t' := t') (ins.zip core) (fun vc => getDims ndim vd vc.1)
    (fun vc => env vc.1) (fun vc => ndim vc.1) (fun vc => B - (ndim vc.1 - vc.2))
    (fun vc _ => hg vc.1) hex hbnd
    (by
      intro vc hvc a d ha
      obtain ⟨h1, h2⟩ := htake vc hvc a d ha
      have := hbf ((F vc).take B) (by rw [hDF, List.map_map]; exact List.mem_map_of_mem hvc) _ d h2
      rw [h1, hbB, Nat.sub_self, Nat.add_zero] at this
      exact this)
    (by
      intro j d hj
      obtain ⟨ds, hds, a, ha, _⟩ := hbb j d hj
      rw [hDF, List.map_map, List.mem_map] at hds
      obtain ⟨vc, hvc, rfl⟩ := hds
      refine ⟨vc, hvc, ?_⟩
      have h1 : some d ∈ F vc := List.mem_of_mem_take (List.mem_of_getElem? ha)
      rw [hF] at h1
      cases sym with
      | true =>
        simp only [if_true, symPad] at h1
        rcases List.mem_append.1 h1 with h1 | h1
        · exact absurd (List.mem_replicate.1 h1).2 (by simp)
        · exact h1
      | false => simpa using h1)
    (by
      intro x x' idx h
      apply ht
      intro vc hvc c
      apply h vc hvc
      intro a d ha
      have hlt := hposlt vc hvc a d ha
      have hs := hsafe vc hvc ⟨d, List.mem_of_getElem? ha⟩
      simp only [if_pos hlt]
      rw [bcast, if_neg (hs.2.2.2 a d ha)])
  refine ⟨by simp [hbB, hB], Or.inl ⟨by rw [known_append_none]; exact key.1, ?_⟩⟩
  exact onlyMatching_congr key.2 (fun j d hj => get_append_none hj)

end Marginal
