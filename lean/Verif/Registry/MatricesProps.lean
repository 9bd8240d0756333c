import Verif.Registry.Matrices
import Verif.Registry.DummyProps
import Verif.Structural.Meta

/-!
C168: sampling the statespace matrices.
-/

set_option autoImplicit false

namespace Verif.Registry

/-- Specification: a built model: `o'` is the object after a successful build of `o` in a PyMC model without a name, with the
nine matrices, all parameters registered under distinct names of the default dtype. -/
structure Spec.Built (floatX : String) (o o' : Obj) : Prop where
  wellFormed : Spec.WellFormed o
  nine : o.matrices.length = 9
  built : ∃ (m : Pm) (data : ℕ) (rest : Except Err Unit), (m.entries.map Entry.short).Nodup ∧ m.pre = "" ∧
    build o m data rest = (o', none)
  registered : ∀ n ∈ o.paramNames, ∃ ty, (n, ty) ∈ o.vars
  dtype : ∀ p ∈ o.vars, p.2.dtype = floatX
  params_nodup : o.paramNames.Nodup
  data_nodup : o.dataNames.Nodup
  disjoint : ∀ n ∈ o.paramNames, n ∉ o.dataNames

/-- Specification: `n` is one of the two names of the `i`-th matrix. -/
def Spec.Names (n : String) (i : ℕ) : Prop := ∃ p, shortLong[i]? = some p ∧ (n = p.1 ∨ n = p.2)

/-- Specification: the names already in use in the model the matrices are put into: parameters and data. -/
def Spec.inUse (o : Obj) : List String := o.paramNames ++ o.dataNames

theorem built_dummy {floatX : String} {o o' : Obj} (h : Spec.Built floatX o o') :
    ∃ m s, dummyMatrices floatX o' [] = .ok (m, s) ∧ unpack o' = .ok s ∧ m.entries.map Entry.short = Spec.inUse o ∧
      s.length = 9 := by
  obtain ⟨m, data, rest, hm, hp, hb⟩ := h.built
  obtain ⟨m2, s, h1, h2, -, h3, -⟩ := C142_rebuild floatX o o' m data rest [] h.wellFormed hm hp hb h.registered h.dtype
    h.params_nodup h.data_nodup h.disjoint
  obtain ⟨s', hs', hv⟩ := C138_build_values o o' m data rest h.wellFormed hm hp hb
  have : s' = s := by rw [h2] at hs'; exact (Except.ok.inj hs').symm
  subst this
  refine ⟨m2, s', h1, h2, h3, ?_⟩
  have := congrArg List.length (hv (V := Unit) (fun _ => ()) (fun _ _ _ => ()) (fun _ => ()))
  simpa [h.nine] using this

theorem sample_eq {floatX : String} {o o' : Obj} (h : Spec.Built floatX o o') (coords : List String)
    (req : Option (List String)) (group : String) (hg : group = "posterior" ∨ group = "prior") :
    ∃ s, unpack o' = .ok s ∧ s.length = 9 ∧ sampleMatrices floatX o' coords req group =
      match addMatrices (req.getD (shortLong.map Prod.fst)) coords (Spec.inUse o) (shortLong.zip s) with
      | .error e => .error e
      | .ok dets => lookupAll dets (Spec.inUse o) (req.getD (shortLong.map Prod.fst)) := by
  obtain ⟨m, s, h1, h2, h3, h4⟩ := built_dummy h
  refine ⟨s, h2, h4, ?_⟩
  unfold sampleMatrices
  rw [if_neg (by rcases hg with rfl | rfl <;> simp), h1]
  simp only [h3]
  rfl

theorem addMatrices_dup (req coords : List String) : ∀ (l : List ((String × String) × Expr)) (taken : List String)
    (n : String), n ∈ taken → (∃ e ∈ l, chosen req e.1 = some n) → addMatrices req coords taken l = .error .duplicateName
  | [], _, _, _, h => by obtain ⟨e, he, -⟩ := h; simp at he
  | (p, e) :: l, taken, n, hn, h => by
    rw [addMatrices]
    cases hc : chosen req p with
    | none =>
      refine addMatrices_dup req coords l taken n hn ?_
      obtain ⟨e', he', hce⟩ := h
      rcases List.mem_cons.mp he' with rfl | he'
      · simp [hc] at hce
      · exact ⟨e', he', hce⟩
    | some k =>
      simp only
      split
      · rfl
      · rename_i hk
        have : addMatrices req coords (k :: taken) l = .error .duplicateName := by
          refine addMatrices_dup req coords l (k :: taken) n (by simp [hn]) ?_
          obtain ⟨e', he', hce⟩ := h
          rcases List.mem_cons.mp he' with rfl | he'
          · rw [hc] at hce
            cases hce
            exact absurd hn hk
          · exact ⟨e', he', hce⟩
        rw [this]

/-- The registered matrices, when no name is in use. -/
def dets (req coords : List String) (l : List ((String × String) × Expr)) : List (String × Drawn) :=
  l.filterMap fun e => (chosen req e.1).map fun n => (n, .matrix e.2 (labelsOf coords e.1.1))

theorem addMatrices_ok (req coords : List String) : ∀ (l : List ((String × String) × Expr)) (taken : List String),
    (∀ e ∈ l, ∀ n, chosen req e.1 = some n → n ∉ taken) →
    (l.filterMap fun e => chosen req e.1).Nodup → addMatrices req coords taken l = .ok (dets req coords l)
  | [], _, _, _ => rfl
  | (p, e) :: l, taken, h, hd => by
    rw [addMatrices]
    cases hc : chosen req p with
    | none =>
      simp only
      rw [addMatrices_ok req coords l taken (fun e he => h e (by simp [he])) (by simpa [hc] using hd)]
      simp [dets, hc]
    | some k =>
      simp only [List.filterMap_cons, hc, List.nodup_cons] at hd
      simp only
      rw [if_neg (h (p, e) (by simp) k hc), addMatrices_ok req coords l (k :: taken) ?_ hd.2]
      · simp [dets, hc]
      · intro e' he' n hn
        rw [List.mem_cons, not_or]
        refine ⟨?_, h e' (by simp [he']) n hn⟩
        rintro rfl
        exact hd.1 (List.mem_filterMap.mpr ⟨e', he', hn⟩)

theorem chosen_names {req : List String} {p : String × String} {n : String} (h : chosen req p = some n) :
    (n = p.1 ∨ n = p.2) ∧ n ∈ req := by
  unfold chosen at h
  split at h
  · cases h; exact ⟨Or.inr rfl, by assumption⟩
  · split at h
    · cases h; exact ⟨Or.inl rfl, by assumption⟩
    · cases h

theorem names_apart : shortLong.Pairwise fun p q => p.1 ≠ q.1 ∧ p.1 ≠ q.2 ∧ p.2 ≠ q.1 ∧ p.2 ≠ q.2 := by
  decide +kernel

theorem names_nodup (req : List String) : (shortLong.filterMap (chosen req)).Nodup := by
  rw [List.Nodup, List.pairwise_filterMap]
  refine names_apart.imp ?_
  rintro p q ⟨h1, h2, h3, h4⟩ n hn k hk
  rcases (chosen_names hn).1 with rfl | rfl <;> rcases (chosen_names hk).1 with rfl | rfl <;> assumption

theorem zip_filterMap (req : List String) (s : List Expr) (hs : s.length = 9) :
    ((shortLong.zip s).filterMap fun e => chosen req e.1) = shortLong.filterMap (chosen req) := by
  have : (shortLong.zip s).map Prod.fst = shortLong := List.map_fst_zip (by rw [hs]; decide)
  conv_rhs => rw [← this, List.filterMap_map]
  rfl

theorem names_same {i j : ℕ} {p q : String × String} (hp : shortLong[i]? = some p) (hq : shortLong[j]? = some q)
    (h : p.1 = q.1 ∨ p.1 = q.2 ∨ p.2 = q.1 ∨ p.2 = q.2) : i = j := by
  have hpw := List.pairwise_iff_getElem.mp names_apart
  obtain ⟨hi, rfl⟩ := List.getElem?_eq_some_iff.mp hp
  obtain ⟨hj, rfl⟩ := List.getElem?_eq_some_iff.mp hq
  rcases Nat.lt_trichotomy i j with hl | hl | hl
  · have := hpw i j hi hj hl
    tauto
  · exact hl
  · obtain ⟨a, b, c, d⟩ := hpw j i hj hi hl
    rcases h with h | h | h | h
    · exact absurd h.symm a
    · exact absurd h.symm c
    · exact absurd h.symm b
    · exact absurd h.symm d

theorem lookup_of_mem {V : Type} : ∀ (l : List (String × V)) (n : String) (v : V), (l.map Prod.fst).Nodup → (n, v) ∈ l →
    l.lookup n = some v
  | [], _, _, _, h => by simp at h
  | (k, w) :: l, n, v, hd, h => by
    simp only [List.map_cons, List.nodup_cons] at hd
    rcases List.mem_cons.mp h with h' | h'
    · cases h'; simp [List.lookup]
    · have : n ≠ k := fun hnk => hd.1 (hnk ▸ List.mem_map_of_mem (f := Prod.fst) h')
      rw [List.lookup_cons, beq_eq_false_iff_ne.mpr this]
      exact lookup_of_mem l n v hd.2 h'

theorem dets_names (req coords : List String) (s : List Expr) (hs : s.length = 9) :
    (dets req coords (shortLong.zip s)).map Prod.fst = shortLong.filterMap (chosen req) := by
  rw [← zip_filterMap req s hs, dets, List.map_filterMap]
  congr 1
  funext e
  cases chosen req e.1 <;> rfl

theorem dets_lookup (req coords : List String) (s : List Expr) (hs : s.length = 9) (i : ℕ) (p : String × String) (n : String)
    (hp : shortLong[i]? = some p) (hc : chosen req p = some n) :
    ∃ e, s[i]? = some e ∧
      (dets req coords (shortLong.zip s)).lookup n = some (.matrix e (labelsOf coords p.1)) := by
  have hi : i < 9 := by
    have := (List.getElem?_eq_some_iff.mp hp).1
    exact this
  have hsi : s[i]? = some s[i] := by simp [hs, hi]
  refine ⟨s[i], hsi, ?_⟩
  apply lookup_of_mem
  · rw [dets_names req coords s hs]; exact names_nodup req
  · refine List.mem_filterMap.mpr ⟨(p, s[i]), ?_, by simp [hc]⟩
    exact List.mem_of_getElem? (List.getElem?_zip_eq_some.mpr ⟨hp, hsi⟩)

theorem dets_none (req coords : List String) (s : List Expr) (hs : s.length = 9) (n : String)
    (h : ∀ p ∈ shortLong, chosen req p ≠ some n) : (dets req coords (shortLong.zip s)).lookup n = none := by
  rw [List.lookup_eq_none_iff]
  intro e he
  have : e.1 ∈ shortLong.filterMap (chosen req) := by
    rw [← dets_names req coords s hs]; exact List.mem_map_of_mem he
  obtain ⟨p, hp, hc⟩ := List.mem_filterMap.mp this
  simp only [ne_eq, bne_iff_ne]
  rintro rfl
  exact h p hp hc

theorem lookupAll_ok (ds : List (String × Drawn)) (names : List String) : ∀ (r : List String),
    (∀ n ∈ r, (ds.lookup n).isSome ∨ n ∈ names) → ∃ out, lookupAll ds names r = .ok out ∧ out.map Prod.fst = r ∧
      ∀ n d, (n, d) ∈ out → (ds.lookup n).getD (.variable n) = d
  | [], _ => ⟨[], rfl, rfl, by simp⟩
  | n :: r, h => by
    obtain ⟨out, h1, h2, h3⟩ := lookupAll_ok ds names r fun k hk => h k (by simp [hk])
    have hn : lookupDrawn ds names n = .ok ((ds.lookup n).getD (.variable n)) := by
      unfold lookupDrawn
      cases hl : ds.lookup n with
      | some d => rfl
      | none =>
        have := h n (by simp)
        simp only [hl, Option.isSome_none, Bool.false_eq_true, false_or] at this
        simp [this]
    refine ⟨(n, (ds.lookup n).getD (.variable n)) :: out, by simp [lookupAll, hn, h1], by simp [h2], ?_⟩
    intro k d hk
    rcases List.mem_cons.mp hk with hk | hk
    · cases hk; rfl
    · exact h3 k d hk

theorem lookupAll_err (ds : List (String × Drawn)) (names : List String) : ∀ (r : List String) (n : String), n ∈ r →
    ds.lookup n = none → n ∉ names → lookupAll ds names r = .error .keyError
  | [], _, h, _, _ => by simp at h
  | k :: r, n, h, h1, h2 => by
    rw [lookupAll]
    rcases List.mem_cons.mp h with rfl | h
    · simp [lookupDrawn, h1, h2]
    · have ih := lookupAll_err ds names r n h h1 h2
      unfold lookupDrawn
      cases ds.lookup k with
      | some d => simp [ih]
      | none => by_cases hk : k ∈ names <;> simp [hk, ih]

/-- **C168**: if every requested name is the short or long name of a matrix, no matrix is requested under both names and none
of the names is the name of a parameter or of data, the result holds exactly the requested names, and each stands for the
matrix with that name as the build filled it in, labelled with the axes of that matrix that have coordinates. -/
theorem C168_matrices (floatX : String) (o o' : Obj) (h : Spec.Built floatX o o') (coords : List String)
    (req : Option (List String)) (group : String) (hg : group = "posterior" ∨ group = "prior") (r : List String)
    (hr : r = req.getD (shortLong.map Prod.fst)) (hnames : ∀ n ∈ r, ∃ i, Spec.Names n i)
    (honce : ∀ n ∈ r, ∀ k ∈ r, ∀ i, Spec.Names n i → Spec.Names k i → n = k) (huse : ∀ n ∈ r, n ∉ Spec.inUse o) :
    ∃ s out, unpack o' = .ok s ∧ sampleMatrices floatX o' coords req group = .ok out ∧ out.map Prod.fst = r ∧
      ∀ n d, (n, d) ∈ out → ∀ (i : ℕ) (p : String × String), shortLong[i]? = some p → n = p.1 ∨ n = p.2 → ∃ e, s[i]? = some e ∧
        d = .matrix e ((matrixDims p.1).map fun x => if x ∈ coords then some x else none) := by
  obtain ⟨s, hs, h9, he⟩ := sample_eq h coords req group hg
  rw [← hr] at he
  have hch : ∀ n ∈ r, ∀ (i : ℕ) (p : String × String), shortLong[i]? = some p → n = p.1 ∨ n = p.2 → chosen r p = some n := by
    intro n hn i p hp hnp
    unfold chosen
    by_cases h2 : p.2 ∈ r
    · rw [if_pos h2, honce n hn p.2 h2 i ⟨p, hp, hnp⟩ ⟨p, hp, Or.inr rfl⟩]
    · rw [if_neg h2]
      rcases hnp with rfl | rfl
      · rw [if_pos hn]
      · exact absurd hn h2
  have hadd : addMatrices r coords (Spec.inUse o) (shortLong.zip s) = .ok (dets r coords (shortLong.zip s)) := by
    apply addMatrices_ok
    · intro e _ n hn
      exact huse n (chosen_names hn).2
    · rw [zip_filterMap r s h9]; exact names_nodup r
  have hsome : ∀ n ∈ r, ((dets r coords (shortLong.zip s)).lookup n).isSome ∨ n ∈ Spec.inUse o := by
    intro n hn
    obtain ⟨i, p, hp, hnp⟩ := hnames n hn
    obtain ⟨e, -, hl⟩ := dets_lookup r coords s h9 i p n hp (hch n hn i p hp hnp)
    simp [hl]
  obtain ⟨out, h1, h2, h3⟩ := lookupAll_ok _ (Spec.inUse o) r hsome
  refine ⟨s, out, hs, by rw [he, hadd]; exact h1, h2, ?_⟩
  intro n d hd i p hp hnp
  have hn : n ∈ r := by rw [← h2]; exact List.mem_map.mpr ⟨_, hd, rfl⟩
  obtain ⟨e, h4, hl⟩ := dets_lookup r coords s h9 i p n hp (hch n hn i p hp hnp)
  refine ⟨e, h4, ?_⟩
  rw [← h3 n d hd, hl]
  rfl

/-- **C168**: a request for a matrix under a name that a parameter or data already has always fails; the long name is the one
used if both are requested. -/
theorem C168_name_in_use (floatX : String) (o o' : Obj) (h : Spec.Built floatX o o') (coords : List String)
    (req : Option (List String)) (group : String) (hg : group = "posterior" ∨ group = "prior") (r : List String)
    (hr : r = req.getD (shortLong.map Prod.fst)) (i : ℕ) (p : String × String) (hp : shortLong[i]? = some p)
    (hc : (p.2 ∈ r ∧ p.2 ∈ Spec.inUse o) ∨ (p.2 ∉ r ∧ p.1 ∈ r ∧ p.1 ∈ Spec.inUse o)) :
    sampleMatrices floatX o' coords req group = .error .duplicateName := by
  obtain ⟨s, hs, h9, he⟩ := sample_eq h coords req group hg
  rw [← hr] at he
  have hi : i < 9 := (List.getElem?_eq_some_iff.mp hp).1
  have hsi : s[i]? = some s[i] := by simp [hs, hi]
  have hmem : (p, s[i]) ∈ shortLong.zip s := List.mem_of_getElem? (List.getElem?_zip_eq_some.mpr ⟨hp, hsi⟩)
  obtain ⟨n, hn, hch⟩ : ∃ n, n ∈ Spec.inUse o ∧ chosen r p = some n := by
    rcases hc with ⟨h1, h2⟩ | ⟨h1, h2, h3⟩
    · exact ⟨p.2, h2, by simp [chosen, h1]⟩
    · exact ⟨p.1, h3, by simp [chosen, h1, h2]⟩
  rw [he, addMatrices_dup r coords _ _ n hn ⟨_, hmem, hch⟩]

/-- **C168**: `matrix_names=None` fails for every model that has a parameter called "P0" or "x0". -/
theorem C168_default_fails (floatX : String) (o o' : Obj) (h : Spec.Built floatX o o') (coords : List String)
    (group : String) (hg : group = "posterior" ∨ group = "prior") (hp : "P0" ∈ o.paramNames ∨ "x0" ∈ o.paramNames) :
    sampleMatrices floatX o' coords none group = .error .duplicateName := by
  rcases hp with hp | hp
  · exact C168_name_in_use floatX o o' h coords none group hg _ rfl 1 ("P0", "initial_state_cov") rfl
      (Or.inr ⟨by decide +kernel, by decide +kernel, by simp [Spec.inUse, hp]⟩)
  · exact C168_name_in_use floatX o o' h coords none group hg _ rfl 0 ("x0", "initial_state") rfl
      (Or.inr ⟨by decide +kernel, by decide +kernel, by simp [Spec.inUse, hp]⟩)

/-- **C168**: in particular it fails for every structural model: building a sum of components adds "P0" to its parameters. -/
theorem C168_default_fails_structural {V : Type} (c : Structural.Meta V) (floatX : String) (o o' : Obj)
    (h : Spec.Built floatX o o') (hc : o.paramNames = (Structural.build c).1) (coords : List String) (group : String)
    (hg : group = "posterior" ∨ group = "prior") :
    sampleMatrices floatX o' coords none group = .error .duplicateName :=
  C168_default_fails floatX o o' h coords group hg (Or.inl (by rw [hc]; simp [Structural.build]))

/-- **C168**: if no chosen name is in use, a requested name that is no name of a matrix and of no variable fails; so does a
matrix requested under both its names, unless its short name is the name of a variable. -/
theorem C168_key_error (floatX : String) (o o' : Obj) (h : Spec.Built floatX o o') (coords : List String)
    (r : List String) (group : String) (hg : group = "posterior" ∨ group = "prior")
    (huse : ∀ n ∈ r, (∃ i, Spec.Names n i) → n ∉ Spec.inUse o) (n : String) (hn : n ∈ r) (hu : n ∉ Spec.inUse o)
    (hbad : (∀ i, ¬ Spec.Names n i) ∨ ∃ (i : ℕ) (p : String × String), shortLong[i]? = some p ∧ n = p.1 ∧ p.2 ∈ r) :
    sampleMatrices floatX o' coords (some r) group = .error .keyError := by
  obtain ⟨s, hs, h9, he⟩ := sample_eq h coords (some r) group hg
  simp only [Option.getD_some] at he
  have hadd : addMatrices r coords (Spec.inUse o) (shortLong.zip s) = .ok (dets r coords (shortLong.zip s)) := by
    apply addMatrices_ok
    · intro e hmem k hk
      obtain ⟨h1, h2⟩ := chosen_names hk
      obtain ⟨i, hi⟩ := List.getElem?_of_mem (List.of_mem_zip hmem).1
      exact huse k h2 ⟨i, e.1, hi, h1⟩
    · rw [zip_filterMap r s h9]; exact names_nodup r
  rw [he, hadd]
  refine lookupAll_err _ _ r n hn (dets_none r coords s h9 n ?_) hu
  intro q hq hcq
  obtain ⟨j, hj⟩ := List.getElem?_of_mem hq
  obtain ⟨h1, -⟩ := chosen_names hcq
  rcases hbad with hb | ⟨i, p, hp, rfl, h2⟩
  · exact hb j ⟨q, hj, h1⟩
  · have hij := names_same hp hj (by rcases h1 with h1 | h1 <;> simp [h1])
    subst hij
    have hpq : p = q := by rw [hp] at hj; exact Option.some.inj hj
    subst hpq
    simp only [chosen, h2, if_true, Option.some.injEq] at hcq
    have hne : ∀ p ∈ shortLong, p.2 ≠ p.1 := by decide +kernel
    exact hne p (List.mem_of_getElem? hp) hcq

/-- **C168**: a requested name that is no name of a matrix but the name of a parameter or of data is no error: the result
holds that variable. -/
theorem C168_other_variable (floatX : String) (o o' : Obj) (h : Spec.Built floatX o o') (coords : List String)
    (n : String) (group : String) (hg : group = "posterior" ∨ group = "prior") (hn : ∀ i, ¬ Spec.Names n i)
    (hu : n ∈ Spec.inUse o) :
    sampleMatrices floatX o' coords (some [n]) group = .ok [(n, .variable n)] := by
  obtain ⟨s, hs, h9, he⟩ := sample_eq h coords (some [n]) group hg
  simp only [Option.getD_some] at he
  have hch : ∀ p ∈ shortLong, chosen [n] p = none := by
    intro p hp
    obtain ⟨i, hi⟩ := List.getElem?_of_mem hp
    have h1 : p.1 ≠ n := fun hh => hn i ⟨p, hi, Or.inl hh.symm⟩
    have h2 : p.2 ≠ n := fun hh => hn i ⟨p, hi, Or.inr hh.symm⟩
    simp [chosen, h1, h2]
  have hadd : addMatrices [n] coords (Spec.inUse o) (shortLong.zip s) = .ok (dets [n] coords (shortLong.zip s)) := by
    apply addMatrices_ok
    · intro e hmem k hk
      rw [hch e.1 (List.of_mem_zip hmem).1] at hk
      cases hk
    · rw [zip_filterMap [n] s h9]; exact names_nodup [n]
  have hl : (dets [n] coords (shortLong.zip s)).lookup n = none :=
    dets_none [n] coords s h9 n fun p hp => by simp [hch p hp]
  rw [he, hadd]
  simp [lookupAll, lookupDrawn, hl, hu]

/-- Specification: what an axis of a matrix runs over. -/
inductive Spec.AxisKind
  | series
  | state
  | shock
deriving DecidableEq

/-- Specification: the matrices in the order in which a state-space model lists them, with the mathematical shape of each
(initial state and covariance, intercepts, transition, design, selection, and the two covariances). -/
def Spec.shapes : List (String × List Spec.AxisKind) :=
  [("initial_state", [.state]), ("initial_state_cov", [.state, .state]), ("state_intercept", [.state]),
   ("obs_intercept", [.series]), ("transition", [.state, .state]), ("design", [.series, .state]),
   ("selection", [.state, .shock]), ("obs_cov", [.series, .series]), ("state_cov", [.shock, .shock])]

/-- Specification: what a label stands for. -/
def Spec.labelKind : String → Option Spec.AxisKind
  | "state" => some .state
  | "state_aux" => some .state
  | "observed_state" => some .series
  | "observed_state_aux" => some .series
  | "shock" => some .shock
  | "shock_aux" => some .shock
  | _ => none

/-- **C168**: the names are those of the nine matrices in their order; every matrix has one label per axis, of the kind the
axis runs over, and no label twice; short and long name determine each other. -/
theorem C168_names_and_labels :
    shortLong.map Prod.snd = Spec.shapes.map Prod.fst ∧
    (∀ (i : ℕ) (p : String × String) (q : String × List Spec.AxisKind), shortLong[i]? = some p → Spec.shapes[i]? = some q →
      (matrixDims p.1).map Spec.labelKind = q.2.map some ∧ (matrixDims p.1).Nodup) ∧
    (∀ (i j : ℕ) (p q : String × String), shortLong[i]? = some p → shortLong[j]? = some q → p.1 = q.1 → i = j) := by
  refine ⟨by decide +kernel, ?_, fun i j p q hp hq h => names_same hp hq (Or.inl h)⟩
  have key : ∀ x ∈ shortLong.zip Spec.shapes,
      (matrixDims x.1.1).map Spec.labelKind = x.2.2.map some ∧ (matrixDims x.1.1).Nodup := by decide +kernel
  intro i p q hp hq
  exact key (p, q) (List.mem_of_getElem? (List.getElem?_zip_eq_some.mpr ⟨hp, hq⟩))

/-- **C168**: any other group is refused. -/
theorem C168_group (floatX : String) (o : Obj) (coords : List String) (req : Option (List String)) (group : String)
    (hg : group ≠ "posterior" ∧ group ≠ "prior") : sampleMatrices floatX o coords req group = .error .badGroup := by
  simp [sampleMatrices, hg]

/-- An example: nine matrices, parameters "P0" and "sigma". -/
def Example.nine : Obj :=
  { paramNames := ["P0", "sigma"], dataNames := [],
    vars := [("P0", ⟨"float64", [some 1, some 1]⟩), ("sigma", ⟨"float64", []⟩)], datas := [],
    matrices := [.const 0, .leaf (.param "P0"), .const 0, .const 0, .const 1, .const 1, .const 1, .const 0,
      .leaf (.param "sigma")],
    subbed := none, exogInfo := [], fitDims := none, fitData := none }

/-- A PyMC model for it. -/
def Example.ninePm : Pm :=
  { pre := "", entries := [⟨"P0", .rv, ⟨"float64", [some 1, some 1]⟩, none⟩, ⟨"sigma", .rv, ⟨"float64", []⟩, none⟩] }

theorem Example.nine_built : Spec.Built "float64" Example.nine (build Example.nine Example.ninePm 3 (.ok ())).1 := by
  refine ⟨⟨by decide, by decide, by decide, by decide, ?_⟩, rfl, ⟨Example.ninePm, 3, .ok (), by decide, rfl, by rfl⟩, ?_,
    by decide, by decide, by decide, by decide⟩
  · intro M hM l hl
    simp only [Example.nine, List.mem_cons, List.not_mem_nil, or_false] at hM
    rcases hM with rfl | rfl | rfl | rfl | rfl | rfl | rfl | rfl | rfl <;> simp [Expr.leaves] at hl <;> subst hl
    · exact Or.inl ⟨_, List.mem_cons_self, rfl⟩
    · exact Or.inl ⟨_, List.mem_cons_of_mem _ List.mem_cons_self, rfl⟩
  · intro n hn
    simp only [Example.nine, List.mem_cons, List.not_mem_nil, or_false] at hn
    rcases hn with rfl | rfl <;> simp [Example.nine]

example : sampleMatrices "float64" (build Example.nine Example.ninePm 3 (.ok ())).1 ["state"] none "posterior" =
    .error .duplicateName :=
  C168_default_fails _ _ _ Example.nine_built _ _ (Or.inl rfl) (Or.inl (by decide))

example : (∀ n ∈ ["Q", "initial_state_cov"], ∃ i, Spec.Names n i) ∧
    ∀ n ∈ ["Q", "initial_state_cov"], n ∉ Spec.inUse Example.nine := by
  constructor
  · intro n hn
    simp only [List.mem_cons, List.not_mem_nil, or_false] at hn
    rcases hn with rfl | rfl
    · exact ⟨8, _, rfl, Or.inl rfl⟩
    · exact ⟨1, _, rfl, Or.inr rfl⟩
  · decide

example : ∃ e, sampleMatrices "float64" (build Example.nine Example.ninePm 3 (.ok ())).1 ["state"]
    (some ["initial_state_cov"]) "prior" = .ok [("initial_state_cov", .matrix e [some "state", none])] := ⟨_, rfl⟩

end Verif.Registry
