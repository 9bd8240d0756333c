import Verif.Kalman.Args

/-!
C09 and C10: binding of time-varying parameters; the smoother's binding (used by C13, C15).
-/

namespace Verif.Kalman.Args

variable {V : Type*}

/-- Specification: the value a named parameter has at time `t`: its `t`-th slice if it has one more dimension than a
static parameter (vector: 2, matrix: 3), its whole value otherwise. -/
def Spec.valueAt (t : ℕ) (x : Tensor V) (name : String) : Option V :=
  if x.ndim = (if name ∈ ["c", "d"] then 2 else 3) then x.slices[t]? else some x.whole

/-- Specification: all named values at time `t`, in the given order. -/
def Spec.valuesAt (t : ℕ) : List (Tensor V × String) → Option (List V)
  | [] => some []
  | (x, name) :: rest =>
    match Spec.valueAt t x name, Spec.valuesAt t rest with
    | some v, some vs => some (v :: vs)
    | _, _ => none

theorem decide_names {name : String} (hn : name ∈ paramNames) (x : Tensor V) :
    (decideTimeVaries x name = some true → x.ndim = (if name ∈ ["c", "d"] then 2 else 3)) ∧
    (decideTimeVaries x name = some false → x.ndim ≠ (if name ∈ ["c", "d"] then 2 else 3)) := by
  simp only [paramNames, List.mem_cons, List.not_mem_nil, or_false] at hn
  rcases hn with rfl | rfl | rfl | rfl | rfl | rfl | rfl <;>
    simp [decideTimeVaries, neverTimeVarying, vectorValued]

theorem splitVars_sub (ps : List (Tensor V × String)) : ∀ s, splitVars ps = some s →
    (∀ name ∈ s.seqNames, name ∈ ps.map Prod.snd) ∧ s.seqNames.length = s.seqs.length := by
  induction ps with
  | nil => intro s h; simp [splitVars] at h; subst h; simp
  | cons p rest ih =>
    intro s h
    obtain ⟨x, name⟩ := p
    simp only [splitVars] at h
    cases hd : decideTimeVaries x name with
    | none => simp [hd] at h
    | some b =>
      cases hs : splitVars rest with
      | none => cases b <;> simp [hd, hs] at h
      | some s' =>
        obtain ⟨i1, i2⟩ := ih s' hs
        cases b <;> simp only [hd, hs, Option.some.injEq] at h <;> subst h
        · exact ⟨fun m hm => by simp [i1 m hm] , i2⟩
        · refine ⟨fun m hm => ?_, by simp [i2]⟩
          rcases List.mem_cons.1 hm with rfl | hm
          · simp
          · have := i1 m hm
            simp only [List.map_cons, List.mem_cons]; exact Or.inr this

theorem lookup_split (t : ℕ) (ps : List (Tensor V × String)) : ∀ s sv, (ps.map Prod.snd).Nodup →
    (∀ p ∈ ps, p.2 ∈ paramNames) → splitVars ps = some s → slicesAt s.seqs t = some sv →
    ∀ x name, (x, name) ∈ ps →
      (if name ∈ s.seqNames then sv[s.seqNames.idxOf name]?
        else (s.nonSeqs.map Tensor.whole)[s.nonSeqNames.idxOf name]?) = Spec.valueAt t x name := by
  induction ps with
  | nil => intro s sv _ _ _ _ x name h; simp at h
  | cons p rest ih =>
    intro s sv hnd hnames h hsv x name hmem
    obtain ⟨x0, n0⟩ := p
    simp only [List.map_cons, List.nodup_cons] at hnd
    have hn0 := hnames (x0, n0) (by simp)
    have hnames' : ∀ p ∈ rest, p.2 ∈ paramNames := fun p hp => hnames p (by simp [hp])
    simp only [splitVars] at h
    cases hd : decideTimeVaries x0 n0 with
    | none => simp [hd] at h
    | some b =>
      cases hs : splitVars rest with
      | none => cases b <;> simp [hd, hs] at h
      | some s' =>
        have hsub := (splitVars_sub rest s' hs).1
        have hn0' : n0 ∉ s'.seqNames := fun hm => hnd.1 (hsub n0 hm)
        cases b
        · -- static head
          simp only [hd, hs, Option.some.injEq] at h
          subst h
          simp only at hsv
          rcases List.mem_cons.1 hmem with he | hm
          · obtain ⟨rfl, rfl⟩ := Prod.mk.inj he
            rw [if_neg hn0']
            rw [Spec.valueAt, if_neg ((decide_names hn0 x).2 hd)]
            simp
          · have hne : n0 ≠ name := by
              rintro rfl; exact hnd.1 (List.mem_map.2 ⟨_, hm, rfl⟩)
            have := ih s' sv hnd.2 hnames' hs hsv x name hm
            rw [← this]
            by_cases hq : name ∈ s'.seqNames
            · rw [if_pos hq, if_pos hq]
            · rw [if_neg hq, if_neg hq]
              simp [List.idxOf_cons_ne _ hne]
        · simp only [hd, hs, Option.some.injEq] at h
          subst h
          simp only [slicesAt] at hsv
          cases hx : x0.slices[t]? with
          | none => simp [hx] at hsv
          | some v =>
            cases hr : slicesAt s'.seqs t with
            | none => simp [hx, hr] at hsv
            | some sv' =>
              simp only [hx, hr, Option.some.injEq] at hsv
              subst hsv
              rcases List.mem_cons.1 hmem with he | hm
              · obtain ⟨rfl, rfl⟩ := Prod.mk.inj he
                simp only [List.mem_cons, true_or, if_true, List.idxOf_cons_self, List.getElem?_cons_zero]
                rw [Spec.valueAt, if_pos ((decide_names hn0 x).1 hd), hx]
              · have hne : n0 ≠ name := by
                  rintro rfl; exact hnd.1 (List.mem_map.2 ⟨_, hm, rfl⟩)
                have := ih s' sv' hnd.2 hnames' hs hr x name hm
                rw [← this]
                by_cases hq : name ∈ s'.seqNames
                · rw [if_pos (List.mem_cons_of_mem _ hq), if_pos hq]
                  simp [List.idxOf_cons_ne _ hne]
                · rw [if_neg (by simp [hq, hne.symm]), if_neg hq]

theorem reorder_eq (t : ℕ) (S N : List String) (sv nv : List V) (ps : List (Tensor V × String))
    (h : ∀ x name, (x, name) ∈ ps →
      (if name ∈ S then sv[S.idxOf name]? else nv[N.idxOf name]?) = Spec.valueAt t x name) :
    reorder (ps.map Prod.snd) S N sv nv = Spec.valuesAt t ps := by
  induction ps with
  | nil => rfl
  | cons p rest ih =>
    obtain ⟨x, name⟩ := p
    simp only [List.map_cons, reorder, Spec.valuesAt]
    rw [h x name (by simp), ih fun x name hm => h x name (by simp [hm])]
    cases Spec.valueAt t x name <;> cases Spec.valuesAt t rest <;> rfl

theorem splitVars_static (t : ℕ) (ps : List (Tensor V × String)) : ∀ s, (∀ p ∈ ps, p.2 ∈ paramNames) →
    splitVars ps = some s → s.seqNames = [] →
    s.seqs = [] ∧ Spec.valuesAt t ps = some (s.nonSeqs.map Tensor.whole) := by
  induction ps with
  | nil => intro s _ h _; simp [splitVars] at h; subst h; exact ⟨rfl, rfl⟩
  | cons p rest ih =>
    intro s hnames h he
    obtain ⟨x, name⟩ := p
    simp only [splitVars] at h
    cases hd : decideTimeVaries x name with
    | none => simp [hd] at h
    | some b =>
      cases hs : splitVars rest with
      | none => cases b <;> simp [hd, hs] at h
      | some s' =>
        cases b
        · simp only [hd, hs, Option.some.injEq] at h
          subst h
          obtain ⟨i1, i2⟩ := ih s' (fun p hp => hnames p (by simp [hp])) hs he
          refine ⟨i1, ?_⟩
          have hv : Spec.valueAt t x name = some x.whole := by
            rw [Spec.valueAt, if_neg ((decide_names (hnames (x, name) (by simp)) x).2 hd)]
          simp [Spec.valuesAt, hv, i2]
        · simp only [hd, hs, Option.some.injEq] at h
          subst h; simp at he

theorem slicesAt_length (t : ℕ) (xs : List (Tensor V)) : ∀ sv, slicesAt xs t = some sv → sv.length = xs.length := by
  induction xs with
  | nil => intro sv h; simp [slicesAt] at h; subst h; rfl
  | cons x xs ih =>
    intro sv h
    simp only [slicesAt] at h
    cases hx : x.slices[t]? with
    | none => simp [hx] at h
    | some v =>
      cases hr : slicesAt xs t with
      | none => simp [hx, hr] at h
      | some vs => simp [hx, hr] at h; subst h; simp [ih vs hr]

/-- General binding theorem for `k` leading sequence arguments and two carried values. -/
theorem unpack_correct (k : ℕ) (lead carried : List V) (hl : lead.length = k) (hc : carried.length = 2)
    (ps : List (Tensor V × String)) (hnd : (ps.map Prod.snd).Nodup) (hn : ∀ p ∈ ps, p.2 ∈ paramNames) (t : ℕ)
    (s : Split V) (hs : splitVars ps = some s) (args : List V) (ha : scanArgs lead carried s t = some args) :
    unpackArgs k (ps.map Prod.snd) s args = (Spec.valuesAt t ps).map fun vs => lead ++ carried ++ vs := by
  rw [scanArgs] at ha
  cases hsv : slicesAt s.seqs t with
  | none => simp [hsv] at ha
  | some sv =>
    simp only [hsv, Option.map_some, Option.some.injEq] at ha
    have hlen : sv.length = s.seqNames.length := by
      rw [slicesAt_length t _ sv hsv, (splitVars_sub ps s hs).2]
    rw [unpackArgs]
    by_cases h0 : s.seqNames.length = 0
    · have he : s.seqNames = [] := List.length_eq_zero_iff.1 h0
      obtain ⟨e1, e2⟩ := splitVars_static t ps s hn hs he
      have hsv0 : sv = [] := by
        rw [h0] at hlen; exact List.length_eq_zero_iff.1 hlen
      rw [if_pos h0, e2, Option.map_some, ← ha, hsv0]; simp
    · rw [if_neg h0]
      have h1 : args.take k = lead := by rw [← ha]; simp [← hl]
      have h2 : args.drop k = sv ++ (carried ++ s.nonSeqs.map Tensor.whole) := by
        rw [← ha]; simp [← hl, List.append_assoc]
      have h3 : (sv ++ (carried ++ s.nonSeqs.map Tensor.whole)).take s.seqNames.length = sv := by
        rw [← hlen]; simp
      have h4 : ((sv ++ (carried ++ s.nonSeqs.map Tensor.whole)).drop s.seqNames.length).take 2 = carried := by
        rw [← hlen, ← hc]; simp
      have h5 : (sv ++ (carried ++ s.nonSeqs.map Tensor.whole)).drop (s.seqNames.length + 2) =
          s.nonSeqs.map Tensor.whole := by
        rw [← hlen, ← hc, ← List.drop_drop]; simp
      simp only [h1, h2, h3, h4, h5]
      rw [reorder_eq t _ _ _ _ ps (fun x name hm => lookup_split t ps s sv hnd hn hs hsv x name hm)]

/-- **C09.** Whatever subset of the seven matrices is time varying, each step of the filter receives the data row, the
carried state and, under each of the seven names in the standard order, the value of that matrix at the current time. -/
theorem C09_filter_binding (c d T Z R H Q : Tensor V) (y a P : V) (t : ℕ) (s : Split V) (args : List V)
    (hs : splitVars ([c, d, T, Z, R, H, Q].zip paramNames) = some s)
    (ha : scanArgs [y] [a, P] s t = some args) :
    unpackArgs 1 paramNames s args =
      (Spec.valuesAt t ([c, d, T, Z, R, H, Q].zip paramNames)).map fun vs => [y, a, P] ++ vs :=
  unpack_correct 1 [y] [a, P] rfl rfl ([c, d, T, Z, R, H, Q].zip paramNames) (by simp [paramNames])
    (by intro p hp; exact (List.of_mem_zip hp).2) t s hs args ha

/-- **C09 (smoother).** The same for the three matrices of the smoother. -/
theorem C09_smoother_binding (T R Q : Tensor V) (a P aS PS : V) (t : ℕ) (s : Split V) (args : List V)
    (hs : splitVars ([T, R, Q].zip ["T", "R", "Q"]) = some s)
    (ha : scanArgs [a, P] [aS, PS] s t = some args) :
    unpackArgs 2 ["T", "R", "Q"] s args =
      (Spec.valuesAt t ([T, R, Q].zip ["T", "R", "Q"])).map fun vs => [a, P, aS, PS] ++ vs :=
  unpack_correct 2 [a, P] [aS, PS] rfl rfl ([T, R, Q].zip ["T", "R", "Q"]) (by simp)
    (by
      intro p hp
      have := (List.of_mem_zip hp).2
      simp only [List.mem_cons, List.not_mem_nil, or_false] at this
      rcases this with h | h | h <;> rw [h] <;> simp [paramNames]) t s hs args ha

/-- With the length check passed, the step function receives arguments at every data row (so the hypothesis of
`C09_filter_binding` is met at every `t < nData`), and with a sequence of a different length the check fails. -/
theorem C09_every_row_bound (nData : ℕ) (s : Split V) (h : shapesOk nData s) (lead carried : List V) (t : ℕ)
    (ht : t < nData) : ∃ args, scanArgs lead carried s t = some args := by
  have key : ∀ xs : List (Tensor V), (∀ x ∈ xs, x.slices.length = nData) → ∃ sv, slicesAt xs t = some sv := by
    intro xs
    induction xs with
    | nil => intro _; exact ⟨[], rfl⟩
    | cons x xs ih =>
      intro hx
      obtain ⟨sv, hsv⟩ := ih fun y hy => hx y (by simp [hy])
      have hl : t < x.slices.length := by rw [hx x (by simp)]; exact ht
      exact ⟨x.slices[t] :: sv, by simp [slicesAt, hsv, List.getElem?_eq_getElem hl]⟩
  obtain ⟨sv, hsv⟩ := key s.seqs h
  exact ⟨_, by rw [scanArgs, hsv]; rfl⟩

theorem C09_wrong_length_rejected (nData : ℕ) (ps : List (Tensor V × String)) (s : Split V)
    (hs : splitVars ps = some s) (x : Tensor V) (name : String) (hm : (x, name) ∈ ps)
    (htv : decideTimeVaries x name = some true) (hlen : x.slices.length ≠ nData) : ¬ shapesOk nData s := by
  intro hok
  apply hlen
  apply hok
  clear hok hlen
  induction ps generalizing s with
  | nil => simp at hm
  | cons p rest ih =>
    obtain ⟨x0, n0⟩ := p
    simp only [splitVars] at hs
    cases hd : decideTimeVaries x0 n0 with
    | none => simp [hd] at hs
    | some b =>
      cases hr : splitVars rest with
      | none => cases b <;> simp [hd, hr] at hs
      | some s' =>
        rcases List.mem_cons.1 hm with he | hm'
        · obtain ⟨rfl, rfl⟩ := Prod.mk.inj he
          rw [htv] at hd
          obtain rfl : true = b := Option.some.inj hd
          simp only [htv, hr, Option.some.injEq] at hs
          subst hs; simp
        · have := ih s' hr hm'
          cases b <;> simp only [hd, hr, Option.some.injEq] at hs <;> subst hs
          · exact this
          · exact List.mem_cons_of_mem _ this

/-- A wrong number of dimensions is rejected before anything is run. -/
theorem C09_wrong_ndim_rejected (x : Tensor V) (name : String) (hn : name ∈ paramNames)
    (h : x.ndim ≠ (if name ∈ ["c", "d"] then 1 else 2) ∧ x.ndim ≠ (if name ∈ ["c", "d"] then 2 else 3)) :
    decideTimeVaries x name = none := by
  simp only [paramNames, List.mem_cons, List.not_mem_nil, or_false] at hn
  rcases hn with rfl | rfl | rfl | rfl | rfl | rfl | rfl <;>
    simp_all [decideTimeVaries, neverTimeVarying, vectorValued]

/-- Time-varying `T` and `H`, the rest static: hypotheses of C09 hold and the step sees slice `t` of `T` and `H`. -/
example : let T : Tensor ℕ := ⟨3, 0, [10, 11, 12]⟩
    let H : Tensor ℕ := ⟨3, 0, [20, 21, 22]⟩
    let st : ℕ → Tensor ℕ := fun v => ⟨2, v, []⟩
    let v1 : ℕ → Tensor ℕ := fun v => ⟨1, v, []⟩
    (splitVars ([v1 1, v1 2, T, st 4, st 5, H, st 7].zip paramNames)).bind (fun s =>
      (scanArgs [100] [200, 300] s 1).bind fun args => unpackArgs 1 paramNames s args) =
      some [100, 200, 300, 1, 2, 11, 4, 5, 21, 7] := by
  simp [splitVars, paramNames, decideTimeVaries, neverTimeVarying, vectorValued, scanArgs, slicesAt, unpackArgs, reorder]

/-- **C10 (a).** With only static matrices the positional arguments of the univariate step are in standard order. -/
theorem C10_univariate_static (ps : List (Tensor V × String)) (hn : ∀ p ∈ ps, p.2 ∈ paramNames) (y a P : V) (t : ℕ)
    (s : Split V) (hs : splitVars ps = some s) (h0 : s.seqNames = []) :
    scanArgs [y] [a, P] s t = (Spec.valuesAt t ps).map fun vs => [y, a, P] ++ vs := by
  obtain ⟨e1, e2⟩ := splitVars_static t ps s hn hs h0
  simp [scanArgs, e1, slicesAt, e2]

/-- **C10 (b).** As soon as one matrix is time varying, the univariate step, which binds its arguments by position
`(y, a, P, c, …)`, receives the current slice of the first time-varying matrix as its state mean `a`. -/
theorem C10_univariate_scrambled (y a P : V) (t : ℕ) (s : Split V) (x : Tensor V) (xs : List (Tensor V))
    (hx : s.seqs = x :: xs) (args : List V) (ha : scanArgs [y] [a, P] s t = some args) :
    args[1]? = x.slices[t]? := by
  rw [scanArgs, hx, slicesAt] at ha
  cases h1 : x.slices[t]? with
  | none => simp [h1] at ha
  | some v =>
    cases h2 : slicesAt xs t with
    | none => simp [h1, h2] at ha
    | some vs => simp [h1, h2] at ha; rw [← ha]; simp

/-- So the binding is right only if that slice happens to be the carried mean. -/
theorem C10_univariate_right_only_if (y a P : V) (t : ℕ) (s : Split V) (x : Tensor V) (xs : List (Tensor V))
    (hx : s.seqs = x :: xs) (args : List V) (ha : scanArgs [y] [a, P] s t = some args)
    (hok : ∃ vs, args = [y, a, P] ++ vs) : x.slices[t]? = some a := by
  obtain ⟨vs, rfl⟩ := hok
  rw [← C10_univariate_scrambled y a P t s x xs hx _ ha]; simp

end Verif.Kalman.Args
