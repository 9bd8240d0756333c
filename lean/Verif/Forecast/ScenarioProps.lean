import Verif.Forecast.ScenarioLemmas

/-!
# C174, C175: scenario data in `forecast`
-/

set_option autoImplicit false

namespace Verif.Forecast.Obj

open Spec

variable {V : Type}

/-- The two loops of one call, from the outside: the call raised before the second loop, or the second loop ran. -/
theorem forecast_cases (exog : List String) (coords : List (String × List String)) (fit : Idx) (c : Call) (d : Dict V)
    (heap : Heap V) :
    ((forecast exog coords fit c d heap).2 = ((validate exog coords heap d).2, heap) ∧
      ∃ e, (forecast exog coords fit c d heap).1 = .error e) ∨
    ∃ d1 t0 fi, validate exog coords heap d = (.ok (), d1) ∧ buildIndex fit c heap d1 = .ok (t0, fi) ∧
      (forecast exog coords fit c d heap).2 = (finalizeLoop coords fi [] d1 heap).2 ∧
      ∀ p, (forecast exog coords fit c d heap).1 = .ok p →
        (finalizeLoop coords fi [] d1 heap).1 = .ok () ∧ p.t0 = t0 ∧ p.index = fi.labels ∧
        exog.mapM (usedRows (finalizeLoop coords fi [] d1 heap).2.2 (finalizeLoop coords fi [] d1 heap).2.1) =
          .ok p.used := by
  unfold forecast
  split
  · rename_i e d1 h
    left; simp [h]
  · rename_i d1 h
    split
    · left; simp [h]
    · rename_i t0 fi hb
      right
      refine ⟨d1, t0, fi, h, hb, ?_⟩
      split
      · rename_i e d2 h2 hf
        rw [hf]; simp
      · rename_i d2 h2 hf
        rw [hf]
        split
        · simp
        · rename_i used hu
          refine ⟨rfl, ?_⟩
          intro p hp
          cases hp
          exact ⟨rfl, rfl, rfl, hu⟩

theorem validate_same (exog : List String) (coords : List (String × List String)) (heap : Heap V) (d : Dict V) :
    SameNumbers heap heap d (validate exog coords heap d).2 :=
  validate_forall₂ exog coords heap d _ (fun _ => ⟨rfl, rfl⟩) fun _ _ _ h => ⟨rfl, validateVal_rows h⟩

theorem validate_valid {exog : List String} {coords : List (String × List String)} {heap : Heap V} {d : Dict V}
    (hv : Valid heap d) : Valid heap (validate exog coords heap d).2 := by
  intro n id hm
  have := validate_forall₂ exog coords heap d (fun x y => ∀ i, y.2 = .frame i → x.2 = .frame i)
    (fun _ _ h => h) (fun n v v' h i hi => by
      rcases validateVal_kind h with ⟨j, h1, h2⟩ | ⟨_, _, h1, _⟩ | ⟨_, _, h1⟩ | h1
      · simp only at hi ⊢
        rw [hi] at h1; cases h1; exact h2
      all_goals (simp only at hi; rw [hi] at h1; cases h1))
  obtain ⟨x, hx, hr⟩ := forall₂_mem' this _ hm
  have := hr id rfl
  exact hv x.1 id (by rw [← this]; exact hx)

theorem validate_rectDict {exog : List String} {coords : List (String × List String)} {heap : Heap V} {d : Dict V}
    (hv : RectDict d) : RectDict (validate exog coords heap d).2 := by
  intro n i vals hm
  have := validate_forall₂ exog coords heap d (fun x y => ∀ i z, y.2 = .series i z → x.2 = .series i z)
    (fun _ _ _ h => h) (fun n v v' h i z hi => by
      rcases validateVal_kind h with ⟨j, h1, h2⟩ | ⟨_, _, h1, h2⟩ | ⟨_, _, h1⟩ | h1
      · simp only at hi; rw [hi] at h1; cases h1
      · simp only at hi ⊢
        rw [hi] at h1; cases h1; exact h2
      all_goals (simp only at hi; rw [hi] at h1; cases h1))
  obtain ⟨x, hx, hr⟩ := forall₂_mem' this _ hm
  have := hr i vals rfl
  exact hv x.1 i vals (by rw [← this]; exact hx)

/-- **C174.** Whatever `forecast` does, raising or not, it never changes a number of the scenario: afterwards the dictionary
has the same keys and holds the same numbers under each, and every data frame that existed has its columns and numbers. -/
theorem C174_numbers_never_change (exog : List String) (coords : List (String × List String)) (fit : Idx) (c : Call)
    (d : Dict V) (heap : Heap V) (hv : Valid heap d) :
    SameNumbers heap (forecast exog coords fit c d heap).2.2 d (forecast exog coords fit c d heap).2.1 ∧
    Kept heap (forecast exog coords fit c d heap).2.2 ∧
    Valid (forecast exog coords fit c d heap).2.2 (forecast exog coords fit c d heap).2.1 := by
  rcases forecast_cases exog coords fit c d heap with ⟨h, _⟩ | ⟨d1, t0, fi, h1, h2, h3, _⟩
  · rw [h]
    exact ⟨validate_same _ _ _ _, Kept.refl _, validate_valid hv⟩
  · rw [h3]
    have hs := validate_same exog coords heap d
    have hv1 := validate_valid (exog := exog) (coords := coords) hv
    rw [h1] at hs hv1
    simp only at hs hv1
    have hvr : ∀ x ∈ d1, ∀ id, x.2 = .frame id → id < heap.length := fun x hx id hid =>
      hv1 x.1 id (by rw [← hid]; exact hx)
    have hl := finalizeLoop_rows coords fi heap d1 [] [] heap (Kept.refl _) hv1 (by simp) hvr .nil
    rw [List.nil_append] at hl
    refine ⟨?_, finalizeLoop_kept coords fi d1 [] heap, ?_⟩
    · have hcomp : ∀ {a b e : Dict V} {R S T : String × Val V → String × Val V → Prop},
          (∀ x y z, R x y → S y z → T x z) → List.Forall₂ R a b → List.Forall₂ S b e → List.Forall₂ T a e := by
        intro a b e R S T hT hab
        induction hab generalizing e with
        | nil => intro hbe; cases hbe; exact .nil
        | cons h1 _ ih =>
          intro hbe
          cases hbe with
          | cons k1 k2 => exact .cons (hT _ _ _ h1 k1) (ih k2)
      exact hcomp (fun x y z ⟨a1, a2⟩ ⟨b1, b2, _⟩ => ⟨a1.trans b1, b2.trans a2⟩) hs hl
    · intro n id hm
      obtain ⟨x, _, hr⟩ := forall₂_mem' hl _ hm
      exact hr.2.2 id rfl

/-- The state after a list of calls with the same dictionary; every call may raise or not. -/
def history (exog : List String) (coords : List (String × List String)) (fit : Idx) (s : Dict V × Heap V)
    (calls : List Call) : Dict V × Heap V :=
  calls.foldl (fun s c => (forecast exog coords fit c s.1 s.2).2) s

/-- **C174.** The same after any history of calls, by induction on the calls. -/
theorem C174_numbers_never_change_history (exog : List String) (coords : List (String × List String)) (fit : Idx)
    (calls : List Call) (d : Dict V) (heap : Heap V) (hv : Valid heap d) :
    SameNumbers heap (history exog coords fit (d, heap) calls).2 d (history exog coords fit (d, heap) calls).1 ∧
    Kept heap (history exog coords fit (d, heap) calls).2 := by
  induction calls generalizing d heap with
  | nil =>
    refine ⟨?_, Kept.refl _⟩
    simp only [history, List.foldl_nil]
    unfold SameNumbers
    induction d with
    | nil => exact .nil
    | cons x d ih => exact .cons ⟨rfl, rfl⟩ (ih fun n id h => hv n id (by simp [h]))
  | cons c calls ih =>
    obtain ⟨h1, h2, h3⟩ := C174_numbers_never_change exog coords fit c d heap hv
    obtain ⟨k1, k2⟩ := ih _ _ h3
    simp only [history, List.foldl_cons] at k1 k2 ⊢
    refine ⟨?_, h2.trans k2⟩
    generalize (forecast exog coords fit c d heap).2 = s at h1 h2 h3 k1 k2 ⊢
    generalize List.foldl _ s calls = s' at k1 k2 ⊢
    have : ∀ {a b e : Dict V}, SameNumbers heap s.2 a b → SameNumbers s.2 s'.2 b e → SameNumbers heap s'.2 a e := by
      intro a b e hab
      unfold SameNumbers at hab
      induction hab generalizing e with
      | nil => intro hbe; cases hbe; exact .nil
      | cons a1 _ ih =>
        intro hbe
        cases hbe with
        | cons b1 b2 => exact .cons ⟨a1.1.trans b1.1, b1.2.trans a1.2⟩ (ih b2)
    exact this h1 k1

/-- **C174.** Data frames that are not in the dictionary are not touched at all. -/
theorem C174_other_frames_untouched (exog : List String) (coords : List (String × List String)) (fit : Idx) (c : Call)
    (d : Dict V) (heap : Heap V) (i : ℕ) (hi : i < heap.length) (hd : ∀ n, (n, Val.frame i) ∉ d) :
    (forecast exog coords fit c d heap).2.2[i]? = heap[i]? := by
  rcases forecast_cases exog coords fit c d heap with ⟨h, _⟩ | ⟨d1, t0, fi, h1, h2, h3, _⟩
  · rw [h]
  · rw [h3]
    refine finalizeLoop_untouched coords fi i d1 [] heap hi ?_
    intro n hm
    obtain ⟨hl, _⟩ := validate_ok h1
    obtain ⟨x, hx, hx1, _, hx3⟩ := forall₂_mem' hl _ hm
    rcases validateVal_kind hx3 with ⟨j, e1, e2⟩ | ⟨_, _, e1, _⟩ | ⟨_, _, e1⟩ | e1
    · cases e1
      exact hd x.1 (by rw [← e2]; exact hx)
    all_goals cases e1

/-- What a successful call establishes about its pieces. -/
theorem forecast_ok {exog : List String} {coords : List (String × List String)} {fit : Idx} {c : Call}
    {d d2 : Dict V} {heap h2 : Heap V} {p : Plan V} (h : forecast exog coords fit c d heap = (.ok p, d2, h2)) :
    ∃ d1 fi, validate exog coords heap d = (.ok (), d1) ∧ buildIndex fit c heap d1 = .ok (p.t0, fi) ∧
      p.index = fi.labels ∧ finalizeLoop coords fi [] d1 heap = (.ok (), d2, h2) ∧
      exog.mapM (usedRows h2 d2) = .ok p.used := by
  rcases forecast_cases exog coords fit c d heap with ⟨_, e, he⟩ | ⟨d1, t0, fi, k1, k2, k3, k4⟩
  · rw [h] at he; cases he
  · rw [h] at k3 k4
    obtain ⟨a1, a2, a3, a4⟩ := k4 p rfl
    rw [← k3] at a4
    refine ⟨d1, fi, k1, by rw [a2]; exact k2, a3, ?_, a4⟩
    rw [← a1]
    exact Prod.ext rfl k3.symm

theorem validated_kinds {exog : List String} {coords : List (String × List String)} {heap : Heap V} {d d1 : Dict V}
    (h : validate exog coords heap d = (.ok (), d1)) : ∀ x ∈ d1, (∃ id, x.2 = .frame id) ∨ (∃ i y, x.2 = .series i y) ∨
      ∃ k r, x.2 = .array k r := by
  intro x hx
  obtain ⟨hl, ⟨n, hn⟩, _⟩ := validate_ok h
  obtain ⟨y, _, _, _, hy⟩ := forall₂_mem' hl _ hx
  rcases validateVal_kind hy with ⟨j, e1, _⟩ | ⟨i, z, e1, _⟩ | ⟨k, r, e1⟩ | e1
  · exact .inl ⟨j, e1⟩
  · exact .inr (.inl ⟨i, z, e1⟩)
  · exact .inr (.inr ⟨k, r, e1⟩)
  · have := hn x hx
    rw [e1] at this
    simp [steps] at this

/-- The columns of a frame that validation accepts. -/
def ColsOk (coords : List (String × List String)) (n : String) (f : Frame V) : Prop :=
  ∃ e, coords.lookup n = some e ∧ (e.filter fun c => c ∉ f.cols).length = 0 ∧ (f.cols.filter fun c => c ∉ e).length = 0

theorem finalized {exog : List String} {coords : List (String × List String)} {fi : Idx} {heap h2 : Heap V}
    {d d1 d2 : Dict V} (h : validate exog coords heap d = (.ok (), d1))
    (hf : finalizeLoop coords fi [] d1 heap = (.ok (), d2, h2)) :
    ∀ x ∈ d2, ∃ id f, x.2 = .frame id ∧ h2[id]? = some f ∧ f.idx.equals fi = true ∧ ColsOk coords x.1 f := by
  refine finalizeLoop_ok coords fi (ColsOk coords) heap d1 [] d2 heap h2 (Kept.refl _) (by simp) ?_ hf
  rintro ⟨n, w⟩ hx g1 g2 v' hk he
  obtain ⟨hl, _⟩ := validate_ok h
  obtain ⟨⟨m, v⟩, _, hm, _, hv⟩ := forall₂_mem' hl _ hx
  simp only at hm hv he ⊢
  subst hm
  have key := finalizeVal_ok he
  have kind := validated_kinds h _ hx
  simp only at kind
  rcases key with ⟨_, _, h4⟩ | ⟨id, f, rfl, hf1, hf2, hf3⟩
  · exfalso
    rcases h4 with rfl | rfl | ⟨_, rfl⟩ | ⟨_, rfl⟩ <;> simp at kind
  · refine ⟨id, f, rfl, hf1, hf2, ?_⟩
    rcases kind with ⟨j, rfl⟩ | ⟨i, y, rfl⟩ | ⟨k, r, rfl⟩
    · -- a frame keeps its columns
      have hj : v = .frame j := by
        rcases validateVal_kind hv with ⟨a, e1, e2⟩ | ⟨_, _, e1, _⟩ | ⟨_, _, e1⟩ | e1 <;> cases e1
        exact e2
      subst hj
      simp only [validateVal] at hv
      split at hv
      · rename_i g e hg hc
        split at hv
        · cases hv
        · rename_i c1
          split at hv
          · cases hv
          · rename_i c2
            have hk2 := setIndex_kept fi j g1
            have hid : id = j := by
              have := (setIndex_ok (by simpa [finalizeVal] using he)).1
              cases this; rfl
            subst hid
            simp only [finalizeVal] at he
            rw [he] at hk2
            obtain ⟨f', b1, b2, _⟩ := (hk.trans hk2) id g hg
            simp only at b1
            rw [hf1] at b1
            cases b1
            exact ⟨e, hc, by rw [b2]; omega, by rw [b2]; omega⟩
      · cases hv
    · have hj : v = .series i y := by
        rcases validateVal_kind hv with ⟨a, e1, e2⟩ | ⟨_, _, e1, e2⟩ | ⟨_, _, e1⟩ | e1 <;> cases e1
        exact e2
      subst hj
      simp only [validateVal] at hv
      simp only [finalizeVal] at he
      split at hv
      · cases hv
      · rename_i e hc
        split at hv
        · cases hv
        · rename_i hlen
          rw [hc] at he
          cases e with
          | nil => simp at he
          | cons col tl =>
            have htl : tl = [] := by
              cases tl with
              | nil => rfl
              | cons a b => simp at hlen
            subst htl
            simp only at he
            have hid : id = g1.length := by
              have := (setIndex_ok he).1
              cases this; rfl
            subst hid
            have hk2 := setIndex_kept fi g1.length (g1 ++ [⟨i, [col], y.map fun x => [x]⟩])
            rw [he] at hk2
            obtain ⟨f', b1, b2, _⟩ := hk2 g1.length ⟨i, [col], y.map fun x => [x]⟩ (by simp)
            simp only at b1 b2
            rw [hf1] at b1
            cases b1
            exact ⟨[col], hc, by rw [b2]; simp, by rw [b2]; simp⟩
    · simp only [finalizeVal] at he
      split at he
      · simp at he
      · rename_i cols hc
        split at he
        · simp at he
        · simp only [Prod.mk.injEq, Except.ok.injEq, Val.frame.injEq] at he
          obtain ⟨rfl, rfl⟩ := he
          simp at hf1
          subst hf1
          exact ⟨cols, hc, by simp, by simp⟩

/-- **C174.** After a successful call every entry of the user's dictionary is a data frame whose index is the forecast index. -/
theorem C174_dictionary_afterwards {exog : List String} {coords : List (String × List String)} {fit : Idx} {c : Call}
    {d d2 : Dict V} {heap h2 : Heap V} {p : Plan V} (h : forecast exog coords fit c d heap = (.ok p, d2, h2)) :
    ∀ x ∈ d2, ∃ id f, x.2 = .frame id ∧ h2[id]? = some f ∧ f.idx.labels = p.index := by
  obtain ⟨d1, fi, k1, _, k3, k4, _⟩ := forecast_ok h
  intro x hx
  obtain ⟨id, f, e1, e2, e3, _⟩ := finalized k1 k4 x hx
  exact ⟨id, f, e1, e2, by rw [k3]; exact ((Idx.equals_iff _ _).mp e3).2⟩

/-- **C174.** A data frame the user put into the dictionary is itself given the forecast index (and keeps its columns and
numbers): the frame in the user's hands has changed. -/
theorem C174_user_frames_reindexed {exog : List String} {coords : List (String × List String)} {fit : Idx} {c : Call}
    {d d2 : Dict V} {heap h2 : Heap V} {p : Plan V} (h : forecast exog coords fit c d heap = (.ok p, d2, h2))
    (n : String) (id : ℕ) (hm : (n, Val.frame id) ∈ d) (f : Frame V) (hf : heap[id]? = some f) :
    ∃ f', h2[id]? = some f' ∧ f'.idx.labels = p.index ∧ f'.cols = f.cols ∧ f'.rows = f.rows := by
  obtain ⟨d1, fi, k1, _, k3, k4, _⟩ := forecast_ok h
  obtain ⟨hl, _⟩ := validate_ok k1
  obtain ⟨y, hy, hy1, _, hy3⟩ := forall₂_mem hl _ hm
  have hy2 : y.2 = .frame id := by
    simp only [validateVal] at hy3
    split at hy3
    · split at hy3
      · cases hy3
      · split at hy3
        · cases hy3
        · exact (Except.ok.inj hy3).symm
    · cases hy3
  have hf2 := finalizeLoop_forall₂ coords fi (fun x y => ∀ i, x.2 = .frame i → y.2 = .frame i) (fun _ _ h => h)
    (fun n g v v' g' he i hi => by
      simp only at hi ⊢
      subst hi
      exact (setIndex_ok (by simpa [finalizeVal] using he)).1) d1 [] [] heap .nil
  rw [k4, List.nil_append] at hf2
  obtain ⟨z, hz, hz2⟩ := forall₂_mem hf2 y hy
  obtain ⟨id', f', e1, e2, e3⟩ := C174_dictionary_afterwards h z hz
  have := hz2 id hy2
  rw [e1] at this
  cases this
  have hk := finalizeLoop_kept coords fi d1 [] heap
  rw [k4] at hk
  obtain ⟨f'', b1, b2, b3⟩ := hk id f hf
  simp only at b1
  rw [e2] at b1
  cases b1
  exact ⟨f', e2, e3, b2, b3⟩

theorem mapM_used {heap : Heap V} {d : Dict V} : ∀ {l : List String} {out : List (String × List (List V))},
    l.mapM (usedRows heap d) = .ok out → out.map Prod.fst = l ∧ ∀ x ∈ out, usedRows heap d x.1 = .ok x
  | [], out, h => by cases h; simp
  | n :: l, out, h => by
    rw [List.mapM_cons] at h
    cases hn : usedRows heap d n with
    | error e => rw [hn] at h; simp [bind, Except.bind] at h
    | ok x =>
      rw [hn] at h
      cases hl : l.mapM (usedRows heap d) with
      | error e => rw [hl] at h; simp [bind, Except.bind] at h
      | ok xs =>
        rw [hl] at h
        simp only [bind, Except.bind, pure, Except.pure, Except.ok.injEq] at h
        subst h
        have hx : x.1 = n := by
          unfold usedRows at hn
          split at hn
          · split at hn
            · cases hn; rfl
            · cases hn
          · cases hn
        obtain ⟨i1, i2⟩ := mapM_used hl
        refine ⟨by simp [hx, i1], ?_⟩
        intro y hy
        rcases List.mem_cons.mp hy with rfl | hy
        · rw [hx]; exact hn
        · exact i2 y hy

/-- **C174.** When `forecast` succeeds, the model receives for every exogenous variable exactly the numbers the user supplied
for it, in the user's order, as many rows as there are forecast dates. -/
theorem C174_model_gets_the_users_numbers {exog : List String} {coords : List (String × List String)} {fit : Idx} {c : Call}
    {d d2 : Dict V} {heap h2 : Heap V} {p : Plan V} (hv : Valid heap d) (hr : Rect heap) (hrd : RectDict d)
    (h : forecast exog coords fit c d heap = (.ok p, d2, h2)) :
    p.used.map Prod.fst = exog ∧
    ∀ x ∈ p.used, (∃ v, d.lookup x.1 = some v ∧ rowsGiven heap v = some x.2) ∧ x.2.length = p.index.length := by
  obtain ⟨hs, _, _⟩ := C174_numbers_never_change exog coords fit c d heap hv
  rw [h] at hs
  simp only at hs
  obtain ⟨d1, fi, k1, _, k3, k4, k5⟩ := forecast_ok h
  obtain ⟨u1, u2⟩ := mapM_used k5
  refine ⟨u1, ?_⟩
  intro x hx
  have hu := u2 x hx
  unfold usedRows at hu
  split at hu
  · rename_i id hid
    split at hu
    · rename_i f hf
      have hxr : f.rows = x.2 := congrArg Prod.snd (Except.ok.inj hu)
      obtain ⟨v, hv1, hv2⟩ := lookup_forall₂ (fun _ _ h => h.1) hs hid
      refine ⟨⟨v, hv1, ?_⟩, ?_⟩
      · rw [← hv2.2]; simp [rowsGiven, hf, hxr]
      · have hmem : (x.1, Val.frame id) ∈ d2 := by
          have : ∀ (l : Dict V) (w : Val V), l.lookup x.1 = some w → (x.1, w) ∈ l := by
            intro l w
            induction l with
            | nil => simp
            | cons y l ih =>
              obtain ⟨a, b⟩ := y
              intro hl
              rw [List.lookup_cons] at hl
              by_cases ha : x.1 = a
              · subst ha
                simp only [BEq.rfl] at hl
                cases hl; simp
              · have hb : (x.1 == a) = false := by simpa using ha
                rw [hb] at hl
                simp [ih hl]
          exact this _ _ hid
        obtain ⟨id', f', e1, e2, e3⟩ := C174_dictionary_afterwards h _ hmem
        cases e1
        rw [hf] at e2
        cases e2
        have hrect := finalizeLoop_rect coords fi d1 [] heap hr (by
          have := validate_rectDict (exog := exog) (coords := coords) (heap := heap) hrd
          rw [k1] at this; exact this)
        rw [k4] at hrect
        rw [← hxr, hrect f (List.mem_of_getElem? hf), e3]
    · cases hu
  · cases hu

/-- **C174.** A scenario with a number of rows other than the number of forecast dates never gets through: on success every
entry of the dictionary has exactly that many. -/
theorem C174_wrong_length_refused {exog : List String} {coords : List (String × List String)} {fit : Idx} {c : Call}
    {d d2 : Dict V} {heap h2 : Heap V} {p : Plan V} (hv : Valid heap d) (hr : Rect heap) (hrd : RectDict d)
    (h : forecast exog coords fit c d heap = (.ok p, d2, h2)) (n : String) (v : Val V) (hm : (n, v) ∈ d) :
    n ∈ exog ∧ ∃ rows, rowsGiven heap v = some rows ∧ rows.length = p.index.length := by
  obtain ⟨hs, _, _⟩ := C174_numbers_never_change exog coords fit c d heap hv
  rw [h] at hs
  simp only at hs
  obtain ⟨d1, fi, k1, _, k3, k4, k5⟩ := forecast_ok h
  obtain ⟨y, hy, hy1, hy2⟩ := forall₂_mem hs _ hm
  obtain ⟨id, f, e1, e2, e3⟩ := C174_dictionary_afterwards h y hy
  have hrect := finalizeLoop_rect coords fi d1 [] heap hr (by
    have := validate_rectDict (exog := exog) (coords := coords) (heap := heap) hrd
    rw [k1] at this; exact this)
  rw [k4] at hrect
  refine ⟨?_, f.rows, ?_, ?_⟩
  · obtain ⟨z, _, hz1, hz2, _⟩ := forall₂_mem (validate_ok k1).1 _ hm
    exact hz2
  · simp only at hy2
    rw [← hy2, e1]; simp [rowsGiven, e2]
  · rw [hrect f (List.mem_of_getElem? e2), e3]

/-- **C174.** The data frames of one dictionary must have had the same dates, else the call is refused. -/
theorem C174_frames_must_agree {exog : List String} {coords : List (String × List String)} {fit : Idx} {c : Call}
    {d d2 : Dict V} {heap h2 : Heap V} {p : Plan V} (h : forecast exog coords fit c d heap = (.ok p, d2, h2))
    (n m : String) (i j : ℕ) (f g : Frame V) (hi : (n, Val.frame i) ∈ d) (hj : (m, Val.frame j) ∈ d)
    (hf : heap[i]? = some f) (hg : heap[j]? = some g) : f.idx.labels = g.idx.labels ∧ f.idx.isDate = g.idx.isDate := by
  obtain ⟨d1, fi, k1, _, _, _, _⟩ := forecast_ok h
  obtain ⟨hl, _, _, heq⟩ := validate_ok k1
  have key : ∀ (n : String) (i : ℕ) (f : Frame V), (n, Val.frame i) ∈ d → heap[i]? = some f → f.idx ∈ frameIndices heap d1 := by
    intro n i f hi hf
    obtain ⟨⟨m, w⟩, hy, _, _, y3⟩ := forall₂_mem hl _ hi
    have hw : w = .frame i := by
      simp only [validateVal] at y3
      split at y3
      · split at y3
        · cases y3
        · split at y3
          · cases y3
          · exact (Except.ok.inj y3).symm
      · cases y3
    subst hw
    rw [frameIndices, List.mem_filterMap]
    exact ⟨_, hy, by simp [frameIndex, hf]⟩
  have := (Idx.equals_iff _ _).mp (heq _ (key n i f hi hf) _ (key m j g hj hg))
  exact ⟨this.2, this.1⟩

theorem finishIndex_some {ti fi : List ℤ} {x : ℤ} {r : ℤ × List ℤ} (h : finishIndex ti (some x) fi = .ok r) :
    r = (x, fi) ∧ x ∈ ti := by
  simp only [finishIndex, bind, Except.bind] at h
  split at h
  · cases h
  · split at h
    · cases h
    · rename_i hx
      cases h
      exact ⟨rfl, not_not.mp hx⟩

theorem stepBack_ok {fit idx fi : Idx} {t0 : ℤ} (h : stepBack fit idx = .ok (t0, fi)) :
    fi = idx ∧ fi.labels.head? = some (t0 + 1) ∧ t0 ∈ fit.labels ∧ fi.isDate = fit.isDate ∧
      (fi.isDate = true → fi.freq = .same) := by
  unfold stepBack at h
  split at h
  · cases h
  · rename_i x xs hl
    split at h
    · cases h
    · split at h
      · cases h
      · split at h
        · cases h
        · rename_i hfreq
          split at h
          · cases h
          · rename_i hdate
            split at h
            · cases h
            · rename_i r hr
              obtain ⟨rfl, hx⟩ := finishIndex_some hr
              simp only [Except.ok.injEq, Prod.mk.injEq] at h
              obtain ⟨rfl, rfl⟩ := h
              refine ⟨rfl, ?_, hx, not_not.mp hdate, ?_⟩
              · simp [hl]
              · intro hd
                by_contra hc
                exact hfreq ⟨hd, hc⟩

theorem buildFromScenario_ok {fit fi : Idx} {start : Start} {heap : Heap V} {d : Dict V} {t0 : ℤ}
    (h : buildFromScenario fit start heap d = .ok (t0, fi)) :
    ∃ n first rest, d = (n, first) :: rest ∧ getOrCreateIndex fit start heap first = .ok fi ∧
      stepBack fit fi = .ok (t0, fi) := by
  unfold buildFromScenario at h
  split at h
  · cases h
  · rename_i n first rest
    split at h
    · cases h
    · rename_i idx hi
      obtain ⟨rfl, _⟩ := stepBack_ok h
      exact ⟨n, first, rest, rfl, hi, h⟩

theorem buildIndex_scenario {fit : Idx} {c : Call} {heap : Heap V} {d : Dict V} {r : ℤ × Idx}
    (hc : c.useScenarioIndex = true) (h : buildIndex fit c heap d = .ok r) :
    buildFromScenario fit c.start heap d = .ok r ∧
    validateForecastArgs fit.isDate fit.labels c.start c.periods c.end_ (some (hasFrame d)) true = .ok () := by
  unfold buildIndex at h
  rw [hc] at h
  split at h
  · cases h
  · rename_i hv
    exact ⟨by simpa using h, hv⟩

theorem validateForecastArgs_scenario {isDate : Bool} {ti : List ℤ} {s : Start} {p e : Option ℤ} {b : Bool}
    (h : validateForecastArgs isDate ti s p e (some b) true = .ok ()) :
    validateForecastArgs isDate ti s p e (some true) true = .ok () := by
  cases b
  · exfalso
    unfold validateForecastArgs at h
    simp only at h
    generalize (match s with
      | .label s => isDate && decide (s ∉ ti)
      | .int s => decide (s.natAbs > ti.length)
      | .absent => false) = q at h
    cases q <;> cases p <;> cases e <;> simp at h
  · exact h

theorem validateForecastArgs_plain (isDate : Bool) (ti : List ℤ) (s : Start) (p e : Option ℤ) (b b' : Bool) :
    validateForecastArgs isDate ti s p e (some b) false = validateForecastArgs isDate ti s p e (some b') false := by
  simp [validateForecastArgs]

/-- The index of the first entry is the forecast index itself, frequency included. -/
theorem first_index {coords : List (String × List String)} {fit fi : Idx} {start : Start} {heap h2 : Heap V} {n : String}
    {v v' : Val V} (hk : (∃ id, v = .frame id) ∨ (∃ i y, v = .series i y) ∨ ∃ k r, v = .array k r)
    (hg : getOrCreateIndex fit start heap v = .ok fi) (hf : finalizeVal coords fi n heap v = (.ok v', h2)) :
    ∃ id f, v' = .frame id ∧ h2[id]? = some f ∧ f.idx = fi := by
  rcases hk with ⟨id, rfl⟩ | ⟨i, y, rfl⟩ | ⟨k, r, rfl⟩
  · simp only [getOrCreateIndex] at hg
    split at hg
    · rename_i f hfr
      simp only [Except.ok.injEq] at hg
      subst hg
      simp only [finalizeVal, setIndex, hfr, Idx.equals_refl, if_true, Prod.mk.injEq, Except.ok.injEq] at hf
      obtain ⟨rfl, rfl⟩ := hf
      exact ⟨id, f, rfl, hfr, rfl⟩
    · cases hg
  · simp only [getOrCreateIndex, Except.ok.injEq] at hg
    subst hg
    simp only [finalizeVal] at hf
    split at hf
    · simp at hf
    · simp at hf
    · rename_i col cs hc
      simp [setIndex, Idx.equals_refl] at hf
      obtain ⟨rfl, rfl⟩ := hf
      exact ⟨heap.length, ⟨i, [col], y.map fun x => [x]⟩, rfl, by simp, rfl⟩
  · simp only [finalizeVal] at hf
    split at hf
    · simp at hf
    · rename_i cols hc
      split at hf
      · simp at hf
      · simp only [Prod.mk.injEq, Except.ok.injEq] at hf
        obtain ⟨rfl, rfl⟩ := hf
        exact ⟨heap.length, ⟨fi, cols, r⟩, rfl, by simp, rfl⟩

/-- **C174.** Calling `forecast` again with the same arguments and the same dictionary gives the same forecast and changes
nothing further. -/
theorem C174_repeating_a_call {exog : List String} {coords : List (String × List String)} {fit : Idx} {c : Call}
    {d d2 : Dict V} {heap h2 : Heap V} {p : Plan V} (hr : Rect heap) (hrd : RectDict d)
    (h : forecast exog coords fit c d heap = (.ok p, d2, h2)) :
    forecast exog coords fit c d2 h2 = (.ok p, d2, h2) := by
  obtain ⟨d1, fi, k1, k2, k3, k4, k5⟩ := forecast_ok h
  have hall := finalized k1 k4
  have hrect := finalizeLoop_rect coords fi d1 [] heap hr (by
    have := validate_rectDict (exog := exog) (coords := coords) (heap := heap) hrd
    rw [k1] at this; exact this)
  rw [k4] at hrect
  simp only at hrect
  obtain ⟨hl, _, hne, _⟩ := validate_ok k1
  have hnames := finalizeLoop_forall₂ coords fi (fun x y => x.1 = y.1) (fun _ => rfl) (fun _ _ _ _ _ _ => rfl) d1 [] [] heap .nil
  rw [k4, List.nil_append] at hnames
  simp only at hnames
  have hd2 : d2 ≠ [] := by
    intro hc
    subst hc
    cases hnames
    exact hne rfl
  have hexog : ∀ x ∈ d2, x.1 ∈ exog := by
    intro x hx
    obtain ⟨y, hy, e⟩ := forall₂_mem' hnames x hx
    obtain ⟨z, _, z1, z2, _⟩ := forall₂_mem' hl y hy
    rw [← e, ← z1]; exact z2
  -- validation
  have hval : validate exog coords h2 d2 = (.ok (), d2) := by
    have hloop : validateLoop exog coords h2 [] d2 = (.ok (), d2) := by
      have : List.Forall₂ (fun x y => x.1 = y.1 ∧ x.1 ∈ exog ∧ validateVal coords h2 x.1 x.2 = .ok y.2) d2 d2 := by
        rw [List.forall₂_same]
        rintro ⟨n, w⟩ hx
        refine ⟨rfl, hexog _ hx, ?_⟩
        obtain ⟨id, f, e1, e2, _, e, e4, e5, e6⟩ := hall _ hx
        simp only at e1 e4 ⊢
        subst e1
        simp only [validateVal, e2, e4]
        rw [if_neg (by omega), if_neg (by omega)]
      simpa using validateLoop_ok_iff exog coords h2 d2 [] d2 this
    have hsteps : ∀ x ∈ d2, steps h2 x.2 = .ok fi.labels.length := by
      intro x hx
      obtain ⟨id, f, e1, e2, e3, _⟩ := hall x hx
      rw [e1]
      simp only [steps, e2]
      rw [hrect f (List.mem_of_getElem? e2), ((Idx.equals_iff _ _).mp e3).2]
    have hidx : checkIndices h2 d2 = .ok () := by
      have hall2 : ∀ i ∈ frameIndices h2 d2, i.equals fi = true := by
        intro i hi
        simp only [frameIndices, List.mem_filterMap] at hi
        obtain ⟨x, hx, hxi⟩ := hi
        obtain ⟨id, f, e1, e2, e3, _⟩ := hall x hx
        obtain ⟨n, w⟩ := x
        simp only at e1
        subst e1
        simp [frameIndex, e2] at hxi
        subst hxi
        exact e3
      unfold checkIndices
      split
      · rfl
      · rename_i i is he
        rw [if_pos]
        rw [List.all_eq_true]
        intro j hj
        rw [he] at hall2
        have a := (Idx.equals_iff _ _).mp (hall2 j hj)
        have b := (Idx.equals_iff _ _).mp (hall2 i (by simp))
        exact (Idx.equals_iff _ _).mpr ⟨a.1.trans b.1.symm, a.2.trans b.2.symm⟩
    unfold validate
    rw [hloop]
    cases d2 with
    | nil => exact absurd rfl hd2
    | cons x rest =>
      obtain ⟨n, w⟩ := x
      simp only
      rw [hsteps (n, w) (by simp)]
      simp only
      rw [checkSteps_ok.mpr hsteps]
      simp only
      rw [hidx]
  -- index
  have hbuild : buildIndex fit c h2 d2 = .ok (p.t0, fi) := by
    by_cases hc : c.useScenarioIndex = true
    · obtain ⟨b1, b2⟩ := buildIndex_scenario hc k2
      obtain ⟨n, first, rest, rfl, hg, hsb⟩ := buildFromScenario_ok b1
      have hfirst : ∃ id f tl, d2 = (n, .frame id) :: tl ∧ h2[id]? = some f ∧ f.idx = fi := by
        have hkind := validated_kinds k1 (n, first) (by simp)
        unfold finalizeLoop at k4
        split at k4
        · simp at k4
        · rename_i v' heap1 hfv
          obtain ⟨id, f, rfl, hf1, hf2⟩ := first_index hkind hg hfv
          obtain ⟨tl, htl⟩ := finalizeLoop_prefix coords fi rest ([] ++ [(n, .frame id)]) heap1
          have hp := finalizeLoop_persist coords fi id f (by rw [hf2]; exact Idx.equals_refl _) rest
            ([] ++ [(n, .frame id)]) heap1 hf1
          rw [k4] at htl hp
          exact ⟨id, f, tl, by simpa using htl, hp, hf2⟩
      obtain ⟨id, f, tl, rfl, hf1, hf2⟩ := hfirst
      unfold buildIndex
      have : hasFrame ((n, Val.frame id) :: tl : Dict V) = true := by simp [hasFrame]
      rw [this, hc, validateForecastArgs_scenario b2]
      simp only [if_true, buildFromScenario, getOrCreateIndex, hf1]
      rw [hf2]
      exact hsb
    · have hc' : c.useScenarioIndex = false := by simpa using hc
      rw [← k2]
      unfold buildIndex
      rw [hc', validateForecastArgs_plain _ _ _ _ _ (hasFrame d2) (hasFrame d1)]
      simp
  have hfin : finalizeLoop coords fi [] d2 h2 = (.ok (), d2, h2) := by
    have := finalizeLoop_fixed coords fi d2 [] h2 (fun x hx => by
      obtain ⟨id, f, e1, e2, e3, _⟩ := hall x hx
      exact ⟨id, f, e1, e2, e3⟩)
    simpa using this
  unfold forecast
  rw [hval]
  simp only
  rw [hbuild]
  simp only
  rw [hfin]
  simp only
  rw [k5]
  cases p
  simp only at k3
  simp [k3]

/-- **C174.** The index the user's data had is lost: after any successful call, a later successful call with the same
dictionary and `use_scenario_index=True` forecasts the dates of the earlier call. -/
theorem C174_scenario_index_is_the_previous_forecasts {exog : List String} {coords : List (String × List String)} {fit : Idx}
    {c c' : Call} {d d2 d3 : Dict V} {heap h2 h3 : Heap V} {p p' : Plan V}
    (h : forecast exog coords fit c d heap = (.ok p, d2, h2)) (hc : c'.useScenarioIndex = true)
    (h' : forecast exog coords fit c' d2 h2 = (.ok p', d3, h3)) :
    p'.index = p.index ∧ p'.index.head? = some (p'.t0 + 1) := by
  have hall := C174_dictionary_afterwards h
  obtain ⟨d1, fi, k1, k2, k3, _, _⟩ := forecast_ok h'
  obtain ⟨b1, _⟩ := buildIndex_scenario hc k2
  obtain ⟨n, first, rest, rfl, hg, hsb⟩ := buildFromScenario_ok b1
  obtain ⟨hl, _⟩ := validate_ok k1
  obtain ⟨y, hy, y1, _, y3⟩ := forall₂_mem' hl (n, first) (by simp)
  obtain ⟨id, f, e1, e2, e3⟩ := hall y hy
  have : first = .frame id := by
    rw [e1] at y3
    simp only [validateVal] at y3
    split at y3
    · split at y3
      · cases y3
      · split at y3
        · cases y3
        · cases y3; rfl
    · cases y3
  subst this
  simp only [getOrCreateIndex, e2, Except.ok.injEq] at hg
  obtain ⟨_, hh, _⟩ := stepBack_ok hsb
  subst hg
  rw [k3]
  exact ⟨e3, hh⟩

/-- **C174.** A single data frame passed instead of a dictionary is overwritten in the same way. -/
theorem C174_single_frame_reindexed {exog : List String} {coords : List (String × List String)} {fit : Idx} {c : Call}
    {id : ℕ} {heap h2 : Heap V} {p : Plan V} {f : Frame V} (hf : heap[id]? = some f)
    (h : forecastSingle exog coords fit c (.frame id) heap = (.ok p, h2)) :
    ∃ f', h2[id]? = some f' ∧ f'.idx.labels = p.index ∧ f'.cols = f.cols ∧ f'.rows = f.rows := by
  unfold forecastSingle at h
  split at h
  · rename_i name
    simp only [Prod.mk.injEq] at h
    obtain ⟨h1, h2'⟩ := h
    have : forecast [name] coords fit c [(name, .frame id)] heap =
        (.ok p, (forecast [name] coords fit c [(name, .frame id)] heap).2.1, h2) := by
      rw [← h1, ← h2']
    exact C174_user_frames_reindexed this name id (by simp) f hf
  · simp at h

/-! ### Concrete calls

Data fit on integer dates 0..9, one variable `"x"` with columns `a`, `b` and one `"z"` with column `c`. -/

/-- Fit index 0..9. -/
def fit0 : Idx := ⟨false, [0, 1, 2, 3, 4, 5, 6, 7, 8, 9], .none⟩
/-- Columns. -/
def coords0 : List (String × List String) := [("x", ["a", "b"]), ("z", ["c"])]
/-- A frame with two rows labelled 100, 101. -/
def frame0 : Frame ℕ := ⟨⟨false, [100, 101], .none⟩, ["a", "b"], [[1, 2], [3, 4]]⟩
/-- A frame nobody refers to. -/
def frame1 : Frame ℕ := ⟨⟨false, [7], .none⟩, ["q"], [[9]]⟩
/-- The dictionary: the frame and a list. -/
def dict0 : Dict ℕ := [("x", .frame 0), ("z", .pyList [[5], [6]])]
/-- Two periods from the end of the data. -/
def call0 : Call := ⟨.label 9, some 2, none, false, false⟩
/-- Using the scenario's index. -/
def call1 : Call := ⟨.label 9, some 2, none, false, true⟩
/-- Three periods: the wrong number. -/
def call2 : Call := ⟨.label 9, some 3, none, false, false⟩

/-- The call succeeds from date 9 for dates 10, 11, the model gets the rows, the user's frame is re-labelled. -/
theorem forecast0 : ∃ p d2 h2, forecast ["x", "z"] coords0 fit0 call0 dict0 [frame0, frame1] = (.ok p, d2, h2) ∧
    p.t0 = 9 ∧ p.index = [10, 11] ∧ p.used = [("x", [[1, 2], [3, 4]]), ("z", [[5], [6]])] ∧
    (h2.map fun f => f.idx.labels) = [[10, 11], [7], [10, 11]] ∧
    d2.map (fun x => match x.2 with | .frame i => some i | _ => none) = [some 0, some 2] := by
  refine ⟨⟨9, [10, 11], [("x", [[1, 2], [3, 4]]), ("z", [[5], [6]])]⟩, [("x", .frame 0), ("z", .frame 2)],
    [⟨⟨false, [10, 11], .same⟩, ["a", "b"], [[1, 2], [3, 4]]⟩, frame1,
      ⟨⟨false, [10, 11], .same⟩, ["c"], [[5], [6]]⟩], ?_, rfl, rfl, rfl, rfl, rfl⟩
  rfl

example : Valid [frame0, frame1] dict0 ∧ Rect [frame0, frame1] ∧ RectDict dict0 := by
  refine ⟨?_, ?_, ?_⟩
  · intro n id h; simp [dict0] at h; simp [h.2]
  · intro f hf; simp at hf; rcases hf with rfl | rfl <;> rfl
  · intro n i x h; simp [dict0] at h

/-- **C174.** A call that raises can leave the dictionary changed: here three periods are asked for, the call raises
`ValueError`, and the user's list has become an array; the second dictionary also has a frame whose index was overwritten
before the next entry raised. -/
theorem C174_failed_call_leaves_traces :
    (∃ d2 h2, forecast ["x", "z"] coords0 fit0 call2 dict0 [frame0, frame1] = (.error .valueError, d2, h2) ∧
      d2 = [("x", .frame 0), ("z", .array 1 [[5], [6]])]) ∧
    (∃ (d : Dict ℕ) (d2 : Dict ℕ) (h2 : Heap ℕ), d = [("x", .frame 0)] ∧
      forecast ["x", "z"] coords0 fit0 call0 d [frame0, frame1] = (.error .typeError, d2, h2) ∧
      (h2.map fun f => f.idx.labels) = [[10, 11], [7]]) := by
  refine ⟨⟨[("x", .frame 0), ("z", .array 1 [[5], [6]])], [frame0, frame1], rfl, rfl⟩,
    [("x", .frame 0)], [("x", .frame 0)], [⟨⟨false, [10, 11], .same⟩, ["a", "b"], [[1, 2], [3, 4]]⟩, frame1], rfl, rfl, rfl⟩

/-- The hypotheses of `C174_scenario_index_is_the_previous_forecasts` are met: the frame was labelled 100, 101 by the user,
which by itself would be refused, and after one call it is used for 10, 11. -/
example : (∃ p, (forecast ["x", "z"] coords0 fit0 call1
      (forecast ["x", "z"] coords0 fit0 call0 dict0 [frame0, frame1]).2.1
      (forecast ["x", "z"] coords0 fit0 call0 dict0 [frame0, frame1]).2.2).1 = .ok p ∧ p.index = [10, 11]) ∧
    (forecast ["x", "z"] coords0 fit0 call1 dict0 [frame0, frame1]).1 = .error .valueError :=
  ⟨⟨⟨9, [10, 11], [("x", [[1, 2], [3, 4]]), ("z", [[5], [6]])]⟩, rfl, rfl⟩, rfl⟩

example : ∃ p h2, forecastSingle ["x"] coords0 fit0 call0 (.frame 0) [frame0] = (.ok p, h2) ∧ p.index = [10, 11] :=
  ⟨⟨9, [10, 11], [("x", [[1, 2], [3, 4]])]⟩, [⟨⟨false, [10, 11], .same⟩, ["a", "b"], [[1, 2], [3, 4]]⟩], rfl, rfl⟩

/-- Two frames with different dates are refused although their lengths agree. -/
example : (forecast ["x", "z"] coords0 fit0 call0 [("x", .frame 0), ("z", .frame 1)]
    [frame0, ⟨⟨false, [100, 102], .none⟩, ["c"], [[5], [6]]⟩]).1 = .error .valueError := rfl

/-! ### C175: which index is used when the dictionary mixes frames and arrays -/

/-- What a successful call with `use_scenario_index=True` says about its first entry. -/
theorem scenario_first {exog : List String} {coords : List (String × List String)} {fit : Idx} {c : Call}
    {d d2 : Dict V} {heap h2 : Heap V} {p : Plan V} (hc : c.useScenarioIndex = true)
    (h : forecast exog coords fit c d heap = (.ok p, d2, h2)) {n : String} {v : Val V} {rest : Dict V}
    (hd : d = (n, v) :: rest) :
    ∃ v' fi, validateVal coords heap n v = .ok v' ∧ getOrCreateIndex fit c.start heap v' = .ok fi ∧
      stepBack fit fi = .ok (p.t0, fi) ∧ p.index = fi.labels := by
  obtain ⟨d1, fi, k1, k2, k3, _, _⟩ := forecast_ok h
  obtain ⟨b1, _⟩ := buildIndex_scenario hc k2
  obtain ⟨m, first, rest', rfl, hg, hsb⟩ := buildFromScenario_ok b1
  obtain ⟨hl, _⟩ := validate_ok k1
  subst hd
  cases hl with
  | cons h1 _ => exact ⟨first, fi, h1.2.2, hg, hsb, k3⟩

/-- **C175.** With `use_scenario_index=True`, if the first entry of the dictionary is a data frame, its index is the forecast
index and the forecast starts from the date before its first one, which must be in the data. -/
theorem C175_frame_first {exog : List String} {coords : List (String × List String)} {fit : Idx} {c : Call}
    {d2 rest : Dict V} {heap h2 : Heap V} {p : Plan V} {n : String} {id : ℕ} {f : Frame V}
    (hc : c.useScenarioIndex = true) (hf : heap[id]? = some f)
    (h : forecast exog coords fit c ((n, .frame id) :: rest) heap = (.ok p, d2, h2)) :
    p.index = f.idx.labels ∧ p.index.head? = some (p.t0 + 1) ∧ p.t0 ∈ fit.labels := by
  obtain ⟨v', fi, a1, a2, a3, a4⟩ := scenario_first hc h rfl
  have : v' = .frame id := by
    rcases validateVal_kind a1 with ⟨j, e1, e2⟩ | ⟨_, _, _, e2⟩ | ⟨k, r, e1⟩ | e1
    · cases e2; exact e1
    · cases e2
    · exfalso
      subst e1
      simp only [validateVal] at a1
      split at a1
      · split at a1
        · cases a1
        · split at a1
          · cases a1
          · cases a1
      · cases a1
    · exfalso
      subst e1
      simp only [validateVal] at a1
      split at a1
      · split at a1
        · cases a1
        · split at a1
          · cases a1
          · cases a1
      · cases a1
  subst this
  simp only [getOrCreateIndex, hf, Except.ok.injEq] at a2
  obtain ⟨_, b1, b2, _⟩ := stepBack_ok a3
  subst a2
  rw [a4]
  exact ⟨rfl, b1, b2⟩

theorem pyRange_head {a b s : ℤ} (h : (pyRange a b).head? = some s) : s = a := by
  unfold pyRange at h
  cases hn : (b - a).toNat with
  | zero => simp [hn] at h
  | succ k =>
    rw [hn, List.range_succ_eq_map] at h
    simp at h
    exact h.symm

/-- **C175.** With `use_scenario_index=True`, if the first entry is an array and the user's start is a label `s`, then the
index of the frames in the dictionary is not used: the forecast is for the dates `s, s+1, …` (as many as the array has rows)
and starts from the date before `s`. -/
theorem C175_array_first {exog : List String} {coords : List (String × List String)} {fit : Idx} {c : Call}
    {d2 rest : Dict V} {heap h2 : Heap V} {p : Plan V} {n : String} {k : ℕ} {rows : List (List V)} {s : ℤ}
    (hc : c.useScenarioIndex = true) (hs : c.start = .label s)
    (h : forecast exog coords fit c ((n, .array k rows) :: rest) heap = (.ok p, d2, h2)) :
    p.index = (List.range rows.length).map (fun i : ℕ => s + i) ∧ p.t0 = s - 1 ∧ s - 1 ∈ fit.labels := by
  obtain ⟨v', fi, a1, a2, a3, a4⟩ := scenario_first hc h rfl
  obtain ⟨rfl, _⟩ := checkWidth_ok a1
  rw [hs] at a2
  simp only [getOrCreateIndex, getOrCreateIndex.make, Except.ok.injEq] at a2
  obtain ⟨_, b1, b2, _⟩ := stepBack_ok a3
  subst a2
  simp only at b1 a4
  have ht := pyRange_head b1
  have hts : p.t0 = s - 1 := by omega
  refine ⟨?_, hts, by rw [← hts]; exact b2⟩
  rw [a4, pyRange]
  congr 2
  omega

/-- **C175.** Without `use_scenario_index` the same start and as many periods give the dates after `s`, from `s` itself. -/
theorem C175_contrast_plain {exog : List String} {coords : List (String × List String)} {fit : Idx} {c : Call}
    {d d2 : Dict V} {heap h2 : Heap V} {p : Plan V} {s : ℤ} {m : ℕ} (hc : c.useScenarioIndex = false)
    (hs : c.start = .label s) (hpos : 0 ≤ s) (hm : c.periods = some (m : ℤ))
    (h : forecast exog coords fit c d heap = (.ok p, d2, h2)) :
    p.index = (List.range m).map (fun i : ℕ => s + 1 + i) ∧ p.t0 = s := by
  obtain ⟨d1, fi, _, k2, k3, _, _⟩ := forecast_ok h
  have hrange : pyRange s (s + m + 1) = s :: (List.range m).map (fun i : ℕ => s + 1 + i) := by
    have : (s + (m : ℤ) + 1 - s).toNat = m + 1 := by omega
    rw [pyRange, this, List.range_succ_eq_map]
    simp
    intro a _
    omega
  have hfin : ∀ r, finishIndex fit.labels none (pyRange s (s + m + 1)) = .ok r →
      r = (s, (List.range m).map (fun i : ℕ => s + 1 + i)) := by
    intro r hr
    rw [hrange] at hr
    simp only [finishIndex, bind, Except.bind] at hr
    split at hr
    · cases hr
    · split at hr
      · cases hr
      · cases hr; rfl
  unfold buildIndex at k2
  split at k2
  · cases k2
  · rw [hc] at k2
    simp only [Bool.false_eq_true, if_false] at k2
    split at k2
    · cases k2
    · rename_i r hr
      simp only [Except.ok.injEq, Prod.mk.injEq] at k2
      obtain ⟨e1, e2⟩ := k2
      have hr2 : finishIndex fit.labels none (pyRange s (s + m + 1)) = .ok r := by
        split at hr
        · simp only [buildIndexDate, hs, hm, bind, Except.bind] at hr
          split at hr
          · cases hr
          · rw [if_neg (by omega)] at hr
            exact hr
        · simp only [buildIndexInt, hs, hm, bind, Except.bind] at hr
          rw [if_neg (by omega)] at hr
          exact hr
      obtain rfl := hfin r hr2
      subst e2
      exact ⟨k3, e1.symm⟩

/-- **C175.** So the order in which the user wrote the dictionary decides which dates are forecast: the same two entries, the
frame first or the array first, both succeed and forecast different dates from different starting points. -/
theorem C175_order_of_the_dictionary_matters :
    ∃ (heap : Heap ℕ) (c : Call) (x z : String × Val ℕ) (p p' : Plan ℕ),
      (forecast ["x", "z"] coords0 fit0 c [x, z] heap).1 = .ok p ∧
      (forecast ["x", "z"] coords0 fit0 c [z, x] heap).1 = .ok p' ∧
      p.used = p'.used ∧ p.index = [10, 11] ∧ p.t0 = 9 ∧ p'.index = [5, 6] ∧ p'.t0 = 4 := by
  refine ⟨[⟨⟨false, [10, 11], .none⟩, ["a", "b"], [[1, 2], [3, 4]]⟩], ⟨.label 5, some 2, none, false, true⟩,
    ("x", .frame 0), ("z", .array 1 [[5], [6]]), ⟨9, [10, 11], [("x", [[1, 2], [3, 4]]), ("z", [[5], [6]])]⟩,
    ⟨4, [5, 6], [("x", [[1, 2], [3, 4]]), ("z", [[5], [6]])]⟩, rfl, rfl, rfl, rfl, rfl, rfl, rfl⟩

/-- **C175.** A data frame of dates without a frequency can never be used as the scenario index: once the arguments are
accepted the call raises `TypeError`. -/
theorem C175_dates_without_frequency {exog : List String} {coords : List (String × List String)} {fit : Idx} {c : Call}
    {d1 rest : Dict V} {heap : Heap V} {n : String} {id : ℕ} {f : Frame V} {x : ℤ} {xs : List ℤ}
    (hc : c.useScenarioIndex = true) (hf : heap[id]? = some f) (hd : f.idx.isDate = true) (hq : f.idx.freq = .none)
    (hl : f.idx.labels = x :: xs)
    (hval : validate exog coords heap ((n, .frame id) :: rest) = (.ok (), d1))
    (hargs : validateForecastArgs fit.isDate fit.labels c.start c.periods c.end_ (some true) true = .ok ()) :
    (forecast exog coords fit c ((n, .frame id) :: rest) heap).1 = .error .typeError := by
  obtain ⟨hfa, _⟩ := validate_ok hval
  cases hfa with
  | @cons _ y _ tl h1 _ =>
    obtain ⟨m, w⟩ := y
    obtain ⟨e1, _, e3⟩ := h1
    simp only at e1 e3
    subst e1
    have hw : w = .frame id := by
      simp only [validateVal] at e3
      split at e3
      · split at e3
        · cases e3
        · split at e3
          · cases e3
          · exact (Except.ok.inj e3).symm
      · cases e3
    subst hw
    have hfr : hasFrame ((n, Val.frame id) :: tl : Dict V) = true := by simp [hasFrame]
    unfold forecast
    rw [hval]
    simp only [buildIndex, hfr, hc, hargs, if_true, buildFromScenario, getOrCreateIndex, hf, stepBack, hl, hd, hq]
    simp

/-- **C175.** A data frame of dates with a frequency, for a model fit on an integer index, raises `AttributeError`. -/
theorem C175_dates_for_integer_data {exog : List String} {coords : List (String × List String)} {fit : Idx} {c : Call}
    {d1 rest : Dict V} {heap : Heap V} {n : String} {id : ℕ} {f : Frame V} {x : ℤ} {xs : List ℤ}
    (hc : c.useScenarioIndex = true) (hf : heap[id]? = some f) (hd : f.idx.isDate = true) (hq : f.idx.freq ≠ .none)
    (hl : f.idx.labels = x :: xs) (hfit : fit.isDate = false)
    (hval : validate exog coords heap ((n, .frame id) :: rest) = (.ok (), d1))
    (hargs : validateForecastArgs fit.isDate fit.labels c.start c.periods c.end_ (some true) true = .ok ()) :
    (forecast exog coords fit c ((n, .frame id) :: rest) heap).1 = .error .attributeError := by
  obtain ⟨hfa, _⟩ := validate_ok hval
  cases hfa with
  | @cons _ y _ tl h1 _ =>
    obtain ⟨m, w⟩ := y
    obtain ⟨e1, _, e3⟩ := h1
    simp only at e1 e3
    subst e1
    have hw : w = .frame id := by
      simp only [validateVal] at e3
      split at e3
      · split at e3
        · cases e3
        · split at e3
          · cases e3
          · exact (Except.ok.inj e3).symm
      · cases e3
    subst hw
    have hfr : hasFrame ((n, Val.frame id) :: tl : Dict V) = true := by simp [hasFrame]
    rw [hfit] at hargs
    unfold forecast
    rw [hval]
    simp only [buildIndex, hfr, hc, hfit, hargs, if_true, buildFromScenario, getOrCreateIndex, hf, stepBack, hl, hd]
    simp [hq]

/-- **C175.** A series is as good as a frame: for a model with one exogenous variable of one column, a series whose first label
follows an observed one is accepted with `use_scenario_index=True`; the forecast is for exactly the labels of the series, from the
label before the first one, with the numbers of the series. -/
theorem C175_series_alone {coords : List (String × List String)} {fit idx : Idx} {c : Call} {heap : Heap V} {n col : String}
    {vals : List V} {x : ℤ} {xs : List ℤ} (hc : c.useScenarioIndex = true) (hco : coords.lookup n = some [col])
    (hd : idx.isDate = fit.isDate) (hq : idx.isDate = true → idx.freq = .same) (hl : idx.labels = x :: xs)
    (hx : x - 1 ∈ fit.labels) (hnew : x - 1 ∉ idx.labels) (hs : c.start = .absent) (hp : c.periods.isSome ≠ c.end_.isSome) :
    (forecast [n] coords fit c [(n, .series idx vals)] heap).1 =
      .ok ⟨x - 1, idx.labels, [(n, vals.map fun v => [v])]⟩ := by
  have hargs : validateForecastArgs fit.isDate fit.labels c.start c.periods c.end_ (some true) true = .ok () := by
    rw [hs]
    cases h1 : c.periods <;> cases h2 : c.end_ <;> simp_all [validateForecastArgs]
  have hval : validate [n] coords heap [(n, .series idx vals)] = (.ok (), [(n, .series idx vals)]) := by
    have hfi : frameIndices heap [(n, (Val.series idx vals : Val V))] = [] := rfl
    simp [validate, validateLoop, validateVal, hco, steps, checkSteps, checkIndices, hfi]
  have hfin : finishIndex fit.labels (some (x - 1)) idx.labels = .ok (x - 1, idx.labels) := by
    simp [finishIndex, bind, Except.bind, hx, hnew]
  have hsb : stepBack fit idx = .ok (x - 1, idx) := by
    unfold stepBack
    rw [hl]
    simp only
    rw [← hl, hfin]
    obtain ⟨b, ls, fr⟩ := idx
    simp only at hd hq ⊢
    cases b
    · simp [← hd]
    · simp [← hd, hq rfl]
  have hset : setIndex idx heap.length (heap ++ [(⟨idx, [col], vals.map fun v => [v]⟩ : Frame V)]) =
      (.ok (.frame heap.length), heap ++ [⟨idx, [col], vals.map fun v => [v]⟩]) := by
    have : idx.equals idx = true := (Idx.equals_iff _ _).mpr ⟨rfl, rfl⟩
    simp [setIndex, this]
  have hfr : hasFrame [(n, (Val.series idx vals : Val V))] = true := by simp [hasFrame]
  unfold forecast
  rw [hval]
  simp only [buildIndex, hfr, hc, hargs, if_true, buildFromScenario, getOrCreateIndex, hsb, finalizeLoop, finalizeVal, hco, hset]
  simp [usedRows, pure, Except.pure, bind, Except.bind]

/-- **C175.** Arrays have no index: if all entries are arrays, `use_scenario_index=True` is always refused. -/
theorem C175_arrays_have_no_index {exog : List String} {coords : List (String × List String)} {fit : Idx} {c : Call} {d : Dict V}
    {heap : Heap V} (hc : c.useScenarioIndex = true) (ha : ∀ x ∈ d, ∃ k rows, x.2 = .array k rows) :
    ∃ e, (forecast exog coords fit c d heap).1 = .error e := by
  rcases forecast_cases exog coords fit c d heap with ⟨h, e, he⟩ | ⟨d1, t0, fi, h1, h2, h3, h4⟩
  · exact ⟨e, he⟩
  · exfalso
    obtain ⟨hl, _⟩ := validate_ok h1
    have hfr : hasFrame d1 = false := by
      simp only [hasFrame, List.any_eq_false]
      intro y hy
      obtain ⟨x, hx, -, -, hx3⟩ := forall₂_mem' hl _ hy
      obtain ⟨k, rows, e⟩ := ha x hx
      rw [e] at hx3
      obtain ⟨e', _⟩ := checkWidth_ok hx3
      simp [e']
    rw [buildIndex, hfr, hc] at h2
    have hbad : validateForecastArgs fit.isDate fit.labels c.start c.periods c.end_ (some false) true ≠ .ok () := by
      unfold validateForecastArgs
      simp only
      intro hh
      split_ifs at hh
      simp_all
    cases hv : validateForecastArgs fit.isDate fit.labels c.start c.periods c.end_ (some false) true with
    | error e => rw [hv] at h2; cases h2
    | ok u => exact hbad hv

example : (forecast ["z"] coords0 fit0 ⟨.absent, some 2, none, false, true⟩ [("z", .series ⟨false, [10, 11], .none⟩ [5, 6])] []).1 =
    .ok ⟨9, [10, 11], [("z", [[5], [6]])]⟩ :=
  C175_series_alone (idx := ⟨false, [10, 11], .none⟩) (fit := fit0) (c := ⟨.absent, some 2, none, false, true⟩) (x := 10) (xs := [11])
    (col := "c") rfl rfl rfl (by simp) rfl (by decide) (by decide) rfl (by simp)

/-- A date frame without and with a frequency. -/
def dates0 (q : Freq) : Frame ℕ := ⟨⟨true, [10, 11], q⟩, ["a", "b"], [[1, 2], [3, 4]]⟩

example : (forecast ["x"] coords0 fit0 call1 [("x", .frame 0)] [dates0 .none]).1 = .error .typeError :=
  C175_dates_without_frequency (f := dates0 .none) rfl rfl rfl rfl rfl (d1 := [("x", .frame 0)]) rfl rfl

example : (forecast ["x"] coords0 fit0 call1 [("x", .frame 0)] [dates0 .same]).1 = .error .attributeError :=
  C175_dates_for_integer_data (f := dates0 .same) rfl rfl rfl (by simp [dates0]) rfl rfl (d1 := [("x", .frame 0)]) rfl rfl

end Verif.Forecast.Obj
