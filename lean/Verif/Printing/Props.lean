import Verif.Printing.Lemmas

/-!
# Properties of `model_table` (C151-C154)
-/

set_option autoImplicit false

namespace Verif.Printing

/-- The variables listed, in order. -/
def Spec.listed (m : Model) (splitGroups : Bool) : List Str :=
  if splitGroups then m.data ++ m.free ++ m.det ++ m.pot ++ m.obs else m.named

/-- The label of a variable's row. -/
def Spec.label (m : Model) (v : Str) : Str :=
  v ++ if v ∈ m.free ∨ v ∈ m.obs then [' ', '~'] else [' ', '=']

/-- The text of a parameter-count row. -/
def Spec.count (n : ℕ) : Str := "Parameter count = ".toList ++ (toString n).toList

/-! ### C151: rows -/

theorem flatten_filter (gs : List (List Str)) : (gs.filter (· ≠ [])).flatten = gs.flatten := by
  induction gs with
  | nil => rfl
  | cons g gs ih =>
    by_cases h : g = []
    · simpa [h] using ih
    · simp only [ne_eq, h, not_false_eq_true, decide_true, List.filter_cons_of_pos, List.flatten_cons]
      rw [← ih]

theorem groups_flatten (m : Model) (s : Bool) : (groups m s).flatten = Spec.listed m s := by
  cases s <;> simp [groups, Spec.listed]

theorem label_ne_nil (m : Model) (v : Str) : Spec.label m v ≠ [] := by
  unfold Spec.label
  split <;> simp

theorem dims_ne (m : Model) (v d : Str) (h : dimsExpression m v = .ok d) : d ≠ ['[', ']'] := by
  have key : ∀ l : List Str, join " × ".toList (l.map (dimEntry m)) ≠ ['[', ']'] := by
    intro l heq
    cases l with
    | nil => simp [join] at heq
    | cons a l =>
      have hlen : 3 ≤ (join " × ".toList ((a :: l).map (dimEntry m))).length := by
        have : 0 < (digits ((m.dimLen a).getD 0)).length := List.length_pos_iff.mpr (digits_ne_nil _)
        cases l with
        | nil => simp [join, dimEntry]; omega
        | cons b l => simp [join, dimEntry]; omega
      rw [heq] at hlen
      simp at hlen
  unfold dimsExpression at h
  cases hd : m.dims v with
  | some ds =>
    rw [hd] at h
    simp only at h
    cases hl : lookupDims m ds with
    | error e => rw [hl] at h; simp at h
    | ok l =>
      rw [hl] at h
      simp only [Except.ok.injEq] at h
      rw [← h]
      exact key _
  | none =>
    rw [hd] at h
    simp only at h
    split at h
    · simp only [Except.ok.injEq] at h
      rw [← h]; simp
    · rename_i hs
      simp only [Except.ok.injEq] at h
      intro h2
      rw [h2] at h
      have h3 := congrArg List.length h
      cases hsz : m.shape v with
      | nil => exact hs hsz
      | cons a l =>
        have : 0 < (digits a).length := List.length_pos_iff.mpr (digits_ne_nil _)
        rw [hsz] at h3
        cases l with
        | nil => simp [join] at h3; exact digits_ne_nil _ h3
        | cons b l => simp [join] at h3; omega

/-- **C151** What a variable's row contains: the name with `~` for random variables and `=` for everything else, the
expression and the dimensions. -/
theorem C151_row (m : Model) (limit : Option ℕ) (v : Str) (r : Row) :
    varRow m limit v = .ok r ↔
      r.label = Spec.label m v ∧ variableExpression m limit v = .ok r.expr ∧ dimsExpression m v = .ok r.dims ∧
      r.endSection = false := by
  unfold varRow
  cases he : variableExpression m limit v with
  | error e => simp
  | ok e =>
    cases hd : dimsExpression m v with
    | error e => simp
    | ok d =>
      have hne := dims_ne m v d hd
      have h2 : ("[]".toList : Str) = ['[', ']'] := rfl
      simp only [h2, hne, ↓reduceIte, Except.ok.injEq, Spec.label, List.mem_append]
      have e1 : " ~".toList = [' ', '~'] := rfl
      have e2 : " =".toList = [' ', '='] := rfl
      rw [e1, e2]
      constructor
      · rintro rfl; exact ⟨rfl, rfl, rfl, rfl⟩
      · obtain ⟨a, b, c, d'⟩ := r
        rintro ⟨rfl, rfl, rfl, rfl⟩
        rfl

/-- Text of the count row. -/
@[irreducible] def countText (m : Model) : Str := (countRow m).dims

theorem countText_eq (m : Model) : countText m = "Parameter count = ".toList ++ parameterCount m := by
  unfold countText; rfl

theorem labels_block (m : Model) (limit : Option ℕ) (g : List Str) (rs : List Row) (b : Bool)
    (h : varRows m limit g = .ok rs) :
    ((block m b rs).filter fun r => r.label ≠ []).map Row.label = g.map (Spec.label m) ∧
    ((block m b rs).filter fun r => r.label = []).map Row.dims =
      if b then [countText m] else [] := by
  rw [varRows_forall] at h
  have hsec : ∀ l : List Row, (addSection l).map (fun r => (r.label, r.dims)) = l.map fun r => (r.label, r.dims) := by
    intro l
    unfold addSection
    cases hl : l.getLast? with
    | none => rfl
    | some r =>
      obtain ⟨ys, rfl⟩ := List.getLast?_eq_some_iff.mp hl
      simp
  have hf1 : ∀ l l' : List Row, l.map (fun r => (r.label, r.dims)) = l'.map (fun r => (r.label, r.dims)) →
      (l.filter fun r => r.label ≠ []).map Row.label = (l'.filter fun r => r.label ≠ []).map Row.label ∧
      (l.filter fun r => r.label = []).map Row.dims = (l'.filter fun r => r.label = []).map Row.dims := by
    intro l
    induction l with
    | nil => intro l' h; cases l' with
      | nil => simp
      | cons => simp at h
    | cons a l ih =>
      intro l' h
      cases l' with
      | nil => simp at h
      | cons a' l' =>
        simp only [List.map_cons, List.cons.injEq, Prod.mk.injEq] at h
        obtain ⟨⟨h1, h2⟩, h3⟩ := h
        obtain ⟨i1, i2⟩ := ih l' h3
        by_cases hl : a'.label = []
        · simp only [h1, hl, ne_eq, not_true_eq_false, decide_false, Bool.false_eq_true, not_false_eq_true,
            List.filter_cons_of_neg, decide_true, List.filter_cons_of_pos, List.map_cons, h2]
          exact ⟨i1, by rw [i2]⟩
        · simp only [h1, hl, ne_eq, not_false_eq_true, decide_true, List.filter_cons_of_pos, List.map_cons, decide_false,
            Bool.false_eq_true, List.filter_cons_of_neg]
          exact ⟨by rw [i1], i2⟩
  have hbase : (rs.filter fun r => r.label ≠ []).map Row.label = g.map (Spec.label m) ∧
      (rs.filter fun r => r.label = []).map Row.dims = [] := by
    induction h with
    | nil => simp
    | @cons v r vs rs hv _ ih =>
      have hl := ((C151_row m limit v r).mp hv).1
      have hn := label_ne_nil m v
      simp only [hl, hn, ne_eq, not_false_eq_true, decide_true, List.filter_cons_of_pos, List.map_cons, decide_false,
        Bool.false_eq_true, List.filter_cons_of_neg]
      exact ⟨by rw [ih.1], ih.2⟩
  unfold block
  have := hf1 _ _ (hsec (if b = true then rs ++ [countRow m] else rs))
  rw [this.1, this.2]
  cases b with
  | false => simpa using hbase
  | true =>
    simp only [↓reduceIte, List.filter_append, List.map_append, hbase.1, hbase.2]
    rw [countText]
    simp [countRow]

theorem table_parts (m : Model) (s : Bool) (limit : Option ℕ) (c : Bool) (rows : List Row)
    (h : modelTable m s limit c = .ok rows) :
    (rows.filter fun r => r.label ≠ []).map Row.label = (Spec.listed m s).map (Spec.label m) ∧
    (rows.filter fun r => r.label = []).map Row.dims =
      ((groups m s).filter (· ≠ [])).flatMap fun g =>
        if c && (!s || g == m.free) then [countText m] else [] := by
  unfold modelTable at h
  rw [tableLoop_spec] at h
  obtain ⟨bs, hbs, rfl⟩ := h
  rw [List.nil_append, ← groups_flatten, ← flatten_filter]
  generalize (groups m s).filter (· ≠ []) = gs at hbs ⊢
  induction hbs with
  | nil => simp
  | @cons g rs gs bs hg _ ih =>
    obtain ⟨h1, h2⟩ := labels_block m limit g rs (c && (!s || g == m.free)) hg
    simp only [List.zip_cons_cons, List.flatMap_cons, List.filter_append, List.map_append, List.flatten_cons, h1, h2,
      ih.1, ih.2, and_self]

/-- **C151** Every variable is listed once, with its group (or, without groups, in order of definition), and nothing else is
listed beside parameter counts. -/
theorem C151_rows (m : Model) (s : Bool) (limit : Option ℕ) (c : Bool) (rows : List Row)
    (h : modelTable m s limit c = .ok rows) :
    (rows.filter fun r => r.label ≠ []).map Row.label = (Spec.listed m s).map (Spec.label m) :=
  (table_parts m s limit c rows h).1

/-- **C151** The two layouts list the same variables when the named variables are those of the five groups. -/
theorem C151_same_variables (m : Model) (limit limit' : Option ℕ) (c c' : Bool) (rows rows' : List Row)
    (hp : m.named.Perm (m.data ++ m.free ++ m.det ++ m.pot ++ m.obs))
    (h : modelTable m true limit c = .ok rows) (h' : modelTable m false limit' c' = .ok rows') :
    ((rows.filter fun r => r.label ≠ []).map Row.label).Perm ((rows'.filter fun r => r.label ≠ []).map Row.label) := by
  rw [C151_rows m true limit c rows h, C151_rows m false limit' c' rows' h']
  exact (hp.map _).symm

/-- **C151** The table can be made exactly when every listed variable has an expression and dimensions. -/
theorem C151_succeeds_iff (m : Model) (s : Bool) (limit : Option ℕ) (c : Bool) :
    (∃ rows, modelTable m s limit c = .ok rows) ↔
      ∀ v ∈ Spec.listed m s, (∃ e, variableExpression m limit v = .ok e) ∧ ∃ d, dimsExpression m v = .ok d := by
  have hrow : ∀ v, (∃ r, varRow m limit v = .ok r) ↔
      (∃ e, variableExpression m limit v = .ok e) ∧ ∃ d, dimsExpression m v = .ok d := by
    intro v
    constructor
    · rintro ⟨r, h⟩
      rw [C151_row] at h
      exact ⟨⟨_, h.2.1⟩, ⟨_, h.2.2.1⟩⟩
    · rintro ⟨⟨e, he⟩, ⟨d, hd⟩⟩
      exact ⟨⟨Spec.label m v, e, d, false⟩, (C151_row _ _ _ _).mpr ⟨rfl, he, hd, rfl⟩⟩
  have hrows : ∀ g, (∃ rs, varRows m limit g = .ok rs) ↔ ∀ v ∈ g, ∃ r, varRow m limit v = .ok r := by
    intro g
    simp only [varRows_forall]
    induction g with
    | nil => simp
    | cons v g ih =>
      rw [List.forall_mem_cons, ← ih]
      constructor
      · rintro ⟨rs, h⟩
        rw [List.forall₂_cons_left_iff] at h
        obtain ⟨r, l, h1, h2, -⟩ := h
        exact ⟨⟨r, h1⟩, ⟨l, h2⟩⟩
      · rintro ⟨⟨r, h1⟩, ⟨l, h2⟩⟩
        exact ⟨r :: l, .cons h1 h2⟩
  have hlist : ∀ gs : List (List Str), (∃ bs, List.Forall₂ (fun g rs => varRows m limit g = .ok rs) gs bs) ↔
      ∀ v ∈ gs.flatten, ∃ r, varRow m limit v = .ok r := by
    intro gs
    induction gs with
    | nil => simp
    | cons g gs ih =>
      rw [List.flatten_cons]
      simp only [List.mem_append, or_imp, forall_and]
      rw [← ih, ← hrows]
      constructor
      · rintro ⟨rs, h⟩
        rw [List.forall₂_cons_left_iff] at h
        obtain ⟨r, l, h1, h2, -⟩ := h
        exact ⟨⟨r, h1⟩, ⟨l, h2⟩⟩
      · rintro ⟨⟨r, h1⟩, ⟨l, h2⟩⟩
        exact ⟨r :: l, .cons h1 h2⟩
  unfold modelTable
  simp only [tableLoop_spec]
  rw [← groups_flatten, ← flatten_filter]
  simp only [← hrow]
  rw [← hlist]
  constructor
  · rintro ⟨rows, bs, h, -⟩; exact ⟨bs, h⟩
  · rintro ⟨bs, h⟩; exact ⟨_, bs, h, rfl⟩

/-! ### C152: the parameter count -/

/-- Two groups never share a variable. -/
def Spec.Disjoint (m : Model) : Prop :=
  ∀ v ∈ m.free, v ∉ m.data ∧ v ∉ m.det ∧ v ∉ m.pot ∧ v ∉ m.obs

/-- **C152** With groups, the count row is present once when there are free variables and the count is wanted, and says the
total number of elements of the free random variables; otherwise there is none. -/
theorem C152_split (m : Model) (limit : Option ℕ) (c : Bool) (rows : List Row) (hd : Spec.Disjoint m)
    (h : modelTable m true limit c = .ok rows) :
    (rows.filter fun r => r.label = []).map Row.dims =
      if c = true ∧ m.free ≠ [] then [Spec.count ((m.free.map fun v => (m.shape v).prod).sum)] else [] := by
  rw [(table_parts m true limit c rows h).2]
  cases c with
  | false => simp
  | true =>
    have hne : ∀ g : List Str, g ≠ [] → (∀ v ∈ g, v ∉ m.free) → (g == m.free) = false := by
      intro g hg hv
      rw [beq_eq_false_iff_ne]
      rintro rfl
      obtain ⟨v, l, hgl⟩ := List.exists_cons_of_ne_nil hg
      exact hv v (by simp [hgl]) (by simp [hgl])
    have drop : ∀ (g : List Str) (gs : List (List Str)), (∀ v ∈ g, v ∉ m.free) →
        (((g :: gs).filter (· ≠ [])).flatMap fun g =>
          if true && (!true || g == m.free) then [countText m] else []) =
        ((gs.filter (· ≠ [])).flatMap fun g =>
          if true && (!true || g == m.free) then [countText m] else []) := by
      intro g gs hv
      by_cases hg : g = []
      · simp [hg]
      · have := hne g hg hv
        rw [beq_eq_false_iff_ne] at this
        simp [hg, this]
    have hd1 : ∀ v ∈ m.data, v ∉ m.free := fun v hv hf => (hd v hf).1 hv
    have hd2 : ∀ v ∈ m.det, v ∉ m.free := fun v hv hf => (hd v hf).2.1 hv
    have hd3 : ∀ v ∈ m.pot, v ∉ m.free := fun v hv hf => (hd v hf).2.2.1 hv
    have hd4 : ∀ v ∈ m.obs, v ∉ m.free := fun v hv hf => (hd v hf).2.2.2 hv
    simp only [groups, ↓reduceIte]
    rw [drop _ _ hd1]
    by_cases hf : m.free = []
    · rw [List.filter_cons_of_neg (by simp [hf]), drop _ _ hd2, drop _ _ hd3, drop _ _ hd4]
      simp [hf]
    · rw [List.filter_cons_of_pos (by simp [hf]), List.flatMap_cons, drop _ _ hd2, drop _ _ hd3, drop _ _ hd4]
      simp only [Bool.true_and, Bool.not_true, BEq.rfl, Bool.or_true, ↓reduceIte, ne_eq, hf, not_false_eq_true, and_self,
        List.filter_nil, List.flatMap_nil, List.append_nil]
      rw [countText_eq]
      congr 1
      unfold parameterCount Spec.count digits
      obtain ⟨v, l, hgl⟩ := List.exists_cons_of_ne_nil hf
      rw [hgl]

/-- **C152** Without groups there is exactly one count row, at the end, whenever the model has a variable — also when it has no
parameter, and then the count reads `0.0`. -/
theorem C152_unsplit (m : Model) (limit : Option ℕ) (c : Bool) (rows : List Row)
    (h : modelTable m false limit c = .ok rows) :
    (rows.filter fun r => r.label = []).map Row.dims =
      (if c = true ∧ m.named ≠ [] then
        [if m.free = [] then "Parameter count = 0.0".toList
         else Spec.count ((m.free.map fun v => (m.shape v).prod).sum)] else []) ∧
    (c = true → m.named ≠ [] → ∃ init last, rows = init ++ [last] ∧ last.label = [] ∧ ∀ r ∈ init, r.label ≠ []) := by
  constructor
  · rw [(table_parts m false limit c rows h).2]
    cases c with
    | false => simp
    | true =>
      by_cases hn : m.named = []
      · simp [groups, hn]
      · simp only [groups, Bool.false_eq_true, ↓reduceIte, ne_eq, hn, not_false_eq_true, decide_true, List.filter_cons_of_pos,
          List.filter_nil, List.flatMap_cons, List.flatMap_nil, List.append_nil, Bool.not_false, Bool.true_or,
          Bool.and_self, and_self]
        rw [countText_eq]
        congr 1
        unfold parameterCount Spec.count digits
        cases hf : m.free with
        | nil => rfl
        | cons v l => simp
  · intro hc hn
    subst hc
    unfold modelTable at h
    rw [tableLoop_spec] at h
    obtain ⟨bs, hbs, rfl⟩ := h
    have hgs : (groups m false).filter (· ≠ []) = [m.named] := by simp [groups, hn]
    rw [hgs] at hbs ⊢
    rw [List.forall₂_cons_left_iff] at hbs
    obtain ⟨rs, l, hrs, hl, rfl⟩ := hbs
    cases hl
    refine ⟨rs, { countRow m with endSection := true }, ?_, rfl, ?_⟩
    · simp [block, addSection]
    · intro r hr
      rw [varRows_forall] at hrs
      obtain ⟨v, -, hv⟩ : ∃ v ∈ m.named, varRow m limit v = .ok r := by
        clear hn hgs
        generalize m.named = vs at hrs ⊢
        induction hrs with
        | nil => simp at hr
        | @cons v r' vs rs hv _ ih =>
          rcases List.mem_cons.mp hr with rfl | hr
          · exact ⟨v, by simp, hv⟩
          · obtain ⟨w, hw, h⟩ := ih hr
            exact ⟨w, by simp [hw], h⟩
      rw [((C151_row m limit v r).mp hv).1]
      exact label_ne_nil m v

/-- The labels of one section, and whether the section ends there. -/
def Spec.section (m : Model) (g : List Str) (count : Bool) : List (Str × Bool) :=
  if count then g.map (fun v => (Spec.label m v, false)) ++ [([], true)]
  else match g.getLast? with
    | none => []
    | some v => g.dropLast.map (fun v => (Spec.label m v, false)) ++ [(Spec.label m v, true)]

theorem block_section (m : Model) (limit : Option ℕ) (g : List Str) (rs : List Row) (b : Bool) (hg : g ≠ [])
    (h : varRows m limit g = .ok rs) :
    (block m b rs).map (fun r => (r.label, r.endSection)) = Spec.section m g b := by
  rw [varRows_forall] at h
  have hrs : rs.map (fun r => (r.label, r.endSection)) = g.map fun v => (Spec.label m v, false) := by
    clear hg
    induction h with
    | nil => rfl
    | @cons v r vs rs hv _ ih =>
      obtain ⟨h1, -, -, h4⟩ := (C151_row m limit v r).mp hv
      simp [h1, h4, ih]
  unfold block Spec.section
  cases b with
  | true =>
    simp only [↓reduceIte, addSection, List.getLast?_append, List.getLast?_singleton, Option.some_or, List.dropLast_concat,
      List.map_append, List.map_cons, List.map_nil, hrs]
    rfl
  | false =>
    simp only [Bool.false_eq_true, ↓reduceIte]
    obtain ⟨g', v, rfl⟩ := List.eq_nil_or_concat g |>.resolve_left hg
    obtain ⟨rs', r, rfl⟩ : ∃ rs' r, rs = rs' ++ [r] := by
      rcases List.eq_nil_or_concat rs with rfl | ⟨a, b, hab⟩
      · simp at hrs
      · exact ⟨a, b, by simpa using hab⟩
    simp only [List.concat_eq_append, List.map_append, List.map_cons, List.map_nil] at hrs
    have := List.append_inj' hrs rfl
    obtain ⟨e1, e2⟩ := this
    simp only [List.cons.injEq, Prod.mk.injEq, and_true] at e2
    simp [addSection, e1, e2.1]

/-- **C152** Layout: with groups, the non-empty groups follow one another in the documented order, each closed by a section
mark, and the count is the last row of the section of the free variables; without groups there is one section. -/
theorem C152_layout (m : Model) (s : Bool) (limit : Option ℕ) (c : Bool) (rows : List Row) (hd : Spec.Disjoint m)
    (h : modelTable m s limit c = .ok rows) :
    rows.map (fun r => (r.label, r.endSection)) =
      if s then Spec.section m m.data false ++ (if m.free = [] then [] else Spec.section m m.free c) ++
        Spec.section m m.det false ++ Spec.section m m.pot false ++ Spec.section m m.obs false
      else if m.named = [] then [] else Spec.section m m.named c := by
  unfold modelTable at h
  rw [tableLoop_spec] at h
  obtain ⟨bs, hbs, rfl⟩ := h
  have key : (((groups m s).filter (· ≠ [])).zip bs).flatMap (fun x =>
      (block m (c && (!s || x.1 == m.free)) x.2).map fun r => (r.label, r.endSection)) =
      ((groups m s).filter (· ≠ [])).flatMap fun g => Spec.section m g (c && (!s || g == m.free)) := by
    have hne : ∀ g ∈ (groups m s).filter (· ≠ []), g ≠ [] := by
      intro g hg
      simpa using (List.mem_filter.mp hg).2
    generalize (groups m s).filter (· ≠ []) = gs at hbs hne ⊢
    induction hbs with
    | nil => rfl
    | @cons g rs gs bs hg _ ih =>
      rw [List.zip_cons_cons, List.flatMap_cons, List.flatMap_cons, ih fun g' hg' => hne g' (by simp [hg']),
        block_section m limit g rs _ (hne g (by simp)) hg]
  rw [List.nil_append, List.map_flatMap, key]
  have hfil : ∀ (gs : List (List Str)) (f : List Str → List (Str × Bool)),
      (gs.filter (· ≠ [])).flatMap f = gs.flatMap fun g => if g = [] then [] else f g := by
    intro gs f
    induction gs with
    | nil => rfl
    | cons g gs ih =>
      by_cases hg : g = []
      · simpa [hg] using ih
      · rw [List.filter_cons_of_pos (by simp [hg]), List.flatMap_cons, List.flatMap_cons, ih, if_neg hg]
  rw [hfil]
  cases s with
  | false => simp [groups]
  | true =>
    have hne : ∀ g : List Str, (∀ v ∈ g, v ∉ m.free) →
        (if g = [] then [] else Spec.section m g (c && (!true || g == m.free))) = Spec.section m g false := by
      intro g hv
      by_cases hg : g = []
      · simp [hg, Spec.section]
      · have : g ≠ m.free := by
          rintro rfl
          obtain ⟨v, l, hgl⟩ := List.exists_cons_of_ne_nil hg
          exact hv v (by simp [hgl]) (by simp [hgl])
        rw [if_neg hg, beq_eq_false_iff_ne.mpr this]
        simp
    have hd1 : ∀ v ∈ m.data, v ∉ m.free := fun v hv hf => (hd v hf).1 hv
    have hd2 : ∀ v ∈ m.det, v ∉ m.free := fun v hv hf => (hd v hf).2.1 hv
    have hd3 : ∀ v ∈ m.pot, v ∉ m.free := fun v hv hf => (hd v hf).2.2.1 hv
    have hd4 : ∀ v ∈ m.obs, v ∉ m.free := fun v hv hf => (hd v hf).2.2.2 hv
    simp only [groups, ↓reduceIte, List.flatMap_cons, List.flatMap_nil, hne _ hd1, hne _ hd2, hne _ hd3, hne _ hd4]
    simp

/-! ### C153: truncation -/

/-- An expression `f(a, b, ...)` with these arguments. -/
def Spec.call (args : List Str) : Str := ['f', '('] ++ join comma args ++ [')']

/-- The truncated form, in which only the given arguments are shown. -/
def Spec.shown (args : List Str) : Str := ['f', '('] ++ join comma args ++ [',', ' ', '.', '.', '.', ')']

/-- **C153** Expressions within the limit are left alone; longer ones show the longest proper prefix of the arguments that the
limit allows (counting two characters more for each), followed by an ellipsis. -/
theorem C153_truncate (args : List Str) (t : ℕ) (hne : args ≠ []) (hc : ∀ a ∈ args, ',' ∉ a) :
    ((Spec.call args).length ≤ t → truncate (some t) (Spec.call args) = Spec.call args) ∧
    (t < (Spec.call args).length → ∃ n < args.length,
      truncate (some t) (Spec.call args) = Spec.shown (args.take n) ∧
      ((args.take n).map fun a => a.length + 2).sum ≤ t ∧
      (n + 1 < args.length → t < ((args.take (n + 1)).map fun a => a.length + 2).sum) ∧
      (truncate (some t) (Spec.call args)).length ≤ max 8 (t + 6)) ∧
    truncate none (Spec.call args) = Spec.call args := by
  refine ⟨fun h => ?_, fun h => ?_, rfl⟩
  · simp only [truncate]
    rw [if_neg (by omega)]
  · have hs : split comma (((Spec.call args).drop 2).dropLast) = args := by
      have : ((Spec.call args).drop 2).dropLast = join comma args := by simp [Spec.call]
      rw [this, split_join mark_comma args hne hc]
    obtain ⟨-, h2, h3, h4⟩ := showN_spec t args hne 0 0 (Nat.zero_le _)
    have e : truncate (some t) (Spec.call args) = Spec.shown (args.take (showN t 0 0 args)) := by
      simp only [truncate]
      rw [if_pos (by omega), hs]
      rfl
    refine ⟨showN t 0 0 args, by simpa using h2, e, by simpa [width] using h3, ?_, ?_⟩
    · intro hlt
      have := h4 (by omega)
      simpa [width] using this
    · rw [e, Spec.shown]
      simp only [List.length_append, join_length, List.length_cons, List.length_nil]
      simp only [Nat.zero_add, Nat.sub_zero, width] at h3
      omega

/-- **C153** The truncated text may be longer than the limit, and longer than the text it replaces; a limit that is too small
for the first argument leaves no argument at all. -/
theorem C153_longer :
    (∃ (args : List Str) (t : ℕ), t < (Spec.call args).length ∧
      (Spec.call args).length < (truncate (some t) (Spec.call args)).length) ∧
    truncate (some 5) (Spec.call ["alpha".toList, "beta".toList]) = "f(, ...)".toList := by
  refine ⟨⟨["a".toList, "b".toList], 6, ?_⟩, ?_⟩ <;> decide

/-- The hypotheses of `C153_truncate` hold of the example in the test-suite. -/
example : truncate (some 30) (Spec.call ["intercept_subject".toList, "beta_subject".toList, "global_intercept".toList]) =
    "f(intercept_subject, ...)".toList := by decide +kernel

/-! ### C154: dimensions -/

/-- One dimension and its length. -/
def Spec.dim (d : Str) (n : ℕ) : Str := d ++ ['['] ++ (toString n).toList ++ [']']

theorem lookup_ok (m : Model) (ds : List (Str × ℕ)) (h : ∀ d ∈ ds, m.dimLen d.1 = some d.2) :
    lookupDims m (ds.map fun d => some d.1) = .ok (ds.map Prod.fst) := by
  induction ds with
  | nil => rfl
  | cons d ds ih =>
    simp only [List.map_cons, lookupDims, h d (by simp), ih fun e he => h e (by simp [he])]

theorem dictKeys_nodup (seen ds : List Str) (h : (seen ++ ds).Nodup) : dictKeys seen ds = seen ++ ds := by
  induction ds generalizing seen with
  | nil => simp [dictKeys]
  | cons d ds ih =>
    have hd : d ∉ seen := by
      intro hs
      rw [List.nodup_append] at h
      exact h.2.2 d hs d (by simp) rfl
    rw [dictKeys, if_neg hd, ih _ (by simpa using h)]
    simp

/-- **C154** A variable with distinct named dims shows each of them with its current length, in order; a variable without dims
shows its shape; a scalar shows nothing. -/
theorem C154_dims (m : Model) (v : Str) :
    (∀ ds : List (Str × ℕ), m.dims v = some (ds.map fun d => some d.1) → (ds.map Prod.fst).Nodup →
      (∀ d ∈ ds, m.dimLen d.1 = some d.2) →
      dimsExpression m v = .ok (join [' ', '×', ' '] (ds.map fun d => Spec.dim d.1 d.2))) ∧
    (m.dims v = none → m.shape v ≠ [] →
      dimsExpression m v = .ok (['['] ++ join comma ((m.shape v).map fun n => (toString n).toList) ++ [']'])) ∧
    (m.dims v = none → m.shape v = [] → dimsExpression m v = .ok []) := by
  refine ⟨?_, ?_, ?_⟩
  · intro ds hd hn hl
    unfold dimsExpression
    rw [hd]
    simp only
    rw [lookup_ok m ds hl]
    simp only
    rw [dictKeys_nodup [] _ (by simpa using hn), List.nil_append, List.map_map]
    have hmap : List.map (dimEntry m ∘ Prod.fst) ds = ds.map fun d => Spec.dim d.1 d.2 := by
      apply List.map_congr_left
      intro d hd
      simp [dimEntry, hl d hd, Spec.dim, digits]
    rw [hmap]
    rfl
  · intro hd hs
    unfold dimsExpression
    rw [hd]
    simp only [hs, ↓reduceIte]
    rfl
  · intro hd hs
    unfold dimsExpression
    rw [hd]
    simp [hs]

/-- **C154** A partially named variable cannot be shown: the unnamed axis is looked up as a dimension called `None`. -/
theorem C154_unnamed_axis (m : Model) (v : Str) (ds : List (Option Str)) (hd : m.dims v = some ds) (hn : none ∈ ds) :
    dimsExpression m v = .error .keyError := by
  have h : lookupDims m ds = .error .keyError := by
    clear hd
    induction ds with
    | nil => simp at hn
    | cons d ds ih =>
      cases d with
      | none => rfl
      | some d =>
        simp only [List.mem_cons, reduceCtorEq, false_or] at hn
        rw [lookupDims]
        cases m.dimLen d with
        | none => rfl
        | some k => simp [ih hn]
  unfold dimsExpression
  rw [hd]
  simp [h]

/-- **C154** A dimension used for two axes is shown once. -/
theorem C154_repeated (m : Model) (v d : Str) (n : ℕ) (hd : m.dims v = some [some d, some d]) (hl : m.dimLen d = some n) :
    dimsExpression m v = .ok (Spec.dim d n) := by
  unfold dimsExpression
  rw [hd]
  simp [lookupDims, hl, dictKeys, join, dimEntry, Spec.dim, digits]

/-! ### C151: names -/

/-- **C151** For names without a tilde, the expression shown is PyMC's. -/
theorem C151_expression (m : Model) (limit : Option ℕ) (v : Str) (hv : '~' ∉ v) (he : '~' ∉ m.detExpr v)
    (hp : '~' ∉ m.potExpr v) (hr : '~' ∉ m.distExpr v) :
    variableExpression m limit v = .ok (
      if v ∈ m.data then "Data".toList
      else if v ∈ m.det then truncate limit (m.detExpr v)
      else if v ∈ m.pot then m.potExpr v
      else m.distExpr v) := by
  unfold variableExpression
  have hsplit : ∀ e : Str, '~' ∉ e → split tilde (v ++ tilde ++ e) = [v, e] := by
    intro e hee
    have := split_join mark_tilde [v, e] (by simp) (by simp [hv, hee])
    simpa [join] using this
  by_cases h1 : v ∈ m.data
  · simp [h1]
  · by_cases h2 : v ∈ m.det
    · simp only [h1, h2, ↓reduceIte]
      have : v ++ tilde ++ "(".toList ++ m.detExpr v ++ ")".toList = v ++ tilde ++ ("(".toList ++ m.detExpr v ++ ")".toList) := by
        simp
      rw [this, hsplit _ (by simpa using he)]
      have h3 : (List.drop 1 ("(".toList ++ m.detExpr v ++ ")".toList)).dropLast = m.detExpr v := by
        have : "(".toList ++ m.detExpr v ++ ")".toList = '(' :: (m.detExpr v ++ [')']) := by simp
        rw [this]
        simp
      simp only [h3]
    · by_cases h3 : v ∈ m.pot
      · rw [if_neg h1, if_neg h2, if_pos h3, if_neg h1, if_neg h2, if_pos h3, hsplit _ hp]
        rfl
      · rw [if_neg h1, if_neg h2, if_neg h3, if_neg h1, if_neg h2, if_neg h3, hsplit _ hr]
        rfl

/-- **C151** A deterministic whose name contains ` ~ ` makes the whole table fail. -/
theorem C151_tilde_name (m : Model) (limit : Option ℕ) (a b : Str) (ha : '~' ∉ a) (hb : '~' ∉ b) (he : '~' ∉ m.detExpr (a ++ tilde ++ b))
    (hd : a ++ tilde ++ b ∉ m.data) (hm : a ++ tilde ++ b ∈ m.det) (s : Bool) (c : Bool)
    (hl : s = true ∨ a ++ tilde ++ b ∈ m.named) :
    variableExpression m limit (a ++ tilde ++ b) = .error .valueError ∧
    ¬ ∃ rows, modelTable m s limit c = .ok rows := by
  have h1 : variableExpression m limit (a ++ tilde ++ b) = .error .valueError := by
    unfold variableExpression
    rw [if_neg hd, if_pos hm]
    have : a ++ tilde ++ b ++ tilde ++ "(".toList ++ m.detExpr (a ++ tilde ++ b) ++ ")".toList =
        join tilde [a, b, "(".toList ++ m.detExpr (a ++ tilde ++ b) ++ ")".toList] := by
      simp [join]
    rw [this, split_join mark_tilde _ (by simp) (by
      intro p hp
      simp only [List.mem_cons, List.not_mem_nil, or_false] at hp
      rcases hp with rfl | rfl | rfl
      · exact ha
      · exact hb
      · simpa using he)]
  refine ⟨h1, ?_⟩
  rw [C151_succeeds_iff]
  intro hall
  have hmem : a ++ tilde ++ b ∈ Spec.listed m s := by
    rcases hl with rfl | hl
    · simp only [Spec.listed, ↓reduceIte, List.mem_append]
      exact Or.inl (Or.inl (Or.inr hm))
    · cases s with
      | true =>
        simp only [Spec.listed, ↓reduceIte, List.mem_append]
        exact Or.inl (Or.inl (Or.inr hm))
      | false => simpa [Spec.listed] using hl
  obtain ⟨⟨e, hee⟩, -⟩ := hall _ hmem
  rw [h1] at hee
  simp at hee

/-- A model with data, two parameters, a deterministic and an observed variable. -/
def exampleModel : Model where
  data := ["x".toList]
  free := ["beta".toList, "sigma".toList]
  det := ["mu".toList]
  pot := []
  obs := ["y".toList]
  named := ["x".toList, "beta".toList, "mu".toList, "sigma".toList, "y".toList]
  dims := fun v => if v = "beta".toList then some [some "param".toList] else none
  dimLen := fun d => if d = "param".toList then some 2 else none
  shape := fun v => if v = "beta".toList then [2] else if v = "sigma".toList then [] else [20]
  detExpr := fun _ => "f(beta)".toList
  potExpr := fun _ => []
  distExpr := fun _ => "Normal(0, 1)".toList

/-- The table of the example, and the hypotheses of C151 and C152. -/
example : (∃ rows, modelTable exampleModel true none true = .ok rows) ∧ Spec.Disjoint exampleModel ∧
    exampleModel.named.Perm
      (exampleModel.data ++ exampleModel.free ++ exampleModel.det ++ exampleModel.pot ++ exampleModel.obs) := by
  refine ⟨?_, ?_, ?_⟩
  · rw [C151_succeeds_iff]
    intro v hv
    rw [C151_expression _ _ v]
    · refine ⟨⟨_, rfl⟩, ?_⟩
      have hv' : v = "x".toList ∨ v = "beta".toList ∨ v = "sigma".toList ∨ v = "mu".toList ∨ v = "y".toList := by
        simpa [Spec.listed, exampleModel, or_assoc] using hv
      rcases hv' with rfl | rfl | rfl | rfl | rfl <;> exact ⟨_, rfl⟩
    · have hv' : v = "x".toList ∨ v = "beta".toList ∨ v = "sigma".toList ∨ v = "mu".toList ∨ v = "y".toList := by
        simpa [Spec.listed, exampleModel, or_assoc] using hv
      rcases hv' with rfl | rfl | rfl | rfl | rfl <;> decide
    · show '~' ∉ "f(beta)".toList
      decide
    · simp [exampleModel]
    · show '~' ∉ "Normal(0, 1)".toList
      decide
  · unfold Spec.Disjoint; decide
  · decide

end Verif.Printing
