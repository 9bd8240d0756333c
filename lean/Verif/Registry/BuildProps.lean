import Verif.Registry.Props
import Mathlib.Data.Finset.Max

/-!
# Properties of filling the placeholders from a PyMC model
-/

set_option autoImplicit false

namespace Verif.Registry

/-! ### Specification -/

/-- What the constructor of a model leaves behind: placeholders have distinct declared names, and the matrices mention
registered placeholders only. -/
structure Spec.WellFormed (o : Obj) : Prop where
  vars_nodup : (o.vars.map Prod.fst).Nodup
  vars_declared : ∀ p ∈ o.vars, p.1 ∈ o.paramNames
  datas_nodup : (o.datas.map Prod.fst).Nodup
  datas_declared : ∀ p ∈ o.datas, p.1 ∈ o.dataNames
  leaves : ∀ M ∈ o.matrices, ∀ l ∈ M.leaves,
    (∃ p ∈ o.vars, l = .param p.1) ∨ (∃ p ∈ o.datas, l = .data p.1)

/-- A variable of type `b` can stand where type `a` is expected: same dtype, same number of axes, and equal lengths wherever
both are known. -/
def Spec.TypeOk (a b : Ty) : Prop :=
  a.dtype = b.dtype ∧ a.shape.length = b.shape.length ∧
    ∀ (i x y : ℕ), a.shape[i]? = some (some x) → b.shape[i]? = some (some y) → x = y

/-- The PyMC model has everything the state space model asks for: each parameter, each data container, of the right type;
and each placeholder is really used by the matrices. -/
structure Spec.Fits (o : Obj) (m : Pm) : Prop where
  params : ∀ n ∈ o.paramNames, ∃ e ∈ m.entries, e.short = n
  datas : ∀ n ∈ o.dataNames, ∃ e ∈ m.entries, e.short = n ∧ ∃ v, e.kind = .data v
  paramTypes : ∀ p ∈ o.vars, ∀ e ∈ m.entries, e.short = p.1 → Spec.TypeOk p.2 e.ty
  dataTypes : ∀ p ∈ o.datas, ∀ e ∈ m.entries, e.short = p.1 → Spec.TypeOk p.2 e.ty
  paramsUsed : ∀ p ∈ o.vars, ∃ M ∈ o.matrices, Leaf.param p.1 ∈ M.leaves
  datasUsed : ∀ p ∈ o.datas, ∃ M ∈ o.matrices, Leaf.data p.1 ∈ M.leaves

/-- Values of the leaves when every placeholder has the value of the model variable of its name. -/
def Spec.byName {V : Type} (ρ : String → V) : Leaf → V
  | .param n => ρ n
  | .data n => ρ n
  | .model n => ρ n

/-! ### Lemmas -/

theorem accepts_iff (a b : Ty) : a.accepts b = true ↔ Spec.TypeOk a b := by
  simp only [Ty.accepts, Spec.TypeOk, Bool.and_eq_true, beq_iff_eq, List.all_eq_true, and_assoc]
  refine and_congr_right fun _ => and_congr_right fun hlen => ?_
  constructor
  · intro h i x y hx hy
    have : (some x, some y) ∈ a.shape.zip b.shape := by
      rw [List.mem_iff_getElem?]
      exact ⟨i, by rw [List.getElem?_zip_eq_some]; exact ⟨hx, hy⟩⟩
    simpa using h _ this
  · rintro h ⟨u, v⟩ hp
    obtain ⟨i, hi⟩ := List.mem_iff_getElem?.1 hp
    rw [List.getElem?_zip_eq_some] at hi
    cases u with
    | none => rfl
    | some x =>
      cases v with
      | none => rfl
      | some y => simpa using h i x y hi.1 hi.2

theorem leaves_subst (σ : Leaf → Leaf) (e : Expr) : (e.subst σ).leaves = e.leaves.map σ := by
  induction e with
  | const c => rfl
  | leaf l => rfl
  | app f n args ih =>
    simp only [Expr.subst, Expr.leaves, List.map_flatten, List.map_ofFn, Function.comp_def, ih]

theorem eval_subst {V : Type} (K : ℤ → V) (I : String → (n : ℕ) → (Fin n → V) → V) (ρ : Leaf → V) (σ : Leaf → Leaf)
    (e : Expr) : (e.subst σ).eval K I ρ = e.eval K I (ρ ∘ σ) := by
  induction e with
  | const c => rfl
  | leaf l => rfl
  | app f n args ih => simp only [Expr.subst, Expr.eval, ih]

theorem eval_congr {V : Type} (K : ℤ → V) (I : String → (n : ℕ) → (Fin n → V) → V) (ρ ρ' : Leaf → V) (e : Expr)
    (h : ∀ l ∈ e.leaves, ρ l = ρ' l) : e.eval K I ρ = e.eval K I ρ' := by
  induction e with
  | const c => rfl
  | leaf l => exact h l (by simp [Expr.leaves])
  | app f n args ih =>
    simp only [Expr.eval]
    congr 1
    funext i
    apply ih
    intro l hl
    apply h
    simp only [Expr.leaves, List.mem_flatten, List.mem_ofFn]
    exact ⟨_, ⟨i, rfl⟩, hl⟩

theorem full_plain {m : Pm} (h : m.pre = "") (n : String) : m.full n = n := by simp [Pm.full, h]

theorem item_plain {m : Pm} (h : m.pre = "") (n : String) : m.item n = m.attr n := by
  simp only [Pm.item, Pm.attr, full_plain h]
  cases hf : m.entries.find? fun e => e.short = n <;> simp [hf]

theorem attr_some {m : Pm} {n : String} {e : Entry} (h : m.attr n = some e) : e ∈ m.entries ∧ e.short = n := by
  simp only [Pm.attr] at h
  exact ⟨List.mem_of_find?_eq_some h, by simpa using List.find?_some h⟩

theorem attr_none {m : Pm} {n : String} : m.attr n = none ↔ ∀ e ∈ m.entries, e.short ≠ n := by
  simp [Pm.attr]

theorem attr_mem {m : Pm} (hm : (m.entries.map Entry.short).Nodup) {e : Entry} (he : e ∈ m.entries) :
    m.attr e.short = some e := by
  cases h : m.attr e.short with
  | none => exact absurd rfl (attr_none.1 h e he)
  | some e' =>
    obtain ⟨h1, h2⟩ := attr_some h
    exact congrArg some (List.inj_on_of_nodup_map hm h1 he h2)

/-- The replacement list for an unnamed model. -/
theorem replacements_plain {mk : String → Leaf} {m : Pm} (h : m.pre = "") (reg : List (String × Ty)) :
    (∀ rs, replacements mk m reg = .ok rs ↔
      (∀ p ∈ reg, (m.attr p.1).isSome) ∧
      rs = reg.map fun p => ⟨mk p.1, p.2, .model p.1, ((m.attr p.1).map Entry.ty).getD p.2⟩) ∧
    (∀ err, replacements mk m reg = .error err ↔ err = .keyError ∧ ∃ p ∈ reg, m.attr p.1 = none) := by
  induction reg with
  | nil =>
    have : replacements mk m [] = .ok [] := rfl
    rw [this]
    constructor
    · intro rs
      simp only [List.not_mem_nil, false_imp_iff, implies_true, true_and, List.map_nil, Except.ok.injEq]
      exact eq_comm
    · intro err; simp
  | cons p reg ih =>
    have hcons : replacements mk m (p :: reg) =
        (match m.attr p.1 with
          | none => Except.error Err.keyError
          | some e => Except.ok (⟨mk p.1, p.2, .model p.1, e.ty⟩ : Repl)) >>= fun r =>
            replacements mk m reg >>= fun rs => Except.ok (r :: rs) := by
      simp only [replacements, List.mapM_cons, replaceOne, item_plain h, full_plain h]
      cases ha : m.attr p.1 with
      | none => rfl
      | some e => simp only [(attr_some ha).2]; rfl
    cases ha : m.attr p.1 with
    | none =>
      rw [ha] at hcons
      have : replacements mk m (p :: reg) = .error .keyError := hcons
      rw [this]
      constructor
      · intro rs; simp [ha]
      · intro err; simp [ha, eq_comm]
    | some e =>
      rw [ha] at hcons
      cases hr : replacements mk m reg with
      | error err =>
        rw [hr] at hcons
        have : replacements mk m (p :: reg) = .error err := hcons
        rw [this]
        have h2 := (ih.2 err).1 hr
        obtain ⟨rfl, q, hq, hq'⟩ := h2
        constructor
        · intro rs
          simp only [reduceCtorEq, List.mem_cons, forall_eq_or_imp, false_iff, not_and]
          intro ⟨_, h⟩
          have := h q hq
          simp [hq'] at this
        · intro err'
          constructor
          · intro h; cases h; exact ⟨rfl, q, by simp [hq], hq'⟩
          · rintro ⟨rfl, -⟩; rfl
      | ok rs0 =>
        rw [hr] at hcons
        have : replacements mk m (p :: reg) = .ok (⟨mk p.1, p.2, .model p.1, e.ty⟩ :: rs0) := hcons
        rw [this]
        obtain ⟨h1, h2⟩ := (ih.1 rs0).1 hr
        constructor
        · intro rs
          simp only [Except.ok.injEq, List.mem_cons, forall_eq_or_imp, ha, Option.isSome_some, true_and, List.map_cons,
            Option.map_some, Option.getD_some, ← h2]
          constructor
          · rintro rfl; exact ⟨fun q hq => h1 q hq, rfl⟩
          · rintro ⟨-, rfl⟩; rfl
        · intro err
          simp only [reduceCtorEq, List.mem_cons, exists_eq_or_imp, ha, false_or, false_iff, not_and, not_exists]
          intro _ q hq hq'
          have := h1 q hq
          simp [hq'] at this

/-- Every placeholder `mk n` with `n` among `names` becomes the model variable `n`. -/
def swap (mk : String → Leaf) (names : List String) (l : Leaf) : Leaf :=
  match names.find? fun n => mk n = l with
  | some n => .model n
  | none => l

theorem applyRepl_map (mk : String → Leaf) (t : String × Ty → Ty) (reg : List (String × Ty)) :
    applyRepl (reg.map fun p => ⟨mk p.1, p.2, .model p.1, t p⟩) = swap mk (reg.map Prod.fst) := by
  funext l
  simp only [applyRepl, swap]
  induction reg with
  | nil => rfl
  | cons p reg ih =>
    by_cases h : mk p.1 = l
    · simp [h]
    · simpa [h] using ih

theorem swap_mem {mk : String → Leaf} (hinj : Function.Injective mk) {names : List String} {n : String} (hn : n ∈ names) :
    swap mk names (mk n) = .model n := by
  simp only [swap]
  cases hf : names.find? fun k => mk k = mk n with
  | none =>
    rw [List.find?_eq_none] at hf
    exact absurd (hf n hn) (by simp)
  | some k =>
    have := List.find?_some hf
    simp only [decide_eq_true_eq] at this
    rw [hinj this]

theorem swap_other {mk : String → Leaf} {names : List String} {l : Leaf} (h : ∀ n ∈ names, mk n ≠ l) :
    swap mk names l = l := by
  simp only [swap]
  have : (names.find? fun k => mk k = l) = none := by simpa using h
  rw [this]

theorem graphReplace_ok (outs : List Expr) (rs : List Repl) (s : List Expr) :
    graphReplace outs rs = .ok s ↔ (∀ r ∈ rs, ∃ e ∈ outs, r.key ∈ e.leaves) ∧
      (∀ r ∈ rs, r.keyTy.accepts r.newTy = true) ∧ s = outs.map fun e => e.subst (applyRepl rs) := by
  simp only [graphReplace]
  split_ifs with h1 h2
  · simp only [reduceCtorEq, false_iff, not_and]
    intro h
    simp only [List.any_eq_true, List.all_eq_true, decide_eq_true_eq] at h1
    obtain ⟨r, hr, h1⟩ := h1
    obtain ⟨e, he, hl⟩ := h r hr
    exact absurd hl (h1 e he)
  · simp only [reduceCtorEq, false_iff, not_and]
    intro _ h
    simp only [List.any_eq_true, Bool.not_eq_true', Bool.not_eq_true] at h2
    obtain ⟨r, hr, h2⟩ := h2
    simp [h r hr] at h2
  · simp only [List.any_eq_true, List.all_eq_true, decide_eq_true_eq, not_exists, not_and, not_forall, not_not] at h1
    simp only [List.any_eq_true, Bool.not_eq_true', not_exists, not_and, Bool.not_eq_false] at h2
    constructor
    · intro h; cases h
      exact ⟨fun r hr => by simpa using h1 r hr, h2, rfl⟩
    · rintro ⟨-, -, rfl⟩; rfl

theorem found_plain {m : Pm} (h : m.pre = "") (ns : List String) (n : String) :
    n ∈ ns.filterMap (fun n => (m.attr n).map fun e => m.full e.short) ↔ n ∈ ns ∧ ∃ e ∈ m.entries, e.short = n := by
  simp only [List.mem_filterMap, full_plain h, Option.map_eq_some_iff]
  constructor
  · rintro ⟨k, hk, e, he, rfl⟩
    obtain ⟨h1, h2⟩ := attr_some he
    exact ⟨h2 ▸ hk, e, h1, rfl⟩
  · rintro ⟨hn, e, he, rfl⟩
    refine ⟨e.short, hn, ?_⟩
    cases ha : m.attr e.short with
    | none => exact absurd rfl (attr_none.1 ha e he)
    | some e' => exact ⟨e', rfl, (attr_some ha).2⟩

/-- The replacement step for an unnamed model. -/
theorem fill_ok {mk : String → Leaf} {m : Pm} (hm : (m.entries.map Entry.short).Nodup) (h : m.pre = "")
    (reg : List (String × Ty)) (outs s : List Expr) :
    (replacements mk m reg >>= graphReplace outs) = .ok s ↔ (∀ p ∈ reg, ∃ e ∈ m.entries, e.short = p.1) ∧
      (∀ p ∈ reg, ∃ M ∈ outs, mk p.1 ∈ M.leaves) ∧
      (∀ p ∈ reg, ∀ e ∈ m.entries, e.short = p.1 → Spec.TypeOk p.2 e.ty) ∧
      s = outs.map fun M => M.subst (swap mk (reg.map Prod.fst)) := by
  obtain ⟨hok, herr⟩ := replacements_plain (mk := mk) h reg
  have hsome : ∀ p : String × Ty, (m.attr p.1).isSome ↔ ∃ e ∈ m.entries, e.short = p.1 := by
    intro p
    constructor
    · intro hs
      obtain ⟨e, he⟩ := Option.isSome_iff_exists.1 hs
      exact ⟨e, (attr_some he).1, (attr_some he).2⟩
    · rintro ⟨e, he, hes⟩
      rw [← hes, attr_mem hm he]; rfl
  by_cases hp : ∀ p ∈ reg, (m.attr p.1).isSome
  · rw [(hok _).2 ⟨hp, rfl⟩]
    show graphReplace outs _ = _ ↔ _
    rw [graphReplace_ok, applyRepl_map mk (fun p => ((m.attr p.1).map Entry.ty).getD p.2)]
    simp only [List.mem_map, forall_exists_index, and_imp, forall_apply_eq_imp_iff₂]
    refine ⟨fun ⟨a, b, c⟩ => ⟨fun p hpr => (hsome p).1 (hp p hpr), a, ?_, c⟩, fun ⟨_, a, b, c⟩ => ⟨a, ?_, c⟩⟩
    · intro p hpv e he hes
      have := b p hpv
      rw [← hes, attr_mem hm he] at this
      exact (accepts_iff _ _).1 this
    · intro p hpv
      obtain ⟨e, he, hes⟩ := (hsome p).1 (hp p hpv)
      rw [← hes, attr_mem hm he]
      exact (accepts_iff _ _).2 (b p hpv e he hes)
  · have hr : replacements mk m reg = .error .keyError := by
      rw [herr]
      simp only [not_forall] at hp
      obtain ⟨p, hp, hn⟩ := hp
      exact ⟨rfl, p, hp, by simpa using hn⟩
    rw [hr]
    show Except.error _ = _ ↔ _
    simp only [reduceCtorEq, false_iff, not_and]
    intro h'
    exact absurd (fun p hpr => (hsome p).2 (h' p hpr)) hp

theorem missing_plain {m : Pm} (h : m.pre = "") (ns : List String) :
    (ns.filter fun n => n ∉ ns.filterMap fun n => (m.attr n).map fun e => m.full e.short) =
      ns.filter fun n => ∀ e ∈ m.entries, e.short ≠ n := by
  apply List.filter_congr
  intro n hn
  simp only [found_plain h, hn, true_and, not_exists, not_and]

/-- What the first step does for an unnamed model. -/
theorem insertRandom_ok {o : Obj} {m : Pm} (hw : ∀ p ∈ o.vars, p.1 ∈ o.paramNames)
    (hm : (m.entries.map Entry.short).Nodup)
    (h : m.pre = "") (s : List Expr) :
    insertRandom o m = .ok s ↔ (∀ n ∈ o.paramNames, ∃ e ∈ m.entries, e.short = n) ∧
      (∀ p ∈ o.vars, ∃ M ∈ o.matrices, Leaf.param p.1 ∈ M.leaves) ∧
      (∀ p ∈ o.vars, ∀ e ∈ m.entries, e.short = p.1 → Spec.TypeOk p.2 e.ty) ∧
      s = o.matrices.map fun M => M.subst (swap .param (o.vars.map Prod.fst)) := by
  simp only [insertRandom]
  rw [missing_plain h]
  have h2 : ((o.paramNames.filterMap fun n => (m.attr n).map fun e => m.full e.short).filter fun n =>
      n ∉ o.paramNames) = [] := by
    rw [List.filter_eq_nil_iff]
    intro n hn
    simp only [decide_eq_true_eq, not_not]
    exact ((found_plain h o.paramNames n).1 hn).1
  by_cases hp : ∀ n ∈ o.paramNames, ∃ e ∈ m.entries, e.short = n
  · have h1 : (o.paramNames.filter fun n => ∀ e ∈ m.entries, e.short ≠ n) = [] := by
      rw [List.filter_eq_nil_iff]
      intro n hn
      simp only [decide_eq_true_eq, not_forall, not_not]
      obtain ⟨e, he, hes⟩ := hp n hn
      exact ⟨e, he, hes⟩
    simp only [h1, h2, ne_eq, not_true_eq_false, if_false]
    refine (fill_ok hm h o.vars o.matrices s).trans ?_
    exact ⟨fun ⟨_, b⟩ => ⟨hp, b⟩, fun ⟨_, b⟩ => ⟨fun p hpv => hp _ (hw p hpv), b⟩⟩
  · have h1 : (o.paramNames.filter fun n => ∀ e ∈ m.entries, e.short ≠ n) ≠ [] := by
      intro h1
      rw [List.filter_eq_nil_iff] at h1
      apply hp
      intro n hn
      simpa using h1 n hn
    simp only [h1, ne_eq, not_false_eq_true, if_true, reduceCtorEq, false_iff, not_and]
    intro h; exact absurd h hp

theorem insertData_ok {o : Obj} {m : Pm} (hw : ∀ p ∈ o.datas, p.1 ∈ o.dataNames)
    (hm : (m.entries.map Entry.short).Nodup)
    (h : m.pre = "") (s0 s : List Expr) :
    insertData o m s0 = .ok s ↔ (∀ n ∈ o.dataNames, ∃ e ∈ m.entries, e.short = n) ∧
      (∀ p ∈ o.datas, ∃ M ∈ s0, Leaf.data p.1 ∈ M.leaves) ∧
      (∀ p ∈ o.datas, ∀ e ∈ m.entries, e.short = p.1 → Spec.TypeOk p.2 e.ty) ∧
      s = s0.map fun M => M.subst (swap .data (o.datas.map Prod.fst)) := by
  simp only [insertData]
  rw [missing_plain h]
  by_cases hp : ∀ n ∈ o.dataNames, ∃ e ∈ m.entries, e.short = n
  · have h1 : (o.dataNames.filter fun n => ∀ e ∈ m.entries, e.short ≠ n) = [] := by
      rw [List.filter_eq_nil_iff]
      intro n hn
      simp only [decide_eq_true_eq, not_forall, not_not]
      obtain ⟨e, he, hes⟩ := hp n hn
      exact ⟨e, he, hes⟩
    simp only [h1, ne_eq, not_true_eq_false, if_false]
    refine (fill_ok hm h o.datas s0 s).trans ?_
    exact ⟨fun ⟨_, b⟩ => ⟨hp, b⟩, fun ⟨_, b⟩ => ⟨fun p hpv => hp _ (hw p hpv), b⟩⟩
  · have h1 : (o.dataNames.filter fun n => ∀ e ∈ m.entries, e.short ≠ n) ≠ [] := by
      intro h1
      rw [List.filter_eq_nil_iff] at h1
      apply hp
      intro n hn
      simpa using h1 n hn
    simp only [h1, ne_eq, not_false_eq_true, if_true, reduceCtorEq, false_iff, not_and]
    intro h; exact absurd h hp

theorem saveOne_plain {m : Pm} (hm : (m.entries.map Entry.short).Nodup) (h : m.pre = "") (n : String) :
    ((∃ r, saveOne m n = .ok r) ↔ ∃ e ∈ m.entries, e.short = n ∧ ∃ v, e.kind = .data v) ∧
    (∀ r, saveOne m n = .ok r → (m.attr n).map (fun e => (n, e)) = some r) := by
  simp only [saveOne, item_plain h]
  cases ha : m.attr n with
  | none =>
    simp only [reduceCtorEq, exists_false, false_iff, not_exists, not_and, false_imp_iff, implies_true, and_true]
    intro e he hes
    exact absurd hes (attr_none.1 ha e he)
  | some e =>
    obtain ⟨he, hes⟩ := attr_some ha
    cases hk : e.kind with
    | rv =>
      simp only [hk, reduceCtorEq, exists_false, false_iff, not_exists, not_and, false_imp_iff, implies_true, and_true]
      intro e' he' hes' v hv
      have : e' = e := List.inj_on_of_nodup_map hm he' he (hes'.trans hes.symm)
      rw [this, hk] at hv; cases hv
    | data v =>
      simp only [hk, Except.ok.injEq]
      refine ⟨⟨fun _ => ⟨e, he, hes, v, hk⟩, fun _ => ⟨_, rfl⟩⟩, ?_⟩
      rintro r rfl
      simp [← hes, ← hk]

theorem saveExog_plain {o : Obj} {m : Pm} (hm : (m.entries.map Entry.short).Nodup) (h : m.pre = "") :
    ((∃ info, saveExog o m = .ok info) ↔ ∀ n ∈ o.dataNames, ∃ e ∈ m.entries, e.short = n ∧ ∃ v, e.kind = .data v) ∧
    (∀ info, saveExog o m = .ok info → info = o.dataNames.filterMap fun n => (m.attr n).map fun e => (n, e)) := by
  simp only [saveExog]
  induction o.dataNames with
  | nil =>
    constructor
    · simp [pure, Except.pure]
    · intro info hi
      simp only [List.mapM_nil, pure, Except.pure, Except.ok.injEq] at hi
      simp [← hi]
  | cons n ns ih =>
    obtain ⟨hs1, hs2⟩ := saveOne_plain hm h n
    simp only [List.mapM_cons, List.mem_cons, forall_eq_or_imp, List.filterMap_cons]
    cases hr : saveOne m n with
    | error err =>
      rw [hr] at hs1
      constructor
      · rw [← hs1]
        constructor
        · rintro ⟨info, hi⟩; cases hi
        · rintro ⟨⟨e, he⟩, -⟩; cases he
      · intro info hi; cases hi
    | ok r =>
      rw [hr] at hs1 hs2
      rw [hs2 r rfl]
      cases hL : List.mapM (saveOne m) ns with
      | error err =>
        rw [hL] at ih
        rw [← ih.1]
        constructor
        · constructor
          · rintro ⟨info, hi⟩; cases hi
          · rintro ⟨-, i, hi⟩; cases hi
        · intro info hi; cases hi
      | ok L =>
        rw [hL] at ih
        rw [← hs1, ← ih.1, ← ih.2 L rfl]
        constructor
        · exact ⟨fun _ => ⟨⟨_, rfl⟩, ⟨_, rfl⟩⟩, fun _ => ⟨_, rfl⟩⟩
        · intro info hi; cases hi; rfl

/-! ### C138: what a build needs and what it produces -/

/-- C138. In an unnamed PyMC model, `build_statespace_graph` gets past the insertion of parameters and data exactly when the
model has every declared parameter, and every declared data container as a data variable, each registered placeholder has a
variable of its type, and is used by the matrices.  Other variables of the model play no part. -/
theorem C138_build_iff (o : Obj) (m : Pm) (data : ℕ) (hw : Spec.WellFormed o)
    (hm : (m.entries.map Entry.short).Nodup) (h : m.pre = "") :
    (build o m data (.ok ())).2 = none ↔ Spec.Fits o m := by
  simp only [build]
  cases h1 : insertRandom o m with
  | error e =>
    simp only [reduceCtorEq, false_iff]
    intro hf
    rw [(insertRandom_ok hw.vars_declared hm h _).2 ⟨hf.params, hf.paramsUsed, hf.paramTypes, rfl⟩] at h1
    cases h1
  | ok s1 =>
    obtain ⟨a1, a2, a3, rfl⟩ := (insertRandom_ok hw.vars_declared hm h _).1 h1
    simp only
    cases h2 : saveExog { o with subbed := some (o.matrices.map fun M => M.subst (swap .param (o.vars.map Prod.fst))) } m with
    | error e =>
      simp only [reduceCtorEq, false_iff]
      intro hf
      obtain ⟨info, hi⟩ := (saveExog_plain hm h).1.2 hf.datas
      exact absurd (hi.symm.trans h2) (by simp)
    | ok info =>
      have b1 := (saveExog_plain hm h).1.1 ⟨_, h2⟩
      simp only at b1 ⊢
      have hused : ∀ n, (∃ M ∈ o.matrices.map fun M => M.subst (swap .param (o.vars.map Prod.fst)), Leaf.data n ∈ M.leaves) ↔
          ∃ M ∈ o.matrices, Leaf.data n ∈ M.leaves := by
        intro n
        simp only [List.mem_map, exists_exists_and_eq_and, leaves_subst]
        refine exists_congr fun M => and_congr_right fun hM => ?_
        constructor
        · rintro ⟨l, hl, hln⟩
          rcases hw.leaves M hM l hl with ⟨p, hp, rfl⟩ | ⟨p, hp, rfl⟩
          · rw [swap_mem (fun a b hab => by cases hab; rfl) (List.mem_map.2 ⟨p, hp, rfl⟩)] at hln
            cases hln
          · rw [swap_other (by simp)] at hln
            rw [← hln]; exact hl
        · intro hl
          exact ⟨_, hl, swap_other (by simp)⟩
      cases h3 : insertData { o with subbed := some (o.matrices.map fun M => M.subst (swap .param (o.vars.map Prod.fst))), exogInfo := info } m (o.matrices.map fun M => M.subst (swap .param (o.vars.map Prod.fst))) with
      | error e =>
        simp only [reduceCtorEq, false_iff]
        intro hf
        rw [(insertData_ok (o := { o with subbed := _, exogInfo := info }) hw.datas_declared hm h _ _).2
          ⟨fun n hn => let ⟨e, he, hes, _⟩ := hf.datas n hn; ⟨e, he, hes⟩, fun p hp => (hused p.1).2 (hf.datasUsed p hp), hf.dataTypes, rfl⟩] at h3
        cases h3
      | ok s2 =>
        obtain ⟨-, c2, c3, -⟩ := (insertData_ok (o := { o with subbed := _, exogInfo := info }) hw.datas_declared hm h _ _).1 h3
        simp only [true_iff]
        exact ⟨a1, b1, a3, c3, a2, fun p hp => (hused p.1).1 (c2 p hp)⟩

/-- The object after a successful build. -/
theorem build_success {o o' : Obj} {m : Pm} {data : ℕ} {rest : Except Err Unit}
    (hv : ∀ p ∈ o.vars, p.1 ∈ o.paramNames) (hd : ∀ p ∈ o.datas, p.1 ∈ o.dataNames)
    (hm : (m.entries.map Entry.short).Nodup) (h : m.pre = "") (hb : build o m data rest = (o', none)) :
    rest = .ok () ∧ o' = { o with
      subbed := some (o.matrices.map fun M =>
        (M.subst (swap .param (o.vars.map Prod.fst))).subst (swap .data (o.datas.map Prod.fst)))
      exogInfo := o.dataNames.filterMap fun n => (m.attr n).map fun e => (n, e)
      fitDims := some m.varDims
      fitData := some data } := by
  simp only [build] at hb
  cases h1 : insertRandom o m with
  | error e => rw [h1] at hb; simp at hb
  | ok s1 =>
    obtain ⟨a1, a2, a3, rfl⟩ := (insertRandom_ok hv hm h _).1 h1
    rw [h1] at hb
    simp only at hb
    cases h2 : saveExog { o with subbed := some (o.matrices.map fun M => M.subst (swap .param (o.vars.map Prod.fst))) } m with
    | error e => rw [h2] at hb; simp at hb
    | ok info =>
      have hinfo := (saveExog_plain hm h).2 _ h2
      rw [h2] at hb
      simp only at hb
      cases h3 : insertData { o with subbed := some (o.matrices.map fun M => M.subst (swap .param (o.vars.map Prod.fst))), exogInfo := info } m (o.matrices.map fun M => M.subst (swap .param (o.vars.map Prod.fst))) with
      | error e => rw [h3] at hb; simp at hb
      | ok s2 =>
        obtain ⟨-, -, -, hs2⟩ := (insertData_ok (o := { o with subbed := _, exogInfo := info }) hd hm h _ _).1 h3
        rw [h3] at hb
        cases rest with
        | error e => simp at hb
        | ok u =>
          simp only [Prod.mk.injEq, and_true] at hb
          refine ⟨rfl, ?_⟩
          rw [← hb, hs2, hinfo]
          simp [List.map_map, Function.comp_def]

/-- C138. After a successful build the matrices have, for all values of the model's variables, the values of the symbolic
matrices with each placeholder set to the value of the model variable of the same name. -/
theorem C138_build_values (o o' : Obj) (m : Pm) (data : ℕ) (rest : Except Err Unit) (hw : Spec.WellFormed o)
    (hm : (m.entries.map Entry.short).Nodup) (h : m.pre = "") (hb : build o m data rest = (o', none)) :
    ∃ s, unpack o' = .ok s ∧ ∀ {V : Type} (K : ℤ → V) (I : String → (n : ℕ) → (Fin n → V) → V) (ρ : String → V),
      s.map (Expr.eval K I (Spec.byName ρ)) = o.matrices.map (Expr.eval K I (Spec.byName ρ)) := by
  obtain ⟨-, rfl⟩ := build_success hw.vars_declared hw.datas_declared hm h hb
  refine ⟨_, rfl, ?_⟩
  intro V K I ρ
  rw [List.map_map]
  refine List.map_congr_left fun M hM => ?_
  simp only [Function.comp_apply, eval_subst]
  apply eval_congr
  intro l _
  simp only [Function.comp_apply]
  have hs : ∀ (mk : String → Leaf) (hmk : ∀ n, Spec.byName ρ (mk n) = ρ n) (names : List String) (l : Leaf),
      Spec.byName ρ (swap mk names l) = Spec.byName ρ l := by
    intro mk hmk names l
    simp only [swap]
    cases hf : names.find? fun n => mk n = l with
    | none => rfl
    | some n =>
      have := List.find?_some hf
      simp only [decide_eq_true_eq] at this
      rw [← this, hmk]; rfl
  rw [hs .data (fun _ => rfl), hs .param (fun _ => rfl)]

/-- C138. After a successful build no placeholder is left in the matrices: they mention variables of the PyMC model only,
each under the name of a declared parameter or data container. -/
theorem C138_no_placeholder_left (o o' : Obj) (m : Pm) (data : ℕ) (rest : Except Err Unit) (hw : Spec.WellFormed o)
    (hm : (m.entries.map Entry.short).Nodup) (h : m.pre = "") (hb : build o m data rest = (o', none)) :
    ∃ s, unpack o' = .ok s ∧ ∀ M ∈ s, ∀ l ∈ M.leaves, ∃ n, l = .model n ∧ (n ∈ o.paramNames ∨ n ∈ o.dataNames) := by
  obtain ⟨-, rfl⟩ := build_success hw.vars_declared hw.datas_declared hm h hb
  refine ⟨_, rfl, ?_⟩
  intro M hM l hl
  obtain ⟨M0, hM0, rfl⟩ := List.mem_map.1 hM
  rw [leaves_subst, leaves_subst, List.mem_map] at hl
  obtain ⟨l1, hl1, rfl⟩ := hl
  obtain ⟨l0, hl0, rfl⟩ := List.mem_map.1 hl1
  rcases hw.leaves M0 hM0 l0 hl0 with ⟨p, hp, rfl⟩ | ⟨p, hp, rfl⟩
  · refine ⟨p.1, ?_, Or.inl (hw.vars_declared p hp)⟩
    rw [swap_mem (fun a b hab => by cases hab; rfl) (List.mem_map.2 ⟨p, hp, rfl⟩), swap_other (by simp)]
  · refine ⟨p.1, ?_, Or.inr (hw.datas_declared p hp)⟩
    rw [swap_other (mk := Leaf.param) (by simp),
      swap_mem (fun a b hab => by cases hab; rfl) (List.mem_map.2 ⟨p, hp, rfl⟩)]

/-- C138. The parameters reported as missing are exactly the declared ones that the (unnamed) model lacks, and the report
comes before anything else happens. -/
theorem C138_missing_reported (o : Obj) (m : Pm) (data : ℕ) (rest : Except Err Unit) (h : m.pre = "")
    (hmiss : ∃ n ∈ o.paramNames, ∀ e ∈ m.entries, e.short ≠ n) :
    ∃ names, build o m data rest = (o, some (.missing names)) ∧
      ∀ n, n ∈ names ↔ n ∈ o.paramNames ∧ ∀ e ∈ m.entries, e.short ≠ n := by
  refine ⟨o.paramNames.filter fun n => ∀ e ∈ m.entries, e.short ≠ n, ?_, by simp⟩
  have hne : (o.paramNames.filter fun n => ∀ e ∈ m.entries, e.short ≠ n) ≠ [] := by
    obtain ⟨n, hn, hn'⟩ := hmiss
    exact List.ne_nil_of_mem (List.mem_filter.2 ⟨hn, by simpa using hn'⟩)
  simp only [build, insertRandom]
  rw [missing_plain h]
  simp [hne]

/-- The replacement dictionary fails only by a missing key. -/
theorem replacements_err {mk : String → Leaf} {m : Pm} {reg : List (String × Ty)} {e : Err}
    (h : replacements mk m reg = .error e) : e = .keyError := by
  induction reg with
  | nil => cases h
  | cons p reg ih =>
    simp only [replacements, List.mapM_cons] at h ih
    cases hi : replaceOne mk m p with
    | error e' =>
      rw [hi] at h; cases h
      simp only [replaceOne] at hi
      cases hx : m.item p.1 with
      | none => rw [hx] at hi; cases hi; rfl
      | some x => rw [hx] at hi; cases hi
    | ok x =>
      rw [hi] at h
      cases hL : List.mapM (replaceOne mk m) reg with
      | error e' => rw [hL] at h ih; cases h; exact ih rfl
      | ok L => rw [hL] at h; cases h

/-- pymc_extras/statespace/core/statespace.py:708, 738 -/
theorem graphReplace_err {outs : List Expr} {rs : List Repl} {e : Err} (h : graphReplace outs rs = .error e) :
    e = .unusedReplacement ∨ e = .typeError := by
  simp only [graphReplace] at h
  split_ifs at h
  · cases h; exact Or.inl rfl
  · cases h; exact Or.inr rfl

theorem fill_err {mk : String → Leaf} {m : Pm} {reg : List (String × Ty)} {outs : List Expr} {e : Err}
    (h : (replacements mk m reg >>= graphReplace outs) = .error e) :
    e = .keyError ∨ e = .unusedReplacement ∨ e = .typeError := by
  cases hr : replacements mk m reg with
  | error e' => rw [hr] at h; cases h; exact Or.inl (replacements_err hr)
  | ok rs => rw [hr] at h; exact Or.inr (graphReplace_err h)

theorem saveExog_err {o : Obj} {m : Pm} {e : Err} (h : saveExog o m = .error e) :
    e = .keyError ∨ e = .attributeError := by
  simp only [saveExog] at h
  generalize o.dataNames = ns at h
  induction ns with
  | nil => cases h
  | cons n ns ih =>
    simp only [List.mapM_cons] at h
    cases hs : saveOne m n with
    | error e' =>
      rw [hs] at h; cases h
      simp only [saveOne] at hs
      cases hi : m.item n with
      | none => rw [hi] at hs; cases hs; exact Or.inl rfl
      | some x =>
        rw [hi] at hs
        cases hk : x.kind with
        | rv => simp only [hk] at hs; cases hs; exact Or.inr rfl
        | data v => simp only [hk] at hs; cases hs
    | ok r =>
      rw [hs] at h
      cases hL : List.mapM (saveOne m) ns with
      | error e' => rw [hL] at h ih; cases h; exact ih rfl
      | ok L => rw [hL] at h; cases h

/-- In a named model some parameter is always reported missing. -/
theorem named_missing {m : Pm} (h : m.pre ≠ "") {ns : List String} (hne : ns ≠ []) :
    (ns.filter fun n => n ∉ ns.filterMap fun n => (m.attr n).map fun e => m.full e.short) ≠ [] := by
  obtain ⟨n, hn, hmin⟩ := Finset.exists_min_image ns.toFinset String.length
    (by obtain ⟨a, ha⟩ := List.exists_mem_of_ne_nil ns hne; exact ⟨a, by simpa using ha⟩)
  simp only [List.mem_toFinset] at hn hmin
  apply List.ne_nil_of_mem (a := n)
  rw [List.mem_filter]
  refine ⟨hn, ?_⟩
  simp only [List.mem_filterMap, Option.map_eq_some_iff, decide_eq_true_eq, not_exists, not_and]
  rintro k hk e he hfull
  have hes := (attr_some he).2
  have h1 := hmin k hk
  rw [hes] at hfull
  have h2 := congrArg String.length hfull
  simp only [Pm.full, h, if_false, String.length_append] at h2
  have : ("::" : String).length = 2 := by decide
  omega

/-- C138. The report of parameters "found in the PyMC model but not required" is never made, whatever the model. -/
theorem C138_excess_never (o : Obj) (m : Pm) (data : ℕ) (rest : Except Err Unit) (names : List String)
    (hrest : rest ≠ .error (.excess names)) : (build o m data rest).2 ≠ some (.excess names) := by
  have hr : insertRandom o m ≠ .error (.excess names) := by
    intro hx
    simp only [insertRandom] at hx
    split_ifs at hx with h1 h2
    · cases hx
    · by_cases hp : m.pre = ""
      · apply h2
        rw [List.filter_eq_nil_iff]
        intro n hn
        simp only [decide_eq_true_eq, not_not]
        exact ((found_plain hp o.paramNames n).1 hn).1
      · by_cases hne : o.paramNames = []
        · apply h2; simp [hne]
        · exact h1 (named_missing hp hne)
    · rcases fill_err hx with h | h | h <;> cases h
  simp only [build]
  cases h1 : insertRandom o m with
  | error e =>
    intro hx
    simp only [Option.some.injEq] at hx
    exact hr (by rw [h1, hx])
  | ok s1 =>
    simp only
    cases h2 : saveExog { o with subbed := some s1 } m with
    | error e =>
      intro hx
      simp only [Option.some.injEq] at hx
      subst hx
      rcases saveExog_err h2 with h | h <;> cases h
    | ok info =>
      simp only
      cases h3 : insertData { o with subbed := some s1, exogInfo := info } m s1 with
      | error e =>
        intro hx
        simp only [Option.some.injEq] at hx
        subst hx
        simp only [insertData] at h3
        split_ifs at h3
        · cases h3
        · rcases fill_err h3 with h | h | h <;> cases h
      | ok s2 =>
        cases rest with
        | error e =>
          intro hx
          simp only [Option.some.injEq] at hx
          exact hrest (by rw [hx])
        | ok u => simp

/-- An AR(1) model with exogenous data; `x0` and the matrix with `rho`, `sigma` and the data are symbolic. -/
def Example.obj : Obj :=
  { paramNames := ["rho", "sigma"], dataNames := ["exog"],
    vars := [("rho", ⟨"float64", [some 1]⟩), ("sigma", ⟨"float64", []⟩)],
    datas := [("exog", ⟨"float64", [none, some 2]⟩)],
    matrices := [.const 0, .leaf (.param "rho"), .app "dot" 2 fun i => if i = 0 then .leaf (.data "exog") else .leaf (.param "sigma")],
    subbed := none, exogInfo := [], fitDims := none, fitData := none }

/-- A PyMC model for it, with one variable the state space model does not know. -/
def Example.pm : Pm :=
  { pre := "", entries := [⟨"tau", .rv, ⟨"float64", []⟩, none⟩, ⟨"sigma", .rv, ⟨"float64", []⟩, none⟩,
      ⟨"rho", .rv, ⟨"float64", [some 1]⟩, some ["ar_lag"]⟩,
      ⟨"exog", .data 7, ⟨"float64", [none, none]⟩, some ["time", "exog_state"]⟩] }

theorem Example.wf : Spec.WellFormed Example.obj := by
  refine ⟨by decide, by decide, by decide, by decide, ?_⟩
  intro M hM l hl
  simp only [Example.obj, List.mem_cons, List.not_mem_nil, or_false] at hM
  rcases hM with rfl | rfl | rfl
  · simp [Expr.leaves] at hl
  · simp only [Expr.leaves, List.mem_singleton] at hl
    exact Or.inl ⟨_, List.mem_cons_self, hl⟩
  · simp [Expr.leaves] at hl
    rcases hl with rfl | rfl
    · exact Or.inr ⟨_, List.mem_cons_self, rfl⟩
    · exact Or.inl ⟨_, List.mem_cons_of_mem _ List.mem_cons_self, rfl⟩

example : (build Example.obj Example.pm 3 (.ok ())).2 = none ∧ (Example.pm.entries.map Entry.short).Nodup ∧
    Example.pm.pre = "" := ⟨by rfl, by decide, rfl⟩

example : (build Example.obj ⟨"", [⟨"sigma", .rv, ⟨"float64", []⟩, none⟩]⟩ 3 (.ok ())).2 = some (.missing ["rho"]) := by rfl

/-! ### C139: builds do not depend on earlier builds -/

/-- The object after a series of builds, each of which may have raised. -/
def buildAll (o : Obj) (hist : List (Pm × ℕ × Except Err Unit)) : Obj :=
  hist.foldl (fun o h => (build o h.1 h.2.1 h.2.2).1) o

theorem build_static (o : Obj) (m : Pm) (d : ℕ) (r : Except Err Unit) :
    ∃ s i f g, (build o m d r).1 = { o with subbed := s, exogInfo := i, fitDims := f, fitData := g } := by
  simp only [build]
  cases h1 : insertRandom o m with
  | error e => exact ⟨_, _, _, _, rfl⟩
  | ok s1 =>
    simp only
    cases h2 : saveExog { o with subbed := some s1 } m with
    | error e => exact ⟨_, _, _, _, rfl⟩
    | ok info =>
      simp only
      cases h3 : insertData { o with subbed := some s1, exogInfo := info } m s1 with
      | error e => exact ⟨_, _, _, _, rfl⟩
      | ok s2 =>
        cases r with
        | error e => exact ⟨_, _, _, _, rfl⟩
        | ok u => exact ⟨_, _, _, _, rfl⟩

theorem buildAll_static (o : Obj) (hist : List (Pm × ℕ × Except Err Unit)) :
    ∃ s i f g, buildAll o hist = { o with subbed := s, exogInfo := i, fitDims := f, fitData := g } := by
  induction hist using List.reverseRecOn with
  | nil => exact ⟨_, _, _, _, rfl⟩
  | append_singleton hist x ih =>
    obtain ⟨s, i, f, g, h⟩ := ih
    obtain ⟨s', i', f', g', h'⟩ := build_static (buildAll o hist) x.1 x.2.1 x.2.2
    refine ⟨s', i', f', g', ?_⟩
    have : buildAll o (hist ++ [x]) = (build (buildAll o hist) x.1 x.2.1 x.2.2).1 := by
      simp [buildAll, List.foldl_append]
    rw [this, h', h]

/-- C139. Whatever builds were made or tried before with the same object, in whatever PyMC models, a build raises the same
exception, or leaves the same object, as on an object never used. -/
theorem C139_build_history (o : Obj) (hist : List (Pm × ℕ × Except Err Unit)) (m : Pm) (data : ℕ) (rest : Except Err Unit) :
    (build (buildAll o hist) m data rest).2 = (build o m data rest).2 ∧
    ((build o m data rest).2 = none → (build (buildAll o hist) m data rest).1 = (build o m data rest).1) := by
  obtain ⟨s, i, f, g, h⟩ := buildAll_static o hist
  rw [h]
  have e1 : insertRandom { o with subbed := s, exogInfo := i, fitDims := f, fitData := g } m = insertRandom o m := rfl
  simp only [build, e1]
  cases h1 : insertRandom o m with
  | error e => simp
  | ok s1 =>
    simp only
    have e2 : saveExog { o with subbed := some s1, exogInfo := i, fitDims := f, fitData := g } m =
      saveExog { o with subbed := some s1 } m := rfl
    rw [e2]
    cases h2 : saveExog { o with subbed := some s1 } m with
    | error e => simp
    | ok info =>
      simp only
      have e3 : insertData { o with subbed := some s1, exogInfo := info, fitDims := f, fitData := g } m s1 =
        insertData { o with subbed := some s1, exogInfo := info } m s1 := rfl
      rw [e3]
      cases h3 : insertData { o with subbed := some s1, exogInfo := info } m s1 with
      | error e => simp
      | ok s2 =>
        cases rest with
        | error e => simp
        | ok u => simp

/-- C139. A build that raises because a parameter is missing leaves the matrices of the last successful build in place. -/
theorem C139_failed_build_keeps_matrices (o : Obj) (m : Pm) (data : ℕ) (rest : Except Err Unit) (names : List String)
    (h : insertRandom o m = .error (.missing names)) : unpack (build o m data rest).1 = unpack o := by
  simp [build, h]

/-- C139. A build that raises because exogenous data are missing leaves the parameters filled in and the data placeholders
open, and `unpack_statespace` returns these matrices. -/
theorem C139_half_built : ∃ (o : Obj) (m : Pm) (s : List Expr), Spec.WellFormed o ∧
    (build o m 0 (.ok ())).2 = some .keyError ∧ unpack (build o m 0 (.ok ())).1 = .ok s ∧
    (∃ M ∈ s, Leaf.data "exog" ∈ M.leaves) ∧ ∀ M ∈ s, ∀ n, Leaf.param n ∉ M.leaves := by
  refine ⟨Example.obj, ⟨"", Example.pm.entries.take 3⟩, _, Example.wf, by rfl, rfl, ?_, ?_⟩
  · refine ⟨_, List.mem_cons_of_mem _ (List.mem_cons_of_mem _ List.mem_cons_self), ?_⟩
    decide
  · intro M hM n
    simp only [Example.obj, List.map_cons, List.map_nil, List.mem_cons, List.not_mem_nil, or_false] at hM
    rcases hM with rfl | rfl | rfl
    · simp [Expr.subst, Expr.leaves]
    · rw [show (Expr.subst _ (Expr.leaf (Leaf.param "rho"))).leaves = [Leaf.model "rho"] from by decide]; simp
    · rw [show Expr.leaves (Expr.subst _ _) = [Leaf.data "exog", Leaf.model "sigma"] from by decide]; simp

example : (buildAll Example.obj [(⟨"", []⟩, 0, .ok ()), (Example.pm, 1, .ok ())]).subbed.isSome = true := by rfl

/-- C139. If the record of the exogenous data succeeds and a later step of the build raises, the record of the new PyMC model
replaces that of the earlier build, although the matrices may be those of neither. -/
theorem C139_failed_build_replaces_data (o : Obj) (m : Pm) (data : ℕ) (rest : Except Err Unit) (s : List Expr)
    (info : List (String × Entry)) (hp : insertRandom o m = .ok s) (hx : saveExog o m = .ok info) :
    (build o m data rest).1.exogInfo = info := by
  have hx' : saveExog { o with subbed := some s } m = .ok info := hx
  simp only [build, hp, hx']
  cases insertData { o with subbed := some s, exogInfo := info } m s with
  | error e => rfl
  | ok s2 => cases rest <;> rfl

/-- The data container is there but has the wrong number of axes: the build raises, and its value is recorded. -/
example : (build Example.obj ⟨"", Example.pm.entries.take 3 ++ [⟨"exog", .data 9, ⟨"float64", [none]⟩, none⟩]⟩ 0 (.ok ())).2
      = some .typeError ∧
    ((build Example.obj ⟨"", Example.pm.entries.take 3 ++ [⟨"exog", .data 9, ⟨"float64", [none]⟩, none⟩]⟩ 0 (.ok ())).1.exogInfo.map
      fun p => p.2.kind) = [.data 9] := ⟨by rfl, by rfl⟩

/-- One call of `make_and_register_variable` (`true`) or `make_and_register_data`; a call that raises changes nothing. -/
def registerStep (o : Obj) (c : Bool × String × Ty) : Obj :=
  match (if c.1 then registerVariable o c.2.1 c.2.2 else registerData o c.2.1 c.2.2) with
  | .ok r => r.1
  | .error _ => o

/-- C138. Before a PyMC model has been built, `unpack_statespace` raises, whatever has been registered and whatever builds
have been refused for a missing parameter. -/
theorem C138_unpack_before_build (pn dn : List String) (calls : List (Bool × String × Ty)) (m : Pm) (data : ℕ)
    (rest : Except Err Unit) (names : List String) :
    unpack (calls.foldl registerStep (Obj.fresh pn dn)) = .error .notBuilt ∧
    (insertRandom (calls.foldl registerStep (Obj.fresh pn dn)) m = .error (.missing names) →
      unpack (build (calls.foldl registerStep (Obj.fresh pn dn)) m data rest).1 = .error .notBuilt) := by
  have hstep : ∀ (o : Obj) (c : Bool × String × Ty), (registerStep o c).subbed = o.subbed := by
    rintro o ⟨b, n, ty⟩
    cases b
    · simp only [registerStep, registerData, Bool.false_eq_true, if_false]
      by_cases h1 : n ∉ o.dataNames
      · rw [if_pos h1]
      · rw [if_neg h1]
        by_cases h2 : n ∈ o.datas.map Prod.fst
        · rw [if_pos h2]
        · rw [if_neg h2]
    · simp only [registerStep, registerVariable, if_true]
      by_cases h1 : n ∉ o.paramNames
      · rw [if_pos h1]
      · rw [if_neg h1]
        by_cases h2 : n ∈ o.vars.map Prod.fst
        · rw [if_pos h2]
        · rw [if_neg h2]
  have hall : ∀ (cs : List (Bool × String × Ty)) (o : Obj), (cs.foldl registerStep o).subbed = o.subbed := by
    intro cs
    induction cs with
    | nil => intro o; rfl
    | cons c cs ih => intro o; rw [List.foldl_cons, ih, hstep]
  have h0 : unpack (calls.foldl registerStep (Obj.fresh pn dn)) = .error .notBuilt := by
    simp only [unpack, hall]; rfl
  exact ⟨h0, fun h => by rw [C139_failed_build_keeps_matrices _ _ _ _ _ h, h0]⟩

/-! ### C140: named models -/

/-- C140. If the PyMC model has a name of its own, every build of a state space model with parameters raises, although each
parameter is there under its name. -/
theorem C140_named_model_fails (o : Obj) (m : Pm) (data : ℕ) (rest : Except Err Unit) (h : m.pre ≠ "")
    (hne : o.paramNames ≠ []) : ∃ names, names ≠ [] ∧ (∀ n ∈ names, n ∈ o.paramNames) ∧
      build o m data rest = (o, some (.missing names)) := by
  refine ⟨_, named_missing h hne, fun n hn => (List.mem_filter.1 hn).1, ?_⟩
  have := named_missing h hne
  simp only [build, insertRandom, ne_eq]
  rw [if_pos this]

/-- C140. Hence the parameters reported missing need not be missing. -/
example : (build Example.obj ⟨"m", Example.pm.entries⟩ 0 (.ok ())).2 = some (.missing ["rho", "sigma"]) := by rfl

/-! ### C141: exogenous data -/

/-- C141. If all parameters fit but a declared data container is missing from the model, the build raises `KeyError`. -/
theorem C141_missing_data_keyError (o : Obj) (m : Pm) (data : ℕ) (rest : Except Err Unit)
    (hm : (m.entries.map Entry.short).Nodup) (h : m.pre = "") (s : List Expr) (hp : insertRandom o m = .ok s)
    (hrv : ∀ n ∈ o.dataNames, ∀ e ∈ m.entries, e.short = n → ∃ v, e.kind = .data v)
    (hmiss : ∃ n ∈ o.dataNames, ∀ e ∈ m.entries, e.short ≠ n) : (build o m data rest).2 = some .keyError := by
  simp only [build, hp]
  cases h2 : saveExog { o with subbed := some s } m with
  | ok info =>
    obtain ⟨n, hn, hn'⟩ := hmiss
    obtain ⟨e, he, hes, -⟩ := (saveExog_plain hm h).1.1 ⟨_, h2⟩ n hn
    exact absurd hes (hn' e he)
  | error e =>
    simp only [Option.some.injEq]
    have : ∀ ns : List String, (∀ n ∈ ns, n ∈ o.dataNames) → ns.mapM (saveOne m) = .error e → e = .keyError := by
      intro ns
      induction ns with
      | nil => intro _ h; cases h
      | cons n ns ih =>
        intro hns h'
        simp only [List.mapM_cons] at h'
        cases hs : saveOne m n with
        | error e' =>
          rw [hs] at h'; cases h'
          simp only [saveOne, item_plain h] at hs
          cases hi : m.attr n with
          | none => rw [hi] at hs; cases hs; rfl
          | some x =>
            obtain ⟨v, hv⟩ := hrv n (hns n (by simp)) x (attr_some hi).1 (attr_some hi).2
            rw [hi] at hs
            simp only [hv] at hs
            cases hs
        | ok r =>
          rw [hs] at h'
          cases hL : List.mapM (saveOne m) ns with
          | error e' =>
            rw [hL] at h' ih; cases h'
            exact ih (fun k hk => hns k (by simp [hk])) rfl
          | ok L => rw [hL] at h'; cases h'
    exact this o.dataNames (fun _ h => h) h2

/-- C141. The message that lists missing exogenous data is never given by a build in an unnamed model. -/
theorem C141_missing_data_message_never (o : Obj) (m : Pm) (data : ℕ) (rest : Except Err Unit) (names : List String)
    (hm : (m.entries.map Entry.short).Nodup) (h : m.pre = "") (hrest : rest ≠ .error (.missingData names)) :
    (build o m data rest).2 ≠ some (.missingData names) := by
  simp only [build]
  cases h1 : insertRandom o m with
  | error e =>
    intro hx
    simp only [Option.some.injEq] at hx
    subst hx
    simp only [insertRandom] at h1
    split_ifs at h1
    · cases h1
    · cases h1
    · rcases fill_err h1 with h | h | h <;> cases h
  | ok s1 =>
    simp only
    cases h2 : saveExog { o with subbed := some s1 } m with
    | error e =>
      intro hx
      simp only [Option.some.injEq] at hx
      subst hx
      rcases saveExog_err h2 with h | h <;> cases h
    | ok info =>
      simp only
      have hd := (saveExog_plain hm h).1.1 ⟨_, h2⟩
      cases h3 : insertData { o with subbed := some s1, exogInfo := info } m s1 with
      | error e =>
        intro hx
        simp only [Option.some.injEq] at hx
        subst hx
        simp only [insertData] at h3
        split_ifs at h3 with hmiss
        · rw [missing_plain h] at hmiss
          apply hmiss
          rw [List.filter_eq_nil_iff]
          intro n hn
          obtain ⟨e, he, hes, -⟩ := hd n hn
          simp only [decide_eq_true_eq, not_forall, not_not]
          exact ⟨e, he, hes⟩
        · rcases fill_err h3 with h | h | h <;> cases h
      | ok s2 =>
        cases rest with
        | error e =>
          intro hx
          simp only [Option.some.injEq] at hx
          exact hrest (by rw [hx])
        | ok u => simp

example : (build Example.obj ⟨"", Example.pm.entries.take 3⟩ 0 (.ok ())).2 = some .keyError := by rfl

/-! ### C143: the filter -/

/-- C143. The filter type is looked up without regard to case; exactly three names are known. -/
theorem C143_filter_choice (s : String) (k : ℕ) (f : FilterKind) :
    chooseFilter s k = .ok f ↔ (s.toLower = "standard" ∧ f = .standard) ∨ (s.toLower = "univariate" ∧ f = .univariate) ∨
      (s.toLower = "cholesky" ∧ f = .cholesky) := by
  have hs : ("single" : String).toLower = "single" := by decide +kernel
  simp only [chooseFilter, factory]
  by_cases h1 : s.toLower = "standard"
  · have : s ≠ "single" := by rintro rfl; rw [hs] at h1; exact absurd h1 (by decide)
    simp [h1, this, eq_comm]
  · by_cases h2 : s.toLower = "univariate"
    · have : s ≠ "single" := by rintro rfl; rw [hs] at h2; exact absurd h2 (by decide)
      simp [h2, this, eq_comm]
    · by_cases h3 : s.toLower = "cholesky"
      · have : s ≠ "single" := by rintro rfl; rw [hs] at h3; exact absurd h3 (by decide)
        simp [h3, this, eq_comm]
      · simp [h1, h2, h3]

/-- C143. The refusal of `"single"` with several series is never reached: that name is refused before, as unknown. -/
theorem C143_single_never (s : String) (k : ℕ) : chooseFilter s k ≠ .error .valueError := by
  have hs : ("single" : String).toLower = "single" := by decide +kernel
  intro h
  simp only [chooseFilter] at h
  cases hf : factory s.toLower with
  | none => rw [hf] at h; cases h
  | some f =>
    rw [hf] at h
    simp only at h
    split_ifs at h with hc
    rw [hc.1, hs] at hf
    simp [factory] at hf

example : chooseFilter "Cholesky" 3 = .ok .cholesky := by decide +kernel

end Verif.Registry
