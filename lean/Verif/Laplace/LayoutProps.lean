import Verif.Laplace.Layout
import Mathlib.Data.List.Nodup
import Mathlib.Data.List.Perm.Basic
import Mathlib.Tactic.Linarith
import Mathlib.Tactic.NormNum

/-!
# Laplace approximation: is the Hessian evaluated at the optimised point, are draws given to the right variable?
-/

set_option autoImplicit false

namespace Verif.Laplace

namespace Spec

/-- The dictionary with these keys, in this order. -/
def dict (keys : List String) (val : String → List ℝ) : Point := keys.map fun k => (k, val k)

/-- `a` is declared before `b`, `a` has a transform and `b` has none. -/
def BadPair (a b : RV) : Prop := a.transformed.isSome = true ∧ b.transformed.isNone = true

/-- All names in play are different. -/
def Distinct (rvs : List RV) (det : List String) : Prop :=
  (rvs.map RV.name ++ rvs.filterMap RV.transformed ++ det).Nodup

end Spec

theorem assign_self (vs : List String) (val : String → List ℝ) (extra : List ℝ) :
    assign (vs.map fun v => (v, (val v).length)) (vs.flatMap val ++ extra) = .ok (Spec.dict vs val) := by
  induction vs with
  | nil => rfl
  | cons v vs ih =>
    simp only [List.map_cons, List.flatMap_cons, List.append_assoc, assign, List.take_left, if_true, List.drop_left, ih,
      Except.map, Spec.dict]

theorem assign_cons_ok {v : String} {k : ℕ} {rest : List (String × ℕ)} {x : List ℝ} {r : Point}
    (h : assign ((v, k) :: rest) x = .ok r) :
    ∃ tl, r = (v, x.take k) :: tl ∧ assign rest (x.drop k) = .ok tl := by
  simp only [assign] at h
  split at h
  · cases hr : assign rest (x.drop k) with
    | error e => rw [hr] at h; simp [Except.map] at h
    | ok tl =>
      rw [hr] at h
      simp only [Except.map, Except.ok.injEq] at h
      exact ⟨tl, h.symm, rfl⟩
  · simp at h

theorem assign_inj (size : String → ℕ) (hpos : ∀ k, 0 < size k) (vs : List String) : ∀ ks : List String,
    ks.length = vs.length →
    (∀ val : String → List ℝ, (∀ k, (val k).length = size k) →
      assign (vs.map fun v => (v, size v)) (ks.flatMap val) = .ok (Spec.dict vs val)) → ks = vs := by
  induction vs with
  | nil => intro ks hl _; exact List.length_eq_zero_iff.mp hl
  | cons v vs ih =>
    intro ks hl h
    cases ks with
    | nil => simp at hl
    | cons k ks =>
      have hkv : k = v := by
        by_contra hne
        have := h (fun x => List.replicate (size x) (if x = k then 1 else 0)) (fun x => List.length_replicate)
        obtain ⟨tl, h1, -⟩ := assign_cons_ok this
        simp only [Spec.dict, List.map_cons, List.cons.injEq, Prod.mk.injEq, true_and, List.flatMap_cons] at h1
        have h1 := h1.1
        obtain ⟨a, ha⟩ := Nat.exists_eq_succ_of_ne_zero (hpos k).ne'
        obtain ⟨b, hb⟩ := Nat.exists_eq_succ_of_ne_zero (hpos v).ne'
        rw [ha, hb] at h1
        simp [List.replicate_succ, Ne.symm hne] at h1
      subst hkv
      congr 1
      refine ih ks (by simpa using hl) fun val hval => ?_
      obtain ⟨tl, h1, h2⟩ := assign_cons_ok (h val hval)
      rw [List.flatMap_cons, ← hval k, List.drop_left] at h2
      simp only [Spec.dict, List.map_cons, List.cons.injEq] at h1
      rw [h2, ← h1.2]; rfl

theorem lookup_dict (keys : List String) (val : String → List ℝ) (v : String) (h : v ∈ keys) :
    (Spec.dict keys val).lookup v = some (val v) := by
  induction keys with
  | nil => simp at h
  | cons k ks ih =>
    simp only [Spec.dict, List.map_cons, List.lookup_cons]
    by_cases hk : v = k
    · subst hk; simp
    · have : (v == k) = false := by simpa using hk
      rw [this]
      exact ih (by simpa [hk] using h)

theorem inputSizes_ok (vs : List String) (p : Point) (val : String → List ℝ)
    (h : ∀ v ∈ vs, p.lookup v = some (val v)) : inputSizes vs p = .ok (vs.map fun v => (v, (val v).length)) := by
  induction vs with
  | nil => rfl
  | cons v vs ih =>
    have h1 := h v (by simp)
    have h2 := ih fun w hw => h w (by simp [hw])
    simp only [inputSizes] at h2 ⊢
    rw [List.mapM_cons, h2]
    simp [h1, bind, Except.bind, pure, Except.pure]

theorem freeParams_dict (vars keys : List String) (val : String → List ℝ) :
    freeParams vars (Spec.dict keys val) = Spec.dict (keys.filter fun k => decide (k ∈ vars)) val := by
  simp only [freeParams, Spec.dict, List.filter_map]
  rfl

theorem ravel_dict (keys : List String) (val : String → List ℝ) : ravel (Spec.dict keys val) = keys.flatMap val := by
  simp [ravel, Spec.dict, List.flatMap_map]

theorem hessianPoint_dict (vars keys : List String) (val : String → List ℝ) (hsub : ∀ v ∈ vars, v ∈ keys) :
    hessianPoint vars (Spec.dict keys val) = assign (vars.map fun v => (v, (val v).length))
      ((keys.filter fun k => decide (k ∈ vars)).flatMap val) := by
  simp only [hessianPoint, freeParams_dict, ravel_dict]
  rw [inputSizes_ok vars _ val]
  · rfl
  · intro v hv
    exact lookup_dict _ _ _ (List.mem_filter.mpr ⟨hsub v hv, by simpa using hv⟩)

/-- **C121** The Hessian is evaluated at the point passed in, whatever the values, exactly when the dictionary lists the
model's variables in the model's own order. (`keys` may contain more names; sizes are positive.) -/
theorem C121_aligned_iff (vars keys : List String) (hv : vars.Nodup) (hk : keys.Nodup) (hsub : ∀ v ∈ vars, v ∈ keys)
    (size : String → ℕ) (hpos : ∀ k, 0 < size k) :
    (∀ val : String → List ℝ, (∀ k, (val k).length = size k) →
      hessianPoint vars (Spec.dict keys val) = .ok (Spec.dict vars val)) ↔
    (keys.filter fun k => decide (k ∈ vars)) = vars := by
  constructor
  · intro h
    refine assign_inj size hpos vars _ ?_ fun val hval => ?_
    · have h1 : (keys.filter fun k => decide (k ∈ vars)).Nodup := hk.filter _
      have h2 : (keys.filter fun k => decide (k ∈ vars)).Perm vars := by
        rw [List.perm_ext_iff_of_nodup h1 hv]
        intro a
        simp only [List.mem_filter, decide_eq_true_eq]
        exact ⟨fun h => h.2, fun h => ⟨hsub a h, h⟩⟩
      exact h2.length_eq
    · have := h val hval
      rw [hessianPoint_dict vars keys val hsub] at this
      simpa only [hval] using this
  · intro h val _
    rw [hessianPoint_dict vars keys val hsub, h]
    have := assign_self vars val []
    simpa using this

/-- **C121** The labels put on the rows of the covariance (dictionary order) are those of the Hessian's rows (model order)
exactly when the two orders agree. -/
theorem C121_rows (size : String → ℕ) (hpos : ∀ k, 0 < size k) (vs : List String) : ∀ ks : List String,
    layout (ks.map fun k => (k, size k)) = layout (vs.map fun v => (v, size v)) ↔ ks = vs := by
  induction vs with
  | nil =>
    intro ks
    constructor
    · intro h
      cases ks with
      | nil => rfl
      | cons k ks =>
        have := congrArg List.length h
        have := hpos k
        simp [layout] at *
        omega
    · rintro rfl; rfl
  | cons v vs ih =>
    intro ks
    constructor
    · intro h
      cases ks with
      | nil =>
        have := congrArg List.length h
        have := hpos v
        simp [layout] at *
        omega
      | cons k ks =>
        have hkv : k = v := by
          have := congrArg List.head? h
          obtain ⟨a, ha⟩ := Nat.exists_eq_succ_of_ne_zero (hpos k).ne'
          obtain ⟨b, hb⟩ := Nat.exists_eq_succ_of_ne_zero (hpos v).ne'
          simp [layout, ha, hb, List.range_succ_eq_map] at this
          exact this
        subst hkv
        congr 1
        rw [← ih ks]
        simp only [layout, List.map_cons, List.flatMap_cons] at h
        exact List.append_cancel_left h
    · rintro rfl; rfl

/-! ### The dictionary returned by `find_MAP` -/

theorem map_inj_on {α β : Type} (f : α → β) : ∀ l l' : List α, (∀ x ∈ l, ∀ y ∈ l', f x = f y → x = y) →
    l.map f = l'.map f → l = l' := by
  intro l
  induction l with
  | nil => intro l' _ h; cases l' with
    | nil => rfl
    | cons a l' => simp at h
  | cons a l ih =>
    intro l' hinj h
    cases l' with
    | nil => simp at h
    | cons b l' =>
      simp only [List.map_cons, List.cons.injEq] at h
      rw [hinj a (by simp) b (by simp) h.1, ih l' (fun x hx y hy => hinj x (by simp [hx]) y (by simp [hy])) h.2]

theorem partition_of_pairwise {α : Type} (p : α → Bool) (l : List α)
    (h : l.Pairwise fun a b => ¬ (p a = false ∧ p b = true)) : l.filter p ++ l.filter (fun a => !p a) = l := by
  induction l with
  | nil => rfl
  | cons a l ih =>
    rw [List.pairwise_cons] at h
    cases hp : p a with
    | true => simp [List.filter_cons, hp, ih h.2]
    | false =>
      have hall : l.filter p = [] := by
        rw [List.filter_eq_nil_iff]
        intro b hb hpb
        exact h.1 b hb ⟨hp, hpb⟩
      have := ih h.2
      rw [hall, List.nil_append] at this
      simp [List.filter_cons, hp, hall, this]

theorem pairwise_of_partition {α : Type} (p : α → Bool) (l : List α)
    (h : l.filter p ++ l.filter (fun a => !p a) = l) : l.Pairwise fun a b => ¬ (p a = false ∧ p b = true) := by
  rw [← h, List.pairwise_append]
  refine ⟨?_, ?_, ?_⟩
  · refine List.pairwise_of_forall_mem_list fun a ha b _ => ?_
    have := (List.mem_filter.mp ha).2
    simp [this]
  · refine List.pairwise_of_forall_mem_list fun a _ b hb => ?_
    have := (List.mem_filter.mp hb).2
    simp_all
  · intro a ha b _
    have := (List.mem_filter.mp ha).2
    simp [this]

theorem names_disjoint {rvs : List RV} {det : List String} (hd : Spec.Distinct rvs det) :
    (rvs.map RV.name).Nodup ∧ (∀ v ∈ rvs, ∀ t, v.transformed = some t → t ∉ rvs.map RV.name) ∧
    (∀ d ∈ det, d ∉ rvs.map RV.name) := by
  unfold Spec.Distinct at hd
  rw [List.nodup_append, List.nodup_append] at hd
  obtain ⟨⟨h1, h2, h3⟩, h4, h5⟩ := hd
  refine ⟨h1, fun v hv t ht hmem => ?_, fun d hdm hmem => ?_⟩
  · exact h3 t hmem t (List.mem_filterMap.mpr ⟨v, hv, ht⟩) rfl
  · exact h5 d (by simp only [List.mem_append]; exact .inl hmem) d hdm rfl

/-- The names of the constrained variables in the order in which `find_MAP` lists them. -/
theorem findMap_order (rvs : List RV) (det : List String) (inc : Bool) (hd : Spec.Distinct rvs det) :
    ((findMapKeys rvs det inc).filter fun k => decide (k ∈ rvs.map RV.name)) =
      (rvs.filter fun v => v.transformed.isNone).map RV.name ++
      (rvs.filter fun v => !v.transformed.isNone).map RV.name := by
  obtain ⟨h1, h2, h3⟩ := names_disjoint hd
  simp only [findMapKeys, List.filter_append]
  have e3 : det.filter (fun k => decide (k ∈ rvs.map RV.name)) = [] := by
    rw [List.filter_eq_nil_iff]
    intro d hd'
    simpa using h3 d hd'
  have e2 : ((rvs.filter fun v => v.transformed.isSome).map RV.name).filter (fun k => decide (k ∈ rvs.map RV.name)) =
      (rvs.filter fun v => !v.transformed.isNone).map RV.name := by
    rw [List.filter_eq_self.mpr]
    · congr 2; ext v; cases v.transformed <;> rfl
    · intro a ha
      obtain ⟨v, hv, rfl⟩ := List.mem_map.mp ha
      simpa using ⟨v, (List.mem_filter.mp hv).1, rfl⟩
  have e1 : ((rvs.filter fun v => inc || v.transformed.isNone).map RV.valueName).filter
      (fun k => decide (k ∈ rvs.map RV.name)) = (rvs.filter fun v => v.transformed.isNone).map RV.name := by
    rw [List.filter_map, List.filter_filter]
    have : (rvs.filter fun v => ((fun k => decide (k ∈ rvs.map RV.name)) ∘ RV.valueName) v &&
        (inc || v.transformed.isNone)) = rvs.filter fun v => v.transformed.isNone := by
      refine List.filter_congr fun v hv => ?_
      cases ht : v.transformed with
      | none =>
        have : v.name ∈ rvs.map RV.name := List.mem_map.mpr ⟨v, hv, rfl⟩
        simp only [Function.comp, RV.valueName, ht, Option.getD_none, Option.isNone_none, Bool.or_true, Bool.and_true]
        simpa using ⟨v, hv, rfl⟩
      | some t =>
        have := h2 v hv t ht
        simp only [Function.comp, RV.valueName, ht, Option.getD_some, Option.isNone_some, Bool.or_false]
        simp only [Bool.and_eq_false_iff]
        left
        simpa using this
    rw [this]
    refine List.map_congr_left fun v hv => ?_
    have := (List.mem_filter.mp hv).2
    simp only [Option.isNone_iff_eq_none] at this
    simp [RV.valueName, this]
  rw [e1, e2, e3, List.append_nil]

/-- **C121** In the constrained space (the default), with the point found by `find_MAP`, the Hessian is evaluated at that
point exactly when no variable with a transform (say a positive scale) is declared before one without (say a normal
mean). -/
theorem C121_declaration_order (rvs : List RV) (det : List String) (inc : Bool) (hd : Spec.Distinct rvs det)
    (hc : ∀ v ∈ rvs, v.discrete = false) (size : String → ℕ) (hpos : ∀ k, 0 < size k) :
    (∀ val : String → List ℝ, (∀ k, (val k).length = size k) →
      hessianPoint (hessianVars rvs false) (Spec.dict (findMapKeys rvs det inc) val) =
        .ok (Spec.dict (hessianVars rvs false) val)) ↔
    rvs.Pairwise fun a b => ¬ Spec.BadPair a b := by
  obtain ⟨h1, h2, h3⟩ := names_disjoint hd
  have hvars : hessianVars rvs false = rvs.map RV.name := by
    have : rvs.filter (fun v => !v.discrete) = rvs := List.filter_eq_self.mpr fun v hv => by simp [hc v hv]
    simp [hessianVars, this]
  rw [hvars]
  have hord := findMap_order rvs det inc hd
  have hmem : ∀ v ∈ rvs.map RV.name, v ∈ findMapKeys rvs det inc := by
    intro x hx
    have : x ∈ (findMapKeys rvs det inc).filter fun k => decide (k ∈ rvs.map RV.name) := by
      rw [hord, ← List.map_append]
      obtain ⟨v, hv, rfl⟩ := List.mem_map.mp hx
      refine List.mem_map.mpr ⟨v, ?_, rfl⟩
      simp only [List.mem_append, List.mem_filter]
      cases hb : v.transformed.isNone <;> simp [hv, hb]
    exact (List.mem_filter.mp this).1
  -- only the restriction of the keys to the model's variables matters
  have hkey : ∀ val : String → List ℝ, hessianPoint (rvs.map RV.name) (Spec.dict (findMapKeys rvs det inc) val) =
      hessianPoint (rvs.map RV.name) (Spec.dict ((rvs.filter fun v => v.transformed.isNone).map RV.name ++
        (rvs.filter fun v => !v.transformed.isNone).map RV.name) val) := by
    intro val
    rw [hessianPoint_dict _ _ _ hmem, hord, hessianPoint_dict]
    · congr 2
      symm
      rw [List.filter_eq_self]
      intro a ha
      rw [← hord] at ha
      exact (List.mem_filter.mp ha).2
    · intro v hv
      rw [← hord]
      exact List.mem_filter.mpr ⟨hmem v hv, by simpa using hv⟩
  simp only [hkey]
  have hnd : ((rvs.filter fun v => v.transformed.isNone).map RV.name ++
      (rvs.filter fun v => !v.transformed.isNone).map RV.name).Nodup := by
    rw [← List.map_append]
    refine (List.Perm.nodup_iff ?_).mpr h1
    exact (List.filter_append_perm (fun v : RV => v.transformed.isNone) rvs).map RV.name
  rw [C121_aligned_iff _ _ h1 hnd (fun v hv => by
    rw [← hord]; exact List.mem_filter.mpr ⟨hmem v hv, by simpa using hv⟩) size hpos]
  have hself : (((rvs.filter fun v => v.transformed.isNone).map RV.name ++
      (rvs.filter fun v => !v.transformed.isNone).map RV.name).filter fun k => decide (k ∈ rvs.map RV.name)) =
      (rvs.filter fun v => v.transformed.isNone).map RV.name ++
      (rvs.filter fun v => !v.transformed.isNone).map RV.name := by
    rw [List.filter_eq_self]
    intro a ha
    rw [← hord] at ha
    exact (List.mem_filter.mp ha).2
  rw [hself, ← List.map_append]
  have hR : (rvs.Pairwise fun a b => ¬ Spec.BadPair a b) ↔ rvs.Pairwise fun a b =>
      ¬ ((fun v : RV => v.transformed.isNone) a = false ∧ (fun v : RV => v.transformed.isNone) b = true) := by
    have : ∀ a b : RV, Spec.BadPair a b ↔ (a.transformed.isNone = false ∧ b.transformed.isNone = true) := by
      intro a b
      unfold Spec.BadPair
      cases a.transformed <;> simp
    simp only [this]
  rw [hR]
  constructor
  · intro h
    refine pairwise_of_partition (fun v : RV => v.transformed.isNone) rvs ?_
    refine map_inj_on RV.name _ _ ?_ h
    intro x hx y hy hxy
    have hx' : x ∈ rvs := by
      simp only [List.mem_append, List.mem_filter] at hx
      rcases hx with hx | hx <;> exact hx.1
    exact List.inj_on_of_nodup_map h1 hx' hy hxy
  · intro h
    rw [partition_of_pairwise (fun v : RV => v.transformed.isNone) rvs h]

/-- **C121** The two-variable case: a scale declared before a mean. The Hessian is evaluated with their values
exchanged. -/
theorem C121_swapped (s m l : ℝ) :
    (findMapKeys [⟨"sigma", some "sigma_log__", false, 1⟩, ⟨"mu", none, false, 1⟩] [] true =
      ["sigma_log__", "mu", "sigma"]) ∧
    hessianPoint (hessianVars [⟨"sigma", some "sigma_log__", false, 1⟩, ⟨"mu", none, false, 1⟩] false)
      [("sigma_log__", [l]), ("mu", [m]), ("sigma", [s])] = .ok [("sigma", [m]), ("mu", [s])] := by
  constructor
  · decide
  · simp [hessianPoint, hessianVars, freeParams, inputSizes, ravel, assign, bind, Except.bind, pure, Except.pure,
      List.lookup, Except.map]

/-- The hypotheses of `C121_declaration_order` hold for that model and for its well-behaved reordering. -/
example : Spec.Distinct [⟨"sigma", some "sigma_log__", false, 1⟩, ⟨"mu", none, false, 1⟩] ["loc"] ∧
    ([⟨"mu", none, false, 1⟩, ⟨"sigma", some "sigma_log__", false, 1⟩] : List RV).Pairwise fun a b => ¬ Spec.BadPair a b := by
  constructor
  · unfold Spec.Distinct; decide
  · simp [Spec.BadPair]

/-- **C121** In the unconstrained space the orders always agree when `find_MAP` was asked for the transformed values. -/
theorem C121_unconstrained (rvs : List RV) (det : List String) (hd : Spec.Distinct rvs det)
    (hc : ∀ v ∈ rvs, v.discrete = false) (val : String → List ℝ) :
    hessianPoint (hessianVars rvs true) (Spec.dict (findMapKeys rvs det true) val) =
      .ok (Spec.dict (hessianVars rvs true) val) := by
  have hvars : hessianVars rvs true = rvs.map RV.valueName := by
    have : rvs.filter (fun v => !v.discrete) = rvs := List.filter_eq_self.mpr fun v hv => by simp [hc v hv]
    simp [hessianVars, this]
  have hkeys : findMapKeys rvs det true =
      rvs.map RV.valueName ++ ((rvs.filter fun v => v.transformed.isSome).map RV.name ++ det) := by
    have : (rvs.filter fun v => true || v.transformed.isNone) = rvs := List.filter_eq_self.mpr fun v _ => by simp
    simp only [findMapKeys, this, List.append_assoc]
  have hdis : ∀ x ∈ (rvs.filter fun v => v.transformed.isSome).map RV.name ++ det, x ∉ rvs.map RV.valueName := by
    unfold Spec.Distinct at hd
    rw [List.nodup_append, List.nodup_append] at hd
    obtain ⟨⟨h1, h2, h3⟩, h4, h5⟩ := hd
    intro x hx hmem
    obtain ⟨w, hw, rfl⟩ := List.mem_map.mp hmem
    rw [List.mem_append] at hx
    rcases hx with hx | hx
    · obtain ⟨v, hv, hvx⟩ := List.mem_map.mp hx
      obtain ⟨hv, hvs⟩ := List.mem_filter.mp hv
      cases ht : w.transformed with
      | none =>
        simp only [RV.valueName, ht, Option.getD_none] at hvx
        have := List.inj_on_of_nodup_map h1 hv hw hvx
        subst this
        simp [ht] at hvs
      | some t =>
        simp only [RV.valueName, ht, Option.getD_some] at hvx
        exact h3 v.name (List.mem_map.mpr ⟨v, hv, rfl⟩) t (List.mem_filterMap.mpr ⟨w, hw, ht⟩) hvx
    · cases ht : w.transformed with
      | none =>
        simp only [RV.valueName, ht, Option.getD_none] at hx
        exact h5 w.name (List.mem_append.mpr (.inl (List.mem_map.mpr ⟨w, hw, rfl⟩))) w.name hx rfl
      | some t =>
        simp only [RV.valueName, ht, Option.getD_some] at hx
        exact h5 t (List.mem_append.mpr (.inr (List.mem_filterMap.mpr ⟨w, hw, ht⟩))) t hx rfl
  rw [hvars, hkeys, hessianPoint_dict _ _ _ (fun v hv => List.mem_append.mpr (.inl hv))]
  have : ((rvs.map RV.valueName ++ ((rvs.filter fun v => v.transformed.isSome).map RV.name ++ det)).filter
      fun k => decide (k ∈ rvs.map RV.valueName)) = rvs.map RV.valueName := by
    rw [List.filter_append, List.filter_eq_self.mpr (fun a ha => by simpa using ha), List.filter_eq_nil_iff.mpr,
      List.append_nil]
    intro a ha
    simpa using hdis a ha
  rw [this]
  simpa using assign_self (rvs.map RV.valueName) val []

/-- **C121** Without the transformed values in the dictionary, fitting in the unconstrained space raises a `KeyError` as
soon as one variable has a transform. -/
theorem C121_unconstrained_needs_transformed (rvs : List RV) (det : List String) (hd : Spec.Distinct rvs det)
    (v : RV) (hv : v ∈ rvs) (hvc : v.discrete = false) (ht : v.transformed.isSome = true) (val : String → List ℝ) :
    hessianPoint (hessianVars rvs true) (Spec.dict (findMapKeys rvs det false) val) = .error .keyError := by
  obtain ⟨t, ht⟩ := Option.isSome_iff_exists.mp ht
  obtain ⟨h1, h2, h3⟩ := names_disjoint hd
  have hmem : t ∈ hessianVars rvs true := by
    refine List.mem_map.mpr ⟨v, List.mem_filter.mpr ⟨hv, by simp [hvc]⟩, ?_⟩
    simp [RV.valueName, ht]
  have hnot : t ∉ findMapKeys rvs det false := by
    unfold Spec.Distinct at hd
    rw [List.nodup_append] at hd
    obtain ⟨-, -, h5⟩ := hd
    simp only [findMapKeys, List.mem_append, not_or]
    refine ⟨⟨?_, ?_⟩, ?_⟩
    · intro h
      obtain ⟨w, hw, hwt⟩ := List.mem_map.mp h
      obtain ⟨hw, hwn⟩ := List.mem_filter.mp hw
      simp only [Bool.false_or, Option.isNone_iff_eq_none] at hwn
      simp only [RV.valueName, hwn, Option.getD_none] at hwt
      exact h2 v hv t ht (List.mem_map.mpr ⟨w, hw, hwt⟩)
    · intro h
      obtain ⟨w, hw, hwt⟩ := List.mem_map.mp h
      exact h2 v hv t ht (List.mem_map.mpr ⟨w, (List.mem_filter.mp hw).1, hwt⟩)
    · intro h
      exact h5 t (List.mem_append.mpr (.inr (List.mem_filterMap.mpr ⟨v, hv, ht⟩))) t h rfl
  have hlook : ∀ p : Point, t ∉ p.map Prod.fst → p.lookup t = none := by
    intro p hp
    induction p with
    | nil => rfl
    | cons a p ih =>
      simp only [List.map_cons, List.mem_cons, not_or] at hp
      have : (t == a.1) = false := by simpa using hp.1
      simp only [List.lookup, this]
      exact ih hp.2
  have herr : ∀ (vs : List String) (p : Point), t ∈ vs → t ∉ p.map Prod.fst → inputSizes vs p = .error .keyError := by
    intro vs p hm hp
    induction vs with
    | nil => simp at hm
    | cons w vs ih =>
      simp only [inputSizes] at ih ⊢
      rw [List.mapM_cons]
      cases hw : p.lookup w with
      | none => simp [bind, Except.bind, hw]
      | some x =>
        have hwt : t ≠ w := by
          rintro rfl
          rw [hlook p hp] at hw; simp at hw
        have := ih (by simpa [hwt] using hm)
        simp [bind, Except.bind, hw, this]
  simp only [hessianPoint]
  rw [herr _ _ hmem]
  · rfl
  · rw [freeParams_dict]
    simp only [Spec.dict, List.map_map]
    intro h
    obtain ⟨k, hk, hkt⟩ := List.mem_map.mp h
    simp only [Function.comp] at hkt
    subst hkt
    exact hnot (List.mem_filter.mp hk).1

end Verif.Laplace
