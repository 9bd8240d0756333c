import Verif.Params.Meta
import Verif.Sarima.Props
import Verif.Varmax.Props
import Verif.Ets.Props
import Mathlib.Data.List.Perm.Basic
import Mathlib.Data.List.Forall2
import Mathlib.Data.List.Nodup

/-! # C145-C147: what a model says about its parameters is what it expects -/

set_option autoImplicit false

namespace Verif.Params

/-! ### Specification -/

/-- The announced dims fit a shape: no dims for a scalar, otherwise one known dimension per axis, with as many labels as
the axis has entries. -/
def Spec.Fits (coords : Dict (List String)) (d : Dims) (shape : List ℕ) : Prop :=
  match d with
  | none => shape = []
  | some ds => List.Forall₂ (fun dim n => ∃ l, get coords dim = some l ∧ l.length = n) ds shape

/-- One registered variable is announced with its shape and dims that fit it. -/
def Spec.Announced (m : Meta) (e : String × List ℕ) : Prop :=
  ∃ info d, m.info = some info ∧ get info e.1 = some (e.2, d) ∧ Spec.Fits m.coords d e.2

/-- The names announced are, without repetition, the names registered; `param_info` exists and lists exactly them; each
registered variable is announced with its shape and fitting dims. -/
def Spec.Consistent (m : Meta) : Prop :=
  m.names.Nodup ∧ (m.registered.map Prod.fst).Perm m.names ∧
  (∃ info, m.info = some info ∧ info.map Prod.fst = m.names) ∧ ∀ e ∈ m.registered, Spec.Announced m e

/-! ### Lemmas -/

theorem get_cons {V : Type} (k : String) (v : V) (d : Dict V) (n : String) :
    get ((k, v) :: d) n = if k = n then some v else get d n := by
  simp only [get, List.find?_cons]
  by_cases h : k = n <;> simp [h]

theorem mapM_names {V : Type} (g : String → Option (String × V)) (names : List String)
    (h : ∀ n ∈ names, ∃ v, g n = some (n, v)) :
    ∃ info : Dict V, names.mapM g = some info ∧ info.map Prod.fst = names ∧
      ∀ n ∈ names, ∀ v, g n = some (n, v) → get info n = some v := by
  induction names with
  | nil => exact ⟨[], rfl, rfl, by simp⟩
  | cons a l ih =>
    obtain ⟨v, hv⟩ := h a (by simp)
    obtain ⟨info, h1, h2, h3⟩ := ih (fun n hn => h n (by simp [hn]))
    refine ⟨(a, v) :: info, ?_, by simp [h2], ?_⟩
    · simp [List.mapM_cons, hv, h1]
    · intro n hn w hw
      rw [get_cons]
      by_cases he : a = n
      · subst he
        rw [hv] at hw
        simp only [Option.some.injEq, Prod.mk.injEq, true_and] at hw
        rw [if_pos rfl, hw]
      · rw [if_neg he]
        rcases List.mem_cons.1 hn with h' | h'
        · exact absurd h'.symm he
        · exact h3 n h' w hw

theorem announced_of {m : Meta} {g : String → Option (String × (List ℕ × Dims))}
    (hinfo : m.info = m.names.mapM g) (hp : (m.registered.map Prod.fst).Perm m.names)
    (h : ∀ e ∈ m.registered, ∃ d, g e.1 = some (e.1, e.2, d)) :
    (∃ info, m.info = some info ∧ info.map Prod.fst = m.names) ∧
    ∀ e ∈ m.registered, ∀ d, g e.1 = some (e.1, e.2, d) → Spec.Fits m.coords d e.2 → Spec.Announced m e := by
  have hg : ∀ n ∈ m.names, ∃ v, g n = some (n, v) := by
    intro n hn'
    obtain ⟨e, he, rfl⟩ := List.mem_map.1 (hp.mem_iff.2 hn')
    obtain ⟨d, hd⟩ := h e he
    exact ⟨_, hd⟩
  obtain ⟨info, h1, h2, h3⟩ := mapM_names g m.names hg
  refine ⟨⟨info, hinfo.trans h1, h2⟩, fun e he d hd hf => ?_⟩
  exact ⟨info, d, hinfo.trans h1, h3 e.1 (hp.mem_iff.1 (List.mem_map_of_mem he)) _ hd, hf⟩

/-- What is announced for a name is what the loop computed for it. -/
theorem announced_get {m : Meta} {g : String → Option (String × (List ℕ × Dims))}
    (hinfo : m.info = m.names.mapM g) (hg : ∀ n x, g n = some x → x.1 = n) {e : String × List ℕ}
    (h : Spec.Announced m e) : ∃ d, g e.1 = some (e.1, e.2, d) ∧ Spec.Fits m.coords d e.2 := by
  obtain ⟨info, d, h1, h2, h3⟩ := h
  rw [hinfo] at h1
  have key : ∀ (l : List String) (info : Dict (List ℕ × Dims)), l.mapM g = some info → ∀ p ∈ info, ∃ n, g n = some p := by
    intro l
    induction l with
    | nil => intro info hi p hp; simp at hi; subst hi; simp at hp
    | cons a l ih =>
      intro info hi p hp
      rw [List.mapM_cons] at hi
      cases ha : g a with
      | none => simp [ha] at hi
      | some q =>
        cases hl : l.mapM g with
        | none => simp [ha, hl] at hi
        | some t =>
          simp [ha, hl] at hi
          subst hi
          rcases List.mem_cons.1 hp with rfl | hp
          · exact ⟨a, ha⟩
          · exact ih t hl p hp
  obtain ⟨p, hp1, hp2⟩ := Option.map_eq_some_iff.1 h2
  have hk := List.find?_some hp1
  obtain ⟨n, hn⟩ := key _ _ h1 p (List.mem_of_find?_eq_some hp1)
  have hpn := hg n p hn
  obtain ⟨a, b⟩ := p
  simp at hk hp2 hpn
  subst hk hp2 hpn
  exact ⟨d, hn, h3⟩

theorem infoStrict_name {s : Dict (List ℕ)} {d : Dict Dims} {n : String} {x : String × (List ℕ × Dims)}
    (h : infoStrict s d n = some x) : x.1 = n ∧ get s n = some x.2.1 ∧ get d n = some x.2.2 := by
  unfold infoStrict at h
  split at h
  · rename_i a b h1 h2
    simp only [Option.some.injEq] at h
    subst h
    exact ⟨rfl, h1, h2⟩
  · simp at h

theorem labels_length (n : ℕ) : (labels n).length = n := by simp [labels]

theorem get_put {V : Type} (k n : String) (v : V) (d : Dict V) :
    get (put k v d) n = if k = n then some v else get d n := by
  unfold put
  by_cases h1 : (d.any fun e => decide (e.1 = k)) = true
  · rw [if_pos h1]
    by_cases h2 : k = n
    · subst h2
      rw [if_pos rfl]
      induction d with
      | nil => simp at h1
      | cons e d ih =>
        obtain ⟨a, b⟩ := e
        by_cases ha : a = k
        · simp [get, ha]
        · simp only [List.any_cons, decide_eq_true_eq, Bool.or_eq_true] at h1
          rw [List.map_cons, if_neg ha, get_cons, if_neg ha]
          exact ih (by simpa using h1.resolve_left ha)
    · rw [if_neg h2]
      clear h1
      induction d with
      | nil => rfl
      | cons e d ih =>
        obtain ⟨a, b⟩ := e
        rw [List.map_cons]
        by_cases ha : a = k
        · subst ha
          rw [if_pos rfl, get_cons, get_cons, if_neg h2, if_neg h2, ih]
        · rw [if_neg ha, get_cons, get_cons, ih]
  · rw [if_neg h1]
    induction d with
    | nil => simp only [List.nil_append, get_cons]
    | cons e d ih =>
      obtain ⟨a, b⟩ := e
      simp only [List.any_cons, decide_eq_true_eq, Bool.or_eq_true, not_or] at h1
      rw [List.cons_append, get_cons, get_cons, ih (by simpa using h1.2)]
      by_cases ha : a = n
      · subst ha
        rw [if_pos rfl, if_neg (fun h => h1.1 h.symm), if_pos rfl]
      · rw [if_neg ha, if_neg ha]

theorem get_del {V : Type} (k n : String) (d : Dict V) :
    get (del k d) n = if k = n then none else get d n := by
  unfold del
  induction d with
  | nil => simp [get]
  | cons e d ih =>
    obtain ⟨a, b⟩ := e
    by_cases ha : a = k
    · subst ha
      rw [List.filter_cons_of_neg (by simp), ih, get_cons]
      split_ifs <;> rfl
    · rw [List.filter_cons_of_pos (by simpa using ha), get_cons, get_cons, ih]
      by_cases hn : a = n
      · subst hn
        rw [if_pos rfl, if_pos rfl, if_neg (fun h => ha h.symm)]
      · rw [if_neg hn, if_neg hn]

theorem get_cond {V : Type} (b : Bool) (f : Dict V → Dict V) (d : Dict V) (n : String) :
    get (cond b f d) n = if b = true then get (f d) n else get d n := by
  cases b <;> rfl

theorem get_nil {V : Type} (n : String) : get ([] : Dict V) n = none := rfl

theorem get_upd (b : Bool) (k n : String) (v : List String) (c : Dict (List String)) :
    get (upd b k v c) n = if b = true ∧ k = n then some v else get c n := by
  unfold upd cond
  cases b
  · simp
  · simp [get_put]

theorem get_default (st ob sh : List String) (n : String) : get (defaultCoords st ob sh) n =
    if n = "state" ∨ n = "state_aux" then some st
    else if n = "observed_state" ∨ n = "observed_state_aux" then some ob
    else if n = "shock" ∨ n = "shock_aux" then some sh else none := by
  unfold defaultCoords
  simp only [get_cons, eq_comm (b := n)]
  by_cases h1 : n = "state"
  · simp [h1]
  by_cases h2 : n = "state_aux"
  · simp [h2]
  by_cases h3 : n = "observed_state"
  · simp [h3]
  by_cases h4 : n = "observed_state_aux"
  · simp [h4]
  by_cases h5 : n = "shock"
  · simp [h5]
  by_cases h6 : n = "shock_aux"
  · simp [h6]
  simp [h1, h2, h3, h4, h5, h6, get]

theorem fits_one {c : Dict (List String)} {a : String} {n : ℕ} {l : List String} (h : get c a = some l)
    (hl : l.length = n) : Spec.Fits c (some [a]) [n] := .cons ⟨l, h, hl⟩ .nil

theorem fits_two {c : Dict (List String)} {a b : String} {n m : ℕ} {l k : List String} (h : get c a = some l)
    (hl : l.length = n) (h' : get c b = some k) (hk : k.length = m) : Spec.Fits c (some [a, b]) [n, m] :=
  .cons ⟨l, h, hl⟩ (.cons ⟨k, h', hk⟩ .nil)

theorem fits_three {c : Dict (List String)} {a b e : String} {n m r : ℕ} {l k j : List String} (h : get c a = some l)
    (hl : l.length = n) (h' : get c b = some k) (hk : k.length = m) (h'' : get c e = some j) (hj : j.length = r) :
    Spec.Fits c (some [a, b, e]) [n, m, r] :=
  .cons ⟨l, h, hl⟩ (.cons ⟨k, h', hk⟩ (.cons ⟨j, h'', hj⟩ .nil))

/-! ### SARIMAX -/

namespace Sarimax
open Verif.Sarima

theorem names_facts (c : Opts) : (names c).Nodup ∧ ((registered c).map Prod.fst).Perm (names c) := by
  have key : ∀ s bp bP bq bQ m : Bool,
      let n := ["x0", "P0", "ar_params", "ma_params", "seasonal_ar_params", "seasonal_ma_params", "sigma_state",
        "sigma_obs"]
      let n := cond s (fun n => (n.erase "P0").erase "x0") n
      let n := cond bp (·.erase "ar_params") n
      let n := cond bP (·.erase "seasonal_ar_params") n
      let n := cond bq (·.erase "ma_params") n
      let n := cond bQ (·.erase "seasonal_ma_params") n
      let n := cond (!m) (·.erase "sigma_obs") n
      n.Nodup ∧ ((if s then [] else ["x0", "P0"]) ++ (if bp then [] else ["ar_params"]) ++
        (if bP then [] else ["seasonal_ar_params"]) ++ (if bq then [] else ["ma_params"]) ++
        (if bQ then [] else ["seasonal_ma_params"]) ++ ["sigma_state"] ++ (if m then ["sigma_obs"] else [])).Perm n := by
    decide +kernel
  have h := key c.stationary (c.o.p == 0) (c.o.P == 0) (c.o.q == 0) (c.o.Q == 0) c.measurement
  refine ⟨h.1, ?_⟩
  refine (List.Perm.of_eq ?_).trans h.2
  have e : ∀ (n : ℕ) (s : String) (sh : List ℕ), (if 0 < n then [(s, sh)] else []).map Prod.fst
      = if (n == 0) = true then [] else [s] := by
    intro n s sh; rcases Nat.eq_zero_or_pos n with rfl | h
    · rfl
    · rw [if_pos h]; simp [Nat.ne_of_gt h]
  simp only [registered, List.map_append, e, List.map_cons, List.map_nil]
  cases c.stationary <;> cases c.measurement <;> rfl

theorem dims_facts (c : Opts) :
    (c.stationary = false → get (dims c) "x0" = some (some ["state"]) ∧
      get (dims c) "P0" = some (some ["state", "state_aux"])) ∧
    (0 < c.o.p → get (dims c) "ar_params" = some (some ["ar_lag"])) ∧
    (0 < c.o.P → get (dims c) "seasonal_ar_params" = some (some ["seasonal_ar_lag"])) ∧
    (0 < c.o.q → get (dims c) "ma_params" = some (some ["ma_lag"])) ∧
    (0 < c.o.Q → get (dims c) "seasonal_ma_params" = some (some ["seasonal_ma_lag"])) ∧
    get (dims c) "sigma_state" = some none ∧
    (c.measurement = true → get (dims c) "sigma_obs" = some none) := by
  refine ⟨fun h => ⟨?_, ?_⟩, fun h => ?_, fun h => ?_, fun h => ?_, fun h => ?_, ?_, fun h => ?_⟩ <;>
    first | (have h' := Nat.ne_of_gt h) | skip
  all_goals
    simp [dims, get_cond, get_del, get_put, get_cons, get_nil, *]

theorem coords_facts (c : Opts) :
    get (coords c) "state" = some c.stateNames ∧ get (coords c) "state_aux" = some c.stateNames ∧
    (0 < c.o.p → get (coords c) "ar_lag" = some (labels c.o.p)) ∧
    (0 < c.o.P → get (coords c) "seasonal_ar_lag" = some (labels c.o.P)) ∧
    (0 < c.o.q → get (coords c) "ma_lag" = some (labels c.o.q)) ∧
    (0 < c.o.Q → get (coords c) "seasonal_ma_lag" = some (labels c.o.Q)) := by
  refine ⟨?_, ?_, fun h => ?_, fun h => ?_, fun h => ?_, fun h => ?_⟩ <;>
    simp [coords, get_upd, get_default, *]

/-- The parameters other than the initial state and its covariance are always announced correctly. -/
theorem shapes_facts (c : Opts) :
    get (shapes c) "x0" = some [c.kStates] ∧ get (shapes c) "P0" = some [c.kStates, c.kStates] ∧
    get (shapes c) "sigma_obs" = some [] ∧ get (shapes c) "sigma_state" = some [] ∧
    get (shapes c) "ar_params" = some [c.o.p] ∧ get (shapes c) "ma_params" = some [c.o.q] ∧
    get (shapes c) "seasonal_ar_params" = some [c.o.P] ∧ get (shapes c) "seasonal_ma_params" = some [c.o.Q] :=
  ⟨rfl, rfl, rfl, rfl, rfl, rfl, rfl, rfl⟩

theorem registered_info (c : Opts) (e : String × List ℕ) (he : e ∈ registered c) :
    ∃ d, infoStrict (shapes c) (dims c) e.1 = some (e.1, e.2, d) ∧
      (e.1 = "x0" ∨ e.1 = "P0" → c.stateNames.length = c.kStates → Spec.Fits (coords c) d e.2) ∧
      (¬ (e.1 = "x0" ∨ e.1 = "P0") → Spec.Fits (coords c) d e.2) := by
  have hD := dims_facts c
  have hC := coords_facts c
  have hS := shapes_facts c
  simp only [registered, List.mem_append, List.mem_singleton] at he
  have one : ∀ {n : ℕ} {x : String × List ℕ}, e ∈ (if 0 < n then [x] else []) → 0 < n ∧ e = x := by
    intro n x h
    split_ifs at h with h0
    · exact ⟨h0, by simpa using h⟩
    · simp at h
  rcases he with (((((he | he) | he) | he) | he) | he) | he
  · have hst : c.stationary = false := by
      cases h : c.stationary
      · rfl
      · rw [h, if_pos rfl] at he; simp at he
    simp only [hst, Bool.false_eq_true, if_false, List.mem_cons, List.not_mem_nil, or_false] at he
    rcases he with rfl | rfl
    · exact ⟨_, by simp [infoStrict, hS.1, (hD.1 hst).1], fun _ hl => fits_one hC.1 hl, fun h => by simp at h⟩
    · exact ⟨_, by simp [infoStrict, hS.2.1, (hD.1 hst).2], fun _ hl => fits_two hC.1 hl hC.2.1 hl,
        fun h => by simp at h⟩
  · obtain ⟨h0, rfl⟩ := one he
    exact ⟨some ["ar_lag"], by simp [infoStrict, hS, hD.2.1 h0], fun _ _ => fits_one (hC.2.2.1 h0) (labels_length _),
      fun _ => fits_one (hC.2.2.1 h0) (labels_length _)⟩
  · obtain ⟨h0, rfl⟩ := one he
    exact ⟨some ["seasonal_ar_lag"], by simp [infoStrict, hS, hD.2.2.1 h0],
      fun _ _ => fits_one (hC.2.2.2.1 h0) (labels_length _), fun _ => fits_one (hC.2.2.2.1 h0) (labels_length _)⟩
  · obtain ⟨h0, rfl⟩ := one he
    exact ⟨some ["ma_lag"], by simp [infoStrict, hS, hD.2.2.2.1 h0],
      fun _ _ => fits_one (hC.2.2.2.2.1 h0) (labels_length _), fun _ => fits_one (hC.2.2.2.2.1 h0) (labels_length _)⟩
  · obtain ⟨h0, rfl⟩ := one he
    exact ⟨some ["seasonal_ma_lag"], by simp [infoStrict, hS, hD.2.2.2.2.1 h0],
      fun _ _ => fits_one (hC.2.2.2.2.2 h0) (labels_length _), fun _ => fits_one (hC.2.2.2.2.2 h0) (labels_length _)⟩
  · subst he
    exact ⟨none, by simp [infoStrict, hS, hD.2.2.2.2.2.1, scalarOr], fun _ _ => rfl, fun _ => rfl⟩
  · have hm : c.measurement = true := by
      cases h : c.measurement
      · rw [h] at he; simp at he
      · rfl
    simp only [hm, if_true, List.mem_singleton] at he
    subst he
    exact ⟨none, by simp [infoStrict, hS, hD.2.2.2.2.2.2 hm, scalarOr], fun _ _ => rfl, fun _ => rfl⟩

theorem consistent_iff (c : Opts) :
    Spec.Consistent («meta» c) ↔ (c.stationary = true ∨ c.stateNames.length = c.kStates) := by
  have hN := names_facts c
  have hD := dims_facts c
  have hC := coords_facts c
  have hS := shapes_facts c
  constructor
  · rintro ⟨-, -, -, h⟩
    by_contra hcon
    rw [not_or] at hcon
    have hst : c.stationary = false := by simpa using hcon.1
    have hx : ("x0", [c.kStates]) ∈ («meta» c).registered := by simp [«meta», registered, hst]
    obtain ⟨d, hd, h3⟩ := announced_get (m := «meta» c) rfl (fun n x h => (infoStrict_name h).1) (h _ hx)
    have hgx : infoStrict (shapes c) (dims c) "x0" = some ("x0", [c.kStates], some ["state"]) := by
      simp [infoStrict, hS.1, (hD.1 hst).1]
    rw [hgx] at hd
    simp only [Option.some.injEq, Prod.mk.injEq, true_and] at hd
    rw [← hd] at h3
    simp only [Spec.Fits] at h3
    cases h3 with
    | cons h _ =>
      obtain ⟨l, hl1, hl2⟩ := h
      rw [show («meta» c).coords = coords c from rfl, hC.1] at hl1
      injection hl1 with hl1
      exact hcon.2 (by rw [hl1]; exact hl2)
  · intro hlen
    have h := announced_of (m := «meta» c) (g := infoStrict (shapes c) (dims c)) rfl hN.2
      (fun e he => (registered_info c e he).imp fun d hd => hd.1)
    refine ⟨hN.1, hN.2, h.1, fun e he => ?_⟩
    obtain ⟨d, hd, h1, h2⟩ := registered_info c e he
    refine h.2 e he d hd ?_
    by_cases hx : e.1 = "x0" ∨ e.1 = "P0"
    · refine h1 hx (hlen.resolve_left fun hst => ?_)
      have : e.1 ∉ names c := by
        have := hN.1
        have hmem : "x0" ∉ (registered c).map Prod.fst ∧ "P0" ∉ (registered c).map Prod.fst := by
          have e0 : ∀ (n : ℕ) (s : String) (sh : List ℕ), (if 0 < n then [(s, sh)] else []).map Prod.fst
              = if 0 < n then [s] else [] := by intro n s sh; split_ifs <;> rfl
          simp only [registered, hst, if_true, List.map_append, e0, List.map_nil, List.nil_append, List.mem_append,
            not_or]
          refine ⟨⟨⟨⟨⟨⟨?_, ?_⟩, ?_⟩, ?_⟩, ?_⟩, ?_⟩, ⟨⟨⟨⟨⟨?_, ?_⟩, ?_⟩, ?_⟩, ?_⟩, ?_⟩⟩ <;>
            first
            | (split_ifs <;> simp)
            | simp
        rcases hx with hx | hx
        · rw [hx, ← hN.2.mem_iff]; exact hmem.1
        · rw [hx, ← hN.2.mem_iff]; exact hmem.2
      exact this (hN.2.mem_iff.1 (List.mem_map_of_mem he))
    · exact h2 hx

/-- **C145** (fast form): for every order and every option, the names, shapes, dims and coordinates a SARIMAX model
announces are exactly those of the variables it registers. -/
theorem C145_fast (c : Opts) (hS : Sarima.Spec.Proper c.o) (hf : c.fast = true) : Spec.Consistent («meta» c) := by
  rw [consistent_iff]
  right
  simp only [Opts.stateNames, Opts.kStates, hf, if_true, cleanup, List.length_map]
  exact C37_harvey_names c.o hS

/-- **C145** (interpretable form): the announcement is right exactly when the initial state is not a parameter or every
seasonal polynomial comes with a non-seasonal one (or adds no lag). -/
theorem C145_interpretable (c : Opts) (hf : c.fast = false) :
    Spec.Consistent («meta» c) ↔
      c.stationary = true ∨ ((c.o.p = 0 → c.o.P * c.o.S ≤ 1) ∧ (c.o.q = 0 → c.o.Q * c.o.S ≤ 1)) := by
  rw [consistent_iff]
  simp only [Opts.stateNames, Opts.kStates, hf, Bool.false_eq_true, if_false]
  rw [← (C38_interpretable_names c.o ⟨fun _ => 0, fun _ => 0, fun _ => 0, fun _ => 0⟩).1]
  rfl

/-- **C145**: whatever the order, `param_info` exists and every parameter other than `x0` and `P0` is announced with the
shape it is registered with and with dims that fit. -/
theorem C145_other_parameters (c : Opts) :
    (∃ info, («meta» c).info = some info ∧ info.map Prod.fst = («meta» c).names) ∧
    ∀ e ∈ («meta» c).registered, e.1 ≠ "x0" → e.1 ≠ "P0" → Spec.Announced («meta» c) e := by
  have hN := names_facts c
  have h := announced_of (m := «meta» c) (g := infoStrict (shapes c) (dims c)) rfl hN.2
    (fun e he => (registered_info c e he).imp fun d hd => hd.1)
  refine ⟨h.1, fun e he h1 h2 => ?_⟩
  obtain ⟨d, hd, -, h4⟩ := registered_info c e he
  exact h.2 e he d hd (h4 (by simp [h1, h2]))

/-- A purely seasonal AR in the interpretable form: five initial states are registered, two are labelled. -/
example : ¬ Spec.Consistent («meta» ⟨⟨0, 0, 0, 1, 0, 0, 4⟩, false, false, false⟩) := by
  rw [C145_interpretable _ rfl]; decide
example : («meta» ⟨⟨0, 0, 0, 1, 0, 0, 4⟩, false, false, false⟩).registered =
    [("x0", [5]), ("P0", [5, 5]), ("seasonal_ar_params", [1]), ("sigma_state", [])] := by decide +kernel
example : (get («meta» ⟨⟨0, 0, 0, 1, 0, 0, 4⟩, false, false, false⟩).coords "state") = some ["data", "innovations"] := by
  decide +kernel
example : Spec.Consistent («meta» ⟨⟨2, 1, 1, 1, 1, 2, 4⟩, true, false, true⟩) :=
  C145_fast _ (fun h => absurd h (by decide)) rfl

/-- **C145** `param_dims` has an entry exactly for the parameters, and the lag coordinates run from one. -/
theorem C145_dims_and_labels (c : Opts) :
    (∀ n, (get («meta» c).dims n).isSome ↔ n ∈ («meta» c).names) ∧
    (0 < c.o.p → get («meta» c).coords "ar_lag" = some ((List.range c.o.p).map fun i => toString (i + 1))) ∧
    (0 < c.o.q → get («meta» c).coords "ma_lag" = some ((List.range c.o.q).map fun i => toString (i + 1))) ∧
    (0 < c.o.P → get («meta» c).coords "seasonal_ar_lag" = some ((List.range c.o.P).map fun i => toString (i + 1))) ∧
    (0 < c.o.Q → get («meta» c).coords "seasonal_ma_lag" = some ((List.range c.o.Q).map fun i => toString (i + 1))) := by
  have hC := coords_facts c
  refine ⟨fun n => ?_, hC.2.2.1, hC.2.2.2.2.1, hC.2.2.2.1, hC.2.2.2.2.2⟩
  have hg : ∀ (d : Dict Dims), (get d n).isSome ↔ n ∈ d.map Prod.fst := by
    intro d
    induction d with
    | nil => simp [get]
    | cons e d ih =>
      obtain ⟨a, b⟩ := e
      rw [get_cons, List.map_cons, List.mem_cons]
      by_cases h : a = n
      · simp [h]
      · rw [if_neg h, ih]
        simp [Ne.symm h]
  rw [hg]
  have key : ∀ st m bp bq bP bQ : Bool,
      let d : Dict Dims := [("x0", some ["state"]), ("P0", some ["state", "state_aux"]),
        ("sigma_obs", some ["observed_state"]), ("sigma_state", some ["observed_state"]), ("ar_params", some ["ar_lag"]),
        ("ma_params", some ["ma_lag"]), ("seasonal_ar_params", some ["seasonal_ar_lag"]),
        ("seasonal_ma_params", some ["seasonal_ma_lag"])]
      let d := put "sigma_obs" none (put "sigma_state" none d)
      let d := cond (!m) (del "sigma_obs") d
      let d := cond bp (del "ar_params") d
      let d := cond bq (del "ma_params") d
      let d := cond bP (del "seasonal_ar_params") d
      let d := cond bQ (del "seasonal_ma_params") d
      let d := cond st (fun m => del "x0" (del "P0" m)) d
      let n := ["x0", "P0", "ar_params", "ma_params", "seasonal_ar_params", "seasonal_ma_params", "sigma_state",
        "sigma_obs"]
      let n := cond st (fun n => (n.erase "P0").erase "x0") n
      let n := cond bp (·.erase "ar_params") n
      let n := cond bP (·.erase "seasonal_ar_params") n
      let n := cond bq (·.erase "ma_params") n
      let n := cond bQ (·.erase "seasonal_ma_params") n
      let n := cond (!m) (·.erase "sigma_obs") n
      (d.map Prod.fst).Perm n := by decide +kernel
  exact (key c.stationary c.measurement (c.o.p == 0) (c.o.q == 0) (c.o.P == 0) (c.o.Q == 0)).mem_iff

end Sarimax

/-! ### VARMAX -/

namespace Varmax
open Verif.Varmax

theorem names_facts (c : Opts) : (names c).Nodup ∧ ((registered c).map Prod.fst).Perm (names c) := by
  have key : ∀ s bm bp bq : Bool,
      let n := ["x0", "P0", "ar_params", "ma_params", "state_cov", "sigma_obs"]
      let n := cond s (fun n => (n.erase "P0").erase "x0") n
      let n := cond (!bm) (·.erase "sigma_obs") n
      let n := cond bp (·.erase "ar_params") n
      let n := cond bq (·.erase "ma_params") n
      n.Nodup ∧ ((if s then [] else ["x0", "P0"]) ++ (if bp then [] else ["ar_params"]) ++
        (if bq then [] else ["ma_params"]) ++ (if bm then ["sigma_obs"] else []) ++ ["state_cov"]).Perm n := by
    decide +kernel
  have h := key c.stationary c.measurement (c.p == 0) (c.q == 0)
  refine ⟨h.1, ?_⟩
  refine (List.Perm.of_eq ?_).trans h.2
  have e : ∀ (n : ℕ) (s : String) (sh : List ℕ), (if 0 < n then [(s, sh)] else []).map Prod.fst
      = if (n == 0) = true then [] else [s] := by
    intro n s sh; rcases Nat.eq_zero_or_pos n with rfl | h
    · rfl
    · rw [if_pos h]; simp [Nat.ne_of_gt h]
  simp only [registered, List.map_append, e, List.map_cons, List.map_nil]
  cases c.stationary <;> cases c.measurement <;> rfl

theorem coords_facts (c : Opts) :
    get (coords c) "state" = some (stateNames c.endog c.p c.q) ∧
    get (coords c) "state_aux" = some (stateNames c.endog c.p c.q) ∧
    get (coords c) "observed_state" = some c.endog ∧ get (coords c) "observed_state_aux" = some c.endog ∧
    get (coords c) "shock" = some c.endog ∧ get (coords c) "shock_aux" = some c.endog ∧
    (0 < c.p → get (coords c) "ar_lag" = some (labels c.p)) ∧
    (0 < c.q → get (coords c) "ma_lag" = some (labels c.q)) := by
  refine ⟨?_, ?_, ?_, ?_, ?_, ?_, fun h => ?_, fun h => ?_⟩ <;>
    simp [coords, get_upd, get_default, *]

theorem registered_info (c : Opts) (e : String × List ℕ) (he : e ∈ registered c) (hne : e.1 ≠ "sigma_obs") :
    ∃ d, infoStrict (shapes c) (dims c) e.1 = some (e.1, e.2, d) ∧ Spec.Fits (coords c) d e.2 := by
  have hC := coords_facts c
  have hl : (stateNames c.endog c.p c.q).length = c.kStates :=
    (C37_varmax_names (some c.endog) none c.endog c.k c.p c.q rfl).2
  simp only [registered, List.mem_append, List.mem_singleton] at he
  rcases he with (((he | he) | he) | he) | he
  · split_ifs at he with hst
    · simp at he
    simp only [List.mem_cons, List.not_mem_nil, or_false] at he
    rcases he with rfl | rfl
    · refine ⟨some ["state"], ?_, fits_one hC.1 hl⟩
      simp [infoStrict, shapes, dims, get_cond, get_del, get_cons, get_nil, hst]
    · refine ⟨some ["state", "state_aux"], ?_, fits_two hC.1 hl hC.2.1 hl⟩
      simp [infoStrict, shapes, dims, get_cond, get_del, get_cons, get_nil, hst]
  · split_ifs at he with h0
    · simp only [List.mem_singleton] at he
      subst he
      refine ⟨some ["observed_state", "ar_lag", "observed_state_aux"], ?_,
        fits_three hC.2.2.1 rfl (hC.2.2.2.2.2.2.1 h0) (labels_length _) hC.2.2.2.1 rfl⟩
      have := Nat.ne_of_gt h0
      simp [infoStrict, shapes, dims, get_cond, get_del, get_cons, get_nil, this]
    · simp at he
  · split_ifs at he with h0
    · simp only [List.mem_singleton] at he
      subst he
      refine ⟨some ["observed_state", "ma_lag", "observed_state_aux"], ?_,
        fits_three hC.2.2.1 rfl (hC.2.2.2.2.2.2.2 h0) (labels_length _) hC.2.2.2.1 rfl⟩
      have := Nat.ne_of_gt h0
      simp [infoStrict, shapes, dims, get_cond, get_del, get_cons, get_nil, this]
    · simp at he
  · split_ifs at he with h0
    · simp only [List.mem_singleton] at he
      subst he
      exact absurd rfl hne
    · simp at he
  · subst he
    refine ⟨some ["shock", "shock_aux"], ?_, fits_two hC.2.2.2.2.1 rfl hC.2.2.2.2.2.1 rfl⟩
    simp [infoStrict, shapes, dims, get_cond, get_del, get_cons, get_nil]

theorem sigma_info (c : Opts) (h : c.measurement = true) :
    infoStrict (shapes c) (dims c) "sigma_obs" = some ("sigma_obs", [c.k, c.k], some ["observed_state"]) := by
  simp [infoStrict, shapes, dims, get_cond, get_del, get_cons, get_nil, h]

/-- **C146**: a VARMAX model announces its parameters correctly exactly when it has no measurement error: `sigma_obs` is
announced as a `(k, k)` covariance matrix, but the model registers (and writes to the diagonal) a vector of length `k`. -/
theorem C146_varmax (c : Opts) : Spec.Consistent («meta» c) ↔ c.measurement = false := by
  have hN := names_facts c
  constructor
  · rintro ⟨-, -, -, h⟩
    by_contra hm
    have hm : c.measurement = true := by simpa using hm
    have hx : ("sigma_obs", [c.k]) ∈ («meta» c).registered := by simp [«meta», registered, hm]
    obtain ⟨d, hd, -⟩ := announced_get (m := «meta» c) rfl (fun n x h => (infoStrict_name h).1) (h _ hx)
    rw [sigma_info c hm] at hd
    simp at hd
  · intro hm
    have hne : ∀ e ∈ registered c, e.1 ≠ "sigma_obs" := by
      intro e he
      simp only [registered, hm, Bool.false_eq_true, if_false, List.append_nil, List.mem_append,
        List.mem_singleton] at he
      rcases he with ((he | he) | he) | he
      · split_ifs at he <;> simp at he
        rcases he with rfl | rfl <;> simp
      · split_ifs at he <;> simp at he; subst he; simp
      · split_ifs at he <;> simp at he; subst he; simp
      · subst he; simp
    have h := announced_of (m := «meta» c) (g := infoStrict (shapes c) (dims c)) rfl hN.2
      (fun e he => (registered_info c e he (hne e he)).imp fun d hd => hd.1)
    refine ⟨hN.1, hN.2, h.1, fun e he => ?_⟩
    obtain ⟨d, hd, hf⟩ := registered_info c e he (hne e he)
    exact h.2 e he d hd hf

/-- **C146**: the other parameters are announced correctly in every model, the names are right, and the *dims* announced
for `sigma_obs` do fit the vector. -/
theorem C146_other_parameters (c : Opts) :
    («meta» c).names.Nodup ∧ ((«meta» c).registered.map Prod.fst).Perm («meta» c).names ∧
    (∀ e ∈ («meta» c).registered, e.1 ≠ "sigma_obs" → Spec.Announced («meta» c) e) ∧
    (c.measurement = true → get («meta» c).dims "sigma_obs" = some (some ["observed_state"]) ∧
      Spec.Fits («meta» c).coords (some ["observed_state"]) [c.k] ∧
      ("sigma_obs", [c.k]) ∈ («meta» c).registered) := by
  have hN := names_facts c
  have hall : ∀ e ∈ registered c, ∃ s d, infoStrict (shapes c) (dims c) e.1 = some (e.1, s, d) := by
    intro e he
    by_cases hne : e.1 = "sigma_obs"
    · have hm : c.measurement = true := by
        by_contra hm
        have hm : c.measurement = false := by simpa using hm
        simp only [registered, hm, Bool.false_eq_true, if_false, List.append_nil, List.mem_append,
          List.mem_singleton] at he
        rcases he with ((he | he) | he) | he
        · split_ifs at he <;> simp at he
          rcases he with rfl | rfl <;> simp at hne
        · split_ifs at he <;> simp at he; subst he; simp at hne
        · split_ifs at he <;> simp at he; subst he; simp at hne
        · subst he; simp at hne
      rw [hne]
      exact ⟨_, _, sigma_info c hm⟩
    · obtain ⟨d, hd, -⟩ := registered_info c e he hne
      exact ⟨_, d, hd⟩
  have hg : ∀ n ∈ names c, ∃ v, infoStrict (shapes c) (dims c) n = some (n, v) := by
    intro n hn
    obtain ⟨e, he, rfl⟩ := List.mem_map.1 (hN.2.mem_iff.2 hn)
    obtain ⟨s, d, h⟩ := hall e he
    exact ⟨_, h⟩
  obtain ⟨info, h1, h2, h3⟩ := mapM_names _ _ hg
  refine ⟨hN.1, hN.2, fun e he hne => ?_, fun hm => ⟨?_, fits_one (coords_facts c).2.2.1 rfl, ?_⟩⟩
  · obtain ⟨d, hd, hf⟩ := registered_info c e he hne
    exact ⟨info, d, h1, h3 _ (hN.2.mem_iff.1 (List.mem_map_of_mem he)) _ hd, hf⟩
  · exact (infoStrict_name (sigma_info c hm)).2.2
  · simp [«meta», registered, hm]

example : Spec.Consistent («meta» ⟨["y", "x"], 2, 1, false, false⟩) := (C146_varmax _).2 rfl
example : («meta» ⟨["y", "x"], 2, 1, false, true⟩).registered = [("x0", [6]), ("P0", [6, 6]), ("ar_params", [2, 2, 2]),
    ("ma_params", [2, 1, 2]), ("sigma_obs", [2]), ("state_cov", [2, 2])] := by decide +kernel

end Varmax

/-! ### ETS -/

namespace Ets
open Verif.Ets

theorem infoGet_name {s : Dict (List ℕ)} {d : Dict Dims} {n : String} {x : String × (List ℕ × Dims)}
    (h : infoGet s d n = some x) : x.1 = n := by
  unfold infoGet at h
  split at h
  · simp only [Option.some.injEq] at h
    rw [← h]
  · simp at h

theorem names_facts (c : Opts) : (names c).Nodup ∧ ((registered c).map Prod.fst).Perm (names c) := by
  have key : ∀ bt bd bs bm be st : Bool,
      let n := ["initial_level", "initial_trend", "initial_seasonal", "P0", "alpha", "beta", "gamma", "phi",
        "sigma_state", "state_cov", "sigma_obs"]
      let n := cond (!bt) (fun n => (n.erase "initial_trend").erase "beta") n
      let n := cond (!bd) (·.erase "phi") n
      let n := cond (!bs) (fun n => (n.erase "initial_seasonal").erase "gamma") n
      let n := cond (!bm) (·.erase "sigma_obs") n
      let n := if be then n.erase "sigma_state" else n.erase "state_cov"
      let n := cond st (·.erase "P0") n
      n.Nodup ∧ (["initial_level", "alpha"] ++ (if bt then ["initial_trend", "beta"] else []) ++
        (if bd then ["phi"] else []) ++ (if bs then ["initial_seasonal", "gamma"] else []) ++
        (if be then ["state_cov"] else ["sigma_state"]) ++ (if bm then ["sigma_obs"] else []) ++
        (if st then [] else ["P0"])).Perm n := by
    decide +kernel
  have h := key c.c.trend c.c.damped c.c.seasonal c.measurement c.isDense c.stationary
  refine ⟨h.1, ?_⟩
  refine (List.Perm.of_eq ?_).trans h.2
  simp only [registered, List.map_append]
  cases c.c.trend <;> cases c.c.damped <;> cases c.c.seasonal <;> cases c.measurement <;> cases c.isDense <;>
    cases c.stationary <;> rfl

theorem coords_facts (c : Opts) :
    get (coords c) "state" = some (stateNames c.c c.endog) ∧
    get (coords c) "state_aux" = some (stateNames c.c c.endog) ∧
    get (coords c) "observed_state" = some c.endog ∧ get (coords c) "observed_state_aux" = some c.endog ∧
    (c.c.seasonal = true → get (coords c) "seasonal_lag" = some (labels c.c.periods)) := by
  refine ⟨?_, ?_, ?_, ?_, fun h => ?_⟩ <;> simp [coords, get_upd, get_default, *]

theorem isDense_one (c : Opts) (h : c.k = 1) : c.isDense = false := by simp [Opts.isDense, h]

theorem shapes_facts (c : Opts) :
    get (shapes c) "P0" = some [c.kStates, c.kStates] ∧
    (∀ n ∈ ["initial_level", "initial_trend", "sigma_obs", "alpha", "beta", "gamma", "phi"],
      get (shapes c) n = some (scalarOr c.k)) ∧
    get (shapes c) "initial_seasonal" = some [c.c.periods] ∧
    (c.isDense = false → get (shapes c) "sigma_state" = some (scalarOr c.k)) ∧
    (c.isDense = true → get (shapes c) "state_cov" = some [c.k, c.k]) := by
  refine ⟨?_, ?_, ?_, fun h => ?_, fun h => ?_⟩
  · simp [shapes, get_cond, get_put, get_del, get_cons]
  · intro n hn
    simp only [List.mem_cons, List.not_mem_nil, or_false] at hn
    rcases hn with rfl | rfl | rfl | rfl | rfl | rfl | rfl <;>
      simp [shapes, get_cond, get_put, get_del, get_cons]
  · simp [shapes, get_cond, get_put, get_del, get_cons]
  · simp [shapes, get_cond, get_put, get_del, get_cons, h]
  · simp [shapes, get_cond, get_put, get_del, get_cons, h]

theorem dims_facts (c : Opts) :
    get (dims c) "P0" = some (some ["state", "state_aux"]) ∧
    (c.k = 1 → (∀ n ∈ ["initial_level", "initial_trend", "sigma_obs", "alpha", "beta", "gamma", "phi", "sigma_state"],
        (get (dims c) n).getD none = none) ∧
      get (dims c) "initial_seasonal" = some (some ["seasonal_lag"])) ∧
    (c.k ≠ 1 → (∀ n ∈ ["initial_level", "initial_trend", "alpha", "beta", "gamma", "phi"],
        get (dims c) n = some (some ["observed_state"])) ∧
      (c.measurement = true → get (dims c) "sigma_obs" = some (some ["observed_state"])) ∧
      get (dims c) "initial_seasonal" = some (some ["observed_state", "seasonal_lag"]) ∧
      (c.isDense = false → get (dims c) "sigma_state" = some (some ["observed_state"])) ∧
      (c.isDense = true → get (dims c) "state_cov" = some (some ["observed_state", "observed_state_aux"]))) := by
  refine ⟨?_, fun hk => ⟨?_, ?_⟩, fun hk => ⟨?_, fun h => ?_, ?_, fun h => ?_, fun h => ?_⟩⟩
  · by_cases hk : c.k = 1 <;> simp [dims, get_cond, get_put, get_del, get_cons, hk]
  · have hd := isDense_one c hk
    intro n hn
    simp only [List.mem_cons, List.not_mem_nil, or_false] at hn
    rcases hn with rfl | rfl | rfl | rfl | rfl | rfl | rfl | rfl <;> cases hm : c.measurement <;>
      simp [dims, get_cond, get_put, get_del, get_cons, get_nil, hk, hd, hm]
  · simp [dims, get_cond, get_put, get_del, get_cons, get_nil, hk]
  · intro n hn
    simp only [List.mem_cons, List.not_mem_nil, or_false] at hn
    rcases hn with rfl | rfl | rfl | rfl | rfl | rfl <;>
      simp [dims, get_cond, get_put, get_del, get_cons, get_nil, hk]
  all_goals simp [dims, get_cond, get_put, get_del, get_cons, get_nil, hk, *]

/-- A scalar-or-vector parameter. -/
theorem fits_scalarOr (c : Opts) {d : Dims} (h1 : c.k = 1 → d = none) (h2 : c.k ≠ 1 → d = some ["observed_state"]) :
    Spec.Fits (coords c) d (scalarOr c.k) := by
  unfold scalarOr
  by_cases hk : c.k = 1
  · rw [h1 hk, if_pos hk]; rfl
  · rw [h2 hk, if_neg hk]; exact fits_one (coords_facts c).2.2.1 rfl

theorem registered_info (c : Opts) (hk : 0 < c.k) (hp : c.c.seasonal = true → 0 < c.c.periods)
    (e : String × List ℕ) (he : e ∈ registered c) :
    (e.1 = "initial_seasonal" ∧ c.k ≠ 1 ∧ c.c.seasonal = true ∧ e.2 = [c.k, c.c.periods]) ∨
    ∃ d, infoGet (shapes c) (dims c) e.1 = some (e.1, e.2, d) ∧ Spec.Fits (coords c) d e.2 := by
  have hC := coords_facts c
  have hS := shapes_facts c
  have hD := dims_facts c
  have hl : (stateNames c.c c.endog).length = c.kStates := C37_ets_names c.c c.endog hk hp
  have hv : (if 1 < c.k then [c.k] else []) = scalarOr c.k := by
    unfold scalarOr
    by_cases h : c.k = 1
    · simp [h]
    · rw [if_pos (by omega), if_neg h]
  have sub1 : ∀ n ∈ ["initial_level", "initial_trend", "alpha", "beta", "gamma", "phi"],
      n ∈ ["initial_level", "initial_trend", "sigma_obs", "alpha", "beta", "gamma", "phi"] := by decide
  have sub2 : ∀ n ∈ ["initial_level", "initial_trend", "alpha", "beta", "gamma", "phi"],
      n ∈ ["initial_level", "initial_trend", "sigma_obs", "alpha", "beta", "gamma", "phi", "sigma_state"] := by decide
  have scal : ∀ n ∈ ["initial_level", "initial_trend", "alpha", "beta", "gamma", "phi"],
      ∃ d, infoGet (shapes c) (dims c) n = some (n, scalarOr c.k, d) ∧ Spec.Fits (coords c) d (scalarOr c.k) := by
    intro n hn
    refine ⟨(get (dims c) n).getD none, ?_, fits_scalarOr c (fun h => ?_) (fun h => ?_)⟩
    · have : get (shapes c) n = some (scalarOr c.k) := hS.2.1 n (sub1 n hn)
      simp [infoGet, this]
    · exact (hD.2.1 h).1 n (sub2 n hn)
    · rw [(hD.2.2 h).1 n hn]; rfl
  simp only [registered, hv, List.mem_append] at he
  rcases he with (((((he | he) | he) | he) | he) | he) | he
  · right
    simp only [List.mem_cons, List.not_mem_nil, or_false] at he
    rcases he with rfl | rfl <;> exact scal _ (by simp)
  · right
    split_ifs at he
    · simp only [List.mem_cons, List.not_mem_nil, or_false] at he
      rcases he with rfl | rfl <;> exact scal _ (by simp)
    · simp at he
  · right
    split_ifs at he
    · simp only [List.mem_singleton] at he
      subst he; exact scal _ (by simp)
    · simp at he
  · split_ifs at he with hs hk1 <;> simp only [List.mem_cons, List.not_mem_nil, or_false] at he
    · right
      rcases he with rfl | rfl
      · refine ⟨some ["seasonal_lag"], ?_, fits_one (hC.2.2.2.2 hs) (labels_length _)⟩
        simp [infoGet, hS.2.2.1, (hD.2.1 hk1).2]
      · exact scal _ (by simp)
    · rcases he with rfl | rfl
      · exact .inl ⟨rfl, hk1, hs, rfl⟩
      · right; exact scal _ (by simp)
  · right
    split_ifs at he with hd <;> simp only [List.mem_singleton] at he <;> subst he
    · have hk1 : c.k ≠ 1 := fun h => by rw [isDense_one c h] at hd; simp at hd
      refine ⟨some ["observed_state", "observed_state_aux"], ?_, fits_two hC.2.2.1 rfl hC.2.2.2.1 rfl⟩
      simp [infoGet, hS.2.2.2.2 hd, (hD.2.2 hk1).2.2.2.2 hd]
    · have hd : c.isDense = false := by simpa using hd
      refine ⟨(get (dims c) "sigma_state").getD none, by simp [infoGet, hS.2.2.2.1 hd],
        fits_scalarOr c (fun h => (hD.2.1 h).1 _ (by simp)) (fun h => by rw [(hD.2.2 h).2.2.2.1 hd]; rfl)⟩
  · right
    split_ifs at he with hm
    · simp only [List.mem_singleton] at he
      subst he
      refine ⟨(get (dims c) "sigma_obs").getD none, by simp [infoGet, hS.2.1 "sigma_obs" (by simp)],
        fits_scalarOr c (fun h => (hD.2.1 h).1 _ (by simp)) (fun h => by rw [(hD.2.2 h).2.1 hm]; rfl)⟩
    · simp at he
  · right
    split_ifs at he
    · simp at he
    · simp only [List.mem_singleton] at he
      subst he
      exact ⟨some ["state", "state_aux"], by simp [infoGet, hS.1, hD.1], fits_two hC.1 hl hC.2.1 hl⟩

/-- **C147**: an ETS model (at least one series, at least one period if seasonal) announces its parameters correctly
exactly when it is not a seasonal model of several series: there `initial_seasonal` is announced with shape `(periods,)`
but must have shape `(k_endog, periods)`. -/
theorem C147_ets (c : Opts) (hk : 0 < c.k) (hp : c.c.seasonal = true → 0 < c.c.periods) :
    Spec.Consistent («meta» c) ↔ ¬ (c.c.seasonal = true ∧ c.k ≠ 1) := by
  have hN := names_facts c
  constructor
  · rintro ⟨-, -, -, h⟩ ⟨hs, hk1⟩
    have hx : ("initial_seasonal", [c.k, c.c.periods]) ∈ («meta» c).registered := by
      simp [«meta», registered, hs, hk1]
    obtain ⟨d, hd, -⟩ := announced_get (m := «meta» c) rfl (fun n x h => infoGet_name h) (h _ hx)
    simp [infoGet, (shapes_facts c).2.2.1] at hd
  · intro hc
    have hall : ∀ e ∈ registered c, ∃ d, infoGet (shapes c) (dims c) e.1 = some (e.1, e.2, d) ∧
        Spec.Fits (coords c) d e.2 := by
      intro e he
      rcases registered_info c hk hp e he with ⟨-, h1, h2, -⟩ | h
      · exact absurd ⟨h2, h1⟩ hc
      · exact h
    have h := announced_of (m := «meta» c) (g := infoGet (shapes c) (dims c)) rfl hN.2
      (fun e he => (hall e he).imp fun d hd => hd.1)
    refine ⟨hN.1, hN.2, h.1, fun e he => ?_⟩
    obtain ⟨d, hd, hf⟩ := hall e he
    exact h.2 e he d hd hf

/-- **C147**: in every ETS model the announced names are the registered names, every parameter other than
`initial_seasonal` is announced with the right shape and fitting dims, and the dims given for `initial_seasonal` fit even
where its announced shape is wrong. -/
theorem C147_other_parameters (c : Opts) (hk : 0 < c.k) (hp : c.c.seasonal = true → 0 < c.c.periods) :
    («meta» c).names.Nodup ∧ ((«meta» c).registered.map Prod.fst).Perm («meta» c).names ∧
    (∀ e ∈ («meta» c).registered, e.1 ≠ "initial_seasonal" → Spec.Announced («meta» c) e) ∧
    ∀ e ∈ («meta» c).registered, e.1 = "initial_seasonal" →
      ∃ d, get («meta» c).dims "initial_seasonal" = some d ∧ Spec.Fits («meta» c).coords d e.2 := by
  have hN := names_facts c
  have hall : ∀ e ∈ registered c, ∃ s d, infoGet (shapes c) (dims c) e.1 = some (e.1, s, d) := by
    intro e he
    rcases registered_info c hk hp e he with ⟨h, -⟩ | ⟨d, h, -⟩
    · rw [h]
      exact ⟨[c.c.periods], _, by simp [infoGet, (shapes_facts c).2.2.1]; rfl⟩
    · exact ⟨_, _, h⟩
  have hg : ∀ n ∈ names c, ∃ v, infoGet (shapes c) (dims c) n = some (n, v) := by
    intro n hn
    obtain ⟨e, he, rfl⟩ := List.mem_map.1 (hN.2.mem_iff.2 hn)
    obtain ⟨s, d, h⟩ := hall e he
    exact ⟨_, h⟩
  obtain ⟨info, h1, h2, h3⟩ := mapM_names _ _ hg
  refine ⟨hN.1, hN.2, fun e he hne => ?_, fun e he hi => ?_⟩
  · rcases registered_info c hk hp e he with ⟨h, -⟩ | ⟨d, hd, hf⟩
    · exact absurd h hne
    · exact ⟨info, d, h1, h3 _ (hN.2.mem_iff.1 (List.mem_map_of_mem he)) _ hd, hf⟩
  · by_cases hk1 : c.k = 1
    · refine ⟨_, ((dims_facts c).2.1 hk1).2, ?_⟩
      rcases registered_info c hk hp e he with ⟨-, h, -⟩ | ⟨d, hd, hf⟩
      · exact absurd hk1 h
      · rw [hi] at hd
        simp [infoGet, (shapes_facts c).2.2.1, ((dims_facts c).2.1 hk1).2] at hd
        rw [← hd.2] at hf
        exact hf
    · rcases registered_info c hk hp e he with ⟨-, -, hs, h⟩ | ⟨d, hd, hf⟩
      · refine ⟨_, ((dims_facts c).2.2 hk1).2.2.1, ?_⟩
        rw [h]
        exact fits_two (coords_facts c).2.2.1 rfl ((coords_facts c).2.2.2.2 hs) (labels_length _)
      · refine ⟨_, ((dims_facts c).2.2 hk1).2.2.1, ?_⟩
        rw [hi] at hd
        simp [infoGet, (shapes_facts c).2.2.1, ((dims_facts c).2.2 hk1).2.2.1] at hd
        rw [← hd.2] at hf
        exact hf

/-- **C147**: `param_dims` is not limited to the parameters: it always has an entry for `initial_trend` and
`initial_seasonal`, and "seasonal_param" (never a parameter) whenever the model is seasonal, so unpacking its values
positionally does not line up with `param_names`. -/
theorem C147_extra_dims (c : Opts) :
    (c.c.trend = false → "initial_trend" ∉ («meta» c).names ∧ (get («meta» c).dims "initial_trend").isSome) ∧
    (c.c.seasonal = false →
      "initial_seasonal" ∉ («meta» c).names ∧ (get («meta» c).dims "initial_seasonal").isSome) ∧
    (c.c.seasonal = true → "seasonal_param" ∉ («meta» c).names ∧ (get («meta» c).dims "seasonal_param").isSome) := by
  have key : ∀ bt bd bs bm be st : Bool,
      let n := ["initial_level", "initial_trend", "initial_seasonal", "P0", "alpha", "beta", "gamma", "phi",
        "sigma_state", "state_cov", "sigma_obs"]
      let n := cond (!bt) (fun n => (n.erase "initial_trend").erase "beta") n
      let n := cond (!bd) (·.erase "phi") n
      let n := cond (!bs) (fun n => (n.erase "initial_seasonal").erase "gamma") n
      let n := cond (!bm) (·.erase "sigma_obs") n
      let n := if be then n.erase "sigma_state" else n.erase "state_cov"
      let n := cond st (·.erase "P0") n
      (bt = false → "initial_trend" ∉ n) ∧ (bs = false → "initial_seasonal" ∉ n) ∧ "seasonal_param" ∉ n := by
    decide +kernel
  have h := key c.c.trend c.c.damped c.c.seasonal c.measurement c.isDense c.stationary
  refine ⟨fun ht => ⟨h.1 ht, ?_⟩, fun hs => ⟨h.2.1 hs, ?_⟩, fun hs => ⟨h.2.2, ?_⟩⟩
  all_goals
    by_cases hk : c.k = 1 <;>
      simp [«meta», dims, get_cond, get_put, get_del, get_cons, get_nil, hk, *]

example : Spec.Consistent («meta» ⟨⟨true, true, true, 4, false⟩, ["data"], true, false, true⟩) :=
  (C147_ets _ (by decide) (by decide)).2 (by decide)
example : («meta» ⟨⟨false, false, true, 3, true⟩, ["a", "b"], true, false, false⟩).registered =
    [("initial_level", [2]), ("alpha", [2]), ("initial_seasonal", [2, 3]), ("gamma", [2]), ("state_cov", [2, 2]),
     ("P0", [10, 10])] := by decide +kernel

/-- **C147** The shocks of a single series are called "innovation"; of several, by the series' names. -/
theorem C147_shock_names (c : Opts) :
    (∀ a, c.endog = [a] → get («meta» c).coords "shock" = some ["innovation"]) ∧
    (c.k ≠ 1 → get («meta» c).coords "shock" = some (c.endog.map fun n => n ++ "_innovation")) ∧
    (c.c.seasonal = true → get («meta» c).coords "seasonal_lag" = some ((List.range c.c.periods).map fun i => toString (i + 1))) := by
  refine ⟨fun a h => ?_, fun h => ?_, fun h => (coords_facts c).2.2.2.2 h⟩
  · have hk : c.k = 1 := by simp [Opts.k, h]
    simp [«meta», coords, get_upd, get_default, shockNames, hk]
  · simp [«meta», coords, get_upd, get_default, shockNames, h]

end Ets
end Verif.Params
