import Verif.Structural.Extract
import Verif.Structural.MetaProps
import Mathlib.Tactic.NormNum

/-!
C166: extracting components from a dataset.
-/

set_option autoImplicit false

namespace Verif.Structural.Extract

open Verif.Structural

/-- Specification: the variables whose last axis is as long as the number of states. -/
def Spec.kept (k : ℕ) (ds : List (String × DataArray)) : List (String × DataArray) :=
  ds.filter fun e => e.2.shape.getLast? == some k

/-- Specification: the names of the others. -/
def Spec.others (k : ℕ) (ds : List (String × DataArray)) : List String :=
  (ds.filter fun e => !(e.2.shape.getLast? == some k)).map Prod.fst

/-- Specification: the records of a sum of components. -/
def Spec.infos (ps : List Spec.Part) : List (String × Info) := ps.map fun q => (q.name, q.info)

/-- Specification: the state names of a sum of components. -/
def Spec.names (ps : List Spec.Part) : List String := (ps.map (·.names)).flatten

theorem mapM_latent (k : ℕ) : ∀ (ds : List (String × DataArray)), (∀ e ∈ ds, e.2.shape ≠ []) →
    ds.mapM (fun e => isLatent k e.2) = some (ds.map fun e => e.2.shape.getLast? == some k)
  | [], _ => rfl
  | e :: ds, h => by
    obtain ⟨x, hx⟩ : ∃ x, e.2.shape.getLast? = some x := by
      cases hs : e.2.shape.getLast? with
      | none => exact absurd (by simpa using hs) (h e (by simp))
      | some x => exact ⟨x, rfl⟩
    rw [List.mapM_cons, mapM_latent k ds fun e he => h e (by simp [he])]
    simp [isLatent, hx]

theorem mapM_latent_none (k : ℕ) : ∀ (ds : List (String × DataArray)),
    ds.mapM (fun e => isLatent k e.2) = none ↔ ∃ e ∈ ds, e.2.shape = []
  | [] => by simp
  | e :: ds => by
    rw [List.mapM_cons]
    cases hs : e.2.shape.getLast? with
    | none =>
      have h0 : e.2.shape = [] := by simpa using hs
      simp [isLatent, h0]
    | some x =>
      have h0 : e.2.shape ≠ [] := by intro h; simp [h] at hs
      have ih := mapM_latent_none k ds
      cases hm : ds.mapM (fun e => isLatent k e.2) with
      | none => simp [isLatent, hs, h0, ih.mp hm]
      | some fl =>
        have : ¬ ∃ e ∈ ds, e.2.shape = [] := fun h => by simp [ih.mpr h] at hm
        simp only [isLatent, hs, Option.map_some, List.mem_cons, exists_eq_or_imp, h0, false_or, this, iff_false]
        simp

theorem zip_filter (k : ℕ) (ds : List (String × DataArray)) :
    (((ds.map fun e => e.2.shape.getLast? == some k).zip ds).filter (·.1)).map (·.2) = Spec.kept k ds ∧
    (((ds.map fun e => e.2.shape.getLast? == some k).zip ds).filter fun e => !e.1).map (·.2.1) = Spec.others k ds := by
  induction ds with
  | nil => exact ⟨rfl, rfl⟩
  | cons e ds ih =>
    obtain ⟨i1, i2⟩ := ih
    simp only [Spec.kept, Spec.others, List.map_cons, List.zip_cons_cons, List.filter_cons] at i1 i2 ⊢
    cases h : (e.2.shape.getLast? == some k) <;> simp [i1, i2]

theorem extract_eq (k : ℕ) (names : List String) (infos : List (String × Info)) (ds : List (String × DataArray))
    (h : ∀ e ∈ ds, e.2.shape ≠ []) :
    extract k names infos ds =
      if Spec.kept k ds = [] then .error .noStates
      else match extractAll k names infos (Spec.kept k ds) with
        | .error e => .error e
        | .ok out => .ok (Spec.others k ds, out) := by
  unfold extract
  rw [mapM_latent k ds h]
  simp only [(zip_filter k ds).1, (zip_filter k ds).2]
  have : (Spec.others k ds).length = ds.length ↔ Spec.kept k ds = [] := by
    simp only [Spec.others, Spec.kept, List.length_map, List.length_filter_eq_length_iff, List.filter_eq_nil_iff]
    simp
  by_cases h0 : Spec.kept k ds = []
  · rw [if_pos (this.mpr h0), if_pos h0]
  · rw [if_neg (fun hh => h0 (this.mp hh)), if_neg h0]
    rfl

theorem extractAll_names (k : ℕ) (names : List String) (infos : List (String × Info)) :
    ∀ (ds : List (String × DataArray)) (out : List (String × Out)), extractAll k names infos ds = .ok out →
      List.Forall₂ (fun e o => e.1 = o.1 ∧ extractVar k names infos e.2 = .ok o.2) ds out
  | [], out, h => by cases h; exact .nil
  | (n, a) :: ds, out, h => by
    rw [extractAll] at h
    cases hv : extractVar k names infos a with
    | error e => simp [hv] at h
    | ok o =>
      simp only [hv] at h
      cases hr : extractAll k names infos ds with
      | error e => simp [hr] at h
      | ok os =>
        simp only [hr, Except.ok.injEq] at h
        subst h
        exact .cons ⟨rfl, hv⟩ (extractAll_names k names infos ds os hr)

theorem extractAll_of (k : ℕ) (names : List String) (infos : List (String × Info)) :
    ∀ (ds : List (String × DataArray)), (∀ e ∈ ds, ∃ o, extractVar k names infos e.2 = .ok o) →
      ∃ out, extractAll k names infos ds = .ok out
  | [], _ => ⟨[], rfl⟩
  | (n, a) :: ds, h => by
    obtain ⟨o, ho⟩ := h (n, a) (by simp)
    obtain ⟨os, hos⟩ := extractAll_of k names infos ds fun e he => h e (by simp [he])
    exact ⟨(n, o) :: os, by simp only [extractAll]; simp only at ho; simp [ho, hos]⟩

/-- **C166**: extraction is refused for lack of states exactly if no variable (all having at least one axis) has a last axis
as long as the number of states; an empty dataset included. -/
theorem C166_refused_iff (k : ℕ) (names : List String) (infos : List (String × Info)) (ds : List (String × DataArray))
    (h : ∀ e ∈ ds, e.2.shape ≠ []) :
    extract k names infos ds = .error .noStates ↔ ∀ e ∈ ds, e.2.shape.getLast? ≠ some k := by
  rw [extract_eq k names infos ds h]
  have h0 : Spec.kept k ds = [] ↔ ∀ e ∈ ds, e.2.shape.getLast? ≠ some k := by simp [Spec.kept]
  by_cases hk : Spec.kept k ds = []
  · rw [if_pos hk]; exact ⟨fun _ => h0.mp hk, fun _ => rfl⟩
  · rw [if_neg hk]
    have : ¬ ∀ e ∈ ds, e.2.shape.getLast? ≠ some k := fun h => hk (h0.mpr h)
    simp only [this, iff_false]
    have hne : ∀ (l : List (String × DataArray)), extractAll k names infos l ≠ .error .noStates := by
      intro l
      induction l with
      | nil => simp [extractAll]
      | cons e l ih =>
        obtain ⟨n, a⟩ := e
        rw [extractAll]
        have hv : extractVar k names infos a ≠ .error .noStates := by
          unfold extractVar
          split
          · simp
          · split
            · simp
            · split <;> simp
        cases hx : extractVar k names infos a with
        | error e => intro hh; simp only [Except.error.injEq] at hh; exact hv (hx.trans (by rw [hh]))
        | ok o =>
          cases hr : extractAll k names infos l with
          | error e => intro hh; simp only [Except.error.injEq] at hh; exact ih (hr.trans (by rw [hh]))
          | ok os => simp
    intro hh
    cases hr : extractAll k names infos (Spec.kept k ds) with
    | error e => simp only [hr, Except.error.injEq] at hh; exact hne _ (hr.trans (by rw [hh]))
    | ok os => simp [hr] at hh

/-- **C166**: a dataset with a variable without any axis (a single number) is refused with an index error, whatever the other
variables are. -/
theorem C166_scalar_variable (k : ℕ) (names : List String) (infos : List (String × Info)) (ds : List (String × DataArray))
    (e : String × DataArray) (he : e ∈ ds) (h : e.2.shape = []) : extract k names infos ds = .error .indexError := by
  unfold extract
  rw [(mapM_latent_none k ds).mpr ⟨e, he, h⟩]

theorem flatten_names_length (ps : List Spec.Part) (h : ∀ q ∈ ps, q.Ok) :
    (ps.map (·.x)).flatten.length = (Spec.names ps).length := by
  unfold Spec.names
  induction ps with
  | nil => rfl
  | cons q ps ih =>
    obtain ⟨h1, h2, -⟩ := h q (by simp)
    simp only [List.map_cons, List.flatten_cons, List.length_append, h1, h2, ih fun q hq => h q (by simp [hq])]

theorem zeros_flatten (ps : List Spec.Part) (h : ∀ q ∈ ps, q.Ok) :
    ((ps.map fun q => ({ q with x := List.replicate q.info.kStates 0 } : Spec.Part)).map (·.x)).flatten =
      List.replicate (Spec.names ps).length 0 := by
  unfold Spec.names
  induction ps with
  | nil => rfl
  | cons q ps ih =>
    obtain ⟨h1, -, -⟩ := h q (by simp)
    simp only [List.map_cons, List.flatten_cons, List.length_append, h1, List.replicate_add,
      ih fun q hq => h q (by simp [hq])]

theorem names_congr (qs ps : List Spec.Part)
    (h : qs.map (fun q => (q.name, q.info, q.names)) = ps.map (fun q => (q.name, q.info, q.names))) :
    Spec.names qs = Spec.names ps ∧ Spec.infos qs = Spec.infos ps ∧ qs.map (·.info) = ps.map (·.info) := by
  refine ⟨?_, ?_, ?_⟩
  · have := congrArg (fun l => (l.map fun e => e.2.2).flatten) h
    simpa [Spec.names, Function.comp_def] using this
  · have := congrArg (fun l => l.map fun e => (e.1, e.2.1)) h
    simpa [Spec.infos, Function.comp_def] using this
  · have := congrArg (fun l => l.map fun e => e.2.1) h
    simpa [Function.comp_def] using this

theorem rows_eq (ps : List Spec.Part) (h : ∀ q ∈ ps, q.Ok) :
    hiddenStates (Spec.names ps) (ps.map (·.x)).flatten (Spec.infos ps) = some (ps.map Spec.extract).flatten :=
  (C89_extraction ps h).1

theorem rows_length (ps : List Spec.Part) (h : ∀ q ∈ ps, q.Ok)
    (hobs : ∀ q ∈ ps, q.info.obs = none → q.info.combine = false ∧ q.info.kStates = 0) :
    (ps.map Spec.extract).flatten.length = (subNames (Spec.names ps) (Spec.infos ps)).length :=
  ((C89_extraction ps h).2 hobs).symm

theorem obs_congr (qs ps : List Spec.Part) (h : qs.map (·.info) = ps.map (·.info))
    (hobs : ∀ q ∈ ps, q.info.obs = none → q.info.combine = false ∧ q.info.kStates = 0) :
    ∀ q ∈ qs, q.info.obs = none → q.info.combine = false ∧ q.info.kStates = 0 := by
  intro q hq
  have : q.info ∈ ps.map (·.info) := h ▸ List.mem_map_of_mem hq
  obtain ⟨q', hq', he⟩ := List.mem_map.mp this
  rw [← he]
  exact hobs q' hq'

theorem extractVar_ok (ps : List Spec.Part) (hps : ∀ q ∈ ps, q.Ok)
    (hobs : ∀ q ∈ ps, q.info.obs = none → q.info.combine = false ∧ q.info.kStates = 0) (a : DataArray)
    (ha : 2 ≤ a.dims.length) :
    extractVar (Spec.names ps).length (Spec.names ps) (Spec.infos ps) a =
      .ok ⟨a.dims, fun pre => (hiddenStates (Spec.names ps) (lastAxis (Spec.names ps).length a pre) (Spec.infos ps)).getD [],
        subNames (Spec.names ps) (Spec.infos ps)⟩ := by
  have hz : ∀ q ∈ ps.map (fun q => ({ q with x := List.replicate q.info.kStates 0 } : Spec.Part)), q.Ok := by
    intro q hq
    obtain ⟨q', hq', rfl⟩ := List.mem_map.mp hq
    obtain ⟨h1, -, h3⟩ := hps q' hq'
    exact ⟨h1, by simp, h3⟩
  obtain ⟨c1, c2, c3⟩ := names_congr (ps.map fun q => ({ q with x := List.replicate q.info.kStates 0 } : Spec.Part)) ps
    (by simp [Function.comp_def])
  have h1 := rows_eq _ hz
  have h2 := rows_length _ hz (obs_congr _ _ c3 hobs)
  rw [c1, c2, zeros_flatten ps hps] at h1
  rw [c1, c2] at h2
  unfold extractVar
  rw [if_neg (by omega), h1]
  simp only [h2, ne_eq, not_true, if_false]

/-- **C166**: for a sum of components with `k` states in total, if some variable has a last axis of length `k` and every
such variable has at least two axes, extraction succeeds: it keeps exactly the variables whose last axis has length `k`, in
order, and names exactly the others; in every kept variable, at every index of the leading axes, the last axis is replaced by
the components' values, component after component, with the components' labels. -/
theorem C166_extraction (ps : List Spec.Part) (hps : ∀ q ∈ ps, q.Ok)
    (hobs : ∀ q ∈ ps, q.info.obs = none → q.info.combine = false ∧ q.info.kStates = 0)
    (ds : List (String × DataArray)) (hds : ∀ e ∈ ds, e.2.shape ≠ [])
    (hk : Spec.kept (Spec.names ps).length ds ≠ [])
    (hdims : ∀ e ∈ Spec.kept (Spec.names ps).length ds, 2 ≤ e.2.dims.length) :
    ∃ out, extract (Spec.names ps).length (Spec.names ps) (Spec.infos ps) ds =
        .ok (Spec.others (Spec.names ps).length ds, out) ∧
      List.Forall₂ (fun (e : String × DataArray) (o : String × Out) => e.1 = o.1 ∧ o.2.dims = e.2.dims ∧
          o.2.labels = subNames (Spec.names ps) (Spec.infos ps) ∧
          ∀ (pre : List ℕ) (qs : List Spec.Part), (∀ q ∈ qs, q.Ok) →
            qs.map (fun q => (q.name, q.info, q.names)) = ps.map (fun q => (q.name, q.info, q.names)) →
            (∀ j, j < (Spec.names ps).length → (qs.map (·.x)).flatten[j]? = some (e.2.data (pre ++ [j]))) →
            o.2.rows pre = (qs.map Spec.extract).flatten ∧ (o.2.rows pre).length = o.2.labels.length)
        (Spec.kept (Spec.names ps).length ds) out := by
  obtain ⟨out, hout⟩ := extractAll_of (Spec.names ps).length (Spec.names ps) (Spec.infos ps)
    (Spec.kept (Spec.names ps).length ds) fun e he => ⟨_, extractVar_ok ps hps hobs e.2 (hdims e he)⟩
  refine ⟨out, ?_, ?_⟩
  · rw [extract_eq _ _ _ ds hds, if_neg hk, hout]
  · have hall := extractAll_names _ _ _ _ _ hout
    have hmem : ∀ e ∈ Spec.kept (Spec.names ps).length ds, 2 ≤ e.2.dims.length := hdims
    clear hout hk
    generalize Spec.kept (Spec.names ps).length ds = l at hall hmem
    clear hdims
    induction hall with
    | nil => exact .nil
    | @cons e o l out he _ ih =>
      refine .cons ?_ (ih fun e he => hmem e (by simp [he]))
      obtain ⟨hn, hv⟩ := he
      rw [extractVar_ok ps hps hobs e.2 (hmem e (by simp))] at hv
      obtain ⟨on, oo⟩ := o
      simp only [Except.ok.injEq] at hv
      subst hv
      refine ⟨hn, rfl, rfl, ?_⟩
      intro pre qs hqs hc hx
      obtain ⟨c1, c2, c3⟩ := names_congr qs ps hc
      have hl : lastAxis (Spec.names ps).length e.2 pre = (qs.map (·.x)).flatten := by
        have hlen := flatten_names_length qs hqs
        rw [c1] at hlen
        apply List.ext_getElem?
        intro j
        by_cases hj : j < (Spec.names ps).length
        · rw [hx j hj]
          simp [lastAxis, hj]
        · rw [List.getElem?_eq_none (by simp [lastAxis]; omega), List.getElem?_eq_none (by omega)]
      have hr := rows_eq qs hqs
      have hrl := rows_length qs hqs (obs_congr _ _ c3 hobs)
      rw [c1, c2] at hr hrl
      simp only [hl, hr, Option.getD_some]
      exact ⟨trivial, hrl⟩

example : ∃ out, extract 3 ["level", "trend", "beta"]
    [("trend", ⟨2, true, some [true, false]⟩), ("reg", ⟨1, false, some [true]⟩)]
    [("filtered", ⟨["time", "state"], [4, 3], fun idx => (idx.sum : ℝ)⟩),
     ("filtered_observed", ⟨["time", "observed_state"], [4, 1], fun _ => 0⟩)] =
    .ok (["filtered_observed"], [("filtered", out)]) ∧ out.labels = ["trend", "reg[beta]"] ∧ out.rows [2] = [2, 4] := by
  refine ⟨_, rfl, rfl, ?_⟩
  simp [hiddenStates, stateSlices, extractOne, pySlice, lastAxis, sumObserved, List.range_succ]
  norm_num

/-- **C166**: a covariance (leading axes, states, states again) is reduced along its last axis only: for one combined
component the result still has one row per state, and its entry in row `i` is the sum of the `i`-th row of the covariance over
the observed states, i.e. the covariance of state `i` with the component, not the component's variance. -/
theorem C166_covariance_one_axis (q : Spec.Part) (hq : q.Ok) (o : List Bool) (ho : q.info.obs = some o)
    (hc : q.info.combine = true) (d : List String) (sh : List ℕ) (hd : 2 ≤ d.length) (f : List ℕ → ℝ) (name : String) :
    ∃ out, extract q.names.length q.names [(q.name, q.info)] [(name, ⟨d, sh ++ [q.names.length, q.names.length], f⟩)] =
        .ok ([], [(name, out)]) ∧ out.dims = d ∧ out.labels = [q.name] ∧
      ∀ (pre : List ℕ) (i : ℕ), out.rows (pre ++ [i]) =
        [Spec.observedSum o ((List.range q.names.length).map fun j => f (pre ++ [i] ++ [j]))] := by
  have hps : ∀ r ∈ [q], r.Ok := by simpa using hq
  have hobs : ∀ r ∈ [q], r.info.obs = none → r.info.combine = false ∧ r.info.kStates = 0 := by simp [ho]
  have hn : Spec.names [q] = q.names := by simp [Spec.names]
  have hi : Spec.infos [q] = [(q.name, q.info)] := by simp [Spec.infos]
  have hv := extractVar_ok [q] hps hobs ⟨d, sh ++ [q.names.length, q.names.length], f⟩ hd
  rw [hn, hi] at hv
  have hkept : Spec.kept q.names.length [(name, (⟨d, sh ++ [q.names.length, q.names.length], f⟩ : DataArray))] =
      [(name, ⟨d, sh ++ [q.names.length, q.names.length], f⟩)] := by simp [Spec.kept]
  have hoth : Spec.others q.names.length [(name, (⟨d, sh ++ [q.names.length, q.names.length], f⟩ : DataArray))] = [] := by
    simp [Spec.others]
  refine ⟨⟨d, fun pre => (hiddenStates q.names (lastAxis q.names.length ⟨d, sh ++ [q.names.length, q.names.length], f⟩ pre)
    [(q.name, q.info)]).getD [], subNames q.names [(q.name, q.info)]⟩, ?_, rfl, ?_, ?_⟩
  · rw [extract_eq _ _ _ _ (by simp), hkept, hoth, if_neg (by simp), extractAll, hv]
    rfl
  · simp [subNames, stateSlices, hc]
  · intro pre i
    obtain ⟨h1, h2, h3⟩ := hq
    have hqs : ∀ r ∈ [(Spec.Part.mk q.name q.info q.names
        (lastAxis q.names.length ⟨d, sh ++ [q.names.length, q.names.length], f⟩ (pre ++ [i])))], r.Ok := by
      simp only [List.mem_singleton, forall_eq]
      exact ⟨h1, by simp [lastAxis, h1], h3⟩
    have hr := rows_eq _ hqs
    simp only [Spec.names, Spec.infos, List.map_cons, List.map_nil, List.flatten_cons, List.flatten_nil,
      List.append_nil] at hr
    simp only [hr, Option.getD_some]
    simp [Spec.extract, ho, hc, lastAxis]

/-- **C166**: with two independent states of unit variance added up by one component, the component has variance two and every
number returned for the covariance is one. -/
theorem C166_covariance_wrong :
    ∃ out, extract 2 ["a", "b"] [("c", ⟨2, true, some [true, true]⟩)]
        [("P", ⟨["time", "state", "state_aux"], [1, 2, 2], fun idx => if idx[1]? = idx[2]? then 1 else 0⟩)] =
        .ok ([], [("P", out)]) ∧ out.rows [0, 0] = [1] ∧ out.rows [0, 1] = [1] := by
  obtain ⟨out, h, -, -, hr⟩ := C166_covariance_one_axis ⟨"c", ⟨2, true, some [true, true]⟩, ["a", "b"], [0, 0]⟩
    ⟨rfl, rfl, by rintro o ⟨⟩; rfl⟩ [true, true] rfl rfl ["time", "state", "state_aux"] [1] (by decide)
    (fun idx => if idx[1]? = idx[2]? then 1 else 0) "P"
  refine ⟨out, h, ?_, ?_⟩
  · have := hr [0] 0
    simpa [Spec.observedSum, List.range_succ] using this
  · have := hr [0] 1
    simpa [Spec.observedSum, List.range_succ] using this

/-- **C166**: the test is the length of the last axis, not its name: a scalar parameter (axes chain and draw) drawn as often as
there are states counts as a set of states, and its *draws* are combined. -/
theorem C166_parameter_taken_for_states (a b : ℝ) :
    ∃ out, extract 2 ["a", "b"] [("c", ⟨2, true, some [true, true]⟩)]
        [("sigma", ⟨["chain", "draw"], [1, 2], fun idx => if idx[1]? = some 0 then a else b⟩)] =
        .ok ([], [("sigma", out)]) ∧ out.rows [0] = [a + b] := by
  refine ⟨_, rfl, ?_⟩
  simp [hiddenStates, stateSlices, extractOne, pySlice, lastAxis, sumObserved, List.range_succ]

end Verif.Structural.Extract
