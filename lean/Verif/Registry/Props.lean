import Verif.Registry.Model
import Verif.Data.Props
import Mathlib.Data.List.Nodup
import Mathlib.Data.List.Lookmap
import Mathlib.Data.String.Basic
import Mathlib.Tactic.Tauto

/-!
# Properties of the placeholder registry and of `build_statespace_graph`
-/

set_option autoImplicit false

namespace Verif.Registry

/-! ### Registration -/

/-- One call of a registration function. pymc_extras/statespace/core/statespace.py:459, 505 -/
inductive Call
  | var (name : String) (ty : Ty)
  | data (name : String) (ty : Ty)

/-- The object after a call; a call that raises leaves it as it was.
pymc_extras/statespace/core/statespace.py:489-503, 528-542 -/
def step (o : Obj) : Call → Obj
  | .var n ty => match registerVariable o n ty with
    | .ok r => r.1
    | .error _ => o
  | .data n ty => match registerData o n ty with
    | .ok r => r.1
    | .error _ => o

/-- The object after a sequence of calls. pymc_extras/statespace/core/statespace.py:489-503, 528-542 -/
def run (o : Obj) (calls : List Call) : Obj := calls.foldl step o

/-- Specification: the types given in the calls that register a parameter under the name `n`, in order. -/
def Spec.varTypes (n : String) (calls : List Call) : List Ty :=
  calls.filterMap fun c => match c with
    | .var m ty => if m = n then some ty else none
    | .data _ _ => none

/-- Specification: the types given in the calls that register data under the name `n`, in order. -/
def Spec.dataTypes (n : String) (calls : List Call) : List Ty :=
  calls.filterMap fun c => match c with
    | .data m ty => if m = n then some ty else none
    | .var _ _ => none

theorem run_append (o : Obj) (cs : List Call) (c : Call) : run o (cs ++ [c]) = step (run o cs) c := by
  simp [run, List.foldl_append]

theorem step_names (o : Obj) (c : Call) : (step o c).paramNames = o.paramNames ∧ (step o c).dataNames = o.dataNames := by
  cases c with
  | var n ty =>
    simp only [step, registerVariable]
    split_ifs <;> simp
  | data n ty =>
    simp only [step, registerData]
    split_ifs <;> simp

theorem run_names (o : Obj) (cs : List Call) : (run o cs).paramNames = o.paramNames ∧ (run o cs).dataNames = o.dataNames := by
  induction cs using List.reverseRecOn with
  | nil => simp [run]
  | append_singleton cs c ih =>
    rw [run_append]
    exact ⟨(step_names _ _).1.trans ih.1, (step_names _ _).2.trans ih.2⟩

theorem run_inv (ps ds : List String) (cs : List Call) :
    ((run (Obj.fresh ps ds) cs).vars.map Prod.fst).Nodup ∧ ((run (Obj.fresh ps ds) cs).datas.map Prod.fst).Nodup ∧
    (∀ n ty, (n, ty) ∈ (run (Obj.fresh ps ds) cs).vars ↔ n ∈ ps ∧ (Spec.varTypes n cs).head? = some ty) ∧
    (∀ n ty, (n, ty) ∈ (run (Obj.fresh ps ds) cs).datas ↔ n ∈ ds ∧ (Spec.dataTypes n cs).head? = some ty) := by
  induction cs using List.reverseRecOn with
  | nil => simp [run, Obj.fresh, Spec.varTypes, Spec.dataTypes]
  | append_singleton cs c ih =>
    obtain ⟨h1, h2, h3, h4⟩ := ih
    have hn := run_names (Obj.fresh ps ds) cs
    rw [run_append]
    set o := run (Obj.fresh ps ds) cs with ho
    have hp : o.paramNames = ps := hn.1
    have hd : o.dataNames = ds := hn.2
    cases c with
    | var a t =>
      have hsd : ∀ n, Spec.dataTypes n (cs ++ [Call.var a t]) = Spec.dataTypes n cs := by
        intro n; simp [Spec.dataTypes]
      have hsv : ∀ n, Spec.varTypes n (cs ++ [Call.var a t]) = Spec.varTypes n cs ++ (if a = n then [t] else []) := by
        intro n
        by_cases h : a = n <;> simp [Spec.varTypes, h]
      simp only [step, registerVariable, hp]
      by_cases ha : a ∈ ps
      · by_cases hr : a ∈ o.vars.map Prod.fst
        · simp only [ha, not_true_eq_false, if_false, hr, if_true]
          refine ⟨h1, h2, ?_, ?_⟩
          · intro n ty
            rw [h3, hsv]
            by_cases han : a = n
            · subst han
              obtain ⟨⟨n', ty'⟩, hm, hn'⟩ := List.mem_map.1 hr
              simp only at hn'
              subst hn'
              have := ((h3 _ _).1 hm).2
              cases hL : Spec.varTypes n' cs with
              | nil => simp [hL] at this
              | cons x xs => simp
            · simp [han]
          · intro n ty; rw [h4, hsd]
        · simp only [ha, not_true_eq_false, if_false, hr]
          refine ⟨?_, h2, ?_, ?_⟩
          · simp only [List.map_append, List.map_cons, List.map_nil]
            rw [List.nodup_append]
            refine ⟨h1, by simp, ?_⟩
            intro x hx y hy
            simp only [List.mem_singleton] at hy
            rintro rfl
            exact hr (hy ▸ hx)
          · intro n ty
            simp only [List.mem_append, List.mem_singleton, Prod.mk.injEq]
            rw [h3, hsv]
            by_cases han : a = n
            · subst han
              have hnil : Spec.varTypes a cs = [] := by
                cases hL : Spec.varTypes a cs with
                | nil => rfl
                | cons x xs =>
                  exfalso
                  apply hr
                  exact List.mem_map.2 ⟨(a, x), (h3 _ _).2 ⟨ha, by simp [hL]⟩, rfl⟩
              simp [hnil, ha, eq_comm]
            · have : ¬ n = a := fun h => han h.symm
              simp [han, this]
          · intro n ty; rw [hsd]; exact h4 n ty
      · simp only [ha, not_false_eq_true, if_true]
        refine ⟨h1, h2, ?_, ?_⟩
        · intro n ty
          rw [h3, hsv]
          by_cases han : a = n
          · subst han; simp [ha]
          · simp [han]
        · intro n ty; rw [h4, hsd]
    | data a t =>
      have hsd : ∀ n, Spec.varTypes n (cs ++ [Call.data a t]) = Spec.varTypes n cs := by
        intro n; simp [Spec.varTypes]
      have hsv : ∀ n, Spec.dataTypes n (cs ++ [Call.data a t]) = Spec.dataTypes n cs ++ (if a = n then [t] else []) := by
        intro n
        by_cases h : a = n <;> simp [Spec.dataTypes, h]
      simp only [step, registerData, hd]
      by_cases ha : a ∈ ds
      · by_cases hr : a ∈ o.datas.map Prod.fst
        · simp only [ha, not_true_eq_false, if_false, hr, if_true]
          refine ⟨h1, h2, ?_, ?_⟩
          · intro n ty; rw [h3, hsd]
          · intro n ty
            rw [h4, hsv]
            by_cases han : a = n
            · subst han
              obtain ⟨⟨n', ty'⟩, hm, hn'⟩ := List.mem_map.1 hr
              simp only at hn'
              subst hn'
              have := ((h4 _ _).1 hm).2
              cases hL : Spec.dataTypes n' cs with
              | nil => simp [hL] at this
              | cons x xs => simp
            · simp [han]
        · simp only [ha, not_true_eq_false, if_false, hr]
          refine ⟨h1, ?_, ?_, ?_⟩
          · simp only [List.map_append, List.map_cons, List.map_nil]
            rw [List.nodup_append]
            refine ⟨h2, by simp, ?_⟩
            intro x hx y hy
            simp only [List.mem_singleton] at hy
            rintro rfl
            exact hr (hy ▸ hx)
          · intro n ty; rw [hsd]; exact h3 n ty
          · intro n ty
            simp only [List.mem_append, List.mem_singleton, Prod.mk.injEq]
            rw [h4, hsv]
            by_cases han : a = n
            · subst han
              have hnil : Spec.dataTypes a cs = [] := by
                cases hL : Spec.dataTypes a cs with
                | nil => rfl
                | cons x xs =>
                  exfalso
                  apply hr
                  exact List.mem_map.2 ⟨(a, x), (h4 _ _).2 ⟨ha, by simp [hL]⟩, rfl⟩
              simp [hnil, ha, eq_comm]
            · have : ¬ n = a := fun h => han h.symm
              simp [han, this]
      · simp only [ha, not_false_eq_true, if_true]
        refine ⟨h1, h2, ?_, ?_⟩
        · intro n ty; rw [h3, hsd]
        · intro n ty
          rw [h4, hsv]
          by_cases han : a = n
          · subst han; simp [ha]
          · simp [han]

/-- C137. After any sequence of registration calls, accepted or refused, the parameter placeholders are exactly the declared
parameters that some call named, each with the type of the first such call; likewise for data, and neither kind disturbs
the other. -/
theorem C137_registry_contents (ps ds : List String) (cs : List Call) (n : String) (ty : Ty) :
    ((n, ty) ∈ (run (Obj.fresh ps ds) cs).vars ↔ n ∈ ps ∧ (Spec.varTypes n cs).head? = some ty) ∧
    ((n, ty) ∈ (run (Obj.fresh ps ds) cs).datas ↔ n ∈ ds ∧ (Spec.dataTypes n cs).head? = some ty) :=
  ⟨(run_inv ps ds cs).2.2.1 n ty, (run_inv ps ds cs).2.2.2 n ty⟩

/-- C137. At any point a further call is accepted exactly when the name is declared and no earlier call named it. -/
theorem C137_accept_iff (ps ds : List String) (cs : List Call) (n : String) (ty : Ty) :
    ((∃ r, registerVariable (run (Obj.fresh ps ds) cs) n ty = .ok r) ↔ n ∈ ps ∧ Spec.varTypes n cs = []) ∧
    ((∃ r, registerData (run (Obj.fresh ps ds) cs) n ty = .ok r) ↔ n ∈ ds ∧ Spec.dataTypes n cs = []) := by
  obtain ⟨-, -, h3, h4⟩ := run_inv ps ds cs
  have hn := run_names (Obj.fresh ps ds) cs
  have hp : (run (Obj.fresh ps ds) cs).paramNames = ps := hn.1
  have hd : (run (Obj.fresh ps ds) cs).dataNames = ds := hn.2
  have key : ∀ (L : List Ty), L = [] ↔ ∀ x, ¬ L.head? = some x := by
    intro L; cases L <;> simp
  constructor
  · simp only [registerVariable, hp]
    by_cases ha : n ∈ ps
    · have : n ∈ (run (Obj.fresh ps ds) cs).vars.map Prod.fst ↔ ∃ ty, (n, ty) ∈ (run (Obj.fresh ps ds) cs).vars := by
        simp
      by_cases hr : n ∈ (run (Obj.fresh ps ds) cs).vars.map Prod.fst
      · simp only [ha, hr, not_true_eq_false, if_true, if_false]
        obtain ⟨ty', h'⟩ := this.1 hr
        have := ((h3 _ _).1 h').2
        constructor
        · rintro ⟨r, hr⟩; cases hr
        · rintro ⟨-, h⟩; simp [h] at this
      · simp only [ha, hr, not_true_eq_false, if_false]
        refine ⟨fun _ => ⟨trivial, ?_⟩, fun _ => ⟨_, rfl⟩⟩
        rw [key]
        intro x hx
        exact hr (this.2 ⟨x, (h3 _ _).2 ⟨ha, hx⟩⟩)
    · simp only [ha, not_false_eq_true, if_true, false_and, iff_false, not_exists]
      intro r hr; cases hr
  · simp only [registerData, hd]
    by_cases ha : n ∈ ds
    · have : n ∈ (run (Obj.fresh ps ds) cs).datas.map Prod.fst ↔ ∃ ty, (n, ty) ∈ (run (Obj.fresh ps ds) cs).datas := by
        simp
      by_cases hr : n ∈ (run (Obj.fresh ps ds) cs).datas.map Prod.fst
      · simp only [ha, hr, not_true_eq_false, if_true, if_false]
        obtain ⟨ty', h'⟩ := this.1 hr
        have := ((h4 _ _).1 h').2
        constructor
        · rintro ⟨r, hr⟩; cases hr
        · rintro ⟨-, h⟩; simp [h] at this
      · simp only [ha, hr, not_true_eq_false, if_false]
        refine ⟨fun _ => ⟨trivial, ?_⟩, fun _ => ⟨_, rfl⟩⟩
        rw [key]
        intro x hx
        exact hr (this.2 ⟨x, (h4 _ _).2 ⟨ha, hx⟩⟩)
    · simp only [ha, not_false_eq_true, if_true, false_and, iff_false, not_exists]
      intro r hr; cases hr

/-- C137. An accepted call returns the placeholder of that name. -/
theorem C137_returns_placeholder (o : Obj) (n : String) (ty : Ty) :
    (∀ r, registerVariable o n ty = .ok r → r.2 = .param n) ∧ (∀ r, registerData o n ty = .ok r → r.2 = .data n) := by
  constructor
  · intro r h
    simp only [registerVariable] at h
    split_ifs at h
    cases h; rfl
  · intro r h
    simp only [registerData] at h
    split_ifs at h
    cases h; rfl

/-- The registry of a small model: three calls, one of an undeclared name, one repeated. -/
example : (run (Obj.fresh ["rho", "sigma"] []) [.var "rho" ⟨"float64", [some 2]⟩, .var "tau" ⟨"float64", []⟩,
    .var "rho" ⟨"float64", [some 3]⟩]).vars = [("rho", ⟨"float64", [some 2]⟩)] := by decide

end Verif.Registry
