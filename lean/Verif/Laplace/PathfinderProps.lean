import Verif.Laplace.Pathfinder
import Verif.Laplace.LayoutProps

/-!
# Properties of the pathfinder layout and of `fit` (C161)
-/

set_option autoImplicit false

namespace Verif.Laplace

theorem inputSizes_self (ip : Point) (hn : (ip.map Prod.fst).Nodup) :
    inputSizes (ip.map Prod.fst) ip = .ok (ip.map fun kv => (kv.1, kv.2.length)) := by
  have key : ∀ l : Point, (∀ kv ∈ l, ip.lookup kv.1 = some kv.2) →
      inputSizes (l.map Prod.fst) ip = .ok (l.map fun kv => (kv.1, kv.2.length)) := by
    intro l
    induction l with
    | nil => intro _; rfl
    | cons kv l ih =>
      intro h
      have h1 := ih fun x hx => h x (by simp [hx])
      unfold inputSizes at h1 ⊢
      rw [List.map_cons, List.mapM_cons, h kv (by simp), h1]
      rfl
  apply key
  intro kv hkv
  clear key
  induction ip with
  | nil => simp at hkv
  | cons x ip ih =>
    rw [List.map_cons, List.nodup_cons] at hn
    obtain ⟨k, v⟩ := x
    rcases List.mem_cons.mp hkv with rfl | hkv
    · simp [List.lookup]
    · have hne : kv.1 ≠ k := by
        rintro e
        exact hn.1 (List.mem_map.mpr ⟨kv, hkv, e⟩)
      rw [List.lookup_cons, beq_eq_false_iff_ne.mpr hne]
      exact ih hn.2 hkv

theorem assign_names (sizes : List (String × ℕ)) (x : List ℝ) (p : Point) (h : assign sizes x = .ok p) :
    p.map Prod.fst = sizes.map Prod.fst := by
  induction sizes generalizing x p with
  | nil => simp only [assign, Except.ok.injEq] at h; subst h; rfl
  | cons s sizes ih =>
    obtain ⟨v, k⟩ := s
    unfold assign at h
    split at h
    · cases ha : assign sizes (x.drop k) with
      | error e => rw [ha] at h; simp [Except.map] at h
      | ok q =>
        rw [ha] at h
        simp only [Except.map, Except.ok.injEq] at h
        subst h
        simp [ih _ _ ha]
    · simp at h

theorem zip_fst_snd (p : Point) : (p.map Prod.fst).zip (p.map Prod.snd) = p := by
  induction p with
  | nil => rfl
  | cons x p ih => simp [ih]

/-- **C161** When the initial point lists the value variables in the model's order (as PyMC's does), the values reported for a
sample are computed from exactly the assignment at which its density was evaluated: each block of a flat vector belongs to one
value variable, in the density and in the report. -/
theorem C161_layout (valueVars : List String) (ip : Point) (hv : ip.map Prod.fst = valueVars) (hn : valueVars.Nodup)
    (x : List ℝ) :
    pathfinderInputs valueVars ip x = pathfinderLogpPoint valueVars ip x := by
  subst hv
  unfold pathfinderInputs pathfinderLogpPoint pathfinderPoint
  rw [inputSizes_self ip hn]
  simp only [bind, Except.bind]
  cases ha : assign (ip.map fun kv => (kv.1, kv.2.length)) x with
  | error e => rfl
  | ok p =>
    have := assign_names _ _ _ ha
    rw [List.map_map] at this
    simp only [Except.map, Except.ok.injEq]
    have e : ip.map Prod.fst = p.map Prod.fst := by
      rw [this]
      apply List.map_congr_left
      intro a _; rfl
    rw [e, zip_fst_snd]

/-- **C161** The flat starting position decodes to the initial point itself. -/
theorem C161_start (ip : Point) : pathfinderPoint ip (ravel ip) = .ok ip := by
  unfold pathfinderPoint
  induction ip with
  | nil => rfl
  | cons kv ip ih =>
    obtain ⟨k, v⟩ := kv
    have h1 : (ravel ((k, v) :: ip)).take v.length = v := by simp [ravel]
    have h2 : (ravel ((k, v) :: ip)).drop v.length = ravel ip := by simp [ravel]
    rw [List.map_cons, assign, h1, h2, if_pos rfl, ih]
    rfl

/-- **C161** If the two orders differed, two scalars would be exchanged without an error. -/
theorem C161_order_needed :
    ∃ (ip reported evaluated : Point), ["a", "b"].Perm (ip.map Prod.fst) ∧
      pathfinderPoint ip [1, 2] = .ok reported ∧ pathfinderLogpPoint ["a", "b"] ip [1, 2] = .ok evaluated ∧
      reported.lookup "a" = some [2] ∧ evaluated.lookup "a" = some [1] := by
  refine ⟨[("b", [0]), ("a", [0])], [("b", [1]), ("a", [2])], [("a", [1]), ("b", [2])], by decide, ?_, ?_, ?_, ?_⟩
  · simp [pathfinderPoint, assign, Except.map]
  · simp [pathfinderLogpPoint, inputSizes, assign, Except.map, bind, Except.bind, List.lookup, pure, Except.pure]
  · simp [List.lookup]
  · simp [List.lookup]

/-- **C161** `fit` runs the named algorithm; a name that is neither `pathfinder` nor `laplace` is not refused, the call returns
`None`. -/
theorem C161_dispatch (method : String) (hasBlackjax : Bool) :
    (fitDispatch method hasBlackjax = .laplace ↔ method = "laplace") ∧
    (fitDispatch method hasBlackjax = .pathfinder ↔ method = "pathfinder" ∧ hasBlackjax = true) ∧
    (fitDispatch method hasBlackjax = .runtimeError ↔ method = "pathfinder" ∧ hasBlackjax = false) ∧
    (fitDispatch method hasBlackjax = .returnsNone ↔ method ≠ "laplace" ∧ method ≠ "pathfinder") := by
  unfold fitDispatch
  by_cases h1 : method = "pathfinder"
  · subst h1
    cases hasBlackjax <;> simp
  · by_cases h2 : method = "laplace"
    · subst h2; simp
    · simp [h1, h2]

/-- Two value variables, one of them a vector. -/
example : pathfinderInputs ["mu", "beta"] [("mu", [0]), ("beta", [0, 0])] [5, 6, 7] = .ok [("mu", [5]), ("beta", [6, 7])] := by
  simp [pathfinderInputs, pathfinderPoint, assign, Except.map]

end Verif.Laplace
