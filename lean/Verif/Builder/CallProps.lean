import Verif.Builder.Model

/-! # C54–C57, C108: ids, sampler arguments, predictions and as_model -/

set_option autoImplicit false

namespace Builder

/-! ### C54 -/

/-- **C54.** The id does not depend on the configuration's keys: configurations with the same values
in the same order have the same id. -/
theorem C54_keys_ignored (sha : String → String) {c c' : Config} (version modelType : String)
    (h : c.map Prod.snd = c'.map Prod.snd) :
    modelId sha c version modelType = modelId sha c' version modelType := by
  have h' : c.map (fun p => repr p.2) = c'.map (fun p => repr p.2) := by
    have := congrArg (List.map repr) h
    simpa [List.map_map, Function.comp_def] using this
  unfold modelId idText
  rw [h']

/-- **C54.** Nor on where the version ends and the model type begins. -/
theorem C54_field_boundary (sha : String → String) (c : Config) {v t v' t' : String}
    (h : v ++ t = v' ++ t') : modelId sha c v t = modelId sha c v' t' := by
  unfold modelId idText
  rw [String.append_assoc, h, ← String.append_assoc]

/-- **C54.** In particular a saved model whose priors were swapped between two parameters, or of
another class, loads without an error. -/
theorem C54_swapped_keys_load (sha : String → String) (dtypeOf : List Val → String) (c : Cls)
    (k₁ k₂ : String) (n m : ℤ) (sc : Config) (v' t' : String) (h : v' ++ t' = c.version ++ c.modelType) :
    ∃ r, load sha dtypeOf ⟨t', v', c.ser⟩
      ⟨modelId sha [(k₁, .int n), (k₂, .int m)] c.version c.modelType,
        [(k₂, .int n), (k₁, .int m)], sc⟩ = .ok r ∧ r.1 = [(k₂, .int n), (k₁, .int m)] := by
  refine ⟨([(k₂, .int n), (k₁, .int m)], sc), ?_, rfl⟩
  unfold load
  have hf : formatting dtypeOf [(k₂, .int n), (k₁, .int m)] = [(k₂, .int n), (k₁, .int m)] := rfl
  simp only [hf]
  rw [if_neg]
  rw [not_not, C54_field_boundary sha _ h]
  exact C54_keys_ignored sha _ _ rfl

/-- Different configurations and different classes with the same id. -/
example (sha : String → String) :
    modelId sha [("a", .int 1), ("b", .int 2)] "0.1" "2Model"
      = modelId sha [("b", .int 1), ("a", .int 2)] "0.12" "Model" := by
  rw [C54_field_boundary sha _ (show "0.1" ++ "2Model" = "0.12" ++ "Model" by decide)]
  exact C54_keys_ignored sha _ _ rfl

/-! ### C55 -/

/-- What the sampler should receive for one key. -/
def wanted {V : Type} (stored kwargs : Kw V) (progressbar seed : V) (k : String) : Option V :=
  match kwargs k with
  | some v => some v
  | none => if k = "progressbar" then some progressbar else if k = "random_seed" then some seed
      else stored k

/-- **C55.** `fit` leaves the stored configuration (and every other existing dictionary) as it was. -/
theorem C55_stored_unchanged {V : Type} (h : DictHeap V) (stored : ℕ) (pb seed : V) (kw : Kw V)
    {r : ℕ} (hr : r < h.next) : (fitSampler h stored pb seed kw).1.dict r = h.dict r := by
  have : r ≠ h.next := Nat.ne_of_lt hr
  simp [fitSampler, DictHeap.copy, DictHeap.put, this]

/-- **C55.** The sampler receives the call's keyword arguments, then `fit`'s `progressbar` and
`random_seed`, then the stored configuration, in this order of precedence. -/
theorem C55_arguments {V : Type} (h : DictHeap V) {stored : ℕ} (pb seed : V) (kw : Kw V)
    (hs : stored < h.next) (k : String) :
    (fitSampler h stored pb seed kw).2 k = wanted (h.dict stored) kw pb seed k := by
  have hne : stored ≠ h.next := Nat.ne_of_lt hs
  simp only [fitSampler, DictHeap.copy, DictHeap.put, merge, setKey, wanted, hne, if_false,
    if_true]
  cases hk : kw k with
  | some v => simp
  | none =>
    by_cases h1 : k = "random_seed"
    · subst h1; simp
    · by_cases h2 : k = "progressbar"
      · subst h2; simp
      · simp [h1, h2]

/-- **C55.** A progress bar setting or random seed in the stored sampler configuration never reaches
the sampler: `fit`'s own default wins. -/
theorem C55_stored_seed_ignored {V : Type} (h : DictHeap V) {stored : ℕ} (pb seed : V) (kw : Kw V)
    (hs : stored < h.next) (h1 : kw "random_seed" = none) (h2 : kw "progressbar" = none) :
    (fitSampler h stored pb seed kw).2 "random_seed" = some seed ∧
    (fitSampler h stored pb seed kw).2 "progressbar" = some pb := by
  rw [C55_arguments h pb seed kw hs, C55_arguments h pb seed kw hs]
  simp [wanted, h1, h2]

/-- A stored seed 7 and `draws`, `fit(...)` with the default seed `None` (0) and `draws=50`. -/
example :
    let h : DictHeap ℕ := ⟨fun _ k => if k = "random_seed" then some 7 else if k = "draws" then some 1000
      else if k = "chains" then some 3 else none, 1⟩
    let r := fitSampler h 0 1 0 (fun k => if k = "draws" then some 50 else none)
    r.2 "random_seed" = some 0 ∧ r.2 "draws" = some 50 ∧ r.2 "chains" = some 3 ∧
    r.1.dict 0 "random_seed" = some 7 := by decide

/-! ### C56, C108 -/

/-- The call is a prediction that does not ask to extend the inference data. -/
def Call.readOnly {G X : Type} : Call G X → Prop
  | .fit .. => False
  | .priorPredictive _ _ e => e = false
  | .posteriorPredictive _ _ e => e = false

/-- The call is a prediction. -/
def Call.predictive {G X : Type} : Call G X → Prop
  | .fit .. => False
  | _ => True

/-- The groups a prediction produced. -/
def Call.result {G X : Type} : Call G X → Groups G
  | .fit _ s _ _ _ => s
  | .priorPredictive _ r _ => r
  | .posteriorPredictive _ r _ => r

/-- The data the call was given. -/
def Call.input {G X : Type} : Call G X → X
  | .fit x _ _ _ _ => x
  | .priorPredictive x _ _ => x
  | .posteriorPredictive x _ _ => x

/-- **C56.** Any sequence of predictions with `extend_idata=False` leaves the stored inference data
unchanged (also when there is none). -/
theorem C56_read_only {G X : Type} : ∀ (cs : List (Call G X)) (o o' : Obj G X),
    (∀ c ∈ cs, c.readOnly) → runCalls cs o = some o' → o'.idata = o.idata
  | [], o, o', _, h => by injection h with h; rw [h]
  | c :: cs, o, o', hc, h => by
    rw [runCalls] at h
    cases hs : step o c with
    | none => rw [hs] at h; exact absurd h (by simp)
    | some o1 =>
      rw [hs] at h
      rw [C56_read_only cs o1 o' (fun d hd => hc d (by simp [hd])) h]
      have h1 := hc c (by simp)
      cases c with
      | fit => exact h1.elim
      | priorPredictive x r e =>
        cases h1
        injection hs with hs
        rw [← hs]
      | posteriorPredictive x r e =>
        cases h1
        rw [step] at hs
        split at hs
        · rename_i g _ hg
          split at hs
          · exact absurd hs (by simp)
          · injection hs with hs
            rw [← hs, hg]; rfl
        · exact absurd hs (by simp)

/-- One prediction. -/
theorem step_predictive {G X : Type} {o o' : Obj G X} {c : Call G X} {g : Groups G}
    (hc : c.predictive) (hg : o.idata = some g) (h : step o c = some o') :
    ∃ g', o'.idata = some g' ∧ ∀ k, g' k = g k ∨ ∃ v, c.result k = some v ∧ g' k = some v := by
  cases c with
  | fit => exact hc.elim
  | priorPredictive x r e =>
    cases e with
    | false =>
      injection h with h
      exact ⟨g, by rw [← h]; exact hg, fun k => .inl rfl⟩
    | true =>
      simp only [step, if_true, hg] at h
      injection h with h
      refine ⟨extendRight g r, by rw [← h], fun k => ?_⟩
      unfold extendRight
      cases hr : r k with
      | none => exact .inl rfl
      | some v => exact .inr ⟨v, hr, rfl⟩
  | posteriorPredictive x r e =>
    rw [step, hg] at h
    split at h
    · rename_i g1 _ hg1
      injection hg1 with hg1
      subst hg1
      split at h
      · exact absurd h (by simp)
      · injection h with h
        cases e with
        | false => exact ⟨g, by rw [← h]; rfl, fun k => .inl rfl⟩
        | true =>
          refine ⟨extendRight g r, by rw [← h]; rfl, fun k => ?_⟩
          unfold extendRight
          cases hr : r k with
          | none => exact .inl rfl
          | some v => exact .inr ⟨v, hr, rfl⟩
    · exact absurd h (by simp)

/-- **C56.** A prediction with `extend_idata=True` adds every group it produced and keeps every other
group. -/
theorem C56_extend {G X : Type} {o o' : Obj G X} {g : Groups G} {c : Call G X} {x : X} {r : Groups G}
    (hc : c = .priorPredictive x r true ∨ c = .posteriorPredictive x r true)
    (hg : o.idata = some g) (h : step o c = some o') :
    ∃ g', o'.idata = some g' ∧ (∀ k v, r k = some v → g' k = some v) ∧
      ∀ k, r k = none → g' k = g k := by
  have key : o'.idata = some (extendRight g r) := by
    rcases hc with rfl | rfl
    · simp only [step, if_true, hg] at h
      injection h with h
      rw [← h]
    · rw [step, hg] at h
      split at h
      · rename_i g1 _ hg1
        injection hg1 with hg1
        subst hg1
        split at h
        · exact absurd h (by simp)
        · injection h with h
          rw [← h]; rfl
      · exact absurd h (by simp)
  exact ⟨_, key, fun k v hk => by simp [extendRight, hk], fun k hk => by simp [extendRight, hk]⟩

/-- **C56.** After any sequence of predictions, a group that none of them produces (the posterior, the
training data in `fit_data`) is as it was. -/
theorem C56_groups_kept {G X : Type} (k : String) : ∀ (cs : List (Call G X)) (o o' : Obj G X)
    (g : Groups G), (∀ c ∈ cs, c.predictive) → (∀ c ∈ cs, c.result k = none) → o.idata = some g →
    runCalls cs o = some o' → ∃ g', o'.idata = some g' ∧ g' k = g k
  | [], o, o', g, _, _, hg, h => by
    injection h with h
    exact ⟨g, by rw [← h]; exact hg, rfl⟩
  | c :: cs, o, o', g, hc, hk, hg, h => by
    rw [runCalls] at h
    cases hs : step o c with
    | none => rw [hs] at h; exact absurd h (by simp)
    | some o1 =>
      rw [hs] at h
      obtain ⟨g1, hg1, hk1⟩ := step_predictive (hc c (by simp)) hg hs
      obtain ⟨g', hg', hk'⟩ := C56_groups_kept k cs o1 o' g1 (fun d hd => hc d (by simp [hd]))
        (fun d hd => hk d (by simp [hd])) hg1 h
      refine ⟨g', hg', ?_⟩
      rw [hk']
      rcases hk1 k with e | ⟨v, e, _⟩
      · exact e
      · rw [hk c (by simp)] at e; exact absurd e (by simp)

/-- **C56.** Whatever `extend_idata` is, after a successful call the model holds that call's data: a
prediction replaces the data the model was fitted on. -/
theorem C56_model_data_replaced {G X : Type} {o o' : Obj G X} {c : Call G X}
    (h : step o c = some o') : o'.data = some c.input := by
  cases c with
  | fit => injection h with h; rw [← h]; rfl
  | priorPredictive x r e =>
    rw [step] at h
    split at h
    · split at h <;> (injection h with h; rw [← h]; rfl)
    · injection h with h; rw [← h]; rfl
  | posteriorPredictive x r e =>
    rw [step] at h
    split at h
    · split at h
      · exact absurd h (by simp)
      · injection h with h; rw [← h]; rfl
    · exact absurd h (by simp)

/-- **C56.** Predicting before fitting is an error: no posterior has been stored, whatever prior
predictive calls were made before. -/
theorem C56_predict_before_fit {G X : Type} : ∀ (cs : List (Call G X)) (o : Obj G X)
    (x : X) (r : Groups G) (e : Bool), (∀ c ∈ cs, c.predictive) →
    (∀ c ∈ cs, c.result "posterior" = none) → (∀ g, o.idata = some g → g "posterior" = none) →
    runCalls (cs ++ [.posteriorPredictive x r e]) o = none
  | [], o, x, r, e, _, _, ho => by
    simp only [List.nil_append, runCalls, step]
    split
    · rename_i g _ hg
      rw [ho g hg]; rfl
    · rfl
  | c :: cs, o, x, r, e, hc, hr, ho => by
    rw [List.cons_append, runCalls]
    cases hs : step o c with
    | none => rfl
    | some o1 =>
      refine C56_predict_before_fit cs o1 x r e (fun d hd => hc d (by simp [hd]))
        (fun d hd => hr d (by simp [hd])) ?_
      intro g1 hg1
      cases hg : o.idata with
      | some g =>
        obtain ⟨g', hg', hk⟩ := step_predictive (hc c (by simp)) hg hs
        rw [hg1] at hg'
        injection hg' with hg'
        subst hg'
        rcases hk "posterior" with h | ⟨v, h, _⟩
        · rw [h]; exact ho g hg
        · rw [hr c (by simp)] at h; exact absurd h (by simp)
      | none =>
        have hc1 := hc c (by simp)
        have hr1 := hr c (by simp)
        cases c with
        | fit => exact hc1.elim
        | priorPredictive x1 r1 e1 =>
          cases e1 with
          | false =>
            injection hs with hs
            rw [← hs, hg] at hg1
            exact absurd hg1 (by simp)
          | true =>
            simp only [step, if_true, hg] at hs
            injection hs with hs
            rw [← hs] at hg1
            injection hg1 with hg1
            rw [← hg1]; exact hr1
        | posteriorPredictive x1 r1 e1 =>
          rw [step, hg] at hs
          split at hs
          · rename_i h2; exact absurd h2 (by simp)
          · exact absurd hs (by simp)

/-- **C108.** `predict` with its default `extend_idata=True` overwrites every stored group its sampler
also returns.  The sampler returns `observed_data` and `constant_data` of the model, which hold the
prediction inputs, so these groups no longer describe the data the model was fitted on. -/
theorem C108_predict_overwrites {G X : Type} {o o' : Obj G X} {g r : Groups G} {x : X} {k : String}
    {old new : G} (hg : o.idata = some g) (hk : g k = some old) (hr : r k = some new)
    (hne : old ≠ new) (h : step o (.posteriorPredictive x r true) = some o') :
    ∃ g', o'.idata = some g' ∧ g' k = some new ∧ g' k ≠ g k := by
  obtain ⟨g', h1, h2, _⟩ := C56_extend (x := x) (r := r) (.inr rfl) hg h
  refine ⟨g', h1, h2 k new hr, ?_⟩
  rw [h2 k new hr, hk]
  intro e
  injection e with e
  exact hne e.symm

/-- **C108.** After any history of successful calls ending with a prediction that extends the stored
data, each group this prediction produced holds that prediction's value: of several predictions only
the last survives. -/
theorem C108_last_prediction_wins {G X : Type} (cs : List (Call G X)) (o o' : Obj G X) (x : X)
    (r : Groups G) (h : runCalls (cs ++ [.posteriorPredictive x r true]) o = some o') :
    ∃ g', o'.idata = some g' ∧ ∀ k v, r k = some v → g' k = some v := by
  induction cs generalizing o with
  | nil =>
    simp only [List.nil_append, runCalls] at h
    cases hs : step o (.posteriorPredictive x r true) with
    | none => rw [hs] at h; exact absurd h (by simp)
    | some o1 =>
      rw [hs] at h
      injection h with h
      subst h
      cases hg : o.idata with
      | none =>
        rw [step, hg] at hs
        split at hs
        · rename_i h2; exact absurd h2 (by simp)
        · exact absurd hs (by simp)
      | some g =>
        obtain ⟨g', h1, h2, _⟩ := C56_extend (x := x) (r := r) (.inr rfl) hg hs
        exact ⟨g', h1, h2⟩
  | cons c cs ih =>
    rw [List.cons_append, runCalls] at h
    cases hs : step o c with
    | none => rw [hs] at h; exact absurd h (by simp)
    | some o1 => rw [hs] at h; exact ih o1 h

/-- Fit, then a prediction with `extend_idata=False`, then one with `True`. -/
def demo : Option (Obj ℕ ℕ) :=
  runCalls [
    .fit 10 (fun k => if k = "posterior" then some 1 else if k = "observed_data" then some 100 else none)
      (fun k => if k = "prior" then some 2 else none)
      (fun k => if k = "posterior_predictive" then some 3 else none) 4,
    .posteriorPredictive 11 (fun k => if k = "posterior_predictive" then some 5 else none) false,
    .posteriorPredictive 12 (fun k => if k = "posterior_predictive" then some 6
      else if k = "observed_data" then some 0 else none) true] ⟨none, none⟩

example : (demo.bind (·.idata)).map (fun g => (g "posterior", g "fit_data", g "posterior_predictive",
    g "observed_data", g "prior")) = some (some 1, some 4, some 6, some 0, some 2) := by decide
example : demo.bind (·.data) = some 12 := by decide

/-! ### C57 -/

/-- **C57.** The first call of a function decorated with coords `c` uses `c` overridden by the call's
coords. -/
theorem C57_first_call {V : Type} (c : Kw V) (call : Kw V) (calls : List (Kw V)) :
    ∃ first, (asModelCalls (call :: calls) (some c)).head? = some first ∧
      ∀ k, first k = match call k with
        | some v => some v
        | none => c k := by
  refine ⟨_, rfl, fun k => ?_⟩
  simp only [asModelCall, merge, Option.getD_some]
  cases call k <;> rfl

theorem asModelCalls_none {V : Type} (calls : List (Kw V)) : asModelCalls calls none = calls := by
  induction calls with
  | nil => rfl
  | cons c cs ih =>
    rw [asModelCalls]
    simp only [asModelCall, Option.getD_none]
    rw [ih]
    congr 1
    funext k
    simp [merge]

/-- **C57.** Every later call uses the call's coords alone. -/
theorem C57_later_calls {V : Type} (c : Option (Kw V)) (call : Kw V) (calls : List (Kw V)) :
    (asModelCalls (call :: calls) c).tail = calls := by
  rw [asModelCalls]
  exact asModelCalls_none calls

/-- Hence two identical calls without coords of a function decorated with coords give two different
models. -/
theorem C57_not_repeatable {V : Type} (c : Kw V) {k : String} {v : V} (hv : c k = some v) :
    ∃ m₁ m₂, asModelCalls [fun _ => none, fun _ => none] (some c) = [m₁, m₂] ∧ m₁ ≠ m₂ := by
  refine ⟨_, _, rfl, ?_⟩
  intro h
  have := congrFun h k
  simp [asModelCall, merge, hv] at this

example : ((asModelCalls [fun _ => none, fun k => if k = "b" then some 2 else none]
    (some (fun k => if k = "a" then some 1 else none))).map (fun m => (m "a", m "b")))
    = [(some 1, none), (none, some 2)] := by decide

end Builder
