import Verif.Simulate.Dist
import Mathlib.Data.List.Nodup
import Mathlib.Data.List.Perm.Basic

/-!
# Properties of the distribution plumbing and of `compile_statespace` (C155-C159)
-/

set_option autoImplicit false

namespace Verif.Simulate

/-! ### C155: matrices reach the step function under their own names -/

theorem strip_tag (n : Name) : strip (n ++ timeTag) = n := by
  unfold strip
  rw [if_pos]
  · simp [timeTag]
  · rw [List.isSuffixOf_iff_suffix]
    exact List.suffix_append _ _

theorem strip_canonical (n : Name) (h : n ∈ canonical) : strip n = n := by
  revert n h
  decide

theorem argNames_mats {α : Type} (f : Name → Name) (env : Name → α) (ns : List Name) (h : ∀ n ∈ ns, strip (f n) = n) :
    argNames (ns.map fun n => Arg.mat (f n) (env n)) = .ok (ns.map fun n => (n, env n)) := by
  induction ns with
  | nil => rfl
  | cons n ns ih =>
    simp only [List.map_cons, argNames, ih fun m hm => h m (by simp [hm]), Except.map, h n (by simp)]

theorem argNames_append {α : Type} (a b : List (Arg α)) (la lb : List (Name × α)) (ha : argNames a = .ok la)
    (hb : argNames b = .ok lb) : argNames (a ++ b) = .ok (la ++ lb) := by
  induction a generalizing la with
  | nil => simp only [argNames, Except.ok.injEq] at ha; subst ha; simpa using hb
  | cons x a ih =>
    cases x with
    | mat n v =>
      simp only [argNames] at ha
      cases h : argNames a with
      | error e => rw [h] at ha; simp [Except.map] at ha
      | ok l =>
        rw [h] at ha
        simp only [Except.map, Except.ok.injEq] at ha
        subst ha
        simp [argNames, ih l h, Except.map]
    | state => simp [argNames] at ha
    | rng => simp [argNames] at ha

theorem argNames_bad {α : Type} (a : List (Arg α)) (h : Arg.state ∈ a) : argNames a = .error .attributeError := by
  induction a with
  | nil => simp at h
  | cons x a ih =>
    cases x with
    | mat n v =>
      simp only [List.mem_cons, reduceCtorEq, false_or] at h
      simp [argNames, ih h, Except.map]
    | state => rfl
    | rng => rfl

theorem find_env {α : Type} (env : Name → α) (ns : List Name) (n : Name) (h : n ∈ ns) :
    (ns.map fun n => (n, env n)).find? (fun x => x.1 == n) = some (n, env n) := by
  induction ns with
  | nil => simp at h
  | cons m ns ih =>
    by_cases hm : m = n
    · subst hm; simp
    · rw [List.map_cons, List.find?_cons_of_neg (by simpa using hm)]
      exact ih (by simpa [Ne.symm hm] using h)

theorem pick_env {α : Type} (env : Name → α) (ns want : List Name) (h : ∀ n ∈ want, n ∈ ns) :
    pick (ns.map fun n => (n, env n)) want = .ok (want.map env) := by
  induction want with
  | nil => rfl
  | cons n want ih =>
    rw [pick, find_env env ns n (h n (by simp))]
    simp [ih fun m hm => h m (by simp [hm]), Except.map]

theorem seq_length (seqNames : List Name) (hn : seqNames.Nodup) (hs : ∀ n ∈ seqNames, n ∈ canonical) :
    (canonical.filter fun n => decide (n ∈ seqNames)).length = seqNames.length := by
  apply List.Perm.length_eq
  rw [List.perm_ext_iff_of_nodup ((by decide : canonical.Nodup).filter _) hn]
  intro n
  simp only [List.mem_filter, decide_eq_true_eq]
  exact ⟨fun h => h.2, fun h => ⟨hs n h, h⟩⟩

/-- **C155** For every choice of time-varying matrices among the seven, listed in any order, each step receives the seven
matrices in canonical order together with the state and the random generator. -/
theorem C155_matrices {α : Type} (seqNames : List Name) (hn : seqNames.Nodup) (hs : ∀ n ∈ seqNames, n ∈ canonical)
    (env : Name → α) :
    lgssStep seqNames env =
      .ok ([env ['c'], env ['d'], env ['T'], env ['Z'], env ['R'], env ['H'], env ['Q']], some .state, some .rng) := by
  have hlen : seqNames.length = (sequences seqNames env).length := by
    rw [sequences, List.length_map, seq_length seqNames hn hs]
  unfold lgssStep stepDecode stepArgs
  rw [hlen]
  have h1 : (sequences seqNames env ++ [Arg.state] ++ nonSequences seqNames env ++ [Arg.rng]).take
      (sequences seqNames env).length = sequences seqNames env := by simp
  have h2 : (sequences seqNames env ++ [Arg.state] ++ nonSequences seqNames env ++ [Arg.rng])[(sequences seqNames env).length]? =
      some Arg.state := by
    simp
  have h3 : (sequences seqNames env ++ [Arg.state] ++ nonSequences seqNames env ++ [Arg.rng]).drop
      ((sequences seqNames env).length + 1) = nonSequences seqNames env ++ [Arg.rng] := by
    rw [List.append_assoc, List.drop_left' (by simp)]
  simp only [h1, h2, h3, List.dropLast_concat, List.getLast?_append, List.getLast?_singleton, Option.some_or]
  have hs1 := argNames_mats (fun n => n ++ timeTag) env (canonical.filter fun n => decide (n ∈ seqNames))
    fun n _ => strip_tag n
  have hs2 := argNames_mats (fun n => n) env (canonical.filter fun n => decide (n ∉ seqNames))
    fun n h => strip_canonical n (List.mem_filter.mp h).1
  unfold sortArgs
  rw [sequences, nonSequences, argNames_append _ _ _ _ hs1 hs2]
  simp only
  rw [← List.map_append, pick_env]
  · rfl
  · intro n hn
    simp only [List.mem_append, List.mem_filter, decide_eq_true_eq]
    by_cases h : n ∈ seqNames
    · exact Or.inl ⟨hn, h⟩
    · exact Or.inr ⟨hn, h⟩

/-- Time-varying transition and observation intercept, in non-canonical order. -/
example : ([['T'], ['d']] : List Name).Nodup ∧ ∀ n ∈ ([['T'], ['d']] : List Name), n ∈ canonical := by decide

/-- **C155** A list with a repeated name, or with a name that is not one of the seven (such as the initial state's, which the
signature accepts), makes the step function take the state for a matrix, and fail. -/
theorem C155_bad_names {α : Type} (seqNames : List Name) (env : Name → α) (h : ¬ seqNames.Nodup ∨ ∃ n ∈ seqNames, n ∉ canonical) :
    lgssStep seqNames env = .error .attributeError := by
  have hlt : (canonical.filter fun n => decide (n ∈ seqNames)).length < seqNames.length := by
    have hsub : (canonical.filter fun n => decide (n ∈ seqNames)) ⊆ seqNames := by
      intro n hn
      simpa using (List.mem_filter.mp hn).2
    have hnd : (canonical.filter fun n => decide (n ∈ seqNames)).Nodup := (by decide : canonical.Nodup).filter _
    have hsp := List.subperm_of_subset hnd hsub
    rcases Nat.lt_or_ge (canonical.filter fun n => decide (n ∈ seqNames)).length seqNames.length with h' | h'
    · exact h'
    · exfalso
      have hp := hsp.perm_of_length_le h'
      rcases h with h | ⟨n, hn, hc⟩
      · exact h (hp.nodup_iff.mp hnd)
      · exact hc (List.mem_filter.mp (hp.mem_iff.mpr hn)).1
  unfold lgssStep stepDecode
  have hmem : Arg.state ∈ (stepArgs seqNames env).take seqNames.length := by
    have hlen : (sequences seqNames env).length < seqNames.length := by rw [sequences, List.length_map]; exact hlt
    obtain ⟨d, hd⟩ : ∃ d, seqNames.length = (sequences seqNames env).length + (d + 1) := ⟨seqNames.length - (sequences seqNames env).length - 1, by omega⟩
    unfold stepArgs
    rw [hd, List.append_assoc, List.append_assoc, List.take_length_add_append]
    simp
  simp only [sortArgs]
  rw [argNames_bad _ (List.mem_append_left _ hmem)]
  rfl

/-- The initial state, and a repetition. -/
example (α : Type) (env : Name → α) : lgssStep [['x', '0']] env = .error .attributeError ∧
    lgssStep [['T'], ['T']] env = .error .attributeError :=
  ⟨C155_bad_names _ _ (Or.inr ⟨['x', '0'], by simp, by decide⟩), C155_bad_names _ _ (Or.inl (by decide))⟩

/-! ### C156: the signature -/

theorem addTimes_spec (ns : List Name) : ∀ m : List (Name × List Sym), ns.Nodup → (∀ n ∈ ns, n ∈ m.map Prod.fst) →
    addTimes ns m = .ok (m.map fun x => if x.1 ∈ ns then (x.1, .t :: x.2) else x) := by
  induction ns with
  | nil => intro m _ _; simp [addTimes]
  | cons n ns ih =>
    intro m hn hm
    rw [List.nodup_cons] at hn
    have hfst : (m.map fun x => if x.1 = n then (x.1, Sym.t :: x.2) else x).map Prod.fst = m.map Prod.fst := by
      rw [List.map_map]
      apply List.map_congr_left
      intro x _
      simp only [Function.comp_apply]
      split <;> rfl
    simp only [addTimes, addTime, hm n (by simp), ↓reduceIte]
    rw [ih _ hn.2 (by rw [hfst]; exact fun k hk => hm k (by simp [hk])), List.map_map]
    congr 1
    apply List.map_congr_left
    intro x _
    simp only [Function.comp_apply, List.mem_cons]
    by_cases hx : x.1 = n
    · have : n ∉ ns := hn.1
      simp [hx, this]
    · simp [hx]

/-- **C156** Exactly the matrices declared as sequences get a leading time axis in the operator's signature. -/
theorem C156_signature (seqNames : List Name) (hn : seqNames.Nodup) (hs : ∀ n ∈ seqNames, n ∈ canonical) :
    signature seqNames = .ok ([[.s], [.s, .s]] ++
      [([Sym.s], ['c']), ([Sym.p], ['d']), ([Sym.s, Sym.s], ['T']), ([Sym.p, Sym.s], ['Z']), ([Sym.s, Sym.r], ['R']),
        ([Sym.p, Sym.p], ['H']), ([Sym.r, Sym.r], ['Q'])].map fun x : List Sym × Name =>
          if x.2 ∈ seqNames then Sym.t :: x.1 else x.1) := by
  unfold signature
  rw [addTimes_spec seqNames baseShapes hn (fun n h => by
    have := hs n h
    clear h
    revert n this
    decide)]
  have h0 : (['x', '0'] : Name) ∉ seqNames := fun h => absurd (hs _ h) (by decide)
  have h1 : (['P', '0'] : Name) ∉ seqNames := fun h => absurd (hs _ h) (by decide)
  simp only [Except.map, baseShapes, List.map_cons, List.map_nil, h0, h1, ↓reduceIte, List.cons_append, List.nil_append]
  congr 1
  by_cases a1 : (['c'] : Name) ∈ seqNames <;> by_cases a2 : (['d'] : Name) ∈ seqNames <;>
  by_cases a3 : (['T'] : Name) ∈ seqNames <;> by_cases a4 : (['Z'] : Name) ∈ seqNames <;>
  by_cases a5 : (['R'] : Name) ∈ seqNames <;> by_cases a6 : (['H'] : Name) ∈ seqNames <;>
  by_cases a7 : (['Q'] : Name) ∈ seqNames <;> simp [a1, a2, a3, a4, a5, a6, a7]

/-- **C156** A name that is not a matrix is refused. -/
theorem C156_unknown (seqNames : List Name) (n : Name) (hn : n ∈ seqNames) (hb : n ∉ baseShapes.map Prod.fst) :
    signature seqNames = .error .keyError := by
  have key : ∀ (ns : List Name) (m : List (Name × List Sym)), n ∈ ns → n ∉ m.map Prod.fst →
      addTimes ns m = .error .keyError := by
    intro ns
    induction ns with
    | nil => intro m h; simp at h
    | cons k ns ih =>
      intro m h hm
      rw [addTimes, addTime]
      by_cases hk : k ∈ m.map Prod.fst
      · rw [if_pos hk]
        have hne : n ≠ k := fun e => hm (e ▸ hk)
        simp only
        apply ih
        · simpa [hne] using h
        · rw [List.map_map]
          intro hmem
          apply hm
          obtain ⟨x, hx, hxn⟩ := List.mem_map.mp hmem
          refine List.mem_map.mpr ⟨x, hx, ?_⟩
          simp only [Function.comp_apply] at hxn
          split at hxn <;> exact hxn
      · rw [if_neg hk]
  unfold signature
  rw [key _ _ hn hb]
  rfl

/-! ### C157: separating states from observations -/

/-- **C157** With a constant transition matrix (and any observation covariance when `k_endog` is given), both ways of creating
the distribution separate a row into its states and its observations. -/
theorem C157_split {α : Type} (k p : ℕ) (hp : 0 < p) (states obs : List α) (hk : states.length = k) (ho : obs.length = p)
    (shapeH : List (Option ℕ)) :
    distSplit [some k, some k] (states ++ obs) = (states, obs) ∧
    newSplit (some p) shapeH (states ++ obs) = .ok (states, obs) ∧
    newSplit none [some p, some p] (states ++ obs) = .ok (states, obs) := by
  subst hk ho
  have h : ¬ obs.length = 0 := by omega
  have e : (if obs.length = 0 then ([], states ++ obs)
      else ((states ++ obs).take ((states ++ obs).length - obs.length), (states ++ obs).drop ((states ++ obs).length - obs.length)))
      = (states, obs) := by
    rw [if_neg h]
    simp
  refine ⟨by simp [distSplit, sliceTo, sliceFrom], ?_, ?_⟩
  · simp only [newSplit]; rw [e]
  · simp only [newSplit, List.headD_cons]; rw [e]

/-- **C157** With a time-varying transition matrix the cut is made at the number of time steps: the observations lose their
first entries or the states overlap them; with a transition matrix of unknown length both outputs are the whole row. -/
theorem C157_time_varying {α : Type} (n k p : ℕ) (states obs : List α) (hk : states.length = k) (ho : obs.length = p) :
    (distSplit [some n, some k, some k] (states ++ obs) = (states, obs) ↔ n = k ∨ (k ≤ n ∧ p = 0)) ∧
    distSplit [none, none] (states ++ obs) = (states ++ obs, states ++ obs) ∧
    (newSplit none [none, some p, some p] (states ++ obs) = .error .valueError) := by
  subst hk ho
  refine ⟨?_, rfl, rfl⟩
  simp only [distSplit, sliceTo, sliceFrom, List.headD_cons, Prod.mk.injEq]
  constructor
  · rintro ⟨h1, h2⟩
    have a := congrArg List.length h1
    have b := congrArg List.length h2
    simp only [List.length_take, List.length_drop, List.length_append] at a b
    omega
  · rintro (rfl | ⟨h1, h2⟩)
    · simp
    · have : obs = [] := List.eq_nil_of_length_eq_zero h2
      subst this
      simp [h1, List.take_of_length_le h1]

/-- **C157** A time-varying observation covariance without `k_endog`: the number of time steps is taken for the number of
observed series. -/
theorem C157_time_varying_H {α : Type} (n p : ℕ) (states obs : List α) (ho : obs.length = p) (hn : 0 < n) :
    newSplit none [some n, some p, some p] (states ++ obs) = .ok (states, obs) ↔ n = p ∨ (states = [] ∧ p ≤ n) := by
  subst ho
  simp only [newSplit, List.headD_cons, Except.ok.injEq]
  rw [if_neg (by omega)]
  simp only [Prod.mk.injEq]
  constructor
  · rintro ⟨h1, h2⟩
    have a := congrArg List.length h1
    have b := congrArg List.length h2
    simp only [List.length_take, List.length_drop, List.length_append] at a b
    rcases Nat.eq_zero_or_pos states.length with h | h
    · refine Or.inr ⟨List.eq_nil_of_length_eq_zero h, ?_⟩
      omega
    · exact Or.inl (by omega)
  · rintro (rfl | ⟨rfl, h⟩)
    · simp
    · simp [h]

/-! ### C158: the filter distribution -/

/-- **C158** The log-probability attached to the data is the one computed by the filter, whatever value it is asked for; the only
check is on the number of time steps. -/
theorem C158_value_ignored {α : Type} (n p : ℕ) (valueShape : List ℕ) (logp : α) :
    (sequenceMvNormal valueShape [n, p] [n, p, p] logp).2 = (if valueShape.headD 0 = n then some logp else none) ∧
    (sequenceMvNormal valueShape [n, p] [n, p, p] logp).1 = [n, p] := by
  simp [sequenceMvNormal, sequenceLogp, musToScan, covsToScan, scanToOut]

/-- **C158** A different number of means and covariances is refused, whatever the value. -/
theorem C158_covs_checked {α : Type} (n m p : ℕ) (hne : m ≠ n) (valueShape : List ℕ) (logp : α) :
    (sequenceMvNormal valueShape [n, p] [m, p, p] logp).2 = none := by
  simp [sequenceMvNormal, sequenceLogp, musToScan, covsToScan, hne]

theorem musToScan_batch (b : List ℕ) (n p : ℕ) (hb : b ≠ []) : musToScan (b ++ [n, p]) = n :: (b ++ [p]) := by
  have hl : 0 < b.length := List.length_pos_iff.mpr hb
  unfold musToScan
  rw [if_pos (by simp; omega)]
  have h2 : (b ++ [n, p]).length - 2 = b.length := by simp
  rw [h2]
  congr 1
  · simp
  · rw [List.eraseIdx_append_of_length_le (Nat.le_refl _)]
    simp

theorem covsToScan_batch (b : List ℕ) (n p q : ℕ) (hb : b ≠ []) : covsToScan (b ++ [n, p, q]) = n :: (b ++ [p, q]) := by
  have hl : 0 < b.length := List.length_pos_iff.mpr hb
  unfold covsToScan
  rw [if_pos (by simp; omega)]
  have h2 : (b ++ [n, p, q]).length - 3 = b.length := by simp
  rw [h2]
  congr 1
  · simp
  · rw [List.eraseIdx_append_of_length_le (Nat.le_refl _)]
    simp

/-- **C158** With batch axes on the left the variable has the shape of its means, but the check compares the value's first
batch axis with the number of time steps. -/
theorem C158_batched {α : Type} (b : List ℕ) (n p : ℕ) (hb : b ≠ []) (logp : α) :
    sequenceMvNormal (b ++ [n, p]) (b ++ [n, p]) (b ++ [n, p, p]) logp =
      (b ++ [n, p], if b.headD 0 = n then some logp else none) := by
  have hl : 0 < b.length := List.length_pos_iff.mpr hb
  unfold sequenceMvNormal
  rw [musToScan_batch b n p hb, covsToScan_batch b n p p hb]
  congr 1
  · unfold scanToOut
    rw [if_pos (by simp; omega)]
    simp only [List.tail_cons, List.headD_cons, List.length_cons, List.length_append, List.length_nil]
    rw [show b.length + (0 + 1) + 1 - 2 = b.length by omega]
    clear hl hb
    induction b with
    | nil => rfl
    | cons x b ih => simp only [List.cons_append, List.length_cons, List.insertIdx_succ_cons]; rw [ih]
  · unfold sequenceLogp
    obtain ⟨x, l, rfl⟩ := List.exists_cons_of_ne_nil hb
    simp

/-- Ten chains of a hundred observations fail the check; a hundred chains of a hundred pass. -/
example : (sequenceMvNormal [10, 100, 2] [10, 100, 2] [10, 100, 2, 2] ()).2 = none ∧
    (sequenceMvNormal [100, 100, 2] [100, 100, 2] [100, 100, 2, 2] ()).2 = some () := by
  have h1 := C158_batched [10] 100 2 (by simp) ()
  have h2 := C158_batched [100] 100 2 (by simp) ()
  simp at h1 h2
  exact ⟨by rw [h1], by rw [h2]⟩

/-! ### C159: `compile_statespace` -/

/-- **C159** Called with exactly the model's inputs, a compiled simulator returns for each output the axes draws, `steps + 1` and
width — with the axes of length one removed. -/
theorem C159_shape (s : ℕ) (inputs : List String) (k p draws : ℕ) (params : List String)
    (h : ∀ x, x ∈ inputs ↔ x ∈ params) :
    compiled (some s) inputs [some k, some p] draws params none =
      .ok [[draws, s + 1, k].filter (· ≠ 1), [draws, s + 1, p].filter (· ≠ 1)] ∧
    compiled none inputs [some k, some p] draws params (some s) =
      .ok [[draws, s + 1, k].filter (· ≠ 1), [draws, s + 1, p].filter (· ≠ 1)] := by
  have hf : ∀ l : List ℕ, squeezeShape l = l.filter (· ≠ 1) := by
    intro l
    unfold squeezeShape
    congr 1
    funext x
    by_cases hx : x = 1 <;> simp [hx]
  have h1 : callOk inputs params = true := by
    simp only [callOk, Bool.and_eq_true, List.all_eq_true, decide_eq_true_eq]
    exact ⟨fun x hx => (h x).mp hx, fun x hx => (h x).mpr hx⟩
  have h2 : callOk ("steps" :: inputs) ("steps" :: params) = true := by
    simp only [callOk, Bool.and_eq_true, List.all_eq_true, decide_eq_true_eq, List.mem_cons]
    exact ⟨fun x hx => hx.imp id (h x).mp, fun x hx => hx.imp id (h x).mpr⟩
  constructor
  · simp [compiled, h1, hf]
  · simp [compiled, h2, hf]

/-- **C159** One draw of a model with one state and one series gives two one-dimensional arrays. -/
theorem C159_single (s : ℕ) (hs : 0 < s) (inputs : List String) :
    compiled (some s) inputs [some 1, some 1] 1 inputs none = .ok [[s + 1], [s + 1]] := by
  have hne : s ≠ 0 := by omega
  rw [(C159_shape s inputs 1 1 1 inputs fun _ => Iff.rfl).1]
  simp [hne]

/-- **C159** The default of 100 steps can never take effect: without a fixed number of steps a call that leaves `steps` out
raises, and with a fixed number a call that passes `steps` raises. -/
theorem C159_steps (s t : ℕ) (inputs params : List String) (widths : List (Option ℕ)) (draws : ℕ) (hd : 0 < draws)
    (hi : "steps" ∉ inputs) (hp : "steps" ∉ params) :
    compiled none inputs widths draws params none = .error .typeError ∧
    compiled (some s) inputs widths draws params (some t) = .error .typeError := by
  have h1 : callOk ("steps" :: inputs) params = false := by simp [callOk, hp]
  have h2 : callOk inputs ("steps" :: params) = false := by simp [callOk, hi]
  constructor
  · unfold compiled
    simp only [hd, h1, and_self, ↓reduceIte, ite_self]
  · unfold compiled
    simp only [hd, h2, and_self, ↓reduceIte, ite_self]

/-- **C159** The only call that reaches the default is one that asks for no draw; it returns 101 empty rows. -/
theorem C159_no_draws (inputs params : List String) (k p : ℕ) :
    compiled none inputs [some k, some p] 0 params none = .ok [[0, 101, k].filter (· ≠ 1), [0, 101, p].filter (· ≠ 1)] := by
  have hf : ∀ l : List ℕ, squeezeShape l = l.filter (· ≠ 1) := by
    intro l
    unfold squeezeShape
    congr 1
    funext x
    by_cases h : x = 1 <;> simp [h]
  simp [compiled, hf]

/-- A model with two parameters. -/
example : "steps" ∉ ["sigma", "rho"] ∧ compiled none ["sigma", "rho"] [some 2, some 1] 5 ["rho", "sigma"] (some 10) =
    .ok [[5, 11, 2], [5, 11]] := by
  refine ⟨by decide, ?_⟩
  rw [(C159_shape 10 ["sigma", "rho"] 2 1 5 ["rho", "sigma"] (by intro x; simp [or_comm])).2]
  decide

end Verif.Simulate
