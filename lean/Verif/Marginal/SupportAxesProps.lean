import Verif.Marginal.SupportAxes

/-! # C165: the support axes a marginalised variable reports to a later marginalisation -/

set_option autoImplicit false

namespace Marginal

open scoped BigOperators ENNReal

namespace Spec165

/-- `dims` connects every axis of a variable with `n` axes to exactly one axis of the dependent variable. -/
def Complete (n : ℕ) (dims : Dims) : Prop := (dims.filterMap id).Perm (List.range n)

/-- Axis `-i` of the dependent variable belongs to the support of the marginalised variable, or to no axis of it. -/
def IsSupport (n nSupp : ℕ) (dims : Dims) (i : ℕ) : Prop :=
  1 ≤ i ∧ i ≤ dims.length ∧ ∀ k, dims[dims.length - i]? = some (some k) → n - nSupp ≤ k

end Spec165

theorem mem_supportAxes (nSupp : ℕ) (dims : Dims) (i : ℕ) :
    i ∈ supportAxes nSupp dims ↔ 1 ≤ i ∧ i ≤ dims.length ∧
      ∀ k, dims[dims.length - i]? = some (some k) → (k : ℤ) > dims.length - nSupp := by
  unfold supportAxes
  rw [List.mem_filter]
  have hm : i ∈ (List.range dims.length).map (· + 1) ↔ 1 ≤ i ∧ i ≤ dims.length := by
    simp only [List.mem_map, List.mem_range]
    constructor
    · rintro ⟨a, ha, rfl⟩; omega
    · rintro ⟨h1, h2⟩; exact ⟨i - 1, by omega, by omega⟩
  rw [hm, and_assoc]
  refine and_congr_right fun h1 => and_congr_right fun h2 => ?_
  have e : dims.reverse.getD (i - 1) none = dims.getD (dims.length - i) none := by
    rw [List.getD_eq_getElem?_getD, List.getD_eq_getElem?_getD, List.getElem?_reverse (by omega)]
    congr 2; omega
  rw [e, List.getD_eq_getElem?_getD]
  have hlt : dims.length - i < dims.length := by omega
  rw [List.getElem?_eq_getElem hlt]
  cases hd : dims[dims.length - i] with
  | none => simp [hd]
  | some k => simp [hd]

theorem Spec165.Complete.lt {n : ℕ} {dims : Dims} (h : Spec165.Complete n dims) {j k : ℕ}
    (hk : dims[j]? = some (some k)) : k < n ∧ n ≤ dims.length := by
  have hm : k ∈ dims.filterMap id := mem_known.2 ⟨j, hk⟩
  refine ⟨List.mem_range.1 ((List.Perm.mem_iff h).1 hm), ?_⟩
  have := List.Perm.length_eq h
  rw [List.length_range] at this
  rw [← this]
  exact List.length_filterMap_le _ _

/-- **C165** For a finite discrete variable (no support axes) the axes reported are exactly the axes of the dependent variable
that belong to no axis of the marginalised one. -/
theorem C165_finite_discrete (n : ℕ) (dims : Dims) (h : Spec165.Complete n dims) (i : ℕ) :
    i ∈ supportAxes 0 dims ↔ Spec165.IsSupport n 0 dims i := by
  rw [mem_supportAxes]
  refine and_congr_right fun h1 => and_congr_right fun h2 => ?_
  constructor
  · intro hh k hk
    have := hh k hk
    have := h.lt hk
    omega
  · intro hh k hk
    have := hh k hk
    have := h.lt hk
    omega

/-- **C165** For a Markov chain (one support axis, time) no axis that belongs to the chain is ever reported; the time axis is
the one that should be. -/
theorem C165_time_axis_missed (n : ℕ) (hn : 0 < n) (dims : Dims) (h : Spec165.Complete n dims) :
    (∀ i k, i ∈ supportAxes 1 dims → dims[dims.length - i]? ≠ some (some k)) ∧
    ∃ i, Spec165.IsSupport n 1 dims i ∧ i ∉ supportAxes 1 dims := by
  have h1 : ∀ i k, i ∈ supportAxes 1 dims → dims[dims.length - i]? ≠ some (some k) := by
    intro i k hi hk
    obtain ⟨-, -, h3⟩ := (mem_supportAxes 1 dims i).1 hi
    have := h3 k hk
    have := h.lt hk
    omega
  refine ⟨h1, ?_⟩
  have hm : n - 1 ∈ dims.filterMap id := (List.Perm.mem_iff h).2 (List.mem_range.2 (by omega))
  obtain ⟨j, hj⟩ := mem_known.1 hm
  have hjl : j < dims.length := by
    by_contra hc
    rw [List.getElem?_eq_none (by omega)] at hj
    cases hj
  have e : dims.length - (dims.length - j) = j := by omega
  refine ⟨dims.length - j, ⟨by omega, by omega, ?_⟩, fun hi => h1 _ (n - 1) hi (by rw [e]; exact hj)⟩
  intro k hk
  rw [e, hj] at hk
  cases hk
  exact le_rfl

/-- **C165** Hence a later marginalisation of a vector that enters the observations time by time passes the check for core
dimensions, whatever the number of batch axes of the chain. -/
theorem C165_accepted (n : ℕ) (dims inner : Dims) (h : Spec165.Complete n dims)
    (hn : ∀ j : ℕ, dims[j]? = some none → inner[j]? = some none) (hl : inner.length = dims.length) :
    marginalOutDims (supportAxes 1 dims) inner = .ok inner := by
  unfold marginalOutDims
  rw [if_neg]
  rw [List.any_eq_true]
  rintro ⟨i, hi, hs⟩
  obtain ⟨h1, h2, h3⟩ := (mem_supportAxes 1 dims i).1 hi
  have hlt : dims.length - i < dims.length := by omega
  have hnone : dims[dims.length - i]? = some none := by
    rw [List.getElem?_eq_getElem hlt]
    cases hd : dims[dims.length - i] with
    | none => rfl
    | some k =>
      have := h3 k (by rw [List.getElem?_eq_getElem hlt, hd])
      have := h.lt (j := dims.length - i) (k := k) (by rw [List.getElem?_eq_getElem hlt, hd])
      omega
  have h4 := hn _ hnone
  have e : inner.reverse.getD (i - 1) none = none := by
    rw [List.getD_eq_getElem?_getD, List.getElem?_reverse (by omega)]
    have : inner.length - 1 - (i - 1) = dims.length - i := by omega
    rw [this, h4]
    rfl
  rw [e] at hs
  simp at hs

/-- A chain with one batch axis, observed in a third axis: the time axis is not reported. -/
example : Spec165.Complete 2 [none, some 0, some 1] ∧ supportAxes 1 [none, some 0, some 1] = [3] ∧
    supportAxes 0 [none, some 0, some 1] = [3] := by
  unfold Spec165.Complete; decide

/-- The vector enters along the time axis of an unbatched chain: accepted, with dims `(0,)`. -/
example : marginalOutDims (supportAxes 1 [some 0]) [some 0] = .ok [some 0] := by decide

/-- **C165** The log-probability then combines constant vectors only: each domain value is put at all times at once. -/
theorem C165_constant_vectors_only {K : ℕ} (init : Fin K → EReal) (logP : Fin K → Fin K → EReal) (T : ℕ)
    (em : ℕ → Fin K → ℤ → EReal) (dom : List ℤ) (m : List ℕ → ℤ → EReal) :
    ∃ t, finiteDiscreteLogp dom m [chainDep init logP T em] = some t ∧ ∀ i, t [i] =
      logsumexp (dom.map fun k => m [i] k + (hmmLogp init logP T fun s j => em s j k).getD ⊥) := by
  have hr : ∀ k : ℤ, reduceAll [chainDep init logP T em] (fun _ => k) =
      some (fun _ => (hmmLogp init logP T fun s j => em s j k).getD ⊥ + 0) := by
    intro k
    simp [reduceAll, reduceDep, chainDep]
  have hm : dom.mapM (fun k => reduceAll [chainDep init logP T em] (fun _ => k)) =
      some (dom.map fun k => fun _ => (hmmLogp init logP T fun s j => em s j k).getD ⊥ + 0) := by
    simp only [hr]
    induction dom with
    | nil => rfl
    | cons a l ih => rw [List.mapM_cons, ih]; rfl
  refine ⟨alignLogp [some 0] (fun idx => logsumexp (List.zipWith (fun k (r : List ℕ → EReal) => m idx k + r idx) dom
    (dom.map fun k => fun _ => (hmmLogp init logP T fun s j => em s j k).getD ⊥ + 0))), ?_, ?_⟩
  · simp only [finiteDiscreteLogp, marginalEntries, hm]
    rfl
  · intro i
    have e : (alignLogp [some 0] (fun idx => logsumexp (List.zipWith (fun k (r : List ℕ → EReal) => m idx k + r idx) dom
        (dom.map fun k => fun _ => (hmmLogp init logP T fun s j => em s j k).getD ⊥ + 0)))) [i] =
        logsumexp (List.zipWith (fun k (r : List ℕ → EReal) => m [i] k + r [i]) dom
        (dom.map fun k => fun _ => (hmmLogp init logP T fun s j => em s j k).getD ⊥ + 0)) := rfl
    rw [e]
    congr 1
    rw [List.zipWith_map_right]
    clear e hm
    induction dom with
    | nil => rfl
    | cons a l ih => simp [List.zipWith_cons_cons, ih]

theorem logsumexp_eq_bot {l : List EReal} : logsumexp l = ⊥ ↔ ∀ a ∈ l, a = ⊥ := by
  unfold logsumexp
  rw [ENNReal.log_eq_bot_iff, List.sum_eq_zero_iff]
  simp [EReal.exp_eq_zero_iff]

theorem scanAlpha_ne_bot {K : ℕ} {logP : Fin K → Fin K → EReal} (hP : ∀ i j, logP i j ≠ ⊥) :
    ∀ (es : List (Fin K → EReal)) (a : Fin K → EReal), (∀ k, a k ≠ ⊥) → (∀ e ∈ es, ∀ k, e k ≠ ⊥) →
      ∀ k, scanAlpha logP a es k ≠ ⊥ := by
  intro es
  induction es with
  | nil => intro a ha _ k; exact ha k
  | cons e es ih =>
    intro a ha he
    refine ih _ (fun k => ?_) (fun e' he' => he e' (by simp [he']))
    unfold stepAlpha
    rw [Ne, EReal.add_eq_bot_iff, not_or]
    refine ⟨he e (by simp) k, ?_⟩
    rw [logsumexp_eq_bot]
    intro hall
    have := hall (a k + logP k k) (List.mem_map.2 ⟨k, by simp, rfl⟩)
    rw [EReal.add_eq_bot_iff] at this
    exact this.elim (ha k) (hP k k)

theorem hmmLogp_ne_bot {K : ℕ} (k0 : Fin K) {init : Fin K → EReal} {logP : Fin K → Fin K → EReal} {T : ℕ} (hT : 2 ≤ T)
    {em : ℕ → Fin K → EReal} (hi : ∀ k, init k ≠ ⊥) (hP : ∀ i j, logP i j ≠ ⊥) (he : ∀ t k, t < T → em t k ≠ ⊥) :
    (hmmLogp init logP T em).getD ⊥ ≠ ⊥ := by
  unfold hmmLogp
  rw [if_neg (by omega), Option.getD_some, Ne, logsumexp_eq_bot]
  intro hall
  have := hall _ (List.mem_map.2 ⟨k0, by simp, rfl⟩)
  refine scanAlpha_ne_bot hP _ _ ?_ ?_ k0 this
  · intro k
    rw [Ne, EReal.add_eq_bot_iff, not_or]
    exact ⟨hi k, he 0 k (by omega)⟩
  · intro e h k
    obtain ⟨t, ht, rfl⟩ := List.mem_map.1 h
    rw [List.mem_range] at ht
    exact he _ k (by omega)

/-- Fair transitions between two states. -/
noncomputable def fair : Fin 2 → EReal := fun _ => ENNReal.log 2⁻¹

/-- Observations that are possible exactly when `x` is zero at time zero and one at every later time. -/
noncomputable def onlyStep : ℕ → Fin 2 → ℤ → EReal := fun t _ v => if v = (if t = 0 then 0 else 1) then 0 else ⊥


theorem scanAlpha_bot {K : ℕ} {logP : Fin K → Fin K → EReal} :
    ∀ (es : List (Fin K → EReal)) (a : Fin K → EReal), ((∀ k, a k = ⊥) ∨ ∃ e ∈ es, ∀ k, e k = ⊥) →
      ∀ k, scanAlpha logP a es k = ⊥ := by
  intro es
  induction es with
  | nil =>
    rintro a (h | ⟨e, he, -⟩)
    · exact h
    · simp at he
  | cons e es ih =>
    intro a h
    apply ih
    by_cases hes : ∃ e' ∈ es, ∀ k, e' k = ⊥
    · exact Or.inr hes
    · refine Or.inl fun k => ?_
      unfold stepAlpha
      rw [EReal.add_eq_bot_iff]
      rcases h with h | ⟨e', he', hb⟩
      · right
        rw [logsumexp_eq_bot]
        intro x hx
        obtain ⟨i, -, rfl⟩ := List.mem_map.1 hx
        rw [h, EReal.bot_add]
      · rcases List.mem_cons.1 he' with rfl | he'
        · exact Or.inl (hb k)
        · exact absurd ⟨e', he', hb⟩ hes

theorem hmm_constant_bot (T : ℕ) (hT : 2 ≤ T) (k : ℤ) :
    (hmmLogp fair (fun _ => fair) T fun s j => onlyStep s j k).getD ⊥ = ⊥ := by
  unfold hmmLogp
  rw [if_neg (by omega), Option.getD_some, logsumexp_eq_bot]
  intro x hx
  obtain ⟨j, -, rfl⟩ := List.mem_map.1 hx
  apply scanAlpha_bot
  by_cases hk : k = 0
  · right
    refine ⟨fun j => onlyStep (0 + 1) j k, List.mem_map.2 ⟨0, List.mem_range.2 (by omega), rfl⟩, fun j => ?_⟩
    simp [onlyStep, hk]
  · left
    intro j
    simp [onlyStep, hk]

/-- **C165** For every length `T ≥ 2`: `x` is a vector of fair coins, the chain moves fairly between two states, and the
observations are possible exactly for `x = (0, 1, …, 1)`. With the chain eliminated first and `x` afterwards, every entry of
the log-probability is `-∞`, although the marginal probability of the observations is not zero. -/
theorem C165_wrong_logp (T : ℕ) (hT : 2 ≤ T) :
    ∃ t, finiteDiscreteLogp [0, 1] coin [chainDep fair (fun _ => fair) T onlyStep] = some t ∧
      (∀ i, t [i] = ⊥) ∧
      ENNReal.log (∑ x ∈ assignments [T] [0, 1],
        EReal.exp (jointLogp [T] coin [chainDep fair (fun _ => fair) T onlyStep] (extend [T] x))) ≠ ⊥ := by
  obtain ⟨t, ht, hv⟩ := C165_constant_vectors_only fair (fun _ => fair) T onlyStep [0, 1] coin
  refine ⟨t, ht, fun i => ?_, ?_⟩
  · rw [hv, logsumexp_eq_bot]
    intro a ha
    obtain ⟨k, -, rfl⟩ := List.mem_map.1 ha
    rw [hmm_constant_bot T hT k, EReal.add_bot]
  · rw [Ne, ENNReal.log_eq_bot_iff]
    intro h0
    have h1 : (fun i : (box [T]).toFinset => if i.1 = [0] then (0 : ℤ) else 1) ∈ assignments [T] [0, 1] := by
      unfold assignments
      rw [Fintype.mem_piFinset]
      intro i
      by_cases hi : i.1 = [0] <;> simp [hi]
    have h2 := Finset.sum_eq_zero_iff.1 h0 _ h1
    rw [EReal.exp_eq_zero_iff] at h2
    have hb : ∀ s, s < T → ([s] : List ℕ) ∈ (box [T]).toFinset := by
      intro s hs
      simp [box, hs]
    have hx : ∀ s, s < T →
        extend [T] (fun i : (box [T]).toFinset => if i.1 = [0] then (0 : ℤ) else 1) [s] = if s = 0 then 0 else 1 := by
      intro s hs
      rw [extend, dif_pos (hb s hs)]
      simp
    revert h2 hx
    generalize extend [T] (fun i : (box [T]).toFinset => if i.1 = [0] then (0 : ℤ) else 1) = X
    intro h2 hx
    have hfair : ENNReal.log 2⁻¹ ≠ ⊥ := by rw [Ne, ENNReal.log_eq_bot_iff]; simp
    unfold jointLogp at h2
    rw [EReal.add_eq_bot_iff] at h2
    rcases h2 with h2 | h2
    · have : ∀ l : List (List ℕ), (l.map fun i => coin i (X i)).sum ≠ ⊥ := by
        intro l
        induction l with
        | nil => simp
        | cons a l ih =>
          rw [List.map_cons, List.sum_cons, Ne, EReal.add_eq_bot_iff, not_or]
          exact ⟨hfair, ih⟩
      exact this _ h2
    · have hne := hmmLogp_ne_bot (0 : Fin 2) (T := T) (init := fair) (logP := fun _ => fair)
        (em := fun t k => onlyStep t k (X [t])) hT (fun _ => hfair) (fun _ _ => hfair) (by
          intro s k hs
          simp [onlyStep, hx s hs])
      apply hne
      simpa [chainDep, box] using h2

end Marginal
