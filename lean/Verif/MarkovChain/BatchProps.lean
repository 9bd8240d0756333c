import Verif.MarkovChain.Batch
import Mathlib.Data.List.Sort

/-! # C177, C178: batches of Markov chains; the Gibbs sampler's coordinates -/

set_option autoImplicit false

namespace MarkovChain

open scoped ENNReal

/-! ### C177 -/

/-- **C177.** A chain can be created only with exactly one matrix axis more than lags: transition probabilities with a batch axis
are always refused, whatever the batch. -/
theorem C177_no_batched_P {n : ℕ} (pNdim b : ℕ) :
    (∃ k, transitionNdim pNdim n b = .ok k) ↔ pNdim = n + 1 := by
  unfold transitionNdim gatherNdim
  split
  · rename_i e h
    split at h
    · constructor
      · rintro ⟨k, hk⟩; cases hk
      · omega
    · cases h
  · rename_i h
    split at h
    · cases h
    · simp only [Except.ok.injEq] at h
      constructor
      · rintro ⟨k, hk⟩; cases hk
      · omega
  · rename_i k h
    split at h
    · cases h
    · simp only [Except.ok.injEq] at h
      by_cases hk : k = b
      · simp only [hk, if_true]
        constructor
        · intro _; omega
        · intro _; exact ⟨b, rfl⟩
      · simp only [hk, if_false]
        constructor
        · rintro ⟨_, h'⟩; cases h'
        · intro _; exact absurd (by omega) hk

/-- **C177.** The support point (PyMC's default starting value) exists only for a chain without batch axes: an unobserved batch
of chains can be created but has no starting point. -/
theorem C177_no_support_point_for_batches (n b : ℕ) :
    (∃ k, greedyNdim (n + 1) n b = .ok k) ↔ b = 0 := by
  unfold greedyNdim gatherNdim
  rw [if_neg (by omega)]
  by_cases hb : b = 0
  · subst hb; simp
  · have : ¬0 = b := fun h => hb h.symm
    simp [this, hb]

theorem batchStep_getD {B b : ℕ} (hb : b < B) (draw : ℕ → ℕ → List ℕ → ℕ) (t : ℕ) (hist : List (List ℕ)) :
    (batchStep B draw t hist).getD b 0 = draw t b (hist.map fun row => row.getD b 0) := by
  simp [batchStep, List.getD_eq_getElem?_getD, hb]

theorem scanBatch_column {B b : ℕ} (hb : b < B) (draw : ℕ → ℕ → List ℕ → ℕ) : ∀ (k t : ℕ) (hist : List (List ℕ)),
    (scanBatch B draw k t hist).map (fun row => row.getD b 0) =
      scanTaps (fun t s => draw t b s) k t (hist.map fun row => row.getD b 0)
  | 0, _, _ => rfl
  | k + 1, t, hist => by
    simp only [scanBatch, scanTaps, List.map_cons]
    rw [scanBatch_column hb draw k (t + 1), batchStep_getD hb]
    congr 2
    simp only [List.map_append, List.map_tail, List.map_cons, List.map_nil]
    rw [batchStep_getD hb]

/-- **C177.** The draws of a batch are those of separate chains: chain `b` is the chain generated from its own initial values and
its own draws. -/
theorem C177_draws_are_separate_chains {n : ℕ} (hn : 1 ≤ n) (steps B : ℕ) (init : List (List ℕ)) (hi : init.length = n)
    (draw : ℕ → ℕ → List ℕ → ℕ) (b : ℕ) (hb : b < B) :
    (genBatch n steps B init draw)[b]? =
      some (genChain n steps (init.map fun row => row.getD b 0) fun t s => draw t b s) := by
  have hinfo : (outputsInfoBatch n init).map (fun row => row.getD b 0) = outputsInfo n (init.map fun row => row.getD b 0) := by
    unfold outputsInfoBatch outputsInfo
    split
    · rfl
    · cases init with
      | nil => simp at hi; omega
      | cons x xs => simp
  simp only [genBatch, List.getElem?_map, List.getElem?_range hb, Option.map_some, List.map_append]
  rw [scanBatch_column hb, hinfo]
  rfl

/-- **C177.** With an initial distribution common to all chains the log-probability of a batch is that of each chain. -/
theorem C177_logp_shared_init (n : ℕ) (lp : ℕ → EReal) (P : List ℕ → ℝ≥0∞) (value : List (List ℕ)) :
    batchLogp n (.shared lp) P value = .ok (value.map fun v => chainLogp n (fun _ => lp) P v) := by
  unfold batchLogp
  induction value with
  | nil => rfl
  | cons v vs ih =>
    rw [List.mapM_cons, ih]
    have hm : ∀ l : List ℕ, l.mapIdx (fun _ x => lp x) = l.map lp := fun l => by
      apply List.ext_getElem?
      intro i
      simp
    simp [initTerm, Except.map, bind, Except.bind, pure, Except.pure, chainLogp, hm]

/-- The log-probability a user expects of chain `b` with its own initial distribution. -/
noncomputable def Spec.own (n : ℕ) (lp : ℕ → ℕ → EReal) (P : List ℕ → ℝ≥0∞) (b : ℕ) (v : List ℕ) : EReal :=
  chainLogp n (fun _ => lp b) P v

/-- **C177.** With one lag and an initial distribution of its own for each of the `m` chains, the log-probability of every chain
contains the log-probability of its first value under *all* `m` initial distributions. -/
theorem C177_logp_batched_init (m : ℕ) (lp : ℕ → ℕ → EReal) (P : List ℕ → ℝ≥0∞) (value : List (List ℕ))
    (hv : ∀ v ∈ value, v ≠ []) :
    batchLogp 1 (.vector m lp) P value = .ok (value.map fun v =>
      ((List.range m).map fun i => lp i (v.headD 0)).sum + ((gather P (indexes 1 v)).map ENNReal.log).sum) := by
  unfold batchLogp
  induction value with
  | nil => rfl
  | cons v vs ih =>
    rw [List.mapM_cons, ih (fun w hw => hv w (by simp [hw]))]
    cases v with
    | nil => exact absurd rfl (hv [] (by simp))
    | cons x xs =>
      have hb : bcast m lp [x] = .ok ((List.range m).map fun i => lp i x) := by
        unfold bcast
        split
        · rename_i h
          simp at h
          subst h
          simp
        · rfl
      simp [initTerm, hb, Except.map, bind, Except.bind, pure, Except.pure]

/-- **C177.** It is the expected value when there is one chain; with two chains it is wrong: here each chain starts in a state its
own distribution gives probability one, and both log-probabilities are minus infinity. -/
theorem C177_logp_batched_init_wrong :
    ∃ (lp : ℕ → ℕ → EReal) (P : List ℕ → ℝ≥0∞) (value : List (List ℕ)),
      resize 1 (some 2) (.vector 2 lp) = .ok () ∧
      (∀ b < 2, ((value[b]?).map fun v => Spec.own 1 lp P b v) = some 0) ∧
      batchLogp 1 (.vector 2 lp) P value = .ok [⊥, ⊥] := by
  refine ⟨fun i v => if i = v then 0 else ⊥, fun _ => 1, [[0, 1], [1, 0]], by simp [resize], ?_, ?_⟩
  · intro b hb
    have : b = 0 ∨ b = 1 := by omega
    rcases this with rfl | rfl <;> simp [Spec.own, chainLogp, gather, indexes, pySlice]
  · rw [C177_logp_batched_init _ _ _ _ (by simp)]
    simp [List.range_succ, gather, indexes, pySlice]

theorem C177_logp_single_chain (lp : ℕ → ℕ → EReal) (P : List ℕ → ℝ≥0∞) (v : List ℕ) (hv : v ≠ []) :
    batchLogp 1 (.vector 1 lp) P [v] = .ok [Spec.own 1 lp P 0 v] := by
  rw [C177_logp_batched_init _ _ _ _ (by simpa using hv)]
  cases v with
  | nil => exact absurd rfl hv
  | cons x xs => simp [Spec.own, chainLogp]

/-- **C177.** With several lags `n` and `m ≠ 1` initial distributions: if `m ≠ n` the log-probability cannot be computed at all; if
`m = n` each lag gets another chain's distribution. -/
theorem C177_logp_batched_init_lags {n m : ℕ} (hn : 2 ≤ n) (hm : m ≠ 1) (lp : ℕ → ℕ → EReal) (P : List ℕ → ℝ≥0∞)
    (v : List ℕ) (hv : n ≤ v.length) :
    (m ≠ n → batchLogp n (.vector m lp) P [v] = .error .shapeError) ∧
    (m = n → batchLogp n (.vector m lp) P [v] = .ok [chainLogp n lp P v]) := by
  have hl : (v.take n).length = n := by simp [hv]
  constructor
  · intro hmn
    have hb : bcast m lp (v.take n) = .error .shapeError := by
      unfold bcast
      rw [if_neg (by rw [hl]; exact fun h => hmn h.symm)]
      split
      · rename_i x hx
        rw [hx] at hl
        simp at hl
        omega
      · rw [if_neg hm]
    simp [batchLogp, initTerm, hb, Except.map, bind, Except.bind]
  · rintro rfl
    have hb : bcast m lp (v.take m) = .ok ((v.take m).mapIdx lp) := by
      unfold bcast
      rw [if_pos hl]
    simp [batchLogp, initTerm, hb, Except.map, bind, Except.bind, pure, Except.pure, chainLogp]

example : transitionNdim 3 1 1 = .error .shapeError ∧ transitionNdim 2 1 1 = .ok 1 ∧ transitionNdim 3 2 2 = .ok 2 :=
  ⟨rfl, rfl, rfl⟩

example : genBatch 1 2 2 [[5, 7]] (fun _ b s => s.headD 0 + b + 1) = [[5, 6, 7], [7, 9, 11]] := by decide

/-! ### C178 -/

/-- Number of states of the variable that owns coordinate `d` when the variables' values are laid out one after the other. -/
def Spec.owner : List GVar → ℕ → Option ℕ
  | [], _ => none
  | v :: vs, d => if d < v.size then some v.k else Spec.owner vs (d - v.size)

/-- Number of coordinates. -/
def Spec.total (vars : List GVar) : ℕ := (vars.map GVar.size).sum

theorem dimcatsLoop_ok : ∀ (vars : List GVar) (acc : List (ℕ × ℕ)), (∀ v ∈ vars, v.isChain = true) →
    ∃ out, dimcatsLoop acc vars = .ok (acc ++ out) ∧ out.length = Spec.total vars ∧
      ∀ (d : ℕ), d < Spec.total vars → ∃ k, out[d]? = some (acc.length + d, k) ∧ Spec.owner vars d = some k
  | [], acc, _ => ⟨[], by simp [dimcatsLoop], rfl, by simp [Spec.total]⟩
  | v :: vs, acc, h => by
    obtain ⟨out, h1, h2, h3⟩ := dimcatsLoop_ok vs (acc ++ (List.range v.size).map fun i => (acc.length + i, v.k))
      (fun w hw => h w (by simp [hw]))
    refine ⟨((List.range v.size).map fun i => (acc.length + i, v.k)) ++ out, ?_, ?_, ?_⟩
    · simp only [dimcatsLoop, h v (by simp), Bool.true_eq_false, if_false]
      rw [h1, List.append_assoc]
    · simp [h2, Spec.total]
    · intro d hd
      by_cases hlt : d < v.size
      · refine ⟨v.k, ?_, by simp [Spec.owner, hlt]⟩
        rw [List.getElem?_append_left (by simpa using hlt)]
        simp [hlt]
      · have hd' : d - v.size < Spec.total vs := by simp [Spec.total] at hd ⊢; omega
        obtain ⟨k, e1, e2⟩ := h3 (d - v.size) hd'
        refine ⟨k, ?_, by simp [Spec.owner, hlt, e2]⟩
        rw [List.getElem?_append_right (by simp; omega)]
        simp only [List.length_map, List.length_range]
        rw [e1]
        simp
        omega

/-- **C178.** In random order the sampler's list has every coordinate of the concatenated values exactly once, in order, each with
the number of states of the chain it belongs to. -/
theorem C178_every_coordinate_once (vars : List GVar) (h : ∀ v ∈ vars, v.isChain = true) (proposal : String)
    (hp : proposal = "uniform" ∨ proposal = "proportional") :
    ∃ out, gibbsInit vars .random proposal = .ok (true, out) ∧ out.length = Spec.total vars ∧
      ∀ (d : ℕ), d < Spec.total vars → ∃ k, out[d]? = some (d, k) ∧ Spec.owner vars d = some k := by
  obtain ⟨out, h1, h2, h3⟩ := dimcatsLoop_ok vars [] h
  rw [List.nil_append] at h1
  refine ⟨out, ?_, h2, ?_⟩
  · simp [gibbsInit, h1, hp]
  · intro d hd
    obtain ⟨k, e1, e2⟩ := h3 d hd
    exact ⟨k, by simpa using e1, e2⟩

/-- **C178.** A list given as order is accepted exactly when it is a permutation of the coordinates, and then the coordinates are
updated in that order. -/
theorem C178_order_is_a_permutation (vars : List GVar) (h : ∀ v ∈ vars, v.isChain = true) (proposal : String)
    (hp : proposal = "uniform" ∨ proposal = "proportional") (l : List ℕ) :
    ((∃ out, gibbsInit vars (.given l) proposal = .ok out) ↔ l.Perm (List.range (Spec.total vars))) ∧
    ∀ out, gibbsInit vars (.given l) proposal = .ok out →
      out.1 = false ∧ out.2.map Prod.fst = l ∧ ∀ x ∈ out.2, Spec.owner vars x.1 = some x.2 := by
  obtain ⟨dc, h1, h2, h3⟩ := dimcatsLoop_ok vars [] h
  rw [List.nil_append] at h1
  have hg : gibbsInit vars (.given l) proposal = if l.mergeSort = List.range (Spec.total vars) then
      .ok (false, l.filterMap fun j => dc[j]?) else .error .valueError := by
    simp [gibbsInit, h1, hp, h2]
  have hperm : l.mergeSort = List.range (Spec.total vars) ↔ l.Perm (List.range (Spec.total vars)) := by
    constructor
    · intro he
      rw [← he]
      exact (List.mergeSort_perm l _).symm
    · intro hl
      have hs : (List.mergeSort l).Pairwise (· ≤ ·) := by
        have := List.pairwise_mergeSort (le := fun a b : ℕ => decide (a ≤ b))
          (fun a b c hab hbc => by simp at *; omega) (fun a b => by simp; omega) l
        simpa using this
      exact List.Perm.eq_of_pairwise' hs List.pairwise_le_range ((List.mergeSort_perm l _).trans hl)
  rw [hg]
  constructor
  · rw [← hperm]
    by_cases hc : l.mergeSort = List.range (Spec.total vars)
    · simp [hc]
    · simp [hc]
  · intro out ho
    split at ho
    · rename_i hc
      cases ho
      have hl := hperm.mp hc
      have hmem : ∀ j ∈ l, j < Spec.total vars := fun j hj => List.mem_range.mp (hl.subset hj)
      refine ⟨rfl, ?_, ?_⟩
      · clear hg hc hl hperm
        induction l with
        | nil => rfl
        | cons j l ih =>
          obtain ⟨k, e1, _⟩ := h3 j (hmem j (by simp))
          rw [List.filterMap_cons_some (by simpa using e1)]
          simp only [List.map_cons, List.cons.injEq]
          exact ⟨by simp, ih fun i hi => hmem i (by simp [hi])⟩
      · intro x hx
        rw [List.mem_filterMap] at hx
        obtain ⟨j, hj, hx⟩ := hx
        obtain ⟨k, e1, e2⟩ := h3 j (hmem j hj)
        rw [hx] at e1
        simp at e1
        subst e1
        exact e2
    · cases ho

/-- **C178.** Any other variable, and any other proposal name, is refused. -/
theorem C178_refusals (vars : List GVar) (o : Order) (proposal : String) :
    ((∃ v ∈ vars, v.isChain = false) → gibbsInit vars o proposal = .error .typeError) ∧
    ((∀ v ∈ vars, v.isChain = true) → proposal ≠ "uniform" → proposal ≠ "proportional" →
      gibbsInit vars o proposal = .error .valueError) := by
  constructor
  · rintro ⟨v, hv, hc⟩
    have : ∀ (vars : List GVar) (acc : List (ℕ × ℕ)), v ∈ vars → dimcatsLoop acc vars = .error .typeError := by
      intro vars
      induction vars with
      | nil => intro _ h; simp at h
      | cons w ws ih =>
        intro acc hm
        unfold dimcatsLoop
        split
        · rfl
        · rename_i hw
          rcases List.mem_cons.mp hm with rfl | hm
          · exact absurd hc hw
          · exact ih _ hm
    simp [gibbsInit, this vars [] hv]
  · intro h h1 h2
    obtain ⟨dc, e, _⟩ := dimcatsLoop_ok vars [] h
    simp only [gibbsInit, e]
    cases o with
    | random => simp [h1, h2]
    | given l => simp [h1, h2]

example : gibbsInit [⟨true, 3, 2⟩, ⟨true, 5, 1⟩] .random "uniform" = .ok (true, [(0, 3), (1, 3), (2, 5)]) := by
  simp [gibbsInit, dimcatsLoop, List.range_succ]

end MarkovChain
