import Verif.Marginal.LogpLemmas
import Mathlib.Tactic.FinCases

/-! # C41, C44, C45, C46, C99: log-probabilities of marginalised variables -/

set_option autoImplicit false

namespace Marginal

open scoped BigOperators

/-! ### Specification -/

/-- The entry of the marginalised variable (with `n` axes) that entry `e` of a dependent variable
with the given dims uses: coordinate `q` is the coordinate of `e` on the axis reported to carry
axis `q`. -/
def owner (dims : Dims) (n : ℕ) (e : List ℕ) : List ℕ :=
  (List.range n).map (fun q => e.getD (dims.idxOf (some q)) 0)

/-- A dependent variable whose reported dims are right for a marginalised variable of shape `s` (the
conclusion of C43): every axis of the marginalised variable is carried by exactly one axis, of the
same length, outside the support; every log-probability entry depends only on the entry of the
marginalised variable with the same coordinates. -/
structure WellConnected (s : List ℕ) (d : Dep) : Prop where
  len : d.shape.length + d.supp = d.dims.length
  perm : (d.dims.filterMap id).Perm (List.range s.length)
  support : ∀ a, d.shape.length ≤ a → d.dims.getD a none = none
  shape : ∀ q < s.length, d.shape.getD (d.dims.idxOf (some q)) 0 = s.getD q 0
  only : ∀ e ∈ box d.shape, ∀ x x' : List ℕ → ℤ,
    x (owner d.dims s.length e) = x' (owner d.dims s.length e) → d.logp x e = d.logp x' e

/-- Either the variable is univariate, or all its batch axes carry axes of the marginalised
variable. -/
def NoExtraForMultivariate (d : Dep) : Prop :=
  d.supp = 0 ∨ ∀ a < d.shape.length, d.dims.getD a none ≠ none

/-- What the reduction is documented to compute: for every entry of the marginalised variable, the
sum of the log-probabilities of the dependent entries that use it. -/
noncomputable def groupedLogp (s : List ℕ) (d : Dep) (x : List ℕ → ℤ) (idx : List ℕ) : EReal :=
  ((box d.shape).filter (fun e => owner d.dims s.length e = idx)).map (d.logp x) |>.sum

/-- Joint log-probability of the marginalised variable and its dependents. -/
noncomputable def jointLogp (s : List ℕ) (m : List ℕ → ℤ → EReal) (deps : List Dep)
    (x : List ℕ → ℤ) : EReal :=
  ((box s).map (fun i => m i (x i))).sum
    + (deps.map (fun d => ((box d.shape).map (d.logp x)).sum)).sum

/-- The assignment given by values at the positions of the marginalised variable. -/
def extend (s : List ℕ) (x : (box s).toFinset → ℤ) (i : List ℕ) : ℤ :=
  if h : i ∈ (box s).toFinset then x ⟨i, h⟩ else 0

/-- All assignments of domain values to the positions of the marginalised variable. -/
def assignments (s : List ℕ) (dom : List ℤ) : Finset ((box s).toFinset → ℤ) :=
  Fintype.piFinset (fun _ => dom.toFinset)

/-! ### Lemmas -/

theorem WellConnected.pos {s : List ℕ} {d : Dep} (h : WellConnected s d) {q : ℕ}
    (hq : q < s.length) : d.dims[d.dims.idxOf (some q)]? = some (some q) ∧
      d.dims.idxOf (some q) < d.shape.length := by
  have hmem : q ∈ d.dims.filterMap id := h.perm.mem_iff.2 (List.mem_range.2 hq)
  obtain ⟨a, ha⟩ := mem_known.1 hmem
  have hm : some q ∈ d.dims := List.mem_of_getElem? ha
  have hl := List.idxOf_lt_length_iff.2 hm
  have h1 : d.dims[d.dims.idxOf (some q)]? = some (some q) := by
    rw [List.getElem?_eq_getElem hl, List.getElem_idxOf hl]
  refine ⟨h1, ?_⟩
  by_contra hc
  have := h.support _ (not_lt.1 hc)
  rw [getD_of_some h1] at this
  simp at this

theorem owner_mem_box {s : List ℕ} {d : Dep} (h : WellConnected s d) {e : List ℕ}
    (he : e ∈ box d.shape) : owner d.dims s.length e ∈ box s := by
  rw [mem_box] at he ⊢
  refine ⟨by simp [owner], ?_⟩
  intro q hq
  have hp := (h.pos hq).2
  have := he.2 _ hp
  rw [h.shape q hq] at this
  unfold owner
  rw [List.getD_eq_getElem _ _ (by simpa using hq)]
  simpa using this

theorem pick_owner {s : List ℕ} {d : Dep} (h : WellConnected s d) {e : List ℕ}
    (he : e ∈ box d.shape) (keep : ℕ → Bool)
    (hk : ∀ j < d.shape.length, keep j = (d.dims.getD j none).isSome) :
    pick keep e = (d.dims.filterMap id).map (fun q => (owner d.dims s.length e).getD q 0) := by
  have hel := (mem_box.1 he).1
  have hnd : (d.dims.filterMap id).Nodup := h.perm.nodup_iff.2 List.nodup_range
  rw [pick_eq d.dims keep e hnd (by have := h.len; omega) (by rw [hel]; exact hk)
    (by
      intro j q hj
      rw [hel]
      by_contra hc
      have := h.support _ (not_lt.1 hc)
      rw [getD_of_some hj] at this
      simp at this)]
  apply List.map_congr_left
  intro q hq
  have hqn : q < s.length := List.mem_range.1 (h.perm.mem_iff.1 hq)
  unfold owner
  rw [List.getD_eq_getElem (l := (List.range s.length).map _) _ (by simpa using hqn)]
  simp

/-- The mask used by the code keeps exactly the known axes. -/
theorem mask_eq {s : List ℕ} {d : Dep} (h : WellConnected s d) (hx : NoExtraForMultivariate d) :
    (suppAxes d.dims d.supp).any (fun i => decide (d.shape.length < i)) = false ∧
    ∀ j < d.shape.length, (!(suppAxes d.dims d.supp).contains (d.shape.length - j))
      = (d.dims.getD j none).isSome := by
  have hlen := h.len
  constructor
  · rw [List.any_eq_false]
    intro i hi hc
    have hc' : d.shape.length < i := by simpa using hc
    obtain ⟨h1, h2, h3, h4⟩ := mem_suppAxes.1 hi
    rcases hx with h0 | h0
    · omega
    · exact h0 _ (by omega) h4
  · intro j hj
    have hc := contains_suppAxes (dims := d.dims) (supp := d.supp) hlen hj
    rcases hx with h0 | h0
    · have : (suppAxes d.dims d.supp).contains (d.shape.length - j) = true ↔
          d.dims.getD j none = none := by
        rw [hc, h0]
        exact ⟨fun h => h.2, fun h => ⟨hj, h⟩⟩
      cases hd : d.dims.getD j none with
      | none => rw [this.2 hd]; rfl
      | some q =>
        have : ¬ (suppAxes d.dims d.supp).contains (d.shape.length - j) = true := by
          rw [this, hd]; simp
        simp only [Bool.not_eq_true] at this
        rw [this]; rfl
    · have : ¬ (suppAxes d.dims d.supp).contains (d.shape.length - j) = true := by
        rw [hc]
        rintro ⟨h1, h2⟩
        exact h0 _ h1 h2
      simp only [Bool.not_eq_true] at this
      rw [this]
      cases hd : d.dims.getD j none with
      | none => exact absurd hd (h0 j hj)
      | some q => rfl

/-- The code's reduction of one dependent, when the reported axis order is self-inverse. -/
theorem spread_eq {α : Type} {c : Prop} [Decidable c] {t : List ℕ → α} {idx : List ℕ}
    (h : c → idx = []) : spread c t idx = t idx := by
  unfold spread
  by_cases hc : c
  · rw [if_pos hc, h hc]
  · rw [if_neg hc]

theorem reduceDep_eq {s : List ℕ} {d : Dep} (h : WellConnected s d)
    (hx : NoExtraForMultivariate d) (hself : SelfInverse (d.dims.filterMap id))
    (x : List ℕ → ℤ) :
    ∃ r, reduceDep d x = some r ∧ ∀ idx ∈ box s, r idx = groupedLogp s d x idx := by
  obtain ⟨hm1, hm2⟩ := mask_eq h hx
  have hpl : (d.dims.filterMap id).length = s.length := by
    rw [h.perm.length_eq, List.length_range]
  unfold reduceDep
  by_cases hpos : d.shape.length > 0
  · simp only [if_pos hpos, hm1, Bool.false_eq_true, if_false]
    refine ⟨_, rfl, ?_⟩
    intro idx hidx
    have hil := (mem_box.1 hidx).1
    rw [spread_eq (fun hn => by
      rw [hn.1] at hpl
      exact List.length_eq_zero_iff.1 (by rw [hil]; exact hpl.symm))]
    rw [transposeArgs_eq _ _ _ (by rw [hpl, hil]), transposeT, unperm_eq h.perm hself, sumAxes,
      groupedLogp]
    congr 2
    apply List.filter_congr
    intro e he
    rw [pick_owner h he _ hm2]
    apply decide_eq_decide.2
    constructor
    · intro heq
      exact map_getD_perm h.perm (by simp [owner]) hil heq
    · rintro rfl; rfl
  · rw [if_neg hpos]
    refine ⟨_, rfl, ?_⟩
    intro idx hidx
    have hs0 : d.shape = [] := List.length_eq_zero_iff.1 (by omega)
    have hknown : d.dims.filterMap id = [] := by
      rw [List.filterMap_eq_nil_iff]
      intro o ho
      cases o with
      | none => rfl
      | some q =>
        obtain ⟨j, hj, he⟩ := List.getElem_of_mem ho
        have := h.support j (by omega)
        rw [List.getD_eq_getElem _ _ hj, he] at this
        simp at this
    have hsl : s = [] := by
      rw [hknown] at hpl
      exact List.length_eq_zero_iff.1 hpl.symm
    subst hsl
    have hidx' : idx = [] := by simpa [box] using hidx
    subst hidx'
    simp [groupedLogp, hs0, box, owner]

theorem mapM_some_of_forall {α β : Type} (f : α → Option β) (P : α → β → Prop) : ∀ (l : List α),
    (∀ a ∈ l, ∃ b, f a = some b ∧ P a b) →
    ∃ bs, l.mapM f = some bs ∧ List.Forall₂ P l bs := by
  intro l
  induction l with
  | nil => intro _; exact ⟨[], rfl, List.Forall₂.nil⟩
  | cons a l ih =>
    intro h
    obtain ⟨b, hb, hP⟩ := h a (by simp)
    obtain ⟨bs, hbs, hPs⟩ := ih (fun c hc => h c (by simp [hc]))
    refine ⟨b :: bs, ?_, List.Forall₂.cons hP hPs⟩
    rw [List.mapM_cons, hb, hbs]
    rfl

theorem forall2_sum {α β : Type} {M : Type} [AddCommMonoid M] (f : α → M) (g : β → M)
    {l : List α} {bs : List β} (h : List.Forall₂ (fun a b => g b = f a) l bs) :
    (bs.map g).sum = (l.map f).sum := by
  induction h with
  | nil => rfl
  | cons h _ ih => simp [h, ih]

theorem reduceAll_eq {s : List ℕ} {deps : List Dep} (h : ∀ d ∈ deps, WellConnected s d)
    (hx : ∀ d ∈ deps, NoExtraForMultivariate d)
    (hself : ∀ d ∈ deps, SelfInverse (d.dims.filterMap id)) (x : List ℕ → ℤ) :
    ∃ r, reduceAll deps x = some r ∧
      ∀ idx ∈ box s, r idx = (deps.map (fun d => groupedLogp s d x idx)).sum := by
  obtain ⟨rs, h1, h2⟩ := mapM_some_of_forall (fun d => reduceDep d x)
    (fun d r => ∀ idx ∈ box s, r idx = groupedLogp s d x idx) deps
    (fun d hd => reduceDep_eq (h d hd) (hx d hd) (hself d hd) x)
  refine ⟨fun idx => (rs.map (fun r => r idx)).sum, ?_, ?_⟩
  · unfold reduceAll
    rw [h1]; rfl
  · intro idx hidx
    exact forall2_sum _ _ (h2.imp (fun d r hr => hr idx hidx))

/-- What each entry of the code's (not yet aligned) result is. -/
theorem marginalEntries_eq {s : List ℕ} {dom : List ℤ} {m : List ℕ → ℤ → EReal} {deps : List Dep}
    (h : ∀ d ∈ deps, WellConnected s d) (hx : ∀ d ∈ deps, NoExtraForMultivariate d)
    (hself : ∀ d ∈ deps, SelfInverse (d.dims.filterMap id)) :
    ∃ t, marginalEntries dom m deps = some t ∧ ∀ idx ∈ box s,
      EReal.exp (t idx) = (dom.map (fun k => EReal.exp (m idx k
        + (deps.map (fun d => groupedLogp s d (fun _ => k) idx)).sum))).sum := by
  obtain ⟨rs, h1, h2⟩ := mapM_some_of_forall (fun k : ℤ => reduceAll deps (fun _ => k))
    (fun k r => ∀ idx ∈ box s, r idx = (deps.map (fun d => groupedLogp s d (fun _ => k) idx)).sum)
    dom (fun k _ => reduceAll_eq h hx hself _)
  refine ⟨fun idx => logsumexp (List.zipWith (fun k r => m idx k + r idx) dom rs), ?_, ?_⟩
  · unfold marginalEntries
    rw [h1]; rfl
  · intro idx hidx
    rw [exp_logsumexp]
    clear h1
    induction h2 with
    | nil => rfl
    | cons hk _ ih => simp only [List.zipWith_cons_cons, List.map_cons, List.sum_cons, ih, hk idx hidx]

/-- Grouping the dependent entries by the entry they use. -/
theorem sum_grouped {M : Type} [AddCommMonoid M] {s : List ℕ} {d : Dep} (h : WellConnected s d)
    (f : List ℕ → M) :
    ∑ i ∈ (box s).toFinset,
      (((box d.shape).filter (fun e => owner d.dims s.length e = i)).map f).sum
      = ((box d.shape).map f).sum := by
  classical
  rw [list_sum_eq_finset _ (nodup_box _),
    ← Finset.sum_fiberwise_of_maps_to (g := owner d.dims s.length) (t := (box s).toFinset)
      (fun e he => List.mem_toFinset.2 (owner_mem_box h (List.mem_toFinset.1 he)))]
  apply Finset.sum_congr rfl
  intro i _
  rw [list_sum_eq_finset _ ((nodup_box _).filter _), List.toFinset_filter]
  apply Finset.sum_congr _ (fun _ _ => rfl)
  ext e
  simp

/-- The joint log-probability, entry by entry. -/
theorem jointLogp_entries {s : List ℕ} {m : List ℕ → ℤ → EReal} {deps : List Dep}
    (h : ∀ d ∈ deps, WellConnected s d) (x : List ℕ → ℤ) :
    jointLogp s m deps x = ∑ i ∈ (box s).toFinset,
      (m i (x i) + (deps.map (fun d => groupedLogp s d (fun _ => x i) i)).sum) := by
  classical
  have hgroup : ∀ d ∈ deps, ∀ i, groupedLogp s d (fun _ => x i) i = groupedLogp s d x i := by
    intro d hd i
    unfold groupedLogp
    congr 1
    apply List.map_congr_left
    intro e he
    rw [List.mem_filter] at he
    apply (h d hd).only e he.1
    have := of_decide_eq_true he.2
    rw [this]
  rw [Finset.sum_add_distrib, jointLogp, list_sum_eq_finset _ (nodup_box s)]
  congr 1
  have : ∀ l : List Dep, (∀ d ∈ l, d ∈ deps) →
      (l.map (fun d => ((box d.shape).map (d.logp x)).sum)).sum
      = ∑ i ∈ (box s).toFinset, (l.map (fun d => groupedLogp s d (fun _ => x i) i)).sum := by
    intro l
    induction l with
    | nil => intro _; simp
    | cons d l ih =>
      intro hl
      simp only [List.map_cons, List.sum_cons, Finset.sum_add_distrib]
      rw [← ih (fun c hc => hl c (by simp [hc]))]
      congr 1
      rw [← sum_grouped (h d (hl d (by simp)))]
      apply Finset.sum_congr rfl
      intro i _
      rw [hgroup d (hl d (by simp))]
      rfl
  exact this deps (fun _ h => h)

/-- Summing a transposed tensor over all its entries. -/
theorem sum_transposeT {p : List ℕ} {s : List ℕ} (hp : p.Perm (List.range s.length))
    (t : List ℕ → EReal) :
    ((box (p.map (fun q => s.getD q 0))).map (transposeArgs p t)).sum = ((box s).map t).sum := by
  classical
  have hpl : p.length = s.length := by rw [hp.length_eq, List.length_range]
  have hnd : p.Nodup := hp.nodup_iff.2 List.nodup_range
  rw [list_sum_eq_finset _ (nodup_box _), list_sum_eq_finset _ (nodup_box _)]
  refine Finset.sum_bij' (fun idx _ => (List.range p.length).map (fun a => idx.getD (p.idxOf a) 0))
    (fun i _ => p.map (fun q => i.getD q 0)) ?_ ?_ ?_ ?_ ?_
  · intro idx hidx
    rw [List.mem_toFinset, mem_box] at hidx ⊢
    refine ⟨by simp [hpl], ?_⟩
    intro a ha
    have hmem : a ∈ p := hp.mem_iff.2 (List.mem_range.2 ha)
    have hlt := List.idxOf_lt_length_iff.2 hmem
    have := hidx.2 (p.idxOf a) (by simpa using hlt)
    rw [List.getD_eq_getElem (l := p.map _) _ (by simpa using hlt)] at this
    rw [List.getD_eq_getElem (l := (List.range p.length).map _) _ (by simp; omega)]
    simpa using this
  · intro i hi
    rw [List.mem_toFinset, mem_box] at hi ⊢
    refine ⟨by simp, ?_⟩
    intro j hj
    have hj' : j < p.length := by simpa using hj
    rw [List.getD_eq_getElem (l := p.map _) _ (by simpa using hj'),
      List.getD_eq_getElem (l := p.map _) _ (by simpa using hj')]
    simp only [List.getElem_map]
    exact hi.2 _ (List.mem_range.1 (hp.mem_iff.1 (List.getElem_mem hj')))
  · intro idx hidx
    rw [List.mem_toFinset, mem_box] at hidx
    apply List.ext_getElem (by simpa using hidx.1.symm)
    intro j h1 h2
    have hj : j < p.length := by simpa using h1
    have hpj : p[j] < p.length := by
      rw [hpl]; exact List.mem_range.1 (hp.mem_iff.1 (List.getElem_mem hj))
    simp only [List.getElem_map]
    rw [List.getD_eq_getElem (l := (List.range p.length).map _) _ (by simpa using hpj)]
    simp only [List.getElem_map, List.getElem_range]
    rw [List.Nodup.idxOf_getElem hnd, List.getD_eq_getElem _ _ h2]
  · intro i hi
    rw [List.mem_toFinset, mem_box] at hi
    apply List.ext_getElem (by simp [hpl, hi.1])
    intro a h1 h2
    have hmem : a ∈ p := hp.mem_iff.2 (List.mem_range.2 (by omega))
    have hlt := List.idxOf_lt_length_iff.2 hmem
    simp only [List.getElem_map, List.getElem_range]
    rw [List.getD_eq_getElem (l := p.map _) _ (by simpa using hlt)]
    simp only [List.getElem_map, List.getElem_idxOf]
    rw [List.getD_eq_getElem _ _ h2]
  · intro idx hidx
    rw [List.mem_toFinset, mem_box] at hidx
    rw [transposeArgs_eq _ _ _ (by simpa using hidx.1)]
    rfl

/-! ### C41 -/

/-- **C41.** The domain used is exactly the support of the variable, each value once. -/
theorem C41_domain :
    (getDomain .bernoulli = some [0, 1]) ∧
    (∀ k : ℕ, ∃ l, getDomain (.categorical k) = some l ∧ l.Nodup ∧
      ∀ v : ℤ, v ∈ l ↔ 0 ≤ v ∧ v < k) ∧
    (∀ lo hi : ℤ, ∃ l, getDomain (.discreteUniform lo hi) = some l ∧ l.Nodup ∧
      ∀ v : ℤ, v ∈ l ↔ lo ≤ v ∧ v ≤ hi) := by
  refine ⟨rfl, fun k => ⟨_, rfl, ?_, ?_⟩, fun lo hi => ⟨_, rfl, ?_, ?_⟩⟩
  · exact List.nodup_range.map (fun a b h => by simpa using h)
  · intro v
    rw [List.mem_map]
    constructor
    · rintro ⟨a, ha, rfl⟩
      rw [List.mem_range] at ha
      exact ⟨Int.natCast_nonneg a, by simpa using ha⟩
    · rintro ⟨h1, h2⟩
      exact ⟨v.toNat, by rw [List.mem_range]; omega, by simp; omega⟩
  · exact List.nodup_range.map (fun a b h => by simpa using h)
  · intro v
    rw [List.mem_map]
    constructor
    · rintro ⟨a, ha, rfl⟩
      rw [List.mem_range] at ha
      simp only [Int.ofNat_eq_natCast]
      omega
    · rintro ⟨h1, h2⟩
      exact ⟨(v - lo).toNat, by rw [List.mem_range]; omega, by simp; omega⟩

/-- **C41.** The log-probability returned for a marginalised variable of any shape, summed over all
its entries, is the log of the sum, over *all joint assignments* of domain values to the entries of
the variable, of the joint probability of the variable and its dependents — although the code only
evaluates the joint with one value repeated everywhere.  Stated for dependents whose reported dims
are right (C43), ordered self-inversely (C45), and that have no untracked batch axes if they are
multivariate (C99). -/
theorem C41_sum_over_assignments {s : List ℕ} {dom : List ℤ} (hdom : dom.Nodup)
    {m : List ℕ → ℤ → EReal} {d0 : Dep} {deps : List Dep}
    (h : ∀ d ∈ d0 :: deps, WellConnected s d)
    (hx : ∀ d ∈ d0 :: deps, NoExtraForMultivariate d)
    (hself : ∀ d ∈ d0 :: deps, SelfInverse (d.dims.filterMap id)) :
    ∃ t, finiteDiscreteLogp dom m (d0 :: deps) = some t ∧
      ((box ((d0.dims.filterMap id).map (fun q => s.getD q 0))).map t).sum
        = ENNReal.log (∑ x ∈ assignments s dom,
            EReal.exp (jointLogp s m (d0 :: deps) (extend s x))) := by
  classical
  obtain ⟨t, h1, h2⟩ := marginalEntries_eq (dom := dom) (m := m) h hx hself
  refine ⟨alignLogp d0.dims t, ?_, ?_⟩
  · unfold finiteDiscreteLogp
    rw [h1]; rfl
  · unfold alignLogp
    rw [sum_transposeT (h d0 (by simp)).perm]
    apply EReal.exp_strictMono.injective
    rw [ENNReal.exp_log, list_sum_eq_finset _ (nodup_box s), exp_finset_sum]
    rw [← Finset.prod_attach]
    have e1 : ∀ i ∈ (box s).toFinset.attach, EReal.exp (t i.1) = ∑ k ∈ dom.toFinset,
        EReal.exp (m i.1 k + ((d0 :: deps).map (fun d => groupedLogp s d (fun _ => k) i.1)).sum) := by
      intro i _
      rw [h2 i.1 (List.mem_toFinset.1 i.2), list_sum_eq_finset _ hdom]
    rw [Finset.prod_congr rfl e1]
    have e2 : (box s).toFinset.attach = Finset.univ := rfl
    rw [e2, Finset.prod_univ_sum]
    apply Finset.sum_congr rfl
    intro x _
    rw [jointLogp_entries h, exp_finset_sum, ← Finset.prod_attach (s := (box s).toFinset)]
    apply Finset.prod_congr rfl
    intro i _
    have : extend s x i.1 = x i := by
      unfold extend
      rw [dif_pos i.2]
    rw [this]

/-- A concrete case meeting the hypotheses: a variable of shape `(2,)` and a dependent of shape
`(2, 3)` using entry `i` of the variable in row `i`. -/
example : WellConnected [2]
    ⟨[some 0, none], 0, [2, 3], fun x e => if x [e.getD 0 0] = 1 then 0 else ⊥⟩ ∧
    NoExtraForMultivariate ⟨[some 0, none], 0, [2, 3], fun x e => if x [e.getD 0 0] = 1 then 0 else ⊥⟩ ∧
    SelfInverse ([some 0, none].filterMap id) := by
  refine ⟨⟨rfl, by decide, ?_, ?_, ?_⟩, Or.inl rfl, ?_⟩
  · intro a ha
    rw [List.getD_eq_default]
    simpa using ha
  · intro q hq
    have : q = 0 := by simpa using hq
    subst this; rfl
  · intro e _ x x' hxx
    have : owner [some 0, none] [2].length e = [e.getD 0 0] := by
      simp [owner, List.range_succ]
    rw [this] at hxx
    simp only [hxx]
  · intro a ha
    have : a = 0 := by simpa using ha
    subst this; rfl

/-! ### C45 -/

theorem sum_indicator {α : Type} [DecidableEq α] (l : List α) (hl : l.Nodup) (a : α) :
    (l.map (fun e => if e = a then (1 : EReal) else 0)).sum = if a ∈ l then 1 else 0 := by
  rw [list_sum_eq_finset _ hl, Finset.sum_ite_eq']
  simp

theorem pick_all (keep : ℕ → Bool) : ∀ e : List ℕ, (∀ j < e.length, keep j = true) →
    pick keep e = e := by
  intro e
  induction e generalizing keep with
  | nil => intro _; rfl
  | cons c e ih =>
    intro h
    rw [pick, if_pos (h 0 (by simp)), ih _ (fun j hj => h (j + 1) (by simpa using hj))]

/-- The dependent variable used to show that other axis orders go wrong: it has exactly the axes of
the marginalised variable, in the order `p`, and does not actually use its value. -/
noncomputable def probe (p : List ℕ) : Dep :=
  ⟨p.map some, 0, List.replicate p.length p.length,
    fun _ e => if e = List.range p.length then 1 else 0⟩

theorem probe_known (p : List ℕ) : (probe p).dims.filterMap id = p := by
  simp [probe, List.filterMap_map]

theorem idxOf_map_some (p : List ℕ) (q : ℕ) : (p.map some).idxOf (some q) = p.idxOf q := by
  induction p with
  | nil => rfl
  | cons a p ih =>
    by_cases h : a = q
    · subst h; simp
    · rw [List.map_cons, List.idxOf_cons_ne _ (by simpa using h), List.idxOf_cons_ne _ h, ih]

theorem getD_replicate_lt {k c j : ℕ} (h : j < k) : (List.replicate k c).getD j 0 = c := by
  rw [List.getD_eq_getElem _ _ (by simpa using h)]
  simp

theorem probe_wellConnected {p : List ℕ} (hp : p.Perm (List.range p.length)) :
    WellConnected (List.replicate p.length p.length) (probe p) := by
  refine ⟨by simp [probe], by rw [probe_known]; simpa using hp, ?_, ?_, ?_⟩
  · intro a ha
    rw [List.getD_eq_default]
    simpa [probe] using ha
  · intro q hq
    have hq' : q < p.length := by simpa using hq
    have hmem : q ∈ p := hp.mem_iff.2 (List.mem_range.2 hq')
    have := List.idxOf_lt_length_iff.2 hmem
    show (List.replicate p.length p.length).getD ((p.map some).idxOf (some q)) 0 = _
    rw [idxOf_map_some, getD_replicate_lt this, getD_replicate_lt hq']
  · intro e _ x x' _; rfl

/-- If the probe is combined correctly, the axis order is self-inverse. -/
theorem probe_forces_self {p : List ℕ} (hp : p.Perm (List.range p.length)) (hpos : 0 < p.length)
    {r : List ℕ → EReal} (hr : reduceDep (probe p) (fun _ => 0) = some r)
    (hidx : ∀ idx ∈ box (List.replicate p.length p.length),
      r idx = groupedLogp (List.replicate p.length p.length) (probe p) (fun _ => 0) idx) :
    SelfInverse p := by
  have hpbox : p ∈ box (List.replicate p.length p.length) := by
    rw [mem_box]
    refine ⟨by simp, ?_⟩
    intro j hj
    have hj' : j < p.length := by simpa using hj
    rw [getD_replicate_lt hj', List.getD_eq_getElem _ _ hj']
    exact List.mem_range.1 (hp.mem_iff.1 (List.getElem_mem hj'))
  have hrbox : List.range p.length ∈ box (List.replicate p.length p.length) := by
    rw [mem_box]
    refine ⟨by simp, ?_⟩
    intro j hj
    have hj' : j < p.length := by simpa using hj
    rw [getD_replicate_lt hj', List.getD_eq_getElem _ _ (by simpa using hj')]
    simpa using hj'
  have hval := hidx p hpbox
  -- what the code returns at index `p`
  obtain ⟨hm1, hm2⟩ := mask_eq (probe_wellConnected hp) (Or.inl rfl)
  have hl : (probe p).shape.length = p.length := by simp [probe]
  unfold reduceDep at hr
  rw [hl] at hm1 hm2
  simp only [hl, if_pos hpos, hm1, Bool.false_eq_true, if_false, probe_known] at hr
  injection hr with hr
  subst hr
  have hcode : transposeArgs p (sumAxes (fun j => !(suppAxes (probe p).dims (probe p).supp).contains
      (p.length - j)) (probe p).shape ((probe p).logp fun _ => 0)) p = 1 := by
    rw [transposeArgs_eq _ _ _ rfl, transposeT]
    have e1 : (List.range p.length).map (fun a => p.getD (p.idxOf a) 0) = List.range p.length := by
      conv_rhs => rw [← List.map_id (List.range p.length)]
      apply List.map_congr_left
      intro a ha
      exact getD_idxOf (hp.mem_iff.2 ha)
    rw [e1, sumAxes]
    have e2 : (box (probe p).shape).filter (fun e => pick (fun j =>
        !(suppAxes (probe p).dims (probe p).supp).contains (p.length - j)) e
          = List.range p.length)
        = (box (probe p).shape).filter (fun e => e = List.range p.length) := by
      apply List.filter_congr
      intro e he
      rw [pick_all]
      intro j hj
      have hj' : j < p.length := by
        rw [(mem_box.1 he).1, hl] at hj; exact hj
      rw [hm2 j hj']
      show ((p.map some).getD j none).isSome = true
      rw [List.getD_eq_getElem _ _ (by simpa using hj')]
      simp
    rw [e2]
    show (List.map (fun e => if e = List.range p.length then (1 : EReal) else 0) _).sum = 1
    rw [sum_indicator _ ((nodup_box _).filter _), if_pos]
    rw [List.mem_filter]
    exact ⟨hrbox, by simp⟩
  rw [spread_eq (fun hn => by rw [probe_known] at hn; exact hn.1), hcode] at hval
  have hown : owner (probe p).dims (List.replicate p.length p.length).length (List.range p.length)
      = p := by
    by_contra hne
    have : groupedLogp (List.replicate p.length p.length) (probe p) (fun _ => 0) p = 0 := by
      unfold groupedLogp
      show (List.map (fun e => if e = List.range p.length then (1 : EReal) else 0) _).sum = 0
      rw [sum_indicator _ ((nodup_box _).filter _), if_neg]
      rw [List.mem_filter]
      rintro ⟨_, h2⟩
      exact hne (of_decide_eq_true h2)
    rw [this] at hval
    exact absurd hval one_ne_zero
  intro a ha
  have : (owner (probe p).dims (List.replicate p.length p.length).length
      (List.range p.length)).getD a 0 = p.getD a 0 := by rw [hown]
  rw [← this]
  unfold owner
  rw [List.getD_eq_getElem (l := (List.range _).map _) _ (by simpa using ha)]
  have hlt := List.idxOf_lt_length_iff.2 (hp.mem_iff.2 (List.mem_range.2 ha))
  simp only [List.getElem_map, List.getElem_range, probe, idxOf_map_some]
  rw [List.getD_eq_getElem _ _ (by simpa using hlt)]
  simp

/-- **C45.** For a given reported axis order, combining a dependent log-probability puts every entry
in the right place — for every dependent variable with that order — if and only if the order is its
own inverse as a permutation. -/
theorem C45_aligned_iff_self_inverse {p : List ℕ} (hp : p.Perm (List.range p.length)) :
    (∀ (s : List ℕ) (d : Dep), s.length = p.length → d.dims.filterMap id = p →
      WellConnected s d → NoExtraForMultivariate d →
      ∀ x, ∃ r, reduceDep d x = some r ∧ ∀ idx ∈ box s, r idx = groupedLogp s d x idx)
    ↔ SelfInverse p := by
  constructor
  · intro H
    rcases Nat.eq_zero_or_pos p.length with h0 | hpos
    · intro a ha; omega
    obtain ⟨r, hr, hidx⟩ := H (List.replicate p.length p.length) (probe p) (by simp)
      (probe_known p) (probe_wellConnected hp) (Or.inl rfl) (fun _ => 0)
    exact probe_forces_self hp hpos hr hidx
  · intro hself s d _ hd hw hx x
    exact reduceDep_eq hw hx (by rw [hd]; exact hself) x

/-- **C45.** With one or two batch axes every order is self-inverse, so alignment is always right. -/
theorem C45_two_axes {p : List ℕ} {n : ℕ} (hn : n ≤ 2) (hp : p.Perm (List.range n)) :
    SelfInverse p := by
  have hl : p.length = n := by rw [hp.length_eq, List.length_range]
  have hnd : p.Nodup := hp.nodup_iff.2 List.nodup_range
  have hm : ∀ a ∈ p, a < n := fun a ha => List.mem_range.1 (hp.mem_iff.1 ha)
  match p, hl with
  | [], _ => intro a ha; simp at ha
  | [a], hl =>
    have : a < 1 := by have := hm a (by simp); simp at hl; omega
    have : a = 0 := by omega
    subst this
    intro b hb
    have : b = 0 := by simpa using hb
    subst this; rfl
  | [a, b], hl =>
    have h1 : a < 2 := by have := hm a (by simp); simp at hl; omega
    have h2 : b < 2 := by have := hm b (by simp); simp at hl; omega
    have h3 : a ≠ b := by simpa using hnd
    have : (a = 0 ∧ b = 1) ∨ (a = 1 ∧ b = 0) := by omega
    rcases this with ⟨rfl, rfl⟩ | ⟨rfl, rfl⟩
    · intro c hc
      have : c = 0 ∨ c = 1 := by simp at hc; omega
      rcases this with rfl | rfl <;> rfl
    · intro c hc
      have : c = 0 ∨ c = 1 := by simp at hc; omega
      rcases this with rfl | rfl <;> rfl
  | _ :: _ :: _ :: _, hl => simp at hl; omega

/-- **C45.** With three batch axes in the cyclic order `(1, 2, 0)` alignment is wrong: some dependent
variable with these (correct) dims has its log-probabilities combined with the wrong entries. -/
theorem C45_three_axes_wrong :
    ∃ (s : List ℕ) (d : Dep), d.dims = [some 1, some 2, some 0] ∧ WellConnected s d ∧
      NoExtraForMultivariate d ∧
      ∃ x r, reduceDep d x = some r ∧ ∃ idx ∈ box s, r idx ≠ groupedLogp s d x idx := by
  have hp : ([1, 2, 0] : List ℕ).Perm (List.range [1, 2, 0].length) := by decide
  have hw := probe_wellConnected hp
  obtain ⟨r, hr⟩ : ∃ r, reduceDep (probe [1, 2, 0]) (fun _ => 0) = some r := by
    have hm := (mask_eq hw (Or.inl rfl)).1
    unfold reduceDep
    rw [if_pos (by decide)]
    simp only [hm, Bool.false_eq_true, if_false]
    exact ⟨_, rfl⟩
  refine ⟨_, probe [1, 2, 0], rfl, hw, Or.inl rfl, fun _ => 0, r, hr, ?_⟩
  by_contra hcon
  push Not at hcon
  have h0 := probe_forces_self hp (by decide) hr hcon 0 (by decide)
  exact absurd h0 (by decide)

/-! ### C99: multivariate dependents -/

/-- **C99.** For a dependent variable with `supp` support axes the code sums log-probability axis
`j` exactly when *variable* axis `j + supp` is an untracked batch axis: the axes are counted on the
variable, but the log-probability has `supp` axes less. -/
theorem C99_summed_axes (d : Dep) (hlen : d.shape.length + d.supp = d.dims.length) (j : ℕ)
    (hj : j < d.shape.length) :
    (suppAxes d.dims d.supp).contains (d.shape.length - j) = true ↔
      j + d.supp < d.shape.length ∧ d.dims.getD (j + d.supp) none = none :=
  contains_suppAxes hlen hj

/-- **C99.** The combination fails with an axis error exactly when one of the first `supp` axes is
an untracked batch axis. -/
theorem C99_axis_error (d : Dep) (hlen : d.shape.length + d.supp = d.dims.length)
    (hpos : 0 < d.shape.length) (x : List ℕ → ℤ) :
    reduceDep d x = none ↔
      ∃ a < d.supp, a < d.shape.length ∧ d.dims.getD a none = none := by
  unfold reduceDep
  simp only [if_pos hpos]
  have key : (suppAxes d.dims d.supp).any (fun i => decide (d.shape.length < i)) = true ↔
      ∃ a < d.supp, a < d.shape.length ∧ d.dims.getD a none = none := by
    rw [List.any_eq_true]
    constructor
    · rintro ⟨i, hi, hc⟩
      have hc' : d.shape.length < i := by simpa using hc
      obtain ⟨h1, h2, h3, h4⟩ := mem_suppAxes.1 hi
      exact ⟨d.dims.length - i, by omega, by omega, h4⟩
    · rintro ⟨a, h1, h2, h3⟩
      refine ⟨d.dims.length - a, ?_, by simp; omega⟩
      rw [mem_suppAxes]
      have e : d.dims.length - (d.dims.length - a) = a := by omega
      rw [e]
      exact ⟨by omega, by omega, by omega, h3⟩
  rw [← key]
  by_cases hb : (suppAxes d.dims d.supp).any (fun i => decide (d.shape.length < i)) = true
  · simp [hb]
  · rw [if_neg hb]
    simp only [reduceCtorEq, false_iff]
    exact hb

/-- **C99.** A concrete case: a dependent of shape `(2, 2)` plus one support axis, whose first axis
carries the marginalised variable.  The dims are right, but the code sums the first axis (the
marginalised variable's own) and keeps the untracked one: the result at entry `[0]` is the sum of
column `0` instead of row `0`. -/
theorem C99_wrong_axis :
    ∃ (d : Dep) (x : List ℕ → ℤ) (r : List ℕ → EReal),
      d.dims = [some 0, none, none] ∧ d.supp = 1 ∧ WellConnected [2] d ∧
      reduceDep d x = some r ∧
      r [0] = d.logp x [0, 0] + d.logp x [1, 0] ∧
      groupedLogp [2] d x [0] = d.logp x [0, 0] + d.logp x [0, 1] ∧
      r [0] ≠ groupedLogp [2] d x [0] := by
  set d : Dep := ⟨[some 0, none, none], 1, [2, 2], fun _ e => if e = [0, 1] then 1 else 0⟩ with hd
  have hr : reduceDep d (fun _ => 0) = some (transposeArgs [0]
      (sumAxes (fun j => !(suppAxes d.dims d.supp).contains (2 - j)) [2, 2]
        (d.logp (fun _ => 0)))) := by
    rfl
  have hbox : box [2, 2] = [[0, 0], [0, 1], [1, 0], [1, 1]] := by decide
  have h1 : transposeArgs [0] (sumAxes (fun j => !(suppAxes d.dims d.supp).contains (2 - j)) [2, 2]
        (d.logp (fun _ => 0))) [0] = d.logp (fun _ => 0) [0, 0] + d.logp (fun _ => 0) [1, 0] := by
    have hf : (box [2, 2]).filter (fun e => pick (fun j =>
        !(suppAxes d.dims d.supp).contains (2 - j)) e = [0]) = [[0, 0], [1, 0]] := by
      rw [hbox, hd]; decide
    show sumAxes _ _ _ [0] = _
    rw [sumAxes, hf]
    simp
  have h2 : groupedLogp [2] d (fun _ => 0) [0]
      = d.logp (fun _ => 0) [0, 0] + d.logp (fun _ => 0) [0, 1] := by
    have hf : (box d.shape).filter (fun e => owner d.dims [2].length e = [0])
        = [[0, 0], [0, 1]] := by
      show (box [2, 2]).filter _ = _
      rw [hbox, hd]; decide
    rw [groupedLogp, hf]
    simp
  refine ⟨d, fun _ => 0, _, rfl, rfl, ?_, hr, h1, h2, ?_⟩
  · refine ⟨rfl, by decide, ?_, ?_, fun _ _ _ _ _ => rfl⟩
    · intro a ha
      match a, ha with
      | 0, h => simp [hd] at h
      | 1, h => simp [hd] at h
      | 2, _ => rfl
      | (a + 3), _ => rw [List.getD_eq_default]; simp [hd]
    · intro q hq
      have : q = 0 := by simpa using hq
      subst this; rfl
  · rw [h1, h2]
    simp [hd]

end Marginal
