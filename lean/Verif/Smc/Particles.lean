import Verif.Smc.Model
import Mathlib.Data.List.Nodup
import Mathlib.Algebra.BigOperators.Group.List.Basic
import Mathlib.Tactic.Linarith
import Mathlib.Tactic.Ring

/-!
# Particles: from prior draws to BlackJax leaves and back to a trace
-/

set_option autoImplicit false

namespace Verif.Smc

/-- A free variable with its draws: the name of its value variable, the shape of the value and the raveled draws.
pymc_extras/inference/smc/sampling.py:404-420 -/
structure VarDraws (α : Type) where
  name : String
  shape : List ℕ
  draws : List (List α)

/-- `n` draws of the right size. pymc_extras/inference/smc/sampling.py:415 -/
def VarDraws.Wf {α : Type} (v : VarDraws α) (n : ℕ) : Prop :=
  v.draws.length = n ∧ ∀ x ∈ v.draws, x.length = v.shape.prod

/-- The leaf of a variable. pymc_extras/inference/smc/sampling.py:309-314, 418 -/
def VarDraws.leaf {α : Type} (v : VarDraws α) : Arr α := format (stack v.shape v.draws)

/-- The population of these variables. pymc_extras/inference/smc/sampling.py:404-420 -/
def populationOf {α : Type} (vs : List (VarDraws α)) : List (String × Arr α) :=
  initializePopulation (vs.map VarDraws.name) (vs.map fun v => (v.shape, v.draws))

/-- pymc_extras/inference/smc/sampling.py:418 -/
theorem populationOf_eq {α : Type} (vs : List (VarDraws α)) :
    populationOf vs = vs.map fun v => (v.name, stack v.shape v.draws) := by
  unfold populationOf initializePopulation
  induction vs with
  | nil => rfl
  | cons v vs ih => simpa using ih

/-- pymc_extras/inference/smc/sampling.py:316 -/
theorem mapM_ok_iff {ε A B : Type} (f : A → Except ε B) :
    ∀ (l : List A) (r : List B), l.mapM f = .ok r ↔ List.Forall₂ (fun a b => f a = .ok b) l r := by
  intro l
  induction l with
  | nil =>
    intro r
    simp only [List.mapM_nil, List.forall₂_nil_left_iff, pure, Except.pure, Except.ok.injEq]
    exact eq_comm
  | cons a l ih =>
    intro r
    rw [List.mapM_cons]
    cases hf : f a with
    | error e =>
      simp only [bind, Except.bind]
      constructor
      · intro h; cases h
      · intro h; cases h with
        | cons h1 _ => rw [hf] at h1; cases h1
    | ok b =>
      cases hm : l.mapM f with
      | error e =>
        simp only [bind, Except.bind]
        constructor
        · intro h; cases h
        · intro h; cases h with
          | cons _ h2 => rw [← ih, hm] at h2; cases h2
      | ok bs =>
        simp only [bind, Except.bind, pure, Except.pure, Except.ok.injEq]
        constructor
        · rintro rfl
          exact .cons hf ((ih bs).1 hm)
        · intro h
          cases h with
          | cons h1 h2 =>
            rw [← ih, hm] at h2
            rw [hf] at h1
            simp only [Except.ok.injEq] at h1 h2
            rw [h1, h2]

/-- pymc_extras/inference/smc/sampling.py:316 -/
theorem mapM_ok_map {ε A B : Type} (f : A → Except ε B) (g : A → B) (l : List A) (h : ∀ a ∈ l, f a = .ok (g a)) :
    l.mapM f = .ok (l.map g) := by
  rw [mapM_ok_iff]
  induction l with
  | nil => exact .nil
  | cons a l ih => exact .cons (h a (by simp)) (ih fun b hb => h b (by simp [hb]))

/-- pymc_extras/inference/smc/sampling.py:310 -/
theorem lookup_population {α : Type} (vs : List (VarDraws α)) (hnd : (vs.map VarDraws.name).Nodup) (v : VarDraws α)
    (hv : v ∈ vs) : (populationOf vs).lookup v.name = some (stack v.shape v.draws) := by
  rw [populationOf_eq]
  induction vs with
  | nil => simp at hv
  | cons a vs ih =>
    simp only [List.map_cons, List.nodup_cons] at hnd
    rw [List.map_cons, List.lookup_cons]
    rcases List.mem_cons.1 hv with e | e
    · subst e; simp
    · have : (v.name == a.name) = false := by
        have : v.name ≠ a.name := fun h => hnd.1 (h ▸ List.mem_map_of_mem (f := VarDraws.name) e)
        simpa using this
      rw [this]
      exact ih hnd.2 e

/-- Leaf `j` holds the draws of the `j`-th value variable, whatever the order of the free variables in the population, and
scalars become columns. pymc_extras/inference/smc/sampling.py:292-316, 404-420 -/
theorem C129_leaf_order {α : Type} (vs order : List (VarDraws α)) (hnd : (vs.map VarDraws.name).Nodup)
    (hsub : ∀ v ∈ order, v ∈ vs) :
    particlesOf (order.map VarDraws.name) (populationOf vs) = .ok (order.map VarDraws.leaf) := by
  unfold particlesOf
  rw [mapM_ok_iff]
  induction order with
  | nil => exact .nil
  | cons v order ih =>
    refine .cons ?_ (ih fun w hw => hsub w (by simp [hw]))
    rw [lookup_population vs hnd v (hsub v (by simp))]
    rfl

/-- A value variable without draws raises KeyError. pymc_extras/inference/smc/sampling.py:310 -/
theorem C129_missing_variable {α : Type} (vs : List (VarDraws α)) (order : List String) (name : String)
    (hm : name ∈ order) (hn : name ∉ vs.map VarDraws.name) :
    ¬ ∃ r, particlesOf order (populationOf vs) = .ok r := by
  rintro ⟨r, h⟩
  unfold particlesOf at h
  rw [mapM_ok_iff] at h
  have hno : (populationOf vs).lookup name = none := by
    rw [populationOf_eq, List.lookup_eq_none_iff]
    intro x hx
    obtain ⟨v, hv, rfl⟩ := List.mem_map.1 hx
    have : name ≠ v.name := fun e => hn (e ▸ List.mem_map_of_mem (f := VarDraws.name) hv)
    simpa using this
  induction h with
  | nil => simp at hm
  | cons h1 _ ih =>
    rcases List.mem_cons.1 hm with e | e
    · subst e; rw [hno] at h1; cases h1
    · exact ih e

/-! ### Shapes -/

/-- Squeezing does not change the number of entries. pymc_extras/inference/smc/sampling.py:210 -/
theorem prod_filter_ne_one (l : List ℕ) : (l.filter (· ≠ 1)).prod = l.prod := by
  induction l with
  | nil => rfl
  | cons a l ih =>
    by_cases h : a = 1
    · simp [h, ← ih]
    · simp [h, ← ih]

/-- Squeezing keeps the number of axes only when there is no axis of length one.
pymc_extras/inference/smc/sampling.py:210 -/
theorem length_filter_ne_one (l : List ℕ) : (l.filter (· ≠ 1)).length = l.length ↔ 1 ∉ l := by
  rw [List.length_filter_eq_length_iff]
  constructor
  · intro h hm; simpa using h 1 hm
  · intro h a ha
    have : a ≠ 1 := fun e => h (e ▸ ha)
    simpa using this

/-- pymc_extras/inference/smc/sampling.py:209-218 -/
theorem length_filter_ne_one_le (l : List ℕ) : (l.filter (· ≠ 1)).length ≤ l.length := List.length_filter_le _ _

/-- The shape of a leaf without its unit axes. pymc_extras/inference/smc/sampling.py:309-314 -/
theorem leaf_squeeze {α : Type} (v : VarDraws α) :
    v.leaf.squeeze = ⟨(v.draws.length :: v.shape).filter (· ≠ 1), v.draws.flatten⟩ := by
  unfold VarDraws.leaf format stack Arr.squeeze
  cases h : v.shape with
  | nil => by_cases h1 : v.draws.length = 1 <;> simp [h1]
  | cons a l => rfl

/-- pymc_extras/inference/smc/sampling.py:218 -/
theorem slice_flatten {α : Type} (k : ℕ) : ∀ (draws : List (List α)) (_ : ∀ x ∈ draws, x.length = k) (i : ℕ)
    (hi : i < draws.length), (draws.flatten.drop (i * k)).take k = draws[i] := by
  intro draws
  induction draws with
  | nil => intro _ i hi; simp at hi
  | cons a draws ih =>
    intro h i hi
    have ha : a.length = k := h a (by simp)
    cases i with
    | zero =>
      rw [List.flatten_cons, Nat.zero_mul, List.drop_zero, List.take_append_of_le_length (by omega)]
      simp [← ha]
    | succ i =>
      rw [List.flatten_cons, show (i + 1) * k = a.length + i * k by rw [ha]; ring, List.drop_append,
        List.drop_eq_nil_of_le (show a.length ≤ a.length + i * k by omega), List.nil_append, Nat.add_sub_cancel_left]
      simpa using ih (fun x hx => h x (by simp [hx])) i (by simpa using hi)

/-- pymc_extras/inference/smc/sampling.py:209-218 -/
theorem length_flatten_const {α : Type} (k : ℕ) (draws : List (List α)) (h : ∀ x ∈ draws, x.length = k) :
    draws.flatten.length = draws.length * k := by
  induction draws with
  | nil => simp
  | cons a draws ih =>
    rw [List.flatten_cons, List.length_append, ih fun x hx => h x (by simp [hx]), h a (by simp), List.length_cons]
    ring

/-- The value recorded for one variable and one particle, as a chain of the operations on the leaf.
pymc_extras/inference/smc/sampling.py:209-218 -/
def recordLeaf {α : Type} (ndim : ℕ) (b : Arr α) (i : ℕ) : Except SErr (List α) := do
  let chain ← b.index 0
  let value ← chain.index i
  recordValue ndim value

/-- With at least two particles the entry of a variable keeps its draws.
pymc_extras/inference/smc/sampling.py:209-212 -/
theorem entry_many {α : Type} (v : VarDraws α) (n : ℕ) (hw : v.Wf n) (hn : n ≠ 1) :
    byVarnameEntry v.leaf = .ok ⟨1 :: n :: v.shape.filter (· ≠ 1), v.draws.flatten⟩ := by
  unfold byVarnameEntry
  rw [leaf_squeeze]
  simp [Arr.newAxis, hw.1, hn]

/-- pymc_extras/inference/smc/sampling.py:218 -/
theorem recordLeaf_many {α : Type} (v : VarDraws α) (n : ℕ) (hw : v.Wf n) (i : ℕ) (hi : i < n) :
    recordLeaf v.shape.length ⟨1 :: n :: v.shape.filter (· ≠ 1), v.draws.flatten⟩ i =
      if 1 ∈ v.shape then .error .typeError else .ok (v.draws[i]'(by rw [hw.1]; exact hi)) := by
  have hlen := length_flatten_const v.shape.prod v.draws hw.2
  have hp := prod_filter_ne_one v.shape
  have hsl := slice_flatten v.shape.prod v.draws hw.2 i (by rw [hw.1]; exact hi)
  have htake : List.take (n * v.shape.prod) v.draws.flatten = v.draws.flatten := by
    rw [← hw.1, ← hlen, List.take_length]
  unfold recordLeaf Arr.index recordValue
  simp only [bind, Except.bind, Nat.zero_lt_one, ↓reduceIte, Nat.zero_mul, List.drop_zero, List.prod_cons, hp, hi, htake,
    hsl, length_filter_ne_one]
  by_cases h : 1 ∈ v.shape <;> simp [h]

/-- With one particle nothing can be recorded. pymc_extras/inference/smc/sampling.py:209-218 -/
theorem record_one {α : Type} (v : VarDraws α) (hw : v.Wf 1) (b : Arr α) (hb : byVarnameEntry v.leaf = .ok b)
    (i : ℕ) : ¬ ∃ r, recordLeaf v.shape.length b i = .ok r := by
  unfold byVarnameEntry at hb
  rw [leaf_squeeze, hw.1] at hb
  have hle := length_filter_ne_one_le v.shape
  have hf : (1 :: v.shape).filter (· ≠ 1) = v.shape.filter (· ≠ 1) := by simp
  rw [hf] at hb
  generalize v.shape.filter (· ≠ 1) = q at hb hle
  unfold Arr.newAxis at hb
  cases q with
  | nil => simp at hb
  | cons a q =>
    simp only [Except.ok.injEq] at hb
    subst hb
    rintro ⟨r, hr⟩
    unfold recordLeaf Arr.index recordValue at hr
    simp only [bind, Except.bind, Nat.zero_lt_one, ↓reduceIte] at hr
    have hne : ¬ q.length = v.shape.length := by simp at hle; omega
    by_cases h : i < a <;> simp [h, hne] at hr

/-! ### The trace -/

/-- Names and numbers of dimensions of the value variables. pymc_extras/inference/smc/sampling.py:211-218 -/
def varsOf {α : Type} (vs : List (VarDraws α)) : List (String × ℕ) := vs.map fun v => (v.name, v.shape.length)

/-- pymc_extras/inference/smc/sampling.py:208 -/
theorem leaf_first_axis {α : Type} (v : VarDraws α) : ∃ rest, v.leaf.shape = v.draws.length :: rest := by
  unfold VarDraws.leaf format stack
  cases h : v.shape with
  | nil => exact ⟨[1], rfl⟩
  | cons a l => exact ⟨a :: l, rfl⟩

/-- `arviz_from_particles` on the leaves of these variables, unfolded. pymc_extras/inference/smc/sampling.py:191-220 -/
theorem arviz_eq {α : Type} (v : VarDraws α) (vs : List (VarDraws α)) (n : ℕ) (hw : v.Wf n) :
    arvizFromParticles (varsOf (v :: vs)) ((v :: vs).map VarDraws.leaf) =
      (do
        let byVarname ← (v :: vs).mapM fun w => byVarnameEntry w.leaf
        let trace ← (List.range n).mapM fun i => recordPoint (varsOf (v :: vs)) byVarname i
        if n = 0 then .error .unboundLocal else .ok trace) := by
  obtain ⟨rest, hr⟩ := leaf_first_axis v
  have hz : ∀ ws : List (VarDraws α), ((varsOf ws).zip (ws.map VarDraws.leaf)).mapM
      (fun x => byVarnameEntry x.2) = ws.mapM fun w => byVarnameEntry w.leaf := by
    intro ws
    induction ws with
    | nil => rfl
    | cons w ws ih =>
      simp only [varsOf, List.map_cons, List.zip_cons_cons, List.mapM_cons] at ih ⊢
      rw [ih]
  unfold arvizFromParticles
  rw [hz]
  simp only [List.map_cons, hr, hw.1]
  rfl

/-- pymc_extras/inference/smc/sampling.py:217-218 -/
theorem recordPoint_ok_iff {α : Type} (vs : List (VarDraws α)) (bs : List (Arr α)) (i : ℕ) (r : List (List α)) :
    recordPoint (varsOf vs) bs i = .ok r ↔
      List.Forall₂ (fun x y => recordLeaf x.1.shape.length x.2 i = .ok y) (vs.zip bs) r := by
  unfold recordPoint
  rw [mapM_ok_iff]
  have : (varsOf vs).zip bs = (vs.zip bs).map fun x => ((x.1.name, x.1.shape.length), x.2) := by
    unfold varsOf
    rw [List.zip_map_left]
    rfl
  rw [this, List.forall₂_map_left_iff]
  rfl

/-- With at least two particles and no axis of length one the trace is the list of draws.
pymc_extras/inference/smc/sampling.py:191-220 -/
theorem arviz_ok {α : Type} (vs : List (VarDraws α)) (n : ℕ) (hne : vs ≠ []) (hn : 2 ≤ n)
    (hw : ∀ v ∈ vs, v.Wf n) (h1 : ∀ v ∈ vs, 1 ∉ v.shape) :
    arvizFromParticles (varsOf vs) (vs.map VarDraws.leaf) =
      .ok ((List.range n).map fun i => vs.map fun v => v.draws.getD i []) := by
  obtain ⟨v, ws, hvs⟩ := List.exists_cons_of_ne_nil hne
  have he := arviz_eq v ws n (hw v (by simp [hvs]))
  rw [← hvs] at he
  rw [he]
  have hb : vs.mapM (fun w => byVarnameEntry w.leaf) =
      .ok (vs.map fun w => ⟨1 :: n :: w.shape.filter (· ≠ 1), w.draws.flatten⟩) :=
    mapM_ok_map _ _ _ fun w hwm => entry_many w n (hw w hwm) (by omega)
  rw [hb]
  have ht : ((List.range n).mapM fun i => recordPoint (varsOf vs)
      (vs.map fun w => (⟨1 :: n :: w.shape.filter (· ≠ 1), w.draws.flatten⟩ : Arr α)) i) =
      .ok ((List.range n).map fun i => vs.map fun v => v.draws.getD i []) := by
    refine mapM_ok_map _ _ _ fun i hi => ?_
    rw [recordPoint_ok_iff]
    have hi' : i < n := List.mem_range.1 hi
    clear hb hvs hne he
    induction vs with
    | nil => exact .nil
    | cons w vs ih =>
      refine .cons ?_ (ih (fun u hu => hw u (by simp [hu])) (fun u hu => h1 u (by simp [hu])))
      have hl : i < w.draws.length := by
        have := (hw w (by simp)).1
        omega
      have := recordLeaf_many w n (hw w (by simp)) i hi'
      rw [if_neg (h1 w (by simp))] at this
      rw [this]
      simp [List.getD, List.getElem?_eq_getElem hl]
  simp only [bind, Except.bind]
  rw [ht]
  simp only
  rw [if_neg (by omega)]

/-- The particles drawn from the prior come back as the same draws: with at least two particles and no value variable with
an axis of length one, particle `i` of the trace holds draw `i` of every variable.
pymc_extras/inference/smc/sampling.py:191-220, 292-316, 404-420 -/
theorem C129_round_trip {α : Type} (vs : List (VarDraws α)) (n : ℕ) (hne : vs ≠ []) (hn : 2 ≤ n)
    (hnd : (vs.map VarDraws.name).Nodup) (hw : ∀ v ∈ vs, v.Wf n) (h1 : ∀ v ∈ vs, 1 ∉ v.shape) :
    ∃ leaves tr, particlesOf (vs.map VarDraws.name) (populationOf vs) = .ok leaves ∧
      arvizFromParticles (varsOf vs) leaves = .ok tr ∧ tr.length = n ∧
      ∀ i, i < n → tr[i]? = some (vs.map fun v => v.draws.getD i []) := by
  refine ⟨_, (List.range n).map fun i => vs.map fun v => v.draws.getD i [],
    C129_leaf_order vs vs hnd (fun v hv => hv), arviz_ok vs n hne hn hw h1, by simp, ?_⟩
  intro i hi
  simp [hi]

/-- The trace can be built exactly when there are at least two particles and no value variable has an axis of length one;
otherwise the call raises after all the sampling has been done. pymc_extras/inference/smc/sampling.py:191-220 -/
theorem C129_trace_iff {α : Type} (vs : List (VarDraws α)) (n : ℕ) (hne : vs ≠ []) (hw : ∀ v ∈ vs, v.Wf n) :
    (∃ trace, arvizFromParticles (varsOf vs) (vs.map VarDraws.leaf) = .ok trace) ↔
      2 ≤ n ∧ ∀ v ∈ vs, 1 ∉ v.shape := by
  constructor
  · rintro ⟨trace, h⟩
    obtain ⟨v, ws, rfl⟩ := List.exists_cons_of_ne_nil hne
    rw [arviz_eq v ws n (hw v (by simp))] at h
    generalize hvs : v :: ws = vs at *
    cases hb : vs.mapM (fun w => byVarnameEntry w.leaf) with
    | error e => rw [hb] at h; cases h
    | ok bs =>
      rw [hb] at h
      simp only [bind, Except.bind] at h
      cases ht : (List.range n).mapM (fun i => recordPoint (varsOf vs) bs i) with
      | error e => rw [ht] at h; cases h
      | ok tr =>
        rw [ht] at h
        by_cases h0 : n = 0
        · simp [h0] at h
        · have hpt : ∃ r, recordPoint (varsOf vs) bs 0 = .ok r := by
            rw [mapM_ok_iff] at ht
            obtain ⟨m, rfl⟩ := Nat.exists_eq_succ_of_ne_zero h0
            rw [List.range_succ_eq_map] at ht
            cases ht with
            | cons h1 _ => exact ⟨_, h1⟩
          obtain ⟨r, hr⟩ := hpt
          rw [recordPoint_ok_iff] at hr
          rw [mapM_ok_iff] at hb
          have key : ∀ w ∈ vs, ∃ b y, byVarnameEntry w.leaf = .ok b ∧ recordLeaf w.shape.length b 0 = .ok y := by
            clear hvs hne hw ht h
            induction hb generalizing r with
            | nil => simp
            | cons h1 h2 ih =>
              rw [List.zip_cons_cons] at hr
              cases hr with
              | cons g1 g2 =>
                intro w hwm
                rcases List.mem_cons.1 hwm with e | e
                · subst e; exact ⟨_, _, h1, g1⟩
                · exact ih _ g2 w e
          have hn1 : n ≠ 1 := by
            rintro rfl
            obtain ⟨b, y, hb', hy⟩ := key v (by simp [← hvs])
            exact record_one v (hw v (by simp [← hvs])) b hb' 0 ⟨y, hy⟩
          refine ⟨by omega, fun w hwm => ?_⟩
          obtain ⟨b, y, hb', hy⟩ := key w hwm
          rw [entry_many w n (hw w hwm) hn1] at hb'
          simp only [Except.ok.injEq] at hb'
          subst hb'
          rw [recordLeaf_many w n (hw w hwm) 0 (by omega)] at hy
          by_contra hc
          rw [if_pos hc] at hy
          cases hy
  · rintro ⟨hn, h1⟩
    exact ⟨_, arviz_ok vs n hne hn hw h1⟩

/-- A scalar and a vector with two particles go through and come back. pymc_extras/inference/smc/sampling.py:191-220 -/
example : arvizFromParticles (α := ℕ) [("a", 0), ("b", 1)]
    [(⟨"a", [], [[1], [2]]⟩ : VarDraws ℕ).leaf, (⟨"b", [3], [[1, 2, 3], [4, 5, 6]]⟩ : VarDraws ℕ).leaf] =
    .ok [[[1], [1, 2, 3]], [[2], [4, 5, 6]]] := by
  decide

/-- A single particle, or a variable of shape `(1,)`, makes the call raise.
pymc_extras/inference/smc/sampling.py:191-220 -/
example : arvizFromParticles (α := ℕ) [("a", 0)] [(⟨"a", [], [[1]]⟩ : VarDraws ℕ).leaf] = .error .indexError ∧
    arvizFromParticles (α := ℕ) [("a", 1)] [(⟨"a", [1], [[1], [2]]⟩ : VarDraws ℕ).leaf] = .error .typeError := by
  decide

end Verif.Smc
