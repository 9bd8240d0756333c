import Verif.Marginal.GraphMain
import Verif.Marginal.LogpLemmas
import Verif.Marginal.LogpProps

/-! # C43, C44, C100: is the reported connection of batch dimensions right? -/

set_option autoImplicit false

namespace Marginal

variable {V : Type}

/-- The dictionary the analysis starts from (graph_analysis.py:365). -/
def startDims (ndim : ℕ → ℕ) (x : ℕ) : VarDims :=
  fun v => if v = x then some ((List.range (ndim x)).map some) else none

/-- An environment in which variable `x` is the marginalised variable itself and nothing else
depends on it. -/
def IsInput {n : ℕ} (x : ℕ) (env : ℕ → Tn V n) : Prop :=
  (∀ X idx, (env x).entry X idx = X (fun d => idx d.val)) ∧ ∀ v, v ≠ x → Indep (env v)

/-- **C43.** If the analysis succeeds on a graph in which no known length-one axis is broadcast or
dropped and no known dimension `0` is reduced, then for every requested variable
* either every axis of the marginalised variable is reported exactly once (`π d` is the axis
  reported for `d`) and each entry depends on the marginalised variable only through the *one* entry
  with those coordinates;
* or no axis is reported, and the variable does not depend on the marginalised variable at all. -/
theorem C43_reported_dims_sound (toNat : V → ℕ) (dflt : V) (ndim : ℕ → ℕ) (x : ℕ)
    (g : List (Node V)) (outs : List ℕ) (res : List Dims) (env : ℕ → Tn V (ndim x))
    (hin : IsInput x env)
    (hsafe : SafeGraph toNat dflt ndim g (startDims ndim x) env)
    (h : batchDimConnection ndim x g outs = .ok res) :
    ∀ (k v : ℕ), outs[k]? = some v → ∃ ds, res[k]? = some ds ∧ ds.length = ndim v ∧
      ((∃ π : Fin (ndim x) → ℕ,
          (∀ (j : ℕ) (d : Fin (ndim x)), ds[j]? = some (some d.val) ↔ j = π d) ∧
          ∀ (X X' : (Fin (ndim x) → ℕ) → V) (idx : ℕ → ℕ),
            X (fun d => idx (π d)) = X' (fun d => idx (π d)) →
            (run toNat dflt ndim g env v).entry X idx = (run toNat dflt ndim g env v).entry X' idx) ∨
       ((∀ e ∈ ds, e = none) ∧
          ∀ (X X' : (Fin (ndim x) → ℕ) → V) (idx : ℕ → ℕ),
            (run toNat dflt ndim g env v).entry X idx
              = (run toNat dflt ndim g env v).entry X' idx)) := by
  unfold batchDimConnection at h
  cases ha : analyse ndim g (startDims ndim x) with
  | error e =>
    rw [show (fun v => if v = x then some ((List.range (ndim x)).map some) else none)
      = startDims ndim x from rfl, ha] at h
    exact absurd h (by simp [bind, Except.bind])
  | ok vd =>
    rw [show (fun v => if v = x then some ((List.range (ndim x)).map some) else none)
      = startDims ndim x from rfl, ha] at h
    change Except.ok (outs.map (getDims ndim vd)) = Except.ok res at h
    injection h with h
    subst h
    have hstart : ∀ v, Good (ndim v) (getDims ndim (startDims ndim x) v) (env v) := by
      intro v
      by_cases hv : v = x
      · subst hv
        have e : getDims ndim (startDims ndim v) v = (List.range (ndim v)).map some := by
          simp [getDims, startDims]
        rw [e]
        refine ⟨by simp, Or.inl ⟨by simp [List.filterMap_map], ?_⟩⟩
        intro X X' idx hX
        rw [hin.1, hin.1]
        apply hX
        intro j d hj
        rw [List.getElem?_map] at hj
        cases hr : (List.range (ndim v))[j]? with
        | none => rw [hr] at hj; simp at hj
        | some a =>
          rw [hr] at hj
          have := List.getElem?_eq_some_iff.1 hr
          obtain ⟨h1, h2⟩ := this
          simp at h2 hj
          rw [h2, hj]
      · have e : getDims ndim (startDims ndim x) v = List.replicate (ndim v) none := by
          simp [getDims, startDims, hv]
        rw [e]
        exact good_of_indep (hin.2 v hv)
    have hgood := good_graph toNat dflt ndim g _ _ env hsafe hstart ha
    intro k v hk
    refine ⟨getDims ndim vd v, by rw [List.getElem?_map, hk]; rfl, (hgood v).1, ?_⟩
    rcases (hgood v).2 with ⟨hperm, hom⟩ | ⟨hnone, hind⟩
    · left
      have hnd := hperm.nodup_iff.2 List.nodup_range
      have hex : ∀ d : Fin (ndim x), ∃ j : ℕ, (getDims ndim vd v)[j]? = some (some d.val) := fun d =>
        mem_known.1 (hperm.mem_iff.2 (List.mem_range.2 d.2))
      choose π hπ using hex
      refine ⟨π, ?_, ?_⟩
      · intro j d
        constructor
        · intro hj; exact known_pos_unique hnd hj (hπ d)
        · rintro rfl; exact hπ d
      · intro X X' idx hX
        apply hom
        intro i hm
        have : i = fun d => idx (π d) := by
          funext d
          exact hm (π d) d (hπ d)
        rw [this]; exact hX
    · right
      exact ⟨hnone, hind⟩

/-- The example of the source's documentation (`idx.T[..., None] * 2`): a variable with two axes,
transposed, given a new last axis, and multiplied elementwise by a constant; all hypotheses of C43
hold and the reported dims are `(1, 0, None)`. -/
def docGraph : List (Node ℤ) :=
  [⟨.dimshuffle [some 1, some 0, none], [0], 2⟩,
   ⟨.blockwise false 3 [0, 0] (fun j => [2, 3, 5].getD j 1)
      (fun l _ => (l.map (fun t => t (fun _ => 0))).prod), [2, 1], 3⟩]

/-- The environment of the example: variable `0` is the marginalised one, of shape `(3, 2)`,
variable `1` a constant of shape `(1, 1, 5)`. -/
def docEnv : ℕ → Tn ℤ 2 := fun v =>
  if v = 0 then ⟨fun j => [3, 2].getD j 1, fun X idx => X (fun d => idx d.val)⟩
  else ⟨fun j => if j = 2 then 5 else 1, fun _ _ => 2⟩

/-- Ranks of the example's variables. -/
def docNdim : ℕ → ℕ := fun v => if v = 0 then 2 else 3

example : batchDimConnection docNdim 0 docGraph [3] = .ok [[some 1, some 0, none]] := by rfl

example : IsInput (n := docNdim 0) 0 docEnv :=
  ⟨fun X idx => rfl, fun v hv X X' idx => by simp [docEnv, hv]⟩

example : SafeGraph (n := docNdim 0) Int.toNat 0 docNdim docGraph (startDims docNdim 0) docEnv := by
  refine ⟨⟨rfl, 0, rfl, rfl, by decide, ?_⟩, ?_⟩
  · intro a d h
    have h' : ([some 0, some 1] : Dims)[a]? = some (some d) := h
    match a, h' with
    | 0, _ => decide
    | 1, _ => decide
    | (a + 2), h' => simp at h'
  · intro vd' h1
    injection h1 with h1
    subst h1
    refine ⟨⟨rfl, rfl, by decide, ?_⟩, fun _ _ => trivial⟩
    intro vc hvc hd
    have hz : vc = (2, 0) ∨ vc = (1, 0) := by
      have : vc ∈ [((2 : ℕ), (0 : ℕ)), (1, 0)] := hvc
      simpa using this
    rcases hz with rfl | rfl
    · refine ⟨by decide, by decide, fun _ => rfl, ?_⟩
      intro a d ha
      have ha' : ([some 1, some 0, none] : Dims)[a]? = some (some d) := ha
      match a, ha' with
      | 0, _ => rintro ⟨h, _⟩; exact absurd (show (2 : ℕ) = 1 from h) (by decide)
      | 1, _ => rintro ⟨h, _⟩; exact absurd (show (3 : ℕ) = 1 from h) (by decide)
      | 2, h => simp at h
      | (a + 3), h => simp at h
    · obtain ⟨d, hd⟩ := hd
      have hd' : some d ∈ List.replicate 3 (none : Option ℕ) := hd
      exact absurd (List.mem_replicate.1 hd').2 (by simp)

/-! ### C44 -/

/-- The graph `x.sum(axis=0)`. -/
def sumAxis0 (red : (ℕ → ℕ) → ((ℕ → ℕ) → V) → V) : List (Node V) := [⟨.reduce [0] red, [0], 1⟩]

theorem keepFrom_all (keep : ℕ → Bool) : ∀ (ds : Dims) (i : ℕ), (∀ a, i ≤ a → keep a = true) →
    keepFrom keep i ds = ds := by
  intro ds
  induction ds with
  | nil => intro i _; rfl
  | cons d ds ih =>
    intro i h
    rw [keepFrom, if_pos (h i le_rfl), ih (i + 1) (fun a ha => h a (by omega))]

/-- **C44.** Whatever the number of axes of the marginalised variable, reducing its first axis is
accepted, with the remaining axes reported in order. -/
theorem C44_reduction_of_axis_zero_accepted (red : (ℕ → ℕ) → ((ℕ → ℕ) → V) → V) (n : ℕ)
    (ndim : ℕ → ℕ) (h0 : ndim 0 = n + 1) :
    batchDimConnection ndim 0 (sumAxis0 red) [1]
      = .ok [(List.range n).map (fun d => some (d + 1))] := by
  have hrange : (List.range (n + 1)).map some = some 0 :: (List.range n).map (fun d => some (d + 1)) := by
    rw [List.range_succ_eq_map, List.map_cons, List.map_map]
    rfl
  have hnode : nodeDims ndim (startDims ndim 0) (⟨.reduce [0] red, [0], 1⟩ : Node V)
      = .ok (some ((List.range n).map (fun d => some (d + 1)))) := by
    unfold nodeDims
    have hd : getDims ndim (startDims ndim 0) 0
        = some 0 :: (List.range n).map (fun d => some (d + 1)) := by
      simp only [getDims, startDims, if_true, Option.getD_some, h0, hrange]
    simp only [List.map_cons, List.map_nil, hd]
    rw [if_neg (by simp)]
    simp only [List.getD_cons_zero, List.any_cons, List.any_nil, Bool.or_false, truthy]
    rw [if_neg (by simp)]
    have : keepFrom (fun a => !([0] : List ℕ).contains a) 0
        (some 0 :: (List.range n).map (fun d => some (d + 1)))
        = (List.range n).map (fun d => some (d + 1)) := by
      rw [keepFrom, if_neg (by simp)]
      apply keepFrom_all
      intro a ha
      simp; omega
    rw [this]
  unfold batchDimConnection sumAxis0
  rw [show (fun v => if v = 0 then some ((List.range (ndim 0)).map some) else none)
      = startDims ndim 0 from rfl]
  simp only [analyse, stepDims, hnode]
  simp [bind, Except.bind, getDims, setDims]

/-- **C44.** The reported dims are wrong: with a sum over a first axis of length at least two, entry
`idx` of the result really depends on two different entries of the marginalised variable that agree
on all reported axes. -/
theorem C44_sum_mixes_entries (n len : ℕ) (hlen : 2 ≤ len) (env : ℕ → Tn ℤ (n + 1))
    (hin : IsInput 0 env) (hshape : (env 0).shape 0 = len) (ndim : ℕ → ℕ) (dflt : ℤ) (idx : ℕ → ℕ) :
    ∀ k < len, ∃ X X' : (Fin (n + 1) → ℕ) → ℤ,
      (∀ i, i ≠ (fun d : Fin (n + 1) => if d.val = 0 then k else idx (d.val - 1)) → X i = X' i) ∧
      (run Int.toNat dflt ndim (sumAxis0 (fun sh t => ∑ r ∈ Finset.range (sh 0), t (fun _ => r))) env 1).entry X idx
      ≠ (run Int.toNat dflt ndim (sumAxis0 (fun sh t => ∑ r ∈ Finset.range (sh 0), t (fun _ => r))) env 1).entry X' idx := by
  intro k hk
  set i0 : Fin (n + 1) → ℕ := fun d => if d.val = 0 then k else idx (d.val - 1) with hi0
  refine ⟨fun _ => 0, fun i => if i = i0 then 1 else 0, ?_, ?_⟩
  · intro i hi
    simp [hi]
  · have hentry : ∀ X : (Fin (n + 1) → ℕ) → ℤ,
        (run Int.toNat dflt ndim (sumAxis0 (fun sh t => ∑ r ∈ Finset.range (sh 0), t (fun _ => r))) env 1).entry X idx
        = ∑ r ∈ Finset.range len, X (fun d => if d.val = 0 then r else idx (d.val - 1)) := by
      intro X
      show ∑ r ∈ Finset.range ((env 0).shape 0), (env 0).entry X _ = _
      rw [hshape]
      apply Finset.sum_congr rfl
      intro r _
      rw [hin.1]
      congr 1
      funext d
      by_cases hd : d.val = 0
      · simp [hd]
      · have hk : keptBefore (fun a => !([0] : List ℕ).contains a) d.val = d.val - 1 := by
          unfold keptBefore
          obtain ⟨m, hm⟩ : ∃ m, d.val = m + 1 := ⟨d.val - 1, by omega⟩
          rw [hm, List.range_succ_eq_map, List.filter_cons, if_neg (by simp), List.filter_map,
            List.length_map, List.filter_eq_self.2 (by intro a _; simp)]
          simp
        simp [hd]
        exact congrArg idx (by simpa using hk)
    rw [hentry, hentry]
    simp only [Finset.sum_const_zero]
    intro hcon
    have : ∑ r ∈ Finset.range len,
        (if (fun d : Fin (n + 1) => if d.val = 0 then r else idx (d.val - 1)) = i0 then (1 : ℤ) else 0)
        = 1 := by
      rw [Finset.sum_eq_single k]
      · simp [hi0]
      · intro r _ hr
        rw [if_neg]
        intro he
        have := congrFun he 0
        simp [hi0] at this
        exact hr this
      · intro h; exact absurd (Finset.mem_range.2 hk) h
    rw [this] at hcon
    exact absurd hcon (by decide)

/-- The marginalised variable of the two witnesses below: independent fair coins. -/
noncomputable def coin : List ℕ → ℤ → EReal := fun _ _ => ENNReal.log 2⁻¹

/-- Dependent variable of the C44 witness: a scalar that is observed when the two coins sum to one;
its reported dims are `()`. -/
noncomputable def sumDep : Dep :=
  ⟨[], 0, [], fun x _ => if x [0] + x [1] = 1 then 0 else ⊥⟩

theorem exp_coin (i : List ℕ) (k : ℤ) : EReal.exp (coin i k) = 2⁻¹ := by
  rw [coin, ENNReal.exp_log]

/-- **C44.** The resulting log-probability is not the marginal: for two fair coins and an observation
that their sum is one, the code's log-probability is `-∞` although the marginal probability is not
zero. -/
theorem C44_wrong_logp :
    ∃ t, finiteDiscreteLogp [0, 1] coin [sumDep] = some t ∧
      ((box [2]).map t).sum = ⊥ ∧
      ENNReal.log (∑ x ∈ assignments [2] [0, 1],
        EReal.exp (jointLogp [2] coin [sumDep] (extend [2] x))) ≠ ⊥ := by
  obtain ⟨t, hcode, ht⟩ : ∃ t, finiteDiscreteLogp [0, 1] coin [sumDep] = some t ∧
      ∀ idx, t idx = ⊥ := by
    refine ⟨_, rfl, ?_⟩
    intro idx
    show logsumexp [_ + [(if (0 : ℤ) + 0 = 1 then (0 : EReal) else ⊥)].sum,
      _ + [(if (1 : ℤ) + 1 = 1 then (0 : EReal) else ⊥)].sum] = ⊥
    simp [logsumexp]
  refine ⟨t, hcode, ?_, ?_⟩
  · have hb : box [2] = [[0], [1]] := by decide
    rw [hb]
    simp [ht]
  · rw [Ne, ENNReal.log_eq_bot_iff]
    intro h0
    have h1 : (fun i : (box [2]).toFinset => if i.1 = [1] then (1 : ℤ) else 0) ∈ assignments [2] [0, 1] := by
      unfold assignments
      rw [Fintype.mem_piFinset]
      intro i
      by_cases hi : i.1 = [1] <;> simp [hi]
    have h2 := Finset.sum_eq_zero_iff.1 h0 _ h1
    rw [EReal.exp_eq_zero_iff] at h2
    have hm0 : ([0] : List ℕ) ∈ (box [2]).toFinset := by decide
    have hm1 : ([1] : List ℕ) ∈ (box [2]).toFinset := by decide
    have e0 : extend [2] (fun i : (box [2]).toFinset => if i.1 = [1] then (1 : ℤ) else 0) [0] = 0 := by
      rw [extend, dif_pos hm0]; rfl
    have e1 : extend [2] (fun i : (box [2]).toFinset => if i.1 = [1] then (1 : ℤ) else 0) [1] = 1 := by
      rw [extend, dif_pos hm1]; rfl
    have h3 : jointLogp [2] coin [sumDep]
        (extend [2] (fun i : (box [2]).toFinset => if i.1 = [1] then (1 : ℤ) else 0))
        = ENNReal.log 2⁻¹ + (ENNReal.log 2⁻¹) := by
      have hb : box [2] = [[0], [1]] := by decide
      revert e0 e1
      generalize extend [2] (fun i : (box [2]).toFinset => if i.1 = [1] then (1 : ℤ) else 0) = X
      intro e0 e1
      unfold jointLogp
      rw [hb]
      simp [coin, sumDep, box, e0, e1]
    rw [h3, ← ENNReal.log_mul_add, ENNReal.log_eq_bot_iff] at h2
    simp at h2

/-! ### C100 -/

/-- **C100.** An elementwise use of a marginalised variable of shape `(1,)` in a result of any length
is accepted, and the result's axis is reported to carry the variable's axis. -/
theorem C100_broadcast_accepted (f : List ((ℕ → ℕ) → V) → (ℕ → ℕ) → V) (outShape : ℕ → ℕ)
    (ndim : ℕ → ℕ) (h0 : ndim 0 = 1) (h1 : ndim 1 = 1) :
    batchDimConnection ndim 0 ([⟨.blockwise false 1 [0] outShape f, [0], 1⟩] : List (Node V)) [1]
      = .ok [[some 0]] := by
  have hb : broadcastDims [[some 0]] = .ok [some 0] := rfl
  have hnode : nodeDims ndim (startDims ndim 0) (⟨.blockwise false 1 [0] outShape f, [0], 1⟩ : Node V)
      = .ok (some [some 0]) := by
    unfold nodeDims
    have hd : getDims ndim (startDims ndim 0) 0 = [some 0] := by
      simp [getDims, startDims, h0, List.range_succ]
    simp only [List.map_cons, List.map_nil, hd]
    rw [if_neg (by simp)]
    simp [h1, hb, bind, Except.bind]
  unfold batchDimConnection
  rw [show (fun v => if v = 0 then some ((List.range (ndim 0)).map some) else none)
      = startDims ndim 0 from rfl]
  simp only [analyse, stepDims, hnode]
  simp [bind, Except.bind, getDims, setDims]

/-- Dependent variable of the C100 witness: two observations both using the single entry of the
marginalised variable, observation `j` possible only if that entry is `j`. -/
noncomputable def bcastDep : Dep :=
  ⟨[some 0], 0, [2], fun x e => if x [0] = (e.getD 0 0 : ℕ) then 0 else ⊥⟩

/-- **C100.** Each entry of the broadcast result is then marginalised separately: for one fair coin
and two contradictory observations of it, the marginal probability is zero, but the code returns a
finite log-probability. -/
theorem C100_wrong_logp :
    ∃ t, finiteDiscreteLogp [0, 1] coin [bcastDep] = some t ∧
      ((box [2]).map t).sum ≠ ⊥ ∧
      ENNReal.log (∑ x ∈ assignments [1] [0, 1],
        EReal.exp (jointLogp [1] coin [bcastDep] (extend [1] x))) = ⊥ := by
  have hbox : box [2] = [[0], [1]] := by decide
  have hr : ∀ k : ℤ, reduceDep bcastDep (fun _ => k) = some (transposeArgs [0]
      (sumAxes (fun j => !(suppAxes [some 0] 0).contains (1 - j)) [2] (bcastDep.logp (fun _ => k)))) :=
    fun k => rfl
  have hs : ∀ (k : ℤ) (j : ℕ), j < 2 → transposeArgs [0]
      (sumAxes (fun j => !(suppAxes [some 0] 0).contains (1 - j)) [2] (bcastDep.logp (fun _ => k))) [j]
      = if k = j then 0 else ⊥ := by
    intro k j hj
    show sumAxes _ _ _ [j] = _
    have hf : (box [2]).filter (fun e => pick (fun j => !(suppAxes [some 0] 0).contains (1 - j)) e
        = [j]) = [[j]] := by
      rw [hbox]
      have : j = 0 ∨ j = 1 := by omega
      rcases this with rfl | rfl <;> decide
    rw [sumAxes, hf]
    simp [bcastDep]
  obtain ⟨t, hcode, ht⟩ : ∃ t, finiteDiscreteLogp [0, 1] coin [bcastDep] = some t ∧
      ∀ j < 2, t [j] = ENNReal.log 2⁻¹ := by
    refine ⟨_, rfl, ?_⟩
    intro j hj
    show logsumexp [coin [j] 0 + [transposeArgs [0]
          (sumAxes (fun j => !(suppAxes [some 0] 0).contains (1 - j)) [2]
            (bcastDep.logp (fun _ => 0))) [j]].sum,
        coin [j] 1 + [transposeArgs [0]
          (sumAxes (fun j => !(suppAxes [some 0] 0).contains (1 - j)) [2]
            (bcastDep.logp (fun _ => 1))) [j]].sum] = _
    rw [hs 0 j hj, hs 1 j hj]
    have : j = 0 ∨ j = 1 := by omega
    rcases this with rfl | rfl <;> simp [logsumexp, exp_coin]
  refine ⟨t, hcode, ?_, ?_⟩
  · rw [hbox]
    simp only [List.map_cons, List.map_nil, List.sum_cons, List.sum_nil, add_zero]
    rw [ht 0 (by omega), ht 1 (by omega), ← ENNReal.log_mul_add, Ne, ENNReal.log_eq_bot_iff]
    simp
  · rw [ENNReal.log_eq_bot_iff]
    apply Finset.sum_eq_zero
    intro x _
    rw [EReal.exp_eq_zero_iff]
    unfold jointLogp
    have hb1 : box bcastDep.shape = [[0], [1]] := by
      show box [2] = _
      exact hbox
    have : ((box bcastDep.shape).map (bcastDep.logp (extend [1] x))).sum = ⊥ := by
      rw [hb1]
      by_cases h : extend [1] x [0] = 0
      · simp [bcastDep, h]
      · simp [bcastDep, h]
    simp [this]

end Marginal
