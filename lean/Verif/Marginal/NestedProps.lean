import Verif.Marginal.GraphProps

/-! # C102: batched variables that share a dependent -/

set_option autoImplicit false

namespace Marginal

open scoped BigOperators ENNReal

/-- The inner graph left after marginalising `y`: variable 0 is `x`, 1 is `y`, 2 is `z1` computed from
`y`, 3 is `z2` computed from `x` and `y`.  The dimension analysis looks inside
(graph_analysis.py:149-177). -/
def nestedGraph {V : Type} (f g : List ((ℕ → ℕ) → V) → (ℕ → ℕ) → V) (outShape : ℕ → ℕ) :
    List (Node V) :=
  [⟨.blockwise false 1 [0] outShape f, [1], 2⟩, ⟨.blockwise false 1 [0, 0] outShape g, [0, 1], 3⟩]

/-- **C102.** With `x` and `y` vectors, `z1` computed from `y` and `z2` from `x` and `y`, the analysis
for `x` reports that `z1` has no axis of `x` and `z2` carries it. -/
theorem C102_reported_dims {V : Type} (f g : List ((ℕ → ℕ) → V) → (ℕ → ℕ) → V) (outShape : ℕ → ℕ) :
    batchDimConnection (fun _ => 1) 0 (nestedGraph f g outShape) [2, 3]
      = .ok [[none], [some 0]] := by
  rfl

/-- The joint log-probability of `z1` and `z2`, stored with `z1`, whose reported dims are `(None,)`;
entry `j` is possible exactly when entry `j` of `x` is `j`. -/
noncomputable def storedJoint : Dep :=
  ⟨[none], 0, [2], fun x e => if x [e.getD 0 0] = (e.getD 0 0 : ℕ) then 0 else ⊥⟩

/-- The dummy log-probability of `z2`, whose reported dims are `(0,)`. -/
noncomputable def storedDummy : Dep := ⟨[some 0], 0, [], fun _ _ => 0⟩

/-- **C102.** The joint log-probability stored with `z1` is then summed over all entries before the
domain values of `x` are combined: for fair coins `x` and observations `x = (0, 1)` the code returns
`-∞`, but the marginal probability is not zero. -/
theorem C102_wrong_logp :
    ∃ t, finiteDiscreteLogp [0, 1] coin [storedJoint, storedDummy] = some t ∧
      (∀ idx, t idx = ⊥) ∧
      ENNReal.log (∑ x ∈ assignments [2] [0, 1],
        EReal.exp (jointLogp [2] coin [storedJoint, storedDummy] (extend [2] x))) ≠ ⊥ := by
  have hbox : box [2] = [[0], [1]] := by decide
  have hs : ∀ (k : ℤ), k = 0 ∨ k = 1 →
      sumAxes (fun j => !(suppAxes [none] 0).contains (1 - j)) [2] (storedJoint.logp (fun _ => k)) []
      = ⊥ := by
    intro k hk
    unfold sumAxes
    have hf : (box [2]).filter (fun e => pick (fun j => !(suppAxes [none] 0).contains (1 - j)) e
        = []) = [[0], [1]] := by
      rw [hbox]; decide
    rw [hf]
    rcases hk with rfl | rfl <;> simp [storedJoint]
  obtain ⟨t, hcode, ht⟩ : ∃ t, finiteDiscreteLogp [0, 1] coin [storedJoint, storedDummy] = some t ∧
      ∀ idx, t idx = ⊥ := by
    refine ⟨_, rfl, ?_⟩
    intro idx
    show logsumexp [_ + [sumAxes (fun j => !(suppAxes [none] 0).contains (1 - j)) [2]
        (storedJoint.logp (fun _ => 0)) [], (0 : EReal)].sum,
      _ + [sumAxes (fun j => !(suppAxes [none] 0).contains (1 - j)) [2]
        (storedJoint.logp (fun _ => 1)) [], (0 : EReal)].sum] = ⊥
    rw [hs 0 (Or.inl rfl), hs 1 (Or.inr rfl)]
    simp [logsumexp]
  refine ⟨t, hcode, ht, ?_⟩
  rw [Ne, ENNReal.log_eq_bot_iff]
  intro h0
  have h1 : (fun i : (box [2]).toFinset => if i.1 = [1] then (1 : ℤ) else 0) ∈ assignments [2] [0, 1] := by
    unfold assignments
    rw [Fintype.mem_piFinset]
    intro i
    by_cases hi : i.1 = [1] <;> simp [hi]
  have h2 := Finset.sum_eq_zero_iff.1 h0 _ h1
  rw [EReal.exp_eq_zero_iff] at h2
  have hm0 : ([0] : List ℕ) ∈ (box [2]).toFinset := by decide
  have hm1 : ([1] : List ℕ) ∈ (box [2]).toFinset := by decide
  have e0 : extend [2] (fun i : (box [2]).toFinset => if i.1 = [1] then (1 : ℤ) else 0) [0] = 0 := by
    rw [extend, dif_pos hm0]; rfl
  have e1 : extend [2] (fun i : (box [2]).toFinset => if i.1 = [1] then (1 : ℤ) else 0) [1] = 1 := by
    rw [extend, dif_pos hm1]; rfl
  have h3 : jointLogp [2] coin [storedJoint, storedDummy]
      (extend [2] (fun i : (box [2]).toFinset => if i.1 = [1] then (1 : ℤ) else 0))
      = ENNReal.log 2⁻¹ + (ENNReal.log 2⁻¹) := by
    revert e0 e1
    generalize extend [2] (fun i : (box [2]).toFinset => if i.1 = [1] then (1 : ℤ) else 0) = X
    intro e0 e1
    unfold jointLogp
    rw [hbox]
    simp [coin, storedJoint, storedDummy, box, e0, e1, List.range_succ]
  rw [h3, ← ENNReal.log_mul_add, ENNReal.log_eq_bot_iff] at h2
  simp at h2

end Marginal
