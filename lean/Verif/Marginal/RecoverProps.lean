import Verif.Marginal.FactorsProps

/-! # C42 (example), C47, C101: recovering marginalised variables -/

set_option autoImplicit false

namespace Marginal

open scoped BigOperators ENNReal

/-! ### Specification -/

/-- The log-probabilities that involve the value of `x`, other than `x`'s own, belong to variables
named in `deps`. -/
def Covers (rvs : List Rv) (deps : List ℕ) (x : ℕ) : Prop :=
  ∀ r ∈ rvs, r.name ≠ x → r.name ∉ deps → ∀ σ k, r.logp (upd σ x k) = r.logp σ

/-- Probability of `x = k` given all other values, for an unnormalised density `dens`. -/
noncomputable def conditional (dom : List ℤ) (dens : Asg → ℝ≥0∞) (x : ℕ) (σ : Asg) (k : ℤ) : ℝ≥0∞ :=
  dens (upd σ x k) / (dom.map (fun j => dens (upd σ x j))).sum

/-! ### C47 -/

theorem total_factor {rvs : List Rv} {deps : List ℕ} {x : ℕ} (hc : Covers rvs deps x) (σ : Asg)
    (k : ℤ) : EReal.exp (total rvs (upd σ x k))
      = EReal.exp (recoverJoint rvs deps x (upd σ x k))
        * EReal.exp (((rvs.filter (fun r => !(decide (r.name = x) || decide (r.name ∈ deps)))).map
            (fun r => r.logp σ)).sum) := by
  rw [← EReal.exp_add]
  congr 1
  unfold total recoverJoint
  rw [sum_split rvs (fun r => decide (r.name = x) || decide (r.name ∈ deps))]
  congr 2
  apply List.map_congr_left
  intro r hr
  rw [List.mem_filter] at hr
  have h2 := hr.2
  simp only [Bool.not_eq_true', Bool.or_eq_false_iff, decide_eq_false_iff_not] at h2
  exact hc r hr.1 h2.1 h2.2 σ k

/-- **C47.** If the variables whose log-probabilities are combined include every variable that
involves `x`, the returned log-probabilities, one per domain value in domain order, are those of the
conditional distribution of `x` given all other values. -/
theorem C47_conditional_of_covers {dom : List ℤ} {rvs : List Rv} {deps : List ℕ} {x : ℕ}
    (hc : Covers rvs deps x) (σ : Asg)
    (h0 : (dom.map (fun k => EReal.exp (total rvs (upd σ x k)))).sum ≠ 0)
    (ht : (dom.map (fun k => EReal.exp (total rvs (upd σ x k)))).sum ≠ ∞) :
    (recoverLogp dom rvs deps x σ).map EReal.exp
      = dom.map (conditional dom (fun τ => EReal.exp (total rvs τ)) x σ) := by
  unfold recoverLogp logSoftmax
  rw [List.map_map, List.map_map]
  apply List.map_congr_left
  intro k hk
  simp only [Function.comp, conditional]
  simp only [total_factor hc σ] at h0 ht ⊢
  rw [List.sum_map_mul_right] at h0 ht ⊢
  rw [sub_eq_add_neg, EReal.exp_add, EReal.exp_neg, exp_logsumexp, List.map_map]
  set c := EReal.exp (((rvs.filter (fun r => !(decide (r.name = x) || decide (r.name ∈ deps)))).map
            (fun r => r.logp σ)).sum) with hcdef
  set S := (dom.map (fun k => EReal.exp (recoverJoint rvs deps x (upd σ x k)))).sum with hS
  have hS0 : S ≠ 0 := left_ne_zero_of_mul h0
  have hc0 : c ≠ 0 := right_ne_zero_of_mul h0
  have hct : c ≠ ∞ := fun h => ht (by rw [h]; exact ENNReal.mul_top hS0)
  rw [show (EReal.exp ∘ fun k => recoverJoint rvs deps x (upd σ x k))
    = fun k => EReal.exp (recoverJoint rvs deps x (upd σ x k)) from rfl, ← hS,
    ENNReal.mul_div_mul_right _ _ hc0 hct, ENNReal.div_eq_inv_mul, mul_comm]

/-- **C47.** They sum to one. -/
theorem C47_sums_to_one {dom : List ℤ} {rvs : List Rv} {deps : List ℕ} {x : ℕ}
    (hc : Covers rvs deps x) (σ : Asg)
    (h0 : (dom.map (fun k => EReal.exp (total rvs (upd σ x k)))).sum ≠ 0)
    (ht : (dom.map (fun k => EReal.exp (total rvs (upd σ x k)))).sum ≠ ∞) :
    ((recoverLogp dom rvs deps x σ).map EReal.exp).sum = 1 := by
  rw [C47_conditional_of_covers hc σ h0 ht]
  unfold conditional
  simp only [div_eq_mul_inv]
  rw [List.sum_map_mul_right]
  exact ENNReal.mul_inv_cancel h0 ht

/-- With nothing else marginalised, the dependents found by the library cover. -/
theorem covers_of_single {rvs : List Rv} {x : ℕ} (hs : SoundFor rvs x) :
    Covers rvs (recoverDependents rvs [] x) x := by
  intro r hr hne hnd σ k
  apply hs r hr hne
  intro hp
  apply hnd
  unfold recoverDependents
  rw [List.mem_map]
  refine ⟨r, ?_, rfl⟩
  rw [List.mem_filter]
  refine ⟨hr, ?_⟩
  have : dependsThrough rvs [] x rvs.length r = true := by
    cases rvs.length <;> simp [dependsThrough, hp]
  simp [hne, this]

/-- **C47.** In a model with a single marginalised variable, `recover_marginals` returns exactly the
conditional distribution of that variable given all others in the original model. -/
theorem C47_single_variable {dom : List ℤ} {rvs : List Rv} {x : ℕ} (hs : SoundFor rvs x) (σ : Asg)
    (h0 : (dom.map (fun k => EReal.exp (total rvs (upd σ x k)))).sum ≠ 0)
    (ht : (dom.map (fun k => EReal.exp (total rvs (upd σ x k)))).sum ≠ ∞) :
    (recoverLogp dom rvs (recoverDependents rvs [] x) x σ).map EReal.exp
      = dom.map (conditional dom (fun τ => EReal.exp (total rvs τ)) x σ) :=
  C47_conditional_of_covers (covers_of_single hs) σ h0 ht

/-- **C47.** With other variables still marginalised, and provided the dependents found cover, the
returned probabilities are those of `x` given the values of the unmarginalised variables: the joint
density is summed over the domains of the other marginalised variables. -/
theorem C47_several_variables {dom : ℕ → List ℤ} {dets : List (List ℕ)} {topo : ℕ → ℕ}
    {hidden : List ℕ} {rvs rvs' : List Rv} {deps : List ℕ} {x : ℕ}
    (hnames : (rvs.map Rv.name).Nodup) (hxs : hidden.Nodup)
    (hin : ∀ y ∈ hidden, y ∈ rvs.map Rv.name)
    (hinj : ∀ a ∈ hidden, ∀ b ∈ hidden, topo a = topo b → a = b)
    (htopo : ∀ r ∈ rvs, r.name ∈ hidden → ∀ p ∈ r.parents, topo p < topo r.name)
    (hsound : ∀ y ∈ hidden, SoundFor rvs y)
    (h : marginalizeAll dom dets topo hidden rvs = .ok rvs')
    (hc : Covers rvs' deps x) (σ : Asg)
    (h0 : ((dom x).map (fun k => ((assigns dom hidden (upd σ x k)).map
      (fun τ => EReal.exp (total rvs τ))).sum)).sum ≠ 0)
    (ht : ((dom x).map (fun k => ((assigns dom hidden (upd σ x k)).map
      (fun τ => EReal.exp (total rvs τ))).sum)).sum ≠ ∞) :
    (recoverLogp (dom x) rvs' deps x σ).map EReal.exp
      = (dom x).map (conditional (dom x)
          (fun σ' => ((assigns dom hidden σ').map (fun τ => EReal.exp (total rvs τ))).sum) x σ) := by
  have hC := C42_sum_over_joint_assignments hnames hxs hin hinj htopo hsound h
  simp only [← hC] at h0 ht ⊢
  exact C47_conditional_of_covers hc σ h0 ht

/-- **C47.** Sampled values lie in the domain: the value returned for the categorical draw `c` is the
`c`-th domain value. -/
theorem C47_draw_in_domain {d : Dist} {dom : List ℤ} {c : ℕ}
    (hd : d = .bernoulli ∨ (∃ k, d = .categorical k) ∨ (∃ l u, d = .discreteUniform l u))
    (hdom : getDomain d = some dom) (hc : c < dom.length) :
    dom[c]? = some (recoverDraw d dom c) := by
  rcases hd with rfl | ⟨k, rfl⟩ | ⟨l, u, rfl⟩
  · injection hdom with hdom
    subst hdom
    simp only [List.length_cons, List.length_nil] at hc
    match c, hc with
    | 0, _ => rfl
    | 1, _ => rfl
  · injection hdom with hdom
    subst hdom
    simp only [List.length_map, List.length_range] at hc
    simp [recoverDraw, hc]
  · injection hdom with hdom
    subst hdom
    simp only [List.length_map, List.length_range] at hc
    have h0 : 0 < (u + 1 - l).toNat := by omega
    simp [recoverDraw, hc, h0, List.getD]
    ring

/-! ### A concrete model: x → y, both with an effect on z -/

/-- Bernoulli(1/4). -/
noncomputable def demoX : Rv :=
  ⟨0, [], fun σ => if σ 0 = 1 then ENNReal.log (1/4) else ENNReal.log (3/4)⟩
/-- Equal to `x` with probability 2/3. -/
noncomputable def demoY : Rv :=
  ⟨1, [0], fun σ => if σ 1 = σ 0 then ENNReal.log (2/3) else ENNReal.log (1/3)⟩
/-- Equal to `x + y`. -/
noncomputable def demoZ : Rv := ⟨2, [0, 1], fun σ => if σ 2 = σ 0 + σ 1 then 0 else ⊥⟩
/-- The model. -/
noncomputable def demo : List Rv := [demoX, demoY, demoZ]

theorem demo_sound : ∀ w ∈ [0, 1], SoundFor demo w := by
  intro w hw r hr hne hp σ k
  simp only [demo, List.mem_cons, List.not_mem_nil, or_false] at hr hw
  rcases hw with rfl | rfl <;> rcases hr with rfl | rfl | rfl <;>
    simp_all [demoX, demoY, demoZ, upd]

/-- The hypotheses of C42 hold for the example, in either order, and marginalisation succeeds. -/
example : (demo.map Rv.name).Nodup ∧ [0, 1].Nodup ∧ (∀ x ∈ [0, 1], x ∈ demo.map Rv.name) ∧
    (∀ a ∈ [0, 1], ∀ b ∈ [0, 1], (id a : ℕ) = id b → a = b) ∧
    (∀ r ∈ demo, r.name ∈ [0, 1] → ∀ p ∈ r.parents, p < r.name) ∧
    (∀ x ∈ [0, 1], SoundFor demo x) ∧
    (∃ rvs', marginalizeAll (fun _ => [0, 1]) [] id [0, 1] demo = .ok rvs') := by
  refine ⟨by simp [demo, demoX, demoY, demoZ], by decide, by simp [demo, demoX, demoY, demoZ],
    by simp, ?_, demo_sound, ?_⟩
  · intro r hr _ p hp
    simp only [demo, List.mem_cons, List.not_mem_nil, or_false] at hr
    rcases hr with rfl | rfl | rfl <;> simp [demoX, demoY, demoZ] at hp ⊢ <;> omega
  · have ho : processingOrder id [0, 1] = [1, 0] := by
      simp [processingOrder, List.mergeSort, List.MergeSort.Internal.splitInTwo]
    unfold marginalizeAll
    rw [ho]
    simp [marginalizeLoop, marginalizeOne, demo, demoX, demoY, demoZ, dependents, replaceRv, bind,
      Except.bind, newInputs]

/-- The hypotheses of C47 hold in the example, for `x` alone marginalised, at `y = 0`, `z = 0`. -/
example : SoundFor demo 0 ∧
    (([0, 1] : List ℤ).map (fun k => EReal.exp (total demo (upd (fun _ => 0) 0 k)))).sum ≠ 0 ∧
    (([0, 1] : List ℤ).map (fun k => EReal.exp (total demo (upd (fun _ => 0) 0 k)))).sum ≠ ∞ := by
  refine ⟨demo_sound 0 (by simp), ?_, ?_⟩
  · simp [total, demo, demoX, demoY, demoZ, upd, EReal.exp_add]
  · simp [total, demo, demoX, demoY, demoZ, upd, EReal.exp_add, ENNReal.mul_eq_top,
      ENNReal.div_eq_top]

/-! ### C101 -/

/-- A fair coin. -/
noncomputable def coinX : Rv := ⟨0, [], fun _ => ENNReal.log (1/2)⟩
/-- Another. -/
noncomputable def coinY : Rv := ⟨1, [], fun _ => ENNReal.log (1/2)⟩
/-- Reports `y`. -/
noncomputable def seesY : Rv := ⟨2, [1], fun σ => if σ 2 = σ 1 then 0 else ⊥⟩
/-- Reports `x + y`. -/
noncomputable def seesXY : Rv := ⟨3, [0, 1], fun σ => if σ 3 = σ 0 + σ 1 then 0 else ⊥⟩
/-- The model. -/
noncomputable def coins : List Rv := [coinX, coinY, seesY, seesXY]
/-- Observed: `y = 0` and `x + y = 1`. -/
def coinObs : Asg := fun i => if i = 3 then 1 else 0

/-- The dependency lists of the example are right for both marginalised variables. -/
theorem coins_sound : ∀ w ∈ [0, 1], SoundFor coins w := by
  intro w hw r hr hne hp σ k
  simp only [coins, List.mem_cons, List.not_mem_nil, or_false] at hr hw
  rcases hw with rfl | rfl <;> rcases hr with rfl | rfl | rfl | rfl <;>
    simp_all [coinX, coinY, seesY, seesXY, upd]

/-- **C101.** With `x` and `y` both marginalised and observations `z1` of `y` and `z2` of `x + y`,
`recover_marginals` finds only `z2` as a dependent of `x`, but the joint log-probability of `z1` and
`z2` is stored with `z1`: the library returns the prior probabilities of `x`, one half each, although
`x = 1` is certain given the observations. -/
theorem C101_recovered_probabilities_wrong :
    ∃ rvs', marginalizeAll (fun _ => [0, 1]) [] id [1] coins = .ok rvs' ∧
      recoverDependents coins [1] 0 = [3] ∧
      (recoverLogp [0, 1] rvs' (recoverDependents coins [1] 0) 0 coinObs).map EReal.exp = [1/2, 1/2] ∧
      ([0, 1] : List ℤ).map (conditional [0, 1]
        (fun σ' => ((assigns (fun _ => [0, 1]) [1] σ').map (fun τ => EReal.exp (total coins τ))).sum)
        0 coinObs) = [0, 1] := by
  have ho : processingOrder id [1] = [1] := by simp [processingOrder]
  have hdeps : recoverDependents coins [1] 0 = [3] := by
    simp [recoverDependents, coins, coinX, coinY, seesY, seesXY, dependsThrough]
  rw [hdeps]
  unfold marginalizeAll
  rw [ho]
  refine ⟨[coinX, ⟨2, [0], jointOver [0, 1] coinY [seesY, seesXY]⟩, ⟨3, [0], fun _ => 0⟩], ?_, rfl,
    ?_, ?_⟩
  · simp [marginalizeLoop, marginalizeOne, coins, coinX, coinY, seesY, seesXY, dependents, replaceRv,
      bind, Except.bind, newInputs]
  · simp only [recoverLogp, recoverJoint, logSoftmax, coinX, List.map_cons, List.map_nil,
      List.filter_cons, List.filter_nil, sub_eq_add_neg, EReal.exp_add, EReal.exp_neg, exp_logsumexp]
    simp [ENNReal.inv_two_add_inv_two]
  · simp [conditional, assigns, total, coins, coinX, coinY, seesY, seesXY, upd, coinObs,
      EReal.exp_add]
    exact ENNReal.div_self (by simp) (ENNReal.mul_ne_top (by simp) (by simp))

end Marginal
