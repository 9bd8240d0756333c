import Verif.Marginal.Posterior
import Verif.Marginal.RecoverProps
import Verif.Marginal.LogpProps
import Mathlib.MeasureTheory.Measure.WithDensity
import Mathlib.MeasureTheory.Measure.Lebesgue.Basic

/-!
# C213: marginalise, sample, recover

Property theorems. The other parameters `θ` (continuous ones, say) have an arbitrary reference measure `ν` (Lebesgue measure), and the
model with the values `θ` filled in is `M θ`.
-/

set_option autoImplicit false

open MeasureTheory
open scoped ENNReal

namespace Marginal

variable {Θ : Type*} [MeasurableSpace Θ]

namespace Spec

/-- The density of the original model in `θ` and the value `k` of `x`: the other marginalised variables are summed out. -/
noncomputable def density (dom : ℕ → List ℤ) (hidden : List ℕ) (x : ℕ) (σ : Asg) (M : Θ → List Rv) (θ : Θ) (k : ℤ) : ℝ≥0∞ :=
  ((assigns dom hidden (upd σ x k)).map fun τ => EReal.exp (total (M θ) τ)).sum

/-- The distribution whose density with respect to `ν` is proportional to `g`. -/
noncomputable def normalise (ν : Measure Θ) (g : Θ → ℝ≥0∞) : Measure Θ := (∫⁻ θ, g θ ∂ν)⁻¹ • ν.withDensity g

/-- The distribution of a parameter and a discrete variable whose density is proportional to `f`. -/
noncomputable def joint (ν : Measure Θ) (D : List ℤ) (f : Θ → ℤ → ℝ≥0∞) : Measure (Θ × ℤ) :=
  (∑ k ∈ D.toFinset, ∫⁻ θ, f θ k ∂ν)⁻¹ • ∑ k ∈ D.toFinset, (ν.withDensity fun θ => f θ k).map fun θ => (θ, k)

/-- The model and the variables to marginalise are as `marginalize` expects: distinct names, a topological order of the variables,
correct lists of parents. -/
structure WellFormed (topo : ℕ → ℕ) (xs : List ℕ) (rvs : List Rv) : Prop where
  names : (rvs.map Rv.name).Nodup
  nodup : xs.Nodup
  present : ∀ y ∈ xs, y ∈ rvs.map Rv.name
  inj : ∀ a ∈ xs, ∀ b ∈ xs, topo a = topo b → a = b
  order : ∀ r ∈ rvs, r.name ∈ xs → ∀ p ∈ r.parents, topo p < topo r.name
  parents : ∀ y ∈ xs, SoundFor rvs y

end Spec

/-- The sub-list of marginalised variables. -/
theorem Spec.WellFormed.tail {topo : ℕ → ℕ} {x : ℕ} {xs : List ℕ} {rvs : List Rv} (h : Spec.WellFormed topo (x :: xs) rvs) :
    Spec.WellFormed topo xs rvs :=
  ⟨h.names, (List.nodup_cons.1 h.nodup).2, fun y hy => h.present y (List.mem_cons_of_mem _ hy),
    fun a ha b hb => h.inj a (List.mem_cons_of_mem _ ha) b (List.mem_cons_of_mem _ hb),
    fun r hr hn => h.order r hr (List.mem_cons_of_mem _ hn), fun y hy => h.parents y (List.mem_cons_of_mem _ hy)⟩

/-- The law of the recovered value, when the returned log-probabilities are those of weights `w`. -/
theorem recoverLaw_apply {d : Dist} {D : List ℤ} {ls : List EReal} {w : ℤ → ℝ≥0∞}
    (hd : d = .bernoulli ∨ (∃ k, d = .categorical k) ∨ (∃ l u, d = .discreteUniform l u)) (hD : getDomain d = some D)
    (hw : ls.map EReal.exp = D.map w) (B : Set ℤ) :
    recoverLaw d D ls B = (D.map fun k => B.indicator w k).sum := by
  have hlen : ls.length = D.length := by simpa using congrArg List.length hw
  have hterm : ∀ c ∈ Finset.range ls.length, ((ls.getD c ⊥).exp • Measure.dirac (recoverDraw d D c)) B =
      B.indicator w (D.getD c 0) := by
    intro c hc
    rw [Finset.mem_range] at hc
    have hc' : c < D.length := hlen ▸ hc
    have h1 := C47_draw_in_domain hd hD hc'
    have h2 : D.getD c 0 = recoverDraw d D c := by rw [List.getD_eq_getElem?_getD, h1]; rfl
    have h3 : (ls.getD c ⊥).exp = w (D.getD c 0) := by
      have h4 : (ls.map EReal.exp)[c]? = (D.map w)[c]? := by rw [hw]
      rw [List.getElem?_map, List.getElem?_map, List.getElem?_eq_getElem hc, List.getElem?_eq_getElem hc'] at h4
      simpa [List.getD_eq_getElem?_getD, List.getElem?_eq_getElem hc, List.getElem?_eq_getElem hc'] using h4
    rw [Measure.smul_apply, smul_eq_mul, h3, h2, Measure.dirac_apply' _ (MeasurableSet.of_discrete)]
    by_cases hb : recoverDraw d D c ∈ B
    · rw [Set.indicator_of_mem hb, Set.indicator_of_mem hb]; simp
    · rw [Set.indicator_of_notMem hb, Set.indicator_of_notMem hb, mul_zero]
  rw [recoverLaw, Measure.finsetSum_apply, Finset.sum_congr rfl hterm, hlen, Finset.sum_range]
  rw [← List.sum_ofFn]
  congr 1
  apply List.ext_getElem
  · simp
  · intro i h1 h2
    simp [List.getD_eq_getElem?_getD]

theorem sum_toFinset {D : List ℤ} (hD : D.Nodup) (w : ℤ → ℝ≥0∞) : ∑ k ∈ D.toFinset, w k = (D.map w).sum :=
  List.sum_toFinset w hD

/-- **C213.** Sample the other parameters from the posterior of the marginalised model and recover one marginalised variable: the
pair has the posterior distribution of the original model (the remaining marginalised variables summed out). `A` and `B` are arbitrary
sets of parameters and values. -/
theorem C213_posterior_reproduced {dom : ℕ → List ℤ} {dets : List (List ℕ)} {topo : ℕ → ℕ} {x : ℕ} {hidden : List ℕ}
    {d : Dist} {deps : Θ → List ℕ} {M marginalised partly : Θ → List Rv} (ν : Measure Θ) (σ : Asg)
    (hd : d = .bernoulli ∨ (∃ k, d = .categorical k) ∨ (∃ l u, d = .discreteUniform l u)) (hD : getDomain d = some (dom x))
    (hwf : ∀ θ, Spec.WellFormed topo (x :: hidden) (M θ))
    (hm : ∀ θ, marginalizeAll dom dets topo (x :: hidden) (M θ) = .ok (marginalised θ))
    (hr : ∀ θ, marginalizeAll dom dets topo hidden (M θ) = .ok (partly θ)) (hc : ∀ θ, Covers (partly θ) (deps θ) x)
    (hmeas : ∀ k, Measurable fun θ => Spec.density dom hidden x σ M θ k)
    (ht : ∫⁻ θ, EReal.exp (total (marginalised θ) σ) ∂ν ≠ ⊤)
    {A : Set Θ} (hA : MeasurableSet A) (B : Set ℤ) :
    ∫⁻ θ in A, recoverLaw d (dom x) (recoverLogp (dom x) (partly θ) (deps θ) x σ) B
        ∂(Spec.normalise ν fun θ => EReal.exp (total (marginalised θ) σ)) =
      Spec.joint ν (dom x) (Spec.density dom hidden x σ M) (A ×ˢ B) := by
  have hnd : (dom x).Nodup := by
    obtain ⟨h1, h2, h3⟩ := C41_domain
    rcases hd with rfl | ⟨k, rfl⟩ | ⟨l, u, rfl⟩
    · rw [h1] at hD; injection hD with hD; rw [← hD]; decide
    · obtain ⟨L, hL, hn, -⟩ := h2 k; rw [hL] at hD; injection hD with hD; rw [← hD]; exact hn
    · obtain ⟨L, hL, hn, -⟩ := h3 l u; rw [hL] at hD; injection hD with hD; rw [← hD]; exact hn
  set f := Spec.density dom hidden x σ M with hf
  have hg : ∀ θ, EReal.exp (total (marginalised θ) σ) = ∑ k ∈ (dom x).toFinset, f θ k := by
    intro θ
    have h := hwf θ
    rw [C42_sum_over_joint_assignments h.names h.nodup h.present h.inj h.order h.parents (hm θ) σ, sum_toFinset hnd]
    show (((dom x).flatMap fun k => assigns dom hidden (upd σ x k)).map _).sum = _
    rw [List.flatMap_def, List.map_flatten, List.sum_flatten, List.map_map, List.map_map]
    rfl
  simp only [hg] at ht ⊢
  have hgm : Measurable fun θ => ∑ k ∈ (dom x).toFinset, f θ k := Finset.measurable_fun_sum _ fun k _ => hmeas k
  have hfin : ∀ᵐ θ ∂ν, ∑ k ∈ (dom x).toFinset, f θ k < ⊤ := ae_lt_top hgm ht
  have hZ : ∫⁻ θ, ∑ k ∈ (dom x).toFinset, f θ k ∂ν = ∑ k ∈ (dom x).toFinset, ∫⁻ θ, f θ k ∂ν :=
    lintegral_finsetSum _ fun k _ => hmeas k
  have key : ∀ᵐ θ ∂ν, (∑ k ∈ (dom x).toFinset, f θ k) * recoverLaw d (dom x) (recoverLogp (dom x) (partly θ) (deps θ) x σ) B =
      ∑ k ∈ (dom x).toFinset, B.indicator (f θ) k := by
    filter_upwards [hfin] with θ hθ
    by_cases hz : ∑ k ∈ (dom x).toFinset, f θ k = 0
    · rw [hz, zero_mul]
      refine (Finset.sum_eq_zero fun k hk => ?_).symm
      rw [Finset.sum_eq_zero_iff] at hz
      by_cases hb : k ∈ B
      · rw [Set.indicator_of_mem hb, hz k hk]
      · rw [Set.indicator_of_notMem hb]
    · have h := (hwf θ).tail
      have hs := sum_toFinset hnd (f θ)
      have hw := C47_several_variables h.names h.nodup h.present h.inj h.order h.parents (hr θ) (hc θ) σ
        (by rw [hs] at hz; exact hz) (by rw [hs] at hθ; exact hθ.ne)
      rw [recoverLaw_apply hd hD hw B, ← sum_toFinset hnd, Finset.mul_sum]
      refine Finset.sum_congr rfl fun k _ => ?_
      by_cases hb : k ∈ B
      · rw [Set.indicator_of_mem hb, Set.indicator_of_mem hb, conditional]
        have e : ((dom x).map fun j => ((assigns dom hidden (upd σ x j)).map fun τ => EReal.exp (total (M θ) τ)).sum).sum =
            ∑ k ∈ (dom x).toFinset, f θ k := by rw [hs]; rfl
        rw [e]
        exact ENNReal.mul_div_cancel hz hθ.ne
      · rw [Set.indicator_of_notMem hb, Set.indicator_of_notMem hb, mul_zero]
  rw [Spec.normalise, Measure.restrict_smul, lintegral_smul_measure, Spec.joint, Measure.smul_apply, ← hZ]
  congr 1
  rw [restrict_withDensity hA, lintegral_withDensity_eq_lintegral_mul_non_measurable _ hgm
    (ae_restrict_of_ae hfin)]
  show ∫⁻ θ in A, (∑ k ∈ (dom x).toFinset, f θ k) * recoverLaw d (dom x) (recoverLogp (dom x) (partly θ) (deps θ) x σ) B ∂ν = _
  rw [lintegral_congr_ae (ae_restrict_of_ae key), lintegral_finsetSum _ fun k _ => by
    by_cases hb : k ∈ B
    · simpa only [Set.indicator_of_mem hb] using hmeas k
    · simp only [Set.indicator_of_notMem hb]; exact measurable_const]
  rw [Measure.finsetSum_apply]
  refine Finset.sum_congr rfl fun k _ => ?_
  have hmk : Measurable fun θ : Θ => (θ, k) := measurable_id.prodMk measurable_const
  rw [Measure.map_apply hmk (hA.prod MeasurableSet.of_discrete)]
  by_cases hb : k ∈ B
  · have e : (fun θ : Θ => (θ, k)) ⁻¹' (A ×ˢ B) = A := by ext θ; simp [hb]
    rw [e, withDensity_apply _ hA]
    simp only [Set.indicator_of_mem hb]
  · have e : (fun θ : Θ => (θ, k)) ⁻¹' (A ×ˢ B) = ∅ := by ext θ; simp [hb]
    rw [e, measure_empty]
    simp only [Set.indicator_of_notMem hb, lintegral_zero]

/-! ### An example with a continuous parameter -/

/-- Equal to `x` with probability `θ`. -/
noncomputable def demoYθ (θ : ℝ) : Rv :=
  ⟨1, [0], fun σ => if σ 1 = σ 0 then ENNReal.log (ENNReal.ofReal θ) else ENNReal.log (ENNReal.ofReal (1 - θ))⟩

/-- Observed: `x + y = 1`. -/
def demoObs : Asg := fun i => if i = 2 then 1 else 0

/-- The hypotheses hold for a uniform `θ`, `x ~ Bernoulli(1/4)`, `y` equal to `x` with probability `θ`, both marginalised, and `x + y = 1`
observed. -/
example {A : Set ℝ} (hA : MeasurableSet A) (B : Set ℤ) : ∃ marginalised partly : ℝ → List Rv,
    (∀ θ, marginalizeAll (fun _ => [0, 1]) [] id [0, 1] [demoX, demoYθ θ, demoZ] = .ok (marginalised θ)) ∧
    (∀ θ, marginalizeAll (fun _ => [0, 1]) [] id [1] [demoX, demoYθ θ, demoZ] = .ok (partly θ)) ∧
    ∫⁻ θ in A, recoverLaw .bernoulli [0, 1] (recoverLogp [0, 1] (partly θ) [2] 0 demoObs) B
        ∂(Spec.normalise (volume.restrict (Set.Icc 0 1)) fun θ => EReal.exp (total (marginalised θ) demoObs)) =
      Spec.joint (volume.restrict (Set.Icc 0 1)) [0, 1]
        (Spec.density (fun _ => [0, 1]) [1] 0 demoObs fun θ : ℝ => [demoX, demoYθ θ, demoZ]) (A ×ˢ B) := by
  have ho : processingOrder id [0, 1] = [1, 0] := by
    simp [processingOrder, List.mergeSort, List.MergeSort.Internal.splitInTwo]
  have ho1 : processingOrder id [1] = [1] := by simp [processingOrder]
  have hm : ∀ θ, ∃ r, marginalizeAll (fun _ => [0, 1]) [] id [0, 1] [demoX, demoYθ θ, demoZ] = .ok r := by
    intro θ
    unfold marginalizeAll
    rw [ho]
    simp [marginalizeLoop, marginalizeOne, demoX, demoYθ, demoZ, dependents, replaceRv, bind, Except.bind, newInputs]
  choose marginalised hm using hm
  have hwf : ∀ θ, Spec.WellFormed id [0, 1] [demoX, demoYθ θ, demoZ] := by
    intro θ
    refine ⟨by simp [demoX, demoYθ, demoZ], by decide, by simp [demoX, demoYθ, demoZ], by simp, ?_, ?_⟩
    · intro r hr _ p hp
      simp only [List.mem_cons, List.not_mem_nil, or_false] at hr
      rcases hr with rfl | rfl | rfl <;> simp [demoX, demoYθ, demoZ] at hp ⊢ <;> omega
    · intro w hw r hr hne hp σ k
      simp only [List.mem_cons, List.not_mem_nil, or_false] at hr hw
      rcases hw with rfl | rfl <;> rcases hr with rfl | rfl | rfl <;> simp_all [demoX, demoYθ, demoZ, upd]
  have hmeas : ∀ k, Measurable fun θ : ℝ =>
      Spec.density (fun _ => [0, 1]) [1] 0 demoObs (fun θ => [demoX, demoYθ θ, demoZ]) θ k := by
    intro k
    have hy : ∀ τ : Asg, Measurable fun θ : ℝ => EReal.exp ((demoYθ θ).logp τ) := by
      intro τ
      unfold demoYθ
      by_cases hc : τ 1 = τ 0
      · simp only [hc, if_true, ENNReal.exp_log]; fun_prop
      · simp only [hc, if_false, ENNReal.exp_log]; fun_prop
    simp only [Spec.density, assigns, total, List.flatMap_cons, List.flatMap_nil, List.append_nil, List.map_cons, List.map_nil,
      List.sum_cons, List.sum_nil, EReal.exp_add, List.map_append, List.sum_append, add_zero, List.cons_append, List.nil_append]
    refine Measurable.add ?_ ?_ <;> exact ((hy _).mul measurable_const).const_mul _
  refine ⟨marginalised, fun θ => [demoX, ⟨2, [0, 0], jointOver [0, 1] (demoYθ θ) [demoZ]⟩], hm, ?_, ?_⟩
  · intro θ
    unfold marginalizeAll
    rw [ho1]
    simp [marginalizeLoop, marginalizeOne, demoX, demoYθ, demoZ, dependents, replaceRv, bind, Except.bind, newInputs]
  · refine C213_posterior_reproduced (d := .bernoulli) (dom := fun _ => [0, 1]) (dets := []) (topo := id) (hidden := [1])
      (deps := fun _ => [2]) (M := fun θ => [demoX, demoYθ θ, demoZ]) (marginalised := marginalised)
      (partly := fun θ => [demoX, ⟨2, [0, 0], jointOver [0, 1] (demoYθ θ) [demoZ]⟩])
      (volume.restrict (Set.Icc 0 1)) demoObs (Or.inl rfl) rfl hwf hm
      ?_ ?_ hmeas ?_ hA B
    · intro θ
      unfold marginalizeAll
      rw [ho1]
      simp [marginalizeLoop, marginalizeOne, demoX, demoYθ, demoZ, dependents, replaceRv, bind, Except.bind, newInputs]
    · intro θ r hr hne hnd
      simp only [List.mem_cons, List.not_mem_nil, or_false] at hr
      rcases hr with rfl | rfl
      · exact absurd rfl hne
      · simp at hnd
    · have hle : ∀ θ ∈ Set.Icc (0 : ℝ) 1, EReal.exp (total (marginalised θ) demoObs) ≤ 4 := by
        intro θ hθ
        have h := hwf θ
        have h1 : ENNReal.ofReal θ ≤ 1 := by rw [← ENNReal.ofReal_one]; exact ENNReal.ofReal_le_ofReal hθ.2
        have h2 : ENNReal.ofReal (1 - θ) ≤ 1 := by
          rw [← ENNReal.ofReal_one]; exact ENNReal.ofReal_le_ofReal (by linarith [hθ.1])
        have hX : ∀ τ, EReal.exp (demoX.logp τ) ≤ 1 := by
          intro τ
          simp only [demoX]
          split
          · rw [ENNReal.exp_log]; exact ENNReal.div_le_of_le_mul (by norm_num)
          · rw [ENNReal.exp_log]; exact ENNReal.div_le_of_le_mul (by norm_num)
        have hY : ∀ τ, EReal.exp ((demoYθ θ).logp τ) ≤ 1 := by
          intro τ
          simp only [demoYθ]
          split
          · rw [ENNReal.exp_log]; exact h1
          · rw [ENNReal.exp_log]; exact h2
        have hZ : ∀ τ, EReal.exp (demoZ.logp τ) ≤ 1 := by
          intro τ
          simp only [demoZ]
          split <;> simp
        have ht : ∀ τ, EReal.exp (total [demoX, demoYθ θ, demoZ] τ) ≤ 1 := by
          intro τ
          simp only [total, List.map_cons, List.map_nil, List.sum_cons, List.sum_nil, EReal.exp_add, EReal.exp_zero, mul_one]
          exact mul_le_one' (hX τ) (mul_le_one' (hY τ) (hZ τ))
        rw [C42_sum_over_joint_assignments h.names h.nodup h.present h.inj h.order h.parents (hm θ) demoObs]
        simp only [assigns, List.flatMap_cons, List.flatMap_nil, List.append_nil, List.cons_append, List.nil_append, List.map_cons,
          List.map_nil, List.sum_cons, List.sum_nil, add_zero]
        calc _ ≤ (1 : ℝ≥0∞) + (1 + (1 + 1)) := add_le_add (ht _) (add_le_add (ht _) (add_le_add (ht _) (ht _)))
          _ = 4 := by norm_num
      refine ((setLIntegral_mono' measurableSet_Icc hle).trans_lt ?_).ne
      simp

/-- Finite extended nonnegative numbers with the same real value are equal. -/
theorem ennreal_eq_of_toReal {a b : ℝ≥0∞} (ha : a ≠ ⊤) (hb : b ≠ ⊤) (h : a.toReal = b.toReal) : a = b :=
  (ENNReal.toReal_eq_toReal_iff' ha hb).1 h

/-- **C213 (several variables).** Two marginalised variables are recovered independently of each other: in the example above (with
`θ = 2/3`), where exactly one of `x` and `y` is one, each recovered value has the right distribution, but the pair `(0, 0)`, which is
impossible, is returned with probability `3/16`. -/
theorem C213_pairs_not_joint : ∃ px py : List Rv,
    marginalizeAll (fun _ => [0, 1]) [] id [1] demo = .ok px ∧ marginalizeAll (fun _ => [0, 1]) [] id [0] demo = .ok py ∧
    (recoverLogp [0, 1] px (recoverDependents demo [1] 0) 0 demoObs).map EReal.exp = [3 / 4, 1 / 4] ∧
    (recoverLogp [0, 1] py (recoverDependents demo [0] 1) 1 demoObs).map EReal.exp = [1 / 4, 3 / 4] ∧
    recoverPairLaw .bernoulli .bernoulli [0, 1] [0, 1] (recoverLogp [0, 1] px (recoverDependents demo [1] 0) 0 demoObs)
      (recoverLogp [0, 1] py (recoverDependents demo [0] 1) 1 demoObs) {(0, 0)} = 3 / 16 ∧
    EReal.exp (total demo (upd (upd demoObs 0 0) 1 0)) = 0 := by
  have ho0 : processingOrder id [0] = [0] := by simp [processingOrder]
  have ho1 : processingOrder id [1] = [1] := by simp [processingOrder]
  have hx : recoverDependents demo [1] 0 = [2] := by
    simp [recoverDependents, demo, demoX, demoY, demoZ, dependsThrough]
  have hy : recoverDependents demo [0] 1 = [2] := by
    simp [recoverDependents, demo, demoX, demoY, demoZ, dependsThrough]
  rw [hx, hy]
  have h1 : (recoverLogp [0, 1] [demoX, ⟨2, [0, 0], jointOver [0, 1] demoY [demoZ]⟩] [2] 0 demoObs).map EReal.exp =
      [3 / 4, 1 / 4] := by
    simp only [recoverLogp, recoverJoint, logSoftmax, demoX, demoY, demoZ, List.map_cons, List.map_nil,
      List.filter_cons, List.filter_nil, sub_eq_add_neg, EReal.exp_add, EReal.exp_neg, exp_logsumexp]
    simp
    simp only [jointOver]
    simp [upd, demoObs, EReal.exp_add, exp_logsumexp]
    constructor
    all_goals refine ennreal_eq_of_toReal (by simp [ENNReal.mul_eq_top, ENNReal.div_eq_top]) (by simp [ENNReal.div_eq_top]) ?_
    all_goals
      rw [ENNReal.toReal_mul, ENNReal.toReal_inv, ENNReal.toReal_add (by simp [ENNReal.mul_eq_top, ENNReal.div_eq_top])
        (by simp [ENNReal.mul_eq_top, ENNReal.div_eq_top])]
      simp
      norm_num
  have h2 : (recoverLogp [0, 1] [⟨1, [], jointOver [0, 1] demoX [demoY, demoZ]⟩, ⟨2, [], fun _ => 0⟩] [2] 1
      demoObs).map EReal.exp = [1 / 4, 3 / 4] := by
    simp only [recoverLogp, recoverJoint, logSoftmax, demoX, demoY, demoZ, List.map_cons, List.map_nil,
      List.filter_cons, List.filter_nil, sub_eq_add_neg, EReal.exp_add, EReal.exp_neg, exp_logsumexp]
    simp
    simp only [jointOver]
    simp [upd, demoObs, EReal.exp_add, exp_logsumexp]
    constructor
    all_goals refine ennreal_eq_of_toReal (by simp [ENNReal.mul_eq_top, ENNReal.div_eq_top]) (by simp [ENNReal.div_eq_top]) ?_
    all_goals
      rw [ENNReal.toReal_mul, ENNReal.toReal_inv, ENNReal.toReal_add (by simp [ENNReal.mul_eq_top, ENNReal.div_eq_top])
        (by simp [ENNReal.mul_eq_top, ENNReal.div_eq_top])]
      simp
      norm_num
  refine ⟨[demoX, ⟨2, [0, 0], jointOver [0, 1] demoY [demoZ]⟩],
    [⟨1, [], jointOver [0, 1] demoX [demoY, demoZ]⟩, ⟨2, [], fun _ => 0⟩], ?_, ?_, h1, h2, ?_, ?_⟩
  · unfold marginalizeAll
    rw [ho1]
    simp [marginalizeLoop, marginalizeOne, demo, demoX, demoY, demoZ, dependents, replaceRv, bind, Except.bind, newInputs]
  · unfold marginalizeAll
    rw [ho0]
    simp [marginalizeLoop, marginalizeOne, demo, demoX, demoY, demoZ, dependents, replaceRv, bind, Except.bind, newInputs]
  · have hw : ∀ a b : ℝ≥0∞, [a, b] = ([0, 1] : List ℤ).map fun k => if k = 0 then a else b := by intro a b; simp
    have hs : ({(0, 0)} : Set (ℤ × ℤ)) = {0} ×ˢ {0} := by simp
    have l1 := recoverLaw_apply (d := .bernoulli) (D := [0, 1]) (Or.inl rfl) rfl (h1.trans (hw _ _)) {0}
    have l2 := recoverLaw_apply (d := .bernoulli) (D := [0, 1]) (Or.inl rfl) rfl (h2.trans (hw _ _)) {0}
    rw [recoverPairLaw, hs, Measure.prod_prod, l1, l2]
    simp [Set.indicator]
    exact ennreal_eq_of_toReal (by simp [ENNReal.mul_eq_top, ENNReal.div_eq_top]) (by simp [ENNReal.div_eq_top]) (by simp; norm_num)
  · simp [total, demo, demoX, demoY, demoZ, upd, demoObs]

end Marginal
