import Verif.Dist.GenPoissonBranch
import Verif.Dist.GenPoissonProps
import Mathlib.Topology.Algebra.InfiniteSum.NatInt
import Mathlib.Analysis.SpecificLimits.Normed
import Mathlib.Analysis.SpecialFunctions.Exponential

/-!
# C181, C182: the branching sampler draws from the documented distribution, which is normalised with the documented mean and
variance for `0 ≤ lam < 1`
-/

set_option autoImplicit false

open MeasureTheory ProbabilityTheory Filter Topology
open scoped NNReal ENNReal Nat

namespace GenPoisson

/-! ### The probabilities, for rates that may be zero -/

/-- The documented probabilities with natural exponents. -/
noncomputable def gp (lam θ : ℝ) : ℕ → ℝ
  | 0 => Real.exp (-θ)
  | r + 1 => θ * (θ + lam * (r + 1)) ^ r * Real.exp (-(θ + lam * (r + 1))) / (r + 1)!

theorem gp_nonneg {lam θ : ℝ} (hl : 0 ≤ lam) (ht : 0 ≤ θ) (x : ℕ) : 0 ≤ gp lam θ x := by
  cases x with
  | zero => exact (Real.exp_pos _).le
  | succ r => unfold gp; positivity

theorem gp_eq_pmf {lam θ : ℝ} (hl : 0 ≤ lam) (ht : 0 < θ) (x : ℕ) : Spec.pmf θ lam x = gp lam θ x := by
  have hpos : 0 < θ + lam * x := by positivity
  unfold Spec.pmf
  rw [if_pos ⟨by positivity, by exact_mod_cast hpos⟩]
  cases x with
  | zero => simp [gp, ht.ne']
  | succ r =>
    simp only [gp, Int.toNat_natCast]
    have : ((r + 1 : ℕ) : ℤ) - 1 = (r : ℕ) := by push_cast; ring
    rw [this, zpow_natCast]
    push_cast
    congr 3
    ring

/-- One generation: the total is the first generation plus what its members leave. -/
theorem gp_rec (lam θ : ℝ) (x : ℕ) :
    gp lam θ (x + 1) = ∑ y ∈ Finset.range (x + 1),
      Real.exp (-θ) * θ ^ (y + 1) / (y + 1)! * gp lam (lam * (y + 1 : ℕ)) (x - y) := by
  have h1 : ∀ y ∈ Finset.range (x + 1), gp lam (lam * (y + 1 : ℕ)) (x - y) =
      Real.exp (-(lam * (x + 1))) * (y + 1) * (lam * (x + 1)) ^ (x - y) / ((x + 1) * (x - y)!) := by
    intro y hy
    have hyx : y ≤ x := by simpa [Nat.lt_succ_iff] using hy
    obtain ⟨r, rfl⟩ := Nat.exists_eq_add_of_le hyx
    rw [Nat.add_sub_cancel_left]
    have hx : ((y + r : ℕ) : ℝ) + 1 ≠ 0 := by positivity
    cases r with
    | zero =>
      simp only [gp, Nat.add_zero, pow_zero, Nat.factorial_zero]
      push_cast at hx ⊢
      field_simp
    | succ r =>
      simp only [gp]
      have e1 : lam * ((y + 1 : ℕ) : ℝ) + lam * ((r : ℝ) + 1) = lam * (((y + (r + 1) : ℕ) : ℝ) + 1) := by push_cast; ring
      rw [e1, pow_succ]
      have h2 : ((r + 1)! : ℝ) ≠ 0 := by positivity
      push_cast at hx ⊢
      field_simp
  rw [Finset.sum_congr rfl fun y hy => by rw [h1 y hy]]
  have h2 : ∀ y ∈ Finset.range (x + 1), Real.exp (-θ) * θ ^ (y + 1) / (y + 1)! *
      (Real.exp (-(lam * (x + 1))) * (y + 1) * (lam * (x + 1)) ^ (x - y) / ((x + 1) * (x - y)!)) =
      Real.exp (-(θ + lam * (x + 1))) * θ / (x + 1)! * (θ ^ y * (lam * (x + 1)) ^ (x - y) * (x.choose y)) := by
    intro y hy
    have hyx : y ≤ x := by simpa [Nat.lt_succ_iff] using hy
    rw [Nat.cast_choose ℝ hyx, neg_add, Real.exp_add, Nat.factorial_succ, Nat.factorial_succ]
    have a1 : (y ! : ℝ) ≠ 0 := by positivity
    have a2 : ((x - y)! : ℝ) ≠ 0 := by positivity
    have a3 : (x ! : ℝ) ≠ 0 := by positivity
    have a4 : (x : ℝ) + 1 ≠ 0 := by positivity
    have a5 : (y : ℝ) + 1 ≠ 0 := by positivity
    push_cast
    field_simp
    ring
  rw [Finset.sum_congr rfl h2, ← Finset.mul_sum, ← add_pow]
  simp only [gp]
  ring

/-! ### Law of the sampler -/

theorem bind_nat (μ : Measure ℕ) (f : ℕ → Measure ℕ) (s : Set ℕ) : (μ.bind f) s = ∑' a, μ {a} * f a s := by
  rw [Measure.bind_apply (MeasurableSet.of_discrete) (measurable_of_countable f).aemeasurable, lintegral_countable']
  exact tsum_congr fun a => mul_comm _ _

/-- The total never falls. -/
theorem loopLaw_below (lam : ℝ≥0) : ∀ (n x y z : ℕ), z < x → loopLaw lam n x y {z} = 0
  | 0, x, y, z, h => by
    unfold loopLaw
    split
    · simp
    · have hne : x ≠ z := by omega
      rw [Measure.dirac_apply' _ (MeasurableSet.of_discrete)]
      simp [hne]
  | n + 1, x, y, z, h => by
    unfold loopLaw
    split
    · rw [bind_nat]
      simp only [ENNReal.tsum_eq_zero]
      intro a
      rw [loopLaw_below lam n (x + a) a z (by omega), mul_zero]
    · have hne : x ≠ z := by omega
      rw [Measure.dirac_apply' _ (MeasurableSet.of_discrete)]
      simp [hne]

theorem bindLaw (lam : ℝ≥0) (r : ℕ) : ∀ (ρ : ℝ≥0) (m x : ℕ), r ≤ m →
    ((poissonMeasure ρ).bind fun y' => loopLaw lam m (x + y') y') {x + r} = ENNReal.ofReal (gp lam ρ r) := by
  induction r using Nat.strong_induction_on with
  | _ r ih =>
    intro ρ m x hm
    rw [bind_nat]
    rw [tsum_eq_sum (s := Finset.range (r + 1)) (fun a ha => by
      have : r < a := by simpa using ha
      rw [loopLaw_below lam m (x + a) a (x + r) (by omega), mul_zero])]
    have h0 : ∀ m', loopLaw lam m' (x + 0) 0 = Measure.dirac x := by
      intro m'
      cases m' <;> simp [loopLaw]
    cases r with
    | zero =>
      simp only [Nat.zero_add, Finset.range_one, Finset.sum_singleton, h0]
      rw [poissonMeasure_singleton]
      simp [gp]
    | succ s =>
      rw [Finset.sum_range_succ', h0]
      have hd : (Measure.dirac x : Measure ℕ) {x + (s + 1)} = 0 := by simp [Measure.dirac_apply]
      rw [hd, mul_zero, add_zero, gp_rec, ENNReal.ofReal_sum_of_nonneg]
      · refine Finset.sum_congr rfl fun k hk => ?_
        have hks : k ≤ s := by simpa [Nat.lt_succ_iff] using hk
        obtain ⟨m', rfl⟩ : ∃ m', m = m' + 1 := ⟨m - 1, by omega⟩
        have hl : loopLaw lam (m' + 1) (x + (k + 1)) (k + 1) =
            (poissonMeasure (lam * ((k + 1 : ℕ) : ℝ≥0))).bind fun y' => loopLaw lam m' (x + (k + 1) + y') y' := by
          conv_lhs => unfold loopLaw
          rw [if_pos (Nat.succ_pos k)]
        have hx : x + (s + 1) = x + (k + 1) + (s - k) := by omega
        rw [hl, hx, ih (s - k) (by omega) _ m' (x + (k + 1)) (by omega), poissonMeasure_singleton,
          ← ENNReal.ofReal_mul (by positivity)]
        push_cast
        rfl
      · intro k _
        have := gp_nonneg (lam := lam) (θ := lam * ((k + 1 : ℕ) : ℝ)) (by positivity) (by positivity) (s - k)
        positivity

/-- **C181.** One element: for every count `x` the sampler returns `x` with the documented probability, and needs at most `x`
passes for it. -/
theorem C181_law {theta : ℝ≥0} (ht : 0 < theta) (lam : ℝ≥0) {x n : ℕ} (hn : x ≤ n) :
    branchLaw theta lam n {x} = ENNReal.ofReal (Spec.pmf theta lam x) := by
  rw [gp_eq_pmf (by positivity) (by exact_mod_cast ht)]
  have := bindLaw lam x theta n 0 hn
  simpa [branchLaw] using this

/-! ### Termination -/

/-- Probability that the family of one member dies out within `n` passes. -/
noncomputable def extinct (lam : ℝ) : ℕ → ℝ
  | 0 => 0
  | n + 1 => Real.exp (-(lam * (1 - extinct lam n)))

theorem extinct_nonneg (lam : ℝ) (n : ℕ) : 0 ≤ extinct lam n := by
  cases n with
  | zero => exact le_rfl
  | succ n => exact (Real.exp_pos _).le

/-- Probability generating function of the Poisson distribution. -/
theorem poisson_pgf (ρ : ℝ≥0) {s : ℝ} (hs : 0 ≤ s) :
    ∑' y, poissonMeasure ρ {y} * ENNReal.ofReal (s ^ y) = ENNReal.ofReal (Real.exp (-(ρ * (1 - s)))) := by
  have h1 : HasSum (fun y : ℕ => Real.exp (-ρ) * (ρ * s) ^ y / y !) (Real.exp (-(ρ * (1 - s)))) := by
    have := (NormedSpace.expSeries_div_hasSum_exp (𝔸 := ℝ) ((ρ : ℝ) * s)).mul_left (Real.exp (-ρ))
    rw [← Real.exp_eq_exp_ℝ, ← Real.exp_add] at this
    have e : -(ρ : ℝ) + ρ * s = -(ρ * (1 - s)) := by ring
    rw [e] at this
    simpa only [mul_div_assoc] using this
  rw [← h1.tsum_eq, ENNReal.ofReal_tsum_of_nonneg (fun y => by positivity) h1.summable]
  refine tsum_congr fun y => ?_
  rw [poissonMeasure_singleton, ← ENNReal.ofReal_mul (by positivity), mul_pow]
  congr 1
  ring

theorem loopLaw_univ (lam : ℝ≥0) : ∀ (n x y : ℕ), loopLaw lam n x y Set.univ = ENNReal.ofReal (extinct lam n ^ y)
  | 0, x, y => by
    unfold loopLaw
    by_cases hy : 0 < y
    · rw [if_pos hy]; simp [extinct, hy.ne']
    · rw [if_neg hy]
      have : y = 0 := by omega
      subst this
      simp
  | n + 1, x, y => by
    unfold loopLaw
    by_cases hy : 0 < y
    · rw [if_pos hy, bind_nat]
      rw [tsum_congr fun a => by rw [loopLaw_univ lam n (x + a) a]]
      rw [poisson_pgf _ (extinct_nonneg _ _)]
      congr 1
      simp only [extinct]
      rw [← Real.exp_nat_mul]
      push_cast
      congr 1
      ring
    · rw [if_neg hy]
      have : y = 0 := by omega
      subst this
      simp

theorem branchLaw_univ (theta lam : ℝ≥0) (n : ℕ) :
    branchLaw theta lam n Set.univ = ENNReal.ofReal (Real.exp (-(theta * (1 - extinct lam n)))) := by
  unfold branchLaw
  rw [bind_nat, tsum_congr fun a => by rw [loopLaw_univ lam n a a], poisson_pgf _ (extinct_nonneg _ _)]

theorem extinct_le_one {lam : ℝ} (hl : 0 ≤ lam) : ∀ n, extinct lam n ≤ 1
  | 0 => by simp [extinct]
  | n + 1 => by
    have := extinct_le_one hl n
    simp only [extinct, Real.exp_le_one_iff]
    have : 0 ≤ lam * (1 - extinct lam n) := mul_nonneg hl (by linarith)
    linarith

theorem extinct_mono {lam : ℝ} (hl : 0 ≤ lam) : Monotone (extinct lam) := by
  refine monotone_nat_of_le_succ fun n => ?_
  induction n with
  | zero => exact extinct_nonneg _ _
  | succ n ih =>
    simp only [extinct, Real.exp_le_exp]
    have := mul_le_mul_of_nonneg_left ih hl
    simp only [extinct] at this
    nlinarith

theorem extinct_tendsto {lam : ℝ} (hl : 0 ≤ lam) (h1 : lam ≤ 1) : Tendsto (extinct lam) atTop (𝓝 1) := by
  have hb : BddAbove (Set.range (extinct lam)) := ⟨1, by rintro _ ⟨n, rfl⟩; exact extinct_le_one hl n⟩
  have ht := tendsto_atTop_ciSup (extinct_mono hl) hb
  set L := ⨆ n, extinct lam n with hL
  have hL1 : L ≤ 1 := le_of_tendsto' ht (extinct_le_one hl)
  have hfix : L = Real.exp (-(lam * (1 - L))) := by
    have ht' : Tendsto (fun n => extinct lam (n + 1)) atTop (𝓝 (Real.exp (-(lam * (1 - L))))) := by
      simp only [extinct]
      exact (Real.continuous_exp.tendsto _).comp (((ht.const_sub 1).const_mul lam).neg)
    exact tendsto_nhds_unique ((tendsto_add_atTop_iff_nat 1).mpr ht) ht'
  have : L = 1 := by
    by_contra hne
    have hlt : L < 1 := lt_of_le_of_ne hL1 hne
    have h2 : -(1 - L) + 1 < Real.exp (-(1 - L)) := Real.add_one_lt_exp (by linarith)
    have h3 : Real.exp (-(1 - L)) ≤ Real.exp (-(lam * (1 - L))) := by
      rw [Real.exp_le_exp]
      nlinarith
    linarith
  rw [this] at ht
  exact ht

/-- **C181.** The probability that an element is finished within `n` passes has a closed form, and tends to one for
`0 ≤ lam ≤ 1`: the loop ends with probability one. -/
theorem C181_terminates (theta lam : ℝ≥0) (h1 : lam ≤ 1) :
    (∀ n, branchLaw theta lam n Set.univ = ENNReal.ofReal (Real.exp (-(theta * (1 - extinct lam n))))) ∧
    Tendsto (fun n => branchLaw theta lam n Set.univ) atTop (𝓝 1) := by
  refine ⟨branchLaw_univ theta lam, ?_⟩
  simp only [branchLaw_univ]
  have h := extinct_tendsto (lam := lam) (by positivity) (by exact_mod_cast h1)
  have h2 : Tendsto (fun n => Real.exp (-(theta * (1 - extinct lam n)))) atTop (𝓝 1) := by
    have := (Real.continuous_exp.tendsto _).comp (((h.const_sub 1).const_mul (theta : ℝ)).neg)
    simpa [Function.comp_def] using this
  simpa using ENNReal.tendsto_ofReal h2

theorem loopLaw_mono (lam : ℝ≥0) : ∀ (n x y : ℕ) (s : Set ℕ), loopLaw lam n x y s ≤ loopLaw lam (n + 1) x y s
  | 0, x, y, s => by
    conv_lhs => unfold loopLaw
    conv_rhs => unfold loopLaw
    split
    · simp
    · exact le_rfl
  | n + 1, x, y, s => by
    conv_lhs => unfold loopLaw
    conv_rhs => unfold loopLaw
    split
    · rw [bind_nat, bind_nat]
      exact ENNReal.tsum_le_tsum fun a => mul_le_mul_right (loopLaw_mono lam n (x + a) a s) _
    · exact le_rfl

theorem branchLaw_mono (theta lam : ℝ≥0) (s : Set ℕ) : Monotone fun n => branchLaw theta lam n s := by
  refine monotone_nat_of_le_succ fun n => ?_
  unfold branchLaw
  rw [bind_nat, bind_nat]
  exact ENNReal.tsum_le_tsum fun a => mul_le_mul_right (loopLaw_mono lam n a a s) _

/-- **C181.** For `0 ≤ lam ≤ 1` the documented probabilities add up to one. -/
theorem C181_normalised {mu lam : ℝ} (hmu : 0 < mu) (hl : 0 ≤ lam) (h1 : lam ≤ 1) :
    HasSum (fun x : ℕ => Spec.pmf mu lam x) 1 := by
  lift mu to ℝ≥0 using hmu.le
  lift lam to ℝ≥0 using hl
  have hmu' : 0 < mu := by exact_mod_cast hmu
  have ht := (C181_terminates mu lam (by exact_mod_cast h1)).2
  have hle : ∑' x : ℕ, ENNReal.ofReal (Spec.pmf mu lam x) ≤ 1 := by
    refine ENNReal.tsum_le_of_sum_range_le fun N => ?_
    calc ∑ x ∈ Finset.range N, ENNReal.ofReal (Spec.pmf mu lam x)
        = ∑ x ∈ Finset.range N, branchLaw mu lam N {x} :=
          Finset.sum_congr rfl fun x hx => (C181_law hmu' lam (Finset.mem_range.mp hx).le).symm
      _ = branchLaw mu lam N (Finset.range N) := by rw [sum_measure_singleton]
      _ ≤ branchLaw mu lam N Set.univ := measure_mono (Set.subset_univ _)
      _ ≤ 1 := (branchLaw_mono mu lam Set.univ).ge_of_tendsto ht N
  have hge : 1 ≤ ∑' x : ℕ, ENNReal.ofReal (Spec.pmf mu lam x) := by
    refine le_of_tendsto' ht fun n => ?_
    have hu : branchLaw mu lam n Set.univ = ∑' x : ℕ, branchLaw mu lam n {x} := by
      have := lintegral_countable' (μ := branchLaw mu lam n) (fun _ => 1)
      simpa using this
    rw [hu]
    refine ENNReal.tsum_le_tsum fun x => ?_
    rw [← C181_law hmu' lam (le_max_right n x)]
    exact branchLaw_mono mu lam {x} (le_max_left n x)
  have heq := le_antisymm hle hge
  have hs : Summable fun x : ℕ => Spec.pmf mu lam x := by
    have := ENNReal.summable_toReal (f := fun x : ℕ => ENNReal.ofReal (Spec.pmf mu lam x)) (by rw [heq]; simp)
    simpa [ENNReal.toReal_ofReal (pmf_nonneg hmu _)] using this
  have := ENNReal.ofReal_tsum_of_nonneg (fun x : ℕ => pmf_nonneg (lam := lam) hmu (x : ℤ)) hs
  rw [heq, ENNReal.ofReal_eq_one] at this
  rw [← this]
  exact hs.hasSum

/-! ### The array program -/

/-- The generations of element `i`: Poisson draws with rate `theta`, then with rate `lam` times the last generation. -/
def Spec.gen {ι : Type} (pois : ℕ → ι → ℝ≥0 → ℕ) (theta lam : ι → ℝ≥0) (i : ι) : ℕ → ℕ
  | 0 => pois 0 i (theta i)
  | k + 1 => pois (k + 1) i (lam i * Spec.gen pois theta lam i k)

/-- The size of the family up to generation `k`. -/
def Spec.total {ι : Type} (pois : ℕ → ι → ℝ≥0 → ℕ) (theta lam : ι → ℝ≥0) (i : ι) (k : ℕ) : ℕ :=
  ∑ j ∈ Finset.range (k + 1), Spec.gen pois theta lam i j

theorem branchLoop_eq {ι : Type} (pois : ℕ → ι → ℝ≥0 → ℕ) (h0 : ∀ k i, pois k i 0 = 0) (theta lam : ι → ℝ≥0) (mask : ι → Prop)
    [∀ y : ι → ℕ, Decidable (∃ i, mask i ∧ 0 < y i)] : ∀ (fuel k : ℕ),
    (∀ x, branchLoop pois lam mask fuel (k + 1) (fun i => Spec.total pois theta lam i k) (fun i => Spec.gen pois theta lam i k) =
      some x → ∃ K, k ≤ K ∧ K ≤ k + fuel ∧ (∀ i, mask i → Spec.gen pois theta lam i K = 0) ∧
        ∀ i, x i = Spec.total pois theta lam i K) ∧
    ((∀ i, mask i → Spec.gen pois theta lam i (k + fuel) = 0) →
      (branchLoop pois lam mask fuel (k + 1) (fun i => Spec.total pois theta lam i k)
        (fun i => Spec.gen pois theta lam i k)).isSome)
  | 0, k => by
    constructor
    · intro x hx
      unfold branchLoop at hx
      split at hx
      · cases hx
      · rename_i hn
        cases hx
        push Not at hn
        exact ⟨k, le_rfl, le_rfl, fun i hi => by simpa using hn i hi, fun i => rfl⟩
    · intro h
      unfold branchLoop
      rw [if_neg]
      · rfl
      · rintro ⟨i, hi, hp⟩
        have := h i hi
        simp only [Nat.add_zero] at this
        simp only at hp
        omega
  | fuel + 1, k => by
    have ih := branchLoop_eq pois h0 theta lam mask fuel (k + 1)
    have hstep : branchLoop pois lam mask (fuel + 1) (k + 1) (fun i => Spec.total pois theta lam i k)
        (fun i => Spec.gen pois theta lam i k) = if ∃ i, mask i ∧ 0 < Spec.gen pois theta lam i k then
          branchLoop pois lam mask fuel (k + 1 + 1) (fun i => Spec.total pois theta lam i (k + 1))
            (fun i => Spec.gen pois theta lam i (k + 1)) else some fun i => Spec.total pois theta lam i k := by
      conv_lhs => unfold branchLoop
      congr 1
      change branchLoop pois lam mask fuel (k + 1 + 1) _ (fun i => Spec.gen pois theta lam i (k + 1)) = _
      congr 1
      funext i
      have ht : Spec.total pois theta lam i (k + 1) = Spec.total pois theta lam i k + Spec.gen pois theta lam i (k + 1) := by
        unfold Spec.total
        rw [Finset.sum_range_succ _ (k + 1)]
      by_cases hp : 0 < Spec.gen pois theta lam i k
      · simp only [hp, if_true, ht]
        rfl
      · have hz : Spec.gen pois theta lam i k = 0 := by omega
        have hz' : Spec.gen pois theta lam i (k + 1) = 0 := by simp [Spec.gen, hz, h0]
        simp [hz, ht, hz']
    rw [hstep]
    constructor
    · intro x hx
      split at hx
      · obtain ⟨K, h1, h2, h3, h4⟩ := ih.1 x hx
        exact ⟨K, by omega, by omega, h3, h4⟩
      · rename_i hn
        cases hx
        push Not at hn
        exact ⟨k, le_rfl, by omega, fun i hi => by simpa using hn i hi, fun i => rfl⟩
    · intro h
      split
      · refine ih.2 ?_
        have e : k + 1 + fuel = k + (fuel + 1) := by omega
        rw [e]
        exact h
      · rfl

/-- **C181.** A vector of elements drawn together: each gets the size of its own family, built from its own draws, whatever the
other elements do; and the loop ends once the families of all elements drawn by this method are extinct. (A Poisson draw with rate
zero is zero.) -/
theorem C181_elements {ι : Type} (pois : ℕ → ι → ℝ≥0 → ℕ) (h0 : ∀ k i, pois k i 0 = 0) (theta lam : ι → ℝ≥0) (mask : ι → Prop)
    [∀ y : ι → ℕ, Decidable (∃ i, mask i ∧ 0 < y i)] (fuel : ℕ) :
    ((branchVec pois theta lam mask fuel).isSome ↔ ∀ i, mask i → Spec.gen pois theta lam i fuel = 0) ∧
    ∀ x, branchVec pois theta lam mask fuel = some x → ∃ K, (∀ i, mask i → Spec.gen pois theta lam i K = 0) ∧
      ∀ i, mask i → ∀ k, K ≤ k → x i = Spec.total pois theta lam i k := by
  have h := branchLoop_eq pois h0 theta lam mask fuel 0
  have e : branchVec pois theta lam mask fuel = branchLoop pois lam mask fuel (0 + 1) (fun i => Spec.total pois theta lam i 0)
      (fun i => Spec.gen pois theta lam i 0) := by
    simp [branchVec, Spec.total, Spec.gen]
  have hdead : ∀ i K, Spec.gen pois theta lam i K = 0 → ∀ k, K ≤ k → Spec.gen pois theta lam i k = 0 := by
    intro i K hK k hk
    induction k, hk using Nat.le_induction with
    | base => exact hK
    | succ k _ ih => simp [Spec.gen, ih, h0]
  rw [e]
  refine ⟨⟨fun hs => ?_, fun hs => h.2 (by simpa using hs)⟩, fun x hx => ?_⟩
  · obtain ⟨x, hx⟩ := Option.isSome_iff_exists.mp hs
    obtain ⟨K, _, h2, h3, _⟩ := h.1 x hx
    exact fun i hi => hdead i K (h3 i hi) fuel (by omega)
  · obtain ⟨K, _, _, h3, h4⟩ := h.1 x hx
    refine ⟨K, h3, fun i hi k hk => ?_⟩
    rw [h4 i]
    induction k, hk using Nat.le_induction with
    | base => rfl
    | succ k hk ih =>
      have ht : Spec.total pois theta lam i (k + 1) = Spec.total pois theta lam i k + Spec.gen pois theta lam i (k + 1) := by
        unfold Spec.total
        rw [Finset.sum_range_succ _ (k + 1)]
      rw [ht, hdead i K (h3 i hi) (k + 1) (by omega), ih]
      rfl

/-- Two elements: families 2, 1, 0 and 3, 0. -/
example : (branchVec (ι := Bool) (fun k i _ => if i then [2, 1, 0].getD k 0 else [3, 0].getD k 0) (fun _ => 1) (fun _ => 1)
    (fun _ => True) 5).map (fun x => (x true, x false)) = some (3, 3) := by
  simp [branchVec, branchLoop]

/-- The hypotheses of `C181_law` and `C181_terminates` are met, for example, by `mu = 2, lam = 1`, the end of the range. -/
example : branchLaw 2 1 3 {3} = ENNReal.ofReal (Spec.pmf 2 1 3) ∧
    Tendsto (fun n => branchLaw 2 1 n Set.univ) atTop (𝓝 1) :=
  ⟨by simpa using C181_law (theta := 2) (by norm_num) 1 (le_refl 3), (C181_terminates 2 1 le_rfl).2⟩

/-! ### Mean and variance -/

/-- `(ν + λ y)^y e^{-(ν + λ y)} / y!`. -/
noncomputable def hh (lam ν : ℝ) (y : ℕ) : ℝ := (ν + lam * y) ^ y * Real.exp (-(ν + lam * y)) / y !

theorem hh_nonneg {lam ν : ℝ} (hl : 0 ≤ lam) (hv : 0 ≤ ν) (y : ℕ) : 0 ≤ hh lam ν y := by unfold hh; positivity

theorem gp_succ (lam θ : ℝ) (x : ℕ) : (x + 1 : ℕ) * gp lam θ (x + 1) = θ * hh lam (θ + lam) x := by
  simp only [gp, hh, Nat.factorial_succ]
  have a3 : (x ! : ℝ) ≠ 0 := by positivity
  have a4 : (x : ℝ) + 1 ≠ 0 := by positivity
  have e : θ + lam + lam * x = θ + lam * (x + 1) := by ring
  rw [e]
  push_cast
  field_simp

theorem hh_zero (lam ν : ℝ) : hh lam ν 0 = gp lam ν 0 := by simp [hh, gp]

theorem hh_succ (lam ν : ℝ) (y : ℕ) : hh lam ν (y + 1) = gp lam ν (y + 1) + lam * hh lam (ν + lam) y := by
  simp only [gp, hh, Nat.factorial_succ]
  have a3 : (y ! : ℝ) ≠ 0 := by positivity
  have a4 : (y : ℝ) + 1 ≠ 0 := by positivity
  have e : ν + lam + lam * y = ν + lam * (y + 1) := by ring
  rw [e]
  push_cast
  field_simp
  ring

theorem gp_hasSum {lam θ : ℝ} (hl : 0 ≤ lam) (h1 : lam ≤ 1) (ht : 0 < θ) : HasSum (gp lam θ) 1 := by
  have := C181_normalised ht hl h1
  simpa only [gp_eq_pmf hl ht] using this

theorem gp_sum_le {lam θ : ℝ} (hl : 0 ≤ lam) (h1 : lam ≤ 1) (ht : 0 < θ) (N : ℕ) : ∑ x ∈ Finset.range N, gp lam θ x ≤ 1 :=
  sum_le_hasSum _ (fun x _ => gp_nonneg hl ht.le x) (gp_hasSum hl h1 ht)

theorem hh_sum_le {lam : ℝ} (hl : 0 ≤ lam) (h1 : lam < 1) : ∀ (N : ℕ) (ν : ℝ), 0 < ν →
    ∑ y ∈ Finset.range N, hh lam ν y ≤ 1 / (1 - lam)
  | 0, ν, _ => by simp; linarith
  | N + 1, ν, hv => by
    have ih := hh_sum_le hl h1 N (ν + lam) (by linarith)
    have hg := gp_sum_le hl h1.le hv (N + 1)
    rw [Finset.sum_range_succ'] at hg ⊢
    simp only [hh_succ, hh_zero, Finset.sum_add_distrib, ← Finset.mul_sum]
    have h2 : (0 : ℝ) < 1 - lam := by linarith
    have h3 : lam * ∑ y ∈ Finset.range N, hh lam (ν + lam) y ≤ lam * (1 / (1 - lam)) := mul_le_mul_of_nonneg_left ih hl
    have h4 : 1 + lam * (1 / (1 - lam)) = 1 / (1 - lam) := by field_simp; ring
    linarith

/-- A non-negative function below a line with `e ν = λ e (ν + λ)` vanishes. -/
theorem vanishes {lam : ℝ} (hl : 0 ≤ lam) (h1 : lam < 1) {e : ℝ → ℝ} {a b : ℝ} (h0 : ∀ ν, 0 < ν → 0 ≤ e ν)
    (hb : ∀ ν, 0 < ν → e ν ≤ a * ν + b) (hr : ∀ ν, 0 < ν → e ν = lam * e (ν + lam)) (ν : ℝ) (hv : 0 < ν) : e ν = 0 := by
  have hi : ∀ n : ℕ, e ν = lam ^ n * e (ν + n * lam) := by
    intro n
    induction n with
    | zero => simp
    | succ n ih =>
      rw [ih, hr (ν + n * lam) (by positivity), pow_succ]
      push_cast
      rw [show ν + n * lam + lam = ν + (n + 1) * lam by ring]
      ring
  have hle : ∀ n : ℕ, e ν ≤ (a * ν + b) * lam ^ n + a * lam * (n * lam ^ n) := by
    intro n
    rw [hi n]
    have := mul_le_mul_of_nonneg_left (hb (ν + n * lam) (by positivity)) (pow_nonneg hl n)
    calc _ ≤ _ := this
      _ = _ := by ring
  have ht : Tendsto (fun n : ℕ => (a * ν + b) * lam ^ n + a * lam * (n * lam ^ n)) atTop (𝓝 0) := by
    have t1 := tendsto_pow_atTop_nhds_zero_of_lt_one hl h1
    have t2 := tendsto_self_mul_const_pow_of_lt_one hl h1
    simpa using (t1.const_mul (a * ν + b)).add (t2.const_mul (a * lam))
  exact le_antisymm (ge_of_tendsto' ht hle) (h0 ν hv)

theorem hh_hasSum {lam : ℝ} (hl : 0 ≤ lam) (h1 : lam < 1) {ν : ℝ} (hv : 0 < ν) : HasSum (hh lam ν) (1 / (1 - lam)) := by
  have h2 : (0 : ℝ) < 1 - lam := by linarith
  have hs : ∀ ν, 0 < ν → Summable (hh lam ν) := fun ν hv =>
    summable_of_sum_range_le (fun y => hh_nonneg hl hv.le y) fun N => hh_sum_le hl h1 N ν hv
  have hrec : ∀ ν, 0 < ν → ∑' y, hh lam ν y = 1 + lam * ∑' y, hh lam (ν + lam) y := by
    intro ν hv
    have hg := (gp_hasSum hl h1.le hv).summable
    have hg1 := (gp_hasSum hl h1.le hv).tsum_eq
    rw [(hs ν hv).tsum_eq_zero_add, hh_zero]
    simp only [hh_succ]
    rw [Summable.tsum_add ((summable_nat_add_iff 1).mpr hg) ((hs (ν + lam) (by linarith)).mul_left lam), tsum_mul_left]
    rw [hg.tsum_eq_zero_add] at hg1
    linarith
  have key := vanishes hl h1 (e := fun ν => 1 / (1 - lam) - ∑' y, hh lam ν y) (a := 0) (b := 1 / (1 - lam))
    (fun ν hv => by
      have := Real.tsum_le_of_sum_range_le (fun y => hh_nonneg hl hv.le y) fun N => hh_sum_le hl h1 N ν hv
      linarith)
    (fun ν hv => by
      have : (0 : ℝ) ≤ ∑' y, hh lam ν y := tsum_nonneg (fun y => hh_nonneg hl hv.le y)
      linarith)
    (fun ν hv => by
      rw [hrec ν hv]
      field_simp
      ring) ν hv
  have h3 := (hs ν hv).hasSum
  have h4 : ∑' y, hh lam ν y = 1 / (1 - lam) := by linarith
  rwa [h4] at h3

theorem gp_mean {lam : ℝ} (hl : 0 ≤ lam) (h1 : lam < 1) {θ : ℝ} (ht : 0 < θ) :
    HasSum (fun x : ℕ => x * gp lam θ x) (θ / (1 - lam)) := by
  have h := (hh_hasSum hl h1 (ν := θ + lam) (by linarith)).mul_left θ
  rw [← hasSum_nat_add_iff' 1]
  simp only [gp_succ]
  rw [mul_one_div] at h
  simpa using h

/-- **C182.** For `0 ≤ lam < 1` the mean is the documented `mu / (1 - lam)`. -/
theorem C182_mean {mu lam : ℝ} (hmu : 0 < mu) (hl : 0 ≤ lam) (h1 : lam < 1) :
    HasSum (fun x : ℕ => x * Spec.pmf mu lam x) (mu / (1 - lam)) := by
  simpa only [gp_eq_pmf hl hmu] using gp_mean hl h1 hmu

/-- **C182.** At the end `lam = 1` of the allowed range the mean is infinite. -/
theorem C182_infinite_mean {mu : ℝ} (hmu : 0 < mu) : ¬ Summable fun x : ℕ => x * Spec.pmf mu 1 x := by
  intro hsum
  simp only [gp_eq_pmf zero_le_one hmu] at hsum
  have h0 : Summable (hh 1 (mu + 1)) := by
    have := (summable_nat_add_iff 1).mpr hsum
    simp only [gp_succ] at this
    exact (summable_mul_left_iff hmu.ne').mp this
  have hstep : ∀ ν, 0 < ν → Summable (hh 1 ν) → Summable (hh 1 (ν + 1)) ∧ ∑' y, hh 1 ν y = 1 + ∑' y, hh 1 (ν + 1) y := by
    intro ν hv hs
    have hg := gp_hasSum zero_le_one le_rfl hv
    have hs1 := (summable_nat_add_iff 1).mpr hs
    simp only [hh_succ, one_mul] at hs1
    have hs2 : Summable (hh 1 (ν + 1)) := by
      have := hs1.sub ((summable_nat_add_iff 1).mpr hg.summable)
      simpa using this
    refine ⟨hs2, ?_⟩
    have hg1 := hg.tsum_eq
    rw [hs.tsum_eq_zero_add, hh_zero]
    simp only [hh_succ, one_mul]
    rw [Summable.tsum_add ((summable_nat_add_iff 1).mpr hg.summable) hs2]
    rw [hg.summable.tsum_eq_zero_add] at hg1
    linarith
  have hall : ∀ n : ℕ, Summable (hh 1 (mu + 1 + n)) ∧ ∑' y, hh 1 (mu + 1) y = n + ∑' y, hh 1 (mu + 1 + n) y := by
    intro n
    induction n with
    | zero => simpa using h0
    | succ n ih =>
      have := hstep (mu + 1 + n) (by positivity) ih.1
      have e : mu + 1 + (n : ℝ) + 1 = mu + 1 + ((n + 1 : ℕ) : ℝ) := by push_cast; ring
      rw [e] at this
      refine ⟨this.1, ?_⟩
      rw [ih.2, this.2]
      push_cast
      ring
  obtain ⟨n, hn⟩ := exists_nat_gt (∑' y, hh 1 (mu + 1) y)
  have h1 := (hall n).2
  have h2 : (0 : ℝ) ≤ ∑' y, hh 1 (mu + 1 + n) y :=
    tsum_nonneg (fun y => hh_nonneg zero_le_one (show 0 ≤ mu + 1 + n by positivity) y)
  linarith

/-! Second moment. -/

theorem kk_sum_le {lam : ℝ} (hl : 0 ≤ lam) (h1 : lam < 1) : ∀ (N : ℕ) (ν : ℝ), 0 < ν →
    ∑ y ∈ Finset.range N, y * hh lam ν y ≤ 1 / (1 - lam) ^ 2 * ν + lam / (1 - lam) ^ 3
  | 0, ν, hv => by
    have h2 : (0 : ℝ) < 1 - lam := by linarith
    simp
    positivity
  | N + 1, ν, hv => by
    have h2 : (0 : ℝ) < 1 - lam := by linarith
    have ih := kk_sum_le hl h1 N (ν + lam) (by linarith)
    have ihh := hh_sum_le hl h1 N (ν + lam) (by linarith)
    have hm : ∑ y ∈ Finset.range (N + 1), (y : ℝ) * gp lam ν y ≤ ν / (1 - lam) :=
      sum_le_hasSum _ (fun x _ => mul_nonneg (by positivity) (gp_nonneg hl hv.le x)) (gp_mean hl h1 hv)
    rw [Finset.sum_range_succ'] at hm ⊢
    simp only [hh_succ, Nat.cast_zero, zero_mul, add_zero] at hm ⊢
    have e : ∀ y : ℕ, ((y + 1 : ℕ) : ℝ) * (gp lam ν (y + 1) + lam * hh lam (ν + lam) y) =
        ((y + 1 : ℕ) : ℝ) * gp lam ν (y + 1) + lam * (y * hh lam (ν + lam) y) + lam * hh lam (ν + lam) y := by
      intro y; push_cast; ring
    simp only [e, Finset.sum_add_distrib, ← Finset.mul_sum]
    have h3 := mul_le_mul_of_nonneg_left ih hl
    have h4 := mul_le_mul_of_nonneg_left ihh hl
    have h5 : ν / (1 - lam) + lam * (1 / (1 - lam) ^ 2 * (ν + lam) + lam / (1 - lam) ^ 3) + lam * (1 / (1 - lam)) =
        1 / (1 - lam) ^ 2 * ν + lam / (1 - lam) ^ 3 := by field_simp; ring
    linarith

theorem kk_hasSum {lam : ℝ} (hl : 0 ≤ lam) (h1 : lam < 1) {ν : ℝ} (hv : 0 < ν) :
    HasSum (fun y : ℕ => y * hh lam ν y) (1 / (1 - lam) ^ 2 * ν + lam / (1 - lam) ^ 3) := by
  have h2 : (0 : ℝ) < 1 - lam := by linarith
  have hn : ∀ ν, 0 < ν → ∀ y : ℕ, 0 ≤ (y : ℝ) * hh lam ν y := fun ν hv y => mul_nonneg (by positivity) (hh_nonneg hl hv.le y)
  have hs : ∀ ν, 0 < ν → Summable (fun y : ℕ => y * hh lam ν y) := fun ν hv =>
    summable_of_sum_range_le (hn ν hv) fun N => kk_sum_le hl h1 N ν hv
  have hrec : ∀ ν, 0 < ν → ∑' y : ℕ, y * hh lam ν y =
      ν / (1 - lam) + lam * ∑' y : ℕ, y * hh lam (ν + lam) y + lam * (1 / (1 - lam)) := by
    intro ν hv
    have hv' : 0 < ν + lam := by linarith
    have hg := (gp_mean hl h1 hv).summable
    have hg1 := (gp_mean hl h1 hv).tsum_eq
    have hh1 := hh_hasSum hl h1 hv'
    rw [(hs ν hv).tsum_eq_zero_add]
    have e : ∀ y : ℕ, ((y + 1 : ℕ) : ℝ) * hh lam ν (y + 1) =
        ((y + 1 : ℕ) : ℝ) * gp lam ν (y + 1) + lam * (y * hh lam (ν + lam) y) + lam * hh lam (ν + lam) y := by
      intro y; rw [hh_succ]; push_cast; ring
    simp only [e]
    have hg' : Summable fun y : ℕ => ((y + 1 : ℕ) : ℝ) * gp lam ν (y + 1) :=
      (summable_nat_add_iff (f := fun y : ℕ => (y : ℝ) * gp lam ν y) 1).mpr hg
    rw [Summable.tsum_add (hg'.add ((hs _ hv').mul_left lam)) (hh1.summable.mul_left lam),
      Summable.tsum_add hg' ((hs _ hv').mul_left lam), tsum_mul_left, tsum_mul_left, hh1.tsum_eq]
    rw [hg.tsum_eq_zero_add] at hg1
    simp only [Nat.cast_zero, zero_mul, zero_add] at hg1 ⊢
    rw [hg1]
  have key := vanishes hl h1 (e := fun ν => 1 / (1 - lam) ^ 2 * ν + lam / (1 - lam) ^ 3 - ∑' y : ℕ, y * hh lam ν y)
    (a := 1 / (1 - lam) ^ 2) (b := lam / (1 - lam) ^ 3)
    (fun ν hv => by
      have := Real.tsum_le_of_sum_range_le (hn ν hv) fun N => kk_sum_le hl h1 N ν hv
      linarith)
    (fun ν hv => by
      have : (0 : ℝ) ≤ ∑' y : ℕ, y * hh lam ν y := tsum_nonneg (hn ν hv)
      linarith)
    (fun ν hv => by
      rw [hrec ν hv]
      field_simp
      ring) ν hv
  have h3 := (hs ν hv).hasSum
  have h4 : ∑' y : ℕ, y * hh lam ν y = 1 / (1 - lam) ^ 2 * ν + lam / (1 - lam) ^ 3 := by linarith
  rwa [h4] at h3

/-- **C182.** For `0 ≤ lam < 1` the variance is the documented `mu / (1 - lam)^3`. -/
theorem C182_variance {mu lam : ℝ} (hmu : 0 < mu) (hl : 0 ≤ lam) (h1 : lam < 1) :
    HasSum (fun x : ℕ => ((x : ℝ) - mu / (1 - lam)) ^ 2 * Spec.pmf mu lam x) (mu / (1 - lam) ^ 3) := by
  have h2 : (0 : ℝ) < 1 - lam := by linarith
  simp only [gp_eq_pmf hl hmu]
  have hv : 0 < mu + lam := by linarith
  have hsq : HasSum (fun x : ℕ => (x : ℝ) * (x * gp lam mu x))
      (mu * (1 / (1 - lam) ^ 2 * (mu + lam) + lam / (1 - lam) ^ 3 + 1 / (1 - lam))) := by
    rw [← hasSum_nat_add_iff' 1]
    simp only [gp_succ]
    have := ((kk_hasSum hl h1 hv).add (hh_hasSum hl h1 hv)).mul_left mu
    simp only [Finset.range_one, Finset.sum_singleton, Nat.cast_zero, zero_mul, sub_zero]
    refine this.congr_fun fun x => ?_
    push_cast
    ring
  have hsum := (hsq.sub ((gp_mean hl h1 hmu).mul_left (2 * (mu / (1 - lam))))).add
    ((gp_hasSum hl h1.le hmu).mul_left ((mu / (1 - lam)) ^ 2))
  have e : mu * (1 / (1 - lam) ^ 2 * (mu + lam) + lam / (1 - lam) ^ 3 + 1 / (1 - lam)) -
      2 * (mu / (1 - lam)) * (mu / (1 - lam)) + (mu / (1 - lam)) ^ 2 * 1 = mu / (1 - lam) ^ 3 := by
    field_simp
    ring
  rw [e] at hsum
  refine hsum.congr_fun fun x => ?_
  ring

example : HasSum (fun x : ℕ => x * Spec.pmf 3 (1 / 2) x) 6 := by
  have := C182_mean (mu := 3) (lam := 1 / 2) (by norm_num) (by norm_num) (by norm_num)
  norm_num at this ⊢
  exact this

end GenPoisson
