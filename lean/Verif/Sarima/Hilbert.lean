import Mathlib.Analysis.InnerProductSpace.Basic
import Mathlib.Algebra.Polynomial.AlgebraMap
import Mathlib.RingTheory.PowerSeries.Trunc
import Mathlib.RingTheory.PowerSeries.Inverse
import Mathlib.Topology.Algebra.InfiniteSum.Real
import Mathlib.Analysis.InnerProductSpace.Continuous

/-!
# ARMA equations in a Hilbert space

A bounded two-sided sequence that satisfies `A(B) y = C(B) ε` is the sum of its moving-average form, if the power series `1 / A` has
coefficients that tend to zero.  Nothing here mentions the code.
-/

set_option autoImplicit false

open Finset Polynomial Filter Topology

namespace Verif.Sarima.Hilbert

variable {H : Type*} [NormedAddCommGroup H] [InnerProductSpace ℝ H]

/-- The lag operator on two-sided sequences. Specification, no code behind it. -/
def back : Module.End ℝ (ℤ → H) where
  toFun f t := f (t - 1)
  map_add' _ _ := rfl
  map_smul' _ _ := rfl

/-- A polynomial in the lag operator. Specification, no code behind it. -/
noncomputable def op (P : ℝ[X]) : Module.End ℝ (ℤ → H) := aeval back P

theorem back_pow (i : ℕ) (f : ℤ → H) (t : ℤ) : ((back : Module.End ℝ (ℤ → H)) ^ i) f t = f (t - i) := by
  induction i generalizing t with
  | zero => simp
  | succ i ih =>
    rw [pow_succ', Module.End.mul_apply]
    show ((back : Module.End ℝ (ℤ → H)) ^ i) f (t - 1) = _
    rw [ih]; congr 1; push_cast; ring

theorem op_monomial (i : ℕ) (a : ℝ) (f : ℤ → H) (t : ℤ) : op (monomial i a) f t = a • f (t - i) := by
  unfold op
  rw [aeval_monomial, Module.End.mul_apply, Module.algebraMap_end_apply, Pi.smul_apply, back_pow]

theorem op_add (P Q : ℝ[X]) (f : ℤ → H) (t : ℤ) : op (P + Q) f t = op P f t + op Q f t := by
  unfold op; rw [map_add]; rfl

theorem op_sub (P Q : ℝ[X]) (f : ℤ → H) (t : ℤ) : op (P - Q) f t = op P f t - op Q f t := by
  unfold op; rw [map_sub]; rfl

theorem op_mul (P Q : ℝ[X]) (f : ℤ → H) : op (P * Q) f = op P (op Q f) := by
  unfold op; rw [map_mul]; rfl

theorem op_one (f : ℤ → H) : op (1 : ℝ[X]) f = f := by unfold op; rw [map_one]; rfl

theorem op_sum (P : ℝ[X]) (f : ℤ → H) (t : ℤ) : op P f t = P.sum fun i a => a • f (t - i) := by
  induction P using Polynomial.induction_on' with
  | add p q hp hq => rw [op_add, hp, hq, Polynomial.sum_add_index _ _ _ (by simp) (fun i a b => add_smul _ _ _)]
  | monomial i a => rw [op_monomial, Polynomial.sum_monomial_index _ _ (by simp)]

theorem op_finset {ι : Type*} (s : Finset ι) (P : ι → ℝ[X]) (f : ℤ → H) (t : ℤ) :
    op (∑ i ∈ s, P i) f t = ∑ i ∈ s, op (P i) f t := by
  unfold op; rw [map_sum, LinearMap.sum_apply, Finset.sum_apply]

theorem op_trunc (M : ℕ) (g : PowerSeries ℝ) (f : ℤ → H) (t : ℤ) :
    op (PowerSeries.trunc M g) f t = ∑ i ∈ range M, PowerSeries.coeff i g • f (t - i) := by
  rw [PowerSeries.trunc_apply, op_finset, Nat.Ico_zero_eq_range]
  exact sum_congr rfl fun i _ => op_monomial _ _ _ _

/-- Cutting the power series before or after multiplication by a polynomial makes no difference in the limit. -/
theorem trunc_comm (g : PowerSeries ℝ) (hg : Tendsto (fun m => PowerSeries.coeff m g) atTop (𝓝 0)) (P : ℝ[X]) (f : ℤ → H)
    {C : ℝ} (hf : ∀ t, ‖f t‖ ≤ C) (t : ℤ) :
    Tendsto (fun M => op (PowerSeries.trunc M g * P) f t - op (PowerSeries.trunc M (g * (P : PowerSeries ℝ))) f t) atTop (𝓝 0) := by
  induction P using Polynomial.induction_on' with
  | add p q hp hq =>
    have := hp.add hq
    rw [add_zero] at this
    refine this.congr fun M => ?_
    rw [mul_add, op_add, Polynomial.coe_add, mul_add, map_add, op_add]
    abel
  | monomial j b =>
    rw [← tendsto_add_atTop_iff_nat j]
    have e : ∀ N, op (PowerSeries.trunc (N + j) g * monomial j b) f t -
        op (PowerSeries.trunc (N + j) (g * ((monomial j b : ℝ[X]) : PowerSeries ℝ))) f t =
        ∑ l ∈ range j, (b * PowerSeries.coeff (N + l) g) • f (t - j - (N + l : ℕ)) := by
      intro N
      have h1 : op (PowerSeries.trunc (N + j) g * monomial j b) f t =
          ∑ i ∈ range (N + j), (b * PowerSeries.coeff i g) • f (t - j - i) := by
        rw [mul_comm, op_mul, op_monomial, op_trunc, smul_sum]
        exact sum_congr rfl fun i _ => by rw [smul_smul]
      have h2 : op (PowerSeries.trunc (N + j) (g * ((monomial j b : ℝ[X]) : PowerSeries ℝ))) f t =
          ∑ i ∈ range N, (b * PowerSeries.coeff i g) • f (t - j - i) := by
        rw [op_trunc, Nat.add_comm N j, sum_range_add]
        have hc : ∀ i, PowerSeries.coeff i (g * ((monomial j b : ℝ[X]) : PowerSeries ℝ)) =
            if j ≤ i then PowerSeries.coeff (i - j) g * b else 0 := by
          intro i
          rw [← C_mul_X_pow_eq_monomial, Polynomial.coe_mul, Polynomial.coe_C, Polynomial.coe_pow, Polynomial.coe_X, ← mul_assoc,
            PowerSeries.coeff_mul_X_pow']
          split
          · rw [mul_comm g, PowerSeries.coeff_C_mul, mul_comm]
          · rfl
        rw [sum_eq_zero fun i hi => by rw [hc, if_neg (by have := mem_range.1 hi; omega), zero_smul], zero_add]
        refine sum_congr rfl fun i _ => ?_
        rw [hc, if_pos (by omega), Nat.add_sub_cancel_left, mul_comm b]
        congr 2
        push_cast; ring
      rw [h1, h2, sum_range_add, add_sub_cancel_left]
    simp only [e]
    rw [show (0 : H) = ∑ l ∈ range j, (0 : H) by simp]
    refine tendsto_finsetSum _ fun l _ => ?_
    rw [tendsto_zero_iff_norm_tendsto_zero]
    have h0 : Tendsto (fun N => |b| * |PowerSeries.coeff (N + l) g| * C) atTop (𝓝 0) := by
      have : Tendsto (fun N => PowerSeries.coeff (N + l) g) atTop (𝓝 0) := (tendsto_add_atTop_iff_nat l).2 hg
      have := ((this.abs.const_mul |b|).mul_const C)
      simpa using this
    refine squeeze_zero (fun _ => norm_nonneg _) (fun N => ?_) h0
    rw [norm_smul, Real.norm_eq_abs, abs_mul]
    exact mul_le_mul_of_nonneg_left (hf _) (by positivity)

variable {A B : ℝ[X]} {π ψ : PowerSeries ℝ}

/-- **Uniqueness.** A bounded solution is the sum of its moving-average form. -/
theorem solution (hπ : (A : PowerSeries ℝ) * π = 1) (hψ : (A : PowerSeries ℝ) * ψ = B)
    (h0 : Tendsto (fun m => PowerSeries.coeff m π) atTop (𝓝 0)) {y ε : ℤ → H} {C D : ℝ} (hy : ∀ t, ‖y t‖ ≤ C) (hε : ∀ t, ‖ε t‖ ≤ D)
    (heq : op A y = op B ε) (t : ℤ) :
    Tendsto (fun M => ∑ m ∈ range M, PowerSeries.coeff m ψ • ε (t - m)) atTop (𝓝 (y t)) := by
  have h1 := trunc_comm π h0 A y hy t
  have h2 := trunc_comm π h0 B ε hε t
  have e1 : π * (A : PowerSeries ℝ) = 1 := by rw [mul_comm, hπ]
  have e2 : π * (B : PowerSeries ℝ) = ψ := by rw [← hψ, ← mul_assoc, e1, one_mul]
  rw [e1] at h1
  rw [e2] at h2
  have h3 := h1.sub h2
  rw [sub_zero] at h3
  have h4 : Tendsto (fun M => y t - ∑ m ∈ range M, PowerSeries.coeff m ψ • ε (t - m)) atTop (𝓝 0) := by
    rw [← neg_zero]
    refine (h3.neg).congr' ?_
    filter_upwards [eventually_ge_atTop 1] with M hM
    have ht : PowerSeries.trunc M (1 : PowerSeries ℝ) = 1 := by
      obtain ⟨k, rfl⟩ : ∃ k, M = k + 1 := ⟨M - 1, by omega⟩
      exact PowerSeries.trunc_one k
    rw [op_mul, heq, ← op_mul, ht, op_one, op_trunc]
    abel
  have h5 := (tendsto_const_nhds (x := y t)).sub h4
  rw [sub_zero] at h5
  exact h5.congr fun M => by abel

/-- **Existence.** The sum of the moving-average form is a solution. -/
theorem exists_solution (hψ : (A : PowerSeries ℝ) * ψ = B) (h0 : Tendsto (fun m => PowerSeries.coeff m ψ) atTop (𝓝 0))
    {y ε : ℤ → H} {D : ℝ} (hε : ∀ t, ‖ε t‖ ≤ D)
    (hy : ∀ t, Tendsto (fun M => ∑ m ∈ range M, PowerSeries.coeff m ψ • ε (t - m)) atTop (𝓝 (y t))) : op A y = op B ε := by
  funext t
  have h1 := trunc_comm ψ h0 A ε hε t
  rw [mul_comm ψ, hψ] at h1
  have h2 : Tendsto (fun M => op (PowerSeries.trunc M ψ * A) ε t) atTop (𝓝 (op A y t)) := by
    simp only [fun M => mul_comm (PowerSeries.trunc M ψ) A, op_mul, op_sum A]
    unfold Polynomial.sum
    refine tendsto_finsetSum _ fun i _ => ?_
    refine Tendsto.const_smul ?_ _
    simp only [op_trunc]
    exact hy _
  have h3 := h2.sub h1
  rw [sub_zero] at h3
  refine tendsto_nhds_unique h3 ?_
  have h4 : ∀ᶠ M in atTop, PowerSeries.trunc M (B : PowerSeries ℝ) = B := by
    filter_upwards [eventually_gt_atTop B.natDegree] with M hM
    exact PowerSeries.trunc_coe_eq_self hM
  refine (tendsto_const_nhds (x := op B ε t)).congr' ?_
  filter_upwards [h4] with M hM
  rw [hM]; abel

/-- Covariances with the shocks. -/
theorem inner_shock {y ε : ℤ → H} {v : ℝ} (hε : ∀ s t, inner ℝ (ε s) (ε t) = if s = t then v else 0)
    (hy : ∀ t, Tendsto (fun M => ∑ m ∈ range M, PowerSeries.coeff m ψ • ε (t - m)) atTop (𝓝 (y t))) (t : ℤ) (m : ℕ) :
    inner ℝ (ε (t - m)) (y t) = PowerSeries.coeff m ψ * v := by
  have h := (hy t).inner (𝕜 := ℝ) (tendsto_const_nhds (x := ε (t - m)))
  rw [real_inner_comm]
  refine tendsto_nhds_unique h ((tendsto_const_nhds).congr' ?_)
  filter_upwards [eventually_gt_atTop m] with M hM
  rw [sum_inner, sum_eq_single m]
  · rw [inner_smul_left, hε, if_pos rfl]; rfl
  · intro b _ hb
    rw [inner_smul_left, hε, if_neg (by omega), mul_zero]
  · intro hm; exact absurd (mem_range.2 hM) hm

/-- **Autocovariances.** -/
theorem inner_solution {y ε : ℤ → H} {v : ℝ} (hε : ∀ s t, inner ℝ (ε s) (ε t) = if s = t then v else 0)
    (hy : ∀ t, Tendsto (fun M => ∑ m ∈ range M, PowerSeries.coeff m ψ • ε (t - m)) atTop (𝓝 (y t))) (t : ℤ) (k : ℕ) {γ : ℝ}
    (hγ : HasSum (fun m => v * (PowerSeries.coeff m ψ * PowerSeries.coeff (m + k) ψ)) γ) :
    inner ℝ (y t) (y (t + k)) = γ := by
  have h := (hy t).inner (𝕜 := ℝ) (tendsto_const_nhds (x := y (t + k)))
  refine tendsto_nhds_unique h (hγ.tendsto_sum_nat.congr fun M => ?_)
  rw [sum_inner]
  refine sum_congr rfl fun m _ => ?_
  have e : t - (m : ℤ) = (t + k) - ((m + k : ℕ) : ℤ) := by push_cast; ring
  rw [inner_smul_left, e, inner_shock hε hy]
  simp
  ring

end Verif.Sarima.Hilbert
