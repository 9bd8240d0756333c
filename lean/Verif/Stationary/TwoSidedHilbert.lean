import Verif.Kalman.Orthogonal
import Verif.Stationary.Props
import Mathlib.Analysis.InnerProductSpace.Continuous
import Mathlib.Analysis.InnerProductSpace.l2Space

/-!
# Two-sided solutions of the state equation in a Hilbert space

A bounded two-sided solution of `x_{t+1} = T x_t + R e_t` with a stable `T` is the sum of its past shocks.  Nothing here mentions the
code.
-/

set_option autoImplicit false

open Finset Matrix Filter Topology

namespace Verif.Stationary.TwoSided

open Verif.Kalman.Orthogonal

variable {V : Type*} [NormedAddCommGroup V] [InnerProductSpace ℝ V]
variable {n r : Type*} [Fintype n] [Fintype r] [DecidableEq n] [DecidableEq r]
variable {T : Matrix n n ℝ} {R : Matrix n r ℝ} {Q : Matrix r r ℝ} {x : ℤ → n → V} {e : ℤ → r → V}

/-- The shocks of the last `k` dates. Proof notion, no code behind it. -/
def past (T : Matrix n n ℝ) (R : Matrix n r ℝ) (e : ℤ → r → V) (k : ℕ) (t : ℤ) : n → V :=
  ∑ i ∈ range k, act (T ^ i * R) (e (t - 1 - i))

theorem past_succ (k : ℕ) (t : ℤ) : past T R e (k + 1) t = past T R e k t + act (T ^ k * R) (e (t - 1 - k)) := by
  unfold past; rw [sum_range_succ]

theorem act_one' (v : n → V) : act (1 : Matrix n n ℝ) v = v := by
  funext i; simp [act, Matrix.one_apply]

theorem iterate (h : ∀ t, x (t + 1) = act T (x t) + act R (e t)) (k : ℕ) (t : ℤ) :
    x t = act (T ^ k) (x (t - k)) + past T R e k t := by
  induction k with
  | zero => simp [past, act_one']
  | succ k ih =>
    rw [past_succ]
    have e1 : t - (k : ℤ) = (t - (k + 1 : ℕ)) + 1 := by push_cast; ring
    rw [e1, h, act_add, act_act, act_act, ← pow_succ] at ih
    have e2 : t - ((k + 1 : ℕ) : ℤ) = t - 1 - k := by push_cast; ring
    rw [e2] at ih ⊢
    conv_lhs => rw [ih]
    abel

theorem act_small {C : ℝ} (hT : Spec.Stable T) (y : ℕ → n → V) (hy : ∀ k i, ‖y k i‖ ≤ C) (i : n) :
    Tendsto (fun k => act (T ^ k) (y k) i) atTop (𝓝 0) := by
  unfold act
  rw [show (0 : V) = ∑ _j : n, (0 : V) by simp]
  refine tendsto_finsetSum _ fun j _ => ?_
  rw [tendsto_zero_iff_norm_tendsto_zero]
  have h0 : Tendsto (fun k => |(T ^ k) i j| * C) atTop (𝓝 0) := by
    have h1 : Tendsto (fun k => (T ^ k) i j) atTop (𝓝 0) := by
      have := (continuous_apply j).comp (continuous_apply i) |>.tendsto (0 : Matrix n n ℝ) |>.comp hT
      exact this
    have := h1.abs.mul_const C
    simpa using this
  refine squeeze_zero (fun _ => norm_nonneg _) (fun k => ?_) h0
  rw [norm_smul, Real.norm_eq_abs]
  exact mul_le_mul_of_nonneg_left (hy _ _) (abs_nonneg _)

/-- **Uniqueness.** A bounded solution is the sum of its past shocks. -/
theorem limit (hT : Spec.Stable T) (h : ∀ t, x (t + 1) = act T (x t) + act R (e t)) {C : ℝ} (hx : ∀ t i, ‖x t i‖ ≤ C) (t : ℤ) (i : n) :
    Tendsto (fun k => past T R e k t i) atTop (𝓝 (x t i)) := by
  have h1 := (tendsto_const_nhds (x := x t i)).sub (act_small hT (fun k => x (t - k)) (fun k i => hx _ i) i)
  rw [sub_zero] at h1
  refine h1.congr fun k => ?_
  have := congrFun (iterate h k t) i
  simp only [Pi.add_apply] at this
  rw [this]; abel

/-- Second moments. -/
theorem covM_past (he : ∀ s t, covM (innerₗ V) (e s) (e t) = if s = t then Q else 0) (k l : ℕ) (t : ℤ) :
    covM (innerₗ V) (past T R e k t) (act (T ^ l * R) (e (t - 1 - l))) =
      if l < k then T ^ l * (R * Q * Rᵀ) * (T ^ l)ᵀ else 0 := by
  induction k with
  | zero => ext i j; simp [past, covM]
  | succ k ih =>
    rw [past_succ, covM_add_left, ih, covM_act_left, covM_act_right, he]
    by_cases hkl : l = k
    · subst hkl
      simp [Matrix.transpose_mul, Matrix.mul_assoc]
    · have : ¬ (t - 1 - (k : ℤ) = t - 1 - (l : ℤ)) := by omega
      rw [if_neg this, Matrix.zero_mul, Matrix.mul_zero, add_zero]
      by_cases hl : l < k
      · rw [if_pos hl, if_pos (by omega)]
      · rw [if_neg hl, if_neg (by omega)]

theorem inner_symm' (a b : V) : innerₗ V a b = innerₗ V b a := by
  rw [innerₗ_apply_apply, innerₗ_apply_apply, real_inner_comm]

theorem covM_past_self (he : ∀ s t, covM (innerₗ V) (e s) (e t) = if s = t then Q else 0) (k : ℕ) (t : ℤ) :
    covM (innerₗ V) (past T R e k t) (past T R e k t) = ∑ i ∈ range k, T ^ i * (R * Q * Rᵀ) * (T ^ i)ᵀ := by
  induction k with
  | zero => ext i j; simp [past, covM]
  | succ k ih =>
    rw [sum_range_succ, ← ih]
    have h1 := covM_past (R := R) (T := T) he k k t
    rw [if_neg (lt_irrefl _)] at h1
    have h2 := covM_past (R := R) (T := T) he (k + 1) k t
    rw [if_pos (by omega)] at h2
    rw [past_succ, covM_add_right, ← past_succ, h2, past_succ, covM_add_left]
    rw [← covM_transpose (innerₗ V) inner_symm' (past T R e k t) (act (T ^ k * R) (e (t - 1 - k))), h1, Matrix.transpose_zero, add_zero]

theorem covM_limit {m : Type*} {u v : ℕ → m → V} {u' v' : m → V} (hu : ∀ i, Tendsto (fun k => u k i) atTop (𝓝 (u' i)))
    (hv : ∀ i, Tendsto (fun k => v k i) atTop (𝓝 (v' i))) (i j : m) :
    Tendsto (fun k => covM (innerₗ V) (u k) (v k) i j) atTop (𝓝 (covM (innerₗ V) u' v' i j)) := by
  simp only [covM, Matrix.of_apply, innerₗ_apply_apply]
  exact (hu i).inner (hv j)

/-- The second moments of a bounded solution are those of the stationary initialisation. -/
theorem covM_self (c : n → ℝ) (hT : Spec.Stable T) (he : ∀ s t, covM (innerₗ V) (e s) (e t) = if s = t then Q else 0) (t : ℤ)
    (hx : ∀ i, Tendsto (fun k => past T R e k t i) atTop (𝓝 (x t i))) :
    covM (innerₗ V) (x t) (x t) = (stationaryInit c T R Q).2 := by
  ext i j
  refine tendsto_nhds_unique (covM_limit hx hx i j) ?_
  simp only [covM_past_self he]
  have := C170_sum_of_past_shocks c hT R Q
  exact ((continuous_apply j).comp (continuous_apply i)).tendsto _ |>.comp this

/-- A bounded solution is orthogonal to everything its past shocks are orthogonal to. -/
theorem inner_zero {z : V} {t : ℤ} {i : n} (hx : Tendsto (fun k => past T R e k t i) atTop (𝓝 (x t i)))
    (hz : ∀ s < t, ∀ j, inner ℝ (e s j) z = 0) : inner ℝ (x t i) z = 0 := by
  refine tendsto_nhds_unique (hx.inner (tendsto_const_nhds (x := z))) (tendsto_const_nhds.congr fun k => ?_)
  symm
  unfold past
  rw [Finset.sum_apply, sum_inner]
  refine sum_eq_zero fun l _ => ?_
  unfold act
  rw [sum_inner]
  refine sum_eq_zero fun j _ => ?_
  rw [inner_smul_left, hz _ (by omega), mul_zero]

/-- **Existence.** -/
theorem exists_limit [CompleteSpace V] (c : n → ℝ) (hT : Spec.Stable T)
    (he : ∀ s t, covM (innerₗ V) (e s) (e t) = if s = t then Q else 0) (t : ℤ) (i : n) :
    ∃ y, Tendsto (fun k => past T R e k t i) atTop (𝓝 y) := by
  have hself : ∀ k, ‖past T R e k t i‖ ^ 2 = (∑ l ∈ range k, T ^ l * (R * Q * Rᵀ) * (T ^ l)ᵀ) i i := by
    intro k
    rw [← covM_past_self he k t, ← real_inner_self_eq_norm_sq]; rfl
  have hlim : Tendsto (fun k => ‖past T R e k t i‖ ^ 2) atTop (𝓝 ((stationaryInit c T R Q).2 i i)) := by
    simp only [hself]
    exact ((continuous_apply i).comp (continuous_apply i)).tendsto _ |>.comp (C170_sum_of_past_shocks c hT R Q)
  have hdiff : ∀ k d, ‖past T R e (k + d) t i - past T R e k t i‖ ^ 2 = ‖past T R e (k + d) t i‖ ^ 2 - ‖past T R e k t i‖ ^ 2 := by
    intro k d
    have hin : inner ℝ (past T R e (k + d) t i) (past T R e k t i) = ‖past T R e k t i‖ ^ 2 := by
      induction d with
      | zero => rw [Nat.add_zero, real_inner_self_eq_norm_sq]
      | succ d ih =>
        rw [← Nat.add_assoc, past_succ, Pi.add_apply, inner_add_left, ih]
        have h1 := covM_past (R := R) (T := T) he k (k + d) t
        rw [if_neg (by omega)] at h1
        have h2 := congrFun (congrFun h1 i) i
        simp only [covM, Matrix.of_apply, innerₗ_apply_apply, Matrix.zero_apply] at h2
        rw [real_inner_comm, h2, add_zero]
    rw [norm_sub_sq_real, hin]; ring
  refine cauchySeq_tendsto_of_complete ?_
  rw [Metric.cauchySeq_iff']
  intro ε hε
  obtain ⟨N, hN⟩ := Metric.cauchySeq_iff.1 hlim.cauchySeq (ε ^ 2) (by positivity)
  refine ⟨N, fun k hk => ?_⟩
  obtain ⟨d, rfl⟩ := Nat.exists_eq_add_of_le hk
  have h1 := hN (N + d) (by omega) N le_rfl
  rw [Real.dist_eq, ← hdiff, abs_of_nonneg (sq_nonneg _)] at h1
  rw [dist_eq_norm]
  exact lt_of_pow_lt_pow_left₀ 2 hε.le h1

/-- The sums of past shocks solve the equation. -/
theorem solves (hx : ∀ t i, Tendsto (fun k => past T R e k t i) atTop (𝓝 (x t i))) (t : ℤ) :
    x (t + 1) = act T (x t) + act R (e t) := by
  funext i
  have h1 := (tendsto_add_atTop_iff_nat 1).2 (hx (t + 1) i)
  refine tendsto_nhds_unique h1 ?_
  have h2 : ∀ k, past T R e (k + 1) (t + 1) = act T (past T R e k t) + act R (e t) := by
    intro k
    unfold past
    rw [sum_range_succ']
    have e1 : act T (∑ i ∈ range k, act (T ^ i * R) (e (t - 1 - i))) = ∑ i ∈ range k, act T (act (T ^ i * R) (e (t - 1 - i))) := by
      clear h1
      induction k with
      | zero => funext i; simp [act]
      | succ k ih => rw [sum_range_succ, act_add, ih, sum_range_succ]
    rw [e1]
    congr 1
    · refine sum_congr rfl fun l _ => ?_
      rw [act_act, ← Matrix.mul_assoc, ← pow_succ']
      congr 2
      push_cast; ring
    · simp
  simp only [h2, Pi.add_apply]
  refine Tendsto.add ?_ tendsto_const_nhds
  unfold act
  exact tendsto_finsetSum _ fun j _ => (hx t j).const_smul _

end Verif.Stationary.TwoSided
