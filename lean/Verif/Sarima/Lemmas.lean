import Verif.Sarima.Model
import Mathlib.Algebra.Polynomial.Basic
import Mathlib.Algebra.Polynomial.AlgebraMap
import Mathlib.Algebra.BigOperators.Ring.Finset
import Mathlib.Algebra.BigOperators.Intervals
import Mathlib.Tactic.Ring
import Mathlib.Tactic.Linarith

set_option autoImplicit false
set_option linter.unusedSectionVars false

open Finset Polynomial

namespace Verif.Sarima

/-! ## Assignments -/

section write
variable {α : Type} [DecidableEq α]

theorem write_zero (M : α → ℝ) (idx : ℕ → α) (v : ℕ → ℝ) : write M 0 idx v = M := rfl

theorem write_succ (M : α → ℝ) (n : ℕ) (idx : ℕ → α) (v : ℕ → ℝ) :
    write M (n + 1) idx v = Function.update (write M n idx v) (idx n) (v n) := by
  simp [write, List.range_succ]

theorem write_miss (M : α → ℝ) (n : ℕ) (idx : ℕ → α) (v : ℕ → ℝ) (a : α) (h : ∀ k < n, idx k ≠ a) :
    write M n idx v a = M a := by
  induction n with
  | zero => rfl
  | succ n ih =>
    rw [write_succ, Function.update_of_ne (fun e => h n (by omega) e.symm), ih fun k hk => h k (by omega)]

/-- Assigning distinct positions that hold zero is adding. -/
theorem write_add (M : α → ℝ) (n : ℕ) (idx : ℕ → α) (v : ℕ → ℝ) (hinj : ∀ k < n, ∀ l < n, idx k = idx l → k = l)
    (h0 : ∀ k < n, M (idx k) = 0) (a : α) :
    write M n idx v a = M a + ∑ k ∈ range n, if idx k = a then v k else 0 := by
  induction n with
  | zero => simp [write_zero]
  | succ n ih =>
    have ih := ih (fun k hk l hl => hinj k (by omega) l (by omega)) (fun k hk => h0 k (by omega))
    rw [write_succ, sum_range_succ]
    by_cases h : a = idx n
    · subst h
      rw [Function.update_self, h0 n (by omega), if_pos rfl]
      have : ∑ k ∈ range n, (if idx k = idx n then v k else 0) = 0 := by
        refine sum_eq_zero fun k hk => if_neg fun e => ?_
        have := hinj k (by have := mem_range.1 hk; omega) n (by omega) e
        have := mem_range.1 hk
        omega
      rw [this]; ring
    · rw [Function.update_of_ne h, ih, if_neg (fun e => h e.symm)]; ring

end write

/-! ## Lag polynomials -/

/-- Specification: a polynomial in the lag operator applied to a sequence, read at time `t ≥` its degree:
`Σ_i p_i f (t - i)`. -/
noncomputable def Spec.lag (p : ℝ[X]) (f : ℕ → ℝ) (t : ℕ) : ℝ := p.sum fun i a => a * f (t - i)

theorem lag_add (p q : ℝ[X]) (f : ℕ → ℝ) (t : ℕ) : Spec.lag (p + q) f t = Spec.lag p f t + Spec.lag q f t := by
  simp only [Spec.lag]
  exact sum_add_index _ _ _ (fun _ => by simp) (fun _ _ _ => by ring)

theorem lag_monomial (i : ℕ) (a : ℝ) (f : ℕ → ℝ) (t : ℕ) : Spec.lag (C a * X ^ i) f t = a * f (t - i) := by
  rw [C_mul_X_pow_eq_monomial]
  simp only [Spec.lag]
  exact sum_monomial_index _ _ (by simp)

theorem lag_one (f : ℕ → ℝ) (t : ℕ) : Spec.lag 1 f t = f t := by
  have := lag_monomial 0 1 f t
  simpa using this

theorem lag_zero (f : ℕ → ℝ) (t : ℕ) : Spec.lag 0 f t = 0 := by simp [Spec.lag]

theorem lag_neg (p : ℝ[X]) (f : ℕ → ℝ) (t : ℕ) : Spec.lag (-p) f t = -Spec.lag p f t := by
  have := lag_add p (-p) f t
  rw [add_neg_cancel, lag_zero] at this
  linarith

theorem lag_sub (p q : ℝ[X]) (f : ℕ → ℝ) (t : ℕ) : Spec.lag (p - q) f t = Spec.lag p f t - Spec.lag q f t := by
  rw [sub_eq_add_neg, lag_add, lag_neg]; ring

theorem lag_sum {ι : Type} (s : Finset ι) (p : ι → ℝ[X]) (f : ℕ → ℝ) (t : ℕ) :
    Spec.lag (∑ i ∈ s, p i) f t = ∑ i ∈ s, Spec.lag (p i) f t := by
  classical
  induction s using Finset.induction_on with
  | empty => simp [lag_zero]
  | insert a s ha ih => rw [sum_insert ha, sum_insert ha, lag_add, ih]

theorem lag_monomial_mul (i : ℕ) (a : ℝ) (q : ℝ[X]) (f : ℕ → ℝ) (t : ℕ) :
    Spec.lag (C a * X ^ i * q) f t = a * Spec.lag q f (t - i) := by
  induction q using Polynomial.induction_on' with
  | add p q hp hq => rw [mul_add, lag_add, lag_add, hp, hq]; ring
  | monomial j b =>
    rw [← C_mul_X_pow_eq_monomial, show C a * X ^ i * (C b * X ^ j) = C (a * b) * X ^ (i + j) by
      rw [C_mul, pow_add]; ring, lag_monomial, lag_monomial, Nat.sub_sub]
    ring

theorem lag_mul (p q : ℝ[X]) (f : ℕ → ℝ) (t : ℕ) : Spec.lag (p * q) f t = Spec.lag p (Spec.lag q f) t := by
  induction p using Polynomial.induction_on' with
  | add p p' hp hp' => rw [add_mul, lag_add, lag_add, hp, hp']
  | monomial i a => rw [← C_mul_X_pow_eq_monomial, lag_monomial_mul, lag_monomial]

theorem lag_congr (p : ℝ[X]) (N : ℕ) (hN : ∀ i, N < i → p.coeff i = 0) (f g : ℕ → ℝ) (t : ℕ)
    (h : ∀ i ≤ N, f (t - i) = g (t - i)) : Spec.lag p f t = Spec.lag p g t := by
  simp only [Spec.lag, Polynomial.sum]
  refine sum_congr rfl fun i hi => ?_
  rw [h i]
  by_contra hc
  exact (mem_support_iff.1 hi) (hN i (by omega))

/-! ## The specification polynomials -/

/-- `1 - φ_1 B - … - φ_p B^p`. -/
noncomputable def Spec.arPoly (o : Order) (θ : Params) : ℝ[X] := 1 - ∑ i ∈ range o.p, C (θ.ar i) * X ^ (i + 1)

/-- `1 - Φ_1 B^S - … - Φ_P B^(S P)`. -/
noncomputable def Spec.sarPoly (o : Order) (θ : Params) : ℝ[X] :=
  1 - ∑ m ∈ range o.P, C (θ.sar m) * X ^ (o.S * (m + 1))

/-- `1 + θ_1 B + … + θ_q B^q`. -/
noncomputable def Spec.maPoly (o : Order) (θ : Params) : ℝ[X] := 1 + ∑ i ∈ range o.q, C (θ.ma i) * X ^ (i + 1)

/-- `1 + Θ_1 B^S + … + Θ_Q B^(S Q)`. -/
noncomputable def Spec.smaPoly (o : Order) (θ : Params) : ℝ[X] :=
  1 + ∑ m ∈ range o.Q, C (θ.sma m) * X ^ (o.S * (m + 1))

/-- `(1 - B)^d (1 - B^S)^D`. -/
noncomputable def Spec.diffPoly (o : Order) : ℝ[X] := (1 - X) ^ o.d * (1 - X ^ o.S) ^ o.D

/-- Specification: an order without a seasonal length has no seasonal term. -/
def Spec.Proper (o : Order) : Prop := o.S = 0 → o.P = 0 ∧ o.D = 0 ∧ o.Q = 0

/-! ## Sums over products -/

theorem sum_divmod (P p : ℕ) (g : ℕ → ℕ → ℝ[X]) :
    ∑ k ∈ range (P * p), g (k / p) (k % p) = ∑ m ∈ range P, ∑ r ∈ range p, g m r := by
  rcases Nat.eq_zero_or_pos p with rfl | hp
  · simp
  induction P with
  | zero => simp
  | succ P ih =>
    rw [Nat.succ_mul, sum_range_add, ih, sum_range_succ]
    congr 1
    refine sum_congr rfl fun r hr => ?_
    have hr := mem_range.1 hr
    rw [Nat.mul_comm, Nat.mul_add_div hp, Nat.mul_add_mod, Nat.div_eq_of_lt hr, Nat.mod_eq_of_lt hr, Nat.add_zero]

theorem sum_ite_poly (K : ℕ) (i : ℕ) (hi : i < K) (a : ℝ) (e : ℕ → ℕ) :
    ∑ j ∈ range K, C (if i = j then a else 0) * X ^ (e j) = C a * X ^ (e i) := by
  rw [sum_eq_single i]
  · simp
  · intro j _ hj; simp [Ne.symm hj]
  · intro h; exact absurd (mem_range.2 hi) h

theorem divmod_inj {p k l : ℕ} (h1 : k / p = l / p) (h2 : k % p = l % p) : k = l := by
  rw [← Nat.div_add_mod k p, ← Nat.div_add_mod l p, h1, h2]

theorem split_inj {S a b r r' : ℕ} (hr : r < S) (hr' : r' < S) (h : a * S + r = b * S + r') : a = b ∧ r = r' := by
  have hS : 0 < S := by omega
  have h1 : (a * S + r) / S = a := by rw [Nat.mul_comm, Nat.mul_add_div hS, Nat.div_eq_of_lt hr, Nat.add_zero]
  have h2 : (b * S + r') / S = b := by rw [Nat.mul_comm, Nat.mul_add_div hS, Nat.div_eq_of_lt hr', Nat.add_zero]
  have : a = b := by rw [← h1, h, h2]
  subst this
  exact ⟨rfl, by omega⟩

theorem overlaps_iff (a A S : ℕ) : overlaps a A S = false ↔ (0 < A → 0 < S → a < S) := by
  simp only [overlaps, List.any_eq_false, decide_eq_true_eq, List.mem_map, List.mem_range, forall_exists_index, and_imp]
  constructor
  · intro h hA hS
    by_contra hc
    refine h S 0 hA (by simp) ⟨S - 1, by omega, by omega⟩
  · rintro h s i hi rfl ⟨j, hj, he⟩
    have hS : 0 < S := by
      rcases Nat.eq_zero_or_pos S with rfl | h
      · simp at he
      · exact h
    have := h (by omega) hS
    have : S ≤ (1 + i) * S := Nat.le_mul_of_pos_left S (by omega)
    omega

theorem verify_iff (o : Order) : verifyOrder o = true ↔
    (0 < o.P → 0 < o.S → o.p < o.S) ∧ (0 < o.Q → 0 < o.S → o.q < o.S) := by
  rw [verifyOrder, Bool.and_eq_true, Bool.not_eq_true', Bool.not_eq_true', overlaps_iff, overlaps_iff]

end Verif.Sarima
