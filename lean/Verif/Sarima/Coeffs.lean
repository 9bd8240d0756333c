import Verif.Sarima.Lemmas

set_option autoImplicit false
set_option linter.unusedSectionVars false

open Finset Polynomial

namespace Verif.Sarima

section
variable {α : Type} [DecidableEq α]

theorem write_congr (M : α → ℝ) (n : ℕ) (idx idx' : ℕ → α) (v : ℕ → ℝ) (h : ∀ k < n, idx k = idx' k) :
    write M n idx v = write M n idx' v := by
  induction n with
  | zero => rfl
  | succ n ih => rw [write_succ, write_succ, ih fun k hk => h k (by omega), h n (by omega)]

/-- The sum of the three kinds of coefficient at lag position `i`. Proof notion, no code behind it. -/
def coef (p P : ℕ) (a b : ℕ → ℕ) (c : ℕ → ℕ → ℕ) (φ Φ : ℕ → ℝ) (x : ℝ) (i : ℕ) : ℝ :=
  (∑ k ∈ range p, if a k = i then φ k else 0) + (∑ m ∈ range P, if b m = i then Φ m else 0) +
    ∑ k ∈ range (P * p), if c (k / p) (k % p) = i then x * (Φ (k / p) * φ (k % p)) else 0

/-- Three successive assignments to pairwise distinct positions that hold zero. -/
theorem write3 (e : ℕ → α) (he : Function.Injective e) (M : α → ℝ) (p P : ℕ) (a b : ℕ → ℕ) (c : ℕ → ℕ → ℕ)
    (φ Φ : ℕ → ℝ) (x : ℝ)
    (h0a : ∀ k < p, M (e (a k)) = 0) (h0b : ∀ m < P, M (e (b m)) = 0)
    (h0c : ∀ m < P, ∀ r < p, M (e (c m r)) = 0)
    (ha : ∀ k < p, ∀ l < p, a k = a l → k = l) (hb : ∀ m < P, ∀ l < P, b m = b l → m = l)
    (hc : ∀ m < P, ∀ r < p, ∀ m' < P, ∀ r' < p, c m r = c m' r' → m = m' ∧ r = r')
    (hab : ∀ k < p, ∀ m < P, a k ≠ b m) (hac : ∀ k < p, ∀ m < P, ∀ r < p, a k ≠ c m r)
    (hbc : ∀ l < P, ∀ m < P, ∀ r < p, b l ≠ c m r) (i : ℕ) :
    write (write (write M p (fun k => e (a k)) φ) P (fun m => e (b m)) Φ) (P * p) (fun k => e (c (k / p) (k % p)))
      (fun k => x * (Φ (k / p) * φ (k % p))) (e i) = M (e i) + coef p P a b c φ Φ x i := by
  have hdm : ∀ k < P * p, k / p < P ∧ k % p < p := by
    intro k hk
    have hp : 0 < p := Nat.pos_of_ne_zero fun h => by subst h; simp at hk
    exact ⟨Nat.div_lt_of_lt_mul (by rwa [Nat.mul_comm]), Nat.mod_lt _ hp⟩
  rw [write_add, write_add, write_add, coef]
  · simp only [he.eq_iff]; ring
  · intro k hk l hl h; exact ha k hk l hl (he h)
  · exact h0a
  · intro k hk l hl h; exact hb k hk l hl (he h)
  · intro m hm
    rw [write_miss _ _ _ _ _ fun k hk h => hab k hk m hm (he h)]
    exact h0b m hm
  · intro k hk l hl h
    obtain ⟨h1, h2⟩ := hdm k hk
    obtain ⟨h3, h4⟩ := hdm l hl
    obtain ⟨h5, h6⟩ := hc _ h1 _ h2 _ h3 _ h4 (he h)
    exact divmod_inj h5 h6
  · intro k hk
    obtain ⟨h1, h2⟩ := hdm k hk
    rw [write_miss _ _ _ _ _ fun m hm h => hbc m hm _ h1 _ h2 (he h),
      write_miss _ _ _ _ _ fun l hl h => hac l hl _ h1 _ h2 (he h)]
    exact h0c _ h1 _ h2

end

theorem coef_poly (p P : ℕ) (a b : ℕ → ℕ) (c : ℕ → ℕ → ℕ) (φ Φ : ℕ → ℝ) (x : ℝ) (K : ℕ) (s : ℕ)
    (ha : ∀ k < p, a k < K) (hb : ∀ m < P, b m < K) (hc : ∀ m < P, ∀ r < p, c m r < K) :
    ∑ i ∈ range K, C (coef p P a b c φ Φ x i) * X ^ (i + s) =
      (∑ k ∈ range p, C (φ k) * X ^ (a k + s)) + (∑ m ∈ range P, C (Φ m) * X ^ (b m + s)) +
        ∑ m ∈ range P, ∑ r ∈ range p, C (x * (Φ m * φ r)) * X ^ (c m r + s) := by
  have hdm : ∀ k < P * p, k / p < P ∧ k % p < p := by
    intro k hk
    have hp : 0 < p := Nat.pos_of_ne_zero fun h => by subst h; simp at hk
    exact ⟨Nat.div_lt_of_lt_mul (by rwa [Nat.mul_comm]), Nat.mod_lt _ hp⟩
  simp only [coef, C_add, add_mul, sum_add_distrib, map_sum, sum_mul]
  rw [sum_comm, sum_comm (s := range K) (t := range P), sum_comm (s := range K) (t := range (P * p))]
  rw [← sum_divmod P p fun m r => C (x * (Φ m * φ r)) * X ^ (c m r + s)]
  congr 1
  · congr 1
    · exact sum_congr rfl fun k hk => sum_ite_poly K (a k) (ha k (mem_range.1 hk)) (φ k) (fun j => j + s)
    · exact sum_congr rfl fun k hk => sum_ite_poly K (b k) (hb k (mem_range.1 hk)) (Φ k) (fun j => j + s)
  · refine sum_congr rfl fun k hk => ?_
    obtain ⟨h1, h2⟩ := hdm k (mem_range.1 hk)
    exact sum_ite_poly K _ (hc _ h1 _ h2) _ (fun j => j + s)

/-- AR positions: lags `k+1`, `S(m+1)`, `S(m+1)+r+1` are held at index lag − 1. Proof notion, no code behind it. -/
def arA (k : ℕ) : ℕ := k
/-- Proof notion, no code behind it. -/
def arB (S m : ℕ) : ℕ := (1 + m) * S - 1
/-- Proof notion, no code behind it. -/
def arC (S m r : ℕ) : ℕ := (1 + m) * S - 1 + r + 1

theorem mul_lt_step {S m P : ℕ} (hm : m < P) : (1 + m) * S ≤ P * S := Nat.mul_le_mul_right S (by omega)

section ar
variable {α : Type} [DecidableEq α]

/-- The AR assignments, whatever the row or column they are written to. -/
theorem ar_writes (e : ℕ → α) (he : Function.Injective e) (M : α → ℝ) (p P S : ℕ) (φ Φ : ℕ → ℝ)
    (h0 : ∀ i < p + P * S, M (e i) = 0)
    (hS : 0 < P → 0 < S) (hp : 0 < P → 0 < S → p < S) (i : ℕ) :
    write (write (write M p (fun k => e k) φ) P (fun m => e (arB S m)) Φ) (P * p)
      (fun k => e (arC S (k / p) (k % p))) (fun k => -(Φ (k / p)) * φ (k % p)) (e i) =
    M (e i) + coef p P arA (arB S) (arC S) φ Φ (-1) i := by
  have hs : ∀ m < P, 0 < S ∧ p < S ∧ (1 + m) * S ≤ P * S ∧ S ≤ (1 + m) * S := fun m hm =>
    ⟨hS (by omega), hp (by omega) (hS (by omega)), mul_lt_step hm, Nat.le_mul_of_pos_left S (by omega)⟩
  have := write3 e he M p P arA (arB S) (arC S) φ Φ (-1) ?_ ?_ ?_ ?_ ?_ ?_ ?_ ?_ ?_ i
  · simpa [arA, neg_mul] using this
  · intro k hk; exact h0 _ (by simp [arA]; omega)
  · intro m hm; obtain ⟨h1, h2, h3, h4⟩ := hs m hm; exact h0 _ (by simp [arB]; omega)
  · intro m hm r hr; obtain ⟨h1, h2, h3, h4⟩ := hs m hm; exact h0 _ (by simp only [arC]; omega)
  · intro k _ l _ h; exact h
  · intro m hm l hl h
    obtain ⟨h1, h2, h3, h4⟩ := hs m hm
    obtain ⟨-, -, -, h5⟩ := hs l hl
    simp only [arB] at h
    have := (split_inj (S := S) (a := 1 + m) (b := 1 + l) (r := 0) (r' := 0) h1 h1 (by omega)).1
    omega
  · intro m hm r hr m' hm' r' hr' h
    obtain ⟨h1, h2, h3, h4⟩ := hs m hm
    obtain ⟨-, -, -, h5⟩ := hs m' hm'
    simp only [arC] at h
    have := split_inj (S := S) (a := 1 + m) (b := 1 + m') (r := r) (r' := r') (by omega) (by omega) (by omega)
    omega
  · intro k hk m hm h
    obtain ⟨h1, h2, h3, h4⟩ := hs m hm
    simp only [arA, arB] at h
    omega
  · intro k hk m hm r hr h
    obtain ⟨h1, h2, h3, h4⟩ := hs m hm
    simp only [arA, arC] at h
    omega
  · intro l hl m hm r hr h
    obtain ⟨h1, h2, h3, h4⟩ := hs m hm
    obtain ⟨-, -, -, h5⟩ := hs l hl
    simp only [arB, arC] at h
    have : (1 + l) * S = (1 + m) * S + (r + 1) := by omega
    have := split_inj (S := S) (a := 1 + l) (b := 1 + m) (r := 0) (r' := r + 1) (by omega) (by omega) (by omega)
    omega

/-- The MA assignments (same positions as the AR ones, opposite sign of the cross terms). -/
theorem ma_writes (e : ℕ → α) (he : Function.Injective e) (M : α → ℝ) (p P S : ℕ) (φ Φ : ℕ → ℝ)
    (h0 : ∀ i < p + P * S, M (e i) = 0)
    (hS : 0 < P → 0 < S) (hp : 0 < P → 0 < S → p < S) (i : ℕ) :
    write (write (write M p (fun k => e k) φ) P (fun m => e (arB S m)) Φ) (P * p)
      (fun k => e (arC S (k / p) (k % p))) (fun k => Φ (k / p) * φ (k % p)) (e i) =
    M (e i) + coef p P arA (arB S) (arC S) φ Φ 1 i := by
  have hs : ∀ m < P, 0 < S ∧ p < S ∧ (1 + m) * S ≤ P * S ∧ S ≤ (1 + m) * S := fun m hm =>
    ⟨hS (by omega), hp (by omega) (hS (by omega)), mul_lt_step hm, Nat.le_mul_of_pos_left S (by omega)⟩
  have := write3 e he M p P arA (arB S) (arC S) φ Φ 1 ?_ ?_ ?_ ?_ ?_ ?_ ?_ ?_ ?_ i
  · simpa [arA] using this
  · intro k hk; exact h0 _ (by simp [arA]; omega)
  · intro m hm; obtain ⟨h1, h2, h3, h4⟩ := hs m hm; exact h0 _ (by simp [arB]; omega)
  · intro m hm r hr; obtain ⟨h1, h2, h3, h4⟩ := hs m hm; exact h0 _ (by simp only [arC]; omega)
  · intro k _ l _ h; exact h
  · intro m hm l hl h
    obtain ⟨h1, h2, h3, h4⟩ := hs m hm
    obtain ⟨-, -, -, h5⟩ := hs l hl
    simp only [arB] at h
    have := (split_inj (S := S) (a := 1 + m) (b := 1 + l) (r := 0) (r' := 0) h1 h1 (by omega)).1
    omega
  · intro m hm r hr m' hm' r' hr' h
    obtain ⟨h1, h2, h3, h4⟩ := hs m hm
    obtain ⟨-, -, -, h5⟩ := hs m' hm'
    simp only [arC] at h
    have := split_inj (S := S) (a := 1 + m) (b := 1 + m') (r := r) (r' := r') (by omega) (by omega) (by omega)
    omega
  · intro k hk m hm h
    obtain ⟨h1, h2, h3, h4⟩ := hs m hm
    simp only [arA, arB] at h
    omega
  · intro k hk m hm r hr h
    obtain ⟨h1, h2, h3, h4⟩ := hs m hm
    simp only [arA, arC] at h
    omega
  · intro l hl m hm r hr h
    obtain ⟨h1, h2, h3, h4⟩ := hs m hm
    obtain ⟨-, -, -, h5⟩ := hs l hl
    simp only [arB, arC] at h
    have : (1 + l) * S = (1 + m) * S + (r + 1) := by omega
    have := split_inj (S := S) (a := 1 + l) (b := 1 + m) (r := 0) (r' := r + 1) (by omega) (by omega) (by omega)
    omega

end ar

/-- The coefficients assigned are those of the product of the two lag polynomials. -/
theorem coef_ar_poly (p P S : ℕ) (φ Φ : ℕ → ℝ) (x : ℝ) (K : ℕ) (hK : p + P * S ≤ K)
    (hS : 0 < P → 0 < S) :
    ∑ i ∈ range K, C (coef p P arA (arB S) (arC S) φ Φ x i) * X ^ (i + 1) =
      (∑ i ∈ range p, C (φ i) * X ^ (i + 1)) + (∑ m ∈ range P, C (Φ m) * X ^ (S * (m + 1))) +
        C x * ((∑ m ∈ range P, C (Φ m) * X ^ (S * (m + 1))) * ∑ i ∈ range p, C (φ i) * X ^ (i + 1)) := by
  have hs : ∀ m < P, 0 < S ∧ (1 + m) * S ≤ P * S ∧ S ≤ (1 + m) * S := fun m hm =>
    ⟨hS (by omega), mul_lt_step hm, Nat.le_mul_of_pos_left S (by omega)⟩
  rw [coef_poly]
  · congr 1
    · congr 1
      refine sum_congr rfl fun m hm => ?_
      obtain ⟨h1, h2, h3⟩ := hs m (mem_range.1 hm)
      congr 2
      simp only [arB]
      rw [Nat.sub_add_cancel (by omega), Nat.mul_comm, Nat.add_comm]
    · rw [sum_mul_sum, mul_sum]
      refine sum_congr rfl fun m hm => ?_
      obtain ⟨h1, h2, h3⟩ := hs m (mem_range.1 hm)
      rw [mul_sum]
      refine sum_congr rfl fun r _ => ?_
      have : arC S m r + 1 = S * (m + 1) + (r + 1) := by
        simp only [arC]
        rw [Nat.mul_comm S, Nat.add_comm m]
        omega
      rw [this, pow_add, C_mul, C_mul]
      ring
  · intro k hk; simp only [arA]; omega
  · intro m hm; obtain ⟨h1, h2, h3⟩ := hs m hm; simp only [arB]; omega
  · intro m hm r hr; obtain ⟨h1, h2, h3⟩ := hs m hm; simp only [arC]; omega

end Verif.Sarima
