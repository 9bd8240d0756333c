import Verif.Dist.GenPoisson
import Mathlib.Probability.Distributions.Poisson.Basic
import Mathlib.Analysis.Complex.ExponentialBounds

/-!
# C63, C112: the generalised Poisson distribution and its inverse sampler
-/

set_option autoImplicit false

open scoped Classical Nat

namespace GenPoisson

namespace Spec

/-- The documented probability mass function `μ (μ + λ x)^(x-1) e^(-μ-λx) / x!`, zero for negative counts
and where `μ + λ x ≤ 0`. -/
noncomputable def pmf (mu lam : ℝ) (x : ℤ) : ℝ :=
  if 0 ≤ x ∧ 0 < mu + lam * x then
    mu * (mu + lam * x) ^ (x - 1) * Real.exp (-mu - lam * x) / (x.toNat ! : ℝ)
  else 0

/-- Cumulative probability of `0, …, n`. -/
noncomputable def cum (mu lam : ℝ) (n : ℕ) : ℝ := ∑ x ∈ Finset.range (n + 1), pmf mu lam x

/-- The documented parameter range. -/
def Valid (mu lam : ℝ) : Prop := 0 < mu ∧ -1 ≤ lam ∧ lam ≤ 1 ∧ -mu / 4 ≤ lam

end Spec

theorem valid_iff (mu lam : ℝ) : (0 < mu ∧ |lam| ≤ 1 ∧ -mu / 4 ≤ lam) ↔ Spec.Valid mu lam := by
  unfold Spec.Valid; rw [abs_le]; tauto

/-- **C63.** `logp` raises exactly outside the documented parameter range. -/
theorem C63_errors (x : ℤ) (mu lam : ℝ) :
    logp x mu lam = .error .parameterValueError ↔ ¬ Spec.Valid mu lam := by
  rw [← valid_iff]
  unfold logp; dsimp only
  by_cases h : 0 < mu ∧ |lam| ≤ 1 ∧ -mu / 4 ≤ lam
  · rw [if_pos h]; simp [h]
  · rw [if_neg h]; simp [h]

/-- **C63.** For valid parameters `exp (logp x)` is the documented probability of `x`, for every integer:
0 for negative counts and beyond the last count with `μ + λ x > 0`. -/
theorem C63_pmf {mu lam : ℝ} (h : Spec.Valid mu lam) (x : ℤ) :
    ∃ l, logp x mu lam = .ok l ∧ l.exp = some (Spec.pmf mu lam x) := by
  have hc := (valid_iff mu lam).2 h
  have hmu := h.1
  unfold logp; dsimp only
  rw [if_pos hc]
  refine ⟨_, rfl, ?_⟩
  unfold Spec.pmf
  by_cases hx : mu + lam * x < 0 ∨ x < 0
  · rw [if_pos hx, if_neg]
    · rfl
    · rintro ⟨h1, h2⟩; rcases hx with h' | h' <;> [linarith; omega]
  · rw [if_neg hx]
    push Not at hx
    obtain ⟨h1, h2⟩ := hx
    rcases h1.eq_or_lt with h1 | h1
    · rw [if_neg (by rw [← h1]; simp)]
      unfold logpow
      rw [if_pos h1.symm, if_neg]
      · simp [LogP.add, LogP.exp]
      · intro he
        have hx1 : x = 1 := by omega
        subst hx1
        have := h.2.2.2
        push_cast at h1
        linarith
    · rw [if_pos ⟨h2, h1⟩]
      unfold logpow
      rw [if_neg h1.ne']
      simp only [LogP.add, LogP.exp, Option.some.injEq]
      rw [Real.exp_add, Real.exp_log hmu, Real.exp_add, Real.exp_sub,
        Real.exp_log (by exact_mod_cast Nat.factorial_pos _)]
      have e1 : Real.exp (((x - 1 : ℤ) : ℝ) * Real.log (mu + lam * x)) = (mu + lam * x) ^ (x - 1) := by
        rw [mul_comm, Real.exp_mul, Real.exp_log h1, Real.rpow_intCast]
      rw [e1, neg_add']
      ring

/-- **C63.** With `lam = 0` the distribution is Poisson with the same `mu`. -/
theorem C63_poisson {mu : NNReal} (hmu' : 0 < mu) (x : ℤ) :
    ∃ l, logp x mu 0 = .ok l ∧
      l.exp = some (if 0 ≤ x then (ProbabilityTheory.poissonMeasure mu).real {x.toNat} else 0) := by
  have hmu : 0 < (mu : ℝ) := hmu'
  have hv : Spec.Valid mu 0 := ⟨hmu, by norm_num, by norm_num, by linarith⟩
  obtain ⟨l, h1, h2⟩ := C63_pmf hv x
  refine ⟨l, h1, ?_⟩
  rw [h2]
  rw [ProbabilityTheory.poissonMeasure_real_singleton]
  unfold Spec.pmf
  by_cases hx : 0 ≤ x
  · rw [if_pos ⟨hx, by simpa using hmu⟩, if_pos hx]
    obtain ⟨n, rfl⟩ := Int.eq_ofNat_of_zero_le hx
    simp only [zero_mul, add_zero, sub_zero, Int.toNat_natCast, Option.some.injEq]
    rw [zpow_sub_one₀ hmu.ne', zpow_natCast]
    field_simp
  · rw [if_neg hx, if_neg (fun h => hx h.1)]

theorem pmf_nonneg {mu lam : ℝ} (h : 0 < mu) (x : ℤ) : 0 ≤ Spec.pmf mu lam x := by
  unfold Spec.pmf
  split
  · rename_i hx; have := hx.2; positivity
  · exact le_rfl

/-- **C63 (limit of the parametrisation).** For negative `lam` the documented probabilities of the allowed
counts do not add up to one in general: with `mu = 4, lam = -1` they add up to more than one, with
`mu = 1, lam = -1/4` to less. -/
theorem C63_not_normalised :
    (Spec.Valid 4 (-1) ∧ 1 < Spec.cum 4 (-1) 3 ∧ ∀ x : ℤ, 3 < x → Spec.pmf 4 (-1) x = 0) ∧
    (Spec.Valid 1 (-1 / 4) ∧ Spec.cum 1 (-1 / 4) 3 < 1 ∧ ∀ x : ℤ, 3 < x → Spec.pmf 1 (-1 / 4) x = 0) := by
  refine ⟨⟨⟨by norm_num, by norm_num, by norm_num, by norm_num⟩, ?_, ?_⟩,
    ⟨by norm_num, by norm_num, by norm_num, by norm_num⟩, ?_, ?_⟩
  · have hcum : Spec.cum 4 (-1) 3 = Real.exp (-1) ^ 4 + 4 * Real.exp (-1) ^ 3 + 4 * Real.exp (-1) ^ 2 +
        2 / 3 * Real.exp (-1) := by
      unfold Spec.cum
      simp only [Finset.sum_range_succ, Finset.sum_range_zero, Spec.pmf]
      rw [← Real.exp_nat_mul, ← Real.exp_nat_mul, ← Real.exp_nat_mul]
      norm_num [Nat.factorial, show Int.toNat 2 = 2 from rfl, show Int.toNat 3 = 3 from rfl]
      ring
    rw [hcum]
    have h1 : 0.36787 < Real.exp (-1) := by
      have := Real.exp_one_lt_d9
      rw [Real.exp_neg, lt_inv_comm₀ (by norm_num) (Real.exp_pos _)]
      refine this.trans ?_
      norm_num
    set t := Real.exp (-1)
    have h2 : (0.36787 : ℝ) ^ 2 < t ^ 2 := pow_lt_pow_left₀ h1 (by norm_num) (by norm_num)
    have h3 : (0.36787 : ℝ) ^ 3 < t ^ 3 := pow_lt_pow_left₀ h1 (by norm_num) (by norm_num)
    have h4 : (0.36787 : ℝ) ^ 4 < t ^ 4 := pow_lt_pow_left₀ h1 (by norm_num) (by norm_num)
    norm_num at h2 h3 h4
    linarith
  · intro x hx
    unfold Spec.pmf
    rw [if_neg]
    rintro ⟨-, h⟩
    have : (4 : ℝ) ≤ x := by exact_mod_cast hx
    linarith
  · have hcum : Spec.cum 1 (-1 / 4) 3 = Real.exp (-1 / 4) ^ 4 + Real.exp (-1 / 4) ^ 3 +
        1 / 4 * Real.exp (-1 / 4) ^ 2 + 1 / 96 * Real.exp (-1 / 4) := by
      unfold Spec.cum
      simp only [Finset.sum_range_succ, Finset.sum_range_zero, Spec.pmf]
      rw [← Real.exp_nat_mul, ← Real.exp_nat_mul, ← Real.exp_nat_mul]
      norm_num [Nat.factorial, show Int.toNat 2 = 2 from rfl, show Int.toNat 3 = 3 from rfl]
      ring
    rw [hcum]
    have h1 : Real.exp (-1 / 4) < 0.778801 := by
      rw [neg_div, Real.exp_neg, inv_lt_comm₀ (Real.exp_pos _) (by norm_num)]
      have := Real.sum_le_exp_of_nonneg (x := 1 / 4) (by norm_num) 8
      refine lt_of_lt_of_le ?_ this
      norm_num [Finset.sum_range_succ, Nat.factorial]
    set t := Real.exp (-1 / 4) with ht
    have h0 : 0 ≤ t := (Real.exp_pos _).le
    have h2 : t ^ 2 < (0.778801 : ℝ) ^ 2 := pow_lt_pow_left₀ h1 h0 (by norm_num)
    have h3 : t ^ 3 < (0.778801 : ℝ) ^ 3 := pow_lt_pow_left₀ h1 h0 (by norm_num)
    have h4 : t ^ 4 < (0.778801 : ℝ) ^ 4 := pow_lt_pow_left₀ h1 h0 (by norm_num)
    norm_num at h1 h2 h3 h4
    linarith
  · intro x hx
    unfold Spec.pmf
    rw [if_neg]
    rintro ⟨-, h⟩
    have : (4 : ℝ) ≤ x := by exact_mod_cast hx
    linarith

/-! ### The inverse sampler -/

theorem log1mRatio_pos {lam c : ℝ} (hl : lam < 0) (hc : 0 < c) :
    log1mRatio lam (LogP.log c) = LogP.log (1 + lam / c) := by
  unfold LogP.log
  rw [if_pos hc]
  simp only [log1mRatio]
  have e : Real.exp (Real.log |lam| - Real.log c) = -(lam / c) := by
    rw [Real.exp_sub, Real.exp_log (abs_pos.2 hl.ne), Real.exp_log hc, abs_of_neg hl, neg_div]
  rw [e, neg_neg]
  have e2 : -(-(lam / c) - 1) = 1 + lam / c := by ring
  rw [e2]
  split <;> rfl

/-- One step of the recursion on probabilities. -/
theorem pmf_succ {mu lam : ℝ} (hmu : 0 < mu) {n : ℕ} (h0 : 0 < mu + lam * n)
    (h1 : 0 < mu + lam * (n + 1 : ℕ)) :
    Spec.pmf mu lam (n + 1 : ℕ) = (mu + lam * n) * (1 + lam / (mu + lam * n)) ^ n *
      Spec.pmf mu lam n / (n + 1 : ℕ) * Real.exp (-lam) := by
  unfold Spec.pmf
  rw [if_pos ⟨by positivity, by exact_mod_cast h1⟩, if_pos ⟨by positivity, by exact_mod_cast h0⟩]
  have e0 : (1 + lam / (mu + lam * n)) = (mu + lam * (n + 1 : ℕ)) / (mu + lam * n) := by
    field_simp; push_cast; ring
  rw [e0, div_pow]
  have e1 : ((n + 1 : ℕ) : ℤ) - 1 = n := by push_cast; ring
  rw [e1]
  simp only [Int.cast_natCast]
  rw [zpow_sub_one₀ h0.ne']
  simp only [Int.toNat_natCast, zpow_natCast, Nat.factorial_succ]
  have e2 : Real.exp (-mu - lam * (n + 1 : ℕ)) = Real.exp (-mu - lam * n) * Real.exp (-lam) := by
    rw [← Real.exp_add]; congr 1; push_cast; ring
  rw [e2]
  push_cast
  have h3 : (mu + lam * (n : ℝ)) ^ n ≠ 0 := by positivity
  have h4 : ((n : ℝ) + 1) ≠ 0 := by positivity
  have h5 : ((n ! : ℕ) : ℝ) ≠ 0 := by positivity
  field_simp

theorem pmf_pos {mu lam : ℝ} (hmu : 0 < mu) {n : ℕ} (h0 : 0 < mu + lam * n) : 0 < Spec.pmf mu lam n := by
  unfold Spec.pmf
  have h0' : 0 < mu + lam * ((n : ℤ) : ℝ) := by exact_mod_cast h0
  rw [if_pos ⟨by positivity, h0'⟩]
  positivity

theorem cum_succ (mu lam : ℝ) (n : ℕ) :
    Spec.cum mu lam (n + 1) = Spec.cum mu lam n + Spec.pmf mu lam (n + 1 : ℕ) := by
  unfold Spec.cum
  rw [Finset.sum_range_succ _ (n + 1)]

theorem pmf_zero {mu lam : ℝ} (hmu : 0 < mu) : Spec.pmf mu lam (0 : ℕ) = Real.exp (-mu) := by
  unfold Spec.pmf
  rw [if_pos ⟨by simp, by simpa using hmu⟩]
  simp
  field_simp

theorem cum_zero {mu lam : ℝ} (hmu : 0 < mu) : Spec.cum mu lam 0 = Real.exp (-mu) := by
  unfold Spec.cum
  rw [Finset.sum_range_one]
  exact pmf_zero hmu

theorem cum_pos {mu lam : ℝ} (hmu : 0 < mu) (n : ℕ) : 0 < Spec.cum mu lam n := by
  induction n with
  | zero => rw [cum_zero hmu]; exact Real.exp_pos _
  | succ n ih => rw [cum_succ]; have := pmf_nonneg (lam := lam) hmu (n + 1 : ℕ); linarith

theorem pos_of_le {mu lam : ℝ} (hl : lam < 0) {m n : ℕ} (h : m ≤ n) (hn : 0 < mu + lam * n) :
    0 < mu + lam * m := by
  have : (m : ℝ) ≤ n := by exact_mod_cast h
  nlinarith

theorem body_arg (mu lam : ℝ) (n : ℕ) : mu - lam + lam * (n + 1 : ℕ) = mu + lam * n := by push_cast; ring

/-- The loop computes the documented probabilities and their sums on the log scale. -/
theorem chain_eq {mu lam : ℝ} (hmu : 0 < mu) (hl : lam < 0) : ∀ n : ℕ, 0 < mu + lam * n →
    chain mu lam n = (.fin (Real.log (Spec.pmf mu lam n)), .fin (Real.log (Spec.cum mu lam n)))
  | 0, _ => by
    rw [pmf_zero hmu, cum_zero hmu, Real.log_exp]; rfl
  | n + 1, h => by
    have h0 : 0 < mu + lam * n := pos_of_le hl (Nat.le_succ n) h
    have ih := chain_eq hmu hl n h0
    simp only [chain, body, ih, body_arg]
    have hr : 0 < 1 + lam / (mu + lam * n) := by
      have : 1 + lam / (mu + lam * n) = (mu + lam * (n + 1 : ℕ)) / (mu + lam * n) := by
        field_simp; push_cast; ring
      rw [this]; exact div_pos h h0
    rw [log1mRatio_pos hl h0]
    unfold LogP.log
    rw [if_pos h0, if_pos hr]
    simp only [LogP.mulNat, LogP.add, LogP.logaddexp, Nat.add_sub_cancel]
    have hp := pmf_pos hmu h0
    have hlog : Real.log (mu + lam * n) + Real.log (1 + lam / (mu + lam * n)) * n +
        (Real.log (Spec.pmf mu lam n) + (-Real.log (n + 1 : ℕ) - lam)) =
        Real.log (Spec.pmf mu lam (n + 1 : ℕ)) := by
      have hn1 : (0 : ℝ) < (n + 1 : ℕ) := by positivity
      rw [pmf_succ hmu h0 h, Real.log_mul (by positivity) (Real.exp_pos _).ne', Real.log_exp,
        Real.log_div (by positivity) hn1.ne', Real.log_mul (by positivity) hp.ne',
        Real.log_mul h0.ne' (by positivity), Real.log_pow]
      ring
    rw [hlog, Real.exp_log (pmf_pos hmu h), Real.exp_log (cum_pos hmu n), ← cum_succ]

/-- NaN stays NaN. -/
theorem chain_nan {mu lam : ℝ} {n : ℕ} (h : (chain mu lam n).2 = .nan) : (chain mu lam (n + 1)).2 = .nan := by
  simp only [chain, body, h, LogP.logaddexp]

/-- `log_s` never decreases, so an element that left the loop stays out. -/
theorem not_below_succ {mu lam u : ℝ} {n : ℕ} (h : ¬ below mu lam u n) : ¬ below mu lam u (n + 1) := by
  unfold below at *
  simp only [chain, body]
  generalize ((LogP.log (mu - lam + lam * (n + 1 : ℕ))).add
    ((log1mRatio lam (LogP.log (mu - lam + lam * (n + 1 : ℕ)))).mulNat (n + 1 - 1))).add
      ((chain mu lam n).1.add (.fin (-Real.log (n + 1 : ℕ) - lam))) = p
  generalize (chain mu lam n).2 = s at *
  generalize LogP.log u = v at *
  cases s <;> cases p <;> cases v <;> simp_all [LogP.logaddexp, LogP.lt]
  rename_i a b c
  have : a ≤ Real.log (Real.exp a + Real.exp b) := by
    rw [Real.le_log_iff_exp_le (by positivity)]
    linarith [Real.exp_pos b]
  linarith

theorem not_below_of_le {mu lam u : ℝ} {m n : ℕ} (hmn : m ≤ n) (h : ¬ below mu lam u m) :
    ¬ below mu lam u n := by
  induction hmn with
  | refl => exact h
  | step _ ih => exact not_below_succ ih

theorem below_iff {mu lam u : ℝ} (hmu : 0 < mu) (hl : lam < 0) (hu : 0 ≤ u) {n : ℕ}
    (hn : 0 < mu + lam * n) : below mu lam u n ↔ Spec.cum mu lam n < u := by
  unfold below
  rw [chain_eq hmu hl n hn]
  unfold LogP.log
  by_cases h : 0 < u
  · rw [if_pos h]
    simp only [LogP.lt]
    exact Real.log_lt_log_iff (cum_pos hmu n) h
  · have : u = 0 := le_antisymm (not_lt.1 h) hu
    subst this
    simp only [lt_irrefl, if_false, if_true, LogP.lt, false_iff, not_lt]
    exact (cum_pos hmu n).le

theorem add_nan_right (a : LogP) : a.add .nan = .nan := by cases a <;> rfl
theorem add_negInf_right {a : LogP} (h : a ≠ .nan) : a.add .negInf = .negInf := by
  cases a <;> simp_all [LogP.add]

/-- Two passes beyond the support `log_s` is NaN; one pass beyond it is NaN or unchanged. -/
theorem beyond {mu lam : ℝ} (hv : Spec.Valid mu lam) (hl : lam < 0) {n : ℕ} (hn : 0 < mu + lam * n)
    (hn1 : ¬ 0 < mu + lam * (n + 1 : ℕ)) :
    ((chain mu lam (n + 1)).2 = .nan ∨ (chain mu lam (n + 1)).2 = (chain mu lam n).2) ∧
    (chain mu lam (n + 2)).2 = .nan := by
  have hmu := hv.1
  have h4 := hv.2.2.2
  have hne : n ≠ 0 := by
    rintro rfl
    push_cast at hn1
    linarith
  have hr : ¬ 0 < 1 + lam / (mu + lam * n) := by
    have : 1 + lam / (mu + lam * n) = (mu + lam * (n + 1 : ℕ)) / (mu + lam * n) := by
      field_simp; push_cast; ring
    rw [this, not_lt]
    exact div_nonpos_of_nonpos_of_nonneg (not_lt.1 hn1) hn.le
  have hc := chain_eq hmu hl n hn
  have h1 : chain mu lam (n + 1) = body mu lam (n + 1) (chain mu lam n) := rfl
  have h2 : chain mu lam (n + 2) = body mu lam (n + 2) (chain mu lam (n + 1)) := rfl
  by_cases hz : 1 + lam / (mu + lam * n) = 0
  · have h1' : chain mu lam (n + 1) = (.negInf, (chain mu lam n).2) := by
      rw [h1, hc]
      simp only [body, body_arg, log1mRatio_pos hl hn]
      unfold LogP.log
      rw [if_pos hn, if_neg hr, if_pos hz]
      simp [LogP.mulNat, hne, LogP.add, LogP.logaddexp]
    refine ⟨.inr (by rw [h1']), ?_⟩
    have h0 : mu + lam * (n + 1 : ℕ) = 0 := by
      have e : 1 + lam / (mu + lam * n) = (mu + lam * (n + 1 : ℕ)) / (mu + lam * n) := by
        field_simp; push_cast; ring
      rw [e, div_eq_zero_iff] at hz
      exact hz.resolve_right hn.ne'
    rw [h2, h1', hc]
    simp only [body, body_arg mu lam (n + 1), h0]
    simp [LogP.log, log1mRatio, LogP.mulNat, LogP.add, LogP.logaddexp]
  · have h1' : (chain mu lam (n + 1)).2 = .nan := by
      rw [h1, hc]
      simp only [body, body_arg, log1mRatio_pos hl hn]
      unfold LogP.log
      rw [if_pos hn, if_neg hr, if_neg hz]
      simp [LogP.mulNat, LogP.add, LogP.logaddexp]
    exact ⟨.inl h1', chain_nan h1'⟩

/-- The last count of positive probability. -/
theorem exists_last {mu lam : ℝ} (hmu : 0 < mu) (hl : lam < 0) :
    ∃ m : ℕ, 0 < mu + lam * m ∧ ¬ 0 < mu + lam * (m + 1 : ℕ) := by
  have hex : ∃ k : ℕ, ¬ 0 < mu + lam * k := by
    obtain ⟨k, hk⟩ := exists_nat_gt (mu / -lam)
    refine ⟨k, ?_⟩
    rw [div_lt_iff₀ (by linarith)] at hk
    linarith
  have hs := Nat.find_spec hex
  have h0 : Nat.find hex ≠ 0 := by
    intro h; rw [h] at hs; simp at hs; linarith
  obtain ⟨m, hm⟩ := Nat.exists_eq_succ_of_ne_zero h0
  refine ⟨m, ?_, ?_⟩
  · by_contra h
    exact Nat.find_min hex (by omega : m < Nat.find hex) h
  · rw [hm] at hs; exact hs

/-- One element stops. -/
theorem exists_stop {mu lam : ℝ} (u : ℝ) (hv : Spec.Valid mu lam) (hl : lam < 0) :
    ∃ k, ¬ below mu lam u k := by
  obtain ⟨m, hm, hm1⟩ := exists_last hv.1 hl
  refine ⟨m + 2, ?_⟩
  unfold below
  rw [(beyond hv hl hm hm1).2]
  exact fun h => h

/-- The count recorded for one element: passes during which it was below its cut point. -/
noncomputable def stop {mu lam u : ℝ} (h : ∃ k, ¬ below mu lam u k) : ℕ := Nat.find h

theorem loop_eq {ι : Type} [Fintype ι] (theta lam u : ι → ℝ) (mask : ι → Prop)
    (hst : ∀ i, mask i → ∃ k, ¬ below (theta i) (lam i) (u i) k) :
    ∀ (d k : ℕ) (x : ι → ℕ), (∀ i, (hm : mask i) → stop (hst i hm) ≤ k + d) →
      (∀ i, (hm : mask i) → x i = min k (stop (hst i hm))) →
      ∃ y, loop theta lam u mask (d + 1) k x = some y ∧ ∀ i, (hm : mask i) → y i = stop (hst i hm) := by
  intro d
  induction d with
  | zero =>
    intro k x hk hx
    refine ⟨x, ?_, fun i hm => by rw [hx i hm, min_eq_right (by simpa using hk i hm)]⟩
    rw [loop, if_neg]
    rintro ⟨i, hm, hb⟩
    exact not_below_of_le (by simpa using hk i hm : stop (hst i hm) ≤ k) (Nat.find_spec (hst i hm)) hb
  | succ d ih =>
    intro k x hk hx
    rw [loop]
    split
    · apply ih
      · intro i hm; have := hk i hm; omega
      · intro i hm
        rw [hx i hm]
        by_cases hb : below (theta i) (lam i) (u i) k
        · rw [if_pos hb]
          have : k < stop (hst i hm) := by
            by_contra hlt
            exact not_below_of_le (not_lt.1 hlt) (Nat.find_spec (hst i hm)) hb
          omega
        · rw [if_neg hb]
          have : stop (hst i hm) ≤ k := Nat.find_min' _ hb
          omega
    · rename_i hno
      push Not at hno
      refine ⟨x, rfl, fun i hm => ?_⟩
      have : stop (hst i hm) ≤ k := Nat.find_min' _ (hno i hm)
      rw [hx i hm]; omega

/-- **C112.** The inverse sampler always terminates, for every vector of valid negative `lam` and uniform
draws, and every drawn element is the inverse of the documented distribution function at its draw: the
least count whose cumulative probability reaches `u`.  Only when `u` exceeds the total probability of
all counts does it return a count of probability 0. -/
theorem C112_inverse_sampler {ι : Type} [Fintype ι] (theta lam u : ι → ℝ) (mask : ι → Prop)
    (hv : ∀ i, mask i → Spec.Valid (theta i) (lam i)) (hl : ∀ i, mask i → lam i < 0)
    (hu : ∀ i, 0 ≤ u i) :
    ∃ fuel x, inverse fuel theta lam u mask = some x ∧ ∀ i, mask i →
      ((∃ n : ℕ, u i ≤ Spec.cum (theta i) (lam i) n) →
        u i ≤ Spec.cum (theta i) (lam i) (x i) ∧
        (∀ n < x i, Spec.cum (theta i) (lam i) n < u i) ∧ 0 < Spec.pmf (theta i) (lam i) (x i)) ∧
      ((∀ n : ℕ, Spec.cum (theta i) (lam i) n < u i) →
        Spec.pmf (theta i) (lam i) (x i) = 0 ∧ logp (x i) (theta i) (lam i) = .ok .negInf) := by
  have hst : ∀ i, mask i → ∃ k, ¬ below (theta i) (lam i) (u i) k :=
    fun i hm => exists_stop (u i) (hv i hm) (hl i hm)
  have hbound : ∃ D, ∀ i, (hm : mask i) → stop (hst i hm) ≤ D := by
    refine ⟨∑ i, (if hm : mask i then stop (hst i hm) else 0), fun i hm => ?_⟩
    have := Finset.single_le_sum (f := fun i => if hm : mask i then stop (hst i hm) else 0)
      (fun i _ => Nat.zero_le _) (Finset.mem_univ i)
    simpa [hm] using this
  obtain ⟨D, hD⟩ := hbound
  obtain ⟨x, hx, hxs⟩ := loop_eq theta lam u mask hst D 0 (fun _ => 0)
    (fun i hm => by simpa using hD i hm) (fun i hm => by simp)
  refine ⟨D + 1, x, hx, fun i hm => ?_⟩
  have hmu := (hv i hm).1
  have hli := hl i hm
  obtain ⟨m, hm0, hm1⟩ := exists_last hmu hli
  have hspec : ¬ below (theta i) (lam i) (u i) (x i) := by
    rw [hxs i hm]; exact Nat.find_spec (hst i hm)
  have hmin : ∀ n < x i, below (theta i) (lam i) (u i) n := by
    intro n hn
    rw [hxs i hm] at hn
    exact not_not.1 (Nat.find_min (hst i hm) hn)
  -- beyond the support the cumulative probability is constant
  have hzero : ∀ n : ℕ, m < n → Spec.pmf (theta i) (lam i) n = 0 := by
    intro n hn
    unfold Spec.pmf
    rw [if_neg]
    rintro ⟨-, h⟩
    exact hm1 (pos_of_le hli hn (by exact_mod_cast h))
  have hconst : ∀ n : ℕ, m ≤ n → Spec.cum (theta i) (lam i) n = Spec.cum (theta i) (lam i) m := by
    intro n hn
    induction hn with
    | refl => rfl
    | @step n hn ih => rw [cum_succ, hzero (n + 1) (Nat.lt_succ_of_le hn), ih, add_zero]
  have hmono : ∀ n k : ℕ, n ≤ k → Spec.cum (theta i) (lam i) n ≤ Spec.cum (theta i) (lam i) k := by
    intro n k hk
    induction hk with
    | refl => exact le_rfl
    | @step k _ ih => rw [cum_succ]; have := pmf_nonneg (lam := lam i) hmu (k + 1 : ℕ); linarith
  constructor
  · rintro ⟨n, hn⟩
    have hun : u i ≤ Spec.cum (theta i) (lam i) m := by
      rcases le_total n m with h | h
      · exact hn.trans (hmono n m h)
      · rw [hconst n h] at hn; exact hn
    have hxm : x i ≤ m := by
      by_contra h
      have := hmin m (not_le.1 h)
      rw [below_iff hmu hli (hu i) hm0] at this
      linarith
    have hpos : 0 < theta i + lam i * x i := pos_of_le hli hxm hm0
    refine ⟨?_, ?_, pmf_pos hmu hpos⟩
    · rw [below_iff hmu hli (hu i) hpos] at hspec; exact not_lt.1 hspec
    · intro n hn
      rw [← below_iff hmu hli (hu i) (pos_of_le hli (by omega : n ≤ x i) hpos)]
      exact hmin n hn
  · intro hall
    have hxm : m < x i := by
      by_contra h
      have hpos : 0 < theta i + lam i * x i := pos_of_le hli (not_lt.1 h) hm0
      exact hspec ((below_iff hmu hli (hu i) hpos).2 (hall _))
    refine ⟨hzero _ hxm, ?_⟩
    unfold logp
    dsimp only
    rw [if_pos ((valid_iff _ _).2 (hv i hm))]
    have hn1 : ¬ 0 < theta i + lam i * ((x i : ℤ) : ℝ) := by
      intro h
      exact hm1 (pos_of_le hli hxm (by exact_mod_cast h))
    rcases (not_lt.1 hn1).eq_or_lt with h | h
    · rw [if_neg (by rw [h]; simp)]
      unfold logpow
      rw [if_pos h, if_neg]
      · simp [LogP.add]
      · intro he
        have h1 : x i = 1 := by omega
        have := (hv i hm).2.2.2
        rw [h1] at h
        push_cast at h
        linarith
    · rw [if_pos (.inl h)]

/-- **C112 (defect).** The second case happens: for `mu = 1, lam = -1/4` and every draw close enough to one
the sampler returns a count to which `logp` gives `-inf`. -/
theorem C112_sampler_leaves_support :
    ∃ u₀ < 1, ∀ u : ℝ, u₀ < u → ∃ fuel x,
      inverse fuel (fun _ : Unit => 1) (fun _ => -1 / 4) (fun _ => u) (fun _ => True) = some x ∧
      logp (x ()) 1 (-1 / 4) = .ok .negInf := by
  obtain ⟨hv, hlt, hz⟩ := C63_not_normalised.2
  have hconst : ∀ n : ℕ, Spec.cum 1 (-1 / 4) n ≤ Spec.cum 1 (-1 / 4) 3 := by
    intro n
    rcases le_total n 3 with h | h
    · have : ∀ k, n ≤ k → Spec.cum 1 (-1 / 4) n ≤ Spec.cum 1 (-1 / 4) k := by
        intro k hk
        induction hk with
        | refl => exact le_rfl
        | @step k _ ih =>
          rw [cum_succ]; have := pmf_nonneg (lam := -1 / 4) one_pos (k + 1 : ℕ); linarith
      exact this 3 h
    · have : ∀ k, 3 ≤ k → Spec.cum 1 (-1 / 4) k = Spec.cum 1 (-1 / 4) 3 := by
        intro k hk
        induction hk with
        | refl => rfl
        | @step k hk ih => 
          have hk' : 3 ≤ k := hk
          rw [cum_succ, hz (k + 1 : ℕ) (by push_cast; omega), ih, add_zero]
      exact (this n h).le
  refine ⟨Spec.cum 1 (-1 / 4) 3, hlt, fun u hu => ?_⟩
  obtain ⟨fuel, x, h1, h2⟩ := C112_inverse_sampler (ι := Unit) (fun _ => 1) (fun _ => -1 / 4) (fun _ => u)
    (fun _ => True) (fun _ _ => hv) (fun _ _ => by norm_num)
    (fun _ => le_trans (cum_pos one_pos 3).le hu.le)
  exact ⟨fuel, x, h1, ((h2 () trivial).2 (fun n => lt_of_le_of_lt (hconst n) hu)).2⟩

/-- **C112.** The method is chosen by the sign of `lam`: the inverse method exactly where it is negative. -/
theorem C112_dispatch (lam : ℝ) : algo lam = .inverse ↔ lam < 0 := by
  unfold algo; split <;> simp_all

/-- Two elements, one not masked: hypotheses satisfiable. -/
example : ∃ fuel x, inverse fuel (fun _ : Bool => (2 : ℝ)) (fun _ => -1 / 2) (fun _ => 1 / 3)
    (fun b => b = true) = some x := by
  obtain ⟨f, x, h, -⟩ := C112_inverse_sampler (ι := Bool) (fun _ => 2) (fun _ => -1 / 2) (fun _ => 1 / 3)
    (fun b => b = true) (fun _ _ => ⟨by norm_num, by norm_num, by norm_num, by norm_num⟩)
    (fun _ _ => by norm_num) (fun _ => by norm_num)
  exact ⟨f, x, h⟩

end GenPoisson
