import Verif.Dist.Counts
import Mathlib.Analysis.SpecialFunctions.Pow.NNReal
import Mathlib.Analysis.Complex.ExponentialBounds

/-!
# C113 (beta negative binomial), C114 (Skellam)
-/

set_option autoImplicit false

open MeasureTheory ProbabilityTheory
open scoped Classical Nat ENNReal

namespace Bnb

namespace Spec

/-- The documented probability: `B(r + x, α + β) / B(r, α) · Γ(x + β) / (x! Γ(β))`. -/
noncomputable def pmf (alpha beta' r : ℝ) (x : ℕ) : ℝ :=
  beta (r + x) (alpha + beta') / beta r alpha * (Real.Gamma (x + beta') / ((x ! : ℝ) * Real.Gamma beta'))

/-- The defining mixture: `p ~ Beta(α, β)`, then a negative binomial count with `r` successes of
probability `p`. -/
noncomputable def mixture (alpha beta' r : ℝ) (x : ℕ) : ℝ≥0∞ :=
  ∫⁻ p, ENNReal.ofReal (nbPmf r p x) ∂(betaMeasure alpha beta')

end Spec

/-- **C113.** For valid parameters `exp (logp x)` is the documented probability for counts and 0 for
negative integers; invalid parameters raise. -/
theorem C113_pmf (alpha beta' r : ℝ) (x : ℤ) :
    (0 < alpha ∧ 0 < beta' ∧ 0 < r → ∃ l, logp x alpha beta' r = .ok l ∧
      l.exp = some (if 0 ≤ x then Spec.pmf alpha beta' r x.toNat else 0)) ∧
    (¬ (0 < alpha ∧ 0 < beta' ∧ 0 < r) → logp x alpha beta' r = .error .parameterValueError) := by
  constructor
  · rintro ⟨ha, hb, hr⟩
    unfold logp
    dsimp only
    rw [if_pos ⟨ha, hb, hr⟩]
    refine ⟨_, rfl, ?_⟩
    by_cases hx : x < 0
    · rw [if_pos hx, if_neg (by omega)]; rfl
    · rw [if_neg hx, if_pos (by omega)]
      obtain ⟨n, rfl⟩ := Int.eq_ofNat_of_zero_le (not_lt.1 hx)
      simp only [LogP.exp, Option.some.injEq, Int.toNat_natCast, Int.cast_natCast]
      unfold Spec.pmf
      have h1 : 0 < beta (r + n) (alpha + beta') := beta_pos (by positivity) (by positivity)
      have h2 : 0 < beta r alpha := beta_pos hr ha
      have h3 : 0 < Real.Gamma (n + beta') := Real.Gamma_pos_of_pos (by positivity)
      have h4 : 0 < Real.Gamma beta' := Real.Gamma_pos_of_pos hb
      have h5 : (0 : ℝ) < (n ! : ℝ) := by positivity
      rw [Real.exp_sub, Real.exp_sub, Real.exp_add, Real.exp_sub, Real.exp_log h1, Real.exp_log h2,
        Real.exp_log h3, Real.exp_log h4, Real.exp_log h5]
      field_simp
  · intro h
    unfold logp
    dsimp only
    rw [if_neg h]

theorem pmf_pos {alpha beta' r : ℝ} (ha : 0 < alpha) (hb : 0 < beta') (hr : 0 < r) (x : ℕ) :
    0 < Spec.pmf alpha beta' r x := by
  unfold Spec.pmf
  have h1 : 0 < beta (r + x) (alpha + beta') := beta_pos (by positivity) (by positivity)
  have h2 : 0 < beta r alpha := beta_pos hr ha
  have h3 : 0 < Real.Gamma (x + beta') := Real.Gamma_pos_of_pos (by positivity)
  have h4 : 0 < Real.Gamma beta' := Real.Gamma_pos_of_pos hb
  positivity

/-- **C113.** The documented probability is that of the beta mixture of negative binomials. -/
theorem C113_mixture {alpha beta' r : ℝ} (ha : 0 < alpha) (hb : 0 < beta') (hr : 0 < r) (x : ℕ) :
    Spec.mixture alpha beta' r x = ENNReal.ofReal (Spec.pmf alpha beta' r x) := by
  unfold Spec.mixture betaMeasure
  have hmb : Measurable (betaPDF alpha beta') := by
    unfold betaPDF; exact (measurable_betaPDFReal _ _).ennreal_ofReal
  have hmn : Measurable (fun p => ENNReal.ofReal (nbPmf r p x)) := by
    unfold nbPmf; fun_prop
  rw [lintegral_withDensity_eq_lintegral_mul _ hmb hmn]
  have hpt : ∀ p, (betaPDF alpha beta' * fun p => ENNReal.ofReal (nbPmf r p x)) p =
      ENNReal.ofReal (Spec.pmf alpha beta' r x) * betaPDF (alpha + r) (beta' + x) p := by
    intro p
    simp only [Pi.mul_apply]
    unfold betaPDF
    by_cases hp : 0 < p ∧ p < 1
    · have hq : 0 < 1 - p := by linarith [hp.2]
      rw [← ENNReal.ofReal_mul (betaPDFReal_pos hp.1 hp.2 ha hb).le,
        ← ENNReal.ofReal_mul (pmf_pos ha hb hr x).le]
      congr 1
      unfold betaPDFReal nbPmf Spec.pmf
      rw [if_pos hp, if_pos hp]
      have e1 : p ^ (alpha + r - 1) = p ^ (alpha - 1) * p ^ r := by
        rw [← Real.rpow_add hp.1]; congr 1; ring
      have e2 : (1 - p) ^ (beta' + x - 1) = (1 - p) ^ (beta' - 1) * (1 - p) ^ x := by
        rw [← Real.rpow_natCast, ← Real.rpow_add hq]; congr 1; ring
      rw [e1, e2]
      unfold beta
      have g1 := (Real.Gamma_pos_of_pos ha).ne'
      have g2 := (Real.Gamma_pos_of_pos hb).ne'
      have g3 := (Real.Gamma_pos_of_pos hr).ne'
      have g4 : Real.Gamma (alpha + beta') ≠ 0 := (Real.Gamma_pos_of_pos (by positivity)).ne'
      have g5 : Real.Gamma (r + alpha) ≠ 0 := (Real.Gamma_pos_of_pos (by positivity)).ne'
      have g6 : Real.Gamma (r + x) ≠ 0 := (Real.Gamma_pos_of_pos (by positivity)).ne'
      have g7 : Real.Gamma (x + beta') ≠ 0 := (Real.Gamma_pos_of_pos (by positivity)).ne'
      have g8 : Real.Gamma (r + x + (alpha + beta')) ≠ 0 := (Real.Gamma_pos_of_pos (by positivity)).ne'
      have s1 : alpha + r + (beta' + x) = r + x + (alpha + beta') := by ring
      have s2 : alpha + r = r + alpha := by ring
      have s3 : beta' + x = x + beta' := by ring
      have s4 : (x : ℝ) + r = r + x := by ring
      rw [s1, s2, s3, s4]
      field_simp
    · have h1 : betaPDFReal alpha beta' p = 0 := by unfold betaPDFReal; rw [if_neg hp]
      have h2 : betaPDFReal (alpha + r) (beta' + x) p = 0 := by unfold betaPDFReal; rw [if_neg hp]
      rw [h1, h2]; simp
  rw [lintegral_congr hpt, lintegral_const_mul _ (by
    unfold betaPDF; exact (measurable_betaPDFReal _ _).ennreal_ofReal),
    lintegral_betaPDF_eq_one (by positivity) (by positivity), mul_one]

/-- **C113 (defect).** The draws do not follow `logp`: the sampler passes `p` and `r` in the positions of
the mean and `alpha`, so whatever the parameters a draw is 0 with probability at least `e⁻¹`. -/
theorem C113_draws_zero_prob {alpha beta' r : ℝ} (ha : 0 < alpha) (hb : 0 < beta') (hr : 0 < r) :
    ENNReal.ofReal (Real.exp (-1)) ≤ drawProb alpha beta' r 0 := by
  have hprob := isProbabilityMeasureBeta ha hb
  unfold drawProb
  have hlow : ∀ p ∈ Set.Ioo (0 : ℝ) 1, ENNReal.ofReal (Real.exp (-1)) ≤
      ENNReal.ofReal (nbDistPositional p r 0) := by
    intro p hp
    apply ENNReal.ofReal_le_ofReal
    unfold nbDistPositional nbPmf
    have hg := (Real.Gamma_pos_of_pos hr).ne'
    simp only [CharP.cast_eq_zero, zero_add, Nat.factorial_zero, Nat.cast_one, one_mul, pow_zero, mul_one]
    rw [div_self hg, one_mul]
    have hq : 0 < r / (p + r) := div_pos hr (by linarith [hp.1])
    rw [Real.rpow_def_of_pos hq]
    apply Real.exp_le_exp.2
    have h1 : Real.log (r / (p + r)) = -Real.log ((p + r) / r) := by
      rw [← Real.log_inv, inv_div]
    have h2 : Real.log ((p + r) / r) ≤ (p + r) / r - 1 :=
      Real.log_le_sub_one_of_pos (div_pos (by linarith [hp.1]) hr)
    have h3 : (p + r) / r - 1 = p / r := by field_simp; ring
    rw [h1]
    have h4 : Real.log ((p + r) / r) * r ≤ p := by
      rw [h3] at h2
      calc Real.log ((p + r) / r) * r ≤ p / r * r := mul_le_mul_of_nonneg_right h2 hr.le
        _ = p := by field_simp
    linarith [hp.2]
  have hnull : ∀ᵐ p ∂(betaMeasure alpha beta'), p ∈ Set.Ioo (0 : ℝ) 1 := by
    rw [ae_iff]
    have hs : MeasurableSet {p : ℝ | p ∉ Set.Ioo (0 : ℝ) 1} := measurableSet_Ioo.compl
    unfold betaMeasure
    rw [withDensity_apply _ hs, setLIntegral_congr_fun (g := 0) hs]
    · simp
    · intro p hp
      have : ¬ (0 < p ∧ p < 1) := hp
      simp [betaPDF, betaPDFReal, this]
  calc ENNReal.ofReal (Real.exp (-1))
      = ∫⁻ _, ENNReal.ofReal (Real.exp (-1)) ∂(betaMeasure alpha beta') := by simp
    _ ≤ _ := lintegral_mono_ae (by filter_upwards [hnull] with p hp using hlow p hp)

/-- **C113.** While according to `logp` with `r = 1` the probability of 0 is `α / (α + β)`. -/
theorem C113_logp_zero {alpha beta' : ℝ} (ha : 0 < alpha) (hb : 0 < beta') :
    Spec.pmf alpha beta' 1 0 = alpha / (alpha + beta') := by
  unfold Spec.pmf beta
  have g1 := (Real.Gamma_pos_of_pos ha).ne'
  have g2 := (Real.Gamma_pos_of_pos hb).ne'
  have g4 : Real.Gamma (alpha + beta') ≠ 0 := (Real.Gamma_pos_of_pos (by positivity)).ne'
  simp only [CharP.cast_eq_zero, add_zero, zero_add, Nat.factorial_zero, Nat.cast_one, one_mul,
    Real.Gamma_one]
  rw [add_comm 1 (alpha + beta'), Real.Gamma_add_one (by positivity), add_comm 1 alpha,
    Real.Gamma_add_one ha.ne']
  field_simp

/-- **C113 (defect).** So for `r = 1` and `β > 2 α` draws and `logp` disagree. -/
theorem C113_draws_disagree {alpha beta' : ℝ} (ha : 0 < alpha) (hb : 2 * alpha ≤ beta') :
    drawProb alpha beta' 1 0 ≠ ENNReal.ofReal (Spec.pmf alpha beta' 1 0) := by
  intro h
  have hb' : 0 < beta' := by linarith
  have h1 := C113_draws_zero_prob ha hb' one_pos
  rw [h, C113_logp_zero ha hb', ENNReal.ofReal_le_ofReal_iff (by positivity)] at h1
  have h2 : alpha / (alpha + beta') ≤ 1 / 3 := by
    rw [div_le_div_iff₀ (by positivity) (by norm_num)]; linarith
  have h3 : 1 / 3 < Real.exp (-1) := by
    rw [Real.exp_neg, lt_inv_comm₀ (by norm_num) (Real.exp_pos _)]
    have := Real.exp_one_lt_d9
    norm_num
    linarith
  linarith

example : drawProb 1 3 1 0 ≠ ENNReal.ofReal (Spec.pmf 1 3 1 0) :=
  C113_draws_disagree one_pos (by norm_num)

end Bnb

namespace Skellam

namespace Spec

/-- The Poisson probability of `n`. -/
noncomputable def pois (mu : ℝ) (n : ℕ) : ℝ := Real.exp (-mu) * mu ^ n / (n ! : ℝ)

/-- The probability that the difference of independent Poisson counts with means `mu1`, `mu2` is `d`. -/
noncomputable def pmf (mu1 mu2 : ℝ) (d : ℤ) : ℝ :=
  ∑' p : ℕ × ℕ, if (p.1 : ℤ) - p.2 = d then pois mu1 p.1 * pois mu2 p.2 else 0

end Spec

/-- The pairs with difference `d` are `(k + d⁺, k + d⁻)`. -/
theorem pmf_eq (mu1 mu2 : ℝ) (d : ℤ) :
    Spec.pmf mu1 mu2 d = ∑' k : ℕ, Spec.pois mu1 (k + d.toNat) * Spec.pois mu2 (k + (-d).toNat) := by
  unfold Spec.pmf
  have hinj : Function.Injective (fun k : ℕ => (k + d.toNat, k + (-d).toNat)) := by
    intro a b h
    have := congrArg Prod.fst h
    simpa using this
  rw [← hinj.tsum_eq]
  · apply tsum_congr
    intro k
    rw [if_pos (by push_cast; omega)]
  · intro p hp
    have h : (p.1 : ℤ) - p.2 = d := by
      by_contra h
      simp [h] at hp
    refine ⟨p.1 - d.toNat, ?_⟩
    ext <;> simp <;> omega

theorem term_eq {mu1 mu2 : ℝ} (h1 : 0 < mu1) (h2 : 0 < mu2) (d : ℤ) (k : ℕ) :
    Spec.pois mu1 (k + d.toNat) * Spec.pois mu2 (k + (-d).toNat) =
      Real.exp (-mu1 - mu2) * Real.exp (0.5 * d * (Real.log mu1 - Real.log mu2)) *
        ((2 * √(mu1 * mu2) / 2) ^ (2 * k + d.natAbs) / ((k ! : ℝ) * ((k + d.natAbs)! : ℝ))) := by
  unfold Spec.pois
  have hs : 2 * √(mu1 * mu2) / 2 = Real.exp ((Real.log mu1 + Real.log mu2) / 2) := by
    rw [mul_div_cancel_left₀ _ (by norm_num : (2:ℝ) ≠ 0), Real.sqrt_eq_rpow,
      Real.rpow_def_of_pos (by positivity), Real.log_mul h1.ne' h2.ne']
    congr 1; ring
  have hp : ∀ (m : ℝ) (n : ℕ), 0 < m → m ^ n = Real.exp (n * Real.log m) := by
    intro m n hm
    rw [mul_comm, Real.exp_mul, Real.exp_log hm, Real.rpow_natCast]
  rw [hs, ← Real.exp_nat_mul, hp mu1 _ h1, hp mu2 _ h2]
  have hfac : ((k + d.toNat)! : ℝ) * ((k + (-d).toNat)! : ℝ) = (k ! : ℝ) * ((k + d.natAbs)! : ℝ) := by
    rcases le_total 0 d with h | h
    · have e1 : (-d).toNat = 0 := by omega
      have e2 : d.toNat = d.natAbs := by omega
      rw [e1, e2, add_zero, mul_comm]
    · have e1 : d.toNat = 0 := by omega
      have e2 : (-d).toNat = d.natAbs := by omega
      rw [e1, e2, add_zero]
  have hexp : Real.exp (-mu1) * Real.exp ((k + d.toNat : ℕ) * Real.log mu1) *
      (Real.exp (-mu2) * Real.exp ((k + (-d).toNat : ℕ) * Real.log mu2)) =
      Real.exp (-mu1 - mu2) * Real.exp (0.5 * d * (Real.log mu1 - Real.log mu2)) *
        Real.exp ((2 * k + d.natAbs : ℕ) * ((Real.log mu1 + Real.log mu2) / 2)) := by
    rw [← Real.exp_add, ← Real.exp_add, ← Real.exp_add, ← Real.exp_add, ← Real.exp_add]
    congr 1
    have c1 : ((d.toNat : ℕ) : ℝ) = (d + d.natAbs) / 2 := by
      have : (2 * d.toNat : ℤ) = d + d.natAbs := by omega
      have h' := congrArg (Int.cast : ℤ → ℝ) this
      simp only [Int.cast_mul, Int.cast_add, Int.cast_natCast, Int.cast_ofNat] at h'
      linarith
    have c2 : (((-d).toNat : ℕ) : ℝ) = (-d + d.natAbs) / 2 := by
      have : (2 * (-d).toNat : ℤ) = -d + d.natAbs := by omega
      have h' := congrArg (Int.cast : ℤ → ℝ) this
      simp only [Int.cast_mul, Int.cast_add, Int.cast_natCast, Int.cast_ofNat, Int.cast_neg] at h'
      linarith
    push_cast
    rw [c1, c2]
    ring
  calc _ = (Real.exp (-mu1) * Real.exp ((k + d.toNat : ℕ) * Real.log mu1) *
      (Real.exp (-mu2) * Real.exp ((k + (-d).toNat : ℕ) * Real.log mu2))) /
        (((k + d.toNat)! : ℝ) * ((k + (-d).toNat)! : ℝ)) := by field_simp
    _ = _ := by rw [hexp, hfac]; ring

theorem iv_summable {z : ℝ} (hz : 0 ≤ z) (n : ℤ) :
    Summable fun k : ℕ => (z / 2) ^ (2 * k + n.natAbs) / ((k ! : ℝ) * ((k + n.natAbs)! : ℝ)) := by
  have h := Real.summable_pow_div_factorial ((z / 2) ^ 2)
  refine Summable.of_nonneg_of_le (fun k => by positivity) (fun k => ?_)
    (h.mul_left ((z / 2) ^ n.natAbs))
  rw [pow_add, pow_mul, mul_comm (((z / 2) ^ 2) ^ k), mul_div_assoc]
  apply mul_le_mul_of_nonneg_left _ (by positivity)
  apply div_le_div_of_nonneg_left (by positivity) (by positivity)
  have : (1 : ℝ) ≤ ((k + n.natAbs)! : ℝ) := by exact_mod_cast Nat.one_le_iff_ne_zero.2 (Nat.factorial_ne_zero _)
  nlinarith [(by positivity : (0:ℝ) < (k ! : ℝ))]

theorem iv_pos {z : ℝ} (hz : 0 < z) (n : ℤ) : 0 < iv n z := by
  unfold iv
  exact (iv_summable hz.le n).tsum_pos (fun k => by positivity) 0 (by positivity)

/-- **C114.** For positive rates, `exp (logp d)` is the probability that the difference of two independent
Poisson counts is `d`, for every integer `d`. -/
theorem C114_difference_of_poisson {mu1 mu2 : ℝ} (h1 : 0 < mu1) (h2 : 0 < mu2) (d : ℤ) :
    ∃ l : ℝ, logp d mu1 mu2 = .ok (some (l : EReal)) ∧ Real.exp l = Spec.pmf mu1 mu2 d := by
  have hz : 0 < 2 * √(mu1 * mu2) := by positivity
  have hi := iv_pos hz d
  refine ⟨-mu1 - mu2 + 0.5 * d * (Real.log mu1 - Real.log mu2) +
    Real.log (iv d (2 * √(mu1 * mu2))), ?_, ?_⟩
  · unfold logp
    dsimp only
    rw [if_pos ⟨h1.le, h2.le⟩]
    simp only [F.log, if_neg h1.ne', if_neg h2.ne', if_neg hi.ne', F.neg, F.add, F.smul]
    have e1 : (-(Real.log mu2 : EReal)) = ((-Real.log mu2 : ℝ) : EReal) := by norm_cast
    rw [e1]
    simp only [EReal.coe_ne_top, EReal.coe_ne_bot, and_false, or_false, if_false]
    rw [← EReal.coe_add]
    simp only [EReal.coe_ne_top, EReal.coe_ne_bot, or_false, and_false, if_false]
    rw [← EReal.coe_mul]
    simp only [EReal.coe_ne_top, EReal.coe_ne_bot, and_false, or_false, if_false]
    rw [← EReal.coe_add]
    rw [← EReal.coe_add]
    congr 3
  · rw [Real.exp_add, Real.exp_add, Real.exp_log hi, pmf_eq]
    unfold iv
    rw [← tsum_mul_left]
    exact (tsum_congr fun k => term_eq h1 h2 d k).symm

/-- **C114.** Negative rates raise. -/
theorem C114_errors (mu1 mu2 : ℝ) (d : ℤ) :
    logp d mu1 mu2 = .error .parameterValueError ↔ mu1 < 0 ∨ mu2 < 0 := by
  unfold logp
  dsimp only
  by_cases h : mu1 ≥ 0 ∧ mu2 ≥ 0
  · rw [if_pos h]
    simp only [reduceCtorEq, false_iff, not_or, not_lt]
    exact h
  · rw [if_neg h]
    simp only [true_iff]
    by_contra hc
    push Not at hc
    exact h hc

/-- With the first rate 0 the difference is minus a Poisson count. -/
theorem pmf_zero_left (mu2 : ℝ) (d : ℤ) (hd : d ≤ 0) : Spec.pmf 0 mu2 d = Spec.pois mu2 (-d).toNat := by
  rw [pmf_eq, tsum_eq_single 0]
  · have : d.toNat = 0 := by omega
    simp [this, Spec.pois]
  · intro k hk
    simp [Spec.pois, hk]

/-- **C114 (defect).** A zero rate is accepted, but then `logp` is NaN for the values that have positive
probability: with `mu1 = 0`, for every `d ≤ 0`. -/
theorem C114_zero_rate {mu2 : ℝ} (h2 : 0 < mu2) (d : ℤ) (hd : d ≤ 0) :
    logp d 0 mu2 = .ok none ∧ 0 < Spec.pmf 0 mu2 d := by
  refine ⟨?_, ?_⟩
  · unfold logp
    dsimp only
    rw [if_pos ⟨le_rfl, h2.le⟩]
    simp only [zero_mul, Real.sqrt_zero, mul_zero, F.log, if_true, if_neg h2.ne', F.neg]
    have e1 : (-(Real.log mu2 : EReal)) = ((-Real.log mu2 : ℝ) : EReal) := by norm_cast
    have e2 : F.add (some ⊥) (some (-(Real.log mu2 : EReal))) = some ⊥ := by
      rw [e1]
      simp [F.add]
    rw [e2]
    rcases hd.lt_or_eq with hd | rfl
    · have hneg : (0.5 * (d : ℝ)) < 0 := by
        have : (d : ℝ) < 0 := by exact_mod_cast hd
        linarith
      have e3 : F.smul (0.5 * d) (some ⊥) = some ⊤ := by
        simp only [F.smul]
        rw [if_neg (fun h => hneg.ne h.1), EReal.coe_mul_bot_of_neg hneg]
      have hiv : iv d 0 = 0 := by
        unfold iv
        have : ∀ k : ℕ, ((0 : ℝ) / 2) ^ (2 * k + d.natAbs) / ((k ! : ℝ) * ((k + d.natAbs)! : ℝ)) = 0 := by
          intro k
          rw [zero_div, zero_pow (by omega), zero_div]
        simp only [this, tsum_zero]
      rw [e3, hiv, if_pos rfl]
      have e4 : F.add (some ((-0 - mu2 : ℝ) : EReal)) (some ⊤) = some ⊤ := by
        simp only [F.add]
        rw [if_neg (by simp [EReal.coe_ne_bot, EReal.coe_ne_top]), EReal.coe_add_top]
      rw [e4]
      simp [F.add]
    · have e3 : F.smul (0.5 * ((0 : ℤ) : ℝ)) (some ⊥) = none := by simp [F.smul]
      rw [e3]
      simp [F.add]
  · rw [pmf_zero_left mu2 d hd]
    unfold Spec.pois
    positivity

example : logp 0 0 1 = .ok none := (C114_zero_rate one_pos 0 le_rfl).1

example : ∃ l : ℝ, logp (-2) 1 3 = .ok (some (l : EReal)) ∧ Real.exp l = Spec.pmf 1 3 (-2) :=
  C114_difference_of_poisson one_pos (by norm_num) (-2)

end Skellam
