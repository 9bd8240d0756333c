import Verif.Dist.Gev
import Mathlib.Analysis.SpecialFunctions.Pow.Deriv
import Mathlib.Analysis.SpecialFunctions.Pow.Asymptotics
import Mathlib.MeasureTheory.Integral.IntegralEqImproper

/-!
# C62: the generalised extreme value distribution

Specification (`Spec`): the distribution function of the documentation (Coles' parametrisation), with
value 0 below and 1 above the support.
-/

set_option autoImplicit false

open scoped Classical
open Filter Topology MeasureTheory

namespace Gev

namespace Spec

/-- The documented support. -/
def support (mu sigma xi : ℝ) : Set ℝ := {x | 1 + xi * ((x - mu) / sigma) > 0}

/-- The GEV distribution function: the documented formula on the support (the Gumbel one at shape 0),
0 below the support and 1 above it. -/
noncomputable def cdf (mu sigma xi x : ℝ) : ℝ :=
  if xi = 0 then Real.exp (-Real.exp (-((x - mu) / sigma)))
  else if 1 + xi * ((x - mu) / sigma) > 0 then
    Real.exp (-(1 + xi * ((x - mu) / sigma)) ^ (-1 / xi))
  else if xi > 0 then 0 else 1

/-- The distribution function of `scipy.stats.genextreme` with shape `c` on its support, as SciPy
documents it: `exp(-(1 - c z)^(1/c))`, and `exp(-exp(-z))` for `c = 0`. -/
noncomputable def scipyCdf (c mu sigma x : ℝ) : ℝ :=
  if c = 0 then Real.exp (-Real.exp (-((x - mu) / sigma)))
  else if 1 - c * ((x - mu) / sigma) > 0 then
    Real.exp (-(1 - c * ((x - mu) / sigma)) ^ (1 / c))
  else if c < 0 then 0 else 1

end Spec

/-- The density read off a `logp` result; 0 if it raises or is NaN. -/
noncomputable def val (r : Except DistErr LogP) : ℝ :=
  match r with
  | .ok l => l.exp.getD 0
  | .error _ => 0

theorem closeToZero_iff (xi : ℝ) : closeToZero xi ↔ |xi| ≤ 1e-8 := by
  unfold closeToZero; simp

theorem closeToZero_zero : closeToZero 0 := by rw [closeToZero_iff]; norm_num

theorem ne_of_not_close {xi : ℝ} (h : ¬ closeToZero xi) : xi ≠ 0 := by
  rintro rfl; exact h closeToZero_zero

/-- **C62.** Both functions raise exactly for invalid parameters. -/
theorem C62_errors (x mu sigma xi : ℝ) :
    (logp x mu sigma xi = .error .parameterValueError ↔ ¬ (0 < sigma ∧ -1 < xi ∧ xi < 1)) ∧
    (logcdf x mu sigma xi = .error .parameterValueError ↔ ¬ (0 < sigma ∧ -1 < xi ∧ xi < 1)) := by
  constructor
  · unfold logp check; dsimp only
    split <;> rename_i h <;> simp_all
  · unfold logcdf check; dsimp only
    split <;> rename_i h <;> simp_all

/-- **C62.** For valid parameters the log-density is `-inf` exactly outside the documented support. -/
theorem C62_support {mu sigma xi : ℝ} (hs : 0 < sigma) (h1 : -1 < xi) (h2 : xi < 1) (x : ℝ) :
    (logp x mu sigma xi = .ok .negInf ↔ x ∉ Spec.support mu sigma xi) ∧
    (logcdf x mu sigma xi = .ok .negInf ↔ x ∉ Spec.support mu sigma xi) := by
  have hc : sigma > 0 ∧ xi > -1 ∧ xi < 1 := ⟨hs, h1, h2⟩
  constructor
  · unfold logp check Spec.support; dsimp only
    rw [if_pos hc]
    simp only [Set.mem_ofPred_eq]
    split <;> rename_i h <;> simp [h]
  · unfold logcdf check Spec.support; dsimp only
    rw [if_pos hc, mul_div_assoc]
    simp only [Set.mem_ofPred_eq]
    split <;> rename_i h <;> simp [h]

theorem val_logcdf {mu sigma xi : ℝ} (hs : 0 < sigma) (h1 : -1 < xi) (h2 : xi < 1) (x : ℝ) :
    val (logcdf x mu sigma xi) = if x ∈ Spec.support mu sigma xi then
      (if closeToZero xi then Real.exp (-Real.exp (-((x - mu) / sigma)))
        else Real.exp (-(1 + xi * ((x - mu) / sigma)) ^ (-1 / xi))) else 0 := by
  have hc : sigma > 0 ∧ xi > -1 ∧ xi < 1 := ⟨hs, h1, h2⟩
  unfold logcdf check Spec.support; dsimp only
  rw [if_pos hc, mul_div_assoc]
  simp only [Set.mem_ofPred_eq]
  split
  · simp only [val, LogP.exp, Option.getD_some]
    split <;> rfl
  · simp [val, LogP.exp]

theorem val_logp {mu sigma xi : ℝ} (hs : 0 < sigma) (h1 : -1 < xi) (h2 : xi < 1) (x : ℝ) :
    val (logp x mu sigma xi) = if x ∈ Spec.support mu sigma xi then
      Real.exp (logpExpr x mu sigma xi) else 0 := by
  have hc : sigma > 0 ∧ xi > -1 ∧ xi < 1 := ⟨hs, h1, h2⟩
  unfold logp check Spec.support; dsimp only
  rw [if_pos hc]
  simp only [Set.mem_ofPred_eq]
  split <;> simp [val, LogP.exp]

/-- **C62.** On the support the log-cdf is the logarithm of the documented distribution function (shapes
0 or not within 1e-8 of 0); below the support (positive shape) it stands for probability 0. -/
theorem C62_cdf {mu sigma xi : ℝ} (hs : 0 < sigma) (h1 : -1 < xi) (h2 : xi < 1)
    (hxi : xi = 0 ∨ 1e-8 < |xi|) {x : ℝ} (hx : x ∈ Spec.support mu sigma xi ∨ 0 ≤ xi) :
    val (logcdf x mu sigma xi) = Spec.cdf mu sigma xi x := by
  rw [val_logcdf hs h1 h2]
  unfold Spec.cdf
  rcases hxi with rfl | hxi
  · rw [if_pos rfl, if_pos closeToZero_zero, if_pos]
    simp [Spec.support]
  · have hn : ¬ closeToZero xi := by rw [closeToZero_iff]; linarith
    have hn0 := ne_of_not_close hn
    rw [if_neg hn0, if_neg hn]
    by_cases h : x ∈ Spec.support mu sigma xi
    · rw [if_pos h, if_pos (show 1 + xi * ((x - mu) / sigma) > 0 from h)]
    · rw [if_neg h]
      have h' : ¬ (1 + xi * ((x - mu) / sigma) > 0) := h
      have hp : xi > 0 := lt_of_le_of_ne (hx.resolve_left h) (Ne.symm hn0)
      rw [if_neg h', if_pos hp]

/-- **C62 (defect).** With a negative shape and a value above the upper end point the true distribution
function is 1, but the log-cdf returned is `-inf`. -/
theorem C62_above_support {mu sigma xi x : ℝ} (hs : 0 < sigma) (h1 : -1 < xi) (h2 : xi < 0)
    (hx : mu - sigma / xi ≤ x) :
    logcdf x mu sigma xi = .ok .negInf ∧ Spec.cdf mu sigma xi x = 1 := by
  have hns : x ∉ Spec.support mu sigma xi := by
    simp only [Spec.support, Set.mem_ofPred_eq, not_lt, gt_iff_lt]
    have : -(sigma / xi) / sigma ≤ (x - mu) / sigma := by
      apply div_le_div_of_nonneg_right _ hs.le; linarith
    have h3 : -(sigma / xi) / sigma = -1 / xi := by
      field_simp
    rw [h3] at this
    have := mul_le_mul_of_nonpos_left this h2.le
    have h4 : xi * (-1 / xi) = -1 := by field_simp [h2.ne]
    linarith
  refine ⟨((C62_support hs h1 (by linarith) x).2).2 hns, ?_⟩
  unfold Spec.cdf
  have h' : ¬ (1 + xi * ((x - mu) / sigma) > 0) := hns
  rw [if_neg h2.ne, if_neg h', if_neg (by linarith)]

/-- **C62 (defect).** So for every negative shape the function `exp (logcdf x)` is not monotone: it is
positive at the location and 0 at and above the upper end point. -/
theorem C62_not_monotone (mu : ℝ) {sigma xi : ℝ} (hs : 0 < sigma) (h1 : -1 < xi) (h2 : xi < 0) :
    ¬ Monotone (fun x => val (logcdf x mu sigma xi)) := by
  intro hm
  have hx : mu ≤ mu - sigma / xi := by
    have := div_neg_of_pos_of_neg hs h2; linarith
  have h := hm hx
  simp only at h
  rw [(C62_above_support hs h1 h2 le_rfl).1, val_logcdf hs h1 (by linarith)] at h
  rw [if_pos (by simp [Spec.support])] at h
  simp only [val, LogP.exp, Option.getD_some] at h
  split at h <;> exact absurd h (not_le.2 (Real.exp_pos _))

/-- **C62.** `dist(scipy=True, xi)` is `dist(xi=-xi)`, and the sampler draws from the documented
distribution: SciPy's distribution function at the shape it passes is the documented one. -/
theorem C62_sampler (mu sigma xi x : ℝ) :
    Spec.scipyCdf (samplerShape xi) mu sigma x = Spec.cdf mu sigma xi x ∧
    Spec.scipyCdf xi mu sigma x = Spec.cdf mu sigma (distShape xi true) x ∧
    distShape xi false = xi := by
  have key : ∀ c : ℝ, Spec.scipyCdf c mu sigma x = Spec.cdf mu sigma (-c) x := by
    intro c
    unfold Spec.scipyCdf Spec.cdf
    by_cases hc : c = 0
    · simp [hc]
    · rw [if_neg hc, if_neg (neg_ne_zero.2 hc)]
      have e1 : 1 + -c * ((x - mu) / sigma) = 1 - c * ((x - mu) / sigma) := by ring
      have e2 : -1 / -c = 1 / c := by rw [neg_div_neg_eq]
      rw [e1, e2]
      congr 1
      by_cases h : c < 0 <;> simp [h]
  refine ⟨?_, ?_, by simp [distShape]⟩
  · rw [samplerShape, key, neg_neg]
  · rw [key]; simp [distShape]

/-! ### Density and distribution function agree -/

theorem hasDerivAt_scaled (mu sigma x : ℝ) : HasDerivAt (fun y => (y - mu) / sigma) (1 / sigma) x := by
  simpa using ((hasDerivAt_id x).sub_const mu).div_const sigma

theorem support_isOpen (mu sigma xi : ℝ) : IsOpen (Spec.support mu sigma xi) := by
  unfold Spec.support
  exact isOpen_lt continuous_const (by fun_prop)

/-- **C62.** On the support `exp (logp)` is the derivative of `exp (logcdf)`: density and distribution
function belong together, for every valid parameter including the near-zero branch. -/
theorem C62_derivative {mu sigma xi : ℝ} (hs : 0 < sigma) (h1 : -1 < xi) (h2 : xi < 1) {x : ℝ}
    (hx : x ∈ Spec.support mu sigma xi) :
    HasDerivAt (fun y => val (logcdf y mu sigma xi)) (val (logp x mu sigma xi)) x := by
  have hev : (fun y => val (logcdf y mu sigma xi)) =ᶠ[𝓝 x]
      (fun y => if closeToZero xi then Real.exp (-Real.exp (-((y - mu) / sigma)))
        else Real.exp (-(1 + xi * ((y - mu) / sigma)) ^ (-1 / xi))) := by
    filter_upwards [(support_isOpen mu sigma xi).mem_nhds hx] with y hy
    rw [val_logcdf hs h1 h2, if_pos hy]
  refine HasDerivAt.congr_of_eventuallyEq ?_ hev
  rw [val_logp hs h1 h2, if_pos hx]
  have hz := hasDerivAt_scaled mu sigma x
  unfold logpExpr
  by_cases hc : closeToZero xi
  · simp only [if_pos hc]
    have := ((hz.neg.exp).neg).exp
    refine this.congr_deriv ?_
    symm
    rw [show -Real.log sigma - (x - mu) / sigma - Real.exp (-((x - mu) / sigma)) =
      -Real.log sigma + (-((x - mu) / sigma)) + (-Real.exp (-((x - mu) / sigma))) by ring,
      Real.exp_add, Real.exp_add, Real.exp_neg (Real.log sigma), Real.exp_log hs]
    simp only [Pi.neg_apply]
    field_simp
  · simp only [if_neg hc]
    have hn := ne_of_not_close hc
    have ht : 0 < 1 + xi * ((x - mu) / sigma) := hx
    have hd : HasDerivAt (fun y => 1 + xi * ((y - mu) / sigma)) (xi * (1 / sigma)) x := by
      simpa using (hz.const_mul xi).const_add 1
    have := ((hd.rpow_const (p := -1 / xi) (.inl ht.ne')).neg).exp
    refine this.congr_deriv ?_
    symm
    set t := 1 + xi * ((x - mu) / sigma) with htd
    rw [show -Real.log sigma - (xi + 1) / xi * Real.log t - t ^ (-1 / xi) =
      -Real.log sigma + Real.log t * (-1 / xi - 1) + (-t ^ (-1 / xi)) by field_simp; ring,
      Real.exp_add, Real.exp_add, Real.exp_neg (Real.log sigma), Real.exp_log hs,
      ← Real.rpow_def_of_pos ht]
    simp only [Pi.neg_apply, ← htd]
    generalize Real.exp (-t ^ (-1 / xi)) = A
    generalize t ^ (-1 / xi - 1) = B
    field_simp

/-! ### The mode -/

theorem mode_aux {a s : ℝ} (ha : 0 < a) (hs : 0 < s) :
    a * Real.log s - s ≤ a * Real.log a - a := by
  have h := Real.log_le_sub_one_of_pos (div_pos hs ha)
  rw [Real.log_div hs.ne' ha.ne'] at h
  have := mul_le_mul_of_nonneg_left h ha.le
  have e : a * (s / a - 1) = s - a := by field_simp
  rw [e] at this
  linarith

theorem mode_aux_lt {a s : ℝ} (ha : 0 < a) (hs : 0 < s) (hne : s ≠ a) :
    a * Real.log s - s < a * Real.log a - a := by
  have h := Real.log_lt_sub_one_of_pos (div_pos hs ha) (by rw [ne_eq, div_eq_one_iff_eq ha.ne']; exact hne)
  rw [Real.log_div hs.ne' ha.ne'] at h
  have := mul_lt_mul_of_pos_left h ha
  have e : a * (s / a - 1) = s - a := by field_simp
  rw [e] at this
  linarith

/-- Substituting `s = (1 + ξ z)^(-1/ξ)`. -/
theorem logpExpr_subst {mu sigma xi x : ℝ} (hc : ¬ closeToZero xi)
    (hx : x ∈ Spec.support mu sigma xi) :
    logpExpr x mu sigma xi = -Real.log sigma +
      ((1 + xi) * Real.log ((1 + xi * ((x - mu) / sigma)) ^ (-1 / xi)) -
        (1 + xi * ((x - mu) / sigma)) ^ (-1 / xi)) := by
  have hn := ne_of_not_close hc
  have ht : 0 < 1 + xi * ((x - mu) / sigma) := hx
  unfold logpExpr
  simp only [if_neg hc]
  rw [Real.log_rpow ht]
  field_simp
  ring

theorem supportPoint_scaled {mu sigma xi : ℝ} (hs : 0 < sigma) (hc : ¬ closeToZero xi) :
    1 + xi * ((supportPoint mu sigma xi - mu) / sigma) = (1 + xi) ^ (-xi) := by
  have hn := ne_of_not_close hc
  unfold supportPoint
  rw [if_neg hc]
  field_simp
  ring

/-- **C62.** The initial point is the mode: it lies in the support (shape 0 or not within 1e-8 of 0) and
the density is at most its density there, with equality only there. -/
theorem C62_mode {mu sigma xi : ℝ} (hs : 0 < sigma) (h1 : -1 < xi) (h2 : xi < 1) :
    supportPoint mu sigma xi ∈ Spec.support mu sigma xi ∧
    ∀ x, (xi = 0 ∨ 1e-8 < |xi|) → x ≠ supportPoint mu sigma xi →
      val (logp x mu sigma xi) < val (logp (supportPoint mu sigma xi) mu sigma xi) := by
  have hin : supportPoint mu sigma xi ∈ Spec.support mu sigma xi := by
    by_cases hc : closeToZero xi
    · simp [Spec.support, supportPoint, hc]
    · simp only [Spec.support, Set.mem_ofPred_eq, supportPoint_scaled hs hc]
      exact Real.rpow_pos_of_pos (by linarith) _
  refine ⟨hin, fun x hxi hne => ?_⟩
  rw [val_logp hs h1 h2, val_logp hs h1 h2, if_pos hin]
  split
  swap
  · exact Real.exp_pos _
  rename_i hx
  apply Real.exp_lt_exp.2
  by_cases hc : closeToZero xi
  · have h0 : xi = 0 := by
      rcases hxi with h | h
      · exact h
      · rw [closeToZero_iff] at hc; linarith
    subst h0
    have hsp : supportPoint mu sigma 0 = mu := by unfold supportPoint; rw [if_pos hc]
    rw [hsp] at hne ⊢
    unfold logpExpr
    simp only [if_pos hc, sub_self, zero_div, neg_zero, Real.exp_zero]
    have hz : -((x - mu) / sigma) ≠ 0 := by
      rw [ne_eq, neg_eq_zero, div_eq_zero_iff]
      push Not
      exact ⟨sub_ne_zero.2 hne, hs.ne'⟩
    have := Real.add_one_lt_exp hz
    linarith
  · rw [logpExpr_subst hc hx, logpExpr_subst hc hin, supportPoint_scaled hs hc,
      ← Real.rpow_mul (by linarith : (0:ℝ) ≤ 1 + xi)]
    have hn := ne_of_not_close hc
    have e : -xi * (-1 / xi) = 1 := by field_simp
    rw [e, Real.rpow_one]
    have ht : 0 < 1 + xi * ((x - mu) / sigma) := hx
    have := mode_aux_lt (a := 1 + xi) (s := (1 + xi * ((x - mu) / sigma)) ^ (-1 / xi)) (by linarith)
      (Real.rpow_pos_of_pos ht _) (by
        intro h
        apply hne
        have h3 : 1 + xi * ((x - mu) / sigma) = (1 + xi) ^ (-xi) := by
          rw [← h, ← Real.rpow_mul ht.le]
          have : -1 / xi * -xi = 1 := by field_simp
          rw [this, Real.rpow_one]
        rw [← supportPoint_scaled (mu := mu) hs hc] at h3
        have h4 : (x - mu) / sigma = (supportPoint mu sigma xi - mu) / sigma := by
          have := add_left_cancel h3
          exact mul_left_cancel₀ hn this
        field_simp at h4
        linarith)
    linarith

/-! ### Total mass -/

/-- Integrating a nonnegative derivative over a half line that carries it. -/
theorem half_line {f g : ℝ → ℝ} {a l : ℝ} (h0 : ∀ x, 0 ≤ f x) (hz : ∀ x ≤ a, f x = 0)
    (hcont : ContinuousWithinAt g (Set.Ici a) a) (hd : ∀ x, a < x → HasDerivAt g (f x) x)
    (hl : Tendsto g atTop (𝓝 l)) : Integrable f ∧ ∫ x, f x = l - g a := by
  have hi := integrableOn_Ioi_deriv_of_nonneg hcont (fun x hx => hd x hx) (fun x _ => h0 x) hl
  have he := integral_Ioi_of_hasDerivAt_of_nonneg hcont (fun x hx => hd x hx) (fun x _ => h0 x) hl
  have hsub : Function.support f ⊆ Set.Ioi a := by
    intro x hx
    by_contra h
    exact hx (hz x (not_lt.1 h))
  exact ⟨(integrableOn_iff_integrable_of_support_subset hsub).1 hi,
    by rw [← setIntegral_eq_integral_of_forall_compl_eq_zero (s := Set.Ioi a), he]
       intro x hx; exact hz x (not_lt.1 hx)⟩

theorem val_logp_nonneg {mu sigma xi : ℝ} (hs : 0 < sigma) (h1 : -1 < xi) (h2 : xi < 1) (x : ℝ) :
    0 ≤ val (logp x mu sigma xi) := by
  rw [val_logp hs h1 h2]; split
  · exact (Real.exp_pos _).le
  · exact le_rfl

theorem scaled_atTop {sigma : ℝ} (mu : ℝ) (hs : 0 < sigma) :
    Tendsto (fun x => (x - mu) / sigma) atTop atTop :=
  (tendsto_atTop_add_const_right _ _ tendsto_id).atTop_div_const hs

theorem scaled_atBot {sigma : ℝ} (mu : ℝ) (hs : 0 < sigma) :
    Tendsto (fun x => (x - mu) / sigma) atBot atBot :=
  (tendsto_atBot_add_const_right _ _ tendsto_id).atBot_div_const hs

theorem mem_support_pos {mu sigma xi x : ℝ} (hs : 0 < sigma) (hx : 0 < xi) :
    x ∈ Spec.support mu sigma xi ↔ mu - sigma / xi < x := by
  simp only [Spec.support, Set.mem_ofPred_eq]
  rw [show 1 + xi * ((x - mu) / sigma) = xi / sigma * (x - (mu - sigma / xi)) by field_simp; ring,
    gt_iff_lt, mul_pos_iff_of_pos_left (div_pos hx hs), sub_pos]

theorem mem_support_neg {mu sigma xi x : ℝ} (hs : 0 < sigma) (hx : xi < 0) :
    x ∈ Spec.support mu sigma xi ↔ x < mu - sigma / xi := by
  simp only [Spec.support, Set.mem_ofPred_eq]
  rw [show 1 + xi * ((x - mu) / sigma) = (-xi) / sigma * ((mu - sigma / xi) - x) by
      have := hx.ne; field_simp; ring,
    gt_iff_lt, mul_pos_iff_of_pos_left (div_pos (by linarith) hs), sub_pos]

/-- As `t → 0+`, `exp (-t^(-1/ξ)) → 0` for positive `ξ`; as `t → ∞` it tends to 1. -/
theorem exp_neg_rpow_zero {p : ℝ} (hp : 0 < p) :
    Tendsto (fun t : ℝ => Real.exp (-t ^ (-p))) (𝓝[>] 0) (𝓝 0) := by
  apply Real.tendsto_exp_atBot.comp
  apply tendsto_neg_atTop_atBot.comp
  have h : Tendsto (fun t : ℝ => (t⁻¹) ^ p) (𝓝[>] 0) atTop :=
    (tendsto_rpow_atTop hp).comp tendsto_inv_nhdsGT_zero
  refine h.congr' ?_
  filter_upwards [self_mem_nhdsWithin] with t ht
  rw [Real.inv_rpow (le_of_lt ht), Real.rpow_neg (le_of_lt ht)]

theorem exp_neg_rpow_top {p : ℝ} (hp : 0 < p) :
    Tendsto (fun t : ℝ => Real.exp (-t ^ (-p))) atTop (𝓝 1) := by
  have h := tendsto_rpow_neg_atTop hp
  have := (Real.continuous_exp.tendsto _).comp h.neg
  simpa [Function.comp_def] using this

theorem exp_neg_rpow_zero' {p : ℝ} (hp : 0 < p) :
    Tendsto (fun t : ℝ => Real.exp (-t ^ p)) (𝓝[>] 0) (𝓝 1) := by
  have h : Tendsto (fun t : ℝ => t ^ p) (𝓝[>] 0) (𝓝 0) := by
    have := (Real.continuousAt_rpow_const 0 p (.inr hp.le)).tendsto
    rw [Real.zero_rpow hp.ne'] at this
    exact this.mono_left nhdsWithin_le_nhds
  have := (Real.continuous_exp.tendsto _).comp h.neg
  simpa [Function.comp_def] using this

theorem exp_neg_rpow_top' {p : ℝ} (hp : 0 < p) :
    Tendsto (fun t : ℝ => Real.exp (-t ^ p)) atTop (𝓝 0) :=
  Real.tendsto_exp_atBot.comp (tendsto_neg_atTop_atBot.comp (tendsto_rpow_atTop hp))

/-- **C62.** The density integrates to one over the real line, for shape 0 and every shape not within
1e-8 of 0. -/
theorem C62_total_mass {mu sigma xi : ℝ} (hs : 0 < sigma) (h1 : -1 < xi) (h2 : xi < 1)
    (hxi : xi = 0 ∨ 1e-8 < |xi|) : ∫ x, val (logp x mu sigma xi) = 1 := by
  have hnn := val_logp_nonneg (mu := mu) hs h1 h2
  rcases hxi with rfl | hxi
  · -- Gumbel
    have hin : ∀ x, x ∈ Spec.support mu sigma 0 := fun x => by simp [Spec.support]
    have hd : ∀ x, HasDerivAt (fun y => val (logcdf y mu sigma 0)) (val (logp x mu sigma 0)) x :=
      fun x => C62_derivative hs h1 h2 (hin x)
    have hg : (fun y => val (logcdf y mu sigma 0)) =
        fun y => Real.exp (-Real.exp (-((y - mu) / sigma))) := by
      funext y; rw [val_logcdf hs h1 h2, if_pos (hin y), if_pos closeToZero_zero]
    have htop : Tendsto (fun y => val (logcdf y mu sigma 0)) atTop (𝓝 1) := by
      rw [hg]
      have h := Real.tendsto_exp_atBot.comp (tendsto_neg_atTop_atBot.comp (scaled_atTop mu hs))
      have := (Real.continuous_exp.tendsto _).comp h.neg
      simpa [Function.comp_def] using this
    have hbot : Tendsto (fun y => val (logcdf y mu sigma 0)) atBot (𝓝 0) := by
      rw [hg]
      exact Real.tendsto_exp_atBot.comp (tendsto_neg_atTop_atBot.comp
        (Real.tendsto_exp_atTop.comp (tendsto_neg_atBot_atTop.comp (scaled_atBot mu hs))))
    have hiR := integrableOn_Ioi_deriv_of_nonneg' (a := 0) (fun x _ => hd x) (fun x _ => hnn x) htop
    have hiL : IntegrableOn (fun x => val (logp x mu sigma 0)) (Set.Iic 0) := by
      have hd' : ∀ x, HasDerivAt (fun y => -val (logcdf (-y) mu sigma 0))
          (val (logp (-x) mu sigma 0)) x := by
        intro x
        have := ((hd (-x)).scomp x (hasDerivAt_neg x)).neg
        exact this.congr_deriv (by simp)
      have ht' : Tendsto (fun y => -val (logcdf (-y) mu sigma 0)) atTop (𝓝 (-0)) :=
        (hbot.comp tendsto_neg_atTop_atBot).neg
      have := integrableOn_Ioi_deriv_of_nonneg' (a := 0) (fun x _ => hd' x) (fun x _ => hnn (-x)) ht'
      rw [← integrableOn_Ici_iff_integrableOn_Ioi] at this
      have h3 := (Measure.measurePreserving_neg (volume : Measure ℝ)).integrableOn_comp_preimage
        (Homeomorph.neg ℝ).measurableEmbedding (f := fun x => val (logp x mu sigma 0)) (s := Set.Iic 0)
      apply h3.1
      simpa [Function.comp_def] using this
    have hint : Integrable (fun x => val (logp x mu sigma 0)) := by
      rw [← integrableOn_univ, ← Set.Iic_union_Ioi (a := (0:ℝ))]
      exact hiL.union hiR
    have := integral_of_hasDerivAt_of_tendsto hd hint hbot htop
    simpa using this
  · have hc : ¬ closeToZero xi := by rw [closeToZero_iff]; linarith
    have hn := ne_of_not_close hc
    rcases lt_or_gt_of_ne hn with hneg | hpos
    · -- negative shape: reflect
      set b := mu - sigma / xi with hb
      have hmem : ∀ x, x ∈ Spec.support mu sigma xi ↔ x < b := fun x => mem_support_neg hs hneg
      have hp : 0 < -1 / xi := div_pos_of_neg_of_neg (by norm_num) hneg
      have key := half_line (f := fun x => val (logp (-x) mu sigma xi))
        (g := fun x => if x ≤ -b then -1 else -val (logcdf (-x) mu sigma xi)) (a := -b) (l := 0)
        (fun x => hnn (-x)) ?_ ?_ ?_ ?_
      · have h4 := key.2
        rw [integral_neg_eq_self (fun x => val (logp x mu sigma xi)) volume] at h4
        rw [h4]; simp
      · intro x hx
        rw [val_logp hs h1 h2, if_neg]
        rw [hmem]; linarith
      · -- continuity at the end point
        rw [← continuousWithinAt_Ioi_iff_Ici]
        unfold ContinuousWithinAt
        simp only [le_refl, if_true]
        have ht : Tendsto (fun x => 1 + xi * ((-x - mu) / sigma)) (𝓝[>] (-b)) (𝓝[>] 0) := by
          apply tendsto_nhdsWithin_of_tendsto_nhds_of_eventually_within
          · have hcts : Continuous (fun x => 1 + xi * ((-x - mu) / sigma)) := by fun_prop
            have h5 := hcts.tendsto (-b)
            have e : 1 + xi * ((- -b - mu) / sigma) = 0 := by rw [hb]; field_simp; ring
            rw [e] at h5
            exact h5.mono_left nhdsWithin_le_nhds
          · filter_upwards [self_mem_nhdsWithin] with x hx
            have : -x ∈ Spec.support mu sigma xi := by
              rw [hmem]; have : -b < x := hx; linarith
            exact this
        have h6 := ((exp_neg_rpow_zero' hp).comp ht).neg
        refine h6.congr' ?_
        filter_upwards [self_mem_nhdsWithin] with x hx
        have hx' : -b < x := hx
        have : -x ∈ Spec.support mu sigma xi := by rw [hmem]; linarith
        rw [if_neg (not_le.2 hx'), val_logcdf hs h1 h2, if_pos this, if_neg hc]
        rfl
      · intro x hx
        have hin : -x ∈ Spec.support mu sigma xi := by rw [hmem]; linarith
        have hd := C62_derivative hs h1 h2 hin
        have h7 := ((hd.scomp x (hasDerivAt_neg x)).neg)
        have h8 : HasDerivAt (fun y => -val (logcdf (-y) mu sigma xi)) (val (logp (-x) mu sigma xi)) x := by
          exact h7.congr_deriv (by simp)
        refine h8.congr_of_eventuallyEq ?_
        filter_upwards [lt_mem_nhds hx] with y hy
        rw [if_neg (not_le.2 hy)]
      · have h9 : Tendsto (fun x => 1 + xi * ((-x - mu) / sigma)) atTop atTop := by
          apply tendsto_atTop_add_const_left
          exact ((scaled_atBot mu hs).comp tendsto_neg_atTop_atBot).const_mul_atBot_of_neg hneg
        have h10 := ((exp_neg_rpow_top' hp).comp h9).neg
        rw [neg_zero] at h10
        refine h10.congr' ?_
        filter_upwards [Ioi_mem_atTop (-b)] with x hx
        have hx' : -b < x := hx
        have : -x ∈ Spec.support mu sigma xi := by rw [hmem]; linarith
        rw [if_neg (not_le.2 hx'), val_logcdf hs h1 h2, if_pos this, if_neg hc]
        rfl
    · -- positive shape
      set a := mu - sigma / xi with ha
      have hmem : ∀ x, x ∈ Spec.support mu sigma xi ↔ a < x := fun x => mem_support_pos hs hpos
      have hp : 0 < 1 / xi := by positivity
      have hga : val (logcdf a mu sigma xi) = 0 := by
        rw [val_logcdf hs h1 h2, if_neg]; rw [hmem]; exact lt_irrefl _
      have key := half_line (f := fun x => val (logp x mu sigma xi))
        (g := fun x => val (logcdf x mu sigma xi)) (a := a) (l := 1) hnn ?_ ?_ ?_ ?_
      · rw [key.2, hga, sub_zero]
      · intro x hx
        rw [val_logp hs h1 h2, if_neg]
        rw [hmem]; linarith
      · rw [← continuousWithinAt_Ioi_iff_Ici]
        unfold ContinuousWithinAt
        beta_reduce
        rw [hga]
        have ht : Tendsto (fun x => 1 + xi * ((x - mu) / sigma)) (𝓝[>] a) (𝓝[>] 0) := by
          apply tendsto_nhdsWithin_of_tendsto_nhds_of_eventually_within
          · have hcts : Continuous (fun x => 1 + xi * ((x - mu) / sigma)) := by fun_prop
            have h5 := hcts.tendsto a
            have e : 1 + xi * ((a - mu) / sigma) = 0 := by rw [ha]; field_simp; ring
            rw [e] at h5
            exact h5.mono_left nhdsWithin_le_nhds
          · filter_upwards [self_mem_nhdsWithin] with x hx
            exact (hmem x).2 hx
        have h6 := (exp_neg_rpow_zero hp).comp ht
        refine h6.congr' ?_
        filter_upwards [self_mem_nhdsWithin] with x hx
        rw [val_logcdf hs h1 h2, if_pos ((hmem x).2 hx), if_neg hc]
        simp [Function.comp_def, neg_div]
      · intro x hx
        exact C62_derivative hs h1 h2 ((hmem x).2 hx)
      · have h9 : Tendsto (fun x => 1 + xi * ((x - mu) / sigma)) atTop atTop := by
          apply tendsto_atTop_add_const_left
          exact (scaled_atTop mu hs).const_mul_atTop hpos
        have h10 := (exp_neg_rpow_top hp).comp h9
        refine h10.congr' ?_
        filter_upwards [Ioi_mem_atTop a] with x hx
        rw [val_logcdf hs h1 h2, if_pos ((hmem x).2 hx), if_neg hc]
        simp [Function.comp_def, neg_div]

/-! ### Concrete cases -/

/-- Shape 1/2: the hypotheses of the theorems above are met. -/
example : ∫ x, val (logp x 0 1 (1 / 2)) = 1 :=
  C62_total_mass (by norm_num) (by norm_num) (by norm_num) (.inr (by norm_num [abs_of_pos]))

example : (1 : ℝ) ∈ Spec.support 0 1 (-1 / 2) := by norm_num [Spec.support]

/-- Shape -1/2, value 3 above the end point 2: the code reports probability 0. -/
example : logcdf 3 0 1 (-1 / 2) = .ok .negInf ∧ Spec.cdf 0 1 (-1 / 2) 3 = 1 :=
  C62_above_support (by norm_num) (by norm_num) (by norm_num) (by norm_num)

end Gev
