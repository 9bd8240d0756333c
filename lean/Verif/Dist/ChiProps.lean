import Verif.Dist.Chi
import Mathlib.MeasureTheory.Function.Jacobian
import Mathlib.Analysis.SpecialFunctions.Gamma.Beta

/-!
# C111: Chi and Maxwell have the documented densities
-/

set_option autoImplicit false

open MeasureTheory ProbabilityTheory
open scoped Classical ENNReal

namespace Chi

namespace Spec

/-- The documented density of the chi distribution. -/
noncomputable def chiPdf (nu x : ℝ) : ℝ :=
  if 0 < x then x ^ (nu - 1) * Real.exp (-x ^ 2 / 2) / (2 ^ (nu / 2 - 1) * Real.Gamma (nu / 2)) else 0

/-- The documented density of the Maxwell distribution. -/
noncomputable def maxwellPdf (a x : ℝ) : ℝ :=
  if 0 < x then √(2 / Real.pi) * (x ^ 2 / a ^ 3) * Real.exp (-x ^ 2 / (2 * a ^ 2)) else 0

end Spec

theorem image_sq (A : Set ℝ) :
    (fun y : ℝ => y ^ 2) '' (A ∩ Set.Ioi 0) = Real.sqrt ⁻¹' A ∩ Set.Ioi 0 := by
  ext x
  constructor
  · rintro ⟨y, ⟨hyA, hy⟩, rfl⟩
    have hy' : 0 < y := hy
    refine ⟨?_, ?_⟩
    · simp only [Set.mem_preimage]
      rw [Real.sqrt_sq hy'.le]; exact hyA
    · exact Set.mem_Ioi.2 (by positivity)
  · rintro ⟨hxA, hx⟩
    have hx' : 0 < x := hx
    exact ⟨√x, ⟨hxA, Set.mem_Ioi.2 (Real.sqrt_pos.2 hx')⟩, Real.sq_sqrt hx'.le⟩

theorem density_sq {nu y : ℝ} (hy : 0 < y) :
    2 * y * gammaPDFReal (nu / 2) (1 / 2) (y ^ 2) = Spec.chiPdf nu y := by
  unfold gammaPDFReal Spec.chiPdf
  rw [if_pos (by positivity), if_pos hy]
  have h1 : (y ^ 2) ^ (nu / 2 - 1) = y ^ (nu - 2) := by
    rw [← Real.rpow_natCast, ← Real.rpow_mul hy.le]; congr 1; push_cast; ring
  have h2 : y ^ (nu - 1) = y * y ^ (nu - 2) := by
    conv_rhs => rw [← Real.rpow_one y, ← Real.rpow_mul hy.le, ← Real.rpow_add hy]
    congr 1; ring
  have h3 : (1 / 2 : ℝ) ^ (nu / 2) = 1 / (2 * 2 ^ (nu / 2 - 1)) := by
    rw [Real.div_rpow (by norm_num) (by norm_num), Real.one_rpow]
    congr 1
    conv_rhs => rw [← Real.rpow_one 2, ← Real.rpow_mul (by norm_num), ← Real.rpow_add (by norm_num)]
    congr 1; ring
  rw [h1, h2, h3]
  have h4 : -(1 / 2 * y ^ 2) = -y ^ 2 / 2 := by ring
  rw [h4]
  have : (2 : ℝ) ^ (nu / 2 - 1) ≠ 0 := (Real.rpow_pos_of_pos (by norm_num) _).ne'
  by_cases hg : Real.Gamma (nu / 2) = 0
  · simp [hg]
  · field_simp

/-- **C111.** Draws of `Chi(nu)` have the documented density, for every positive `nu`. -/
theorem C111_chi {nu : ℝ} (hnu : 0 < nu) :
    chiDist nu = volume.withDensity (fun x => ENNReal.ofReal (Spec.chiPdf nu x)) := by
  have hpdf : Measurable (gammaPDF (nu / 2) (1 / 2)) := by
    unfold gammaPDF
    exact (measurable_gammaPDFReal _ _).ennreal_ofReal
  ext A hA
  unfold chiDist chiSquared
  have hms : Measurable Real.sqrt := Real.continuous_sqrt.measurable
  have hpre : MeasurableSet (Real.sqrt ⁻¹' A) := hms hA
  rw [Measure.map_apply hms hA]
  unfold gammaMeasure
  rw [withDensity_apply _ hpre, withDensity_apply _ hA]
  -- restrict to the positive half line
  have e1 : ∫⁻ x in Real.sqrt ⁻¹' A, gammaPDF (nu / 2) (1 / 2) x =
      ∫⁻ x in Real.sqrt ⁻¹' A ∩ Set.Ioi 0, gammaPDF (nu / 2) (1 / 2) x := by
    rw [← lintegral_inter_add_sdiff (fun x => gammaPDF (nu / 2) (1 / 2) x) (Real.sqrt ⁻¹' A)
      (measurableSet_Ioi (a := (0 : ℝ)))]
    conv_rhs => rw [← add_zero (∫⁻ x in Real.sqrt ⁻¹' A ∩ Set.Ioi 0, _)]
    congr 1
    refine nonpos_iff_eq_zero.1 ?_
    calc ∫⁻ x in Real.sqrt ⁻¹' A \ Set.Ioi 0, gammaPDF (nu / 2) (1 / 2) x
        ≤ ∫⁻ x in Set.Iic 0, gammaPDF (nu / 2) (1 / 2) x :=
          lintegral_mono_set (fun x hx => Set.mem_Iic.2 (not_lt.1 hx.2))
      _ = ∫⁻ x in Set.Iio 0, gammaPDF (nu / 2) (1 / 2) x := by
          rw [Measure.restrict_congr_set Iio_ae_eq_Iic]
      _ = 0 := by
          rw [setLIntegral_congr_fun (g := 0) measurableSet_Iio]
          · simp
          · intro x hx
            exact gammaPDF_of_neg hx
  have e2 : ∫⁻ x in A, ENNReal.ofReal (Spec.chiPdf nu x) =
      ∫⁻ x in A ∩ Set.Ioi 0, ENNReal.ofReal (Spec.chiPdf nu x) := by
    rw [← lintegral_inter_add_sdiff (fun x => ENNReal.ofReal (Spec.chiPdf nu x)) A
      (measurableSet_Ioi (a := (0 : ℝ)))]
    conv_rhs => rw [← add_zero (∫⁻ x in A ∩ Set.Ioi 0, _)]
    congr 1
    rw [setLIntegral_congr_fun (g := 0) (hA.diff measurableSet_Ioi)]
    · simp
    · intro x hx
      have : ¬ 0 < x := hx.2
      simp [Spec.chiPdf, this]
  rw [e1, e2, ← image_sq]
  rw [lintegral_image_eq_lintegral_abs_deriv_mul (hA.inter measurableSet_Ioi)
    (f' := fun y => 2 * y)]
  · apply setLIntegral_congr_fun (hA.inter measurableSet_Ioi)
    intro y hy
    have hy' : 0 < y := hy.2
    simp only
    unfold gammaPDF
    rw [← ENNReal.ofReal_mul (abs_nonneg _), abs_of_pos (by positivity), density_sq hy']
  · intro y _
    have := (hasDerivAt_pow 2 y).hasDerivWithinAt (s := A ∩ Set.Ioi 0)
    simpa using this
  · intro x hx y hy hxy
    have hx' : 0 < x := hx.2
    have hy' : 0 < y := hy.2
    simp only at hxy
    nlinarith [hxy, mul_pos hx' hy', sq_nonneg (x - y)]

/-- **C111.** Chi draws form a probability distribution. -/
theorem C111_chi_probability {nu : ℝ} (hnu : 0 < nu) : IsProbabilityMeasure (chiDist nu) := by
  have : IsProbabilityMeasure (chiSquared nu) := isProbabilityMeasure_gammaMeasure (by positivity) (by norm_num)
  exact Measure.isProbabilityMeasure_map Real.continuous_sqrt.measurable.aemeasurable

theorem chiPdf_three {x : ℝ} (hx : 0 < x) :
    Spec.chiPdf 3 x = √(2 / Real.pi) * x ^ 2 * Real.exp (-x ^ 2 / 2) := by
  unfold Spec.chiPdf
  rw [if_pos hx]
  have h1 : Real.Gamma (3 / 2) = √Real.pi / 2 := by
    rw [show (3 / 2 : ℝ) = 1 / 2 + 1 by norm_num, Real.Gamma_add_one (by norm_num), Real.Gamma_one_half_eq]
    ring
  have h2 : (2 : ℝ) ^ ((3 : ℝ) / 2 - 1) = √2 := by
    rw [Real.sqrt_eq_rpow]; norm_num
  have h3 : x ^ ((3 : ℝ) - 1) = x ^ 2 := by
    rw [← Real.rpow_natCast]; norm_num
  rw [h1, h2, h3, Real.sqrt_div (by norm_num)]
  have h4 : √Real.pi ≠ 0 := (Real.sqrt_pos.2 Real.pi_pos).ne'
  have h5 : √(2:ℝ) ≠ 0 := by positivity
  have h6 : √(2:ℝ) * √2 = 2 := Real.mul_self_sqrt (by norm_num)
  field_simp
  nlinarith [h6]

/-- **C111.** Draws of `Maxwell(a)` have the documented density; a non-positive scale raises. -/
theorem C111_maxwell (a : ℝ) :
    maxwellDist a = if 0 < a then
      .ok (volume.withDensity (fun x => ENNReal.ofReal (Spec.maxwellPdf a x)))
      else .error .parameterValueError := by
  unfold maxwellDist
  by_cases ha : 0 < a
  · rw [if_pos ha, if_pos ha, C111_chi (by norm_num)]
    congr 1
    have hm : Measurable (fun x : ℝ => x * a) := by fun_prop
    ext A hA
    rw [Measure.map_apply hm hA, withDensity_apply _ (hm hA), withDensity_apply _ hA]
    have himg : (fun x : ℝ => x * a) '' ((fun x : ℝ => x * a) ⁻¹' A) = A := by
      apply Set.image_preimage_eq
      intro y
      exact ⟨y / a, by field_simp⟩
    conv_rhs => rw [← himg]
    rw [lintegral_image_eq_lintegral_abs_deriv_mul (hm hA) (f' := fun _ => a)]
    · apply setLIntegral_congr_fun (hm hA)
      intro x _
      simp only
      rw [← ENNReal.ofReal_mul (abs_nonneg _), abs_of_pos ha]
      congr 1
      by_cases hx : 0 < x
      · rw [chiPdf_three hx]
        unfold Spec.maxwellPdf
        rw [if_pos (by positivity)]
        have e : -(x * a) ^ 2 / (2 * a ^ 2) = -x ^ 2 / 2 := by field_simp
        rw [e]
        field_simp
      · unfold Spec.maxwellPdf Spec.chiPdf
        rw [if_neg hx, if_neg]
        · simp
        · intro h; exact hx (pos_of_mul_pos_left h ha.le)
    · intro x _
      simpa using ((hasDerivAt_id x).mul_const a).hasDerivWithinAt (s := (fun x : ℝ => x * a) ⁻¹' A)
    · intro x _ y _ h
      exact mul_right_cancel₀ ha.ne' h
  · rw [if_neg ha, if_neg ha]

/-- **C111.** Maxwell draws are positive with probability one. -/
theorem C111_maxwell_positive {a : ℝ} {m : Measure ℝ} (h : maxwellDist a = .ok m) :
    m {x | ¬ 0 < x} = 0 := by
  rw [C111_maxwell] at h
  split at h
  · injection h with h
    subst h
    have hs : MeasurableSet {x : ℝ | ¬ 0 < x} := (measurableSet_Ioi (a := (0:ℝ))).compl
    rw [withDensity_apply _ hs]
    rw [setLIntegral_congr_fun (g := 0) hs]
    · simp
    · intro x hx
      have : ¬ 0 < x := hx
      simp [Spec.maxwellPdf, this]
  · exact absurd h (by simp)

/-- **C111.** An unobserved `Chi` variable gets the log transform unless the caller chose one; `Maxwell`,
whose support is also the positive half line, gets none. -/
theorem C111_transforms (observed : Bool) (given : Option Transform) :
    chiTransform observed given = (given.getD (if observed then .unset else .log)) ∧
    maxwellTransform observed given = given.getD .unset := by
  cases observed <;> simp [chiTransform, maxwellTransform]

/-- Maxwell with scale 2 is accepted. -/
example : ∃ m, maxwellDist 2 = .ok m ∧ m {x | ¬ 0 < x} = 0 :=
  ⟨_, by rw [maxwellDist, if_pos (by norm_num)], C111_maxwell_positive (a := 2)
    (by rw [maxwellDist, if_pos (by norm_num)])⟩

end Chi
