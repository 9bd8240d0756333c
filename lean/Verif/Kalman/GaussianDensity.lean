import Verif.Kalman.GaussianTools
import Mathlib.Probability.Distributions.Gaussian.Real
import Mathlib.MeasureTheory.Integral.Pi
import Mathlib.MeasureTheory.Measure.Lebesgue.Basic
import Mathlib.Analysis.Matrix.PosDef
import Mathlib.Analysis.Matrix.Order

/-!
# The density of a multivariate normal

Nothing here is about the code: `Spec.gaussLogDensity` is the logarithm of the Lebesgue density of the normal distribution with the
given mean and covariance.
-/

set_option autoImplicit false

open Matrix MeasureTheory ProbabilityTheory

namespace Verif.Kalman.Gauss

variable {k : Type*} [Fintype k]

/-- Independent standard normals have the product density. -/
theorem pi_density : Measure.pi (fun _ : k => gaussianReal 0 1) =
    (volume : Measure (k → ℝ)).withDensity fun x => ENNReal.ofReal (∏ i, gaussianPDFReal 0 1 (x i)) := by
  classical
  refine Measure.pi_eq (μ := fun _ : k => gaussianReal 0 1) fun s hs => ?_
  rw [withDensity_apply _ (MeasurableSet.univ_pi hs)]
  have h0 : ∀ x : k → ℝ, 0 ≤ ∏ i, gaussianPDFReal 0 1 (x i) := fun x =>
    Finset.prod_nonneg fun i _ => gaussianPDFReal_nonneg 0 1 (x i)
  have hint : Integrable (fun x : k → ℝ => ∏ i, gaussianPDFReal 0 1 (x i)) :=
    Integrable.fintype_prod fun i => integrable_gaussianPDFReal 0 1
  rw [← ofReal_integral_eq_lintegral_ofReal hint.integrableOn (Filter.Eventually.of_forall h0),
    ← integral_indicator (MeasurableSet.univ_pi hs)]
  have e : (Set.univ.pi s).indicator (fun x : k → ℝ => ∏ i, gaussianPDFReal 0 1 (x i)) =
      fun x => ∏ i, (s i).indicator (gaussianPDFReal 0 1) (x i) := by
    funext x
    by_cases hx : x ∈ Set.univ.pi s
    · rw [Set.indicator_of_mem hx]
      exact Finset.prod_congr rfl fun i _ => (Set.indicator_of_mem (hx i (Set.mem_univ i)) _).symm
    · rw [Set.indicator_of_notMem hx]
      obtain ⟨i, hi⟩ : ∃ i, x i ∉ s i := by simpa [Set.mem_pi] using hx
      exact (Finset.prod_eq_zero (Finset.mem_univ i) (Set.indicator_of_notMem hi _)).symm
  rw [e, integral_fintype_prod_volume_eq_prod (fun i => (s i).indicator (gaussianPDFReal 0 1)),
    ENNReal.ofReal_prod_of_nonneg (fun i _ => integral_nonneg fun x => Set.indicator_nonneg (fun _ _ => gaussianPDFReal_nonneg 0 1 _) x)]
  refine Finset.prod_congr rfl fun i _ => ?_
  rw [integral_indicator (hs i), gaussianReal_apply_eq_integral 0 one_ne_zero]

variable [DecidableEq k]

/-- The evaluation maps under independent standard normals are a Gaussian process. -/
theorem pi_process : IsGaussianProcess (fun (i : k) (x : k → ℝ) => x i) (Measure.pi (fun _ : k => gaussianReal 0 1)) where
  hasGaussianLaw I := by
    have h1 : iIndepFun (fun (i : k) (x : k → ℝ) => x i) (Measure.pi (fun _ : k => gaussianReal 0 1)) :=
      iIndepFun_pi (X := fun _ => id) fun i => aemeasurable_id
    have h2 : HasGaussianLaw (fun x : k → ℝ => fun i => x i) (Measure.pi (fun _ : k => gaussianReal 0 1)) := by
      refine iIndepFun.hasGaussianLaw (fun i => ?_) h1
      have := measurePreserving_eval (fun _ : k => gaussianReal 0 1) i
      constructor
      rw [show (fun x : k → ℝ => x i) = Function.eval i from rfl, this.map_eq]
      infer_instance
    exact h2.map (ContinuousLinearMap.pi fun i : I => ContinuousLinearMap.proj i.1)

/-- Affine images of independent standard normals are multivariate normal. -/
theorem pi_affine (m : k → ℝ) (L : Matrix k k ℝ) :
    (Measure.pi (fun _ : k => gaussianReal 0 1)).map (fun x => (WithLp.toLp 2 (m + L *ᵥ x) : EuclideanSpace ℝ k)) =
      multivariateGaussian (WithLp.toLp 2 m) (L * Lᵀ) := by
  let π := Measure.pi (fun _ : k => gaussianReal 0 1)
  have hπ : IsProbabilityMeasure π := inferInstance
  have hlaw : ∀ i, HasLaw (fun x : k → ℝ => x i) (gaussianReal 0 1) π := fun i =>
    ⟨(measurable_pi_apply i).aemeasurable, (measurePreserving_eval (fun _ : k => gaussianReal 0 1) i).map_eq⟩
  have hmem : ∀ i, MemLp (fun x : k → ℝ => x i) 2 π := fun i => (pi_process.hasGaussianLaw_eval i).memLp_two
  have hmean : ∀ i, ∫ x, x i ∂π = 0 := fun i => by
    rw [(hlaw i).integral_eq]; simp
  have hcov : ∀ i j, cov[fun x : k → ℝ => x i, fun x : k → ℝ => x j; π] = if i = j then 1 else 0 := by
    intro i j
    by_cases h : i = j
    · subst h
      rw [covariance_self (hmem i).aemeasurable, (hlaw i).variance_eq]
      simp
    · rw [if_neg h]
      have h1 : iIndepFun (fun (i : k) (x : k → ℝ) => x i) π := iIndepFun_pi (X := fun _ => id) fun i => aemeasurable_id
      exact (h1.indepFun h).covariance_eq_zero (hmem i) (hmem j)
  have haff : ∀ i, (fun x : k → ℝ => (m + L *ᵥ x) i) ∈ affine (fun (i : k) (x : k → ℝ) => x i) := by
    intro i
    have : (fun x : k → ℝ => (m + L *ᵥ x) i) = m i • (fun _ => (1 : ℝ)) + ∑ j, L i j • fun x : k → ℝ => x j := by
      funext x; simp [mulVec, dotProduct]
    rw [this]
    exact Submodule.add_mem _ (Submodule.smul_mem _ _ (one_mem _))
      (Submodule.sum_mem _ fun j _ => Submodule.smul_mem _ _ (source_mem (fun (i : k) (x : k → ℝ) => x i) j))
  let ξ : k → Orthogonal.L2 π := fun i => ⟨fun x => x i, hmem i⟩
  have hξ : Orthogonal.covM (Orthogonal.covB π) ξ ξ = 1 := by
    ext i j
    simp [Orthogonal.covM, Orthogonal.covB_apply, ξ, hcov, Matrix.one_apply]
  have hE : ∀ i, (fun x : k → ℝ => (m + L *ᵥ x) i) = ((Orthogonal.const (Orthogonal.one π) m + Orthogonal.act L ξ) i).1 := by
    intro i; funext x
    simp [Orthogonal.const, Orthogonal.one, Orthogonal.act, ξ, mulVec, dotProduct]
  have one0 : ∀ w, Orthogonal.covB π (Orthogonal.one π) w = 0 := fun w => covariance_const_left 1
  have one0' : ∀ w, Orthogonal.covB π w (Orthogonal.one π) = 0 := fun w => covariance_const_right 1
  refine law (of_affine pi_process _ haff) m (L * Lᵀ) (fun i => ?_) (fun i j => ?_)
  · rw [hE]
    show Orthogonal.mean π _ = _
    have h1 : ∀ j, Orthogonal.mean π (ξ j) = 0 := hmean
    simp only [Pi.add_apply, map_add, Orthogonal.mean_act (Orthogonal.mean π) L ξ h1, add_zero, Orthogonal.const, map_smul]
    simp [Orthogonal.mean_apply, Orthogonal.one]
  · rw [hE, hE]
    have : Orthogonal.covM (Orthogonal.covB π) (Orthogonal.const (Orthogonal.one π) m + Orthogonal.act L ξ)
        (Orthogonal.const (Orthogonal.one π) m + Orthogonal.act L ξ) = L * Lᵀ := by
      simp [Orthogonal.covM_add_left, Orthogonal.covM_add_right, Orthogonal.covM_act_left, Orthogonal.covM_act_right,
        Orthogonal.covM_const_left _ one0, Orthogonal.covM_const_right _ one0', hξ]
    exact congrFun (congrFun this i) j

open scoped MatrixOrder Matrix.Norms.L2Operator in
theorem factor {A : Matrix k k ℝ} (hA : A.PosSemidef) : ∃ L : Matrix k k ℝ, A = L * Lᵀ := by
  obtain ⟨B, hB⟩ := CStarAlgebra.nonneg_iff_eq_star_mul_self.mp hA.nonneg
  exact ⟨Bᵀ, by rw [hB, Matrix.star_eq_conjTranspose, Matrix.conjTranspose_eq_transpose_of_trivial, Matrix.transpose_transpose]⟩

/-- **Density.** A normal vector with positive definite covariance matrix `S` and mean `m` has Lebesgue density
`exp (gaussLogDensity S (y - m))`. -/
theorem density (m : k → ℝ) {S : Matrix k k ℝ} (hS : S.PosDef) :
    (multivariateGaussian (WithLp.toLp 2 m) S).map (WithLp.ofLp) =
      (volume : Measure (k → ℝ)).withDensity fun y => ENNReal.ofReal (Real.exp (Spec.gaussLogDensity S (y - m))) := by
  obtain ⟨L, hL⟩ := factor hS.posSemidef
  have hdet : L.det ≠ 0 := by
    intro h0
    have := hS.det_pos
    rw [hL, det_mul, h0, zero_mul] at this
    exact lt_irrefl _ this
  have hLu : IsUnit L.det := isUnit_iff_ne_zero.2 hdet
  have hLtu : IsUnit Lᵀ.det := by rw [det_transpose]; exact hLu
  have hSd : S.det = L.det ^ 2 := by rw [hL, det_mul, det_transpose, sq]
  have hinv : S⁻¹ = (L⁻¹)ᵀ * L⁻¹ := by rw [hL, Matrix.mul_inv_rev, transpose_nonsing_inv]
  have h1 := pi_affine m L
  rw [← hL] at h1
  rw [← h1, Measure.map_map (by fun_prop) (by
    refine (PiLp.continuous_toLp 2 _).measurable.comp ?_
    exact (by fun_prop : Continuous fun x : k → ℝ => m + L *ᵥ x).measurable)]
  have hmeas : Measurable (fun x : k → ℝ => m + L *ᵥ x) := (by fun_prop : Continuous fun x : k → ℝ => m + L *ᵥ x).measurable
  show (Measure.pi (fun _ : k => gaussianReal 0 1)).map (fun x => m + L *ᵥ x) = _
  rw [pi_density]
  have hcancel : ∀ x, L⁻¹ *ᵥ (m + L *ᵥ x - m) = x := by
    intro x
    rw [add_sub_cancel_left, mulVec_mulVec, nonsing_inv_mul _ hLu, one_mulVec]
  have hpdf : ∀ x : k → ℝ, ∏ i, gaussianPDFReal 0 1 (x i) =
      |L.det| * Real.exp (Spec.gaussLogDensity S (m + L *ᵥ x - m)) := by
    intro x
    have hq : (m + L *ᵥ x - m) ⬝ᵥ (S⁻¹ *ᵥ (m + L *ᵥ x - m)) = ∑ i, x i ^ 2 := by
      rw [hinv, ← mulVec_mulVec, dotProduct_mulVec, vecMul_transpose, hcancel]
      simp [dotProduct, sq]
    have hlog : Real.log S.det = 2 * Real.log |L.det| := by rw [hSd, ← sq_abs, Real.log_pow]; simp
    have hp : ∀ i, gaussianPDFReal 0 1 (x i) = Real.exp (-(1 / 2) * Real.log (2 * Real.pi) - x i ^ 2 / 2) := by
      intro i
      rw [gaussianPDFReal, Real.exp_sub]
      have hpi : (0 : ℝ) < 2 * Real.pi := by positivity
      rw [show -(1 / 2) * Real.log (2 * Real.pi) = Real.log (2 * Real.pi) * (-(1 / 2)) by ring,
        ← Real.rpow_def_of_pos hpi, Real.rpow_neg hpi.le, ← Real.sqrt_eq_rpow]
      simp only [NNReal.coe_one, mul_one, sub_zero, neg_div, Real.exp_neg]
      exact (div_eq_mul_inv _ _).symm
    have hpos : 0 < |L.det| := abs_pos.2 hdet
    rw [Finset.prod_congr rfl fun i _ => hp i, ← Real.exp_sum]
    conv_rhs => rw [← Real.exp_log hpos, ← Real.exp_add]
    rw [Spec.gaussLogDensity, hq, hlog, Finset.sum_sub_distrib, ← Finset.sum_div]
    congr 1
    simp
    ring
  ext s hs
  rw [Measure.map_apply hmeas hs, withDensity_apply _ (hmeas hs), withDensity_apply _ hs]
  -- substitution
  have hvol : (volume : Measure (k → ℝ)).map (fun x => m + L *ᵥ x) = ENNReal.ofReal |L.det⁻¹| • volume := by
    have e : (fun x : k → ℝ => m + L *ᵥ x) = (fun x => m + x) ∘ (toLin' L) := by funext x; simp
    rw [e, ← Measure.map_map (by fun_prop) (LinearMap.continuous_of_finiteDimensional _).measurable,
      Real.map_matrix_volume_pi_eq_smul_volume_pi hdet, Measure.map_smul, map_add_left_eq_self]
  have hdm : Measurable fun y : k → ℝ => ENNReal.ofReal (|L.det| * Real.exp (Spec.gaussLogDensity S (y - m))) := by
    have : Continuous fun y : k → ℝ => Spec.gaussLogDensity S (y - m) := by
      unfold Spec.gaussLogDensity; fun_prop
    exact ENNReal.measurable_ofReal.comp (measurable_const.mul (Real.measurable_exp.comp this.measurable))
  have hsub := setLIntegral_map (μ := (volume : Measure (k → ℝ))) hs hdm hmeas
  rw [hvol, Measure.restrict_smul, lintegral_smul_measure] at hsub
  simp only [hpdf]
  rw [← hsub]
  have e2 : ∀ y, ENNReal.ofReal (|L.det| * Real.exp (Spec.gaussLogDensity S (y - m))) =
      ENNReal.ofReal |L.det| * ENNReal.ofReal (Real.exp (Spec.gaussLogDensity S (y - m))) := fun y =>
    ENNReal.ofReal_mul (abs_nonneg _)
  simp only [e2]
  rw [lintegral_const_mul' _ _ ENNReal.ofReal_ne_top, smul_eq_mul, ← mul_assoc, ← ENNReal.ofReal_mul (abs_nonneg _), ← abs_mul,
    inv_mul_cancel₀ hdet]
  simp

end Verif.Kalman.Gauss
