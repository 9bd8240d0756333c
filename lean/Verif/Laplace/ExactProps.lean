import Verif.Laplace.Exact
import Verif.Laplace.CovProps
import Verif.Kalman.GaussianDensity
import Mathlib.MeasureTheory.Function.Jacobian
import Mathlib.Analysis.Calculus.FDeriv.Pi
import Mathlib.Analysis.SpecialFunctions.ExpDeriv
import Mathlib.LinearAlgebra.Determinant
import Mathlib.Probability.Distributions.Gaussian.HasGaussianLaw.Basic

/-!
# C212: when the Laplace approximation is exact

Property theorems.
-/

set_option autoImplicit false

open Matrix MeasureTheory ProbabilityTheory
open scoped ENNReal

namespace Verif.Laplace

variable {n : ℕ}

namespace Spec

/-- The values the parameters can take: positive where the transform is the logarithm. -/
def support (tr : Fin n → Tr) : Set (Fin n → ℝ) := {σ | ∀ i, tr i = .log → 0 < σ i}

/-- `π` is the distribution whose Lebesgue density on the support is proportional to `exp lp`. -/
def Posterior (lp : (Fin n → ℝ) → ℝ) (tr : Fin n → Tr) (π : Measure (Fin n → ℝ)) : Prop :=
  IsProbabilityMeasure π ∧ ∃ z : ℝ≥0∞, z ≠ 0 ∧ z ≠ ⊤ ∧
    (volume.restrict (support tr)).withDensity (fun σ => ENNReal.ofReal (Real.exp (lp σ))) = z • π

/-- The point found by the optimiser: no other point has a smaller loss. -/
def Minimises (f : (Fin n → ℝ) → ℝ) (x : Fin n → ℝ) : Prop := ∀ y, f x ≤ f y

/-- `c - ½ (x - m)ᵀ Λ (x - m)`. -/
noncomputable def quad (c : ℝ) (m : Fin n → ℝ) (Λ : Matrix (Fin n) (Fin n) ℝ) (x : Fin n → ℝ) : ℝ :=
  c - 1 / 2 * ((x - m) ⬝ᵥ (Λ *ᵥ (x - m)))

/-- One for a parameter on the log scale, zero otherwise. -/
def logs (tr : Fin n → Tr) : Fin n → ℝ := fun i => if tr i = .log then 1 else 0

end Spec

/-! ### Quadratic functions -/

/-- Expansion of the quadratic form. -/
theorem quad_add {Λ : Matrix (Fin n) (Fin n) ℝ} (hs : Λᵀ = Λ) (c : ℝ) (m x h : Fin n → ℝ) :
    Spec.quad c m Λ (x + h) = Spec.quad c m Λ x - h ⬝ᵥ (Λ *ᵥ (x - m)) - 1 / 2 * (h ⬝ᵥ (Λ *ᵥ h)) := by
  have e : x + h - m = (x - m) + h := by abel
  have hc : (x - m) ⬝ᵥ (Λ *ᵥ h) = h ⬝ᵥ (Λ *ᵥ (x - m)) := by
    rw [dotProduct_mulVec, ← mulVec_transpose, hs, dotProduct_comm]
  unfold Spec.quad
  rw [e, mulVec_add, dotProduct_add, add_dotProduct, add_dotProduct, hc]
  ring

/-- The Hessian of a quadratic loss is its matrix, everywhere. -/
theorem hessian_quad {Λ : Matrix (Fin n) (Fin n) ℝ} (hs : Λᵀ = Λ) (c : ℝ) (m x : Fin n → ℝ) :
    hessian (fun y => -Spec.quad c m Λ y) x = Λ := by
  ext i j
  have hji : Λ j i = Λ i j := congrFun (congrFun hs i) j
  have e : ∀ s t : ℝ, -Spec.quad c m Λ (x + s • Pi.single i 1 + t • Pi.single j 1) =
      -Spec.quad c m Λ x + s * (Λ *ᵥ (x - m)) i + 1 / 2 * (s * s * Λ i i) + t * ((Λ *ᵥ (x - m)) j + s * Λ i j) +
        1 / 2 * (t * t * Λ j j) := by
    intro s t
    rw [quad_add hs, quad_add hs]
    have e2 : (Λ *ᵥ (x + s • Pi.single i 1 - m)) j = (Λ *ᵥ (x - m)) j + s * Λ i j := by
      have : x + s • Pi.single i (1 : ℝ) - m = (x - m) + s • Pi.single i (1 : ℝ) := by abel
      rw [this, mulVec_add, mulVec_smul, Pi.add_apply, Pi.smul_apply, mulVec_single_one, smul_eq_mul]
      show _ + s * Λ j i = _
      rw [hji]
    simp only [smul_dotProduct, single_one_dotProduct, mulVec_smul, dotProduct_smul, mulVec_single_one, smul_eq_mul, e2, col_apply]
    ring
  show deriv (fun s : ℝ => deriv (fun t : ℝ => -Spec.quad c m Λ (x + s • Pi.single i 1 + t • Pi.single j 1)) 0) 0 = Λ i j
  have h1 : ∀ s : ℝ, deriv (fun t : ℝ => -Spec.quad c m Λ (x + s • Pi.single i 1 + t • Pi.single j 1)) 0 =
      (Λ *ᵥ (x - m)) j + s * Λ i j := by
    intro s
    simp only [e]
    have h2 : HasDerivAt (fun t : ℝ => -Spec.quad c m Λ x + s * (Λ *ᵥ (x - m)) i + 1 / 2 * (s * s * Λ i i) +
        t * ((Λ *ᵥ (x - m)) j + s * Λ i j) + 1 / 2 * (t * t * Λ j j))
        (1 * ((Λ *ᵥ (x - m)) j + s * Λ i j) + 1 / 2 * ((1 * 0 + 0 * 1) * Λ j j)) 0 :=
      (((hasDerivAt_id (0 : ℝ)).mul_const _).const_add _).add
        ((((hasDerivAt_id (0 : ℝ)).mul (hasDerivAt_id (0 : ℝ))).mul_const (Λ j j)).const_mul (1 / 2))
    rw [h2.deriv]; ring
  simp only [h1]
  have h3 : HasDerivAt (fun s : ℝ => (Λ *ᵥ (x - m)) j + s * Λ i j) (1 * Λ i j) 0 :=
    ((hasDerivAt_id (0 : ℝ)).mul_const _).const_add _
  rw [h3.deriv, one_mul]

/-- Adding a linear term moves the minimum of a positive definite quadratic loss by `-Λ⁻¹ b`, and it is the only minimum. -/
theorem minimises_iff {Λ : Matrix (Fin n) (Fin n) ℝ} (hpd : Λ.PosDef) (c : ℝ) (m b x : Fin n → ℝ) :
    Spec.Minimises (fun y => -(Spec.quad c m Λ y - b ⬝ᵥ y)) x ↔ x = m - Λ⁻¹ *ᵥ b := by
  have hs : Λᵀ = Λ := by simpa using hpd.isHermitian.eq
  have hu : IsUnit Λ.det := (isUnit_iff_isUnit_det _).1 hpd.isUnit
  set m' := m - Λ⁻¹ *ᵥ b with hm'
  have key : ∀ h, -(Spec.quad c m Λ (m' + h) - b ⬝ᵥ (m' + h)) =
      -(Spec.quad c m Λ m' - b ⬝ᵥ m') + 1 / 2 * (h ⬝ᵥ (Λ *ᵥ h)) := by
    intro h
    have e : Λ *ᵥ (m' - m) = -b := by
      rw [hm', sub_sub_cancel_left, mulVec_neg, mulVec_mulVec, mul_nonsing_inv _ hu, one_mulVec]
    rw [quad_add hs, e, dotProduct_add, dotProduct_neg, dotProduct_comm h b]
    ring
  constructor
  · intro h
    by_contra hne
    have h1 := h m'
    have h2 := key (x - m')
    rw [add_sub_cancel] at h2
    have h3 := hpd.dotProduct_mulVec_pos (x := x - m') (sub_ne_zero.2 hne)
    simp only [star_trivial] at h3
    simp only [h2] at h1
    linarith
  · rintro rfl y
    have h2 := key (y - m')
    rw [add_sub_cancel] at h2
    have h3 := hpd.posSemidef.dotProduct_mulVec_nonneg (y - m')
    simp only [star_trivial] at h3
    show _ ≤ -(Spec.quad c m Λ y - b ⬝ᵥ y)
    rw [h2]
    linarith

/-! ### The posterior distribution -/

/-- The Lebesgue density `exp` of a quadratic function is a multiple of a normal density. -/
theorem withDensity_quad {Λ : Matrix (Fin n) (Fin n) ℝ} (hpd : Λ.PosDef) (c : ℝ) (m : Fin n → ℝ) :
    ∃ z : ℝ≥0∞, z ≠ 0 ∧ z ≠ ⊤ ∧ (volume : Measure (Fin n → ℝ)).withDensity (fun x => ENNReal.ofReal (Real.exp (Spec.quad c m Λ x))) =
      z • (multivariateGaussian (WithLp.toLp 2 m) Λ⁻¹).map WithLp.ofLp := by
  have hu : IsUnit Λ.det := (isUnit_iff_isUnit_det _).1 hpd.isUnit
  set K : ℝ := c + 1 / 2 * ((n : ℝ) * Real.log (2 * Real.pi) + Real.log Λ⁻¹.det) with hK
  refine ⟨ENNReal.ofReal (Real.exp K), by simp [Real.exp_pos], ENNReal.ofReal_ne_top, ?_⟩
  rw [Kalman.Gauss.density m hpd.inv, ← withDensity_smul_measure, withDensity_smul_measure, ← withDensity_smul' _ _ ENNReal.ofReal_ne_top]
  congr 1
  funext x
  simp only [Pi.smul_apply, smul_eq_mul]
  rw [← ENNReal.ofReal_mul (Real.exp_pos _).le, ← Real.exp_add]
  congr 2
  unfold Spec.quad Kalman.Spec.gaussLogDensity
  rw [nonsing_inv_nonsing_inv _ hu, Fintype.card_fin, hK]
  ring

theorem bwd_injective (t : Tr) : Function.Injective t.bwd := by
  cases t with
  | ident => exact fun a b h => h
  | log => exact Real.exp_injective

theorem backward_injective (tr : Fin n → Tr) : Function.Injective (backward tr) := fun _ _ h =>
  funext fun i => bwd_injective (tr i) (congrFun h i)

theorem bwd_continuous (t : Tr) : Continuous t.bwd := by
  cases t with
  | ident => exact continuous_id
  | log => exact Real.continuous_exp

theorem backward_measurable (tr : Fin n → Tr) : Measurable (backward tr) :=
  measurable_pi_lambda _ fun i => (bwd_continuous (tr i)).measurable.comp (measurable_pi_apply i)

theorem bwd_hasDeriv (t : Tr) (x : ℝ) : HasDerivAt t.bwd (Real.exp (t.logJac x)) x := by
  cases t with
  | ident =>
    show HasDerivAt (fun y : ℝ => y) (Real.exp 0) x
    rw [Real.exp_zero]
    exact hasDerivAt_id x
  | log => exact Real.hasDerivAt_exp x

theorem backward_range (tr : Fin n → Tr) : backward tr '' Set.univ = Spec.support tr := by
  ext σ
  simp only [Set.image_univ, Set.mem_range, Spec.support, Set.mem_ofPred_eq]
  constructor
  · rintro ⟨x, rfl⟩ i hi
    simp only [backward, hi, Tr.bwd]
    exact Real.exp_pos _
  · intro h
    refine ⟨fun i => match tr i with | .ident => σ i | .log => Real.log (σ i), funext fun i => ?_⟩
    unfold backward
    cases hi : tr i with
    | ident => simp [hi, Tr.bwd]
    | log => simp [hi, Tr.bwd, Real.exp_log (h i hi)]

/-- The derivative of the transformation back. -/
theorem backward_hasFDeriv (tr : Fin n → Tr) (x : Fin n → ℝ) :
    HasFDerivAt (backward tr)
      (LinearMap.toContinuousLinearMap (Matrix.toLin' (diagonal fun i => Real.exp ((tr i).logJac (x i))))) x := by
  rw [hasFDerivAt_pi']
  intro i
  have h1 : HasFDerivAt (fun y : Fin n → ℝ => (tr i).bwd (y i))
      ((ContinuousLinearMap.toSpanSingleton ℝ (Real.exp ((tr i).logJac (x i)))).comp (ContinuousLinearMap.proj i)) x :=
    HasFDerivAt.comp (g := (tr i).bwd) (f := fun y : Fin n → ℝ => y i) x (bwd_hasDeriv (tr i) (x i)).hasFDerivAt
      (hasFDerivAt_apply i x)
  refine h1.congr_fderiv ?_
  ext y
  simp [mulVec_diagonal, mul_comm]

/-- **C212 (change of variables).** With `jacobian=True` the model's log-density in the unconstrained space describes the same
distribution as the log-posterior does in the constrained space. -/
theorem C212_change_of_variables (lp : (Fin n → ℝ) → ℝ) (tr : Fin n → Tr) :
    ((volume : Measure (Fin n → ℝ)).withDensity fun x => ENNReal.ofReal (Real.exp (modelLogp lp tr true x))).map (backward tr) =
      (volume.restrict (Spec.support tr)).withDensity fun σ => ENNReal.ofReal (Real.exp (lp σ)) := by
  have hmlj : ∀ i, Measurable fun x : Fin n → ℝ => (tr i).logJac (x i) := by
    intro i
    cases hi : tr i with
    | ident => exact measurable_const
    | log => exact measurable_pi_apply i
  ext s hs
  rw [Measure.map_apply (backward_measurable tr) hs, withDensity_apply _ (backward_measurable tr hs), withDensity_apply _ hs,
    ← lintegral_indicator (backward_measurable tr hs), ← lintegral_indicator hs, ← backward_range tr,
    lintegral_image_eq_lintegral_abs_det_fderiv_mul volume MeasurableSet.univ
      (fun x _ => (backward_hasFDeriv tr x).hasFDerivWithinAt) (backward_injective tr).injOn, setLIntegral_univ]
  refine lintegral_congr fun x => ?_
  have hdet : (LinearMap.toContinuousLinearMap
      (Matrix.toLin' (diagonal fun i => Real.exp ((tr i).logJac (x i))))).det = Real.exp (∑ i, (tr i).logJac (x i)) := by
    rw [LinearMap.det_toContinuousLinearMap, LinearMap.det_toLin', det_diagonal, ← Real.exp_sum]
  rw [hdet, abs_of_pos (Real.exp_pos _)]
  by_cases hx : backward tr x ∈ s
  · rw [Set.indicator_of_mem (show x ∈ backward tr ⁻¹' s from hx), Set.indicator_of_mem hx,
      ← ENNReal.ofReal_mul (Real.exp_pos _).le, ← Real.exp_add]
    simp only [modelLogp, if_true]
    rw [add_comm]
  · rw [Set.indicator_of_notMem (show x ∉ backward tr ⁻¹' s from hx), Set.indicator_of_notMem hx, mul_zero]

/-- The posterior, when the log-density in the unconstrained space is quadratic. -/
theorem posterior_quad {Λ : Matrix (Fin n) (Fin n) ℝ} (hpd : Λ.PosDef) (c : ℝ) (m : Fin n → ℝ) (lp : (Fin n → ℝ) → ℝ)
    (tr : Fin n → Tr) (h : ∀ x, modelLogp lp tr true x = Spec.quad c m Λ x) :
    Spec.Posterior lp tr (((multivariateGaussian (WithLp.toLp 2 m) Λ⁻¹).map WithLp.ofLp).map (backward tr)) := by
  obtain ⟨z, h0, ht, hz⟩ := withDensity_quad hpd c m
  have hof : Measurable (WithLp.ofLp : EuclideanSpace ℝ (Fin n) → (Fin n → ℝ)) := by fun_prop
  have : IsProbabilityMeasure ((multivariateGaussian (WithLp.toLp 2 m) Λ⁻¹).map WithLp.ofLp) :=
    Measure.isProbabilityMeasure_map hof.aemeasurable
  refine ⟨Measure.isProbabilityMeasure_map (backward_measurable tr).aemeasurable, z, h0, ht, ?_⟩
  rw [← C212_change_of_variables, ← Measure.map_smul, ← hz]
  simp only [h]

theorem backward_ident : backward (fun _ : Fin n => Tr.ident) = id := rfl

theorem modelLogp_ident (lp : (Fin n → ℝ) → ℝ) (j : Bool) : modelLogp lp (fun _ => Tr.ident) j = lp := by
  funext x
  unfold modelLogp
  rw [backward_ident]
  cases j <;> simp [Tr.logJac]

/-- **C212 (normal posterior).** If the log-posterior is a positive definite quadratic function of the parameters (none on the log
scale), `find_MAP` has exactly one solution, and from it the mean and covariance of the fit are those of the posterior and the
draws are draws from the posterior (`diag_jitter=None`); a jitter `j` adds `j` to every variance and nothing else. Both settings of
`fit_in_unconstrained_space` give the same. -/
theorem C212_gaussian_exact (pinv : Matrix (Fin n) (Fin n) ℝ → Matrix (Fin n) (Fin n) ℝ)
    (eig : Matrix (Fin n) (Fin n) ℝ → (Fin n → ℝ) × Matrix (Fin n) (Fin n) ℝ) (onBad : String) (tol j : ℝ) (hj : 0 ≤ j)
    (hp : ∀ M, Spec.IsPinv M (pinv M)) {Λ : Matrix (Fin n) (Fin n) ℝ} (hpd : Λ.PosDef) (ht : Spec.NoTiny tol Λ) (c : ℝ)
    (m : Fin n → ℝ) (ts : Bool) :
    (∀ x, Spec.Minimises (mapLoss (Spec.quad c m Λ) fun _ => .ident) x ↔ x = m) ∧
    fitMvn pinv eig onBad tol none (Spec.quad c m Λ) (fun _ => .ident) ts m = .ok (m, ⟨Λ⁻¹, false⟩) ∧
    fitMvn pinv eig onBad tol (some j) (Spec.quad c m Λ) (fun _ => .ident) ts m =
      .ok (m, ⟨Λ⁻¹ + j • (1 : Matrix (Fin n) (Fin n) ℝ), false⟩) ∧
    Spec.Posterior (Spec.quad c m Λ) (fun _ => .ident) (drawLaw (fun _ => .ident) ts m Λ⁻¹) := by
  have hs : Λᵀ = Λ := by simpa using hpd.isHermitian.eq
  have hmean : fitMean (fun _ : Fin n => Tr.ident) ts m = m := by cases ts <;> rfl
  have hloss : fitLoss (Spec.quad c m Λ) (fun _ => .ident) ts = fun y => -Spec.quad c m Λ y := by
    funext x
    unfold fitLoss
    rw [modelLogp_ident, modelLogp_ident, ite_self]
  have hc := C66_inverse_hessian pinv eig onBad tol j hj Λ hpd ht hp
  refine ⟨fun x => ?_, ?_, ?_, ?_⟩
  · have h := minimises_iff hpd c m 0 x
    have e : mapLoss (Spec.quad c m Λ) (fun _ => .ident) = fun y => -(Spec.quad c m Λ y - (0 : Fin n → ℝ) ⬝ᵥ y) := by
      funext y
      rw [mapLoss, modelLogp_ident, zero_dotProduct, sub_zero]
    rw [e, h, mulVec_zero, sub_zero]
  · simp only [fitMvn, hmean, hloss, hessian_quad hs, hc.1]; rfl
  · simp only [fitMvn, hmean, hloss, hessian_quad hs, hc.2]; rfl
  · have h := posterior_quad hpd c m (Spec.quad c m Λ) (fun _ => .ident) fun x => by rw [modelLogp_ident]
    have e : drawLaw (fun _ => .ident) ts m Λ⁻¹ =
        ((multivariateGaussian (WithLp.toLp 2 m) Λ⁻¹).map WithLp.ofLp).map (backward fun _ : Fin n => Tr.ident) := by
      unfold drawLaw
      rw [backward_ident, Measure.map_id]
      simp
    rw [e]
    exact h

/-- The sum of the log-Jacobians is the sum of the parameters on the log scale. -/
theorem sum_logJac (tr : Fin n → Tr) (x : Fin n → ℝ) : ∑ i, (tr i).logJac (x i) = Spec.logs tr ⬝ᵥ x := by
  refine Finset.sum_congr rfl fun i _ => ?_
  unfold Spec.logs
  cases hi : tr i <;> simp [Tr.logJac]

theorem logs_eq_zero (tr : Fin n → Tr) : Spec.logs tr = 0 ↔ ∀ i, tr i = .ident := by
  constructor
  · intro h i
    have := congrFun h i
    unfold Spec.logs at this
    cases hi : tr i with
    | ident => rfl
    | log => simp [hi] at this
  · intro h
    funext i
    simp [Spec.logs, h i]

/-- **C212 (log scale).** Suppose the posterior is exactly normal, `N(m, Λ⁻¹)`, in the unconstrained space. `fit_laplace` with
`fit_in_unconstrained_space=True` has the covariance right, but since the point is found without the Jacobian it centres the
normal distribution at `m - Λ⁻¹ 1_J`, where `1_J` marks the parameters on the log scale; the draws have the posterior distribution
only if there is no such parameter. -/
theorem C212_log_scale_biased (pinv : Matrix (Fin n) (Fin n) ℝ → Matrix (Fin n) (Fin n) ℝ)
    (eig : Matrix (Fin n) (Fin n) ℝ → (Fin n → ℝ) × Matrix (Fin n) (Fin n) ℝ) (onBad : String) (tol : ℝ)
    (hp : ∀ M, Spec.IsPinv M (pinv M)) {Λ : Matrix (Fin n) (Fin n) ℝ} (hpd : Λ.PosDef) (ht : Spec.NoTiny tol Λ) (c : ℝ)
    (m : Fin n → ℝ) (lp : (Fin n → ℝ) → ℝ) (tr : Fin n → Tr) (h : ∀ x, modelLogp lp tr true x = Spec.quad c m Λ x) :
    Spec.Posterior lp tr (drawLaw tr true m Λ⁻¹) ∧
    (∀ x, Spec.Minimises (mapLoss lp tr) x ↔ x = m - Λ⁻¹ *ᵥ Spec.logs tr) ∧
    fitMvn pinv eig onBad tol none lp tr true (m - Λ⁻¹ *ᵥ Spec.logs tr) = .ok (m - Λ⁻¹ *ᵥ Spec.logs tr, ⟨Λ⁻¹, false⟩) ∧
    (drawLaw tr true (m - Λ⁻¹ *ᵥ Spec.logs tr) Λ⁻¹ = drawLaw tr true m Λ⁻¹ ↔ ∀ i, tr i = .ident) := by
  have hs : Λᵀ = Λ := by simpa using hpd.isHermitian.eq
  have hu : IsUnit Λ.det := (isUnit_iff_isUnit_det _).1 hpd.isUnit
  refine ⟨posterior_quad hpd c m lp tr h, fun x => ?_, ?_, ?_⟩
  · rw [← minimises_iff hpd c m]
    have e : mapLoss lp tr = fun y => -(Spec.quad c m Λ y - Spec.logs tr ⬝ᵥ y) := by
      funext y
      rw [mapLoss, ← h y, ← sum_logJac]
      simp [modelLogp]
    rw [e]
  · have hloss : fitLoss lp tr true = fun y => -Spec.quad c m Λ y := by
      funext x
      simp only [fitLoss, if_true, h]
    simp only [fitMvn, hloss, hessian_quad hs, (C66_inverse_hessian pinv eig onBad tol 0 le_rfl Λ hpd ht hp).1]
    rfl
  · rw [← logs_eq_zero]
    constructor
    · intro he
      have hof : Measurable (WithLp.ofLp : EuclideanSpace ℝ (Fin n) → (Fin n → ℝ)) := by fun_prop
      have hme : MeasurableEmbedding (backward tr) :=
        (backward_measurable tr).measurableEmbedding (backward_injective tr)
      simp only [drawLaw, if_true] at he
      have h1 := hme.map_injective he
      have h2 := (MeasurableEquiv.toLp 2 (Fin n → ℝ)).symm.map_measurableEquiv_injective h1
      have h3 : ∀ a : Fin n → ℝ, ∫ x, x ∂(multivariateGaussian (WithLp.toLp 2 a) Λ⁻¹) = WithLp.toLp 2 a := fun a =>
        integral_id_multivariateGaussian
      have h4 : WithLp.toLp 2 (m - Λ⁻¹ *ᵥ Spec.logs tr) = WithLp.toLp 2 m := by rw [← h3, ← h3 m, h2]
      have h5 : Λ⁻¹ *ᵥ Spec.logs tr = 0 := by
        have := congrArg WithLp.ofLp h4
        simpa using this
      have h6 := congrArg (fun v => Λ *ᵥ v) h5
      simpa [mulVec_mulVec, mul_nonsing_inv _ hu] using h6
    · intro h0
      rw [h0, mulVec_zero, sub_zero]

/-! ### One positive parameter with a log-normal posterior -/

/-- The log-density (up to a constant) of a log-normal distribution: the logarithm has mean `m` and variance `v`. -/
noncomputable def Spec.logNormal (m v : ℝ) (σ : Fin 1 → ℝ) : ℝ := -Real.log (σ 0) - (Real.log (σ 0) - m) ^ 2 / (2 * v)

theorem logNormal_modelLogp (m v : ℝ) (x : Fin 1 → ℝ) :
    modelLogp (Spec.logNormal m v) (fun _ => .log) true x = Spec.quad 0 (fun _ => m) (diagonal fun _ => 1 / v) x := by
  simp [modelLogp, Spec.logNormal, backward, Tr.bwd, Tr.logJac, Spec.quad, dotProduct, mulVec]
  ring

theorem posDef_one {a : ℝ} (ha : 0 < a) : (diagonal fun _ => a : Matrix (Fin 1) (Fin 1) ℝ).PosDef :=
  Matrix.PosDef.diagonal fun _ => ha

theorem inv_one {a : ℝ} (ha : a ≠ 0) : (diagonal fun _ => a : Matrix (Fin 1) (Fin 1) ℝ)⁻¹ = diagonal fun _ => a⁻¹ := by
  refine inv_eq_left_inv ?_
  ext i j
  rw [Subsingleton.elim j i]
  simp [ha]

/-- The curvature of the negative log-density of a log-normal distribution at its mode. -/
theorem hessian_logNormal (m : ℝ) {v : ℝ} (hv : 0 < v) :
    hessian (fun σ => -Spec.logNormal m v σ) (fun _ => Real.exp (m - v)) = diagonal fun _ => 1 / (v * Real.exp (m - v) ^ 2) := by
  set a := Real.exp (m - v) with ha
  have ha0 : 0 < a := Real.exp_pos _
  have hla : Real.log a = m - v := by rw [ha, Real.log_exp]
  ext i j
  have hd : (diagonal fun _ => 1 / (v * a ^ 2) : Matrix (Fin 1) (Fin 1) ℝ) i j = 1 / (v * a ^ 2) := by
    rw [Subsingleton.elim j i, diagonal_apply_eq]
  rw [hd]
  show deriv (fun s : ℝ => deriv (fun t : ℝ => -Spec.logNormal m v ((fun _ => a) + s • Pi.single i 1 + t • Pi.single j 1)) 0) 0 = _
  have e : ∀ s t : ℝ, -Spec.logNormal m v ((fun _ => a) + s • Pi.single i 1 + t • Pi.single j 1) =
      Real.log (a + s + t) + (Real.log (a + s + t) - m) ^ 2 / (2 * v) := by
    intro s t
    have hi : i = 0 := Subsingleton.elim _ _
    have hj : j = 0 := Subsingleton.elim _ _
    subst hi hj
    simp [Spec.logNormal]
    ring
  have hin : ∀ s : ℝ, a + s ≠ 0 → deriv (fun t : ℝ => -Spec.logNormal m v ((fun _ => a) + s • Pi.single i 1 + t • Pi.single j 1)) 0 =
      (a + s)⁻¹ * (1 + (Real.log (a + s) - m) / v) := by
    intro s hs
    simp only [e]
    have h0 : HasDerivAt (fun t : ℝ => a + s + t) 1 0 := (hasDerivAt_id (0 : ℝ)).const_add _
    have h1 : HasDerivAt (fun t : ℝ => Real.log (a + s + t)) (1 / (a + s + 0)) 0 := h0.log (by simpa using hs)
    have h2 := h1.add (((h1.sub_const m).pow 2).div_const (2 * v))
    have h3 := h2.deriv
    refine Eq.trans ?_ (h3.trans ?_)
    · rfl
    · simp only [add_zero]
      field_simp
      simp
      ring
  have hev : (fun s : ℝ => deriv (fun t : ℝ => -Spec.logNormal m v ((fun _ => a) + s • Pi.single i 1 + t • Pi.single j 1)) 0) =ᶠ[nhds 0]
      fun s => (a + s)⁻¹ * (1 + (Real.log (a + s) - m) / v) := by
    have : ∀ᶠ s : ℝ in nhds 0, a + s ≠ 0 := by
      have hc : ContinuousAt (fun s : ℝ => a + s) 0 := by fun_prop
      exact hc.eventually_ne (by simpa using ha0.ne')
    exact this.mono fun s hs => hin s hs
  rw [hev.deriv_eq]
  have h0 : HasDerivAt (fun t : ℝ => a + t) 1 0 := (hasDerivAt_id (0 : ℝ)).const_add _
  have hne : a + 0 ≠ 0 := by simpa using ha0.ne'
  have h1 : HasDerivAt (fun t : ℝ => Real.log (a + t)) (1 / (a + 0)) 0 := h0.log hne
  have h2 := (h0.inv hne).mul (((h1.sub_const m).div_const v).const_add 1)
  have h3 := h2.deriv
  refine Eq.trans (by rfl) (h3.trans ?_)
  simp only [add_zero, hla, Pi.inv_apply]
  field_simp
  ring

/-- **C212 (log-normal posterior).** One positive parameter with a log-normal posterior, `log σ ~ N(m, v)`: `find_MAP` finds
`log σ = m - v`. Fitted in the unconstrained space, every draw is too small by the factor `exp (-v)`: its logarithm is `N(m - v, v)`.
Fitted in the constrained space the mean is `exp (m - v)` and the variance `v exp (2 (m - v))`, and some of the draws are negative,
which no draw from the posterior is. -/
theorem C212_lognormal (pinv : Matrix (Fin 1) (Fin 1) ℝ → Matrix (Fin 1) (Fin 1) ℝ)
    (eig : Matrix (Fin 1) (Fin 1) ℝ → (Fin 1 → ℝ) × Matrix (Fin 1) (Fin 1) ℝ) (onBad : String) (tol : ℝ)
    (hp : ∀ M, Spec.IsPinv M (pinv M)) (m : ℝ) {v : ℝ} (hv : 0 < v) (ht : tol ≤ 1 / v)
    (ht' : tol ≤ 1 / (v * Real.exp (m - v) ^ 2)) :
    (∀ x, Spec.Minimises (mapLoss (Spec.logNormal m v) fun _ => .log) x ↔ x = fun _ => m - v) ∧
    Spec.Posterior (Spec.logNormal m v) (fun _ => .log) (drawLaw (fun _ => .log) true (fun _ => m) (diagonal fun _ => v)) ∧
    fitMvn pinv eig onBad tol none (Spec.logNormal m v) (fun _ => .log) true (fun _ => m - v) = .ok (fun _ => m - v, ⟨(diagonal fun _ => v), false⟩) ∧
    fitMvn pinv eig onBad tol none (Spec.logNormal m v) (fun _ => .log) false (fun _ => m - v) =
      .ok (fun _ => Real.exp (m - v), ⟨diagonal fun _ => v * Real.exp (m - v) ^ 2, false⟩) ∧
    drawLaw (fun _ : Fin 1 => .log) false (fun _ => Real.exp (m - v)) (diagonal fun _ => v * Real.exp (m - v) ^ 2) {σ | σ 0 < 0} ≠ 0 ∧
    ∀ π, Spec.Posterior (Spec.logNormal m v) (fun _ : Fin 1 => .log) π → π {σ | σ 0 < 0} = 0 := by
  have hpd := posDef_one (one_div_pos.2 hv)
  have hinv : (diagonal fun _ => 1 / v : Matrix (Fin 1) (Fin 1) ℝ)⁻¹ = diagonal fun _ => v := by
    rw [inv_one (one_div_pos.2 hv).ne']; simp
  have ha0 : 0 < Real.exp (m - v) := Real.exp_pos _
  have hq : 0 < v * Real.exp (m - v) ^ 2 := by positivity
  have hNT : ∀ {a : ℝ}, 0 < a → tol ≤ a → Spec.NoTiny tol (diagonal fun _ => a : Matrix (Fin 1) (Fin 1) ℝ) := fun h0 hle i j =>
    Or.inr (by rw [Subsingleton.elim j i, diagonal_apply_eq, abs_of_pos h0]; exact hle)
  have hlog := C212_log_scale_biased pinv eig onBad tol hp hpd (hNT (one_div_pos.2 hv) ht) 0 (fun _ => m) (Spec.logNormal m v)
    (fun _ => .log) (logNormal_modelLogp m v)
  have hm : (fun _ => m : Fin 1 → ℝ) - (diagonal fun _ => v : Matrix (Fin 1) (Fin 1) ℝ) *ᵥ Spec.logs (fun _ => .log) = fun _ => m - v := by
    funext i
    simp [Spec.logs]
  rw [hinv, hm] at hlog
  refine ⟨hlog.2.1, hlog.1, hlog.2.2.1, ?_, ?_, ?_⟩
  · have hloss : fitLoss (Spec.logNormal m v) (fun _ => .log) false = fun σ => -Spec.logNormal m v σ := by
      funext x
      unfold fitLoss
      rw [modelLogp_ident]
      rfl
    have hmean : fitMean (fun _ : Fin 1 => Tr.log) false (fun _ => m - v) = fun _ => Real.exp (m - v) := rfl
    have hq' : 0 < 1 / (v * Real.exp (m - v) ^ 2) := one_div_pos.2 hq
    have hinv' : (diagonal fun _ => 1 / (v * Real.exp (m - v) ^ 2) : Matrix (Fin 1) (Fin 1) ℝ)⁻¹ = diagonal fun _ => v * Real.exp (m - v) ^ 2 := by
      rw [inv_one hq'.ne']; simp
    have hc := (C66_inverse_hessian pinv eig onBad tol 0 le_rfl _ (posDef_one hq') (hNT hq' ht') hp).1
    simp only [fitMvn, hmean, hloss, hessian_logNormal m hv, hc, hinv']
    rfl
  · show (multivariateGaussian _ _).map WithLp.ofLp _ ≠ 0
    rw [Kalman.Gauss.density _ (posDef_one hq)]
    have hac : (volume : Measure (Fin 1 → ℝ)) ≪ _ := withDensity_absolutelyContinuous' (μ := (volume : Measure (Fin 1 → ℝ)))
      (f := fun y => ENNReal.ofReal (Real.exp (Kalman.Spec.gaussLogDensity (diagonal fun _ => v * Real.exp (m - v) ^ 2)
        (y - fun _ => Real.exp (m - v)))))
      (by unfold Kalman.Spec.gaussLogDensity; simp only [mulVec, dotProduct]; fun_prop)
      (Filter.Eventually.of_forall fun y => by simp [Real.exp_pos])
    intro h0
    have h1 := hac h0
    have hopen : IsOpen {σ : Fin 1 → ℝ | σ 0 < 0} := isOpen_lt (continuous_apply 0) continuous_const
    exact (hopen.measure_pos volume ⟨fun _ => -1, by simp⟩).ne' h1
  · rintro π ⟨hπ, z, hz0, -, hz⟩
    have hms : MeasurableSet {σ : Fin 1 → ℝ | σ 0 < 0} := measurableSet_lt (measurable_pi_apply 0) measurable_const
    have h1 : ((volume.restrict (Spec.support fun _ : Fin 1 => Tr.log)).withDensity
        fun σ => ENNReal.ofReal (Real.exp (Spec.logNormal m v σ))) {σ | σ 0 < 0} = 0 := by
      refine withDensity_absolutelyContinuous _ _ ?_
      rw [Measure.restrict_apply hms]
      have : {σ : Fin 1 → ℝ | σ 0 < 0} ∩ Spec.support (fun _ => Tr.log) = ∅ := by
        ext σ
        simp only [Set.mem_inter_iff, Set.mem_ofPred_eq, Spec.support, Set.mem_empty_iff_false, iff_false, not_and]
        intro h hh
        exact absurd (hh 0 trivial) (not_lt.2 (le_of_lt h))
      rw [this, measure_empty]
    rw [hz] at h1
    simpa [hz0] using h1

/-- Two parameters, the second on the log scale, posterior standard normal and correlated: the reported log of the second is too small
by its variance, and the first is displaced by the covariance. -/
example (pinv : Matrix (Fin 2) (Fin 2) ℝ → Matrix (Fin 2) (Fin 2) ℝ)
    (eig : Matrix (Fin 2) (Fin 2) ℝ → (Fin 2 → ℝ) × Matrix (Fin 2) (Fin 2) ℝ) (hp : ∀ M, Spec.IsPinv M (pinv M)) :
    ∃ (Λ : Matrix (Fin 2) (Fin 2) ℝ) (lp : (Fin 2 → ℝ) → ℝ), Λ.PosDef ∧
      Spec.Posterior lp ![.ident, .log] (drawLaw ![.ident, .log] true 0 !![2, 1; 1, 1]) ∧
      fitMvn pinv eig "error" (1 / 100000000) none lp ![.ident, .log] true ![-1, -1] = .ok (![-1, -1], ⟨!![2, 1; 1, 1], false⟩) ∧
      Spec.Minimises (mapLoss lp ![.ident, .log]) ![-1, -1] := by
  have hΛ : (!![1, -1; -1, 2] : Matrix (Fin 2) (Fin 2) ℝ).PosDef := by
    refine posDef_iff_dotProduct_mulVec.2 ⟨by ext i j; fin_cases i <;> fin_cases j <;> simp, fun x hx => ?_⟩
    have e : star x ⬝ᵥ ((!![1, -1; -1, 2] : Matrix (Fin 2) (Fin 2) ℝ) *ᵥ x) = (x 0 - x 1) ^ 2 + x 1 ^ 2 := by
      simp [dotProduct, mulVec, Fin.sum_univ_two]; ring
    rw [e]
    by_contra hle
    have h1 : x 1 = 0 := by nlinarith [sq_nonneg (x 0 - x 1), sq_nonneg (x 1)]
    have h0 : x 0 = 0 := by rw [h1] at hle; nlinarith [sq_nonneg (x 0)]
    exact hx (funext fun i => by fin_cases i <;> simp [h0, h1])
  have hinv : (!![1, -1; -1, 2] : Matrix (Fin 2) (Fin 2) ℝ)⁻¹ = !![2, 1; 1, 1] := by
    refine inv_eq_left_inv ?_
    ext i j; fin_cases i <;> fin_cases j <;> norm_num [mul_apply, Fin.sum_univ_two]
  have hm : (0 : Fin 2 → ℝ) - (!![2, 1; 1, 1] : Matrix (Fin 2) (Fin 2) ℝ) *ᵥ Spec.logs ![.ident, .log] = ![-1, -1] := by
    funext i; fin_cases i <;> simp [dotProduct, Spec.logs, Fin.sum_univ_two]
  have h := C212_log_scale_biased pinv eig "error" (1 / 100000000) hp hΛ
    (fun i j => Or.inr (by fin_cases i <;> fin_cases j <;> norm_num)) 0 0
    (fun σ => Spec.quad 0 0 !![1, -1; -1, 2] ![σ 0, Real.log (σ 1)] - Real.log (σ 1)) ![.ident, .log] (fun x => by
      have e : ![x 0, x 1] = x := by funext i; fin_cases i <;> rfl
      simp [modelLogp, backward, Tr.bwd, Tr.logJac, Fin.sum_univ_two, e])
  rw [hinv, hm] at h
  exact ⟨_, _, hΛ, h.1, h.2.2.1, (h.2.1 _).2 rfl⟩

end Verif.Laplace
