import Verif.Kalman.GaussianTools
import Mathlib.MeasureTheory.Function.ConvergenceInDistribution
import Mathlib.MeasureTheory.Measure.LevyConvergence
import Mathlib.MeasureTheory.Function.L2Space

/-!
# Mean-square limits of normal variables are normal

Nothing here mentions the code.
-/

set_option autoImplicit false

open MeasureTheory ProbabilityTheory Filter Topology

namespace Verif.Kalman.Gauss

variable {Ω : Type*} [MeasurableSpace Ω] {μ : Measure Ω} [IsProbabilityMeasure μ]

/-- The constant one. Proof notion, no code behind it. -/
noncomputable def lpOne (μ : Measure Ω) [IsProbabilityMeasure μ] : Lp ℝ 2 μ := (memLp_const (1 : ℝ)).toLp (fun _ => 1)

theorem inner_lpOne (x : Lp ℝ 2 μ) : inner ℝ (lpOne μ) x = ∫ ω, x ω ∂μ := by
  rw [L2.inner_def]
  refine integral_congr_ae ?_
  filter_upwards [(memLp_const (1 : ℝ) : MemLp (fun _ : Ω => (1 : ℝ)) 2 μ).coeFn_toLp] with ω h
  simp only [lpOne, h]
  simp

theorem inner_eq (x y : Lp ℝ 2 μ) : inner ℝ x y = ∫ ω, x ω * y ω ∂μ := by
  rw [L2.inner_def]
  refine integral_congr_ae (Eventually.of_forall fun ω => ?_)
  simp [mul_comm]

theorem inner_toLp {X Y : Ω → ℝ} (hX : MemLp X 2 μ) (hY : MemLp Y 2 μ) :
    inner ℝ (hX.toLp X) (hY.toLp Y) = ∫ ω, X ω * Y ω ∂μ := by
  rw [inner_eq]
  refine integral_congr_ae ?_
  filter_upwards [hX.coeFn_toLp, hY.coeFn_toLp] with ω h1 h2
  rw [h1, h2]

theorem variance_lp (x : Lp ℝ 2 μ) : Var[x; μ] = ‖x‖ ^ 2 - (inner ℝ (lpOne μ) x) ^ 2 := by
  rw [variance_eq_sub (Lp.memLp x), inner_lpOne, ← real_inner_self_eq_norm_sq, inner_eq]
  congr 1
  refine integral_congr_ae (Eventually.of_forall fun ω => ?_)
  simp [sq]

/-- One variable. -/
theorem limit_one {x : ℕ → Lp ℝ 2 μ} {x' : Lp ℝ 2 μ} (hx : Tendsto x atTop (𝓝 x')) (hG : ∀ M, HasGaussianLaw (x M) μ) :
    HasGaussianLaw x' μ := by
  have hmes : ∀ z : Lp ℝ 2 μ, AEMeasurable z μ := fun z => (Lp.aestronglyMeasurable z).aemeasurable
  have hlaw : ∀ M, μ.map (x M) = gaussianReal (∫ ω, x M ω ∂μ) (Var[x M; μ]).toNNReal := fun M => (hG M).map_eq_gaussianReal
  have hm : Tendsto (fun M => ∫ ω, x M ω ∂μ) atTop (𝓝 (∫ ω, x' ω ∂μ)) := by
    simp only [← inner_lpOne]
    exact (tendsto_const_nhds (x := lpOne μ)).inner hx
  have hv : Tendsto (fun M => Var[x M; μ]) atTop (𝓝 (Var[x'; μ])) := by
    simp only [variance_lp]
    exact (hx.norm.pow 2).sub (((tendsto_const_nhds (x := lpOne μ)).inner hx).pow 2)
  have hdist : TendstoInDistribution (fun M => (x M : Ω → ℝ)) atTop (x' : Ω → ℝ) (fun _ => μ) μ := by
    refine TendstoInMeasure.tendstoInDistribution ?_ fun M => hmes _
    exact tendstoInMeasure_of_tendsto_eLpNorm (p := 2) (by norm_num) (fun M => Lp.aestronglyMeasurable _) (Lp.aestronglyMeasurable _)
      ((Lp.tendsto_Lp_iff_tendsto_eLpNorm' x x').1 hx)
  have hcf := ProbabilityMeasure.tendsto_iff_tendsto_charFun.1 hdist.tendsto
  have hprob : IsProbabilityMeasure (μ.map x') := Measure.isProbabilityMeasure_map (hmes x')
  have heq : μ.map x' = gaussianReal (∫ ω, x' ω ∂μ) (Var[x'; μ]).toNNReal := by
    refine Measure.ext_of_charFun ?_
    funext t
    refine tendsto_nhds_unique (hcf t) ?_
    simp only [ProbabilityMeasure.coe_mk, hlaw, charFun_gaussianReal]
    have h1 : Tendsto (fun M => ((∫ ω, x M ω ∂μ : ℝ) : ℂ)) atTop (𝓝 ((∫ ω, x' ω ∂μ : ℝ) : ℂ)) :=
      (Complex.continuous_ofReal.tendsto _).comp hm
    have h2 : Tendsto (fun M => (((Var[x M; μ]).toNNReal : ℝ) : ℂ)) atTop (𝓝 (((Var[x'; μ]).toNNReal : ℝ) : ℂ)) := by
      simp only [Real.coe_toNNReal _ (variance_nonneg _ _)]
      exact (Complex.continuous_ofReal.tendsto _).comp hv
    refine (Complex.continuous_exp.tendsto _).comp ?_
    exact ((h1.const_mul _).mul_const _).sub ((h2.mul_const _).div_const _)
  exact ⟨by rw [heq]; infer_instance⟩

theorem lp_sum {ι : Type*} (s : Finset ι) (f : ι → Lp ℝ 2 μ) : ((∑ i ∈ s, f i : Lp ℝ 2 μ) : Ω → ℝ) =ᵐ[μ] ∑ i ∈ s, (f i : Ω → ℝ) := by
  classical
  induction s using Finset.induction_on with
  | empty => simpa using Lp.coeFn_zero ℝ 2 μ
  | insert a s ha ih =>
    rw [Finset.sum_insert ha, Finset.sum_insert ha]
    exact (Lp.coeFn_add _ _).trans ((EventuallyEq.refl _ _).add ih)

/-- Families of variables. -/
theorem limit {J : Type*} {x : ℕ → J → Lp ℝ 2 μ} {x' : J → Lp ℝ 2 μ} (hx : ∀ j, Tendsto (fun M => x M j) atTop (𝓝 (x' j)))
    (hG : ∀ M, IsGaussianProcess (fun j => (x M j : Ω → ℝ)) μ) : IsGaussianProcess (fun j => (x' j : Ω → ℝ)) μ where
  hasGaussianLaw I := by
    classical
    have hmes : AEMeasurable (fun ω (j : I) => x' j.1 ω) μ :=
      aemeasurable_pi_lambda _ fun j => (Lp.aestronglyMeasurable (x' j.1)).aemeasurable
    refine ⟨⟨fun L => ?_⟩⟩
    let c : I → ℝ := fun i => L (Pi.single i 1)
    have hL : ∀ z : I → ℝ, L z = ∑ i, c i * z i := by
      intro z
      conv_lhs => rw [pi_eq_sum_univ' z]
      rw [map_sum]
      refine Finset.sum_congr rfl fun i _ => ?_
      rw [map_smul, smul_eq_mul, mul_comm]
    have hco : ∀ z : J → Lp ℝ 2 μ, ((∑ i : I, c i • z i.1 : Lp ℝ 2 μ) : Ω → ℝ) =ᵐ[μ] fun ω => ∑ i : I, c i * z i.1 ω := by
      intro z
      have h1 : ((∑ i : I, c i • z i.1 : Lp ℝ 2 μ) : Ω → ℝ) =ᵐ[μ] ∑ i : I, ((c i • z i.1 : Lp ℝ 2 μ) : Ω → ℝ) :=
        lp_sum _ _
      have h2 : ∀ᵐ ω ∂μ, ∀ i : I, (c i • z i.1 : Lp ℝ 2 μ) ω = c i * z i.1 ω := by
        rw [ae_all_iff]; intro i
        filter_upwards [Lp.coeFn_smul (c i) (z i.1)] with ω h
        rw [h]; rfl
      filter_upwards [h1, h2] with ω h1 h2
      rw [h1, Finset.sum_apply]
      exact Finset.sum_congr rfl fun i _ => h2 i
    have hlim : HasGaussianLaw ((∑ i : I, c i • x' i.1 : Lp ℝ 2 μ) : Ω → ℝ) μ := by
      refine limit_one (x := fun M => ∑ i : I, c i • x M i.1) (tendsto_finsetSum _ fun i _ => (hx i.1).const_smul _) fun M => ?_
      have hg := ((hG M).hasGaussianLaw I).map L
      refine hg.congr ?_
      filter_upwards [hco (x M)] with ω h
      rw [h]
      exact hL _
    have hfin : HasGaussianLaw (fun ω => L fun j : I => x' j.1 ω) μ := by
      refine hlim.congr ?_
      filter_upwards [hco x'] with ω h
      rw [h, hL]
    have e1 : (μ.map fun ω => I.restrict fun j => x' j ω).map L = μ.map fun ω => L fun j : I => x' j.1 ω := by
      rw [show (fun ω => I.restrict fun j => x' j ω) = fun ω (j : I) => x' j.1 ω from rfl,
        AEMeasurable.map_map_of_aemeasurable L.continuous.measurable.aemeasurable hmes]
      rfl
    rw [e1, hfin.map_eq_gaussianReal]
    have hLm : AEStronglyMeasurable (⇑L) (μ.map fun ω (j : I) => x' j.1 ω) := L.continuous.aestronglyMeasurable
    congr 1
    · exact (integral_map hmes hLm).symm
    · congr 1
      have := variance_map (μ := μ) (X := ⇑L) (Y := fun ω (j : I) => x' j.1 ω) L.continuous.aestronglyMeasurable.aemeasurable hmes
      exact this.symm

end Verif.Kalman.Gauss
