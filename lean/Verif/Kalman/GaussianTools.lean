import Verif.Kalman.Undetermined
import Verif.Kalman.SmootherOptimal
import Mathlib.Probability.Distributions.Gaussian.IsGaussianProcess.Basic
import Mathlib.Probability.Distributions.Gaussian.IsGaussianProcess.Independence
import Mathlib.Probability.Distributions.Gaussian.Multivariate
import Mathlib.Probability.Distributions.Gaussian.HasGaussianLaw.Basic
import Mathlib.Probability.Kernel.CondDistrib

/-!
# Tools for jointly normal processes

Nothing here is about the code: affine combinations of a Gaussian process are Gaussian, their joint law is determined by the first
two moments, and the conditional law of a sum of a known and an independent part.
-/

set_option autoImplicit false

open Matrix MeasureTheory ProbabilityTheory

namespace Verif.Kalman.Gauss

variable {Ω : Type*} [MeasurableSpace Ω] {μ : Measure Ω}

/-- The random variables that are affine in the sources. Proof notion, no code behind it. -/
def affine {T : Type*} (S : T → Ω → ℝ) : Submodule ℝ (Ω → ℝ) :=
  Submodule.span ℝ (Set.range fun o : Option T => o.elim (fun _ => 1) S)

theorem one_mem {T : Type*} (S : T → Ω → ℝ) : (fun _ => 1 : Ω → ℝ) ∈ affine S := Submodule.subset_span ⟨none, rfl⟩

theorem source_mem {T : Type*} (S : T → Ω → ℝ) (q : T) : S q ∈ affine S := Submodule.subset_span ⟨some q, rfl⟩

/-- Adding the constant one to a Gaussian process gives a Gaussian process. -/
theorem withOne {T : Type*} {S : T → Ω → ℝ} (hS : IsGaussianProcess S μ) :
    IsGaussianProcess (fun o : Option T => o.elim (fun _ => (1 : ℝ)) S) μ where
  hasGaussianLaw I := by
    classical
    let J : Finset T := I.eraseNone
    let L : (J → ℝ) →L[ℝ] (I → ℝ) := ContinuousLinearMap.pi fun q : I =>
      match h : q.1 with
      | none => 0
      | some x => ContinuousLinearMap.proj (⟨x, by simp [J, ← h]⟩ : J)
    let c : I → ℝ := fun q => if q.1 = none then 1 else 0
    have h1 : (fun ω => I.restrict (fun o : Option T => (o.elim (fun _ => (1 : ℝ)) S) ω)) =
        (fun x => x + c) ∘ (L ∘ fun ω => J.restrict (S · ω)) := by
      funext ω q
      obtain ⟨q, hq⟩ := q
      cases q with
      | none => simp [L, c]
      | some x => simp [L, c]
    have h2 := (hS.hasGaussianLaw J).map L
    constructor
    rw [h1, ← AEMeasurable.map_map_of_aemeasurable (by fun_prop) h2.aemeasurable]
    have := h2.isGaussian_map
    infer_instance

/-- Any family of affine combinations of a Gaussian process is a Gaussian process. -/
theorem of_affine {T J : Type*} {S : T → Ω → ℝ} (hS : IsGaussianProcess S μ) (F : J → Ω → ℝ) (hF : ∀ j, F j ∈ affine S) :
    IsGaussianProcess F μ := by
  classical
  refine (withOne hS).of_isGaussianProcess fun j => ?_
  obtain ⟨c, hc⟩ := Finsupp.mem_span_range_iff_exists_finsupp.1 (hF j)
  refine ⟨c.support, ∑ i : c.support, c i.1 • ContinuousLinearMap.proj i, fun ω => ?_⟩
  rw [← hc]
  simp only [Finsupp.sum, Finset.sum_apply, Pi.smul_apply, smul_eq_mul, ContinuousLinearMap.sum_apply,
    ContinuousLinearMap.smul_apply, ContinuousLinearMap.proj_apply, Finset.restrict_def]
  exact (Finset.sum_coe_sort c.support fun i => c i * (i.elim (fun _ => (1 : ℝ)) S) ω).symm

variable {n : Type*} [Fintype n] [DecidableEq n]

omit [DecidableEq n] in
/-- A finite Gaussian process, as a random vector. -/
theorem vector {E : n → Ω → ℝ} (hE : IsGaussianProcess E μ) :
    HasGaussianLaw (fun ω => (WithLp.toLp 2 (fun i => E i ω) : EuclideanSpace ℝ n)) μ := by
  classical
  let L : (↥(Finset.univ : Finset n) → ℝ) →L[ℝ] EuclideanSpace ℝ n :=
    (EuclideanSpace.equiv n ℝ).symm.toContinuousLinearMap.comp
      (ContinuousLinearMap.pi fun i => ContinuousLinearMap.proj (⟨i, Finset.mem_univ i⟩ : ↥(Finset.univ : Finset n)))
  exact (hE.hasGaussianLaw Finset.univ).map L

open Orthogonal in
/-- The law of a Gaussian vector is determined by its mean and covariance. -/
theorem law [IsProbabilityMeasure μ] {E : n → Ω → ℝ} (hE : IsGaussianProcess E μ) (m : n → ℝ) (P : Matrix n n ℝ)
    (hm : ∀ i, ∫ ω, E i ω ∂μ = m i) (hP : ∀ i j, cov[E i, E j; μ] = P i j) :
    μ.map (fun ω => (WithLp.toLp 2 (fun i => E i ω) : EuclideanSpace ℝ n)) = multivariateGaussian (WithLp.toLp 2 m) P := by
  have h2 : ∀ i, MemLp (E i) 2 μ := fun i => (hE.hasGaussianLaw_eval i).memLp_two
  let e : n → L2 μ := fun i => ⟨E i, h2 i⟩
  have hcov : covM (covB μ) e e = P := by ext i j; exact hP i j
  have hps : P.PosSemidef := by
    rw [← hcov]; exact covM_posSemidef (covB μ) (fun x y => covariance_comm _ _) covB_self_nonneg e
  have hg := vector hE
  have := hg.isGaussian_map
  apply Measure.ext_of_charFun
  ext x
  rw [hg.charFun_map_eq, charFun_multivariateGaussian hps]
  have e1 : (fun ω => inner ℝ x (WithLp.toLp 2 (fun i => E i ω) : EuclideanSpace ℝ n)) = (∑ i, x i • e i : L2 μ).1 := by
    funext ω
    simp [PiLp.inner_apply, e, mul_comm]
  rw [e1]
  have e2 : Var[(∑ i, x i • e i : L2 μ).1; μ] = (fun i => x i) ⬝ᵥ (P *ᵥ fun i => x i) := by
    rw [← hcov, covM_quad, covB_apply, covariance_self (∑ i, x i • e i : L2 μ).2.aemeasurable]
  have e3 : ∫ ω, (∑ i, x i • e i : L2 μ).1 ω ∂μ = inner ℝ x (WithLp.toLp 2 m : EuclideanSpace ℝ n) := by
    show mean μ (∑ i, x i • e i) = _
    simp only [map_sum, map_smul, smul_eq_mul]
    have : ∀ i, mean μ (e i) = m i := hm
    simp [PiLp.inner_apply, this, mul_comm]
  rw [e2, e3]

/-- The conditional law of a known part plus an independent part: shift the law of the independent part. -/
theorem cond_shift [IsProbabilityMeasure μ] {β F : Type*} [MeasurableSpace β] [NormedAddCommGroup F] [MeasurableSpace F] [BorelSpace F]
    [SecondCountableTopology F] [CompleteSpace F]
    {D : Ω → β} {E X : Ω → F} {g : β → F} (hg : Measurable g) (hD : AEMeasurable D μ) (hE : AEMeasurable E μ)
    (hind : IndepFun D E μ) (hX : ∀ᵐ ω ∂μ, X ω = g (D ω) + E ω) :
    ∀ᵐ ω ∂μ, condDistrib X D μ (D ω) = (μ.map E).map (fun e => g (D ω) + e) := by
  have : IsProbabilityMeasure (μ.map E) := Measure.isProbabilityMeasure_map hE
  have : IsProbabilityMeasure (μ.map D) := Measure.isProbabilityMeasure_map hD
  let κ : Kernel β F := (Kernel.id ×ₖ Kernel.const β (μ.map E)).map (fun q : β × F => g q.1 + q.2)
  have hfm : Measurable (fun q : β × F => g q.1 + q.2) := (hg.comp measurable_fst).add measurable_snd
  have hκ : ∀ b, κ b = (μ.map E).map (fun e => g b + e) := by
    intro b
    simp only [κ]
    rw [Kernel.map_apply _ hfm, Kernel.prod_apply, Kernel.id_apply, Kernel.const_apply, Measure.dirac_prod,
      Measure.map_map hfm (by fun_prop)]
    rfl
  have hκm : IsMarkovKernel κ := Kernel.IsMarkovKernel.map _ hfm
  have hXm : AEMeasurable X μ := ((hg.comp_aemeasurable hD).add hE).congr (by
    filter_upwards [hX] with ω h using h.symm)
  have key : condDistrib X D μ =ᵐ[μ.map D] κ := by
    refine condDistrib_ae_eq_of_measure_eq_compProd D hXm ?_
    have e1 : μ.map (fun ω => (D ω, X ω)) = (μ.map (fun ω => (D ω, E ω))).map (fun q : β × F => (q.1, g q.1 + q.2)) := by
      rw [AEMeasurable.map_map_of_aemeasurable (measurable_fst.prodMk hfm).aemeasurable (hD.prodMk hE)]
      refine Measure.map_congr ?_
      filter_upwards [hX] with ω h
      simp [h]
    rw [e1, (indepFun_iff_map_prod_eq_prod_map_map hD hE).1 hind]
    ext s hs
    rw [Measure.map_apply (measurable_fst.prodMk hfm) hs, Measure.compProd_apply hs,
      Measure.prod_apply ((measurable_fst.prodMk hfm) hs)]
    refine lintegral_congr fun b => ?_
    rw [hκ, Measure.map_apply (by fun_prop) (measurable_prodMk_left hs)]
    rfl
  filter_upwards [ae_of_ae_map hD key] with ω h
  rw [h, hκ]

/-- Shifting a multivariate normal. -/
theorem shift (m : EuclideanSpace ℝ n) (P : Matrix n n ℝ) :
    (multivariateGaussian (0 : EuclideanSpace ℝ n) P).map (fun e => m + e) = multivariateGaussian m P := by
  simp only [multivariateGaussian]
  rw [Measure.map_map (by fun_prop) (by fun_prop)]
  congr 1
  funext x
  simp

/-- **Conditioning.** All variables affine in jointly normal sources; the error of `M` as a guess of `X` has mean zero, is
uncorrelated with the data and has covariance `P`; then given the data `X` is normal with mean `M` and covariance `P`. -/
theorem conditional [IsProbabilityMeasure μ] {T q : Type*} [Fintype q] {S : T → Ω → ℝ} (hS : IsGaussianProcess S μ)
    {D : q → Ω → ℝ} (hD : ∀ j, D j ∈ affine S) {X M : n → Ω → ℝ} (hX : ∀ i, X i ∈ affine S)
    (hM : ∀ i, M i ∈ affine D) (P : Matrix n n ℝ) (hm : ∀ i, ∫ ω, X i ω - M i ω ∂μ = 0)
    (hP : ∀ i j, cov[fun ω => X i ω - M i ω, fun ω => X j ω - M j ω; μ] = P i j)
    (h0 : ∀ i j, cov[fun ω => X i ω - M i ω, D j; μ] = 0) :
    ∀ᵐ ω ∂μ, condDistrib (fun ω => (WithLp.toLp 2 (fun i => X i ω) : EuclideanSpace ℝ n)) (fun ω j => D j ω) μ (fun j => D j ω) =
      multivariateGaussian (WithLp.toLp 2 fun i => M i ω) P := by
  have hMS : ∀ i, M i ∈ affine S := by
    intro i
    refine (Submodule.span_le.2 ?_) (hM i)
    rintro _ ⟨o, rfl⟩
    cases o with
    | none => exact one_mem S
    | some j => exact hD j
  have hE : ∀ i, (fun ω => X i ω - M i ω) ∈ affine S := fun i => Submodule.sub_mem _ (hX i) (hMS i)
  have gE := of_affine hS (fun i ω => X i ω - M i ω) hE
  have gD := of_affine hS D hD
  have gDE := of_affine hS (Sum.elim D fun i ω => X i ω - M i ω) (by rintro (j | i); exacts [hD j, hE i])
  have hind := gDE.indepFun_of_covariance_eq_zero gD.aemeasurable gE.aemeasurable fun j i => by
    rw [covariance_comm]; exact h0 i j
  choose c hc using fun i => (Submodule.mem_span_range_iff_exists_fun ℝ).1 (hM i)
  let g : (q → ℝ) → EuclideanSpace ℝ n := fun d => WithLp.toLp 2 fun i => c i none + ∑ j, c i (some j) * d j
  have hgM : ∀ ω, g (fun j => D j ω) = WithLp.toLp 2 fun i => M i ω := by
    intro ω
    simp only [g]
    congr 1
    funext i
    rw [← hc i]
    simp [Fintype.sum_option]
  have hgm : Measurable g := by
    refine (PiLp.continuous_toLp 2 _).measurable.comp (measurable_pi_lambda _ fun i => ?_)
    fun_prop
  have hl := law gE 0 P hm hP
  have := cond_shift (D := fun ω j => D j ω) (E := fun ω => (WithLp.toLp 2 (fun i => X i ω - M i ω) : EuclideanSpace ℝ n))
    (X := fun ω => (WithLp.toLp 2 (fun i => X i ω) : EuclideanSpace ℝ n)) hgm (aemeasurable_pi_lambda _ gD.aemeasurable)
    (vector gE).aemeasurable (hind.comp measurable_id (PiLp.continuous_toLp 2 _).measurable)
    (Filter.Eventually.of_forall fun ω => by
      rw [hgM]; ext i; simp)
  filter_upwards [this] with ω hω
  rw [hω, hl, hgM]
  exact shift _ P

end Verif.Kalman.Gauss
