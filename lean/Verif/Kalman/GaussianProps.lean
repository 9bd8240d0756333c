import Verif.Kalman.GaussianSpec
import Verif.Kalman.GaussianTools
import Verif.Kalman.OptimalProps
import Verif.Kalman.SmootherOptimalProps
import Mathlib.Probability.Distributions.Gaussian.Real

/-!
# C189: for normal models the filter and the smoother report conditional distributions

Property theorems.  No hypothesis excludes the fill value: for a normal model without determined observations it has probability
zero.
-/

set_option autoImplicit false

open Matrix MeasureTheory ProbabilityTheory

namespace Verif.Kalman

open Orthogonal

variable {Ω : Type*} [MeasurableSpace Ω] {μ : Measure Ω} [IsProbabilityMeasure μ]
variable {n p r : Type*} [Fintype n] [Fintype p] [Fintype r] [DecidableEq n] [DecidableEq p] [DecidableEq r]
variable {θ : ℕ → Params n p r} {a0 : n → ℝ} {P0 : Matrix n n ℝ} {X : ℕ → n → Ω → ℝ} {Y : ℕ → p → Ω → ℝ}
  {η : ℕ → r → Ω → ℝ} {ε : ℕ → p → Ω → ℝ}

namespace Gauss

omit [IsProbabilityMeasure μ] [DecidableEq n] [DecidableEq p] [DecidableEq r] in
theorem memX (h : Spec.Process μ θ a0 P0 X Y η ε) (t : ℕ) : ∀ i, X t i ∈ affine (Spec.sources X η ε) := by
  induction t with
  | zero => intro i; exact source_mem (Spec.sources X η ε) (.inl i)
  | succ t ih =>
    intro i
    have : X (t + 1) i = ∑ j, (θ t).T i j • X t j + (θ t).c i • (fun _ => (1 : ℝ)) + ∑ j, (θ t).R i j • η t j := by
      funext ω; simp [h.transition t i ω]
    rw [this]
    refine Submodule.add_mem _ (Submodule.add_mem _ (Submodule.sum_mem _ fun j _ => Submodule.smul_mem _ _ (ih j))
      (Submodule.smul_mem _ _ (one_mem _))) (Submodule.sum_mem _ fun j _ => Submodule.smul_mem _ _ ?_)
    exact source_mem (Spec.sources X η ε) (.inr (.inl (t, j)))

omit [IsProbabilityMeasure μ] [DecidableEq n] [DecidableEq p] [DecidableEq r] in
theorem memY (h : Spec.Process μ θ a0 P0 X Y η ε) (t : ℕ) (i : p) : Y t i ∈ affine (Spec.sources X η ε) := by
  have : Y t i = ∑ j, (θ t).Z i j • X t j + (θ t).d i • (fun _ => (1 : ℝ)) + ε t i := by
    funext ω; simp [h.observation t i ω]
  rw [this]
  refine Submodule.add_mem _ (Submodule.add_mem _ (Submodule.sum_mem _ fun j _ => Submodule.smul_mem _ _ (memX h t j))
    (Submodule.smul_mem _ _ (one_mem _))) ?_
  exact source_mem (Spec.sources X η ε) (.inr (.inr (t, i)))

/-- What is affine in the data in `L2` is affine in the data as random variables. -/
theorem affine_of_span (h : Spec.Process μ θ a0 P0 X Y η ε) (N : ℕ) {x : L2 μ}
    (hx : x ∈ affineSpan (Orthogonal.one μ) (liftY h) N) : x.1 ∈ affine (fun (q : Fin N × p) ω => Y q.1 q.2 ω) := by
  have hle : affineSpan (Orthogonal.one μ) (liftY h) N ≤
      (affine (fun (q : Fin N × p) ω => Y q.1 q.2 ω)).comap (L2 μ).subtype := by
    refine Submodule.span_le.2 ?_
    rintro _ ⟨o, rfl⟩
    cases o with
    | none => exact one_mem _
    | some q => exact source_mem (fun (q : Fin N × p) ω => Y q.1 q.2 ω) q
  exact hle hx

/-- A single observation equals the fill value with probability zero. -/
theorem fill_null (h : Spec.NormalProcess μ θ a0 P0 X Y η ε) (hY : Spec.Undetermined μ Y) (fill : ℝ) :
    ∀ᵐ ω ∂μ, ∀ t i, Y t i ω ≠ fill := by
  rw [ae_all_iff]; intro t
  rw [ae_all_iff]; intro i
  have hg := (of_affine h.normal (fun _ : Unit => Y t i) fun _ => memY h.toProcess t i).hasGaussianLaw_eval ()
  have hv : Var[Y t i; μ] ≠ 0 := by
    intro h0
    have := hY t (Pi.single i 1) (fun _ _ => 0) (by simpa [Pi.single_apply] using h0)
    have := congrFun this i
    simp at this
  have hlaw := hg.map_eq_gaussianReal
  have hv' : Var[Y t i; μ].toNNReal ≠ 0 := by
    intro h0; rw [Real.toNNReal_eq_zero] at h0
    exact hv (le_antisymm h0 (variance_nonneg _ _))
  have : NullSingletonClass (μ.map (Y t i)) := by rw [hlaw]; exact nullSingletonClass_gaussianReal hv'
  have h1 : μ.map (Y t i) {fill} = 0 := measure_singleton fill
  rw [Measure.map_apply_of_aemeasurable hg.aemeasurable (measurableSet_singleton fill)] at h1
  rw [ae_iff]
  simpa [Set.preimage] using h1

/-- Conditioning on the first `T` dates of data. -/
theorem given_eq (h : Spec.NormalProcess μ θ a0 P0 X Y η ε) (T : ℕ) {k : Type*} [Fintype k] [DecidableEq k]
    (x m : k → L2 μ) (hx : ∀ i, (x i).1 ∈ affine (Spec.sources X η ε))
    (hm : ∀ i, m i ∈ affineSpan (Orthogonal.one μ) (liftY h.toProcess) T) (P : Matrix k k ℝ)
    (hmean : ∀ i, mean μ ((x - m) i) = 0) (hcov : covM (covB μ) (x - m) (x - m) = P)
    (horth : ∀ s, s < T → covM (covB μ) (x - m) (liftY h.toProcess s) = 0) :
    ∀ᵐ ω ∂μ, Spec.given μ (fun i => (x i).1) Y T ω = Spec.N (fun i => (m i).1 ω) P := by
  refine conditional h.normal (D := fun (q : Fin T × p) ω => Y q.1 q.2 ω) (X := fun i => (x i).1) (M := fun i => (m i).1)
    (fun q => memY h.toProcess q.1 q.2) hx (fun i => affine_of_span h.toProcess T (hm i)) P hmean
    (fun i j => congrFun (congrFun hcov i) j) (fun i q => congrFun (congrFun (horth q.1 q.1.2) i) q.2)

end Gauss

/-- **C189 (predictions).** For every normal process that follows the model, the conditional distribution of the state at a date
given the earlier observations is normal, with the predicted mean and the predicted covariance the filter reports. -/
theorem C189_prediction_law (h : Spec.NormalProcess μ θ a0 P0 X Y η ε) (hY : Spec.Undetermined μ Y) (fill : ℝ)
    (N t : ℕ) (ht : t < N) :
    ∀ᵐ ω ∂μ, let out := buildGraph 0 fill a0 P0 (Spec.rows θ Y N ω)
      Spec.given μ (X t) Y t ω = Spec.N (out.predictedStates.getD t 0) (out.predictedCovs.getD t 0) := by
  have hp := h.toProcess
  have hall := (toProc hp).allPosDef covB_self_nonneg (posDef_of_undetermined hp hY) a0 t
  have hm := (toProc hp).mean (a0 := a0) (mean μ) (by simp [mean_apply, Orthogonal.one]) hp.mean_initial hp.mean_shock hp.mean_error t
  have := Gauss.given_eq h t (liftX hp t) (predAt (Orthogonal.one μ) θ a0 P0 (liftY hp) t) (Gauss.memX hp t)
    (predAt_mem t t le_rfl) (covAt θ P0 t) hm.1 hall.2.2.1.cov hall.2.2.1.past
  filter_upwards [this, out_ae hp hY fill (Gauss.fill_null h hY fill) N t ht] with ω h1 h2
  simp only [List.getD_eq_getElem?_getD, h2.1, h2.2.1, Option.getD_some]
  exact h1

/-- **C189 (filtered states).** Given the observations up to and including its date, the state is normal with the filtered mean and
covariance. -/
theorem C189_filter_law (h : Spec.NormalProcess μ θ a0 P0 X Y η ε) (hY : Spec.Undetermined μ Y) (fill : ℝ)
    (N t : ℕ) (ht : t < N) :
    ∀ᵐ ω ∂μ, let out := buildGraph 0 fill a0 P0 (Spec.rows θ Y N ω)
      Spec.given μ (X t) Y (t + 1) ω = Spec.N (out.filteredStates.getD t 0) (out.filteredCovs.getD t 0) := by
  have hp := h.toProcess
  have hall := (toProc hp).allPosDef covB_self_nonneg (posDef_of_undetermined hp hY) a0 t
  have hm := (toProc hp).mean (a0 := a0) (mean μ) (by simp [mean_apply, Orthogonal.one]) hp.mean_initial hp.mean_shock hp.mean_error t
  have := Gauss.given_eq h (t + 1) (liftX hp t) (filtAt (Orthogonal.one μ) θ a0 P0 (liftY hp) t) (Gauss.memX hp t)
    (filtAt_mem (t + 1) t (Nat.lt_succ_self t)) (Spec.condCov (covAt θ P0 t) (θ t).Z (θ t).H) hm.2.1 hall.2.2.2.cov
    (fun s hs => hall.2.2.2.past s (by omega))
  filter_upwards [this, out_ae hp hY fill (Gauss.fill_null h hY fill) N t ht] with ω h1 h2
  simp only [List.getD_eq_getElem?_getD, h2.2.2.1, h2.2.2.2.1, Option.getD_some]
  exact h1

/-- **C189 (one-step forecasts).** Given the earlier observations, the observation of a date is normal with the forecast and the
forecast covariance the filter reports. -/
theorem C189_forecast_law (h : Spec.NormalProcess μ θ a0 P0 X Y η ε) (hY : Spec.Undetermined μ Y) (fill : ℝ)
    (N t : ℕ) (ht : t < N) :
    ∀ᵐ ω ∂μ, let out := buildGraph 0 fill a0 P0 (Spec.rows θ Y N ω)
      Spec.given μ (Y t) Y t ω = Spec.N (out.observedStates.getD t 0) (out.observedCovs.getD t 0) := by
  have hp := h.toProcess
  have hall := (toProc hp).allPosDef covB_self_nonneg (posDef_of_undetermined hp hY) a0 t
  have hm := (toProc hp).mean (a0 := a0) (mean μ) (by simp [mean_apply, Orthogonal.one]) hp.mean_initial hp.mean_shock hp.mean_error t
  let f := Orthogonal.const (Orthogonal.one μ) (θ t).d + act (θ t).Z (predAt (Orthogonal.one μ) θ a0 P0 (liftY hp) t)
  have hv : liftY hp t - f = innov (Orthogonal.one μ) θ a0 P0 (liftY hp) t := by
    simp only [f, innov]; abel
  have hf : ∀ i, f i ∈ affineSpan (Orthogonal.one μ) (liftY hp) t := fun i =>
    Submodule.add_mem _ (const_mem _ t _ i) (act_mem _ _ _ (predAt_mem t t le_rfl) i)
  have := Gauss.given_eq h t (liftY hp t) f (Gauss.memY hp t) hf (Spec.obsCov (covAt θ P0 t) (θ t).Z (θ t).H)
    (by rw [hv]; exact hm.2.2) (by rw [hv]; exact (toProc hp).innovCov t hall.2.2.1)
    (fun s hs => by
      rw [hv, (toProc hp).innov_eq]
      have h2 : covM (covB μ) (liftε hp t) (liftY hp s) = 0 := by
        rw [← covM_transpose _ (toProc hp).sym, (toProc hp).yLaterε s t hs, transpose_zero]
      simp [covM_add_left, covM_act_left, hall.2.2.1.past s hs, h2])
  filter_upwards [this, out_ae hp hY fill (Gauss.fill_null h hY fill) N t ht] with ω h1 h2
  simp only [List.getD_eq_getElem?_getD, h2.2.2.2.2.1, h2.2.2.2.2.2, Option.getD_some]
  refine h1.trans ?_
  congr 1
  have : ∀ i, (f i).1 ω = Y t i ω - (innov (Orthogonal.one μ) θ a0 P0 (liftY hp) t i).1 ω := by
    intro i
    rw [← hv]
    simp [liftY]
  simp only [this]

/-- **C189 (smoothed states).** Given the whole sample, each state is normal with the smoothed mean and covariance (models without
state intercept and with constant transition, as in C164). -/
theorem C189_smoother_law (h : Spec.NormalProcess μ θ a0 P0 X Y η ε) (hY : Spec.Undetermined μ Y) (hc : ∀ t, (θ t).c = 0)
    (Θ : Smoother.Params n r) (hΘ : ∀ t, (θ t).T = Θ.T ∧ (θ t).R = Θ.R ∧ (θ t).Q = Θ.Q) (fill : ℝ) (N t : ℕ) (ht : t < N) :
    ∀ᵐ ω ∂μ, let out := Spec.smoothed θ Θ fill a0 P0 Y N ω
      Spec.given μ (X t) Y N ω = Spec.N (out.getD t (0, 0)).1 (out.getD t (0, 0)).2 := by
  have hp := h.toProcess
  have hts : N - 1 - (N - 1 - t) = t := by omega
  have hall := (toProc hp).smAll (a0 := a0) covB_self_nonneg (posDef_of_undetermined hp hY) hc (N - 1) (N - 1 - t) (by omega)
  have hm := (toProc hp).smMean (a0 := a0) hc (mean μ) (by simp [mean_apply, Orthogonal.one]) hp.mean_initial hp.mean_shock
    hp.mean_error (N - 1) (N - 1 - t) (by omega)
  rw [hts] at hall hm
  have hmem := smAt_mem (one := Orthogonal.one μ) (θ := θ) (a0 := a0) (P0 := P0) (Y := liftY hp) (N - 1) (N - 1 - t)
  rw [show N - 1 + 1 = N by omega] at hmem
  have := Gauss.given_eq h N (liftX hp t) (smAt (Orthogonal.one μ) θ a0 P0 (liftY hp) (N - 1) (N - 1 - t)) (Gauss.memX hp t)
    hmem (smCov θ P0 (N - 1) (N - 1 - t)) hm hall.1 (fun s hs => hall.2 s (by omega))
  filter_upwards [this, smoothed_ae hp hY Θ hΘ fill (Gauss.fill_null h hY fill) N t ht] with ω h1 h2
  simp only [List.getD_eq_getElem?_getD, h2, Option.getD_some]
  exact h1

end Verif.Kalman
