import Verif.Kalman.Conservative
import Verif.Kalman.GaussianExists

/-!
# C201: jitter and generous covariances never make the filter overconfident

Property theorems; normality is assumed only for the interval statement.
-/

set_option autoImplicit false
set_option linter.unusedSectionVars false

open Matrix MeasureTheory ProbabilityTheory

namespace Verif.Kalman

open Orthogonal Cons

variable {Ω : Type*} [MeasurableSpace Ω] {μ : Measure Ω} [IsProbabilityMeasure μ]
variable {n p r : Type*} [Fintype n] [Fintype p] [Fintype r] [DecidableEq n] [DecidableEq p] [DecidableEq r]
variable {θ θ' : ℕ → Params n p r} {a0 : n → ℝ} {P0 P0' : Matrix n n ℝ} {X : ℕ → n → Ω → ℝ} {Y : ℕ → p → Ω → ℝ}
  {η : ℕ → r → Ω → ℝ} {ε : ℕ → p → Ω → ℝ}

namespace Cons

theorem conservative_of {k : Type*} [Fintype k] {e : k → Ω → ℝ} {V : Matrix k k ℝ} (u : k → L2 μ)
    (hae : ∀ᵐ ω ∂μ, ∀ i, e i ω = (u i).1 ω) (hm : ∀ i, mean μ (u i) = 0) (hV : (V - covM (covB μ) u u).PosSemidef) :
    Spec.Conservative μ e V where
  square_integrable i := (memLp_congr_ae (hae.mono fun ω hω => hω i)).2 (u i).2
  mean i := by
    rw [integral_congr_ae (hae.mono fun ω hω => hω i)]
    exact hm i
  variance w := by
    have h1 : Var[fun ω => ∑ i, w i * e i ω; μ] = w ⬝ᵥ (covM (covB μ) u u *ᵥ w) := by
      rw [covM_quad, covB_apply, covariance_self (∑ i, w i • u i : L2 μ).2.aemeasurable]
      refine variance_congr ?_
      filter_upwards [hae] with ω hω
      simp [hω]
    have h2 := hV.dotProduct_mulVec_nonneg w
    rw [star_trivial, Matrix.sub_mulVec, dotProduct_sub] at h2
    have h3 : w ⬝ᵥ (V *ᵥ w) = ∑ i, ∑ l, w i * V i l * w l := by
      simp [dotProduct, mulVec, Finset.mul_sum, mul_assoc]
    rw [h1, ← h3]
    linarith

theorem out_obs (j fill : ℝ) (a0 : n → ℝ) (P0 : Matrix n n ℝ) (y : ℕ → Row p) (θ : ℕ → Params n p r) (N t : ℕ)
    (ht : t < N) :
    let o := buildGraph j fill a0 P0 ((List.range N).map fun t => (y t, θ t))
    let s := carried j fill a0 P0 y θ t
    o.observedStates.getD t 0 = (kalmanStep j fill (y t) s.1 s.2 (θ t)).obsMu ∧
    o.observedCovs.getD t 0 = (kalmanStep j fill (y t) s.1 s.2 (θ t)).obsCov := by
  intro o s
  have hst := scan_carried j fill a0 P0 y θ N t ht
  refine ⟨?_, ?_⟩
  · simp only [o, s, buildGraph, postprocess, List.getD_eq_getElem?_getD, List.getElem?_map, hst, Option.map_some,
      Option.getD_some]
  · simp only [o, s, buildGraph, postprocess, List.getD_eq_getElem?_getD, List.getElem?_map, hst, Option.map_some,
      Option.getD_some]

theorem rowsSeen_eq (o : ℕ → p → Prop) (N : ℕ) (ω : Ω) :
    Spec.rowsSeen o θ Y N ω = (List.range N).map fun t => (row o (fun t i => Y t i ω) t, θ t) := rfl

end Cons

/-- **C201 (predicted states).** Let the data come from a state-space process, and let the filter be given the right dynamics
but any initial, shock and measurement covariances at least as large as the true ones, any jitter, and any fixed pattern of
missing entries whose errors are uncorrelated with the recorded ones. The predicted states have mean-zero errors, and the
reported predicted covariances are never too small. -/
theorem C201_prediction (h : Spec.Process μ θ' a0 P0' X Y η ε) (hcov : ∀ t, Spec.Covers (θ t) (θ' t))
    (hH : ∀ t, (θ t).H.PosSemidef) (hQ : ∀ t, (θ t).Q.PosSemidef) (hP : P0.PosSemidef) (hPP : (P0 - P0').PosSemidef)
    (o : ℕ → p → Prop) (hd : ∀ t i k, ¬ o t i → o t k → (θ t).H i k = 0) {jitter : ℝ} (hj : 0 ≤ jitter) (fill : ℝ)
    (hfill : ∀ᵐ ω ∂μ, ∀ t i, o t i → Y t i ω ≠ fill) (N t : ℕ) (ht : t < N) :
    ∃ V, (∀ᵐ ω ∂μ, (buildGraph jitter fill a0 P0 (Spec.rowsSeen o θ Y N ω)).predictedCovs.getD t 0 = V) ∧
      Spec.Conservative μ
        (fun i ω => X t i ω - (buildGraph jitter fill a0 P0 (Spec.rowsSeen o θ Y N ω)).predictedStates.getD t 0 i) V := by
  have hok : Ok o θ := ⟨hH, hQ, hd⟩
  refine ⟨covJ jitter o θ P0 t, ?_, conservative_of (errP h jitter o θ P0 t) ?_ (errP_mean h t)
    (bound h hj hcov hok hP hPP t)⟩
  · filter_upwards [hfill] with ω hω
    rw [rowsSeen_eq, (out_carried jitter fill a0 P0 _ θ N t ht).2.1]
    exact (carried_cov (a0 := a0) hω t).1
  · filter_upwards [hfill] with ω hω i
    rw [rowsSeen_eq, (out_carried jitter fill a0 P0 _ θ N t ht).1]
    exact (err_link h hcov hok hω t).1 i

/-- **C201 (filtered states).** The same for the filtered states, whose reported covariances even exceed the bound by the
jitter on the diagonal. -/
theorem C201_filter (h : Spec.Process μ θ' a0 P0' X Y η ε) (hcov : ∀ t, Spec.Covers (θ t) (θ' t))
    (hH : ∀ t, (θ t).H.PosSemidef) (hQ : ∀ t, (θ t).Q.PosSemidef) (hP : P0.PosSemidef) (hPP : (P0 - P0').PosSemidef)
    (o : ℕ → p → Prop) (hd : ∀ t i k, ¬ o t i → o t k → (θ t).H i k = 0) {jitter : ℝ} (hj : 0 ≤ jitter) (fill : ℝ)
    (hfill : ∀ᵐ ω ∂μ, ∀ t i, o t i → Y t i ω ≠ fill) (N t : ℕ) (ht : t < N) :
    ∃ V, (∀ᵐ ω ∂μ, (buildGraph jitter fill a0 P0 (Spec.rowsSeen o θ Y N ω)).filteredCovs.getD t 0 = V + jitter • 1) ∧
      Spec.Conservative μ
        (fun i ω => X t i ω - (buildGraph jitter fill a0 P0 (Spec.rowsSeen o θ Y N ω)).filteredStates.getD t 0 i) V := by
  have hok : Ok o θ := ⟨hH, hQ, hd⟩
  refine ⟨filtJ jitter (o t) (covJ jitter o θ P0 t) (θ t) - jitter • 1, ?_, conservative_of (errF h jitter o θ P0 t) ?_
    (errF_mean h t) (bound_filter h hcov hok (covJ_posSemidef hj hok hP t) (bound h hj hcov hok hP hPP t))⟩
  · filter_upwards [hfill] with ω hω
    rw [rowsSeen_eq, (out_carried jitter fill a0 P0 _ θ N t ht).2.2.2, sub_add_cancel]
    exact (carried_cov (a0 := a0) hω t).2
  · filter_upwards [hfill] with ω hω i
    rw [rowsSeen_eq, (out_carried jitter fill a0 P0 _ θ N t ht).2.2.1]
    exact (err_link h hcov hok hω t).2 i

/-- **C201 (one-step forecasts of the data).** The same for the forecasts of the recorded entries. -/
theorem C201_forecast (h : Spec.Process μ θ' a0 P0' X Y η ε) (hcov : ∀ t, Spec.Covers (θ t) (θ' t))
    (hH : ∀ t, (θ t).H.PosSemidef) (hQ : ∀ t, (θ t).Q.PosSemidef) (hP : P0.PosSemidef) (hPP : (P0 - P0').PosSemidef)
    (o : ℕ → p → Prop) [∀ t, DecidablePred (o t)] (hd : ∀ t i k, ¬ o t i → o t k → (θ t).H i k = 0) {jitter : ℝ} (hj : 0 ≤ jitter)
    (fill : ℝ) (hfill : ∀ᵐ ω ∂μ, ∀ t i, o t i → Y t i ω ≠ fill) (N t : ℕ) (ht : t < N) :
    ∃ V : Matrix p p ℝ,
      (∀ᵐ ω ∂μ, (buildGraph jitter fill a0 P0 (Spec.rowsSeen o θ Y N ω)).observedCovs.getD t 0 = V + jitter • 1) ∧
      Spec.Conservative μ (fun (i : {i // o t i}) ω =>
        Y t i ω - (buildGraph jitter fill a0 P0 (Spec.rowsSeen o θ Y N ω)).observedStates.getD t 0 i)
        (V.submatrix Subtype.val Subtype.val) := by
  have hp := toProc h
  have hok : Ok o θ := ⟨hH, hQ, hd⟩
  have hb := bound h hj hcov hok hP hPP t
  have h1 := (errP_later h jitter o (θ := θ) (P0 := P0) t).1 t le_rfl
  have h2 : covM (covB μ) (liftε h t) (errP h jitter o θ P0 t) = 0 := by
    rw [← covM_transpose _ hp.sym, h1, transpose_zero]
  have hcovu : covM (covB μ) (act (θ t).Z (errP h jitter o θ P0 t) + liftε h t)
      (act (θ t).Z (errP h jitter o θ P0 t) + liftε h t) =
      (θ t).Z * covM (covB μ) (errP h jitter o θ P0 t) (errP h jitter o θ P0 t) * (θ t).Zᵀ + (θ' t).H := by
    simp only [covM_add_left, covM_add_right, covM_act_left, covM_act_right, h1, h2, hp.εε, Matrix.mul_zero, Matrix.zero_mul,
      add_zero, zero_add, Matrix.mul_assoc]
  refine ⟨keep (o t) * (θ t).Z * covJ jitter o θ P0 t * (keep (o t) * (θ t).Z)ᵀ + keep (o t) * (θ t).H, ?_,
    conservative_of (fun i : {i // o t i} => (act (θ t).Z (errP h jitter o θ P0 t) + liftε h t) i) ?_ ?_ ?_⟩
  · filter_upwards [hfill] with ω hω
    rw [rowsSeen_eq, (out_obs jitter fill a0 P0 _ θ N t ht).2]
    simp only [kalmanStep, handleMissing, maskW_row hω, update, (carried_cov (a0 := a0) hω t).1, innovCov, stabilize,
      Matrix.mul_assoc, add_assoc]
  · filter_upwards [hfill] with ω hω i
    rw [rowsSeen_eq, (out_obs jitter fill a0 P0 _ θ N t ht).1]
    have he : (fun k => (errP h jitter o θ P0 t k).1 ω) = (fun i => X t i ω) -
        (carried jitter fill a0 P0 (row o fun t i => Y t i ω) θ t).1 := by
      funext k; exact ((err_link h hcov hok hω t).1 k).symm
    simp only [Pi.add_apply, Submodule.coe_add, act_eval, he, kalmanStep, handleMissing, maskW_row hω, update, mulVec_sub,
      Pi.sub_apply]
    have hk : ((keep (o t) * (θ t).Z) *ᵥ (carried jitter fill a0 P0 (row o fun t i => Y t i ω) θ t).1) i =
        ((θ t).Z *ᵥ (carried jitter fill a0 P0 (row o fun t i => Y t i ω) θ t).1) i := by
      rw [← mulVec_mulVec, keep, mulVec_diagonal, if_pos i.2, one_mul]
    rw [hk, h.observation t i ω, ← (hcov t).Z, ← (hcov t).d]
    simp only [mulVec, dotProduct, liftε]
    ring
  · intro i
    rw [Pi.add_apply, map_add, mean_act _ _ (errP_mean h t), zero_add]
    exact h.mean_error t i
  · have hfull := (conj (θ t).Z hb).add (hcov t).H
    have := hfull.submatrix (Subtype.val : {i // o t i} → p)
    convert this using 1
    ext i k
    have h3 := congrFun (congrFun hcovu i.1) k.1
    simp only [Matrix.submatrix_apply, Matrix.sub_apply, Matrix.add_apply]
    simp only [Matrix.add_apply] at h3
    have h4 : covM (covB μ) (fun i : {i // o t i} => (act (θ t).Z (errP h jitter o θ P0 t) + liftε h t) i)
      (fun i : {i // o t i} => (act (θ t).Z (errP h jitter o θ P0 t) + liftε h t) i) i k = _ := h3
    rw [h4]
    have h5 : (keep (o t) * (θ t).H) i.1 k.1 = (θ t).H i.1 k.1 := by rw [keep, diagonal_mul, if_pos i.2, one_mul]
    have h6 : (keep (o t) * (θ t).Z * covJ jitter o θ P0 t * (keep (o t) * (θ t).Z)ᵀ) i.1 k.1 =
        ((θ t).Z * covJ jitter o θ P0 t * (θ t).Zᵀ) i.1 k.1 := by
      rw [transpose_mul, keep_transpose, ← Matrix.mul_assoc, keep, mul_diagonal, if_pos k.2, mul_one, Matrix.mul_assoc,
        Matrix.mul_assoc, diagonal_mul, if_pos i.2, one_mul, Matrix.mul_assoc]
    rw [h5, h6]
    ring

/-! ### Intervals -/

namespace Cons

/-- A centred normal variable with a smaller variance falls into the interval at least as often. -/
theorem normal_inside {f : Ω → ℝ} (hf : HasGaussianLaw f μ) (hm : ∫ ω, f ω ∂μ = 0) {z s : ℝ} (hz : 0 ≤ z)
    (hs : Var[f; μ] ≤ s) : gaussianReal 0 1 (Set.Icc (-z) z) ≤ μ {ω | |f ω| ≤ z * √s} := by
  have hlaw := hf.map_eq_gaussianReal
  rw [hm] at hlaw
  have hv := variance_nonneg f μ
  have hset : {ω | |f ω| ≤ z * √s} = f ⁻¹' {x | |x| ≤ z * √s} := rfl
  have hmeas : MeasurableSet {x : ℝ | |x| ≤ z * √s} := measurableSet_le measurable_id.abs measurable_const
  rw [hset, ← Measure.map_apply_of_aemeasurable hf.aemeasurable hmeas, hlaw]
  have hscale := gaussianReal_map_const_mul (μ := 0) (v := 1) (√(Var[f; μ]))
  have hvar : (NNReal.mk (√(Var[f; μ]) ^ 2) (sq_nonneg _) * 1 : NNReal) = Var[f; μ].toNNReal := by
    ext
    simp [Real.sq_sqrt hv, hv]
  rw [mul_zero, hvar] at hscale
  rw [← hscale, Measure.map_apply (by fun_prop) hmeas]
  refine measure_mono fun x hx => ?_
  have hx' : |x| ≤ z := abs_le.2 ⟨hx.1, hx.2⟩
  show |√(Var[f; μ]) * x| ≤ z * √s
  rw [abs_mul, abs_of_nonneg (Real.sqrt_nonneg _), mul_comm]
  exact mul_le_mul hx' (Real.sqrt_le_sqrt hs) (Real.sqrt_nonneg _) hz

theorem act_mem {m k : Type*} [Fintype k] {S : Submodule ℝ (Ω → ℝ)} (A : Matrix m k ℝ) (x : k → L2 μ) (hx : ∀ i, (x i).1 ∈ S)
    (i : m) : (act A x i).1 ∈ S := by
  have : (act A x i).1 = ∑ l, A i l • (x l).1 := by simp [act]
  rw [this]
  exact S.sum_mem fun l _ => S.smul_mem _ (hx l)

theorem errP_mem (h : Spec.Process μ θ' a0 P0' X Y η ε) (j : ℝ) (o : ℕ → p → Prop) (t : ℕ) :
    ∀ i, (errP h j o θ P0 t i).1 ∈ Gauss.affine (Spec.sources X η ε) := by
  have hε : ∀ t i, (liftε h t i).1 ∈ Gauss.affine (Spec.sources X η ε) := fun t i =>
    Gauss.source_mem (Spec.sources X η ε) (.inr (.inr (t, i)))
  have hη : ∀ t i, (liftη h t i).1 ∈ Gauss.affine (Spec.sources X η ε) := fun t i =>
    Gauss.source_mem (Spec.sources X η ε) (.inr (.inl (t, i)))
  induction t with
  | zero =>
    intro i
    exact Submodule.sub_mem _ (Gauss.source_mem (Spec.sources X η ε) (.inl i)) (Submodule.smul_mem _ (a0 i) (Gauss.one_mem _))
  | succ t ih =>
    intro i
    exact Submodule.add_mem _ (act_mem _ _ (fun k => Submodule.sub_mem _ (act_mem _ _ ih k) (act_mem _ _ (hε t) k)) i)
      (act_mem _ _ (hη t) i)

theorem errF_mem (h : Spec.Process μ θ' a0 P0' X Y η ε) (j : ℝ) (o : ℕ → p → Prop) (t : ℕ) (i : n) :
    (errF h j o θ P0 t i).1 ∈ Gauss.affine (Spec.sources X η ε) :=
  Submodule.sub_mem _ (act_mem _ _ (errP_mem h j o t) i)
    (act_mem _ _ (fun l => Gauss.source_mem (Spec.sources X η ε) (.inr (.inr (t, l)))) i)

theorem inside {k : Type*} [Fintype k] (h : Spec.NormalProcess μ θ' a0 P0' X Y η ε) {e : k → Ω → ℝ} (u : k → L2 μ)
    (hu : ∀ i, (u i).1 ∈ Gauss.affine (Spec.sources X η ε)) (hae : ∀ᵐ ω ∂μ, ∀ i, e i ω = (u i).1 ω) {V : Matrix k k ℝ}
    (hV : Spec.Conservative μ e V) (w : k → ℝ) {z : ℝ} (hz : 0 ≤ z) :
    gaussianReal 0 1 (Set.Icc (-z) z) ≤ μ {ω | |∑ i, w i * e i ω| ≤ z * √(∑ i, ∑ l, w i * V i l * w l)} := by
  have hmem : (fun ω => ∑ i, w i * (u i).1 ω) ∈ Gauss.affine (Spec.sources X η ε) := by
    have : (fun ω => ∑ i, w i * (u i).1 ω) = ∑ i, w i • (u i).1 := by funext ω; simp
    rw [this]
    exact Submodule.sum_mem _ fun l _ => Submodule.smul_mem _ _ (hu l)
  have hg := (Gauss.of_affine h.normal (fun _ : Unit => fun ω => ∑ i, w i * (u i).1 ω) fun _ => hmem).hasGaussianLaw_eval ()
  have hef : (fun ω => ∑ i, w i * e i ω) =ᵐ[μ] fun ω => ∑ i, w i * (u i).1 ω := by
    filter_upwards [hae] with ω hω
    simp [hω]
  have hg' : HasGaussianLaw (fun ω => ∑ i, w i * e i ω) μ := ⟨by rw [Measure.map_congr hef]; exact hg.isGaussian_map⟩
  refine normal_inside hg' ?_ hz (hV.variance w)
  rw [integral_finsetSum _ fun i _ => ((hV.square_integrable i).integrable (by norm_num)).const_mul _]
  simp [integral_const_mul, hV.mean]

end Cons

/-- **C201 (intervals).** If the process is normal, then symmetric intervals around the reported predicted and filtered states,
for any combination of states, with half-width `z` reported standard deviations, contain the truth at least as often as a
standard normal variable falls between `-z` and `z`. -/
theorem C201_intervals (h : Spec.NormalProcess μ θ' a0 P0' X Y η ε) (hcov : ∀ t, Spec.Covers (θ t) (θ' t))
    (hH : ∀ t, (θ t).H.PosSemidef) (hQ : ∀ t, (θ t).Q.PosSemidef) (hP : P0.PosSemidef) (hPP : (P0 - P0').PosSemidef)
    (o : ℕ → p → Prop) (hd : ∀ t i k, ¬ o t i → o t k → (θ t).H i k = 0) {jitter : ℝ} (hj : 0 ≤ jitter) (fill : ℝ)
    (hfill : ∀ᵐ ω ∂μ, ∀ t i, o t i → Y t i ω ≠ fill) (N t : ℕ) (ht : t < N) (w : n → ℝ) {z : ℝ} (hz : 0 ≤ z) :
    let out := fun ω => buildGraph jitter fill a0 P0 (Spec.rowsSeen o θ Y N ω)
    gaussianReal 0 1 (Set.Icc (-z) z) ≤ μ {ω | |∑ i, w i * (X t i ω - (out ω).predictedStates.getD t 0 i)| ≤
      z * √(∑ i, ∑ l, w i * (out ω).predictedCovs.getD t 0 i l * w l)} ∧
    gaussianReal 0 1 (Set.Icc (-z) z) ≤ μ {ω | |∑ i, w i * (X t i ω - (out ω).filteredStates.getD t 0 i)| ≤
      z * √(∑ i, ∑ l, w i * (out ω).filteredCovs.getD t 0 i l * w l)} := by
  intro out
  have hok : Ok o θ := ⟨hH, hQ, hd⟩
  obtain ⟨V, hV1, hV2⟩ := C201_prediction h.toProcess hcov hH hQ hP hPP o hd hj fill hfill N t ht
  obtain ⟨W, hW1, hW2⟩ := C201_filter h.toProcess hcov hH hQ hP hPP o hd hj fill hfill N t ht
  refine ⟨(inside h (errP h.toProcess jitter o θ P0 t) (errP_mem _ _ _ t) ?_ hV2 w hz).trans ?_,
    (inside h (errF h.toProcess jitter o θ P0 t) (errF_mem _ _ _ t) ?_ hW2 w hz).trans ?_⟩
  · filter_upwards [hfill] with ω hω i
    rw [rowsSeen_eq, (out_carried jitter fill a0 P0 _ θ N t ht).1]
    exact (err_link h.toProcess hcov hok hω t).1 i
  · refine measure_mono_ae ?_
    filter_upwards [hV1] with ω hω h1
    show _ ≤ _
    simp only [out, hω]
    exact h1
  · filter_upwards [hfill] with ω hω i
    rw [rowsSeen_eq, (out_carried jitter fill a0 P0 _ θ N t ht).2.2.1]
    exact (err_link h.toProcess hcov hok hω t).2 i
  · refine measure_mono_ae ?_
    filter_upwards [hW1] with ω hω h1
    show _ ≤ _
    simp only [out, hω]
    refine (show _ ≤ _ from h1).trans (mul_le_mul_of_nonneg_left (Real.sqrt_le_sqrt ?_) hz)
    refine Finset.sum_le_sum fun i _ => ?_
    have : ∀ l, w i * (W + jitter • (1 : Matrix n n ℝ)) i l * w l = w i * W i l * w l + if i = l then jitter * w i ^ 2 else 0 := by
      intro l
      by_cases hil : i = l
      · subst hil; simp [Matrix.one_apply]; ring
      · simp [Matrix.one_apply, hil]
    simp only [this, Finset.sum_add_distrib, Finset.sum_ite_eq, Finset.mem_univ, if_true]
    have := mul_nonneg hj (sq_nonneg (w i))
    linarith

/-! ### Jitter against no jitter -/

namespace Cons

/-- No gain gives a smaller filtered covariance than the exact gain. -/
theorem gain_optimal {P : Matrix n n ℝ} (hP : P.PosSemidef) (Z : Matrix p n ℝ) {H : Matrix p p ℝ} (hH : H.PosSemidef)
    (hF : IsUnit (Z * P * Zᵀ + H).det) (K : Matrix n p ℝ) :
    ((1 - K * Z) * P * (1 - K * Z)ᵀ + K * H * Kᵀ -
      ((1 - P * Zᵀ * (Z * P * Zᵀ + H)⁻¹ * Z) * P * (1 - P * Zᵀ * (Z * P * Zᵀ + H)⁻¹ * Z)ᵀ +
        P * Zᵀ * (Z * P * Zᵀ + H)⁻¹ * H * (P * Zᵀ * (Z * P * Zᵀ + H)⁻¹)ᵀ)).PosSemidef := by
  have hPt := PosSemidef.transpose_eq hP
  have hHt := PosSemidef.transpose_eq hH
  set F := Z * P * Zᵀ + H with hFd
  have hFp : F.PosSemidef := by
    have := hP.mul_mul_conjTranspose_same Z
    rw [conjTranspose_eq_transpose_of_trivial] at this
    exact this.add hH
  have hFt := PosSemidef.transpose_eq hFp
  have hex : ∀ K : Matrix n p ℝ, (1 - K * Z) * P * (1 - K * Z)ᵀ + K * H * Kᵀ =
      P - K * (Z * P) - P * Zᵀ * Kᵀ + K * F * Kᵀ := by
    intro K
    simp only [hFd, transpose_sub, transpose_one, transpose_mul, Matrix.sub_mul, Matrix.mul_sub, Matrix.one_mul, Matrix.mul_one,
      Matrix.mul_add, Matrix.add_mul, Matrix.mul_assoc]
    abel
  have hquad := hFp.mul_mul_conjTranspose_same (K - P * Zᵀ * F⁻¹)
  rw [conjTranspose_eq_transpose_of_trivial] at hquad
  rw [hex, hex]
  convert hquad using 1
  have h1 : P * Zᵀ * F⁻¹ * F = P * Zᵀ := by rw [Matrix.mul_assoc, nonsing_inv_mul _ hF, Matrix.mul_one]
  have h2 : F * (P * Zᵀ * F⁻¹)ᵀ = Z * P := by
    rw [transpose_mul, transpose_mul, transpose_nonsing_inv, hFt, ← Matrix.mul_assoc, mul_nonsing_inv _ hF, Matrix.one_mul,
      transpose_transpose, hPt]
  have h3 : P * Zᵀ * F⁻¹ * (Z * P) = P * Zᵀ * (P * Zᵀ * F⁻¹)ᵀ := by rw [← h2, ← Matrix.mul_assoc, h1]
  have h4 : K * F * (P * Zᵀ * F⁻¹)ᵀ = K * (Z * P) := by rw [Matrix.mul_assoc, h2]
  rw [transpose_sub, Matrix.sub_mul, Matrix.sub_mul, Matrix.mul_sub, Matrix.mul_sub, h1, h3, h4]
  abel

theorem keep_all : keep (fun _ : p => True) = (1 : Matrix p p ℝ) := by
  classical
  rw [keep]; simp

/-- Everything recorded, as a pattern. -/
def full (p : Type*) : ℕ → p → Prop := fun _ _ => True

theorem never_below (hH : ∀ t, (θ t).H.PosSemidef) (hQ : ∀ t, (θ t).Q.PosSemidef) (hP : P0.PosSemidef) {j : ℝ} (hj : 0 ≤ j) (N : ℕ)
    (hF : ∀ t, t < N → IsUnit ((θ t).Z * covJ 0 (full p) θ P0 t * (θ t).Zᵀ + (θ t).H).det) (t : ℕ) (ht : t < N) :
    (covJ j (full p) θ P0 t - covJ 0 (full p) θ P0 t).PosSemidef ∧
    (filtJ j (full p t) (covJ j (full p) θ P0 t) (θ t) - j • 1 - filtJ 0 (full p t) (covJ 0 (full p) θ P0 t) (θ t)).PosSemidef := by
  have hok : Ok (full p) θ := ⟨hH, hQ, fun t i k hi _ => absurd trivial hi⟩
  have filt : ∀ t, t < N → (covJ j (full p) θ P0 t - covJ 0 (full p) θ P0 t).PosSemidef →
      (filtJ j (full p t) (covJ j (full p) θ P0 t) (θ t) - j • 1 - filtJ 0 (full p t) (covJ 0 (full p) θ P0 t) (θ t)).PosSemidef := by
    intro t ht ih
    have c1 := covJ_posSemidef (θ := θ) hj hok hP t
    have c0 := covJ_posSemidef (θ := θ) le_rfl hok hP t
    rw [filtJ_eq j (PosSemidef.transpose_eq c1) (PosSemidef.transpose_eq (hH t)) (hok.dec t),
      filtJ_eq 0 (PosSemidef.transpose_eq c0) (PosSemidef.transpose_eq (hH t)) (hok.dec t), add_sub_cancel_right, zero_smul, add_zero]
    have hg : gainJ 0 (full p t) (covJ 0 (full p) θ P0 t) (θ t) = covJ 0 (full p) θ P0 t * (θ t).Zᵀ *
        ((θ t).Z * covJ 0 (full p) θ P0 t * (θ t).Zᵀ + (θ t).H)⁻¹ := by
      rw [gainJ, gain_eq, innovCov, stabilize_zero, show full p t = fun _ => True from rfl, keep_all, Matrix.one_mul, Matrix.one_mul,
        Matrix.mul_assoc (θ t).Z]
    have h1 := conj (1 - gainJ j (full p t) (covJ j (full p) θ P0 t) (θ t) * (θ t).Z) ih
    have h2 := gain_optimal c0 (θ t).Z (hH t) (hF t ht) (gainJ j (full p t) (covJ j (full p) θ P0 t) (θ t))
    rw [hg]
    convert h1.add h2 using 1
    abel
  induction t with
  | zero =>
    have h0 : (covJ j (full p) θ P0 0 - covJ 0 (full p) θ P0 0).PosSemidef := by
      rw [covJ, covJ, sub_self]; exact Matrix.PosSemidef.zero
    exact ⟨h0, filt 0 ht h0⟩
  | succ t ih =>
    obtain ⟨i1, i2⟩ := ih (by omega)
    have c1 := covJ_posSemidef (θ := θ) hj hok hP t
    have c0 := covJ_posSemidef (θ := θ) le_rfl hok hP t
    have h1 : (covJ j (full p) θ P0 (t + 1) - covJ 0 (full p) θ P0 (t + 1)).PosSemidef := by
      have hf : (filtJ j (full p t) (covJ j (full p) θ P0 t) (θ t) - filtJ 0 (full p t) (covJ 0 (full p) θ P0 t) (θ t)).PosSemidef := by
        have := stabilize_posSemidef hj i2
        rw [stabilize] at this
        convert this using 1
        abel
      rw [covJ, covJ, quadFormSym_of_symm _ (PosSemidef.transpose_eq (filtJ_posSemidef hj c1 (hH t) (hok.dec t))),
        quadFormSym_of_symm _ (PosSemidef.transpose_eq (filtJ_posSemidef le_rfl c0 (hH t) (hok.dec t))), add_sub_add_right_eq_sub]
      exact conj (θ t).T hf
    exact ⟨h1, filt _ ht h1⟩

end Cons

/-- **C201 (jitter against no jitter).** On complete data, whenever the forecast covariances of the filter without jitter are
invertible, jitter can only enlarge the reported covariances: those of the filtered states and of the forecasts by at least the
jitter itself. -/
theorem C201_never_below_exact (hH : ∀ t, (θ t).H.PosSemidef) (hQ : ∀ t, (θ t).Q.PosSemidef) (hP : P0.PosSemidef)
    {jitter : ℝ} (hj : 0 ≤ jitter) (fill : ℝ) (y : ℕ → p → ℝ) (hy : ∀ t i, y t i ≠ fill) (N : ℕ)
    (hF : ∀ t, t < N → ((buildGraph 0 fill a0 P0 ((List.range N).map fun t => ((fun i => some (y t i) : Row p), θ t))).observedCovs.getD t 0).det ≠ 0)
    (t : ℕ) (ht : t < N) :
    let out := fun jitter => buildGraph jitter fill a0 P0 ((List.range N).map fun t => ((fun i => some (y t i) : Row p), θ t))
    ((out jitter).predictedCovs.getD t 0 - (out 0).predictedCovs.getD t 0).PosSemidef ∧
    ((out jitter).filteredCovs.getD t 0 - jitter • 1 - (out 0).filteredCovs.getD t 0).PosSemidef ∧
    ((out jitter).observedCovs.getD t 0 - jitter • 1 - (out 0).observedCovs.getD t 0).PosSemidef := by
  classical
  intro out
  have hrow : ∀ t, (fun i => some (y t i) : Row p) = row (full p) y t := by intro t; funext i; simp [Cons.row, full]
  have hy' : ∀ t i, full p t i → y t i ≠ fill := fun t i _ => hy t i
  have hobs : ∀ j t, t < N → (out j).observedCovs.getD t 0 = (θ t).Z * covJ j (full p) θ P0 t * (θ t).Zᵀ + (θ t).H + j • 1 := by
    intro j t ht
    simp only [out, hrow]
    rw [(out_obs j fill a0 P0 (row (full p) y) θ N t ht).2]
    simp only [kalmanStep, handleMissing, maskW_row hy', update, (carried_cov (a0 := a0) hy' t).1, innovCov, stabilize]
    rw [show full p t = fun _ => True from rfl, keep_all, Matrix.one_mul, Matrix.one_mul, Matrix.mul_assoc, add_assoc]
  have hpred : ∀ j t, t < N → (out j).predictedCovs.getD t 0 = covJ j (full p) θ P0 t := by
    intro j t ht
    simp only [out, hrow]
    rw [(out_carried j fill a0 P0 (row (full p) y) θ N t ht).2.1]
    exact (carried_cov (a0 := a0) hy' t).1
  have hfilt : (∀ j, (out j).filteredCovs.getD t 0 = filtJ j (full p t) (covJ j (full p) θ P0 t) (θ t)) := by
    intro j
    simp only [out, hrow]
    rw [(out_carried j fill a0 P0 (row (full p) y) θ N t ht).2.2.2]
    exact (carried_cov (a0 := a0) hy' t).2
  have hF' : ∀ t, t < N → IsUnit ((θ t).Z * covJ 0 (full p) θ P0 t * (θ t).Zᵀ + (θ t).H).det := by
    intro t ht
    have := hF t ht
    rw [show buildGraph 0 fill a0 P0 _ = out 0 from rfl, hobs 0 t ht, zero_smul, add_zero] at this
    exact isUnit_iff_ne_zero.2 this
  obtain ⟨h1, h2⟩ := never_below (θ := θ) hH hQ hP hj N hF' t ht
  refine ⟨by rw [hpred _ t ht, hpred _ t ht]; exact h1, by rw [hfilt, hfilt]; exact h2, ?_⟩
  rw [hobs _ t ht, hobs _ t ht, add_sub_cancel_right, zero_smul, add_zero, add_sub_add_right_eq_sub]
  exact conj (θ t).Z h1

/-- **C201 (jitter against no jitter, non-singular errors).** If the measurement errors have a non-singular covariance matrix,
the forecast covariances without jitter are invertible, so jitter can only enlarge the reported covariances. -/
theorem C201_never_below_exact_errors (hH : ∀ t, (θ t).H.PosDef) (hQ : ∀ t, (θ t).Q.PosSemidef) (hP : P0.PosSemidef)
    {jitter : ℝ} (hj : 0 ≤ jitter) (fill : ℝ) (y : ℕ → p → ℝ) (hy : ∀ t i, y t i ≠ fill) (N t : ℕ) (ht : t < N) :
    let out := fun jitter => buildGraph jitter fill a0 P0 ((List.range N).map fun t => ((fun i => some (y t i) : Row p), θ t))
    ((out jitter).predictedCovs.getD t 0 - (out 0).predictedCovs.getD t 0).PosSemidef ∧
    ((out jitter).filteredCovs.getD t 0 - jitter • 1 - (out 0).filteredCovs.getD t 0).PosSemidef ∧
    ((out jitter).observedCovs.getD t 0 - jitter • 1 - (out 0).observedCovs.getD t 0).PosSemidef := by
  classical
  refine C201_never_below_exact (fun t => (hH t).posSemidef) hQ hP hj fill y hy N (fun t ht => ?_) t ht
  have hrow : ∀ t, (fun i => some (y t i) : Row p) = Cons.row (full p) y t := by intro t; funext i; simp [Cons.row, full]
  have hy' : ∀ t i, full p t i → y t i ≠ fill := fun t i _ => hy t i
  have hok : Ok (full p) θ := ⟨fun t => (hH t).posSemidef, hQ, fun t i k hi _ => absurd trivial hi⟩
  simp only [hrow]
  rw [(out_obs 0 fill a0 P0 (Cons.row (full p) y) θ N t ht).2]
  simp only [kalmanStep, handleMissing, maskW_row hy', update, (carried_cov (a0 := a0) hy' t).1, innovCov, stabilize]
  rw [show full p t = fun _ => True from rfl, keep_all, Matrix.one_mul, Matrix.one_mul, zero_smul, add_zero, ← Matrix.mul_assoc]
  have h1 := (covJ_posSemidef (θ := θ) (j := 0) le_rfl hok hP t).mul_mul_conjTranspose_same (θ t).Z
  rw [conjTranspose_eq_transpose_of_trivial] at h1
  exact (Matrix.PosDef.posSemidef_add h1 (hH t)).det_pos.ne'

/-- C201 applies to one state seen through two series, the second recorded every other date, when the user doubles the initial
variance and the error variances and keeps a jitter of `1/100`. -/
example (N t : ℕ) (ht : t < N) : ∃ (Ω : Type) (_ : MeasurableSpace Ω) (μ : Measure Ω) (X : ℕ → Fin 1 → Ω → ℝ)
    (Y : ℕ → Fin 2 → Ω → ℝ) (fill : ℝ) (V : Matrix (Fin 1) (Fin 1) ℝ),
      Spec.Conservative μ (fun i ω => X t i ω - (buildGraph (1 / 100) fill 0 ((2 : ℝ) • 1)
        (Spec.rowsSeen (fun t i => i = 0 ∨ t % 2 = 0) (fun _ => { twoSeries with H := (2 : ℝ) • 1 }) Y N ω)).filteredStates.getD t 0 i) V := by
  have h21 : ∀ m : ℕ, ((2 : ℝ) • (1 : Matrix (Fin m) (Fin m) ℝ)).PosSemidef := fun m => Matrix.PosSemidef.one.smul (by norm_num)
  have hsub : ∀ m : ℕ, ((2 : ℝ) • (1 : Matrix (Fin m) (Fin m) ℝ) - 1).PosSemidef := fun m => by
    rw [two_smul, add_sub_cancel_right]; exact Matrix.PosSemidef.one
  obtain ⟨Ω, mΩ, μ, hμ, X, Y, η, ε, fill, h, hfill⟩ := exists_process (fun _ => twoSeries) 0
    (P0 := 1) Matrix.PosSemidef.one (fun _ => Matrix.PosSemidef.one) (fun _ => Matrix.PosSemidef.one)
  obtain ⟨V, -, hV⟩ := C201_filter h (θ := fun _ => { twoSeries with H := (2 : ℝ) • 1 })
    (fun _ => ⟨rfl, rfl, rfl, rfl, rfl, hsub 2, by simpa [twoSeries] using Matrix.PosSemidef.zero⟩) (fun _ => h21 2)
    (fun _ => Matrix.PosSemidef.one) (h21 1) (hsub 1)
    (fun t i => i = 0 ∨ t % 2 = 0)
    (fun t i k hi hk => by
      have : i ≠ k := by rintro rfl; exact hi hk
      simp [Matrix.one_apply_ne this])
    (jitter := 1 / 100) (by norm_num) fill (hfill.mono fun ω hω t i _ => hω t i) N t ht
  exact ⟨Ω, mΩ, μ, X, Y, fill, V, hV⟩

end Verif.Kalman
