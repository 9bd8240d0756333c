import Verif.Stationary.Props
import Verif.Simulate.ForecastProps
import Verif.Kalman.Gap

/-!
# C218: long runs and long forecasts end in the stationary distribution

With a stable transition the stationary initialisation is also where simulations, forecasts and runs of unrecorded dates end.
-/

set_option autoImplicit false
set_option linter.unusedSectionVars false

open Matrix Filter Topology MeasureTheory ProbabilityTheory

namespace Verif.Stationary

open Verif.Kalman (Params Row)
open Verif.Simulate

namespace LongRun

variable {n : Type*} [Fintype n] [DecidableEq n]

theorem mulVec_tendsto {M : ℕ → Matrix n n ℝ} {L : Matrix n n ℝ} (h : Tendsto M atTop (𝓝 L)) (x : n → ℝ) :
    Tendsto (fun t => M t *ᵥ x) atTop (𝓝 (L *ᵥ x)) :=
  ((continuous_id.matrix_mulVec continuous_const).tendsto L).comp h

/-- A recursion for the mean. -/
theorem mean_tendsto {T : Matrix n n ℝ} (hT : Spec.Stable T) {c x : n → ℝ} (hx : T *ᵥ x + c = x) {m : ℕ → n → ℝ}
    (hm : ∀ t, m (t + 1) = T *ᵥ m t + c) : Tendsto m atTop (𝓝 x) := by
  have h1 : ∀ t, m t = x + T ^ t *ᵥ (m 0 - x) := by
    intro t
    induction t with
    | zero => simp
    | succ t ih =>
      rw [hm, ih, mulVec_add, mulVec_mulVec, ← pow_succ']
      have h2 : T *ᵥ x + T ^ (t + 1) *ᵥ (m 0 - x) + c = (T *ᵥ x + c) + T ^ (t + 1) *ᵥ (m 0 - x) := by abel
      rw [h2, hx]
  have h2 := (mulVec_tendsto hT (m 0 - x)).const_add x
  rw [zero_mulVec, add_zero] at h2
  exact h2.congr fun t => (h1 t).symm

/-- A recursion for the covariance, from some date on. -/
theorem cov_tendsto {T W X : Matrix n n ℝ} (hT : Spec.Stable T) (hX : T * X * Tᵀ + W = X) {C : ℕ → Matrix n n ℝ} (t1 : ℕ)
    (hC : ∀ t, t1 ≤ t → C (t + 1) = T * C t * Tᵀ + W) : Tendsto C atTop (𝓝 X) := by
  have h1 : ∀ t, C (t + t1) = X + T ^ t * (C t1 - X) * (T ^ t)ᵀ := by
    intro t
    induction t with
    | zero => simp
    | succ t ih =>
      rw [show t + 1 + t1 = t + t1 + 1 by ring, hC _ (by omega), ih]
      have h2 : T * (X + T ^ t * (C t1 - X) * (T ^ t)ᵀ) * Tᵀ + W =
          T * X * Tᵀ + W + (T * T ^ t) * (C t1 - X) * ((T ^ t)ᵀ * Tᵀ) := by
        simp only [Matrix.mul_add, Matrix.add_mul, Matrix.mul_assoc]
        abel
      rw [h2, hX, ← pow_succ', ← transpose_mul, ← pow_succ']
  refine (tendsto_add_atTop_iff_nat t1).1 ?_
  have h2 := (stable_sandwich hT (C t1 - X)).const_add X
  rw [add_zero] at h2
  exact h2.congr fun t => (h1 t).symm

theorem mean_rec (T : Matrix n n ℝ) (b c : n → ℝ) (t : ℕ) :
    T ^ (t + 1) *ᵥ b + ∑ i ∈ Finset.range (t + 1), T ^ i *ᵥ c =
      T *ᵥ (T ^ t *ᵥ b + ∑ i ∈ Finset.range t, T ^ i *ᵥ c) + c := by
  rw [Finset.sum_range_succ', mulVec_add, mulVec_mulVec, ← pow_succ', mulVec_sum]
  simp only [mulVec_mulVec, ← pow_succ', pow_zero, one_mulVec, add_assoc]

theorem cov_rec (T B W : Matrix n n ℝ) (t : ℕ) :
    T ^ (t + 1) * B * (T ^ (t + 1))ᵀ + ∑ i ∈ Finset.range (t + 1), T ^ i * W * (T ^ i)ᵀ =
      T * (T ^ t * B * (T ^ t)ᵀ + ∑ i ∈ Finset.range t, T ^ i * W * (T ^ i)ᵀ) * Tᵀ + W := by
  rw [Finset.sum_range_succ', Matrix.mul_add, Matrix.add_mul, Matrix.mul_sum, Matrix.sum_mul]
  simp only [pow_succ', transpose_mul, Matrix.mul_assoc, pow_zero, Matrix.one_mul, transpose_one, Matrix.mul_one, add_assoc]

end LongRun

open LongRun

variable {Ω : Type*} [MeasurableSpace Ω] {μ : Measure Ω} [IsProbabilityMeasure μ] {z : ℕ → Ω → ℝ}
variable {k p r : ℕ} {F : ∀ m : ℕ, Matrix (Fin m) (Fin m) ℝ → Matrix (Fin m) (Fin m) ℝ}

/-- **C218 (simulation).** Constant matrices, a stable transition, any initial mean and covariance: the mean and the covariance of
the last state of a simulation tend, as the number of steps grows, to those of the stationary initialisation. -/
theorem C218_simulation (h : Spec.WhiteNoise μ z) (hp : p ≠ 0) {θ : Params (Fin k) (Fin p) (Fin r)} (hT : Spec.Stable θ.T)
    (hQ : θ.Q.PosSemidef) (a0 : Fin k → ℝ) {P0 : Matrix (Fin k) (Fin k) ℝ} (hF : Spec.Factors F P0 fun _ => θ) :
    let x := fun (t : ℕ) (i : Fin k) => Spec.state F a0 P0 (fun _ => θ) z t t i
    let s := stationaryInit θ.c θ.T θ.R θ.Q
    Tendsto (fun t => fun i => ∫ ω, x t i ω ∂μ) atTop (𝓝 s.1) ∧
    Tendsto (fun t => Matrix.of fun i j => cov[x t i, x t j; μ]) atTop (𝓝 s.2) := by
  intro x s
  obtain ⟨-, -, h3, h4, -⟩ := C170_fixed_point θ.c hT θ.R hQ
  constructor
  · refine (mean_tendsto hT ((h3 s.1).2 rfl) (m := carry θ a0) fun t => rfl).congr fun t => ?_
    funext i
    simp only [x]
    rw [state_eq h hp t t le_rfl]
    exact (mean_rvX h t (carry θ a0) rfl (fun t => rfl) i).symm
  · refine cov_tendsto hT ((h4 s.2).2 rfl) k fun t ht => ?_
    simp only [x]
    have h5 := covM_state (F := F) (a0 := a0) (P0 := P0) (θ := fun _ => θ) h hp
    rw [h5 (t + 1) (t + 1) le_rfl, h5 t t le_rfl, cov_rvX_succ h hF t, overlap_zero]
    · simp
    · calc k ≤ t * 1 := by omega
        _ ≤ t * (r + p) := Nat.mul_le_mul_left _ (by omega)

/-- **C218 (forecasts).** Whatever the data, the start date and the filter output the forecast starts from: with a stable transition
the mean of the forecast draws of the state tends, as the horizon grows, to the stationary mean, that of the series to `d + Z` times
it, and the covariance of the draws of the state to the stationary covariance. -/
theorem C218_forecast (h : Spec.WhiteNoise μ z) (hp : p ≠ 0) {θ : Params (Fin k) (Fin p) (Fin r)} (hT : Spec.Stable θ.T)
    (hQ : θ.Q.PosSemidef) (fill : ℝ) (o : FilterOutput) (a0 : Fin k → ℝ) (P0 : Matrix (Fin k) (Fin k) ℝ) (data : List (Row (Fin p)))
    (t0 : ℕ) {x0 : Fin k → ℝ} {P : Matrix (Fin k) (Fin k) ℝ} (hst : forecastStart fill o θ a0 P0 data t0 = some (x0, P))
    (hF : Spec.Factors F P fun _ => θ) :
    let s := stationaryInit θ.c θ.T θ.R θ.Q
    let draws := fun (t : ℕ) (i : Fin k) (ω : Ω) => latent p (forecast F (stream fun q => z q ω) 0 fill o θ a0 P0 data t0 (t + 1)) t i
    Tendsto (fun t => Spec.meanState μ z F fill o θ a0 P0 data t0 (t + 1) t) atTop (𝓝 s.1) ∧
    Tendsto (fun t => Spec.meanObs μ z F fill o θ a0 P0 data t0 (t + 1) t) atTop (𝓝 (θ.d + θ.Z *ᵥ s.1)) ∧
    Tendsto (fun t => Matrix.of fun i j => cov[draws t i, draws t j; μ]) atTop (𝓝 s.2) := by
  intro s draws
  obtain ⟨-, -, h3, -, -⟩ := C170_fixed_point θ.c hT θ.R hQ
  have hc := (tendsto_add_atTop_iff_nat 1).2 (mean_tendsto hT ((h3 s.1).2 rfl) (m := carry θ x0) fun t => rfl)
  refine ⟨hc.congr fun t => ?_, ?_, ?_⟩
  · funext i
    simp only [Spec.meanState, forecast, hst]
    rw [mean_latent h hp _ _ (t + 1) t (by omega)]
  · have h5 : Tendsto (fun t => θ.d + θ.Z *ᵥ carry θ x0 (t + 1)) atTop (𝓝 (θ.d + θ.Z *ᵥ s.1)) :=
      (((continuous_const.matrix_mulVec continuous_id).tendsto s.1).comp hc).const_add θ.d
    refine h5.congr fun t => ?_
    funext i
    simp only [Spec.meanObs, forecast, hst]
    rw [mean_observed h hp _ _ (t + 1) t (by omega)]
  · have h6 := (tendsto_add_atTop_iff_nat 1).2 (C218_simulation h hp hT hQ x0 hF).2
    refine h6.congr fun t => ?_
    have hd : ∀ i, draws t i = Spec.state F x0 P (fun _ => θ) z (t + 1) (t + 1) i := by
      intro i
      funext ω
      simp only [draws, forecast, hst, Spec.state]
      exact (C183_forecast_rows hp (t + 1) t (by omega) _ i ⟨0, Nat.pos_of_ne_zero hp⟩).1
    simp only [hd]

/-- **C218 (unrecorded dates).** The filter's own forecasts, made by appending dates on which nothing is recorded: their mean tends
to the stationary mean too, but their covariance to the stationary covariance plus, for a positive jitter, jitter times the matrix
`G` with `G = T G T' + T T'`. -/
theorem C218_unrecorded {n p r : Type*} [Fintype n] [Fintype p] [Fintype r] [DecidableEq n] [DecidableEq p] [DecidableEq r] {j : ℝ}
    (hj : 0 < j) (fill : ℝ) (a0 : n → ℝ) (P0 : Matrix n n ℝ) (pre : List (Row p × Params n p r)) (y : Row p) {θ : Params n p r}
    (hT : Spec.Stable θ.T) (hQ : θ.Q.PosSemidef) {empty : Row p} (hempty : ∀ i, Kalman.Spec.Missing fill (empty i)) :
    let out := fun h : ℕ => Kalman.buildGraph j fill a0 P0 (pre ++ (y, θ) :: List.replicate h (empty, θ))
    let s := stationaryInit θ.c θ.T θ.R θ.Q
    Tendsto (fun h => (out (h + 1)).predictedStates.getLastD 0) atTop (𝓝 s.1) ∧
    ∃ G : Matrix n n ℝ, G.PosSemidef ∧ (G - θ.T * θ.Tᵀ).PosSemidef ∧ θ.T * G * θ.Tᵀ + θ.T * θ.Tᵀ = G ∧
      Tendsto (fun h => (out (h + 1)).predictedCovs.getLastD 0) atTop (𝓝 (s.2 + j • G)) := by
  intro out s
  have hQs : θ.Qᵀ = θ.Q := Kalman.PosSemidef.transpose_eq hQ
  obtain ⟨-, h2, h3, h4, -⟩ := C170_fixed_point θ.c hT θ.R hQ
  have hTT : (θ.T * θ.Tᵀ).PosSemidef := by
    have := (PosSemidef.one (n := n) (R := ℝ)).mul_mul_conjTranspose_same θ.T
    rwa [conjTranspose_eq_transpose_of_trivial, Matrix.mul_one] at this
  set G := lyapunov θ.T (θ.T * θ.Tᵀ)
  have hG : θ.T * G * θ.Tᵀ + θ.T * θ.Tᵀ = G := lyapunov_solves _ h2
  have hGp : G.PosSemidef := posSemidef_of_stable hT hTT hG
  obtain ⟨m, V, -, -, -⟩ := Kalman.C210_gap hj fill a0 P0 pre y θ hQs [] (by simp)
  have hgap : ∀ h : ℕ, ∃ m V, (Kalman.buildGraph j fill a0 P0 (pre ++ [(y, θ)])).filteredStates.getLast? = some m ∧
      (Kalman.buildGraph j fill a0 P0 (pre ++ [(y, θ)])).filteredCovs.getLast? = some V ∧
      (out (h + 1)).predictedStates.getLastD 0 = (θ.T ^ h) *ᵥ (θ.T *ᵥ m + θ.c) + ∑ i ∈ Finset.range h, (θ.T ^ i) *ᵥ θ.c ∧
      (out (h + 1)).predictedCovs.getLastD 0 = θ.T ^ h * (θ.T * V * θ.Tᵀ + θ.R * θ.Q * θ.Rᵀ) * (θ.T ^ h)ᵀ +
          ∑ i ∈ Finset.range h, θ.T ^ i * (θ.R * θ.Q * θ.Rᵀ + j • (θ.T * θ.Tᵀ)) * (θ.T ^ i)ᵀ := by
    intro h
    obtain ⟨m, V, hm, hV, hp1, hp2, -⟩ := Kalman.C210_gap hj fill a0 P0 pre y θ hQs (List.replicate (h + 1) (empty, θ))
      (fun x hx => by rw [List.eq_of_mem_replicate hx]; exact ⟨hempty, hQs⟩)
    have hcf := Kalman.C210_closed_form j θ (Kalman.Spec.next θ (m, V)) (h + 1) h (by omega)
    have hlen : (Kalman.Spec.forecasts j (Kalman.Spec.next θ (m, V)) (List.replicate (h + 1) θ)).length = h + 1 := by
      have : ∀ (l : List (Params n p r)) s, (Kalman.Spec.forecasts j s l).length = l.length := by
        intro l
        induction l with
        | nil => intro s; rfl
        | cons x xs ih => intro s; simp [Kalman.Spec.forecasts, ih]
      rw [this]; simp
    have hlast : (Kalman.Spec.forecasts j (Kalman.Spec.next θ (m, V)) (List.replicate (h + 1) θ)).getLast? =
        (Kalman.Spec.forecasts j (Kalman.Spec.next θ (m, V)) (List.replicate (h + 1) θ))[h]? := by
      rw [List.getLast?_eq_getElem?, hlen, Nat.add_sub_cancel]
    rw [hcf] at hlast
    refine ⟨m, V, hm, hV, ?_, ?_⟩
    · simp only [out]
      rw [hp1, List.getLastD_eq_getLast?, List.getLast?_append, List.getLast?_map, List.map_replicate, hlast]
      rfl
    · simp only [out]
      rw [hp2, List.getLastD_eq_getLast?, List.getLast?_append, List.getLast?_map, List.map_replicate, hlast]
      rfl
  obtain ⟨m, V, hm, hV, -, -⟩ := hgap 0
  have hgap' : ∀ h : ℕ, (out (h + 1)).predictedStates.getLastD 0 =
      (θ.T ^ h) *ᵥ (θ.T *ᵥ m + θ.c) + ∑ i ∈ Finset.range h, (θ.T ^ i) *ᵥ θ.c ∧
      (out (h + 1)).predictedCovs.getLastD 0 = θ.T ^ h * (θ.T * V * θ.Tᵀ + θ.R * θ.Q * θ.Rᵀ) * (θ.T ^ h)ᵀ +
          ∑ i ∈ Finset.range h, θ.T ^ i * (θ.R * θ.Q * θ.Rᵀ + j • (θ.T * θ.Tᵀ)) * (θ.T ^ i)ᵀ := by
    intro h
    obtain ⟨m', V', hm', hV', g1, g2⟩ := hgap h
    obtain rfl : m = m' := Option.some.inj (hm.symm.trans hm')
    obtain rfl : V = V' := Option.some.inj (hV.symm.trans hV')
    exact ⟨g1, g2⟩
  refine ⟨?_, G, hGp, ?_, hG, ?_⟩
  · refine (mean_tendsto hT ((h3 s.1).2 rfl) fun t => ?_)
    rw [(hgap' (t + 1)).1, (hgap' t).1, mean_rec]
  · have h5 := hGp.mul_mul_conjTranspose_same θ.T
    rw [conjTranspose_eq_transpose_of_trivial] at h5
    have h6 : G - θ.T * θ.Tᵀ = θ.T * G * θ.Tᵀ := by
      conv_lhs => enter [1]; rw [← hG]
      abel
    rwa [h6]
  · have hX : θ.T * (s.2 + j • G) * θ.Tᵀ + (θ.R * θ.Q * θ.Rᵀ + j • (θ.T * θ.Tᵀ)) = s.2 + j • G := by
      conv_rhs => rw [← (h4 s.2).2 rfl, ← hG]
      simp only [Matrix.mul_add, Matrix.add_mul, Matrix.mul_smul, Matrix.smul_mul, smul_add]
      abel
    refine cov_tendsto hT hX 0 fun t _ => ?_
    rw [(hgap' (t + 1)).2, (hgap' t).2, cov_rec]

/-- **C218 (impulse responses).** With a stable transition the response to an initial shock tends to `(1 − T)⁻¹ c`, the stationary
mean; so it dies out exactly if the state intercept is zero. -/
theorem C218_impulse_response (c : Fin k → ℝ) {T : Matrix (Fin k) (Fin k) ℝ} (hT : Spec.Stable T) (R : Matrix (Fin k) (Fin r) ℝ)
    (u : Fin r → ℝ) :
    let resp := fun t : ℕ => ((initialShockTrajectory (t + 1) u).map fun us => (irfScan c T R 0 us).getD t 0).getD 0
    Tendsto resp atTop (𝓝 ((1 - T)⁻¹ *ᵥ c)) ∧ (Tendsto resp atTop (𝓝 0) ↔ c = 0) := by
  intro resp
  obtain ⟨h1, -, h3, -, -⟩ := C170_fixed_point c hT (0 : Matrix (Fin k) (Fin 1) ℝ) PosSemidef.zero
  have hx := (h3 ((1 - T)⁻¹ *ᵥ c)).2 rfl
  have hr : ∀ t, resp t = (T ^ t) *ᵥ (R *ᵥ u + c) + ∑ i ∈ Finset.range t, (T ^ i) *ᵥ c := by
    intro t
    have h5 := (C21_irf_initial_shock c T R u (t + 1) (u :: List.replicate t 0) rfl).2 t (by omega)
    simp only [resp, initialShockTrajectory, Option.map_some, Option.getD_some, List.getD_eq_getElem?_getD, h5]
    rw [Finset.sum_range_succ, mulVec_add]
    abel
  have hlim : Tendsto resp atTop (𝓝 ((1 - T)⁻¹ *ᵥ c)) := by
    refine mean_tendsto hT hx fun t => ?_
    rw [hr, hr, mean_rec]
  refine ⟨hlim, fun h0 => ?_, ?_⟩
  · have h5 := tendsto_nhds_unique hlim h0
    rw [h5, mulVec_zero, zero_add] at hx
    exact hx
  · rintro rfl
    rwa [mulVec_zero] at hlim

/-- An AR(1) with coefficient 1/2, drift 3 and error variance 1 meets the hypotheses, with a factorisation, numbers of the generator,
and a forecast start. -/
example : ∃ (Ω : Type) (_ : MeasurableSpace Ω) (μ : Measure Ω) (_ : IsProbabilityMeasure μ) (z : ℕ → Ω → ℝ)
    (θ : Params (Fin 1) (Fin 1) (Fin 1)) (F : ∀ m : ℕ, Matrix (Fin m) (Fin m) ℝ → Matrix (Fin m) (Fin m) ℝ)
    (x0 : Fin 1 → ℝ), Spec.WhiteNoise μ z ∧ Spec.Stable θ.T ∧ θ.Q.PosSemidef ∧ θ.c ≠ 0 ∧
    forecastStart (-9999) .predicted θ ![5] 1 [fun _ => some 2] 0 = some (x0, 1) ∧ Spec.Factors F 1 fun _ => θ := by
  obtain ⟨Ω, mΩ, μ, hμ, z, hz⟩ := exists_whiteNoise
  refine ⟨Ω, mΩ, μ, hμ, z, ⟨![3], ![0], !![1 / 2], !![1], !![1], 1, 1⟩, fun m A => A, ![5], hz, ?_, PosSemidef.one, ?_, ?_, ?_⟩
  · show Spec.Stable !![(1 / 2 : ℝ)]
    rw [C170_stable_iff_eigenvalues]
    intro z v hv h
    have h0 := congrFun h 0
    have hv0 : v 0 ≠ 0 := fun h => hv (funext fun i => by rw [Subsingleton.elim i 0]; exact h)
    simp [mulVec, dotProduct, Matrix.map_apply] at h0
    have : z = 1 / 2 := by
      rcases h0 with h0 | h0
      · rw [← h0]; norm_num
      · exact absurd h0 hv0
    rw [this]; norm_num
  · intro h
    have := congrFun h 0
    norm_num at this
  · simp [forecastStart, outputGroup, Kalman.buildGraph, Kalman.postprocess, Kalman.filterScan]
  · exact ⟨by simp, fun _ => by simp, fun _ => by simp⟩

end Verif.Stationary
