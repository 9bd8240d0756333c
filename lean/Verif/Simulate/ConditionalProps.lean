import Verif.Simulate.ForecastProps

/-!
# C185: conditional samples are right date by date but are not trajectories
-/

set_option autoImplicit false

open Matrix MeasureTheory ProbabilityTheory

namespace Verif.Simulate

open Verif.Kalman (Params)
open Verif.Kalman.Orthogonal
open Verif.Kalman

variable {Ω : Type*} [MeasurableSpace Ω] {Ω' : Type*} [MeasurableSpace Ω']
variable {k p r m : ℕ}
variable {μ : Measure Ω} [IsProbabilityMeasure μ] {ν : Measure Ω'} [IsProbabilityMeasure ν] {z : ℕ → Ω' → ℝ}
variable {F : ∀ m : ℕ, Matrix (Fin m) (Fin m) ℝ → Matrix (Fin m) (Fin m) ℝ}
variable {θ : Params (Fin k) (Fin p) (Fin r)} {a0 : Fin k → ℝ} {P0 : Matrix (Fin k) (Fin k) ℝ}
  {X : ℕ → Fin k → Ω → ℝ} {Y : ℕ → Fin p → Ω → ℝ} {η : ℕ → Fin r → Ω → ℝ} {ε : ℕ → Fin p → Ω → ℝ}

/-! ### Lemmas -/

theorem seqDraws_getElem? (w : ℕ → ℝ) (l : List ((Fin m → ℝ) × Matrix (Fin m) (Fin m) ℝ)) :
    ∀ g t : ℕ, (seqDraws F (stream w) g l)[t]? =
      l[t]?.map fun c => c.1 + F m c.2 *ᵥ fun i : Fin m => w (g + t * m + i) := by
  induction l with
  | nil => intro g t; simp [seqDraws]
  | cons c l ih =>
    intro g t
    cases t with
    | zero => simp [seqDraws, mvDraw, stream]
    | succ t =>
      rw [seqDraws, List.getElem?_cons_succ, ih, List.getElem?_cons_succ]
      simp only [stream]
      congr 1
      funext c
      rw [show g + m + t * m = g + (t + 1) * m by ring]

/-- Row `t` as random variables. -/
noncomputable def seqRv (h : Spec.WhiteNoise ν z) (F : ∀ m : ℕ, Matrix (Fin m) (Fin m) ℝ → Matrix (Fin m) (Fin m) ℝ)
    (c : (Fin m → ℝ) × Matrix (Fin m) (Fin m) ℝ) (t : ℕ) : Fin m → L2 ν :=
  const (Orthogonal.one ν) c.1 + act (F m c.2) (zeta h (t * m) m)

theorem seqRv_val (h : Spec.WhiteNoise ν z) (l : List ((Fin m → ℝ) × Matrix (Fin m) (Fin m) ℝ)) (t : ℕ)
    (c : (Fin m → ℝ) × Matrix (Fin m) (Fin m) ℝ) (hc : l[t]? = some c) (i : Fin m) :
    (fun ω' => ((seqDraws F (stream fun q => z q ω') 0 l).getD t 0) i) = (seqRv h F c t i).1 := by
  funext ω'
  rw [List.getD_eq_getElem?_getD, seqDraws_getElem?, hc]
  simp only [seqRv, Pi.add_apply, Submodule.coe_add, const_val, act_val, Option.map_some, Option.getD_some, zero_add]
  rfl

theorem seqRv_mean (h : Spec.WhiteNoise ν z) (c : (Fin m → ℝ) × Matrix (Fin m) (Fin m) ℝ) (t : ℕ) (i : Fin m) :
    Orthogonal.mean ν (seqRv h F c t i) = c.1 i := by
  have h1 : Orthogonal.mean ν (Orthogonal.one ν) = 1 := by simp [mean_apply, Orthogonal.one]
  have hz : ∀ o l (j : Fin l), Orthogonal.mean ν (zeta h o l j) = 0 := fun o l j => h.mean _
  simp only [seqRv, Pi.add_apply, map_add, const, map_smul, h1, smul_eq_mul, mul_one, mean_act _ _ _ (hz _ _), add_zero]

theorem seqRv_cov (h : Spec.WhiteNoise ν z) (c c' : (Fin m → ℝ) × Matrix (Fin m) (Fin m) ℝ) (s t : ℕ) :
    covM (covB ν) (seqRv h F c s) (seqRv h F c' t) = if s = t then F m c.2 * (F m c'.2)ᵀ else 0 := by
  have h1 : ∀ w, covB ν (Orthogonal.one ν) w = 0 := fun w => by rw [covB_apply]; exact covariance_const_left _
  have h1' : ∀ w, covB ν w (Orthogonal.one ν) = 0 := fun w => by rw [covB_apply]; exact covariance_const_right _
  simp only [seqRv, covM_add_left, covM_add_right, covM_const_left _ h1, covM_const_right _ h1', covM_act_left, covM_act_right,
    zero_add]
  split
  · rename_i e; rw [e, cov_zeta_self]; simp
  · rename_i e
    have hs : ∀ x y, covB ν x y = covB ν y x := fun x y => by rw [covB_apply, covB_apply, covariance_comm]
    have : covM (covB ν) (zeta h (s * m) m) (zeta h (t * m) m) = 0 := by
      rcases Nat.lt_or_gt_of_ne e with e | e
      · exact cov_zeta_disjoint h _ _ _ _ (by nlinarith)
      · rw [← covM_transpose _ hs, cov_zeta_disjoint h _ _ _ _ (by nlinarith), transpose_zero]
    rw [this]; simp

/-! ### Property theorems -/

/-- The two variables drawn for one filter output have generators whose numbers are uncorrelated. -/
structure Spec.TwoStreams (ν : Measure Ω') (z z' : ℕ → Ω' → ℝ) : Prop where
  first : Spec.WhiteNoise ν z
  second : Spec.WhiteNoise ν z'
  between : ∀ q q', cov[z q, z' q'; ν] = 0

/-- State `i` at date `t` of a conditional sample, as a random variable of the generator. -/
noncomputable def Spec.condState (F : ∀ m : ℕ, Matrix (Fin m) (Fin m) ℝ → Matrix (Fin m) (Fin m) ℝ) (z : ℕ → Ω' → ℝ) (fill : ℝ)
    (o : FilterOutput) (θ : Params (Fin k) (Fin p) (Fin r)) (a0 : Fin k → ℝ) (P0 : Matrix (Fin k) (Fin k) ℝ)
    (data : List (Row (Fin p))) (t : ℕ) (i : Fin k) (ω' : Ω') : ℝ :=
  ((conditionalStates F (stream fun q => z q ω') 0 fill o θ a0 P0 data).getD t 0) i

/-- Series `i` at date `t` of a conditional sample. -/
noncomputable def Spec.condObs (F : ∀ m : ℕ, Matrix (Fin m) (Fin m) ℝ → Matrix (Fin m) (Fin m) ℝ) (z : ℕ → Ω' → ℝ) (fill : ℝ)
    (o : FilterOutput) (θ : Params (Fin k) (Fin p) (Fin r)) (a0 : Fin k → ℝ) (P0 : Matrix (Fin k) (Fin k) ℝ)
    (data : List (Row (Fin p))) (t : ℕ) (i : Fin p) (ω' : Ω') : ℝ :=
  ((conditionalObserved F (stream fun q => z q ω') 0 fill o θ a0 P0 data).getD t 0) i

/-- **C185 (each date).** At every date the sampled states have the mean and covariance of the filter output; the sampled
observations have mean `Z x` (without the intercept, C78) and covariance `Z P Zᵀ + H`. -/
theorem C185_each_date {z' : ℕ → Ω' → ℝ} (hz : Spec.TwoStreams ν z z') (fill : ℝ) (o : FilterOutput) (data : List (Row (Fin p)))
    (t : ℕ) (x : Fin k → ℝ) (P : Matrix (Fin k) (Fin k) ℝ) (ht : (outputGroup fill o θ a0 P0 data)[t]? = some (x, P))
    (hP : F k P * (F k P)ᵀ = P) (hO : F p (θ.Z * P * θ.Zᵀ + θ.H) * (F p (θ.Z * P * θ.Zᵀ + θ.H))ᵀ = θ.Z * P * θ.Zᵀ + θ.H) :
    (∀ i, ∫ ω', Spec.condState F z fill o θ a0 P0 data t i ω' ∂ν = x i) ∧
    (∀ i j, cov[Spec.condState F z fill o θ a0 P0 data t i, Spec.condState F z fill o θ a0 P0 data t j; ν] = P i j) ∧
    (∀ i, ∫ ω', Spec.condObs F z' fill o θ a0 P0 data t i ω' ∂ν = (θ.Z *ᵥ x) i) ∧
    ∀ i j, cov[Spec.condObs F z' fill o θ a0 P0 data t i, Spec.condObs F z' fill o θ a0 P0 data t j; ν] =
      (θ.Z * P * θ.Zᵀ + θ.H) i j := by
  have e1 : ∀ i, Spec.condState F z fill o θ a0 P0 data t i = (seqRv hz.first F (x, P) t i).1 := fun i =>
    seqRv_val hz.first _ t _ ht i
  have ht' : ((outputGroup fill o θ a0 P0 data).map fun m => conditionalObs θ.Z θ.H m.1 m.2)[t]? =
      some (θ.Z *ᵥ x, θ.Z * P * θ.Zᵀ + θ.H) := by
    rw [List.getElem?_map, ht]; rfl
  have e2 : ∀ i, Spec.condObs F z' fill o θ a0 P0 data t i =
      (seqRv hz.second F (θ.Z *ᵥ x, θ.Z * P * θ.Zᵀ + θ.H) t i).1 := fun i => seqRv_val hz.second _ t _ ht' i
  refine ⟨fun i => ?_, fun i j => ?_, fun i => ?_, fun i j => ?_⟩
  · rw [e1]; exact seqRv_mean hz.first _ t i
  · rw [e1, e1]
    have := congrFun (congrFun (seqRv_cov (F := F) hz.first (x, P) (x, P) t t) i) j
    rw [if_pos rfl, hP] at this
    exact this
  · rw [e2]; exact seqRv_mean hz.second _ t i
  · rw [e2, e2]
    have := congrFun (congrFun (seqRv_cov (F := F) hz.second (θ.Z *ᵥ x, θ.Z * P * θ.Zᵀ + θ.H) (θ.Z *ᵥ x, θ.Z * P * θ.Zᵀ + θ.H) t t) i) j
    rw [if_pos rfl, hO] at this
    exact this

theorem group_length (fill : ℝ) (o : FilterOutput) (data : List (Row (Fin p))) (hne : data ≠ []) :
    (outputGroup fill o θ a0 P0 data).length = data.length := by
  cases o with
  | filtered => simp [outputGroup, buildGraph, postprocess, filterScan_length]
  | predicted =>
    rcases data with - | ⟨y, data⟩
    · exact absurd rfl hne
    · simp [outputGroup, buildGraph, postprocess, filterScan_length]
  | smoothed =>
    rcases data with - | ⟨y, data⟩
    · exact absurd rfl hne
    · simp only [outputGroup]
      have hl : ((buildGraph 0 fill a0 P0 ((y :: data).map fun y => (y, θ))).filteredStates.zip
          (buildGraph 0 fill a0 P0 ((y :: data).map fun y => (y, θ))).filteredCovs).length = data.length + 1 := by
        simp [buildGraph, postprocess, filterScan_length]
      obtain ⟨out, h1, h2, -⟩ := Smoother.C13_smoother_static 0 0 _ (⟨θ.T, θ.R, θ.Q⟩ : Smoother.Params (Fin k) (Fin r)) data.length hl
      rw [List.length_cons, h1, Option.getD_some, h2, hl]

/-- **C185 (no dependence).** Samples at different dates are uncorrelated, whatever the model; sampled observations are
uncorrelated with the sampled states, also of the same date. -/
theorem C185_dates_unrelated {z' : ℕ → Ω' → ℝ} (hz : Spec.TwoStreams ν z z') (fill : ℝ) (o : FilterOutput)
    (data : List (Row (Fin p))) (s t : ℕ) (hs : s < data.length) (ht : t < data.length) :
    (s ≠ t → (∀ i j, cov[Spec.condState F z fill o θ a0 P0 data s i, Spec.condState F z fill o θ a0 P0 data t j; ν] = 0) ∧
      ∀ i j, cov[Spec.condObs F z' fill o θ a0 P0 data s i, Spec.condObs F z' fill o θ a0 P0 data t j; ν] = 0) ∧
    ∀ i j, cov[Spec.condState F z fill o θ a0 P0 data s i, Spec.condObs F z' fill o θ a0 P0 data t j; ν] = 0 := by
  have hl := group_length (θ := θ) (a0 := a0) (P0 := P0) fill o data (by rintro rfl; simp at hs)
  have hg : ∀ u, u < data.length → ∃ c, (outputGroup fill o θ a0 P0 data)[u]? = some c := fun u hu =>
    ⟨_, List.getElem?_eq_getElem (by omega)⟩
  obtain ⟨c, hc⟩ := hg s hs
  obtain ⟨c', hc'⟩ := hg t ht
  have e1 : ∀ i, Spec.condState F z fill o θ a0 P0 data s i = (seqRv hz.first F c s i).1 := seqRv_val hz.first _ s c hc
  have e1' : ∀ i, Spec.condState F z fill o θ a0 P0 data t i = (seqRv hz.first F c' t i).1 := seqRv_val hz.first _ t c' hc'
  have e2 : ∀ i, Spec.condObs F z' fill o θ a0 P0 data s i = (seqRv hz.second F (conditionalObs θ.Z θ.H c.1 c.2) s i).1 :=
    seqRv_val hz.second _ s _ (by rw [List.getElem?_map, hc]; rfl)
  have e2' : ∀ i, Spec.condObs F z' fill o θ a0 P0 data t i = (seqRv hz.second F (conditionalObs θ.Z θ.H c'.1 c'.2) t i).1 :=
    seqRv_val hz.second _ t _ (by rw [List.getElem?_map, hc']; rfl)
  refine ⟨fun hne => ⟨fun i j => ?_, fun i j => ?_⟩, fun i j => ?_⟩
  · rw [e1, e1']
    have := congrFun (congrFun (seqRv_cov (F := F) hz.first c c' s t) i) j
    rw [if_neg hne] at this
    exact this
  · rw [e2, e2']
    have := congrFun (congrFun (seqRv_cov (F := F) hz.second (conditionalObs θ.Z θ.H c.1 c.2) (conditionalObs θ.Z θ.H c'.1 c'.2) s t) i) j
    rw [if_neg hne] at this
    exact this
  · rw [e1, e2']
    have h1 : ∀ w, covB ν (Orthogonal.one ν) w = 0 := fun w => by rw [covB_apply]; exact covariance_const_left _
    have h1' : ∀ w, covB ν w (Orthogonal.one ν) = 0 := fun w => by rw [covB_apply]; exact covariance_const_right _
    have hb : covM (covB ν) (zeta hz.first (s * k) k) (zeta hz.second (t * p) p) = 0 := by
      ext a b
      exact hz.between _ _
    have : covM (covB ν) (seqRv hz.first F c s) (seqRv hz.second F (conditionalObs θ.Z θ.H c'.1 c'.2) t) = 0 := by
      simp only [seqRv, covM_add_left, covM_add_right, covM_const_left _ h1, covM_const_right _ h1', covM_act_left, covM_act_right,
        hb, Matrix.mul_zero, Matrix.zero_mul, add_zero]
    exact congrFun (congrFun this i) j

/-- The states' smoothing errors of neighbouring dates. -/
theorem smCross (hX : Kalman.Spec.Process μ (fun _ => θ) a0 P0 X Y η ε) (hY : Kalman.Spec.Undetermined μ Y) (hc : θ.c = 0) (N t : ℕ) (ht : t + 1 < N) :
    covM (covB μ) (liftX hX t - smAt (one μ) (fun _ => θ) a0 P0 (liftY hX) (N - 1) (N - 1 - t))
      (liftX hX (t + 1) - smAt (one μ) (fun _ => θ) a0 P0 (liftY hX) (N - 1) (N - 1 - (t + 1))) =
      smGain (fun _ => θ) P0 t * smCov (fun _ => θ) P0 (N - 1) (N - 1 - (t + 1)) := by
  have hpr := toProc hX
  obtain ⟨j, hj⟩ : ∃ j, N - 1 - (t + 1) = j := ⟨_, rfl⟩
  have hj1 : N - 1 - t = j + 1 := by omega
  have ht0 : N - 1 - (j + 1) = t := by omega
  obtain ⟨-, u2, u3⟩ := hpr.unexplained_props (a0 := a0) covB_self_nonneg (posDef_of_undetermined hX hY) t
  have hall := hpr.smAll (a0 := a0) covB_self_nonneg (posDef_of_undetermined hX hY) (fun _ => hc) (N - 1) j (by omega)
  rw [show N - 1 - j = t + 1 by omega] at hall
  have hpred : predAt (Orthogonal.one μ) (fun _ => θ) a0 P0 (liftY hX) (t + 1) =
      act θ.T (filtAt (Orthogonal.one μ) (fun _ => θ) a0 P0 (liftY hX) t) := by
    have e : predAt (Orthogonal.one μ) (fun _ => θ) a0 P0 (liftY hX) (t + 1) =
      const (Orthogonal.one μ) θ.c + act θ.T (filtAt (Orthogonal.one μ) (fun _ => θ) a0 P0 (liftY hX) t) := rfl
    rw [e, hc]; funext i; simp [const]
  have hsplit : liftX hX t - smAt (Orthogonal.one μ) (fun _ => θ) a0 P0 (liftY hX) (N - 1) (j + 1) =
      unexplained (Orthogonal.one μ) (fun _ => θ) a0 P0 (liftX hX) (liftY hX) t +
      act (smGain (fun _ => θ) P0 t) (liftX hX (t + 1) - smAt (Orthogonal.one μ) (fun _ => θ) a0 P0 (liftY hX) (N - 1) j) := by
    simp only [smAt, ht0, unexplained, err, hpred, act_sub]
    abel
  have hcross : covM (covB μ) (unexplained (Orthogonal.one μ) (fun _ => θ) a0 P0 (liftX hX) (liftY hX) t)
      (liftX hX (t + 1) - smAt (Orthogonal.one μ) (fun _ => θ) a0 P0 (liftY hX) (N - 1) j) = 0 := by
    rw [covM_sub_right, u3, hpr.smOrth (N - 1) _ (fun s _ => u2 s) j (by omega), sub_zero]
  rw [hj1, hj, hsplit, covM_add_left, hcross, zero_add, covM_act_left, hall.1]

/-- **C185 (what a trajectory needs).** In a process that follows the model, the deviations of neighbouring states from their
smoothed values are correlated: their covariance is `Pᶠ Tᵀ P̂⁻¹ Pˢ`, with the filtered covariance `Pᶠ` of the first date and the predicted
and smoothed covariances `P̂`, `Pˢ` of the second. -/
theorem C185_true_dependence (hX : Kalman.Spec.Process μ (fun _ => θ) a0 P0 X Y η ε) (hY : Kalman.Spec.Undetermined μ Y) (hc : θ.c = 0) (fill : ℝ)
    (hfill : ∀ᵐ ω ∂μ, ∀ t i, Y t i ω ≠ fill) (N t : ℕ) (ht : t + 1 < N) :
    let group := fun (o : FilterOutput) (ω : Ω) (u : ℕ) => (outputGroup fill o θ a0 P0 (Spec.data Y N ω)).getD u (0, 0)
    let e := fun (u : ℕ) (i : Fin k) (ω : Ω) => X u i ω - (group .smoothed ω u).1 i
    ∀ᵐ ω ∂μ, IsUnit (group .predicted ω (t + 1)).2.det →
      (Matrix.of fun i j => cov[e t i, e (t + 1) j; μ]) =
        (group .filtered ω t).2 * θ.Tᵀ * ((group .predicted ω (t + 1)).2)⁻¹ * (group .smoothed ω (t + 1)).2 := by
  intro group e
  have hsm : ∀ u, u < N → ∀ᵐ ω ∂μ, group .smoothed ω u =
      (fun i => (smAt (one μ) (fun _ => θ) a0 P0 (liftY hX) (N - 1) (N - 1 - u) i).1 ω, smCov (fun _ => θ) P0 (N - 1) (N - 1 - u)) := by
    intro u hu
    filter_upwards [smoothed_ae hX hY ⟨θ.T, θ.R, θ.Q⟩ (fun _ => ⟨rfl, rfl, rfl⟩) fill hfill N u hu] with ω hω
    simp only [group, outputGroup, data_rows, show (Spec.data Y N ω).length = N by simp [Spec.data]]
    rw [List.getD_eq_getElem?_getD]
    simp only [Kalman.Spec.smoothed] at hω
    rw [hω]; rfl
  have he : ∀ u, u < N → ∀ i, e u i =ᵐ[μ]
      ((liftX hX u - smAt (one μ) (fun _ => θ) a0 P0 (liftY hX) (N - 1) (N - 1 - u)) i).1 := by
    intro u hu i
    filter_upwards [hsm u hu] with ω hω
    simp only [e, hω]
    rfl
  have hcov : (Matrix.of fun i j => cov[e t i, e (t + 1) j; μ]) =
      smGain (fun _ => θ) P0 t * smCov (fun _ => θ) P0 (N - 1) (N - 1 - (t + 1)) := by
    rw [← smCross hX hY hc N t ht]
    ext i j
    rw [Matrix.of_apply, cov_congr (he t (by omega) i) (he (t + 1) ht j)]
    rfl
  have hpr := toProc hX
  filter_upwards [hsm (t + 1) ht, out_ae hX hY fill hfill N t (by omega), out_ae hX hY fill hfill N (t + 1) ht]
    with ω h1 h2 h3 hu
  have g1 : (group .filtered ω t).2 = filtCov (fun _ => θ) P0 t := by
    simp only [group, outputGroup, data_rows]
    rw [List.getD_eq_getElem?_getD, List.getElem?_zip_eq_some (z := (_, filtCov (fun _ => θ) P0 t)).2 ⟨h2.2.2.1, h2.2.2.2.1⟩]
    rfl
  have g2 : (group .predicted ω (t + 1)).2 = covAt (fun _ => θ) P0 (t + 1) := by
    simp only [group, outputGroup, data_rows]
    rw [List.getD_eq_getElem?_getD, List.getElem?_zip_eq_some (z := (_, covAt (fun _ => θ) P0 (t + 1))).2 ⟨h3.1, h3.2.1⟩]
    rfl
  rw [g2] at hu
  rw [hcov, g1, g2, h1]
  have hPpsd : (filtCov (fun _ => θ) P0 t).PosSemidef := by
    rw [filtCov, ← (hpr.allPosDef covB_self_nonneg (posDef_of_undetermined hX hY) a0 t).2.2.2.cov]; exact covM_posSemidef _ hpr.sym covB_self_nonneg _
  have hQpsd : (θ.R * θ.Q * θ.Rᵀ).PosSemidef := by
    have : (θ.Q).PosSemidef := by rw [← hpr.ηη 0]; exact covM_posSemidef _ hpr.sym covB_self_nonneg _
    simpa [Matrix.conjTranspose_eq_transpose_of_trivial] using this.mul_mul_conjTranspose_same θ.R
  have hJP : smGain (fun _ => θ) P0 t * covAt (fun _ => θ) P0 (t + 1) = filtCov (fun _ => θ) P0 t * θ.Tᵀ := gain_normal hPpsd hQpsd
  have hJ : smGain (fun _ => θ) P0 t = filtCov (fun _ => θ) P0 t * θ.Tᵀ * (covAt (fun _ => θ) P0 (t + 1))⁻¹ := by
    rw [← hJP, Matrix.mul_assoc, Matrix.mul_nonsing_inv _ hu, Matrix.mul_one]
  rw [hJ]

/-- **C185 (local level).** The deviations of neighbouring levels are positively correlated at every date, for all positive
variances, while the samples are uncorrelated. -/
theorem C185_local_level (v q s a : ℝ) (hv : 0 < v) (hq : 0 < q) (hs : 0 < s) {X Y η ε : ℕ → Fin 1 → Ω → ℝ}
    (hX : Kalman.Spec.Process μ (fun _ => Spec.level q s) (fun _ => a) !![v] X Y η ε) (fill : ℝ)
    (hfill : ∀ᵐ ω ∂μ, ∀ t i, Y t i ω ≠ fill) {z' : ℕ → Ω' → ℝ} (hz : Spec.TwoStreams ν z z') (N t : ℕ) (ht : t + 1 < N) :
    let smoothed := fun (u : ℕ) (ω : Ω) =>
      ((outputGroup fill .smoothed (Spec.level q s) (fun _ => a) !![v] (Spec.data Y N ω)).getD u (0, 0)).1 0
    0 < cov[fun ω => X t 0 ω - smoothed t ω, fun ω => X (t + 1) 0 ω - smoothed (t + 1) ω; μ] ∧
    ∀ ω, let sample := fun u => Spec.condState F z fill .smoothed (Spec.level q s) (fun _ => a) !![v] (Spec.data Y N ω) u 0
      cov[sample t, sample (t + 1); ν] = 0 := by
  intro smoothed
  have hY : Kalman.Spec.Undetermined μ Y := undetermined_of_H hX fun _ => one_by_one_pos hs
  have hd : ∀ A B : Matrix (Fin 1) (Fin 1) ℝ, (A * B) 0 0 = A 0 0 * B 0 0 := by intro A B; simp [Matrix.mul_apply]
  have hinv : ∀ A : Matrix (Fin 1) (Fin 1) ℝ, A⁻¹ 0 0 = (A 0 0)⁻¹ := by intro A; simp
  let θ : ℕ → Params (Fin 1) (Fin 1) (Fin 1) := fun _ => Spec.level q s
  have hfc : ∀ t, 0 < covAt θ !![v] t 0 0 → 0 < filtCov θ !![v] t 0 0 := by
    intro t h
    have : filtCov θ !![v] t 0 0 = covAt θ !![v] t 0 0 * s / (covAt θ !![v] t 0 0 + s) := by
      have : covAt θ !![v] t 0 0 + s ≠ 0 := by positivity
      unfold filtCov
      generalize covAt θ !![v] t = A at *
      simp only [ Spec.condCov, Spec.obsCov, Matrix.sub_apply, hd, hinv, Matrix.add_apply]
      simp [θ, Spec.level]
      field_simp
      ring
    rw [this]; positivity
  have hstep : ∀ t, covAt θ !![v] (t + 1) 0 0 = filtCov θ !![v] t 0 0 + q := by
    intro t; simp [covAt, filtCov, θ, Spec.level]
  have hcov : ∀ t, 0 < covAt θ !![v] t 0 0 := by
    intro t
    induction t with
    | zero => simpa [covAt] using hv
    | succ t ih => rw [hstep]; have := hfc t ih; positivity
  have hJ : ∀ t, smGain θ !![v] t 0 0 * (filtCov θ !![v] t 0 0 + q) = filtCov θ !![v] t 0 0 := by
    intro t
    have hPpsd : (filtCov θ !![v] t).PosSemidef := by
      rw [filtCov, ← ((toProc hX).allPosDef covB_self_nonneg (posDef_of_undetermined hX hY) (fun _ => a) t).2.2.2.cov]
      exact covM_posSemidef _ (toProc hX).sym covB_self_nonneg _
    have hQ : ((θ t).R * (θ t).Q * (θ t).Rᵀ).PosSemidef := by
      have := (one_by_one_pos hq).posSemidef
      simpa [θ, Spec.level] using this
    have hg : smGain θ !![v] t * covAt θ !![v] (t + 1) = filtCov θ !![v] t * (θ t).Tᵀ := gain_normal hPpsd hQ
    have hg := congrFun (congrFun hg 0) 0
    rw [hd, hd, hstep] at hg
    simpa [θ, Spec.level] using hg
  have hJpos : ∀ t, 0 < smGain θ !![v] t 0 0 := by
    intro t
    have h1 := hfc t (hcov t)
    have h2 := hJ t
    by_contra hcon
    have : smGain θ !![v] t 0 0 * (filtCov θ !![v] t 0 0 + q) ≤ 0 := mul_nonpos_of_nonpos_of_nonneg (not_lt.1 hcon) (by positivity)
    linarith
  have hsm : ∀ M j, 0 < smCov θ !![v] M j 0 0 := by
    intro M j
    induction j with
    | zero => exact hfc M (hcov M)
    | succ j ih =>
      set u := M - (j + 1) with hu
      have e : smCov θ !![v] M (j + 1) 0 0 = filtCov θ !![v] u 0 0 + smGain θ !![v] u 0 0 *
          (smCov θ !![v] M j 0 0 - (filtCov θ !![v] u 0 0 + q)) * smGain θ !![v] u 0 0 := by
        simp only [smCov, Matrix.add_apply, hd, Matrix.sub_apply, Matrix.transpose_apply, ← hu, hstep]
      have h1 := hJ u
      have h2 := hfc u (hcov u)
      have h3 := hJpos u
      have e' : smCov θ !![v] M (j + 1) 0 0 = smGain θ !![v] u 0 0 * q + smGain θ !![v] u 0 0 ^ 2 * smCov θ !![v] M j 0 0 := by
        rw [e]
        linear_combination (-(smGain θ !![v] u 0 0) - 1) * h1
      rw [e']; positivity
  refine ⟨?_, fun ω => ?_⟩
  · have hsa : ∀ u, u < N → ∀ᵐ ω ∂μ, smoothed u ω =
        (smAt (Orthogonal.one μ) θ (fun _ => a) !![v] (liftY hX) (N - 1) (N - 1 - u) 0).1 ω := by
      intro u hu
      filter_upwards [smoothed_ae hX hY ⟨1, 1, !![q]⟩ (fun _ => ⟨rfl, rfl, rfl⟩) fill hfill N u hu] with ω hω
      simp only [smoothed, outputGroup, data_rows, show (Spec.data Y N ω).length = N by simp [Spec.data]]
      rw [List.getD_eq_getElem?_getD]
      simp only [Kalman.Spec.smoothed] at hω
      change (Option.getD ((Option.getD (Smoother.buildGraph 0 0 _ (List.replicate N ⟨1, 1, !![q]⟩)) [])[u]?) (0, 0)).1 0 = _
      rw [hω]; rfl
    have he : ∀ u, u < N → (fun ω => X u 0 ω - smoothed u ω) =ᵐ[μ]
        ((liftX hX u - smAt (Orthogonal.one μ) θ (fun _ => a) !![v] (liftY hX) (N - 1) (N - 1 - u)) 0).1 := by
      intro u hu
      filter_upwards [hsa u hu] with ω hω
      rw [hω]; rfl
    rw [cov_congr (he t (by omega)) (he (t + 1) ht)]
    have := congrFun (congrFun (smCross hX hY rfl N t ht) 0) 0
    rw [hd] at this
    change _ = _ at this
    have hpos := mul_pos (hJpos t) (hsm (N - 1) (N - 1 - (t + 1)))
    rw [← this] at hpos
    exact hpos
  · exact ((C185_dates_unrelated hz fill .smoothed (Spec.data Y N ω) t (t + 1) (by simp [Spec.data]; omega)
      (by simp [Spec.data]; omega)).1 (by omega)).1 0 0

/-- Two uncorrelated streams exist. -/
theorem exists_twoStreams : ∃ (Ω : Type) (_ : MeasurableSpace Ω) (μ : Measure Ω) (_ : IsProbabilityMeasure μ) (z z' : ℕ → Ω → ℝ),
    Spec.TwoStreams μ z z' := by
  obtain ⟨Ω, mΩ, μ, hμ, ξ, _, hmem, hmean, hvar, hcov⟩ := exists_coins (ℕ ⊕ ℕ)
  refine ⟨Ω, mΩ, μ, hμ, fun q => ξ (.inl q), fun q => ξ (.inr q), ⟨fun _ => hmem _, fun _ => hmean _, fun q q' => ?_⟩,
    ⟨fun _ => hmem _, fun _ => hmean _, fun q q' => ?_⟩, fun q q' => hcov _ _ (by simp)⟩ <;>
  · split
    · rename_i h; rw [← h, hvar]
    · rename_i h; exact hcov _ _ (by simpa using h)

/-- The local level theorem applies at every length and date. -/
example (N t : ℕ) (ht : t + 1 < N) : ∃ (Ω : Type) (_ : MeasurableSpace Ω) (μ : Measure Ω) (X Y : ℕ → Fin 1 → Ω → ℝ) (fill : ℝ),
    let smoothed := fun (u : ℕ) (ω : Ω) =>
      ((outputGroup fill .smoothed (Spec.level 9 1) (fun _ => 0) !![4] (Spec.data Y N ω)).getD u (0, 0)).1 0
    0 < cov[fun ω => X t 0 ω - smoothed t ω, fun ω => X (t + 1) 0 ω - smoothed (t + 1) ω; μ] := by
  obtain ⟨Ω, mΩ, μ, hμ, X, Y, η, ε, fill, hX, hfill⟩ := exists_process (fun _ => Spec.level 9 1) (fun _ => 0) (P0 := !![4])
    (one_by_one_pos (by norm_num)).posSemidef (fun _ => (one_by_one_pos (by norm_num)).posSemidef)
    (fun _ => (one_by_one_pos (by norm_num)).posSemidef)
  obtain ⟨Ω', mΩ', ν, hν, z, z', hz⟩ := exists_twoStreams
  exact ⟨Ω, mΩ, μ, X, Y, fill, (C185_local_level (F := fun _ A => A) 4 9 1 0 (by norm_num) (by norm_num) (by norm_num) hX fill hfill hz
    N t ht).1⟩

end Verif.Simulate
