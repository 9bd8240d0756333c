import Verif.Simulate.Forecast

/-!
# C184: forecasts are best linear predictions

The reference is `Verif.Kalman.Spec.Process`. Data come from one probability space, the random generator from another.
-/

set_option autoImplicit false

open Matrix MeasureTheory ProbabilityTheory

namespace Verif.Simulate

open Verif.Kalman (Params)
open Verif.Kalman.Orthogonal
open Verif.Kalman

variable {Ω : Type*} [MeasurableSpace Ω] {Ω' : Type*} [MeasurableSpace Ω']
variable {k p r : ℕ}

/-- The realised observations of the first `N` dates, none missing. -/
def Spec.data (Y : ℕ → Fin p → Ω → ℝ) (N : ℕ) (ω : Ω) : List (Row (Fin p)) :=
  (List.range N).map fun t i => some (Y t i ω)

/-- Mean over the generator of state `i`, `h + 1` periods after the start: what the user gets by averaging many forecast draws for
the data `data`. -/
noncomputable def Spec.meanState (ν : Measure Ω') (z : ℕ → Ω' → ℝ) (F : ∀ m : ℕ, Matrix (Fin m) (Fin m) ℝ → Matrix (Fin m) (Fin m) ℝ)
    (fill : ℝ) (o : FilterOutput) (θ : Params (Fin k) (Fin p) (Fin r)) (a0 : Fin k → ℝ) (P0 : Matrix (Fin k) (Fin k) ℝ)
    (data : List (Row (Fin p))) (t0 steps h : ℕ) (i : Fin k) : ℝ :=
  ∫ ω', latent p (forecast F (stream fun q => z q ω') 0 fill o θ a0 P0 data t0 steps) h i ∂ν

/-- The same for series `i`. -/
noncomputable def Spec.meanObs (ν : Measure Ω') (z : ℕ → Ω' → ℝ) (F : ∀ m : ℕ, Matrix (Fin m) (Fin m) ℝ → Matrix (Fin m) (Fin m) ℝ)
    (fill : ℝ) (o : FilterOutput) (θ : Params (Fin k) (Fin p) (Fin r)) (a0 : Fin k → ℝ) (P0 : Matrix (Fin k) (Fin k) ℝ)
    (data : List (Row (Fin p))) (t0 steps h : ℕ) (i : Fin p) : ℝ :=
  ∫ ω', observed p (forecast F (stream fun q => z q ω') 0 fill o θ a0 P0 data t0 steps) h i ∂ν

/-- Covariance of the state's forecast error `h` periods ahead of a start with error covariance `P`. -/
def Spec.errorCov (θ : Params (Fin k) (Fin p) (Fin r)) (P : Matrix (Fin k) (Fin k) ℝ) : ℕ → Matrix (Fin k) (Fin k) ℝ
  | 0 => P
  | h + 1 => θ.T * Spec.errorCov θ P h * θ.Tᵀ + θ.R * θ.Q * θ.Rᵀ

/-- Number of observations a forecast from position `t0` may use: those up to `t0` when started from the filtered state, those
before `t0` when started from the predicted state. -/
def Spec.known : FilterOutput → ℕ → ℕ
  | .predicted, t0 => t0
  | _, t0 => t0 + 1

variable {μ : Measure Ω} [IsProbabilityMeasure μ] {ν : Measure Ω'} [IsProbabilityMeasure ν] {z : ℕ → Ω' → ℝ}
variable {F : ∀ m : ℕ, Matrix (Fin m) (Fin m) ℝ → Matrix (Fin m) (Fin m) ℝ}
variable {θ : Params (Fin k) (Fin p) (Fin r)} {a0 : Fin k → ℝ} {P0 : Matrix (Fin k) (Fin k) ℝ}
  {X : ℕ → Fin k → Ω → ℝ} {Y : ℕ → Fin p → Ω → ℝ} {η : ℕ → Fin r → Ω → ℝ} {ε : ℕ → Fin p → Ω → ℝ}

/-! ### Lemmas -/

/-- Move a state `h` periods ahead without shocks. -/
def carry (θ : Params (Fin k) (Fin p) (Fin r)) (x : Fin k → ℝ) : ℕ → Fin k → ℝ
  | 0 => x
  | h + 1 => θ.T *ᵥ carry θ x h + θ.c

theorem mean_latent (h : Spec.WhiteNoise ν z) (hp : p ≠ 0) (x : Fin k → ℝ) (P : Matrix (Fin k) (Fin k) ℝ) (steps t : ℕ)
    (ht : t < steps) (i : Fin k) :
    ∫ ω', latent p (draw F (stream fun q => z q ω') 0 false steps x P fun _ => θ) t i ∂ν = carry θ x (t + 1) i := by
  have e : (fun ω' => latent p (draw F (stream fun q => z q ω') 0 false steps x P fun _ => θ) t i) =
      (rvX h F x P (fun _ => θ) (t + 1) i).1 := by
    funext ω'
    rw [rvX_val, latent_eq_forecast F x P (fun _ => θ) _ steps t ht hp]
  rw [e]
  exact mean_rvX h (t + 1) (carry θ x) rfl (fun t => rfl) i

theorem mean_observed (h : Spec.WhiteNoise ν z) (hp : p ≠ 0) (x : Fin k → ℝ) (P : Matrix (Fin k) (Fin k) ℝ) (steps t : ℕ)
    (ht : t < steps) (i : Fin p) :
    ∫ ω', observed p (draw F (stream fun q => z q ω') 0 false steps x P fun _ => θ) t i ∂ν =
      (θ.d + θ.Z *ᵥ carry θ x (t + 1)) i := by
  have e : (fun ω' => observed p (draw F (stream fun q => z q ω') 0 false steps x P fun _ => θ) t i) =
      (rvY h F x P (fun _ => θ) t i).1 := by
    funext ω'
    rw [rvY_val, observed_eq_forecast F x P (fun _ => θ) _ steps t ht hp]
  rw [e]
  have h1 : Orthogonal.mean ν (Orthogonal.one ν) = 1 := by simp [mean_apply, Orthogonal.one]
  have hz : ∀ o l (j : Fin l), Orthogonal.mean ν (zeta h o l j) = 0 := fun o l j => h.mean _
  change Orthogonal.mean ν _ = _
  simp only [rvY, Pi.add_apply, map_add, const, map_smul, h1, smul_eq_mul, mul_one]
  rw [mean_act _ _ _ (hz _ p)]
  have hx : ∀ j, Orthogonal.mean ν (rvX h F x P (fun _ => θ) (t + 1) j) = carry θ x (t + 1) j :=
    fun j => mean_rvX h (t + 1) (carry θ x) rfl (fun t => rfl) j
  simp [act, hx, mulVec, dotProduct]

/-- Random state carried ahead. -/
noncomputable def carryL (μ : Measure Ω) [IsProbabilityMeasure μ] (θ : Params (Fin k) (Fin p) (Fin r)) (A : Fin k → L2 μ) : ℕ → Fin k → L2 μ
  | 0 => A
  | h + 1 => act θ.T (carryL μ θ A h) + const (one μ) θ.c

theorem carryL_val (A : Fin k → L2 μ) (ω : Ω) (h : ℕ) :
    (fun i => (carryL μ θ A h i).1 ω) = carry θ (fun i => (A i).1 ω) h := by
  induction h with
  | zero => rfl
  | succ h ih =>
    funext i
    simp only [carryL, carry, ← ih, Pi.add_apply, Submodule.coe_add, act_val, const_val]

theorem carryL_mem (hX : Kalman.Spec.Process μ (fun _ => θ) a0 P0 X Y η ε) (m : ℕ) (A : Fin k → L2 μ)
    (hA : ∀ i, A i ∈ affineSpan (one μ) (liftY hX) m) (h : ℕ) (i : Fin k) :
    carryL μ θ A h i ∈ affineSpan (one μ) (liftY hX) m := by
  induction h generalizing i with
  | zero => exact hA i
  | succ h ih => exact Submodule.add_mem _ (act_mem _ _ _ ih i) (const_mem _ _ _ i)

/-- A usable start at date `t0`, knowing the first `m` observations. -/
structure Start (hX : Kalman.Spec.Process μ (fun _ => θ) a0 P0 X Y η ε) (t0 m : ℕ) (A : Fin k → L2 μ)
    (P : Matrix (Fin k) (Fin k) ℝ) : Prop where
  mean : ∀ i, Orthogonal.mean μ ((liftX hX t0 - A) i) = 0
  cov : covM (covB μ) (liftX hX t0 - A) (liftX hX t0 - A) = P
  past : ∀ s, s < m → covM (covB μ) (liftX hX t0 - A) (liftY hX s) = 0
  shock : ∀ s, t0 ≤ s → covM (covB μ) (liftX hX t0 - A) (liftη hX s) = 0
  error : ∀ s, t0 < s → covM (covB μ) (liftX hX t0 - A) (liftε hX s) = 0
  mem : ∀ i, A i ∈ affineSpan (one μ) (liftY hX) m
  le : m ≤ t0 + 1

theorem err_ahead (hX : Kalman.Spec.Process μ (fun _ => θ) a0 P0 X Y η ε) (t0 h : ℕ) (A : Fin k → L2 μ) :
    liftX hX (t0 + (h + 1)) - carryL μ θ A (h + 1) =
      act θ.T (liftX hX (t0 + h) - carryL μ θ A h) + act θ.R (liftη hX (t0 + h)) := by
  rw [show t0 + (h + 1) = (t0 + h) + 1 from rfl, (toProc hX).move, carryL, act_sub]
  abel

/-- The start property is preserved by moving ahead, with the error covariance recursion. -/
theorem ahead (hX : Kalman.Spec.Process μ (fun _ => θ) a0 P0 X Y η ε) {t0 m : ℕ} {A : Fin k → L2 μ}
    {P : Matrix (Fin k) (Fin k) ℝ} (hS : Start hX t0 m A P) (h : ℕ) :
    Start hX (t0 + h) m (carryL μ θ A h) (Spec.errorCov θ P h) := by
  have hpr := toProc hX
  induction h with
  | zero => exact hS
  | succ h ih =>
    have hm := hS.le
    have hηη : covM (covB μ) (liftη hX (t0 + h)) (liftη hX (t0 + h)) = θ.Q := hpr.ηη _
    have h1 := ih.shock (t0 + h) le_rfl
    have h1' : covM (covB μ) (liftη hX (t0 + h)) (liftX hX (t0 + h) - carryL μ θ A h) = 0 := by
      rw [← covM_transpose _ hpr.sym, h1, transpose_zero]
    refine ⟨fun i => ?_, ?_, fun s hs => ?_, fun s hs => ?_, fun s hs => ?_, fun i => ?_, by omega⟩ <;> try rw [err_ahead]
    · rw [Pi.add_apply, map_add, mean_act _ _ _ ih.mean, mean_act _ _ _ (fun j => hX.mean_shock (t0 + h) j), add_zero]
    · simp only [covM_add_left, covM_add_right, covM_act_left, covM_act_right, ih.cov, h1, h1', hηη, Spec.errorCov,
        Matrix.mul_zero, Matrix.zero_mul, add_zero, zero_add]
    · have h2 : covM (covB μ) (liftη hX (t0 + h)) (liftY hX s) = 0 := by
        rw [← covM_transpose _ hpr.sym, hpr.yLater s (t0 + h) (by omega), transpose_zero]
      rw [covM_add_left, covM_act_left, covM_act_left, ih.past s hs, h2]; simp
    · rw [covM_add_left, covM_act_left, covM_act_left, ih.shock s (by omega), hpr.ηη0 _ _ (by omega)]; simp
    · rw [covM_add_left, covM_act_left, covM_act_left, ih.error s (by omega), hpr.ηε0]; simp
    · exact carryL_mem hX m A hS.mem (h + 1) i

theorem start_filtered (hX : Kalman.Spec.Process μ (fun _ => θ) a0 P0 X Y η ε) (hY : Kalman.Spec.Undetermined μ Y) (t0 : ℕ) :
    Start hX t0 (t0 + 1) (filtAt (one μ) (fun _ => θ) a0 P0 (liftY hX) t0) (filtCov (fun _ => θ) P0 t0) := by
  obtain ⟨-, -, -, kF⟩ := (toProc hX).allPosDef covB_self_nonneg (posDef_of_undetermined hX hY) a0 t0
  have hm := (toProc hX).mean (a0 := a0) (Orthogonal.mean μ) (by simp [mean_apply, Orthogonal.one]) hX.mean_initial hX.mean_shock
    hX.mean_error t0
  exact ⟨hm.2.1, kF.cov, fun s hs => kF.past s (by omega), kF.noiseη, kF.noiseε, filtAt_mem _ _ (by omega), le_rfl⟩

theorem start_predicted (hX : Kalman.Spec.Process μ (fun _ => θ) a0 P0 X Y η ε) (hY : Kalman.Spec.Undetermined μ Y) (t0 : ℕ) :
    Start hX t0 t0 (predAt (one μ) (fun _ => θ) a0 P0 (liftY hX) t0) (covAt (fun _ => θ) P0 t0) := by
  obtain ⟨-, -, kP, -⟩ := (toProc hX).allPosDef covB_self_nonneg (posDef_of_undetermined hX hY) a0 t0
  have hm := (toProc hX).mean (a0 := a0) (Orthogonal.mean μ) (by simp [mean_apply, Orthogonal.one]) hX.mean_initial hX.mean_shock
    hX.mean_error t0
  exact ⟨hm.1, kP.cov, kP.past, fun s hs => (kP.noise s hs).1, fun s hs => (kP.noise s hs.le).2, predAt_mem _ _ le_rfl, by omega⟩

theorem data_rows (N : ℕ) (ω : Ω) :
    ((Spec.data Y N ω).map fun y => (y, θ)) = Kalman.Spec.rows (fun _ => θ) Y N ω := by
  simp [Spec.data, Kalman.Spec.rows]

/-- The start of a forecast, at almost every realisation of the data. -/
theorem start_ae (hX : Kalman.Spec.Process μ (fun _ => θ) a0 P0 X Y η ε) (hY : Kalman.Spec.Undetermined μ Y) (fill : ℝ)
    (hfill : ∀ᵐ ω ∂μ, ∀ t i, Y t i ω ≠ fill) (o : FilterOutput) (N t0 : ℕ) (ht : t0 < N)
    (ho : o = .smoothed → t0 + 1 = N) :
    ∃ A P, Start hX t0 (Spec.known o t0) A P ∧ ∀ᵐ ω ∂μ,
      forecastStart fill o θ a0 P0 (Spec.data Y N ω) t0 = some (fun i => (A i).1 ω, P) := by
  have hout := out_ae hX hY fill hfill N t0 ht
  cases o with
  | filtered =>
    refine ⟨_, _, start_filtered hX hY t0, ?_⟩
    filter_upwards [hout] with ω hω
    simp only [forecastStart, outputGroup, data_rows]
    exact List.getElem?_zip_eq_some.2 ⟨hω.2.2.1, hω.2.2.2.1⟩
  | predicted =>
    refine ⟨_, _, start_predicted hX hY t0, ?_⟩
    filter_upwards [hout] with ω hω
    simp only [forecastStart, outputGroup, data_rows]
    exact List.getElem?_zip_eq_some.2 ⟨hω.1, hω.2.1⟩
  | smoothed =>
    have hN : t0 + 1 = N := ho rfl
    refine ⟨_, _, start_filtered hX hY t0, ?_⟩
    filter_upwards [smoothed_ae hX hY ⟨θ.T, θ.R, θ.Q⟩ (fun _ => ⟨rfl, rfl, rfl⟩) fill hfill N t0 ht] with ω hω
    have e : N - 1 - t0 = 0 := by omega
    have e' : N - 1 = t0 := by omega
    rw [e, e'] at hω
    simp only [forecastStart, outputGroup, data_rows, show (Spec.data Y N ω).length = N by simp [Spec.data]]
    exact hω

/-- What the averaged forecasts are, at almost every realisation of the data. -/
theorem means_ae (hz : Spec.WhiteNoise ν z) (hp : p ≠ 0) {fill : ℝ} {o : FilterOutput} {N t0 : ℕ} {A : Fin k → L2 μ}
    {P : Matrix (Fin k) (Fin k) ℝ}
    (hst : ∀ᵐ ω ∂μ, forecastStart fill o θ a0 P0 (Spec.data Y N ω) t0 = some (fun i => (A i).1 ω, P)) (steps h : ℕ) (hh : h < steps) :
    ∀ᵐ ω ∂μ, (∀ i, Spec.meanState ν z F fill o θ a0 P0 (Spec.data Y N ω) t0 steps h i = (carryL μ θ A (h + 1) i).1 ω) ∧
      ∀ i, Spec.meanObs ν z F fill o θ a0 P0 (Spec.data Y N ω) t0 steps h i =
        ((const (one μ) θ.d + act θ.Z (carryL μ θ A (h + 1))) i).1 ω := by
  filter_upwards [hst] with ω hω
  have e := carryL_val (θ := θ) A ω (h + 1)
  refine ⟨fun i => ?_, fun i => ?_⟩
  · simp only [Spec.meanState, forecast, hω]
    rw [mean_latent hz hp _ _ steps h hh, ← e]
  · simp only [Spec.meanObs, forecast, hω]
    rw [mean_observed hz hp _ _ steps h hh, ← e]
    simp only [Pi.add_apply, Submodule.coe_add, act_val, const_val]

/-- Mean zero, uncorrelated with the known observations, and in their affine span: best linear prediction. -/
theorem best (hX : Kalman.Spec.Process μ (fun _ => θ) a0 P0 X Y η ε) (m : ℕ) (x a : L2 μ) (hm : Orthogonal.mean μ (x - a) = 0)
    (hpast : ∀ s j, s < m → covB μ (x - a) (liftY hX s j) = 0) (ha : a ∈ affineSpan (one μ) (liftY hX) m) :
    (∃ (b : ℝ) (w : ℕ → Fin p → ℝ), ∀ ω, a.1 ω = b + ∑ s ∈ Finset.range m, ∑ j, w s j * Y s j ω) ∧
    ∫ ω, (x.1 ω - a.1 ω) ^ 2 ∂μ = covB μ (x - a) (x - a) ∧
    ∀ (b : ℝ) (w : ℕ → Fin p → ℝ), ∫ ω, (x.1 ω - a.1 ω) ^ 2 ∂μ ≤ ∫ ω, (x.1 ω - (b + ∑ s ∈ Finset.range m, ∑ j, w s j * Y s j ω)) ^ 2 ∂μ := by
  obtain ⟨b0, w0, haff⟩ := affineSpan_coeffs ha
  have heval : ∀ (b : ℝ) (w : ℕ → Fin p → ℝ) (ω : Ω),
      (b • Orthogonal.one μ + ∑ s ∈ Finset.range m, ∑ j, w s j • liftY hX s j).1 ω =
        b + ∑ s ∈ Finset.range m, ∑ j, w s j * Y s j ω := by
    intro b w ω
    simp [Orthogonal.one, liftY]
  have ha' : ∀ ω, a.1 ω = b0 + ∑ s ∈ Finset.range m, ∑ j, w0 s j * Y s j ω := fun ω => by rw [haff, heval]
  have hsq : ∫ ω, (x.1 ω - a.1 ω) ^ 2 ∂μ = covB μ (x - a) (x - a) := by
    rw [covB_apply, covariance_self (x - a).2.aemeasurable, variance_of_integral_eq_zero (x - a).2.aemeasurable hm]
    rfl
  refine ⟨⟨b0, w0, ha'⟩, hsq, fun b w => ?_⟩
  rw [hsq]
  refine (sq_optimal hX m (x - a) ((b0 - b) • Orthogonal.one μ + ∑ s ∈ Finset.range m, ∑ j, (w0 s j - w s j) • liftY hX s j)
    (b0 - b) (fun s j => w0 s j - w s j) rfl hpast).trans (le_of_eq ?_)
  congr 1
  funext ω
  congr 1
  rw [heval (b0 - b) (fun s j => w0 s j - w s j)]
  change x.1 ω - a.1 ω + _ = _
  rw [ha' ω]
  simp only [sub_mul, Finset.sum_sub_distrib]
  ring

/-! ### Property theorems -/

/-- **C184 (states).** Average many forecast draws. For every process that follows the model, at every horizon, the result is an
affine function of the known observations, its error has mean zero, is uncorrelated with each of them, has the covariance of the
model's forecast error recursion started at the reported covariance, and no affine function of the known observations has a smaller
mean square error. "Known" are the observations up to the start date for filtered starts and for smoothed starts at the last date,
those before the start date for predicted starts. -/
theorem C184_state_forecasts (hz : Spec.WhiteNoise ν z) (hp : p ≠ 0) (hX : Kalman.Spec.Process μ (fun _ => θ) a0 P0 X Y η ε)
    (hY : Kalman.Spec.Undetermined μ Y) (fill : ℝ) (hfill : ∀ᵐ ω ∂μ, ∀ t i, Y t i ω ≠ fill) (o : FilterOutput) (N t0 steps h : ℕ) (ht : t0 < N)
    (ho : o = .smoothed → t0 + 1 = N) (hh : h < steps) :
    let m := Spec.known o t0
    let f := fun (i : Fin k) (ω : Ω) => Spec.meanState ν z F fill o θ a0 P0 (Spec.data Y N ω) t0 steps h i
    let affine := fun (b : ℝ) (w : ℕ → Fin p → ℝ) (ω : Ω) => b + ∑ s ∈ Finset.range m, ∑ j, w s j * Y s j ω
    let e := fun (i : Fin k) (ω : Ω) => X (t0 + h + 1) i ω - f i ω
    (∀ i, ∃ b w, f i =ᵐ[μ] affine b w) ∧ (∀ i, ∫ ω, e i ω ∂μ = 0) ∧ (∀ i s j, s < m → cov[e i, Y s j; μ] = 0) ∧
    (∀ᵐ ω ∂μ, ∃ x P, forecastStart fill o θ a0 P0 (Spec.data Y N ω) t0 = some (x, P) ∧
      ∀ i j, cov[e i, e j; μ] = Spec.errorCov θ P (h + 1) i j) ∧
    ∀ i b w, ∫ ω, e i ω ^ 2 ∂μ ≤ ∫ ω, (X (t0 + h + 1) i ω - affine b w ω) ^ 2 ∂μ := by
  intro m f affine e
  obtain ⟨A, P, hS, hst⟩ := start_ae hX hY fill hfill o N t0 ht ho
  have hm := means_ae (F := F) hz hp hst steps h hh
  have hA := ahead hX hS (h + 1)
  have hf : ∀ i, f i =ᵐ[μ] (carryL μ θ A (h + 1) i).1 := fun i => by
    filter_upwards [hm] with ω hω using hω.1 i
  have he : ∀ i, e i =ᵐ[μ] ((liftX hX (t0 + (h + 1)) - carryL μ θ A (h + 1)) i).1 := fun i => by
    filter_upwards [hf i] with ω hω
    simp only [e, hω]
    rfl
  have hb := fun i => best hX m (liftX hX (t0 + (h + 1)) i) (carryL μ θ A (h + 1) i) (hA.mean i)
    (fun s j hs => congrFun (congrFun (hA.past s hs) i) j) (hA.mem i)
  refine ⟨fun i => ?_, fun i => ?_, fun i s j hs => ?_, ?_, fun i b w => ?_⟩
  · obtain ⟨b, w, hbw⟩ := (hb i).1
    refine ⟨b, w, ?_⟩
    filter_upwards [hf i] with ω hω
    rw [hω, hbw]
  · rw [integral_congr_ae (he i)]; exact hA.mean i
  · rw [cov_congr (he i) Filter.EventuallyEq.rfl]
    exact congrFun (congrFun (hA.past s hs) i) j
  · filter_upwards [hst] with ω hω
    refine ⟨_, _, hω, fun i j => ?_⟩
    rw [cov_congr (he i) (he j)]
    exact congrFun (congrFun hA.cov i) j
  · have h1 : ∫ ω, e i ω ^ 2 ∂μ = ∫ ω, ((liftX hX (t0 + (h + 1)) i).1 ω - (carryL μ θ A (h + 1) i).1 ω) ^ 2 ∂μ := by
      refine integral_congr_ae ?_
      filter_upwards [he i] with ω hω
      rw [hω]
      rfl
    rw [h1]
    exact (hb i).2.2 b w

/-- **C184 (observations).** The same for the forecasts of the series. -/
theorem C184_observation_forecasts (hz : Spec.WhiteNoise ν z) (hp : p ≠ 0)
    (hX : Kalman.Spec.Process μ (fun _ => θ) a0 P0 X Y η ε)
    (hY : Kalman.Spec.Undetermined μ Y) (fill : ℝ) (hfill : ∀ᵐ ω ∂μ, ∀ t i, Y t i ω ≠ fill) (o : FilterOutput) (N t0 steps h : ℕ) (ht : t0 < N)
    (ho : o = .smoothed → t0 + 1 = N) (hh : h < steps) :
    let m := Spec.known o t0
    let f := fun (i : Fin p) (ω : Ω) => Spec.meanObs ν z F fill o θ a0 P0 (Spec.data Y N ω) t0 steps h i
    let affine := fun (b : ℝ) (w : ℕ → Fin p → ℝ) (ω : Ω) => b + ∑ s ∈ Finset.range m, ∑ j, w s j * Y s j ω
    let e := fun (i : Fin p) (ω : Ω) => Y (t0 + h + 1) i ω - f i ω
    (∀ i, ∃ b w, f i =ᵐ[μ] affine b w) ∧ (∀ i, ∫ ω, e i ω ∂μ = 0) ∧ (∀ i s j, s < m → cov[e i, Y s j; μ] = 0) ∧
    (∀ᵐ ω ∂μ, ∃ x P, forecastStart fill o θ a0 P0 (Spec.data Y N ω) t0 = some (x, P) ∧
      ∀ i j, cov[e i, e j; μ] = (θ.Z * Spec.errorCov θ P (h + 1) * θ.Zᵀ + θ.H) i j) ∧
    ∀ i b w, ∫ ω, e i ω ^ 2 ∂μ ≤ ∫ ω, (Y (t0 + h + 1) i ω - affine b w ω) ^ 2 ∂μ := by
  intro m f affine e
  have hpr := toProc hX
  obtain ⟨A, P, hS, hst⟩ := start_ae hX hY fill hfill o N t0 ht ho
  have hmn := means_ae (F := F) hz hp hst steps h hh
  have hA := ahead hX hS (h + 1)
  have hmle : m ≤ t0 + 1 := hS.le
  set D : Fin k → L2 μ := liftX hX (t0 + (h + 1)) - carryL μ θ A (h + 1) with hD
  set a : Fin p → L2 μ := const (Orthogonal.one μ) θ.d + act θ.Z (carryL μ θ A (h + 1)) with ha
  have hdiff : liftY hX (t0 + (h + 1)) - a = act θ.Z D + liftε hX (t0 + (h + 1)) := by
    rw [hpr.obs, hD, ha, act_sub]
    abel
  have hεε : covM (covB μ) (liftε hX (t0 + (h + 1))) (liftε hX (t0 + (h + 1))) = θ.H := hpr.εε _
  have hDε : covM (covB μ) D (liftε hX (t0 + (h + 1))) = 0 := by
    rw [hD, err_ahead, covM_add_left, covM_act_left, covM_act_left, (ahead hX hS h).error _ (by omega), hpr.ηε0]; simp
  have hDε' : covM (covB μ) (liftε hX (t0 + (h + 1))) D = 0 := by rw [← covM_transpose _ hpr.sym, hDε, transpose_zero]
  have hcov : covM (covB μ) (liftY hX (t0 + (h + 1)) - a) (liftY hX (t0 + (h + 1)) - a) =
      θ.Z * Spec.errorCov θ P (h + 1) * θ.Zᵀ + θ.H := by
    have hDD : covM (covB μ) D D = Spec.errorCov θ P (h + 1) := hA.cov
    rw [hdiff]
    simp only [covM_add_left, covM_add_right, covM_act_left, covM_act_right, hDD, hDε, hDε', hεε, Matrix.mul_zero,
      Matrix.zero_mul, add_zero, zero_add]
  have hmean : ∀ i, Orthogonal.mean μ ((liftY hX (t0 + (h + 1)) - a) i) = 0 := by
    intro i
    rw [hdiff, Pi.add_apply, map_add, mean_act _ _ _ hA.mean, zero_add]
    exact hX.mean_error _ i
  have hpast : ∀ s, s < m → covM (covB μ) (liftY hX (t0 + (h + 1)) - a) (liftY hX s) = 0 := by
    intro s hs
    have h2 : covM (covB μ) (liftε hX (t0 + (h + 1))) (liftY hX s) = 0 := by
      rw [← covM_transpose _ hpr.sym, hpr.yLaterε s _ (by omega), transpose_zero]
    rw [hdiff, covM_add_left, covM_act_left, hA.past s hs, h2]; simp
  have hmem : ∀ i, a i ∈ affineSpan (Orthogonal.one μ) (liftY hX) m := fun i =>
    Submodule.add_mem _ (const_mem _ _ _ i) (act_mem _ _ _ hA.mem i)
  have hf : ∀ i, f i =ᵐ[μ] (a i).1 := fun i => by
    filter_upwards [hmn] with ω hω using hω.2 i
  have he : ∀ i, e i =ᵐ[μ] ((liftY hX (t0 + (h + 1)) - a) i).1 := fun i => by
    filter_upwards [hf i] with ω hω
    simp only [e, hω]
    rfl
  have hb := fun i => best hX m (liftY hX (t0 + (h + 1)) i) (a i) (hmean i)
    (fun s j hs => congrFun (congrFun (hpast s hs) i) j) (hmem i)
  refine ⟨fun i => ?_, fun i => ?_, fun i s j hs => ?_, ?_, fun i b w => ?_⟩
  · obtain ⟨b, w, hbw⟩ := (hb i).1
    refine ⟨b, w, ?_⟩
    filter_upwards [hf i] with ω hω
    rw [hω, hbw]
  · rw [integral_congr_ae (he i)]; exact hmean i
  · rw [cov_congr (he i) Filter.EventuallyEq.rfl]
    exact congrFun (congrFun (hpast s hs) i) j
  · filter_upwards [hst] with ω hω
    refine ⟨_, _, hω, fun i j => ?_⟩
    rw [cov_congr (he i) (he j)]
    exact congrFun (congrFun hcov i) j
  · have h1 : ∫ ω, e i ω ^ 2 ∂μ = ∫ ω, ((liftY hX (t0 + (h + 1)) i).1 ω - (a i).1 ω) ^ 2 ∂μ := by
      refine integral_congr_ae ?_
      filter_upwards [he i] with ω hω
      rw [hω]
      rfl
    rw [h1]
    exact (hb i).2.2 b w

/-- **C184 (spread).** For given data, the covariance of the forecast draws at each horizon is the covariance of the forecast error
plus a term carried along by the transition matrix, when there are no more states than shocks and series together. -/
theorem C184_spread (hz : Spec.WhiteNoise ν z) (hp : p ≠ 0) (hk : k ≤ r + p) (fill : ℝ) (o : FilterOutput)
    (data : List (Row (Fin p))) (t0 steps h : ℕ) (hh : h < steps) (x : Fin k → ℝ) (P : Matrix (Fin k) (Fin k) ℝ)
    (hst : forecastStart fill o θ a0 P0 data t0 = some (x, P)) (hF : Spec.Factors F P fun _ => θ) :
    let draws := fun (i : Fin k) (ω' : Ω') => latent p (forecast F (stream fun q => z q ω') 0 fill o θ a0 P0 data t0 steps) h i
    let W := θ.T * F k P * Spec.overlap k r 0 * (F r θ.Q)ᵀ * θ.Rᵀ
    (Matrix.of fun i j => cov[draws i, draws j; ν]) = Spec.errorCov θ P (h + 1) + θ.T ^ h * (W + Wᵀ) * (θ.T ^ h)ᵀ := by
  intro draws W
  have hd : ∀ i, draws i = Spec.state F x P (fun _ => θ) z steps (h + 1) i := by
    intro i
    funext ω'
    simp only [draws, forecast, hst, Spec.state]
    rcases Nat.eq_zero_or_pos p with h0 | h0
    · exact absurd h0 hp
    · exact (C183_forecast_rows hp steps h hh _ i ⟨0, h0⟩).1
  simp only [hd]
  obtain ⟨hC0, hC⟩ := C183_covariance (a0 := x) hz hF hp steps
  simp only at hC0 hC
  have hW : Spec.transition (fun _ : ℕ => θ) (0 + 1) * F k P * Spec.overlap k r (0 * (r + p)) * (F r θ.Q)ᵀ * θ.Rᵀ = W := by
    simp [Spec.transition, W]
  clear hd draws
  induction h with
  | zero =>
    rw [(hC 0 hh).1, hW, hC0]
    simp [Spec.errorCov]
  | succ h ih =>
    obtain ⟨h1, h2⟩ := hC (h + 1) hh
    have h3 : k ≤ (h + 1) * (r + p) := le_trans hk (Nat.le_mul_of_pos_left _ (by omega))
    rw [h2 h3, transpose_zero, add_zero, add_zero] at h1
    rw [h1, ih (by omega)]
    simp only [Spec.errorCov, Matrix.mul_add, Matrix.add_mul, pow_succ', Matrix.transpose_mul, Matrix.mul_assoc]
    abel

theorem one_by_one_pos {a : ℝ} (ha : 0 < a) : (!![a] : Matrix (Fin 1) (Fin 1) ℝ).PosDef := by
  refine Matrix.PosDef.of_dotProduct_mulVec_pos ?_ fun x hx => ?_
  · ext i j; fin_cases i; fin_cases j; simp [Matrix.conjTranspose_apply]
  · have h0 : x 0 ≠ 0 := fun h => hx (by ext i; fin_cases i; exact h)
    have : 0 < a * (x 0 * x 0) := mul_pos ha (mul_self_pos.2 h0)
    simp [dotProduct, mulVec]
    nlinarith

/-- **C184 (smoothed starts look ahead).** Two observations of a local level. Forecasting from the first date, the filtered start is
the same whatever the second observation is, the smoothed start is not: the default forecast of the second date depends on the
value it forecasts. -/
theorem C184_smoothed_start_looks_ahead (v q s a fill y0 y1 y1' : ℝ) (hv : 0 < v) (hq : 0 < q) (hs : 0 < s) (h0 : y0 ≠ fill)
    (h1 : y1 ≠ fill) (h1' : y1' ≠ fill) (hne : y1 ≠ y1') :
    let start := fun (o : FilterOutput) (y : ℝ) => (forecastStart fill o (Spec.level q s) (fun _ => a) !![v]
      [fun _ => some y0, fun _ => some y] 0).map Prod.fst
    (∃ x, start .filtered y1 = some x ∧ start .filtered y1' = some x) ∧
    ∃ x x', start .smoothed y1 = some x ∧ start .smoothed y1' = some x' ∧ x 0 ≠ x' 0 := by
  intro start
  let θ : ℕ → Params (Fin 1) (Fin 1) (Fin 1) := fun _ => Spec.level q s
  have hH : ∀ t, (θ t).H.PosDef := fun _ => one_by_one_pos hs
  obtain ⟨Ω, mΩ, μ, hμ, X, Y, η, ε, fill', h, -⟩ := exists_process θ (fun _ => a) (P0 := !![v]) (one_by_one_pos hv).posSemidef
    (fun _ => (one_by_one_pos hq).posSemidef) (fun t => (hH t).posSemidef)
  have hY := undetermined_of_H h hH
  have hR := regular_of_process h hY
  let data : ℝ → ℕ → Fin 1 → ℝ := fun y t _ => if t = 0 then y0 else y
  have hdata : ∀ y, ([fun _ => some y0, fun _ => some y] : List (Row (Fin 1))).map (fun r => (r, Spec.level q s)) =
      (List.range 2).map fun t => ((fun i => some (data y t i) : Row (Fin 1)), θ t) := by
    intro y; simp [List.range_succ, data, θ]
  have hfillD : ∀ y, y ≠ fill → ∀ t i, data y t i ≠ fill := by
    intro y hy t i
    simp only [data]; split <;> assumption
  have hfilt : ∀ y, y ≠ fill → start .filtered y = some (filtAt (1 : ℝ) θ (fun _ => a) !![v] (data y) 0) := by
    intro y hy
    obtain ⟨-, -, g3, g4, -, -⟩ := outAt (a0 := fun _ => a) hR fill (data y) (hfillD y hy) 2 0 (by omega)
    simp only [start, forecastStart, outputGroup, hdata]
    have g := List.getElem?_zip_eq_some (z := (filtAt (1 : ℝ) θ (fun _ => a) !![v] (data y) 0, filtCov θ !![v] 0)).2 ⟨g3, g4⟩
    rw [g]
    rfl
  have hsm : ∀ y, y ≠ fill → start .smoothed y = some (smAt (1 : ℝ) θ (fun _ => a) !![v] (data y) 1 1) := by
    intro y hy
    obtain ⟨out, g1, -, g3⟩ := smOut (a0 := fun _ => a) hR (filtCov_symm h hY) ⟨1, 1, !![q]⟩ (fun _ => ⟨rfl, rfl, rfl⟩) fill
      (data y) (hfillD y hy) 1
    have g3' := g3 1 le_rfl
    simp only [start, forecastStart, outputGroup, hdata, List.length_cons, List.length_nil]
    have e : (⟨(Spec.level q s).T, (Spec.level q s).R, (Spec.level q s).Q⟩ : Smoother.Params (Fin 1) (Fin 1)) = ⟨1, 1, !![q]⟩ := rfl
    rw [e, g1, Option.getD_some]
    rw [Nat.sub_self] at g3'
    rw [g3']
    rfl
  have hf0 : ∀ y y', filtAt (1 : ℝ) θ (fun _ => a) !![v] (data y) 0 = filtAt (1 : ℝ) θ (fun _ => a) !![v] (data y') 0 := by
    intro y y'; simp [filtAt, predAt, data]
  refine ⟨⟨_, hfilt y1 h1, by rw [hfilt y1' h1', hf0]⟩, _, _, hsm y1 h1, hsm y1' h1', fun heq => ?_⟩
  have hp1 : ∀ y y', predAt (1 : ℝ) θ (fun _ => a) !![v] (data y) 1 = predAt (1 : ℝ) θ (fun _ => a) !![v] (data y') 1 := by
    intro y y'; simp [predAt, data]
  -- covariances
  have hd : ∀ A B : Matrix (Fin 1) (Fin 1) ℝ, (A * B) 0 0 = A 0 0 * B 0 0 := by intro A B; simp [Matrix.mul_apply]
  have hinv : ∀ A : Matrix (Fin 1) (Fin 1) ℝ, A⁻¹ 0 0 = (A 0 0)⁻¹ := by intro A; simp [Matrix.inv_def]
  have hPf : filtCov θ !![v] 0 0 0 = v * s / (v + s) := by
    have : v + s ≠ 0 := by positivity
    simp only [filtCov, covAt, Spec.condCov, Spec.obsCov, θ, Spec.level, Matrix.sub_apply, hd, hinv, Matrix.add_apply]
    simp
    field_simp
    ring
  have hPfpos : 0 < filtCov θ !![v] 0 0 0 := by rw [hPf]; positivity
  have hP1 : covAt θ !![v] 1 0 0 = filtCov θ !![v] 0 0 0 + q := by
    simp [covAt, filtCov, θ, Spec.level]
  have hK : gainAt θ !![v] 1 0 0 ≠ 0 := by
    have : gainAt θ !![v] 1 0 0 = covAt θ !![v] 1 0 0 * (covAt θ !![v] 1 0 0 + s)⁻¹ := by
      simp only [gainAt, Spec.obsCov, hd, hinv, Matrix.add_apply]
      simp [θ, Spec.level]
    rw [this, hP1]
    positivity
  have hJ : smGain θ !![v] 0 0 0 ≠ 0 := by
    have hg := gain_normal (P := filtCov θ !![v] 0) (Q' := (θ 0).R * (θ 0).Q * (θ 0).Rᵀ) (T := (θ 0).T) ?_ ?_
    · have hg := congrFun (congrFun hg 0) 0
      intro hz
      have e : smGain θ !![v] 0 = Smoother.gain ((θ 0).T * filtCov θ !![v] 0 * (θ 0).Tᵀ + (θ 0).R * (θ 0).Q * (θ 0).Rᵀ)
        (filtCov θ !![v] 0) (θ 0).T := rfl
      rw [hd, hd, ← e, hz, zero_mul] at hg
      simp [θ, Spec.level] at hg
      exact hPfpos.ne hg
    · rw [filtCov, ← ((toProc h).allPosDef covB_self_nonneg (posDef_of_undetermined h hY) (fun _ => a) 0).2.2.2.cov]
      exact covM_posSemidef _ (toProc h).sym covB_self_nonneg _
    · have := (one_by_one_pos hq).posSemidef
      simpa [θ, Spec.level] using this
  have ha : ∀ (A : Matrix (Fin 1) (Fin 1) ℝ) (x : Fin 1 → ℝ), act A x 0 = A 0 0 * x 0 := by
    intro A x; simp [act]
  have h2 : ∀ y, smAt (1 : ℝ) θ (fun _ => a) !![v] (data y) 1 1 0 =
      filtAt (1 : ℝ) θ (fun _ => a) !![v] (data y) 0 0 + smGain θ !![v] 0 0 0 *
        (predAt (1 : ℝ) θ (fun _ => a) !![v] (data y) 1 0 + gainAt θ !![v] 1 0 0 *
          (y - predAt (1 : ℝ) θ (fun _ => a) !![v] (data y) 1 0) - filtAt (1 : ℝ) θ (fun _ => a) !![v] (data y) 0 0) := by
    intro y
    have e1 : filtAt (1 : ℝ) θ (fun _ => a) !![v] (data y) 1 0 = predAt (1 : ℝ) θ (fun _ => a) !![v] (data y) 1 0 +
        gainAt θ !![v] 1 0 0 * (y - predAt (1 : ℝ) θ (fun _ => a) !![v] (data y) 1 0) := by
      simp only [filtAt, Pi.add_apply, ha, Pi.sub_apply]
      simp [θ, Spec.level, data, const]
    simp only [smAt, Pi.add_apply, ha, Pi.sub_apply, Nat.sub_self, zero_add, e1]
    simp [θ, Spec.level]
  rw [h2, h2, hf0 y1 y1', hp1 y1 y1'] at heq
  have h3 : smGain θ !![v] 0 0 0 * (gainAt θ !![v] 1 0 0 * (y1 - y1')) = 0 := by linear_combination heq
  rcases mul_eq_zero.1 h3 with h3 | h3
  · exact hJ h3
  · rcases mul_eq_zero.1 h3 with h3 | h3
    · exact hK h3
    · exact hne (sub_eq_zero.1 h3)

/-- C184 applies to a local linear trend with all three kinds of start, at every length and horizon. -/
example (o : FilterOutput) (N steps h : ℕ) (hN : 0 < N) (hh : h < steps) :
    ∃ (Ω : Type) (_ : MeasurableSpace Ω) (μ : Measure Ω) (Ω' : Type) (_ : MeasurableSpace Ω') (ν : Measure Ω') (z : ℕ → Ω' → ℝ)
      (X : ℕ → Fin 2 → Ω → ℝ) (Y : ℕ → Fin 1 → Ω → ℝ) (fill : ℝ), ∀ i, ∫ ω, (X (N - 1 + h + 1) i ω -
        Spec.meanState ν z (fun _ A => A) fill o trendModel 0 1 (Spec.data Y N ω) (N - 1) steps h i) ∂μ = 0 := by
  obtain ⟨Ω, mΩ, μ, hμ, X, Y, η, ε, fill, hX, hfill⟩ := exists_process (fun _ => trendModel) 0
    (P0 := 1) Matrix.PosSemidef.one (fun _ => Matrix.PosSemidef.one) (fun _ => Matrix.PosSemidef.one)
  obtain ⟨Ω', mΩ', ν, hν, z, hz⟩ := exists_whiteNoise
  exact ⟨Ω, mΩ, μ, Ω', mΩ', ν, z, X, Y, fill, (C184_state_forecasts hz (by omega) hX (undetermined_of_H hX fun _ => Matrix.PosDef.one) fill hfill o N (N - 1) steps h
    (by omega) (fun _ => by omega) hh).2.1⟩

end Verif.Simulate
