import Verif.Stationary.Lemmas
import Verif.Kalman.MissingLimitProps
import Verif.Stationary.Spectral

/-!
# C170: stationary initialisation

Property theorems.  `Spec.Stable` and `Kalman.Spec.Process` are the specification.
-/

set_option autoImplicit false

open Matrix Filter Topology MeasureTheory ProbabilityTheory
open scoped Kronecker

namespace Verif.Stationary

open Kalman.Orthogonal

variable {n p r : Type*} [Fintype n] [Fintype p] [Fintype r] [DecidableEq n] [DecidableEq p] [DecidableEq r]

/-- **C170**: for a stable transition matrix both linear systems are solvable, and the initial mean and covariance are the one
mean and the one covariance that a step of the model leaves unchanged; the covariance is positive semidefinite. -/
theorem C170_fixed_point (c : n → ℝ) {T : Matrix n n ℝ} (hT : Spec.Stable T) (R : Matrix n r ℝ) {Q : Matrix r r ℝ}
    (hQ : Q.PosSemidef) :
    let i := stationaryInit c T R Q
    IsUnit (1 - T).det ∧ IsUnit (1 - T ⊗ₖ T).det ∧
    (∀ x : n → ℝ, T *ᵥ x + c = x ↔ x = i.1) ∧
    (∀ P : Matrix n n ℝ, T * P * Tᵀ + R * Q * Rᵀ = P ↔ P = i.2) ∧ i.2.PosSemidef := by
  intro i
  have h1 := stable_unit hT
  have h2 := stable_unit_kron hT
  have hW : (R * Q * Rᵀ).PosSemidef := by
    have := hQ.mul_mul_conjTranspose_same R
    rwa [conjTranspose_eq_transpose_of_trivial] at this
  refine ⟨h1, h2, fun x => ⟨fun h => ?_, ?_⟩, fun P => ⟨fun h => lyapunov_unique h2 h, ?_⟩, ?_⟩
  · have : (1 - T) *ᵥ x = c := by
      rw [sub_mulVec, one_mulVec]
      nth_rewrite 1 [← h]
      simp
    show x = (1 - T)⁻¹ *ᵥ c
    rw [← this, mulVec_mulVec, Matrix.nonsing_inv_mul _ h1, one_mulVec]
  · rintro rfl
    have : (1 - T) *ᵥ ((1 - T)⁻¹ *ᵥ c) = c := by
      rw [mulVec_mulVec, Matrix.mul_nonsing_inv _ h1, one_mulVec]
    rw [sub_mulVec, one_mulVec] at this
    show T *ᵥ ((1 - T)⁻¹ *ᵥ c) + c = (1 - T)⁻¹ *ᵥ c
    nth_rewrite 2 [← this]
    abel
  · rintro rfl
    exact lyapunov_solves _ h2
  · exact posSemidef_of_stable hT hW (lyapunov_solves _ h2)

/-- **C170**: the covariance is the sum of the variances of all past shocks: the series of `Tᵏ R Q Rᵀ (Tᵏ)ᵀ`. -/
theorem C170_sum_of_past_shocks (c : n → ℝ) {T : Matrix n n ℝ} (hT : Spec.Stable T) (R : Matrix n r ℝ) (Q : Matrix r r ℝ) :
    Tendsto (fun k => ∑ i ∈ Finset.range k, T ^ i * (R * Q * Rᵀ) * (T ^ i)ᵀ) atTop (𝓝 (stationaryInit c T R Q).2) := by
  have hX := lyapunov_solves (R * Q * Rᵀ) (stable_unit_kron hT)
  have h2 : Tendsto (fun k : ℕ => lyapunov T (R * Q * Rᵀ) - T ^ k * lyapunov T (R * Q * Rᵀ) * (T ^ k)ᵀ) atTop
      (𝓝 (lyapunov T (R * Q * Rᵀ) - 0)) := tendsto_const_nhds.sub (stable_sandwich hT _)
  rw [sub_zero] at h2
  exact h2.congr fun k => (sub_eq_of_eq_add' (lyapunov_iterate hX k))

/-- **C170**: rows with no data leave the initial mean unchanged, and change the covariance only by the jitter. -/
theorem C170_missing_row (c : n → ℝ) {T : Matrix n n ℝ} (hT : Spec.Stable T) (R : Matrix n r ℝ) {Q : Matrix r r ℝ}
    (hQ : Q.PosSemidef) {j : ℝ} (hj : 0 < j) (fill : ℝ) (y : Kalman.Row p) (hmiss : ∀ i, Kalman.Spec.Missing fill (y i))
    (θ : Kalman.Params n p r) (hθ : θ.c = c ∧ θ.T = T ∧ θ.R = R ∧ θ.Q = Q) :
    let i := stationaryInit c T R Q
    let o := Kalman.kalmanStep j fill y i.1 i.2 θ
    o.aHat = i.1 ∧ o.PHat = i.2 + j • (T * Tᵀ) := by
  obtain ⟨hc, rfl, rfl, rfl⟩ := hθ
  subst hc
  intro i o
  obtain ⟨-, -, h3, h4, h5⟩ := C170_fixed_point θ.c hT θ.R hQ
  have hs : i.2ᵀ = i.2 := Kalman.PosSemidef.transpose_eq h5
  obtain ⟨g1, g2, -, -⟩ := Kalman.C03_all_missing hj fill y hmiss i.1 hs θ
  constructor
  · show θ.T *ᵥ o.aFilt + θ.c = i.1
    rw [g1]; exact (h3 i.1).2 rfl
  · show Kalman.quadFormSym θ.T o.PFilt + Kalman.quadFormSym θ.R θ.Q = _
    rw [g2, Kalman.quadFormSym_of_symm _ (by simp [hs]), Kalman.quadFormSym_of_symm _ (Kalman.PosSemidef.transpose_eq hQ)]
    have h6 := (h4 i.2).2 rfl
    simp only [Matrix.mul_add, Matrix.add_mul, Matrix.mul_smul, Matrix.smul_mul, Matrix.mul_one]
    nth_rewrite 2 [← h6]
    abel

variable {Ω : Type*} [MeasurableSpace Ω] {μ : Measure Ω} [IsProbabilityMeasure μ]
variable {θ : Kalman.Params n p r} {a0 : n → ℝ} {P0 : Matrix n n ℝ} {X : ℕ → n → Ω → ℝ} {Y : ℕ → p → Ω → ℝ}
  {η : ℕ → r → Ω → ℝ} {ε : ℕ → p → Ω → ℝ}

theorem mean_step (h : Kalman.Spec.Process μ (fun _ => θ) a0 P0 X Y η ε) (t : ℕ) (i : n) :
    ∫ ω, X (t + 1) i ω ∂μ = (θ.T *ᵥ (fun j => ∫ ω, X t j ω ∂μ) + θ.c) i := by
  have h1 := congrArg (mean μ) (congrFun ((toProc h).move t) i)
  have hη : ∀ j, mean μ (liftη h t j) = 0 := fun j => h.mean_shock t j
  have h2 : mean μ (one μ) = 1 := by simp [mean_apply, Kalman.Orthogonal.one]
  simp only [Pi.add_apply, map_add, act, map_sum, map_smul, const, hη, h2, smul_eq_mul, mul_zero, Finset.sum_const_zero,
    add_zero, mul_one] at h1
  exact h1

theorem cov_step (h : Kalman.Spec.Process μ (fun _ => θ) a0 P0 X Y η ε) (t : ℕ) :
    covM (covB μ) (liftX h (t + 1)) (liftX h (t + 1)) =
      θ.T * covM (covB μ) (liftX h t) (liftX h t) * θ.Tᵀ + θ.R * θ.Q * θ.Rᵀ := by
  have hp := toProc h
  have e1 := (hp.xLater t t le_rfl).1
  have e2 : covM (covB μ) (liftη h t) (liftX h t) = 0 := by rw [← covM_transpose _ hp.sym, e1, transpose_zero]
  rw [hp.move]
  simp [covM_add_left, covM_add_right, covM_act_left, covM_act_right, covM_const_left _ hp.one0,
    covM_const_right _ hp.one0', e1, e2, hp.ηη, Matrix.mul_assoc]

/-- Covariance of a later state with an earlier one. -/
theorem cov_lag (h : Kalman.Spec.Process μ (fun _ => θ) a0 P0 X Y η ε) (s k : ℕ) :
    covM (covB μ) (liftX h (s + k)) (liftX h s) = θ.T ^ k * covM (covB μ) (liftX h s) (liftX h s) := by
  have hp := toProc h
  induction k with
  | zero => simp
  | succ k ih =>
    have e : covM (covB μ) (liftη h (s + k)) (liftX h s) = 0 := by
      rw [← covM_transpose _ hp.sym, (hp.xLater s (s + k) (by omega)).1, transpose_zero]
    rw [show s + (k + 1) = s + k + 1 by omega, hp.move]
    simp only [covM_add_left, covM_act_left, covM_const_left _ hp.one0, e, ih, Matrix.mul_zero, add_zero]
    rw [pow_succ', Matrix.mul_assoc]

/-- Covariance of a later observation with an earlier one. -/
theorem cov_obs_lag (h : Kalman.Spec.Process μ (fun _ => θ) a0 P0 X Y η ε) (s k : ℕ) :
    covM (covB μ) (liftY h (s + k)) (liftY h s) =
      θ.Z * (θ.T ^ k * covM (covB μ) (liftX h s) (liftX h s)) * θ.Zᵀ + if k = 0 then θ.H else
        θ.Z * covM (covB μ) (liftX h (s + k)) (liftε h s) := by
  have hp := toProc h
  have e1 : covM (covB μ) (liftε h (s + k)) (liftX h s) = 0 := by
    rw [← covM_transpose _ hp.sym, (hp.xLater s (s + k) (by omega)).2, transpose_zero]
  rw [hp.obs (s + k), hp.obs s]
  simp only [covM_add_left, covM_add_right, covM_act_left, covM_act_right, covM_const_left _ hp.one0,
    covM_const_right _ hp.one0', e1, cov_lag]
  by_cases hk : k = 0
  · subst hk
    have e2 := (hp.xLater s s le_rfl).2
    simp [e2, hp.εε]
  · simp [hk, hp.εε0 (s + k) s (by omega)]

/-- States are uncorrelated with measurement errors of any date. -/
theorem cov_state_error (h : Kalman.Spec.Process μ (fun _ => θ) a0 P0 X Y η ε) (t s : ℕ) :
    covM (covB μ) (liftX h t) (liftε h s) = 0 := by
  have hp := toProc h
  induction t with
  | zero => exact hp.xε0 s
  | succ t ih =>
    rw [hp.move]
    simp [covM_add_left, covM_act_left, covM_const_left _ hp.one0, ih, hp.ηε0]

/-- **C170**: a process that follows the model with fixed matrices and starts with the stationary initialisation is stationary:
the mean and covariance of the states and the mean of the observations are the same at all dates, and the covariance of two
observations depends only on the time between them. -/
theorem C170_process_stationary (h : Kalman.Spec.Process μ (fun _ => θ) a0 P0 X Y η ε) (hT : Spec.Stable θ.T)
    (h0 : (a0, P0) = stationaryInit θ.c θ.T θ.R θ.Q) (s t : ℕ) :
    (∀ i, ∫ ω, X t i ω ∂μ = ∫ ω, X s i ω ∂μ) ∧ (∀ i j, cov[X t i, X t j; μ] = cov[X s i, X s j; μ]) ∧
    (∀ i, ∫ ω, Y t i ω ∂μ = ∫ ω, Y s i ω ∂μ) ∧ ∀ k i j, cov[Y (t + k) i, Y t j; μ] = cov[Y (s + k) i, Y s j; μ] := by
  have hQ : θ.Q.PosSemidef := by
    rw [← (toProc h).ηη 0]; exact covM_posSemidef _ (toProc h).sym covB_self_nonneg _
  obtain ⟨-, -, h3, h4, -⟩ := C170_fixed_point θ.c hT θ.R hQ
  obtain ⟨ha, hP⟩ := Prod.mk.inj h0
  have hmean : ∀ t, (fun i => ∫ ω, X t i ω ∂μ) = a0 := by
    intro t
    induction t with
    | zero => funext i; exact h.mean_initial i
    | succ t ih =>
      funext i
      rw [mean_step h t i, ih, (h3 a0).2 ha]
  have hcov : ∀ t, covM (covB μ) (liftX h t) (liftX h t) = P0 := by
    intro t
    induction t with
    | zero => exact (toProc h).x0
    | succ t ih => rw [cov_step h t, ih]; exact (h4 P0).2 hP
  have hY : ∀ t i, ∫ ω, Y t i ω ∂μ = (θ.Z *ᵥ a0 + θ.d) i := by
    intro t i
    have h1 := congrArg (mean μ) (congrFun ((toProc h).obs t) i)
    have hε : mean μ (liftε h t i) = 0 := h.mean_error t i
    have h2 : mean μ (one μ) = 1 := by simp [mean_apply, Kalman.Orthogonal.one]
    simp only [Pi.add_apply, map_add, act, map_sum, map_smul, const, hε, h2, smul_eq_mul, add_zero, mul_one] at h1
    have h5 : ∀ j, mean μ (liftX h t j) = a0 j := fun j => congrFun (hmean t) j
    simp only [h5] at h1
    exact h1
  refine ⟨fun i => ?_, fun i j => ?_, fun i => ?_, fun k i j => ?_⟩
  · exact (congrFun (hmean t) i).trans (congrFun (hmean s) i).symm
  · have := (hcov t).trans (hcov s).symm
    exact congrFun (congrFun this i) j
  · rw [hY t i, hY s i]
  · have e : ∀ t, covM (covB μ) (liftY h (t + k)) (liftY h t) = θ.Z * (θ.T ^ k * P0) * θ.Zᵀ + if k = 0 then θ.H else 0 := by
      intro t
      rw [cov_obs_lag, hcov, cov_state_error]
      simp
    have := (e t).trans (e s).symm
    exact congrFun (congrFun this i) j

/-- **C170**: it is the only initialisation with this property: if the means and covariances of the first two states agree, the
initial mean and covariance are those of the stationary initialisation. -/
theorem C170_only_stationary (h : Kalman.Spec.Process μ (fun _ => θ) a0 P0 X Y η ε) (hT : Spec.Stable θ.T)
    (hm : ∀ i, ∫ ω, X 1 i ω ∂μ = ∫ ω, X 0 i ω ∂μ) (hc : ∀ i j, cov[X 1 i, X 1 j; μ] = cov[X 0 i, X 0 j; μ]) :
    (a0, P0) = stationaryInit θ.c θ.T θ.R θ.Q := by
  have hQ : θ.Q.PosSemidef := by
    rw [← (toProc h).ηη 0]; exact covM_posSemidef _ (toProc h).sym covB_self_nonneg _
  obtain ⟨-, -, h3, h4, -⟩ := C170_fixed_point θ.c hT θ.R hQ
  have e1 : (fun i => ∫ ω, X 0 i ω ∂μ) = a0 := funext h.mean_initial
  refine Prod.ext ((h3 a0).1 ?_) ((h4 P0).1 ?_)
  · funext i
    have := mean_step h 0 i
    rw [e1] at this
    rw [← this, hm i, h.mean_initial]
  · have h1 := cov_step h 0
    rw [(toProc h).x0] at h1
    rw [← h1]
    ext i j
    exact (hc i j).trans (h.cov_initial i j)

/-- **C170**: nothing checks stability.  If the transposed transition matrix has a real eigenvalue outside the unit circle
whose eigenvector picks up shocks, the initial covariance the code computes is not a covariance matrix: the variance of
that combination of the states is negative. -/
theorem C170_unstable_negative_variance (c : n → ℝ) (T : Matrix n n ℝ) (R : Matrix n r ℝ) (Q : Matrix r r ℝ)
    (hu : IsUnit (1 - T ⊗ₖ T).det) (v : n → ℝ) (l : ℝ) (hv : Tᵀ *ᵥ v = l • v) (hl : 1 < |l|)
    (hs : 0 < v ⬝ᵥ ((R * Q * Rᵀ) *ᵥ v)) :
    v ⬝ᵥ ((stationaryInit c T R Q).2 *ᵥ v) < 0 ∧ ¬ (stationaryInit c T R Q).2.PosSemidef := by
  have hX := lyapunov_solves (R * Q * Rᵀ) hu
  set P := lyapunov T (R * Q * Rᵀ) with hP
  have hq : v ⬝ᵥ (P *ᵥ v) = l ^ 2 * (v ⬝ᵥ (P *ᵥ v)) + v ⬝ᵥ ((R * Q * Rᵀ) *ᵥ v) := by
    conv_lhs => rw [← hX]
    rw [add_mulVec, dotProduct_add]
    congr 1
    rw [← mulVec_mulVec, hv, mulVec_smul, dotProduct_smul, ← mulVec_mulVec, dotProduct_mulVec, ← mulVec_transpose, hv,
      smul_dotProduct, smul_eq_mul, smul_eq_mul]
    ring
  have hl2 : 1 < l ^ 2 := by
    rw [← sq_abs]; nlinarith [abs_nonneg l]
  have hneg : v ⬝ᵥ (P *ᵥ v) < 0 := by
    by_contra hc
    nlinarith
  refine ⟨hneg, fun hp => ?_⟩
  have := hp.dotProduct_mulVec_nonneg v
  simp only [star_trivial] at this
  exact absurd hneg (not_lt.2 this)

/-- **C170**: stability is the usual condition on eigenvalues. -/
theorem C170_stable_iff_eigenvalues (T : Matrix n n ℝ) :
    Spec.Stable T ↔ ∀ (z : ℂ) (v : n → ℂ), v ≠ 0 → (T.map Complex.ofReal) *ᵥ v = z • v → ‖z‖ < 1 := stable_iff T

/-- An AR(1) with coefficient 1/2 is stable; its stationary variance is `σ² / (1 - 1/4)`. -/
example : Spec.Stable !![(1 / 2 : ℝ)] ∧ (stationaryInit ![3] !![(1 / 2 : ℝ)] !![(1 : ℝ)] !![(3 : ℝ)]) = (![6], !![(4 : ℝ)]) := by
  have hT : Spec.Stable !![(1 / 2 : ℝ)] := by
    rw [stable_iff]
    intro z v hv h
    have h0 := congrFun h 0
    have hv0 : v 0 ≠ 0 := fun h => hv (funext fun i => by rw [Subsingleton.elim i 0]; exact h)
    simp [mulVec, dotProduct, Matrix.map_apply] at h0
    have : z = 1 / 2 := by
      rcases h0 with h0 | h0
      · rw [← h0]; norm_num
      · exact absurd h0 hv0
    rw [this]; norm_num
  refine ⟨hT, ?_⟩
  have hQ : (!![(3 : ℝ)]).PosSemidef := by
    have : (!![(3 : ℝ)]) = (3 : ℝ) • (1 : Matrix (Fin 1) (Fin 1) ℝ) := by ext i j; fin_cases i; fin_cases j; simp
    rw [this]; exact PosSemidef.one.smul (by norm_num)
  obtain ⟨-, -, h3, h4, -⟩ := C170_fixed_point ![3] hT !![(1 : ℝ)] hQ
  refine (Prod.ext ((h3 ![6]).1 ?_) ((h4 !![4]).1 ?_)).symm
  · ext i; fin_cases i; simp [mulVec, dotProduct]; norm_num
  · ext i j; fin_cases i; fin_cases j; simp [Matrix.mul_apply, Matrix.vecMul, dotProduct]; norm_num

/-- With any stable transition there is a process that starts with the stationary initialisation, so the hypotheses of
`C170_process_stationary` can be met; here for the AR(1) above. -/
example (hT : Spec.Stable !![(1 / 2 : ℝ)]) : ∃ (θ : Kalman.Params (Fin 1) (Fin 1) (Fin 1)) (a0 : Fin 1 → ℝ)
    (P0 : Matrix (Fin 1) (Fin 1) ℝ) (Ω : Type) (_ : MeasurableSpace Ω) (μ : Measure Ω) (_ : IsProbabilityMeasure μ)
    (X : ℕ → Fin 1 → Ω → ℝ) (Y : ℕ → Fin 1 → Ω → ℝ) (η : ℕ → Fin 1 → Ω → ℝ) (ε : ℕ → Fin 1 → Ω → ℝ),
    Kalman.Spec.Process μ (fun _ => θ) a0 P0 X Y η ε ∧ Spec.Stable θ.T ∧ (a0, P0) = stationaryInit θ.c θ.T θ.R θ.Q := by
  let θ : Kalman.Params (Fin 1) (Fin 1) (Fin 1) := ⟨![3], ![0], !![1 / 2], !![1], !![1], 1, 1⟩
  obtain ⟨-, -, -, -, h5⟩ := C170_fixed_point θ.c hT θ.R (Q := 1) PosSemidef.one
  obtain ⟨Ω, m, μ, hμ, X, Y, η, ε, -, h, -⟩ := Kalman.exists_process (fun _ => θ) (stationaryInit θ.c θ.T θ.R θ.Q).1 h5
    (fun _ => PosSemidef.one) (fun _ => PosSemidef.one)
  exact ⟨θ, _, _, Ω, m, μ, hμ, X, Y, η, ε, h, hT, rfl⟩

/-- An explosive AR(1) meets the hypotheses of `C170_unstable_negative_variance`. -/
example : IsUnit (1 - !![(2 : ℝ)] ⊗ₖ !![(2 : ℝ)]).det ∧ (!![(2 : ℝ)])ᵀ *ᵥ ![1] = (2 : ℝ) • ![1] ∧ 1 < |(2 : ℝ)| ∧
    0 < ![(1 : ℝ)] ⬝ᵥ ((!![(1 : ℝ)] * !![(3 : ℝ)] * (!![(1 : ℝ)])ᵀ) *ᵥ ![1]) := by
  refine ⟨?_, ?_, by norm_num, ?_⟩
  · rw [isUnit_iff_ne_zero]
    intro h0
    obtain ⟨v, hv, hz⟩ := Matrix.exists_mulVec_eq_zero_iff.2 h0
    refine hv (funext fun q => ?_)
    have h1 := congrFun hz q
    obtain ⟨a, b⟩ := q
    have ha := Subsingleton.elim a 0
    have hb := Subsingleton.elim b 0
    subst ha hb
    simp [mulVec, dotProduct, Fintype.sum_prod_type, kroneckerMap_apply] at h1
    rcases h1 with h1 | h1
    · norm_num at h1
    · exact h1
  · ext i; fin_cases i; simp [mulVec, dotProduct]
  · simp [Matrix.mul_apply, mulVec, dotProduct]

end Verif.Stationary
