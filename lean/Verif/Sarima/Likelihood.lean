import Verif.Stationary.Autocov
import Verif.Sarima.Stability
import Mathlib.RingTheory.PowerSeries.Inverse

/-!
# C186: the exact likelihood of (seasonal) ARMA models

Property theorems.  The specification is the textbook likelihood: the power series `ψ` with `φ(B)Φ(B^S) ψ(B) = θ(B)Θ(B^S)`, the
autocovariances `γ(k) = σ² Σ ψ_m ψ_{m+k}` and the Gaussian density with the covariance matrix `γ(|s − t|)`.
-/

set_option autoImplicit false

open Finset Polynomial Matrix

namespace Verif.Sarima

open Verif.Stationary

/-- The matrices handed to the filter: no intercepts, one shock of standard deviation `sigma_state`, and measurement errors of
standard deviation `sigma_obs` when `measurement_error=True`.
pymc_extras/statespace/models/SARIMAX.py:397-401, 517-529; zero intercepts: core/representation.py:191-202 -/
def kparams (s : Sys) (sigmaState : ℝ) (sigmaObs : Option ℝ) : Kalman.Params (Fin s.k) (Fin 1) (Fin 1) where
  c := 0
  d := 0
  T := toMat s.k fun i j => s.T (i, j)
  Z := Matrix.of fun _ j => s.Z j
  R := Matrix.of fun i _ => s.R i
  H := Matrix.of fun _ _ => (sigmaObs.map (· ^ 2)).getD 0
  Q := Matrix.of fun _ _ => sigmaState ^ 2

/-- A single shock of size one at date `N`. Specification, no code behind it. -/
def pulse (N : ℕ) (t : ℕ) : ℝ := if t = N then 1 else 0

theorem state_before (s : Sys) (N t : ℕ) (ht : t ≤ N) (i : ℕ) : state s 0 (pulse N) t i = 0 := by
  induction t generalizing i with
  | zero => rfl
  | succ t ih =>
    simp only [state, pulse]
    rw [if_neg (by omega), mul_zero, add_zero]
    exact sum_eq_zero fun j _ => by rw [ih (by omega), mul_zero]

theorem state_after (s : Sys) (N m : ℕ) (σ : ℝ) (τ : Option ℝ) (i : Fin s.k) :
    state s 0 (pulse N) (N + 1 + m) i = ((kparams s σ τ).T ^ m * (kparams s σ τ).R) i 0 := by
  induction m generalizing i with
  | zero =>
    simp only [Nat.add_zero, state, pow_zero, Matrix.one_mul]
    rw [sum_eq_zero fun j _ => by rw [state_before s N N le_rfl, mul_zero]]
    simp [pulse, kparams]
  | succ m ih =>
    rw [show N + 1 + (m + 1) = (N + 1 + m) + 1 by omega]
    simp only [state, pulse]
    rw [if_neg (by omega), mul_zero, add_zero, pow_succ', Matrix.mul_assoc, Matrix.mul_apply,
      ← Fin.sum_univ_eq_sum_range (fun j => s.T (i, j) * state s 0 (pulse N) (N + 1 + m) j)]
    exact Finset.sum_congr rfl fun j _ => by rw [ih j]; rfl

theorem obs_after (s : Sys) (N m : ℕ) (σ : ℝ) (τ : Option ℝ) :
    obs s 0 (pulse N) (N + 1 + m) = Stationary.Spec.impulse (kparams s σ τ) m 0 0 := by
  simp only [obs, Stationary.Spec.impulse]
  rw [← Fin.sum_univ_eq_sum_range (fun j => s.Z j * state s 0 (pulse N) (N + 1 + m) j), Matrix.mul_assoc, Matrix.mul_apply]
  exact Finset.sum_congr rfl fun j _ => by rw [state_after s N m σ τ j]; rfl

theorem obs_before (s : Sys) (N t : ℕ) (ht : t ≤ N) : obs s 0 (pulse N) t = 0 := by
  simp only [obs]
  exact sum_eq_zero fun j _ => by rw [state_before s N t ht, mul_zero]

/-- Lag polynomials applied to a series that vanishes up to `N`. -/
theorem lag_coeff (P : ℝ[X]) (f : ℕ → ℝ) (N m : ℕ) (h : ∀ t ≤ N, f t = 0) :
    Spec.lag P f (N + 1 + m) = PowerSeries.coeff m ((P : PowerSeries ℝ) * PowerSeries.mk fun k => f (N + 1 + k)) := by
  rw [PowerSeries.coeff_mul, Spec.lag, Polynomial.sum_over_range' P (by simp) (P.natDegree + 1 + (m + 1)) (by omega),
    Finset.Nat.sum_antidiagonal_eq_sum_range_succ_mk]
  symm
  refine (Finset.sum_subset_zero_on_sdiff (Finset.range_mono (by omega)) ?_ ?_)
  · intro i hi
    simp only [mem_sdiff, mem_range] at hi
    rw [h _ (by omega), mul_zero]
  · intro i hi
    have := mem_range.1 hi
    simp only [Polynomial.coeff_coe, PowerSeries.coeff_mk]
    rw [show N + 1 + (m - i) = N + 1 + m - i by omega]

/-- **C186** (moving-average form): the shock responses of both forms are the coefficients of the power series
`θ(B)Θ(B^S) / (φ(B)Φ(B^S))`. -/
theorem C186_impulse (o : Order) (θ : Params) (hS : Spec.Proper o) (hv : verifyOrder o = true) (hd : o.d = 0) (hD : o.D = 0)
    (s : Sys) (hs : s = fast o θ ∨ s = interpretable o θ) (σ : ℝ) (τ : Option ℝ) (ψ : ℕ → ℝ)
    (hψ : ((Spec.arPoly o θ * Spec.sarPoly o θ : ℝ[X]) : PowerSeries ℝ) * PowerSeries.mk ψ =
      ((Spec.maPoly o θ * Spec.smaPoly o θ : ℝ[X]) : PowerSeries ℝ)) (m : ℕ) :
    Stationary.Spec.impulse (kparams s σ τ) m 0 0 = ψ m := by
  have heq : ∀ (ε : ℕ → ℝ) (t : ℕ), s.k ≤ t → Spec.lag (Spec.arPoly o θ * Spec.sarPoly o θ) (obs s 0 ε) t =
      Spec.lag (Spec.maPoly o θ * Spec.smaPoly o θ) (fun s => ε (s - 1)) t := by
    intro ε t ht
    rcases hs with rfl | rfl
    · have := C35_sarima_equation o θ hS hv 0 ε t ht
      rwa [show Spec.diffPoly o = 1 by simp [Spec.diffPoly, hd, hD], mul_one] at this
    · exact C35_interpretable_equation o θ hS hv 0 ε t ht
  have hne : ((Spec.arPoly o θ * Spec.sarPoly o θ : ℝ[X]) : PowerSeries ℝ) ≠ 0 := by
    intro h0
    have h1 := congrArg (PowerSeries.coeff 0) h0
    rw [arSar_poly o θ hS] at h1
    simp [Polynomial.coeff_X_pow] at h1
  have key : ((Spec.maPoly o θ * Spec.smaPoly o θ : ℝ[X]) : PowerSeries ℝ) =
      ((Spec.arPoly o θ * Spec.sarPoly o θ : ℝ[X]) : PowerSeries ℝ) *
        PowerSeries.mk fun m => Stationary.Spec.impulse (kparams s σ τ) m 0 0 := by
    ext m
    have h1 := heq (pulse (s.k + 1)) (s.k + 1 + 1 + m) (by omega)
    rw [lag_coeff _ _ _ _ (fun t ht => obs_before s _ t ht)] at h1
    simp only [obs_after s _ _ σ τ] at h1
    rw [h1, lag_coeff _ _ _ _ (fun t ht => by simp only [pulse]; rw [if_neg (by omega)])]
    have h2 : (PowerSeries.mk fun k => pulse (s.k + 1) (s.k + 1 + 1 + k - 1)) = (1 : PowerSeries ℝ) := by
      ext k
      rw [PowerSeries.coeff_mk, PowerSeries.coeff_one, pulse]
      exact if_congr (by omega) rfl rfl
    rw [h2, mul_one]
  have hmk : PowerSeries.mk ψ = PowerSeries.mk fun m => Stationary.Spec.impulse (kparams s σ τ) m 0 0 :=
    mul_left_cancel₀ hne (hψ.trans key)
  have := congrArg (PowerSeries.coeff m) hmk
  simpa using this.symm

theorem gauss_reindex {a b : Type} [Fintype a] [DecidableEq a] [Fintype b] [DecidableEq b] (e : a ≃ b) (S : Matrix b b ℝ) (v : b → ℝ) :
    Kalman.Spec.gaussLogDensity (Matrix.of fun i j => S (e i) (e j)) (fun i => v (e i)) = Kalman.Spec.gaussLogDensity S v := by
  have h1 : (Matrix.of fun i j => S (e i) (e j)) = S.submatrix e e := rfl
  rw [h1]
  simp only [Kalman.Spec.gaussLogDensity, Matrix.det_submatrix_equiv_self, Matrix.inv_submatrix_equiv, Fintype.card_congr e]
  congr 2
  have h2 : (S⁻¹.submatrix e e) *ᵥ (fun i => v (e i)) = fun i => (S⁻¹ *ᵥ v) (e i) := by
    funext i
    simp only [Matrix.mulVec, dotProduct, Matrix.submatrix_apply]
    exact e.sum_comp fun j => S⁻¹ (e i) j * v j
  rw [h2]
  exact e.sum_comp fun i => v i * (S⁻¹ *ᵥ v) i

/-- **C186** (exact likelihood).  Take an order without differencing, autoregressive roots outside the unit circle, a positive
`sigma_state`, with or without measurement error, in either form, with the stationary initialisation.  Let `ψ` be the power
series of the moving-average form.  Then the series `σ² Σ ψ_m ψ_{m+k}` converge, to `γ(k)` say, and for every fully observed
sample the log-likelihoods the filter reports add up to the Gaussian log-density of the sample with mean zero and covariance
matrix `γ(|a − b|)` (plus the measurement error variance on the diagonal), which is nonsingular. -/
theorem C186_exact_likelihood (o : Order) (θ : Params) (hS : Spec.Proper o) (hv : verifyOrder o = true) (hd : o.d = 0)
    (hD : o.D = 0) (hr : Spec.RootsOutside o θ) (s : Sys) (hs : s = fast o θ ∨ s = interpretable o θ) (σ : ℝ) (hσ : σ ≠ 0)
    (τ : Option ℝ) (ψ : ℕ → ℝ)
    (hψ : ((Spec.arPoly o θ * Spec.sarPoly o θ : ℝ[X]) : PowerSeries ℝ) * PowerSeries.mk ψ =
      ((Spec.maPoly o θ * Spec.smaPoly o θ : ℝ[X]) : PowerSeries ℝ)) :
    ∃ γ : ℕ → ℝ, (∀ k, HasSum (fun m => σ ^ 2 * (ψ m * ψ (m + k))) (γ k)) ∧
      (∀ N : ℕ, (Matrix.of fun a b : Fin N => γ ((a : ℕ) - b + (b - a)) + if a = b then (τ.map (· ^ 2)).getD 0 else 0).PosDef) ∧
      ∀ (fill : ℝ) (N : ℕ) (y : ℕ → ℝ), (∀ t, y t ≠ fill) →
        let M := kparams s σ τ
        let init := stationaryInit M.c M.T M.R M.Q
        let data : List (Kalman.Row (Fin 1) × Kalman.Params (Fin s.k) (Fin 1) (Fin 1)) :=
          (List.range N).map fun t => (fun _ => some (y t), M)
        (Kalman.buildGraph 0 fill init.1 init.2 data).loglike.sum =
          Kalman.Spec.gaussLogDensity
            (Matrix.of fun a b : Fin N => γ ((a : ℕ) - b + (b - a)) + if a = b then (τ.map (· ^ 2)).getD 0 else 0) (fun a => y a) := by
  set M := kparams s σ τ with hM
  have hT : Stationary.Spec.Stable M.T := by
    rcases hs with rfl | rfl
    · exact (C171_fast_stable_iff o θ hS hv hd hD).2 hr
    · exact (C171_interpretable_stable_iff o θ hS hv).2 hr
  have hconst : ∀ (x : ℝ), 0 ≤ x → (Matrix.of fun _ _ => x : Matrix (Fin 1) (Fin 1) ℝ).PosSemidef := by
    intro x hx
    have : (Matrix.of fun _ _ => x : Matrix (Fin 1) (Fin 1) ℝ) = x • 1 := by ext i j; simp [Subsingleton.elim i j]
    rw [this]; exact Matrix.PosSemidef.one.smul hx
  have hQ : M.Q.PosSemidef := hconst _ (sq_nonneg σ)
  have hτ : 0 ≤ (τ.map (· ^ 2)).getD 0 := by
    cases τ with
    | none => simp
    | some x => simpa using sq_nonneg x
  have hH : M.H.PosSemidef := hconst _ hτ
  obtain ⟨-, -, h3, h4, hP⟩ := C170_fixed_point M.c hT M.R hQ
  set init := stationaryInit M.c M.T M.R M.Q with hinit
  have himp := C186_impulse o θ hS hv hd hD s hs σ τ ψ hψ
  have hψ0 : ψ 0 = 1 := by
    have h1 := congrArg (PowerSeries.coeff 0) hψ
    have ha : (Spec.arPoly o θ * Spec.sarPoly o θ).coeff 0 = 1 := by
      rw [arSar_poly o θ hS]; simp [Polynomial.coeff_X_pow]
    have hb : (Spec.maPoly o θ * Spec.smaPoly o θ).coeff 0 = 1 := by
      have hpos : 0 < o.kLags := by simp only [Order.kLags]; omega
      rw [maSma_poly o θ hS hv, Polynomial.finsetSum_coeff, Finset.sum_eq_single 0]
      · simp [(selection_col o θ hS hv).1]
      · intro i _ hi; simp [Polynomial.coeff_X_pow, Ne.symm hi]
      · intro hc; exact absurd (mem_range.2 hpos) hc
    rw [PowerSeries.coeff_mul] at h1
    simp only [Finset.HasAntidiagonal.antidiagonal_zero, Finset.sum_singleton, Polynomial.coeff_coe, PowerSeries.coeff_mk] at h1
    rwa [ha, hb, one_mul] at h1
  obtain ⟨Ω, mΩ, μ, hμ, X, Y, η, ε, fill', h, -⟩ := Kalman.exists_process (fun _ => M) init.1 hP (fun _ => hQ) (fun _ => hH)
  have hpos1 : ∀ A : Matrix (Fin 1) (Fin 1) ℝ, 0 < A 0 0 → A.PosDef := by
    intro A hA
    have : A = (A 0 0) • 1 := by ext i j; simp [Subsingleton.elim i 0, Subsingleton.elim j 0]
    rw [this]; exact Matrix.PosDef.one.smul hA
  have hZR : (M.Z * (M.R * M.Q * M.Rᵀ) * M.Zᵀ) 0 0 = σ ^ 2 := by
    have e1 : M.Z * (M.R * M.Q * M.Rᵀ) * M.Zᵀ = Stationary.Spec.impulse M 0 * M.Q * (Stationary.Spec.impulse M 0)ᵀ := by
      simp only [Stationary.Spec.impulse, pow_zero, Matrix.mul_one, Matrix.transpose_mul, Matrix.mul_assoc]
    rw [e1]
    simp only [Matrix.mul_apply, Matrix.transpose_apply, Fin.sum_univ_one, Fin.isValue]
    rw [himp 0, hψ0]
    simp [hM, kparams]
  have hH0 : 0 ≤ M.H 0 0 := hτ
  have hY : Kalman.Spec.Undetermined μ Y := by
    refine Kalman.undetermined_of_shocks h (hpos1 _ ?_) fun t => hpos1 _ ?_
    · have e2 : 0 ≤ (M.Z * (M.T * init.2 * M.Tᵀ) * M.Zᵀ) 0 0 := by
        have := (hP.mul_mul_conjTranspose_same M.T).mul_mul_conjTranspose_same M.Z
        simp only [Matrix.conjTranspose_eq_transpose_of_trivial] at this
        exact this.diag_nonneg
      have e3 := (h4 init.2).2 rfl
      show 0 < (M.Z * init.2 * M.Zᵀ + M.H) 0 0
      rw [← e3, Matrix.mul_add, Matrix.add_mul, Matrix.add_apply, Matrix.add_apply, hZR]
      have := pow_pos (abs_pos.2 hσ) 2
      rw [sq_abs] at this
      linarith
    · show 0 < (M.Z * (M.R * M.Q * M.Rᵀ) * M.Zᵀ + M.H) 0 0
      rw [Matrix.add_apply, hZR]
      have := pow_pos (abs_pos.2 hσ) 2
      rw [sq_abs] at this
      linarith
  have hcov := fun s k => C186_autocovariance h hT (Prod.mk.eta) s k 0 0
  have hterm : ∀ k m, (Stationary.Spec.impulse M (m + k) * M.Q * (Stationary.Spec.impulse M m)ᵀ) 0 0 = σ ^ 2 * (ψ m * ψ (m + k)) := by
    intro k m
    simp only [Matrix.mul_apply, Matrix.transpose_apply, Fin.sum_univ_one, Fin.isValue]
    rw [himp m, himp (m + k)]
    simp only [hM, kparams, Matrix.of_apply]
    ring
  simp only [hterm] at hcov
  have hmean : ∀ t, ∫ ω, Y t 0 ω ∂μ = 0 := by
    intro t
    have hc : M.c = 0 := rfl
    have ha : init.1 = 0 := ((h3 0).1 (by rw [hc, Matrix.mulVec_zero, add_zero])).symm
    rw [mean_obs h hT Prod.mk.eta t 0, ha, Matrix.mulVec_zero, zero_add]
    rfl
  have hγ : ∀ a b : ℕ, ProbabilityTheory.covariance (Y a 0) (Y b 0) μ =
      (ProbabilityTheory.covariance (Y (0 + (a - b + (b - a))) 0) (Y 0 0) μ - if a - b + (b - a) = 0 then M.H 0 0 else 0) +
        if a = b then (τ.map (· ^ 2)).getD 0 else 0 := by
    intro a b
    have h1 : ∀ k s : ℕ, ProbabilityTheory.covariance (Y (s + k) 0) (Y s 0) μ =
        ProbabilityTheory.covariance (Y (0 + k) 0) (Y 0 0) μ := fun k s =>
      (C170_process_stationary h hT Prod.mk.eta 0 s).2.2.2 k 0 0
    have hHt : M.H 0 0 = (τ.map (· ^ 2)).getD 0 := rfl
    rw [hHt]
    rcases le_total a b with hab | hab
    · have e1 := h1 (b - a) a
      rw [Nat.add_sub_cancel' hab, ProbabilityTheory.covariance_comm] at e1
      rw [e1, show a - b + (b - a) = b - a by omega]
      by_cases he : a = b
      · subst he; simp
      · rw [if_neg he, if_neg (by omega)]; ring
    · have e1 := h1 (a - b) b
      rw [Nat.add_sub_cancel' hab] at e1
      rw [e1, show a - b + (b - a) = a - b by omega]
      by_cases he : a = b
      · subst he; simp
      · rw [if_neg he, if_neg (by omega)]; ring
  have hfin : ∀ i : Fin 1, i = 0 := fun i => Subsingleton.elim i 0
  have hmat : ∀ (N : ℕ) (q q' : Fin 1 × Fin N), ProbabilityTheory.covariance (Y q.2 q.1) (Y q'.2 q'.1) μ =
      (ProbabilityTheory.covariance (Y (0 + ((q.2 : ℕ) - q'.2 + (q'.2 - q.2))) 0) (Y 0 0) μ -
        if (q.2 : ℕ) - q'.2 + (q'.2 - q.2) = 0 then M.H 0 0 else 0) + if q.2 = q'.2 then (τ.map (· ^ 2)).getD 0 else 0 := by
    intro N q q'
    rw [hfin q.1, hfin q'.1, hγ]
    congr 1
    exact if_congr (by rw [Fin.ext_iff]) rfl rfl
  refine ⟨_, fun k => hcov 0 k, fun N => ?_, fun fill N y hy => ?_⟩
  · have h1 := (Kalman.C163_undetermined_iff h).1 hY N
    have h2 := h1.submatrix (e := (Equiv.uniqueProd (Fin N) (Fin 1)).symm) (Equiv.injective _)
    refine (congrArg Matrix.PosDef ?_).mp h2
    ext a b
    exact hmat N (0, a) (0, b)
  have hsum := Kalman.C163_total_loglik h hY fill (fun t _ => y t) (fun t _ => hy t) N
  simp only [Fintype.card_unique, Nat.cast_one, sub_self, zero_div, zero_mul, mul_zero, add_zero] at hsum
  refine Eq.trans hsum ?_
  rw [← gauss_reindex (Equiv.uniqueProd (Fin N) (Fin 1))]
  congr 1
  · ext q q'
    exact hmat N q q'
  · funext q
    rw [hfin q.1, hmean, sub_zero]
    rfl

/-- **C186**: there is exactly one such series, for all orders and coefficients. -/
theorem C186_psi_unique (o : Order) (θ : Params) (hS : Spec.Proper o) :
    ∃! ψ : ℕ → ℝ, ((Spec.arPoly o θ * Spec.sarPoly o θ : ℝ[X]) : PowerSeries ℝ) * PowerSeries.mk ψ =
      ((Spec.maPoly o θ * Spec.smaPoly o θ : ℝ[X]) : PowerSeries ℝ) := by
  have hc : PowerSeries.constantCoeff ((Spec.arPoly o θ * Spec.sarPoly o θ : ℝ[X]) : PowerSeries ℝ) ≠ 0 := by
    rw [arSar_poly o θ hS]; simp [Polynomial.coeff_X_pow]
  have hne : ((Spec.arPoly o θ * Spec.sarPoly o θ : ℝ[X]) : PowerSeries ℝ) ≠ 0 := by
    intro h0; rw [h0] at hc; simp at hc
  refine ⟨fun m => PowerSeries.coeff m (((Spec.arPoly o θ * Spec.sarPoly o θ : ℝ[X]) : PowerSeries ℝ)⁻¹ *
    ((Spec.maPoly o θ * Spec.smaPoly o θ : ℝ[X]) : PowerSeries ℝ)), ?_, fun ψ' h' => ?_⟩
  · have e : (PowerSeries.mk fun m => PowerSeries.coeff m (((Spec.arPoly o θ * Spec.sarPoly o θ : ℝ[X]) : PowerSeries ℝ)⁻¹ *
        ((Spec.maPoly o θ * Spec.smaPoly o θ : ℝ[X]) : PowerSeries ℝ))) = ((Spec.arPoly o θ * Spec.sarPoly o θ : ℝ[X]) : PowerSeries ℝ)⁻¹ *
        ((Spec.maPoly o θ * Spec.smaPoly o θ : ℝ[X]) : PowerSeries ℝ) := by
      ext m; simp
    simp only [e]
    rw [← mul_assoc, PowerSeries.mul_inv_cancel _ hc, one_mul]
  · funext m
    rw [← h', ← mul_assoc, mul_comm (_⁻¹), PowerSeries.mul_inv_cancel _ hc, one_mul, PowerSeries.coeff_mk]

/-- AR(1) with coefficient 1/2 and unit shocks: `ψ_m = 2⁻ᵐ`, `γ(k) = (4/3) 2⁻ᵏ`, so the filter computes the log-density of the
sample with covariance matrix `(4/3) 2^{-|a-b|}`. -/
example (fill : ℝ) (N : ℕ) (y : ℕ → ℝ) (hy : ∀ t, y t ≠ fill) :
    let o : Order := ⟨1, 0, 0, 0, 0, 0, 0⟩
    let M := kparams (fast o ⟨fun _ => 1 / 2, fun _ => 0, fun _ => 0, fun _ => 0⟩) 1 none
    let init := stationaryInit M.c M.T M.R M.Q
    (Kalman.buildGraph 0 fill init.1 init.2 ((List.range N).map fun t => ((fun _ => some (y t) : Kalman.Row (Fin 1)), M))).loglike.sum =
      Kalman.Spec.gaussLogDensity (Matrix.of fun a b : Fin N => 4 / 3 * (1 / 2) ^ ((a : ℕ) - b + (b - a))) (fun a => y a) := by
  intro o M init
  have hroots : Spec.RootsOutside o ⟨fun _ => 1 / 2, fun _ => 0, fun _ => 0, fun _ => 0⟩ := by
    intro w hw
    simp only [Spec.arPoly, Spec.sarPoly, o, range_one, sum_singleton, range_zero, sum_empty, map_sub, map_one, map_mul, aeval_C,
      map_pow, aeval_X, sub_zero, one_ne_zero, or_false] at hw
    have : w = 2 := by
      have h : (1 : ℂ) - (algebraMap ℝ ℂ (1 / 2)) * w ^ (0 + 1) = 1 - w / 2 := by simp; ring
      rw [h] at hw
      linear_combination (-2 : ℂ) * hw
    rw [this]; norm_num
  obtain ⟨γ, h1, -, h2⟩ := C186_exact_likelihood o ⟨fun _ => 1 / 2, fun _ => 0, fun _ => 0, fun _ => 0⟩ (fun _ => ⟨rfl, rfl, rfl⟩)
    (by decide) rfl rfl hroots _ (Or.inl rfl) 1 one_ne_zero none (fun m => (1 / 2) ^ m) (by
      ext m
      rcases m with _ | m
      · simp [Spec.arPoly, Spec.sarPoly, Spec.maPoly, Spec.smaPoly, o, PowerSeries.coeff_mul]
      · simp [Spec.arPoly, Spec.sarPoly, Spec.maPoly, Spec.smaPoly, o, sub_mul]
        rw [mul_assoc, PowerSeries.coeff_C_mul, PowerSeries.coeff_succ_X_mul, PowerSeries.coeff_mk, pow_succ, mul_inv]
        ring)
  have h3 : ∀ k, γ k = 4 / 3 * (1 / 2) ^ k := by
    intro k
    refine (h1 k).unique ?_
    have h4 := ((hasSum_geometric_of_lt_one (r := (1 / 4 : ℝ)) (by norm_num) (by norm_num)).mul_left ((1 / 2 : ℝ) ^ k))
    have e : (1 / 2 : ℝ) ^ k * (1 - 1 / 4)⁻¹ = 4 / 3 * (1 / 2) ^ k := by norm_num; ring
    rw [e] at h4
    refine h4.congr_fun fun x => ?_
    rw [pow_add, show (1 / 4 : ℝ) = 1 / 2 * (1 / 2) by norm_num, mul_pow]
    ring
  have h5 := h2 fill N y hy
  refine Eq.trans h5 ?_
  simp only [h3, Option.map_none, Option.getD_none, ite_self, add_zero]

end Verif.Sarima
