import Verif.Stationary.Autocov
import Verif.Varmax.Stability

/-!
# C187: the likelihood of vector ARMA models

Property theorems.  The specification: the matrices `Ψ_m` of the moving-average form (`Spec.MovingAverage`), the autocovariance
matrices `Γ(k) = Σ Ψ_{m+k} Q Ψ_mᵀ`, and the Gaussian density of the whole sample.
-/

set_option autoImplicit false

open Finset Matrix

namespace Verif.Varmax

open Verif.Stationary

/-- The matrices handed to the filter: no intercepts, shock covariance `Q`, measurement error variances `sigma_obs` (zero
unless `measurement_error=True`).  pymc_extras/statespace/models/VARMAX.py:311, 318-381;
zero intercepts: core/representation.py:191-202 -/
def kparams (o : Order) (θ : Params) (Q : Matrix (Fin o.k) (Fin o.k) ℝ) (sigmaObs : Option (ℕ → ℝ)) :
    Kalman.Params (Fin o.kStates) (Fin o.k) (Fin o.k) where
  c := 0
  d := 0
  T := toMat o.kStates (transition o θ)
  Z := Matrix.of fun i j => design o i j
  R := Matrix.of fun i j => selection o i j
  H := match sigmaObs with
    | none => 0
    | some σ => Matrix.of fun i j => obsCov o σ i j
  Q := Q

/-- Specification: the coefficient matrices of lag `l + 1`. -/
def Spec.coefMat (o : Order) (A : ℕ → ℕ → ℕ → ℝ) (l : ℕ) : Matrix (Fin o.k) (Fin o.k) ℝ := Matrix.of fun i j => A i l j

/-- Specification: `Ψ` are the coefficients of the moving-average form of `y_t = Σ A_l y_{t-l} + e_t + Σ M_l e_{t-l}`. -/
def Spec.MovingAverage (o : Order) (θ : Params) (Ψ : ℕ → Matrix (Fin o.k) (Fin o.k) ℝ) : Prop :=
  Ψ 0 = 1 ∧ ∀ m, Ψ (m + 1) = ∑ l ∈ range o.p, (if l ≤ m then Spec.coefMat o θ.ar l * Ψ (m - l) else 0) +
    if m < o.q then Spec.coefMat o θ.ma m else 0

/-- A shock of size one to series `j` at date `N`. Specification, no code behind it. -/
def pulse (N j : ℕ) (t i : ℕ) : ℝ := if t = N ∧ i = j then 1 else 0

variable (o : Order) (θ : Params)

theorem state_before (N j t : ℕ) (ht : t ≤ N) (i : ℕ) : state o θ 0 (pulse N j) t i = 0 := by
  induction t generalizing i with
  | zero => rfl
  | succ t ih =>
    simp only [state, pulse]
    rw [sum_eq_zero fun j _ => by rw [ih (by omega), mul_zero], zero_add]
    exact sum_eq_zero fun j _ => by rw [if_neg (by omega), mul_zero]

theorem state_after (Q : Matrix (Fin o.k) (Fin o.k) ℝ) (τ : Option (ℕ → ℝ)) (N m : ℕ) (i : Fin o.kStates) (j : Fin o.k) :
    state o θ 0 (pulse N j) (N + 1 + m) i = ((kparams o θ Q τ).T ^ m * (kparams o θ Q τ).R) i j := by
  induction m generalizing i with
  | zero =>
    simp only [Nat.add_zero, state, pow_zero, Matrix.one_mul]
    rw [sum_eq_zero fun l _ => by rw [state_before o θ N j N le_rfl, mul_zero], zero_add, Finset.sum_eq_single (j : ℕ)]
    · simp [pulse, kparams]
    · intro l _ hl; simp [pulse, hl]
    · intro hc; exact absurd (mem_range.2 j.2) hc
  | succ m ih =>
    rw [show N + 1 + (m + 1) = (N + 1 + m) + 1 by omega]
    simp only [state, pulse]
    have e0 : ∑ l ∈ range o.k, selection o i l * (if N + 1 + m = N ∧ l = (j : ℕ) then (1 : ℝ) else 0) = 0 :=
      sum_eq_zero fun l _ => by rw [if_neg (by omega), mul_zero]
    rw [e0, add_zero, pow_succ', Matrix.mul_assoc, Matrix.mul_apply,
      ← Fin.sum_univ_eq_sum_range (fun l => transition o θ i l * state o θ 0 (pulse N j) (N + 1 + m) l)]
    exact Finset.sum_congr rfl fun l _ => by rw [ih l]; rfl

theorem obs_after (Q : Matrix (Fin o.k) (Fin o.k) ℝ) (τ : Option (ℕ → ℝ)) (N m : ℕ) (i j : Fin o.k) :
    obs o θ 0 (pulse N j) (N + 1 + m) i = Stationary.Spec.impulse (kparams o θ Q τ) m i j := by
  simp only [obs, Stationary.Spec.impulse]
  rw [← Fin.sum_univ_eq_sum_range (fun l => design o i l * state o θ 0 (pulse N j) (N + 1 + m) l), Matrix.mul_assoc,
    Matrix.mul_apply]
  exact Finset.sum_congr rfl fun l _ => by rw [state_after o θ Q τ N m l j]; rfl

theorem obs_before (N j t i : ℕ) (ht : t ≤ N) : obs o θ 0 (pulse N j) t i = 0 := by
  simp only [obs]
  exact sum_eq_zero fun l _ => by rw [state_before o θ N j t ht, mul_zero]

/-- **C187** (moving-average form): the responses to the shocks are the moving-average matrices. -/
theorem C187_impulse (Q : Matrix (Fin o.k) (Fin o.k) ℝ) (τ : Option (ℕ → ℝ)) : Spec.MovingAverage o θ
    (Stationary.Spec.impulse (kparams o θ Q τ)) := by
  have heq := fun (N m : ℕ) (hN : max o.p o.q + 1 ≤ N + 1 + m) (i j : Fin o.k) =>
    C39_varma_equation o θ 0 (pulse N j) (N + 1 + m) i i.2 hN
  constructor
  · ext i j
    have h := heq (max o.p o.q) 0 (by omega) i j
    rw [obs_after o θ Q τ] at h
    rw [h]
    have e1 : ∀ l, obs o θ 0 (pulse (max o.p o.q) j) (max o.p o.q + 1 + 0 - (l + 1)) = fun _ => 0 :=
      fun l => funext fun i => obs_before o θ _ _ _ _ (by omega)
    simp only [e1, mul_zero, sum_const_zero, zero_add]
    rw [sum_eq_zero fun l hl => sum_eq_zero fun x _ => by
      have := mem_range.1 hl
      simp only [pulse]; rw [if_neg (by omega), mul_zero]]
    simp [pulse, Matrix.one_apply, Fin.ext_iff]
  · intro m
    ext i j
    have h := heq (max o.p o.q) (m + 1) (by omega) i j
    set N := max o.p o.q with hN
    rw [obs_after o θ Q τ] at h
    rw [h]
    have e0 : pulse N j (N + 1 + (m + 1) - 1) i = 0 := by simp only [pulse]; rw [if_neg (by omega)]
    rw [e0, add_zero, Matrix.add_apply, Matrix.sum_apply]
    congr 1
    · refine Finset.sum_congr rfl fun l hl => ?_
      have := mem_range.1 hl
      by_cases hlm : l ≤ m
      · rw [if_pos hlm, Matrix.mul_apply,
          ← Fin.sum_univ_eq_sum_range (fun x => θ.ar i l x * obs o θ 0 (pulse N j) (N + 1 + (m + 1) - (l + 1)) x)]
        refine Finset.sum_congr rfl fun x _ => ?_
        rw [show N + 1 + (m + 1) - (l + 1) = N + 1 + (m - l) by omega, obs_after o θ Q τ]
        rfl
      · rw [if_neg hlm]
        exact sum_eq_zero fun x _ => by rw [obs_before o θ _ _ _ _ (by omega), mul_zero]
    · have e1 : ∀ l ∈ range o.q, ∑ x ∈ range o.k, θ.ma i l x * pulse N j (N + 1 + (m + 1) - (l + 1) - 1) x =
          if l = m then θ.ma i m j else 0 := by
        intro l hl
        have := mem_range.1 hl
        by_cases hlm : l = m
        · subst hlm
          rw [if_pos rfl, Finset.sum_eq_single (j : ℕ)]
          · simp only [pulse]; rw [if_pos ⟨by omega, trivial⟩, mul_one]
          · intro x _ hx; simp only [pulse]; rw [if_neg (by omega), mul_zero]
          · intro hc; exact absurd (mem_range.2 j.2) hc
        · rw [if_neg hlm]
          exact sum_eq_zero fun x _ => by simp only [pulse]; rw [if_neg (by omega), mul_zero]
      rw [Finset.sum_congr rfl e1, Finset.sum_ite_eq']
      by_cases hm : m < o.q
      · simp [hm, Spec.coefMat]
      · simp [hm]

/-- **C187**: the moving-average matrices are unique. -/
theorem C187_unique (Ψ Ψ' : ℕ → Matrix (Fin o.k) (Fin o.k) ℝ) (h : Spec.MovingAverage o θ Ψ) (h' : Spec.MovingAverage o θ Ψ') :
    Ψ = Ψ' := by
  funext m
  induction m using Nat.strong_induction_on with
  | _ m ih =>
    rcases m with _ | m
    · rw [h.1, h'.1]
    · rw [h.2, h'.2]
      congr 1
      refine Finset.sum_congr rfl fun l _ => ?_
      by_cases hl : l ≤ m
      · rw [if_pos hl, if_pos hl, ih (m - l) (by omega)]
      · rw [if_neg hl, if_neg hl]

/-- **C187** (likelihood).  Take a vector ARMA model with autoregressive roots outside the unit circle and positive definite shock
covariance, with or without measurement error (`sigma_obs` nonnegative), and the stationary initialisation.  Then the series
`Σ Ψ_{m+k} Q Ψ_mᵀ` converge, to `Γ(k)` say, and for every fully observed sample of `N` dates the log-likelihoods the filter
reports add up to the Gaussian log-density of the whole sample with mean zero and these autocovariances (`sigma_obs` added to the
variances), plus `(k − 1)/2 · log 2π` per date. -/
theorem C187_exact_likelihood (hk : 0 < o.k) (hr : Spec.RootsOutside o θ) (Q : Matrix (Fin o.k) (Fin o.k) ℝ) (hQ : Q.PosDef)
    (τ : Option (ℕ → ℝ)) (hτ : ∀ σ, τ = some σ → ∀ i, 0 ≤ σ i) (Ψ : ℕ → Matrix (Fin o.k) (Fin o.k) ℝ)
    (hΨ : Spec.MovingAverage o θ Ψ) :
    ∃ Γ : ℕ → Matrix (Fin o.k) (Fin o.k) ℝ, (∀ k i j, HasSum (fun m => (Ψ (m + k) * Q * (Ψ m)ᵀ) i j) (Γ k i j)) ∧
      ∀ (fill : ℝ) (N : ℕ) (y : ℕ → Fin o.k → ℝ), (∀ t i, y t i ≠ fill) →
        let M := kparams o θ Q τ
        let init := stationaryInit M.c M.T M.R M.Q
        let data : List (Kalman.Row (Fin o.k) × Kalman.Params (Fin o.kStates) (Fin o.k) (Fin o.k)) :=
          (List.range N).map fun t => (fun i => some (y t i), M)
        let S : Matrix (Fin o.k × Fin N) (Fin o.k × Fin N) ℝ := Matrix.of fun u v =>
          (if v.2 ≤ u.2 then Γ (u.2 - v.2) u.1 v.1 else Γ (v.2 - u.2) v.1 u.1) +
            if u = v then (τ.map fun σ => σ u.1).getD 0 else 0
        S.PosDef ∧
        (Kalman.buildGraph 0 fill init.1 init.2 data).loglike.sum = Kalman.Spec.gaussLogDensity S (fun u => y u.2 u.1) +
          N * (((o.k : ℝ) - 1) / 2 * Real.log (2 * Real.pi)) := by
  set M := kparams o θ Q τ with hM
  have hT : Stationary.Spec.Stable M.T := (C173_stable_iff o θ).2 hr
  have hH' : ∀ i j, M.H i j = if i = j then (τ.map fun σ => σ i).getD 0 else 0 := by
    intro i j
    rw [hM]
    cases τ with
    | none => simp [kparams]
    | some σ => simp [kparams, obsCov, Fin.ext_iff]
  have hH : M.H.PosSemidef := by
    have e : M.H = Matrix.diagonal fun i : Fin o.k => (τ.map fun σ => σ i).getD 0 := by
      ext i j
      rw [hH' i j, Matrix.diagonal_apply]
    rw [e]
    refine Matrix.PosSemidef.diagonal fun i => ?_
    cases τ with
    | none => simp
    | some σ => exact hτ σ rfl i
  obtain rfl : Ψ = Stationary.Spec.impulse M := C187_unique o θ _ _ hΨ (C187_impulse o θ Q τ)
  have hMQ : M.Q = Q := rfl
  obtain ⟨-, -, h3, h4, hP⟩ := C170_fixed_point M.c hT M.R (Q := M.Q) hQ.posSemidef
  set init := stationaryInit M.c M.T M.R M.Q with hinit
  obtain ⟨Ω, mΩ, μ, hμ, X, Y, η, ε, fill', h, -⟩ := Kalman.exists_process (fun _ => M) init.1 hP (fun _ => hQ.posSemidef) (fun _ => hH)
  have hZR : M.Z * (M.R * M.Q * M.Rᵀ) * M.Zᵀ = Q := by
    have e1 : M.Z * (M.R * M.Q * M.Rᵀ) * M.Zᵀ = Stationary.Spec.impulse M 0 * M.Q * (Stationary.Spec.impulse M 0)ᵀ := by
      simp only [Stationary.Spec.impulse, pow_zero, Matrix.mul_one, Matrix.transpose_mul, Matrix.mul_assoc]
    rw [e1, hΨ.1, Matrix.one_mul, Matrix.transpose_one, Matrix.mul_one, hMQ]
  have hY : Kalman.Spec.Undetermined μ Y := by
    have hs : (Kalman.Spec.obsCov (M.R * M.Q * M.Rᵀ) M.Z M.H).PosDef := by
      show (M.Z * (M.R * M.Q * M.Rᵀ) * M.Zᵀ + M.H).PosDef
      rw [hZR]
      exact hQ.add_posSemidef hH
    refine Kalman.undetermined_of_shocks h ?_ fun t => hs
    have e3 := (h4 init.2).2 rfl
    show (M.Z * init.2 * M.Zᵀ + M.H).PosDef
    rw [← e3, Matrix.mul_add, Matrix.add_mul, add_assoc]
    have := (hP.mul_mul_conjTranspose_same M.T).mul_mul_conjTranspose_same M.Z
    simp only [Matrix.conjTranspose_eq_transpose_of_trivial] at this
    exact Matrix.PosDef.posSemidef_add this hs
  have hcov := fun s k i j => C186_autocovariance h hT (Prod.mk.eta) s k i j
  have hstat : ∀ (k s : ℕ) i j, ProbabilityTheory.covariance (Y (s + k) i) (Y s j) μ =
      ProbabilityTheory.covariance (Y (0 + k) i) (Y 0 j) μ := fun k s i j =>
    (C170_process_stationary h hT Prod.mk.eta 0 s).2.2.2 k i j
  refine ⟨fun k => Matrix.of fun i j => ProbabilityTheory.covariance (Y (0 + k) i) (Y 0 j) μ - if k = 0 then M.H i j else 0,
    fun k i j => hcov 0 k i j, fun fill N y hy => ?_⟩
  intro M' init' data S
  have hS : S = Matrix.of fun u v : Fin o.k × Fin N => ProbabilityTheory.covariance (Y u.2 u.1) (Y v.2 v.1) μ := by
    ext u v
    simp only [S, Matrix.of_apply]
    have hsym : ∀ i j, M.H i j = M.H j i := fun i j => by
      rw [hH', hH']
      by_cases he : i = j
      · subst he; rfl
      · rw [if_neg he, if_neg (Ne.symm he)]
    have huv : (if u = v then (τ.map fun σ => σ u.1).getD 0 else 0) = if u.2 = v.2 then M.H u.1 v.1 else 0 := by
      rw [hH' u.1 v.1]
      by_cases h1 : u.2 = v.2 <;> by_cases h2 : u.1 = v.1 <;> simp [Prod.ext_iff, h1, h2]
    rw [huv]
    by_cases hle : v.2 ≤ u.2
    · have e1 := hstat (u.2 - v.2) v.2 u.1 v.1
      rw [Nat.add_sub_cancel' (Fin.le_def.1 hle)] at e1
      rw [if_pos hle, e1]
      by_cases he : u.2 = v.2
      · rw [he]; simp
      · have : ¬ ((u.2 : ℕ) - v.2 = 0) := by
          have := Fin.le_def.1 hle
          rw [Fin.ext_iff] at he; omega
        rw [if_neg this, if_neg he]; ring
    · have e1 := hstat (v.2 - u.2) u.2 v.1 u.1
      have hlt := Fin.lt_def.1 (not_le.1 hle)
      rw [Nat.add_sub_cancel' hlt.le, ProbabilityTheory.covariance_comm] at e1
      rw [if_neg hle, e1, if_neg (show ¬ ((v.2 : ℕ) - u.2 = 0) by omega), if_neg (fun he => hle he.ge)]; ring
  rw [hS]
  refine ⟨(Kalman.C163_undetermined_iff h).1 hY N, ?_⟩
  have : Nonempty (Fin o.k) := ⟨⟨0, hk⟩⟩
  have hsum := Kalman.C163_total_loglik h hY fill y hy N
  have hmean : ∀ t i, ∫ ω, Y t i ω ∂μ = 0 := by
    intro t i
    have hc : M.c = 0 := rfl
    have ha : init.1 = 0 := ((h3 0).1 (by rw [hc, Matrix.mulVec_zero, add_zero])).symm
    rw [mean_obs h hT Prod.mk.eta t i, ha, Matrix.mulVec_zero, zero_add]
    rfl
  simp only [Fintype.card_fin, hmean, sub_zero] at hsum
  exact hsum

/-- Two series, one lag each of both kinds, unit shocks and measurement errors: the hypotheses hold, and the moving-average
matrices exist (they are the responses). -/
example : ∃ Ψ, Spec.RootsOutside ⟨2, 1, 1⟩ ⟨fun i _ j => if i = j then 1 / 2 else 0, fun _ _ _ => 1⟩ ∧
    (1 : Matrix (Fin 2) (Fin 2) ℝ).PosDef ∧ (∀ σ : ℕ → ℝ, some (fun _ => (1 : ℝ)) = some σ → ∀ i, 0 ≤ σ i) ∧
    Spec.MovingAverage ⟨2, 1, 1⟩ ⟨fun i _ j => if i = j then 1 / 2 else 0, fun _ _ _ => 1⟩ Ψ ∧ Ψ 1 0 1 = 1 ∧ Ψ 1 0 0 = 3 / 2 := by
  obtain ⟨Ψ, h⟩ : ∃ Ψ, Spec.MovingAverage ⟨2, 1, 1⟩ ⟨fun i _ j => if i = j then 1 / 2 else 0, fun _ _ _ => 1⟩ Ψ :=
    ⟨_, C187_impulse ⟨2, 1, 1⟩ ⟨fun i _ j => if i = j then 1 / 2 else 0, fun _ _ _ => 1⟩ 1 none⟩
  have h0 : Ψ 0 = (1 : Matrix (Fin 2) (Fin 2) ℝ) := h.1
  refine ⟨Ψ, fun w hw => ?_, Matrix.PosDef.one, ?_, h, ?_, ?_⟩
  · simp [Spec.lagMatrix, Matrix.det_fin_two] at hw
    have : w = 2 := by linear_combination (-2 : ℂ) * hw
    rw [this]; norm_num
  · rintro σ hσ i
    obtain rfl := Option.some.inj hσ
    exact zero_le_one
  · rw [h.2 0]; simp [h0, Spec.coefMat]
  · rw [h.2 0]; simp [h0, Spec.coefMat]; norm_num

end Verif.Varmax
