import Verif.Simulate.Moments
import Verif.Kalman.OptimalExists

/-!
# C183: mean and covariance of simulated trajectories

The reference is `Verif.Kalman.Spec.Process`: any process that satisfies the state-space equations with uncorrelated shocks.
-/

set_option autoImplicit false

open Matrix MeasureTheory ProbabilityTheory

namespace Verif.Simulate

open Verif.Kalman (Params)
open Verif.Kalman.Orthogonal
open Verif.Kalman

variable {Ω : Type*} [MeasurableSpace Ω] {Ω' : Type*} [MeasurableSpace Ω']
variable {k p r : ℕ}

/-- What is used of the generator: its numbers have mean zero, variance one and are uncorrelated. -/
structure Spec.WhiteNoise (μ : Measure Ω) (z : ℕ → Ω → ℝ) : Prop where
  sqInt : ∀ q, MemLp (z q) 2 μ
  mean : ∀ q, ∫ ω, z q ω ∂μ = 0
  cov : ∀ q q', cov[z q, z q'; μ] = if q = q' then 1 else 0

/-- Every covariance matrix that occurs is factored correctly. -/
structure Spec.Factors (F : ∀ m : ℕ, Matrix (Fin m) (Fin m) ℝ → Matrix (Fin m) (Fin m) ℝ) (P0 : Matrix (Fin k) (Fin k) ℝ)
    (θ : ℕ → Params (Fin k) (Fin p) (Fin r)) : Prop where
  initial : F k P0 * (F k P0)ᵀ = P0
  shock : ∀ t, F r (θ t).Q * (F r (θ t).Q)ᵀ = (θ t).Q
  error : ∀ t, F p (θ t).H * (F p (θ t).H)ᵀ = (θ t).H

/-- Product of the transition matrices of the first `t` steps. -/
def Spec.transition (θ : ℕ → Params (Fin k) (Fin p) (Fin r)) : ℕ → Matrix (Fin k) (Fin k) ℝ
  | 0 => 1
  | t + 1 => (θ t).T * Spec.transition θ t

/-- Which of the first `k` numbers of the stream are among the `m` numbers from position `off` on. -/
def Spec.overlap (k m off : ℕ) : Matrix (Fin k) (Fin m) ℝ := Matrix.of fun a b => if (a : ℕ) = off + b then 1 else 0

theorem overlap_zero (k m off : ℕ) (h : k ≤ off) : Spec.overlap k m off = 0 := by
  ext a b
  have : (a : ℕ) ≠ off + b := by have := a.2; omega
  simp [Spec.overlap, this]

variable {μ : Measure Ω} [IsProbabilityMeasure μ] {z : ℕ → Ω → ℝ}
variable {F : ∀ m : ℕ, Matrix (Fin m) (Fin m) ℝ → Matrix (Fin m) (Fin m) ℝ}
variable {a0 : Fin k → ℝ} {P0 : Matrix (Fin k) (Fin k) ℝ} {θ : ℕ → Params (Fin k) (Fin p) (Fin r)}

/-! ### Lemmas -/

/-- The numbers `off, …, off + m - 1` of the stream. -/
def zeta (h : Spec.WhiteNoise μ z) (off m : ℕ) : Fin m → L2 μ := fun i => ⟨z (off + i), h.sqInt _⟩

theorem cov_zeta (h : Spec.WhiteNoise μ z) (o m o' m' : ℕ) :
    covM (covB μ) (zeta h o m) (zeta h o' m') = Matrix.of fun (a : Fin m) (b : Fin m') => if o + (a : ℕ) = o' + (b : ℕ) then (1 : ℝ) else 0 := by
  ext a b
  simp only [covM, zeta, Matrix.of_apply, covB_apply]
  exact h.cov _ _

theorem cov_zeta_self (h : Spec.WhiteNoise μ z) (o m : ℕ) : covM (covB μ) (zeta h o m) (zeta h o m) = 1 := by
  rw [cov_zeta]
  ext a b
  simp [Matrix.one_apply, Fin.ext_iff]

theorem cov_zeta_disjoint (h : Spec.WhiteNoise μ z) (o m o' m' : ℕ) (hd : o + m ≤ o') :
    covM (covB μ) (zeta h o m) (zeta h o' m') = 0 := by
  rw [cov_zeta]
  ext a b
  have : o + (a : ℕ) ≠ o' + b := by have := a.2; omega
  simp [this]

/-- The latent path as random variables. -/
noncomputable def rvX (h : Spec.WhiteNoise μ z) (F : ∀ m : ℕ, Matrix (Fin m) (Fin m) ℝ → Matrix (Fin m) (Fin m) ℝ)
    (a0 : Fin k → ℝ) (P0 : Matrix (Fin k) (Fin k) ℝ) (θ : ℕ → Params (Fin k) (Fin p) (Fin r)) : ℕ → Fin k → L2 μ
  | 0 => const (one μ) a0 + act (F k P0) (zeta h 0 k)
  | t + 1 => const (one μ) (θ t).c + act (θ t).T (rvX h F a0 P0 θ t) + act (θ t).R (act (F r (θ t).Q) (zeta h (t * (r + p)) r))

/-- The observed path as random variables. -/
noncomputable def rvY (h : Spec.WhiteNoise μ z) (F : ∀ m : ℕ, Matrix (Fin m) (Fin m) ℝ → Matrix (Fin m) (Fin m) ℝ)
    (a0 : Fin k → ℝ) (P0 : Matrix (Fin k) (Fin k) ℝ) (θ : ℕ → Params (Fin k) (Fin p) (Fin r)) (t : ℕ) : Fin p → L2 μ :=
  const (one μ) (θ t).d + act (θ t).Z (rvX h F a0 P0 θ (t + 1)) + act (F p (θ t).H) (zeta h (t * (r + p) + r) p)

theorem act_val {m l : Type*} [Fintype l] (A : Matrix m l ℝ) (X : l → L2 μ) (i : m) (ω : Ω) :
    (act A X i).1 ω = (A *ᵥ fun j => (X j).1 ω) i := by
  rw [act_eval]

theorem const_val {l : Type*} (c : l → ℝ) (i : l) (ω : Ω) : (const (one μ) c i).1 ω = c i := by
  simp [const, Orthogonal.one]

theorem rvX_val (h : Spec.WhiteNoise μ z) (t : ℕ) (i : Fin k) (ω : Ω) :
    (rvX h F a0 P0 θ t i).1 ω = pathX F a0 P0 θ (fun q => z q ω) t i := by
  induction t generalizing i with
  | zero =>
    simp only [rvX, pathX, Pi.add_apply, Submodule.coe_add, const_val, act_val]
    simp [zeta]
  | succ t ih =>
    simp only [rvX, pathX, Pi.add_apply, Submodule.coe_add, const_val, act_val]
    simp only [ih, zeta]

theorem rvY_val (h : Spec.WhiteNoise μ z) (t : ℕ) (i : Fin p) (ω : Ω) :
    (rvY h F a0 P0 θ t i).1 ω = pathY F a0 P0 θ (fun q => z q ω) t i := by
  simp only [rvY, pathY, Pi.add_apply, Submodule.coe_add, const_val, act_val, rvX_val]
  simp only [zeta]

theorem cov_rvX_later (h : Spec.WhiteNoise μ z) (t off m : ℕ) (ho : t * (r + p) ≤ off) :
    covM (covB μ) (rvX h F a0 P0 θ t) (zeta h off m) = Spec.transition θ t * F k P0 * Spec.overlap k m off := by
  have h1 : ∀ w, covB μ (one μ) w = 0 := fun w => by
    rw [covB_apply]; exact covariance_const_left _
  induction t with
  | zero =>
    simp only [rvX, covM_add_left, covM_const_left _ h1, zero_add, covM_act_left, cov_zeta, Spec.transition, Matrix.one_mul]
    simp [Spec.overlap]
  | succ t ih =>
    have hle : t * (r + p) + r ≤ off := by
      have : (t + 1) * (r + p) = t * (r + p) + r + p := by ring
      omega
    simp only [rvX, covM_add_left, covM_const_left _ h1, zero_add, covM_act_left, ih (by omega),
      cov_zeta_disjoint h _ _ _ _ hle, Matrix.mul_zero, add_zero, Spec.transition, Matrix.mul_assoc]

theorem cov_rvX_succ (h : Spec.WhiteNoise μ z) (hF : Spec.Factors F P0 θ) (t : ℕ) :
    covM (covB μ) (rvX h F a0 P0 θ (t + 1)) (rvX h F a0 P0 θ (t + 1)) =
      (θ t).T * covM (covB μ) (rvX h F a0 P0 θ t) (rvX h F a0 P0 θ t) * (θ t).Tᵀ + (θ t).R * (θ t).Q * (θ t).Rᵀ +
      (Spec.transition θ (t + 1) * F k P0 * Spec.overlap k r (t * (r + p)) * (F r (θ t).Q)ᵀ * (θ t).Rᵀ +
       (Spec.transition θ (t + 1) * F k P0 * Spec.overlap k r (t * (r + p)) * (F r (θ t).Q)ᵀ * (θ t).Rᵀ)ᵀ) := by
  have h1 : ∀ w, covB μ (one μ) w = 0 := fun w => by rw [covB_apply]; exact covariance_const_left _
  have h1' : ∀ w, covB μ w (one μ) = 0 := fun w => by rw [covB_apply]; exact covariance_const_right _
  have hs : ∀ x y, covB μ x y = covB μ y x := fun x y => by rw [covB_apply, covB_apply, covariance_comm]
  have hl := cov_rvX_later (F := F) (a0 := a0) (P0 := P0) (θ := θ) h t (t * (r + p)) r le_rfl
  have hl' : covM (covB μ) (zeta h (t * (r + p)) r) (rvX h F a0 P0 θ t) =
      (Spec.transition θ t * F k P0 * Spec.overlap k r (t * (r + p)))ᵀ := by
    rw [← hl, covM_transpose _ hs]
  conv_lhs => rw [rvX]
  simp only [covM_add_left, covM_add_right, covM_const_left _ h1, covM_const_right _ h1', covM_act_left, covM_act_right,
    cov_zeta_self, hl, hl', zero_add, Matrix.mul_one]
  have hq : (θ t).R * (θ t).Q * (θ t).Rᵀ = (θ t).R * (F r (θ t).Q * ((F r (θ t).Q)ᵀ * (θ t).Rᵀ)) := by
    conv_lhs => rw [← hF.shock t]
    simp only [Matrix.mul_assoc]
  rw [hq]
  simp only [Spec.transition, Matrix.transpose_mul, Matrix.transpose_transpose, Matrix.mul_assoc,
    Matrix.add_mul, Matrix.mul_add]
  abel

theorem cov_rvY (h : Spec.WhiteNoise μ z) (hF : Spec.Factors F P0 θ) (t : ℕ) :
    covM (covB μ) (rvY h F a0 P0 θ t) (rvY h F a0 P0 θ t) =
      (θ t).Z * covM (covB μ) (rvX h F a0 P0 θ (t + 1)) (rvX h F a0 P0 θ (t + 1)) * (θ t).Zᵀ + (θ t).H +
      ((θ t).Z * Spec.transition θ (t + 1) * F k P0 * Spec.overlap k p (t * (r + p) + r) * (F p (θ t).H)ᵀ +
       ((θ t).Z * Spec.transition θ (t + 1) * F k P0 * Spec.overlap k p (t * (r + p) + r) * (F p (θ t).H)ᵀ)ᵀ) := by
  have h1 : ∀ w, covB μ (Orthogonal.one μ) w = 0 := fun w => by rw [covB_apply]; exact covariance_const_left _
  have h1' : ∀ w, covB μ w (Orthogonal.one μ) = 0 := fun w => by rw [covB_apply]; exact covariance_const_right _
  have hs : ∀ x y, covB μ x y = covB μ y x := fun x y => by rw [covB_apply, covB_apply, covariance_comm]
  have hl : covM (covB μ) (rvX h F a0 P0 θ (t + 1)) (zeta h (t * (r + p) + r) p) =
      Spec.transition θ (t + 1) * F k P0 * Spec.overlap k p (t * (r + p) + r) := by
    simp only [rvX, covM_add_left, covM_const_left _ h1, zero_add, covM_act_left,
      cov_rvX_later (F := F) (a0 := a0) (P0 := P0) (θ := θ) h t (t * (r + p) + r) p (by omega),
      cov_zeta_disjoint h _ _ _ _ (le_refl (t * (r + p) + r)), Matrix.mul_zero, add_zero, Spec.transition, Matrix.mul_assoc]
  have hl' : covM (covB μ) (zeta h (t * (r + p) + r) p) (rvX h F a0 P0 θ (t + 1)) =
      (Spec.transition θ (t + 1) * F k P0 * Spec.overlap k p (t * (r + p) + r))ᵀ := by
    rw [← hl, covM_transpose _ hs]
  conv_lhs => rw [rvY]
  simp only [covM_add_left, covM_add_right, covM_const_left _ h1, covM_const_right _ h1', covM_act_left, covM_act_right,
    cov_zeta_self, hl, hl', zero_add, Matrix.mul_one]
  have hh : (θ t).H = F p (θ t).H * (F p (θ t).H)ᵀ := (hF.error t).symm
  conv_rhs => enter [1, 2]; rw [hh]
  simp only [Matrix.transpose_mul, Matrix.transpose_transpose, Matrix.mul_assoc, Matrix.add_mul]
  abel

/-! ### Property theorems -/

/-- State `i` in row `t` of a simulated trajectory that keeps its initial row, as a random variable. -/
noncomputable def Spec.state (F : ∀ m : ℕ, Matrix (Fin m) (Fin m) ℝ → Matrix (Fin m) (Fin m) ℝ) (a0 : Fin k → ℝ)
    (P0 : Matrix (Fin k) (Fin k) ℝ) (θ : ℕ → Params (Fin k) (Fin p) (Fin r)) (z : ℕ → Ω → ℝ) (steps t : ℕ) (i : Fin k) (ω : Ω) : ℝ :=
  latent p (draw F (stream fun q => z q ω) 0 true steps a0 P0 θ) t i

/-- Series `i` in row `t` of the same trajectory. -/
noncomputable def Spec.obs (F : ∀ m : ℕ, Matrix (Fin m) (Fin m) ℝ → Matrix (Fin m) (Fin m) ℝ) (a0 : Fin k → ℝ)
    (P0 : Matrix (Fin k) (Fin k) ℝ) (θ : ℕ → Params (Fin k) (Fin p) (Fin r)) (z : ℕ → Ω → ℝ) (steps t : ℕ) (i : Fin p) (ω : Ω) : ℝ :=
  observed p (draw F (stream fun q => z q ω) 0 true steps a0 P0 θ) t i

theorem state_eq (h : Spec.WhiteNoise μ z) (hp : p ≠ 0) (steps t : ℕ) (ht : t ≤ steps) (i : Fin k) :
    Spec.state F a0 P0 θ z steps t i = (rvX h F a0 P0 θ t i).1 := by
  funext ω
  rw [rvX_val, Spec.state, latent_eq F a0 P0 θ _ steps t ht hp]

theorem obs_eq (h : Spec.WhiteNoise μ z) (hp : p ≠ 0) (steps t : ℕ) (ht : t < steps) (i : Fin p) :
    Spec.obs F a0 P0 θ z steps (t + 1) i = (rvY h F a0 P0 θ t i).1 := by
  funext ω
  rw [rvY_val, Spec.obs, observed_eq F a0 P0 θ _ steps (t + 1) ht hp]
  rfl

theorem covM_state (h : Spec.WhiteNoise μ z) (hp : p ≠ 0) (steps t : ℕ) (ht : t ≤ steps) :
    (Matrix.of fun i j => cov[Spec.state F a0 P0 θ z steps t i, Spec.state F a0 P0 θ z steps t j; μ]) =
      covM (covB μ) (rvX h F a0 P0 θ t) (rvX h F a0 P0 θ t) := by
  ext i j
  rw [Matrix.of_apply, state_eq h hp steps t ht, state_eq h hp steps t ht]
  rfl

theorem mean_rvX (h : Spec.WhiteNoise μ z) (t : ℕ) (m : ℕ → Fin k → ℝ) (h0 : m 0 = a0)
    (hm : ∀ t, m (t + 1) = (θ t).T *ᵥ m t + (θ t).c) (i : Fin k) :
    Orthogonal.mean μ (rvX h F a0 P0 θ t i) = m t i := by
  have hz : ∀ o l (j : Fin l), Orthogonal.mean μ (zeta h o l j) = 0 := fun o l j => h.mean _
  have h1 : Orthogonal.mean μ (Orthogonal.one μ) = 1 := by simp [mean_apply, Orthogonal.one]
  induction t generalizing i with
  | zero =>
    simp only [rvX, Pi.add_apply, map_add, const, map_smul, h1, smul_eq_mul, mul_one]
    rw [mean_act _ _ _ (hz 0 k), h0, add_zero]
  | succ t ih =>
    simp only [rvX, Pi.add_apply, map_add, const, map_smul, h1, smul_eq_mul, mul_one]
    rw [act_act, mean_act _ _ _ (hz _ r), hm]
    simp only [act, map_sum, map_smul, ih, Pi.add_apply, mulVec, dotProduct, smul_eq_mul]
    ring

/-- The means of a process that follows the model. -/
theorem process_mean {μ' : Measure Ω'} [IsProbabilityMeasure μ'] {X : ℕ → Fin k → Ω' → ℝ} {Y : ℕ → Fin p → Ω' → ℝ}
    {η : ℕ → Fin r → Ω' → ℝ} {ε : ℕ → Fin p → Ω' → ℝ} (hX : Kalman.Spec.Process μ' θ a0 P0 X Y η ε) :
    (fun i => ∫ ω, X 0 i ω ∂μ') = a0 ∧
    ∀ t, (fun i => ∫ ω, X (t + 1) i ω ∂μ') = (θ t).T *ᵥ (fun i => ∫ ω, X t i ω ∂μ') + (θ t).c := by
  refine ⟨funext hX.mean_initial, fun t => ?_⟩
  have hm : ∀ t i, ∫ ω, X t i ω ∂μ' = Orthogonal.mean μ' (liftX hX t i) := fun t i => rfl
  have hη : ∀ j, Orthogonal.mean μ' (liftη hX t j) = 0 := fun j => hX.mean_shock t j
  have h1 : Orthogonal.mean μ' (Orthogonal.one μ') = 1 := by simp [mean_apply, Orthogonal.one]
  funext i
  simp only [hm, (toProc hX).move t, Pi.add_apply, map_add, const, map_smul, h1, smul_eq_mul, mul_one]
  rw [mean_act _ _ _ hη]
  simp [act, mulVec, dotProduct]

theorem process_cov {μ' : Measure Ω'} [IsProbabilityMeasure μ'] {X : ℕ → Fin k → Ω' → ℝ} {Y : ℕ → Fin p → Ω' → ℝ}
    {η : ℕ → Fin r → Ω' → ℝ} {ε : ℕ → Fin p → Ω' → ℝ} (hX : Kalman.Spec.Process μ' θ a0 P0 X Y η ε) (t : ℕ) :
    covM (covB μ') (liftX hX (t + 1)) (liftX hX (t + 1)) =
      (θ t).T * covM (covB μ') (liftX hX t) (liftX hX t) * (θ t).Tᵀ + (θ t).R * (θ t).Q * (θ t).Rᵀ := by
  have h := toProc hX
  have hl := (h.xLater t t le_rfl).1
  have hl' : covM (covB μ') (liftη hX t) (liftX hX t) = 0 := by rw [← covM_transpose _ h.sym, hl, transpose_zero]
  simp only [h.move, covM_add_left, covM_add_right, covM_const_left _ h.one0, covM_const_right _ h.one0', covM_act_left,
    covM_act_right, hl, hl', h.ηη, Matrix.mul_zero, Matrix.zero_mul, add_zero, zero_add]

/-- **C183.** Simulated states have the mean of the model at every horizon. -/
theorem C183_mean (h : Spec.WhiteNoise μ z) (hp : p ≠ 0) {μ' : Measure Ω'} [IsProbabilityMeasure μ'] {X : ℕ → Fin k → Ω' → ℝ}
    {Y : ℕ → Fin p → Ω' → ℝ} {η : ℕ → Fin r → Ω' → ℝ} {ε : ℕ → Fin p → Ω' → ℝ}
    (hX : Kalman.Spec.Process μ' θ a0 P0 X Y η ε) (steps t : ℕ) (ht : t ≤ steps) (i : Fin k) :
    ∫ ω, Spec.state F a0 P0 θ z steps t i ω ∂μ = ∫ ω, X t i ω ∂μ' := by
  obtain ⟨h0, hs⟩ := process_mean hX
  rw [state_eq h hp steps t ht]
  exact mean_rvX h t (fun t i => ∫ ω, X t i ω ∂μ') h0 hs i

/-- **C183.** Covariance of the simulated states: the model's recursion, plus a term for the numbers of the generator that were
already used for the initial state. -/
theorem C183_covariance (h : Spec.WhiteNoise μ z) (hF : Spec.Factors F P0 θ) (hp : p ≠ 0) (steps : ℕ) :
    let C := fun t => Matrix.of fun i j => cov[Spec.state F a0 P0 θ z steps t i, Spec.state F a0 P0 θ z steps t j; μ]
    let W := fun t => Spec.transition θ (t + 1) * F k P0 * Spec.overlap k r (t * (r + p)) * (F r (θ t).Q)ᵀ * (θ t).Rᵀ
    C 0 = P0 ∧ ∀ t, t < steps →
      C (t + 1) = (θ t).T * C t * (θ t).Tᵀ + (θ t).R * (θ t).Q * (θ t).Rᵀ + (W t + (W t)ᵀ) ∧ (k ≤ t * (r + p) → W t = 0) := by
  intro C W
  have h1 : ∀ w, covB μ (Orthogonal.one μ) w = 0 := fun w => by rw [covB_apply]; exact covariance_const_left _
  have h1' : ∀ w, covB μ w (Orthogonal.one μ) = 0 := fun w => by rw [covB_apply]; exact covariance_const_right _
  refine ⟨?_, fun t ht => ⟨?_, fun hk => ?_⟩⟩
  · simp only [C]
    rw [covM_state h hp steps 0 (by omega)]
    simp only [rvX, covM_add_left, covM_add_right, covM_const_left _ h1, covM_const_right _ h1', covM_act_left, covM_act_right,
      cov_zeta_self, zero_add, Matrix.mul_one]
    exact hF.initial
  · simp only [C, W]
    rw [covM_state h hp steps (t + 1) (by omega), covM_state h hp steps t (by omega)]
    exact cov_rvX_succ h hF t
  · simp only [W, overlap_zero k r _ hk, Matrix.mul_zero, Matrix.zero_mul]

/-- **C183.** Covariance of the simulated observations after the first row. -/
theorem C183_obs_covariance (h : Spec.WhiteNoise μ z) (hF : Spec.Factors F P0 θ) (hp : p ≠ 0) (steps t : ℕ) (ht : t < steps) :
    let V := (θ t).Z * Spec.transition θ (t + 1) * F k P0 * Spec.overlap k p (t * (r + p) + r) * (F p (θ t).H)ᵀ
    (Matrix.of fun i j => cov[Spec.obs F a0 P0 θ z steps (t + 1) i, Spec.obs F a0 P0 θ z steps (t + 1) j; μ]) =
      (θ t).Z * (Matrix.of fun i j => cov[Spec.state F a0 P0 θ z steps (t + 1) i, Spec.state F a0 P0 θ z steps (t + 1) j; μ]) *
        (θ t).Zᵀ + (θ t).H + (V + Vᵀ) ∧ (k ≤ t * (r + p) + r → V = 0) := by
  intro V
  refine ⟨?_, fun hk => ?_⟩
  · rw [covM_state h hp steps (t + 1) (by omega), ← cov_rvY h hF t]
    ext i j
    rw [Matrix.of_apply, obs_eq h hp steps t ht, obs_eq h hp steps t ht]
    rfl
  · simp only [V, overlap_zero k p _ hk, Matrix.mul_zero, Matrix.zero_mul]

/-- **C183.** When there are no more states than shocks and series together, the simulated covariances are those of the model at
all horizons exactly if the first step adds nothing: `T₀ L_P E L_Qᵀ R₀ᵀ` plus its transpose is zero, where `E` has ones where the
numbers of the generator coincide. -/
theorem C183_right_iff (h : Spec.WhiteNoise μ z) (hF : Spec.Factors F P0 θ) (hp : p ≠ 0) (hk : k ≤ r + p)
    {μ' : Measure Ω'} [IsProbabilityMeasure μ'] {X : ℕ → Fin k → Ω' → ℝ}
    {Y : ℕ → Fin p → Ω' → ℝ} {η : ℕ → Fin r → Ω' → ℝ} {ε : ℕ → Fin p → Ω' → ℝ}
    (hX : Kalman.Spec.Process μ' θ a0 P0 X Y η ε) (steps : ℕ) (hs : 1 ≤ steps) :
    let W := (θ 0).T * F k P0 * Spec.overlap k r 0 * (F r (θ 0).Q)ᵀ * (θ 0).Rᵀ
    (∀ t, t ≤ steps → ∀ i j, cov[Spec.state F a0 P0 θ z steps t i, Spec.state F a0 P0 θ z steps t j; μ] = cov[X t i, X t j; μ']) ↔
      W + Wᵀ = 0 := by
  intro W
  obtain ⟨hC0, hC⟩ := C183_covariance (a0 := a0) h hF hp steps
  simp only at hC0 hC
  have hW : Spec.transition θ (0 + 1) * F k P0 * Spec.overlap k r (0 * (r + p)) * (F r (θ 0).Q)ᵀ * (θ 0).Rᵀ = W := by
    simp [Spec.transition, W]
  have hX0 : covM (covB μ') (liftX hX 0) (liftX hX 0) = P0 := (toProc hX).x0
  constructor
  · intro hall
    have h1 := (hC 0 (by omega)).1
    rw [hC0, hW] at h1
    have h2 : (Matrix.of fun i j => cov[Spec.state F a0 P0 θ z steps (0 + 1) i, Spec.state F a0 P0 θ z steps (0 + 1) j; μ]) =
        covM (covB μ') (liftX hX (0 + 1)) (liftX hX (0 + 1)) := by
      ext i j
      exact hall 1 hs i j
    rw [h2, process_cov hX 0, hX0] at h1
    exact left_eq_add.mp h1
  · intro hzero
    have : ∀ t, t ≤ steps → (Matrix.of fun i j => cov[Spec.state F a0 P0 θ z steps t i, Spec.state F a0 P0 θ z steps t j; μ]) =
        covM (covB μ') (liftX hX t) (liftX hX t) := by
      intro t
      induction t with
      | zero => intro _; rw [hC0, hX0]
      | succ t ih =>
        intro ht
        obtain ⟨h1, h2⟩ := hC t (by omega)
        rw [h1, ih (by omega), process_cov hX t]
        rcases Nat.eq_zero_or_pos t with h0 | h0
        · subst h0
          rw [hW, hzero, add_zero]
        · have : k ≤ t * (r + p) := le_trans hk (Nat.le_mul_of_pos_left _ h0)
          rw [h2 this, transpose_zero, add_zero, add_zero]
    intro t ht i j
    have := congrFun (congrFun (this t ht) i) j
    exact this

/-- The local level model: a random walk with variance `q`, observed with error variance `s`. -/
def Spec.level (q s : ℝ) : Params (Fin 1) (Fin 1) (Fin 1) :=
  ⟨0, 0, 1, 1, 1, !![s], !![q]⟩

/-- **C183.** Simulating (or forecasting with) the local level model from a level with variance `v`: at every horizon the variance
is too large by twice the product of the two standard deviations. -/
theorem C183_local_level (h : Spec.WhiteNoise μ z) (v q s a : ℝ)
    (hF : Spec.Factors F !![v] fun _ => Spec.level q s) (steps t : ℕ) (ht : t < steps) :
    let x := Spec.state F (fun _ => a) !![v] (fun _ => Spec.level q s) z steps (t + 1) 0
    cov[x, x; μ] = v + (t + 1) * q + 2 * (F 1 !![v] 0 0 * F 1 !![q] 0 0) ∧
      (0 < F 1 !![v] 0 0 → 0 < F 1 !![q] 0 0 → v + (t + 1) * q < cov[x, x; μ]) := by
  intro x
  obtain ⟨hC0, hC⟩ := C183_covariance (a0 := fun _ => a) h hF (by omega) steps
  simp only at hC0 hC
  have key : ∀ t, t < steps → cov[Spec.state F (fun _ => a) !![v] (fun _ => Spec.level q s) z steps (t + 1) 0,
      Spec.state F (fun _ => a) !![v] (fun _ => Spec.level q s) z steps (t + 1) 0; μ] =
      v + (t + 1) * q + 2 * (F 1 !![v] 0 0 * F 1 !![q] 0 0) := by
    intro t
    induction t with
    | zero =>
      intro h0
      have h1 := congrFun (congrFun (hC 0 h0).1 0) 0
      rw [hC0] at h1
      simp [Spec.level, Spec.transition, Spec.overlap, Matrix.mul_apply, Matrix.one_apply] at h1 ⊢
      rw [h1]; ring
    | succ t ih =>
      intro h0
      obtain ⟨h1, h2⟩ := hC (t + 1) h0
      rw [h2 (by omega), transpose_zero, add_zero, add_zero] at h1
      have h1 := congrFun (congrFun h1 0) 0
      have ih := ih (by omega)
      simp [Spec.level, Matrix.mul_apply, Matrix.one_apply] at h1 ih ⊢
      rw [h1, ih]; ring
  have hk := key t ht
  refine ⟨hk, fun h1 h2 => ?_⟩
  change _ < cov[Spec.state F (fun _ => a) !![v] (fun _ => Spec.level q s) z steps (t + 1) 0,
      Spec.state F (fun _ => a) !![v] (fun _ => Spec.level q s) z steps (t + 1) 0; μ]
  rw [hk]
  have := mul_pos h1 h2
  linarith

/-- **C183.** Row `t` of a forecast is row `t + 1` of the trajectory with its initial row. -/
theorem C183_forecast_rows (hp : p ≠ 0) (steps t : ℕ) (ht : t < steps) (z : ℕ → ℝ) (i : Fin k) (j : Fin p) :
    latent p (draw F (stream z) 0 false steps a0 P0 θ) t i = latent p (draw F (stream z) 0 true steps a0 P0 θ) (t + 1) i ∧
    observed p (draw F (stream z) 0 false steps a0 P0 θ) t j = observed p (draw F (stream z) 0 true steps a0 P0 θ) (t + 1) j := by
  rw [latent_eq_forecast F a0 P0 θ z steps t ht hp, latent_eq F a0 P0 θ z steps (t + 1) ht hp,
    observed_eq_forecast F a0 P0 θ z steps t ht hp, observed_eq F a0 P0 θ z steps (t + 1) ht hp]
  exact ⟨rfl, rfl⟩

/-- Uncorrelated numbers with mean zero and variance one exist. -/
theorem exists_whiteNoise : ∃ (Ω : Type) (_ : MeasurableSpace Ω) (μ : Measure Ω) (_ : IsProbabilityMeasure μ) (z : ℕ → Ω → ℝ),
    Spec.WhiteNoise μ z := by
  obtain ⟨Ω, mΩ, μ, hμ, ξ, _, hmem, hmean, hvar, hcov⟩ := exists_coins ℕ
  refine ⟨Ω, mΩ, μ, hμ, ξ, hmem, hmean, fun q q' => ?_⟩
  split
  · rename_i h; rw [← h, hvar]
  · rename_i h; exact hcov q q' h

/-- Level variance 4, shock variance 9, factors 2 and 3: variance 25 after one step instead of 13. -/
example : ∃ (Ω : Type) (_ : MeasurableSpace Ω) (μ : Measure Ω) (_ : IsProbabilityMeasure μ) (z : ℕ → Ω → ℝ)
    (F : ∀ m : ℕ, Matrix (Fin m) (Fin m) ℝ → Matrix (Fin m) (Fin m) ℝ),
    Spec.WhiteNoise μ z ∧ Spec.Factors F !![4] (fun _ => Spec.level 9 1) ∧
    cov[Spec.state F (fun _ => 0) !![4] (fun _ => Spec.level 9 1) z 1 1 0,
      Spec.state F (fun _ => 0) !![4] (fun _ => Spec.level 9 1) z 1 1 0; μ] = 25 := by
  obtain ⟨Ω, mΩ, μ, hμ, z, hz⟩ := exists_whiteNoise
  have s4 : Real.sqrt 4 = 2 := by rw [show (4 : ℝ) = 2 ^ 2 by norm_num]; simp
  have s9 : Real.sqrt 9 = 3 := by rw [show (9 : ℝ) = 3 ^ 2 by norm_num]; simp
  have hF : Spec.Factors (fun _ A => A.map Real.sqrt) !![4] (fun _ => Spec.level 9 1) := by
    refine ⟨?_, fun _ => ?_, fun _ => ?_⟩ <;>
    · ext i j
      fin_cases i; fin_cases j
      simp [Matrix.mul_apply, Spec.level]
  refine ⟨Ω, mΩ, μ, hμ, z, fun _ A => A.map Real.sqrt, hz, hF, ?_⟩
  have := (C183_local_level hz 4 9 1 0 hF 1 0 (by omega)).1
  simp only [Matrix.map_apply, s4, s9] at this
  norm_num at this
  rw [this, s4, s9]
  norm_num

end Verif.Simulate
