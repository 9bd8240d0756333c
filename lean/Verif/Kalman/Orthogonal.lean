import Verif.Kalman.Props
import Mathlib.Algebra.Module.LinearMap.Basic
import Mathlib.Algebra.Module.BigOperators

/-!
# Algebra of second moments

Random vectors are families in a real vector space `W` with a symmetric bilinear form (the covariance) that vanishes on the
constants.  The filter recursions are replayed in `W`; nothing here mentions the code beyond the gain and covariance recursion,
which `Verif.Kalman.OptimalProps` identifies with the filter's output.
-/

set_option autoImplicit false

open Matrix

namespace Verif.Kalman.Orthogonal

variable {W : Type*} [AddCommGroup W] [Module ℝ W]
variable {n r m k l : Type*} [Fintype n] [Fintype r] [Fintype m] [Fintype k] [Fintype l]
  [DecidableEq n] [DecidableEq r]
variable {p : ℕ → Type*} [∀ t, Fintype (p t)] [∀ t, DecidableEq (p t)]

/-- Real matrix times random vector. Proof notion, no code behind it. -/
def act (A : Matrix m k ℝ) (X : k → W) : m → W := fun i => ∑ j, A i j • X j

/-- A constant vector. Proof notion, no code behind it. -/
def const (one : W) (c : k → ℝ) : k → W := fun i => c i • one

/-- Covariance matrix of two random vectors. Proof notion, no code behind it. -/
def covM (B : W →ₗ[ℝ] W →ₗ[ℝ] ℝ) (X : m → W) (Y : k → W) : Matrix m k ℝ := Matrix.of fun i j => B (X i) (Y j)

variable (B : W →ₗ[ℝ] W →ₗ[ℝ] ℝ)

omit [Fintype m] [Fintype k] in
theorem covM_add_left (X X' : m → W) (Y : k → W) : covM B (X + X') Y = covM B X Y + covM B X' Y := by
  ext i j; simp [covM]

omit [Fintype m] [Fintype k] in
theorem covM_sub_left (X X' : m → W) (Y : k → W) : covM B (X - X') Y = covM B X Y - covM B X' Y := by
  ext i j; simp [covM]

omit [Fintype m] [Fintype k] in
theorem covM_add_right (X : m → W) (Y Y' : k → W) : covM B X (Y + Y') = covM B X Y + covM B X Y' := by
  ext i j; simp [covM]

omit [Fintype m] [Fintype k] in
theorem covM_sub_right (X : m → W) (Y Y' : k → W) : covM B X (Y - Y') = covM B X Y - covM B X Y' := by
  ext i j; simp [covM]

omit [Fintype m] [Fintype l] in
theorem covM_act_left (A : Matrix m k ℝ) (X : k → W) (Y : l → W) : covM B (act A X) Y = A * covM B X Y := by
  ext i j; simp [covM, act, Matrix.mul_apply]

omit [Fintype m] [Fintype l] in
theorem covM_act_right (A : Matrix m k ℝ) (X : k → W) (Y : l → W) : covM B Y (act A X) = covM B Y X * Aᵀ := by
  ext i j; simp [covM, act, Matrix.mul_apply, mul_comm]

omit [Fintype m] [Fintype k] in
theorem covM_transpose (hB : ∀ x y, B x y = B y x) (X : m → W) (Y : k → W) : (covM B X Y)ᵀ = covM B Y X := by
  ext i j; simp [covM, hB]

omit [Fintype m] [Fintype k] in
theorem covM_const_left {one : W} (h1 : ∀ w, B one w = 0) (c : m → ℝ) (Y : k → W) : covM B (const one c) Y = 0 := by
  ext i j; simp [covM, const, h1]

omit [Fintype m] [Fintype k] in
theorem covM_const_right {one : W} (h1 : ∀ w, B w one = 0) (X : m → W) (c : k → ℝ) : covM B X (const one c) = 0 := by
  ext i j; simp [covM, const, h1]

omit [Fintype m] in
theorem act_sub (A : Matrix m k ℝ) (X Y : k → W) : act A (X - Y) = act A X - act A Y := by
  funext i; simp [act, smul_sub]

omit [Fintype m] in
theorem act_add (A : Matrix m k ℝ) (X Y : k → W) : act A (X + Y) = act A X + act A Y := by
  funext i; simp [act, smul_add, Finset.sum_add_distrib]

omit [Fintype m] in
theorem act_act (A : Matrix m k ℝ) (C : Matrix k l ℝ) (x : l → W) : act A (act C x) = act (A * C) x := by
  funext i
  simp only [act, Matrix.mul_apply, Finset.smul_sum, Finset.sum_smul, smul_smul]
  exact Finset.sum_comm

omit [Fintype m] in
theorem sub_act (A C : Matrix m k ℝ) (x : k → W) : act (A - C) x = act A x - act C x := by
  funext i; simp [act, sub_smul]

omit [Fintype m] in
theorem act_const (one : W) (A : Matrix m k ℝ) (x : k → ℝ) : act A (const one x) = const one (A *ᵥ x) := by
  funext i; simp [act, const, mulVec, dotProduct, Finset.sum_smul, smul_smul]

/-- The covariance recursion of the filter: predicted covariance before row `t`.
Proof notion: kalman_filter.py:362-410, 549-617 in closed form. -/
noncomputable def covAt (θ : ∀ t, Params n (p t) r) (P0 : Matrix n n ℝ) : ℕ → Matrix n n ℝ
  | 0 => P0
  | t + 1 => (θ t).T * Spec.condCov (covAt θ P0 t) (θ t).Z (θ t).H * (θ t).Tᵀ + (θ t).R * (θ t).Q * (θ t).Rᵀ

/-- The gain at row `t`. Proof notion: kalman_filter.py:600 in closed form. -/
noncomputable def gainAt (θ : ∀ t, Params n (p t) r) (P0 : Matrix n n ℝ) (t : ℕ) : Matrix n (p t) ℝ :=
  covAt θ P0 t * (θ t).Zᵀ * (Spec.obsCov (covAt θ P0 t) (θ t).Z (θ t).H)⁻¹

variable (one : W)

/-- Filter run on random data: predicted mean before row `t`.
Proof notion: the code at kalman_filter.py:529-541 with random variables for data. -/
noncomputable def predAt (θ : ∀ t, Params n (p t) r) (a0 : n → ℝ) (P0 : Matrix n n ℝ) (Y : ∀ t, p t → W) : ℕ → n → W
  | 0 => const one a0
  | t + 1 => const one (θ t).c + act (θ t).T (predAt θ a0 P0 Y t + act (gainAt θ P0 t)
      (Y t - const one (θ t).d - act (θ t).Z (predAt θ a0 P0 Y t)))

/-- Filter run on random data: filtered mean at row `t`.
Proof notion: the code at kalman_filter.py:529-541 with random variables for data. -/
noncomputable def filtAt (θ : ∀ t, Params n (p t) r) (a0 : n → ℝ) (P0 : Matrix n n ℝ) (Y : ∀ t, p t → W) (t : ℕ) : n → W :=
  predAt one θ a0 P0 Y t + act (gainAt θ P0 t) (Y t - const one (θ t).d - act (θ t).Z (predAt one θ a0 P0 Y t))

/-- Second moments of a state-space process. Proof notion, no code behind it. -/
structure Proc (θ : ∀ t, Params n (p t) r) (P0 : Matrix n n ℝ) (X : ℕ → n → W) (Y : ∀ t, p t → W) (η : ℕ → r → W)
    (ε : ∀ t, p t → W) : Prop where
  sym : ∀ x y, B x y = B y x
  one0 : ∀ w, B one w = 0
  move : ∀ t, X (t + 1) = act (θ t).T (X t) + const one (θ t).c + act (θ t).R (η t)
  obs : ∀ t, Y t = act (θ t).Z (X t) + const one (θ t).d + ε t
  x0 : covM B (X 0) (X 0) = P0
  ηη : ∀ t, covM B (η t) (η t) = (θ t).Q
  εε : ∀ t, covM B (ε t) (ε t) = (θ t).H
  ηη0 : ∀ s t, s ≠ t → covM B (η s) (η t) = 0
  εε0 : ∀ s t, s ≠ t → covM B (ε s) (ε t) = 0
  ηε0 : ∀ s t, covM B (η s) (ε t) = 0
  xη0 : ∀ t, covM B (X 0) (η t) = 0
  xε0 : ∀ t, covM B (X 0) (ε t) = 0

variable {B one}
variable {θ : ∀ t, Params n (p t) r} {P0 : Matrix n n ℝ} {a0 : n → ℝ} {X : ℕ → n → W} {Y : ∀ t, p t → W} {η : ℕ → r → W}
  {ε : ∀ t, p t → W}

theorem Proc.one0' (h : Proc B one θ P0 X Y η ε) (w : W) : B w one = 0 := by rw [h.sym, h.one0]

theorem Proc.εη0 (h : Proc B one θ P0 X Y η ε) (s t : ℕ) : covM B (ε s) (η t) = 0 := by
  rw [← covM_transpose B h.sym, h.ηε0, transpose_zero]

/-- States are uncorrelated with later shocks. -/
theorem Proc.xLater (h : Proc B one θ P0 X Y η ε) (t : ℕ) :
    ∀ s, t ≤ s → covM B (X t) (η s) = 0 ∧ covM B (X t) (ε s) = 0 := by
  induction t with
  | zero => intro s _; exact ⟨h.xη0 s, h.xε0 s⟩
  | succ t ih =>
    intro s hs
    obtain ⟨h1, h2⟩ := ih s (by omega)
    rw [h.move]
    constructor
    · simp [covM_add_left, covM_act_left, h1, covM_const_left B h.one0, h.ηη0 t s (by omega)]
    · simp [covM_add_left, covM_act_left, h2, covM_const_left B h.one0, h.ηε0]

/-- Error before row `t`. Proof notion, no code behind it. -/
noncomputable def err (one : W) (θ : ∀ t, Params n (p t) r) (a0 : n → ℝ) (P0 : Matrix n n ℝ) (X : ℕ → n → W) (Y : ∀ t, p t → W)
    (t : ℕ) : n → W := X t - predAt one θ a0 P0 Y t

/-- Innovation at row `t`. Proof notion, no code behind it. -/
noncomputable def innov (one : W) (θ : ∀ t, Params n (p t) r) (a0 : n → ℝ) (P0 : Matrix n n ℝ) (Y : ∀ t, p t → W) (t : ℕ) : p t → W :=
  Y t - const one (θ t).d - act (θ t).Z (predAt one θ a0 P0 Y t)

theorem Proc.innov_eq (h : Proc B one θ P0 X Y η ε) (t : ℕ) :
    innov one θ a0 P0 Y t = act (θ t).Z (err one θ a0 P0 X Y t) + ε t := by
  rw [innov, h.obs, err, act_sub]; abel

theorem Proc.filtErr_eq (h : Proc B one θ P0 X Y η ε) (t : ℕ) :
    X t - filtAt one θ a0 P0 Y t = err one θ a0 P0 X Y t
      - act (gainAt θ P0 t) (act (θ t).Z (err one θ a0 P0 X Y t) + ε t) := by
  rw [← h.innov_eq, filtAt, innov, err]; abel

theorem Proc.err_succ (h : Proc B one θ P0 X Y η ε) (t : ℕ) :
    err one θ a0 P0 X Y (t + 1) = act (θ t).T (X t - filtAt one θ a0 P0 Y t) + act (θ t).R (η t) := by
  have : predAt one θ a0 P0 Y (t + 1) = const one (θ t).c + act (θ t).T (filtAt one θ a0 P0 Y t) := rfl
  rw [err, h.move, this, act_sub]; abel

/-- Anything uncorrelated with all earlier data is uncorrelated with the prediction. -/
theorem Proc.predOrth (h : Proc B one θ P0 X Y η ε) (U : m → W) (t : ℕ)
    (hU : ∀ s, s < t → covM B U (Y s) = 0) : covM B U (predAt one θ a0 P0 Y t) = 0 := by
  induction t with
  | zero => exact covM_const_right B h.one0' U a0
  | succ t ih =>
    have e := ih fun s hs => hU s (by omega)
    have e2 := hU t (by omega)
    simp [predAt, covM_add_right, covM_act_right, covM_sub_right, covM_const_right B h.one0', e, e2]

theorem Proc.filtOrth (h : Proc B one θ P0 X Y η ε) (U : m → W) (t : ℕ)
    (hU : ∀ s, s ≤ t → covM B U (Y s) = 0) : covM B U (filtAt one θ a0 P0 Y t) = 0 := by
  have e := h.predOrth (a0 := a0) U t fun s hs => hU s hs.le
  have e2 := hU t le_rfl
  simp [filtAt, covM_add_right, covM_act_right, covM_sub_right, covM_const_right B h.one0', e, e2]

/-- Everything known about the error before row `t`. Proof notion, no code behind it. -/
structure Known (B : W →ₗ[ℝ] W →ₗ[ℝ] ℝ) (Y : ∀ t, p t → W) (η : ℕ → r → W) (ε : ∀ t, p t → W) (P : Matrix n n ℝ) (t : ℕ)
    (e : n → W) : Prop where
  cov : covM B e e = P
  past : ∀ s, s < t → covM B e (Y s) = 0
  noise : ∀ s, t ≤ s → covM B e (η s) = 0 ∧ covM B e (ε s) = 0

/-- Facts about the filtered error at row `t`. Proof notion, no code behind it. -/
structure KnownF (B : W →ₗ[ℝ] W →ₗ[ℝ] ℝ) (Y : ∀ t, p t → W) (η : ℕ → r → W) (ε : ∀ t, p t → W) (P : Matrix n n ℝ) (t : ℕ)
    (e : n → W) : Prop where
  cov : covM B e e = P
  past : ∀ s, s ≤ t → covM B e (Y s) = 0
  noiseη : ∀ s, t ≤ s → covM B e (η s) = 0
  noiseε : ∀ s, t < s → covM B e (ε s) = 0

theorem Proc.yLater (h : Proc B one θ P0 X Y η ε) (t s : ℕ) (hs : t ≤ s) : covM B (Y t) (η s) = 0 := by
  rw [h.obs]
  simp [covM_add_left, covM_act_left, (h.xLater t s hs).1, covM_const_left B h.one0, h.εη0]

theorem Proc.yLaterε (h : Proc B one θ P0 X Y η ε) (t s : ℕ) (hs : t < s) : covM B (Y t) (ε s) = 0 := by
  rw [h.obs]
  simp [covM_add_left, covM_act_left, (h.xLater t s hs.le).2, covM_const_left B h.one0, h.εε0 t s hs.ne]

theorem Proc.start (h : Proc B one θ P0 X Y η ε) : Known B Y η ε P0 0 (err one θ a0 P0 X Y 0) := by
  refine ⟨?_, fun s hs => absurd hs (by omega), fun s _ => ?_⟩
  · simp [err, predAt, covM_sub_left, covM_sub_right, covM_const_left B h.one0, covM_const_right B h.one0', h.x0]
  · constructor
    · simp [err, predAt, covM_sub_left, covM_const_left B h.one0, h.xη0]
    · simp [err, predAt, covM_sub_left, covM_const_left B h.one0, h.xε0]

/-- Innovation covariance. -/
theorem Proc.innovCov (h : Proc B one θ P0 X Y η ε) (t : ℕ)
    (k : Known B Y η ε (covAt θ P0 t) t (err one θ a0 P0 X Y t)) :
    covM B (innov one θ a0 P0 Y t) (innov one θ a0 P0 Y t) = Spec.obsCov (covAt θ P0 t) (θ t).Z (θ t).H := by
  rw [h.innov_eq]
  have e1 := (k.noise t le_rfl).2
  have e2 : covM B (ε t) (err one θ a0 P0 X Y t) = 0 := by rw [← covM_transpose B h.sym, e1, transpose_zero]
  simp [covM_add_left, covM_add_right, covM_act_left, covM_act_right, e1, e2, k.cov, h.εε, Spec.obsCov, Matrix.mul_assoc]

theorem Proc.observe (h : Proc B one θ P0 X Y η ε) (t : ℕ)
    (hF : IsUnit (Spec.obsCov (covAt θ P0 t) (θ t).Z (θ t).H).det) (hH : (θ t).Hᵀ = (θ t).H)
    (k : Known B Y η ε (covAt θ P0 t) t (err one θ a0 P0 X Y t)) :
    KnownF B Y η ε (Spec.condCov (covAt θ P0 t) (θ t).Z (θ t).H) t (X t - filtAt one θ a0 P0 Y t) := by
  set P := covAt θ P0 t with hP
  have hPs : Pᵀ = P := by rw [← k.cov, covM_transpose B h.sym]
  set e := err one θ a0 P0 X Y t with he
  set K := gainAt θ P0 t with hK
  have e1 := (k.noise t le_rfl).2
  have e2 : covM B (ε t) e = 0 := by rw [← covM_transpose B h.sym, e1, transpose_zero]
  have eF : X t - filtAt one θ a0 P0 Y t = e - act K (act (θ t).Z e + ε t) := h.filtErr_eq t
  have hKF : K * (Spec.obsCov P (θ t).Z (θ t).H) = P * (θ t).Zᵀ := by
    rw [hK, gainAt, ← hP, Matrix.mul_assoc, Matrix.nonsing_inv_mul _ hF, Matrix.mul_one]
  -- filtered error and innovation
  have hv : covM B (X t - filtAt one θ a0 P0 Y t) (act (θ t).Z e + ε t) = 0 := by
    rw [eF]
    have hKF' : P * (θ t).Zᵀ = K * ((θ t).Z * P * (θ t).Zᵀ) + K * (θ t).H := by
      rw [← Matrix.mul_add]; exact hKF.symm
    have hKF'' : P * (θ t).Zᵀ = K * ((θ t).Z * (P * (θ t).Zᵀ)) + K * (θ t).H := by
      rw [← Matrix.mul_assoc (θ t).Z]; exact hKF'
    simp only [covM_sub_left, covM_add_left, covM_add_right, covM_act_left, covM_act_right, e1, e2, k.cov, h.εε,
      Matrix.mul_add, Matrix.mul_zero, Matrix.zero_mul, add_zero, zero_add, sub_zero, zero_sub, Matrix.sub_mul, Matrix.mul_assoc]
    have h0 := sub_eq_zero.2 hKF''
    rw [← h0]; abel
  refine ⟨?_, ?_, ?_, ?_⟩
  · have hself : covM B (X t - filtAt one θ a0 P0 Y t) (X t - filtAt one θ a0 P0 Y t)
        = covM B (X t - filtAt one θ a0 P0 Y t) e := by
      have : covM B (X t - filtAt one θ a0 P0 Y t) (X t - filtAt one θ a0 P0 Y t)
          = covM B (X t - filtAt one θ a0 P0 Y t) (e - act K (act (θ t).Z e + ε t)) := by rw [← eF]
      rw [this, covM_sub_right, covM_act_right, hv]; simp
    rw [hself, eF]
    simp only [covM_sub_left, covM_add_left, covM_act_left, e2, k.cov, Spec.condCov, hK, gainAt, ← hP, add_zero,
      Matrix.mul_assoc]
  · intro s hs
    rcases Nat.lt_or_ge s t with hlt | hge
    · have h1 := k.past s hlt
      have h2 : covM B (ε t) (Y s) = 0 := by
        rw [← covM_transpose B h.sym, h.yLaterε s t hlt, transpose_zero]
      rw [eF]
      simp [covM_sub_left, covM_add_left, covM_act_left, h1, h2]
    · obtain rfl : s = t := by omega
      have hpast : ∀ u, u < s → covM B (X s - filtAt one θ a0 P0 Y s) (Y u) = 0 := by
        intro u hu
        have h1 := k.past u hu
        have h2 : covM B (ε s) (Y u) = 0 := by
          rw [← covM_transpose B h.sym, h.yLaterε u s hu, transpose_zero]
        rw [eF]
        simp [covM_sub_left, covM_add_left, covM_act_left, h1, h2]
      have hA := h.predOrth (a0 := a0) _ s hpast
      have hYs : Y s = (act (θ s).Z e + ε s) + const one (θ s).d + act (θ s).Z (predAt one θ a0 P0 Y s) := by
        rw [he, ← h.innov_eq, innov]; abel
      rw [hYs, covM_add_right, covM_add_right, hv, covM_act_right, hA, covM_const_right B h.one0']
      simp
  · intro s hs
    rw [eF]
    simp [covM_sub_left, covM_add_left, covM_act_left, (k.noise s hs).1, h.εη0]
  · intro s hs
    rw [eF]
    simp [covM_sub_left, covM_add_left, covM_act_left, (k.noise s hs.le).2, h.εε0 t s hs.ne]

theorem Proc.advance (h : Proc B one θ P0 X Y η ε) (t : ℕ)
    (k : KnownF B Y η ε (Spec.condCov (covAt θ P0 t) (θ t).Z (θ t).H) t (X t - filtAt one θ a0 P0 Y t)) :
    Known B Y η ε (covAt θ P0 (t + 1)) (t + 1) (err one θ a0 P0 X Y (t + 1)) := by
  rw [h.err_succ]
  have e1 := k.noiseη t le_rfl
  have e2 : covM B (η t) (X t - filtAt one θ a0 P0 Y t) = 0 := by rw [← covM_transpose B h.sym, e1, transpose_zero]
  refine ⟨?_, ?_, ?_⟩
  · simp [covM_add_left, covM_add_right, covM_act_left, covM_act_right, e1, e2, k.cov, h.ηη, covAt, Matrix.mul_assoc]
  · intro s hs
    have h1 := k.past s (by omega)
    have h2 : covM B (η t) (Y s) = 0 := by
      rw [← covM_transpose B h.sym, h.yLater s t (by omega), transpose_zero]
    simp [covM_add_left, covM_act_left, h1, h2]
  · intro s hs
    constructor
    · simp [covM_add_left, covM_act_left, k.noiseη s (by omega), h.ηη0 t s (by omega)]
    · simp [covM_add_left, covM_act_left, k.noiseε s (by omega), h.ηε0]

/-- The filter's errors at every time. -/
theorem Proc.all (h : Proc B one θ P0 X Y η ε)
    (hF : ∀ t, IsUnit (Spec.obsCov (covAt θ P0 t) (θ t).Z (θ t).H).det) (t : ℕ) :
    Known B Y η ε (covAt θ P0 t) t (err one θ a0 P0 X Y t) ∧
      KnownF B Y η ε (Spec.condCov (covAt θ P0 t) (θ t).Z (θ t).H) t (X t - filtAt one θ a0 P0 Y t) := by
  have hH : ∀ t, (θ t).Hᵀ = (θ t).H := fun t => by rw [← h.εε, covM_transpose B h.sym]
  induction t with
  | zero => exact ⟨h.start, h.observe 0 (hF 0) (hH 0) h.start⟩
  | succ t ih =>
    have := h.advance t ih.2
    exact ⟨this, h.observe (t + 1) (hF _) (hH _) this⟩

/-- A covariance matrix is positive semidefinite. -/
theorem covM_posSemidef (B : W →ₗ[ℝ] W →ₗ[ℝ] ℝ) (hB : ∀ x y, B x y = B y x) (hpos : ∀ w, 0 ≤ B w w) (X : n → W) :
    (covM B X X).PosSemidef := by
  refine Matrix.PosSemidef.of_dotProduct_mulVec_nonneg ?_ ?_
  · rw [isHermitian_iff_transpose, covM_transpose B hB]
  · intro x
    have : star x ⬝ᵥ (covM B X X *ᵥ x) = B (∑ i, x i • X i) (∑ j, x j • X j) := by
      simp only [map_sum, LinearMap.sum_apply, map_smul, LinearMap.smul_apply, smul_eq_mul, dotProduct, mulVec, covM,
        Matrix.of_apply, Pi.star_apply, star_trivial, Finset.mul_sum]
      rw [Finset.sum_comm]
      exact Finset.sum_congr rfl fun i _ => Finset.sum_congr rfl fun j _ => by ring
    rw [this]; exact hpos _

omit [∀ t, Fintype (p t)] [∀ t, DecidableEq (p t)] in
theorem obsCov_posDef {q : Type*} [Fintype q] [DecidableEq q] {P : Matrix n n ℝ} (hP : P.PosSemidef) (Z : Matrix q n ℝ) {H : Matrix q q ℝ} (hH : H.PosDef) :
    (Spec.obsCov P Z H).PosDef := by
  refine Matrix.PosDef.posSemidef_add ?_ hH
  simpa [Matrix.conjTranspose_eq_transpose_of_trivial] using hP.mul_mul_conjTranspose_same Z

/-- The filter's errors at every time, for positive definite observation covariances. -/
theorem Proc.allPosDef (h : Proc B one θ P0 X Y η ε) (hpos : ∀ w, 0 ≤ B w w)
    (hF : ∀ t, (Spec.obsCov (covAt θ P0 t) (θ t).Z (θ t).H).PosDef) (a0 : n → ℝ) (t : ℕ) :
    (covAt θ P0 t).PosSemidef ∧ (Spec.obsCov (covAt θ P0 t) (θ t).Z (θ t).H).PosDef ∧
    Known B Y η ε (covAt θ P0 t) t (err one θ a0 P0 X Y t) ∧
      KnownF B Y η ε (Spec.condCov (covAt θ P0 t) (θ t).Z (θ t).H) t (X t - filtAt one θ a0 P0 Y t) := by
  obtain ⟨k, kF⟩ := h.all (a0 := a0) (fun t => isUnit_iff_ne_zero.2 (hF t).det_pos.ne') t
  exact ⟨by rw [← k.cov]; exact covM_posSemidef B h.sym hpos _, hF t, k, kF⟩

/-- A criterion that can be checked date by date: if each observation covariance is positive definite as soon as the filter has
been right so far, all of them are. -/
theorem Proc.posDef_of_step (h : Proc B one θ P0 X Y η ε) (a0 : n → ℝ)
    (hstep : ∀ t, Known B Y η ε (covAt θ P0 t) t (err one θ a0 P0 X Y t) →
      (0 < t → KnownF B Y η ε (Spec.condCov (covAt θ P0 (t - 1)) (θ (t - 1)).Z (θ (t - 1)).H) (t - 1)
        (X (t - 1) - filtAt one θ a0 P0 Y (t - 1))) →
      (Spec.obsCov (covAt θ P0 t) (θ t).Z (θ t).H).PosDef) (t : ℕ) :
    (Spec.obsCov (covAt θ P0 t) (θ t).Z (θ t).H).PosDef := by
  have hH : ∀ t, (θ t).Hᵀ = (θ t).H := fun t => by rw [← h.εε, covM_transpose B h.sym]
  have key : ∀ t, (Spec.obsCov (covAt θ P0 t) (θ t).Z (θ t).H).PosDef ∧
      Known B Y η ε (covAt θ P0 t) t (err one θ a0 P0 X Y t) ∧
      KnownF B Y η ε (Spec.condCov (covAt θ P0 t) (θ t).Z (θ t).H) t (X t - filtAt one θ a0 P0 Y t) := by
    intro t
    induction t with
    | zero =>
      have hF := hstep 0 h.start fun h0 => absurd h0 (by omega)
      exact ⟨hF, h.start, h.observe 0 (isUnit_iff_ne_zero.2 hF.det_pos.ne') (hH 0) h.start⟩
    | succ t ih =>
      have k := h.advance t ih.2.2
      have hF := hstep (t + 1) k fun _ => ih.2.2
      exact ⟨hF, k, h.observe (t + 1) (isUnit_iff_ne_zero.2 hF.det_pos.ne') (hH _) k⟩
  exact (key t).1

/-- With positive definite measurement noise every observation covariance is positive definite. -/
theorem Proc.posDef_of_H (h : Proc B one θ P0 X Y η ε) (hpos : ∀ w, 0 ≤ B w w) (hH : ∀ t, (θ t).H.PosDef) (t : ℕ) :
    (Spec.obsCov (covAt θ P0 t) (θ t).Z (θ t).H).PosDef :=
  h.posDef_of_step 0 (fun t k _ => obsCov_posDef (by rw [← k.cov]; exact covM_posSemidef B h.sym hpos _) (θ t).Z (hH t)) t

/-- Innovations of different rows are uncorrelated. -/
theorem Proc.innovOrth (h : Proc B one θ P0 X Y η ε) (s t : ℕ) (hs : s < t)
    (k : Known B Y η ε (covAt θ P0 t) t (err one θ a0 P0 X Y t)) :
    covM B (innov one θ a0 P0 Y t) (innov one θ a0 P0 Y s) = 0 := by
  have hU : ∀ u, u < t → covM B (innov one θ a0 P0 Y t) (Y u) = 0 := by
    intro u hu
    rw [h.innov_eq]
    have h2 : covM B (ε t) (Y u) = 0 := by
      rw [← covM_transpose B h.sym, h.yLaterε u t hu, transpose_zero]
    simp [covM_add_left, covM_act_left, k.past u hu, h2]
  have h1 := h.predOrth (a0 := a0) (innov one θ a0 P0 Y t) s fun u hu => hU u (by omega)
  have h3 := hU s hs
  rw [show innov one θ a0 P0 Y s = Y s - const one (θ s).d - act (θ s).Z (predAt one θ a0 P0 Y s) from rfl,
    covM_sub_right, covM_sub_right, covM_act_right, h1, h3, covM_const_right B h.one0']
  simp

/-! ### Means -/

omit [Fintype m] in
theorem mean_act (E : W →ₗ[ℝ] ℝ) (A : Matrix m k ℝ) (X : k → W) (hX : ∀ j, E (X j) = 0) (i : m) : E (act A X i) = 0 := by
  simp [act, hX]

theorem Proc.mean (h : Proc B one θ P0 X Y η ε) (E : W →ₗ[ℝ] ℝ) (h1 : E one = 1) (hx : ∀ i, E (X 0 i) = a0 i)
    (hη : ∀ t i, E (η t i) = 0) (hε : ∀ t i, E (ε t i) = 0) (t : ℕ) :
    (∀ i, E (err one θ a0 P0 X Y t i) = 0) ∧ (∀ i, E ((X t - filtAt one θ a0 P0 Y t) i) = 0) ∧
      ∀ i, E (innov one θ a0 P0 Y t i) = 0 := by
  have hin : ∀ t, (∀ i, E (err one θ a0 P0 X Y t i) = 0) → ∀ i, E (innov one θ a0 P0 Y t i) = 0 := by
    intro t he i
    rw [h.innov_eq]
    simp [mean_act E _ _ he, hε]
  have hf : ∀ t, (∀ i, E (err one θ a0 P0 X Y t i) = 0) → ∀ i, E ((X t - filtAt one θ a0 P0 Y t) i) = 0 := by
    intro t he i
    rw [h.filtErr_eq, ← h.innov_eq]
    simp only [Pi.sub_apply, map_sub, he, mean_act E _ _ (hin t he), sub_zero]
  induction t with
  | zero =>
    have : ∀ i, E (err one θ a0 P0 X Y 0 i) = 0 := by
      intro i; simp [err, predAt, const, h1, hx]
    exact ⟨this, hf 0 this, hin 0 this⟩
  | succ t ih =>
    have : ∀ i, E (err one θ a0 P0 X Y (t + 1) i) = 0 := by
      intro i
      rw [h.err_succ]
      simp only [Pi.add_apply, map_add, mean_act E _ _ ih.2.1, mean_act E _ _ (hη t), add_zero]
    exact ⟨this, hf _ this, hin _ this⟩

end Verif.Kalman.Orthogonal
