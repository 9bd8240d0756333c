import Verif.Kalman.ConservativeSpec

/-!
# Lemmas for C201: the filter's errors, and a bound on their covariances

Auxiliary.
-/

set_option autoImplicit false
set_option linter.unusedSectionVars false

open Matrix MeasureTheory ProbabilityTheory

namespace Verif.Kalman

open Orthogonal

variable {Ω : Type*} [MeasurableSpace Ω] {μ : Measure Ω} [IsProbabilityMeasure μ]
variable {n p r : Type*} [Fintype n] [Fintype p] [Fintype r] [DecidableEq n] [DecidableEq p] [DecidableEq r]
variable {θ θ' : ℕ → Params n p r} {a0 : n → ℝ} {P0 P0' : Matrix n n ℝ} {X : ℕ → n → Ω → ℝ} {Y : ℕ → p → Ω → ℝ}
  {η : ℕ → r → Ω → ℝ} {ε : ℕ → p → Ω → ℝ}

namespace Cons

open Classical in
/-- The diagonal matrix that keeps the series of `s`. Proof notion: the mask of kalman_filter.py:354. -/
noncomputable def keep (s : p → Prop) : Matrix p p ℝ := diagonal fun i => if s i then 1 else 0

/-- The gain when the series of `s` are recorded. Proof notion: kalman_filter.py:597-600 in closed form. -/
noncomputable def gainJ (j : ℝ) (s : p → Prop) (P : Matrix n n ℝ) (θ : Params n p r) : Matrix n p ℝ :=
  gain P (keep s * θ.Z) (innovCov j P (keep s * θ.Z) (keep s * θ.H))

/-- The filtered covariance. Proof notion: kalman_filter.py:549-617 in closed form. -/
noncomputable def filtJ (j : ℝ) (s : p → Prop) (P : Matrix n n ℝ) (θ : Params n p r) : Matrix n n ℝ :=
  stabilize j (quadFormSym (1 - gainJ j s P θ * (keep s * θ.Z)) P + quadFormSym (gainJ j s P θ) (keep s * θ.H))

/-- The predicted covariance carried into date `t`. Proof notion: kalman_filter.py:362-410 in closed form. -/
noncomputable def covJ (j : ℝ) (o : ℕ → p → Prop) (θ : ℕ → Params n p r) (P0 : Matrix n n ℝ) : ℕ → Matrix n n ℝ
  | 0 => P0
  | t + 1 => quadFormSym (θ t).T (filtJ j (o t) (covJ j o θ P0 t) (θ t)) + quadFormSym (θ t).R (θ t).Q

theorem keep_keep (s : p → Prop) : keep s * keep s = (keep s : Matrix p p ℝ) := by
  classical
  rw [keep, diagonal_mul_diagonal]; congr 1; funext i; split_ifs <;> simp

theorem keep_transpose (s : p → Prop) : (keep s : Matrix p p ℝ)ᵀ = keep s := by
  classical
  rw [keep, diagonal_transpose]

theorem keep_H {s : p → Prop} {H : Matrix p p ℝ} (hs : Hᵀ = H) (hd : ∀ i k, ¬ s i → s k → H i k = 0) :
    keep s * H = H * keep s := by
  classical
  ext i k
  have hs' : H i k = H k i := by conv_lhs => rw [← hs, transpose_apply]
  simp only [keep, diagonal_mul, mul_diagonal]
  by_cases hi : s i <;> by_cases hk : s k <;> simp [hi, hk]
  · rw [hs']; exact hd k i hk hi
  · exact (hd i k hi hk).symm

/-- Missing series have no weight in the gain. -/
theorem gainJ_keep (j : ℝ) {s : p → Prop} (P : Matrix n n ℝ) {θ : Params n p r} (hs : θ.Hᵀ = θ.H)
    (hd : ∀ i k, ¬ s i → s k → θ.H i k = 0) : gainJ j s P θ * keep s = gainJ j s P θ := by
  set F := innovCov j P (keep s * θ.Z) (keep s * θ.H) with hF
  have hc : keep s * F = F * keep s := by
    rw [hF, innovCov, stabilize, Matrix.mul_add, Matrix.add_mul, Matrix.mul_add, Matrix.add_mul]
    congr 1
    · simp only [transpose_mul, keep_transpose, Matrix.mul_assoc, keep_keep]
      simp only [← Matrix.mul_assoc, keep_keep]
    · congr 1
      · rw [← Matrix.mul_assoc, keep_keep, Matrix.mul_assoc, ← keep_H hs hd, ← Matrix.mul_assoc, keep_keep]
      · simp
  have hci : F⁻¹ * keep s = keep s * F⁻¹ := by
    by_cases hu : IsUnit F.det
    · calc F⁻¹ * keep s = F⁻¹ * keep s * (F * F⁻¹) := by rw [mul_nonsing_inv _ hu, Matrix.mul_one]
        _ = F⁻¹ * (keep s * F) * F⁻¹ := by simp only [Matrix.mul_assoc]
        _ = (F⁻¹ * F) * keep s * F⁻¹ := by rw [hc]; simp only [Matrix.mul_assoc]
        _ = keep s * F⁻¹ := by rw [nonsing_inv_mul _ hu, Matrix.one_mul]
    · rw [nonsing_inv_apply_not_isUnit _ hu]; simp
  rw [gainJ, ← hF, gain_eq, Matrix.mul_assoc, hci, transpose_mul, keep_transpose]
  simp only [← Matrix.mul_assoc]
  rw [Matrix.mul_assoc (P * θ.Zᵀ), keep_keep]

/-- Joseph's form, without the masks. -/
theorem filtJ_eq (j : ℝ) {s : p → Prop} {P : Matrix n n ℝ} {θ : Params n p r} (hP : Pᵀ = P) (hs : θ.Hᵀ = θ.H)
    (hd : ∀ i k, ¬ s i → s k → θ.H i k = 0) :
    filtJ j s P θ = (1 - gainJ j s P θ * θ.Z) * P * (1 - gainJ j s P θ * θ.Z)ᵀ +
      gainJ j s P θ * θ.H * (gainJ j s P θ)ᵀ + j • 1 := by
  have hK := gainJ_keep j P hs hd
  have hsym : (keep s * θ.H)ᵀ = keep s * θ.H := by rw [transpose_mul, hs, keep_transpose, keep_H hs hd]
  rw [filtJ, stabilize, quadFormSym_of_symm _ hP, quadFormSym_of_symm _ hsym, ← Matrix.mul_assoc, ← Matrix.mul_assoc, hK]

/-- What the filter's covariances must satisfy. Proof notion, no code behind it. -/
structure Ok (o : ℕ → p → Prop) (θ : ℕ → Params n p r) : Prop where
  H : ∀ t, (θ t).H.PosSemidef
  Q : ∀ t, (θ t).Q.PosSemidef
  dec : ∀ t i k, ¬ o t i → o t k → (θ t).H i k = 0

theorem filtJ_posSemidef {j : ℝ} (hj : 0 ≤ j) {s : p → Prop} {P : Matrix n n ℝ} (hP : P.PosSemidef) {θ : Params n p r}
    (hH : θ.H.PosSemidef) (hd : ∀ i k, ¬ s i → s k → θ.H i k = 0) : (filtJ j s P θ).PosSemidef := by
  rw [filtJ_eq j (PosSemidef.transpose_eq hP) (PosSemidef.transpose_eq hH) hd]
  have h1 := hP.mul_mul_conjTranspose_same (1 - gainJ j s P θ * θ.Z)
  have h2 := hH.mul_mul_conjTranspose_same (gainJ j s P θ)
  rw [conjTranspose_eq_transpose_of_trivial] at h1 h2
  have := stabilize_posSemidef hj (h1.add h2)
  exact this

theorem covJ_posSemidef {j : ℝ} (hj : 0 ≤ j) {o : ℕ → p → Prop} (hok : Ok o θ) (hP : P0.PosSemidef) (t : ℕ) :
    (covJ j o θ P0 t).PosSemidef := by
  induction t with
  | zero => exact hP
  | succ t ih =>
    exact (quadFormSym_posSemidef _ (filtJ_posSemidef hj ih (hok.H t) (hok.dec t))).add (quadFormSym_posSemidef _ (hok.Q t))

/-! ### The errors -/

/-- The error of the predicted state, from initial error, shocks and measurement errors. Proof notion, no code behind it. -/
noncomputable def errP (h : Spec.Process μ θ' a0 P0' X Y η ε) (j : ℝ) (o : ℕ → p → Prop) (θ : ℕ → Params n p r)
    (P0 : Matrix n n ℝ) : ℕ → n → L2 μ
  | 0 => liftX h 0 - const (one μ) a0
  | t + 1 =>
    let K := gainJ j (o t) (covJ j o θ P0 t) (θ t)
    act (θ t).T (act (1 - K * (θ t).Z) (errP h j o θ P0 t) - act K (liftε h t)) + act (θ t).R (liftη h t)

/-- The error of the filtered state. Proof notion, no code behind it. -/
noncomputable def errF (h : Spec.Process μ θ' a0 P0' X Y η ε) (j : ℝ) (o : ℕ → p → Prop) (θ : ℕ → Params n p r)
    (P0 : Matrix n n ℝ) (t : ℕ) : n → L2 μ :=
  let K := gainJ j (o t) (covJ j o θ P0 t) (θ t)
  act (1 - K * (θ t).Z) (errP h j o θ P0 t) - act K (liftε h t)

variable (h : Spec.Process μ θ' a0 P0' X Y η ε) (j : ℝ) (o : ℕ → p → Prop)

theorem errP_succ (t : ℕ) : errP h j o θ P0 (t + 1) = act (θ t).T (errF h j o θ P0 t) + act (θ t).R (liftη h t) := rfl

/-- Errors are uncorrelated with what comes later. -/
theorem errP_later (t : ℕ) : (∀ s, t ≤ s → covM (covB μ) (errP h j o θ P0 t) (liftε h s) = 0) ∧
    ∀ s, t ≤ s → covM (covB μ) (errP h j o θ P0 t) (liftη h s) = 0 := by
  have hp := toProc h
  induction t with
  | zero =>
    refine ⟨fun s _ => ?_, fun s _ => ?_⟩
    · rw [errP, covM_sub_left, hp.xε0, covM_const_left _ hp.one0, sub_zero]
    · rw [errP, covM_sub_left, hp.xη0, covM_const_left _ hp.one0, sub_zero]
  | succ t ih =>
    refine ⟨fun s hs => ?_, fun s hs => ?_⟩
    · rw [errP_succ, errF]
      simp [covM_add_left, covM_sub_left, covM_act_left, ih.1 s (by omega), hp.εε0 t s (by omega), hp.ηε0]
    · rw [errP_succ, errF]
      simp [covM_add_left, covM_sub_left, covM_act_left, ih.2 s (by omega), hp.εη0, hp.ηη0 t s (by omega)]

theorem errF_η (t : ℕ) : covM (covB μ) (errF h j o θ P0 t) (liftη h t) = 0 := by
  have hp := toProc h
  rw [errF]
  simp [covM_sub_left, covM_act_left, (errP_later h j o t).2 t le_rfl, hp.εη0]

theorem errF_cov (t : ℕ) : covM (covB μ) (errF h j o θ P0 t) (errF h j o θ P0 t) =
    (1 - gainJ j (o t) (covJ j o θ P0 t) (θ t) * (θ t).Z) * covM (covB μ) (errP h j o θ P0 t) (errP h j o θ P0 t) *
      (1 - gainJ j (o t) (covJ j o θ P0 t) (θ t) * (θ t).Z)ᵀ +
      gainJ j (o t) (covJ j o θ P0 t) (θ t) * (θ' t).H * (gainJ j (o t) (covJ j o θ P0 t) (θ t))ᵀ := by
  have hp := toProc h
  have h1 := (errP_later h j o (θ := θ) (P0 := P0) t).1 t le_rfl
  have h2 : covM (covB μ) (liftε h t) (errP h j o θ P0 t) = 0 := by
    rw [← covM_transpose _ hp.sym, h1, transpose_zero]
  rw [errF]
  simp only [covM_sub_left, covM_sub_right, covM_act_left, covM_act_right, h1, h2, hp.εε, Matrix.mul_zero, Matrix.zero_mul,
    sub_zero, zero_sub, sub_neg_eq_add, Matrix.neg_mul, Matrix.mul_assoc]

theorem errP_cov (t : ℕ) : covM (covB μ) (errP h j o θ P0 (t + 1)) (errP h j o θ P0 (t + 1)) =
    (θ t).T * covM (covB μ) (errF h j o θ P0 t) (errF h j o θ P0 t) * (θ t).Tᵀ + (θ t).R * (θ' t).Q * (θ t).Rᵀ := by
  have hp := toProc h
  have h1 := errF_η h j o (θ := θ) (P0 := P0) t
  have h2 : covM (covB μ) (liftη h t) (errF h j o θ P0 t) = 0 := by
    rw [← covM_transpose _ hp.sym, h1, transpose_zero]
  rw [errP_succ]
  simp only [covM_add_left, covM_add_right, covM_act_left, covM_act_right, h1, h2, hp.ηη, Matrix.mul_zero, Matrix.zero_mul,
    add_zero, zero_add, Matrix.mul_assoc]

variable {j o}

theorem conj {m k : Type*} [Fintype m] [Fintype k] (A : Matrix m k ℝ) {B C : Matrix k k ℝ} (hBC : (B - C).PosSemidef) :
    (A * B * Aᵀ - A * C * Aᵀ).PosSemidef := by
  have := hBC.mul_mul_conjTranspose_same A
  rwa [conjTranspose_eq_transpose_of_trivial, Matrix.mul_sub, Matrix.sub_mul] at this

theorem bound_filter (hcov : ∀ t, Spec.Covers (θ t) (θ' t)) (hok : Ok o θ) {t : ℕ} (hP : (covJ j o θ P0 t).PosSemidef)
    (ih : (covJ j o θ P0 t - covM (covB μ) (errP h j o θ P0 t) (errP h j o θ P0 t)).PosSemidef) :
    (filtJ j (o t) (covJ j o θ P0 t) (θ t) - j • 1 - covM (covB μ) (errF h j o θ P0 t) (errF h j o θ P0 t)).PosSemidef := by
  rw [filtJ_eq j (PosSemidef.transpose_eq hP) (PosSemidef.transpose_eq (hok.H t)) (hok.dec t), errF_cov, add_sub_cancel_right]
  have := (conj (1 - gainJ j (o t) (covJ j o θ P0 t) (θ t) * (θ t).Z) ih).add
    (conj (gainJ j (o t) (covJ j o θ P0 t) (θ t)) (hcov t).H)
  rw [add_sub_add_comm]
  exact this

theorem bound (hj : 0 ≤ j) (hcov : ∀ t, Spec.Covers (θ t) (θ' t)) (hok : Ok o θ) (hP : P0.PosSemidef) (hPP : (P0 - P0').PosSemidef)
    (t : ℕ) : (covJ j o θ P0 t - covM (covB μ) (errP h j o θ P0 t) (errP h j o θ P0 t)).PosSemidef := by
  have hp := toProc h
  induction t with
  | zero =>
    have : covM (covB μ) (errP h j o θ P0 0) (errP h j o θ P0 0) = P0' := by
      rw [errP]
      simp only [covM_sub_left, covM_sub_right, covM_const_left _ hp.one0, covM_const_right _ hp.one0', sub_zero, hp.x0]
    rw [this]; exact hPP
  | succ t ih =>
    have hc := covJ_posSemidef (θ := θ) hj hok hP t
    have hf := bound_filter h hcov hok hc ih
    have hf' : (filtJ j (o t) (covJ j o θ P0 t) (θ t) - covM (covB μ) (errF h j o θ P0 t) (errF h j o θ P0 t)).PosSemidef := by
      have := stabilize_posSemidef hj hf
      rw [stabilize] at this
      convert this using 1
      abel
    rw [errP_cov, covJ, quadFormSym_of_symm _ (PosSemidef.transpose_eq (filtJ_posSemidef hj hc (hok.H t) (hok.dec t))),
      quadFormSym_of_symm _ (PosSemidef.transpose_eq (hok.Q t))]
    have := (conj (θ t).T hf').add (conj (θ t).R (hcov t).Q)
    convert this using 1
    abel

theorem mean_act {m k : Type*} [Fintype k] (A : Matrix m k ℝ) (x : k → L2 μ) (hx : ∀ i, mean μ (x i) = 0) (i : m) :
    mean μ (act A x i) = 0 := by
  simp [act, hx]

theorem errP_mean (t : ℕ) : ∀ i, mean μ (errP h j o θ P0 t i) = 0 := by
  induction t with
  | zero =>
    intro i
    have h1 : mean μ (const (one μ) a0 i) = a0 i := by simp [const, mean_apply, Orthogonal.one]
    rw [errP, Pi.sub_apply, map_sub, h1, mean_apply]
    show ∫ ω, X 0 i ω ∂μ - a0 i = 0
    rw [h.mean_initial, sub_self]
  | succ t ih =>
    intro i
    rw [errP_succ, errF, Pi.add_apply, map_add, mean_act, mean_act, add_zero]
    · exact fun k => h.mean_shock t k
    · intro k
      rw [Pi.sub_apply, map_sub, mean_act _ _ ih, mean_act, sub_zero]
      exact fun l => h.mean_error t l

theorem errF_mean (t : ℕ) : ∀ i, mean μ (errF h j o θ P0 t i) = 0 := by
  intro k
  rw [errF, Pi.sub_apply, map_sub, mean_act _ _ (errP_mean h t), mean_act, sub_zero]
  exact fun l => h.mean_error t l

/-! ### The filter -/

open Classical in
/-- The row of date `t`. Proof notion, no code behind it. -/
noncomputable def row (o : ℕ → p → Prop) (y : ℕ → p → ℝ) (t : ℕ) : Row p := fun i => if o t i then some (y t i) else none

theorem row_mask {fill : ℝ} {y : ℕ → p → ℝ} (hy : ∀ t i, o t i → y t i ≠ fill) (t : ℕ) (i : p) :
    nanMask fill (row o y t) i ↔ ¬ o t i := by
  classical
  by_cases hi : o t i
  · simp [nanMask, row, hi, hy t i hi]
  · simp [nanMask, row, hi]

theorem maskW_row {fill : ℝ} {y : ℕ → p → ℝ} (hy : ∀ t i, o t i → y t i ≠ fill) (t : ℕ) :
    maskW fill (row o y t) = keep (o t) := by
  classical
  rw [maskW, keep]; congr 1; funext i
  by_cases hi : o t i
  · simp [row_mask hy, hi]
  · simp [row_mask hy, hi]

theorem carried_cov {fill : ℝ} {y : ℕ → p → ℝ} (hy : ∀ t i, o t i → y t i ≠ fill) (t : ℕ) :
    (carried j fill a0 P0 (row o y) θ t).2 = covJ j o θ P0 t ∧
      (kalmanStep j fill (row o y t) (carried j fill a0 P0 (row o y) θ t).1 (carried j fill a0 P0 (row o y) θ t).2 (θ t)).PFilt =
        filtJ j (o t) (covJ j o θ P0 t) (θ t) := by
  have key : ∀ t a P, (kalmanStep j fill (row o y t) a P (θ t)).PFilt = filtJ j (o t) P (θ t) := by
    intro t a P
    simp only [kalmanStep, handleMissing, maskW_row hy, update, filtJ, gainJ]
  induction t with
  | zero => exact ⟨rfl, by rw [key]; rfl⟩
  | succ t ih =>
    have h1 : (carried j fill a0 P0 (row o y) θ (t + 1)).2 = covJ j o θ P0 (t + 1) := by
      rw [covJ, ← ih.2]; rfl
    exact ⟨h1, by rw [key, h1]⟩

/-- The filtered mean in terms of the prediction error. -/
theorem step_mean {fill : ℝ} {y : ℕ → p → ℝ} (hy : ∀ t i, o t i → y t i ≠ fill) (t : ℕ) (a x : n → ℝ) (P : Matrix n n ℝ)
    (e : p → ℝ) (hs : (θ t).Hᵀ = (θ t).H) (hd : ∀ i k, ¬ o t i → o t k → (θ t).H i k = 0)
    (hobs : ∀ i, y t i = ((θ t).Z *ᵥ x) i + (θ t).d i + e i) :
    x - (kalmanStep j fill (row o y t) a P (θ t)).aFilt =
      (1 - gainJ j (o t) P (θ t) * (θ t).Z) *ᵥ (x - a) - gainJ j (o t) P (θ t) *ᵥ e := by
  classical
  have hK := gainJ_keep j P hs hd
  set K := gainJ j (o t) P (θ t) with hKd
  have ha : (kalmanStep j fill (row o y t) a P (θ t)).aFilt =
      a + K *ᵥ ((fun i => if o t i then y t i else 0) - ((θ t).d + (keep (o t) * (θ t).Z) *ᵥ a)) := by
    have hyy : (handleMissing fill (row o y t) (θ t).Z (θ t).H).y = fun i => if o t i then y t i else 0 := by
      funext i
      by_cases hi : o t i
      · simp [handleMissing, row_mask hy, hi, row]
      · simp [handleMissing, row_mask hy, hi]
    rw [← hyy]
    simp only [kalmanStep, handleMissing, maskW_row hy, update, hKd, gainJ]
  have hv : K *ᵥ ((fun i => if o t i then y t i else 0) - ((θ t).d + (keep (o t) * (θ t).Z) *ᵥ a)) =
      K *ᵥ ((θ t).Z *ᵥ (x - a) + e) := by
    have hk : keep (o t) *ᵥ ((fun i => if o t i then y t i else 0) - ((θ t).d + (keep (o t) * (θ t).Z) *ᵥ a)) =
        keep (o t) *ᵥ ((θ t).Z *ᵥ (x - a) + e) := by
      funext i
      simp only [keep, mulVec_diagonal, Pi.sub_apply, Pi.add_apply, ← mulVec_mulVec]
      by_cases hi : o t i
      · simp [hi, hobs, mulVec_sub]; ring
      · simp [hi]
    have hm : ∀ v, K *ᵥ v = K *ᵥ (keep (o t) *ᵥ v) := fun v => by rw [mulVec_mulVec, hK]
    rw [hm, hk, ← hm]
  rw [ha, hv, Matrix.sub_mulVec, Matrix.one_mulVec, mulVec_add, ← mulVec_mulVec]
  abel

theorem err_link {fill : ℝ} (hcov : ∀ t, Spec.Covers (θ t) (θ' t)) (hok : Ok o θ) {ω : Ω} (hω : ∀ t i, o t i → Y t i ω ≠ fill) (t : ℕ) :
    (∀ i, X t i ω - (carried j fill a0 P0 (row o fun t i => Y t i ω) θ t).1 i = (errP h j o θ P0 t i).1 ω) ∧
    ∀ i, X t i ω - (kalmanStep j fill (row o (fun t i => Y t i ω) t) (carried j fill a0 P0 (row o fun t i => Y t i ω) θ t).1
      (carried j fill a0 P0 (row o fun t i => Y t i ω) θ t).2 (θ t)).aFilt i = (errF h j o θ P0 t i).1 ω := by
  have filt : ∀ t, (∀ i, X t i ω - (carried j fill a0 P0 (row o fun t i => Y t i ω) θ t).1 i = (errP h j o θ P0 t i).1 ω) →
      ∀ i, X t i ω - (kalmanStep j fill (row o (fun t i => Y t i ω) t) (carried j fill a0 P0 (row o fun t i => Y t i ω) θ t).1
        (carried j fill a0 P0 (row o fun t i => Y t i ω) θ t).2 (θ t)).aFilt i = (errF h j o θ P0 t i).1 ω := by
    intro t ht i
    have := step_mean (j := j) (θ := θ) hω t (carried j fill a0 P0 (row o fun t i => Y t i ω) θ t).1 (fun i => X t i ω)
      (carried j fill a0 P0 (row o fun t i => Y t i ω) θ t).2 (fun i => ε t i ω) (PosSemidef.transpose_eq (hok.H t)) (hok.dec t)
      (fun i => by
        rw [h.observation t i ω, (hcov t).Z, (hcov t).d]
        simp [mulVec, dotProduct])
    have hi := congrFun this i
    rw [Pi.sub_apply] at hi
    rw [hi, (carried_cov (a0 := a0) hω t).1, errF]
    simp only [Pi.sub_apply, Submodule.coe_sub, act_eval]
    congr 2
    congr 1
    funext k
    exact ht k
  induction t with
  | zero =>
    have h0 : ∀ i, X 0 i ω - (carried j fill a0 P0 (row o fun t i => Y t i ω) θ 0).1 i = (errP h j o θ P0 0 i).1 ω := by
      intro i; simp [carried, errP, liftX, const, Orthogonal.one]
    exact ⟨h0, filt 0 h0⟩
  | succ t ih =>
    have h1 : ∀ i, X (t + 1) i ω - (carried j fill a0 P0 (row o fun t i => Y t i ω) θ (t + 1)).1 i = (errP h j o θ P0 (t + 1) i).1 ω := by
      intro i
      rw [h.transition t i ω, errP_succ]
      simp only [Pi.add_apply, Submodule.coe_add, act_eval]
      rw [← (hcov t).T, ← (hcov t).c, ← (hcov t).R]
      have he : (fun k => (errF h j o θ P0 t k).1 ω) = (fun i => X t i ω) -
          (kalmanStep j fill (row o (fun t i => Y t i ω) t) (carried j fill a0 P0 (row o fun t i => Y t i ω) θ t).1
            (carried j fill a0 P0 (row o fun t i => Y t i ω) θ t).2 (θ t)).aFilt := by
        funext k; exact (ih.2 k).symm
      have hc : (carried j fill a0 P0 (row o fun t i => Y t i ω) θ (t + 1)).1 = (θ t).T *ᵥ
          (kalmanStep j fill (row o (fun t i => Y t i ω) t) (carried j fill a0 P0 (row o fun t i => Y t i ω) θ t).1
            (carried j fill a0 P0 (row o fun t i => Y t i ω) θ t).2 (θ t)).aFilt + (θ t).c := rfl
      rw [he, mulVec_sub, hc]
      generalize (kalmanStep j fill (row o (fun t i => Y t i ω) t) (carried j fill a0 P0 (row o fun t i => Y t i ω) θ t).1
            (carried j fill a0 P0 (row o fun t i => Y t i ω) θ t).2 (θ t)).aFilt = u
      simp only [Pi.sub_apply, Pi.add_apply]
      simp only [mulVec, dotProduct, liftη]
      ring
    exact ⟨h1, filt _ h1⟩

end Cons

end Verif.Kalman
