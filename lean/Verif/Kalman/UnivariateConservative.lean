import Verif.Kalman.UnivariateOrder
import Verif.Kalman.ConservativeProps

/-!
# C215: the univariate filter is never overconfident
-/

set_option autoImplicit false
set_option linter.unusedSectionVars false

open Matrix MeasureTheory ProbabilityTheory

namespace Verif.Kalman

open Orthogonal Cons

variable {Ω : Type*} [MeasurableSpace Ω] {μ : Measure Ω} [IsProbabilityMeasure μ]
variable {n r : Type*} [Fintype n] [Fintype r] [DecidableEq n] [DecidableEq r] {k : ℕ}
variable {θ : Params n (Fin k) r} {θ' : ℕ → Params n (Fin k) r} {a0 : n → ℝ} {P0 P0' : Matrix n n ℝ} {X : ℕ → n → Ω → ℝ}
  {Y : ℕ → Fin k → Ω → ℝ} {η : ℕ → r → Ω → ℝ} {ε : ℕ → Fin k → Ω → ℝ}

/-! ### Specification -/

/-- The parameters `θ` describe the same dynamics as `θ'`, with shock covariances at least as large, and the measurement variances
with the jitter added are, as a diagonal matrix, at least as large as the true covariance matrix of the measurement errors. -/
structure Spec.CoversDiagonally (j : ℝ) (θ θ' : Params n (Fin k) r) : Prop where
  c : θ.c = θ'.c
  d : θ.d = θ'.d
  T : θ.T = θ'.T
  Z : θ.Z = θ'.Z
  R : θ.R = θ'.R
  H : (Spec.withJitter j θ.H - θ'.H).PosSemidef
  Q : (θ.Q - θ'.Q).PosSemidef

/-- A diagonal measurement covariance at least as large as the true one is enough, whatever the jitter. -/
theorem Spec.Covers.diagonally {j : ℝ} (hj : 0 ≤ j) {θ θ' : Params n (Fin k) r} (h : Spec.Covers θ θ') {s : Fin k → ℝ}
    (hs : θ.H = Matrix.diagonal s) : Spec.CoversDiagonally j θ θ' := by
  refine ⟨h.c, h.d, h.T, h.Z, h.R, ?_, h.Q⟩
  have : Spec.withJitter j θ.H - θ'.H = (θ.H - θ'.H) + j • (1 : Matrix (Fin k) (Fin k) ℝ) := by
    rw [Spec.withJitter, hs]
    ext i l
    by_cases hil : i = l
    · subst hil; simp; ring
    · simp [hil]
  rw [this]
  exact h.H.add (PosSemidef.one.smul hj)

theorem Spec.CoversDiagonally.dynamics {j : ℝ} {θ θ' : Params n (Fin k) r} (h : Spec.CoversDiagonally j θ θ') :
    θ.c = θ'.c ∧ θ.d = θ'.d ∧ θ.T = θ'.T ∧ θ.Z = θ'.Z ∧ θ.R = θ'.R := ⟨h.c, h.d, h.T, h.Z, h.R⟩

/-! ### Errors under arbitrary gains -/

namespace ConsU

/-- The error of the predicted state under the gains `G`. Proof notion, no code behind it. -/
noncomputable def errP (h : Spec.Process μ θ' a0 P0' X Y η ε) (G : ℕ → Matrix n (Fin k) ℝ) (θ : Params n (Fin k) r) : ℕ → n → L2 μ
  | 0 => liftX h 0 - const (one μ) a0
  | t + 1 => act θ.T (act (1 - G t * θ.Z) (errP h G θ t) - act (G t) (liftε h t)) + act θ.R (liftη h t)

/-- The error of the filtered state under the gains `G`. Proof notion, no code behind it. -/
noncomputable def errF (h : Spec.Process μ θ' a0 P0' X Y η ε) (G : ℕ → Matrix n (Fin k) ℝ) (θ : Params n (Fin k) r) (t : ℕ) : n → L2 μ :=
  act (1 - G t * θ.Z) (errP h G θ t) - act (G t) (liftε h t)

variable (h : Spec.Process μ θ' a0 P0' X Y η ε) (G : ℕ → Matrix n (Fin k) ℝ)

theorem errP_succ (t : ℕ) : errP h G θ (t + 1) = act θ.T (errF h G θ t) + act θ.R (liftη h t) := rfl

theorem errP_later (t : ℕ) : (∀ s, t ≤ s → covM (covB μ) (errP h G θ t) (liftε h s) = 0) ∧
    ∀ s, t ≤ s → covM (covB μ) (errP h G θ t) (liftη h s) = 0 := by
  have hp := toProc h
  induction t with
  | zero =>
    refine ⟨fun s _ => ?_, fun s _ => ?_⟩
    · rw [errP, covM_sub_left, hp.xε0, covM_const_left _ hp.one0, sub_zero]
    · rw [errP, covM_sub_left, hp.xη0, covM_const_left _ hp.one0, sub_zero]
  | succ t ih =>
    refine ⟨fun s hs => ?_, fun s hs => ?_⟩
    · rw [errP_succ, errF]
      simp [covM_add_left, covM_sub_left, covM_act_left, ih.1 s (by omega), hp.εε0 t s (by omega), hp.ηε0]
    · rw [errP_succ, errF]
      simp [covM_add_left, covM_sub_left, covM_act_left, ih.2 s (by omega), hp.εη0, hp.ηη0 t s (by omega)]

theorem errF_η (t : ℕ) : covM (covB μ) (errF h G θ t) (liftη h t) = 0 := by
  have hp := toProc h
  rw [errF]
  simp [covM_sub_left, covM_act_left, (errP_later h G t).2 t le_rfl, hp.εη0]

theorem errF_cov (t : ℕ) : covM (covB μ) (errF h G θ t) (errF h G θ t) =
    (1 - G t * θ.Z) * covM (covB μ) (errP h G θ t) (errP h G θ t) * (1 - G t * θ.Z)ᵀ + G t * (θ' t).H * (G t)ᵀ := by
  have hp := toProc h
  have h1 := (errP_later h G (θ := θ) t).1 t le_rfl
  have h2 : covM (covB μ) (liftε h t) (errP h G θ t) = 0 := by
    rw [← covM_transpose _ hp.sym, h1, transpose_zero]
  rw [errF]
  simp only [covM_sub_left, covM_sub_right, covM_act_left, covM_act_right, h1, h2, hp.εε, Matrix.mul_zero, Matrix.zero_mul,
    sub_zero, zero_sub, sub_neg_eq_add, Matrix.neg_mul, Matrix.mul_assoc]

theorem errP_cov (t : ℕ) : covM (covB μ) (errP h G θ (t + 1)) (errP h G θ (t + 1)) =
    θ.T * covM (covB μ) (errF h G θ t) (errF h G θ t) * θ.Tᵀ + θ.R * (θ' t).Q * θ.Rᵀ := by
  have hp := toProc h
  have h1 := errF_η h G (θ := θ) t
  have h2 : covM (covB μ) (liftη h t) (errF h G θ t) = 0 := by
    rw [← covM_transpose _ hp.sym, h1, transpose_zero]
  rw [errP_succ]
  simp only [covM_add_left, covM_add_right, covM_act_left, covM_act_right, h1, h2, hp.ηη, Matrix.mul_zero, Matrix.zero_mul,
    add_zero, zero_add, Matrix.mul_assoc]

theorem errP_mean (t : ℕ) : ∀ i, mean μ (errP h G θ t i) = 0 := by
  induction t with
  | zero =>
    intro i
    have h1 : mean μ (const (one μ) a0 i) = a0 i := by simp [const, mean_apply, Orthogonal.one]
    rw [errP, Pi.sub_apply, map_sub, h1, mean_apply]
    show ∫ ω, X 0 i ω ∂μ - a0 i = 0
    rw [h.mean_initial, sub_self]
  | succ t ih =>
    intro i
    rw [errP_succ, errF, Pi.add_apply, map_add, Cons.mean_act, Cons.mean_act, add_zero]
    · exact fun k => h.mean_shock t k
    · intro k
      rw [Pi.sub_apply, map_sub, Cons.mean_act _ _ ih, Cons.mean_act, sub_zero]
      exact fun l => h.mean_error t l

theorem errF_mean (t : ℕ) : ∀ i, mean μ (errF h G θ t i) = 0 := by
  intro k
  rw [errF, Pi.sub_apply, map_sub, Cons.mean_act _ _ (errP_mean h G t), Cons.mean_act, sub_zero]
  exact fun l => h.mean_error t l

theorem errP_mem (t : ℕ) : ∀ i, (errP h G θ t i).1 ∈ Gauss.affine (Spec.sources X η ε) := by
  have hε : ∀ t i, (liftε h t i).1 ∈ Gauss.affine (Spec.sources X η ε) := fun t i =>
    Gauss.source_mem (Spec.sources X η ε) (.inr (.inr (t, i)))
  have hη : ∀ t i, (liftη h t i).1 ∈ Gauss.affine (Spec.sources X η ε) := fun t i =>
    Gauss.source_mem (Spec.sources X η ε) (.inr (.inl (t, i)))
  induction t with
  | zero =>
    intro i
    exact Submodule.sub_mem _ (Gauss.source_mem (Spec.sources X η ε) (.inl i)) (Submodule.smul_mem _ (a0 i) (Gauss.one_mem _))
  | succ t ih =>
    intro i
    exact Submodule.add_mem _ (act_mem _ _ (fun k => Submodule.sub_mem _ (act_mem _ _ ih k) (act_mem _ _ (hε t) k)) i)
      (act_mem _ _ (hη t) i)

theorem errF_mem (t : ℕ) (i : n) : (errF h G θ t i).1 ∈ Gauss.affine (Spec.sources X η ε) :=
  Submodule.sub_mem _ (act_mem _ _ (errP_mem h G t) i)
    (act_mem _ _ (fun l => Gauss.source_mem (Spec.sources X η ε) (.inr (.inr (t, l)))) i)

open Classical in
/-- The measurement variances with jitter, those of the missing series zeroed first. Proof notion for kalman_filter.py:769-805. -/
noncomputable def mS (j : ℝ) (s : Fin k → Prop) (θ : Params n (Fin k) r) : Fin k → ℝ := fun i => (if s i then θ.H i i else 0) + j

/-- The parameters without the correlations of the errors. Proof notion, no code behind it. -/
def dg (θ : Params n (Fin k) r) : Params n (Fin k) r := { θ with H := Matrix.diagonal fun i => θ.H i i }

/-- The gain of one row. Proof notion for kalman_filter.py:769-805. -/
noncomputable def gainU (j : ℝ) (s : Fin k → Prop) (P : Matrix n n ℝ) (θ : Params n (Fin k) r) : Matrix n (Fin k) ℝ := gainJ j s P (dg θ)

/-- The filtered covariance without the final jitter. Proof notion for kalman_filter.py:769-805. -/
noncomputable def filtU (j : ℝ) (s : Fin k → Prop) (P : Matrix n n ℝ) (θ : Params n (Fin k) r) : Matrix n n ℝ :=
  Spec.condCov P (keep s * θ.Z) (Matrix.diagonal (mS j s θ))

/-- The predicted covariance of date `t`. Proof notion for kalman_filter.py:791-820. -/
noncomputable def covU (j : ℝ) (o : ℕ → Fin k → Prop) (θ : Params n (Fin k) r) (P0 : Matrix n n ℝ) : ℕ → Matrix n n ℝ
  | 0 => P0
  | t + 1 => quadFormSym θ.T (filtU j (o t) (covU j o θ P0 t) θ + j • (1 : Matrix n n ℝ)) + quadFormSym θ.R θ.Q

theorem keep_diag (j : ℝ) (s : Fin k → Prop) (θ : Params n (Fin k) r) :
    keep s * Matrix.diagonal (mS j s θ) = keep s * Spec.withJitter j θ.H := by
  classical
  rw [keep, Spec.withJitter, diagonal_mul_diagonal, diagonal_mul_diagonal]
  congr 1; funext i
  by_cases hi : s i <;> simp [mS, hi]

theorem innov_eq (j : ℝ) (s : Fin k → Prop) (P : Matrix n n ℝ) (θ : Params n (Fin k) r) :
    innovCov j P (keep s * (dg θ).Z) (keep s * (dg θ).H) = Spec.obsCov P (keep s * θ.Z) (Matrix.diagonal (mS j s θ)) := by
  classical
  have : keep s * (dg θ).H + j • (1 : Matrix (Fin k) (Fin k) ℝ) = Matrix.diagonal (mS j s θ) := by
    rw [keep, dg, diagonal_mul_diagonal]
    ext i l
    by_cases hil : i = l
    · subst hil; by_cases hi : s i <;> simp [mS, hi]
    · simp [hil]
  have hz : (dg θ).Z = θ.Z := rfl
  rw [innovCov, stabilize, Spec.obsCov, ← this, hz]
  simp only [Matrix.mul_assoc, add_assoc]

theorem gainU_keep (j : ℝ) (s : Fin k → Prop) (P : Matrix n n ℝ) (θ : Params n (Fin k) r) : gainU j s P θ * keep s = gainU j s P θ :=
  gainJ_keep j P (by simp [dg]) fun i l hi hl => by
    have : i ≠ l := by rintro rfl; exact hi hl
    simp [dg, this]

theorem gainU_eq (j : ℝ) (s : Fin k → Prop) (P : Matrix n n ℝ) (θ : Params n (Fin k) r) :
    gainU j s P θ = P * (keep s * θ.Z)ᵀ * (Spec.obsCov P (keep s * θ.Z) (Matrix.diagonal (mS j s θ)))⁻¹ := by
  rw [gainU, gainJ, innov_eq, gain_eq]; rfl

theorem filtU_eq (j : ℝ) (s : Fin k → Prop) {P : Matrix n n ℝ} (hP : Pᵀ = P) (θ : Params n (Fin k) r)
    (hu : IsUnit (Spec.obsCov P (keep s * θ.Z) (Matrix.diagonal (mS j s θ))).det) :
    filtU j s P θ = (1 - gainU j s P θ * θ.Z) * P * (1 - gainU j s P θ * θ.Z)ᵀ +
      gainU j s P θ * Spec.withJitter j θ.H * (gainU j s P θ)ᵀ := by
  have hK := gainU_keep j s P θ
  have hS : (Matrix.diagonal (mS j s θ))ᵀ = Matrix.diagonal (mS j s θ) := diagonal_transpose _
  have hj := joseph_eq hP (keep s * θ.Z) hS hu
  rw [quadFormSym_of_symm _ hP, quadFormSym_of_symm _ hS, gain_eq] at hj
  have hg := gainU_eq j s P θ
  rw [Spec.obsCov] at hg
  rw [← hg] at hj
  rw [filtU, Spec.condCov, Spec.obsCov, ← hg, ← hj]
  congr 1
  · rw [← Matrix.mul_assoc, hK]
  · congr 1
    rw [← hK, Matrix.mul_assoc, keep_diag, ← Matrix.mul_assoc]

variable (o : ℕ → Fin k → Prop)

/-- The row of date `t` at `ω`. Proof notion, no code behind it. -/
noncomputable abbrev rowU (Y : ℕ → Fin k → Ω → ℝ) (ω : Ω) (t : ℕ) : Row (Fin k) := Cons.row o (fun t i => Y t i ω) t

theorem masked_row (j : ℝ) (ω : Ω) (t : ℕ) : maskedZ (rowU o Y ω t) θ = keep (o t) * θ.Z ∧ maskedS j (rowU o Y ω t) θ = mS j (o t) θ := by
  classical
  refine ⟨?_, ?_⟩
  · ext i l
    by_cases hi : o t i <;> simp [maskedZ, rowU, Cons.row, keep, hi]
  · funext i
    by_cases hi : o t i <;> simp [maskedS, rowU, Cons.row, mS, hi]

/-- The predicted mean of date `t`. Proof notion for kalman_filter.py:791-820. -/
noncomputable def meanU (j : ℝ) (θ : Params n (Fin k) r) (a0 : n → ℝ) (P0 : Matrix n n ℝ) (Y : ℕ → Fin k → Ω → ℝ) (ω : Ω) : ℕ → n → ℝ
  | 0 => a0
  | t + 1 => θ.T *ᵥ Spec.condMean (meanU j θ a0 P0 Y ω t) (covU j o θ P0 t) (fun i => (rowU o Y ω t i).getD 0) θ.d (keep (o t) * θ.Z)
      (Matrix.diagonal (mS j (o t) θ)) + θ.c

/-- The filtered mean of date `t`. Proof notion for kalman_filter.py:791-820. -/
noncomputable def filtMeanU (j : ℝ) (θ : Params n (Fin k) r) (a0 : n → ℝ) (P0 : Matrix n n ℝ) (Y : ℕ → Fin k → Ω → ℝ) (ω : Ω) (t : ℕ) : n → ℝ :=
  Spec.condMean (meanU o j θ a0 P0 Y ω t) (covU j o θ P0 t) (fun i => (rowU o Y ω t i).getD 0) θ.d (keep (o t) * θ.Z)
    (Matrix.diagonal (mS j (o t) θ))

/-- The run, in closed form. -/
theorem run_closed {j : ℝ} (hj : 0 ≤ j) (hk : 0 < k) (hH : ∀ i, 0 ≤ θ.H i i) (hpos : ∀ t i, 0 < mS j (o t) θ i) (hQ : θ.Q.PosSemidef)
    (hP : P0.PosSemidef) :
    (∀ t, (covU j o θ P0 t).PosSemidef ∧ (filtU j (o t) (covU j o θ P0 t) θ).PosSemidef ∧
      IsUnit (Spec.obsCov (covU j o θ P0 t) (keep (o t) * θ.Z) (Matrix.diagonal (mS j (o t) θ))).det) ∧
    ∀ ω N, ∃ out, univGraph j a0 P0 θ ((List.range N).map (rowU o Y ω)) = some out ∧ ∀ t, t < N →
      out.predictedStates[t]? = some (meanU o j θ a0 P0 Y ω t) ∧ out.predictedCovs[t]? = some (covU j o θ P0 t) ∧
      out.filteredStates[t]? = some (filtMeanU o j θ a0 P0 Y ω t) ∧
      out.filteredCovs[t]? = some (filtU j (o t) (covU j o θ P0 t) θ + j • (1 : Matrix n n ℝ)) := by
  have step : ∀ (t : ℕ) (ω : Ω) (a : n → ℝ) (P : Matrix n n ℝ), P.PosSemidef → _ := fun t ω a P hP =>
    univStep_masked (j := j) hk (rowU o Y ω t) θ hH (by rw [(masked_row o j ω t).2]; exact hpos t) a hP
  have det : ∀ (t : ℕ) (P : Matrix n n ℝ), P.PosSemidef →
      IsUnit (Spec.obsCov P (keep (o t) * θ.Z) (Matrix.diagonal (mS j (o t) θ))).det := by
    intro t P hP
    refine (PosDef.det_pos ?_).ne'.isUnit
    have h1 := hP.mul_mul_conjTranspose_same (keep (o t) * θ.Z)
    rw [conjTranspose_eq_transpose_of_trivial] at h1
    exact PosDef.posSemidef_add h1 (PosDef.diagonal fun i => hpos t i)
  have hcov : ∀ t, (covU j o θ P0 t).PosSemidef := by
    intro t
    induction t with
    | zero => exact hP
    | succ t ih =>
      exact (quadFormSym_posSemidef _ ((condCov_posSemidef ih _ (PosSemidef.diagonal fun i => (hpos t i).le) (det t _ ih)).add
        (PosSemidef.one.smul hj))).add (quadFormSym_posSemidef _ hQ)
  refine ⟨fun t => ⟨hcov t, condCov_posSemidef (hcov t) _ (PosSemidef.diagonal fun i => (hpos t i).le) (det t _ (hcov t)),
    det t _ (hcov t)⟩, fun ω N => ?_⟩
  choose u hu using fun t => step t ω (meanU o j θ a0 P0 Y ω t) (covU j o θ P0 t) (hcov t)
  have hu' : ∀ t, (u t).aFilt = filtMeanU o j θ a0 P0 Y ω t ∧
      (u t).PFilt = filtU j (o t) (covU j o θ P0 t) θ + j • (1 : Matrix n n ℝ) := by
    intro t
    obtain ⟨-, h1, h2, -⟩ := hu t
    rw [(masked_row o j ω t).1, (masked_row o j ω t).2] at h1 h2
    exact ⟨h1, h2⟩
  obtain ⟨out, ho, h⟩ := univGraph_of_steps (θ := θ) j (rowU o Y ω) (meanU o j θ a0 P0 Y ω) (covU j o θ P0) u
    (fun t => ⟨(hu t).1, by rw [(hu t).2.2.2.1, (hu' t).1]; rfl, by rw [(hu t).2.2.2.2.1, (hu' t).2]; rfl⟩) N
  refine ⟨out, ho, fun t ht => ?_⟩
  obtain ⟨h1, h2, h3, h4⟩ := h t ht
  exact ⟨h1, h2, by rw [h3, (hu' t).1], by rw [h4, (hu' t).2]⟩

/-! ### The errors never exceed what is reported -/

theorem bound_filter {j : ℝ} (h : Spec.Process μ θ' a0 P0' X Y η ε) (hcov : ∀ t, Spec.CoversDiagonally j θ (θ' t)) {t : ℕ}
    (hP : (covU j o θ P0 t).PosSemidef)
    (hu : IsUnit (Spec.obsCov (covU j o θ P0 t) (keep (o t) * θ.Z) (Matrix.diagonal (mS j (o t) θ))).det)
    {e : n → L2 μ} {f : n → L2 μ} (hb : (covU j o θ P0 t - covM (covB μ) e e).PosSemidef)
    (hf : covM (covB μ) f f = (1 - gainU j (o t) (covU j o θ P0 t) θ * θ.Z) * covM (covB μ) e e *
      (1 - gainU j (o t) (covU j o θ P0 t) θ * θ.Z)ᵀ + gainU j (o t) (covU j o θ P0 t) θ * (θ' t).H *
      (gainU j (o t) (covU j o θ P0 t) θ)ᵀ) :
    (filtU j (o t) (covU j o θ P0 t) θ - covM (covB μ) f f).PosSemidef := by
  rw [filtU_eq j (o t) (PosSemidef.transpose_eq hP) θ hu, hf, add_sub_add_comm]
  exact (Cons.conj _ hb).add (Cons.conj _ (hcov t).H)

/-- The gains of the run. Proof notion for kalman_filter.py:769-805. -/
noncomputable def gains (j : ℝ) (θ : Params n (Fin k) r) (P0 : Matrix n n ℝ) (t : ℕ) : Matrix n (Fin k) ℝ :=
  gainU j (o t) (covU j o θ P0 t) θ

theorem bound {j : ℝ} (h : Spec.Process μ θ' a0 P0' X Y η ε) (hj : 0 ≤ j) (hcov : ∀ t, Spec.CoversDiagonally j θ (θ' t))
    (hk : 0 < k) (hH : ∀ i, 0 ≤ θ.H i i) (hpos : ∀ t i, 0 < mS j (o t) θ i) (hQ : θ.Q.PosSemidef) (hP : P0.PosSemidef)
    (hPP : (P0 - P0').PosSemidef) (t : ℕ) :
    (covU j o θ P0 t - covM (covB μ) (errP h (gains o j θ P0) θ t) (errP h (gains o j θ P0) θ t)).PosSemidef ∧
    (filtU j (o t) (covU j o θ P0 t) θ -
      covM (covB μ) (errF h (gains o j θ P0) θ t) (errF h (gains o j θ P0) θ t)).PosSemidef := by
  have hp := toProc h
  have hrun := (run_closed (θ := θ) (a0 := a0) (Y := Y) o hj hk hH hpos hQ hP).1
  have filt := fun t hb => bound_filter o h hcov (t := t) (hrun t).1 (hrun t).2.2 hb (errF_cov h (gains o j θ P0) (θ := θ) t)
  induction t with
  | zero =>
    have h0 : covM (covB μ) (errP h (gains o j θ P0) θ 0) (errP h (gains o j θ P0) θ 0) = P0' := by
      rw [errP]
      simp only [covM_sub_left, covM_sub_right, covM_const_left _ hp.one0, covM_const_right _ hp.one0', sub_zero, hp.x0]
    have h1 : (covU j o θ P0 0 - covM (covB μ) (errP h (gains o j θ P0) θ 0) (errP h (gains o j θ P0) θ 0)).PosSemidef := by
      rw [h0]; exact hPP
    exact ⟨h1, filt 0 h1⟩
  | succ t ih =>
    have hf' : (filtU j (o t) (covU j o θ P0 t) θ + j • (1 : Matrix n n ℝ) -
        covM (covB μ) (errF h (gains o j θ P0) θ t) (errF h (gains o j θ P0) θ t)).PosSemidef := by
      have := stabilize_posSemidef hj ih.2
      rw [stabilize] at this
      convert this using 1
      abel
    have hfs : (filtU j (o t) (covU j o θ P0 t) θ + j • (1 : Matrix n n ℝ))ᵀ = filtU j (o t) (covU j o θ P0 t) θ + j • (1 : Matrix n n ℝ) :=
      PosSemidef.transpose_eq ((hrun t).2.1.add (PosSemidef.one.smul hj))
    have h1 : (covU j o θ P0 (t + 1) -
        covM (covB μ) (errP h (gains o j θ P0) θ (t + 1)) (errP h (gains o j θ P0) θ (t + 1))).PosSemidef := by
      rw [errP_cov, covU, quadFormSym_of_symm _ hfs, quadFormSym_of_symm _ (PosSemidef.transpose_eq hQ)]
      have h2 := (Cons.conj θ.T hf').add (Cons.conj θ.R (hcov t).Q)
      convert h2 using 1
      abel
    exact ⟨h1, filt _ h1⟩

theorem keep_row (s : Fin k → Prop) {i : Fin k} (hi : s i) (M : Matrix (Fin k) n ℝ) (a : n → ℝ) :
    ((keep s * M) *ᵥ a) i = (M *ᵥ a) i := by
  rw [← mulVec_mulVec, keep, mulVec_diagonal, if_pos hi, one_mul]

theorem step_mean (j : ℝ) (s : Fin k → Prop) (P : Matrix n n ℝ) (a x : n → ℝ) (y z e : Fin k → ℝ)
    (hy : ∀ i, s i → y i = z i) (hobs : ∀ i, z i = (θ.Z *ᵥ x) i + θ.d i + e i) :
    x - Spec.condMean a P y θ.d (keep s * θ.Z) (Matrix.diagonal (mS j s θ)) =
      (1 - gainU j s P θ * θ.Z) *ᵥ (x - a) - gainU j s P θ *ᵥ e := by
  classical
  have hK := gainU_keep j s P θ
  have ha : Spec.condMean a P y θ.d (keep s * θ.Z) (Matrix.diagonal (mS j s θ)) =
      a + gainU j s P θ *ᵥ (y - θ.d - (keep s * θ.Z) *ᵥ a) := by
    rw [Spec.condMean, gainU_eq]
  set K := gainU j s P θ with hKd
  have hv : K *ᵥ (y - θ.d - (keep s * θ.Z) *ᵥ a) = K *ᵥ (θ.Z *ᵥ (x - a) + e) := by
    have hk : keep s *ᵥ (y - θ.d - (keep s * θ.Z) *ᵥ a) = keep s *ᵥ (θ.Z *ᵥ (x - a) + e) := by
      funext i
      have hkv : ∀ v : Fin k → ℝ, (keep s *ᵥ v) i = (if s i then 1 else 0) * v i := fun v => by rw [keep, mulVec_diagonal]
      rw [hkv, hkv]
      by_cases hi : s i
      · rw [if_pos hi, one_mul, one_mul]
        simp only [Pi.sub_apply, Pi.add_apply, keep_row s hi, hy i hi, hobs, mulVec_sub]
        ring
      · simp [hi]
    have hm : ∀ v, K *ᵥ v = K *ᵥ (keep s *ᵥ v) := fun v => by rw [mulVec_mulVec, hK]
    rw [hm, hk, ← hm]
  rw [ha, hv, Matrix.sub_mulVec, Matrix.one_mulVec, mulVec_add, ← mulVec_mulVec]
  abel

theorem err_link {j : ℝ} (h : Spec.Process μ θ' a0 P0' X Y η ε)
    (hcov : ∀ t, θ.c = (θ' t).c ∧ θ.d = (θ' t).d ∧ θ.T = (θ' t).T ∧ θ.Z = (θ' t).Z ∧ θ.R = (θ' t).R) (ω : Ω) (t : ℕ) :
    (∀ i, X t i ω - meanU o j θ a0 P0 Y ω t i = (errP h (gains o j θ P0) θ t i).1 ω) ∧
    ∀ i, X t i ω - filtMeanU o j θ a0 P0 Y ω t i = (errF h (gains o j θ P0) θ t i).1 ω := by
  have filt : ∀ t, (∀ i, X t i ω - meanU o j θ a0 P0 Y ω t i = (errP h (gains o j θ P0) θ t i).1 ω) →
      ∀ i, X t i ω - filtMeanU o j θ a0 P0 Y ω t i = (errF h (gains o j θ P0) θ t i).1 ω := by
    intro t ht i
    have := step_mean (θ := θ) j (o t) (covU j o θ P0 t) (meanU o j θ a0 P0 Y ω t) (fun i => X t i ω)
      (fun i => (rowU o Y ω t i).getD 0) (fun i => Y t i ω) (fun i => ε t i ω) (fun i hi => by simp [rowU, Cons.row, hi])
      (fun i => by
        rw [h.observation t i ω, (hcov t).2.2.2.1, (hcov t).2.1]
        simp [mulVec, dotProduct])
    have hi := congrFun this i
    rw [Pi.sub_apply] at hi
    rw [filtMeanU, hi, errF]
    simp only [Pi.sub_apply, Submodule.coe_sub, act_eval]
    congr 2
    congr 1
    funext k
    exact ht k
  induction t with
  | zero =>
    have h0 : ∀ i, X 0 i ω - meanU o j θ a0 P0 Y ω 0 i = (errP h (gains o j θ P0) θ 0 i).1 ω := by
      intro i; simp [meanU, errP, liftX, const, Orthogonal.one]
    exact ⟨h0, filt 0 h0⟩
  | succ t ih =>
    have h1 : ∀ i, X (t + 1) i ω - meanU o j θ a0 P0 Y ω (t + 1) i = (errP h (gains o j θ P0) θ (t + 1) i).1 ω := by
      intro i
      rw [h.transition t i ω, errP_succ]
      simp only [Pi.add_apply, Submodule.coe_add, act_eval]
      rw [← (hcov t).2.2.1, ← (hcov t).1, ← (hcov t).2.2.2.2]
      have he : (fun k => (errF h (gains o j θ P0) θ t k).1 ω) = (fun i => X t i ω) - filtMeanU o j θ a0 P0 Y ω t := by
        funext k; exact (ih.2 k).symm
      have hc : meanU o j θ a0 P0 Y ω (t + 1) = θ.T *ᵥ filtMeanU o j θ a0 P0 Y ω t + θ.c := rfl
      rw [he, mulVec_sub, hc]
      generalize filtMeanU o j θ a0 P0 Y ω t = u
      simp only [Pi.sub_apply, Pi.add_apply]
      simp only [mulVec, dotProduct, liftη]
      ring
    exact ⟨h1, filt _ h1⟩

theorem mS_pos {j : ℝ} (hj : 0 ≤ j) (hH : ∀ i, 0 ≤ θ.H i i) (h : 0 < j ∨ (∀ i, 0 < θ.H i i) ∧ ∀ t i, o t i) (t : ℕ) (i : Fin k) :
    0 < mS j (o t) θ i := by
  rw [mS]
  rcases h with h | ⟨h1, h2⟩
  · split_ifs
    · linarith [hH i]
    · linarith
  · rw [if_pos (h2 t i)]; linarith [h1 i]

theorem recorded_eq (N : ℕ) (ω : Ω) : Spec.recorded o Y N ω = (List.range N).map (rowU o Y ω) := rfl

end ConsU

open ConsU

/-- **C215 (predicted and filtered states).** Let the data come from a state-space process, whose measurement errors may be
correlated, and let the univariate filter be given the right dynamics but any initial and shock covariances at least as large as
the true ones, and measurement variances which with the jitter form a diagonal matrix at least as large as the true covariance of
the errors. Let any fixed entries be missing; the jitter is positive, or nothing is missing and every variance is positive. Then
the run never fails, the reported covariances do not depend on the data, the errors of the predicted and filtered states have
mean zero, and the reported covariances are never too small: those of the filtered states even by the jitter. -/
theorem C215_never_overconfident {j : ℝ} (h : Spec.Process μ θ' a0 P0' X Y η ε) (hj : 0 ≤ j) (hk : 0 < k)
    (hcov : ∀ t, Spec.CoversDiagonally j θ (θ' t)) (hH : ∀ i, 0 ≤ θ.H i i) (hQ : θ.Q.PosSemidef) (hP : P0.PosSemidef)
    (hPP : (P0 - P0').PosSemidef) (o : ℕ → Fin k → Prop) (hpos : 0 < j ∨ (∀ i, 0 < θ.H i i) ∧ ∀ t i, o t i) (N : ℕ) :
    ∃ out : Ω → UnivGraph n, (∀ ω, univGraph j a0 P0 θ (Spec.recorded o Y N ω) = some (out ω)) ∧ ∀ t, t < N →
      ∃ V W : Matrix n n ℝ, (∀ ω, (out ω).predictedCovs[t]? = some V ∧ (out ω).filteredCovs[t]? = some (W + j • 1)) ∧
        Spec.Conservative μ (fun i ω => X t i ω - (out ω).predictedStates.getD t 0 i) V ∧
        Spec.Conservative μ (fun i ω => X t i ω - (out ω).filteredStates.getD t 0 i) W := by
  have hp := mS_pos (θ := θ) o hj hH hpos
  obtain ⟨-, hrun⟩ := run_closed (θ := θ) (a0 := a0) (Y := Y) o hj hk hH hp hQ hP
  choose out ho using fun ω => hrun ω N
  refine ⟨out, fun ω => (ho ω).1, fun t ht => ⟨covU j o θ P0 t, filtU j (o t) (covU j o θ P0 t) θ, fun ω => ?_, ?_, ?_⟩⟩
  · obtain ⟨-, h2, -, h4⟩ := (ho ω).2 t ht
    exact ⟨h2, h4⟩
  · refine Cons.conservative_of (errP h (gains o j θ P0) θ t) (Filter.Eventually.of_forall fun ω i => ?_) (errP_mean h _ t)
      (ConsU.bound o h hj hcov hk hH hp hQ hP hPP t).1
    rw [← (ConsU.err_link o h (fun t => (hcov t).dynamics) ω t).1 i, List.getD_eq_getElem?_getD, ((ho ω).2 t ht).1]
    rfl
  · refine Cons.conservative_of (errF h (gains o j θ P0) θ t) (Filter.Eventually.of_forall fun ω i => ?_) (errF_mean h _ t)
      (ConsU.bound o h hj hcov hk hH hp hQ hP hPP t).2
    rw [← (ConsU.err_link o h (fun t => (hcov t).dynamics) ω t).2 i, List.getD_eq_getElem?_getD, ((ho ω).2 t ht).2.2.1]
    rfl

/-- **C215 (intervals).** If the process is moreover normal, symmetric intervals around the predicted and the filtered states, for
any combination of states, with half-width `z` reported standard deviations, contain the truth at least as often as a standard
normal variable falls between `-z` and `z`. -/
theorem C215_intervals {j : ℝ} (h : Spec.NormalProcess μ θ' a0 P0' X Y η ε) (hj : 0 ≤ j) (hk : 0 < k)
    (hcov : ∀ t, Spec.CoversDiagonally j θ (θ' t)) (hH : ∀ i, 0 ≤ θ.H i i) (hQ : θ.Q.PosSemidef) (hP : P0.PosSemidef)
    (hPP : (P0 - P0').PosSemidef) (o : ℕ → Fin k → Prop) (hpos : 0 < j ∨ (∀ i, 0 < θ.H i i) ∧ ∀ t i, o t i) (N : ℕ) :
    ∃ out : Ω → UnivGraph n, (∀ ω, univGraph j a0 P0 θ (Spec.recorded o Y N ω) = some (out ω)) ∧ ∀ t, t < N →
      ∀ (w : n → ℝ) (z : ℝ), 0 ≤ z →
        gaussianReal 0 1 (Set.Icc (-z) z) ≤ μ {ω | |∑ i, w i * (X t i ω - (out ω).predictedStates.getD t 0 i)| ≤
          z * √(∑ i, ∑ l, w i * (out ω).predictedCovs.getD t 0 i l * w l)} ∧
        gaussianReal 0 1 (Set.Icc (-z) z) ≤ μ {ω | |∑ i, w i * (X t i ω - (out ω).filteredStates.getD t 0 i)| ≤
          z * √(∑ i, ∑ l, w i * (out ω).filteredCovs.getD t 0 i l * w l)} := by
  have hp := mS_pos (θ := θ) o hj hH hpos
  obtain ⟨-, hrun⟩ := run_closed (θ := θ) (a0 := a0) (Y := Y) o hj hk hH hp hQ hP
  choose out ho using fun ω => hrun ω N
  obtain ⟨out', ho', hc⟩ := C215_never_overconfident h.toProcess hj hk hcov hH hQ hP hPP o hpos N
  have heq : out' = out := by
    funext ω
    have h1 := ho' ω
    rw [recorded_eq, (ho ω).1] at h1
    exact (Option.some.inj h1).symm
  subst heq
  refine ⟨out', ho', fun t ht w z hz => ?_⟩
  obtain ⟨V, W, hVW, hV, hW⟩ := hc t ht
  refine ⟨(Cons.inside h (errP h.toProcess (gains o j θ P0) θ t) (errP_mem _ _ t)
      (Filter.Eventually.of_forall fun ω i => ?_) hV w hz).trans (measure_mono fun ω hω => ?_),
    (Cons.inside h (errF h.toProcess (gains o j θ P0) θ t) (errF_mem _ _ t)
      (Filter.Eventually.of_forall fun ω i => ?_) hW w hz).trans (measure_mono fun ω hω => ?_)⟩
  · rw [← (ConsU.err_link o h.toProcess (fun t => (hcov t).dynamics) ω t).1 i, List.getD_eq_getElem?_getD, ((ho ω).2 t ht).1]
    rfl
  · rw [Set.mem_setOf_eq, List.getD_eq_getElem?_getD (l := (out' ω).predictedCovs), (hVW ω).1]
    exact hω
  · rw [← (ConsU.err_link o h.toProcess (fun t => (hcov t).dynamics) ω t).2 i, List.getD_eq_getElem?_getD, ((ho ω).2 t ht).2.2.1]
    rfl
  · rw [Set.mem_setOf_eq, List.getD_eq_getElem?_getD (l := (out' ω).filteredCovs), (hVW ω).2]
    refine le_trans hω (mul_le_mul_of_nonneg_left (Real.sqrt_le_sqrt ?_) hz)
    have : ∀ i, ∑ l, w i * (W + j • (1 : Matrix n n ℝ)) i l * w l = ∑ l, w i * W i l * w l + j * w i ^ 2 := by
      intro i
      have h1 : ∀ l, w i * (W + j • (1 : Matrix n n ℝ)) i l * w l = w i * W i l * w l + if i = l then j * w i ^ 2 else 0 := by
        intro l
        by_cases hil : i = l
        · subst hil; simp; ring
        · simp [hil]
      simp only [h1, Finset.sum_add_distrib, Finset.sum_ite_eq, Finset.mem_univ, if_true]
    simp only [Option.getD_some, this, Finset.sum_add_distrib]
    have := Finset.sum_nonneg fun i (_ : i ∈ Finset.univ) => mul_nonneg hj (sq_nonneg (w i))
    linarith

/-- C215 applies to one state seen through two series with correlated errors, the second recorded every other date, when the user
doubles the variances and leaves the correlation out. -/
example (N t : ℕ) (ht : t < N) : ∃ (Ω : Type) (_ : MeasurableSpace Ω) (μ : Measure Ω) (X : ℕ → Fin 1 → Ω → ℝ)
    (Y : ℕ → Fin 2 → Ω → ℝ) (out : Ω → UnivGraph (Fin 1)) (V : Matrix (Fin 1) (Fin 1) ℝ),
      (∀ ω, univGraph (1 / 100) 0 1 { twoSeries with H := (2 : ℝ) • 1 }
        (Spec.recorded (fun t i => i = 0 ∨ t % 2 = 0) Y N ω) = some (out ω)) ∧
      Spec.Conservative μ (fun i ω => X t i ω - (out ω).filteredStates.getD t 0 i) V := by
  have hHp : (!![1, 1 / 2; 1 / 2, 1] : Matrix (Fin 2) (Fin 2) ℝ).PosSemidef := by
    refine PosSemidef.of_dotProduct_mulVec_nonneg (by ext i l; fin_cases i <;> fin_cases l <;> rfl) fun x => ?_
    simp [dotProduct, mulVec, Fin.sum_univ_two]
    nlinarith [sq_nonneg (x 0 + x 1), sq_nonneg (x 0 - x 1)]
  have hHd : (Spec.withJitter (1 / 100) ((2 : ℝ) • (1 : Matrix (Fin 2) (Fin 2) ℝ)) - !![1, 1 / 2; 1 / 2, 1]).PosSemidef := by
    refine PosSemidef.of_dotProduct_mulVec_nonneg
      (by ext i l; fin_cases i <;> fin_cases l <;> simp [Spec.withJitter, Matrix.one_apply]) fun x => ?_
    simp [Spec.withJitter, dotProduct, mulVec, Fin.sum_univ_two]
    nlinarith [sq_nonneg (x 0 + x 1), sq_nonneg (x 0 - x 1), sq_nonneg (x 0), sq_nonneg (x 1)]
  obtain ⟨Ω, mΩ, μ, hμ, X, Y, η, ε, fill, h, hfill⟩ := exists_process (fun _ => { twoSeries with H := !![1, 1 / 2; 1 / 2, 1] }) 0
    (P0 := 1) Matrix.PosSemidef.one (fun _ => Matrix.PosSemidef.one) (fun _ => hHp)
  obtain ⟨out, ho, hc⟩ := C215_never_overconfident h (θ := { twoSeries with H := (2 : ℝ) • 1 }) (j := 1 / 100) (by norm_num)
    (by norm_num) (fun _ => ⟨rfl, rfl, rfl, rfl, rfl, hHd, by simpa [twoSeries] using Matrix.PosSemidef.zero⟩)
    (fun i => by simp) Matrix.PosSemidef.one Matrix.PosSemidef.one (by rw [sub_self]; exact Matrix.PosSemidef.zero)
    (fun t i => i = 0 ∨ t % 2 = 0) (Or.inl (by norm_num)) N
  obtain ⟨V, W, -, -, hW⟩ := hc t ht
  exact ⟨Ω, mΩ, μ, X, Y, out, W, ho, hW⟩

/-! ### The condition on the variances is needed -/

/-- One state seen through two series whose errors have correlation one half. -/
noncomputable def correlatedSeries : Params (Fin 1) (Fin 2) (Fin 1) := { twoSeries with H := !![1, 1 / 2; 1 / 2, 1] }

theorem correlatedSeries_H : correlatedSeries.H.PosSemidef := by
  refine PosSemidef.of_dotProduct_mulVec_nonneg (by ext i l; fin_cases i <;> fin_cases l <;> simp [correlatedSeries]) fun x => ?_
  simp [correlatedSeries, dotProduct, mulVec, Fin.sum_univ_two]
  nlinarith [sq_nonneg (x 0 + x 1), sq_nonneg (x 0 - x 1)]

theorem correlatedSeries_gain : gainU 0 (fun _ => True) 1 correlatedSeries = !![1 / 3, 1 / 3] := by
  rw [gainU_eq]
  have h1 : keep (fun _ : Fin 2 => True) * correlatedSeries.Z = !![1; 1] := by
    rw [Cons.keep_all, Matrix.one_mul]; rfl
  have h2 : Matrix.diagonal (mS 0 (fun _ => True) correlatedSeries) = 1 := by
    ext i l; fin_cases i <;> fin_cases l <;> simp [mS, correlatedSeries]
  have h3 : Spec.obsCov (1 : Matrix (Fin 1) (Fin 1) ℝ) !![1; 1] (1 : Matrix (Fin 2) (Fin 2) ℝ) = !![2, 1; 1, 2] := by
    ext i l; fin_cases i <;> fin_cases l <;> simp [Spec.obsCov, Matrix.mul_apply, Matrix.vecMul, dotProduct] <;> norm_num
  have h4 : (!![2, 1; 1, 2] : Matrix (Fin 2) (Fin 2) ℝ)⁻¹ = !![2 / 3, -(1 / 3); -(1 / 3), 2 / 3] := by
    apply inv_eq_right_inv
    ext i l; fin_cases i <;> fin_cases l <;> simp [Matrix.mul_apply, Fin.sum_univ_two] <;> norm_num
  rw [h1, h2, h3, h4]
  ext i l; fin_cases i; fin_cases l <;> simp [Matrix.mul_apply, Fin.sum_univ_two] <;> norm_num

/-- **C215 (the true variances are not always enough).** Given the true parameters of a process whose errors are positively
correlated, complete data and no jitter, the univariate filter reports a variance of the first filtered state that is smaller
than the variance of its error. -/
theorem C215_true_variances_can_be_too_small (N : ℕ) (hN : 0 < N) : ∃ (Ω : Type) (_ : MeasurableSpace Ω) (μ : Measure Ω)
    (_ : IsProbabilityMeasure μ) (X : ℕ → Fin 1 → Ω → ℝ) (Y : ℕ → Fin 2 → Ω → ℝ) (η : ℕ → Fin 1 → Ω → ℝ)
    (ε : ℕ → Fin 2 → Ω → ℝ) (out : Ω → UnivGraph (Fin 1)) (V : Matrix (Fin 1) (Fin 1) ℝ),
      Spec.Process μ (fun _ => correlatedSeries) 0 1 X Y η ε ∧
      (∀ ω, univGraph 0 0 1 correlatedSeries (Spec.recorded (fun _ _ => True) Y N ω) = some (out ω)) ∧
      (∀ ω, (out ω).filteredCovs[0]? = some V) ∧
      V 0 0 < Var[fun ω => X 0 0 ω - (out ω).filteredStates.getD 0 0 0; μ] := by
  obtain ⟨Ω, mΩ, μ, hμ, X, Y, η, ε, fill, h, hfill⟩ := exists_process (fun _ => correlatedSeries) 0
    (P0 := 1) Matrix.PosSemidef.one (fun _ => Matrix.PosSemidef.one) (fun _ => correlatedSeries_H)
  have hH : ∀ i, 0 < correlatedSeries.H i i := by intro i; fin_cases i <;> simp [correlatedSeries]
  have hp : ∀ t i, 0 < mS 0 (fun _ : Fin 2 => True) correlatedSeries i := fun t i =>
    mS_pos (fun _ _ => True) le_rfl (fun i => (hH i).le) (Or.inr ⟨hH, fun _ _ => trivial⟩) t i
  obtain ⟨hcl, hrun⟩ := run_closed (θ := correlatedSeries) (a0 := 0) (Y := Y) (P0 := 1) (fun _ _ => True) (le_refl (0 : ℝ)) (by norm_num)
    (fun i => (hH i).le) hp Matrix.PosSemidef.one Matrix.PosSemidef.one
  choose out ho using fun ω => hrun ω N
  refine ⟨Ω, mΩ, μ, hμ, X, Y, η, ε, out, _, h, fun ω => (ho ω).1, fun ω => ((ho ω).2 0 hN).2.2.2, ?_⟩
  have hlink := fun ω => (ConsU.err_link (θ := correlatedSeries) (j := 0) (P0 := 1) (fun _ _ => True) h
    (fun _ => ⟨rfl, rfl, rfl, rfl, rfl⟩) ω 0).2
  have hvar : Var[fun ω => X 0 0 ω - (out ω).filteredStates.getD 0 0 0; μ] =
      covM (covB μ) (errF h (gains (fun _ _ => True) 0 correlatedSeries 1) correlatedSeries 0)
        (errF h (gains (fun _ _ => True) 0 correlatedSeries 1) correlatedSeries 0) 0 0 := by
    have h1 : (fun ω => X 0 0 ω - (out ω).filteredStates.getD 0 0 0) =
        (errF h (gains (fun _ _ => True) 0 correlatedSeries 1) correlatedSeries 0 0).1 := by
      funext ω
      rw [← hlink ω 0, List.getD_eq_getElem?_getD, ((ho ω).2 0 hN).2.2.1]
      rfl
    rw [h1, covM, Matrix.of_apply, covB_apply, covariance_self
      (errF h (gains (fun _ _ => True) 0 correlatedSeries 1) correlatedSeries 0 0).2.aemeasurable]
  have hp0 := toProc h
  have h0 : covM (covB μ) (errP h (gains (fun _ _ => True) 0 correlatedSeries 1) correlatedSeries 0)
      (errP h (gains (fun _ _ => True) 0 correlatedSeries 1) correlatedSeries 0) = 1 := by
    rw [ConsU.errP]
    simp only [covM_sub_left, covM_sub_right, covM_const_left _ hp0.one0, covM_const_right _ hp0.one0', sub_zero, hp0.x0]
  have hg : gains (fun _ _ => True) 0 correlatedSeries 1 0 = !![1 / 3, 1 / 3] := correlatedSeries_gain
  rw [hvar, ConsU.errF_cov, h0, hg, show covU 0 (fun _ _ => True) correlatedSeries 1 0 = 1 from rfl,
    filtU_eq 0 _ (transpose_one) _ (hcl 0).2.2, correlatedSeries_gain]
  simp [Spec.withJitter, correlatedSeries, twoSeries, Matrix.mul_apply, Fin.sum_univ_two, Matrix.vecMul, dotProduct]
  norm_num

end Verif.Kalman
