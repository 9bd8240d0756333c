import Verif.Kalman.Lemmas
import Verif.Kalman.Spec
import Mathlib.Probability.Distributions.Gaussian.Real

/-!
Property theorems for the standard Kalman filter: C01, C02, C03, C05 (fully observed part), C11, C12.
-/

open Matrix

set_option linter.unusedSectionVars false

namespace Verif.Kalman

variable {n p r : Type*} [Fintype n] [Fintype p] [Fintype r] [DecidableEq n] [DecidableEq p] [DecidableEq r]

/-! ### C01 -/

/-- **C01.** Whatever the data, every predicted and filtered covariance is (symmetric) positive semidefinite. -/
theorem C01_covariances_posSemidef {j fill : ℝ} (hj : 0 ≤ j) (a0 : n → ℝ) {P0 : Matrix n n ℝ} (hP0 : P0.PosSemidef)
    (rows : List (Row p × Params n p r))
    (hrows : ∀ x ∈ rows, x.2.H.PosSemidef ∧ x.2.Q.PosSemidef ∧
      ∀ i k, Spec.Missing fill (x.1 i) → ¬ Spec.Missing fill (x.1 k) → x.2.H i k = 0) :
    (∀ P ∈ (buildGraph j fill a0 P0 rows).filteredCovs, P.PosSemidef) ∧
      ∀ P ∈ (buildGraph j fill a0 P0 rows).predictedCovs, P.PosSemidef := by
  have h := filterScan_posSemidef (fill := fill) hj rows a0 P0 hP0 hrows
  constructor
  · intro P hP
    simp only [buildGraph, postprocess, List.mem_map] at hP
    obtain ⟨o, ho, rfl⟩ := hP
    exact (h o ho).1
  · intro P hP
    simp only [buildGraph, postprocess, List.mem_cons] at hP
    rcases hP with rfl | hP
    · exact hP0
    · obtain ⟨o, ho, rfl⟩ := List.mem_map.1 (List.mem_of_mem_dropLast hP)
      exact (h o ho).2

/-- The symmetry half of C01, spelled out. -/
theorem C01_covariances_symm {j fill : ℝ} (hj : 0 ≤ j) (a0 : n → ℝ) {P0 : Matrix n n ℝ} (hP0 : P0.PosSemidef)
    (rows : List (Row p × Params n p r))
    (hrows : ∀ x ∈ rows, x.2.H.PosSemidef ∧ x.2.Q.PosSemidef ∧
      ∀ i k, Spec.Missing fill (x.1 i) → ¬ Spec.Missing fill (x.1 k) → x.2.H i k = 0) :
    (∀ P ∈ (buildGraph j fill a0 P0 rows).filteredCovs, Pᵀ = P) ∧
      ∀ P ∈ (buildGraph j fill a0 P0 rows).predictedCovs, Pᵀ = P := by
  have h := C01_covariances_posSemidef (fill := fill) hj a0 hP0 rows hrows
  exact ⟨fun P hP => PosSemidef.transpose_eq (h.1 P hP), fun P hP => PosSemidef.transpose_eq (h.2 P hP)⟩

/-- With positive jitter every innovation covariance is positive definite, so that the solves of the code succeed and
the log-determinant is that of a positive number. -/
theorem C01_innovation_posDef {j fill : ℝ} (hj : 0 < j) (a0 : n → ℝ) {P0 : Matrix n n ℝ} (hP0 : P0.PosSemidef)
    (rows : List (Row p × Params n p r))
    (hrows : ∀ x ∈ rows, x.2.H.PosSemidef ∧ x.2.Q.PosSemidef ∧
      ∀ i k, Spec.Missing fill (x.1 i) → ¬ Spec.Missing fill (x.1 k) → x.2.H i k = 0) :
    ∀ F ∈ (buildGraph j fill a0 P0 rows).observedCovs, F.PosDef := by
  intro F hF
  simp only [buildGraph, postprocess, List.mem_map] at hF
  obtain ⟨o, ho, rfl⟩ := hF
  exact filterScan_obsCov_posDef (fill := fill) hj rows a0 P0 hP0 hrows o ho

/-- A two-state, two-series model with a partially missing row meets the hypotheses of C01. -/
example : ∃ (θ : Params (Fin 2) (Fin 2) (Fin 2)) (y : Row (Fin 2)), θ.T ≠ 0 ∧ θ.Z ≠ 0 ∧ y 0 = none ∧ y 1 = some 3 ∧
    θ.H.PosSemidef ∧ θ.Q.PosSemidef ∧
    ∀ i k, Spec.Missing (-9999) (y i) → ¬ Spec.Missing (-9999) (y k) → θ.H i k = 0 := by
  refine ⟨⟨0, 0, 1, 1, 1, 1, 1⟩, ![none, some 3], one_ne_zero, one_ne_zero, rfl, rfl, PosSemidef.one, PosSemidef.one, ?_⟩
  intro i k hi hk
  fin_cases i <;> fin_cases k <;> simp_all [Spec.Missing]

/-- The decoupling condition in C01 is exactly what keeps the matrix that the code hands to its
symmetric-positive-definite solver symmetric: with a partially missing row, `F` is symmetric iff missing and
observed series are uncorrelated in `H`. -/
theorem C01_innovCov_symm_iff (j fill : ℝ) (y : Row p) {P : Matrix n n ℝ} (hP : Pᵀ = P) (Z : Matrix p n ℝ)
    {H : Matrix p p ℝ} (hH : Hᵀ = H) (a : n → ℝ) (d : p → ℝ) :
    let m := handleMissing fill y Z H
    let F := (update j a P m.y d m.Z m.H m.allNan).F
    Fᵀ = F ↔ ∀ i k, Spec.Missing fill (y i) → ¬ Spec.Missing fill (y k) → H i k = 0 := by
  intro m F
  have hF : F = maskW fill y * Z * (P * (maskW fill y * Z)ᵀ) + stabilize j (maskW fill y * H) := rfl
  have hs : ∀ i k, H i k = H k i := fun i k => by conv_lhs => rw [← hH, transpose_apply]
  have hFt : Fᵀ = F ↔ (maskW fill y * H)ᵀ = maskW fill y * H := by
    rw [hF]
    have h1 : (maskW fill y * Z * (P * (maskW fill y * Z)ᵀ))ᵀ = maskW fill y * Z * (P * (maskW fill y * Z)ᵀ) := by
      simp only [transpose_mul, transpose_transpose, hP, Matrix.mul_assoc]
    rw [transpose_add, h1, add_right_inj, stabilize, transpose_add, transpose_smul, transpose_one, add_left_inj]
  rw [hFt]
  constructor
  · intro h i k hi hk
    have := congrFun (congrFun h k) i
    have hi' : nanMask fill y i := hi
    have hk' : ¬ nanMask fill y k := hk
    simp only [transpose_apply, maskW, diagonal_mul, if_pos hi', if_neg hk'] at this
    rw [hs i k]; linarith
  · intro h
    ext k i
    simp only [transpose_apply, maskW, diagonal_mul]
    by_cases hi : nanMask fill y i <;> by_cases hk : nanMask fill y k <;> simp [hi, hk, hs k i]
    · exact (h i k hi hk).symm
    · rw [hs]; exact h k i hk hi

/-! ### C02 -/

/-- **C02.** On a fully observed row and with zero jitter the update is the conditional mean and covariance. -/
theorem C02_update_is_conditional (fill : ℝ) (y : Row p) (hobs : ∀ i, ¬ Spec.Missing fill (y i)) (a : n → ℝ)
    {P : Matrix n n ℝ} (hP : Pᵀ = P) (θ : Params n p r) (hH : θ.Hᵀ = θ.H)
    (hF : IsUnit (Spec.obsCov P θ.Z θ.H).det) :
    let o := kalmanStep 0 fill y a P θ
    o.aFilt = Spec.condMean a P (fun i => (y i).getD 0) θ.d θ.Z θ.H ∧
      o.PFilt = Spec.condCov P θ.Z θ.H ∧
      o.obsMu = θ.d + θ.Z *ᵥ a ∧ o.obsCov = Spec.obsCov P θ.Z θ.H ∧
      o.aHat = θ.c + θ.T *ᵥ o.aFilt ∧
      (θ.Qᵀ = θ.Q → o.PHat = θ.T * o.PFilt * θ.Tᵀ + θ.R * θ.Q * θ.Rᵀ) := by
  have hW : maskW fill y = 1 := by
    rw [maskW, ← diagonal_one]; congr 1; funext i; exact if_neg (hobs i)
  have hy : (handleMissing fill y θ.Z θ.H).y = fun i => (y i).getD 0 := by
    funext i; exact if_neg (hobs i)
  have hZ : (handleMissing fill y θ.Z θ.H).Z = θ.Z := by simp [handleMissing, hW]
  have hH' : (handleMissing fill y θ.Z θ.H).H = θ.H := by simp [handleMissing, hW]
  have hFe : innovCov 0 P θ.Z θ.H = θ.Z * P * θ.Zᵀ + θ.H := by simp [innovCov, stabilize, Matrix.mul_assoc]
  have hPF : (kalmanStep 0 fill y a P θ).PFilt = Spec.condCov P θ.Z θ.H := by
    simp only [kalmanStep, hZ, hH', stabilize_zero, update, hFe]
    exact joseph_eq hP θ.Z hH hF
  refine ⟨?_, hPF, ?_, ?_, ?_, ?_⟩
  · simp only [kalmanStep, hZ, hH', hy, update, gain_eq, hFe, Spec.condMean, Spec.obsCov, sub_sub]
  · simp only [kalmanStep, hZ, update]
  · simp only [kalmanStep, hZ, hH', update, hFe, Spec.obsCov]
  · simp only [kalmanStep, predict, add_comm]
  · intro hQ
    have hPt : (kalmanStep 0 fill y a P θ).PFiltᵀ = (kalmanStep 0 fill y a P θ).PFilt := by
      rw [hPF, Spec.condCov, transpose_sub, hP]
      simp only [transpose_mul, transpose_nonsing_inv, transpose_transpose, hP, Spec.obsCov, transpose_add, hH,
        Matrix.mul_assoc]
    have := quadFormSym_of_symm θ.T hPt
    have h2 := quadFormSym_of_symm θ.R hQ
    rw [← this, ← h2]
    rfl

example : IsUnit (Spec.obsCov (1 : Matrix (Fin 2) (Fin 2) ℝ) !![1, 1] (1 : Matrix (Fin 1) (Fin 1) ℝ)).det := by
  rw [isUnit_iff_ne_zero, det_fin_one]
  simp only [Spec.obsCov, Matrix.mul_one, Matrix.add_apply, Matrix.mul_apply, Fin.sum_univ_two]
  norm_num

/-! ### C03 -/

/-- **C03.** A completely missing row: mean unchanged, covariance only jittered, no likelihood contribution — for all
`d`, `Z`, `H` and both kinds of markers. The jitter has to be positive: the matrix that is solved with is `j • 1`. -/
theorem C03_all_missing {j : ℝ} (hj : 0 < j) (fill : ℝ) (y : Row p) (hmiss : ∀ i, Spec.Missing fill (y i)) (a : n → ℝ)
    {P : Matrix n n ℝ} (hP : Pᵀ = P) (θ : Params n p r) :
    let o := kalmanStep j fill y a P θ
    o.aFilt = a ∧ o.PFilt = P + j • (1 : Matrix n n ℝ) ∧ o.ll = 0 ∧ IsUnit o.obsCov.det := by
  have hW : maskW fill y = 0 := by
    rw [maskW, ← diagonal_zero]; congr 1; funext i; exact if_pos (hmiss i)
  have hZ : (handleMissing fill y θ.Z θ.H).Z = 0 := by simp [handleMissing, hW]
  have hH' : (handleMissing fill y θ.Z θ.H).H = 0 := by simp [handleMissing, hW]
  have hall : (handleMissing fill y θ.Z θ.H).allNan := hmiss
  have hK : ∀ F, gain P (0 : Matrix p n ℝ) F = 0 := by intro F; simp [gain]
  refine ⟨?_, ?_, ?_, ?_⟩
  · simp only [kalmanStep, hZ, hH', update, hK, zero_mulVec, add_zero]
  · simp only [kalmanStep, hZ, hH', update, hK]
    rw [quadFormSym_of_symm _ hP, quadFormSym_of_symm _ (transpose_zero)]
    simp [stabilize]
  · simp only [kalmanStep, update, if_pos hall]
  · simp [kalmanStep, update, hZ, hH', innovCov, stabilize, hj.ne']

example : ∀ i : Fin 2, Spec.Missing (-9999) ((![none, some (-9999)] : Row (Fin 2)) i) := by
  intro i; fin_cases i <;> simp [Spec.Missing]

/-! ### C05, fully observed rows -/

/-- **C05 (a).** On a fully observed row with `k` series the reported log-likelihood exceeds the Gaussian log-density
by `(k − 1)/2 · log 2π`; in particular it is the log-density iff `k = 1`. -/
theorem C05_loglik_constant (fill : ℝ) (y : Row p) [Nonempty p] (hobs : ∀ i, ¬ Spec.Missing fill (y i)) (a : n → ℝ)
    (P : Matrix n n ℝ) (θ : Params n p r) :
    (kalmanStep 0 fill y a P θ).ll =
      Spec.gaussLogDensity (Spec.obsCov P θ.Z θ.H) (fun i => (y i).getD 0 - (θ.d + θ.Z *ᵥ a) i) +
        ((Fintype.card p : ℝ) - 1) / 2 * Real.log (2 * Real.pi) := by
  have hW : maskW fill y = 1 := by
    rw [maskW, ← diagonal_one]; congr 1; funext i; exact if_neg (hobs i)
  have hy : (handleMissing fill y θ.Z θ.H).y = fun i => (y i).getD 0 := by
    funext i; exact if_neg (hobs i)
  have hZ : (handleMissing fill y θ.Z θ.H).Z = θ.Z := by simp [handleMissing, hW]
  have hH' : (handleMissing fill y θ.Z θ.H).H = θ.H := by simp [handleMissing, hW]
  have hnall : ¬ (handleMissing fill y θ.Z θ.H).allNan := fun h => hobs (Classical.arbitrary p) (h _)
  have hFe : innovCov 0 P θ.Z θ.H = Spec.obsCov P θ.Z θ.H := by
    simp [innovCov, stabilize, Matrix.mul_assoc, Spec.obsCov]
  have hv : ((fun i => (y i).getD 0) - (θ.d + θ.Z *ᵥ a)) = fun i => (y i).getD 0 - (θ.d + θ.Z *ᵥ a) i := rfl
  simp only [kalmanStep, update, if_neg hnall, hZ, hH', hy, hFe, hv, Spec.gaussLogDensity, mvnConst]
  ring

/-- **C05 (b).** For one observed series it is the logarithm of Mathlib's normal density with the forecast mean and
variance. -/
theorem C05_loglik_single_series (fill : ℝ) (y : Row (Fin 1)) (hobs : ¬ Spec.Missing fill (y 0)) (a : n → ℝ)
    (P : Matrix n n ℝ) (θ : Params n (Fin 1) r) (s : NNReal) (hs : s ≠ 0)
    (hF : Spec.obsCov P θ.Z θ.H 0 0 = s) :
    (kalmanStep 0 fill y a P θ).ll =
      Real.log (ProbabilityTheory.gaussianPDFReal (θ.d 0 + (θ.Z *ᵥ a) 0) s ((y 0).getD 0)) := by
  have hobs' : ∀ i, ¬ Spec.Missing fill (y i) := by intro i; fin_cases i; exact hobs
  rw [C05_loglik_constant fill y hobs' a P θ]
  have hs0 : (0 : ℝ) < s := lt_of_le_of_ne s.2 (by exact_mod_cast hs.symm)
  have hFm : Spec.obsCov P θ.Z θ.H = Matrix.of fun _ _ => (s : ℝ) := by
    ext i k; fin_cases i; fin_cases k; simpa using hF
  have hdet : (Spec.obsCov P θ.Z θ.H).det = s := by rw [det_fin_one]; exact hF
  have hinv : (Spec.obsCov P θ.Z θ.H)⁻¹ = Matrix.of fun _ _ => (s : ℝ)⁻¹ := by
    apply inv_eq_right_inv
    ext i k; fin_cases i; fin_cases k
    simp [Matrix.mul_apply, hF, hs0.ne']
  have h2 : (0 : ℝ) < 2 * Real.pi := by positivity
  have hR : Real.log (ProbabilityTheory.gaussianPDFReal (θ.d 0 + (θ.Z *ᵥ a) 0) s ((y 0).getD 0)) =
      -((Real.log (2 * Real.pi) + Real.log s) / 2) +
        -((y 0).getD 0 - (θ.d 0 + (θ.Z *ᵥ a) 0)) ^ 2 / (2 * s) := by
    rw [ProbabilityTheory.gaussianPDFReal, Real.log_mul (by positivity) (by positivity), Real.log_exp,
      Real.log_inv, Real.log_sqrt (by positivity), Real.log_mul h2.ne' hs0.ne']
  rw [hR, Spec.gaussLogDensity, hdet, hinv]
  simp only [Fintype.card_fin, dotProduct, mulVec, Finset.univ_unique, Fin.default_eq_zero, Fin.isValue,
    Finset.sum_singleton, of_apply, Pi.add_apply, Nat.cast_one, sub_self, zero_div, zero_mul, add_zero, one_mul]
  field_simp
  ring

/-- **C05 (c).** The returned log-likelihood of a fully observed row is the Gaussian log-density only if there is
exactly one series. -/
theorem C05_loglik_exact_iff (fill : ℝ) (y : Row p) [Nonempty p] (hobs : ∀ i, ¬ Spec.Missing fill (y i)) (a : n → ℝ)
    (P : Matrix n n ℝ) (θ : Params n p r) :
    (kalmanStep 0 fill y a P θ).ll =
      Spec.gaussLogDensity (Spec.obsCov P θ.Z θ.H) (fun i => (y i).getD 0 - (θ.d + θ.Z *ᵥ a) i) ↔
    Fintype.card p = 1 := by
  rw [C05_loglik_constant fill y hobs a P θ]
  have h1 : 0 < Real.log (2 * Real.pi) := Real.log_pos (by nlinarith [Real.two_le_pi])
  constructor
  · intro h
    have : ((Fintype.card p : ℝ) - 1) / 2 * Real.log (2 * Real.pi) = 0 := by linarith
    rcases mul_eq_zero.1 this with h' | h'
    · have : (Fintype.card p : ℝ) = 1 := by linarith
      exact_mod_cast this
    · exact absurd h' h1.ne'
  · intro h; rw [h]; simp

/-! ### C11, C12 -/

theorem filterScan_length (j fill : ℝ) (rows : List (Row p × Params n p r)) :
    ∀ a P, (filterScan j fill a P rows).length = rows.length := by
  induction rows with
  | nil => intros; rfl
  | cons x rest ih => intro a P; simp [filterScan, ih]

theorem filterScan_prefix (j fill : ℝ) (pre : List (Row p × Params n p r)) :
    ∀ a P s, (filterScan j fill a P (pre ++ s)).take pre.length = filterScan j fill a P pre := by
  induction pre with
  | nil => intros; simp [filterScan]
  | cons x rest ih => intro a P s; simp [filterScan, ih]

/-- **C12.** One entry per data row in each of the seven outputs. -/
theorem C12_output_lengths (j fill : ℝ) (a0 : n → ℝ) (P0 : Matrix n n ℝ) (rows : List (Row p × Params n p r))
    (hne : rows ≠ []) :
    let o := buildGraph j fill a0 P0 rows
    o.filteredStates.length = rows.length ∧ o.predictedStates.length = rows.length ∧
    o.observedStates.length = rows.length ∧ o.filteredCovs.length = rows.length ∧
    o.predictedCovs.length = rows.length ∧ o.observedCovs.length = rows.length ∧
    o.loglike.length = rows.length := by
  have := List.length_pos_iff.2 hne
  simp [buildGraph, postprocess, filterScan_length]
  omega

theorem filterScan_getElem_succ (j fill : ℝ) (rows : List (Row p × Params n p r)) :
    ∀ a P (t : ℕ) (y : Row p) (θ : Params n p r) (o : StepOut n p), rows[t + 1]? = some (y, θ) →
      (filterScan j fill a P rows)[t]? = some o →
      (filterScan j fill a P rows)[t + 1]? = some (kalmanStep j fill y o.aHat o.PHat θ) := by
  induction rows with
  | nil => intro a P t y θ o h; simp at h
  | cons x rest ih =>
    intro a P t y θ o h ho
    obtain ⟨y0, θ0⟩ := x
    cases t with
    | zero =>
      cases rest with
      | nil => simp at h
      | cons x' rest' =>
        simp [filterScan] at h ho ⊢
        subst h; subst ho; simp
    | succ t =>
      simp only [filterScan, List.getElem?_cons_succ] at h ho ⊢
      exact ih _ _ t y θ o h ho

/-- **C12.** `predicted[0] = (a0, P0)`, and `predicted[t+1]` is the model's transition applied to `filtered[t]`. -/
theorem C12_predicted_is_transition_of_filtered (j fill : ℝ) (a0 : n → ℝ) (P0 : Matrix n n ℝ)
    (rows : List (Row p × Params n p r)) :
    let o := buildGraph j fill a0 P0 rows
    o.predictedStates[0]? = some a0 ∧ o.predictedCovs[0]? = some P0 ∧
    ∀ (t : ℕ) (y : Row p) (θ : Params n p r), rows[t]? = some (y, θ) → t + 1 < rows.length →
      ∃ a P, o.filteredStates[t]? = some a ∧ o.filteredCovs[t]? = some P ∧
        o.predictedStates[t + 1]? = some (θ.c + θ.T *ᵥ a) ∧
        (Pᵀ = P → θ.Qᵀ = θ.Q → o.predictedCovs[t + 1]? = some (θ.T * P * θ.Tᵀ + θ.R * θ.Q * θ.Rᵀ)) := by
  refine ⟨rfl, rfl, ?_⟩
  have key : ∀ (rows : List (Row p × Params n p r)) a P (t : ℕ) (y : Row p) (θ : Params n p r),
      rows[t]? = some (y, θ) → ∃ a' P', (filterScan j fill a P rows)[t]? = some (kalmanStep j fill y a' P' θ) := by
    intro rows
    induction rows with
    | nil => intro a P t y θ h; simp at h
    | cons x rest ih =>
      intro a P t y θ h
      obtain ⟨y0, θ0⟩ := x
      cases t with
      | zero => simp at h; obtain ⟨rfl, rfl⟩ := h; exact ⟨a, P, by simp [filterScan]⟩
      | succ t => simp only [filterScan, List.getElem?_cons_succ] at h ⊢; exact ih _ _ t y θ h
  intro t y θ h hlt
  obtain ⟨a', P', hs⟩ := key rows a0 P0 t y θ h
  refine ⟨(kalmanStep j fill y a' P' θ).aFilt, (kalmanStep j fill y a' P' θ).PFilt, ?_, ?_, ?_, ?_⟩
  · simp [buildGraph, postprocess, hs]
  · simp [buildGraph, postprocess, hs]
  · simp only [buildGraph, postprocess, List.getElem?_cons_succ]
    rw [List.getElem?_dropLast, if_pos (by simp [filterScan_length]; omega), List.getElem?_map, hs]
    simp [kalmanStep, predict, add_comm]
  · intro hPs hQs
    simp only [buildGraph, postprocess, List.getElem?_cons_succ]
    rw [List.getElem?_dropLast, if_pos (by simp [filterScan_length]; omega), List.getElem?_map, hs]
    have h1 := quadFormSym_of_symm θ.T hPs
    have h2 := quadFormSym_of_symm θ.R hQs
    rw [← h1, ← h2]; rfl

/-- **C11.** Non-interference: for two data sets that agree on the first `t` rows (values and matrices), all filtered
outputs before `t`, and all predictions (states, covariances, observation forecasts) up to and including `t`, agree;
nothing later can influence them. The observation forecast at `t` also uses only the matrices `d`, `Z`, `H` and the
missing pattern of row `t`, so it is stated for entries before `t`. -/
theorem C11_no_lookahead (j fill : ℝ) (a0 : n → ℝ) (P0 : Matrix n n ℝ)
    (pre s s' : List (Row p × Params n p r)) (hs : s ≠ []) (hs' : s' ≠ []) :
    let o := buildGraph j fill a0 P0 (pre ++ s)
    let o' := buildGraph j fill a0 P0 (pre ++ s')
    (∀ t < pre.length, o.filteredStates[t]? = o'.filteredStates[t]? ∧ o.filteredCovs[t]? = o'.filteredCovs[t]? ∧
      o.observedStates[t]? = o'.observedStates[t]? ∧ o.observedCovs[t]? = o'.observedCovs[t]? ∧
      o.loglike[t]? = o'.loglike[t]?) ∧
    (∀ t ≤ pre.length, o.predictedStates[t]? = o'.predictedStates[t]? ∧
      o.predictedCovs[t]? = o'.predictedCovs[t]?) := by
  have key : ∀ t < pre.length, ∀ s, (filterScan j fill a0 P0 (pre ++ s))[t]? = (filterScan j fill a0 P0 pre)[t]? := by
    intro t ht s
    rw [← filterScan_prefix j fill pre a0 P0 s, List.getElem?_take_of_lt ht]
  have hl := List.length_pos_iff.2 hs
  have hl' := List.length_pos_iff.2 hs'
  constructor
  · intro t ht
    simp only [buildGraph, postprocess, List.getElem?_map, key t ht]
    exact ⟨trivial, trivial, trivial, trivial, trivial⟩
  · intro t ht
    cases t with
    | zero => exact ⟨rfl, rfl⟩
    | succ t =>
      simp only [buildGraph, postprocess, List.getElem?_cons_succ, List.getElem?_dropLast, List.length_map,
        filterScan_length, List.length_append, List.getElem?_map, key t (by omega)]
      rw [if_pos (by omega), if_pos (by omega), if_pos (by omega), if_pos (by omega)]
      exact ⟨rfl, rfl⟩

/-- The observation forecast mean and covariance of row `t` do not depend on the *values* observed at `t` nor on any
later row: two rows with the same missing pattern and the same matrices give the same forecast. -/
theorem C11_forecast_ignores_current_values (j fill : ℝ) (a : n → ℝ) (P : Matrix n n ℝ) (y y' : Row p)
    (hpat : ∀ i, Spec.Missing fill (y i) ↔ Spec.Missing fill (y' i)) (θ : Params n p r) :
    (kalmanStep j fill y a P θ).obsMu = (kalmanStep j fill y' a P θ).obsMu ∧
      (kalmanStep j fill y a P θ).obsCov = (kalmanStep j fill y' a P θ).obsCov ∧
      (kalmanStep j fill y a P θ).PFilt = (kalmanStep j fill y' a P θ).PFilt := by
  have hW : maskW fill y = maskW fill y' := by
    rw [maskW, maskW]; congr 1; funext i
    have : nanMask fill y i ↔ nanMask fill y' i := hpat i
    by_cases h : nanMask fill y' i
    · rw [if_pos h, if_pos (this.2 h)]
    · rw [if_neg h, if_neg (fun h' => h (this.1 h'))]
  simp only [kalmanStep, update, handleMissing, hW]
  exact ⟨trivial, trivial, trivial⟩

example : ([(fun _ => some 1, ⟨0, 0, 1, 1, 1, 1, 1⟩)] : List (Row (Fin 1) × Params (Fin 1) (Fin 1) (Fin 1))) ≠ [] := by
  simp

end Verif.Kalman
