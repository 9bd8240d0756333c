import Verif.Kalman.GaussianLoglik
import Mathlib.LinearAlgebra.Matrix.Block
import Mathlib.MeasureTheory.Measure.Lebesgue.Basic

/-!
# The density of a normal vector through its one-step forecast errors

Lemmas.  Order the entries of a normal vector; subtract from each entry an affine function of the earlier ones so that the errors are
uncorrelated, with mean zero and positive variances.  The density of the vector is the product of the densities of the errors.
-/

set_option autoImplicit false

open Matrix MeasureTheory ProbabilityTheory Filter Topology

namespace Verif.Kalman.Triangular

open Orthogonal

variable {ι : Type*} [Fintype ι] [LinearOrder ι]

/-- The affine functions of the entries before `q`. Proof notion, no code behind it. -/
def Before (q : ι) : Submodule ℝ ((ι → ℝ) → ℝ) :=
  Submodule.span ℝ ({fun _ => 1} ∪ {w | ∃ q', q' < q ∧ w = fun y => y q'})

theorem exists_coeff {q : ι} {f : (ι → ℝ) → ℝ} (hf : f ∈ Before q) :
    ∃ (A : ι → ℝ) (b : ℝ), (∀ y, f y = ∑ q', A q' * y q' + b) ∧ ∀ q', q ≤ q' → A q' = 0 := by
  classical
  refine Submodule.span_induction (p := fun f _ => ∃ (A : ι → ℝ) (b : ℝ), (∀ y, f y = ∑ q', A q' * y q' + b) ∧ ∀ q', q ≤ q' → A q' = 0)
    ?_ ?_ ?_ ?_ hf
  · rintro w (hw | ⟨q', hq, rfl⟩)
    · rw [Set.mem_singleton_iff] at hw
      exact ⟨0, 1, fun y => by simp [hw], fun _ _ => rfl⟩
    · exact ⟨Pi.single q' 1, 0, fun y => by simp [Pi.single_apply], fun q'' h => Pi.single_eq_of_ne (by rintro rfl; exact absurd hq (not_lt.2 h)) _⟩
  · exact ⟨0, 0, fun y => by simp, fun _ _ => rfl⟩
  · rintro f g - - ⟨A, b, h1, h2⟩ ⟨A', b', h1', h2'⟩
    refine ⟨A + A', b + b', fun y => ?_, fun q' h => by simp [h2 q' h, h2' q' h]⟩
    simp only [Pi.add_apply, h1, h1', add_mul, Finset.sum_add_distrib]
    ring
  · rintro c f - ⟨A, b, h1, h2⟩
    refine ⟨c • A, c * b, fun y => ?_, fun q' h => by simp [h2 q' h]⟩
    simp only [Pi.smul_apply, h1, smul_eq_mul, mul_add, Finset.mul_sum, mul_assoc]

/-- The forecast errors as an affine map with a unit triangular matrix. -/
theorem exists_matrix {f : ι → (ι → ℝ) → ℝ} (hf : ∀ q, f q ∈ Before q) :
    ∃ (L : Matrix ι ι ℝ) (b : ι → ℝ), L.det = 1 ∧ ∀ y q, y q - f q y = (L *ᵥ y) q - b q := by
  choose A b h1 h2 using fun q => exists_coeff (hf q)
  refine ⟨1 - Matrix.of A, b, ?_, fun y q => ?_⟩
  · rw [Matrix.det_of_lowerTriangular]
    · exact Finset.prod_eq_one fun q _ => by simp [h2 q q le_rfl]
    · intro q q' h
      have h : q < q' := h
      simp [Matrix.one_apply_ne h.ne, h2 q q' h.le]
  · rw [h1, Matrix.sub_mulVec, Matrix.one_mulVec, Pi.sub_apply]
    simp only [mulVec, dotProduct, Matrix.of_apply]
    ring

/-- An affine condition on one forecast error has measure zero. -/
theorem null {f : ι → (ι → ℝ) → ℝ} (hf : ∀ q, f q ∈ Before q) (q : ι) (c : ℝ) :
    ∀ᵐ y ∂(volume : Measure (ι → ℝ)), y q - f q y ≠ c := by
  obtain ⟨L, b, hL, h⟩ := exists_matrix hf
  have hm : Measure.map (Matrix.toLin' L) (volume : Measure (ι → ℝ)) = volume := by
    rw [Real.map_matrix_volume_pi_eq_smul_volume_pi (by rw [hL]; exact one_ne_zero), hL]
    simp
  have h1 : ∀ᵐ v ∂(volume : Measure (ι → ℝ)), v q ≠ c + b q := by
    rw [ae_iff]
    simp only [ne_eq, not_not]
    exact Measure.pi_hyperplane (fun _ : ι => (volume : Measure ℝ)) q _
  rw [← hm] at h1
  have h2 := ae_of_ae_map (LinearMap.continuous_on_pi (Matrix.toLin' L)).measurable.aemeasurable h1
  filter_upwards [h2] with y hy hc
  refine hy ?_
  rw [h] at hc
  rw [Matrix.toLin'_apply]
  linarith

variable {Ω : Type*} [MeasurableSpace Ω] {μ : Measure Ω} [IsProbabilityMeasure μ]

/-- **Density through forecast errors.** -/
theorem density {Y : ι → Ω → ℝ} (hY : IsGaussianProcess Y μ) {f : ι → (ι → ℝ) → ℝ} (hf : ∀ q, f q ∈ Before q) {F : ι → ℝ}
    (hF : ∀ q, 0 < F q) (hmean : ∀ q, ∫ ω, Y q ω - f q (fun q' => Y q' ω) ∂μ = 0)
    (hcov : ∀ q q', cov[fun ω => Y q ω - f q (fun q' => Y q' ω), fun ω => Y q' ω - f q' (fun q' => Y q' ω); μ] =
      if q = q' then F q else 0) :
    μ.map (fun ω q => Y q ω) = (volume : Measure (ι → ℝ)).withDensity fun y =>
      ENNReal.ofReal (Real.exp (∑ q, -(1 / 2) * (Real.log (2 * Real.pi) + (Real.log (F q) + (y q - f q y) ^ 2 / F q)))) := by
  obtain ⟨L, b, hL, h⟩ := exists_matrix hf
  have h2 : ∀ q, MemLp (Y q) 2 μ := fun q => (hY.hasGaussianLaw_eval q).memLp_two
  let e : ι → L2 μ := fun q => ⟨Y q, h2 q⟩
  let m : ι → ℝ := fun q => ∫ ω, Y q ω ∂μ
  set S : Matrix ι ι ℝ := Matrix.of fun q q' => cov[Y q, Y q'; μ] with hS
  have hv : ∀ q, (fun ω => Y q ω - f q (fun q' => Y q' ω)) = (act L e q - b q • Orthogonal.one μ).1 := by
    intro q
    funext ω
    have h1 := act_eval L e q ω
    show Y q ω - f q (fun q' => Y q' ω) = (act L e q).1 ω - b q • (1 : ℝ)
    rw [h1, h (fun q' => Y q' ω) q]
    simp [e]
  have hSe : covM (covB μ) e e = S := rfl
  have hD : L * S * Lᵀ = Matrix.diagonal F := by
    rw [← hSe, ← covM_act_left, ← covM_act_right]
    ext q q'
    have h1 := hcov q q'
    rw [hv, hv] at h1
    rw [Matrix.diagonal_apply, ← h1]
    show covB μ (act L e q) (act L e q') = covB μ (act L e q - b q • Orthogonal.one μ) (act L e q' - b q' • Orthogonal.one μ)
    have o1 : ∀ w, covB μ (Orthogonal.one μ) w = 0 := fun w => by simp [covB_apply, Orthogonal.one]
    have o2 : ∀ w, covB μ w (Orthogonal.one μ) = 0 := fun w => by simp [covB_apply, Orthogonal.one]
    simp [o1, o2]
  have hLu : IsUnit L := (Matrix.isUnit_iff_isUnit_det _).2 (by rw [hL]; exact isUnit_one)
  have hLi : L⁻¹ * L = 1 := Matrix.nonsing_inv_mul _ (by rw [hL]; exact isUnit_one)
  have hSpd : S.PosDef := by
    have h1 : (Matrix.diagonal F).PosDef := Matrix.PosDef.diagonal hF
    rw [← hD] at h1
    have h3 : S = L⁻¹ * (L * S * Lᵀ) * (L⁻¹)ᵀ := by
      have : Lᵀ * (L⁻¹)ᵀ = 1 := by rw [← Matrix.transpose_mul, hLi, Matrix.transpose_one]
      calc S = (L⁻¹ * L) * S * (Lᵀ * (L⁻¹)ᵀ) := by rw [hLi, this, Matrix.one_mul, Matrix.mul_one]
        _ = _ := by simp only [Matrix.mul_assoc]
    rw [h3, ← conjTranspose_eq_transpose_of_trivial (L⁻¹)]
    refine h1.mul_mul_conjTranspose_same ?_
    intro x y hxy
    have := congrArg (fun v => v ᵥ* L) hxy
    simpa [Matrix.vecMul_vecMul, hLi] using this
  have hdet : S.det = ∏ q, F q := by
    have := congrArg Matrix.det hD
    rw [Matrix.det_mul, Matrix.det_mul, Matrix.det_transpose, hL, one_mul, mul_one, Matrix.det_diagonal] at this
    exact this
  have hSinv : S⁻¹ = Lᵀ * Matrix.diagonal (fun q => (F q)⁻¹) * L := by
    refine Matrix.inv_eq_left_inv ?_
    have h1 : Matrix.diagonal (fun q => (F q)⁻¹) * (L * S * Lᵀ) = 1 := by
      rw [hD, Matrix.diagonal_mul_diagonal, ← Matrix.diagonal_one]
      congr 1; funext q; exact inv_mul_cancel₀ (hF q).ne'
    have h2 : (Matrix.diagonal (fun q => (F q)⁻¹) * (L * S)) * Lᵀ = 1 := by rw [Matrix.mul_assoc]; exact h1
    have h3 := mul_eq_one_comm.1 h2
    rw [← h3]; simp only [Matrix.mul_assoc]
  have hmb : L *ᵥ m = b := by
    funext q
    have h1 := hmean q
    rw [hv, ← mean_apply, map_sub, map_smul] at h1
    have h3 : mean μ (Orthogonal.one μ) = 1 := by simp [mean_apply, Orthogonal.one]
    have h4 : mean μ (act L e q) = (L *ᵥ m) q := by
      simp only [act, map_sum, map_smul, mulVec, dotProduct, smul_eq_mul]
      rfl
    rw [h3, h4] at h1
    simpa [sub_eq_zero] using h1
  have hlaw := Gauss.law hY m S (fun _ => rfl) fun _ _ => rfl
  have hd := Gauss.density m hSpd
  rw [← hlaw, AEMeasurable.map_map_of_aemeasurable (by fun_prop) (Gauss.vector hY).aemeasurable] at hd
  refine (show μ.map (fun ω q => Y q ω) = _ from hd).trans ?_
  congr 1
  funext y
  congr 2
  have hq : (y - m) ⬝ᵥ (S⁻¹ *ᵥ (y - m)) = ∑ q, (y q - f q y) ^ 2 / F q := by
    have h1 : L *ᵥ (y - m) = fun q => y q - f q y := by
      funext q; rw [Matrix.mulVec_sub, hmb, Pi.sub_apply, h]
    rw [hSinv, ← Matrix.mulVec_mulVec, h1, ← Matrix.mulVec_mulVec, Matrix.dotProduct_mulVec, Matrix.vecMul_transpose, h1]
    simp only [dotProduct, Matrix.mulVec_diagonal]
    exact Finset.sum_congr rfl fun q _ => by ring
  rw [Spec.gaussLogDensity, hq, hdet, Real.log_prod fun q _ => (hF q).ne', ← Finset.mul_sum]
  congr 1
  rw [Finset.sum_add_distrib, Finset.sum_add_distrib, Finset.sum_const, Finset.card_univ, nsmul_eq_mul]
  ring

end Verif.Kalman.Triangular
