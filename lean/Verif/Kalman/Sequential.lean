import Verif.Kalman.Lemmas
import Verif.Kalman.Spec
import Mathlib.Data.Matrix.Block
import Mathlib.Data.Matrix.ColumnRowPartitioned
import Mathlib.LinearAlgebra.Matrix.SchurComplement
import Mathlib.Tactic.NoncommRing
import Mathlib.Tactic.Module

/-!
Conditioning on two groups of series at once is the same as conditioning on one group after the other
(mathematics about `Verif.Kalman.Spec`, used for the univariate filter, C06).
-/

open Matrix

set_option linter.unusedSectionVars false

namespace Verif.Kalman.Spec

variable {n p q : Type*} [Fintype n] [Fintype p] [Fintype q] [DecidableEq n] [DecidableEq p] [DecidableEq q]

section reindex

variable (e : q ≃ p)

theorem obsCov_reindex (P : Matrix n n ℝ) (Z : Matrix p n ℝ) (H : Matrix p p ℝ) :
    (obsCov P Z H).submatrix e e = obsCov P (Z.submatrix e id) (H.submatrix e e) := by
  ext i k; simp [obsCov, Matrix.mul_apply]

theorem gainS_reindex (P : Matrix n n ℝ) (Z : Matrix p n ℝ) (H : Matrix p p ℝ) :
    (P * Zᵀ * (obsCov P Z H)⁻¹).submatrix id e =
      P * (Z.submatrix e id)ᵀ * (obsCov P (Z.submatrix e id) (H.submatrix e e))⁻¹ := by
  rw [← obsCov_reindex, inv_submatrix_equiv, ← submatrix_mul_equiv _ _ id e e]
  congr 1

theorem condMean_reindex (a : n → ℝ) (P : Matrix n n ℝ) (y d : p → ℝ) (Z : Matrix p n ℝ) (H : Matrix p p ℝ) :
    condMean a P y d Z H = condMean a P (y ∘ e) (d ∘ e) (Z.submatrix e id) (H.submatrix e e) := by
  rw [condMean, condMean, ← gainS_reindex, submatrix_mulVec_equiv]
  congr 2
  funext i
  simp [mulVec, dotProduct]

theorem condCov_reindex (P : Matrix n n ℝ) (Z : Matrix p n ℝ) (H : Matrix p p ℝ) :
    condCov P Z H = condCov P (Z.submatrix e id) (H.submatrix e e) := by
  rw [condCov, condCov, ← gainS_reindex]
  congr 2
  rw [submatrix_mul_equiv]; rfl

theorem gaussLogDensity_reindex (F : Matrix p p ℝ) (v : p → ℝ) :
    gaussLogDensity F v = gaussLogDensity (F.submatrix e e) (v ∘ e) := by
  rw [gaussLogDensity, gaussLogDensity, det_submatrix_equiv_self, inv_submatrix_equiv, submatrix_mulVec_equiv,
    comp_equiv_dotProduct_comp_equiv, Fintype.card_congr e]
  simp [Function.comp_assoc]

end reindex

section two

variable (a : n → ℝ) (P : Matrix n n ℝ) (hP : Pᵀ = P) (Z1 : Matrix p n ℝ) (Z2 : Matrix q n ℝ)
  (H1 : Matrix p p ℝ) (H2 : Matrix q q ℝ)

theorem obsCov_two : obsCov P (fromRows Z1 Z2) (fromBlocks H1 0 0 H2) =
    fromBlocks (obsCov P Z1 H1) (Z1 * P * Z2ᵀ) (Z2 * P * Z1ᵀ) (obsCov P Z2 H2) := by
  rw [obsCov, transpose_fromRows, fromRows_mul, fromRows_mul_fromCols, fromBlocks_add]
  simp [obsCov]

theorem gain_two (h1 : IsUnit (obsCov P Z1 H1).det) (h2 : IsUnit (obsCov (condCov P Z1 H1) Z2 H2).det)
    (hF : IsUnit (obsCov P (fromRows Z1 Z2) (fromBlocks H1 0 0 H2)).det) :
    let K1 := P * Z1ᵀ * (obsCov P Z1 H1)⁻¹
    let K2 := condCov P Z1 H1 * Z2ᵀ * (obsCov (condCov P Z1 H1) Z2 H2)⁻¹
    P * (fromRows Z1 Z2)ᵀ * (obsCov P (fromRows Z1 Z2) (fromBlocks H1 0 0 H2))⁻¹ =
      fromCols (K1 - K2 * Z2 * K1) K2 := by
  intro K1 K2
  have hK1 : K1 * obsCov P Z1 H1 = P * Z1ᵀ := by
    rw [Matrix.mul_assoc (P * Z1ᵀ), nonsing_inv_mul _ h1, Matrix.mul_one]
  have hK2 : K2 * obsCov (condCov P Z1 H1) Z2 H2 = condCov P Z1 H1 * Z2ᵀ := by
    rw [Matrix.mul_assoc (condCov P Z1 H1 * Z2ᵀ), nonsing_inv_mul _ h2, Matrix.mul_one]
  have hc : condCov P Z1 H1 = P - K1 * Z1 * P := rfl
  rw [hc] at hK2
  have key : fromCols (K1 - K2 * Z2 * K1) K2 * obsCov P (fromRows Z1 Z2) (fromBlocks H1 0 0 H2) =
      P * (fromRows Z1 Z2)ᵀ := by
    rw [obsCov_two, fromCols_mul_fromBlocks, transpose_fromRows, mul_fromCols]
    congr 1
    · rw [Matrix.sub_mul, Matrix.mul_assoc _ K1, hK1]
      simp only [Matrix.mul_assoc]; abel
    · have : K2 * obsCov P Z2 H2 = (P - K1 * Z1 * P) * Z2ᵀ + K2 * (Z2 * (K1 * Z1 * P) * Z2ᵀ) := by
        rw [← hK2]
        simp only [obsCov, Matrix.mul_sub, Matrix.sub_mul, Matrix.mul_add]
        abel
      rw [this]
      simp only [Matrix.sub_mul, Matrix.mul_assoc]
      abel
  rw [← key, Matrix.mul_assoc, mul_nonsing_inv _ hF, Matrix.mul_one]

theorem det_two (h1 : IsUnit (obsCov P Z1 H1).det) :
    (obsCov P (fromRows Z1 Z2) (fromBlocks H1 0 0 H2)).det =
      (obsCov P Z1 H1).det * (obsCov (condCov P Z1 H1) Z2 H2).det := by
  let _ := invertibleOfIsUnitDet _ h1
  rw [obsCov_two, det_fromBlocks₁₁, invOf_eq_nonsing_inv]
  congr 2
  simp only [obsCov, condCov, Matrix.mul_sub, Matrix.sub_mul, Matrix.mul_assoc]
  abel

theorem condMean_two (h1 : IsUnit (obsCov P Z1 H1).det) (h2 : IsUnit (obsCov (condCov P Z1 H1) Z2 H2).det)
    (y1 d1 : p → ℝ) (y2 d2 : q → ℝ) :
    condMean a P (Sum.elim y1 y2) (Sum.elim d1 d2) (fromRows Z1 Z2) (fromBlocks H1 0 0 H2) =
      condMean (condMean a P y1 d1 Z1 H1) (condCov P Z1 H1) y2 d2 Z2 H2 := by
  have hF : IsUnit (obsCov P (fromRows Z1 Z2) (fromBlocks H1 0 0 H2)).det := by
    rw [det_two P Z1 Z2 H1 H2 h1]; exact h1.mul h2
  have hv : (Sum.elim y1 y2 - Sum.elim d1 d2 - fromRows Z1 Z2 *ᵥ a : p ⊕ q → ℝ) =
      Sum.elim (y1 - d1 - Z1 *ᵥ a) (y2 - d2 - Z2 *ᵥ a) := by
    rw [fromRows_mulVec]; funext i; cases i <;> rfl
  rw [condMean, gain_two P Z1 Z2 H1 H2 h1 h2 hF, hv, fromCols_mulVec, condMean, condMean]
  simp only [Sum.elim_comp_inl, Sum.elim_comp_inr, sub_mulVec, mulVec_add, mulVec_sub, ← mulVec_mulVec,
    Matrix.mul_assoc]
  abel

theorem condCov_two (h1 : IsUnit (obsCov P Z1 H1).det) (h2 : IsUnit (obsCov (condCov P Z1 H1) Z2 H2).det) :
    condCov P (fromRows Z1 Z2) (fromBlocks H1 0 0 H2) = condCov (condCov P Z1 H1) Z2 H2 := by
  have hF : IsUnit (obsCov P (fromRows Z1 Z2) (fromBlocks H1 0 0 H2)).det := by
    rw [det_two P Z1 Z2 H1 H2 h1]; exact h1.mul h2
  rw [condCov, gain_two P Z1 Z2 H1 H2 h1 h2 hF, fromCols_mul_fromRows]
  conv_rhs => rw [condCov]
  set K2 := condCov P Z1 H1 * Z2ᵀ * (obsCov (condCov P Z1 H1) Z2 H2)⁻¹
  rw [condCov]
  simp only [Matrix.mul_sub, Matrix.sub_mul, Matrix.add_mul, Matrix.mul_assoc]
  abel

theorem obsCov_transpose (hP : Pᵀ = P) {H : Matrix p p ℝ} (hH : Hᵀ = H) (Z : Matrix p n ℝ) :
    (obsCov P Z H)ᵀ = obsCov P Z H := by
  simp [obsCov, hP, hH, Matrix.mul_assoc]

theorem quad_two (hP : Pᵀ = P) (hH1 : H1ᵀ = H1) (h1 : IsUnit (obsCov P Z1 H1).det)
    (h2 : IsUnit (obsCov (condCov P Z1 H1) Z2 H2).det) (v1 : p → ℝ) (v2 : q → ℝ) :
    Sum.elim v1 v2 ⬝ᵥ ((obsCov P (fromRows Z1 Z2) (fromBlocks H1 0 0 H2))⁻¹ *ᵥ Sum.elim v1 v2) =
      v1 ⬝ᵥ ((obsCov P Z1 H1)⁻¹ *ᵥ v1) +
      (v2 - (Z2 * (P * Z1ᵀ * (obsCov P Z1 H1)⁻¹)) *ᵥ v1) ⬝ᵥ ((obsCov (condCov P Z1 H1) Z2 H2)⁻¹ *ᵥ
        (v2 - (Z2 * (P * Z1ᵀ * (obsCov P Z1 H1)⁻¹)) *ᵥ v1)) := by
  have hF : IsUnit (obsCov P (fromRows Z1 Z2) (fromBlocks H1 0 0 H2)).det := by
    rw [det_two P Z1 Z2 H1 H2 h1]; exact h1.mul h2
  set F1 := obsCov P Z1 H1 with hF1
  set F2 := obsCov (condCov P Z1 H1) Z2 H2 with hF2
  set w := v2 - (Z2 * (P * Z1ᵀ * F1⁻¹)) *ᵥ v1 with hw
  have hF1t : F1ᵀ = F1 := obsCov_transpose P hP hH1 Z1
  set x2 := F2⁻¹ *ᵥ w with hx2
  set x1 := F1⁻¹ *ᵥ (v1 - (Z1 * P * Z2ᵀ) *ᵥ x2) with hx1
  have e1 : F1 *ᵥ x1 = v1 - (Z1 * P * Z2ᵀ) *ᵥ x2 := by
    rw [hx1, mulVec_mulVec, mul_nonsing_inv _ h1, one_mulVec]
  have e2 : F2 *ᵥ x2 = w := by rw [hx2, mulVec_mulVec, mul_nonsing_inv _ h2, one_mulVec]
  have hD : obsCov P Z2 H2 = F2 + Z2 * P * Z1ᵀ * F1⁻¹ * (Z1 * P * Z2ᵀ) := by
    rw [hF2]
    rw [obsCov, obsCov, condCov, ← hF1]
    simp only [Matrix.mul_sub, Matrix.sub_mul, Matrix.mul_assoc]
    abel
  have hx : (obsCov P (fromRows Z1 Z2) (fromBlocks H1 0 0 H2))⁻¹ *ᵥ Sum.elim v1 v2 = Sum.elim x1 x2 := by
    have : obsCov P (fromRows Z1 Z2) (fromBlocks H1 0 0 H2) *ᵥ Sum.elim x1 x2 = Sum.elim v1 v2 := by
      rw [obsCov_two, fromBlocks_mulVec]
      simp only [Sum.elim_comp_inl, Sum.elim_comp_inr]
      congr 1
      · rw [← hF1, e1]; abel
      · rw [hD, add_mulVec, e2, hx1, hw]
        simp only [mulVec_sub, ← mulVec_mulVec, Matrix.mul_assoc]
        abel
    rw [← this, mulVec_mulVec, nonsing_inv_mul _ hF, one_mulVec]
  rw [hx, sumElim_dotProduct_sumElim]
  have h3 : v1 ⬝ᵥ x1 = v1 ⬝ᵥ (F1⁻¹ *ᵥ v1) - ((Z2 * (P * Z1ᵀ * F1⁻¹)) *ᵥ v1) ⬝ᵥ x2 := by
    rw [hx1, mulVec_sub, dotProduct_sub]
    congr 1
    rw [mulVec_mulVec, dotProduct_mulVec]
    congr 1
    rw [← mulVec_transpose]
    congr 1
    simp only [transpose_mul, transpose_transpose, hP, transpose_nonsing_inv, hF1t, Matrix.mul_assoc]
  rw [h3, hw, sub_dotProduct]
  ring

theorem gaussLogDensity_two (hP : Pᵀ = P) (hH1 : H1ᵀ = H1) (h1 : 0 < (obsCov P Z1 H1).det)
    (h2 : 0 < (obsCov (condCov P Z1 H1) Z2 H2).det) (y1 d1 : p → ℝ) (y2 d2 : q → ℝ) :
    gaussLogDensity (obsCov P (fromRows Z1 Z2) (fromBlocks H1 0 0 H2))
        (Sum.elim y1 y2 - Sum.elim d1 d2 - fromRows Z1 Z2 *ᵥ a) =
      gaussLogDensity (obsCov P Z1 H1) (y1 - d1 - Z1 *ᵥ a) +
      gaussLogDensity (obsCov (condCov P Z1 H1) Z2 H2) (y2 - d2 - Z2 *ᵥ condMean a P y1 d1 Z1 H1) := by
  have hv : (Sum.elim y1 y2 - Sum.elim d1 d2 - fromRows Z1 Z2 *ᵥ a : p ⊕ q → ℝ) =
      Sum.elim (y1 - d1 - Z1 *ᵥ a) (y2 - d2 - Z2 *ᵥ a) := by
    rw [fromRows_mulVec]; funext i; cases i <;> rfl
  have hw : y2 - d2 - Z2 *ᵥ condMean a P y1 d1 Z1 H1 =
      y2 - d2 - Z2 *ᵥ a - (Z2 * (P * Z1ᵀ * (obsCov P Z1 H1)⁻¹)) *ᵥ (y1 - d1 - Z1 *ᵥ a) := by
    rw [condMean, mulVec_add, mulVec_mulVec]; abel
  rw [hv, hw, gaussLogDensity, gaussLogDensity, gaussLogDensity,
    quad_two P Z1 Z2 H1 H2 hP hH1 h1.ne'.isUnit h2.ne'.isUnit, det_two P Z1 Z2 H1 H2 h1.ne'.isUnit,
    Real.log_mul h1.ne' h2.ne', Fintype.card_sum]
  push_cast
  ring

end two

end Verif.Kalman.Spec
