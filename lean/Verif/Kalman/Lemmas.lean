import Verif.Kalman.Model
import Mathlib.LinearAlgebra.Matrix.PosDef
import Mathlib.Algebra.Order.Star.Real
import Mathlib.Tactic.FinCases
import Mathlib.Tactic.Linarith
import Mathlib.Tactic.LinearCombination

/-! Helper lemmas for the Kalman filter model (not property statements). -/

open Matrix

set_option linter.unusedSectionVars false

namespace Verif.Kalman

variable {n p r : Type*} [Fintype n] [Fintype p] [Fintype r] [DecidableEq n] [DecidableEq p] [DecidableEq r]

theorem isHermitian_iff_transpose {A : Matrix n n ℝ} : A.IsHermitian ↔ Aᵀ = A := by
  rw [Matrix.IsHermitian, conjTranspose_eq_transpose_of_trivial]

theorem PosSemidef.transpose_eq {A : Matrix n n ℝ} (h : A.PosSemidef) : Aᵀ = A :=
  isHermitian_iff_transpose.1 h.isHermitian

theorem quadFormSym_of_symm (A : Matrix n p ℝ) {B : Matrix p p ℝ} (hB : Bᵀ = B) :
    quadFormSym A B = A * B * Aᵀ := by
  have h : (A * B * Aᵀ)ᵀ = A * B * Aᵀ := by
    rw [transpose_mul, transpose_mul, transpose_transpose, hB, Matrix.mul_assoc]
  rw [quadFormSym, h, ← two_smul ℝ, smul_smul]
  norm_num

theorem quadFormSym_posSemidef (A : Matrix n p ℝ) {B : Matrix p p ℝ} (hB : B.PosSemidef) :
    (quadFormSym A B).PosSemidef := by
  rw [quadFormSym_of_symm A (PosSemidef.transpose_eq hB)]
  have := hB.mul_mul_conjTranspose_same A
  rwa [conjTranspose_eq_transpose_of_trivial] at this

theorem stabilize_posSemidef {j : ℝ} (hj : 0 ≤ j) {A : Matrix n n ℝ} (hA : A.PosSemidef) :
    (stabilize j A).PosSemidef :=
  hA.add (Matrix.PosSemidef.one.smul hj)

theorem stabilize_zero (A : Matrix n n ℝ) : stabilize 0 A = A := by simp [stabilize]

/-- No covariance between missing and observed series. -/
def Decoupled (fill : ℝ) (y : Row p) (H : Matrix p p ℝ) : Prop :=
  ∀ i k, nanMask fill y i → ¬ nanMask fill y k → H i k = 0

theorem maskH_eq (fill : ℝ) (y : Row p) {H : Matrix p p ℝ} (hs : Hᵀ = H) (hd : Decoupled fill y H) :
    maskW fill y * H = maskW fill y * H * (maskW fill y)ᵀ := by
  ext i k
  have hs' : H i k = H k i := by conv_lhs => rw [← hs, transpose_apply]
  simp only [maskW, diagonal_transpose, diagonal_mul, mul_diagonal]
  by_cases hi : nanMask fill y i <;> by_cases hk : nanMask fill y k <;> simp [hi, hk]
  rw [hs']; exact hd k i hk hi

theorem maskH_posSemidef (fill : ℝ) (y : Row p) {H : Matrix p p ℝ} (hH : H.PosSemidef) (hd : Decoupled fill y H) :
    (maskW fill y * H).PosSemidef := by
  rw [maskH_eq fill y (PosSemidef.transpose_eq hH) hd]
  have := hH.mul_mul_conjTranspose_same (maskW fill y)
  rwa [conjTranspose_eq_transpose_of_trivial] at this

theorem update_P_posSemidef {j : ℝ} (a : n → ℝ) {P : Matrix n n ℝ} (hP : P.PosSemidef) (y d : p → ℝ)
    (Z : Matrix p n ℝ) {H : Matrix p p ℝ} (hH : H.PosSemidef) (f : Prop) :
    (update j a P y d Z H f).P.PosSemidef :=
  (quadFormSym_posSemidef _ hP).add (quadFormSym_posSemidef _ hH)

theorem kalmanStep_posSemidef {j fill : ℝ} (hj : 0 ≤ j) (y : Row p) (a : n → ℝ) {P : Matrix n n ℝ}
    (hP : P.PosSemidef) (θ : Params n p r) (hH : θ.H.PosSemidef) (hQ : θ.Q.PosSemidef)
    (hd : Decoupled fill y θ.H) :
    (kalmanStep j fill y a P θ).PFilt.PosSemidef ∧ (kalmanStep j fill y a P θ).PHat.PosSemidef := by
  have h1 : (kalmanStep j fill y a P θ).PFilt.PosSemidef :=
    stabilize_posSemidef hj (update_P_posSemidef a hP _ _ _ (maskH_posSemidef fill y hH hd) _)
  exact ⟨h1, (quadFormSym_posSemidef _ h1).add (quadFormSym_posSemidef _ hQ)⟩

theorem filterScan_posSemidef {j fill : ℝ} (hj : 0 ≤ j) (rows : List (Row p × Params n p r)) :
    ∀ (a : n → ℝ) (P : Matrix n n ℝ), P.PosSemidef →
    (∀ x ∈ rows, x.2.H.PosSemidef ∧ x.2.Q.PosSemidef ∧ Decoupled fill x.1 x.2.H) →
    ∀ o ∈ filterScan j fill a P rows, o.PFilt.PosSemidef ∧ o.PHat.PosSemidef := by
  induction rows with
  | nil => intro a P _ _ o ho; simp [filterScan] at ho
  | cons x rest ih =>
    intro a P hP hx o ho
    obtain ⟨y, θ⟩ := x
    have h0 := hx (y, θ) (by simp)
    have hs := kalmanStep_posSemidef (fill := fill) hj y a hP θ h0.1 h0.2.1 h0.2.2
    simp only [filterScan, List.mem_cons] at ho
    rcases ho with rfl | ho
    · exact hs
    · exact ih _ _ hs.2 (fun x hx' => hx x (by simp [hx'])) o ho

theorem kalmanStep_obsCov_posDef {j fill : ℝ} (hj : 0 < j) (y : Row p) (a : n → ℝ) {P : Matrix n n ℝ}
    (hP : P.PosSemidef) (θ : Params n p r) (hH : θ.H.PosSemidef)
    (hd : Decoupled fill y θ.H) :
    (kalmanStep j fill y a P θ).obsCov.PosDef := by
  have h1 : (maskW fill y * θ.Z * P * (maskW fill y * θ.Z)ᵀ).PosSemidef := by
    have := hP.mul_mul_conjTranspose_same (maskW fill y * θ.Z)
    rwa [conjTranspose_eq_transpose_of_trivial] at this
  have h2 := maskH_posSemidef fill y hH hd
  have h3 : (j • (1 : Matrix p p ℝ)).PosDef := Matrix.PosDef.one.smul hj
  have h4 : (kalmanStep j fill y a P θ).obsCov =
      (maskW fill y * θ.Z * P * (maskW fill y * θ.Z)ᵀ + maskW fill y * θ.H) + j • (1 : Matrix p p ℝ) := by
    simp [kalmanStep, update, innovCov, handleMissing, stabilize, Matrix.mul_assoc, add_assoc]
  rw [h4]
  exact Matrix.PosDef.posSemidef_add (h1.add h2) h3

theorem filterScan_obsCov_posDef {j fill : ℝ} (hj : 0 < j) (rows : List (Row p × Params n p r)) :
    ∀ (a : n → ℝ) (P : Matrix n n ℝ), P.PosSemidef →
    (∀ x ∈ rows, x.2.H.PosSemidef ∧ x.2.Q.PosSemidef ∧ Decoupled fill x.1 x.2.H) →
    ∀ o ∈ filterScan j fill a P rows, o.obsCov.PosDef := by
  induction rows with
  | nil => intro a P _ _ o ho; simp [filterScan] at ho
  | cons x rest ih =>
    intro a P hP hx o ho
    obtain ⟨y, θ⟩ := x
    have h0 := hx (y, θ) (by simp)
    simp only [filterScan, List.mem_cons] at ho
    rcases ho with rfl | ho
    · exact kalmanStep_obsCov_posDef hj y a hP θ h0.1 h0.2.2
    · exact ih _ _ (kalmanStep_posSemidef (fill := fill) hj.le y a hP θ h0.1 h0.2.1 h0.2.2).2
        (fun x hx' => hx x (by simp [hx'])) o ho

theorem gain_eq {P : Matrix n n ℝ} (Z : Matrix p n ℝ) (F : Matrix p p ℝ) :
    gain P Z F = P * Zᵀ * F⁻¹ := by
  rw [gain, transpose_mul, transpose_transpose, transpose_nonsing_inv, transpose_transpose]

theorem innovCov_symm {j : ℝ} {P : Matrix n n ℝ} (hP : Pᵀ = P) (Z : Matrix p n ℝ) {H : Matrix p p ℝ} (hH : Hᵀ = H) :
    (innovCov j P Z H)ᵀ = innovCov j P Z H := by
  simp [innovCov, stabilize, hP, hH, Matrix.mul_assoc]

/-- Joseph form with an arbitrary invertible `F = Z P Zᵀ + H`. -/
theorem joseph_eq {P : Matrix n n ℝ} (hP : Pᵀ = P) (Z : Matrix p n ℝ) {H : Matrix p p ℝ} (hH : Hᵀ = H)
    (hF : IsUnit (Z * P * Zᵀ + H).det) :
    quadFormSym (1 - gain P Z (Z * P * Zᵀ + H) * Z) P + quadFormSym (gain P Z (Z * P * Zᵀ + H)) H =
      P - P * Zᵀ * (Z * P * Zᵀ + H)⁻¹ * Z * P := by
  rw [quadFormSym_of_symm _ hP, quadFormSym_of_symm _ hH, gain_eq]
  set F := Z * P * Zᵀ + H with hFd
  have hFt : Fᵀ = F := by rw [hFd]; simp [hP, hH, Matrix.mul_assoc]
  have hHF : H = F - Z * P * Zᵀ := by rw [hFd]; abel
  set K := P * Zᵀ * F⁻¹ with hK
  have hKF : K * F = P * Zᵀ := by rw [hK, Matrix.mul_assoc, nonsing_inv_mul F hF, Matrix.mul_one]
  have hKt : Kᵀ = F⁻¹ * (Z * P) := by
    rw [hK, transpose_mul, transpose_nonsing_inv, hFt, transpose_mul, transpose_transpose, hP]
  have e1 : (1 - K * Z) * P * (1 - K * Z)ᵀ + K * H * Kᵀ = P - K * Z * P - P * Zᵀ * Kᵀ + K * F * Kᵀ := by
    rw [hHF]
    simp only [transpose_sub, transpose_one, transpose_mul]
    simp only [Matrix.mul_sub, Matrix.sub_mul, Matrix.mul_assoc, Matrix.one_mul, Matrix.mul_one]
    abel
  rw [e1, hKF]
  abel

end Verif.Kalman
