import Verif.Kalman.Lemmas
import Verif.Kalman.Spec
import Mathlib.Data.Matrix.Block
import Mathlib.Data.Matrix.ColumnRowPartitioned
import Mathlib.LinearAlgebra.Matrix.SchurComplement
import Mathlib.Logic.Equiv.Sum

/-!
Partially missing rows: C04 and the missing-data part of C05.
-/

open Matrix

set_option linter.unusedSectionVars false

namespace Verif.Kalman

variable {n p r : Type*} [Fintype n] [Fintype p] [Fintype r] [DecidableEq n] [DecidableEq p] [DecidableEq r]

/-- The series observed in row `y`. -/
abbrev Spec.Obs (fill : ℝ) (y : Row p) := {i : p // ¬ Spec.Missing fill (y i)}

/-- The series missing in row `y`. -/
abbrev Spec.Mis (fill : ℝ) (y : Row p) := {i : p // ¬ ¬ Spec.Missing fill (y i)}

/-- The state-space model with only the series in `o ⊆ p` left: rows of `d`, `Z`, `H` (and columns of `H`) outside `o`
are deleted. -/
def Spec.deleteSeries (θ : Params n p r) (o : p → Prop) : Params n {i : p // o i} r where
  c := θ.c
  d := fun i => θ.d i
  T := θ.T
  Z := fun i k => θ.Z i k
  R := θ.R
  H := fun i k => θ.H i k
  Q := θ.Q

section blocks

variable {o m : Type*} [Fintype o] [Fintype m] [DecidableEq o] [DecidableEq m] (e : o ⊕ m ≃ p)

theorem gain_reindex (P : Matrix n n ℝ) (Z : Matrix p n ℝ) (F : Matrix p p ℝ) :
    (gain P Z F).submatrix id e = gain P (Z.submatrix e id) (F.submatrix e e) := by
  rw [gain_eq, gain_eq, ← submatrix_mul_equiv _ _ id e e, inv_submatrix_equiv]
  congr 1

theorem gain_blocks (P : Matrix n n ℝ) (Zo : Matrix o n ℝ) (Fo : Matrix o o ℝ) (hFo : IsUnit Fo) (D : Matrix m m ℝ)
    (hD : IsUnit D) :
    gain P (fromRows Zo (0 : Matrix m n ℝ)) (fromBlocks Fo 0 0 D) = fromCols (gain P Zo Fo) 0 := by
  rw [gain_eq, gain_eq, inv_fromBlocks_zero₂₁_of_isUnit_iff _ _ _ (by simp [hFo, hD]), transpose_fromRows, mul_fromCols,
    fromCols_mul_fromBlocks]
  simp

theorem quadFormSym_reindex (K : Matrix n p ℝ) (H : Matrix p p ℝ) :
    quadFormSym K H = quadFormSym (K.submatrix id e) (H.submatrix e e) := by
  have h : K * H * Kᵀ = K.submatrix id e * H.submatrix e e * (K.submatrix id e)ᵀ := by
    rw [submatrix_mul_equiv, transpose_submatrix, submatrix_mul_equiv]; rfl
  rw [quadFormSym, quadFormSym, h]

theorem innovCov_blocks {j : ℝ} {P : Matrix n n ℝ} {Z : Matrix p n ℝ} {H : Matrix p p ℝ} {Zo : Matrix o n ℝ}
    {Ho : Matrix o o ℝ} (hZ : Z.submatrix e id = fromRows Zo 0) (hH : H.submatrix e e = fromBlocks Ho 0 0 0) :
    (innovCov j P Z H).submatrix e e = fromBlocks (innovCov j P Zo Ho) 0 0 (j • 1) := by
  have h1 : (innovCov j P Z H).submatrix e e = innovCov j P (Z.submatrix e id) (H.submatrix e e) := by
    ext i k; simp [innovCov, stabilize, Matrix.mul_apply, Matrix.one_apply]
  rw [h1, hZ, hH, innovCov, innovCov, stabilize, stabilize, transpose_fromRows, mul_fromCols, fromRows_mul_fromCols,
    ← fromBlocks_one, fromBlocks_smul, fromBlocks_add, fromBlocks_add]
  simp

theorem gain_masked {j : ℝ} (hj : j ≠ 0) {P : Matrix n n ℝ} {Z : Matrix p n ℝ} {H : Matrix p p ℝ} {Zo : Matrix o n ℝ}
    {Ho : Matrix o o ℝ} (hZ : Z.submatrix e id = fromRows Zo 0) (hH : H.submatrix e e = fromBlocks Ho 0 0 0)
    (hF : IsUnit (innovCov j P Zo Ho)) :
    (gain P Z (innovCov j P Z H)).submatrix id e = fromCols (gain P Zo (innovCov j P Zo Ho)) 0 := by
  rw [gain_reindex, innovCov_blocks e hZ hH, hZ]
  refine gain_blocks _ _ _ hF _ ?_
  rw [isUnit_iff_isUnit_det, det_smul, det_one, mul_one]
  exact (isUnit_iff_ne_zero.2 hj).pow _

theorem update_masked {j : ℝ} (hj : j ≠ 0) (a : n → ℝ) {P : Matrix n n ℝ} (y d : p → ℝ) {Z : Matrix p n ℝ}
    {H : Matrix p p ℝ} {Zo : Matrix o n ℝ}
    {Ho : Matrix o o ℝ} (hZ : Z.submatrix e id = fromRows Zo 0) (hH : H.submatrix e e = fromBlocks Ho 0 0 0)
    (hF : IsUnit (innovCov j P Zo Ho)) (f f' : Prop) :
    (update j a P y d Z H f).a =
        (update j a P (fun i => y (e (.inl i))) (fun i => d (e (.inl i))) Zo Ho f').a ∧
      (update j a P y d Z H f).P =
        (update j a P (fun i => y (e (.inl i))) (fun i => d (e (.inl i))) Zo Ho f').P := by
  have hK := gain_masked e hj hZ hH hF
  set K := gain P Z (innovCov j P Z H) with hKd
  set Ko := gain P Zo (innovCov j P Zo Ho) with hKo
  have hKv : ∀ v : p → ℝ, K *ᵥ v = Ko *ᵥ fun i => v (e (.inl i)) := by
    intro v
    have h : K *ᵥ v = K.submatrix id e *ᵥ (v ∘ e) := by
      rw [submatrix_mulVec_equiv]; simp [Function.comp_assoc]
    rw [h, hK, fromCols_mulVec]
    simp; rfl
  have hKZ : K * Z = Ko * Zo := by
    have h : K * Z = K.submatrix id e * Z.submatrix e id := by rw [submatrix_mul_equiv]; rfl
    rw [h, hK, hZ, fromCols_mul_fromRows]; simp
  have hKH : quadFormSym K H = quadFormSym Ko Ho := by
    rw [quadFormSym_reindex e, hK, hH, quadFormSym, quadFormSym, transpose_fromCols, fromCols_mul_fromBlocks,
      fromCols_mul_fromRows]
    simp
  have hZa : ∀ i, (Z *ᵥ a) (e (.inl i)) = (Zo *ᵥ a) i := by
    intro i
    have := congrFun (congrArg (· *ᵥ a) hZ) (.inl i)
    simp only [fromRows_mulVec, Sum.elim_inl] at this
    exact this
  constructor
  · show a + K *ᵥ (y - (d + Z *ᵥ a)) = a + Ko *ᵥ (_ - (_ + Zo *ᵥ a))
    rw [hKv]; congr 2; funext i; simp [hZa]
  · show quadFormSym (1 - K * Z) P + quadFormSym K H = quadFormSym (1 - Ko * Zo) P + quadFormSym Ko Ho
    rw [hKZ, hKH]

theorem det_masked {j : ℝ} {P : Matrix n n ℝ} {Z : Matrix p n ℝ} {H : Matrix p p ℝ} {Zo : Matrix o n ℝ}
    {Ho : Matrix o o ℝ} (hZ : Z.submatrix e id = fromRows Zo 0) (hH : H.submatrix e e = fromBlocks Ho 0 0 0) :
    (innovCov j P Z H).det = (innovCov j P Zo Ho).det * j ^ Fintype.card m := by
  rw [← det_submatrix_equiv_self e, innovCov_blocks e hZ hH, det_fromBlocks_zero₂₁, det_smul, det_one, mul_one]

theorem quad_masked {j : ℝ} (hj : j ≠ 0) {P : Matrix n n ℝ} {Z : Matrix p n ℝ} {H : Matrix p p ℝ} {Zo : Matrix o n ℝ}
    {Ho : Matrix o o ℝ} (hZ : Z.submatrix e id = fromRows Zo 0) (hH : H.submatrix e e = fromBlocks Ho 0 0 0)
    (hF : IsUnit (innovCov j P Zo Ho)) (v : p → ℝ) :
    v ⬝ᵥ ((innovCov j P Z H)⁻¹ *ᵥ v) =
      (fun i => v (e (.inl i))) ⬝ᵥ ((innovCov j P Zo Ho)⁻¹ *ᵥ fun i => v (e (.inl i))) +
        ∑ i : m, v (e (.inr i)) ^ 2 / j := by
  set F := innovCov j P Z H with hFd
  have hD : IsUnit (j • (1 : Matrix m m ℝ)) := by
    rw [isUnit_iff_isUnit_det, det_smul, det_one, mul_one]
    exact (isUnit_iff_ne_zero.2 hj).pow _
  have hDi : (j • (1 : Matrix m m ℝ))⁻¹ = j⁻¹ • 1 := by
    apply inv_eq_right_inv; simp [hj]
  have h1 : v ⬝ᵥ (F⁻¹ *ᵥ v) = (v ∘ e) ⬝ᵥ ((F.submatrix e e)⁻¹ *ᵥ (v ∘ e)) := by
    rw [inv_submatrix_equiv, submatrix_mulVec_equiv, comp_equiv_dotProduct_comp_equiv]
    simp [Function.comp_assoc]
  have h2 : v ∘ e = Sum.elim (fun i => v (e (.inl i))) (fun i => v (e (.inr i))) := by
    funext i; cases i <;> rfl
  rw [h1, innovCov_blocks e hZ hH, inv_fromBlocks_zero₂₁_of_isUnit_iff _ _ _ (by simp [hF, hD]), hDi, h2,
    fromBlocks_mulVec, sumElim_dotProduct_sumElim]
  simp only [Matrix.mul_zero, Matrix.zero_mul, neg_zero, zero_mulVec, add_zero, zero_add, smul_mulVec, one_mulVec,
    dotProduct_smul, Function.comp_def, Sum.elim_inl, Sum.elim_inr]
  congr 1
  simp only [dotProduct, smul_eq_mul, Finset.mul_sum]
  exact Finset.sum_congr rfl fun i _ => by ring

end blocks

section

open Classical

theorem masked_Z (fill : ℝ) (y : Row p) (Z : Matrix p n ℝ) (H : Matrix p p ℝ) :
    (handleMissing fill y Z H).Z.submatrix (Equiv.sumCompl fun i => ¬ Spec.Missing fill (y i)) id =
      fromRows (Z.submatrix (fun i : Spec.Obs fill y => (i : p)) id) 0 := by
  ext i k
  cases i with
  | inl i =>
    have : ¬ nanMask fill y i := i.2
    simp [handleMissing, maskW, diagonal_mul, this]
  | inr i =>
    have : nanMask fill y i := not_not.1 i.2
    simp [handleMissing, maskW, diagonal_mul, this]

theorem masked_H (fill : ℝ) (y : Row p) {H : Matrix p p ℝ} (hs : Hᵀ = H)
    (hd : ∀ i k, Spec.Missing fill (y i) → ¬ Spec.Missing fill (y k) → H i k = 0) (Z : Matrix p n ℝ) :
    (handleMissing fill y Z H).H.submatrix (Equiv.sumCompl fun i => ¬ Spec.Missing fill (y i))
        (Equiv.sumCompl fun i => ¬ Spec.Missing fill (y i)) =
      fromBlocks (H.submatrix (fun i : Spec.Obs fill y => (i : p)) (fun i : Spec.Obs fill y => (i : p))) 0 0 0 := by
  have hs' : ∀ i k, H i k = H k i := fun i k => by conv_lhs => rw [← hs, transpose_apply]
  ext i k
  cases i with
  | inl i =>
    have hi : ¬ nanMask fill y i := i.2
    cases k with
    | inl k => simp [handleMissing, maskW, diagonal_mul, hi]
    | inr k =>
      have : H i k = 0 := by rw [hs']; exact hd _ _ (not_not.1 k.2) i.2
      simp [handleMissing, maskW, diagonal_mul, this]
  | inr i =>
    have hi : nanMask fill y i := not_not.1 i.2
    cases k <;> simp [handleMissing, maskW, diagonal_mul, hi]

theorem handleMissing_deleted (fill : ℝ) (y : Row p) (θ : Params n p r) :
    handleMissing fill (fun i : Spec.Obs fill y => y i)
      (Spec.deleteSeries θ fun i => ¬ Spec.Missing fill (y i)).Z
      (Spec.deleteSeries θ fun i => ¬ Spec.Missing fill (y i)).H =
    { y := fun i => (handleMissing fill y θ.Z θ.H).y i
      Z := θ.Z.submatrix (fun i : Spec.Obs fill y => (i : p)) id
      H := θ.H.submatrix (fun i : Spec.Obs fill y => (i : p)) (fun i : Spec.Obs fill y => (i : p))
      allNan := IsEmpty (Spec.Obs fill y) } := by
  have hW : maskW fill (fun i : Spec.Obs fill y => y i) = 1 := by
    rw [maskW, ← diagonal_one]; congr 1; funext i; exact if_neg i.2
  have hall : (∀ i : Spec.Obs fill y, nanMask fill (fun i : Spec.Obs fill y => y i) i) = IsEmpty (Spec.Obs fill y) := by
    apply propext
    exact ⟨fun h => ⟨fun i => i.2 (h i)⟩, fun h i => (h.false i).elim⟩
  simp only [handleMissing, hW, Matrix.one_mul, hall]
  rfl

theorem reduced_isUnit {j : ℝ} (hj : 0 < j) (fill : ℝ) (y : Row p) {P : Matrix n n ℝ}
    (hP : P.PosSemidef) (θ : Params n p r) (hH : θ.H.PosSemidef) :
    (innovCov j P (θ.Z.submatrix (fun i : Spec.Obs fill y => (i : p)) id)
      (θ.H.submatrix (fun i : Spec.Obs fill y => (i : p)) (fun i : Spec.Obs fill y => (i : p)))).PosDef := by
  have h1 : ((θ.Z.submatrix (fun i : Spec.Obs fill y => (i : p)) id) * P *
      (θ.Z.submatrix (fun i : Spec.Obs fill y => (i : p)) id)ᵀ).PosSemidef := by
    have := hP.mul_mul_conjTranspose_same (θ.Z.submatrix (fun i : Spec.Obs fill y => (i : p)) id)
    rwa [conjTranspose_eq_transpose_of_trivial] at this
  have h2 : (θ.H.submatrix (fun i : Spec.Obs fill y => (i : p)) (fun i : Spec.Obs fill y => (i : p))).PosSemidef :=
    hH.submatrix _
  have h3 : (j • (1 : Matrix (Spec.Obs fill y) (Spec.Obs fill y) ℝ)).PosDef := Matrix.PosDef.one.smul hj
  have h4 := Matrix.PosDef.posSemidef_add (h1.add h2) h3
  rw [innovCov, stabilize, ← add_assoc, ← Matrix.mul_assoc]
  exact h4

/-- **C04.** Deleting the missing series changes nothing: the filter step on a row with missing entries returns the
same filtered and predicted means and covariances as the filter step of the model without those series, provided `H`
has no covariance between missing and observed series. -/
theorem C04_missing_eq_deleted {j : ℝ} (hj : 0 < j) (fill : ℝ) (y : Row p) (a : n → ℝ) {P : Matrix n n ℝ}
    (hP : P.PosSemidef) (θ : Params n p r) (hH : θ.H.PosSemidef)
    (hd : ∀ i k, Spec.Missing fill (y i) → ¬ Spec.Missing fill (y k) → θ.H i k = 0) :
    let full := kalmanStep j fill y a P θ
    let red := kalmanStep j fill (fun i : Spec.Obs fill y => y i) a P
      (Spec.deleteSeries θ fun i => ¬ Spec.Missing fill (y i))
    full.aFilt = red.aFilt ∧ full.PFilt = red.PFilt ∧ full.aHat = red.aHat ∧ full.PHat = red.PHat := by
  intro full red
  have hu := update_masked _ hj.ne' a (handleMissing fill y θ.Z θ.H).y θ.d (masked_Z fill y θ.Z θ.H)
    (masked_H fill y (PosSemidef.transpose_eq hH) hd θ.Z) (reduced_isUnit hj fill y hP θ hH).isUnit
    (handleMissing fill y θ.Z θ.H).allNan (IsEmpty (Spec.Obs fill y))
  have h1 : full.aFilt = red.aFilt := by
    simp only [full, red, kalmanStep, handleMissing_deleted]
    exact hu.1
  have h2 : full.PFilt = red.PFilt := by
    simp only [full, red, kalmanStep, handleMissing_deleted]
    exact congrArg _ hu.2
  refine ⟨h1, h2, ?_, ?_⟩
  · show θ.T *ᵥ full.aFilt + θ.c = θ.T *ᵥ red.aFilt + θ.c
    rw [h1]
  · show quadFormSym θ.T full.PFilt + quadFormSym θ.R θ.Q = quadFormSym θ.T red.PFilt + quadFormSym θ.R θ.Q
    rw [h2]

/-- A row with one missing and one observed series, meets the hypotheses of C04. -/
example : ∃ (θ : Params (Fin 2) (Fin 2) (Fin 2)) (y : Row (Fin 2)), θ.Z ≠ 0 ∧ Spec.Missing (-9999) (y 0) ∧
    ¬ Spec.Missing (-9999) (y 1) ∧ θ.H.PosSemidef ∧ (!![1, 0; 0, 1] : Matrix (Fin 2) (Fin 2) ℝ).PosSemidef ∧
    ∀ i k, Spec.Missing (-9999) (y i) → ¬ Spec.Missing (-9999) (y k) → θ.H i k = 0 := by
  refine ⟨⟨0, 0, 1, 1, 1, 1, 1⟩, ![none, some 3], one_ne_zero, by simp [Spec.Missing], ?_, PosSemidef.one, ?_, ?_⟩
  · show ¬ (some (3 : ℝ) = none ∨ some (3 : ℝ) = some (-9999))
    simp; norm_num
  · rw [← Matrix.one_fin_two]; exact PosSemidef.one
  · intro i k hi hk
    fin_cases i <;> fin_cases k <;> simp_all [Spec.Missing]

/-- **C05 (d).** With at least one observed series in a partially missing row, the reported log-likelihood is that of
the model without the missing series, plus a spurious term `−½ (log j + d_i² / j)` for every missing series `i`. -/
theorem C05_loglik_missing {j : ℝ} (hj : 0 < j) (fill : ℝ) (y : Row p) (hsome : ∃ i, ¬ Spec.Missing fill (y i))
    (a : n → ℝ) {P : Matrix n n ℝ} (hP : P.PosSemidef) (θ : Params n p r) (hH : θ.H.PosSemidef)
    (hd : ∀ i k, Spec.Missing fill (y i) → ¬ Spec.Missing fill (y k) → θ.H i k = 0) :
    (kalmanStep j fill y a P θ).ll =
      (kalmanStep j fill (fun i : Spec.Obs fill y => y i) a P
        (Spec.deleteSeries θ fun i => ¬ Spec.Missing fill (y i))).ll +
      ∑ i : Spec.Mis fill y, -(1 / 2) * (Real.log j + θ.d i ^ 2 / j) := by
  have hFo := reduced_isUnit hj fill y hP θ hH
  have hne : ¬ IsEmpty (Spec.Obs fill y) := by
    intro h; obtain ⟨i, hi⟩ := hsome; exact h.false ⟨i, hi⟩
  have hna : ¬ (handleMissing fill y θ.Z θ.H).allNan := fun h => hsome.elim fun i hi => hi (h i)
  have hZ := masked_Z fill y θ.Z θ.H
  have hHm := masked_H fill y (PosSemidef.transpose_eq hH) hd θ.Z
  simp only [kalmanStep, handleMissing_deleted, update, if_neg hne, if_neg hna]
  rw [det_masked _ hZ hHm, quad_masked _ hj.ne' hZ hHm hFo.isUnit,
    Real.log_mul ((isUnit_iff_isUnit_det _).1 hFo.isUnit).ne_zero (pow_ne_zero _ hj.ne'), Real.log_pow]
  have hvo : (fun i : Spec.Obs fill y => ((handleMissing fill y θ.Z θ.H).y -
        (θ.d + (handleMissing fill y θ.Z θ.H).Z *ᵥ a))
        ((Equiv.sumCompl fun i => ¬ Spec.Missing fill (y i)) (Sum.inl i))) =
      (fun i : Spec.Obs fill y => (handleMissing fill y θ.Z θ.H).y i) -
        ((Spec.deleteSeries θ fun i => ¬ Spec.Missing fill (y i)).d +
          θ.Z.submatrix (fun i : Spec.Obs fill y => (i : p)) id *ᵥ a) := by
    funext i
    have hi : ¬ nanMask fill y i := i.2
    have hz : ((maskW fill y * θ.Z) *ᵥ a) i = (θ.Z *ᵥ a) i := by
      rw [← mulVec_mulVec, maskW, mulVec_diagonal, if_neg hi, one_mul]
    show _ - (θ.d i + ((maskW fill y * θ.Z) *ᵥ a) i) = _
    rw [hz]; rfl
  have hvm : ∀ i : Spec.Mis fill y, ((handleMissing fill y θ.Z θ.H).y -
        (θ.d + (handleMissing fill y θ.Z θ.H).Z *ᵥ a))
        ((Equiv.sumCompl fun i => ¬ Spec.Missing fill (y i)) (Sum.inr i)) = - θ.d i := by
    intro i
    have hi : nanMask fill y i := not_not.1 i.2
    simp [handleMissing, maskW, hi, ← mulVec_mulVec, mulVec_diagonal]
  have hsum : ∑ i : Spec.Mis fill y, -(1 / 2) * (Real.log j + θ.d i ^ 2 / j) =
      -(1 / 2) * (Fintype.card (Spec.Mis fill y) * Real.log j + ∑ i : Spec.Mis fill y, θ.d i ^ 2 / j) := by
    rw [← Finset.mul_sum, Finset.sum_add_distrib, Finset.sum_const, Finset.card_univ, nsmul_eq_mul]
  rw [hvo, hsum]
  simp only [hvm, neg_sq]
  ring

end

end Verif.Kalman
