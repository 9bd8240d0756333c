import Verif.Smoother.Model
import Verif.Kalman.Lemmas
import Mathlib.Analysis.Matrix.Spectrum
import Mathlib.Analysis.Matrix.PosDef

set_option linter.unusedSectionVars false

open Matrix

namespace Verif.Smoother

open Verif.Kalman

variable {n r : Type*} [Fintype n] [Fintype r] [DecidableEq n] [DecidableEq r]

/-- The Moore–Penrose inverse is unique. -/
theorem Penrose.unique {A B C : Matrix n n ℝ} (hB : Penrose A B) (hC : Penrose A C) : B = C := by
  have h1 : A * B = A * C := by
    calc A * B = (A * B)ᵀ := hB.abt.symm
      _ = (A * C * A * B)ᵀ := by rw [hC.aba]
      _ = (A * B)ᵀ * (A * C)ᵀ := by rw [← Matrix.transpose_mul]; simp only [Matrix.mul_assoc]
      _ = A * B * (A * C) := by rw [hB.abt, hC.abt]
      _ = A * B * A * C := by simp only [Matrix.mul_assoc]
      _ = A * C := by rw [hB.aba]
  have h2 : B * A = C * A := by
    calc B * A = (B * A)ᵀ := hB.bat.symm
      _ = (B * (A * C * A))ᵀ := by rw [hC.aba]
      _ = (C * A)ᵀ * (B * A)ᵀ := by rw [← Matrix.transpose_mul]; simp only [Matrix.mul_assoc]
      _ = C * A * (B * A) := by rw [hB.bat, hC.bat]
      _ = C * (A * B * A) := by simp only [Matrix.mul_assoc]
      _ = C * A := by rw [hB.aba]
  calc B = B * A * B := hB.bab.symm
    _ = C * A * B := by rw [h2]
    _ = C * (A * B) := by rw [Matrix.mul_assoc]
    _ = C * (A * C) := by rw [h1]
    _ = C * A * C := by rw [Matrix.mul_assoc]
    _ = C := hC.bab

theorem pinv_eq {A B : Matrix n n ℝ} (h : Penrose A B) : pinv A = B := by
  have he : ∃ B, Penrose A B := ⟨B, h⟩
  rw [pinv, dif_pos he]
  exact he.choose_spec.unique h

/-- Every symmetric matrix has a Moore–Penrose inverse (spectral theorem), so `pinv` satisfies its contract. -/
theorem exists_penrose_of_symm {A : Matrix n n ℝ} (hA : Aᵀ = A) : ∃ B, Penrose A B := by
  have hH : A.IsHermitian := by rw [Matrix.IsHermitian, Matrix.conjTranspose_eq_transpose_of_trivial, hA]
  let U : Matrix n n ℝ := hH.eigenvectorUnitary
  let lam := hH.eigenvalues
  have hU1 : Uᵀ * U = 1 := by
    have := hH.eigenvectorUnitary.2
    rw [Matrix.mem_unitaryGroup_iff'] at this
    simpa [Matrix.star_eq_conjTranspose, Matrix.conjTranspose_eq_transpose_of_trivial] using this
  have hspec : A = U * Matrix.diagonal lam * Uᵀ := by
    have := hH.spectral_theorem
    rw [Unitary.conjStarAlgAut_apply] at this
    simpa [Matrix.star_eq_conjTranspose, Matrix.conjTranspose_eq_transpose_of_trivial, Function.comp_def] using this
  have prod : ∀ D E : n → ℝ, U * Matrix.diagonal D * Uᵀ * (U * Matrix.diagonal E * Uᵀ) =
      U * Matrix.diagonal (fun i => D i * E i) * Uᵀ := by
    intro D E
    calc U * Matrix.diagonal D * Uᵀ * (U * Matrix.diagonal E * Uᵀ)
        = U * Matrix.diagonal D * (Uᵀ * U) * Matrix.diagonal E * Uᵀ := by simp only [Matrix.mul_assoc]
      _ = U * (Matrix.diagonal D * Matrix.diagonal E) * Uᵀ := by rw [hU1, Matrix.mul_one]; simp only [Matrix.mul_assoc]
      _ = _ := by rw [Matrix.diagonal_mul_diagonal]
  have tr : ∀ D : n → ℝ, (U * Matrix.diagonal D * Uᵀ)ᵀ = U * Matrix.diagonal D * Uᵀ := by
    intro D; simp [Matrix.transpose_mul, Matrix.mul_assoc]
  refine ⟨U * Matrix.diagonal (fun i => (lam i)⁻¹) * Uᵀ, ?_, ?_, ?_, ?_⟩
  · rw [hspec, prod, prod]; congr 3; funext i
    by_cases h : lam i = 0 <;> simp [h]
  · rw [hspec, prod, prod]; congr 3; funext i
    by_cases h : lam i = 0 <;> simp [h]
  · rw [hspec, prod, tr]
  · rw [hspec, prod, tr]

theorem pinv_penrose {A : Matrix n n ℝ} (hA : Aᵀ = A) : Penrose A (pinv A) := by
  have he := exists_penrose_of_symm hA
  rw [pinv, dif_pos he]; exact he.choose_spec

theorem pinv_symm {A : Matrix n n ℝ} (hA : Aᵀ = A) : (pinv A)ᵀ = pinv A := by
  have h := pinv_penrose hA
  have : Penrose A (pinv A)ᵀ :=
    ⟨by have := congrArg Matrix.transpose h.aba; simpa [Matrix.transpose_mul, hA, Matrix.mul_assoc] using this,
     by have := congrArg Matrix.transpose h.bab; simpa [Matrix.transpose_mul, hA, Matrix.mul_assoc] using this,
     by have := h.bat; rw [Matrix.transpose_mul, hA] at this; rw [this, Matrix.transpose_mul, hA, this],
     by have := h.abt; rw [Matrix.transpose_mul, hA] at this; rw [this, Matrix.transpose_mul, hA, this]⟩
  exact this.unique h

theorem pinv_of_isUnit {A : Matrix n n ℝ} (h : IsUnit A.det) : pinv A = A⁻¹ := by
  apply pinv_eq
  have h1 := Matrix.mul_nonsing_inv A h
  have h2 := Matrix.nonsing_inv_mul A h
  exact ⟨by rw [h1, Matrix.one_mul], by rw [h2, Matrix.one_mul], by rw [h1, Matrix.transpose_one],
    by rw [h2, Matrix.transpose_one]⟩

theorem quadFormSym_symm {m k : Type*} [Fintype m] [Fintype k] (A : Matrix m k ℝ) (B : Matrix k k ℝ) :
    (quadFormSym A B)ᵀ = quadFormSym A B := by
  rw [quadFormSym, Matrix.transpose_smul, Matrix.transpose_add, Matrix.transpose_transpose, add_comm]

theorem predict_symm (j : ℝ) (a : n → ℝ) (P : Matrix n n ℝ) (θ : Params n r) :
    (predict j a P θ).2ᵀ = (predict j a P θ).2 := by
  simp [predict, stabilize, quadFormSym_symm]

theorem scan_length (j dj : ℝ) (l : List (((n → ℝ) × Matrix n n ℝ) × Params n r)) :
    ∀ s, (scan j dj s l).length = l.length := by
  induction l with
  | nil => intro s; rfl
  | cons x xs ih => intro s; obtain ⟨f, θ⟩ := x; simp [scan, ih]

theorem scan_getElem (j dj : ℝ) (l : List (((n → ℝ) × Matrix n n ℝ) × Params n r)) :
    ∀ s i (hi : i < l.length), ∃ q, (s :: scan j dj s l)[i]? = some q ∧
      (s :: scan j dj s l)[i + 1]? = some (step j dj l[i].1.1 l[i].1.2 q.1 q.2 l[i].2) := by
  induction l with
  | nil => intro s i hi; simp at hi
  | cons x xs ih =>
    intro s i hi
    obtain ⟨f, θ⟩ := x
    cases i with
    | zero => exact ⟨s, by simp, by simp [scan]⟩
    | succ i =>
      obtain ⟨q, h1, h2⟩ := ih (step j dj f.1 f.2 s.1 s.2 θ) i (by simpa using hi)
      exact ⟨q, by simpa [scan] using h1, by simpa [scan] using h2⟩

/-- With zero default jitter the step's covariance in Joseph form. -/
theorem step_cov_joseph (j dj : ℝ) (a : n → ℝ) {P : Matrix n n ℝ} (hP : Pᵀ = P) (aS : n → ℝ)
    {PS : Matrix n n ℝ} (hPS : PSᵀ = PS) (θ : Params n r) (hQ : θ.Qᵀ = θ.Q)
    (G : Matrix n n ℝ) (hGdef : G = gain (predict j a P θ).2 P θ.T) :
    (step j dj a P aS PS θ).2 =
      (1 - G * θ.T) * P * (1 - G * θ.T)ᵀ + G * (θ.R * θ.Q * θ.Rᵀ + j • (1 : Matrix n n ℝ)) * Gᵀ + G * PS * Gᵀ
        + (j + dj) • (1 : Matrix n n ℝ) := by
  have hs := predict_symm j a P θ
  have hp := pinv_penrose hs
  have hps := pinv_symm hs
  have hD : (PS - (predict j a P θ).2)ᵀ = PS - (predict j a P θ).2 := by
    rw [Matrix.transpose_sub, hPS, hs]
  have hG : G = P * θ.Tᵀ * pinv (predict j a P θ).2 := by
    simp only [hGdef, gain, Matrix.transpose_mul, hP, hps, Matrix.mul_assoc]
  have hGt : Gᵀ = pinv (predict j a P θ).2 * θ.T * P := by simp [hGdef, gain]
  have hH : (predict j a P θ).2 = θ.T * P * θ.Tᵀ + (θ.R * θ.Q * θ.Rᵀ + j • (1 : Matrix n n ℝ)) := by
    simp only [predict, stabilize, quadFormSym_of_symm _ hP, quadFormSym_of_symm _ hQ, add_assoc]
  have e : (step j dj a P aS PS θ).2 = P + G * (PS - (predict j a P θ).2) * Gᵀ + (j + dj) • (1 : Matrix n n ℝ) := by
    simp only [step, stabilize, quadFormSym_of_symm _ hD, add_smul, hGdef]
    abel
  have hGH : G * (predict j a P θ).2 * Gᵀ = G * θ.T * P := by
    rw [hGt, hG]
    calc P * θ.Tᵀ * pinv (predict j a P θ).2 * (predict j a P θ).2 * (pinv (predict j a P θ).2 * θ.T * P)
        = P * θ.Tᵀ * (pinv (predict j a P θ).2 * (predict j a P θ).2 * pinv (predict j a P θ).2) * θ.T * P := by
          simp only [Matrix.mul_assoc]
      _ = _ := by rw [hp.bab]
  have hGT : P * (G * θ.T)ᵀ = G * θ.T * P := by
    rw [Matrix.transpose_mul, hGt, hG]; simp only [Matrix.mul_assoc]
  rw [e]
  congr 1
  have hN : G * (θ.R * θ.Q * θ.Rᵀ + j • (1 : Matrix n n ℝ)) * Gᵀ =
      G * θ.T * P - G * θ.T * P * (G * θ.T)ᵀ := by
    have : θ.R * θ.Q * θ.Rᵀ + j • (1 : Matrix n n ℝ) = (predict j a P θ).2 - θ.T * P * θ.Tᵀ := by
      rw [hH]; abel
    rw [this, Matrix.mul_sub, Matrix.sub_mul, hGH]
    congr 1
    simp only [Matrix.transpose_mul, Matrix.mul_assoc]
  rw [hN, Matrix.mul_sub, Matrix.sub_mul, hGH, Matrix.transpose_sub, Matrix.transpose_one]
  simp only [Matrix.sub_mul, Matrix.mul_sub, Matrix.one_mul, Matrix.mul_one, hGT]
  have : G * θ.T * P * (G * θ.T)ᵀ = G * θ.T * (P * (G * θ.T)ᵀ) := by rw [Matrix.mul_assoc]
  abel

end Verif.Smoother
