import Verif.Laplace.Cov
import Mathlib.Tactic.Ring
import Mathlib.Tactic.Linarith
import Mathlib.Tactic.FieldSimp
import Mathlib.Tactic.NormNum
import Mathlib.Tactic.FinCases
import Mathlib.Data.Matrix.Reflection
import Mathlib.Analysis.Real.Sqrt

/-!
# Laplace approximation: properties of the covariance
-/

set_option autoImplicit false

open Matrix
open scoped Classical

namespace Verif.Laplace

variable {n : ℕ}

namespace Spec

/-- The four Penrose conditions, which determine the pseudo-inverse. -/
structure IsPinv (M P : Matrix (Fin n) (Fin n) ℝ) : Prop where
  mpm : M * P * M = M
  pmp : P * M * P = P
  mp : (M * P)ᵀ = M * P
  pm : (P * M)ᵀ = P * M

/-- The documented contract of `np.linalg.eig` on a matrix with real eigenvalues: the columns of `V` are eigenvectors of
unit length. -/
structure IsEig (C : Matrix (Fin n) (Fin n) ℝ) (e : (Fin n → ℝ) × Matrix (Fin n) (Fin n) ℝ) : Prop where
  eig : C * e.2 = e.2 * diagonal e.1
  unit : ∀ j, ∑ i, e.2 i j ^ 2 = 1

/-- Eigenvectors belonging to the same eigenvalue are orthogonal (nothing to ask when the eigenvalues are distinct). -/
def OrthWithin (e : (Fin n → ℝ) × Matrix (Fin n) (Fin n) ℝ) : Prop :=
  ∀ j k, j ≠ k → e.1 j = e.1 k → ∑ i, e.2 i j * e.2 i k = 0

/-- Squared Frobenius distance. -/
def dist2 (A B : Matrix (Fin n) (Fin n) ℝ) : ℝ := ∑ i, ∑ j, (A i j - B i j) ^ 2

/-- Entrywise absolute distance. -/
def dist1 (A B : Matrix (Fin n) (Fin n) ℝ) : ℝ := ∑ i, ∑ j, |A i j - B i j|

/-- No entry of the Hessian is a nonzero number below the tolerance. -/
def NoTiny (tol : ℝ) (fhess : Matrix (Fin n) (Fin n) ℝ) : Prop := ∀ i j, fhess i j = 0 ∨ tol ≤ |fhess i j|

end Spec

/-! ### Pseudo-inverse -/

theorem pinv_unique {M P Q : Matrix (Fin n) (Fin n) ℝ} (hP : Spec.IsPinv M P) (hQ : Spec.IsPinv M Q) : P = Q := by
  have h1 : M * P = M * Q := by
    calc M * P = (M * P)ᵀ := hP.mp.symm
      _ = ((M * Q * M) * P)ᵀ := by rw [hQ.mpm]
      _ = (M * P)ᵀ * (M * Q)ᵀ := by rw [← transpose_mul]; congr 1; simp only [Matrix.mul_assoc]
      _ = M * P * (M * Q) := by rw [hP.mp, hQ.mp]
      _ = (M * P * M) * Q := by simp only [Matrix.mul_assoc]
      _ = M * Q := by rw [hP.mpm]
  have h2 : P * M = Q * M := by
    calc P * M = (P * M)ᵀ := hP.pm.symm
      _ = (P * (M * Q * M))ᵀ := by rw [hQ.mpm]
      _ = (Q * M)ᵀ * (P * M)ᵀ := by rw [← transpose_mul]; congr 1; simp only [Matrix.mul_assoc]
      _ = Q * M * (P * M) := by rw [hP.pm, hQ.pm]
      _ = Q * (M * P * M) := by simp only [Matrix.mul_assoc]
      _ = Q * M := by rw [hP.mpm]
  calc P = P * M * P := hP.pmp.symm
    _ = Q * M * P := by rw [h2]
    _ = Q * (M * P) := by rw [Matrix.mul_assoc]
    _ = Q * (M * Q) := by rw [h1]
    _ = Q * M * Q := by rw [Matrix.mul_assoc]
    _ = Q := hQ.pmp

theorem pinv_symm {M P : Matrix (Fin n) (Fin n) ℝ} (hM : Mᵀ = M) (hP : Spec.IsPinv M P) : Pᵀ = P := by
  refine pinv_unique (M := M) ⟨?_, ?_, ?_, ?_⟩ hP
  · have := congrArg transpose hP.mpm
    simpa [transpose_mul, hM, Matrix.mul_assoc] using this
  · have := congrArg transpose hP.pmp
    simpa [transpose_mul, hM, Matrix.mul_assoc] using this
  · have := hP.pm
    rw [transpose_mul, hM] at this
    rw [transpose_mul, transpose_transpose, hM, ← this]
  · have := hP.mp
    rw [transpose_mul, hM] at this
    rw [transpose_mul, transpose_transpose, hM, ← this]

theorem pinv_inv {M : Matrix (Fin n) (Fin n) ℝ} (hM : IsUnit M.det) : Spec.IsPinv M M⁻¹ := by
  have h1 := mul_nonsing_inv M hM
  have h2 := nonsing_inv_mul M hM
  refine ⟨?_, ?_, ?_, ?_⟩
  · rw [h1, Matrix.one_mul]
  · rw [h2, Matrix.one_mul]
  · rw [h1, transpose_one]
  · rw [h2, transpose_one]

/-! ### Preparation -/

theorem threshold_symm {tol : ℝ} {H : Matrix (Fin n) (Fin n) ℝ} (h : Hᵀ = H) : (threshold tol H)ᵀ = threshold tol H := by
  ext i j
  have : H j i = H i j := congrFun (congrFun h i) j
  simp [threshold, transpose_apply, this]

theorem threshold_id {tol : ℝ} {H : Matrix (Fin n) (Fin n) ℝ} (h : Spec.NoTiny tol H) : threshold tol H = H := by
  ext i j
  simp only [threshold, of_apply, Matrix.neg_apply, abs_neg, neg_neg]
  rcases h i j with h | h
  · rw [h]; simp
  · rw [if_neg (not_lt.mpr h)]

theorem lowerMirror_symm {x : Matrix (Fin n) (Fin n) ℝ} (h : xᵀ = x) : lowerMirror x = x := by
  ext i j
  have : x j i = x i j := congrFun (congrFun h i) j
  simp only [lowerMirror, of_apply]
  split
  · rfl
  · exact this

theorem stabilize_symm {x : Matrix (Fin n) (Fin n) ℝ} (h : xᵀ = x) (j : Option ℝ) : (stabilize x j)ᵀ = stabilize x j := by
  cases j with
  | none => exact h
  | some j => simp [stabilize, transpose_add, h]

theorem clip_psd (V : Matrix (Fin n) (Fin n) ℝ) (d : Fin n → ℝ) (hd : ∀ i, 0 ≤ d i) : (V * diagonal d * Vᵀ).PosSemidef := by
  have := (PosSemidef.diagonal (n := Fin n) (R := ℝ) (d := d) hd).mul_mul_conjTranspose_same V
  simpa using this

/-- **C66** The matrix returned by `get_nearest_psd` is symmetric and positive semi-definite, for every square input and
whatever numpy returns as eigenvectors. -/
theorem C66_nearest_is_psd (eig : Matrix (Fin n) (Fin n) ℝ → (Fin n → ℝ) × Matrix (Fin n) (Fin n) ℝ)
    (A : Matrix (Fin n) (Fin n) ℝ) : (nearestPsd eig A).PosSemidef := by
  refine clip_psd _ _ fun i => ?_
  split
  · exact le_rfl
  · next h => exact not_lt.mp h

/-! ### The nearest matrix -/

theorem eig_orthogonal {C : Matrix (Fin n) (Fin n) ℝ} {e : (Fin n → ℝ) × Matrix (Fin n) (Fin n) ℝ} (hC : Cᵀ = C)
    (he : Spec.IsEig C e) (ho : Spec.OrthWithin e) : e.2ᵀ * e.2 = 1 := by
  ext j k
  rw [mul_apply, one_apply]
  simp only [transpose_apply]
  by_cases hjk : j = k
  · subst hjk
    rw [if_pos rfl, ← he.unit j]
    exact Finset.sum_congr rfl fun i _ => by ring
  · rw [if_neg hjk]
    by_cases hl : e.1 j = e.1 k
    · exact ho j k hjk hl
    · -- λ_j ⟨v_j, v_k⟩ = ⟨C v_j, v_k⟩ = ⟨v_j, C v_k⟩ = λ_k ⟨v_j, v_k⟩
      have h1 : e.2ᵀ * (C * e.2) = diagonal e.1 * (e.2ᵀ * e.2) := by
        have := congrArg transpose he.eig
        rw [transpose_mul, transpose_mul, diagonal_transpose, hC] at this
        rw [← Matrix.mul_assoc, this, Matrix.mul_assoc]
      have h2 : e.2ᵀ * (C * e.2) = (e.2ᵀ * e.2) * diagonal e.1 := by rw [he.eig, Matrix.mul_assoc]
      have h3 := congrFun (congrFun (h1.symm.trans h2) j) k
      rw [diagonal_mul, mul_diagonal, mul_apply] at h3
      simp only [transpose_apply] at h3
      have : (e.1 j - e.1 k) * ∑ i, e.2 i j * e.2 i k = 0 := by linarith
      rcases mul_eq_zero.mp this with h | h
      · exact absurd (sub_eq_zero.mp h) hl
      · exact h

theorem eig_decomp {C : Matrix (Fin n) (Fin n) ℝ} {e : (Fin n → ℝ) × Matrix (Fin n) (Fin n) ℝ} (hC : Cᵀ = C)
    (he : Spec.IsEig C e) (ho : Spec.OrthWithin e) : C = e.2 * diagonal e.1 * e.2ᵀ := by
  have h1 := eig_orthogonal hC he ho
  have h2 : e.2 * e.2ᵀ = 1 := mul_eq_one_comm.mp h1
  calc C = C * (e.2 * e.2ᵀ) := by rw [h2, Matrix.mul_one]
    _ = _ := by rw [← Matrix.mul_assoc, he.eig]

/-- The Frobenius inner product. -/
def ip (A B : Matrix (Fin n) (Fin n) ℝ) : ℝ := ∑ i, ∑ j, A i j * B i j

theorem ip_trace (A B : Matrix (Fin n) (Fin n) ℝ) : ip A B = (A * Bᵀ).trace := by
  simp [ip, trace, mul_apply, diag]

theorem dist2_ip (A B : Matrix (Fin n) (Fin n) ℝ) : Spec.dist2 A B = ip (A - B) (A - B) := by
  simp only [Spec.dist2, ip, Matrix.sub_apply, sq]

theorem ip_psd (X V : Matrix (Fin n) (Fin n) ℝ) (hX : X.PosSemidef) (m : Fin n → ℝ) (hm : ∀ i, 0 ≤ m i) :
    0 ≤ ip X (V * diagonal m * Vᵀ) := by
  have hs : (V * diagonal m * Vᵀ)ᵀ = V * diagonal m * Vᵀ := by
    simp [transpose_mul, Matrix.mul_assoc]
  rw [ip_trace, hs]
  have : (X * (V * diagonal m * Vᵀ)).trace = ∑ j, m j * ((fun i => V i j) ⬝ᵥ (X *ᵥ fun i => V i j)) := by
    have e : X * (V * diagonal m * Vᵀ) = (X * V * diagonal m) * Vᵀ := by simp only [Matrix.mul_assoc]
    rw [e, trace_mul_comm]
    rw [trace]
    refine Finset.sum_congr rfl fun j _ => ?_
    rw [diag, ← Matrix.mul_assoc, mul_diagonal, mul_comm]
    congr 1
  rw [this]
  exact Finset.sum_nonneg fun j _ => mul_nonneg (hm j) (by simpa using hX.dotProduct_mulVec_nonneg (fun i => V i j))

theorem ip_zero (V : Matrix (Fin n) (Fin n) ℝ) (hV : Vᵀ * V = 1) (a b : Fin n → ℝ) (hab : ∀ i, a i * b i = 0) :
    ip (V * diagonal a * Vᵀ) (V * diagonal b * Vᵀ) = 0 := by
  have hs : (V * diagonal b * Vᵀ)ᵀ = V * diagonal b * Vᵀ := by simp [transpose_mul, Matrix.mul_assoc]
  rw [ip_trace, hs]
  have : V * diagonal a * Vᵀ * (V * diagonal b * Vᵀ) = V * (diagonal a * diagonal b) * Vᵀ := by
    calc V * diagonal a * Vᵀ * (V * diagonal b * Vᵀ) = V * diagonal a * (Vᵀ * V) * diagonal b * Vᵀ := by
          simp only [Matrix.mul_assoc]
      _ = _ := by rw [hV, Matrix.mul_one]; simp only [Matrix.mul_assoc]
  rw [this, diagonal_mul_diagonal]
  simp [hab]

/-- **C66** `get_nearest_psd` returns the positive semi-definite matrix closest to its argument in the Frobenius norm, and
the only closest one, provided the eigenvectors numpy returns for a repeated eigenvalue are orthogonal: any other positive
semi-definite matrix is farther away by at least its distance from the result. -/
theorem C66_nearest (eig : Matrix (Fin n) (Fin n) ℝ → (Fin n → ℝ) × Matrix (Fin n) (Fin n) ℝ)
    (A X : Matrix (Fin n) (Fin n) ℝ) (hX : X.PosSemidef)
    (he : Spec.IsEig ((1 / 2 : ℝ) • (A + Aᵀ)) (eig ((1 / 2 : ℝ) • (A + Aᵀ))))
    (ho : Spec.OrthWithin (eig ((1 / 2 : ℝ) • (A + Aᵀ)))) :
    Spec.dist2 A (nearestPsd eig A) + Spec.dist2 X (nearestPsd eig A) ≤ Spec.dist2 A X := by
  have hC : ((1 / 2 : ℝ) • (A + Aᵀ))ᵀ = (1 / 2 : ℝ) • (A + Aᵀ) := by
    rw [transpose_smul, transpose_add, transpose_transpose, add_comm]
  have hdec := eig_decomp hC he ho
  have hV := eig_orthogonal hC he ho
  have hYd : nearestPsd eig A = (eig ((1 / 2 : ℝ) • (A + Aᵀ))).2 *
      diagonal (fun i => if (eig ((1 / 2 : ℝ) • (A + Aᵀ))).1 i < 0 then 0 else (eig ((1 / 2 : ℝ) • (A + Aᵀ))).1 i) *
      (eig ((1 / 2 : ℝ) • (A + Aᵀ))).2ᵀ := rfl
  have hYp := C66_nearest_is_psd eig A
  generalize nearestPsd eig A = Y at *
  generalize eig ((1 / 2 : ℝ) • (A + Aᵀ)) = e at *
  obtain ⟨l, V⟩ := e
  simp only at *
  -- the negative part
  have hN : Y - (1 / 2 : ℝ) • (A + Aᵀ) = V * diagonal (fun i => if l i < 0 then -l i else 0) * Vᵀ := by
    rw [hdec, hYd, ← Matrix.sub_mul, ← Matrix.mul_sub, diagonal_sub]
    congr 3
    ext i; split <;> simp
  have hNY : ip Y (Y - (1 / 2 : ℝ) • (A + Aᵀ)) = 0 := by
    rw [hN, hYd]
    refine ip_zero V hV _ _ fun i => ?_
    split <;> simp
  have hNX : 0 ≤ ip X (Y - (1 / 2 : ℝ) • (A + Aᵀ)) := by
    rw [hN]
    refine ip_psd X V hX _ fun i => ?_
    split
    · next h => linarith
    · exact le_rfl
  have sX : ∀ i j, X j i = X i j := fun i j => by
    have := congrFun (congrFun hX.isHermitian i) j
    simpa [conjTranspose_apply] using this
  have sY : ∀ i j, Y j i = Y i j := fun i j => by
    have := congrFun (congrFun hYp.isHermitian i) j
    simpa [conjTranspose_apply] using this
  -- replace the symmetric part by A itself inside inner products with symmetric matrices
  have key : ∀ Z : Matrix (Fin n) (Fin n) ℝ, (∀ i j, Z j i = Z i j) →
      ip Z (Y - (1 / 2 : ℝ) • (A + Aᵀ)) = ip Z (Y - A) := by
    intro Z hZ
    have h1 : ip Z (Y - (1 / 2 : ℝ) • (A + Aᵀ)) = (1 / 2) * ip Z (Y - A) + (1 / 2) * ip Z (Y - Aᵀ) := by
      simp only [ip, Finset.mul_sum, ← Finset.sum_add_distrib]
      refine Finset.sum_congr rfl fun i _ => Finset.sum_congr rfl fun j _ => ?_
      simp only [Matrix.sub_apply, Matrix.smul_apply, Matrix.add_apply, transpose_apply, smul_eq_mul]
      ring
    have h2 : ip Z (Y - Aᵀ) = ip Z (Y - A) := by
      simp only [ip]
      rw [Finset.sum_comm]
      refine Finset.sum_congr rfl fun i _ => Finset.sum_congr rfl fun j _ => ?_
      simp only [Matrix.sub_apply, transpose_apply]
      rw [hZ, sY]
    rw [h1, h2]; ring
  rw [key Y sY] at hNY
  rw [key X sX] at hNX
  have expand : Spec.dist2 A X = Spec.dist2 A Y + Spec.dist2 X Y + 2 * (ip X (Y - A) - ip Y (Y - A)) := by
    simp only [Spec.dist2, ip, ← Finset.sum_sub_distrib, Finset.mul_sum, ← Finset.sum_add_distrib]
    refine Finset.sum_congr rfl fun i _ => Finset.sum_congr rfl fun j _ => ?_
    simp only [Matrix.sub_apply]
    ring
  rw [expand, hNY]
  linarith

/-! ### The covariance -/

/-- **C66** Whenever `fit_mvn_to_MAP` returns, the covariance is symmetric positive semi-definite: for every symmetric
Hessian, tolerance, jitter (also negative) and value of `on_bad_cov`. -/
theorem C66_covariance_psd (pinv : Matrix (Fin n) (Fin n) ℝ → Matrix (Fin n) (Fin n) ℝ)
    (eig : Matrix (Fin n) (Fin n) ℝ → (Fin n → ℝ) × Matrix (Fin n) (Fin n) ℝ) (onBad : String) (tol : ℝ)
    (jitter : Option ℝ) (fhess : Matrix (Fin n) (Fin n) ℝ) (hs : fhessᵀ = fhess)
    (hp : ∀ M, Spec.IsPinv M (pinv M)) (o : Out n) (ho : fitCov pinv eig onBad tol jitter fhess = .ok o) :
    o.cov.PosSemidef := by
  have hsym := stabilize_symm (pinv_symm (threshold_symm (tol := tol) hs) (hp (threshold tol fhess))) jitter
  simp only [fitCov] at ho
  split at ho
  · next h =>
    rw [lowerMirror_symm hsym] at h
    cases ho
    exact h.posSemidef
  · split at ho
    · simp at ho
    · cases ho
      exact C66_nearest_is_psd _ _

/-- **C66** At a point with a positive definite Hessian none of whose nonzero entries is below the tolerance, the
covariance is the inverse of the Hessian of the negative log-posterior plus the jitter, in every mode and without
warning. -/
theorem C66_inverse_hessian (pinv : Matrix (Fin n) (Fin n) ℝ → Matrix (Fin n) (Fin n) ℝ)
    (eig : Matrix (Fin n) (Fin n) ℝ → (Fin n → ℝ) × Matrix (Fin n) (Fin n) ℝ) (onBad : String) (tol j : ℝ) (hj : 0 ≤ j)
    (fhess : Matrix (Fin n) (Fin n) ℝ) (hpd : fhess.PosDef) (ht : Spec.NoTiny tol fhess)
    (hp : ∀ M, Spec.IsPinv M (pinv M)) :
    fitCov pinv eig onBad tol none fhess = .ok ⟨fhess⁻¹, false⟩ ∧
    fitCov pinv eig onBad tol (some j) fhess = .ok ⟨fhess⁻¹ + j • (1 : Matrix (Fin n) (Fin n) ℝ), false⟩ := by
  have hi : pinv fhess = fhess⁻¹ := pinv_unique (hp fhess) (pinv_inv (isUnit_iff_isUnit_det _ |>.mp hpd.isUnit))
  have hpi : (fhess⁻¹).PosDef := hpd.inv
  have hsy : (fhess⁻¹)ᵀ = fhess⁻¹ := by
    have := hpi.isHermitian
    rwa [IsHermitian, conjTranspose_eq_transpose_of_trivial] at this
  constructor
  · simp only [fitCov, threshold_id ht, hi, stabilize, lowerMirror_symm hsy, if_pos hpi]
  · have h2 : (fhess⁻¹ + j • (1 : Matrix (Fin n) (Fin n) ℝ)).PosDef :=
      hpi.add_posSemidef (PosSemidef.one.smul hj)
    have hsy2 : (fhess⁻¹ + j • (1 : Matrix (Fin n) (Fin n) ℝ))ᵀ = fhess⁻¹ + j • (1 : Matrix (Fin n) (Fin n) ℝ) :=
      stabilize_symm hsy (some j)
    simp only [fitCov, threshold_id ht, hi, stabilize, lowerMirror_symm hsy2, if_pos h2]

theorem posDef_of_pinv {M P : Matrix (Fin n) (Fin n) ℝ} (hP : Spec.IsPinv M P) :
    P.PosDef ↔ M.PosDef := by
  constructor
  · intro h
    have hu : IsUnit P.det := isUnit_iff_isUnit_det _ |>.mp h.isUnit
    have h1 : Spec.IsPinv P M := ⟨hP.pmp, hP.mpm, hP.pm, hP.mp⟩
    have : M = P⁻¹ := pinv_unique h1 (pinv_inv hu)
    rw [this]; exact h.inv
  · intro h
    have hu : IsUnit M.det := isUnit_iff_isUnit_det _ |>.mp h.isUnit
    have : P = M⁻¹ := pinv_unique hP (pinv_inv hu)
    rw [this]; exact h.inv

/-- **C66** Without jitter, `on_bad_cov="error"` raises exactly when the Hessian (after zeroing tiny entries) is not
positive *definite*; every other setting never raises. -/
theorem C66_error_iff (pinv : Matrix (Fin n) (Fin n) ℝ → Matrix (Fin n) (Fin n) ℝ)
    (eig : Matrix (Fin n) (Fin n) ℝ → (Fin n → ℝ) × Matrix (Fin n) (Fin n) ℝ) (tol : ℝ) (jitter : Option ℝ)
    (fhess : Matrix (Fin n) (Fin n) ℝ) (hs : fhessᵀ = fhess) (hp : ∀ M, Spec.IsPinv M (pinv M)) :
    (fitCov pinv eig "error" tol none fhess = .error .linAlgError ↔ ¬ (threshold tol fhess).PosDef) ∧
    ∀ onBad, onBad ≠ "error" → ∃ o, fitCov pinv eig onBad tol jitter fhess = .ok o := by
  constructor
  · have hM := threshold_symm (tol := tol) hs
    have hsym := pinv_symm hM (hp (threshold tol fhess))
    rw [← posDef_of_pinv (hp _)]
    simp only [fitCov, stabilize, lowerMirror_symm hsym]
    split
    · next h => simp [h]
    · next h => simp [h]
  · intro onBad h
    simp only [fitCov, if_neg h]
    split <;> exact ⟨_, rfl⟩

/-- **C66** Whenever the covariance is replaced, the replacement is the nearest positive semi-definite matrix to the
(jittered) pseudo-inverse, and a warning is logged exactly under `"warn"`. -/
theorem C66_replacement (pinv : Matrix (Fin n) (Fin n) ℝ → Matrix (Fin n) (Fin n) ℝ)
    (eig : Matrix (Fin n) (Fin n) ℝ → (Fin n → ℝ) × Matrix (Fin n) (Fin n) ℝ) (onBad : String) (tol : ℝ)
    (jitter : Option ℝ) (fhess : Matrix (Fin n) (Fin n) ℝ) (hs : fhessᵀ = fhess) (hp : ∀ M, Spec.IsPinv M (pinv M))
    (he : ∀ C, Cᵀ = C → Spec.IsEig C (eig C) ∧ Spec.OrthWithin (eig C)) (o : Out n)
    (ho : fitCov pinv eig onBad tol jitter fhess = .ok o) :
    (∀ X : Matrix (Fin n) (Fin n) ℝ, X.PosSemidef →
      Spec.dist2 (stabilize (pinv (threshold tol fhess)) jitter) o.cov ≤
        Spec.dist2 (stabilize (pinv (threshold tol fhess)) jitter) X) ∧
    (o.warned = true ↔ onBad = "warn" ∧ ¬ (stabilize (pinv (threshold tol fhess)) jitter).PosDef) := by
  have hsym := stabilize_symm (pinv_symm (threshold_symm (tol := tol) hs) (hp (threshold tol fhess))) jitter
  simp only [fitCov, lowerMirror_symm hsym] at ho
  generalize stabilize (pinv (threshold tol fhess)) jitter = B at *
  split at ho
  · next h =>
    cases ho
    refine ⟨fun X _ => ?_, by simp [h]⟩
    have : Spec.dist2 B B = 0 := by simp [Spec.dist2]
    simp only [this]
    exact Finset.sum_nonneg fun i _ => Finset.sum_nonneg fun j _ => sq_nonneg _
  · next h =>
    split at ho
    · simp at ho
    · next hne =>
      cases ho
      refine ⟨fun X hX => ?_, by simp [h]⟩
      have hC : ((1 / 2 : ℝ) • (B + Bᵀ))ᵀ = (1 / 2 : ℝ) • (B + Bᵀ) := by
        rw [transpose_smul, transpose_add, transpose_transpose, add_comm]
      have := C66_nearest eig B X hX (he _ hC).1 (he _ hC).2
      have h0 : 0 ≤ Spec.dist2 X (nearestPsd eig B) :=
        Finset.sum_nonneg fun i _ => Finset.sum_nonneg fun j _ => sq_nonneg _
      linarith

/-! ### Where the documentation and the code differ -/

/-- **C66** A flat direction: with a zero Hessian and no jitter, the covariance (zero) is positive semi-definite, yet
`on_bad_cov="error"` raises; the documentation promises an error only when it is *not* positive semi-definite. -/
theorem C66_semidefinite_raises (pinv : Matrix (Fin n) (Fin n) ℝ → Matrix (Fin n) (Fin n) ℝ)
    (eig : Matrix (Fin n) (Fin n) ℝ → (Fin n → ℝ) × Matrix (Fin n) (Fin n) ℝ) (tol : ℝ) (hn : 0 < n)
    (hp : ∀ M, Spec.IsPinv M (pinv M)) :
    fitCov pinv eig "error" tol none 0 = .error .linAlgError ∧
    (stabilize (pinv (threshold tol 0)) none).PosSemidef := by
  have h0 : threshold tol (0 : Matrix (Fin n) (Fin n) ℝ) = 0 := by ext i j; simp [threshold]
  have hz : pinv 0 = 0 := pinv_unique (hp 0) ⟨by simp, by simp, by simp, by simp⟩
  constructor
  · rw [(C66_error_iff pinv eig tol none 0 (by simp) hp).1, h0]
    intro h
    have := h.diag_pos (i := ⟨0, hn⟩)
    simp at this
  · rw [h0, hz]; exact PosSemidef.zero

/-- **C66** A weakly identified parameter: if the curvature `h` of a one-parameter posterior is positive but below
`zero_tol`, the reported variance is the jitter, although the inverse curvature exceeds `1 / zero_tol`. -/
theorem C66_weak_curvature (pinv : Matrix (Fin 1) (Fin 1) ℝ → Matrix (Fin 1) (Fin 1) ℝ)
    (eig : Matrix (Fin 1) (Fin 1) ℝ → (Fin 1 → ℝ) × Matrix (Fin 1) (Fin 1) ℝ) (onBad : String) (tol h j : ℝ)
    (hh : 0 < h) (ht : h < tol) (hj : 0 < j) (hp : ∀ M, Spec.IsPinv M (pinv M)) :
    fitCov pinv eig onBad tol (some j) (diagonal fun _ => h) = .ok ⟨diagonal fun _ => j, false⟩ ∧ 1 / tol < 1 / h := by
  have h0 : threshold tol (diagonal fun _ : Fin 1 => h) = 0 := by
    ext a b
    have : a = b := Subsingleton.elim a b
    subst this
    simp [threshold, abs_of_pos hh, ht]
  have hz : pinv 0 = 0 := pinv_unique (hp 0) ⟨by simp, by simp, by simp, by simp⟩
  have hst : stabilize (pinv (threshold tol (diagonal fun _ : Fin 1 => h))) (some j) = diagonal fun _ => j := by
    rw [h0, hz]
    ext a b
    simp [stabilize, diagonal_apply, one_apply]
  have hpd : (diagonal fun _ : Fin 1 => j).PosDef := PosDef.diagonal fun _ => hj
  refine ⟨?_, one_div_lt_one_div_of_lt hh ht⟩
  simp only [fitCov, hst]
  rw [lowerMirror_symm (diagonal_transpose _), if_pos hpd]

/-- The hypotheses above are met with the default tolerance and jitter by a posterior with standard deviation `2·10⁴`. -/
example : (0 : ℝ) < 1 / 400000000 ∧ (1 : ℝ) / 400000000 < 1 / 100000000 := by norm_num

theorem nearest_apply (eig : Matrix (Fin n) (Fin n) ℝ → (Fin n → ℝ) × Matrix (Fin n) (Fin n) ℝ)
    (A : Matrix (Fin n) (Fin n) ℝ) (e : (Fin n → ℝ) × Matrix (Fin n) (Fin n) ℝ)
    (he : eig ((1 / 2 : ℝ) • (A + Aᵀ)) = e) (i j : Fin n) :
    nearestPsd eig A i j = ∑ k, e.2 i k * (if e.1 k < 0 then 0 else e.1 k) * e.2 j k := by
  simp only [nearestPsd, he]
  rw [mul_apply]
  refine Finset.sum_congr rfl fun k _ => ?_
  rw [mul_diagonal, transpose_apply]

/-- **C66** The replacement is nearest in the Frobenius norm (as `get_nearest_psd` says) but not in the entrywise L1 norm
(as `fit_laplace` says): with orthonormal eigenvectors, `[[3, 2], [2, 0]]` is replaced by a matrix at L1 distance `9/5`,
while a positive semi-definite matrix at L1 distance `4/3` exists. -/
theorem C66_not_l1_nearest : ∃ (eig : Matrix (Fin 2) (Fin 2) ℝ → (Fin 2 → ℝ) × Matrix (Fin 2) (Fin 2) ℝ)
    (A X : Matrix (Fin 2) (Fin 2) ℝ), Aᵀ = A ∧ Spec.IsEig A (eig A) ∧ Spec.OrthWithin (eig A) ∧ X.PosSemidef ∧
      Spec.dist1 A X < Spec.dist1 A (nearestPsd eig A) := by
  have h5 : Real.sqrt 5 * Real.sqrt 5 = 5 := Real.mul_self_sqrt (by norm_num)
  have hne : Real.sqrt 5 ≠ 0 := by positivity
  have hC : (1 / 2 : ℝ) • ((!![3, 2; 2, 0] : Matrix (Fin 2) (Fin 2) ℝ) + (!![3, 2; 2, 0])ᵀ) = !![3, 2; 2, 0] := by
    ext i j; fin_cases i <;> fin_cases j <;> norm_num [transpose_apply]
  refine ⟨fun _ => (![4, -1], (Real.sqrt 5)⁻¹ • !![2, 1; 1, -2]), !![3, 2; 2, 0], !![3, 2; 2, 4 / 3], ?_, ⟨?_, ?_⟩, ?_,
    ?_, ?_⟩
  · ext i j; fin_cases i <;> fin_cases j <;> rfl
  · ext i j
    fin_cases i <;> fin_cases j <;> simp [mul_apply, Fin.sum_univ_two, diagonal_apply] <;> ring
  · intro j
    have e5 : Real.sqrt 5 ^ 2 = 5 := by rw [sq, h5]
    fin_cases j <;> simp [Fin.sum_univ_two, mul_pow, e5] <;> norm_num
  · intro j k hjk hl
    fin_cases j <;> fin_cases k <;> simp_all <;> norm_num at hl
  · refine PosSemidef.of_dotProduct_mulVec_nonneg ?_ ?_
    · ext i j; fin_cases i <;> fin_cases j <;> simp [conjTranspose_apply]
    · intro v
      simp [dotProduct, mulVec, Fin.sum_univ_two]
      nlinarith [sq_nonneg (3 * v 0 + 2 * v 1)]
  · have hY : nearestPsd (fun _ => (![4, -1], (Real.sqrt 5)⁻¹ • !![2, 1; 1, -2])) (!![3, 2; 2, 0] : Matrix _ _ ℝ) =
        !![16 / 5, 8 / 5; 8 / 5, 4 / 5] := by
      have e5 : (Real.sqrt 5)⁻¹ * (Real.sqrt 5)⁻¹ = 1 / 5 := by rw [← mul_inv, h5]; norm_num
      ext i j
      fin_cases i <;> fin_cases j <;>
        rw [nearest_apply _ _ _ rfl, Fin.sum_univ_two] <;> norm_num <;> nlinarith [e5]
    rw [hY]
    simp only [Spec.dist1, Fin.sum_univ_two]
    norm_num [abs_of_pos, abs_of_neg]

/-- **C66** The documented contract of `np.linalg.eig` (unit eigenvectors) alone does not make the result the nearest
matrix: for the identity, which is already positive semi-definite, the unit eigenvectors `(1,0)` and `(3/5,4/5)` give
another matrix. -/
theorem C66_needs_orthogonal_eigenvectors :
    ∃ eig : Matrix (Fin 2) (Fin 2) ℝ → (Fin 2 → ℝ) × Matrix (Fin 2) (Fin 2) ℝ, Spec.IsEig 1 (eig 1) ∧
      0 < Spec.dist2 1 (nearestPsd eig 1) := by
  refine ⟨fun _ => (fun _ => 1, !![1, 3 / 5; 0, 4 / 5]), ⟨?_, ?_⟩, ?_⟩
  · simp
  · intro j; fin_cases j <;> norm_num [Fin.sum_univ_two]
  · have hY : nearestPsd (fun _ => (fun _ => 1, !![1, 3 / 5; 0, 4 / 5])) (1 : Matrix (Fin 2) (Fin 2) ℝ) =
        !![34 / 25, 12 / 25; 12 / 25, 16 / 25] := by
      ext i j
      fin_cases i <;> fin_cases j <;>
        rw [nearest_apply _ _ _ rfl, Fin.sum_univ_two] <;> norm_num
    rw [hY]
    simp only [Spec.dist2, Fin.sum_univ_two]
    norm_num [one_apply]

/-- A correlated two-parameter posterior meets the hypotheses of `C66_inverse_hessian`. -/
example : (!![2, 1; 1, 2] : Matrix (Fin 2) (Fin 2) ℝ).PosDef ∧
    Spec.NoTiny (1 / 100000000) (!![2, 1; 1, 2] : Matrix (Fin 2) (Fin 2) ℝ) := by
  constructor
  · refine PosDef.of_dotProduct_mulVec_pos ?_ ?_
    · ext i j; fin_cases i <;> fin_cases j <;> simp [conjTranspose_apply]
    · intro v hv
      have : v 0 ≠ 0 ∨ v 1 ≠ 0 := by
        by_contra h
        push Not at h
        exact hv (by ext i; fin_cases i <;> simp [h])
      simp [dotProduct, mulVec, Fin.sum_univ_two]
      rcases this with h | h
      · have := pow_pos (abs_pos.mpr h) 2
        rw [sq_abs] at this
        nlinarith [sq_nonneg (v 0 + 2 * v 1)]
      · have := pow_pos (abs_pos.mpr h) 2
        rw [sq_abs] at this
        nlinarith [sq_nonneg (2 * v 0 + v 1)]
  · intro i j
    right
    fin_cases i <;> fin_cases j <;> norm_num

end Verif.Laplace
