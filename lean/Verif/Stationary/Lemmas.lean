import Verif.Stationary.Model
import Mathlib.LinearAlgebra.Matrix.PosDef
import Mathlib.LinearAlgebra.Matrix.ToLinearEquiv
import Mathlib.Topology.Instances.Matrix
import Mathlib.Analysis.RCLike.Basic
import Verif.Kalman.Lemmas

/-!
Solving the two equations of the stationary initialisation.
-/

set_option autoImplicit false

open Matrix Filter Topology
open scoped Kronecker

namespace Verif.Stationary

variable {n r : Type*} [Fintype n] [Fintype r] [DecidableEq n]

/-- Specification: the powers of the transition matrix die out. -/
def Spec.Stable (T : Matrix n n ℝ) : Prop := Tendsto (fun k : ℕ => T ^ k) atTop (𝓝 0)

theorem kron_mulVec (A X : Matrix n n ℝ) (i j : n) :
    ((A ⊗ₖ A) *ᵥ fun q : n × n => X q.1 q.2) (i, j) = (A * X * Aᵀ) i j := by
  simp only [mulVec, dotProduct, kroneckerMap_apply, Fintype.sum_prod_type, Matrix.mul_apply, transpose_apply,
    Finset.sum_mul]
  rw [Finset.sum_comm]
  exact Finset.sum_congr rfl fun a _ => Finset.sum_congr rfl fun b _ => by ring

theorem lyapunov_solves {A : Matrix n n ℝ} (W : Matrix n n ℝ) (h : IsUnit (1 - A ⊗ₖ A).det) :
    A * lyapunov A W * Aᵀ + W = lyapunov A W := by
  ext i j
  have h1 : (1 - A ⊗ₖ A) *ᵥ ((1 - A ⊗ₖ A)⁻¹ *ᵥ fun q : n × n => W q.1 q.2) = fun q : n × n => W q.1 q.2 := by
    rw [mulVec_mulVec, Matrix.mul_nonsing_inv _ h, one_mulVec]
  have h2 := congrFun h1 (i, j)
  rw [sub_mulVec, one_mulVec] at h2
  have h3 : ((A ⊗ₖ A) *ᵥ ((1 - A ⊗ₖ A)⁻¹ *ᵥ fun q : n × n => W q.1 q.2)) (i, j) = (A * lyapunov A W * Aᵀ) i j :=
    kron_mulVec A (lyapunov A W) i j
  rw [Pi.sub_apply, h3] at h2
  rw [Matrix.add_apply, ← h2]
  simp [lyapunov]

theorem lyapunov_unique {A W X : Matrix n n ℝ} (h : IsUnit (1 - A ⊗ₖ A).det) (hX : A * X * Aᵀ + W = X) :
    X = lyapunov A W := by
  ext i j
  have h1 : (1 - A ⊗ₖ A) *ᵥ (fun q : n × n => X q.1 q.2) = fun q : n × n => W q.1 q.2 := by
    funext q
    obtain ⟨a, b⟩ := q
    rw [sub_mulVec, one_mulVec, Pi.sub_apply, kron_mulVec]
    have := congrFun (congrFun hX a) b
    rw [Matrix.add_apply] at this
    linarith
  have h2 : (fun q : n × n => X q.1 q.2) = (1 - A ⊗ₖ A)⁻¹ *ᵥ fun q : n × n => W q.1 q.2 := by
    rw [← h1, mulVec_mulVec, Matrix.nonsing_inv_mul _ h, one_mulVec]
  exact congrFun h2 (i, j)

theorem fixed_pow {T : Matrix n n ℝ} {v : n → ℝ} (h : T *ᵥ v = v) (k : ℕ) : T ^ k *ᵥ v = v := by
  induction k with
  | zero => simp
  | succ k ih => rw [pow_succ, ← mulVec_mulVec, h, ih]

theorem sandwich_pow {T X : Matrix n n ℝ} (h : T * X * Tᵀ = X) (k : ℕ) : T ^ k * X * (T ^ k)ᵀ = X := by
  induction k with
  | zero => simp
  | succ k ih =>
    rw [pow_succ, transpose_mul]
    calc T ^ k * T * X * (Tᵀ * (T ^ k)ᵀ) = T ^ k * (T * X * Tᵀ) * (T ^ k)ᵀ := by simp only [Matrix.mul_assoc]
      _ = X := by rw [h, ih]

theorem stable_sandwich {T : Matrix n n ℝ} (hT : Spec.Stable T) (X : Matrix n n ℝ) :
    Tendsto (fun k : ℕ => T ^ k * X * (T ^ k)ᵀ) atTop (𝓝 0) := by
  have hc : Continuous fun M : Matrix n n ℝ => M * X * Mᵀ :=
    (continuous_id.matrix_mul continuous_const).matrix_mul continuous_id.matrix_transpose
  have := (hc.tendsto 0).comp hT
  simpa [Function.comp_def] using this

theorem stable_vec {T : Matrix n n ℝ} (hT : Spec.Stable T) (v : n → ℝ) :
    Tendsto (fun k : ℕ => T ^ k *ᵥ v) atTop (𝓝 0) := by
  have hc : Continuous fun M : Matrix n n ℝ => M *ᵥ v := continuous_id.matrix_mulVec continuous_const
  have := (hc.tendsto 0).comp hT
  simpa [Function.comp_def] using this

theorem stable_unit {T : Matrix n n ℝ} (hT : Spec.Stable T) : IsUnit (1 - T).det := by
  rw [isUnit_iff_ne_zero]
  intro h0
  obtain ⟨v, hv, hz⟩ := Matrix.exists_mulVec_eq_zero_iff.2 h0
  rw [sub_mulVec, one_mulVec, sub_eq_zero] at hz
  have h1 : Tendsto (fun _ : ℕ => v) atTop (𝓝 0) := (stable_vec hT v).congr fun k => fixed_pow hz.symm k
  exact hv (tendsto_nhds_unique tendsto_const_nhds h1)

theorem stable_unit_kron {T : Matrix n n ℝ} (hT : Spec.Stable T) : IsUnit (1 - T ⊗ₖ T).det := by
  rw [isUnit_iff_ne_zero]
  intro h0
  obtain ⟨v, hv, hz⟩ := Matrix.exists_mulVec_eq_zero_iff.2 h0
  rw [sub_mulVec, one_mulVec, sub_eq_zero] at hz
  let X : Matrix n n ℝ := Matrix.of fun i j => v (i, j)
  have hX : T * X * Tᵀ = X := by
    ext i j
    rw [← kron_mulVec]
    exact (congrFun hz (i, j)).symm
  have h1 : Tendsto (fun _ : ℕ => X) atTop (𝓝 0) := (stable_sandwich hT X).congr fun k => sandwich_pow hX k
  have h2 : X = 0 := tendsto_nhds_unique tendsto_const_nhds h1
  exact hv (funext fun q => congrFun (congrFun h2 q.1) q.2)

/-- Iterating the equation. -/
theorem lyapunov_iterate {T W X : Matrix n n ℝ} (hX : T * X * Tᵀ + W = X) (k : ℕ) :
    X = T ^ k * X * (T ^ k)ᵀ + ∑ i ∈ Finset.range k, T ^ i * W * (T ^ i)ᵀ := by
  induction k with
  | zero => simp
  | succ k ih =>
    rw [Finset.sum_range_succ, pow_succ, transpose_mul]
    conv_lhs => rw [ih]
    have : T ^ k * X * (T ^ k)ᵀ = T ^ k * T * X * (Tᵀ * (T ^ k)ᵀ) + T ^ k * W * (T ^ k)ᵀ := by
      conv_lhs => rw [← hX]
      simp only [Matrix.mul_add, Matrix.add_mul, Matrix.mul_assoc]
    rw [this]
    abel

theorem posSemidef_of_stable {T W X : Matrix n n ℝ} (hT : Spec.Stable T) (hW : W.PosSemidef) (hX : T * X * Tᵀ + W = X) :
    X.PosSemidef := by
  have hsum : ∀ k, (∑ i ∈ Finset.range k, T ^ i * W * (T ^ i)ᵀ).PosSemidef := by
    intro k
    refine Matrix.posSemidef_sum _ fun i _ => ?_
    have := hW.mul_mul_conjTranspose_same (T ^ i)
    rwa [conjTranspose_eq_transpose_of_trivial] at this
  have hlim : Tendsto (fun k => ∑ i ∈ Finset.range k, T ^ i * W * (T ^ i)ᵀ) atTop (𝓝 X) := by
    have h1 : ∀ k, ∑ i ∈ Finset.range k, T ^ i * W * (T ^ i)ᵀ = X - T ^ k * X * (T ^ k)ᵀ := by
      intro k
      exact (sub_eq_of_eq_add' (lyapunov_iterate hX k)).symm
    have h2 : Tendsto (fun k : ℕ => X - T ^ k * X * (T ^ k)ᵀ) atTop (𝓝 (X - 0)) :=
      tendsto_const_nhds.sub (stable_sandwich hT X)
    rw [sub_zero] at h2
    exact h2.congr fun k => (h1 k).symm
  have htr : Xᵀ = X := by
    have h1 : Tendsto (fun k => (∑ i ∈ Finset.range k, T ^ i * W * (T ^ i)ᵀ)ᵀ) atTop (𝓝 Xᵀ) :=
      ((continuous_id.matrix_transpose : Continuous fun x : Matrix n n ℝ => xᵀ).tendsto X).comp hlim
    refine tendsto_nhds_unique (h1.congr fun k => ?_) hlim
    exact Kalman.PosSemidef.transpose_eq (hsum k)
  refine Matrix.PosSemidef.of_dotProduct_mulVec_nonneg (Kalman.isHermitian_iff_transpose.2 htr) fun x => ?_
  have hc : Continuous fun M : Matrix n n ℝ => star x ⬝ᵥ (M *ᵥ x) :=
    continuous_const.dotProduct (continuous_id.matrix_mulVec continuous_const)
  exact ge_of_tendsto' ((hc.tendsto X).comp hlim) fun k => (hsum k).dotProduct_mulVec_nonneg x

end Verif.Stationary
