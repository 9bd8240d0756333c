import Verif.Gp.Model
import Mathlib.Tactic.Linarith
import Mathlib.Tactic.NormNum
import Mathlib.Tactic.NoncommRing

/-!
# Properties of the projected process (inducing points)
-/

set_option autoImplicit false

namespace Verif.Gp

open Matrix

open scoped Classical

variable {n u s : Type} [Fintype n] [Fintype u] [Fintype s] [DecidableEq n] [DecidableEq u] [DecidableEq s]

/-! ### Lemmas -/

/-- pymc_extras/gp/latent_approx.py:54 -/
theorem kuuiu_eq (L : Matrix u u ℝ) (uu : u → ℝ) : kuuiu L uu = (L * Lᵀ)⁻¹ *ᵥ uu := by
  unfold kuuiu
  rw [mulVec_mulVec, Matrix.mul_inv_rev]

/-- pymc_extras/gp/latent_approx.py:115-116 -/
theorem qss_eq (Ksu : Matrix s u ℝ) (L : Matrix u u ℝ) :
    (L⁻¹ * Ksuᵀ)ᵀ * (L⁻¹ * Ksuᵀ) = Ksu * (L * Lᵀ)⁻¹ * Ksuᵀ := by
  rw [transpose_mul, transpose_transpose, Matrix.mul_inv_rev, transpose_nonsing_inv]
  simp only [Matrix.mul_assoc]

/-! ### Properties -/

/-- The prior is `mean + Kfu (Kuu + jitter)⁻¹ u` where `u` are the values at the inducing points.
pymc_extras/gp/latent_approx.py:44-56 -/
theorem C69_prior_interpolates (mu : n → ℝ) (Kfu : Matrix n u ℝ) (Kuu L : Matrix u u ℝ) (jitter : ℝ)
    (hL : L * Lᵀ = stabilize Kuu jitter) (v : u → ℝ) :
    projectedPrior mu Kfu L v =
      mu + (Kfu * (Kuu + jitter • (1 : Matrix u u ℝ))⁻¹) *ᵥ inducingValues L v := by
  unfold projectedPrior
  rw [kuuiu_eq, hL, mulVec_mulVec]
  rfl

/-- As a function of the standard normal vector `v` the values at the inducing points are linear with covariance
`Kuu + jitter`, and the prior is affine with mean the mean function and covariance `Kfu (Kuu + jitter)⁻¹ Kfuᵀ`.
pymc_extras/gp/latent_approx.py:44-56 -/
theorem C69_prior_law (mu : n → ℝ) (Kfu : Matrix n u ℝ) (Kuu L : Matrix u u ℝ) (jitter : ℝ)
    (hL : L * Lᵀ = stabilize Kuu jitter) (hdet : IsUnit L.det) :
    (∃ B : Matrix u u ℝ, (∀ v, inducingValues L v = B *ᵥ v) ∧ B * Bᵀ = Kuu + jitter • (1 : Matrix u u ℝ)) ∧
    ∃ A : Matrix n u ℝ, (∀ v, projectedPrior mu Kfu L v = mu + A *ᵥ v) ∧
      A * Aᵀ = Kfu * (Kuu + jitter • (1 : Matrix u u ℝ))⁻¹ * Kfuᵀ := by
  refine ⟨⟨L, fun v => rfl, hL⟩, Kfu * (Lᵀ)⁻¹, fun v => ?_, ?_⟩
  · unfold projectedPrior kuuiu inducingValues
    rw [mulVec_mulVec (M := L⁻¹), Matrix.nonsing_inv_mul _ hdet, one_mulVec, mulVec_mulVec]
  · have : Kuu + jitter • (1 : Matrix u u ℝ) = L * Lᵀ := hL.symm
    rw [this, Matrix.mul_inv_rev, transpose_mul, transpose_nonsing_inv, transpose_transpose]
    simp only [Matrix.mul_assoc]

/-- At the inputs of the prior the conditional mean is the prior itself.
pymc_extras/gp/latent_approx.py:56, 113-114 -/
theorem C69_conditional_at_prior_inputs (mu : n → ℝ) (Kfu : Matrix n u ℝ) (L : Matrix u u ℝ) (v : u → ℝ) :
    projectedMean mu Kfu L v = projectedPrior mu Kfu L v := rfl

/-- At the inducing points, without jitter, the conditional mean is the mean function plus `u` and the covariance is zero.
pymc_extras/gp/latent_approx.py:112-119 -/
theorem C69_conditional_at_inducing_points (mu : u → ℝ) (Kuu L : Matrix u u ℝ) (hL : L * Lᵀ = stabilize Kuu 0)
    (hdet : IsUnit L.det) (hsym : Kuuᵀ = Kuu) (v : u → ℝ) :
    projectedMean mu Kuu L v = mu + inducingValues L v ∧ projectedCov Kuu Kuu L 0 = 0 := by
  have hK : L * Lᵀ = Kuu := by rw [hL]; simp [stabilize]
  have hKdet : IsUnit Kuu.det := by
    rw [← hK, det_mul, det_transpose]; exact hdet.mul hdet
  constructor
  · unfold projectedMean
    rw [kuuiu_eq, hK, mulVec_mulVec, Matrix.mul_nonsing_inv _ hKdet, one_mulVec]
  · unfold projectedCov
    simp only [stabilize, zero_smul, add_zero]
    rw [qss_eq, hK, hsym, Matrix.mul_nonsing_inv _ hKdet, Matrix.one_mul, sub_self]

/-- The conditional at any new inputs has, together with the law of its mean, exactly the covariance of the original
process plus its jitter: the projection loses nothing there. The first conjunct gives the mean as an affine function of the
standard normal vector. pymc_extras/gp/latent_approx.py:112-119 -/
theorem C69_conditional_total_covariance (muNew : s → ℝ) (Kss : Matrix s s ℝ) (Ksu : Matrix s u ℝ)
    (L : Matrix u u ℝ) (hdet : IsUnit L.det) (jitter : ℝ) :
    ∃ A : Matrix s u ℝ, (∀ v, projectedMean muNew Ksu L v = muNew + A *ᵥ v) ∧
      A * Aᵀ + projectedCov Kss Ksu L jitter = Kss + jitter • (1 : Matrix s s ℝ) := by
  refine ⟨Ksu * (Lᵀ)⁻¹, fun v => ?_, ?_⟩
  · unfold projectedMean kuuiu inducingValues
    rw [mulVec_mulVec (M := L⁻¹), Matrix.nonsing_inv_mul _ hdet, one_mulVec, mulVec_mulVec]
  · unfold projectedCov stabilize
    simp only
    rw [qss_eq, Matrix.mul_inv_rev, transpose_mul, transpose_nonsing_inv, transpose_transpose]
    simp only [Matrix.mul_assoc]
    abel

/-- The covariance of the conditional: the covariance at the new inputs minus the part explained by the inducing points,
plus jitter. pymc_extras/gp/latent_approx.py:115-118 -/
theorem C69_conditional_covariance (Kss : Matrix s s ℝ) (Ksu : Matrix s u ℝ) (Kuu L : Matrix u u ℝ) (jl jitter : ℝ)
    (hL : L * Lᵀ = stabilize Kuu jl) :
    projectedCov Kss Ksu L jitter =
      Kss - Ksu * (Kuu + jl • (1 : Matrix u u ℝ))⁻¹ * Ksuᵀ + jitter • (1 : Matrix s s ℝ) := by
  unfold projectedCov
  simp only [stabilize]
  rw [qss_eq, hL]
  rfl

/-- Whenever the covariance function gives a positive semidefinite matrix on inducing points and new inputs together, the
conditional covariance is positive definite for positive jitter, so its Cholesky factor exists.
pymc_extras/gp/latent_approx.py:112-119 -/
theorem C69_conditional_posDef (Kss : Matrix s s ℝ) (Ksu : Matrix s u ℝ) (Kuu L : Matrix u u ℝ) (jl jitter : ℝ)
    (hL : L * Lᵀ = stabilize Kuu jl) (hdet : IsUnit L.det) (hjl : 0 ≤ jl) (hj : 0 < jitter)
    (hjoint : (fromBlocks Kuu Ksuᵀ Ksu Kss).PosSemidef) :
    (projectedCov Kss Ksu L jitter).PosDef := by
  have hA : (stabilize Kuu jl).PosDef := by
    rw [← hL]
    have : (L * Lᴴ).PosDef := by
      refine PosDef.mul_conjTranspose_self L ?_
      intro a b hab
      have h2 : Lᵀ *ᵥ a = Lᵀ *ᵥ b := by simpa [mulVec_transpose] using hab
      have := congrArg (fun x => (Lᵀ)⁻¹ *ᵥ x) h2
      simpa [mulVec_mulVec, Matrix.nonsing_inv_mul _ (show IsUnit (Lᵀ).det by rwa [det_transpose])] using this
    simpa using this
  have hjit : (fromBlocks (jl • (1 : Matrix u u ℝ)) 0 0 (0 : Matrix s s ℝ)).PosSemidef := by
    refine PosSemidef.of_dotProduct_mulVec_nonneg ?_ ?_
    · refine IsHermitian.fromBlocks ?_ (by simp) (by simp [IsHermitian])
      simp [IsHermitian, conjTranspose_smul]
    · intro x
      rw [fromBlocks_mulVec]
      have hx : star x = Sum.elim (star (x ∘ Sum.inl)) (star (x ∘ Sum.inr)) := by
        funext i; cases i <;> rfl
      rw [hx, sumElim_dotProduct_sumElim]
      simp only [smul_mulVec, one_mulVec, zero_mulVec, add_zero, dotProduct_zero, dotProduct_smul]
      exact mul_nonneg hjl (dotProduct_star_self_nonneg _)
  have hsum := hjoint.add hjit
  rw [fromBlocks_add] at hsum
  simp only [add_zero] at hsum
  have hB : (fromBlocks (stabilize Kuu jl) Ksuᵀ (Ksuᵀ)ᴴ Kss).PosSemidef := by
    simpa [stabilize] using hsum
  have : Invertible (stabilize Kuu jl) := hA.isUnit.invertible
  have hS := (PosDef.fromBlocks₁₁ Ksuᵀ Kss hA).1 hB
  have hcov : projectedCov Kss Ksu L jitter =
      (Kss - (Ksuᵀ)ᴴ * (stabilize Kuu jl)⁻¹ * Ksuᵀ) + jitter • (1 : Matrix s s ℝ) := by
    unfold projectedCov
    simp only
    rw [qss_eq, hL]
    simp [stabilize]
  rw [hcov]
  refine PosDef.posSemidef_add hS ?_
  exact PosDef.one.smul hj

/-- The prior gets its inducing points exactly when `X` is an array and either they are given (whatever `n_inducing` is) or
`n_inducing` is an integer between 1 and the number of inputs; in the second case that many are asked for.
pymc_extras/gp/latent_approx.py:80-104 -/
theorem C133_inducing_iff (xIsArray : Bool) (lenX : ℕ) (given : Bool) (nInducing : Option NArg) (r : Inducing) :
    chooseInducing xIsArray lenX given nInducing = .ok r ↔
      xIsArray = true ∧ ((given = true ∧ r = .given) ∨
        (given = false ∧ ∃ k : ℕ, nInducing = some (.int k) ∧ 1 ≤ k ∧ k ≤ lenX ∧ r = .kmeans k)) := by
  unfold chooseInducing
  cases xIsArray
  · simp
  cases given
  · cases nInducing with
    | none => simp
    | some a =>
      cases a with
      | other => simp
      | int k =>
        by_cases h1 : k ≤ 0
        · simp only [Bool.not_true, Bool.false_eq_true, ↓reduceIte, h1, reduceCtorEq, true_and, false_and, false_or,
            Option.some.injEq, NArg.int.injEq, false_iff, not_exists, not_and]
          intro k' hk'; omega
        · by_cases h2 : (lenX : ℤ) < k
          · simp only [Bool.not_true, Bool.false_eq_true, ↓reduceIte, h1, h2, reduceCtorEq, true_and, false_and,
              false_or, Option.some.injEq, NArg.int.injEq, false_iff, not_exists, not_and]
            intro k' hk'; omega
          · simp only [Bool.not_true, Bool.false_eq_true, ↓reduceIte, h1, h2, Except.ok.injEq, true_and, false_and,
              false_or, Option.some.injEq, NArg.int.injEq]
            constructor
            · rintro rfl
              exact ⟨k.toNat, by omega, by omega, by omega, rfl⟩
            · rintro ⟨k', hk', _, _, rfl⟩
              congr 1; omega
  · simp [eq_comm]

/-- pymc_extras/gp/latent_approx.py:80-104 -/
example : chooseInducing true 10 false (some (.int 3)) = .ok (.kmeans 3) ∧
    chooseInducing true 2 false (some (.int 3)) = .error .valueError := by decide

/-- A Cholesky factor and a joint covariance as the theorems ask for: one inducing point with variance 4, one new input with
variance 4 and covariance 2. pymc_extras/gp/latent_approx.py:44-56 -/
example : (of ![![(2 : ℝ)]]) * (of ![![(2 : ℝ)]])ᵀ = stabilize (of ![![(4 : ℝ)]]) 0 ∧
    IsUnit (of ![![(2 : ℝ)]]).det ∧
    (fromBlocks (of ![![(4 : ℝ)]]) (of ![![(2 : ℝ)]])ᵀ (of ![![(2 : ℝ)]]) (of ![![(4 : ℝ)]])).PosSemidef := by
  refine ⟨?_, by simp, ?_⟩
  · ext i j; fin_cases i; fin_cases j
    simp [stabilize, Matrix.mul_apply]; norm_num
  · refine PosSemidef.of_dotProduct_mulVec_nonneg ?_ ?_
    · refine IsHermitian.fromBlocks ?_ (by simp) ?_ <;>
        (ext i j; fin_cases i; fin_cases j; simp)
    · intro x
      rw [fromBlocks_mulVec]
      have hx : star x = Sum.elim (star (x ∘ Sum.inl)) (star (x ∘ Sum.inr)) := by
        funext i; cases i <;> rfl
      rw [hx, sumElim_dotProduct_sumElim]
      simp [mulVec, dotProduct]
      nlinarith [sq_nonneg (x (Sum.inl 0) + x (Sum.inr 0)), sq_nonneg (x (Sum.inl 0)), sq_nonneg (x (Sum.inr 0))]

end Verif.Gp
