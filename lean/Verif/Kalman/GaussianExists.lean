import Verif.Kalman.GaussianLoglik
import Verif.Kalman.OptimalExists

/-!
# Normal processes exist for all system matrices

The hypotheses of C189 and C190 can be met for every choice of system matrices with positive semidefinite covariances.
-/

set_option autoImplicit false

open Matrix MeasureTheory ProbabilityTheory

namespace Verif.Kalman

open Orthogonal

/-- Independent standard normal variables, as many as wanted. -/
theorem exists_normals (ι : Type) : ∃ (Ω : Type) (_ : MeasurableSpace Ω) (μ : Measure Ω) (_ : IsProbabilityMeasure μ)
    (ξ : ι → Ω → ℝ), IsGaussianProcess ξ μ ∧ (∀ i, MemLp (ξ i) 2 μ) ∧ (∀ i, ∫ ω, ξ i ω ∂μ = 0) ∧
      (∀ i, cov[ξ i, ξ i; μ] = 1) ∧ ∀ i j, i ≠ j → cov[ξ i, ξ j; μ] = 0 := by
  obtain ⟨Ω, mΩ, μ, C, hm, hlaw, hind, hp⟩ := exists_iid ι (gaussianReal 0 1)
  have hG : IsGaussianProcess C μ :=
    ⟨fun I => iIndepFun.hasGaussianLaw (X := fun i : I => C i) (fun i => (hlaw i).hasGaussianLaw)
      (hind.precomp Subtype.val_injective)⟩
  have hmem : ∀ i, MemLp (C i) 2 μ := fun i => (hG.hasGaussianLaw_eval i).memLp_two
  refine ⟨Ω, mΩ, μ, hp, C, hG, hmem, fun i => ?_, fun i => ?_, fun i j hij => ?_⟩
  · rw [(hlaw i).integral_eq]; simp
  · rw [covariance_self (hmem i).aemeasurable, (hlaw i).variance_eq]; simp
  · exact (hind.indepFun hij).covariance_eq_zero (hmem i) (hmem j)

variable {n p r : Type} [Fintype n] [Fintype p] [Fintype r] [DecidableEq n] [DecidableEq p] [DecidableEq r]

/-- **Non-vacuity of C189 and C190.** For all system matrices with positive semidefinite covariances there is a normal process that
follows the model. -/
theorem exists_normal_process (θ : ℕ → Params n p r) (a0 : n → ℝ) {P0 : Matrix n n ℝ} (hP : P0.PosSemidef)
    (hQ : ∀ t, (θ t).Q.PosSemidef) (hH : ∀ t, (θ t).H.PosSemidef) :
    ∃ (Ω : Type) (_ : MeasurableSpace Ω) (μ : Measure Ω) (_ : IsProbabilityMeasure μ) (X : ℕ → n → Ω → ℝ)
      (Y : ℕ → p → Ω → ℝ) (η : ℕ → r → Ω → ℝ) (ε : ℕ → p → Ω → ℝ), Spec.NormalProcess μ θ a0 P0 X Y η ε := by
  obtain ⟨Ω, mΩ, μ, hμ, ξ, hG, hmem, hmean, hvar, hcov⟩ := exists_normals (n ⊕ (ℕ × r) ⊕ (ℕ × p))
  obtain ⟨LP, hLP⟩ := exists_factor hP
  choose LQ hLQ using fun t => exists_factor (hQ t)
  choose LH hLH using fun t => exists_factor (hH t)
  let ξx : n → L2 μ := fun i => ⟨ξ (.inl i), hmem _⟩
  let ξη : ℕ → r → L2 μ := fun t i => ⟨ξ (.inr (.inl (t, i))), hmem _⟩
  let ξε : ℕ → p → L2 μ := fun t i => ⟨ξ (.inr (.inr (t, i))), hmem _⟩
  let x0 : n → L2 μ := const (Orthogonal.one μ) a0 + act LP ξx
  let η : ℕ → r → L2 μ := fun t => act (LQ t) (ξη t)
  let ε : ℕ → p → L2 μ := fun t => act (LH t) (ξε t)
  have hc : ∀ a b, cov[ξ a, ξ b; μ] = if a = b then 1 else 0 := by
    intro a b
    by_cases h : a = b
    · subst h; simp [hvar]
    · simp [h, hcov a b h]
  have cxx : covM (covB μ) ξx ξx = 1 := by
    ext i j; simp [covM, covB_apply, ξx, hc, Matrix.one_apply]
  have cηη : ∀ s t, covM (covB μ) (ξη s) (ξη t) = if s = t then 1 else 0 := by
    intro s t; ext i j
    by_cases h : s = t <;> simp [covM, covB_apply, ξη, hc, Matrix.one_apply, h]
  have cεε : ∀ s t, covM (covB μ) (ξε s) (ξε t) = if s = t then 1 else 0 := by
    intro s t; ext i j
    by_cases h : s = t <;> simp [covM, covB_apply, ξε, hc, Matrix.one_apply, h]
  have cηε : ∀ s t, covM (covB μ) (ξη s) (ξε t) = 0 := by
    intro s t; ext i j; simp [covM, covB_apply, ξη, ξε, hc]
  have cxη : ∀ t, covM (covB μ) ξx (ξη t) = 0 := by
    intro t; ext i j; simp [covM, covB_apply, ξη, ξx, hc]
  have cxε : ∀ t, covM (covB μ) ξx (ξε t) = 0 := by
    intro t; ext i j; simp [covM, covB_apply, ξε, ξx, hc]
  have one0 : ∀ w, covB μ (Orthogonal.one μ) w = 0 := fun w => covariance_const_left 1
  have one0' : ∀ w, covB μ w (Orthogonal.one μ) = 0 := fun w => covariance_const_right 1
  have key : ∀ {a b : Type} (x : a → L2 μ) (y : b → L2 μ) (M : Matrix a b ℝ), covM (covB μ) x y = M →
      ∀ i j, cov[(x i).1, (y j).1; μ] = M i j := by
    intro a b x y M h i j
    exact congrFun (congrFun h i) j
  have mact : ∀ {a b : Type} [Fintype b] (A : Matrix a b ℝ) (x : b → L2 μ), (∀ j, mean μ (x j) = 0) → ∀ i, mean μ (act A x i) = 0 :=
    fun A x hx i => mean_act (mean μ) A x hx i
  let X := buildX θ (fun i => (x0 i).1) (fun t i => (η t i).1)
  let Y : ℕ → p → Ω → ℝ := fun t i ω => ∑ j, (θ t).Z i j * X t j ω + (θ t).d i + (ε t i).1 ω
  have hproc : Spec.Process μ θ a0 P0 X Y (fun t i => (η t i).1) (fun t i => (ε t i).1) :=
    { transition := fun t i ω => rfl
      observation := fun t i ω => rfl
      sqInt_initial := fun i => (x0 i).2
      sqInt_shock := fun t i => (η t i).2
      sqInt_error := fun t i => (ε t i).2
      mean_initial := by
        intro i
        show mean μ (x0 i) = a0 i
        simp only [x0, Pi.add_apply, map_add, mact LP ξx (fun j => hmean _), add_zero, const, map_smul]
        simp [mean_apply, Orthogonal.one]
      mean_shock := fun t i => mact (LQ t) (ξη t) (fun j => hmean _) i
      mean_error := fun t i => mact (LH t) (ξε t) (fun j => hmean _) i
      cov_initial := key x0 x0 P0 (by
        simp [x0, covM_add_left, covM_add_right, covM_act_left, covM_act_right, covM_const_left _ one0,
          covM_const_right _ one0', cxx, hLP])
      cov_shock := fun t => key (η t) (η t) _ (by
        simp [η, covM_act_left, covM_act_right, cηη, hLQ])
      cov_error := fun t => key (ε t) (ε t) _ (by
        simp [ε, covM_act_left, covM_act_right, cεε, hLH])
      shocks_uncorrelated := fun s t i j h => key (η s) (η t) 0 (by
        simp [η, covM_act_left, covM_act_right, cηη, h]) i j
      errors_uncorrelated := fun s t i j h => key (ε s) (ε t) 0 (by
        simp [ε, covM_act_left, covM_act_right, cεε, h]) i j
      shocks_errors_uncorrelated := fun s t i j => key (η s) (ε t) 0 (by
        simp [η, ε, covM_act_left, covM_act_right, cηε]) i j
      initial_shocks_uncorrelated := fun t i j => key x0 (η t) 0 (by
        simp [x0, η, covM_add_left, covM_act_left, covM_act_right, covM_const_left _ one0, cxη]) i j
      initial_errors_uncorrelated := fun t i j => key x0 (ε t) 0 (by
        simp [x0, ε, covM_add_left, covM_act_left, covM_act_right, covM_const_left _ one0, cxε]) i j }
  refine ⟨Ω, mΩ, μ, hμ, X, Y, _, _, { toProcess := hproc, normal := Gauss.of_affine hG _ ?_ }⟩
  have hact : ∀ {k l : Type} [Fintype k] (A : Matrix l k ℝ) (x : k → L2 μ), (∀ j, (x j).1 ∈ Gauss.affine ξ) →
      ∀ i, (act A x i).1 ∈ Gauss.affine ξ := by
    intro k l _ A x hx i
    have : (act A x i).1 = ∑ j, A i j • (x j).1 := by simp [act]
    rw [this]
    exact Submodule.sum_mem _ fun j _ => Submodule.smul_mem _ _ (hx j)
  rintro (i | q | q)
  · have : (x0 i).1 = a0 i • (fun _ => (1 : ℝ)) + (act LP ξx i).1 := rfl
    show (x0 i).1 ∈ _
    rw [this]
    exact Submodule.add_mem _ (Submodule.smul_mem _ _ (Gauss.one_mem _)) (hact LP ξx (fun j => Gauss.source_mem ξ _) i)
  · exact hact (LQ q.1) (ξη q.1) (fun j => Gauss.source_mem ξ _) q.2
  · exact hact (LH q.1) (ξε q.1) (fun j => Gauss.source_mem ξ _) q.2

/-- C189 applies to a local linear trend at every length and date: the filter's output is the conditional law. -/
example (N t : ℕ) (ht : t < N) (fill : ℝ) : ∃ (Ω : Type) (_ : MeasurableSpace Ω) (μ : Measure Ω) (_ : IsProbabilityMeasure μ)
    (X : ℕ → Fin 2 → Ω → ℝ) (Y : ℕ → Fin 1 → Ω → ℝ), ∀ᵐ ω ∂μ,
      Spec.given μ (X t) Y (t + 1) ω =
        Spec.N ((buildGraph 0 fill 0 1 (Spec.rows (fun _ => trendModel) Y N ω)).filteredStates.getD t 0)
          ((buildGraph 0 fill 0 1 (Spec.rows (fun _ => trendModel) Y N ω)).filteredCovs.getD t 0) := by
  obtain ⟨Ω, mΩ, μ, hμ, X, Y, η, ε, h⟩ := exists_normal_process (fun _ => trendModel) 0
    (P0 := 1) Matrix.PosSemidef.one (fun _ => Matrix.PosSemidef.one) (fun _ => Matrix.PosSemidef.one)
  exact ⟨Ω, mΩ, μ, hμ, X, Y, C189_filter_law h (undetermined_of_H h.toProcess fun _ => Matrix.PosDef.one) fill N t ht⟩

/-- The smoother part of C189 applies to the same model. -/
example (N t : ℕ) (ht : t < N) (fill : ℝ) : ∃ (Ω : Type) (_ : MeasurableSpace Ω) (μ : Measure Ω) (_ : IsProbabilityMeasure μ)
    (X : ℕ → Fin 2 → Ω → ℝ) (Y : ℕ → Fin 1 → Ω → ℝ), ∀ᵐ ω ∂μ,
      let out := Spec.smoothed (fun _ => trendModel) ⟨trendModel.T, trendModel.R, trendModel.Q⟩ fill 0 1 Y N ω
      Spec.given μ (X t) Y N ω = Spec.N (out.getD t (0, 0)).1 (out.getD t (0, 0)).2 := by
  obtain ⟨Ω, mΩ, μ, hμ, X, Y, η, ε, h⟩ := exists_normal_process (fun _ => trendModel) 0
    (P0 := 1) Matrix.PosSemidef.one (fun _ => Matrix.PosSemidef.one) (fun _ => Matrix.PosSemidef.one)
  exact ⟨Ω, mΩ, μ, hμ, X, Y, C189_smoother_law h (undetermined_of_H h.toProcess fun _ => Matrix.PosDef.one) (fun _ => rfl) _
    (fun _ => ⟨rfl, rfl, rfl⟩) fill N t ht⟩

/-- C190 applies to the same model, and says that the reported likelihood integrates to one over all samples of length `N`. -/
example (N : ℕ) (fill : ℝ) :
    ∫⁻ y : Fin 1 × Fin N → ℝ, ENNReal.ofReal (Real.exp (Spec.loglik (fun _ => trendModel) fill 0 1 y)) = 1 := by
  obtain ⟨Ω, mΩ, μ, hμ, X, Y, η, ε, h⟩ := exists_normal_process (fun _ => trendModel) 0
    (P0 := 1) Matrix.PosSemidef.one (fun _ => Matrix.PosSemidef.one) (fun _ => Matrix.PosSemidef.one)
  exact (C190_total_mass h (undetermined_of_H h.toProcess fun _ => Matrix.PosDef.one) fill N).2.2 (Or.inr rfl)

/-- A bivariate random walk with noise. Example, no code behind it. -/
def pairModel : Params (Fin 2) (Fin 2) (Fin 2) := ⟨0, 0, 1, 1, 1, 1, 1⟩

/-- C190 applies to a bivariate model, where the reported likelihood of one date integrates to `√(2π)`, not to one. -/
example (fill : ℝ) :
    ∫⁻ y : Fin 2 × Fin 1 → ℝ, ENNReal.ofReal (Real.exp (Spec.loglik (fun _ => pairModel) fill 0 1 y)) ≠ 1 := by
  obtain ⟨Ω, mΩ, μ, hμ, X, Y, η, ε, h⟩ := exists_normal_process (fun _ => pairModel) 0
    (P0 := 1) Matrix.PosSemidef.one (fun _ => Matrix.PosSemidef.one) (fun _ => Matrix.PosSemidef.one)
  intro hc
  have := (C190_total_mass h (undetermined_of_H h.toProcess fun _ => Matrix.PosDef.one) fill 1).2.1 hc
  simp at this

end Verif.Kalman
