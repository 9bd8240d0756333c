import Verif.Kalman.OptimalLoglik
import Verif.Kalman.SmootherOptimalProps
import Mathlib.Probability.HasLawExists
import Mathlib.Probability.ProbabilityMassFunction.Integrals
import Mathlib.Probability.Distributions.Uniform
import Mathlib.Analysis.Matrix.PosDef
import Mathlib.Analysis.Matrix.Order

/-!
# Processes exist for all system matrices

The hypotheses of C162–C164 can be met for every choice of system matrices with positive semidefinite covariances: build the
process from independent fair coin tosses.
-/

set_option autoImplicit false

open Matrix MeasureTheory ProbabilityTheory

namespace Verif.Kalman

open Orthogonal

/-- Independent coin tosses with values ±1. -/
theorem exists_coins (ι : Type) : ∃ (Ω : Type) (_ : MeasurableSpace Ω) (μ : Measure Ω) (_ : IsProbabilityMeasure μ)
    (ξ : ι → Ω → ℝ), (∀ i ω, ξ i ω = 1 ∨ ξ i ω = -1) ∧ (∀ i, MemLp (ξ i) 2 μ) ∧ (∀ i, ∫ ω, ξ i ω ∂μ = 0) ∧
      (∀ i, cov[ξ i, ξ i; μ] = 1) ∧ ∀ i j, i ≠ j → cov[ξ i, ξ j; μ] = 0 := by
  obtain ⟨Ω, mΩ, μ, C, hm, hlaw, hind, hp⟩ := exists_iid ι (PMF.uniformOfFintype Bool).toMeasure
  let f : Bool → ℝ := fun b => if b then 1 else -1
  have hf : Measurable f := measurable_of_countable f
  have hmem : ∀ i, MemLp (fun ω => f (C i ω)) 2 μ := by
    intro i
    refine MemLp.of_bound (hf.comp (hm i)).aestronglyMeasurable 1 (Filter.Eventually.of_forall fun ω => ?_)
    cases h : C i ω <;> simp [f]
  have hmean : ∀ i, ∫ ω, f (C i ω) ∂μ = 0 := by
    intro i
    have := (hlaw i).integral_comp (f := f) (hf.aestronglyMeasurable)
    simp only [Function.comp_def] at this
    rw [this, PMF.integral_eq_sum]
    simp [f, PMF.uniformOfFintype_apply]
  refine ⟨Ω, mΩ, μ, hp, fun i ω => f (C i ω), ?_, hmem, hmean, ?_, ?_⟩
  · intro i ω; cases h : C i ω <;> simp [f, h]
  · intro i
    rw [covariance_self (hmem i).aemeasurable, variance_of_integral_eq_zero (hmem i).aemeasurable (hmean i)]
    have : ∀ ω, f (C i ω) ^ 2 = 1 := by intro ω; cases h : C i ω <;> simp [f]
    simp [this]
  · intro i j hij
    exact ((hind.indepFun hij).comp hf hf).covariance_eq_zero (hmem i) (hmem j)

variable {n p r : Type} [Fintype n] [Fintype p] [Fintype r] [DecidableEq n] [DecidableEq p] [DecidableEq r]

open scoped MatrixOrder Matrix.Norms.L2Operator in
/-- A symmetric factor of a positive semidefinite matrix. -/
theorem exists_factor {k : Type} [Fintype k] [DecidableEq k] {A : Matrix k k ℝ} (hA : A.PosSemidef) :
    ∃ L : Matrix k k ℝ, A = L * Lᵀ := by
  obtain ⟨B, hB⟩ := CStarAlgebra.nonneg_iff_eq_star_mul_self.mp hA.nonneg
  exact ⟨Bᵀ, by rw [hB, Matrix.star_eq_conjTranspose, Matrix.conjTranspose_eq_transpose_of_trivial, Matrix.transpose_transpose]⟩

/-- The states built from shocks. Proof notion, no code behind it. -/
noncomputable def buildX {Ω : Type} (θ : ℕ → Params n p r) (x0 : n → Ω → ℝ) (η : ℕ → r → Ω → ℝ) : ℕ → n → Ω → ℝ
  | 0 => x0
  | t + 1 => fun i ω => ∑ j, (θ t).T i j * buildX θ x0 η t j ω + (θ t).c i + ∑ j, (θ t).R i j * η t j ω

/-- **Non-vacuity of C162, C163 and C164.** For all system matrices with positive semidefinite covariances there is a process that
follows the model, and a fill value that is never observed. -/
theorem exists_process (θ : ℕ → Params n p r) (a0 : n → ℝ) {P0 : Matrix n n ℝ} (hP : P0.PosSemidef)
    (hQ : ∀ t, (θ t).Q.PosSemidef) (hH : ∀ t, (θ t).H.PosSemidef) :
    ∃ (Ω : Type) (_ : MeasurableSpace Ω) (μ : Measure Ω) (_ : IsProbabilityMeasure μ) (X : ℕ → n → Ω → ℝ)
      (Y : ℕ → p → Ω → ℝ) (η : ℕ → r → Ω → ℝ) (ε : ℕ → p → Ω → ℝ) (fill : ℝ),
      Spec.Process μ θ a0 P0 X Y η ε ∧ ∀ᵐ ω ∂μ, ∀ t i, Y t i ω ≠ fill := by
  obtain ⟨Ω, mΩ, μ, hμ, ξ, hval, hmem, hmean, hvar, hcov⟩ := exists_coins (n ⊕ (ℕ × r) ⊕ (ℕ × p))
  obtain ⟨LP, hLP⟩ := exists_factor hP
  choose LQ hLQ using fun t => exists_factor (hQ t)
  choose LH hLH using fun t => exists_factor (hH t)
  let ξx : n → L2 μ := fun i => ⟨ξ (.inl i), hmem _⟩
  let ξη : ℕ → r → L2 μ := fun t i => ⟨ξ (.inr (.inl (t, i))), hmem _⟩
  let ξε : ℕ → p → L2 μ := fun t i => ⟨ξ (.inr (.inr (t, i))), hmem _⟩
  let x0 : n → L2 μ := const (Orthogonal.one μ) a0 + act LP ξx
  let η : ℕ → r → L2 μ := fun t => act (LQ t) (ξη t)
  let ε : ℕ → p → L2 μ := fun t => act (LH t) (ξε t)
  have hc : ∀ a b, cov[ξ a, ξ b; μ] = if a = b then 1 else 0 := by
    intro a b
    by_cases h : a = b
    · subst h; simp [hvar]
    · simp [h, hcov a b h]
  have cxx : covM (covB μ) ξx ξx = 1 := by
    ext i j; simp [covM, covB_apply, ξx, hc, Matrix.one_apply]
  have cηη : ∀ s t, covM (covB μ) (ξη s) (ξη t) = if s = t then 1 else 0 := by
    intro s t; ext i j
    by_cases h : s = t <;> simp [covM, covB_apply, ξη, hc, Matrix.one_apply, h]
  have cεε : ∀ s t, covM (covB μ) (ξε s) (ξε t) = if s = t then 1 else 0 := by
    intro s t; ext i j
    by_cases h : s = t <;> simp [covM, covB_apply, ξε, hc, Matrix.one_apply, h]
  have cηε : ∀ s t, covM (covB μ) (ξη s) (ξε t) = 0 := by
    intro s t; ext i j; simp [covM, covB_apply, ξη, ξε, hc]
  have cxη : ∀ t, covM (covB μ) ξx (ξη t) = 0 := by
    intro t; ext i j; simp [covM, covB_apply, ξη, ξx, hc]
  have cxε : ∀ t, covM (covB μ) ξx (ξε t) = 0 := by
    intro t; ext i j; simp [covM, covB_apply, ξε, ξx, hc]
  have one0 : ∀ w, covB μ (Orthogonal.one μ) w = 0 := fun w => covariance_const_left 1
  have one0' : ∀ w, covB μ w (Orthogonal.one μ) = 0 := fun w => covariance_const_right 1
  have key : ∀ {a b : Type} (x : a → L2 μ) (y : b → L2 μ) (M : Matrix a b ℝ), covM (covB μ) x y = M →
      ∀ i j, cov[(x i).1, (y j).1; μ] = M i j := by
    intro a b x y M h i j
    exact congrFun (congrFun h i) j
  have mact : ∀ {a b : Type} [Fintype b] (A : Matrix a b ℝ) (x : b → L2 μ), (∀ j, mean μ (x j) = 0) → ∀ i, mean μ (act A x i) = 0 :=
    fun A x hx i => mean_act (mean μ) A x hx i
  let X := buildX θ (fun i => (x0 i).1) (fun t i => (η t i).1)
  let Y : ℕ → p → Ω → ℝ := fun t i ω => ∑ j, (θ t).Z i j * X t j ω + (θ t).d i + (ε t i).1 ω
  have hproc : Spec.Process μ θ a0 P0 X Y (fun t i => (η t i).1) (fun t i => (ε t i).1) :=
    { transition := fun t i ω => rfl
      observation := fun t i ω => rfl
      sqInt_initial := fun i => (x0 i).2
      sqInt_shock := fun t i => (η t i).2
      sqInt_error := fun t i => (ε t i).2
      mean_initial := by
        intro i
        show mean μ (x0 i) = a0 i
        simp only [x0, Pi.add_apply, map_add, mact LP ξx (fun j => hmean _), add_zero, const, map_smul]
        simp [mean_apply, Orthogonal.one]
      mean_shock := fun t i => mact (LQ t) (ξη t) (fun j => hmean _) i
      mean_error := fun t i => mact (LH t) (ξε t) (fun j => hmean _) i
      cov_initial := key x0 x0 P0 (by
        simp [x0, covM_add_left, covM_add_right, covM_act_left, covM_act_right, covM_const_left _ one0,
          covM_const_right _ one0', cxx, hLP])
      cov_shock := fun t => key (η t) (η t) _ (by
        simp [η, covM_act_left, covM_act_right, cηη, hLQ])
      cov_error := fun t => key (ε t) (ε t) _ (by
        simp [ε, covM_act_left, covM_act_right, cεε, hLH])
      shocks_uncorrelated := fun s t i j h => key (η s) (η t) 0 (by
        simp [η, covM_act_left, covM_act_right, cηη, h]) i j
      errors_uncorrelated := fun s t i j h => key (ε s) (ε t) 0 (by
        simp [ε, covM_act_left, covM_act_right, cεε, h]) i j
      shocks_errors_uncorrelated := fun s t i j => key (η s) (ε t) 0 (by
        simp [η, ε, covM_act_left, covM_act_right, cηε]) i j
      initial_shocks_uncorrelated := fun t i j => key x0 (η t) 0 (by
        simp [x0, η, covM_add_left, covM_act_left, covM_act_right, covM_const_left _ one0, cxη]) i j
      initial_errors_uncorrelated := fun t i j => key x0 (ε t) 0 (by
        simp [x0, ε, covM_add_left, covM_act_left, covM_act_right, covM_const_left _ one0, cxε]) i j }
  -- every observation takes finitely many values
  have fin_sum : ∀ {k : Type} [Fintype k] (A : k → ℝ) (f : k → Ω → ℝ), (∀ j, (Set.range (f j)).Finite) →
      (Set.range fun ω => ∑ j, A j * f j ω).Finite := by
    intro k _ A f hf
    have : (Set.pi Set.univ fun j => Set.range (f j)).Finite := Set.Finite.pi fun j => hf j
    refine (this.image fun g : k → ℝ => ∑ j, A j * g j).subset ?_
    rintro _ ⟨ω, rfl⟩
    exact ⟨fun j => f j ω, fun j _ => ⟨ω, rfl⟩, rfl⟩
  have fin_add : ∀ (f g : Ω → ℝ), (Set.range f).Finite → (Set.range g).Finite → (Set.range fun ω => f ω + g ω).Finite := by
    intro f g hf hg
    refine ((hf.prod hg).image fun q : ℝ × ℝ => q.1 + q.2).subset ?_
    rintro _ ⟨ω, rfl⟩
    exact ⟨(f ω, g ω), ⟨⟨ω, rfl⟩, ω, rfl⟩, rfl⟩
  have fin_const : ∀ c : ℝ, (Set.range fun _ : Ω => c).Finite := fun c =>
    (Set.finite_singleton c).subset (by rintro _ ⟨_, rfl⟩; rfl)
  have fin_ξ : ∀ a, (Set.range (ξ a)).Finite := fun a =>
    (Set.toFinite {1, -1}).subset (by rintro _ ⟨ω, rfl⟩; rcases hval a ω with h | h <;> simp [h])
  have fin_act : ∀ {k l : Type} [Fintype k] (A : Matrix l k ℝ) (f : k → L2 μ), (∀ j, (Set.range (f j).1).Finite) →
      ∀ i, (Set.range (act A f i).1).Finite := by
    intro k l _ A f hf i
    have : (act A f i).1 = fun ω => ∑ j, A i j * (f j).1 ω := by funext ω; simp [act]
    rw [this]; exact fin_sum _ _ hf
  have fin_X : ∀ t i, (Set.range (X t i)).Finite := by
    intro t
    induction t with
    | zero =>
      intro i
      refine fin_add _ _ ?_ (fin_act LP ξx (fun j => fin_ξ _) i)
      refine (fin_const (a0 i)).subset ?_
      rintro _ ⟨ω, rfl⟩
      exact ⟨ω, by simp [const, Orthogonal.one]⟩
    | succ t ih =>
      intro i
      exact fin_add _ _ (fin_add _ _ (fin_sum _ _ ih) (fin_const _))
        (fin_sum _ _ fun j => fin_act (LQ t) (ξη t) (fun j => fin_ξ _) j)
  have fin_Y : ∀ t i, (Set.range (Y t i)).Finite := fun t i =>
    fin_add _ _ (fin_add _ _ (fin_sum _ _ (fin_X t)) (fin_const _)) (fin_act (LH t) (ξε t) (fun j => fin_ξ _) i)
  have hcount : (⋃ q : ℕ × p, Set.range (Y q.1 q.2)).Countable :=
    Set.countable_iUnion fun q => (fin_Y q.1 q.2).countable
  obtain ⟨fill, hfill⟩ : ∃ fill : ℝ, fill ∉ ⋃ q : ℕ × p, Set.range (Y q.1 q.2) := by
    by_contra hcon
    push Not at hcon
    exact Cardinal.not_countable_real (hcount.mono fun x _ => hcon x)
  refine ⟨Ω, mΩ, μ, hμ, X, Y, _, _, fill, hproc, Filter.Eventually.of_forall fun ω t i h => hfill ?_⟩
  exact Set.mem_iUnion.2 ⟨(t, i), ω, h⟩

/-- A two-state, one-series model used in the examples: a local linear trend. Example, no code behind it. -/
def trendModel : Params (Fin 2) (Fin 1) (Fin 2) where
  c := 0
  d := 0
  T := !![1, 1; 0, 1]
  Z := !![1, 0]
  R := 1
  H := 1
  Q := 1

/-- C162 and C163 apply to a local linear trend at every length and date. -/
example (N t : ℕ) (ht : t < N) : ∃ (Ω : Type) (_ : MeasurableSpace Ω) (μ : Measure Ω) (X : ℕ → Fin 2 → Ω → ℝ)
    (Y : ℕ → Fin 1 → Ω → ℝ) (fill : ℝ), ∀ᵐ ω ∂μ, ∀ i j,
      cov[fun ω => X t i ω - ((buildGraph 0 fill 0 1 (Spec.rows (fun _ => trendModel) Y N ω)).predictedStates.getD t 0) i,
          fun ω => X t j ω - ((buildGraph 0 fill 0 1 (Spec.rows (fun _ => trendModel) Y N ω)).predictedStates.getD t 0) j; μ] =
        ((buildGraph 0 fill 0 1 (Spec.rows (fun _ => trendModel) Y N ω)).predictedCovs.getD t 0) i j := by
  obtain ⟨Ω, mΩ, μ, hμ, X, Y, η, ε, fill, h, hfill⟩ := exists_process (fun _ => trendModel) 0
    (P0 := 1) Matrix.PosSemidef.one (fun _ => Matrix.PosSemidef.one) (fun _ => Matrix.PosSemidef.one)
  exact ⟨Ω, mΩ, μ, X, Y, fill, (C162_prediction_errors h (undetermined_of_H h fun _ => Matrix.PosDef.one) fill hfill N t ht).2.2⟩

/-- The total log-likelihood theorem applies to the same process at every length. -/
example (N : ℕ) : ∃ (Ω : Type) (_ : MeasurableSpace Ω) (μ : Measure Ω) (Y : ℕ → Fin 1 → Ω → ℝ), ∀ (fill : ℝ) (y : ℕ → Fin 1 → ℝ),
    (∀ t i, y t i ≠ fill) →
    (buildGraph 0 fill 0 1 ((List.range N).map fun t => ((fun i => some (y t i) : Row (Fin 1)), trendModel))).loglike.sum =
      Spec.gaussLogDensity (Matrix.of fun q q' : Fin 1 × Fin N => cov[Y q.2 q.1, Y q'.2 q'.1; μ])
        (fun q => y q.2 q.1 - ∫ ω', Y q.2 q.1 ω' ∂μ) := by
  obtain ⟨Ω, mΩ, μ, hμ, X, Y, η, ε, fill, h, hfill⟩ := exists_process (fun _ => trendModel) 0
    (P0 := 1) Matrix.PosSemidef.one (fun _ => Matrix.PosSemidef.one) (fun _ => Matrix.PosSemidef.one)
  refine ⟨Ω, mΩ, μ, Y, fun fill y hy => ?_⟩
  have := C163_total_loglik h (undetermined_of_H h fun _ => Matrix.PosDef.one) fill y hy N
  simp only [Fintype.card_fin, Nat.cast_one, sub_self, zero_div, zero_mul, mul_zero, add_zero] at this
  exact this

/-- C164 applies to the same process at every length and date. -/
example (N t : ℕ) (ht : t < N) : ∃ (Ω : Type) (_ : MeasurableSpace Ω) (μ : Measure Ω) (X : ℕ → Fin 2 → Ω → ℝ)
    (Y : ℕ → Fin 1 → Ω → ℝ) (fill : ℝ), ∀ i s j, s < N →
      cov[fun ω => X t i ω - ((Spec.smoothed (fun _ => trendModel) ⟨trendModel.T, trendModel.R, trendModel.Q⟩ fill 0 1 Y N
        ω).getD t (0, 0)).1 i, Y s j; μ] = 0 := by
  obtain ⟨Ω, mΩ, μ, hμ, X, Y, η, ε, fill, h, hfill⟩ := exists_process (fun _ => trendModel) 0
    (P0 := 1) Matrix.PosSemidef.one (fun _ => Matrix.PosSemidef.one) (fun _ => Matrix.PosSemidef.one)
  exact ⟨Ω, mΩ, μ, X, Y, fill, (C164_smoothing_errors h (undetermined_of_H h fun _ => Matrix.PosDef.one) (fun _ => rfl) _ (fun _ => ⟨rfl, rfl, rfl⟩)
    fill hfill N t ht).2.1⟩

end Verif.Kalman
