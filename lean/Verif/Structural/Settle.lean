import Verif.Kalman.Visible
import Verif.Structural.Model
import Mathlib.LinearAlgebra.Matrix.PosDef

/-!
# C219: structural models settle

Trends, seasons and autoregressions as built by the components, and their sums.
-/

set_option autoImplicit false
set_option linter.unusedSectionVars false

open Matrix Filter Topology

namespace Verif.Structural.Settle

open Verif.Kalman.Spec

variable {k : ℕ}

theorem map_mulVec_apply {m n : Type*} [Fintype n] (A : Matrix m n ℝ) (v : n → ℂ) (i : m) :
    ((A.map Complex.ofReal) *ᵥ v) i = ∑ j, (A i j : ℂ) * v j := rfl

theorem ne_zero {z : ℂ} (hz : 1 ≤ ‖z‖) : z ≠ 0 := fun h => by rw [h, norm_zero] at hz; linarith

/-! ### Trends -/

/-- The transition of `levelTrend`. pymc_extras/statespace/models/structural.py:861-862 -/
def trendT (k : ℕ) : Matrix (Fin k) (Fin k) ℝ := fun i j => if i ≤ j then 1 else 0

theorem trend_row (v : Fin k → ℂ) (i : Fin k) :
    (((trendT k).map Complex.ofReal) *ᵥ v) i = ∑ j, if i ≤ j then v j else 0 := by
  rw [map_mulVec_apply]
  exact Finset.sum_congr rfl fun j _ => by unfold trendT; split_ifs <;> simp

theorem trend_col (v : Fin k → ℂ) (i : Fin k) :
    ((((trendT k)ᵀ).map Complex.ofReal) *ᵥ v) i = ∑ j, if j ≤ i then v j else 0 := by
  rw [map_mulVec_apply]
  exact Finset.sum_congr rfl fun j _ => by rw [transpose_apply]; unfold trendT; split_ifs <;> simp

theorem first_obs (v : Fin k → ℂ) (h : ∀ i, ((firstState k).map Complex.ofReal *ᵥ v) i = 0) (i : Fin k) (hi : i.val = 0) : v i = 0 := by
  have := h 0
  rw [map_mulVec_apply, Finset.sum_eq_single i] at this
  · simpa [firstState, hi] using this
  · intro j _ hj
    have : j.val ≠ 0 := fun h => hj (Fin.ext (by omega))
    simp [firstState, this]
  · simp

/-- Row sums of neighbouring states. -/
theorem suffix_step (v : Fin k → ℂ) (i i' : Fin k) (h : i'.val = i.val + 1) :
    (∑ j, if i ≤ j then v j else 0) = v i + ∑ j, if i' ≤ j then v j else 0 := by
  have hs : v i = ∑ j, if j = i then v j else 0 := by simp
  conv_rhs => enter [1]; rw [hs]
  rw [← Finset.sum_add_distrib]
  refine Finset.sum_congr rfl fun j _ => ?_
  by_cases hj : j = i
  · subst hj
    have h1 : ¬ i' ≤ j := by rw [Fin.le_def]; omega
    simp [h1]
  · have h1 : i ≤ j ↔ i' ≤ j := by
      rw [Fin.le_def, Fin.le_def]
      have : j.val ≠ i.val := fun h => hj (Fin.ext h)
      omega
    simp [hj, h1]

theorem prefix_step (v : Fin k → ℂ) (i i' : Fin k) (h : i'.val = i.val + 1) :
    (∑ j, if j ≤ i' then v j else 0) = v i' + ∑ j, if j ≤ i then v j else 0 := by
  have hs : v i' = ∑ j, if j = i' then v j else 0 := by simp
  conv_rhs => enter [1]; rw [hs]
  rw [← Finset.sum_add_distrib]
  refine Finset.sum_congr rfl fun j _ => ?_
  by_cases hj : j = i'
  · subst hj
    have h1 : ¬ j ≤ i := by rw [Fin.le_def]; omega
    simp [h1]
  · have h1 : j ≤ i' ↔ j ≤ i := by
      rw [Fin.le_def, Fin.le_def]
      have : j.val ≠ i'.val := fun h => hj (Fin.ext h)
      omega
    simp [hj, h1]

/-- The shocks of `levelTrend`, as a covariance of the states. Proof notion, no code behind it. -/
noncomputable def trendV (innov : Fin k → Bool) (σ : {i // innov i = true} → ℝ) : Matrix (Fin k) (Fin k) ℝ :=
  diagonal fun i => if h : innov i = true then σ ⟨i, h⟩ ^ 2 else 0

theorem trend_cov (innov : Fin k → Bool) (init : Fin k → ℝ) (σ : {i // innov i = true} → ℝ) :
    (levelTrend k innov init σ).R * (levelTrend k innov init σ).Q * (levelTrend k innov init σ).Rᵀ = trendV innov σ := by
  ext i j
  have hx : ∀ x : {i // innov i = true}, ((levelTrend k innov init σ).R * (levelTrend k innov init σ).Q) i x *
      (levelTrend k innov init σ).Rᵀ x j = (if i = x.val then 1 else 0) * σ x ^ 2 * (if j = x.val then 1 else 0) := by
    intro x
    rw [show (levelTrend k innov init σ).Q = diagonal fun s => σ s ^ 2 from rfl, mul_diagonal]
    rfl
  rw [mul_apply, Finset.sum_congr rfl fun x _ => hx x, trendV, diagonal_apply]
  by_cases h : innov j = true
  · rw [Finset.sum_eq_single ⟨j, h⟩]
    · by_cases e : i = j
      · subst e; simp [h]
      · simp [e]
    · intro x _ hx
      have : j ≠ x.val := fun e => hx (Subtype.ext e.symm)
      simp [this]
    · simp
  · rw [Finset.sum_eq_zero]
    · by_cases e : i = j
      · subst e; simp [h]
      · simp [e]
    · intro x _
      have : j ≠ x.val := fun e => h (e ▸ x.2)
      simp [this]

theorem diag_map (d : Fin k → ℝ) (v : Fin k → ℂ) (i : Fin k) : ((diagonal d).map Complex.ofReal *ᵥ v) i = (d i : ℂ) * v i := by
  rw [map_mulVec_apply, Finset.sum_eq_single i]
  · simp
  · intro j _ hj; simp [hj.symm]
  · simp

theorem trend_visible : Visible (fun _ => True) (trendT k) (firstState k) := by
  intro z v hv hz h
  by_contra hc
  push Not at hc
  refine hv ?_
  have h0 := first_obs v fun i => hc i trivial
  have key : ∀ m (i : Fin k), i.val = m → v i = 0 ∧ (∑ j, if i ≤ j then v j else 0) = 0 := by
    intro m
    induction m with
    | zero =>
      intro i hi
      refine ⟨h0 i hi, ?_⟩
      have := congrFun h i
      rw [trend_row, Pi.smul_apply, h0 i hi, smul_zero] at this
      exact this
    | succ m ih =>
      intro i hi
      have hlt : m < k := by omega
      obtain ⟨h1, h2⟩ := ih ⟨m, hlt⟩ rfl
      have h3 := suffix_step v ⟨m, hlt⟩ i hi
      rw [h1, h2, zero_add] at h3
      refine ⟨?_, h3.symm⟩
      have := congrFun h i
      rw [trend_row, ← h3, Pi.smul_apply, smul_eq_mul] at this
      exact (mul_eq_zero.1 this.symm).resolve_left (ne_zero hz)
  exact funext fun i => (key i.val i rfl).1

/-- A trend has no mode but `1`. -/
theorem trend_mode {z : ℂ} {v : Fin k → ℂ} (hv : v ≠ 0) (h : ((trendT k).map Complex.ofReal) *ᵥ v = z • v) : z = 1 := by
  by_contra hz
  refine hv ?_
  have key : ∀ m (i : Fin k), k - 1 - i.val = m → v i = 0 := by
    intro m
    induction m using Nat.strong_induction_on with
    | _ m ih =>
      intro i hi
      have h1 := congrFun h i
      rw [trend_row, Finset.sum_eq_single i] at h1
      · rw [if_pos le_rfl, Pi.smul_apply, smul_eq_mul] at h1
        have h2 : (1 - z) * v i = 0 := by rw [sub_mul, one_mul, ← h1, sub_self]
        exact (mul_eq_zero.1 h2).resolve_left (sub_ne_zero.2 (Ne.symm hz))
      · intro j _ hj
        split_ifs with hij
        · have h3 : i.val < j.val := lt_of_le_of_ne hij fun e => hj (Fin.ext e.symm)
          exact ih (k - 1 - j.val) (by omega) j rfl
        · rfl
      · simp
  exact funext fun i => key _ i rfl

/-- **C219 (trends).** From a level-trend component of any order every lasting mode is visible. Its shocks reach every lasting mode
exactly if the highest derivative has a shock with a standard deviation that is not zero. -/
theorem C219_level_trend (innov : Fin k → Bool) (init : Fin k → ℝ) (σ : {i // innov i = true} → ℝ) : let c := levelTrend k innov init σ
    Visible (fun _ => True) c.T (c.Z 0) ∧
      (Excited c.T (c.R * c.Q * c.Rᵀ) ↔ ∀ i : Fin k, i.val + 1 = k → ∃ h : innov i = true, σ ⟨i, h⟩ ≠ 0) := by
  intro c
  refine ⟨trend_visible, ?_⟩
  rw [show c.R * c.Q * c.Rᵀ = trendV innov σ from trend_cov innov init σ, show c.T = trendT k from rfl]
  constructor
  · intro h i hi
    by_contra hc
    push Not at hc
    refine h 1 (Pi.single i 1) (fun e => by simpa using congrFun e i) (by simp) ?_ ?_
    · ext j
      rw [trend_col, one_smul, Finset.sum_eq_single i]
      · by_cases hj : j = i
        · subst hj; simp
        · have : ¬ i ≤ j := fun hl => hj (Fin.ext (by rw [Fin.le_def] at hl; omega))
          simp [this, hj]
      · intro l _ hl; simp [hl]
      · simp
    · ext j
      rw [trendV, diag_map]
      by_cases hj : j = i
      · subst hj
        by_cases hin : innov j = true
        · simp [hin, hc hin]
        · simp [hin]
      · simp [hj]
  · intro h z v hv hz hT hV
    refine hv ?_
    have hlast : ∀ i : Fin k, i.val + 1 = k → v i = 0 := by
      intro i hi
      obtain ⟨h1, h2⟩ := h i hi
      have := congrFun hV i
      rw [trendV, diag_map] at this
      simpa [h1, h2] using this
    have hrow : ∀ i : Fin k, (∑ j, if j ≤ i then v j else 0) = z * v i := fun i => by
      have := congrFun hT i
      rwa [trend_col] at this
    have key : ∀ m (i : Fin k), i.val = m → v i = 0 := by
      intro m
      induction m using Nat.strong_induction_on with
      | _ m ih =>
        intro i hi
        by_cases hl : i.val + 1 = k
        · exact hlast i hl
        · have h1 := hrow i
          have h2 : (∑ j, if j ≤ i then v j else 0) = v i := by
            rw [Finset.sum_eq_single i]
            · simp
            · intro j _ hj
              split_ifs with hij
              · have : j.val < i.val := lt_of_le_of_ne hij fun e => hj (Fin.ext e)
                exact ih j.val (by omega) j rfl
              · rfl
            · simp
          by_cases hz1 : z = 1
          · have h3 := hrow ⟨i.val + 1, by omega⟩
            rw [prefix_step v i ⟨i.val + 1, by omega⟩ rfl, hz1, one_mul, add_eq_left, h2] at h3
            exact h3
          · rw [h2] at h1
            have h4 : (1 - z) * v i = 0 := by rw [sub_mul, one_mul, ← h1, sub_self]
            exact (mul_eq_zero.1 h4).resolve_left (sub_ne_zero.2 (Ne.symm hz1))
    exact funext fun i => key _ i rfl

/-! ### Seasons and autoregressions -/

theorem companion_row (row : Fin k → ℝ) (v : Fin k → ℂ) (i i' : Fin k) (h : i'.val = i.val + 1) :
    (((companion k row).map Complex.ofReal) *ᵥ v) i' = v i := by
  rw [map_mulVec_apply, Finset.sum_eq_single i]
  · simp [companion, h]
  · intro j _ hj
    have : ¬ j.val = i.val := fun e => hj (Fin.ext e)
    simp [companion, h, this]
  · simp

theorem companion_col (row : Fin k → ℝ) (v : Fin k → ℂ) (i i' i0 : Fin k) (h : i'.val = i.val + 1) (h0 : i0.val = 0) :
    ((((companion k row)ᵀ).map Complex.ofReal) *ᵥ v) i = row i * v i0 + v i' := by
  have hne : i0 ≠ i' := fun e => by rw [← e] at h; omega
  rw [map_mulVec_apply, ← Finset.add_sum_erase _ _ (Finset.mem_univ i0), ← Finset.add_sum_erase _ _ (Finset.mem_erase.2 ⟨hne.symm, Finset.mem_univ i'⟩),
    Finset.sum_eq_zero]
  · simp [companion, h0, h]
  · intro j hj
    simp only [Finset.mem_erase, Finset.mem_univ, and_true] at hj
    have h1 : j.val ≠ 0 := fun e => hj.2 (Fin.ext (by omega))
    have h2 : ¬ i.val + 1 = j.val := fun e => hj.1 (Fin.ext (by omega))
    simp [companion, h1, h2]

theorem companion_visible (row : Fin k → ℝ) : Visible (fun _ => True) (companion k row) (firstState k) := by
  intro z v hv hz h
  by_contra hc
  push Not at hc
  refine hv ?_
  have h0 := first_obs v fun i => hc i trivial
  have key : ∀ m (i : Fin k), i.val = m → v i = 0 := by
    intro m
    induction m with
    | zero => exact h0
    | succ m ih =>
      intro i hi
      have := congrFun h i
      rw [companion_row row v ⟨m, by omega⟩ i hi, ih _ rfl, Pi.smul_apply, smul_eq_mul] at this
      exact (mul_eq_zero.1 this.symm).resolve_left (ne_zero hz)
  exact funext fun i => key i.val i rfl

theorem shock_cov (σ : ℝ) : firstShock k * (diagonal fun _ => σ ^ 2 : Matrix (Fin 1) (Fin 1) ℝ) * (firstShock k)ᵀ =
    diagonal fun i => if i.val = 0 then σ ^ 2 else 0 := by
  ext i j
  rw [mul_apply, Fin.sum_univ_one, mul_diagonal, transpose_apply, firstShock, firstShock, diagonal_apply]
  by_cases hi : i.val = 0
  · by_cases hj : j.val = 0
    · have : i = j := Fin.ext (by omega)
      subst this
      simp [hi]
    · have : i ≠ j := fun e => hj (e ▸ hi)
      simp [hj, this]
  · by_cases e : i = j
    · subst e; simp [hi]
    · simp [hi, e]

theorem companion_excited (row : Fin k → ℝ) {σ : ℝ} (hσ : σ ≠ 0) :
    Excited (companion k row) (firstShock k * (diagonal fun _ => σ ^ 2 : Matrix (Fin 1) (Fin 1) ℝ) * (firstShock k)ᵀ) := by
  intro z v hv hz hT hV
  refine hv ?_
  rw [shock_cov] at hV
  have key : ∀ m (i : Fin k), i.val = m → v i = 0 := by
    intro m
    induction m with
    | zero =>
      intro i hi
      have := congrFun hV i
      rw [diag_map] at this
      simpa [hi, hσ] using this
    | succ m ih =>
      intro i hi
      have := congrFun hT ⟨m, by omega⟩
      rw [companion_col row v ⟨m, by omega⟩ i ⟨0, by omega⟩ hi rfl, Pi.smul_apply, ih ⟨m, by omega⟩ rfl, smul_zero] at this
      have h0 : v ⟨0, by omega⟩ = 0 := by
        have := congrFun hV ⟨0, by omega⟩
        rw [diag_map] at this
        simpa [hσ] using this
      rw [h0, mul_zero, zero_add] at this
      exact this
  exact funext fun i => key i.val i rfl

/-- **C219 (seasons).** From a time-domain seasonal component of any length every lasting mode is visible; with shocks every lasting mode
is reached; and no mode is constant. -/
theorem C219_time_seasonality (init : Fin k → ℝ) (σ : ℝ) : let c := timeSeasonality k init σ
    Visible (fun _ => True) c.T (c.Z 0) ∧ (σ ≠ 0 → Excited c.T (c.R * c.Q * c.Rᵀ)) ∧
      ∀ v : Fin k → ℂ, (c.T.map Complex.ofReal) *ᵥ v = (1 : ℂ) • v → v = 0 := by
  intro c
  refine ⟨companion_visible _, companion_excited _, fun v h => ?_⟩
  have key : ∀ m (i j : Fin k), i.val = m → j.val = 0 → v i = v j := by
    intro m
    induction m with
    | zero => intro i j hi hj; rw [Fin.ext (hi.trans hj.symm)]
    | succ m ih =>
      intro i j hi hj
      have := congrFun h i
      rw [show c.T = companion k fun _ => -1 from rfl, companion_row _ v ⟨m, by omega⟩ i hi, one_smul] at this
      rw [← this]
      exact ih _ j rfl hj
  funext i
  have hk : 0 < k := i.pos
  have hall : ∀ i, v i = v ⟨0, hk⟩ := fun i => key _ i _ rfl rfl
  have h1 := congrFun h ⟨0, hk⟩
  rw [show c.T = companion k fun _ => -1 from rfl, map_mulVec_apply, one_smul] at h1
  have h2 : ∀ j : Fin k, ((companion k (fun _ => -1) ⟨0, hk⟩ j : ℝ) : ℂ) * v j = -v ⟨0, hk⟩ := by
    intro j
    rw [hall j]
    simp [companion]
  rw [Finset.sum_congr rfl fun j _ => h2 j, Finset.sum_const, Finset.card_univ, Fintype.card_fin, nsmul_eq_mul] at h1
  have h3 : ((k : ℂ) + 1) * v ⟨0, hk⟩ = 0 := by linear_combination -h1
  rw [hall i]
  exact (mul_eq_zero.1 h3).resolve_left (by exact_mod_cast Nat.succ_ne_zero k)

/-- **C219 (autoregressions).** From an autoregressive component with any lags and coefficients, stable or not, every lasting mode is
visible, and with shocks every lasting mode is reached. -/
theorem C219_autoregressive (order : Fin k → Bool) (φ : {i // order i = true} → ℝ) (σ : ℝ) : let c := autoregressive k order φ σ
    Visible (fun _ => True) c.T (c.Z 0) ∧ (σ ≠ 0 → Excited c.T (c.R * c.Q * c.Rᵀ)) :=
  ⟨companion_visible _, companion_excited _⟩

/-! ### Sums -/

theorem blocks_map {n n' : Type*} [Fintype n] [Fintype n'] (A : Matrix n n ℝ) (B : Matrix n' n' ℝ) (v : n ⊕ n' → ℂ) :
    ((fromBlocks A 0 0 B).map Complex.ofReal) *ᵥ v =
      Sum.elim ((A.map Complex.ofReal) *ᵥ (v ∘ Sum.inl)) ((B.map Complex.ofReal) *ᵥ (v ∘ Sum.inr)) := by
  funext i
  rw [mulVec, dotProduct, Fintype.sum_sum_type]
  cases i <;> simp [mulVec, dotProduct]

variable {n r n' r' p : Type} [Fintype n] [Fintype r] [Fintype n'] [Fintype r'] [Fintype p] [DecidableEq n] [DecidableEq n'] [DecidableEq p]

/-- **C219 (sums).** In a sum of two components without a common lasting mode every lasting mode is visible if it is in each; the shocks
reach every lasting mode if they do in each. -/
theorem C219_combine (a : Sys n r p) (b : Sys n' r' p) : let c := combine a b
    (∀ s : p → Prop, Visible s a.T (a.Z 0) → Visible s b.T (b.Z 0) →
      (∀ (z : ℂ) (v : n → ℂ) (w : n' → ℂ), 1 ≤ ‖z‖ → (a.T.map Complex.ofReal) *ᵥ v = z • v → (b.T.map Complex.ofReal) *ᵥ w = z • w →
        v = 0 ∨ w = 0) → Visible s c.T (c.Z 0)) ∧
    (Excited a.T (a.R * a.Q * a.Rᵀ) → Excited b.T (b.R * b.Q * b.Rᵀ) → Excited c.T (c.R * c.Q * c.Rᵀ)) := by
  intro c
  have hsplit : ∀ v : n ⊕ n' → ℂ, v ∘ Sum.inl = 0 → v ∘ Sum.inr = 0 → v = 0 := by
    intro v h1 h2
    funext i
    cases i with
    | inl i => exact congrFun h1 i
    | inr i => exact congrFun h2 i
  have heig : ∀ (A : Matrix n n ℝ) (B : Matrix n' n' ℝ) (z : ℂ) (v : n ⊕ n' → ℂ), ((fromBlocks A 0 0 B).map Complex.ofReal) *ᵥ v = z • v →
      (A.map Complex.ofReal) *ᵥ (v ∘ Sum.inl) = z • (v ∘ Sum.inl) ∧ (B.map Complex.ofReal) *ᵥ (v ∘ Sum.inr) = z • (v ∘ Sum.inr) := by
    intro A B z v h
    rw [blocks_map] at h
    exact ⟨funext fun i => congrFun h (Sum.inl i), funext fun i => congrFun h (Sum.inr i)⟩
  refine ⟨fun s ha hb hab z v hv hz h => ?_, fun ha hb z v hv hz h hV => ?_⟩
  · obtain ⟨h1, h2⟩ := heig a.T b.T z v h
    have hZ : ∀ i, ((c.Z 0).map Complex.ofReal *ᵥ v) i =
        ((a.Z 0).map Complex.ofReal *ᵥ (v ∘ Sum.inl)) i + ((b.Z 0).map Complex.ofReal *ᵥ (v ∘ Sum.inr)) i := by
      intro i
      rw [map_mulVec_apply, map_mulVec_apply, map_mulVec_apply, Fintype.sum_sum_type]
      rfl
    by_cases h3 : v ∘ Sum.inl = 0
    · have h4 : v ∘ Sum.inr ≠ 0 := fun h4 => hv (hsplit v h3 h4)
      obtain ⟨i, hi, hne⟩ := hb z _ h4 hz h2
      exact ⟨i, hi, by rw [hZ, h3, mulVec_zero, Pi.zero_apply, zero_add]; exact hne⟩
    · have h4 : v ∘ Sum.inr = 0 := (hab z _ _ hz h1 h2).resolve_left h3
      obtain ⟨i, hi, hne⟩ := ha z _ h3 hz h1
      exact ⟨i, hi, by rw [hZ, h4, mulVec_zero, Pi.zero_apply, add_zero]; exact hne⟩
  · have hT : c.Tᵀ = fromBlocks a.Tᵀ 0 0 b.Tᵀ := by
      show (fromBlocks a.T 0 0 b.T)ᵀ = _
      rw [fromBlocks_transpose, transpose_zero, transpose_zero]
    have hR : c.R * c.Q * c.Rᵀ = fromBlocks (a.R * a.Q * a.Rᵀ) 0 0 (b.R * b.Q * b.Rᵀ) := by
      show fromBlocks a.R 0 0 b.R * fromBlocks a.Q 0 0 b.Q * (fromBlocks a.R 0 0 b.R)ᵀ = _
      rw [fromBlocks_transpose, fromBlocks_multiply, fromBlocks_multiply]
      simp
    rw [hT] at h
    rw [hR, blocks_map] at hV
    obtain ⟨h1, h2⟩ := heig _ _ z v h
    have v1 : (a.R * a.Q * a.Rᵀ).map Complex.ofReal *ᵥ (v ∘ Sum.inl) = 0 := funext fun i => congrFun hV (Sum.inl i)
    have v2 : (b.R * b.Q * b.Rᵀ).map Complex.ofReal *ᵥ (v ∘ Sum.inr) = 0 := funext fun i => congrFun hV (Sum.inr i)
    refine hv (hsplit v ?_ ?_)
    · by_contra hne
      exact ha z _ hne hz h1 v1
    · by_contra hne
      exact hb z _ hne hz h2 v2

/-! ### A trend, a season, a stable autoregression and measurement errors -/

/-- The matrices a structural model hands to the filter, with a constant design.
pymc_extras/statespace/models/structural.py:503-564 -/
def params (c : Sys n r p) : Kalman.Params n p r := ⟨c.c, c.d, c.T, c.Z 0, c.R, c.H, c.Q⟩

/-- The sum `level_trend + season + autoregression + measurement_error`. pymc_extras/statespace/models/structural.py:596-645 -/
def basic {k l m : ℕ} (innov : Fin k → Bool) (init : Fin k → ℝ) (σ : {i // innov i = true} → ℝ) (season : Fin l → ℝ) (σs : ℝ)
    (order : Fin m → Bool) (φ : {i // order i = true} → ℝ) (σa : ℝ) (σe : ℝ) :=
  combine (combine (combine (levelTrend k innov init σ) (timeSeasonality l season σs)) (autoregressive m order φ σa)) (measurementError σe)

/-- **C219 (the filter settles).** A trend of any order whose highest derivative has a shock, plus a season of any length with a
shock, plus a stable autoregression, plus measurement errors. With any jitter, on complete data, from every start, the univariate filter's
predicted and filtered covariances converge, to the same limits for all starts and all data. -/
theorem C219_settles {jitter : ℝ} (hj : 0 ≤ jitter) {k l m : ℕ} (innov : Fin k → Bool) (init : Fin k → ℝ) (σ : {i // innov i = true} → ℝ) (season : Fin l → ℝ)
    {σs : ℝ} (order : Fin m → Bool) (φ : {i // order i = true} → ℝ) (σa : ℝ) {σe : ℝ}
    (htop : ∀ i : Fin k, i.val + 1 = k → ∃ h : innov i = true, σ ⟨i, h⟩ ≠ 0) (hs : σs ≠ 0)
    (har : Stationary.Spec.Stable (autoregressive m order φ σa).T) (he : σe ≠ 0) :
    let θ := params (basic innov init σ season σs order φ σa σe)
    ∃ L F : Matrix (((Fin k ⊕ Fin l) ⊕ Fin m) ⊕ Fin 0) (((Fin k ⊕ Fin l) ⊕ Fin m) ⊕ Fin 0) ℝ, L.PosSemidef ∧
      ∀ (a0 : ((Fin k ⊕ Fin l) ⊕ Fin m) ⊕ Fin 0 → ℝ) (P0 : Matrix _ _ ℝ), P0.PosSemidef → ∀ y : ℕ → Fin 1 → ℝ,
        ∃ out : ℕ → Kalman.UnivGraph (((Fin k ⊕ Fin l) ⊕ Fin m) ⊕ Fin 0),
          (∀ N, Kalman.univGraph jitter a0 P0 θ ((List.range N).map fun t i => some (y t i)) = some (out N)) ∧
          Tendsto (fun t => (out (t + 1)).predictedCovs.getD t 0) atTop (𝓝 L) ∧
          Tendsto (fun t => (out (t + 1)).filteredCovs.getD t 0) atTop (𝓝 F) := by
  intro θ
  have t := C219_level_trend innov init σ
  have s := C219_time_seasonality season σs
  have a := C219_autoregressive order φ σa
  have c1 := C219_combine (levelTrend k innov init σ) (timeSeasonality l season σs)
  have c2 := C219_combine (combine (levelTrend k innov init σ) (timeSeasonality l season σs)) (autoregressive m order φ σa)
  have c3 := C219_combine (combine (combine (levelTrend k innov init σ) (timeSeasonality l season σs)) (autoregressive m order φ σa))
    (measurementError σe)
  have e0 : ∀ w : Fin 0 → ℂ, w = 0 := fun w => Subsingleton.elim _ _
  have hV : Visible (fun _ => True) θ.T θ.Z := by
    refine c3.1 _ (c2.1 _ (c1.1 _ t.1 s.1 ?_) a.1 ?_) (fun z w hw => absurd (e0 w) hw) fun _ _ w _ _ _ => Or.inr (e0 w)
    · intro z v w _ h1 h2
      by_cases hv : v = 0
      · exact Or.inl hv
      · have hz := trend_mode hv h1
        exact Or.inr (s.2.2 w (hz ▸ h2))
    · intro z v w hz _ h2
      by_cases hw : w = 0
      · exact Or.inr hw
      · exact absurd ((Stationary.stable_iff _).1 har z w hw h2) (not_lt.2 hz)
  have hEa : Excited (autoregressive m order φ σa).T
      ((autoregressive m order φ σa).R * (autoregressive m order φ σa).Q * (autoregressive m order φ σa).Rᵀ) :=
    (Kalman.C217_stable_tracked har (fun _ : Fin 1 => True) 0 _).2
  have hE : Excited θ.T (θ.R * θ.Q * θ.Rᵀ) :=
    c3.2 (c2.2 (c1.2 (t.2.2 htop) (s.2.1 hs)) hEa) fun _ w hw => absurd (e0 w) hw
  have hH : ∀ i, 0 < θ.H i i := by
    intro i
    have : θ.H i i = σe ^ 2 := by simp [θ, params, basic, combine, levelTrend, timeSeasonality, autoregressive, measurementError, zeroSys]
    rw [this]
    positivity
  have hQ : θ.Q.PosSemidef := by
    have : θ.Q = diagonal (Sum.elim (Sum.elim (Sum.elim (fun i => σ i ^ 2) fun _ => σs ^ 2) fun _ => σa ^ 2) fun _ => 0) := by
      rw [← fromBlocks_diagonal, ← fromBlocks_diagonal, ← fromBlocks_diagonal]
      have : (diagonal fun _ => 0 : Matrix (Fin 0) (Fin 0) ℝ) = 0 := Subsingleton.elim _ _
      rw [this]
      rfl
    rw [this]
    refine PosSemidef.diagonal fun i => ?_
    rcases i with ((i | i) | i) | i <;> simp <;> positivity
  obtain ⟨L, F, hL, hall⟩ := Kalman.C217_settles (θ := θ) hj one_pos (fun _ => True) ((Kalman.C217_tracked_iff_visible _ _ _).2 hV)
    (Or.inr hE) (fun i => (hH i).le) hQ (Or.inr ⟨hH, fun _ => trivial⟩)
  refine ⟨L, F, hL, fun a0 P0 hP y => ?_⟩
  obtain ⟨out, h1, h2, h3, -⟩ := hall a0 P0 hP (fun t i => some (y t i)) (by simp)
  exact ⟨out, h1, h2, h3⟩

/-- A level and a slope, only the slope with shocks; three seasons; an autoregression with coefficient 1/2: the hypotheses of
`C219_settles`, and of the sums in `C219_combine`. -/
example : ∃ (innov : Fin 2 → Bool) (σ : {i // innov i = true} → ℝ) (order : Fin 1 → Bool) (φ : {i // order i = true} → ℝ),
    innov 0 = false ∧ (∀ i : Fin 2, i.val + 1 = 2 → ∃ h : innov i = true, σ ⟨i, h⟩ ≠ 0) ∧
      Stationary.Spec.Stable (autoregressive 1 order φ 1).T := by
  refine ⟨fun i => i == 1, fun _ => 3, fun _ => true, fun _ => 1 / 2, rfl, fun i hi => ⟨?_, by norm_num⟩, ?_⟩
  · have : i = 1 := Fin.ext (by simpa using hi)
    simp [this]
  · rw [Stationary.stable_iff]
    intro z v hv h
    have h0 := congrFun h 0
    have hv0 : v 0 ≠ 0 := fun h => hv (funext fun i => by rw [Subsingleton.elim i 0]; exact h)
    simp [mulVec, dotProduct, Matrix.map_apply, autoregressive, companion] at h0
    have : z = 1 / 2 := by
      rcases h0 with h0 | h0
      · rw [← h0]; norm_num
      · exact absurd h0 hv0
    rw [this]; norm_num

/-- A trend whose slope has no shock: its shocks do not reach every lasting mode. -/
example : ∃ (innov : Fin 2 → Bool) (σ : {i // innov i = true} → ℝ),
    ¬ Excited (levelTrend 2 innov 0 σ).T ((levelTrend 2 innov 0 σ).R * (levelTrend 2 innov 0 σ).Q * (levelTrend 2 innov 0 σ).Rᵀ) := by
  refine ⟨fun i => i == 0, fun _ => 3, fun h => ?_⟩
  obtain ⟨h1, -⟩ := (C219_level_trend (fun i : Fin 2 => i == 0) 0 fun _ => 3).2.1 h 1 rfl
  simp at h1

end Verif.Structural.Settle
