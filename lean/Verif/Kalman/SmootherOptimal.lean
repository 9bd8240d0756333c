import Verif.Kalman.OptimalProps
import Verif.Smoother.Props

/-!
# C164: the smoother's states are the best linear predictors given the whole sample

First the algebra (in the space of random variables), then the link to the smoother's list output, then the property theorems.
-/

set_option autoImplicit false

open Matrix MeasureTheory ProbabilityTheory

namespace Verif.Kalman.Orthogonal

variable {W : Type*} [AddCommGroup W] [Module ℝ W]
variable {n p r m : Type*} [Fintype n] [Fintype p] [Fintype r] [Fintype m] [DecidableEq n] [DecidableEq p] [DecidableEq r]

/-- Filtered covariance at row `t`. Proof notion: kalman_filter.py:549-617 in closed form. -/
noncomputable def filtCov (θ : ℕ → Params n p r) (P0 : Matrix n n ℝ) (t : ℕ) : Matrix n n ℝ :=
  Spec.condCov (covAt θ P0 t) (θ t).Z (θ t).H

/-- Smoother gain at row `t`. Proof notion: kalman_smoother.py:107-122 in closed form. -/
noncomputable def smGain (θ : ℕ → Params n p r) (P0 : Matrix n n ℝ) (t : ℕ) : Matrix n n ℝ :=
  Smoother.gain (covAt θ P0 (t + 1)) (filtCov θ P0 t) (θ t).T

/-- Smoothed mean, `k` steps before the last row `M`.
Proof notion: kalman_smoother.py:107-122 with random variables for data. -/
noncomputable def smAt (one : W) (θ : ℕ → Params n p r) (a0 : n → ℝ) (P0 : Matrix n n ℝ) (Y : ℕ → p → W) (M : ℕ) :
    ℕ → n → W
  | 0 => filtAt one θ a0 P0 Y M
  | k + 1 => filtAt one θ a0 P0 Y (M - (k + 1)) + act (smGain θ P0 (M - (k + 1)))
      (smAt one θ a0 P0 Y M k - act (θ (M - (k + 1))).T (filtAt one θ a0 P0 Y (M - (k + 1))))

/-- Smoothed covariance, `k` steps before the last row `M`. Proof notion: kalman_smoother.py:107-122 in closed form. -/
noncomputable def smCov (θ : ℕ → Params n p r) (P0 : Matrix n n ℝ) (M : ℕ) : ℕ → Matrix n n ℝ
  | 0 => filtCov θ P0 M
  | k + 1 => filtCov θ P0 (M - (k + 1)) + smGain θ P0 (M - (k + 1)) *
      (smCov θ P0 M k - covAt θ P0 (M - (k + 1) + 1)) * (smGain θ P0 (M - (k + 1)))ᵀ

/-- The smoother gain solves its normal equations even when the predicted covariance is singular. -/
theorem gain_normal {P Q' T : Matrix n n ℝ} (hP : P.PosSemidef) (hQ : Q'.PosSemidef) :
    Smoother.gain (T * P * Tᵀ + Q') P T * (T * P * Tᵀ + Q') = P * Tᵀ := by
  set A := T * P * Tᵀ + Q' with hA
  have hTP : (T * P * Tᵀ).PosSemidef := by
    simpa [Matrix.conjTranspose_eq_transpose_of_trivial] using hP.mul_mul_conjTranspose_same T
  have hAs : Aᵀ = A := PosSemidef.transpose_eq (hTP.add hQ)
  have hPs := PosSemidef.transpose_eq hP
  have hpen := Smoother.pinv_penrose hAs
  have hker : ∀ x : n → ℝ, A *ᵥ x = 0 → (P * Tᵀ) *ᵥ x = 0 := by
    intro x hx
    have h0 : x ⬝ᵥ (A *ᵥ x) = 0 := by rw [hx, dotProduct_zero]
    rw [hA, add_mulVec, dotProduct_add] at h0
    have h1 : x ⬝ᵥ ((T * P * Tᵀ) *ᵥ x) = (Tᵀ *ᵥ x) ⬝ᵥ (P *ᵥ (Tᵀ *ᵥ x)) := by
      rw [Matrix.mul_assoc, ← mulVec_mulVec, dotProduct_mulVec, ← mulVec_transpose, ← mulVec_mulVec]
    have h2 : 0 ≤ (Tᵀ *ᵥ x) ⬝ᵥ (P *ᵥ (Tᵀ *ᵥ x)) := by simpa using hP.dotProduct_mulVec_nonneg (Tᵀ *ᵥ x)
    have h3 : 0 ≤ x ⬝ᵥ (Q' *ᵥ x) := by simpa using hQ.dotProduct_mulVec_nonneg x
    have h4 : star (Tᵀ *ᵥ x) ⬝ᵥ (P *ᵥ (Tᵀ *ᵥ x)) = 0 := by
      rw [star_trivial]; rw [h1] at h0; linarith
    rw [← mulVec_mulVec]
    exact (hP.dotProduct_mulVec_zero_iff _).1 h4
  have hz : A * (1 - Smoother.pinv A * A) = 0 := by
    rw [Matrix.mul_sub, Matrix.mul_one, ← Matrix.mul_assoc, hpen.aba, sub_self]
  have hPT : P * Tᵀ * (1 - Smoother.pinv A * A) = 0 := by
    ext i j
    have := hker (fun k => (1 - Smoother.pinv A * A) k j) (by
      funext i'
      have := congrFun (congrFun hz i') j
      simpa [mul_apply, mulVec, dotProduct] using this)
    simpa [mul_apply, mulVec, dotProduct] using congrFun this i
  rw [Matrix.mul_sub, Matrix.mul_one, sub_eq_zero] at hPT
  rw [Smoother.gain, transpose_mul, transpose_mul, Smoother.pinv_symm hAs, hPs, ← Matrix.mul_assoc, Matrix.mul_assoc]
  exact hPT.symm

variable {B : W →ₗ[ℝ] W →ₗ[ℝ] ℝ} {one : W}
variable {θ : ℕ → Params n p r} {P0 : Matrix n n ℝ} {a0 : n → ℝ} {X : ℕ → n → W} {Y : ℕ → p → W} {η : ℕ → r → W}
  {ε : ℕ → p → W}

/-- Anything uncorrelated with the sample is uncorrelated with the smoothed states. -/
theorem Proc.smOrth (h : Proc B one θ P0 X Y η ε) (M : ℕ) (U : m → W) (hU : ∀ s, s ≤ M → covM B U (Y s) = 0) (k : ℕ)
    (hk : k ≤ M) : covM B U (smAt one θ a0 P0 Y M k) = 0 := by
  induction k with
  | zero => exact h.filtOrth U M hU
  | succ k ih =>
    have e1 := h.filtOrth (a0 := a0) U (M - (k + 1)) fun s hs => hU s (by omega)
    have e2 := ih (by omega)
    simp [smAt, covM_add_right, covM_sub_right, covM_act_right, e1, e2]

/-- The part of the filtered error that the next state does not explain. Proof notion, no code behind it. -/
noncomputable def unexplained (one : W) (θ : ℕ → Params n p r) (a0 : n → ℝ) (P0 : Matrix n n ℝ) (X : ℕ → n → W)
    (Y : ℕ → p → W) (t : ℕ) : n → W :=
  X t - filtAt one θ a0 P0 Y t - act (smGain θ P0 t) (err one θ a0 P0 X Y (t + 1))

theorem Proc.unexplained_props (h : Proc B one θ P0 X Y η ε) (hpos : ∀ w, 0 ≤ B w w) 
    (hF : ∀ t, (Spec.obsCov (covAt θ P0 t) (θ t).Z (θ t).H).PosDef) (t : ℕ) :
    covM B (unexplained one θ a0 P0 X Y t) (unexplained one θ a0 P0 X Y t) =
        filtCov θ P0 t - smGain θ P0 t * covAt θ P0 (t + 1) * (smGain θ P0 t)ᵀ ∧
      (∀ s, covM B (unexplained one θ a0 P0 X Y t) (Y s) = 0) ∧
      covM B (unexplained one θ a0 P0 X Y t) (X (t + 1)) = 0 := by
  obtain ⟨-, -, -, kF⟩ := h.allPosDef hpos hF a0 t
  obtain ⟨hpsd', -, k', -⟩ := h.allPosDef hpos hF a0 (t + 1)
  set D := unexplained one θ a0 P0 X Y t with hD
  set e := X t - filtAt one θ a0 P0 Y t with he
  set e' := err one θ a0 P0 X Y (t + 1) with he'
  set J := smGain θ P0 t with hJ
  set P := filtCov θ P0 t with hP
  have hPpsd : P.PosSemidef := by rw [hP, filtCov, ← kF.cov]; exact covM_posSemidef B h.sym hpos _
  have hQpsd : ((θ t).R * (θ t).Q * (θ t).Rᵀ).PosSemidef := by
    have : ((θ t).Q).PosSemidef := by rw [← h.ηη]; exact covM_posSemidef B h.sym hpos _
    simpa [Matrix.conjTranspose_eq_transpose_of_trivial] using this.mul_mul_conjTranspose_same (θ t).R
  have hcov' : covAt θ P0 (t + 1) = (θ t).T * P * (θ t).Tᵀ + (θ t).R * (θ t).Q * (θ t).Rᵀ := rfl
  have hJP : J * covAt θ P0 (t + 1) = P * (θ t).Tᵀ := by
    rw [hJ, smGain, hcov']; exact gain_normal hPpsd hQpsd
  have hmove : e' = act (θ t).T e + act (θ t).R (η t) := h.err_succ t
  have hee : covM B e e = P := kF.cov
  have hee' : covM B e e' = P * (θ t).Tᵀ := by
    rw [hmove, covM_add_right, covM_act_right, covM_act_right, hee, kF.noiseη t le_rfl]; simp
  have hDe' : covM B D e' = 0 := by
    have : D = e - act J e' := rfl
    rw [this, covM_sub_left, covM_act_left, hee', k'.cov, hJP, sub_self]
  have hpast : ∀ s, s ≤ t → covM B D (Y s) = 0 := by
    intro s hs
    have : D = e - act J e' := rfl
    rw [this, covM_sub_left, covM_act_left, kF.past s hs, k'.past s (by omega)]; simp
  have hη : ∀ s, t + 1 ≤ s → covM B D (η s) = 0 ∧ covM B D (ε s) = 0 := by
    intro s hs
    have : D = e - act J e' := rfl
    constructor
    · rw [this, covM_sub_left, covM_act_left, kF.noiseη s (by omega), (k'.noise s hs).1]; simp
    · rw [this, covM_sub_left, covM_act_left, kF.noiseε s (by omega), (k'.noise s hs).2]; simp
  have hX : ∀ i, covM B D (X (t + 1 + i)) = 0 := by
    intro i
    induction i with
    | zero =>
      have : X (t + 1 + 0) = e' + predAt one θ a0 P0 Y (t + 1) := by rw [he', err]; simp
      rw [this, covM_add_right, hDe', h.predOrth D (t + 1) fun s hs => hpast s (by omega), add_zero]
    | succ i ih =>
      rw [← Nat.add_assoc, h.move, covM_add_right, covM_add_right, covM_act_right, covM_act_right, ih,
        (hη (t + 1 + i) (by omega)).1, covM_const_right B h.one0']
      simp
  have hY : ∀ s, covM B D (Y s) = 0 := by
    intro s
    by_cases hs : s ≤ t
    · exact hpast s hs
    · obtain ⟨i, rfl⟩ : ∃ i, s = t + 1 + i := ⟨s - (t + 1), by omega⟩
      rw [h.obs, covM_add_right, covM_add_right, covM_act_right, hX, (hη (t + 1 + i) (by omega)).2,
        covM_const_right B h.one0']
      simp
  refine ⟨?_, hY, hX 0⟩
  have hDD : covM B D D = covM B D e := by
    have hd : covM B D D = covM B D (e - act J e') := rfl
    rw [hd, covM_sub_right, covM_act_right, hDe']; simp
  have hDe : covM B D e = P - J * (P * (θ t).Tᵀ)ᵀ := by
    have hd : covM B D e = covM B (e - act J e') e := rfl
    have he'e : covM B e' e = (P * (θ t).Tᵀ)ᵀ := by rw [← hee', covM_transpose B h.sym]
    rw [hd, covM_sub_left, covM_act_left, hee, he'e]
  rw [hDD, hDe, ← hJP, transpose_mul, PosSemidef.transpose_eq hpsd', ← Matrix.mul_assoc]

/-- The smoothing errors. -/
theorem Proc.smAll (h : Proc B one θ P0 X Y η ε) (hpos : ∀ w, 0 ≤ B w w) 
    (hF : ∀ t, (Spec.obsCov (covAt θ P0 t) (θ t).Z (θ t).H).PosDef)
    (hc : ∀ t, (θ t).c = 0) (M k : ℕ) (hk : k ≤ M) :
    covM B (X (M - k) - smAt one θ a0 P0 Y M k) (X (M - k) - smAt one θ a0 P0 Y M k) = smCov θ P0 M k ∧
      ∀ s, s ≤ M → covM B (X (M - k) - smAt one θ a0 P0 Y M k) (Y s) = 0 := by
  induction k with
  | zero =>
    obtain ⟨-, -, -, kF⟩ := h.allPosDef hpos hF a0 M
    exact ⟨kF.cov, kF.past⟩
  | succ k ih =>
    obtain ⟨ihc, ihp⟩ := ih (by omega)
    obtain ⟨t, ht⟩ : ∃ t, M - (k + 1) = t := ⟨_, rfl⟩
    have ht1 : M - k = t + 1 := by omega
    obtain ⟨u1, u2, u3⟩ := h.unexplained_props (a0 := a0) hpos hF t
    have hpred : predAt one θ a0 P0 Y (t + 1) = act (θ t).T (filtAt one θ a0 P0 Y t) := by
      have e : predAt one θ a0 P0 Y (t + 1) = const one (θ t).c + act (θ t).T (filtAt one θ a0 P0 Y t) := rfl
      rw [e, hc]; funext i; simp [const]
    have hsplit : X t - smAt one θ a0 P0 Y M (k + 1) = unexplained one θ a0 P0 X Y t +
        act (smGain θ P0 t) (X (t + 1) - smAt one θ a0 P0 Y M k) := by
      simp only [smAt, ht, unexplained, err, hpred, act_sub]
      abel
    rw [ht1] at ihc ihp
    have hcross : covM B (unexplained one θ a0 P0 X Y t) (X (t + 1) - smAt one θ a0 P0 Y M k) = 0 := by
      rw [covM_sub_right, u3, h.smOrth M _ (fun s _ => u2 s) k (by omega), sub_zero]
    have hcross' : covM B (X (t + 1) - smAt one θ a0 P0 Y M k) (unexplained one θ a0 P0 X Y t) = 0 := by
      rw [← covM_transpose B h.sym, hcross, transpose_zero]
    rw [ht, hsplit]
    constructor
    · simp only [covM_add_left, covM_add_right, covM_act_left, covM_act_right, hcross, hcross', ihc, u1, smCov, ht]
      simp only [Matrix.mul_zero, Matrix.zero_mul, add_zero, Matrix.mul_sub, Matrix.sub_mul, zero_add, Matrix.mul_assoc]
      abel
    · intro s hs
      rw [covM_add_left, covM_act_left, u2 s, ihp s hs]; simp

/-- Means of the smoothing errors. -/
theorem Proc.smMean (h : Proc B one θ P0 X Y η ε) (hc : ∀ t, (θ t).c = 0) (E : W →ₗ[ℝ] ℝ) (h1 : E one = 1)
    (hx : ∀ i, E (X 0 i) = a0 i) (hη : ∀ t i, E (η t i) = 0) (hε : ∀ t i, E (ε t i) = 0) (M k : ℕ) (hk : k ≤ M) (i : n) :
    E ((X (M - k) - smAt one θ a0 P0 Y M k) i) = 0 := by
  induction k generalizing i with
  | zero => exact (h.mean E h1 hx hη hε M).2.1 i
  | succ k ih =>
    obtain ⟨t, ht⟩ : ∃ t, M - (k + 1) = t := ⟨_, rfl⟩
    have ht1 : M - k = t + 1 := by omega
    have hpred : predAt one θ a0 P0 Y (t + 1) = act (θ t).T (filtAt one θ a0 P0 Y t) := by
      have e : predAt one θ a0 P0 Y (t + 1) = const one (θ t).c + act (θ t).T (filtAt one θ a0 P0 Y t) := rfl
      rw [e, hc]; funext i; simp [const]
    have hsplit : X t - smAt one θ a0 P0 Y M (k + 1) = (X t - filtAt one θ a0 P0 Y t)
        - act (smGain θ P0 t) (err one θ a0 P0 X Y (t + 1)) +
        act (smGain θ P0 t) (X (t + 1) - smAt one θ a0 P0 Y M k) := by
      simp only [smAt, ht, err, hpred, act_sub]
      abel
    have ih' := ih (by omega)
    rw [ht1] at ih'
    rw [ht, hsplit]
    simp only [Pi.add_apply, Pi.sub_apply, map_add, map_sub]
    rw [mean_act E _ _ (h.mean E h1 hx hη hε (t + 1)).1, mean_act E _ _ ih']
    have := (h.mean E h1 hx hη hε t).2.1 i
    simp only [Pi.sub_apply, map_sub] at this
    rw [this]; simp

/-! ### Affine functions of the sample -/

/-- Affine functions of the observations before row `N`. Proof notion, no code behind it. -/
def affineSpan (one : W) (Y : ℕ → p → W) (N : ℕ) : Submodule ℝ W :=
  Submodule.span ℝ (Set.range fun q : Option (Fin N × p) => q.elim one fun q => Y q.1 q.2)

theorem one_mem (one : W) (Y : ℕ → p → W) (N : ℕ) : one ∈ affineSpan one Y N :=
  Submodule.subset_span ⟨none, rfl⟩

theorem obs_mem (one : W) (Y : ℕ → p → W) (N t : ℕ) (ht : t < N) (j : p) : Y t j ∈ affineSpan one Y N :=
  Submodule.subset_span ⟨some (⟨t, ht⟩, j), rfl⟩

theorem const_mem {k : Type*} (Y : ℕ → p → W) (N : ℕ) (c : k → ℝ) (i : k) : const one c i ∈ affineSpan one Y N :=
  Submodule.smul_mem _ _ (one_mem one Y N)

theorem act_mem {k l : Type*} [Fintype k] (A : Matrix l k ℝ) (S : Submodule ℝ W) (x : k → W) (hx : ∀ j, x j ∈ S) (i : l) :
    act A x i ∈ S := Submodule.sum_mem _ fun j _ => Submodule.smul_mem _ _ (hx j)

theorem predAt_mem (N t : ℕ) (ht : t ≤ N) (i : n) : predAt one θ a0 P0 Y t i ∈ affineSpan one Y N := by
  induction t generalizing i with
  | zero => exact const_mem Y N a0 i
  | succ t ih =>
    have hi := ih (by omega)
    refine Submodule.add_mem _ (const_mem Y N _ i) (act_mem _ _ _ (fun j => ?_) i)
    refine Submodule.add_mem _ (hi j) (act_mem _ _ _ (fun k => ?_) j)
    exact Submodule.sub_mem _ (Submodule.sub_mem _ (obs_mem one Y N t (by omega) k) (const_mem Y N _ k)) (act_mem _ _ _ hi k)

theorem filtAt_mem (N t : ℕ) (ht : t < N) (i : n) : filtAt one θ a0 P0 Y t i ∈ affineSpan one Y N := by
  have hi := predAt_mem (one := one) (θ := θ) (P0 := P0) (a0 := a0) (Y := Y) N t (by omega)
  refine Submodule.add_mem _ (hi i) (act_mem _ _ _ (fun k => ?_) i)
  exact Submodule.sub_mem _ (Submodule.sub_mem _ (obs_mem one Y N t ht k) (const_mem Y N _ k)) (act_mem _ _ _ hi k)

theorem smAt_mem (M k : ℕ) (i : n) : smAt one θ a0 P0 Y M k i ∈ affineSpan one Y (M + 1) := by
  induction k generalizing i with
  | zero => exact filtAt_mem _ _ (by omega) i
  | succ k ih =>
    have hf := filtAt_mem (one := one) (θ := θ) (P0 := P0) (a0 := a0) (Y := Y) (M + 1) (M - (k + 1)) (by omega)
    refine Submodule.add_mem _ (hf i) (act_mem _ _ _ (fun j => ?_) i)
    exact Submodule.sub_mem _ (ih j) (act_mem _ _ _ hf j)

theorem affineSpan_coeffs {N : ℕ} {x : W} (hx : x ∈ affineSpan one Y N) :
    ∃ (b : ℝ) (w : ℕ → p → ℝ), x = b • one + ∑ s ∈ Finset.range N, ∑ j, w s j • Y s j := by
  obtain ⟨c, hc⟩ := (Submodule.mem_span_range_iff_exists_fun ℝ).1 hx
  refine ⟨c none, fun s j => if hs : s < N then c (some (⟨s, hs⟩, j)) else 0, ?_⟩
  rw [← hc, Fintype.sum_option, Fintype.sum_prod_type]
  congr 1
  rw [Finset.sum_range]
  simp

end Verif.Kalman.Orthogonal
