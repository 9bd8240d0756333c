import Verif.Kalman.OptimalLink

/-!
# When the filter's observation covariances are invertible

`Spec.Undetermined` (no date's observations are determined by the past) is exactly the condition under which every observation
covariance of the recursion is positive definite; two sufficient conditions on the system matrices.
-/

set_option autoImplicit false

open Matrix MeasureTheory ProbabilityTheory

namespace Verif.Kalman

open Orthogonal

variable {Ω : Type*} [MeasurableSpace Ω] {μ : Measure Ω} [IsProbabilityMeasure μ]
variable {n p r : Type*} [Fintype n] [Fintype p] [Fintype r] [DecidableEq n] [DecidableEq p] [DecidableEq r]
variable {θ : ℕ → Params n p r} {a0 : n → ℝ} {P0 : Matrix n n ℝ} {X : ℕ → n → Ω → ℝ} {Y : ℕ → p → Ω → ℝ}
  {η : ℕ → r → Ω → ℝ} {ε : ℕ → p → Ω → ℝ}

/-- Replayed predictions are affine in the earlier observations. -/
theorem predAt_affine {W : Type*} [AddCommGroup W] [Module ℝ W] {q : ℕ → Type*} [∀ t, Fintype (q t)]
    [∀ t, DecidableEq (q t)] {θ : ∀ t, Params n (q t) r} (one : W) (Y : ∀ t, q t → W) (t : ℕ) :
    ∃ (b : n → ℝ) (w : n → ∀ s, q s → ℝ), ∀ i,
      predAt one θ a0 P0 Y t i = b i • one + ∑ s ∈ Finset.range t, ∑ j, w i s j • Y s j := by
  induction t with
  | zero => exact ⟨a0, fun _ _ _ => 0, fun i => by simp [predAt, const]⟩
  | succ t ih =>
    obtain ⟨b, w, hbw⟩ := ih
    let M := (θ t).T * (1 - gainAt θ P0 t * (θ t).Z)
    let G := (θ t).T * gainAt θ P0 t
    have hstep : predAt one θ a0 P0 Y (t + 1) = const one ((θ t).c - G *ᵥ (θ t).d) + act M (predAt one θ a0 P0 Y t)
        + act G (Y t) := by
      have hcs : const one ((θ t).c - G *ᵥ (θ t).d) = const one (θ t).c - const one (G *ᵥ (θ t).d) := by
        funext i; simp [const, sub_smul]
      simp only [predAt, act_add, act_sub, act_act, act_const, M, G, Matrix.mul_sub, Matrix.mul_one, sub_act, hcs,
        mulVec_mulVec]
      abel
    refine ⟨fun i => ((θ t).c - G *ᵥ (θ t).d) i + ∑ k, M i k * b k,
      fun i s j => if hs : s = t then G i (hs ▸ j) else ∑ k, M i k * w k s j, fun i => ?_⟩
    rw [hstep, Finset.sum_range_succ]
    simp only [Pi.add_apply, const, act, hbw, smul_add, Finset.sum_add_distrib, add_smul, Finset.sum_smul, dite_true, smul_smul,
      Finset.smul_sum]
    have h2 : ∑ s ∈ Finset.range t, ∑ j, (if hs : s = t then G i (hs ▸ j) else ∑ k, M i k * w k s j) • Y s j =
        ∑ k, ∑ s ∈ Finset.range t, ∑ j, (M i k * w k s j) • Y s j := by
      rw [Finset.sum_comm (s := Finset.univ)]
      refine Finset.sum_congr rfl fun s hs => ?_
      rw [Finset.sum_comm (s := Finset.univ)]
      refine Finset.sum_congr rfl fun j _ => ?_
      rw [dif_neg (by have := Finset.mem_range.1 hs; omega), Finset.sum_smul]
    rw [h2]
    abel

theorem covM_quad {W q : Type*} [AddCommGroup W] [Module ℝ W] [Fintype q] (B : W →ₗ[ℝ] W →ₗ[ℝ] ℝ) (U : q → W) (w : q → ℝ) :
    w ⬝ᵥ (covM B U U *ᵥ w) = B (∑ i, w i • U i) (∑ i, w i • U i) := by
  simp only [map_sum, LinearMap.sum_apply, map_smul, LinearMap.smul_apply, smul_eq_mul, dotProduct, mulVec, covM,
    Matrix.of_apply, Finset.mul_sum]
  rw [Finset.sum_comm]
  exact Finset.sum_congr rfl fun i _ => Finset.sum_congr rfl fun j _ => by ring

/-- A combination of one date's observations is the same combination of the innovations plus something known. -/
theorem comb_eq {W : Type*} [AddCommGroup W] [Module ℝ W] (one : W) (Y : ℕ → p → W) (t : ℕ) (w : p → ℝ) :
    ∃ (b : ℝ) (v : ℕ → p → ℝ), ∑ i, w i • innov one θ a0 P0 Y t i =
      ∑ i, w i • Y t i - b • one - ∑ s ∈ Finset.range t, ∑ j, v s j • Y s j := by
  obtain ⟨b, u, hu⟩ := predAt_affine (θ := θ) (a0 := a0) (P0 := P0) one Y t
  refine ⟨∑ i, w i * ((θ t).d i + ∑ k, (θ t).Z i k * b k), fun s j => ∑ i, ∑ k, w i * ((θ t).Z i k * u k s j), ?_⟩
  have h1 : ∀ i, innov one θ a0 P0 Y t i = Y t i - ((θ t).d i + ∑ k, (θ t).Z i k * b k) • one -
      ∑ s ∈ Finset.range t, ∑ j, (∑ k, (θ t).Z i k * u k s j) • Y s j := by
    intro i
    have h2 : innov one θ a0 P0 Y t i = Y t i - (θ t).d i • one - ∑ k, (θ t).Z i k • predAt one θ a0 P0 Y t k := rfl
    have h3 : ∑ k, (θ t).Z i k • predAt one θ a0 P0 Y t k = (∑ k, (θ t).Z i k * b k) • one +
        ∑ s ∈ Finset.range t, ∑ j, (∑ k, (θ t).Z i k * u k s j) • Y s j := by
      simp only [hu, smul_add, Finset.sum_add_distrib, smul_smul, Finset.sum_smul, Finset.smul_sum]
      congr 1
      rw [Finset.sum_comm]
      refine Finset.sum_congr rfl fun s _ => ?_
      rw [Finset.sum_comm]
    rw [h2, h3, add_smul]
    abel
  simp only [h1, smul_sub, Finset.sum_sub_distrib, smul_smul, Finset.sum_smul, Finset.smul_sum, Finset.mul_sum]
  congr 1
  rw [Finset.sum_comm]
  refine Finset.sum_congr rfl fun s _ => ?_
  rw [Finset.sum_comm]

theorem var_comb (h : Spec.Process μ θ a0 P0 X Y η ε) (t : ℕ) (w : p → ℝ) (v : ℕ → p → ℝ) :
    Var[fun ω => ∑ i, w i * Y t i ω - ∑ s ∈ Finset.range t, ∑ j, v s j * Y s j ω; μ] =
      covB μ (∑ i, w i • liftY h t i - ∑ s ∈ Finset.range t, ∑ j, v s j • liftY h s j)
        (∑ i, w i • liftY h t i - ∑ s ∈ Finset.range t, ∑ j, v s j • liftY h s j) := by
  have he : (fun ω => ∑ i, w i * Y t i ω - ∑ s ∈ Finset.range t, ∑ j, v s j * Y s j ω) =
      (∑ i, w i • liftY h t i - ∑ s ∈ Finset.range t, ∑ j, v s j • liftY h s j : L2 μ).1 := by
    funext ω
    simp [liftY, Finset.sum_apply]
  rw [he]
  generalize (∑ i, w i • liftY h t i - ∑ s ∈ Finset.range t, ∑ j, v s j • liftY h s j : L2 μ) = u
  rw [covB_apply, covariance_self u.2.aemeasurable]

theorem covB_eq_of_const (h : Spec.Process μ θ a0 P0 X Y η ε) (u : L2 μ) (b : ℝ) :
    covB μ (u - b • Orthogonal.one μ) (u - b • Orthogonal.one μ) = covB μ u u := by
  simp [(toProc h).one0, (toProc h).one0']

/-- Undetermined observations make every observation covariance of the recursion positive definite. -/
theorem posDef_of_undetermined (h : Spec.Process μ θ a0 P0 X Y η ε) (hY : Spec.Undetermined μ Y) (t : ℕ) :
    (Spec.obsCov (covAt θ P0 t) (θ t).Z (θ t).H).PosDef := by
  refine (toProc h).posDef_of_step a0 (fun t k _ => ?_) t
  have hc := (toProc h).innovCov t k
  have hps : (Spec.obsCov (covAt θ P0 t) (θ t).Z (θ t).H).PosSemidef := by
    rw [← hc]; exact covM_posSemidef _ (toProc h).sym covB_self_nonneg _
  refine Matrix.PosDef.of_dotProduct_mulVec_pos hps.1 fun w hw => ?_
  have h0 := hps.dotProduct_mulVec_nonneg w
  refine lt_of_le_of_ne h0 fun h1 => hw ?_
  rw [star_trivial, ← hc, covM_quad] at h1
  obtain ⟨b, v, hbv⟩ := comb_eq (θ := θ) (a0 := a0) (P0 := P0) (Orthogonal.one μ) (liftY h) t w
  refine hY t w v ?_
  rw [var_comb h, ← covB_eq_of_const h _ b, sub_right_comm, ← hbv]
  exact h1.symm

/-- Conversely, positive definite observation covariances make the observations undetermined. -/
theorem undetermined_of_posDef (h : Spec.Process μ θ a0 P0 X Y η ε)
    (hF : ∀ t, (Spec.obsCov (covAt θ P0 t) (θ t).Z (θ t).H).PosDef) : Spec.Undetermined μ Y := by
  intro t w v hv
  obtain ⟨-, -, k, -⟩ := (toProc h).allPosDef covB_self_nonneg hF a0 t
  obtain ⟨b, v', hbv⟩ := comb_eq (θ := θ) (a0 := a0) (P0 := P0) (Orthogonal.one μ) (liftY h) t w
  set u := ∑ i, w i • innov (Orthogonal.one μ) θ a0 P0 (liftY h) t i with hu
  obtain ⟨g, hg⟩ : ∃ g, g = ∑ s ∈ Finset.range t, ∑ j, (v' s j - v s j) • liftY h s j := ⟨_, rfl⟩
  have hdec : ∑ i, w i • liftY h t i - ∑ s ∈ Finset.range t, ∑ j, v s j • liftY h s j = u + g + b • Orthogonal.one μ := by
    have e : g = ∑ s ∈ Finset.range t, ∑ j, v' s j • liftY h s j - ∑ s ∈ Finset.range t, ∑ j, v s j • liftY h s j := by
      rw [hg, ← Finset.sum_sub_distrib]
      refine Finset.sum_congr rfl fun s _ => ?_
      rw [← Finset.sum_sub_distrib]
      exact Finset.sum_congr rfl fun j _ => sub_smul (v' s j) (v s j) (liftY h s j)
    rw [hbv, e]
    abel
  have horth : ∀ s j, s < t → covB μ u (liftY h s j) = 0 := by
    intro s j hs
    have h2 : covM (covB μ) (liftε h t) (liftY h s) = 0 := by
      rw [← covM_transpose _ (toProc h).sym, (toProc h).yLaterε s t hs, transpose_zero]
    have h1 : covM (covB μ) (innov (Orthogonal.one μ) θ a0 P0 (liftY h) t) (liftY h s) = 0 := by
      rw [(toProc h).innov_eq]
      simp [covM_add_left, covM_act_left, k.past s hs, h2]
    rw [hu]
    simp only [map_sum, LinearMap.sum_apply, map_smul, LinearMap.smul_apply]
    refine Finset.sum_eq_zero fun i _ => ?_
    have := congrFun (congrFun h1 i) j
    simp only [covM, Matrix.of_apply, Matrix.zero_apply] at this
    rw [this, smul_zero]
  have hug : covB μ u g = 0 := by
    rw [hg]
    simp only [map_sum, map_smul]
    refine Finset.sum_eq_zero fun s hs => Finset.sum_eq_zero fun j _ => ?_
    rw [horth s j (Finset.mem_range.1 hs), smul_zero]
  have hgu : covB μ g u = 0 := by rw [(toProc h).sym, hug]
  rw [var_comb h, hdec] at hv
  have h3 : covB μ (u + g + b • Orthogonal.one μ) (u + g + b • Orthogonal.one μ) = covB μ u u + covB μ g g := by
    simp [(toProc h).one0, (toProc h).one0', hug, hgu]
  rw [h3] at hv
  have h4 := covB_self_nonneg g
  have h5 := covB_self_nonneg u
  have h6 : covB μ u u = 0 := by linarith
  rw [hu, ← covM_quad, (toProc h).innovCov t k] at h6
  by_contra hw
  have := (hF t).dotProduct_mulVec_pos hw
  rw [star_trivial] at this
  linarith

/-- Positive definite measurement errors suffice. -/
theorem undetermined_of_H (h : Spec.Process μ θ a0 P0 X Y η ε) (hH : ∀ t, (θ t).H.PosDef) : Spec.Undetermined μ Y :=
  undetermined_of_posDef h ((toProc h).posDef_of_H covB_self_nonneg hH)

/-- So do shocks that reach every series at once, and an uncertain start. -/
theorem undetermined_of_shocks (h : Spec.Process μ θ a0 P0 X Y η ε) (h0 : (Spec.obsCov P0 (θ 0).Z (θ 0).H).PosDef)
    (hs : ∀ t, (Spec.obsCov ((θ t).R * (θ t).Q * (θ t).Rᵀ) (θ (t + 1)).Z (θ (t + 1)).H).PosDef) : Spec.Undetermined μ Y := by
  refine undetermined_of_posDef h ((toProc h).posDef_of_step a0 fun t _ kF => ?_)
  cases t with
  | zero => exact h0
  | succ t =>
    have hk := (kF (by omega)).cov
    simp only [Nat.add_sub_cancel] at hk
    have hps : (Spec.condCov (covAt θ P0 t) (θ t).Z (θ t).H).PosSemidef := by
      rw [← hk]; exact covM_posSemidef _ (toProc h).sym covB_self_nonneg _
    have e : Spec.obsCov (covAt θ P0 (t + 1)) (θ (t + 1)).Z (θ (t + 1)).H =
        (θ (t + 1)).Z * ((θ t).T * Spec.condCov (covAt θ P0 t) (θ t).Z (θ t).H * (θ t).Tᵀ) * (θ (t + 1)).Zᵀ +
        Spec.obsCov ((θ t).R * (θ t).Q * (θ t).Rᵀ) (θ (t + 1)).Z (θ (t + 1)).H := by
      simp only [covAt, Spec.obsCov, Matrix.mul_add, Matrix.add_mul]
      abel
    rw [e]
    refine Matrix.PosDef.posSemidef_add ?_ (hs t)
    have h1 := hps.mul_mul_conjTranspose_same (θ t).T
    have h2 := h1.mul_mul_conjTranspose_same (θ (t + 1)).Z
    simpa [Matrix.conjTranspose_eq_transpose_of_trivial] using h2

end Verif.Kalman
