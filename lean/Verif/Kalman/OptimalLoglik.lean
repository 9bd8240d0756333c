import Verif.Kalman.OptimalProps
import Mathlib.LinearAlgebra.Matrix.Block

/-!
# C163: the reported log-likelihoods add up to the joint log-density of the data
-/

set_option autoImplicit false

open Matrix MeasureTheory ProbabilityTheory

namespace Verif.Kalman

open Orthogonal

/-- If a unit-determinant transformation block-diagonalises a covariance matrix, the Gaussian log-density splits. -/
theorem gaussLogDensity_split {p : Type*} [Fintype p] [DecidableEq p] {N : ℕ} (S M : Matrix (p × Fin N) (p × Fin N) ℝ)
    (F : Fin N → Matrix p p ℝ) (hF : ∀ t, (F t).PosDef) (hM : M.det = 1) (hD : M * S * Mᵀ = blockDiagonal F)
    (z : p × Fin N → ℝ) :
    Spec.gaussLogDensity S z = ∑ t, Spec.gaussLogDensity (F t) (fun i => (M *ᵥ z) (i, t)) := by
  have hMu : IsUnit M.det := by rw [hM]; exact isUnit_one
  have hMtu : IsUnit Mᵀ.det := by rw [det_transpose]; exact hMu
  have hFu : ∀ t, IsUnit (F t).det := fun t => isUnit_iff_ne_zero.2 (hF t).det_pos.ne'
  have hdet : S.det = ∏ t, (F t).det := by
    have := congrArg Matrix.det hD
    rw [det_mul, det_mul, det_transpose, hM, det_blockDiagonal] at this
    simpa using this
  have hDi : (blockDiagonal F)⁻¹ = blockDiagonal fun t => (F t)⁻¹ := by
    apply inv_eq_right_inv
    rw [← blockDiagonal_mul]
    rw [← blockDiagonal_one]
    congr 1
    funext t
    exact mul_nonsing_inv _ (hFu t)
  have hSi : S⁻¹ = Mᵀ * (blockDiagonal F)⁻¹ * M := by
    have hS : S = M⁻¹ * blockDiagonal F * (Mᵀ)⁻¹ := by
      rw [← hD, Matrix.mul_assoc, Matrix.mul_assoc, mul_nonsing_inv _ hMtu, Matrix.mul_one, ← Matrix.mul_assoc,
        nonsing_inv_mul _ hMu, Matrix.one_mul]
    have h2 := congrArg Inv.inv hS
    rw [Matrix.mul_inv_rev, Matrix.mul_inv_rev, nonsing_inv_nonsing_inv _ hMu, nonsing_inv_nonsing_inv _ hMtu] at h2
    rw [h2, Matrix.mul_assoc]
  have hq : z ⬝ᵥ (S⁻¹ *ᵥ z) = ∑ t, (fun i => (M *ᵥ z) (i, t)) ⬝ᵥ ((F t)⁻¹ *ᵥ fun i => (M *ᵥ z) (i, t)) := by
    rw [hSi, ← mulVec_mulVec, ← mulVec_mulVec, dotProduct_mulVec, vecMul_transpose, hDi]
    simp only [dotProduct, mulVec, Fintype.sum_prod_type, blockDiagonal_apply']
    rw [Finset.sum_comm]
    refine Finset.sum_congr rfl fun t _ => Finset.sum_congr rfl fun i _ => ?_
    congr 1
    refine Finset.sum_congr rfl fun j _ => ?_
    simp
  have hlog : Real.log S.det = ∑ t, Real.log (F t).det := by
    rw [hdet, Real.log_prod]
    exact fun t _ => (hF t).det_pos.ne'
  simp only [Spec.gaussLogDensity, hq, hlog]
  rw [← Finset.mul_sum, Finset.sum_add_distrib, Finset.sum_add_distrib]
  simp
  ring

variable {Ω : Type*} [MeasurableSpace Ω] {μ : Measure Ω} [IsProbabilityMeasure μ]
variable {n p r : Type*} [Fintype n] [Fintype p] [Fintype r] [DecidableEq n] [DecidableEq p] [DecidableEq r]
variable {θ : ℕ → Params n p r} {a0 : n → ℝ} {P0 : Matrix n n ℝ} {X : ℕ → n → Ω → ℝ} {Y : ℕ → p → Ω → ℝ}
  {η : ℕ → r → Ω → ℝ} {ε : ℕ → p → Ω → ℝ}

theorem list_sum_range (f : ℕ → ℝ) (N : ℕ) : ((List.range N).map f).sum = ∑ t ∈ Finset.range N, f t := by
  induction N with
  | zero => simp
  | succ N ih => simp [List.range_succ, Finset.sum_range_succ, ih]

/-- Innovations are a unit-triangular affine function of the observations. -/
theorem innov_triangular {W : Type*} [AddCommGroup W] [Module ℝ W] (one : W) (Y : ℕ → p → W) (N : ℕ) :
    ∃ (b : p × Fin N → ℝ) (M : Matrix (p × Fin N) (p × Fin N) ℝ), M.det = 1 ∧
      (fun q : p × Fin N => innov one θ a0 P0 Y q.2 q.1) = const one b + act M fun q => Y q.2 q.1 := by
  choose b w hbw using fun t => predAt_affine (θ := θ) (a0 := a0) (P0 := P0) one Y t
  let g : ℕ → p → ℕ → p → ℝ := fun t i s j => ∑ k, (θ t).Z i k * w t k s j
  let M : Matrix (p × Fin N) (p × Fin N) ℝ := Matrix.of fun q q' =>
    (if q = q' then 1 else 0) - if (q'.2 : ℕ) < q.2 then g q.2 q.1 q'.2 q'.1 else 0
  refine ⟨fun q => -((θ q.2).d q.1 + ((θ q.2).Z *ᵥ b q.2) q.1), M, ?_, ?_⟩
  · rw [← det_transpose]
    have hT : BlockTriangular Mᵀ (fun q => q.2) := by
      intro q q' hlt
      have hne : q' ≠ q := fun e => by rw [e] at hlt; exact lt_irrefl _ hlt
      have hnl : ¬ ((q.2 : ℕ) < q'.2) := not_lt.2 (le_of_lt hlt)
      change (if q' = q then (1 : ℝ) else 0) - (if (q.2 : ℕ) < q'.2 then g q'.2 q'.1 q.2 q.1 else 0) = 0
      rw [if_neg hne, if_neg hnl, sub_zero]
    rw [hT.det_fintype]
    refine Finset.prod_eq_one fun t _ => ?_
    have : Mᵀ.toSquareBlock (fun q => q.2) t = 1 := by
      ext ⟨q, hq⟩ ⟨q', hq'⟩
      have hnl : ¬ ((q.2 : ℕ) < q'.2) := by rw [hq, hq']; exact lt_irrefl _
      change (if q' = q then (1 : ℝ) else 0) - (if (q.2 : ℕ) < q'.2 then g q'.2 q'.1 q.2 q.1 else 0) = _
      rw [if_neg hnl, sub_zero, Matrix.one_apply]
      simp only [Subtype.mk.injEq]
      exact if_congr eq_comm rfl rfl
    rw [this, det_one]
  · funext q
    obtain ⟨i, t⟩ := q
    have hsum : ∀ f : ℕ → W, ∑ s ∈ Finset.range (t : ℕ), f s = ∑ s : Fin N, if (s : ℕ) < t then f s else 0 := by
      intro f
      rw [Fin.sum_univ_eq_sum_range (fun s => if s < (t : ℕ) then f s else 0) N, ← Finset.sum_filter]
      congr 1
      ext s
      simp only [Finset.mem_range, Finset.mem_filter]
      have := t.2
      omega
    have h1 : innov one θ a0 P0 Y t i = Y t i - (θ t).d i • one - ∑ k, (θ t).Z i k • predAt one θ a0 P0 Y t k := rfl
    have h2 : ∑ k, (θ t).Z i k • predAt one θ a0 P0 Y t k =
        ((θ t).Z *ᵥ b t) i • one + ∑ s ∈ Finset.range (t : ℕ), ∑ j, g t i s j • Y s j := by
      simp only [hbw, smul_add, Finset.sum_add_distrib, smul_smul, mulVec, dotProduct, Finset.sum_smul, Finset.smul_sum, g]
      congr 1
      rw [Finset.sum_comm]
      refine Finset.sum_congr rfl fun s _ => ?_
      rw [Finset.sum_comm]
    have h3 : act M (fun q : p × Fin N => Y q.2 q.1) (i, t) =
        Y t i - ∑ s ∈ Finset.range (t : ℕ), ∑ j, g t i s j • Y s j := by
      simp only [act, M, Matrix.of_apply, sub_smul, Finset.sum_sub_distrib, ite_smul, one_smul, zero_smul]
      rw [Finset.sum_ite_eq, if_pos (Finset.mem_univ _), hsum, Fintype.sum_prod_type_right]
      congr 1
      refine Finset.sum_congr rfl fun s _ => ?_
      split <;> simp
    simp only [h1, h2, Pi.add_apply, h3, const, neg_smul, add_smul]
    abel

theorem act_map {W W' m k : Type*} [AddCommGroup W] [Module ℝ W] [AddCommGroup W'] [Module ℝ W'] [Fintype k] (L : W →ₗ[ℝ] W')
    (A : Matrix m k ℝ) (x : k → W) (i : m) : L (act A x i) = act A (fun j => L (x j)) i := by
  simp [act]

/-- The recursion commutes with linear maps. -/
theorem innov_map {W W' : Type*} [AddCommGroup W] [Module ℝ W] [AddCommGroup W'] [Module ℝ W'] (L : W →ₗ[ℝ] W') (one : W)
    (Y : ℕ → p → W) (t : ℕ) (i : p) :
    L (innov one θ a0 P0 Y t i) = innov (L one) θ a0 P0 (fun s j => L (Y s j)) t i := by
  have hp : ∀ t, (fun i => L (predAt one θ a0 P0 Y t i)) = predAt (L one) θ a0 P0 (fun s j => L (Y s j)) t := by
    intro t
    induction t with
    | zero => funext i; simp [predAt, const]
    | succ t ih =>
      funext i
      simp only [predAt, Pi.add_apply, map_add, act_map L, ← ih]
      congr 1
      · simp [const]
      · congr 1
        funext j
        simp only [Pi.add_apply, map_add, act_map L, ← ih]
        congr 2
        funext j'
        simp [const, act_map L]
  simp only [innov, Pi.sub_apply, map_sub, act_map L, ← hp t]
  simp [const]

/-- **C163 (total log-likelihood).** Let a process follow the model and be undetermined. For all fully observed data `y` the
log-likelihoods the filter reports add up to the Gaussian log-density of the whole sample at `y` - with the mean vector and
covariance matrix of the observations of all dates, whatever the dependence between dates - plus `(k − 1)/2 · log 2π` per date,
`k` the number of series. -/
theorem C163_total_loglik [Nonempty p] (h : Spec.Process μ θ a0 P0 X Y η ε) (hY : Spec.Undetermined μ Y) (fill : ℝ)
    (y : ℕ → p → ℝ) (hy : ∀ t i, y t i ≠ fill) (N : ℕ) :
    let S : Matrix (p × Fin N) (p × Fin N) ℝ := Matrix.of fun q q' => cov[Y q.2 q.1, Y q'.2 q'.1; μ]
    let data : List (Row p × Params n p r) := (List.range N).map fun t => (fun i => some (y t i), θ t)
    (buildGraph 0 fill a0 P0 data).loglike.sum =
      Spec.gaussLogDensity S (fun q => y q.2 q.1 - ∫ ω, Y q.2 q.1 ω ∂μ) +
        N * (((Fintype.card p : ℝ) - 1) / 2 * Real.log (2 * Real.pi)) := by
  intro S data
  have hall := (toProc h).allPosDef covB_self_nonneg (posDef_of_undetermined h hY) a0
  have hR := regular_of_process h hY
  obtain ⟨b, M, hM, hMb2⟩ := innov_triangular (θ := θ) (a0 := a0) (P0 := P0) ((Orthogonal.one μ, (1 : ℝ)) : L2 μ × ℝ)
    (fun t i => (liftY h t i, y t i)) N
  have hMb : (fun q : p × Fin N => innov (Orthogonal.one μ) θ a0 P0 (liftY h) q.2 q.1) =
      const (Orthogonal.one μ) b + act M fun q => liftY h q.2 q.1 := by
    funext q
    have e1 := innov_map (θ := θ) (a0 := a0) (P0 := P0) (LinearMap.fst ℝ (L2 μ) ℝ) ((Orthogonal.one μ, (1 : ℝ)) : L2 μ × ℝ)
      (fun t i => (liftY h t i, y t i)) q.2 q.1
    have e2 := congrArg (LinearMap.fst ℝ (L2 μ) ℝ) (congrFun hMb2 q)
    rw [e1] at e2
    refine e2.trans ?_
    simp [const, act, Prod.fst_sum]
  have hMy : (fun q : p × Fin N => innov (1 : ℝ) θ a0 P0 y q.2 q.1) = b + M *ᵥ fun q => y q.2 q.1 := by
    funext q
    have e1 := innov_map (θ := θ) (a0 := a0) (P0 := P0) (LinearMap.snd ℝ (L2 μ) ℝ) ((Orthogonal.one μ, (1 : ℝ)) : L2 μ × ℝ)
      (fun t i => (liftY h t i, y t i)) q.2 q.1
    have e2 := congrArg (LinearMap.snd ℝ (L2 μ) ℝ) (congrFun hMb2 q)
    rw [e1] at e2
    refine e2.trans ?_
    simp [const, act, Prod.snd_sum, mulVec, dotProduct]
  let F : Fin N → Matrix p p ℝ := fun t => Spec.obsCov (covAt θ P0 t) (θ t).Z (θ t).H
  have hD : M * S * Mᵀ = blockDiagonal F := by
    have hS : S = covM (covB μ) (fun q : p × Fin N => liftY h q.2 q.1) (fun q => liftY h q.2 q.1) := rfl
    have hcov : covM (covB μ) (fun q : p × Fin N => innov (Orthogonal.one μ) θ a0 P0 (liftY h) q.2 q.1)
        (fun q => innov (Orthogonal.one μ) θ a0 P0 (liftY h) q.2 q.1) = M * S * Mᵀ := by
      rw [hMb, covM_add_left, covM_add_right, covM_add_right, covM_const_left _ (toProc h).one0,
        covM_const_left _ (toProc h).one0, covM_const_right _ (toProc h).one0', covM_act_left, covM_act_right, hS,
        ← Matrix.mul_assoc]
      simp
    rw [← hcov]
    ext ⟨i, t⟩ ⟨j, s⟩
    rw [blockDiagonal_apply']
    rcases lt_trichotomy t s with hts | hts | hts
    · rw [if_neg hts.ne]
      have := congrFun (congrFun ((toProc h).innovOrth t s hts (hall s).2.2.1) j) i
      simpa [covM, (toProc h).sym] using this
    · subst hts
      rw [if_pos rfl]
      exact congrFun (congrFun ((toProc h).innovCov t (hall t).2.2.1) i) j
    · rw [if_neg hts.ne']
      exact congrFun (congrFun ((toProc h).innovOrth s t hts (hall t).2.2.1) i) j
  have hmean : b + M *ᵥ (fun q => ∫ ω, Y q.2 q.1 ω ∂μ) = 0 := by
    funext q
    have h0 := ((toProc h).mean (a0 := a0) (mean μ) (by simp [mean_apply, Orthogonal.one]) h.mean_initial h.mean_shock
      h.mean_error q.2).2.2 q.1
    have h1 : innov (Orthogonal.one μ) θ a0 P0 (liftY h) q.2 q.1 = _ := congrFun hMb q
    rw [h1] at h0
    have h2 : mean μ (Orthogonal.one μ) = 1 := by simp [mean_apply, Orthogonal.one]
    simp only [Pi.add_apply, const, act, map_add, map_smul, map_sum, h2, smul_eq_mul, mul_one] at h0
    exact h0
  have hobs : ∀ t i, ¬ Spec.Missing fill ((fun i => some (y t i) : Row p) i) := by
    intro t i hm
    rcases hm with h | h
    · cases h
    · exact hy t i (Option.some.inj h)
  have hll : (buildGraph 0 fill a0 P0 data).loglike = (List.range N).map fun t =>
      Spec.gaussLogDensity (Spec.obsCov (covAt θ P0 t) (θ t).Z (θ t).H) (fun i => innov (1 : ℝ) θ a0 P0 y t i) +
          ((Fintype.card p : ℝ) - 1) / 2 * Real.log (2 * Real.pi) := by
    apply List.ext_getElem?
    intro t
    by_cases ht : t < N
    · have hs := scanAt (a0 := a0) hR fill y hy N t ht
      simp only [buildGraph, postprocess, data, List.getElem?_map, hs, Option.map_some]
      rw [C05_loglik_constant fill _ (hobs t), List.getElem?_range ht, Option.map_some]
      congr 3
      funext i
      simp [innov, const, act_real]
      ring
    · rw [List.getElem?_eq_none (by simp [buildGraph, postprocess, filterScan_length, data]; omega),
        List.getElem?_eq_none (by simp; omega)]
  rw [hll, gaussLogDensity_split S M F (fun t => (hall t).2.1) hM hD]
  have hv : ∀ (t : Fin N), (fun i => (M *ᵥ fun q => y q.2 q.1 - ∫ ω', Y q.2 q.1 ω' ∂μ) (i, t)) =
      fun i => innov (1 : ℝ) θ a0 P0 y t i := by
    intro t
    funext i
    have h1 := congrFun hMy (i, t)
    have h2 : (M *ᵥ fun q => y q.2 q.1 - ∫ ω', Y q.2 q.1 ω' ∂μ) =
        M *ᵥ (fun q => y q.2 q.1) - M *ᵥ fun q => ∫ ω', Y q.2 q.1 ω' ∂μ := mulVec_sub _ _ _
    have h3 : (M *ᵥ fun q => ∫ ω', Y q.2 q.1 ω' ∂μ) = -b := by
      rw [eq_neg_iff_add_eq_zero, add_comm]; exact hmean
    rw [h2, h3]
    simp only [Pi.add_apply] at h1
    simp only [Pi.sub_apply, Pi.neg_apply]
    rw [h1]; ring
  simp only [hv]
  rw [List.sum_map_add]
  simp only [List.map_const', List.sum_replicate, List.length_range, nsmul_eq_mul]
  congr 1
  rw [Fin.sum_univ_eq_sum_range (fun t => Spec.gaussLogDensity (Spec.obsCov (covAt θ P0 t) (θ t).Z (θ t).H)
    (fun i => innov (1 : ℝ) θ a0 P0 y t i)) N]
  exact list_sum_range _ N

end Verif.Kalman
