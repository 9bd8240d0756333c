import Verif.Kalman.GaussianProps
import Verif.Kalman.GaussianDensity
import Verif.Kalman.OptimalLoglik

/-!
# C190: the likelihood is the density of the data

Property theorems.
-/

set_option autoImplicit false

open Matrix MeasureTheory ProbabilityTheory

namespace Verif.Kalman

open Orthogonal

variable {Ω : Type*} [MeasurableSpace Ω] {μ : Measure Ω} [IsProbabilityMeasure μ]
variable {n p r : Type*} [Fintype n] [Fintype p] [Fintype r] [DecidableEq n] [DecidableEq p] [DecidableEq r]
variable {θ : ℕ → Params n p r} {a0 : n → ℝ} {P0 : Matrix n n ℝ} {X : ℕ → n → Ω → ℝ} {Y : ℕ → p → Ω → ℝ}
  {η : ℕ → r → Ω → ℝ} {ε : ℕ → p → Ω → ℝ}

/-- The log-likelihood the filter reports for a hypothetical sample `y` of `N` dates: the sum of its per-date terms. -/
noncomputable def Spec.loglik (θ : ℕ → Params n p r) (fill : ℝ) (a0 : n → ℝ) (P0 : Matrix n n ℝ) {N : ℕ} (y : p × Fin N → ℝ) : ℝ :=
  (buildGraph 0 fill a0 P0 ((List.finRange N).map fun t => ((fun i => some (y (i, t)) : Row p), θ t))).loglike.sum

/-- A sample that contains the fill value has Lebesgue measure zero. -/
theorem Gauss.fill_volume (fill : ℝ) {k : Type*} [Fintype k] : ∀ᵐ y ∂(volume : Measure (k → ℝ)), ∀ q, y q ≠ fill := by
  rw [ae_all_iff]; intro q
  rw [ae_iff]
  simp only [ne_eq, not_not]
  exact Measure.pi_hyperplane (fun _ : k => (volume : Measure ℝ)) q fill

/-- On samples without the fill value the reported log-likelihood is the joint normal log-density of the data plus a constant. -/
theorem Gauss.loglik_eq [Nonempty p] (h : Spec.Process μ θ a0 P0 X Y η ε) (hY : Spec.Undetermined μ Y) (fill : ℝ) {N : ℕ}
    (y : p × Fin N → ℝ) (hy : ∀ q, y q ≠ fill) :
    Spec.loglik θ fill a0 P0 y =
      Spec.gaussLogDensity (Matrix.of fun q q' : p × Fin N => cov[Y q.2 q.1, Y q'.2 q'.1; μ])
        (y - fun q => ∫ ω, Y q.2 q.1 ω ∂μ) + N * (((Fintype.card p : ℝ) - 1) / 2 * Real.log (2 * Real.pi)) := by
  let y' : ℕ → p → ℝ := fun t i => if ht : t < N then y (i, ⟨t, ht⟩) else fill + 1
  have hy' : ∀ t i, y' t i ≠ fill := by
    intro t i
    by_cases ht : t < N
    · simp only [y', dif_pos ht]; exact hy _
    · simp [y', dif_neg ht]
  have hrow : (List.finRange N).map (fun t => ((fun i => some (y (i, t)) : Row p), θ t)) =
      (List.range N).map fun t => ((fun i => some (y' t i) : Row p), θ t) := by
    rw [← List.map_coe_finRange_eq_range, List.map_map]
    refine List.map_congr_left fun t _ => ?_
    simp [y']
  have := C163_total_loglik h hY fill y' hy' N
  simp only [Spec.loglik, hrow]
  rw [this]
  congr 2
  funext q
  simp [y']

/-- **C190 (joint density).** For every normal process that follows the model the law of the first `N` dates of data has a Lebesgue
density, and its logarithm is the log-likelihood the filter reports, up to the missing part of the normalising constant for more
than one series. -/
theorem C190_data_density [Nonempty p] (h : Spec.NormalProcess μ θ a0 P0 X Y η ε) (hY : Spec.Undetermined μ Y) (fill : ℝ) (N : ℕ) :
    μ.map (fun ω (q : p × Fin N) => Y q.2 q.1 ω) = (volume : Measure (p × Fin N → ℝ)).withDensity fun y =>
      ENNReal.ofReal (Real.exp (Spec.loglik θ fill a0 P0 y - N * (((Fintype.card p : ℝ) - 1) / 2 * Real.log (2 * Real.pi)))) := by
  have hp := h.toProcess
  have hg := Gauss.of_affine h.normal (fun (q : p × Fin N) ω => Y q.2 q.1 ω) fun q => Gauss.memY hp q.2 q.1
  have hlaw := Gauss.law hg (fun q => ∫ ω, Y q.2 q.1 ω ∂μ) (Matrix.of fun q q' : p × Fin N => cov[Y q.2 q.1, Y q'.2 q'.1; μ])
    (fun _ => rfl) fun _ _ => rfl
  have hpd := (C163_undetermined_iff hp).1 hY N
  have hd := Gauss.density (fun q : p × Fin N => ∫ ω, Y q.2 q.1 ω ∂μ) hpd
  rw [← hlaw, AEMeasurable.map_map_of_aemeasurable (by fun_prop) (Gauss.vector hg).aemeasurable] at hd
  refine (show μ.map (fun ω (q : p × Fin N) => Y q.2 q.1 ω) = _ from hd).trans (withDensity_congr_ae ?_)
  filter_upwards [Gauss.fill_volume fill] with y hy
  rw [Gauss.loglik_eq hp hY fill y hy, add_sub_cancel_right]

/-- **C190 (one series).** With a single series the reported log-likelihood is exactly the log-density of the data. -/
theorem C190_single_series (hcard : Fintype.card p = 1) (h : Spec.NormalProcess μ θ a0 P0 X Y η ε) (hY : Spec.Undetermined μ Y)
    (fill : ℝ) (N : ℕ) :
    μ.map (fun ω (q : p × Fin N) => Y q.2 q.1 ω) = (volume : Measure (p × Fin N → ℝ)).withDensity fun y =>
      ENNReal.ofReal (Real.exp (Spec.loglik θ fill a0 P0 y)) := by
  have : Nonempty p := Fintype.card_pos_iff.1 (by omega)
  rw [C190_data_density h hY fill N]
  simp [hcard]

/-- **C190 (total mass).** Integrated over all samples, the reported likelihood gives `(2π)^(N (k - 1) / 2)` for `k` series: it is a
probability density only for a single series (or no data). -/
theorem C190_total_mass [Nonempty p] (h : Spec.NormalProcess μ θ a0 P0 X Y η ε) (hY : Spec.Undetermined μ Y) (fill : ℝ) (N : ℕ) :
    ∫⁻ y : p × Fin N → ℝ, ENNReal.ofReal (Real.exp (Spec.loglik θ fill a0 P0 y)) =
        ENNReal.ofReal ((2 * Real.pi) ^ ((N : ℝ) * ((Fintype.card p : ℝ) - 1) / 2)) ∧
      (∫⁻ y : p × Fin N → ℝ, ENNReal.ofReal (Real.exp (Spec.loglik θ fill a0 P0 y)) = 1 ↔ N = 0 ∨ Fintype.card p = 1) := by
  have hp := h.toProcess
  have hg := Gauss.of_affine h.normal (fun (q : p × Fin N) ω => Y q.2 q.1 ω) fun q => Gauss.memY hp q.2 q.1
  have hd := C190_data_density h hY fill N
  set C : ℝ := N * (((Fintype.card p : ℝ) - 1) / 2 * Real.log (2 * Real.pi)) with hC
  have h1 : ∫⁻ y : p × Fin N → ℝ, ENNReal.ofReal (Real.exp (Spec.loglik θ fill a0 P0 y - C)) = 1 := by
    have : IsProbabilityMeasure (μ.map (fun ω (q : p × Fin N) => Y q.2 q.1 ω)) :=
      Measure.isProbabilityMeasure_map (aemeasurable_pi_lambda _ hg.aemeasurable)
    have h2 := measure_univ (μ := μ.map (fun ω (q : p × Fin N) => Y q.2 q.1 ω))
    rw [hd, withDensity_apply _ MeasurableSet.univ, Measure.restrict_univ] at h2
    exact h2
  have hmass : ∫⁻ y : p × Fin N → ℝ, ENNReal.ofReal (Real.exp (Spec.loglik θ fill a0 P0 y)) = ENNReal.ofReal (Real.exp C) := by
    have e : ∀ y : p × Fin N → ℝ, ENNReal.ofReal (Real.exp (Spec.loglik θ fill a0 P0 y)) =
        ENNReal.ofReal (Real.exp C) * ENNReal.ofReal (Real.exp (Spec.loglik θ fill a0 P0 y - C)) := by
      intro y
      rw [← ENNReal.ofReal_mul (Real.exp_pos _).le, ← Real.exp_add]
      congr 2; ring
    simp only [e]
    rw [lintegral_const_mul' _ _ ENNReal.ofReal_ne_top, h1, mul_one]
  have hpi : (1 : ℝ) < 2 * Real.pi := by have := Real.two_le_pi; linarith
  have hlog : 0 < Real.log (2 * Real.pi) := Real.log_pos hpi
  refine ⟨?_, ?_⟩
  · rw [hmass, Real.rpow_def_of_pos (by linarith)]
    congr 2
    rw [hC]; ring
  · rw [hmass, ENNReal.ofReal_eq_one, Real.exp_eq_one_iff, hC]
    have hk : ((Fintype.card p : ℝ) - 1 = 0) ↔ Fintype.card p = 1 := by
      rw [sub_eq_zero]; exact_mod_cast Iff.rfl
    simp only [mul_eq_zero, div_eq_zero_iff, hlog.ne', or_false, OfNat.ofNat_ne_zero, Nat.cast_eq_zero, hk]

end Verif.Kalman
