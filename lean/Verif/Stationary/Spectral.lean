import Verif.Stationary.Lemmas
import Mathlib.Analysis.Normed.Algebra.GelfandFormula
import Mathlib.Analysis.Matrix.Normed
import Mathlib.Analysis.Complex.Basic

/-!
The eigenvalue criterion: powers of a real matrix die out exactly when all complex eigenvalues lie inside the unit circle.
-/

set_option autoImplicit false

open Matrix Filter Topology
open scoped ENNReal NNReal

namespace Verif.Stationary

variable {n : Type*} [Fintype n] [DecidableEq n]

/-- Specification: all complex eigenvalues lie inside the unit circle. -/
def Spec.EigenvaluesInside (T : Matrix n n ℝ) : Prop :=
  ∀ (z : ℂ) (v : n → ℂ), v ≠ 0 → (T.map Complex.ofReal) *ᵥ v = z • v → ‖z‖ < 1

section

open scoped Matrix.Norms.Operator

theorem pow_tendsto_of_spectrum (A : Matrix n n ℂ) (h : ∀ z ∈ spectrum ℂ A, ‖z‖ < 1) :
    Tendsto (fun k : ℕ => ‖A ^ k‖) atTop (𝓝 0) := by
  rcases isEmpty_or_nonempty n with hn | hn
  · have : ∀ k : ℕ, A ^ k = 0 := fun k => Subsingleton.elim _ _
    simp [this]
  · have hr : spectralRadius ℂ A < (1 : ℝ≥0) := spectrum.spectralRadius_lt_of_forall_lt A fun z hz => h z hz
    obtain ⟨ρ, h1, h2⟩ := ENNReal.lt_iff_exists_nnreal_btwn.1 hr
    have h2' : ρ < 1 := by exact_mod_cast h2
    have h3 : ∀ᶠ k : ℕ in atTop, (‖A ^ k‖₊ : ℝ≥0∞) ^ (1 / k : ℝ) < ρ :=
      (spectrum.pow_nnnorm_pow_one_div_tendsto_nhds_spectralRadius A).eventually (gt_mem_nhds h1)
    have h4 : ∀ᶠ k : ℕ in atTop, ‖A ^ k‖ ≤ (ρ : ℝ) ^ k := by
      filter_upwards [h3, eventually_gt_atTop 0] with k hk hk0
      have h5 : (‖A ^ k‖₊ : ℝ≥0∞) ≤ (ρ : ℝ≥0∞) ^ k := by
        have h6 := ENNReal.rpow_le_rpow hk.le (Nat.cast_nonneg k : (0 : ℝ) ≤ k)
        rw [← ENNReal.rpow_mul, one_div, inv_mul_cancel₀ (by positivity), ENNReal.rpow_one, ENNReal.rpow_natCast] at h6
        exact h6
      exact_mod_cast h5
    exact squeeze_zero' (Eventually.of_forall fun k => norm_nonneg _) h4
      (tendsto_pow_atTop_nhds_zero_of_lt_one ρ.2 (by exact_mod_cast h2'))

theorem entry_le_norm (A : Matrix n n ℂ) (i j : n) : ‖A i j‖ ≤ ‖A‖ := by
  rw [Matrix.linfty_opNorm_def]
  have h1 : ‖A i j‖₊ ≤ ∑ j, ‖A i j‖₊ := Finset.single_le_sum (f := fun j => ‖A i j‖₊) (fun _ _ => zero_le) (Finset.mem_univ j)
  have h2 : ∑ j, ‖A i j‖₊ ≤ Finset.univ.sup fun i => ∑ j, ‖A i j‖₊ := Finset.le_sup (f := fun i => ∑ j, ‖A i j‖₊) (Finset.mem_univ i)
  exact_mod_cast h1.trans h2

end

theorem mem_spectrum_iff_vec (A : Matrix n n ℂ) (z : ℂ) :
    z ∈ spectrum ℂ A ↔ ∃ v : n → ℂ, v ≠ 0 ∧ A *ᵥ v = z • v := by
  rw [spectrum.mem_iff, Matrix.isUnit_iff_isUnit_det, isUnit_iff_ne_zero, not_not, ← Matrix.exists_mulVec_eq_zero_iff]
  refine exists_congr fun v => and_congr_right fun _ => ?_
  rw [Algebra.algebraMap_eq_smul_one, sub_mulVec, smul_mulVec, one_mulVec, sub_eq_zero, eq_comm]

theorem map_ofReal_pow (T : Matrix n n ℝ) (k : ℕ) : (T.map Complex.ofReal) ^ k = (T ^ k).map Complex.ofReal := by
  have := map_pow (RingHom.mapMatrix (m := n) Complex.ofRealHom) T k
  exact this.symm

/-- The criterion. -/
theorem stable_iff (T : Matrix n n ℝ) : Spec.Stable T ↔ Spec.EigenvaluesInside T := by
  constructor
  · intro h z v hv hz
    have hp : ∀ k : ℕ, (T.map Complex.ofReal) ^ k *ᵥ v = z ^ k • v := by
      intro k
      induction k with
      | zero => simp
      | succ k ih => rw [pow_succ, ← mulVec_mulVec, hz, mulVec_smul, ih, smul_smul, pow_succ']
    obtain ⟨i, hi⟩ := Function.ne_iff.1 hv
    have h1 : Tendsto (fun k : ℕ => ((T ^ k).map Complex.ofReal *ᵥ v) i) atTop (𝓝 0) := by
      have h2 : ∀ j, Tendsto (fun k : ℕ => ((T ^ k) i j : ℂ) * v j) atTop (𝓝 0) := by
        intro j
        have h3 : Tendsto (fun k : ℕ => (T ^ k) i j) atTop (𝓝 0) := (tendsto_pi_nhds.1 ((tendsto_pi_nhds.1 h) i)) j
        have h4 := ((Complex.continuous_ofReal.tendsto 0).comp h3).mul_const (v j)
        simpa using h4
      have h5 := tendsto_finsetSum Finset.univ fun j _ => h2 j
      simpa [mulVec, dotProduct] using h5
    have h2 : Tendsto (fun k : ℕ => z ^ k * v i) atTop (𝓝 0) := by
      refine h1.congr fun k => ?_
      rw [← map_ofReal_pow, hp]; rfl
    have h3 := h2.mul_const (v i)⁻¹
    have h4 : Tendsto (fun k : ℕ => z ^ k) atTop (𝓝 0) := by
      rw [zero_mul] at h3
      exact h3.congr fun k => by rw [mul_assoc, mul_inv_cancel₀ hi, mul_one]
    have h5 : Tendsto (fun k : ℕ => ‖z‖ ^ k) atTop (𝓝 0) := by simpa [norm_pow] using h4.norm
    simpa using tendsto_pow_atTop_nhds_zero_iff.1 h5
  · intro h
    have hs : ∀ z ∈ spectrum ℂ (T.map Complex.ofReal), ‖z‖ < 1 := by
      intro z hz
      obtain ⟨v, hv, e⟩ := (mem_spectrum_iff_vec _ z).1 hz
      exact h z v hv e
    have h1 := pow_tendsto_of_spectrum _ hs
    refine tendsto_pi_nhds.2 fun i => tendsto_pi_nhds.2 fun j => ?_
    refine squeeze_zero_norm (fun k => ?_) h1
    have := entry_le_norm ((T.map Complex.ofReal) ^ k) i j
    rw [map_ofReal_pow] at this ⊢
    simpa using this

end Verif.Stationary
