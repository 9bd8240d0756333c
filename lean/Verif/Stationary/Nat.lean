import Verif.Stationary.Spectral

/-!
Matrices written as functions on natural numbers (the form of the models in `Sarima`, `Varmax`, `Ets`).
-/

set_option autoImplicit false

open Finset

namespace Verif.Stationary

/-- The `K × K` matrix with the given entries: the array the code allocates with shape `(k_states, k_states)`.
pymc_extras/statespace/core/representation.py:191-202 -/
def toMat (K : ℕ) (T : ℕ → ℕ → ℝ) : Matrix (Fin K) (Fin K) ℝ := Matrix.of fun i j => T i j

theorem inside_iff (K : ℕ) (T : ℕ → ℕ → ℝ) : Spec.EigenvaluesInside (toMat K T) ↔
    ∀ (z : ℂ) (u : ℕ → ℂ), (∃ i, i < K ∧ u i ≠ 0) → (∀ i, i < K → ∑ j ∈ range K, (T i j : ℂ) * u j = z * u i) → ‖z‖ < 1 := by
  constructor
  · rintro h z u ⟨i, hi, hu⟩ he
    refine h z (fun a => u a) (fun h0 => hu (congrFun h0 ⟨i, hi⟩)) (funext fun a => ?_)
    have := he a a.2
    rw [← Fin.sum_univ_eq_sum_range (fun j => (T a j : ℂ) * u j)] at this
    exact this
  · intro h z v hv he
    obtain ⟨i, hi⟩ := Function.ne_iff.1 hv
    refine h z (fun a => if ha : a < K then v ⟨a, ha⟩ else 0) ⟨i, i.2, by simpa using hi⟩ fun a ha => ?_
    have := congrFun he ⟨a, ha⟩
    rw [← Fin.sum_univ_eq_sum_range (fun j => (T a j : ℂ) * if ha : j < K then v ⟨j, ha⟩ else 0)]
    simp only [ha, dif_pos, Fin.is_lt, Fin.eta]
    exact this

theorem stable_toMat (K : ℕ) (T : ℕ → ℕ → ℝ) : Spec.Stable (toMat K T) ↔
    ∀ (z : ℂ) (u : ℕ → ℂ), (∃ i, i < K ∧ u i ≠ 0) → (∀ i, i < K → ∑ j ∈ range K, (T i j : ℂ) * u j = z * u i) → ‖z‖ < 1 :=
  (stable_iff _).trans (inside_iff K T)

end Verif.Stationary
