import Verif.Marginal.LogpLemmas
import Mathlib.Data.Fin.Tuple.Basic
import Mathlib.Logic.Equiv.Fin.Basic

/-! # C46: the forward algorithm sums over all state paths -/

set_option autoImplicit false

namespace Marginal

open scoped BigOperators ENNReal

/-- Specification: log-probability of one path `s` of hidden states together with the observations:
initial, transitions, and observations at every time given the whole path. -/
noncomputable def pathLogp {K T : ℕ} (init : Fin K → EReal) (logP : Fin K → Fin K → EReal)
    (obs : (Fin (T + 1) → Fin K) → Fin (T + 1) → EReal) (s : Fin (T + 1) → Fin K) : EReal :=
  init (s 0) + ∑ t : Fin T, logP (s t.castSucc) (s t.succ) + ∑ t : Fin (T + 1), obs s t

theorem exp_stepAlpha {K : ℕ} (e alpha : Fin K → EReal) (logP : Fin K → Fin K → EReal) (j : Fin K) :
    EReal.exp (stepAlpha e alpha logP j)
      = EReal.exp (e j) * ∑ i, EReal.exp (alpha i) * EReal.exp (logP i j) := by
  unfold stepAlpha
  rw [EReal.exp_add, exp_logsumexp, List.map_map]
  congr 1
  rw [← List.sum_ofFn, List.ofFn_eq_map]
  congr 1
  apply List.map_congr_left
  intro i _
  simp [EReal.exp_add]

/-- The scan started from any `alpha` sums over all continuations. -/
theorem exp_scanAlpha {K : ℕ} (logP : Fin K → Fin K → EReal) : ∀ (T : ℕ)
    (em : Fin T → Fin K → EReal) (alpha : Fin K → EReal),
    ∑ k, EReal.exp (scanAlpha logP alpha (List.ofFn em) k)
      = ∑ s : Fin (T + 1) → Fin K, EReal.exp (alpha (s 0)) *
          ∏ t : Fin T, (EReal.exp (logP (s t.castSucc) (s t.succ)) * EReal.exp (em t (s t.succ))) := by
  intro T
  induction T with
  | zero =>
    intro em alpha
    simp only [List.ofFn_zero, scanAlpha, Finset.univ_eq_empty, Finset.prod_empty, mul_one]
    rw [← (Equiv.funUnique (Fin 1) (Fin K)).sum_comp (fun k => EReal.exp (alpha k))]
    rfl
  | succ T ih =>
    intro em alpha
    rw [List.ofFn_succ, scanAlpha, ih]
    rw [← (Fin.consEquiv (fun _ : Fin (T + 2) => Fin K)).sum_comp, Fintype.sum_prod_type_right]
    apply Finset.sum_congr rfl
    intro s _
    rw [exp_stepAlpha]
    have : ∀ k : Fin K, EReal.exp (alpha ((Fin.consEquiv (fun _ : Fin (T + 2) => Fin K)) (k, s) 0)) *
        ∏ t : Fin (T + 1), (EReal.exp (logP ((Fin.consEquiv (fun _ : Fin (T + 2) => Fin K)) (k, s) t.castSucc)
            ((Fin.consEquiv (fun _ : Fin (T + 2) => Fin K)) (k, s) t.succ))
          * EReal.exp (em t ((Fin.consEquiv (fun _ : Fin (T + 2) => Fin K)) (k, s) t.succ)))
        = (EReal.exp (alpha k) * EReal.exp (logP k (s 0))) * (EReal.exp (em 0 (s 0)) *
          ∏ t : Fin T, (EReal.exp (logP (s t.castSucc) (s t.succ))
            * EReal.exp (em t.succ (s t.succ)))) := by
      intro k
      rw [Fin.prod_univ_succ]
      simp only [Fin.consEquiv, Equiv.coe_fn_mk, Fin.cons_zero, Fin.castSucc_zero, Fin.cons_succ,
        ← Fin.succ_castSucc]
      ring
    simp only [this]
    rw [← Finset.sum_mul]
    ring

/-- **C46.** For a chain of at least two time points whose observation at each time depends only on
the state at that time, the log-probability returned is the log of the sum, over all state paths, of
initial × transition × observation probabilities. -/
theorem C46_sum_over_paths {K T : ℕ} (init : Fin K → EReal) (logP : Fin K → Fin K → EReal)
    (obs : (Fin (T + 2) → Fin K) → Fin (T + 2) → EReal)
    (honly : ∀ s s' t, s t = s' t → obs s t = obs s' t)
    (emission : ℕ → Fin K → EReal)
    (hem : ∀ (t : Fin (T + 2)) k, emission t k = obs (fun _ => k) t) :
    hmmLogp init logP (T + 2) emission
      = some (ENNReal.log (∑ s, EReal.exp (pathLogp init logP obs s))) := by
  unfold hmmLogp
  rw [if_neg (by omega)]
  simp only [logsumexp]
  congr 2
  rw [List.map_map, ← List.ofFn_eq_map, List.sum_ofFn]
  have hl : (List.range (T + 2 - 1)).map (fun t => emission (t + 1))
      = List.ofFn (fun t : Fin (T + 1) => emission (t.val + 1)) := by
    rw [show T + 2 - 1 = T + 1 from rfl]
    rw [List.ofFn_eq_map, ← List.map_coe_finRange_eq_range, List.map_map]
    rfl
  have h := exp_scanAlpha logP (T + 1) (fun t : Fin (T + 1) => emission (t.val + 1))
    (fun k => init k + emission 0 k)
  rw [← hl] at h
  show ∑ k, EReal.exp (scanAlpha logP _ _ k) = _
  rw [h]
  apply Finset.sum_congr rfl
  intro s _
  unfold pathLogp
  have hobs : ∀ t, obs s t = emission t.val (s t) := by
    intro t
    rw [hem t (s t)]
    exact honly _ _ _ rfl
  rw [EReal.exp_add, EReal.exp_add, EReal.exp_add, exp_finset_sum, exp_finset_sum,
    Fin.prod_univ_succ (fun t => EReal.exp (obs s t)), Finset.prod_mul_distrib]
  simp only [hobs]
  have : emission ((0 : Fin (T + 2)) : ℕ) (s 0) = emission 0 (s 0) := rfl
  rw [this]
  simp only [Fin.val_succ]
  ring

/-- The scan needs at least one step: a marginalised chain of length one has no log-probability. -/
theorem C46_single_step_fails {K : ℕ} (init : Fin K → EReal) (logP : Fin K → Fin K → EReal)
    (emission : ℕ → Fin K → EReal) : hmmLogp init logP 1 emission = none := rfl

/-- A concrete case meeting the hypotheses of `C46_sum_over_paths`: two states, three times. -/
example : ∃ obs : (Fin 3 → Fin 2) → Fin 3 → EReal,
    (∀ s s' t, s t = s' t → obs s t = obs s' t) ∧ obs (fun _ => 0) 0 ≠ obs (fun _ => 1) 0 :=
  ⟨fun s t => if s t = 0 then 0 else ⊥, fun s s' t h => by simp [h], by simp⟩

end Marginal
