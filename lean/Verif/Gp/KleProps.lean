import Verif.Gp.Model
import Mathlib.Algebra.BigOperators.Fin
import Mathlib.Algebra.Order.BigOperators.Group.List
import Mathlib.Tactic.Linarith
import Mathlib.Tactic.NormNum
import Mathlib.Tactic.FieldSimp

/-!
# Properties of the Karhunen–Loève expansion
-/

set_option autoImplicit false

namespace Verif.Gp

open Matrix

open scoped Classical

/-! ### How many eigenvalues are kept -/

/-- The share of the `k` largest eigenvalues. pymc_extras/gp/latent_approx.py:152 -/
noncomputable def topShare (vals : List ℝ) (k : ℕ) : ℝ := (vals.drop (vals.length - k)).sum / vals.sum

/-- pymc_extras/gp/latent_approx.py:152 -/
theorem shares_get (vals : List ℝ) (i : ℕ) (hi : i < vals.length) :
    (shares vals)[i]? = some (topShare vals (i + 1)) := by
  unfold shares topShare
  simp only [List.getElem?_map, List.getElem?_range hi, Option.map_some, Option.some.injEq]
  congr 1
  rw [List.take_reverse, List.sum_reverse]

/-- pymc_extras/gp/latent_approx.py:152 -/
theorem shares_length (vals : List ℝ) : (shares vals).length = vals.length := by simp [shares]

/-- With a limit other than 1, `k` eigenvalues are selected exactly when `k + 1` is the smallest number of eigenvalues whose
share exceeds the limit. pymc_extras/gp/latent_approx.py:152 -/
theorem keptCount_iff (v : ℝ) (hv : v ≠ 1) (nEigs : Option ℕ) (vals : List ℝ) (k : ℕ) :
    keptCount (some v) nEigs vals = .ok k ↔
      k < vals.length ∧ v < topShare vals (k + 1) ∧ ∀ i, i < k → topShare vals (i + 1) ≤ v := by
  unfold keptCount
  simp only [hv, ↓reduceIte]
  have key : (shares vals).findIdx? (fun x => decide (v < x)) = some k ↔
      k < vals.length ∧ v < topShare vals (k + 1) ∧ ∀ i, i < k → topShare vals (i + 1) ≤ v := by
    rw [List.findIdx?_eq_some_iff_getElem]
    constructor
    · rintro ⟨hk, h1, h2⟩
      have hk' : k < vals.length := by rw [shares_length] at hk; exact hk
      have e : ∀ i (hi : i < (shares vals).length), (shares vals)[i] = topShare vals (i + 1) := by
        intro i hi
        have := shares_get vals i (by rwa [shares_length] at hi)
        rw [List.getElem?_eq_getElem hi] at this
        exact Option.some.inj this
      rw [e] at h1
      refine ⟨hk', by simpa using h1, fun i hi => ?_⟩
      have := h2 i hi
      rw [e] at this
      simpa using this
    · rintro ⟨hk, h1, h2⟩
      have hk' : k < (shares vals).length := by rw [shares_length]; exact hk
      have e : ∀ i (hi : i < (shares vals).length), (shares vals)[i] = topShare vals (i + 1) := by
        intro i hi
        have := shares_get vals i (by rwa [shares_length] at hi)
        rw [List.getElem?_eq_getElem hi] at this
        exact Option.some.inj this
      refine ⟨hk', by rw [e]; simpa using h1, fun i hi => ?_⟩
      rw [e]
      simpa using h2 i hi
  cases hf : (shares vals).findIdx? fun x => decide (v < x) with
  | none => rw [hf] at key; simp [← key]
  | some i =>
    rw [hf] at key
    simp only [Except.ok.injEq]
    rw [← key]
    simp

/-- When the prior can be built with a limit, what is kept are the `k ≥ 1` largest eigenvalues with a share of the variance of
at most the limit, and one more eigenvalue would exceed it: the expansion never explains more than the limit.
pymc_extras/gp/latent_approx.py:146-160 -/
theorem C68_share_at_most_limit (v : ℝ) (nEigs : Option ℕ) (vals kept : List ℝ)
    (h : keptValues (some v) nEigs vals = .ok kept) (hv : 0 ≤ v) :
    ∃ k, 1 ≤ k ∧ k < vals.length ∧ kept = vals.drop (vals.length - k) ∧ kept.length = k ∧
      kept.sum / vals.sum ≤ v ∧ v < (vals.drop (vals.length - (k + 1))).sum / vals.sum := by
  unfold keptValues at h
  simp only [bind, Except.bind] at h
  cases hk : keptCount (some v) nEigs vals with
  | error e => rw [hk] at h; cases h
  | ok k =>
    rw [hk] at h
    have hv1 : v ≠ 1 := by
      rintro rfl
      simp [keptCount] at hk
    obtain ⟨hlt, h1, h2⟩ := (keptCount_iff v hv1 nEigs vals k).1 hk
    simp only at h
    by_cases hl : (lastN vals k).length = k
    · rw [if_pos hl] at h
      simp only [Except.ok.injEq] at h
      subst h
      have hk0 : k ≠ 0 := by
        rintro rfl
        simp [lastN] at hl
        simp [hl] at hlt
      have he : lastN vals k = vals.drop (vals.length - k) := by simp [lastN, hk0]
      refine ⟨k, by omega, hlt, he, hl, ?_, h1⟩
      obtain ⟨j, rfl⟩ := Nat.exists_eq_succ_of_ne_zero hk0
      rw [he]
      exact h2 j (by omega)
    · rw [if_neg hl] at h; cases h

/-- Which limits work: exactly those not below the share of the largest eigenvalue and below the share of all of them but
reached before the end; a limit below the share of the largest eigenvalue keeps "the last 0", which Python reads as all, and
the product with no coefficients fails. pymc_extras/gp/latent_approx.py:146-160 -/
theorem C68_limit_works_iff (v : ℝ) (nEigs : Option ℕ) (vals : List ℝ) :
    (∃ kept, keptValues (some v) nEigs vals = .ok kept) ↔
      v ≠ 1 ∧ ∃ k, 1 ≤ k ∧ k < vals.length ∧ v < topShare vals (k + 1) ∧ ∀ i, i < k → topShare vals (i + 1) ≤ v := by
  constructor
  · rintro ⟨kept, h⟩
    unfold keptValues at h
    simp only [bind, Except.bind] at h
    cases hk : keptCount (some v) nEigs vals with
    | error e => rw [hk] at h; cases h
    | ok k =>
      rw [hk] at h
      have hv1 : v ≠ 1 := by
        rintro rfl
        simp [keptCount] at hk
      obtain ⟨hlt, h1, h2⟩ := (keptCount_iff v hv1 nEigs vals k).1 hk
      simp only at h
      refine ⟨hv1, k, ?_, hlt, h1, h2⟩
      by_contra hk0
      have : k = 0 := by omega
      subst this
      have : vals ≠ [] := by rintro rfl; simp at hlt
      simp [lastN, this] at h
  · rintro ⟨hv1, k, hk1, hlt, h1, h2⟩
    have hk := (keptCount_iff v hv1 nEigs vals k).2 ⟨hlt, h1, h2⟩
    refine ⟨vals.drop (vals.length - k), ?_⟩
    unfold keptValues
    rw [hk]
    simp only [bind, Except.bind]
    have hk0 : k ≠ 0 := by omega
    have he : lastN vals k = vals.drop (vals.length - k) := by simp [lastN, hk0]
    have hl : (lastN vals k).length = k := by rw [he]; simp; omega
    rw [if_pos hl, he]

/-- A limit below the share of the largest eigenvalue always raises, and so does every limit of 1 or more when the
eigenvalues are positive. pymc_extras/gp/latent_approx.py:149-160 -/
theorem C68_limits_that_raise (v : ℝ) (nEigs : Option ℕ) (vals : List ℝ) (hne : vals ≠ []) :
    (v < topShare vals 1 → ¬ ∃ kept, keptValues (some v) nEigs vals = .ok kept) ∧
    ((∀ x ∈ vals, 0 < x) → 1 ≤ v → ¬ ∃ kept, keptValues (some v) nEigs vals = .ok kept) := by
  constructor
  · intro hlt hex
    obtain ⟨_, k, hk, _, _, h2⟩ := (C68_limit_works_iff v nEigs vals).1 hex
    have := h2 0 (by omega)
    simp only [Nat.zero_add] at this
    linarith
  · intro hpos hv hex
    obtain ⟨_, k, _, hlt, h1, _⟩ := (C68_limit_works_iff v nEigs vals).1 hex
    have htot : 0 < vals.sum := by
      obtain ⟨a, l, rfl⟩ := List.exists_cons_of_ne_nil hne
      rw [List.sum_cons]
      have h3 : 0 ≤ l.sum := List.sum_nonneg fun x hx => (hpos x (by simp [hx])).le
      have := hpos a (by simp)
      linarith
    have hle : (vals.drop (vals.length - (k + 1))).sum ≤ vals.sum := by
      have := List.sum_take_add_sum_drop vals (vals.length - (k + 1))
      have h3 : 0 ≤ (vals.take (vals.length - (k + 1))).sum :=
        List.sum_nonneg fun x hx => (hpos x (List.mem_of_mem_take hx)).le
      linarith
    have : topShare vals (k + 1) ≤ 1 := by
      unfold topShare
      rw [div_le_one htot]
      exact hle
    linarith

/-- Without a limit: the prior works exactly for an explicit number of eigenvalues between one and all of them, and keeps that
many of the largest. pymc_extras/gp/latent_approx.py:146-160 -/
theorem C68_explicit_count (nEigs : Option ℕ) (vals kept : List ℝ) (hne : vals ≠ []) :
    keptValues none nEigs vals = .ok kept ↔
      ∃ k, nEigs = some k ∧ 1 ≤ k ∧ k ≤ vals.length ∧ kept = vals.drop (vals.length - k) := by
  unfold keptValues keptCount lastN
  cases nEigs with
  | none => simp [bind, Except.bind]
  | some k =>
    simp only [bind, Except.bind, Option.some.injEq]
    by_cases hk : k = 0
    · subst hk
      simp [hne]
    · simp only [hk, ↓reduceIte, List.length_drop]
      by_cases hl : vals.length - (vals.length - k) = k
      · simp only [hl, ↓reduceIte, Except.ok.injEq]
        constructor
        · rintro rfl; exact ⟨k, rfl, by omega, by omega, rfl⟩
        · rintro ⟨k', rfl, _, _, rfl⟩; rfl
      · simp only [hl, ↓reduceIte, reduceCtorEq, false_iff, not_exists, not_and]
        rintro k' rfl h1 h2
        omega

/-- Eigenvalues 1 2 5 and the limit 0.9: two eigenvalues are kept, with a share of 0.875 of the variance, below the limit.
pymc_extras/gp/latent_approx.py:146-160 -/
example : keptValues (some (9 / 10)) none [1, 2, 5] = .ok [2, 5] := by
  have h : keptCount (some (9 / 10)) none [1, 2, 5] = .ok 2 := by
    rw [keptCount_iff _ (by norm_num)]
    refine ⟨by simp, by norm_num [topShare], fun i hi => ?_⟩
    interval_cases i <;> norm_num [topShare]
  unfold keptValues
  rw [h]
  simp [bind, Except.bind, lastN]

/-! ### Covariance of the expansion -/

variable {s : Type} [Fintype s] [DecidableEq s]

/-- A sum over the kept positions. pymc_extras/gp/latent_approx.py:153 -/
theorem sum_kept {N k : ℕ} (hk : k ≤ N) (g : Fin N → ℝ) :
    ∑ j : Fin k, g ⟨N - k + j, by omega⟩ = ∑ i : Fin N, if N - k ≤ (i : ℕ) then g i else 0 := by
  obtain ⟨m, rfl⟩ : ∃ m, N = m + k := ⟨N - k, by omega⟩
  have hm : m + k - k = m := by omega
  rw [Fin.sum_univ_add]
  have h1 : (∑ i : Fin m, if m + k - k ≤ ((Fin.castAdd k i : Fin (m + k)) : ℕ) then g (Fin.castAdd k i) else 0) = 0 := by
    refine Finset.sum_eq_zero fun i _ => ?_
    rw [if_neg]
    simp only [Fin.val_castAdd]
    have := i.2
    omega
  rw [h1, zero_add]
  refine Finset.sum_congr rfl fun j _ => ?_
  rw [if_pos (by simp)]
  congr 1
  ext
  simp

/-- The kept part of a spectral sum. pymc_extras/gp/latent_approx.py:153-155, 173 -/
theorem kept_spectral {N k : ℕ} (hk : k ≤ N) (V : Matrix (Fin N) (Fin N) ℝ) (w : Fin N → ℝ) :
    keptVectors hk V * diagonal (fun j : Fin k => w ⟨N - k + j, by omega⟩) * (keptVectors hk V)ᵀ =
      V * diagonal (fun i : Fin N => if N - k ≤ (i : ℕ) then w i else 0) * Vᵀ := by
  ext a b
  rw [Matrix.mul_apply, Matrix.mul_apply]
  simp only [Matrix.mul_diagonal, transpose_apply, keptVectors, of_apply]
  rw [sum_kept hk fun i => V a i * w i * V b i]
  refine Finset.sum_congr rfl fun i _ => ?_
  by_cases h : N - k ≤ (i : ℕ) <;> simp [h]

/-- pymc_extras/gp/latent_approx.py:155 -/
theorem basis_mul_transpose {N k : ℕ} (hk : k ≤ N) (V : Matrix (Fin N) (Fin N) ℝ) (vals : Fin N → ℝ)
    (hpos : ∀ i, 0 ≤ vals i) :
    basis hk V vals * (basis hk V vals)ᵀ =
      V * diagonal (fun i : Fin N => if N - k ≤ (i : ℕ) then vals i else 0) * Vᵀ := by
  unfold basis
  rw [transpose_mul, diagonal_transpose, Matrix.mul_assoc, ← Matrix.mul_assoc (diagonal _) (diagonal _),
    diagonal_mul_diagonal, ← Matrix.mul_assoc, ← kept_spectral hk V vals]
  congr 3
  funext j
  exact Real.mul_self_sqrt (hpos _)

/-- A spectral sum with nonnegative weights is positive semidefinite. pymc_extras/gp/latent_approx.py:144 -/
theorem spectral_posSemidef {N : ℕ} (V : Matrix (Fin N) (Fin N) ℝ) (w : Fin N → ℝ) (hw : ∀ i, 0 ≤ w i) :
    (V * diagonal w * Vᵀ).PosSemidef := by
  have := (PosSemidef.diagonal (n := Fin N) (d := w) hw).mul_mul_conjTranspose_same V
  simpa using this

/-- The prior is linear in the standard normal coefficients; its covariance is the eigendecomposition cut to the `k` largest
eigenvalues, it never exceeds the covariance of the process plus jitter, and equals it when all are kept.
pymc_extras/gp/latent_approx.py:141-161 -/
theorem C134_prior_covariance {N k : ℕ} (hk : k ≤ N) (K V : Matrix (Fin N) (Fin N) ℝ) (vals : Fin N → ℝ)
    (mean : Fin N → ℝ) (jitter : ℝ) (hV : stabilize K jitter = V * diagonal vals * Vᵀ) (hpos : ∀ i, 0 ≤ vals i) :
    ∃ A : Matrix (Fin N) (Fin k) ℝ, (∀ z, klePrior hk V vals mean z = A *ᵥ z) ∧
      A * Aᵀ = V * diagonal (fun i : Fin N => if N - k ≤ (i : ℕ) then vals i else 0) * Vᵀ ∧
      ((K + jitter • (1 : Matrix (Fin N) (Fin N) ℝ)) - A * Aᵀ).PosSemidef ∧
      (k = N → A * Aᵀ = K + jitter • (1 : Matrix (Fin N) (Fin N) ℝ)) := by
  refine ⟨basis hk V vals, fun z => rfl, basis_mul_transpose hk V vals hpos, ?_, ?_⟩
  · rw [basis_mul_transpose hk V vals hpos, show K + jitter • (1 : Matrix (Fin N) (Fin N) ℝ) = _ from hV,
      ← Matrix.sub_mul, ← Matrix.mul_sub, diagonal_sub]
    refine spectral_posSemidef V _ fun i => ?_
    by_cases h : N - k ≤ (i : ℕ) <;> simp [h, hpos i]
  · rintro rfl
    rw [basis_mul_transpose hk V vals hpos, show K + jitter • (1 : Matrix (Fin k) (Fin k) ℝ) = _ from hV]
    congr 3
    funext i
    simp

/-- The mean function plays no part, neither in the prior nor in the conditional: the prior has mean zero whatever it is.
pymc_extras/gp/latent_approx.py:142, 170-177 -/
theorem C134_mean_function_ignored {N k : ℕ} (hk : k ≤ N) (V : Matrix (Fin N) (Fin N) ℝ) (vals : Fin N → ℝ)
    (Kxs : Matrix (Fin N) s ℝ) (m₁ m₂ : Fin N → ℝ) (n₁ n₂ : s → ℝ) (z : Fin k → ℝ) :
    klePrior hk V vals m₁ z = klePrior hk V vals m₂ z ∧ klePrior hk V vals m₁ 0 = 0 ∧
      kleMean hk V vals Kxs n₁ (klePrior hk V vals m₁ z) = kleMean hk V vals Kxs n₂ (klePrior hk V vals m₂ z) := by
  refine ⟨rfl, by simp [klePrior], rfl⟩

/-- pymc_extras/gp/latent_approx.py:173-174 -/
theorem keptVectors_orthonormal {N k : ℕ} (hk : k ≤ N) (V : Matrix (Fin N) (Fin N) ℝ) (horth : Vᵀ * V = 1) :
    (keptVectors hk V)ᵀ * keptVectors hk V = 1 := by
  ext a b
  have h := congrFun (congrFun horth ⟨N - k + a, by omega⟩) ⟨N - k + b, by omega⟩
  rw [Matrix.mul_apply] at h
  rw [Matrix.mul_apply]
  simp only [transpose_apply, keptVectors, of_apply] at h ⊢
  rw [h, Matrix.one_apply, Matrix.one_apply]
  congr 1
  simp only [Fin.mk.injEq, Nat.add_left_cancel_iff, eq_iff_iff]
  exact ⟨fun h => Fin.ext h, fun h => congrArg _ h⟩

/-- At the inputs of the prior, without jitter and with positive kept eigenvalues, the conditional mean is the prior itself and the
conditional covariance is what the truncation left out. pymc_extras/gp/latent_approx.py:170-177 -/
theorem C134_conditional_at_prior_inputs {N k : ℕ} (hk : k ≤ N) (K V : Matrix (Fin N) (Fin N) ℝ) (vals : Fin N → ℝ)
    (mean : Fin N → ℝ) (hV : stabilize K 0 = V * diagonal vals * Vᵀ) (horth : Vᵀ * V = 1)
    (hpos : ∀ i, 0 < vals i) (z : Fin k → ℝ) :
    kleMean hk V vals K mean (klePrior hk V vals mean z) = klePrior hk V vals mean z ∧
    kleCov hk V vals K K 0 = V * diagonal (fun i : Fin N => if N - k ≤ (i : ℕ) then 0 else vals i) * Vᵀ := by
  have hK : K = V * diagonal vals * Vᵀ := by rw [← hV]; simp [stabilize]
  have hKt : Kᵀ = K := by
    rw [hK]; simp [transpose_mul, Matrix.mul_assoc]
  have hpinv : kxxPinv hk V vals = V * diagonal (fun i : Fin N => if N - k ≤ (i : ℕ) then 1 / vals i else 0) * Vᵀ := by
    unfold kxxPinv keptVals
    exact kept_spectral hk V fun i => 1 / vals i
  have hprod : ∀ w₁ w₂ : Fin N → ℝ, (V * diagonal w₁ * Vᵀ) * (V * diagonal w₂ * Vᵀ) =
      V * diagonal (fun i => w₁ i * w₂ i) * Vᵀ := by
    intro w₁ w₂
    have h3 : V * diagonal w₁ * Vᵀ * (V * diagonal w₂ * Vᵀ) =
        V * diagonal w₁ * (Vᵀ * V) * diagonal w₂ * Vᵀ := by simp only [Matrix.mul_assoc]
    rw [h3, horth, Matrix.mul_one, Matrix.mul_assoc V, diagonal_mul_diagonal]
  have hKP : K * kxxPinv hk V vals = V * diagonal (fun i : Fin N => if N - k ≤ (i : ℕ) then 1 else 0) * Vᵀ := by
    rw [hpinv]
    nth_rewrite 1 [hK]
    rw [hprod]
    congr 3
    funext i
    by_cases h : N - k ≤ (i : ℕ)
    · simp [h, mul_inv_cancel₀ (hpos i).ne']
    · simp [h]
  constructor
  · unfold kleMean klePrior
    rw [hKt, mulVec_mulVec, hKP]
    congr 1
    have h1 := kept_spectral hk V fun _ => (1 : ℝ)
    rw [← h1]
    unfold basis
    simp only [diagonal_one, Matrix.mul_one]
    rw [Matrix.mul_assoc (keptVectors hk V), ← Matrix.mul_assoc (keptVectors hk V)ᵀ, keptVectors_orthonormal hk V horth,
      Matrix.one_mul]
  · unfold kleCov
    simp only [stabilize, zero_smul, add_zero]
    rw [hKt, hKP]
    conv_lhs => rw [hK]
    rw [hprod, ← Matrix.sub_mul, ← Matrix.mul_sub, diagonal_sub]
    congr 3
    funext i
    by_cases h : N - k ≤ (i : ℕ) <;> simp [h]

/-- Whenever the covariance function gives a positive semidefinite matrix on all inputs together, the conditional covariance at
new inputs is positive definite for positive jitter, however few eigenvalues are kept.
pymc_extras/gp/latent_approx.py:170-177 -/
theorem C134_conditional_posDef {N k : ℕ} (hk : k ≤ N) (K V : Matrix (Fin N) (Fin N) ℝ) (vals : Fin N → ℝ)
    (Kxs : Matrix (Fin N) s ℝ) (Kss : Matrix s s ℝ) (j₁ j₂ : ℝ) (hV : stabilize K j₁ = V * diagonal vals * Vᵀ)
    (horth : Vᵀ * V = 1) (hpos : ∀ i, 0 < vals i) (hj₁ : 0 ≤ j₁) (hj₂ : 0 < j₂)
    (hjoint : (fromBlocks K Kxs Kxsᵀ Kss).PosSemidef) :
    (kleCov hk V vals Kxs Kss j₂).PosDef := by
  have horth' : V * Vᵀ = 1 := mul_eq_one_comm.1 horth
  have hinvV : (V * diagonal vals * Vᵀ)⁻¹ = V * diagonal (fun i => 1 / vals i) * Vᵀ := by
    refine Matrix.inv_eq_right_inv ?_
    have h3 : V * diagonal vals * Vᵀ * (V * diagonal (fun i => 1 / vals i) * Vᵀ) =
        V * diagonal vals * (Vᵀ * V) * diagonal (fun i => 1 / vals i) * Vᵀ := by simp only [Matrix.mul_assoc]
    rw [h3, horth, Matrix.mul_one, Matrix.mul_assoc V, diagonal_mul_diagonal]
    have : (fun i => vals i * (1 / vals i)) = fun _ => 1 := by
      funext i; rw [mul_one_div, div_self (hpos i).ne']
    rw [this, diagonal_one, Matrix.mul_one, horth']
  have hA : (stabilize K j₁).PosDef := by
    rw [hV]
    have := (PosDef.diagonal (n := Fin N) (d := vals) hpos).mul_mul_conjTranspose_same (B := V) (by
      intro a b hab
      have h2 : Vᵀ *ᵥ a = Vᵀ *ᵥ b := by simpa [mulVec_transpose] using hab
      have := congrArg (fun x => V *ᵥ x) h2
      simpa [mulVec_mulVec, horth'] using this)
    simpa using this
  have hjit : (fromBlocks (j₁ • (1 : Matrix (Fin N) (Fin N) ℝ)) 0 0 (0 : Matrix s s ℝ)).PosSemidef := by
    refine PosSemidef.of_dotProduct_mulVec_nonneg ?_ ?_
    · refine IsHermitian.fromBlocks ?_ (by simp) (by simp [IsHermitian])
      simp [IsHermitian, conjTranspose_smul]
    · intro x
      rw [fromBlocks_mulVec]
      have hx : star x = Sum.elim (star (x ∘ Sum.inl)) (star (x ∘ Sum.inr)) := by
        funext i; cases i <;> rfl
      rw [hx, sumElim_dotProduct_sumElim]
      simp only [smul_mulVec, one_mulVec, zero_mulVec, add_zero, dotProduct_zero, dotProduct_smul]
      exact mul_nonneg hj₁ (dotProduct_star_self_nonneg _)
  have hsum := hjoint.add hjit
  rw [fromBlocks_add] at hsum
  simp only [add_zero] at hsum
  have hB : (fromBlocks (stabilize K j₁) Kxs Kxsᴴ Kss).PosSemidef := by
    simpa [stabilize] using hsum
  have : Invertible (stabilize K j₁) := hA.isUnit.invertible
  have hS := (PosDef.fromBlocks₁₁ Kxs Kss hA).1 hB
  rw [hV, hinvV] at hS
  have hpinv : kxxPinv hk V vals = V * diagonal (fun i : Fin N => if N - k ≤ (i : ℕ) then 1 / vals i else 0) * Vᵀ := by
    unfold kxxPinv keptVals
    exact kept_spectral hk V fun i => 1 / vals i
  have hrest : (V * diagonal (fun i : Fin N => if N - k ≤ (i : ℕ) then 0 else 1 / vals i) * Vᵀ).PosSemidef := by
    refine spectral_posSemidef V _ fun i => ?_
    by_cases h : N - k ≤ (i : ℕ)
    · simp [h]
    · simp [h, (hpos i).le]
  have hrest' := hrest.conjTranspose_mul_mul_same Kxs
  have hsplit : V * diagonal (fun i => 1 / vals i) * Vᵀ =
      kxxPinv hk V vals + V * diagonal (fun i : Fin N => if N - k ≤ (i : ℕ) then 0 else 1 / vals i) * Vᵀ := by
    rw [hpinv, ← Matrix.add_mul, ← Matrix.mul_add, diagonal_add]
    congr 3
    funext i
    by_cases h : N - k ≤ (i : ℕ) <;> simp [h]
  have hcov : kleCov hk V vals Kxs Kss j₂ = ((Kss - Kxsᴴ * (V * diagonal (fun i => 1 / vals i) * Vᵀ) * Kxs) +
      Kxsᴴ * (V * diagonal (fun i : Fin N => if N - k ≤ (i : ℕ) then 0 else 1 / vals i) * Vᵀ) * Kxs) +
      j₂ • (1 : Matrix s s ℝ) := by
    unfold kleCov stabilize
    rw [hsplit, Matrix.mul_add, Matrix.add_mul, conjTranspose_eq_transpose_of_trivial]
    abel
  rw [hcov]
  exact PosDef.posSemidef_add (hS.add hrest') (PosDef.one.smul hj₂)

/-- A decomposition as the theorems ask for: the identity matrix scaled by 1 and 4.
pymc_extras/gp/latent_approx.py:144 -/
example : stabilize (diagonal ![(1 : ℝ), 4]) 0 =
    (1 : Matrix (Fin 2) (Fin 2) ℝ) * diagonal ![1, 4] * (1 : Matrix (Fin 2) (Fin 2) ℝ)ᵀ ∧
    (∀ i, 0 < (![1, 4] : Fin 2 → ℝ) i) := by
  refine ⟨by simp [stabilize], fun i => ?_⟩
  fin_cases i <;> norm_num

end Verif.Gp
