import Verif.Smc.Model
import Mathlib.Data.List.Induction
import Mathlib.Data.List.Nodup
import Mathlib.Tactic.Linarith
import Mathlib.Tactic.NormNum

/-!
# Properties of the SMC loop and of its diagnostics

The specification is the sequence of states obtained by iterating the kernel without any bookkeeping.
-/

set_option autoImplicit false

namespace Verif.Smc

open scoped Classical

variable {P X K : Type}

/-! ### Specification -/

/-- Key and state after `k` steps: each step consumes the second half of the key and keeps the first.
pymc_extras/inference/smc/sampling.py:272-273 -/
def after (split : K → K × K) (step : K → State P X → State P X × Info) (key : K) (s0 : State P X) :
    ℕ → K × State P X
  | 0 => (key, s0)
  | k + 1 =>
    let prev := after split step key s0 k
    ((split prev.1).1, (step (split prev.1).2 prev.2).1)

/-- The report of step number `k` (counted from 0). pymc_extras/inference/smc/sampling.py:273 -/
def report (split : K → K × K) (step : K → State P X → State P X × Info) (key : K) (s0 : State P X) (k : ℕ) : Info :=
  (step (split (after split step key s0 k).1).2 (after split step key s0 k).2).2

/-- The tempering exponent is a number below one. pymc_extras/inference/smc/sampling.py:266-268 -/
def Tempering (s : State P X) : Prop := ∃ l, s.lmbda = some l ∧ l < 1

/-! ### Lemmas -/

/-- pymc_extras/inference/smc/sampling.py:266-268 -/
theorem cond_iff (c : Carry P X K) : cond c ↔ Tempering c.state := by
  unfold cond Tempering
  cases h : c.state.lmbda with
  | none => simp
  | some l => simp

/-- A diagnosis agrees with the first `k` steps of the run. pymc_extras/inference/smc/sampling.py:237-245 -/
def Agrees (split : K → K × K) (step : K → State P X → State P X × Info) (key : K) (s0 : State P X) (m n k : ℕ)
    (d : Diag) : Prop :=
  d.lmbda.length = m ∧ d.llInc.length = m ∧ d.ancestors.length = m ∧ d.weights.length = m ∧
  (∀ i, i < m → i < k → d.lmbda[i]? = some (after split step key s0 (i + 1)).2.lmbda ∧
    d.llInc[i]? = some (report split step key s0 i).logLikIncrement ∧
    d.ancestors[i]? = some (report split step key s0 i).ancestors ∧
    d.weights[i]? = some (after split step key s0 (i + 1)).2.weights) ∧
  (∀ i, i < m → k ≤ i → d.lmbda[i]? = some (some 0) ∧ d.llInc[i]? = some 0 ∧
    d.ancestors[i]? = some (List.replicate n 0) ∧ d.weights[i]? = some (List.replicate n 0))

/-- pymc_extras/inference/smc/sampling.py:247-254 -/
theorem agrees_zero (split : K → K × K) (step : K → State P X → State P X × Info) (key : K) (s0 : State P X)
    (m n : ℕ) : Agrees split step key s0 m n 0 (initialDiagnosis m n) := by
  refine ⟨by simp [initialDiagnosis], by simp [initialDiagnosis], by simp [initialDiagnosis],
    by simp [initialDiagnosis], fun i _ h => absurd h (by omega), fun i h _ => ?_⟩
  simp [initialDiagnosis, h]

/-- pymc_extras/inference/smc/sampling.py:270-276 -/
theorem agrees_succ (split : K → K × K) (step : K → State P X → State P X × Info) (key : K) (s0 : State P X)
    (m n k : ℕ) (d : Diag) (h : Agrees split step key s0 m n k d) :
    Agrees split step key s0 m n (k + 1)
      (updateDiagnosis k d (report split step key s0 k) (after split step key s0 (k + 1)).2) := by
  obtain ⟨h1, h2, h3, h4, h5, h6⟩ := h
  refine ⟨by simp [updateDiagnosis, h1], by simp [updateDiagnosis, h2], by simp [updateDiagnosis, h3],
    by simp [updateDiagnosis, h4], fun i him hik => ?_, fun i him hik => ?_⟩
  · by_cases e : i = k
    · subst e
      simp [updateDiagnosis, List.getElem?_set, h1, h2, h3, h4, him]
    · have := h5 i him (by omega)
      have e' : k ≠ i := fun hh => e hh.symm
      simpa [updateDiagnosis, List.getElem?_set, e'] using this
  · have := h6 i him (by omega)
    have e' : k ≠ i := by omega
    simpa [updateDiagnosis, List.getElem?_set, e'] using this

/-- The loop variables after `k` steps. pymc_extras/inference/smc/sampling.py:270-276 -/
def carryAt (split : K → K × K) (step : K → State P X → State P X × Info) (key : K) (s0 : State P X) (m n : ℕ) :
    ℕ → Carry P X K
  | 0 => ⟨0, s0, key, initialDiagnosis m n⟩
  | k + 1 => oneStep split step (carryAt split step key s0 m n k)

/-- pymc_extras/inference/smc/sampling.py:270-276 -/
theorem carryAt_spec (split : K → K × K) (step : K → State P X → State P X × Info) (key : K) (s0 : State P X)
    (m n k : ℕ) :
    (carryAt split step key s0 m n k).i = k ∧
    (carryAt split step key s0 m n k).key = (after split step key s0 k).1 ∧
    (carryAt split step key s0 m n k).state = (after split step key s0 k).2 ∧
    Agrees split step key s0 m n k (carryAt split step key s0 m n k).diag := by
  induction k with
  | zero => exact ⟨rfl, rfl, rfl, agrees_zero split step key s0 m n⟩
  | succ k ih =>
    obtain ⟨h1, h2, h3, h4⟩ := ih
    have h4' := agrees_succ split step key s0 m n k _ h4
    refine ⟨by simp [carryAt, oneStep, h1], by simp [carryAt, oneStep, h2, after],
      by simp [carryAt, oneStep, h2, h3, after], ?_⟩
    have : (carryAt split step key s0 m n (k + 1)).diag =
        updateDiagnosis k (carryAt split step key s0 m n k).diag (report split step key s0 k)
          (after split step key s0 (k + 1)).2 := by
      simp [carryAt, oneStep, h1, h2, h3, report, after]
    rw [this]; exact h4'

/-- pymc_extras/inference/smc/sampling.py:278-287 -/
theorem whileLoop_some (split : K → K × K) (step : K → State P X → State P X × Info) (key : K) (s0 : State P X)
    (m n : ℕ) : ∀ (fuel k : ℕ) (r : Carry P X K),
      whileLoop split step fuel (carryAt split step key s0 m n k) = some r ↔
        ∃ j, j < fuel ∧ r = carryAt split step key s0 m n (k + j) ∧
          (∀ t, t < j → Tempering (after split step key s0 (k + t)).2) ∧
          ¬ Tempering (after split step key s0 (k + j)).2 := by
  intro fuel
  induction fuel with
  | zero => intro k r; simp [whileLoop]
  | succ fuel ih =>
    intro k r
    have hst := (carryAt_spec split step key s0 m n k).2.2.1
    unfold whileLoop
    by_cases hc : cond (carryAt split step key s0 m n k)
    · rw [if_pos hc]
      have hk : Tempering (after split step key s0 k).2 := by rw [← hst]; exact (cond_iff _).1 hc
      change whileLoop split step fuel (carryAt split step key s0 m n (k + 1)) = some r ↔ _
      rw [ih (k + 1) r]
      constructor
      · rintro ⟨j, hj, hr, hall, hstop⟩
        refine ⟨j + 1, by omega, ?_, ?_, ?_⟩
        · rw [hr]; congr 1; omega
        · intro t ht
          cases t with
          | zero => exact hk
          | succ t =>
            have := hall t (by omega)
            rwa [show k + (t + 1) = k + 1 + t by omega]
        · rwa [show k + (j + 1) = k + 1 + j by omega]
      · rintro ⟨j, hj, hr, hall, hstop⟩
        cases j with
        | zero => exact absurd hk hstop
        | succ j =>
          refine ⟨j, by omega, ?_, ?_, ?_⟩
          · rw [hr]; congr 1; omega
          · intro t ht
            have := hall (t + 1) (by omega)
            rwa [show k + (t + 1) = k + 1 + t by omega] at this
          · rwa [show k + (j + 1) = k + 1 + j by omega] at hstop
    · rw [if_neg hc]
      have hk : ¬ Tempering (after split step key s0 k).2 := by
        rw [← hst]; exact fun h => hc ((cond_iff _).2 h)
      constructor
      · intro h
        refine ⟨0, by omega, by simpa using h.symm, fun t ht => absurd ht (by omega), hk⟩
      · rintro ⟨j, hj, hr, hall, hstop⟩
        cases j with
        | zero => simpa using hr.symm
        | succ j => exact absurd (hall 0 (by omega)) hk

/-! ### Properties -/

/-- The loop performs steps while the exponent is below one and returns the particles of the first state whose exponent is
not: all earlier states are tempering, that one is not, and the count returned is the number of steps.
pymc_extras/inference/smc/sampling.py:261-289 -/
theorem C67_first_untempered_state (split : K → K × K) (step : K → State P X → State P X × Info) (fuel : ℕ) (key : K)
    (s0 : State P X) (m n : ℕ) (iters : ℕ) (p : P) (d : Diag)
    (h : inferenceLoop split step fuel key s0 m n = some (iters, p, d)) :
    (∀ k, k < iters → Tempering (after split step key s0 k).2) ∧
    ¬ Tempering (after split step key s0 iters).2 ∧ p = (after split step key s0 iters).2.particles := by
  unfold inferenceLoop at h
  rw [Option.map_eq_some_iff] at h
  obtain ⟨c, hc, he⟩ := h
  have := (whileLoop_some split step key s0 m n fuel 0 c).1 hc
  obtain ⟨j, _, hr, hall, hstop⟩ := this
  simp only [Nat.zero_add] at hr hall hstop
  obtain ⟨h1, _, h3, _⟩ := carryAt_spec split step key s0 m n j
  rw [← hr] at h1 h3
  simp only [Prod.mk.injEq] at he
  obtain ⟨e1, e2, _⟩ := he
  have : iters = j := by rw [← e1, h1]
  subst this
  exact ⟨hall, hstop, by rw [← e2, h3]⟩

/-- The loop ends if and only if some state has an exponent that is not below one; nothing else can stop it.
pymc_extras/inference/smc/sampling.py:278-287 -/
theorem C67_terminates_iff (split : K → K × K) (step : K → State P X → State P X × Info) (key : K) (s0 : State P X)
    (m n : ℕ) :
    (∃ fuel r, inferenceLoop split step fuel key s0 m n = some r) ↔
      ∃ k, ¬ Tempering (after split step key s0 k).2 := by
  constructor
  · rintro ⟨fuel, ⟨it, p, d⟩, h⟩
    exact ⟨it, (C67_first_untempered_state split step fuel key s0 m n it p d h).2.1⟩
  · intro hex
    classical
    let j := Nat.find hex
    refine ⟨j + 1, ?_⟩
    have := (whileLoop_some split step key s0 m n (j + 1) 0 (carryAt split step key s0 m n j)).2
      ⟨j, by omega, by simp, fun t ht => by
        have := Nat.find_min hex ht
        simpa using this, by simpa using Nat.find_spec hex⟩
    unfold inferenceLoop
    change ∃ r, Option.map _ (whileLoop split step (j + 1) (carryAt split step key s0 m n 0)) = some r
    rw [this]
    exact ⟨_, rfl⟩

/-- If the exponent never becomes NaN, the state returned has an exponent of at least one.
pymc_extras/inference/smc/sampling.py:266-268 -/
theorem C67_final_exponent (split : K → K × K) (step : K → State P X → State P X × Info) (fuel : ℕ) (key : K)
    (s0 : State P X) (m n : ℕ) (iters : ℕ) (p : P) (d : Diag)
    (h : inferenceLoop split step fuel key s0 m n = some (iters, p, d)) (l : ℝ)
    (hl : (after split step key s0 iters).2.lmbda = some l) : 1 ≤ l := by
  have := (C67_first_untempered_state split step fuel key s0 m n iters p d h).2.1
  by_contra hlt
  exact this ⟨l, hl, not_le.1 hlt⟩

/-- An exponent that becomes NaN at step `k` ends the loop there like a finished run: the particles of that state are
returned although the exponent has not reached one. pymc_extras/inference/smc/sampling.py:266-268 -/
theorem C67_nan_ends_the_run (split : K → K × K) (step : K → State P X → State P X × Info) (key : K)
    (s0 : State P X) (m n k : ℕ) (hrun : ∀ t, t < k → Tempering (after split step key s0 t).2)
    (hnan : (after split step key s0 k).2.lmbda = none) :
    ∃ fuel d, inferenceLoop split step fuel key s0 m n = some (k, (after split step key s0 k).2.particles, d) := by
  have hstop : ¬ Tempering (after split step key s0 k).2 := by
    rintro ⟨l, hl, _⟩; rw [hnan] at hl; cases hl
  have := (whileLoop_some split step key s0 m n (k + 1) 0 (carryAt split step key s0 m n k)).2
    ⟨k, by omega, by simp, fun t ht => by simpa using hrun t ht, by simpa using hstop⟩
  obtain ⟨h1, _, h3, _⟩ := carryAt_spec split step key s0 m n k
  refine ⟨k + 1, (carryAt split step key s0 m n k).diag, ?_⟩
  unfold inferenceLoop
  change Option.map _ (whileLoop split step (k + 1) (carryAt split step key s0 m n 0)) = _
  rw [this]
  simp [h1, h3]

/-- The diagnosed series have `iterations_to_diagnose` rows; row `i` is that of step `i` when that step was made, and zero
when it was not. pymc_extras/inference/smc/sampling.py:237-254, 270-287 -/
theorem C67_diagnostics (split : K → K × K) (step : K → State P X → State P X × Info) (fuel : ℕ) (key : K)
    (s0 : State P X) (m n : ℕ) (iters : ℕ) (p : P) (d : Diag)
    (h : inferenceLoop split step fuel key s0 m n = some (iters, p, d)) :
    d.lmbda.length = m ∧ d.llInc.length = m ∧ d.ancestors.length = m ∧ d.weights.length = m ∧
    (∀ i, i < m → i < iters → d.lmbda[i]? = some (after split step key s0 (i + 1)).2.lmbda ∧
      d.llInc[i]? = some (report split step key s0 i).logLikIncrement ∧
      d.ancestors[i]? = some (report split step key s0 i).ancestors ∧
      d.weights[i]? = some (after split step key s0 (i + 1)).2.weights) ∧
    (∀ i, i < m → iters ≤ i → d.lmbda[i]? = some (some 0) ∧ d.llInc[i]? = some 0 ∧
      d.ancestors[i]? = some (List.replicate n 0) ∧ d.weights[i]? = some (List.replicate n 0)) := by
  unfold inferenceLoop at h
  rw [Option.map_eq_some_iff] at h
  obtain ⟨c, hc, he⟩ := h
  have := (whileLoop_some split step key s0 m n fuel 0 c).1 hc
  obtain ⟨j, _, hr, _, _⟩ := this
  simp only [Nat.zero_add] at hr
  obtain ⟨h1, _, _, h4⟩ := carryAt_spec split step key s0 m n j
  rw [← hr] at h1 h4
  simp only [Prod.mk.injEq] at he
  obtain ⟨e1, _, e3⟩ := he
  have : iters = j := by rw [← e1, h1]
  subst this
  rw [← e3]
  exact h4

/-- A kernel that adds 0.4 to the exponent stops after three steps and fills three of four rows of the diagnostics.
pymc_extras/inference/smc/sampling.py:261-289 -/
example : ∃ d : Diag, inferenceLoop (fun k : ℕ => (k + 1, k))
      (fun k (s : State ℕ Unit) => (⟨s.lmbda.map (· + 2 / 5), [1], k, ()⟩, ⟨-1, [0]⟩)) 5 7 ⟨some 0, [1], 0, ()⟩ 4 1 =
      some (3, 9, d) ∧ d.llInc = [-1, -1, -1, 0] := by
  refine ⟨⟨[some (2 / 5), some (4 / 5), some (6 / 5), some 0], [-1, -1, -1, 0], [[0], [0], [0], [0]],
    [[1], [1], [1], [0]]⟩, ?_, rfl⟩
  norm_num [inferenceLoop, whileLoop, cond, oneStep, updateDiagnosis, initialDiagnosis, List.replicate, List.set]

/-- The warning that only the first iterations were diagnosed is logged exactly when every iteration was diagnosed with
rows to spare; when iterations are missing from the diagnostics it is not logged.
pymc_extras/inference/smc/sampling.py:183-186 -/
theorem C127_warning_condition_is_reversed (split : K → K × K) (step : K → State P X → State P X × Info) (fuel : ℕ)
    (key : K) (s0 : State P X) (m n : ℕ) (iters : ℕ) (p : P) (d : Diag)
    (h : inferenceLoop split step fuel key s0 m n = some (iters, p, d)) :
    (warns iters m → ∀ i, i < iters → d.lmbda[i]? = some (after split step key s0 (i + 1)).2.lmbda) ∧
    ((∃ i, i < iters ∧ d.lmbda[i]? = none) → ¬ warns iters m) := by
  obtain ⟨h1, _, _, _, h5, _⟩ := C67_diagnostics split step fuel key s0 m n iters p d h
  unfold warns
  constructor
  · intro hw i hi
    exact (h5 i (by omega) hi).1
  · rintro ⟨i, hi, hn⟩
    rw [List.getElem?_eq_none_iff] at hn
    omega

/-- A run with more iterations than diagnosed rows exists, and it does not warn.
pymc_extras/inference/smc/sampling.py:183-186 -/
example : ¬ warns 3 2 ∧ warns 3 4 := by unfold warns; omega

/-! ### Arguments -/

/-- The inner kernel is built exactly when the name is "HMC" with both `step_size` and `integration_steps` given, or "NUTS"
with `step_size` given. pymc_extras/inference/smc/sampling.py:105-106, 128-146 -/
theorem C128_kernel_accepted_iff (kernel : String) (params : Option (List (String × ℝ))) :
    (∃ k, chooseKernel kernel params = .ok k) ↔
      ∃ d, params = some d ∧ ∃ s, d.lookup "step_size" = some s ∧
        ((kernel = "HMC" ∧ ∃ n, d.lookup "integration_steps" = some n) ∨ kernel = "NUTS") := by
  unfold chooseKernel getKey
  cases params with
  | none =>
    by_cases h1 : kernel = "HMC"
    · simp [h1, bind, Except.bind]
    · by_cases h2 : kernel = "NUTS" <;> simp [h1, h2, bind, Except.bind]
  | some d =>
    by_cases h1 : kernel = "HMC"
    · subst h1
      cases hs : d.lookup "step_size" <;> cases hn : d.lookup "integration_steps" <;>
        simp [hs, hn, bind, Except.bind]
    · by_cases h2 : kernel = "NUTS"
      · subst h2
        cases hs : d.lookup "step_size" <;> simp [hs, bind, Except.bind]
      · simp [h1, h2]

/-- With the default `inner_kernel_params=None`, no kernel can be used: the documented names raise KeyError.
pymc_extras/inference/smc/sampling.py:105-106, 128-146 -/
theorem C128_defaults_always_raise :
    chooseKernel "HMC" none = .error (.keyError "step_size") ∧
    chooseKernel "NUTS" none = .error (.keyError "step_size") := by
  constructor <;> rfl

/-- The kernel built uses the values given. pymc_extras/inference/smc/sampling.py:129-144 -/
theorem C128_kernel_values (d : List (String × ℝ)) (k : Kernel) :
    (chooseKernel "HMC" (some d) = .ok k → ∃ s n, d.lookup "step_size" = some s ∧
      d.lookup "integration_steps" = some n ∧ k = .hmc s n) ∧
    (chooseKernel "NUTS" (some d) = .ok k → ∃ s, d.lookup "step_size" = some s ∧ k = .nuts s) := by
  unfold chooseKernel getKey
  constructor
  · cases hs : d.lookup "step_size" <;> cases hn : d.lookup "integration_steps" <;>
      simp [hs, hn, bind, Except.bind]
    exact fun h => h.symm
  · cases hs : d.lookup "step_size" <;> simp [hs, bind, Except.bind]
    exact fun h => h.symm

/-- pymc_extras/inference/smc/sampling.py:128-136 -/
example : chooseKernel "HMC" (some [("step_size", 1), ("integration_steps", 10)]) = .ok (.hmc 1 10) := by
  simp [chooseKernel, getKey, bind, Except.bind, List.lookup]

/-! ### Attributes -/

/-- pymc_extras/inference/smc/sampling.py:359-378 -/
theorem lookup_setAttr {V : Type} (d : List (String × V)) (k k' : String) (v : V) :
    (setAttr d k v).lookup k' = if k' = k then some v else d.lookup k' := by
  unfold setAttr
  by_cases h : k' = k
  · subst h; simp
  · rw [if_neg h, List.lookup_cons]
    have : (k' == k) = false := by simpa using h
    rw [this]
    induction d with
    | nil => rfl
    | cons a d ih =>
      by_cases ha : a.1 = k
      · have hk : (k' == a.1) = false := by rw [ha]; exact this
        simp only [List.filter_cons, ha, ne_eq, not_true_eq_false, decide_false, Bool.false_eq_true, ↓reduceIte]
        rw [show List.lookup k' (a :: d) = List.lookup k' d by
          obtain ⟨a1, a2⟩ := a; simp only at hk; simp [List.lookup_cons, hk]]
        simpa using ih
      · obtain ⟨a1, a2⟩ := a
        simp only at ha
        simp only [List.filter_cons, ne_eq, ha, not_false_eq_true, decide_true, ↓reduceIte, List.lookup_cons]
        cases (k' == a1) <;> simp_all

/-- pymc_extras/inference/smc/sampling.py:372-376 -/
theorem lookup_foldl_setAttr {V : Type} (l : List (String × V)) :
    ∀ (d : List (String × V)) (k : String),
      (l.foldl (fun d x => setAttr d x.1 x.2) d).lookup k = (l.reverse.lookup k).or (d.lookup k) := by
  induction l using List.reverseRecOn with
  | nil => intro d k; simp
  | append_singleton l a ih =>
    intro d k
    rw [List.foldl_append]
    simp only [List.foldl_cons, List.foldl_nil]
    rw [lookup_setAttr, List.reverse_append, ih]
    obtain ⟨a1, a2⟩ := a
    simp only [List.reverse_cons, List.reverse_nil, List.nil_append, List.cons_append, List.lookup_cons]
    by_cases h : k = a1
    · simp [h]
    · have : (k == a1) = false := by simpa using h
      simp [h, this]

/-- The attribute `k` of the posterior after the run: the caller's kernel parameters take precedence over the parameters of
the run and over the diagnosed series, only the running time is safe from them.
pymc_extras/inference/smc/sampling.py:350-378 -/
theorem C130_attribute_lookup {V : Type} (attrs series params kernelParams : List (String × V)) (time : V)
    (k : String) :
    (addAttrs attrs series params kernelParams time).lookup k =
      if k = "running_time_seconds" then some time
      else (kernelParams.reverse.lookup k).or ((params.reverse.lookup k).or
        ((series.reverse.lookup k).or (attrs.lookup k))) := by
  unfold addAttrs
  rw [lookup_setAttr, lookup_foldl_setAttr]
  simp only [List.reverse_append, List.lookup_append, Option.or_assoc]

/-- When no kernel parameter carries one of the reserved names, every reserved attribute is the one of the run.
pymc_extras/inference/smc/sampling.py:350-378 -/
theorem C130_reserved_attributes {V : Type} (attrs series params kernelParams : List (String × V)) (time : V)
    (hp : params.map Prod.fst = paramNames) (k : String) (v : V) (hk : (k, v) ∈ params)
    (hn : k ∉ kernelParams.map Prod.fst) :
    (addAttrs attrs series params kernelParams time).lookup k = some v := by
  rw [C130_attribute_lookup]
  have hmem : k ∈ paramNames := hp ▸ List.mem_map_of_mem (f := Prod.fst) hk
  have hne : k ≠ "running_time_seconds" := by rintro rfl; revert hmem; decide
  rw [if_neg hne]
  have h1 : kernelParams.reverse.lookup k = none := by
    rw [List.lookup_eq_none_iff]
    intro x hx
    simp only [List.mem_reverse] at hx
    have hne' : k ≠ x.1 := by
      rintro rfl
      exact hn (List.mem_map_of_mem hx)
    simpa using hne'
  have h2 : params.reverse.lookup k = some v := by
    have hnd : (params.reverse.map Prod.fst).Nodup := by
      rw [List.map_reverse, List.nodup_reverse, hp]; decide
    have hk' : (k, v) ∈ params.reverse := List.mem_reverse.2 hk
    generalize params.reverse = q at hnd hk'
    induction q with
    | nil => simp at hk'
    | cons a q ih =>
      obtain ⟨a1, a2⟩ := a
      simp only [List.map_cons, List.nodup_cons] at hnd
      rcases List.mem_cons.1 hk' with e | e
      · simp only [Prod.mk.injEq] at e
        simp [e.1, e.2]
      · have : (k == a1) = false := by
          simp only [beq_eq_false_iff_ne, ne_eq]
          rintro rfl
          exact hnd.1 (List.mem_map_of_mem (f := Prod.fst) e)
        rw [List.lookup_cons, this]
        exact ih hnd.2 e
  rw [h1, h2]; rfl

/-- A kernel parameter named "iterations" hides the number of iterations.
pymc_extras/inference/smc/sampling.py:375-376 -/
example : (addAttrs (V := ℕ) [] [] [("iterations", 12)] [("step_size", 1), ("iterations", 5)] 9).lookup "iterations" =
    some 5 := by
  rw [C130_attribute_lookup]; decide

/-- The attributes the documentation promises, by name, for a caller whose kernel parameters carry none of these names:
the four series up to the iterations to diagnose, the six parameters of the run and the running time; every kernel
parameter under its own name; every other attribute as it was. -/
theorem C130_attributes {α : Type} (attrs : List (String × AttrVal α)) (nParticles : ℕ) (targetEss : α) (nMcmc : ℕ)
    (kernel : String) (dg : Diagnosis α) (total toDiagnose : ℕ) (kernelParams : List (String × AttrVal α)) (time : α)
    (hk : ∀ k ∈ ["lambda_evolution", "log_likelihood_increments", "ancestors_evolution", "weights_evolution", "particles",
      "target_ess", "num_mcmc_steps", "iterations", "iterations_to_diagnose", "sampler"], k ∉ kernelParams.map Prod.fst) :
    let out := addToInferenceData attrs nParticles targetEss nMcmc kernel dg total toDiagnose kernelParams time
    out.lookup "lambda_evolution" = some (.series (dg.lmbda.take toDiagnose)) ∧
    out.lookup "log_likelihood_increments" = some (.series (dg.logLikelihoodIncrement.take toDiagnose)) ∧
    out.lookup "ancestors_evolution" = some (.series (dg.ancestors.take toDiagnose)) ∧
    out.lookup "weights_evolution" = some (.series (dg.weights.take toDiagnose)) ∧
    out.lookup "particles" = some (.nat nParticles) ∧
    out.lookup "target_ess" = some (.num targetEss) ∧
    out.lookup "num_mcmc_steps" = some (.nat nMcmc) ∧
    out.lookup "iterations" = some (.nat total) ∧
    out.lookup "iterations_to_diagnose" = some (.nat toDiagnose) ∧
    out.lookup "sampler" = some (.text ("Blackjax SMC with " ++ kernel ++ " kernel")) ∧
    out.lookup "running_time_seconds" = some (.num time) ∧
    (∀ k, k ≠ "running_time_seconds" → ∀ v, kernelParams.reverse.lookup k = some v → out.lookup k = some v) ∧
    (∀ k, k ∉ ["lambda_evolution", "log_likelihood_increments", "ancestors_evolution", "weights_evolution", "particles",
      "target_ess", "num_mcmc_steps", "iterations", "iterations_to_diagnose", "sampler", "running_time_seconds"] →
      k ∉ kernelParams.map Prod.fst → out.lookup k = attrs.lookup k) := by
  intro out
  have hnone : ∀ k, k ∉ kernelParams.map Prod.fst → kernelParams.reverse.lookup k = none := by
    intro k hk
    rw [List.lookup_eq_none_iff]
    intro x hx
    simp only [List.mem_reverse] at hx
    have hne' : k ≠ x.1 := by
      rintro rfl
      exact hk (List.mem_map_of_mem hx)
    simpa using hne'
  refine ⟨?_, ?_, ?_, ?_, ?_, ?_, ?_, ?_, ?_, ?_, ?_, ?_, ?_⟩
  iterate 10
    · simp only [out, addToInferenceData]
      rw [C130_attribute_lookup, if_neg (by decide), hnone _ (hk _ (by decide))]
      rfl
  · simp only [out, addToInferenceData]
    rw [C130_attribute_lookup, if_pos rfl]
  · intro k hne v hv
    simp only [out, addToInferenceData]
    rw [C130_attribute_lookup, if_neg hne, hv]; rfl
  · intro k hres hkp
    simp only [List.mem_cons, List.not_mem_nil, or_false, not_or] at hres
    simp only [out, addToInferenceData]
    rw [C130_attribute_lookup, if_neg (by tauto), hnone _ hkp]
    obtain ⟨h1, h2, h3, h4, h5, h6, h7, h8, h9, h10, h11⟩ := hres
    have hb : ∀ {a b : String}, ¬ a = b → (a == b) = false := fun h => beq_eq_false_iff_ne.2 h
    simp only [seriesNames, paramNames, List.zip_cons_cons, List.zip_nil_right, List.reverse_cons, List.reverse_nil,
      List.nil_append, List.cons_append, List.lookup_cons, List.lookup_nil, hb h1, hb h2, hb h3, hb h4, hb h5, hb h6,
      hb h7, hb h8, hb h9, hb h10]
    rfl

/-- Three iterations diagnosed of five, one kernel parameter. -/
example : (addToInferenceData (α := ℕ) [] 100 1 10 "HMC" ⟨[1, 2, 3, 4, 5], [6], [], []⟩ 5 3 [("step_size", .num 7)] 9).lookup
    "lambda_evolution" = some (.series [1, 2, 3]) := by
  rw [(C130_attributes [] 100 1 10 "HMC" ⟨[1, 2, 3, 4, 5], [6], [], []⟩ 5 3 [("step_size", .num 7)] 9 (by decide)).1]; rfl

end Verif.Smc
