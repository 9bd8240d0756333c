import Verif.Stationary.Nat
import Verif.Ets.Props

/-!
# C172: the "as if stationary" initial covariance of ETS models
-/

set_option autoImplicit false

open Finset Matrix
open scoped Kronecker

namespace Verif.Ets

open Verif.Stationary

/-- The transition matrix with `stationary_dampening` replaced by `δ`: by `1` for the model, by `initialization_dampening` for
the initial covariance. pymc_extras/statespace/models/ETS.py:622-627, 661-662 -/
def transitionM {k : ℕ} (c : Cfg) (p : Fin k → Params) (δ : ℝ) : Matrix (Fin k × Fin c.kEach) (Fin k × Fin c.kEach) ℝ :=
  Matrix.of fun a b => if a.1 = b.1 then tBlock c (p a.1) δ a.2 b.2 else 0

/-- The selection matrix. pymc_extras/statespace/models/ETS.py:617, 620 -/
def selectionM {k : ℕ} (c : Cfg) (p : Fin k → Params) : Matrix (Fin k × Fin c.kEach) (Fin k) ℝ :=
  Matrix.of fun a j => selection c p (a.1, a.2) j

/-- `_stationary_initialization`: the initial covariance. pymc_extras/statespace/models/ETS.py:453-466, 661-663, 670 -/
noncomputable def initialCov {k : ℕ} (c : Cfg) (p : Fin k → Params) (δ : ℝ) (Q : Matrix (Fin k) (Fin k) ℝ) :
    Matrix (Fin k × Fin c.kEach) (Fin k × Fin c.kEach) ℝ :=
  lyapunov (transitionM c p δ) (selectionM c p * Q * (selectionM c p)ᵀ)

/-- With `δ = 1` it is the matrix of the model (C40). -/
theorem transitionM_one {k : ℕ} (c : Cfg) (p : Fin k → Params) (a b : Fin k × Fin c.kEach) :
    transitionM c p 1 a b = transition c p (a.1, a.2) (b.1, b.2) := rfl

theorem block_mulVec {k K : ℕ} (B : Fin k → ℕ → ℕ → ℝ) (v : Fin k × Fin K → ℂ) (i : Fin k) (a : Fin K) :
    ((Matrix.of fun a b : Fin k × Fin K => if a.1 = b.1 then B a.1 a.2 b.2 else 0).map Complex.ofReal *ᵥ v) (i, a) =
      ((toMat K (B i)).map Complex.ofReal *ᵥ fun b => v (i, b)) a := by
  simp only [mulVec, dotProduct, Fintype.sum_prod_type, Matrix.map_apply, Matrix.of_apply, toMat]
  rw [Finset.sum_eq_single i]
  · simp
  · intro j _ hj; simp [hj.symm]
  · intro h; exact absurd (Finset.mem_univ i) h

theorem inside_block {k K : ℕ} (B : Fin k → ℕ → ℕ → ℝ) :
    Stationary.Spec.EigenvaluesInside (Matrix.of fun a b : Fin k × Fin K => if a.1 = b.1 then B a.1 a.2 b.2 else 0) ↔
      ∀ i, Stationary.Spec.EigenvaluesInside (toMat K (B i)) := by
  constructor
  · intro h i z v hv he
    refine h z (fun q => if q.1 = i then v q.2 else 0) (fun h0 => hv (funext fun a => ?_)) (funext fun q => ?_)
    · simpa using congrFun h0 (i, a)
    · obtain ⟨j, a⟩ := q
      rw [block_mulVec]
      by_cases hj : j = i
      · subst hj
        simpa using congrFun he a
      · simp [hj]
        simp [mulVec, dotProduct]
  · intro h z v hv he
    obtain ⟨⟨i, a⟩, hi⟩ := Function.ne_iff.1 hv
    refine h i z (fun b => v (i, b)) (fun h0 => hi (congrFun h0 a)) (funext fun b => ?_)
    rw [← block_mulVec]
    exact congrFun he (i, b)

variable (c : Cfg) (q : Params) (δ : ℝ)

theorem sum_two (K : ℕ) (hK : 2 ≤ K) (f : ℕ → ℂ) (hf : ∀ b, 2 ≤ b → f b = 0) : ∑ b ∈ range K, f b = f 0 + f 1 := by
  obtain ⟨m, rfl⟩ := Nat.exists_eq_add_of_le hK
  rw [sum_range_add, sum_eq_zero (s := range m) fun b _ => hf _ (by omega)]
  simp [sum_range_succ]

theorem sum_three (K : ℕ) (hK : 3 ≤ K) (f : ℕ → ℂ) (hf : ∀ b, 3 ≤ b → f b = 0) :
    ∑ b ∈ range K, f b = f 0 + f 1 + f 2 := by
  obtain ⟨m, rfl⟩ := Nat.exists_eq_add_of_le hK
  rw [sum_range_add, sum_eq_zero (s := range m) fun b _ => hf _ (by omega)]
  simp [sum_range_succ]

/-- Rows of the block acting on a vector. -/
theorem row_innov (u : ℕ → ℂ) : ∑ b ∈ range c.kEach, (tBlock c q δ 0 b : ℂ) * u b = 0 := by
  refine sum_eq_zero fun b _ => ?_
  have : tBlock c q δ 0 b = 0 := by
    simp [tBlock, tBase]
  simp [this]

theorem row_level (u : ℕ → ℂ) :
    ∑ b ∈ range c.kEach, (tBlock c q δ 1 b : ℂ) * u b =
      δ * u 1 + if c.trend = true then (if c.damped = true then (q.φ : ℂ) else 1) * u 2 else 0 := by
  have hK : c.kEach = 2 + c.tr + if c.seasonal then c.periods else 0 := rfl
  by_cases ht : c.trend = true
  · have h1 : c.tr = 1 := by simp [Cfg.tr, ht]
    rw [sum_three _ (by omega)]
    · by_cases hd : c.damped = true <;> simp [tBlock, tBase, ht, h1, hd]
    · intro b hb
      simp [tBlock, h1, show ¬ b < 3 by omega]
  · have h1 : c.tr = 0 := by simp [Cfg.tr, ht]
    rw [sum_two _ (by omega)]
    · simp [tBlock, tBase, ht, h1]
    · intro b hb
      simp [tBlock, h1, show ¬ b < 2 by omega]

theorem row_slope (ht : c.trend = true) (u : ℕ → ℂ) :
    ∑ b ∈ range c.kEach, (tBlock c q δ 2 b : ℂ) * u b = (if c.damped = true then (q.φ : ℂ) else δ) * u 2 := by
  have hK : c.kEach = 2 + c.tr + if c.seasonal then c.periods else 0 := rfl
  have h1 : c.tr = 1 := by simp [Cfg.tr, ht]
  rw [sum_three _ (by omega)]
  · by_cases hd : c.damped = true <;> simp [tBlock, tBase, ht, h1, hd]
  · intro b hb
    simp [tBlock, h1, show ¬ b < 3 by omega]

theorem row_season (hs : c.seasonal = true) (hm : 0 < c.periods) (u : ℕ → ℂ) :
    (∑ b ∈ range c.kEach, (tBlock c q δ (2 + c.tr) b : ℂ) * u b = δ * u (2 + c.tr + (c.periods - 1))) ∧
    ∀ a, a + 1 < c.periods → ∑ b ∈ range c.kEach, (tBlock c q δ (2 + c.tr + (a + 1)) b : ℂ) * u b = u (2 + c.tr + a) := by
  have hK : c.kEach = 2 + c.tr + c.periods := by simp [Cfg.kEach, hs]
  have key : ∀ a, ∑ b ∈ range c.kEach, (tBlock c q δ (2 + c.tr + a) b : ℂ) * u b =
      ∑ b ∈ range c.periods, (tSeason c.periods δ a b : ℂ) * u (2 + c.tr + b) := by
    intro a
    rw [hK, sum_range_add, sum_eq_zero (s := range (2 + c.tr)), zero_add]
    · refine sum_congr rfl fun b _ => ?_
      have : tBlock c q δ (2 + c.tr + a) (2 + c.tr + b) = tSeason c.periods δ a b := by
        simp only [tBlock]
        rw [if_neg (by omega), if_pos ⟨by omega, by omega, hs⟩]
        congr 1 <;> omega
      rw [this]
    · intro b hb
      have hb := mem_range.1 hb
      have : tBlock c q δ (2 + c.tr + a) b = 0 := by
        simp only [tBlock]
        rw [if_neg (by omega), if_neg (by omega)]
      simp [this]
  constructor
  · have := key 0
    rw [Nat.add_zero] at this
    rw [this, sum_eq_single (c.periods - 1)]
    · simp [tSeason]
    · intro b hb hne
      have : tSeason c.periods δ 0 b = 0 := by
        simp only [tSeason]; rw [if_neg (by omega), if_neg (by omega)]
      simp [this]
    · intro h; exact absurd (mem_range.2 (by omega)) h
  · intro a ha
    rw [key (a + 1), sum_eq_single a]
    · simp [tSeason]
    · intro b hb hne
      have : tSeason c.periods δ (a + 1) b = 0 := by
        simp only [tSeason]; rw [if_neg (by omega), if_neg (by omega)]
      simp [this]
    · intro h; exact absurd (mem_range.2 (by omega)) h

theorem block_inside (htr : c.damped = true → c.trend = true) (hm : c.seasonal = true → 0 < c.periods) (h0 : 0 < δ) (h1 : δ < 1) :
    Stationary.Spec.EigenvaluesInside (toMat c.kEach (tBlock c q δ)) ↔ (c.damped = true → |q.φ| < 1) := by
  rw [inside_iff]
  have hK : c.kEach = 2 + c.tr + if c.seasonal then c.periods else 0 := rfl
  have hdn : ‖(δ : ℂ)‖ = δ := by rw [Complex.norm_real, Real.norm_of_nonneg h0.le]
  constructor
  · intro h hd
    have ht := htr hd
    have htr1 : c.tr = 1 := by simp [Cfg.tr, ht]
    by_contra hc
    have hne : (q.φ : ℂ) - δ ≠ 0 := by
      intro he
      have : q.φ = δ := by exact_mod_cast sub_eq_zero.1 he
      rw [this, abs_of_pos h0] at hc
      exact hc h1
    have hz := h (q.φ : ℂ) (fun a => if a = 1 then (q.φ : ℂ) / (q.φ - δ) else if a = 2 then 1 else 0) ⟨2, by omega, by simp⟩ ?_
    · rw [Complex.norm_real, Real.norm_eq_abs] at hz
      exact hc hz
    · intro a ha
      rcases Nat.lt_or_ge a 3 with ha3 | ha3
      · interval_cases a
        · rw [row_innov]; simp
        · rw [row_level c q δ, if_pos ht, if_pos hd]
          simp only [if_true, if_neg (show (2 : ℕ) ≠ 1 by omega)]
          field_simp
          ring
        · rw [row_slope c q δ ht, if_pos hd]
      · have hz : ¬ a = 1 ∧ ¬ a = 2 := by omega
        rw [if_neg hz.1, if_neg hz.2, mul_zero]
        have hs : c.seasonal = true := by
          by_contra hs; simp [hs] at hK; omega
        simp only [hs, if_true] at hK
        obtain ⟨r1, r2⟩ := row_season c q δ hs (hm hs) (fun a => if a = 1 then (q.φ : ℂ) / (q.φ - δ) else if a = 2 then 1 else 0)
        rcases Nat.eq_or_lt_of_le ha3 with he | hlt
        · rw [← he]
          rw [htr1] at r1
          rw [r1, if_neg (by omega), if_neg (by omega), mul_zero]
        · have := r2 (a - 4) (by omega)
          rw [htr1, show 2 + 1 + (a - 4 + 1) = a by omega] at this
          rw [this, if_neg (by omega), if_neg (by omega)]
  · rintro hφ z u ⟨i0, hi0, hne⟩ he
    by_contra hc
    have hc := not_lt.1 hc
    have hz0 : z ≠ 0 := by rintro rfl; simp at hc; linarith
    have hzd : z ≠ δ := fun e => by rw [e, hdn] at hc; linarith
    have e0 : u 0 = 0 := by
      have := he 0 (by omega)
      rw [row_innov] at this
      exact (mul_eq_zero.1 this.symm).resolve_left hz0
    have e2 : c.trend = true → u 2 = 0 := by
      intro ht
      have htr1 : c.tr = 1 := by simp [Cfg.tr, ht]
      have := he 2 (by omega)
      rw [row_slope c q δ ht] at this
      have h3 : (z - if c.damped = true then (q.φ : ℂ) else δ) * u 2 = 0 := by rw [sub_mul, this]; ring
      refine (mul_eq_zero.1 h3).resolve_left fun h4 => ?_
      by_cases hd : c.damped = true
      · rw [if_pos hd] at h4
        rw [sub_eq_zero.1 h4, Complex.norm_real, Real.norm_eq_abs] at hc
        have := hφ hd; linarith
      · rw [if_neg hd] at h4
        exact hzd (sub_eq_zero.1 h4)
    have e1 : u 1 = 0 := by
      have := he 1 (by omega)
      rw [row_level c q δ] at this
      have h2 : (if c.trend = true then (if c.damped = true then (q.φ : ℂ) else 1) * u 2 else 0) = 0 := by
        by_cases ht : c.trend = true
        · rw [e2 ht]; simp
        · simp [ht]
      rw [h2, add_zero] at this
      have h3 : (z - δ) * u 1 = 0 := by rw [sub_mul, this]; ring
      exact (mul_eq_zero.1 h3).resolve_left (sub_ne_zero.2 hzd)
    have es : c.seasonal = true → ∀ a < c.periods, u (2 + c.tr + a) = 0 := by
      intro hs
      have hKs : c.kEach = 2 + c.tr + c.periods := by simp [Cfg.kEach, hs]
      obtain ⟨r1, r2⟩ := row_season c q δ hs (hm hs) u
      have hp := hm hs
      have hr : ∀ a < c.periods, z ^ a * u (2 + c.tr + a) = u (2 + c.tr) := by
        intro a ha
        induction a with
        | zero => simp
        | succ a ih =>
          have := he (2 + c.tr + (a + 1)) (by omega)
          rw [r2 a ha] at this
          rw [pow_succ, mul_assoc, ← this, ih (by omega)]
      have hl := he (2 + c.tr) (by omega)
      rw [r1] at hl
      have hlast := hr (c.periods - 1) (by omega)
      have hz : (z ^ c.periods - δ) * u (2 + c.tr) = 0 := by
        have e : z ^ c.periods = z ^ (c.periods - 1) * z := by rw [← pow_succ]; congr 1; omega
        linear_combination u (2 + c.tr) * e - z ^ (c.periods - 1) * hl + δ * hlast
      have hs0 : u (2 + c.tr) = 0 := by
        refine (mul_eq_zero.1 hz).resolve_left fun h => ?_
        have h5 : ‖z ^ c.periods‖ = δ := by rw [sub_eq_zero.1 h, hdn]
        rw [norm_pow] at h5
        have := one_le_pow₀ hc (n := c.periods)
        linarith
      intro a ha
      have := hr a ha
      rw [hs0] at this
      exact (mul_eq_zero.1 this).resolve_left (pow_ne_zero _ hz0)
    refine hne ?_
    by_cases ha : i0 < 2 + c.tr
    · have := tr_le c
      rcases i0 with _ | _ | _ | i0
      · exact e0
      · exact e1
      · refine e2 ?_
        by_contra ht
        have : c.tr = 0 := by simp [Cfg.tr, ht]
        omega
      · omega
    · have hs : c.seasonal = true := by
        by_contra hs; simp [hs] at hK; omega
      simp only [hs, if_true] at hK
      have := es hs (i0 - (2 + c.tr)) (by omega)
      rwa [show 2 + c.tr + (i0 - (2 + c.tr)) = i0 by omega] at this

/-- **C172**: for every dampening the constructor accepts, the transition matrix used for the initial covariance is stable exactly
when no series has a trend-damping parameter `phi` of absolute value one or more. -/
theorem C172_stable_iff {k : ℕ} (c : Cfg) (p : Fin k → Params) {δ : ℝ} (htr : c.damped = true → c.trend = true)
    (hm : c.seasonal = true → 0 < c.periods) (h0 : 0 < δ) (h1 : δ < 1) :
    Stationary.Spec.Stable (transitionM c p δ) ↔ (c.damped = true → ∀ i, |(p i).φ| < 1) := by
  rw [stable_iff, transitionM, inside_block fun i => tBlock c (p i) δ]
  refine (forall_congr' fun i => block_inside c (p i) δ htr hm h0 h1).trans ⟨fun h hd i => h i hd, fun h i hd => h hd i⟩

/-- **C172**: then the initial covariance is the unique solution of the stationarity equation of the dampened system, and is
positive semidefinite. -/
theorem C172_initial_covariance {k : ℕ} (c : Cfg) (p : Fin k → Params) {δ : ℝ} (htr : c.damped = true → c.trend = true)
    (hm : c.seasonal = true → 0 < c.periods) (h0 : 0 < δ) (h1 : δ < 1) (hφ : c.damped = true → ∀ i, |(p i).φ| < 1)
    {Q : Matrix (Fin k) (Fin k) ℝ} (hQ : Q.PosSemidef) :
    (∀ P, transitionM c p δ * P * (transitionM c p δ)ᵀ + selectionM c p * Q * (selectionM c p)ᵀ = P ↔
      P = initialCov c p δ Q) ∧ (initialCov c p δ Q).PosSemidef := by
  have hT := (C172_stable_iff c p htr hm h0 h1).2 hφ
  have hu := stable_unit_kron hT
  have hW : (selectionM c p * Q * (selectionM c p)ᵀ).PosSemidef := by
    have := hQ.mul_mul_conjTranspose_same (selectionM c p)
    rwa [conjTranspose_eq_transpose_of_trivial] at this
  have hs := lyapunov_solves (selectionM c p * Q * (selectionM c p)ᵀ) hu
  refine ⟨fun P => ⟨fun h => lyapunov_unique hu h, ?_⟩, posSemidef_of_stable hT hW hs⟩
  rintro rfl
  exact hs

/-- The permanent effect of a shock on the series: what a unit shock adds to the long-run level or slope. -/
def Spec.permanent (c : Cfg) (q : Params) : ℝ :=
  if c.trend then if c.damped then (1 - q.φ) * q.α + q.φ * trendCoef c q else trendCoef c q else q.α

/-- The left eigenvector of the block belonging to eigenvalue one. Proof notion, no code behind it. -/
def leftVec (c : Cfg) (q : Params) : ℕ → ℝ := fun a =>
  if c.trend then if c.damped then (if a = 1 then 1 - q.φ else if a = 2 then q.φ else 0) else (if a = 2 then 1 else 0)
  else if a = 1 then 1 else 0

theorem leftVec_fixed (c : Cfg) (q : Params) (b : ℕ) :
    ∑ a ∈ range c.kEach, leftVec c q a * tBlock c q 1 a b = leftVec c q b := by
  have hK : c.kEach = 2 + c.tr + if c.seasonal then c.periods else 0 := rfl
  by_cases ht : c.trend = true
  · have h1 : c.tr = 1 := by simp [Cfg.tr, ht]
    have h3 : 3 ≤ c.kEach := by omega
    obtain ⟨m, hm⟩ := Nat.exists_eq_add_of_le h3
    rw [hm, sum_range_add, sum_eq_zero (s := range m) fun a _ => by
      simp [leftVec, ht, show ¬ 3 + a = 1 by omega, show ¬ 3 + a = 2 by omega]]
    rcases Nat.lt_or_ge b 3 with hb | hb
    · interval_cases b <;> by_cases hd : c.damped = true <;>
        simp [sum_range_succ, leftVec, tBlock, tBase, ht, h1, hd] <;> ring
    · have hn : ¬ b < 3 := by omega
      have n1 : b ≠ 1 := by omega
      have n2 : b ≠ 2 := by omega
      simp [sum_range_succ, leftVec, tBlock, h1, hn, n1, n2, ht]
  · have h1 : c.tr = 0 := by simp [Cfg.tr, ht]
    have h3 : 2 ≤ c.kEach := by omega
    obtain ⟨m, hm⟩ := Nat.exists_eq_add_of_le h3
    rw [hm, sum_range_add, sum_eq_zero (s := range m) fun a _ => by
      simp [leftVec, ht, show ¬ 2 + a = 1 by omega]]
    rcases Nat.lt_or_ge b 2 with hb | hb
    · interval_cases b <;> simp [sum_range_succ, leftVec, tBlock, tBase, ht, h1]
    · have hn : ¬ b < 2 := by omega
      have n1 : b ≠ 1 := by omega
      simp [sum_range_succ, leftVec, tBlock, h1, hn, n1, ht]

theorem leftVec_sel (c : Cfg) (q : Params) :
    ∑ a ∈ range c.kEach, leftVec c q a * selCol c q a = Spec.permanent c q := by
  have hK : c.kEach = 2 + c.tr + if c.seasonal then c.periods else 0 := rfl
  by_cases ht : c.trend = true
  · have h1 : c.tr = 1 := by simp [Cfg.tr, ht]
    have h3 : 3 ≤ c.kEach := by omega
    obtain ⟨m, hm⟩ := Nat.exists_eq_add_of_le h3
    rw [hm, sum_range_add, sum_eq_zero (s := range m) fun a _ => by
      simp [leftVec, ht, show ¬ 3 + a = 1 by omega, show ¬ 3 + a = 2 by omega]]
    by_cases hd : c.damped = true <;> by_cases hs : c.seasonal = true <;>
      simp [sum_range_succ, leftVec, selCol, Spec.permanent, ht, h1, hd, hs, Function.update_apply]
  · have h1 : c.tr = 0 := by simp [Cfg.tr, ht]
    have h3 : 2 ≤ c.kEach := by omega
    obtain ⟨m, hm⟩ := Nat.exists_eq_add_of_le h3
    rw [hm, sum_range_add, sum_eq_zero (s := range m) fun a _ => by
      simp [leftVec, ht, show ¬ 2 + a = 1 by omega]]
    by_cases hs : c.seasonal = true <;>
      simp [sum_range_succ, leftVec, selCol, Spec.permanent, ht, h1, hs, Function.update_apply]

/-- **C172**: the initial covariance is not stationary for the model itself, and nothing is: if shocks to some series have a
permanent effect, no covariance matrix is left unchanged by a step of the model. -/
theorem C172_model_not_stationary {k : ℕ} (c : Cfg) (p : Fin k → Params)
    (Q : Matrix (Fin k) (Fin k) ℝ) (i : Fin k) (hQ : 0 < Q i i)
    (hg : Spec.permanent c (p i) ≠ 0) (P : Matrix (Fin k × Fin c.kEach) (Fin k × Fin c.kEach) ℝ) :
    transitionM c p 1 * P * (transitionM c p 1)ᵀ + selectionM c p * Q * (selectionM c p)ᵀ ≠ P := by
  intro h
  let v : Fin k × Fin c.kEach → ℝ := fun a => if a.1 = i then leftVec c (p i) a.2 else 0
  have hv : v ᵥ* transitionM c p 1 = v := by
    funext b
    obtain ⟨j, b⟩ := b
    simp only [vecMul, dotProduct, Fintype.sum_prod_type, v, transitionM, Matrix.of_apply]
    rw [Finset.sum_eq_single i]
    · by_cases hj : j = i
      · subst hj
        simp only [if_true]
        rw [Fin.sum_univ_eq_sum_range (fun a => leftVec c (p j) a * tBlock c (p j) 1 a b)]
        exact leftVec_fixed c (p j) b
      · simp [hj, Ne.symm hj]
    · intro j' _ hj'; simp [hj']
    · intro h; exact absurd (Finset.mem_univ i) h
  have hR : v ᵥ* selectionM c p = fun j => if j = i then Spec.permanent c (p i) else 0 := by
    funext j
    simp only [vecMul, dotProduct, Fintype.sum_prod_type, v, selectionM, Matrix.of_apply, selection]
    rw [Finset.sum_eq_single i]
    · by_cases hj : j = i
      · subst hj
        simp only [if_true]
        rw [Fin.sum_univ_eq_sum_range (fun a => leftVec c (p j) a * selCol c (p j) a)]
        exact leftVec_sel c (p j)
      · simp [hj, Ne.symm hj]
    · intro j' _ hj'; simp [hj']
    · intro h; exact absurd (Finset.mem_univ i) h
  have e := congrArg (fun M => v ⬝ᵥ (M *ᵥ v)) h
  simp only [add_mulVec, dotProduct_add] at e
  have f1 : v ⬝ᵥ ((transitionM c p 1 * P * (transitionM c p 1)ᵀ) *ᵥ v) = v ⬝ᵥ (P *ᵥ v) := by
    rw [← mulVec_mulVec, ← mulVec_mulVec, mulVec_transpose, hv, dotProduct_mulVec, hv]
  have f2 : v ⬝ᵥ ((selectionM c p * Q * (selectionM c p)ᵀ) *ᵥ v) =
      (fun j => if j = i then Spec.permanent c (p i) else 0) ⬝ᵥ
        (Q *ᵥ fun j => if j = i then Spec.permanent c (p i) else 0) := by
    rw [← mulVec_mulVec, ← mulVec_mulVec, mulVec_transpose, hR, dotProduct_mulVec, hR]
  rw [f1, f2] at e
  have e2 : (fun j => if j = i then Spec.permanent c (p i) else 0) ⬝ᵥ
      (Q *ᵥ fun j => if j = i then Spec.permanent c (p i) else 0) = Spec.permanent c (p i) ^ 2 * Q i i := by
    simp [dotProduct, mulVec]; ring
  rw [e2] at e
  have : 0 < Spec.permanent c (p i) ^ 2 * Q i i := mul_pos (by positivity) hQ
  linarith

/-- A damped-trend seasonal model of two series meets all hypotheses. -/
example : let c : Cfg := ⟨true, true, true, 4, false⟩
    let p : Fin 2 → Params := fun _ => ⟨1 / 2, 1 / 2, 1 / 4, 9 / 10, 0, 0, fun _ => 0⟩
    (c.damped = true → c.trend = true) ∧ (c.seasonal = true → 0 < c.periods) ∧ (0 : ℝ) < 0.8 ∧ (0.8 : ℝ) < 1 ∧
      (c.damped = true → ∀ i, |(p i).φ| < 1) ∧ (1 : Matrix (Fin 2) (Fin 2) ℝ).PosSemidef ∧ Spec.permanent c (p 0) ≠ 0 := by
  refine ⟨fun _ => rfl, fun _ => by decide, by norm_num, by norm_num, fun _ i => ?_, PosSemidef.one, ?_⟩
  · simp only; rw [abs_of_pos] <;> norm_num
  · simp [Spec.permanent, trendCoef]; norm_num

end Verif.Ets
