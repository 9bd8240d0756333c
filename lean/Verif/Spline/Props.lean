import Verif.Spline.Model
import Mathlib.Algebra.Order.BigOperators.Group.Finset
import Mathlib.Algebra.BigOperators.Ring.Finset
import Mathlib.Algebra.Order.Floor.Semiring
import Mathlib.Tactic.Linarith
import Mathlib.Tactic.NormNum
import Mathlib.Tactic.FieldSimp
import Mathlib.Tactic.Positivity
import Mathlib.Tactic.IntervalCases

/-!
# Properties of the B-spline interpolation
-/

set_option autoImplicit false

namespace Verif.Spline

open Finset

/-! ### Lemmas -/

/-- Degree `p` functions on interval `m` vanish outside `m - p … m`. pymc_extras/utils/spline.py:29-30 -/
theorem bspline_support (t : ℕ → ℝ) (x : ℝ) (m : ℕ) : ∀ (p i : ℕ), (i + p < m ∨ m < i) → bspline t x m p i = 0 := by
  intro p
  induction p with
  | zero =>
    intro i h
    have : i ≠ m := by omega
    simp [bspline, this]
  | succ p ih =>
    intro i h
    simp only [bspline]
    rw [ih i (by omega), ih (i + 1) (by omega)]
    ring

/-- pymc_extras/utils/spline.py:29-30 -/
theorem bspline_sum (t : ℕ → ℝ) (x : ℝ) (m k : ℕ) (hm : m < k) : ∀ p, p ≤ m →
    ∑ i ∈ range k, bspline t x m p i = 1 := by
  intro p
  induction p with
  | zero =>
    intro _
    simp only [bspline]
    rw [Finset.sum_ite_eq' (range k) m]
    simp [hm]
  | succ p ih =>
    intro hp
    have ih' := ih (by omega)
    simp only [bspline]
    rw [Finset.sum_add_distrib]
    have hshift : ∑ i ∈ range k, (1 - ramp t x (p + 1) (i + 1)) * bspline t x m p (i + 1) =
        ∑ i ∈ range k, (1 - ramp t x (p + 1) i) * bspline t x m p i := by
      have h1 := Finset.sum_range_succ' (fun i => (1 - ramp t x (p + 1) i) * bspline t x m p i) k
      have h2 := Finset.sum_range_succ (fun i => (1 - ramp t x (p + 1) i) * bspline t x m p i) k
      rw [bspline_support t x m p 0 (by omega)] at h1
      rw [bspline_support t x m p k (by omega)] at h2
      linarith
    rw [hshift, ← Finset.sum_add_distrib]
    refine Eq.trans ?_ ih'
    refine Finset.sum_congr rfl fun i _ => ?_
    ring

/-- pymc_extras/utils/spline.py:29-30 -/
theorem bspline_nonneg (t : ℕ → ℝ) (ht : Monotone t) (x : ℝ) (m : ℕ) (h1 : t m ≤ x) (h2 : x ≤ t (m + 1)) :
    ∀ p i, 0 ≤ bspline t x m p i := by
  intro p
  induction p with
  | zero => intro i; simp only [bspline]; split <;> norm_num
  | succ p ih =>
    intro i
    have hr : ∀ j, bspline t x m p j ≠ 0 → 0 ≤ ramp t x (p + 1) j ∧ ramp t x (p + 1) j ≤ 1 := by
      intro j hj
      have hj' : ¬ (j + p < m ∨ m < j) := fun h => hj (bspline_support t x m p j h)
      have e1 : t j ≤ x := (ht (by omega)).trans h1
      have e2 : x ≤ t (j + (p + 1)) := h2.trans (ht (by omega))
      unfold ramp
      constructor
      · exact div_nonneg (by linarith) (by linarith)
      · exact div_le_one_of_le₀ (by linarith) (by linarith)
    simp only [bspline]
    refine add_nonneg ?_ ?_
    · by_cases h : bspline t x m p i = 0
      · simp [h]
      · exact mul_nonneg (hr i h).1 (ih i)
    · by_cases h : bspline t x m p (i + 1) = 0
      · simp [h]
      · exact mul_nonneg (by linarith [(hr (i + 1) h).2]) (ih (i + 1))

/-- pymc_extras/utils/spline.py:26-28 -/
theorem knot_mono (k d : ℕ) (hk : d < k) : Monotone (knot k d) := by
  have hg : (0 : ℝ) < ((k - d : ℕ) : ℝ) := by exact_mod_cast (by omega : 0 < k - d)
  intro i j hij
  unfold knot
  by_cases h1 : i < d
  · rw [if_pos h1]
    split
    · exact le_refl _
    · split
      · positivity
      · norm_num
  · rw [if_neg h1, if_neg (show ¬ j < d by omega)]
    by_cases h2 : j < k + 1
    · rw [if_pos (show i < k + 1 by omega), if_pos h2]
      refine div_le_div_of_nonneg_right ?_ hg.le
      exact_mod_cast (by omega : i - d ≤ j - d)
    · rw [if_neg h2]
      by_cases h3 : i < k + 1
      · rw [if_pos h3, div_le_one hg]
        exact_mod_cast (by omega : i - d ≤ k - d)
      · rw [if_neg h3]

/-- pymc_extras/utils/spline.py:29-30 -/
theorem interval_bounds (k d : ℕ) (hk : d < k) (x : ℝ) : d ≤ interval k d x ∧ interval k d x < k := by
  unfold interval
  have := min_le_right ⌊x * ((k - d : ℕ) : ℝ)⌋₊ (k - d - 1)
  omega

/-- The interval contains the point. pymc_extras/utils/spline.py:29-30 -/
theorem interval_contains (k d : ℕ) (hk : d < k) (x : ℝ) (h0 : 0 ≤ x) (h1 : x ≤ 1) :
    knot k d (interval k d x) ≤ x ∧ x ≤ knot k d (interval k d x + 1) := by
  have hg : (0 : ℝ) < ((k - d : ℕ) : ℝ) := by exact_mod_cast (by omega : 0 < k - d)
  obtain ⟨hb1, hb2⟩ := interval_bounds k d hk x
  have hx : 0 ≤ x * ((k - d : ℕ) : ℝ) := mul_nonneg h0 hg.le
  have k1 : knot k d (interval k d x) = ((min ⌊x * ((k - d : ℕ) : ℝ)⌋₊ (k - d - 1) : ℕ) : ℝ) / ((k - d : ℕ) : ℝ) := by
    unfold knot
    rw [if_neg (by omega), if_pos (by omega)]
    unfold interval
    rw [Nat.add_sub_cancel_left]
  have k2 : knot k d (interval k d x + 1) =
      ((min ⌊x * ((k - d : ℕ) : ℝ)⌋₊ (k - d - 1) + 1 : ℕ) : ℝ) / ((k - d : ℕ) : ℝ) := by
    unfold knot
    rw [if_neg (by omega), if_pos (by omega)]
    unfold interval
    rw [show d + min ⌊x * ((k - d : ℕ) : ℝ)⌋₊ (k - d - 1) + 1 - d = min ⌊x * ((k - d : ℕ) : ℝ)⌋₊ (k - d - 1) + 1 by omega]
  rw [k1, k2, div_le_iff₀ hg, le_div_iff₀ hg]
  constructor
  · refine le_trans ?_ (Nat.floor_le hx)
    exact_mod_cast min_le_left _ _
  · rcases le_total ⌊x * ((k - d : ℕ) : ℝ)⌋₊ (k - d - 1) with h | h
    · rw [min_eq_left h]
      push_cast
      exact (Nat.lt_floor_add_one _).le
    · rw [min_eq_right h]
      have : ((k - d - 1 + 1 : ℕ) : ℝ) = ((k - d : ℕ) : ℝ) := by congr 1; omega
      rw [this]
      nlinarith

/-! ### Properties -/

/-- The basis can be built exactly when there are more coefficients than the degree; there are then `k + degree + 1` knots, in
nondecreasing order, from 0 to 1. pymc_extras/utils/spline.py:25-29 -/
theorem C135_knots (k d : ℕ) :
    ((∃ c, knotCount k d = .ok c) ↔ d < k) ∧ (∀ c, knotCount k d = .ok c → c = k + d + 1) ∧
    (d < k → (∀ i j, i ≤ j → knot k d i ≤ knot k d j) ∧ knot k d 0 = 0 ∧ knot k d (k + d) = 1 ∧
      ∀ i, d ≤ i → i < k → knot k d (i + 1) - knot k d i = 1 / ((k - d : ℕ) : ℝ)) := by
  refine ⟨?_, ?_, fun hk => ⟨fun i j h => knot_mono k d hk h, ?_, ?_, ?_⟩⟩
  · unfold knotCount
    constructor
    · rintro ⟨c, h⟩
      split at h
      · cases h
      · simp only at h
        split at h
        · cases h
        · omega
    · intro h
      rw [if_neg (by omega)]
      simp only
      rw [if_neg (by omega)]
      exact ⟨_, rfl⟩
  · intro c h
    unfold knotCount at h
    split at h
    · cases h
    · simp only at h
      split at h
      · cases h
      · simp only [Except.ok.injEq] at h
        omega
  · unfold knot
    by_cases h : 0 < d
    · simp [h]
    · have : d = 0 := by omega
      subst this
      simp
  · unfold knot
    rw [if_neg (by omega)]
    by_cases h : k + d < k + 1
    · rw [if_pos h]
      have : d = 0 := by omega
      subst this
      have : (k : ℝ) ≠ 0 := by exact_mod_cast (by omega : k ≠ 0)
      simp [this]
    · rw [if_neg h]
  · intro i h1 h2
    unfold knot
    rw [if_neg (by omega), if_pos (by omega), if_neg (by omega), if_pos (by omega), ← sub_div]
    congr 1
    rw [show i + 1 - d = (i - d) + 1 by omega]
    push_cast
    ring

/-- The rows of the basis matrix add up to one, also outside `[0, 1]`: constants are reproduced.
pymc_extras/utils/spline.py:25-31, 127-131 -/
theorem C135_constants (k d : ℕ) (hk : d < k) (x : ℝ) :
    ∑ i ∈ range k, basisEntry k d x i = 1 ∧ ∀ c : ℝ, interpolate k d (fun _ => c) x = c := by
  obtain ⟨h1, h2⟩ := interval_bounds k d hk x
  have h := bspline_sum (knot k d) x (interval k d x) k h2 d h1
  refine ⟨h, fun c => ?_⟩
  unfold interpolate
  rw [← Finset.sum_mul]
  change (∑ i ∈ range k, bspline (knot k d) x (interval k d x) d i) * c = c
  rw [h, one_mul]

/-- Inside `[0, 1]` the interpolated value stays between the smallest and the largest coefficient.
pymc_extras/utils/spline.py:25-31, 127-131 -/
theorem C135_stays_in_range (k d : ℕ) (hk : d < k) (coef : ℕ → ℝ) (lo hi : ℝ)
    (hlo : ∀ i, i < k → lo ≤ coef i) (hhi : ∀ i, i < k → coef i ≤ hi) (x : ℝ) (h0 : 0 ≤ x) (h1 : x ≤ 1) :
    lo ≤ interpolate k d coef x ∧ interpolate k d coef x ≤ hi := by
  obtain ⟨e1, e2⟩ := interval_contains k d hk x h0 h1
  have hnn := bspline_nonneg (knot k d) (knot_mono k d hk) x (interval k d x) e1 e2 d
  have hsum := (C135_constants k d hk x).1
  unfold interpolate
  constructor
  · calc lo = ∑ i ∈ range k, basisEntry k d x i * lo := by rw [← Finset.sum_mul, hsum, one_mul]
      _ ≤ _ := Finset.sum_le_sum fun i hi' => mul_le_mul_of_nonneg_left (hlo i (mem_range.1 hi')) (hnn i)
  · calc ∑ i ∈ range k, basisEntry k d x i * coef i ≤ ∑ i ∈ range k, basisEntry k d x i * hi :=
          Finset.sum_le_sum fun i hi' => mul_le_mul_of_nonneg_left (hhi i (mem_range.1 hi')) (hnn i)
      _ = hi := by rw [← Finset.sum_mul, hsum, one_mul]

/-- Only `degree + 1` neighbouring coefficients matter for a value. pymc_extras/utils/spline.py:25-31 -/
theorem C135_local (k d : ℕ) (hk : d < k) (x : ℝ) :
    ∃ a, a + d < k ∧ ∀ c₁ c₂ : ℕ → ℝ, (∀ i, a ≤ i → i ≤ a + d → c₁ i = c₂ i) →
      interpolate k d c₁ x = interpolate k d c₂ x := by
  obtain ⟨h1, h2⟩ := interval_bounds k d hk x
  refine ⟨interval k d x - d, by omega, fun c₁ c₂ h => ?_⟩
  unfold interpolate
  refine Finset.sum_congr rfl fun i _ => ?_
  by_cases hs : i + d < interval k d x ∨ interval k d x < i
  · unfold basisEntry
    rw [bspline_support _ _ _ _ _ hs]; ring
  · rw [h i (by omega) (by omega)]

/-- pymc_extras/utils/spline.py:29-30 -/
theorem left_end (k d : ℕ) (hk : d < k) : ∀ p, p ≤ d → ∀ i,
    bspline (knot k d) 0 d p i = if i = d - p then 1 else 0 := by
  have hzero : ∀ j, j ≤ d → knot k d j = 0 := by
    intro j hj
    unfold knot
    by_cases h : j < d
    · simp [h]
    · have : j = d := by omega
      subst this
      rw [if_neg h, if_pos (by omega)]
      simp
  intro p
  induction p with
  | zero => intro _ i; simp [bspline]
  | succ p ih =>
    intro hp i
    simp only [bspline]
    rw [ih (by omega) i, ih (by omega) (i + 1)]
    have hr : ∀ j, j ≤ d → ramp (knot k d) 0 (p + 1) j = 0 := by
      intro j hj; unfold ramp; rw [hzero j hj]; simp
    by_cases h1 : i = d - p
    · rw [if_pos h1, if_neg (show ¬ i + 1 = d - p by omega), if_neg (show ¬ i = d - (p + 1) by omega), hr i (by omega)]
      ring
    · rw [if_neg h1]
      by_cases h2 : i + 1 = d - p
      · rw [if_pos h2, if_pos (show i = d - (p + 1) by omega), hr (i + 1) (by omega)]
        ring
      · rw [if_neg h2, if_neg (show ¬ i = d - (p + 1) by omega)]
        ring

/-- pymc_extras/utils/spline.py:29-30 -/
theorem right_end (k d : ℕ) (hk : d < k) : ∀ p, p ≤ d → ∀ i,
    bspline (knot k d) 1 (k - 1) p i = if i = k - 1 then 1 else 0 := by
  have hg : (0 : ℝ) < ((k - d : ℕ) : ℝ) := by exact_mod_cast (by omega : 0 < k - d)
  have hone : ∀ j, k ≤ j → knot k d j = 1 := by
    intro j hj
    unfold knot
    rw [if_neg (by omega)]
    by_cases h : j < k + 1
    · have : j = k := by omega
      subst this
      rw [if_pos h, div_self hg.ne']
    · rw [if_neg h]
  have hlt : knot k d (k - 1) < 1 := by
    unfold knot
    rw [if_neg (by omega), if_pos (by omega), div_lt_one hg]
    exact_mod_cast (by omega : k - 1 - d < k - d)
  intro p
  induction p with
  | zero => intro _ i; simp [bspline]
  | succ p ih =>
    intro hp i
    simp only [bspline]
    rw [ih (by omega) i, ih (by omega) (i + 1)]
    have hr : ramp (knot k d) 1 (p + 1) (k - 1) = 1 := by
      unfold ramp
      rw [hone (k - 1 + (p + 1)) (by omega), div_self (by linarith)]
    by_cases h1 : i = k - 1
    · rw [if_pos h1, if_neg (show ¬ i + 1 = k - 1 by omega), h1, hr]
      ring
    · rw [if_neg h1]
      by_cases h2 : i + 1 = k - 1
      · rw [if_pos h2, h2, hr]
        ring
      · rw [if_neg h2]
        ring

/-- The curve starts at the first coefficient and ends at the last. pymc_extras/utils/spline.py:25-31 -/
theorem C135_endpoints (k d : ℕ) (hk : d < k) (coef : ℕ → ℝ) :
    interpolate k d coef 0 = coef 0 ∧ interpolate k d coef 1 = coef (k - 1) := by
  have i0 : interval k d 0 = d := by simp [interval]
  have i1 : interval k d 1 = k - 1 := by
    unfold interval
    rw [one_mul, Nat.floor_natCast, min_eq_right (by omega)]
    omega
  constructor
  · unfold interpolate basisEntry
    rw [i0]
    simp only [left_end k d hk d le_rfl, Nat.sub_self, ite_mul, one_mul, zero_mul]
    rw [Finset.sum_ite_eq' (range k) 0]
    simp [show 0 < k by omega]
  · unfold interpolate basisEntry
    rw [i1]
    simp only [right_end k d hk d le_rfl, ite_mul, one_mul, zero_mul]
    rw [Finset.sum_ite_eq' (range k) (k - 1)]
    simp [show k - 1 < k by omega]

/-- With degree one the curve passes through coefficient `j` at the regular grid point `j / (k - 1)`, as the documentation says of the
coefficients. pymc_extras/utils/spline.py:79-81 -/
theorem C136_degree_one_interpolates (k j : ℕ) (hk : 1 < k) (hj : j < k) (coef : ℕ → ℝ) :
    interpolate k 1 coef ((j : ℝ) / ((k - 1 : ℕ) : ℝ)) = coef j := by
  have hg : (0 : ℝ) < ((k - 1 : ℕ) : ℝ) := by exact_mod_cast (by omega : 0 < k - 1)
  rcases Nat.lt_or_ge j (k - 1) with h | h
  · have hi : interval k 1 ((j : ℝ) / ((k - 1 : ℕ) : ℝ)) = 1 + j := by
      unfold interval
      rw [div_mul_cancel₀ _ hg.ne', Nat.floor_natCast, min_eq_left (by omega)]
    unfold interpolate basisEntry
    rw [hi]
    have hkn : knot k 1 (1 + j) = (j : ℝ) / ((k - 1 : ℕ) : ℝ) := by
      unfold knot
      rw [if_neg (by omega), if_pos (by omega), Nat.add_sub_cancel_left]
    have hb : ∀ i, bspline (knot k 1) ((j : ℝ) / ((k - 1 : ℕ) : ℝ)) (1 + j) 1 i = if i = j then 1 else 0 := by
      intro i
      simp only [bspline, ramp]
      by_cases h1 : i = 1 + j
      · subst h1
        rw [hkn]
        simp
      · by_cases h2 : i = j
        · subst h2
          rw [if_neg h1, Nat.add_comm i 1, hkn]
          simp
        · rw [if_neg h1, if_neg (show ¬ i + 1 = 1 + j by omega), if_neg h2]
          ring
    simp only [hb, ite_mul, one_mul, zero_mul]
    rw [Finset.sum_ite_eq' (range k) j]
    simp [hj]
  · have hje : j = k - 1 := by omega
    subst hje
    rw [div_self hg.ne']
    exact (C135_endpoints k 1 hk coef).2

/-- With the default degree 3 it does not: four coefficients 0, 1, 0, 0 give 4/9 at the grid point 1/3 of the second.
pymc_extras/utils/spline.py:79-81, 87 -/
theorem C136_default_degree_does_not_interpolate :
    interpolate 4 3 (fun i => if i = 1 then 1 else 0) (1 / 3) = 4 / 9 := by
  have hi : interval 4 3 (1 / 3 : ℝ) = 3 := by simp [interval]
  unfold interpolate basisEntry
  rw [hi]
  simp only [mul_ite, mul_one, mul_zero]
  rw [Finset.sum_ite_eq' (range 4) 1]
  norm_num [bspline, ramp, knot]

/-- Points outside `[0, 1]` are not rescaled but extrapolated, and leave the range of the coefficients: degree 1, coefficients 0 and 1, at
the point 2 the value is 2. pymc_extras/utils/spline.py:84-85 -/
theorem C136_no_rescaling : interpolate 2 1 (fun i => (i : ℝ)) 2 = 2 := by
  have hi : interval 2 1 (2 : ℝ) = 1 := by simp [interval]
  unfold interpolate basisEntry
  rw [hi]
  simp only [Finset.sum_range_succ, Finset.sum_range_zero]
  norm_num [bspline, ramp, knot]

/-- The call succeeds exactly when one of `n` and `eval_points` is given and there are more coefficients than the degree; the result is the
curve at the points given, or at `n` equidistant points from 0 to 1. pymc_extras/utils/spline.py:120-131 -/
theorem C136_call (k d : ℕ) (coef : ℕ → ℝ) (n : Option ℕ) (points : Option (List ℝ)) (out : List ℝ) :
    bsplineInterpolation k d coef n points = .ok out ↔
      d < k ∧ ((∃ m, n = some m ∧ points = none ∧
          out = (List.range m).map fun i : ℕ => interpolate k d coef ((i : ℝ) / ((m - 1 : ℕ) : ℝ))) ∨
        (n = none ∧ ∃ p, points = some p ∧ out = p.map fun x => interpolate k d coef x)) := by
  have hkc := (C135_knots k d).1
  unfold bsplineInterpolation evalPoints
  cases n with
  | none =>
    cases points with
    | none => simp [bind, Except.bind]
    | some p =>
      cases hc : knotCount k d with
      | error e =>
        rw [hc] at hkc
        have : ¬ d < k := fun h => by obtain ⟨c, hc'⟩ := hkc.2 h; cases hc'
        simp [bind, Except.bind, this]
      | ok c =>
        have : d < k := hkc.1 ⟨c, hc⟩
        simp [bind, Except.bind, this, eq_comm]
  | some m =>
    cases points with
    | some p => simp [bind, Except.bind]
    | none =>
      cases hc : knotCount k d with
      | error e =>
        rw [hc] at hkc
        have : ¬ d < k := fun h => by obtain ⟨c, hc'⟩ := hkc.2 h; cases hc'
        simp [bind, Except.bind, this]
      | ok c =>
        have : d < k := hkc.1 ⟨c, hc⟩
        simp [bind, Except.bind, this, linspace, List.map_map, Function.comp_def, eq_comm]

/-- pymc_extras/utils/spline.py:74 -/
example : (3 : ℕ) < 12 ∧ knotCount 12 3 = .ok 16 ∧ knotCount 3 3 = .error .valueError := by decide

end Verif.Spline
