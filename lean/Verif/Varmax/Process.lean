import Verif.Varmax.Likelihood
import Verif.Stationary.TwoSidedProps

/-!
# C195: the VARMA likelihood is the density of the stationary solution of the vector ARMA equation

Specification: the difference equation with normal shocks, on a probability space.  Nothing in it mentions state spaces.
-/

set_option autoImplicit false

open Finset Matrix MeasureTheory ProbabilityTheory Filter Topology

namespace Verif.Varmax

open Verif.Stationary

/-! ### Specification -/

/-- A two-sided vector series `y` with bounded second moments that satisfies
`y_t = Σ A_l y_{t-l} + e_t + Σ M_l e_{t-l}` at all dates, for normal shocks `e` of mean zero and covariance `Q`, uncorrelated over time;
and measurement errors `u` with variances `sigma_obs`, uncorrelated with the shocks and with one another (zero without measurement
error). -/
structure Spec.VarmaProcess {Ω : Type*} [MeasurableSpace Ω] (μ : Measure Ω) (o : Order) (θ : Params) (Q : Matrix (Fin o.k) (Fin o.k) ℝ)
    (sigmaObs : Option (ℕ → ℝ)) (y e : ℤ → Fin o.k → Ω → ℝ) (u : ℕ → Fin o.k → Ω → ℝ) : Prop where
  equation : ∀ t i, ∀ᵐ ω ∂μ, y t i ω = ∑ l ∈ range o.p, ∑ j : Fin o.k, θ.ar i l j * y (t - (l + 1)) j ω + e t i ω +
    ∑ l ∈ range o.q, ∑ j : Fin o.k, θ.ma i l j * e (t - (l + 1)) j ω
  square : ∀ t i, MemLp (y t i) 2 μ
  bounded : ∃ C, ∀ t i, ∫ ω, y t i ω ^ 2 ∂μ ≤ C
  normal : IsGaussianProcess (fun q : (ℤ × Fin o.k) ⊕ (ℕ × Fin o.k) => q.elim (fun q => e q.1 q.2) fun q => u q.1 q.2) μ
  mean_shock : ∀ t j, ∫ ω, e t j ω ∂μ = 0
  mean_error : ∀ t j, ∫ ω, u t j ω ∂μ = 0
  cov_shock : ∀ s t i j, cov[e s i, e t j; μ] = if s = t then Q i j else 0
  cov_error : ∀ s t i j, cov[u s i, u t j; μ] = if s = t ∧ i = j then (sigmaObs.map fun σ => σ i).getD 0 else 0
  cov_cross : ∀ s t i j, cov[e s i, u t j; μ] = 0

/-! ### Lemmas -/

/-- The state of the package's form: current and lagged values of the series, then current and lagged shocks.
Proof notion: the state of VARMAX.py:299-376. -/
def stacked (o : Order) (y e : ℤ → ℕ → ℝ) (t : ℤ) (a : ℕ) : ℝ :=
  if a < off o then y (t - (a / o.k : ℕ)) (a % o.k) else e (t - ((a - off o) / o.k : ℕ)) ((a - off o) % o.k)

theorem top_rows (o : Order) (θ : Params) (y e : ℤ → ℕ → ℝ) (t : ℤ) (w : ℕ → ℝ) (a : ℕ) (hak : a < o.k) :
    ∑ c ∈ range o.kStates, transition o θ a c * stacked o y e t c + ∑ j ∈ range o.k, selection o a j * w j =
      ∑ l ∈ range o.p, ∑ j ∈ range o.k, θ.ar a l j * y (t - l) j + w a + ∑ l ∈ range o.q, ∑ j ∈ range o.k, θ.ma a l j * e (t - l) j := by
  have h1 := kStates_eq o
  obtain ⟨h2, h3, h4, h5⟩ := off_facts o
  have ha : a < o.kStates := by omega
  have e1 : ∑ j ∈ range o.k, selection o a j * w j = w a := by
    rw [sum_eq_single a, selection_eq o _ _ ha hak, if_pos (Or.inl rfl), one_mul]
    · intro b hb hne
      rw [selection_eq o _ _ ha (mem_range.1 hb), if_neg (by omega), zero_mul]
    · intro hc; exact absurd (mem_range.2 hak) hc
  have e2 : ∑ c ∈ range o.kStates, transition o θ a c * stacked o y e t c =
      ∑ l ∈ range o.p, ∑ j ∈ range o.k, θ.ar a l j * y (t - l) j + ∑ l ∈ range o.q, ∑ j ∈ range o.k, θ.ma a l j * e (t - l) j := by
    rw [h1, sum_range_add]
    congr 1
    · rw [← sum_divmod o.p o.k (fun l j => θ.ar a l j * y (t - l) j)]
      symm
      rw [← Finset.sum_subset (range_subset_range.2 h2)]
      · refine sum_congr rfl fun c hc => ?_
        have hc' := mem_range.1 hc
        rw [row_top o θ a c hak (by omega), if_neg (by omega), if_pos hc']
        simp only [stacked]
        rw [if_pos (by omega)]
      · intro c hc hc'
        have hc1 := mem_range.1 hc
        have hc2 := fun hh => hc' (mem_range.2 hh)
        rw [row_top o θ a c hak (by omega), if_neg (by omega), if_neg hc2, zero_mul]
    · rw [← sum_divmod o.q o.k (fun l j => θ.ma a l j * e (t - l) j)]
      refine sum_congr rfl fun c hc => ?_
      have hc' := mem_range.1 hc
      rw [row_top o θ a _ hak (by omega), if_pos (by omega)]
      simp only [stacked]
      rw [if_neg (by omega), Nat.add_sub_cancel_left]
  rw [e1, e2]; ring

theorem low_rows (o : Order) (θ : Params) (v w : ℕ → ℝ) (a : ℕ) (hka : o.k ≤ a) (ha : a < o.kStates) :
    ∑ c ∈ range o.kStates, transition o θ a c * v c + ∑ j ∈ range o.k, selection o a j * w j =
      if off o ≤ a ∧ a < off o + o.k then w (a - off o) else v (a - o.k) := by
  have h1 := kStates_eq o
  obtain ⟨h2, h3, h4, h5⟩ := off_facts o
  have hk : 0 < o.k := by
    rcases Nat.eq_zero_or_pos o.k with h0 | h0
    · simp [Order.kStates, h0] at ha
    · exact h0
  have hrow : ∑ c ∈ range o.kStates, transition o θ a c * v c = if a < off o ∨ off o + o.k ≤ a then v (a - o.k) else 0 := by
    rw [sum_eq_single (a - o.k)]
    · rw [row_below o θ a _ hka ha (by omega)]
      by_cases hh : a < off o ∨ off o + o.k ≤ a
      · rw [if_pos ⟨by omega, hh⟩, if_pos hh, one_mul]
      · rw [if_neg (fun h' => hh h'.2), if_neg hh, zero_mul]
    · intro b hb hne
      rw [row_below o θ a b hka ha (mem_range.1 hb), if_neg (by omega), zero_mul]
    · intro hc; exact absurd (mem_range.2 (by omega)) hc
  have hsel : ∑ j ∈ range o.k, selection o a j * w j = if off o ≤ a ∧ a < off o + o.k then w (a - off o) else 0 := by
    split
    · rename_i hh
      have hq : 0 < o.q := by
        rcases Nat.eq_zero_or_pos o.q with h0 | h0
        · rw [h0, Nat.mul_zero] at h1; omega
        · exact h0
      rw [sum_eq_single (a - off o)]
      · rw [selection_eq o _ _ ha (by omega), if_pos (Or.inr ⟨hq, by omega⟩), one_mul]
      · intro b hb hne
        have hb' := mem_range.1 hb
        rw [selection_eq o _ _ ha hb', if_neg (by omega), zero_mul]
      · intro hc; exact absurd (mem_range.2 (by omega)) hc
    · rename_i hh
      refine sum_eq_zero fun b hb => ?_
      have := mem_range.1 hb
      rw [selection_eq o _ _ ha this, if_neg (by omega), zero_mul]
  rw [hrow, hsel]
  by_cases hh : off o ≤ a ∧ a < off o + o.k
  · rw [if_pos hh, if_neg (by omega), if_pos hh, zero_add]
  · rw [if_neg hh, if_pos (by omega), if_neg hh, add_zero]

theorem stacked_low (o : Order) (y e : ℤ → ℕ → ℝ) (t : ℤ) (a : ℕ) (hka : o.k ≤ a) (ha : a < o.kStates) :
    stacked o y e (t + 1) a = if off o ≤ a ∧ a < off o + o.k then e (t + 1) (a - off o) else stacked o y e t (a - o.k) := by
  have h1 := kStates_eq o
  obtain ⟨h2, h3, h4, h5⟩ := off_facts o
  have hk : 0 < o.k := by
    rcases Nat.eq_zero_or_pos o.k with h0 | h0
    · simp [Order.kStates, h0] at ha
    · exact h0
  have hdiv : ∀ b, o.k ≤ b → (b - o.k) / o.k + 1 = b / o.k ∧ (b - o.k) % o.k = b % o.k := by
    intro b hb
    obtain ⟨c, rfl⟩ := Nat.exists_eq_add_of_le' hb
    rw [Nat.add_sub_cancel]
    exact ⟨(Nat.add_div_right c hk).symm, (Nat.add_mod_right c o.k).symm⟩
  by_cases c1 : a < off o
  · rw [if_neg (by omega)]
    simp only [stacked]
    rw [if_pos c1, if_pos (by omega)]
    obtain ⟨d1, d2⟩ := hdiv a hka
    rw [d2, ← d1]
    congr 1
    push_cast; ring
  · by_cases c2 : a < off o + o.k
    · rw [if_pos ⟨by omega, c2⟩]
      simp only [stacked]
      rw [if_neg c1, Nat.div_eq_of_lt (by omega), Nat.mod_eq_of_lt (by omega)]; simp
    · rw [if_neg (by omega)]
      simp only [stacked]
      rw [if_neg c1, if_neg (by omega)]
      obtain ⟨d1, d2⟩ := hdiv (a - off o) (by omega)
      rw [show a - o.k - off o = a - off o - o.k by omega, d2, ← d1]
      congr 1
      push_cast; ring

theorem stacked_top (o : Order) (y e : ℤ → ℕ → ℝ) (t : ℤ) (a : ℕ) (hak : a < o.k) : stacked o y e t a = y t a := by
  obtain ⟨h2, h3, h4, h5⟩ := off_facts o
  simp only [stacked]
  rw [if_pos (by omega), Nat.div_eq_of_lt hak, Nat.mod_eq_of_lt hak]; simp

theorem stacked_step (o : Order) (θ : Params) (y e : ℤ → ℕ → ℝ) (t : ℤ)
    (h : ∀ i < o.k, y (t + 1) i = ∑ l ∈ range o.p, ∑ j ∈ range o.k, θ.ar i l j * y (t - l) j + e (t + 1) i +
      ∑ l ∈ range o.q, ∑ j ∈ range o.k, θ.ma i l j * e (t - l) j) (a : ℕ) (ha : a < o.kStates) :
    stacked o y e (t + 1) a = ∑ c ∈ range o.kStates, transition o θ a c * stacked o y e t c +
      ∑ j ∈ range o.k, selection o a j * e (t + 1) j := by
  by_cases hak : a < o.k
  · rw [stacked_top _ _ _ _ _ hak, top_rows _ _ _ _ _ _ _ hak, h a hak]
  · rw [stacked_low _ _ _ _ _ (by omega) ha, low_rows _ _ _ _ _ (by omega) ha]

/-- Conversely every two-sided solution of the state equation is made of lags of its first entries and of the shocks. -/
theorem unstack (o : Order) (θ : Params) (x e : ℤ → ℕ → ℝ)
    (h : ∀ t, ∀ a < o.kStates, x (t + 1) a = ∑ c ∈ range o.kStates, transition o θ a c * x t c +
      ∑ j ∈ range o.k, selection o a j * e (t + 1) j) (a : ℕ) (ha : a < o.kStates) (t : ℤ) : x t a = stacked o x e t a := by
  induction a using Nat.strong_induction_on generalizing t with
  | _ a ih =>
    by_cases hak : a < o.k
    · rw [stacked_top _ _ _ _ _ hak]
    · have hk : 0 < o.k := by
        rcases Nat.eq_zero_or_pos o.k with h0 | h0
        · simp [Order.kStates, h0] at ha
        · exact h0
      have h1 := h (t - 1) a ha
      have h2 := stacked_low o x e (t - 1) a (by omega) ha
      rw [sub_add_cancel] at h1 h2
      rw [h1, low_rows _ _ _ _ _ (by omega) ha, h2]
      split
      · rfl
      · exact ih _ (by omega) (by omega) _

theorem unstack_equation (o : Order) (θ : Params) (x e : ℤ → ℕ → ℝ)
    (h : ∀ t, ∀ a < o.kStates, x (t + 1) a = ∑ c ∈ range o.kStates, transition o θ a c * x t c +
      ∑ j ∈ range o.k, selection o a j * e (t + 1) j) (t : ℤ) (i : ℕ) (hi : i < o.k) :
    x (t + 1) i = ∑ l ∈ range o.p, ∑ j ∈ range o.k, θ.ar i l j * x (t - l) j + e (t + 1) i +
      ∑ l ∈ range o.q, ∑ j ∈ range o.k, θ.ma i l j * e (t - l) j := by
  rw [← top_rows o θ x e t (e (t + 1)) i hi, h t i (by have := k_le o; omega)]
  congr 1
  refine sum_congr rfl fun c hc => ?_
  rw [unstack o θ x e h c (mem_range.1 hc) t]

section

variable {Ω : Type*} [MeasurableSpace Ω] {μ : Measure Ω} [IsProbabilityMeasure μ] {o : Order} {θ : Params}
  {Q : Matrix (Fin o.k) (Fin o.k) ℝ} {τ : Option (ℕ → ℝ)} {y e : ℤ → Fin o.k → Ω → ℝ} {u : ℕ → Fin o.k → Ω → ℝ}

/-- A vector series indexed by natural numbers. Proof notion, no code behind it. -/
def ext (f : ℤ → Fin o.k → Ω → ℝ) (ω : Ω) (t : ℤ) (j : ℕ) : ℝ := if h : j < o.k then f t ⟨j, h⟩ ω else 0

/-- The states made of lags of the series and the shocks. Proof notion: the state of VARMAX.py:299-376. -/
def states (o : Order) (y e : ℤ → Fin o.k → Ω → ℝ) (t : ℤ) (a : Fin o.kStates) (ω : Ω) : ℝ := stacked o (ext y ω) (ext e ω) t a

theorem ext_cases (f : ℤ → Fin o.k → Ω → ℝ) (t : ℤ) (j : ℕ) (hj : j < o.k) : (fun ω => ext f ω t j) = f t ⟨j, hj⟩ := by
  funext ω; simp [ext, hj]

theorem states_cases (hk : 0 < o.k) (t : ℤ) (a : Fin o.kStates) :
    (∃ s j, states o y e t a = y s j) ∨ ∃ s j, states o y e t a = e s j := by
  by_cases h : (a : ℕ) < off o
  · refine Or.inl ⟨t - ((a : ℕ) / o.k : ℕ), ⟨(a : ℕ) % o.k, Nat.mod_lt _ hk⟩, ?_⟩
    funext ω
    simp [states, stacked, h, ext, Nat.mod_lt _ hk]
  · refine Or.inr ⟨t - (((a : ℕ) - off o) / o.k : ℕ), ⟨((a : ℕ) - off o) % o.k, Nat.mod_lt _ hk⟩, ?_⟩
    funext ω
    simp [states, stacked, h, ext, Nat.mod_lt _ hk]

omit [IsProbabilityMeasure μ] in
theorem memShock (h : Spec.VarmaProcess μ o θ Q τ y e u) (t : ℤ) (j : Fin o.k) : MemLp (e t j) 2 μ :=
  (h.normal.hasGaussianLaw_eval (.inl (t, j))).memLp_two

theorem shock_sq (h : Spec.VarmaProcess μ o θ Q τ y e u) (s : ℤ) (j : Fin o.k) : ∫ ω, e s j ω ^ 2 ∂μ = Q j j := by
  have hc := covariance_eq_sub (memShock h s j) (memShock h s j)
  rw [h.mean_shock, zero_mul, sub_zero, h.cov_shock, if_pos rfl] at hc
  rw [hc]
  refine integral_congr_ae (Eventually.of_forall fun ω => ?_)
  exact sq (e s j ω)

theorem states_bounded (h : Spec.VarmaProcess μ o θ Q τ y e u) (hk : 0 < o.k) : ∃ C, ∀ t a, ∫ ω, states o y e t a ω ^ 2 ∂μ ≤ C := by
  obtain ⟨C, hC⟩ := h.bounded
  refine ⟨max C (∑ j, |Q j j|), fun t a => ?_⟩
  rcases states_cases (y := y) (e := e) hk t a with ⟨s, j, hh⟩ | ⟨s, j, hh⟩
  · rw [hh]; exact le_max_of_le_left (hC s j)
  · rw [hh, shock_sq h]
    refine le_max_of_le_right ((le_abs_self _).trans ?_)
    exact Finset.single_le_sum (f := fun j => |Q j j|) (fun _ _ => abs_nonneg _) (mem_univ j)

omit [IsProbabilityMeasure μ] in
theorem shifted_normal (h : Spec.VarmaProcess μ o θ Q τ y e u) : IsGaussianProcess
    (fun q : (ℤ × Fin o.k) ⊕ (ℕ × Fin o.k) => q.elim (fun q => e (q.1 + 1) q.2) fun q => u q.1 q.2) μ := by
  have e1 : (fun q : (ℤ × Fin o.k) ⊕ (ℕ × Fin o.k) => q.elim (fun q => e (q.1 + 1) q.2) fun q => u q.1 q.2) =
      (fun q : (ℤ × Fin o.k) ⊕ (ℕ × Fin o.k) => q.elim (fun q => e q.1 q.2) fun q => u q.1 q.2) ∘
        fun q => q.map (fun q => (q.1 + 1, q.2)) id := by
    funext q
    rcases q with q | q <;> rfl
  rw [e1]
  exact h.normal.comp_right _

/-- The stacked states follow the package's state-space form. -/
theorem twoSided (h : Spec.VarmaProcess μ o θ Q τ y e u) (hk : 0 < o.k) :
    Stationary.Spec.TwoSided μ (kparams o θ Q τ) (states o y e) (fun t i ω => y t i ω + u t i ω) (fun t => e (t + 1)) u where
  transition t a := by
    filter_upwards [eventually_countable_forall.2 fun i : Fin o.k => h.equation (t + 1) i] with ω hω
    have hs := stacked_step o θ (ext y ω) (ext e ω) t (fun i hi => by
      have := hω ⟨i, hi⟩
      simp only [ext, hi, dif_pos]
      rw [this]
      congr 1
      · congr 1
        refine sum_congr rfl fun l _ => ?_
        rw [← Fin.sum_univ_eq_sum_range (fun j => θ.ar i l j * if hj : j < o.k then y (t - l) ⟨j, hj⟩ ω else 0)]
        refine sum_congr rfl fun j _ => ?_
        simp only [Fin.is_lt, dif_pos]
        rw [show t + 1 - ((l : ℤ) + 1) = t - l by ring]
      · refine sum_congr rfl fun l _ => ?_
        rw [← Fin.sum_univ_eq_sum_range (fun j => θ.ma i l j * if hj : j < o.k then e (t - l) ⟨j, hj⟩ ω else 0)]
        refine sum_congr rfl fun j _ => ?_
        simp only [Fin.is_lt, dif_pos]
        rw [show t + 1 - ((l : ℤ) + 1) = t - l by ring]) a a.2
    show stacked o (ext y ω) (ext e ω) (t + 1) a = _
    rw [hs, ← Fin.sum_univ_eq_sum_range (fun c => transition o θ a c * stacked o (ext y ω) (ext e ω) t c),
      ← Fin.sum_univ_eq_sum_range (fun j => selection o a j * ext e ω (t + 1) j)]
    simp only [kparams, Pi.zero_apply, add_zero]
    congr 1
    refine sum_congr rfl fun j _ => ?_
    simp [ext]
  observation t i := by
    refine Eventually.of_forall fun ω => ?_
    have hK := k_le o
    show y t i ω + u t i ω = ∑ a : Fin o.kStates, design o i a * stacked o (ext y ω) (ext e ω) t a + 0 + u t i ω
    rw [add_zero, Finset.sum_eq_single (⟨i, by omega⟩ : Fin o.kStates)]
    · have h3 := (off_facts o).2.1
      have hi := i.2
      simp only [design, stacked]
      rw [if_pos ⟨trivial, hi⟩, if_pos (by omega), Nat.div_eq_of_lt hi, Nat.mod_eq_of_lt hi]
      simp [ext]
    · intro a _ ha
      have : ¬ ((i : ℕ) = a ∧ (i : ℕ) < o.k) := fun hh => ha (Fin.ext hh.1.symm)
      simp only [design]
      rw [if_neg this, zero_mul]
    · intro hc; exact absurd (mem_univ _) hc
  square t a := by
    rcases states_cases (y := y) (e := e) hk t a with ⟨s, j, hh⟩ | ⟨s, j, hh⟩
    · rw [hh]; exact h.square s j
    · rw [hh]; exact memShock h s j
  bounded := states_bounded h hk
  normal := shifted_normal h
  mean_shock t j := h.mean_shock _ j
  mean_error t j := h.mean_error t j
  cov_shock s t i j := by
    rw [h.cov_shock]
    by_cases hst : s = t
    · subst hst; simp [kparams]
    · rw [if_neg hst, if_neg (by omega)]
  cov_error s t i j := by
    rw [h.cov_error]
    by_cases hst : s = t
    · subst hst
      cases τ with
      | none => simp [kparams]
      | some σ => simp [kparams, obsCov, Fin.ext_iff]
    · simp [hst]
  cov_cross s t i j := h.cov_cross _ t i j

end

/-! ### Theorems -/

/-- The shocks of each date reach each series, so that no observation is determined by the past. -/
theorem undetermined {Ω : Type*} [MeasurableSpace Ω] {μ : Measure Ω} [IsProbabilityMeasure μ] (o : Order) (θ : Params)
    {Q : Matrix (Fin o.k) (Fin o.k) ℝ} (hQ : Q.PosDef) {τ : Option (ℕ → ℝ)} (hτ : ∀ σ, τ = some σ → ∀ i, 0 ≤ σ i)
    (hr : Spec.RootsOutside o θ) {X : ℕ → Fin o.kStates → Ω → ℝ} {Y : ℕ → Fin o.k → Ω → ℝ} {η : ℕ → Fin o.k → Ω → ℝ} {ε : ℕ → Fin o.k → Ω → ℝ}
    (h : Kalman.Spec.Process μ (fun _ => kparams o θ Q τ)
      (stationaryInit (kparams o θ Q τ).c (kparams o θ Q τ).T (kparams o θ Q τ).R (kparams o θ Q τ).Q).1
      (stationaryInit (kparams o θ Q τ).c (kparams o θ Q τ).T (kparams o θ Q τ).R (kparams o θ Q τ).Q).2 X Y η ε) :
    Kalman.Spec.Undetermined μ Y := by
  set M := kparams o θ Q τ with hM
  have hT : Stationary.Spec.Stable M.T := (C173_stable_iff o θ).2 hr
  have hH : M.H.PosSemidef := by
    have e : M.H = Matrix.diagonal fun i : Fin o.k => (τ.map fun σ => σ i).getD 0 := by
      ext i j
      rw [hM, Matrix.diagonal_apply]
      cases τ with
      | none => simp [kparams]
      | some σ => simp [kparams, obsCov, Fin.ext_iff]
    rw [e]
    refine Matrix.PosSemidef.diagonal fun i => ?_
    cases τ with
    | none => simp
    | some σ => exact hτ σ rfl i
  obtain ⟨-, -, h3, h4, hP⟩ := C170_fixed_point M.c hT M.R (Q := M.Q) hQ.posSemidef
  set init := stationaryInit M.c M.T M.R M.Q with hinit
  have hZR : M.Z * (M.R * M.Q * M.Rᵀ) * M.Zᵀ = Q := by
    have e1 : M.Z * (M.R * M.Q * M.Rᵀ) * M.Zᵀ = Stationary.Spec.impulse M 0 * M.Q * (Stationary.Spec.impulse M 0)ᵀ := by
      simp only [Stationary.Spec.impulse, pow_zero, Matrix.mul_one, Matrix.transpose_mul, Matrix.mul_assoc]
    rw [e1, (C187_impulse o θ Q τ).1, Matrix.one_mul, Matrix.transpose_one, Matrix.mul_one]; rfl
  have hs : (Kalman.Spec.obsCov (M.R * M.Q * M.Rᵀ) M.Z M.H).PosDef := by
    show (M.Z * (M.R * M.Q * M.Rᵀ) * M.Zᵀ + M.H).PosDef
    rw [hZR]
    exact hQ.add_posSemidef hH
  refine Kalman.undetermined_of_shocks h ?_ fun t => hs
  have e3 := (h4 init.2).2 rfl
  show (M.Z * init.2 * M.Zᵀ + M.H).PosDef
  rw [← e3, Matrix.mul_add, Matrix.add_mul, add_assoc]
  have := (hP.mul_mul_conjTranspose_same M.T).mul_mul_conjTranspose_same M.Z
  simp only [Matrix.conjTranspose_eq_transpose_of_trivial] at this
  exact Matrix.PosDef.posSemidef_add this hs

/-- **C195.** Let the data be the stationary solution of a vector ARMA equation with autoregressive roots outside the unit circle and
normal shocks with a positive definite covariance, observed exactly or with normal errors whose variances are the values of
`sigma_obs`.  Then for every sample length and fill value the data have a Lebesgue density: the exponential of the log-likelihood
reported under the stationary initialisation, divided by `(2π)^(N (k - 1) / 2)`. -/
theorem C195_varma_density {Ω : Type*} [MeasurableSpace Ω] {μ : Measure Ω} [IsProbabilityMeasure μ] (o : Order) (θ : Params) (hk : 0 < o.k)
    (hr : Spec.RootsOutside o θ) {Q : Matrix (Fin o.k) (Fin o.k) ℝ} (hQ : Q.PosDef) {τ : Option (ℕ → ℝ)}
    (hτ : ∀ σ, τ = some σ → ∀ i, 0 ≤ σ i) {y e : ℤ → Fin o.k → Ω → ℝ} {u : ℕ → Fin o.k → Ω → ℝ}
    (h : Spec.VarmaProcess μ o θ Q τ y e u) (fill : ℝ) (N : ℕ) :
    let M := kparams o θ Q τ
    let init := stationaryInit M.c M.T M.R M.Q
    μ.map (fun ω (q : Fin o.k × Fin N) => y q.2 q.1 ω + u q.2 q.1 ω) = (volume : Measure (Fin o.k × Fin N → ℝ)).withDensity fun x =>
      ENNReal.ofReal (Real.exp (Kalman.Spec.loglik (fun _ => M) fill init.1 init.2 x) / (2 * Real.pi) ^ ((N : ℝ) * ((o.k : ℝ) - 1) / 2)) := by
  intro M init
  have : Nonempty (Fin o.k) := ⟨⟨0, hk⟩⟩
  have hT : Stationary.Spec.Stable M.T := (C173_stable_iff o θ).2 hr
  have h2 := twoSided h hk
  obtain ⟨X', Y', -, hY', hN⟩ := C194_stationary_start h2 hT
  have hY := undetermined_congr (fun t i => (hY' t i).symm) (undetermined o θ hQ hτ hr hN.toProcess)
  rw [show (fun ω (q : Fin o.k × Fin N) => y q.2 q.1 ω + u q.2 q.1 ω) =
    fun ω (q : Fin o.k × Fin N) => (fun (t : ℕ) i ω => y t i ω + u t i ω) q.2 q.1 ω from rfl, C194_density h2 hT hY fill N]
  congr 1
  funext x
  congr 1
  rw [Real.exp_sub, Fintype.card_fin]
  congr 1
  rw [Real.rpow_def_of_pos (by positivity)]
  congr 1; ring

/-- **C195 (such processes exist).** For all orders, all coefficients with autoregressive roots outside the unit circle, every positive
semidefinite shock covariance and all nonnegative `sigma_obs`. -/
theorem C195_exists (o : Order) (θ : Params) (hr : Spec.RootsOutside o θ) {Q : Matrix (Fin o.k) (Fin o.k) ℝ} (hQ : Q.PosSemidef)
    {τ : Option (ℕ → ℝ)} (hτ : ∀ σ, τ = some σ → ∀ i, 0 ≤ σ i) :
    ∃ (Ω : Type) (_ : MeasurableSpace Ω) (μ : Measure Ω) (_ : IsProbabilityMeasure μ) (y e : ℤ → Fin o.k → Ω → ℝ)
      (u : ℕ → Fin o.k → Ω → ℝ), Spec.VarmaProcess μ o θ Q τ y e u := by
  have hT : Stationary.Spec.Stable (kparams o θ Q τ).T := (C173_stable_iff o θ).2 hr
  have hHe : (kparams o θ Q τ).H = Matrix.diagonal fun i : Fin o.k => (τ.map fun σ => σ i).getD 0 := by
    ext i j
    rw [Matrix.diagonal_apply]
    cases τ with
    | none => simp [kparams]
    | some σ => simp [kparams, obsCov, Fin.ext_iff]
  have hH : (kparams o θ Q τ).H.PosSemidef := by
    rw [hHe]
    refine Matrix.PosSemidef.diagonal fun i => ?_
    cases τ with
    | none => simp
    | some σ => exact hτ σ rfl i
  obtain ⟨Ω, mΩ, μ, hμ, X, Y, η, ε, h⟩ := C194_exists (kparams o θ Q τ) hT hQ hH
  have hK := k_le o
  let emb : Fin o.k → Fin o.kStates := fun i => ⟨i, by omega⟩
  refine ⟨Ω, mΩ, μ, hμ, fun t i => X t (emb i), fun t => η (t - 1), ε, ?_⟩
  have hshift : IsGaussianProcess
      (fun q : (ℤ × Fin o.k) ⊕ (ℕ × Fin o.k) => q.elim (fun q => η (q.1 - 1) q.2) fun q => ε q.1 q.2) μ := by
    have e1 : (fun q : (ℤ × Fin o.k) ⊕ (ℕ × Fin o.k) => q.elim (fun q => η (q.1 - 1) q.2) fun q => ε q.1 q.2) =
        (fun q : (ℤ × Fin o.k) ⊕ (ℕ × Fin o.k) => q.elim (fun q => η q.1 q.2) fun q => ε q.1 q.2) ∘
          fun q => q.map (fun q => (q.1 - 1, q.2)) id := by
      funext q
      rcases q with q | q <;> rfl
    rw [e1]
    exact h.normal.comp_right _
  refine
    { equation := fun t i => ?_
      square := fun t i => h.square t _
      bounded := ?_
      normal := hshift
      mean_shock := fun t j => h.mean_shock _ j
      mean_error := h.mean_error
      cov_shock := fun s t i j => ?_
      cov_error := fun s t i j => ?_
      cov_cross := fun s t i j => h.cov_cross _ t i j }
  · have hall : ∀ᵐ ω ∂μ, ∀ (t : ℤ) (a : Fin o.kStates), X (t + 1) a ω = ∑ j, (kparams o θ Q τ).T a j * X t j ω + (kparams o θ Q τ).c a +
        ∑ j, (kparams o θ Q τ).R a j * η t j ω := by
      rw [ae_all_iff]; intro t
      exact eventually_countable_forall.2 (h.transition t)
    filter_upwards [hall] with ω hω
    let x : ℤ → ℕ → ℝ := fun t a => if ha : a < o.kStates then X t ⟨a, ha⟩ ω else 0
    have heq := unstack_equation o θ x (ext (fun t => η (t - 1)) ω) (fun t a ha => by
      have := hω t ⟨a, ha⟩
      simp only [x, ha, dif_pos]
      rw [this, ← Fin.sum_univ_eq_sum_range (fun c => transition o θ a c * if hc : c < o.kStates then X t ⟨c, hc⟩ ω else 0),
        ← Fin.sum_univ_eq_sum_range (fun j => selection o a j * ext (fun t => η (t - 1)) ω (t + 1) j)]
      simp [kparams, ext, toMat]) (t - 1) i i.2
    rw [sub_add_cancel] at heq
    have hx : ∀ s (j : Fin o.k), x s j = X s (emb j) ω := fun s j => by
      have : (j : ℕ) < o.kStates := by omega
      simp [x, this, emb]
    have he : ∀ s (j : Fin o.k), ext (fun t => η (t - 1)) ω s j = η (s - 1) j ω := fun s j => by simp [ext]
    rw [hx, he] at heq
    rw [heq]
    congr 1
    · congr 1
      refine sum_congr rfl fun l _ => ?_
      rw [← Fin.sum_univ_eq_sum_range (fun j => θ.ar i l j * x (t - 1 - l) j)]
      refine sum_congr rfl fun j _ => ?_
      rw [hx, show t - 1 - (l : ℤ) = t - (l + 1) by ring]
    · refine sum_congr rfl fun l _ => ?_
      rw [← Fin.sum_univ_eq_sum_range (fun j => θ.ma i l j * ext (fun t => η (t - 1)) ω (t - 1 - l) j)]
      refine sum_congr rfl fun j _ => ?_
      rw [he, show t - 1 - (l : ℤ) = t - (l + 1) by ring]
  · obtain ⟨C, hC⟩ := h.bounded
    exact ⟨C, fun t i => hC t _⟩
  · rw [h.cov_shock]
    by_cases hst : s = t
    · subst hst; simp [kparams]
    · rw [if_neg hst, if_neg (by omega)]
  · rw [h.cov_error, hHe, Matrix.diagonal_apply]
    by_cases hst : s = t <;> simp [hst]

/-- Two series, one lag of both kinds, unit shock covariance, with measurement error: the hypotheses can be met. -/
example : ∃ (Ω : Type) (_ : MeasurableSpace Ω) (μ : Measure Ω) (_ : IsProbabilityMeasure μ) (y e : ℤ → Fin 2 → Ω → ℝ) (u : ℕ → Fin 2 → Ω → ℝ),
    Spec.RootsOutside ⟨2, 1, 1⟩ ⟨fun i _ j => if i = j then 1 / 2 else 0, fun _ _ _ => 1⟩ ∧
    Spec.VarmaProcess μ ⟨2, 1, 1⟩ ⟨fun i _ j => if i = j then 1 / 2 else 0, fun _ _ _ => 1⟩ 1 (some fun _ => 3) y e u := by
  have hr : Spec.RootsOutside ⟨2, 1, 1⟩ ⟨fun i _ j => if i = j then 1 / 2 else 0, fun _ _ _ => 1⟩ := by
    intro w hw
    simp [Spec.lagMatrix, Matrix.det_fin_two] at hw
    have : w = 2 := by linear_combination (-2 : ℂ) * hw
    rw [this]; norm_num
  obtain ⟨Ω, m, μ, hp, y, e, u, h⟩ := C195_exists ⟨2, 1, 1⟩ ⟨fun i _ j => if i = j then 1 / 2 else 0, fun _ _ _ => 1⟩ hr
    (Q := (1 : Matrix (Fin 2) (Fin 2) ℝ)) Matrix.PosSemidef.one (τ := some fun _ => 3) (fun σ hσ i => by simp at hσ; subst hσ; norm_num)
  exact ⟨Ω, m, μ, hp, y, e, u, hr, h⟩

end Verif.Varmax
