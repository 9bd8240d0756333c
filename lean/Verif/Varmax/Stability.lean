import Verif.Stationary.Nat
import Verif.Varmax.Props

/-!
# C173: VARMAX, when the stationary initialisation is well posed
-/

set_option autoImplicit false

open Finset Matrix
open scoped Kronecker

namespace Verif.Varmax

open Verif.Stationary

/-- Specification: the autoregressive lag matrix `I - A₁ w - … - A_p w^p` at a complex number. -/
noncomputable def Spec.lagMatrix (o : Order) (θ : Params) (w : ℂ) : Matrix (Fin o.k) (Fin o.k) ℂ :=
  1 - ∑ l ∈ range o.p, w ^ (l + 1) • Matrix.of fun i j : Fin o.k => (θ.ar i l j : ℂ)

/-- Specification: it is singular only outside the unit circle. -/
def Spec.RootsOutside (o : Order) (θ : Params) : Prop := ∀ w : ℂ, (Spec.lagMatrix o θ w).det = 0 → 1 < ‖w‖

variable (o : Order) (θ : Params)

theorem sum_divmodC (P p : ℕ) (g : ℕ → ℕ → ℂ) :
    ∑ j ∈ range (p * P), g (j / p) (j % p) = ∑ m ∈ range P, ∑ r ∈ range p, g m r := by
  rcases Nat.eq_zero_or_pos p with rfl | hp
  · simp
  induction P with
  | zero => simp
  | succ P ih =>
    rw [Nat.mul_succ, sum_range_add, ih, sum_range_succ]
    congr 1
    refine sum_congr rfl fun r hr => ?_
    have hr := mem_range.1 hr
    rw [Nat.mul_add_div hp, Nat.mul_add_mod, Nat.div_eq_of_lt hr, Nat.mod_eq_of_lt hr, Nat.add_zero]

theorem top_sum (u : ℕ → ℂ) (hMA : ∀ n, off o ≤ n → n < o.kStates → u n = 0) (i : ℕ) (hi : i < o.k) :
    ∑ j ∈ range o.kStates, (transition o θ i j : ℂ) * u j =
      ∑ l ∈ range o.p, ∑ r ∈ range o.k, (θ.ar i l r : ℂ) * u (o.k * l + r) := by
  obtain ⟨h2, h3, h4, h5⟩ := off_facts o
  have hks := kStates_eq o
  rw [← sum_divmodC o.p o.k fun l r => (θ.ar i l r : ℂ) * u (o.k * l + r)]
  have hsub : range (o.k * o.p) ⊆ range o.kStates := range_subset_range.2 (by omega)
  rw [← sum_subset hsub]
  · refine sum_congr rfl fun j hj => ?_
    have hj := mem_range.1 hj
    rw [row_top o θ i j hi (by omega), if_neg (by
      have : 0 < o.p := Nat.pos_of_ne_zero fun h => by simp [h] at hj
      have := h4 this; omega), if_pos hj, Nat.div_add_mod]
  · intro j hj hn
    have hj := mem_range.1 hj
    have hn : ¬ j < o.k * o.p := fun h => hn (mem_range.2 h)
    rw [row_top o θ i j hi hj]
    by_cases ho : off o ≤ j
    · rw [hMA j ho hj, mul_zero]
    · rw [if_neg ho, if_neg hn]; simp

theorem below_sum (u : ℕ → ℂ) (i : ℕ) (hi : o.k ≤ i) (hi' : i < o.kStates) :
    ∑ j ∈ range o.kStates, (transition o θ i j : ℂ) * u j = if i < off o ∨ off o + o.k ≤ i then u (i - o.k) else 0 := by
  rw [sum_eq_single (i - o.k)]
  · rw [row_below o θ i _ hi hi' (by omega)]
    by_cases h : i < off o ∨ off o + o.k ≤ i
    · rw [if_pos ⟨by omega, h⟩, if_pos h]; simp
    · rw [if_neg (fun x => h x.2), if_neg h]; simp
  · intro j hj hne
    rw [row_below o θ i j hi hi' (mem_range.1 hj), if_neg (by omega)]; simp
  · intro h; exact absurd (mem_range.2 (by omega)) h

theorem lag_mulVec (w : ℂ) (v : ℕ → ℂ) (i : Fin o.k) :
    (Spec.lagMatrix o θ w *ᵥ fun j => v j) i =
      v i - ∑ l ∈ range o.p, ∑ r ∈ range o.k, (θ.ar i l r : ℂ) * (w ^ (l + 1) * v r) := by
  rw [Spec.lagMatrix, sub_mulVec, one_mulVec, Pi.sub_apply]
  congr 1
  rw [sum_mulVec, Finset.sum_apply]
  refine sum_congr rfl fun l _ => ?_
  rw [smul_mulVec, Pi.smul_apply, mulVec, dotProduct,
    ← Fin.sum_univ_eq_sum_range (fun r => (θ.ar i l r : ℂ) * (w ^ (l + 1) * v r)), smul_eq_mul, mul_sum]
  exact sum_congr rfl fun r _ => by rw [Matrix.of_apply]; ring

/-- **C173**: the powers of the transition matrix die out exactly when the autoregressive lag matrix is singular only outside the
unit circle, whatever the moving-average coefficients. -/
theorem C173_stable_iff (o : Order) (θ : Params) :
    Stationary.Spec.Stable (toMat o.kStates (transition o θ)) ↔ Spec.RootsOutside o θ := by
  rw [stable_toMat]
  obtain ⟨h2, h3, h4, h5⟩ := off_facts o
  have hks := kStates_eq o
  constructor
  · intro h w hw
    by_contra hc
    obtain ⟨v, hv, hz⟩ := Matrix.exists_mulVec_eq_zero_iff.2 hw
    have hk : 0 < o.k := by
      obtain ⟨i, _⟩ := Function.ne_iff.1 hv
      exact i.pos
    have hp : 0 < o.p := by
      by_contra hp
      have : o.p = 0 := by omega
      rw [Spec.lagMatrix, this] at hz
      simp at hz
      exact hv hz
    have hoff := h4 hp
    have hw0 : w ≠ 0 := by
      rintro rfl
      have : Spec.lagMatrix o θ 0 = 1 := by simp [Spec.lagMatrix]
      rw [this, one_mulVec] at hz
      exact hv hz
    let v' : ℕ → ℂ := fun n => if hn : n < o.k then v ⟨n, hn⟩ else 0
    have hv' : (fun j : Fin o.k => v' j) = v := funext fun j => by simp [v']
    have hz' : ∀ i, i < o.k → ∑ l ∈ range o.p, ∑ r ∈ range o.k, (θ.ar i l r : ℂ) * (w ^ (l + 1) * v' r) = v' i := by
      intro i hi
      have := lag_mulVec o θ w v' ⟨i, hi⟩
      rw [hv', hz] at this
      exact (sub_eq_zero.1 this.symm).symm
    have hz1 : ¬ ‖w⁻¹‖ < 1 := by
      rw [norm_inv, not_lt]
      exact (one_le_inv₀ (norm_pos_iff.2 hw0)).2 (not_lt.1 hc)
    let u : ℕ → ℂ := fun n => if n < off o then w ^ (n / o.k) * v' (n % o.k) else 0
    have hu : ∀ l < o.p, ∀ r < o.k, u (o.k * l + r) = w ^ l * v' r := by
      intro l hl r hr
      have : o.k * l + r < off o := by
        rw [hoff]
        calc o.k * l + r < o.k * l + o.k := by omega
          _ = o.k * (l + 1) := by ring
          _ ≤ o.k * o.p := Nat.mul_le_mul_left _ hl
      simp only [u]
      rw [if_pos this, Nat.mul_add_div hk, Nat.mul_add_mod, Nat.div_eq_of_lt hr, Nat.mod_eq_of_lt hr, Nat.add_zero]
    refine hz1 (h w⁻¹ u ?_ fun i hi => ?_)
    · obtain ⟨i, hi⟩ := Function.ne_iff.1 hv
      refine ⟨i, by omega, ?_⟩
      have := hu 0 hp i i.2
      rw [Nat.mul_zero, Nat.zero_add, pow_zero, one_mul] at this
      rw [this]
      simpa [v'] using hi
    · by_cases hik : i < o.k
      · rw [top_sum o θ u (fun n hn _ => if_neg (by omega)) i hik]
        have hui : u i = v' i := by
          have := hu 0 hp i hik
          rwa [Nat.mul_zero, Nat.zero_add, pow_zero, one_mul] at this
        rw [hui, ← hz' i hik, mul_sum]
        refine sum_congr rfl fun l hl => ?_
        rw [mul_sum]
        refine sum_congr rfl fun r hr => ?_
        rw [hu l (mem_range.1 hl) r (mem_range.1 hr), pow_succ]
        field_simp
      · rw [below_sum o θ u i (by omega) hi]
        by_cases ho : i < off o
        · rw [if_pos (Or.inl ho)]
          have e1 : u i = w ^ (i / o.k) * v' (i % o.k) := if_pos ho
          have e2 : u (i - o.k) = w ^ ((i - o.k) / o.k) * v' ((i - o.k) % o.k) := if_pos (by omega)
          have e3 : i = (i - o.k) + o.k := by omega
          rw [e1, e2]
          conv_rhs => rw [e3]
          rw [Nat.add_div_right _ hk, Nat.add_mod_right, pow_succ]
          field_simp
        · have e1 : u i = 0 := if_neg ho
          rw [e1, mul_zero]
          by_cases ho2 : off o + o.k ≤ i
          · rw [if_pos (Or.inr ho2)]
            exact if_neg (by omega)
          · rw [if_neg (by omega)]
  · rintro h z u ⟨i0, hi0, hne⟩ he
    by_contra hc
    have hc := not_lt.1 hc
    have hz0 : z ≠ 0 := by rintro rfl; simp at hc; linarith
    have hk : 0 < o.k := by
      by_contra hk
      have : o.k = 0 := by omega
      simp [Order.kStates, this] at hi0
    have hMA : ∀ n, off o ≤ n → n < o.kStates → u n = 0 := by
      intro n
      induction n using Nat.strong_induction_on with
      | _ n ih =>
        intro hn hlt
        have := he n hlt
        rw [below_sum o θ u n (by omega) hlt] at this
        by_cases ho2 : off o + o.k ≤ n
        · rw [if_pos (Or.inr ho2), ih (n - o.k) (by omega) (by omega) (by omega)] at this
          exact (mul_eq_zero.1 this.symm).resolve_left hz0
        · rw [if_neg (by omega)] at this
          exact (mul_eq_zero.1 this.symm).resolve_left hz0
    have hAR : ∀ l r, r < o.k → o.k * l + r < off o → u (o.k * l + r) = z⁻¹ ^ l * u r := by
      intro l
      induction l with
      | zero => intro r _ _; simp
      | succ l ih =>
        intro r hr hlt
        have e : o.k * (l + 1) + r = o.k * l + r + o.k := by ring
        have := he (o.k * (l + 1) + r) (by omega)
        rw [below_sum o θ u _ (by omega) (by omega), if_pos (Or.inl hlt), e, Nat.add_sub_cancel, ← e, ih r hr (by omega)] at this
        rw [pow_succ]
        rw [mul_comm (z⁻¹ ^ l), mul_assoc, this]
        field_simp
    have htop : ∃ i, i < o.k ∧ u i ≠ 0 := by
      by_cases ho : off o ≤ i0
      · exact absurd (hMA i0 ho hi0) hne
      · refine ⟨i0 % o.k, Nat.mod_lt _ hk, fun h0 => hne ?_⟩
        have := hAR (i0 / o.k) (i0 % o.k) (Nat.mod_lt _ hk) (by rw [Nat.div_add_mod]; omega)
        rw [Nat.div_add_mod] at this
        rw [this, h0, mul_zero]
    have hdet : (Spec.lagMatrix o θ z⁻¹).det = 0 := by
      refine Matrix.exists_mulVec_eq_zero_iff.1 ⟨fun j => u j, ?_, funext fun i => ?_⟩
      · obtain ⟨i, hi, hne⟩ := htop
        exact fun h0 => hne (congrFun h0 ⟨i, hi⟩)
      · rw [lag_mulVec]
        have h1 := he i (by omega)
        rw [top_sum o θ u hMA i i.2] at h1
        have h6 : z * ∑ l ∈ range o.p, ∑ r ∈ range o.k, (θ.ar i l r : ℂ) * (z⁻¹ ^ (l + 1) * u r) = z * u i := by
          rw [← h1, mul_sum]
          refine sum_congr rfl fun l hl => ?_
          rw [mul_sum]
          refine sum_congr rfl fun r hr => ?_
          have hl := mem_range.1 hl
          have hr := mem_range.1 hr
          have : o.k * l + r < off o := by
            rw [h4 (by omega)]
            calc o.k * l + r < o.k * l + o.k := by omega
              _ = o.k * (l + 1) := by ring
              _ ≤ o.k * o.p := Nat.mul_le_mul_left _ hl
          rw [hAR l r hr this, pow_succ]
          field_simp
        have h7 := mul_left_cancel₀ hz0 h6
        rw [h7, sub_self]; rfl
    have := h _ hdet
    rw [norm_inv] at this
    have h3 := inv_le_one_of_one_le₀ hc
    linarith

/-- **C173** (consequence): then the stationary initialisation is well posed: both linear systems are nonsingular, the initial mean
is zero (the model has no intercept) and the initial covariance is positive semidefinite and left unchanged by a step. -/
theorem C173_well_posed (o : Order) (θ : Params) (hr : Spec.RootsOutside o θ) (Q : Matrix (Fin o.k) (Fin o.k) ℝ)
    (hQ : Q.PosSemidef) :
    let T := toMat o.kStates (transition o θ)
    let R : Matrix (Fin o.kStates) (Fin o.k) ℝ := Matrix.of fun i j => selection o i j
    let x0P0 := stationaryInit 0 T R Q
    IsUnit (1 - T).det ∧ IsUnit (1 - T ⊗ₖ T).det ∧ x0P0.1 = 0 ∧ T * x0P0.2 * Tᵀ + R * Q * Rᵀ = x0P0.2 ∧ x0P0.2.PosSemidef := by
  intro T R x0P0
  have hT : Stationary.Spec.Stable T := (C173_stable_iff o θ).2 hr
  have h2 := stable_unit_kron hT
  have h3 := lyapunov_solves (R * Q * Rᵀ) h2
  refine ⟨stable_unit hT, h2, by simp [x0P0, stationaryInit], h3, ?_⟩
  have hW : (R * Q * Rᵀ).PosSemidef := by
    have := hQ.mul_mul_conjTranspose_same R
    rwa [conjTranspose_eq_transpose_of_trivial] at this
  exact posSemidef_of_stable hT hW h3

/-- A VARMA(1,1) of two series with coefficient matrix `I / 2` meets the hypotheses. -/
example : Spec.RootsOutside ⟨2, 1, 1⟩ ⟨fun i _ j => if i = j then 1 / 2 else 0, fun _ _ _ => 1⟩ := by
  intro w hw
  simp [Spec.lagMatrix, Matrix.det_fin_two] at hw
  have : w = 2 := by linear_combination (-2 : ℂ) * hw
  rw [this]; norm_num

/-- A pair of random walks does not. -/
example : ¬ Spec.RootsOutside ⟨2, 1, 0⟩ ⟨fun i _ j => if i = j then 1 else 0, fun _ _ _ => 0⟩ := by
  intro h
  have := h 1 (by simp [Spec.lagMatrix, Matrix.det_fin_two])
  simp at this

end Verif.Varmax
