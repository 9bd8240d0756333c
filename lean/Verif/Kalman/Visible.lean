import Verif.Kalman.Detect

/-!
# C217: tracked states and lasting modes
-/

set_option autoImplicit false
set_option linter.unusedSectionVars false

open Matrix Filter Topology

namespace Verif.Kalman

open Verif.Stationary

variable {n p r : Type*} [Fintype n] [Fintype p] [Fintype r] [DecidableEq n] [DecidableEq p] [DecidableEq r]

namespace Spec

/-- Every mode of the transition that does not die out moves some series of `s`. Specification, no code behind it. -/
def Visible (s : p → Prop) (T : Matrix n n ℝ) (Z : Matrix p n ℝ) : Prop :=
  ∀ (z : ℂ) (v : n → ℂ), v ≠ 0 → 1 ≤ ‖z‖ → (T.map Complex.ofReal) *ᵥ v = z • v → ∃ i, s i ∧ ((Z.map Complex.ofReal) *ᵥ v) i ≠ 0

end Spec

namespace Ric

variable {T : Matrix n n ℝ} {Z : Matrix p n ℝ}

/-- The states that are never seen. Proof notion, no code behind it. -/
def unseen (s : p → Prop) (T : Matrix n n ℝ) (Z : Matrix p n ℝ) : Submodule ℝ (n → ℝ) where
  carrier := {x | ∀ t : ℕ, ∀ i, s i → (Z *ᵥ (T ^ t *ᵥ x)) i = 0}
  add_mem' := fun ha hb t i hi => by rw [mulVec_add, mulVec_add, Pi.add_apply, ha t i hi, hb t i hi, add_zero]
  zero_mem' := fun t i _ => by simp
  smul_mem' := fun c x hx t i hi => by rw [mulVec_smul, mulVec_smul, Pi.smul_apply, hx t i hi, smul_zero]

/-- There is a projection on the unseen states. -/
theorem exists_proj (s : p → Prop) (T : Matrix n n ℝ) (Z : Matrix p n ℝ) :
    ∃ ρ : Matrix n n ℝ, (∀ x, ρ *ᵥ x ∈ unseen s T Z) ∧ ∀ x ∈ unseen s T Z, ρ *ᵥ x = x := by
  obtain ⟨g, hg⟩ := LinearMap.exists_leftInverse_of_injective (unseen s T Z).subtype (Submodule.ker_subtype _)
  refine ⟨LinearMap.toMatrix' ((unseen s T Z).subtype ∘ₗ g), fun x => ?_, fun x hx => ?_⟩
  · rw [LinearMap.toMatrix'_mulVec]
    exact (g x).2
  · rw [LinearMap.toMatrix'_mulVec]
    have := LinearMap.congr_fun hg ⟨x, hx⟩
    exact congrArg Subtype.val this

theorem unseen_dies {s : p → Prop} (h : Spec.Visible s T Z) {x : n → ℝ} (hx : x ∈ unseen s T Z) :
    Tendsto (fun t : ℕ => T ^ t *ᵥ x) atTop (𝓝 0) := by
  obtain ⟨ρ, h1, h2⟩ := exists_proj s T Z
  have hT : ∀ y ∈ unseen s T Z, T *ᵥ y ∈ unseen s T Z := fun y hy t i hi => by
    rw [mulVec_mulVec y (T ^ t) T, ← pow_succ]
    exact hy (t + 1) i hi
  have hst : Stationary.Spec.Stable (T * ρ) := by
    rw [Stationary.stable_iff]
    intro z v hv hz
    by_contra hge
    rw [not_lt] at hge
    have hz0 : z ≠ 0 := fun h0 => by rw [h0, norm_zero] at hge; linarith
    obtain ⟨hre, him⟩ := re_im.1 hz
    set a : n → ℝ := fun i => (v i).re
    set b : n → ℝ := fun i => (v i).im
    have ha : T *ᵥ (ρ *ᵥ a) ∈ unseen s T Z := hT _ (h1 a)
    have hb : T *ᵥ (ρ *ᵥ b) ∈ unseen s T Z := hT _ (h1 b)
    rw [mulVec_mulVec, hre] at ha
    rw [mulVec_mulVec, him] at hb
    have hn : z.re ^ 2 + z.im ^ 2 ≠ 0 := by
      have : ‖z‖ ^ 2 = z.re ^ 2 + z.im ^ 2 := by rw [Complex.sq_norm, Complex.normSq_apply]; ring
      rw [← this]; positivity
    have ea : a = (z.re ^ 2 + z.im ^ 2)⁻¹ • (z.re • (z.re • a - z.im • b) + z.im • (z.im • a + z.re • b)) := by
      ext i; simp; field_simp; ring
    have eb : b = (z.re ^ 2 + z.im ^ 2)⁻¹ • (z.re • (z.im • a + z.re • b) - z.im • (z.re • a - z.im • b)) := by
      ext i; simp; field_simp; ring
    have ma : a ∈ unseen s T Z := by
      rw [ea]
      exact Submodule.smul_mem _ _ (Submodule.add_mem _ (Submodule.smul_mem _ _ ha) (Submodule.smul_mem _ _ hb))
    have mb : b ∈ unseen s T Z := by
      rw [eb]
      exact Submodule.smul_mem _ _ (Submodule.sub_mem _ (Submodule.smul_mem _ _ hb) (Submodule.smul_mem _ _ ha))
    have hz' : (T.map Complex.ofReal) *ᵥ v = z • v := by
      rw [re_im]
      rw [← mulVec_mulVec, h2 a ma] at hre
      rw [← mulVec_mulVec, h2 b mb] at him
      exact ⟨hre, him⟩
    obtain ⟨i, hi, hne⟩ := h z v hv hge hz'
    refine hne (Complex.ext ?_ ?_)
    · have := ma 0 i hi
      rw [pow_zero, one_mulVec] at this
      rw [Complex.zero_re, ← this]
      simp [mulVec, dotProduct, Complex.re_sum, a]
    · have := mb 0 i hi
      rw [pow_zero, one_mulVec] at this
      rw [Complex.zero_im, ← this]
      simp [mulVec, dotProduct, Complex.im_sum, b]
  have hp : ∀ t : ℕ, (T * ρ) ^ t *ᵥ x = T ^ t *ᵥ x ∧ T ^ t *ᵥ x ∈ unseen s T Z := by
    intro t
    induction t with
    | zero => exact ⟨rfl, by rwa [pow_zero, one_mulVec]⟩
    | succ t ih =>
      have h3 : T ^ (t + 1) *ᵥ x = T *ᵥ (T ^ t *ᵥ x) := by rw [pow_succ', ← mulVec_mulVec]
      refine ⟨?_, by rw [h3]; exact hT _ ih.2⟩
      rw [pow_succ', ← mulVec_mulVec, ih.1, ← mulVec_mulVec, h2 _ ih.2, h3]
  have hc : Continuous fun A : Matrix n n ℝ => A *ᵥ x := continuous_id.matrix_mulVec continuous_const
  have := (hc.tendsto 0).comp hst
  rw [zero_mulVec] at this
  exact this.congr fun t => (hp t).1

end Ric

/-- **C217 (lasting modes).** A state can be tracked from the series of `s` exactly if every mode of the transition that does not die
out moves one of these series. -/
theorem C217_tracked_iff_visible (s : p → Prop) (T : Matrix n n ℝ) (Z : Matrix p n ℝ) : Spec.Tracked s T Z ↔ Spec.Visible s T Z := by
  constructor
  · rintro ⟨K, hK, hst⟩ z v hv hz h
    by_contra hne
    push Not at hne
    refine absurd ((Stationary.stable_iff _).1 hst z v hv ?_) (not_lt.2 hz)
    have h0 : (K.map Complex.ofReal) *ᵥ ((Z.map Complex.ofReal) *ᵥ v) = 0 := by
      ext a
      rw [mulVec, dotProduct]
      refine Finset.sum_eq_zero fun i _ => ?_
      by_cases hi : s i
      · rw [hne i hi, mul_zero]
      · rw [map_apply, hK a i hi, Complex.ofReal_zero, zero_mul]
    have h1 : (T * (1 - K * Z)).map Complex.ofReal = T.map Complex.ofReal * (1 - K.map Complex.ofReal * Z.map Complex.ofReal) := by
      show (T * (1 - K * Z)).map Complex.ofRealHom = _
      rw [Matrix.map_mul, Matrix.map_sub _ (fun a b => map_sub Complex.ofRealHom a b), Matrix.map_one _ (map_zero _) (map_one _), Matrix.map_mul]
      rfl
    rw [h1, ← mulVec_mulVec, sub_mulVec, one_mulVec, ← mulVec_mulVec, h0, sub_zero, h]
  · intro h
    exact (C217_tracked_iff s T Z).2 fun x hx => Ric.unseen_dies h hx

end Verif.Kalman
