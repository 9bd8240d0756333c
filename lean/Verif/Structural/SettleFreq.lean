import Verif.Structural.Settle

/-!
# C219: cycles and frequency-domain seasons

A saturated frequency-domain season has a state that never shows, never dies out and has shocks: its variance never settles.
-/

set_option autoImplicit false
set_option linter.unusedSectionVars false

open Matrix Filter Topology

namespace Verif.Structural.Settle

open Verif.Kalman.Spec

section blocks

variable {m : ℕ} {s : ℝ}

/-- The angle of a harmonic. pymc_extras/statespace/models/structural.py:44 -/
noncomputable def ang (s : ℝ) (j : Fin m) : ℝ := 2 * Real.pi * ((j.val + 1 : ℕ) : ℝ) / s

theorem freq_rows (init : Fin m × Fin 2 → ℝ) (σ : ℝ) (v : Fin m × Fin 2 → ℂ) (j : Fin m) : let T := (freqSeasonality s m init σ).T
    ((T.map Complex.ofReal) *ᵥ v) (j, 0) = (Real.cos (ang s j) : ℂ) * v (j, 0) + (Real.sin (ang s j) : ℂ) * v (j, 1) ∧
    ((T.map Complex.ofReal) *ᵥ v) (j, 1) = -(Real.sin (ang s j) : ℂ) * v (j, 0) + (Real.cos (ang s j) : ℂ) * v (j, 1) := by
  intro T
  have key : ∀ f, ((T.map Complex.ofReal) *ᵥ v) (j, f) = ∑ g, (freqBlock s (j.val + 1) f g : ℂ) * v (j, g) := by
    intro f
    rw [map_mulVec_apply, Fintype.sum_prod_type, Finset.sum_eq_single j]
    · exact Finset.sum_congr rfl fun g _ => by simp [T, freqSeasonality]
    · intro i _ hi
      exact Finset.sum_eq_zero fun g _ => by simp [T, freqSeasonality, hi.symm]
    · simp
  constructor
  · rw [key, Fin.sum_univ_two]; simp only [freqBlock, ang]; simp
  · rw [key, Fin.sum_univ_two]; simp only [freqBlock, ang]; simp

/-- A rotation's modes solve its characteristic equation. -/
theorem block_char {c d z a b : ℂ} (h1 : c * a + d * b = z * a) (h2 : -d * a + c * b = z * b) (h : ¬ (a = 0 ∧ b = 0)) :
    (z - c) ^ 2 + d ^ 2 = 0 := by
  by_cases ha : a = 0
  · have hb : b ≠ 0 := fun hb => h ⟨ha, hb⟩
    refine (mul_eq_zero.1 (?_ : ((z - c) ^ 2 + d ^ 2) * b = 0)).resolve_right hb
    linear_combination (-(z - c)) * h2 + d * h1
  · refine (mul_eq_zero.1 (?_ : ((z - c) ^ 2 + d ^ 2) * a = 0)).resolve_right ha
    linear_combination (-(z - c)) * h1 - d * h2

theorem ang_mem (hs : 2 * (m : ℝ) ≤ s) (j : Fin m) : 0 < ang s j ∧ ang s j ≤ Real.pi ∧ (2 * (m : ℝ) < s → ang s j < Real.pi) := by
  have hj : ((j.val + 1 : ℕ) : ℝ) ≤ m := by exact_mod_cast j.isLt
  have hj0 : (0 : ℝ) < ((j.val + 1 : ℕ) : ℝ) := by positivity
  have hs0 : 0 < s := by linarith
  have hpi := Real.pi_pos
  refine ⟨by unfold ang; positivity, ?_, fun h => ?_⟩
  · rw [ang, div_le_iff₀ hs0]; nlinarith
  · rw [ang, div_lt_iff₀ hs0]; nlinarith

theorem sq_char (θ : ℝ) (z : ℂ) (h : (z - (Real.cos θ : ℂ)) ^ 2 + (Real.sin θ : ℂ) ^ 2 = 0) : z ^ 2 + 1 = 2 * (Real.cos θ : ℂ) * z := by
  have h1 : (Real.sin θ : ℂ) ^ 2 + (Real.cos θ : ℂ) ^ 2 = 1 := by exact_mod_cast congrArg Complex.ofReal (Real.sin_sq_add_cos_sq θ)
  linear_combination h - h1

end blocks

theorem scaled_excited {n : Type*} [Fintype n] [DecidableEq n] (T : Matrix n n ℝ) {σ : ℝ} (hσ : σ ≠ 0) :
    Excited T ((1 : Matrix n n ℝ) * (σ ^ 2 • (1 : Matrix n n ℝ)) * (1 : Matrix n n ℝ)ᵀ) := by
  intro z v hv _ _ hV
  refine hv (funext fun i => ?_)
  have := congrFun hV i
  rw [transpose_one, mul_one, one_mul, map_mulVec_apply, Finset.sum_eq_single i] at this
  · simpa [hσ] using this
  · intro j _ hj; simp [hj.symm]
  · simp

/-- **C219 (frequency-domain seasons).** With fewer than `s/2` harmonics every lasting mode is visible; with exactly `s/2` (the
default for an even season length) one is not. With a shock every lasting mode is reached. No mode is constant. -/
theorem C219_frequency_seasonality {m : ℕ} (s : ℝ) (init : Fin m × Fin 2 → ℝ) (σ : ℝ) : let c := freqSeasonality s m init σ
    (2 * (m : ℝ) < s → Visible (fun _ => True) c.T (c.Z 0)) ∧ (0 < m → 2 * (m : ℝ) = s → ¬ Visible (fun _ => True) c.T (c.Z 0)) ∧
      (σ ≠ 0 → Excited c.T (c.R * c.Q * c.Rᵀ)) ∧
      (2 * (m : ℝ) ≤ s → ∀ v : Fin m × Fin 2 → ℂ, (c.T.map Complex.ofReal) *ᵥ v = (1 : ℂ) • v → v = 0) := by
  intro c
  have hchar : ∀ (z : ℂ) (v : Fin m × Fin 2 → ℂ), (c.T.map Complex.ofReal) *ᵥ v = z • v → ∀ j, ¬ (v (j, 0) = 0 ∧ v (j, 1) = 0) →
      z ^ 2 + 1 = 2 * (Real.cos (ang s j) : ℂ) * z := by
    intro z v h j hj
    obtain ⟨h1, h2⟩ := freq_rows init σ v j
    rw [show (freqSeasonality s m init σ).T = c.T from rfl, h] at h1 h2
    exact sq_char _ z (block_char h1.symm h2.symm hj)
  refine ⟨fun hs z v hv hz h => ?_, fun hm hs hvis => ?_, fun hσ => scaled_excited _ hσ, fun hs v h => ?_⟩
  · by_contra hc
    push Not at hc
    have h0 := hc 0 trivial
    have hZ : ∑ j : Fin m, v (j, 0) = 0 := by
      rw [map_mulVec_apply, Fintype.sum_prod_type] at h0
      rw [← h0]
      refine Finset.sum_congr rfl fun j _ => ?_
      rw [Fin.sum_univ_two]
      simp [c, freqSeasonality]
    obtain ⟨j, hj⟩ : ∃ j, ¬ (v (j, 0) = 0 ∧ v (j, 1) = 0) := by
      by_contra hno
      push Not at hno
      refine hv (funext fun ⟨j, f⟩ => ?_)
      fin_cases f
      · exact (hno j).1
      · exact (hno j).2
    have hother : ∀ i, i ≠ j → v (i, 0) = 0 ∧ v (i, 1) = 0 := by
      intro i hi
      by_contra hne
      have e : (Real.cos (ang s i) : ℂ) = Real.cos (ang s j) := by
        have h3 := (hchar z v h i hne).symm.trans (hchar z v h j hj)
        have h4 := mul_right_cancel₀ (ne_zero hz) h3
        exact mul_left_cancel₀ two_ne_zero h4
      have hi' := ang_mem hs.le i
      have hj' := ang_mem hs.le j
      have e2 : ang s i = ang s j := Real.injOn_cos ⟨hi'.1.le, hi'.2.1⟩ ⟨hj'.1.le, hj'.2.1⟩ (by exact_mod_cast e)
      have hs0 : 0 < s := lt_of_le_of_lt (by positivity) hs
      unfold ang at e2
      rw [div_left_inj' hs0.ne'] at e2
      have e3 := mul_left_cancel₀ (by positivity) e2
      exact hi (Fin.ext (Nat.succ_injective (by exact_mod_cast e3)))
    have ha : v (j, 0) = 0 := by
      rw [← hZ]
      exact (Finset.sum_eq_single j (fun i _ hi => (hother i hi).1) (by simp)).symm
    obtain ⟨h1, -⟩ := freq_rows init σ v j
    rw [show (freqSeasonality s m init σ).T = c.T from rfl, h, Pi.smul_apply, ha, smul_zero, mul_zero, zero_add] at h1
    have hsin : (Real.sin (ang s j) : ℂ) ≠ 0 := by
      have hj' := ang_mem hs.le j
      exact_mod_cast (Real.sin_pos_of_pos_of_lt_pi hj'.1 (hj'.2.2 hs)).ne'
    exact hj ⟨ha, (mul_eq_zero.1 h1.symm).resolve_left hsin⟩
  · let j : Fin m := ⟨m - 1, by omega⟩
    have hang : ang s j = Real.pi := by
      have hm' : (m : ℝ) ≠ 0 := by exact_mod_cast hm.ne'
      have : ((j.val + 1 : ℕ) : ℝ) = m := by
        have : j.val + 1 = m := by show m - 1 + 1 = m; omega
        rw [this]
      rw [ang, this, ← hs]
      field_simp
    have hcz : ∀ (i : Fin m) (f : Fin 2), (Pi.single (j, 1) 1 : Fin m × Fin 2 → ℂ) (i, f) = if i = j ∧ f = 1 then 1 else 0 := by
      intro i f
      rw [Pi.single_apply]
      simp [Prod.ext_iff]
    obtain ⟨i, -, hi⟩ := hvis (-1) (Pi.single (j, 1) 1) (fun e => by simpa using congrFun e (j, 1)) (by simp) (by
      funext ⟨i, f⟩
      obtain ⟨h1, h2⟩ := freq_rows (s := s) init σ (Pi.single (j, 1) 1) i
      fin_cases f
      · refine h1.trans ?_
        by_cases hij : i = j
        · subst hij
          rw [hang]; simp
        · simp [hij]
      · refine h2.trans ?_
        by_cases hij : i = j
        · subst hij
          rw [hang]; simp
        · simp [hij])
    refine hi ?_
    rw [map_mulVec_apply]
    refine Finset.sum_eq_zero fun x _ => ?_
    obtain ⟨x1, x2⟩ := x
    rw [hcz]
    by_cases hx : x2 = 1
    · subst hx; simp [c, freqSeasonality]
    · simp [hx]
  · by_contra hv
    obtain ⟨j, hj⟩ : ∃ j, ¬ (v (j, 0) = 0 ∧ v (j, 1) = 0) := by
      by_contra hno
      push Not at hno
      refine hv (funext fun ⟨j, f⟩ => ?_)
      fin_cases f
      · exact (hno j).1
      · exact (hno j).2
    have h1 := hchar 1 v h j hj
    have h2 : (Real.cos (ang s j) : ℂ) = 1 := by linear_combination (-(1 / 2 : ℂ)) * h1
    have h3 : Real.cos (ang s j) = 1 := by exact_mod_cast h2
    have hj' := ang_mem hs j
    have := Real.pi_pos
    have h4 := (Real.cos_eq_one_iff_of_lt_of_lt (by linarith) (by linarith)).1 h3
    linarith [hj'.1]

/-- **C219 (cycles).** From a cycle with `sin (2π / len) ≠ 0` (so every length above 2), dampened or not, every lasting mode is visible; with a shock every lasting
mode is reached. -/
theorem C219_cycle {len : ℝ} (ρ : ℝ) (init : Fin 2 → ℝ) (σ : ℝ) : let c := cycle len ρ init σ
    (Real.sin (2 * Real.pi / len) ≠ 0 → Visible (fun _ => True) c.T (c.Z 0)) ∧ (σ ≠ 0 → Excited c.T (c.R * c.Q * c.Rᵀ)) := by
  intro c
  refine ⟨fun hs z v hv hz h => ?_, fun hσ => scaled_excited _ hσ⟩
  by_contra hc
  push Not at hc
  have h0 := first_obs v (fun i => hc i trivial) 0 rfl
  have r0 := congrFun h 0
  have r1 := congrFun h 1
  rw [map_mulVec_apply, Fin.sum_univ_two, Pi.smul_apply, h0, smul_zero, mul_zero, zero_add] at r0
  rw [map_mulVec_apply, Fin.sum_univ_two, Pi.smul_apply, h0, mul_zero, zero_add, smul_eq_mul] at r1
  have hb : v 1 ≠ 0 := fun hb => hv (funext fun i => by fin_cases i; exacts [h0, hb])
  have e0 : (ρ : ℂ) * (Real.sin (2 * Real.pi / len) : ℂ) = 0 := by
    have := (mul_eq_zero.1 r0).resolve_right hb
    simpa [c, cycle, freqBlock] using this
  have hρ : (ρ : ℂ) = 0 := (mul_eq_zero.1 e0).resolve_right (by exact_mod_cast hs)
  have hz0 : z = 0 := by
    have e1 := mul_right_cancel₀ hb r1
    rw [← e1]
    have : ρ = 0 := by exact_mod_cast hρ
    simp [c, cycle, this]
  exact ne_zero hz hz0

variable {n r n' r' : Type} [Fintype n] [Fintype r] [Fintype n'] [Fintype r'] [DecidableEq n] [DecidableEq n'] [DecidableEq r] [DecidableEq r']

/-- **C219 (a hidden mode stays hidden).** A lasting mode that does not show in a component does not show in a sum with it. -/
theorem C219_hidden_stays {p : Type} [Fintype p] [DecidableEq p] (a : Sys n r p) (b : Sys n' r' p) (s : p → Prop)
    (h : Visible s (combine a b).T ((combine a b).Z 0)) : Visible s b.T (b.Z 0) := by
  intro z v hv hz hb
  obtain ⟨i, hi, hne⟩ := h z (Sum.elim 0 v) (fun e => hv (funext fun j => congrFun e (Sum.inr j))) hz (by
    show (fromBlocks a.T 0 0 b.T).map Complex.ofReal *ᵥ _ = _
    rw [blocks_map]
    funext j
    cases j with
    | inl j => simp [Function.comp_def, mulVec, dotProduct]
    | inr j => exact congrFun hb j)
  refine ⟨i, hi, fun e => hne ?_⟩
  rw [map_mulVec_apply, Fintype.sum_sum_type]
  rw [map_mulVec_apply] at e
  rw [show (∑ j, ((((combine a b).Z 0) i (Sum.inl j) : ℝ) : ℂ) * (Sum.elim 0 v : n ⊕ n' → ℂ) (Sum.inl j)) = 0 from
    Finset.sum_eq_zero fun j _ => by simp, zero_add]
  exact e

theorem blocks_psd {A : Matrix n n ℝ} {B : Matrix n' n' ℝ} (hA : A.PosSemidef) (hB : B.PosSemidef) :
    (fromBlocks A 0 0 B : Matrix (n ⊕ n') (n ⊕ n') ℝ).PosSemidef := by
  refine PosSemidef.of_dotProduct_mulVec_nonneg ?_ fun x => ?_
  · exact IsHermitian.fromBlocks hA.1 (by simp) hB.1
  · have h1 := hA.dotProduct_mulVec_nonneg (x ∘ Sum.inl)
    have h2 := hB.dotProduct_mulVec_nonneg (x ∘ Sum.inr)
    rw [fromBlocks_mulVec, zero_mulVec, zero_mulVec, add_zero, zero_add, dotProduct, Fintype.sum_sum_type]
    exact add_nonneg h1 h2

/-- **C219 (a saturated season never settles).** Add to any model with measurement errors a frequency-domain season with `s/2` harmonics,
and let there be a jitter, or let the season have a shock and the shocks of the rest reach its lasting modes. Then, on complete
data, the predicted covariances reported by the univariate filter converge for no start and no data. -/
theorem C219_saturated_never_settles {jitter : ℝ} (hj : 0 ≤ jitter) (a : Sys n r (Fin 1)) (hH : 0 < a.H 0 0) (hQ : a.Q.PosSemidef) {m : ℕ}
    (hm : 0 < m) {s : ℝ} (hs : 2 * (m : ℝ) = s) (init : Fin m × Fin 2 → ℝ) (σ : ℝ)
    (hE : 0 < jitter ∨ σ ≠ 0 ∧ Excited a.T (a.R * a.Q * a.Rᵀ)) (a0 : n ⊕ (Fin m × Fin 2) → ℝ)
    {P0 : Matrix (n ⊕ (Fin m × Fin 2)) (n ⊕ (Fin m × Fin 2)) ℝ} (hP : P0.PosSemidef) (y : ℕ → Fin 1 → ℝ) :
    ∃ out : ℕ → Kalman.UnivGraph (n ⊕ (Fin m × Fin 2)),
      (∀ N, Kalman.univGraph jitter a0 P0 (params (combine a (freqSeasonality s m init σ)))
        ((List.range N).map fun t i => some (y t i)) = some (out N)) ∧
      ∀ L, ¬ Tendsto (fun t => (out (t + 1)).predictedCovs.getD t 0) atTop (𝓝 L) := by
  set θ := params (combine a (freqSeasonality s m init σ)) with hθ
  have hf := C219_frequency_seasonality s init σ
  have hHp : ∀ i, 0 < θ.H i i := by
    intro i
    rw [Subsingleton.elim i 0]
    show 0 < a.H 0 0 + (0 : Matrix (Fin 1) (Fin 1) ℝ) 0 0
    simpa using hH
  have hQp : θ.Q.PosSemidef := blocks_psd hQ (PosSemidef.one.smul (sq_nonneg σ))
  have hEE : 0 < jitter ∨ Excited θ.T (θ.R * θ.Q * θ.Rᵀ) :=
    hE.imp id fun h => (C219_combine a (freqSeasonality s m init σ)).2 h.2 (hf.2.2.1 h.1)
  have hpos : 0 < jitter ∨ (∀ i, 0 < θ.H i i) ∧ ∀ _ : Fin 1, True := Or.inr ⟨hHp, fun _ => trivial⟩
  have hex : ∀ N, ∃ out, Kalman.univGraph jitter a0 P0 θ ((List.range N).map fun t i => some (y t i)) = some out := fun N => by
    obtain ⟨out, h, -⟩ := Kalman.Settle.run (s := fun _ => True) (y := fun t i => some (y t i)) hj one_pos (fun i => (hHp i).le) hQp hpos hP a0
      (by simp) N
    exact ⟨out, h⟩
  choose out ho using hex
  refine ⟨out, ho, fun L hL => ?_⟩
  have := Kalman.C217_only_if_tracked (s := fun _ => True) (y := fun t i => some (y t i)) hj one_pos hEE (fun i => (hHp i).le) hQp hpos hP
    (by simp) ho hL
  exact hf.2.1 hm hs (C219_hidden_stays _ _ _ ((Kalman.C217_tracked_iff_visible _ _ _).1 this))

/-- Four quarters in the frequency domain (two harmonics), all with shocks, plus measurement errors: the hypotheses of
`C219_saturated_never_settles`; with one harmonic the season is visible. -/
example : 0 < (measurementError 2).H 0 0 ∧ (measurementError 2).Q.PosSemidef ∧
    Excited (measurementError 2).T ((measurementError 2).R * (measurementError 2).Q * (measurementError 2).Rᵀ) ∧
    2 * ((2 : ℕ) : ℝ) = 4 ∧ Visible (fun _ => True) (freqSeasonality 4 1 0 3).T ((freqSeasonality 4 1 0 3).Z 0) :=
  ⟨by simp [measurementError, zeroSys], by rw [show (measurementError 2).Q = 0 from rfl]; exact PosSemidef.zero,
    fun _ v hv => absurd (Subsingleton.elim v 0) hv, by norm_num, (C219_frequency_seasonality 4 0 3).1 (by norm_num)⟩

end Verif.Structural.Settle
