import Verif.Dist.R2d2
import Mathlib.Algebra.BigOperators.Fin
import Mathlib.Tactic.Positivity

/-! # C61, C110: the R2D2M2CP prior -/

set_option autoImplicit false

open MeasureTheory ProbabilityTheory

namespace R2d2

/-! ### Specification -/

/-- The inverse error function, through the standard normal distribution function:
`Φ(√2 · erfinv y) = (1 + y)/2` for `-1 < y < 1`. -/
def IsErfinv (erfinv : ℝ → ℝ) : Prop :=
  ∀ y, -1 < y → y < 1 → (gaussianReal 0 1).real (Set.Iio (Real.sqrt 2 * erfinv y)) = (1 + y) / 2

/-- Second moment of a law. -/
noncomputable def secondMoment (m : Measure ℝ) : ℝ := ∫ x, x ^ 2 ∂m

/-! ### Moments of one coefficient -/

theorem sqrt_half {x : ℝ} : x ^ (1 / 2 : ℝ) = Real.sqrt x := (Real.sqrt_eq_rpow x).symm

theorem musigma_free (erfinv : ℝ → ℝ) (psi ev : ℝ) {mask : Option Bool} (hm : mask ≠ some false) :
    musigma erfinv psi ev mask
      = (Real.sqrt ev * Real.sqrt (1 / (2 * erfinv (2 * psi - 1) ^ 2 + 1)) * erfinv (2 * psi - 1)
          * Real.sqrt 2, Real.sqrt ev * Real.sqrt (1 / (2 * erfinv (2 * psi - 1) ^ 2 + 1))) := by
  rcases mask with _ | _ | _
  · simp only [musigma, sqrt_half]
  · exact absurd rfl hm
  · simp only [musigma, sqrt_half, if_true]

/-- **C61.** Location and scale satisfy `μ² + σ² =` explained variance, for every sign probability and
every function used as inverse error function. -/
theorem C61_mu_sigma (erfinv : ℝ → ℝ) (psi : ℝ) {ev : ℝ} (hev : 0 ≤ ev) {mask : Option Bool}
    (hm : mask ≠ some false) :
    (musigma erfinv psi ev mask).1 ^ 2 + (musigma erfinv psi ev mask).2 ^ 2 = ev := by
  rw [musigma_free erfinv psi ev hm]
  generalize erfinv (2 * psi - 1) = q
  have h1 : 0 < 2 * q ^ 2 + 1 := by positivity
  simp only [mul_pow, Real.sq_sqrt hev, Real.sq_sqrt (show (0 : ℝ) ≤ 2 by norm_num),
    Real.sq_sqrt (show 0 ≤ 1 / (2 * q ^ 2 + 1) by positivity)]
  field_simp

/-- **C61.** A coefficient whose sign is certain is not random: scale zero and location plus or minus
the square root of the explained variance, according to the sign. -/
theorem C61_masked (erfinv : ℝ → ℝ) {psi ev : ℝ} (hev : 0 ≤ ev) (hpsi : psi = 0 ∨ psi = 1) :
    (musigma erfinv psi ev (some false)).2 = 0 ∧
    (musigma erfinv psi ev (some false)).1 = (if psi = 1 then Real.sqrt ev else -Real.sqrt ev) ∧
    (musigma erfinv psi ev (some false)).1 ^ 2 = ev := by
  have h : (musigma erfinv psi ev (some false)).1 = (if psi = 1 then Real.sqrt ev else -Real.sqrt ev) := by
    rcases hpsi with rfl | rfl <;> simp only [musigma, sign, sqrt_half] <;> norm_num
  refine ⟨by simp [musigma], h, ?_⟩
  rw [h]
  split <;> simp [Real.sq_sqrt hev]

theorem sigma_pos (erfinv : ℝ → ℝ) (psi : ℝ) {ev : ℝ} (hev : 0 < ev) {mask : Option Bool}
    (hm : mask ≠ some false) : 0 < (musigma erfinv psi ev mask).2 := by
  rw [musigma_free erfinv psi ev hm]
  have := Real.sqrt_pos.2 hev
  positivity

theorem gauss_affine (m s : ℝ) : (gaussianReal 0 1).map (fun x => x * s + m)
    = gaussianReal m (Real.toNNReal (s ^ 2)) := by
  have hcomp : (fun x : ℝ => x * s + m) = (fun x => x + m) ∘ (fun x => x * s) := rfl
  rw [hcomp, ← Measure.map_map (by fun_prop) (by fun_prop), gaussianReal_map_mul_const,
    gaussianReal_map_add_const]
  congr 1
  · ring
  · apply NNReal.coe_injective
    rw [mul_one, Real.coe_toNNReal _ (sq_nonneg _)]
    rfl

/-- **C61.** The centred and the non-centred form have the same law. -/
theorem C61_centred_eq_noncentred (ms : ℝ × ℝ) (inp : ℝ) (mask : Option Bool) :
    betaNonCentred ms inp mask = betaCentred ms inp mask := by
  unfold betaNonCentred betaCentred
  have hm : Measurable (betaOf ms inp) := by unfold betaOf; fun_prop
  split
  · rw [MeasureTheory.Measure.map_dirac' hm]
    simp [betaOf]
  · have : betaOf ms inp = fun x => x * (ms.2 / inp) + ms.1 / inp := by
      funext x; unfold betaOf; ring
    rw [this, gauss_affine]

theorem secondMoment_gauss (m : ℝ) (v : NNReal) : secondMoment (gaussianReal m v) = m ^ 2 + v := by
  have h := variance_eq_sub (μ := gaussianReal m v) (X := id) (memLp_id_gaussianReal 2)
  rw [variance_id_gaussianReal] at h
  simp only [id, Pi.pow_apply] at h
  rw [integral_id_gaussianReal] at h
  unfold secondMoment
  linarith

/-- Second moment of the scaled coefficient. -/
theorem secondMoment_beta (erfinv : ℝ → ℝ) {psi ev inp : ℝ} (hev : 0 ≤ ev)
    {mask : Option Bool} (hmask : mask = some false → psi = 0 ∨ psi = 1) :
    secondMoment (betaCentred (musigma erfinv psi ev mask) inp mask) = ev / inp ^ 2 := by
  unfold betaCentred
  split
  · rename_i h
    subst h
    obtain ⟨_, _, h2⟩ := C61_masked erfinv hev (hmask rfl)
    unfold secondMoment
    rw [integral_dirac]
    rw [div_pow, h2]
  · rename_i h
    rw [secondMoment_gauss, Real.coe_toNNReal _ (sq_nonneg _), div_pow, div_pow, ← add_div,
      C61_mu_sigma erfinv psi hev h]

/-- **C61.** The coefficient times the input's standard deviation has second moment equal to its share
`φ r² σ²` of the output variance, centred or not, masked or not. -/
theorem C61_second_moment (erfinv : ℝ → ℝ) {psi ph r2 out inp : ℝ} (hph : 0 ≤ ph) (hr : 0 ≤ r2)
    (hi : inp ≠ 0) {mask : Option Bool} (hmask : mask = some false → psi = 0 ∨ psi = 1) :
    inp ^ 2 * secondMoment (betaCentred (musigma erfinv psi (explained ph r2 out) mask) inp mask)
      = ph * r2 * out ^ 2 ∧
    inp ^ 2 * secondMoment (betaNonCentred (musigma erfinv psi (explained ph r2 out) mask) inp mask)
      = ph * r2 * out ^ 2 := by
  have hev : 0 ≤ explained ph r2 out := by unfold explained; positivity
  rw [C61_centred_eq_noncentred, secondMoment_beta erfinv hev hmask]
  unfold explained
  constructor <;> (field_simp)

/-- **C61.** With weights summing to one, explained plus residual variance is the output variance. -/
theorem C61_total_variance {k : ℕ} (erfinv : ℝ → ℝ) {psi ph inp : Fin k → ℝ} {r2 out : ℝ}
    (mask : Fin k → Option Bool) (hph : ∀ i, 0 ≤ ph i) (hsum : ∑ i, ph i = 1) (hr0 : 0 ≤ r2)
    (hr1 : r2 ≤ 1) (hi : ∀ i, inp i ≠ 0) (hmask : ∀ i, mask i = some false → psi i = 0 ∨ psi i = 1) :
    ∑ i, inp i ^ 2 * secondMoment
        (betaCentred (musigma erfinv (psi i) (explained (ph i) r2 out) (mask i)) (inp i) (mask i))
      + residSigma r2 out ^ 2 = out ^ 2 := by
  have h : ∀ i, inp i ^ 2 * secondMoment
      (betaCentred (musigma erfinv (psi i) (explained (ph i) r2 out) (mask i)) (inp i) (mask i))
      = ph i * (r2 * out ^ 2) := fun i => by
    rw [(C61_second_moment erfinv (hph i) hr0 (hi i) (hmask i)).1]; ring
  rw [Finset.sum_congr rfl (fun i _ => h i), ← Finset.sum_mul, hsum]
  unfold residSigma
  rw [sqrt_half, mul_pow, Real.sq_sqrt (by linarith)]
  ring

/-- **C61.** With the default weights (all one) the explained variance of `k` coefficients is
`k r² σ²`, and total prior variance is the output variance only for a single coefficient. -/
theorem C61_default_weights {k : ℕ} (erfinv : ℝ → ℝ) {psi inp : Fin k → ℝ} {r2 out : ℝ}
    (mask : Fin k → Option Bool) (hr0 : 0 < r2) (hr1 : r2 ≤ 1) (ho : out ≠ 0) (hi : ∀ i, inp i ≠ 0)
    (hmask : ∀ i, mask i = some false → psi i = 0 ∨ psi i = 1) {w : Fin k → ℝ}
    (hw : phi (k := k) none none none = .ok (.const w)) :
    ∑ i, inp i ^ 2 * secondMoment
        (betaCentred (musigma erfinv (psi i) (explained (w i) r2 out) (mask i)) (inp i) (mask i))
      = k * (r2 * out ^ 2) ∧
    (∑ i, inp i ^ 2 * secondMoment
        (betaCentred (musigma erfinv (psi i) (explained (w i) r2 out) (mask i)) (inp i) (mask i))
      + residSigma r2 out ^ 2 = out ^ 2 ↔ k = 1) := by
  have hw' : w = fun _ => 1 := by
    simp only [phi] at hw
    injection hw with hw
    injection hw with hw
    exact hw.symm
  subst hw'
  have h : ∀ i, inp i ^ 2 * secondMoment
      (betaCentred (musigma erfinv (psi i) (explained 1 r2 out) (mask i)) (inp i) (mask i))
      = r2 * out ^ 2 := fun i => by
    rw [(C61_second_moment erfinv zero_le_one hr0.le (hi i) (hmask i)).1]; ring
  have hs : ∑ i, inp i ^ 2 * secondMoment
      (betaCentred (musigma erfinv (psi i) (explained 1 r2 out) (mask i)) (inp i) (mask i))
      = k * (r2 * out ^ 2) := by
    rw [Finset.sum_congr rfl (fun i _ => h i)]
    simp
  refine ⟨hs, ?_⟩
  rw [hs]
  unfold residSigma
  rw [sqrt_half, mul_pow, Real.sq_sqrt (by linarith)]
  have hpos : 0 < r2 * out ^ 2 := by positivity
  constructor
  · intro e
    have : ((k : ℝ) - 1) * (r2 * out ^ 2) = 0 := by linarith
    rcases mul_eq_zero.1 this with h1 | h1
    · have : (k : ℝ) = 1 := by linarith
      exact_mod_cast this
    · exact absurd h1 hpos.ne'
  · rintro rfl
    push_cast
    ring

/-- **C61.** The probability that a random coefficient is positive is the requested `psi`. -/
theorem C61_positive_probability {erfinv : ℝ → ℝ} (he : IsErfinv erfinv) {psi ev inp : ℝ}
    (h0 : 0 < psi) (h1 : psi < 1) (hev : 0 < ev) (hi : 0 < inp) {mask : Option Bool}
    (hm : mask ≠ some false) :
    (betaCentred (musigma erfinv psi ev mask) inp mask).real (Set.Ioi 0) = psi := by
  rw [← C61_centred_eq_noncentred]
  unfold betaNonCentred
  rw [if_neg hm]
  have hs := sigma_pos erfinv psi hev hm
  set ms := musigma erfinv psi ev mask with hms
  have hmeas : Measurable (betaOf ms inp) := by unfold betaOf; fun_prop
  have hratio : ms.1 = ms.2 * (Real.sqrt 2 * erfinv (2 * psi - 1)) := by
    rw [hms, musigma_free erfinv psi ev hm]; ring
  rw [measureReal_def, Measure.map_apply hmeas measurableSet_Ioi]
  have hpre : betaOf ms inp ⁻¹' Set.Ioi 0 = (fun x => -x) ⁻¹' Set.Iio (Real.sqrt 2 * erfinv (2 * psi - 1)) := by
    ext x
    simp only [Set.mem_preimage, Set.mem_Ioi, Set.mem_Iio, betaOf]
    rw [div_pos_iff_of_pos_right hi, hratio, mul_comm x, ← mul_add, mul_pos_iff_of_pos_left hs]
    constructor <;> intro h <;> linarith
  rw [hpre, ← Measure.map_apply (by fun_prop) measurableSet_Iio, gaussianReal_map_neg, neg_zero,
    ← measureReal_def, he _ (by linarith) (by linarith)]
  ring

/-! ### C110: arguments -/

theorem isInner_iff (p : ℝ) : isInner p = true ↔ p ≠ 0 ∧ p ≠ 1 := by
  unfold isInner
  rw [decide_eq_true_iff, not_or]
  tauto

theorem isInner_false (p : ℝ) : isInner p = false ↔ p = 0 ∨ p = 1 := by
  unfold isInner
  rw [decide_eq_false_iff_not, not_not]
  tauto

/-- **C110.** The sign probabilities are rejected exactly when an uncertainty is given for a certain
sign. -/
theorem C110_psi_error {k : ℕ} (p : Fin k → ℝ) (std : Option (Fin k → ℝ)) :
    psiMask p std = .error .valueError ↔ ∃ s, std = some s ∧ ∃ i, (p i = 0 ∨ p i = 1) ∧ s i ≠ 0 := by
  cases std with
  | none => simp only [psiMask]; split <;> simp
  | some s =>
    simp only [psiMask, isInner_false]
    by_cases h : ∃ i, (p i = 0 ∨ p i = 1) ∧ s i ≠ 0
    · rw [if_pos h]; simp [h]
    · rw [if_neg h]
      constructor
      · intro e; split at e <;> [skip; split at e] <;> exact absurd e (by simp)
      · rintro ⟨s', hs, h'⟩
        injection hs with hs
        subst hs
        exact absurd h' h

/-- **C110.** When accepted, a coefficient is deterministic exactly if its sign is certain; there is no
mask exactly if no sign is certain. -/
theorem C110_mask {k : ℕ} {p : Fin k → ℝ} {std : Option (Fin k → ℝ)} {mask : Option (Fin k → Bool)}
    {src : PsiSource} (h : psiMask p std = .ok (mask, src)) (i : Fin k) :
    (mask.map (fun m => m i) = some false ↔ p i = 0 ∨ p i = 1) ∧
    (mask = none ↔ ∀ j, p j ≠ 0 ∧ p j ≠ 1) := by
  have hmask : (mask = none ∧ ∀ j, isInner (p j) = true) ∨
      (mask = some (fun j => isInner (p j)) ∧ ∃ j, isInner (p j) = false) := by
    cases std with
    | none =>
      simp only [psiMask] at h
      by_cases ha : ∀ j, isInner (p j) = true
      · rw [if_pos ha] at h
        injection h with h
        injection h with h1 _
        exact .inl ⟨h1.symm, ha⟩
      · rw [if_neg ha] at h
        injection h with h
        injection h with h1 _
        push Not at ha
        obtain ⟨j, hj⟩ := ha
        exact .inr ⟨h1.symm, j, by simpa using hj⟩
    | some s =>
      simp only [psiMask] at h
      split at h
      · exact absurd h (by simp)
      · split at h
        · rename_i hb
          injection h with h
          injection h with h1 _
          exact .inr ⟨h1.symm, hb.1⟩
        · split at h
          · rename_i hc
            injection h with h
            injection h with h1 _
            exact .inr ⟨h1.symm, i, hc i⟩
          · rename_i hb hc
            injection h with h
            injection h with h1 _
            refine .inl ⟨h1.symm, fun j => ?_⟩
            by_contra hj
            push Not at hc
            obtain ⟨l, hl⟩ := hc
            exact hb ⟨⟨j, by simpa using hj⟩, l, by simpa using hl⟩
  rcases hmask with ⟨rfl, ha⟩ | ⟨rfl, j, hj⟩
  · refine ⟨?_, ?_⟩
    · simp only [Option.map_none]
      constructor
      · intro e; exact absurd e (by simp)
      · intro e
        have := (isInner_iff (p i)).1 (ha i)
        rcases e with e | e
        · exact absurd e this.1
        · exact absurd e this.2
    · simp only [true_iff]
      exact fun j => (isInner_iff (p j)).1 (ha j)
  · refine ⟨?_, ?_⟩
    · simp only [Option.map_some, Option.some.injEq, isInner_false]
    · constructor
      · intro e; exact absurd e (by simp)
      · intro e
        have := (isInner_false (p j)).1 hj
        rcases this with h' | h'
        · exact absurd h' (e j).1
        · exact absurd h' (e j).2

/-- **C110.** Which weights are used, and the two conflicts that raise TypeError. -/
theorem C110_phi {k : ℕ} (imp ve : Option (Fin k → ℝ)) (conc : Option ℝ) :
    (phi imp ve conc = .error .typeError ↔
      (imp.isSome ∧ ve.isSome) ∨ ((imp.isSome ∨ ve.isSome) ∧ k ≤ 1)) ∧
    ((∃ w, phi imp ve conc = .ok (.const w)) ↔ imp = none ∧ conc = none ∧ (ve = none ∨ 1 < k)) := by
  unfold phi
  cases imp with
  | some w =>
    cases ve with
    | some v => simp
    | none =>
      by_cases hk : k ≤ 1
      · simp [hk]
      · cases conc <;> simp [hk]
  | none =>
    cases ve with
    | some v =>
      by_cases hk : k ≤ 1
      · simp [hk]
      · cases conc <;> simp [hk, Nat.lt_of_not_le hk]
    | none => cases conc <;> simp

/-- **C110.** Weights given as `variance_explained` are used as they are: nothing checks that they sum
to one. -/
theorem C110_variance_explained_unchecked {k : ℕ} (hk : 1 < k) (v : Fin k → ℝ) :
    phi none (some v) none = .ok (.const v) := by
  simp [phi, Nat.not_le.2 hk]

/-- Weights 1/2, 1/2 satisfy the hypotheses of the total-variance theorem; one coefficient masked. -/
example : ∑ i : Fin 2, (2 : ℝ) ^ 2 * secondMoment
    (betaCentred (musigma (fun _ => 0) (if i = 0 then 1 else 1 / 3)
      (explained (1 / 2) (4 / 5) 3) (if i = 0 then some false else some true)) 2
      (if i = 0 then some false else some true)) + residSigma (4 / 5) 3 ^ 2 = 3 ^ 2 :=
  C61_total_variance (k := 2) (fun _ => 0) (psi := fun i => if i = 0 then 1 else 1 / 3)
    (ph := fun _ => 1 / 2) (inp := fun _ => 2) (fun i => if i = 0 then some false else some true)
    (fun _ => by norm_num) (by simp) (by norm_num) (by norm_num) (fun _ => by norm_num)
    (fun i h => by
      by_cases hi : i = 0
      · simp [hi]
      · simp [hi] at h)

end R2d2
