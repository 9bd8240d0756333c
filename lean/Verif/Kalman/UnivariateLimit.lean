import Verif.Kalman.UnivariateOptimal
import Mathlib.Analysis.Asymptotics.Lemmas
import Mathlib.Analysis.Asymptotics.Defs

/-!
# The univariate filter with a small jitter

How far the program with jitter `j > 0` is from the ideal recursion (`scalarF`, `scalarK`): at most a constant times `j`.
-/

set_option autoImplicit false
set_option linter.unusedSectionVars false

open Matrix Filter Topology Asymptotics

namespace Verif.Kalman

/-- The difference is at most proportional to the jitter. Proof notion, no code behind it. -/
def Near (f : ℝ → ℝ) (x : ℝ) : Prop := (fun j => f j - x) =O[𝓝[>] 0] fun j => j

theorem Near.tendsto {f : ℝ → ℝ} {x : ℝ} (h : Near f x) : Tendsto f (𝓝[>] 0) (𝓝 x) := by
  have h0 : Tendsto (fun j : ℝ => j) (𝓝[>] 0) (𝓝 0) := tendsto_id.mono_left nhdsWithin_le_nhds
  have h1 := h.trans_tendsto h0
  have := h1.add_const x
  simpa using this

theorem Near.isBigO_one {f : ℝ → ℝ} {x : ℝ} (h : Near f x) : f =O[𝓝[>] 0] fun _ => (1 : ℝ) := h.tendsto.isBigO_one ℝ

theorem near_const (x : ℝ) : Near (fun _ => x) x := by simpa [Near] using isBigO_zero _ _

theorem near_id : Near (fun j => j) 0 := by simpa [Near] using isBigO_refl _ _

theorem Near.add {f g : ℝ → ℝ} {x y : ℝ} (hf : Near f x) (hg : Near g y) : Near (fun j => f j + g j) (x + y) := by
  refine (IsBigO.add hf hg).congr_left fun j => ?_
  ring

theorem Near.sub {f g : ℝ → ℝ} {x y : ℝ} (hf : Near f x) (hg : Near g y) : Near (fun j => f j - g j) (x - y) := by
  refine (IsBigO.sub hf hg).congr_left fun j => ?_
  ring

theorem Near.mul {f g : ℝ → ℝ} {x y : ℝ} (hf : Near f x) (hg : Near g y) : Near (fun j => f j * g j) (x * y) := by
  have h1 : (fun j => (f j - x) * g j) =O[𝓝[>] 0] fun j => j := by
    simpa using IsBigO.mul hf hg.isBigO_one
  have h2 : (fun j => x * (g j - y)) =O[𝓝[>] 0] fun j => j := IsBigO.const_mul_left hg x
  refine (h1.add h2).congr_left fun j => ?_
  ring

theorem Near.sum {ι : Type*} (s : Finset ι) {f : ι → ℝ → ℝ} {x : ι → ℝ} (h : ∀ i ∈ s, Near (f i) (x i)) :
    Near (fun j => ∑ i ∈ s, f i j) (∑ i ∈ s, x i) := by
  have : (fun j => ∑ i ∈ s, (f i j - x i)) =O[𝓝[>] 0] fun j => j :=
    (IsBigO.sum h).congr_left fun j => by simp [Finset.sum_apply]
  refine this.congr_left fun j => ?_
  rw [Finset.sum_sub_distrib]

theorem Near.congr' {f g : ℝ → ℝ} {x : ℝ} (hf : Near f x) (h : ∀ᶠ j in 𝓝[>] 0, f j = g j) : Near g x := by
  refine IsBigO.congr' hf ?_ EventuallyEq.rfl
  filter_upwards [h] with j hj
  rw [hj]

theorem Near.div {f g : ℝ → ℝ} {x y : ℝ} (hf : Near f x) (hg : Near g y) (hy : y ≠ 0) : Near (fun j => f j / g j) (x / y) := by
  have hne : ∀ᶠ j in 𝓝[>] 0, g j ≠ 0 := hg.tendsto.eventually_ne hy
  have h1 : (fun j => (f j * y - x * g j)) =O[𝓝[>] 0] fun j => j := by
    have := (hf.mul (near_const y)).sub ((near_const x).mul hg)
    refine this.congr_left fun j => ?_
    ring
  have h2 : (fun j => 1 / (g j * y)) =O[𝓝[>] 0] fun _ => (1 : ℝ) := by
    have h3 : Tendsto (fun j => 1 / (g j * y)) (𝓝[>] 0) (𝓝 (1 / (y * y))) :=
      tendsto_const_nhds.div (hg.tendsto.mul_const y) (mul_ne_zero hy hy)
    exact h3.isBigO_one ℝ
  have h4 := h1.mul h2
  have h5 : (fun j => f j / g j - x / y) =ᶠ[𝓝[>] 0] fun j => (f j * y - x * g j) * (1 / (g j * y)) := by
    filter_upwards [hne] with j hj
    field_simp
  exact (h4.congr' h5.symm (Eventually.of_forall fun j => by simp))

/-- A product of two small and a bounded factor is small. -/
theorem near_zero_of_isBigO {f : ℝ → ℝ} (h : f =O[𝓝[>] 0] fun j => j) : Near f 0 := by simpa [Near] using h

theorem Near.isBigO_zero {f : ℝ → ℝ} (h : Near f 0) : f =O[𝓝[>] 0] fun j => j := by simpa [Near] using h

variable {n r : Type*} [Fintype n] [Fintype r] [DecidableEq n] [DecidableEq r] {k : ℕ}

/-- The carried pair is near the ideal one. Proof notion, no code behind it. -/
structure NearPair (a : ℝ → n → ℝ) (P : ℝ → Matrix n n ℝ) (A : n → ℝ) (V : Matrix n n ℝ) : Prop where
  mean : ∀ i, Near (fun j => a j i) (A i)
  cov : ∀ i l, Near (fun j => P j i l) (V i l)
  psd : ∀ j, 0 < j → (P j).PosSemidef

theorem near_mulVec {P : ℝ → Matrix n n ℝ} {V : Matrix n n ℝ} (h : ∀ i l, Near (fun j => P j i l) (V i l)) (z : n → ℝ) (i : n) :
    Near (fun j => (P j *ᵥ z) i) ((V *ᵥ z) i) := by
  simp only [mulVec, dotProduct]
  exact Near.sum _ fun l _ => (h i l).mul (near_const _)

theorem near_dot {a : ℝ → n → ℝ} {A : n → ℝ} (h : ∀ i, Near (fun j => a j i) (A i)) (z : n → ℝ) :
    Near (fun j => z ⬝ᵥ a j) (z ⬝ᵥ A) := by
  simp only [dotProduct]
  exact Near.sum _ fun l _ => (near_const _).mul (h l)

open Classical in
/-- One series: with `y` as given, unless it is fully determined, in which case its forecast error has to vanish. -/
theorem NearPair.inner {a : ℝ → n → ℝ} {P : ℝ → Matrix n n ℝ} {A : n → ℝ} {V : Matrix n n ℝ} (h : NearPair a P A V)
    (hV : V.PosSemidef) (x : Series n) (hs : 0 ≤ x.s) (hv : ¬ x.nan → scalarF x V = 0 → x.y - (x.z ⬝ᵥ A + x.d) = 0) :
    NearPair (fun j => (univInner j x (a j) (P j)).a) (fun j => (univInner j x (a j) (P j)).P)
      (A + (x.y - (x.z ⬝ᵥ A + x.d)) • scalarK x V) (V - scalarF x V • vecMulVec (scalarK x V) (scalarK x V)) := by
  have hpsd : ∀ j, 0 < j → (univInner j x (a j) (P j)).P.PosSemidef := fun j hj =>
    univInner_posSemidef (h.psd j hj) x (by linarith) _
  by_cases hnan : x.nan
  · have hK : scalarK x V = 0 := if_pos (Or.inr hnan)
    have ha : ∀ j, (univInner j x (a j) (P j)).a = a j := fun j => by simp [univInner, hnan]
    have hP : ∀ j, (univInner j x (a j) (P j)).P = P j := fun j => by
      simp only [univInner, hnan, or_true, if_true, zero_smul]
      ext i l; simp
    refine ⟨fun i => ?_, fun i l => ?_, hpsd⟩
    · simpa [ha, hK] using h.mean i
    · simpa [hP, hK] using h.cov i l
  have hF0 : Near (fun j => x.z ⬝ᵥ (P j *ᵥ x.z) + x.s) (scalarF x V) :=
    (near_dot (fun i => near_mulVec h.cov x.z i) x.z).add (near_const _)
  have hF : Near (fun j => x.z ⬝ᵥ (P j *ᵥ x.z) + x.s + j) (scalarF x V) := by
    simpa using hF0.add near_id
  have hv' : Near (fun j => x.y - (x.z ⬝ᵥ a j + x.d)) (x.y - (x.z ⬝ᵥ A + x.d)) :=
    (near_const _).sub ((near_dot h.mean x.z).add (near_const _))
  have hVnn : 0 ≤ x.z ⬝ᵥ (V *ᵥ x.z) := by simpa using hV.dotProduct_mulVec_nonneg x.z
  by_cases hz : scalarF x V = 0
  · -- determined
    have hK : scalarK x V = 0 := if_pos (Or.inl hz)
    have hz' : x.z ⬝ᵥ (V *ᵥ x.z) + x.s = 0 := hz
    have hzz : star x.z ⬝ᵥ (V *ᵥ x.z) = 0 := by simp only [star_trivial]; linarith
    have hVz : V *ᵥ x.z = 0 := (hV.dotProduct_mulVec_zero_iff x.z).1 hzz
    have hPz : ∀ i, (fun j => (P j *ᵥ x.z) i) =O[𝓝[>] 0] fun j => j := fun i => by
      have := near_mulVec h.cov x.z i
      rw [hVz] at this
      exact this.isBigO_zero
    have hFj : ∀ j, 0 < j → j ≤ x.z ⬝ᵥ (P j *ᵥ x.z) + x.s + j := fun j hj => by
      have : 0 ≤ x.z ⬝ᵥ (P j *ᵥ x.z) := by simpa using (h.psd j hj).dotProduct_mulVec_nonneg x.z
      linarith
    -- the gain is bounded
    let K : ℝ → n → ℝ := fun j => (if (x.z ⬝ᵥ (P j *ᵥ x.z) + x.s = 0 ∨ x.nan) then (0 : ℝ) else 1) •
      ((1 / (x.z ⬝ᵥ (P j *ᵥ x.z) + x.s + j)) • (P j *ᵥ x.z))
    have hKb : ∀ i, (fun j => K j i) =O[𝓝[>] 0] fun _ => (1 : ℝ) := by
      intro i
      obtain ⟨C, hC⟩ := (hPz i).bound
      refine IsBigO.of_bound C ?_
      filter_upwards [hC, self_mem_nhdsWithin] with j hj hj0
      have hj0 : 0 < j := hj0
      have hFp := hFj j hj0
      have e1 : |(if (x.z ⬝ᵥ (P j *ᵥ x.z) + x.s = 0 ∨ x.nan) then (0 : ℝ) else 1)| ≤ 1 := by
        split_ifs <;> simp
      have e2 : |1 / (x.z ⬝ᵥ (P j *ᵥ x.z) + x.s + j)| ≤ 1 / j := by
        rw [abs_of_pos (one_div_pos.2 (by linarith))]
        exact one_div_le_one_div_of_le hj0 hFp
      have hj' : |(P j *ᵥ x.z) i| ≤ C * j := by
        simpa [Real.norm_eq_abs, abs_of_pos hj0] using hj
      simp only [K, Pi.smul_apply, smul_eq_mul, Real.norm_eq_abs, abs_mul, abs_one, mul_one]
      calc _ ≤ 1 * (1 / j * (C * j)) := by
            refine mul_le_mul e1 (mul_le_mul e2 hj' (abs_nonneg _) (by positivity)) (by positivity) (by norm_num)
        _ = C := by field_simp
    rw [hz] at hF
    rw [hv hnan hz] at hv'
    refine ⟨fun i => ?_, fun i l => ?_, hpsd⟩
    · have e : Near (fun j => (x.y - (x.z ⬝ᵥ a j + x.d)) * K j i) 0 := by
        refine near_zero_of_isBigO ?_
        simpa using hv'.isBigO_zero.mul (hKb i)
      have := (h.mean i).add e
      rw [hK, smul_zero, add_zero]
      rw [add_zero] at this
      exact this
    · have e : Near (fun j => (x.z ⬝ᵥ (P j *ᵥ x.z) + x.s + j) * (K j i * K j l)) 0 := by
        refine near_zero_of_isBigO ?_
        have := hF.isBigO_zero.mul ((hKb i).mul (hKb l))
        simpa using this
      have := (h.cov i l).sub e
      rw [hK, hz, zero_smul, sub_zero]
      rw [sub_zero] at this
      exact this
  · -- not determined
    have hflag : ∀ᶠ j in 𝓝[>] 0, ¬ (x.z ⬝ᵥ (P j *ᵥ x.z) + x.s = 0 ∨ x.nan) := by
      filter_upwards [hF0.tendsto.eventually_ne hz] with j hj
      rintro (h | h)
      · exact hj h
      · exact hnan h
    have hK : scalarK x V = (1 / scalarF x V) • (V *ᵥ x.z) := if_neg (by rintro (h | h); exacts [hz h, hnan h])
    have hKn : ∀ i, Near (fun j => 1 / (x.z ⬝ᵥ (P j *ᵥ x.z) + x.s + j) * (P j *ᵥ x.z) i) (scalarK x V i) := by
      intro i
      rw [hK]
      exact ((near_const 1).div hF hz).mul (near_mulVec h.cov x.z i)
    refine ⟨fun i => ?_, fun i l => ?_, hpsd⟩
    · refine ((h.mean i).add (hv'.mul (hKn i))).congr' ?_
      filter_upwards [hflag] with j hj
      simp only [univInner, if_neg hj, one_smul, Pi.add_apply, Pi.smul_apply, smul_eq_mul]
    · refine ((h.cov i l).sub (hF.mul ((hKn i).mul (hKn l)))).congr' ?_
      filter_upwards [hflag] with j hj
      simp only [univInner, if_neg hj, one_smul, Matrix.sub_apply, Matrix.smul_apply, vecMulVec_apply, Pi.smul_apply, smul_eq_mul]

/-- Symmetrisation, jitter and prediction. -/
theorem NearPair.predict {a : ℝ → n → ℝ} {P : ℝ → Matrix n n ℝ} {A : n → ℝ} {V : Matrix n n ℝ} (h : NearPair a P A V)
    (hV : Vᵀ = V) (θ : Params n (Fin k) r) (hQ : θ.Q.PosSemidef) :
    NearPair a (fun j => stabilize j ((1 / 2 : ℝ) • (P j + (P j)ᵀ))) A V ∧
    NearPair (fun j => (predict (a j) (stabilize j ((1 / 2 : ℝ) • (P j + (P j)ᵀ))) θ.c θ.T θ.R θ.Q).1)
      (fun j => (predict (a j) (stabilize j ((1 / 2 : ℝ) • (P j + (P j)ᵀ))) θ.c θ.T θ.R θ.Q).2)
      (θ.T *ᵥ A + θ.c) (θ.T * V * θ.Tᵀ + θ.R * θ.Q * θ.Rᵀ) := by
  have hsym : ∀ j, 0 < j → (1 / 2 : ℝ) • (P j + (P j)ᵀ) = P j := fun j hj => by
    rw [PosSemidef.transpose_eq (h.psd j hj), ← two_smul ℝ, smul_smul]; norm_num
  have hst : NearPair a (fun j => stabilize j ((1 / 2 : ℝ) • (P j + (P j)ᵀ))) A V := by
    refine ⟨h.mean, fun i l => ?_, fun j hj => ?_⟩
    · have hVs : V l i = V i l := congrFun (congrFun hV i) l
      have h1 := ((near_const (1 / 2)).mul ((h.cov i l).add (h.cov l i))).add (near_id.mul (near_const ((1 : Matrix n n ℝ) i l)))
      rw [hVs] at h1
      have e : 1 / 2 * (V i l + V i l) + 0 * (1 : Matrix n n ℝ) i l = V i l := by ring
      rw [e] at h1
      exact h1
    · rw [hsym j hj]
      exact stabilize_posSemidef hj.le (h.psd j hj)
  refine ⟨hst, fun i => ?_, fun i l => ?_, fun j hj => ?_⟩
  · have h1 := (near_dot h.mean (θ.T i)).add (near_const (θ.c i))
    exact h1
  · have hq : ∀ (S : ℝ → Matrix n n ℝ), (∀ i l, Near (fun j => S j i l) (V i l)) → ∀ i l,
        Near (fun j => (θ.T * S j * θ.Tᵀ) i l) ((θ.T * V * θ.Tᵀ) i l) := by
      intro S hS i l
      simp only [Matrix.mul_apply, transpose_apply]
      exact Near.sum _ fun u _ => (Near.sum _ fun v _ => (near_const _).mul (hS v u)).mul (near_const _)
    have h1 := hq _ hst.cov
    have hTV : (θ.T * V * θ.Tᵀ)ᵀ = θ.T * V * θ.Tᵀ := by
      rw [transpose_mul, transpose_mul, transpose_transpose, hV, Matrix.mul_assoc]
    have h2 : Near (fun j => quadFormSym θ.T (stabilize j ((1 / 2 : ℝ) • (P j + (P j)ᵀ))) i l) ((θ.T * V * θ.Tᵀ) i l) := by
      have h3 := (near_const (1 / 2)).mul ((h1 i l).add (h1 l i))
      have e : (θ.T * V * θ.Tᵀ) l i = (θ.T * V * θ.Tᵀ) i l := congrFun (congrFun hTV i) l
      rw [e, show 1 / 2 * ((θ.T * V * θ.Tᵀ) i l + (θ.T * V * θ.Tᵀ) i l) = (θ.T * V * θ.Tᵀ) i l by ring] at h3
      exact h3
    have h4 := h2.add (near_const (quadFormSym θ.R θ.Q i l))
    rw [quadFormSym_of_symm θ.R (PosSemidef.transpose_eq hQ)] at h4
    simp only [Kalman.predict, quadFormSym_of_symm θ.R (PosSemidef.transpose_eq hQ)]
    exact h4
  · exact (quadFormSym_posSemidef _ (hst.psd j hj)).add (quadFormSym_posSemidef _ hQ)

end Verif.Kalman
