import Verif.Kalman.MoreData
import Verif.Stationary.Spectral
import Verif.Stationary.Lemmas
import Mathlib.Analysis.Matrix.Order

/-!
# C217: where the reported covariances settle — the covariance recursion

Proofs about `P ↦ T cond(P) T' + W`.
-/

set_option autoImplicit false
set_option linter.unusedSectionVars false

open Matrix Filter Topology
open scoped Kronecker

namespace Verif.Kalman

open More Verif.Stationary

namespace Ric

variable {n p : Type*} [Fintype n] [Fintype p] [DecidableEq n] [DecidableEq p]

/-- One step of the covariances. Proof notion for kalman_filter.py:791-820. -/
noncomputable def step (T W : Matrix n n ℝ) (Z : Matrix p n ℝ) (M : Matrix p p ℝ) (P : Matrix n n ℝ) : Matrix n n ℝ :=
  T * Spec.condCov P Z M * Tᵀ + W

/-- The same with any gain. Proof notion, no code behind it. -/
def cl (T W : Matrix n n ℝ) (Z : Matrix p n ℝ) (M : Matrix p p ℝ) (K : Matrix n p ℝ) (P : Matrix n n ℝ) : Matrix n n ℝ :=
  T * joseph K P Z M * Tᵀ + W

/-- The gain. Proof notion, no code behind it. -/
noncomputable def K (Z : Matrix p n ℝ) (M : Matrix p p ℝ) (P : Matrix n n ℝ) : Matrix n p ℝ := P * Zᵀ * (Spec.obsCov P Z M)⁻¹

variable {T W : Matrix n n ℝ} {Z : Matrix p n ℝ} {M : Matrix p p ℝ}

theorem step_psd (hW : W.PosSemidef) (hM : M.PosDef) {P : Matrix n n ℝ} (hP : P.PosSemidef) : (step T W Z M P).PosSemidef := by
  have h1 := (condCov_posSemidef hP Z hM.posSemidef (obsCov_unit hP Z hM)).mul_mul_conjTranspose_same T
  rw [conjTranspose_eq_transpose_of_trivial] at h1
  exact h1.add hW

theorem step_mono (hM : M.PosDef) {P P' : Matrix n n ℝ} (hP : P.PosSemidef) (hP' : P'.PosSemidef) (h : (P - P').PosSemidef) :
    (step T W Z M P - step T W Z M P').PosSemidef := by
  have h1 := condCov_mono hP hP' h Z hM hM (by rw [sub_self]; exact PosSemidef.zero)
  rw [step, step, add_sub_add_right_eq_sub]
  exact Cons.conj T h1

theorem step_le (hM : M.PosDef) {P : Matrix n n ℝ} (hP : P.PosSemidef) (G : Matrix n p ℝ) :
    (cl T W Z M G P - step T W Z M P).PosSemidef := by
  rw [cl, step, add_sub_add_right_eq_sub]
  exact Cons.conj T (condCov_le hP Z hM.posSemidef (obsCov_unit hP Z hM) G)

theorem step_eq_cl (hM : M.PosDef) {P : Matrix n n ℝ} (hP : P.PosSemidef) : step T W Z M P = cl T W Z M (K Z M P) P := by
  rw [cl, step, K, joseph_gain hP Z hM.posSemidef (obsCov_unit hP Z hM)]

theorem cl_sub (G : Matrix n p ℝ) (P P' : Matrix n n ℝ) :
    cl T W Z M G P - cl T W Z M G P' = (T * (1 - G * Z)) * (P - P') * (T * (1 - G * Z))ᵀ := by
  rw [cl, cl, joseph, joseph, add_sub_add_right_eq_sub, ← Matrix.sub_mul, ← Matrix.mul_sub, add_sub_add_right_eq_sub, ← Matrix.sub_mul,
    ← Matrix.mul_sub, transpose_mul T]
  simp only [Matrix.mul_assoc]

theorem step_zero (hW : W.PosSemidef) (hM : M.PosDef) : (step T W Z M 0).PosSemidef := step_psd hW hM PosSemidef.zero

/-! ### Iteration -/

/-- The covariance of date `t`. Proof notion for kalman_filter.py:791-820. -/
noncomputable def seq (T W : Matrix n n ℝ) (Z : Matrix p n ℝ) (M : Matrix p p ℝ) (P0 : Matrix n n ℝ) : ℕ → Matrix n n ℝ
  | 0 => P0
  | t + 1 => step T W Z M (seq T W Z M P0 t)

theorem seq_psd (hW : W.PosSemidef) (hM : M.PosDef) {P0 : Matrix n n ℝ} (hP : P0.PosSemidef) (t : ℕ) :
    (seq T W Z M P0 t).PosSemidef := by
  induction t with
  | zero => exact hP
  | succ t ih => exact step_psd hW hM ih

theorem seq_mono (hW : W.PosSemidef) (hM : M.PosDef) {P P' : Matrix n n ℝ} (hP : P.PosSemidef) (hP' : P'.PosSemidef)
    (h : (P - P').PosSemidef) (t : ℕ) : (seq T W Z M P t - seq T W Z M P' t).PosSemidef := by
  induction t with
  | zero => exact h
  | succ t ih => exact step_mono hM (seq_psd hW hM hP t) (seq_psd hW hM hP' t) ih

theorem seq_succ' (P0 : Matrix n n ℝ) (t : ℕ) : seq T W Z M P0 (t + 1) = seq T W Z M (step T W Z M P0) t := by
  induction t with
  | zero => rfl
  | succ t ih =>
    show step T W Z M (seq T W Z M P0 (t + 1)) = step T W Z M (seq T W Z M (step T W Z M P0) t)
    rw [ih]

/-- From a known start the covariances never decrease. -/
theorem seq_zero_mono (hW : W.PosSemidef) (hM : M.PosDef) (t : ℕ) :
    (seq T W Z M 0 (t + 1) - seq T W Z M 0 t).PosSemidef := by
  rw [seq_succ']
  exact seq_mono hW hM (step_zero hW hM) PosSemidef.zero (by rw [sub_zero]; exact step_zero hW hM) t

/-- From a start that one step does not increase the covariances never increase. -/
theorem seq_anti (hW : W.PosSemidef) (hM : M.PosDef) {P0 : Matrix n n ℝ} (hP : P0.PosSemidef) (h : (P0 - step T W Z M P0).PosSemidef)
    (t : ℕ) : (seq T W Z M P0 t - seq T W Z M P0 (t + 1)).PosSemidef := by
  rw [seq_succ']
  exact seq_mono hW hM hP (step_psd hW hM hP) h t

/-! ### Limits -/

theorem psd_of_tendsto {V : ℕ → Matrix n n ℝ} {L : Matrix n n ℝ} (h : Tendsto V atTop (𝓝 L)) (hV : ∀ t, (V t).PosSemidef) :
    L.PosSemidef := by
  refine PosSemidef.of_dotProduct_mulVec_nonneg ?_ fun x => ?_
  · have h1 : Tendsto (fun t => (V t)ᵀ) atTop (𝓝 Lᵀ) := (continuous_id.matrix_transpose.tendsto L).comp h
    have h2 : (fun t => (V t)ᵀ) = V := funext fun t => PosSemidef.transpose_eq (hV t)
    rw [h2] at h1
    rw [IsHermitian, conjTranspose_eq_transpose_of_trivial]
    exact tendsto_nhds_unique h1 h
  · have hc : Continuous fun A : Matrix n n ℝ => star x ⬝ᵥ (A *ᵥ x) :=
      continuous_const.dotProduct (continuous_id.matrix_mulVec continuous_const)
    exact ge_of_tendsto' ((hc.tendsto L).comp h) fun t => (hV t).dotProduct_mulVec_nonneg x

/-- A never decreasing bounded sequence of covariance matrices converges. -/
theorem tendsto_of_mono {V : ℕ → Matrix n n ℝ} {S : Matrix n n ℝ} (hV : ∀ t, (V t).PosSemidef)
    (hm : ∀ t, (V (t + 1) - V t).PosSemidef) (hS : ∀ t, (S - V t).PosSemidef) : ∃ L, Tendsto V atTop (𝓝 L) := by
  have hq : ∀ x : n → ℝ, ∃ l, Tendsto (fun t => x ⬝ᵥ (V t *ᵥ x)) atTop (𝓝 l) := by
    intro x
    refine ⟨_, tendsto_atTop_ciSup (monotone_nat_of_le_succ fun t => ?_) ⟨x ⬝ᵥ (S *ᵥ x), ?_⟩⟩
    · have := (hm t).dotProduct_mulVec_nonneg x
      simp only [star_trivial, sub_mulVec, dotProduct_sub] at this
      linarith
    · rintro _ ⟨t, rfl⟩
      have := (hS t).dotProduct_mulVec_nonneg x
      simp only [star_trivial, sub_mulVec, dotProduct_sub] at this
      show x ⬝ᵥ (V t *ᵥ x) ≤ _
      linarith
  choose l hl using hq
  have hpol : ∀ t i k, V t i k = ((Pi.single i 1 + Pi.single k 1) ⬝ᵥ (V t *ᵥ (Pi.single i 1 + Pi.single k 1)) -
      Pi.single i 1 ⬝ᵥ (V t *ᵥ Pi.single i 1) - Pi.single k 1 ⬝ᵥ (V t *ᵥ Pi.single k 1)) / 2 := by
    intro t i k
    have hs : V t k i = V t i k := by
      conv_lhs => rw [← PosSemidef.transpose_eq (hV t)]
      rfl
    simp only [mulVec_add, dotProduct_add, add_dotProduct, single_one_dotProduct, mulVec_single_one, col_apply, hs]
    ring
  refine ⟨Matrix.of fun i k => (l (Pi.single i 1 + Pi.single k 1) - l (Pi.single i 1) - l (Pi.single k 1)) / 2, ?_⟩
  refine tendsto_pi_nhds.2 fun i => tendsto_pi_nhds.2 fun k => ?_
  simp only [hpol _ i k, of_apply]
  exact ((((hl _).sub (hl _)).sub (hl _)).div_const 2)

/-- Between two sequences with the same limit. -/
theorem tendsto_squeeze {U V X : ℕ → Matrix n n ℝ} {L : Matrix n n ℝ} (hU : Tendsto U atTop (𝓝 L)) (hX : Tendsto X atTop (𝓝 L))
    (hs : ∀ t, (V t)ᵀ = V t) (hUs : ∀ t, (U t)ᵀ = U t) (hXs : ∀ t, (X t)ᵀ = X t)
    (h1 : ∀ t, (V t - U t).PosSemidef) (h2 : ∀ t, (X t - V t).PosSemidef) : Tendsto V atTop (𝓝 L) := by
  have hpol : ∀ A : Matrix n n ℝ, Aᵀ = A → ∀ i k, A i k = ((Pi.single i 1 + Pi.single k 1) ⬝ᵥ (A *ᵥ (Pi.single i 1 + Pi.single k 1)) -
      Pi.single i 1 ⬝ᵥ (A *ᵥ Pi.single i 1) - Pi.single k 1 ⬝ᵥ (A *ᵥ Pi.single k 1)) / 2 := by
    intro A hA i k
    have hs : A k i = A i k := by
      conv_lhs => rw [← hA]
      rfl
    simp only [mulVec_add, dotProduct_add, add_dotProduct, single_one_dotProduct, mulVec_single_one, col_apply, hs]
    ring
  have hLs : Lᵀ = L := by
    have h3 : Tendsto (fun t => (U t)ᵀ) atTop (𝓝 Lᵀ) := (continuous_id.matrix_transpose.tendsto L).comp hU
    rw [funext hUs] at h3
    exact tendsto_nhds_unique h3 hU
  have hq : ∀ x : n → ℝ, Tendsto (fun t => x ⬝ᵥ (V t *ᵥ x)) atTop (𝓝 (x ⬝ᵥ (L *ᵥ x))) := by
    intro x
    have hc : Continuous fun A : Matrix n n ℝ => x ⬝ᵥ (A *ᵥ x) :=
      continuous_const.dotProduct (continuous_id.matrix_mulVec continuous_const)
    refine tendsto_of_tendsto_of_tendsto_of_le_of_le ((hc.tendsto L).comp hU) ((hc.tendsto L).comp hX) (fun t => ?_) (fun t => ?_)
    · have := (h1 t).dotProduct_mulVec_nonneg x
      simp only [star_trivial, sub_mulVec, dotProduct_sub] at this
      show x ⬝ᵥ (U t *ᵥ x) ≤ _
      linarith
    · have := (h2 t).dotProduct_mulVec_nonneg x
      simp only [star_trivial, sub_mulVec, dotProduct_sub] at this
      show _ ≤ x ⬝ᵥ (X t *ᵥ x)
      linarith
  refine tendsto_pi_nhds.2 fun i => tendsto_pi_nhds.2 fun k => ?_
  rw [hpol L hLs]
  simp only [fun t => hpol (V t) (hs t) i k]
  exact (((hq _).sub (hq _)).sub (hq _)).div_const 2

theorem tendsto_mul {a b c : Type*} [Fintype b] {f : ℕ → Matrix a b ℝ} {g : ℕ → Matrix b c ℝ} {A : Matrix a b ℝ} {B : Matrix b c ℝ}
    (hf : Tendsto f atTop (𝓝 A)) (hg : Tendsto g atTop (𝓝 B)) : Tendsto (fun t => f t * g t) atTop (𝓝 (A * B)) := by
  have hc : Continuous fun q : Matrix a b ℝ × Matrix b c ℝ => q.1 * q.2 := continuous_fst.matrix_mul continuous_snd
  exact (hc.tendsto (A, B)).comp (hf.prodMk_nhds hg)

/-- The step is continuous at covariance matrices. -/
theorem step_tendsto (hM : M.PosDef) {V : ℕ → Matrix n n ℝ} {L : Matrix n n ℝ} (hL : L.PosSemidef) (h : Tendsto V atTop (𝓝 L)) :
    Tendsto (fun t => step T W Z M (V t)) atTop (𝓝 (step T W Z M L)) := by
  have ho : Tendsto (fun t => Spec.obsCov (V t) Z M) atTop (𝓝 (Spec.obsCov L Z M)) := by
    have hc : Continuous fun A : Matrix n n ℝ => Spec.obsCov A Z M := by
      unfold Spec.obsCov
      exact ((continuous_const.matrix_mul continuous_id).matrix_mul continuous_const).add continuous_const
    exact (hc.tendsto L).comp h
  have hi := (inv_continuousAt (obsCov_unit hL Z hM)).tendsto.comp ho
  have hg : Tendsto (fun t => V t * Zᵀ * (Spec.obsCov (V t) Z M)⁻¹) atTop (𝓝 (L * Zᵀ * (Spec.obsCov L Z M)⁻¹)) :=
    tendsto_mul (tendsto_mul h tendsto_const_nhds) hi
  have hc : Tendsto (fun t => Spec.condCov (V t) Z M) atTop (𝓝 (Spec.condCov L Z M)) :=
    h.sub (tendsto_mul (tendsto_mul hg tendsto_const_nhds) h)
  exact (tendsto_mul (tendsto_mul tendsto_const_nhds hc) tendsto_const_nhds).add tendsto_const_nhds

/-! ### The closed loop -/

theorem stable_transpose {A : Matrix n n ℝ} (h : Stationary.Spec.Stable A) : Stationary.Spec.Stable Aᵀ := by
  have h1 : Tendsto (fun k : ℕ => (A ^ k)ᵀ) atTop (𝓝 (0 : Matrix n n ℝ)ᵀ) := (continuous_id.matrix_transpose.tendsto 0).comp h
  rw [transpose_zero] at h1
  exact h1.congr fun k => by rw [transpose_pow]

/-- The eigenvector equation, in real and imaginary parts. -/
theorem re_im {A : Matrix n n ℝ} {z : ℂ} {v : n → ℂ} : (A.map Complex.ofReal) *ᵥ v = z • v ↔
    A *ᵥ (fun i => (v i).re) = z.re • (fun i => (v i).re) - z.im • (fun i => (v i).im) ∧
    A *ᵥ (fun i => (v i).im) = z.im • (fun i => (v i).re) + z.re • (fun i => (v i).im) := by
  have hre : ∀ i, ((A.map Complex.ofReal *ᵥ v) i).re = (A *ᵥ fun i => (v i).re) i := by
    intro i; simp [mulVec, dotProduct, Complex.re_sum]
  have him : ∀ i, ((A.map Complex.ofReal *ᵥ v) i).im = (A *ᵥ fun i => (v i).im) i := by
    intro i; simp [mulVec, dotProduct, Complex.im_sum]
  constructor
  · intro h
    refine ⟨funext fun i => ?_, funext fun i => ?_⟩
    · rw [← hre, h]; simp
    · rw [← him, h]; simp; ring
  · rintro ⟨h1, h2⟩
    funext i
    apply Complex.ext
    · rw [hre, h1]; simp
    · rw [him, h2]; simp; ring

theorem quad_rot {L : Matrix n n ℝ} (hL : Lᵀ = L) (x y : n → ℝ) (a b : ℝ) :
    (a • x - b • y) ⬝ᵥ (L *ᵥ (a • x - b • y)) + (b • x + a • y) ⬝ᵥ (L *ᵥ (b • x + a • y)) =
      (a ^ 2 + b ^ 2) * (x ⬝ᵥ (L *ᵥ x) + y ⬝ᵥ (L *ᵥ y)) := by
  have hs : y ⬝ᵥ (L *ᵥ x) = x ⬝ᵥ (L *ᵥ y) := by
    conv_lhs => rw [← hL]
    rw [mulVec_transpose, dotProduct_comm, ← dotProduct_mulVec]
  simp only [mulVec_add, mulVec_sub, mulVec_smul, dotProduct_add, dotProduct_sub, add_dotProduct, sub_dotProduct, dotProduct_smul,
    smul_dotProduct, smul_eq_mul, hs]
  ring

theorem quad_conj {m : Type*} [Fintype m] (A : Matrix n m ℝ) (L : Matrix m m ℝ) (x : n → ℝ) :
    x ⬝ᵥ ((A * L * Aᵀ) *ᵥ x) = (Aᵀ *ᵥ x) ⬝ᵥ (L *ᵥ (Aᵀ *ᵥ x)) := by
  rw [← mulVec_mulVec, ← mulVec_mulVec, dotProduct_mulVec, mulVec_transpose]

/-- Every mode that does not die out is excited by `W`. Proof notion, no code behind it. -/
def Excited (T W : Matrix n n ℝ) : Prop := ∀ (z : ℂ) (v : n → ℂ), v ≠ 0 → 1 ≤ ‖z‖ → (Tᵀ.map Complex.ofReal) *ᵥ v = z • v →
  ¬ (W *ᵥ (fun i => (v i).re) = 0 ∧ W *ᵥ (fun i => (v i).im) = 0)

theorem excited_of_stable (hT : Stationary.Spec.Stable T) (W : Matrix n n ℝ) : Excited T W := fun z v hv hz h =>
  absurd ((Stationary.stable_iff _).1 (stable_transpose hT) z v hv h) (not_lt.2 hz)

/-- At a fixed point the errors of the past die out. -/
theorem closed_stable (hT : Excited T W) (hW : W.PosSemidef) (hM : M.PosDef) {L : Matrix n n ℝ} (hL : L.PosSemidef)
    (hfix : step T W Z M L = L) : Stationary.Spec.Stable (T * (1 - K Z M L * Z)) := by
  set G := K Z M L with hG
  set A := T * (1 - G * Z) with hA
  have heq : A * L * Aᵀ + (T * G) * M * (T * G)ᵀ + W = L := by
    conv_rhs => rw [← hfix, step_eq_cl hM hL, cl, joseph, ← hG]
    rw [hA, transpose_mul T, transpose_mul T]
    simp only [Matrix.mul_add, Matrix.add_mul, Matrix.mul_assoc]
  have hq : ∀ x, x ⬝ᵥ (L *ᵥ x) = (Aᵀ *ᵥ x) ⬝ᵥ (L *ᵥ (Aᵀ *ᵥ x)) + ((T * G)ᵀ *ᵥ x) ⬝ᵥ (M *ᵥ ((T * G)ᵀ *ᵥ x)) + x ⬝ᵥ (W *ᵥ x) := by
    intro x
    conv_lhs => rw [← heq]
    rw [add_mulVec, add_mulVec, dotProduct_add, dotProduct_add, quad_conj, quad_conj]
  have hLt := PosSemidef.transpose_eq hL
  have hAt : Stationary.Spec.Stable Aᵀ := by
    rw [Stationary.stable_iff]
    intro z v hv hz
    by_contra hge
    rw [not_lt] at hge
    obtain ⟨h1, h2⟩ := re_im.1 hz
    set x : n → ℝ := fun i => (v i).re
    set y : n → ℝ := fun i => (v i).im
    have hr := quad_rot hLt x y z.re z.im
    have qx := hq x
    have qy := hq y
    rw [h1] at qx
    rw [h2] at qy
    have px := hL.dotProduct_mulVec_nonneg x
    have py := hL.dotProduct_mulVec_nonneg y
    have wx := hW.dotProduct_mulVec_nonneg x
    have wy := hW.dotProduct_mulVec_nonneg y
    have mx := hM.posSemidef.dotProduct_mulVec_nonneg ((T * G)ᵀ *ᵥ x)
    have my := hM.posSemidef.dotProduct_mulVec_nonneg ((T * G)ᵀ *ᵥ y)
    simp only [star_trivial] at px py wx wy mx my
    have hn : 1 ≤ z.re ^ 2 + z.im ^ 2 := by
      have : ‖z‖ ^ 2 = z.re ^ 2 + z.im ^ 2 := by rw [Complex.sq_norm, Complex.normSq_apply]; ring
      rw [← this]; nlinarith
    have hmul := mul_nonneg (sub_nonneg.2 hn) (add_nonneg px py)
    have ex : x ⬝ᵥ (W *ᵥ x) = 0 := by nlinarith
    have ey : y ⬝ᵥ (W *ᵥ y) = 0 := by nlinarith
    have zx : ((T * G)ᵀ *ᵥ x) ⬝ᵥ (M *ᵥ ((T * G)ᵀ *ᵥ x)) = 0 := by nlinarith
    have zy : ((T * G)ᵀ *ᵥ y) ⬝ᵥ (M *ᵥ ((T * G)ᵀ *ᵥ y)) = 0 := by nlinarith
    have hzero : ∀ u : p → ℝ, u ⬝ᵥ (M *ᵥ u) = 0 → u = 0 := by
      intro u hu
      by_contra hne
      have := hM.dotProduct_mulVec_pos hne
      simp only [star_trivial] at this
      exact this.ne' hu
    have hTA : ∀ u : n → ℝ, (T * G)ᵀ *ᵥ u = 0 → Aᵀ *ᵥ u = Tᵀ *ᵥ u := by
      intro u hu
      have : Aᵀ = Tᵀ - Zᵀ * (T * G)ᵀ := by
        rw [hA, Matrix.mul_sub, Matrix.mul_one, transpose_sub, ← Matrix.mul_assoc, transpose_mul (T * G)]
      rw [this, sub_mulVec, ← mulVec_mulVec, hu, mulVec_zero, sub_zero]
    have hTz : (Tᵀ.map Complex.ofReal) *ᵥ v = z • v := by
      refine re_im.2 ⟨?_, ?_⟩
      · rw [← hTA _ (hzero _ zx)]; exact h1
      · rw [← hTA _ (hzero _ zy)]; exact h2
    exact hT z v hv hge hTz ⟨(hW.dotProduct_mulVec_zero_iff x).1 (by simpa using ex), (hW.dotProduct_mulVec_zero_iff y).1 (by simpa using ey)⟩
  have := stable_transpose hAt
  rwa [transpose_transpose] at this

theorem condCov_le_self (hM : M.PosDef) {P : Matrix n n ℝ} (hP : P.PosSemidef) : (P - Spec.condCov P Z M).PosSemidef := by
  have := condCov_le hP Z hM.posSemidef (obsCov_unit hP Z hM) 0
  simpa [joseph] using this

/-- If some fixed gain keeps the errors small and every lasting mode is excited, there is one covariance that a step leaves unchanged,
and every start leads to it. -/
theorem converges (hD : ∃ G : Matrix n p ℝ, Stationary.Spec.Stable (T * (1 - G * Z))) (hT : Excited T W) (hW : W.PosSemidef)
    (hM : M.PosDef) :
    ∃ L : Matrix n n ℝ, L.PosSemidef ∧ step T W Z M L = L ∧ (∀ L', L'.PosSemidef → step T W Z M L' = L' → L' = L) ∧
      ∀ P0 : Matrix n n ℝ, P0.PosSemidef → Tendsto (seq T W Z M P0) atTop (𝓝 L) := by
  obtain ⟨G, hG⟩ := hD
  have hW' : ((T * G) * M * (T * G)ᵀ + W).PosSemidef := by
    have h1 := hM.posSemidef.mul_mul_conjTranspose_same (T * G)
    rw [conjTranspose_eq_transpose_of_trivial] at h1
    exact h1.add hW
  have hS := lyapunov_solves ((T * G) * M * (T * G)ᵀ + W) (stable_unit_kron hG)
  set S := lyapunov (T * (1 - G * Z)) ((T * G) * M * (T * G)ᵀ + W)
  have hSp : S.PosSemidef := posSemidef_of_stable hG hW' hS
  have hS1 : (S - step T W Z M S).PosSemidef := by
    have h1 := step_le (T := T) (W := W) (Z := Z) hM hSp G
    have h2 : cl T W Z M G S = S := by
      conv_rhs => rw [← hS]
      rw [cl, joseph, transpose_mul T, transpose_mul T]
      simp only [Matrix.mul_add, Matrix.add_mul, Matrix.mul_assoc]
      abel
    rwa [h2] at h1
  have hSb : ∀ t, (S - seq T W Z M S t).PosSemidef := by
    intro t
    induction t with
    | zero => rw [seq, sub_self]; exact PosSemidef.zero
    | succ t ih => exact sub_trans ih (seq_anti hW hM hSp hS1 t)
  have hb : ∀ t, (S - seq T W Z M 0 t).PosSemidef := fun t =>
    sub_trans (hSb t) (seq_mono hW hM hSp PosSemidef.zero (by rwa [sub_zero]) t)
  obtain ⟨L, hL⟩ := tendsto_of_mono (seq_psd hW hM PosSemidef.zero) (seq_zero_mono hW hM) hb
  have hLp := psd_of_tendsto hL (seq_psd hW hM PosSemidef.zero)
  have hfix : step T W Z M L = L := by
    have h1 := step_tendsto (T := T) (W := W) (Z := Z) hM hLp hL
    have h2 : Tendsto (fun t => seq T W Z M 0 (t + 1)) atTop (𝓝 L) := hL.comp (tendsto_add_atTop_nat 1)
    exact tendsto_nhds_unique h1 h2
  have hA := closed_stable hT hW hM hLp hfix
  set A := T * (1 - K Z M L * Z) with hAd
  have hall : ∀ P0 : Matrix n n ℝ, P0.PosSemidef → Tendsto (seq T W Z M P0) atTop (𝓝 L) := by
    intro P0 hP
    have hX : Tendsto (fun t : ℕ => L + A ^ t * (P0 - L) * (A ^ t)ᵀ) atTop (𝓝 (L + 0)) :=
      tendsto_const_nhds.add (stable_sandwich hA _)
    rw [add_zero] at hX
    have hsub : (P0 - L)ᵀ = P0 - L := by rw [transpose_sub, PosSemidef.transpose_eq hP, PosSemidef.transpose_eq hLp]
    refine tendsto_squeeze hL hX (fun t => PosSemidef.transpose_eq (seq_psd hW hM hP t))
      (fun t => PosSemidef.transpose_eq (seq_psd hW hM PosSemidef.zero t)) (fun t => ?_)
      (fun t => seq_mono hW hM hP PosSemidef.zero (by rwa [sub_zero]) t) (fun t => ?_)
    · rw [transpose_add, PosSemidef.transpose_eq hLp, transpose_mul, transpose_mul, transpose_transpose, hsub, Matrix.mul_assoc]
    · induction t with
      | zero => simpa [seq] using PosSemidef.zero
      | succ t ih =>
        have hPt := seq_psd (T := T) (Z := Z) hW hM hP t
        have h1 := step_le (T := T) (W := W) (Z := Z) hM hPt (K Z M L)
        have h2 := cl_sub (T := T) (W := W) (Z := Z) (M := M) (K Z M L) (seq T W Z M P0 t) L
        rw [← step_eq_cl hM hLp, hfix, ← hAd] at h2
        have h3 := Cons.conj A ih
        have h4 := h1.add h3
        convert h4 using 1
        rw [sub_eq_iff_eq_add.1 h2, seq, pow_succ', transpose_mul]
        have h5 : A * (L + A ^ t * (P0 - L) * (A ^ t)ᵀ) * Aᵀ = A * L * Aᵀ + A * A ^ t * (P0 - L) * ((A ^ t)ᵀ * Aᵀ) := by
          simp only [Matrix.mul_add, Matrix.add_mul, Matrix.mul_assoc]
        rw [h5, Matrix.mul_sub A, Matrix.sub_mul]
        abel
  refine ⟨L, hLp, hfix, fun L' hL' hf => ?_, hall⟩
  have hc : ∀ t, seq T W Z M L' t = L' := by
    intro t
    induction t with
    | zero => rfl
    | succ t ih => rw [seq, ih, hf]
  have := hall L' hL'
  rw [funext hc] at this
  exact tendsto_nhds_unique tendsto_const_nhds this

end Ric

end Verif.Kalman
