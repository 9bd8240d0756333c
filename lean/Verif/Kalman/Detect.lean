import Verif.Kalman.SettleProps
import Mathlib.LinearAlgebra.Matrix.Charpoly.Coeff
import Mathlib.LinearAlgebra.Basis.VectorSpace

/-!
# C217: when a state can be tracked

A state can be tracked exactly if what is never seen dies out by itself.
-/

set_option autoImplicit false
set_option linter.unusedSectionVars false

open Matrix Filter Topology

namespace Verif.Kalman

open More Verif.Stationary

variable {n p r : Type*} [Fintype n] [Fintype p] [Fintype r] [DecidableEq n] [DecidableEq p] [DecidableEq r] {k : ℕ}

namespace Spec

/-- What the series of `s` never show dies out: if, left alone, a deviation `x` of the state never moves a series of `s`, it tends to
zero. Specification, no code behind it. -/
def UnseenDies (s : p → Prop) (T : Matrix n n ℝ) (Z : Matrix p n ℝ) : Prop :=
  ∀ x : n → ℝ, (∀ t : ℕ, ∀ i, s i → (Z *ᵥ (T ^ t *ᵥ x)) i = 0) → Tendsto (fun t : ℕ => T ^ t *ᵥ x) atTop (𝓝 0)

end Spec

namespace Ric

variable {T W : Matrix n n ℝ} {Z : Matrix p n ℝ} {M : Matrix p p ℝ}

/-- One step costs at most what any control costs. -/
theorem step_quad (hM : M.PosDef) {P : Matrix n n ℝ} (hP : P.PosSemidef) (x : n → ℝ) (γ : p → ℝ) :
    x ⬝ᵥ (step T W Z M P *ᵥ x) ≤
      (Tᵀ *ᵥ x - Zᵀ *ᵥ γ) ⬝ᵥ (P *ᵥ (Tᵀ *ᵥ x - Zᵀ *ᵥ γ)) + γ ⬝ᵥ (M *ᵥ γ) + x ⬝ᵥ (W *ᵥ x) := by
  have pξ := hP.dotProduct_mulVec_nonneg (Tᵀ *ᵥ x - Zᵀ *ᵥ γ)
  have pγ := hM.posSemidef.dotProduct_mulVec_nonneg γ
  simp only [star_trivial] at pξ pγ
  by_cases hu : Tᵀ *ᵥ x = 0
  · rw [step, add_mulVec, dotProduct_add, quad_conj, hu, mulVec_zero, dotProduct_zero]
    rw [hu] at pξ
    linarith
  · set u := Tᵀ *ᵥ x
    have huu : u ⬝ᵥ u ≠ 0 := fun h => hu (dotProduct_self_eq_zero.1 h)
    set G : Matrix n p ℝ := (u ⬝ᵥ u)⁻¹ • vecMulVec u γ with hG
    have hGu : Gᵀ *ᵥ u = γ := by
      rw [hG, transpose_smul, transpose_vecMulVec, smul_mulVec, vecMulVec_mulVec]
      ext i
      simp
      field_simp
    have h1 := (step_le (T := T) (W := W) (Z := Z) hM hP G).dotProduct_mulVec_nonneg x
    rw [star_trivial, sub_mulVec, dotProduct_sub] at h1
    have h2 : x ⬝ᵥ (cl T W Z M G P *ᵥ x) = (u - Zᵀ *ᵥ γ) ⬝ᵥ (P *ᵥ (u - Zᵀ *ᵥ γ)) + γ ⬝ᵥ (M *ᵥ γ) + x ⬝ᵥ (W *ᵥ x) := by
      rw [cl, add_mulVec, dotProduct_add, quad_conj, joseph, add_mulVec, dotProduct_add, quad_conj, quad_conj]
      have h3 : (1 - G * Z)ᵀ *ᵥ u = u - Zᵀ *ᵥ γ := by
        rw [transpose_sub, transpose_one, transpose_mul, sub_mulVec, one_mulVec, ← mulVec_mulVec, hGu]
      rw [h3, hGu]
    rw [h2] at h1
    linarith

/-- The path of a control. Proof notion, no code behind it. -/
def path (T : Matrix n n ℝ) (Z : Matrix p n ℝ) (B : ℕ → Matrix p n ℝ) : ℕ → Matrix n n ℝ
  | 0 => 1
  | i + 1 => Tᵀ * path T Z B i - Zᵀ * B i

theorem path_eq (B : ℕ → Matrix p n ℝ) (i : ℕ) :
    path T Z B i = Tᵀ ^ i - ∑ l ∈ Finset.range i, Tᵀ ^ (i - 1 - l) * Zᵀ * B l := by
  induction i with
  | zero => simp [path]
  | succ i ih =>
    rw [path, ih, Finset.sum_range_succ, Matrix.mul_sub, ← pow_succ', Finset.mul_sum]
    have : ∀ l ∈ Finset.range i, Tᵀ * (Tᵀ ^ (i - 1 - l) * Zᵀ * B l) = Tᵀ ^ (i + 1 - 1 - l) * Zᵀ * B l := by
      intro l hl
      rw [Finset.mem_range] at hl
      rw [← Matrix.mul_assoc, ← Matrix.mul_assoc, ← pow_succ']
      congr 3
      omega
    rw [Finset.sum_congr rfl this]
    simp
    abel

theorem path_cost (hW : W.PosSemidef) (hM : M.PosDef) {P0 : Matrix n n ℝ} (hP : P0.PosSemidef) (B : ℕ → Matrix p n ℝ) (x : n → ℝ)
    (i t : ℕ) : x ⬝ᵥ (seq T W Z M P0 (t + i) *ᵥ x) ≤
      (path T Z B i *ᵥ x) ⬝ᵥ (seq T W Z M P0 t *ᵥ (path T Z B i *ᵥ x)) +
      ∑ l ∈ Finset.range i, ((B l *ᵥ x) ⬝ᵥ (M *ᵥ (B l *ᵥ x)) + (path T Z B l *ᵥ x) ⬝ᵥ (W *ᵥ (path T Z B l *ᵥ x))) := by
  induction i generalizing t with
  | zero => simp [path]
  | succ i ih =>
    have h1 := ih (t + 1)
    have h2 := step_quad (T := T) (W := W) (Z := Z) hM (seq_psd (T := T) (Z := Z) hW hM hP t) (path T Z B i *ᵥ x) (B i *ᵥ x)
    rw [Finset.sum_range_succ, path, sub_mulVec, ← mulVec_mulVec, ← mulVec_mulVec]
    rw [show t + (i + 1) = t + 1 + i by ring]
    rw [show seq T W Z M P0 (t + 1) = step T W Z M (seq T W Z M P0 t) from rfl] at h1
    linarith

/-- Every matrix has a generalised inverse. -/
theorem exists_ginv (O : Matrix n n ℝ) : ∃ Y : Matrix n n ℝ, O * Y * O = O := by
  set f := Matrix.toLin' O
  obtain ⟨g, hg⟩ := LinearMap.exists_rightInverse_of_surjective f.rangeRestrict (LinearMap.range_rangeRestrict f)
  obtain ⟨g', hg'⟩ := LinearMap.exists_extend g
  refine ⟨LinearMap.toMatrix' g', Matrix.toLin'.injective ?_⟩
  rw [Matrix.toLin'_mul, Matrix.toLin'_mul, Matrix.toLin'_toMatrix']
  refine LinearMap.ext fun v => ?_
  have h1 : g' (f v) = g (f.rangeRestrict v) := by rw [← hg']; rfl
  have h2 := LinearMap.congr_fun hg (f.rangeRestrict v)
  show f (g' (f v)) = f v
  rw [h1]
  exact congrArg Subtype.val h2

/-- What is unseen for as many dates as there are states is unseen forever. -/
theorem unseen_forever {v : n → ℝ} (h : ∀ i < Fintype.card n + 1, Z *ᵥ (T ^ i *ᵥ v) = 0) (t : ℕ) : Z *ᵥ (T ^ t *ᵥ v) = 0 := by
  rw [Matrix.pow_eq_aeval_mod_charpoly, Polynomial.aeval_eq_sum_range' (n := Fintype.card n + 1), sum_mulVec, mulVec_sum]
  · refine Finset.sum_eq_zero fun i hi => ?_
    rw [smul_mulVec, mulVec_smul, h i (Finset.mem_range.1 hi), smul_zero]
  · have := Polynomial.natDegree_modByMonic_le (Polynomial.X ^ t) (charpoly_monic T)
    rw [charpoly_natDegree_eq_dim] at this
    omega

theorem gram_quad {m : Type*} [Fintype m] (D : Matrix m n ℝ) (x : n → ℝ) : x ⬝ᵥ ((Dᵀ * D) *ᵥ x) = (D *ᵥ x) ⬝ᵥ (D *ᵥ x) := by
  rw [← mulVec_mulVec, dotProduct_mulVec x, vecMul_transpose]

/-- If what is unseen dies out there is a gain with a stable closed loop. -/
theorem exists_gain (hs : ∀ x : n → ℝ, (∀ t : ℕ, Z *ᵥ (T ^ t *ᵥ x) = 0) → Tendsto (fun t : ℕ => T ^ t *ᵥ x) atTop (𝓝 0)) :
    ∃ G : Matrix n p ℝ, Stationary.Spec.Stable (T * (1 - G * Z)) := by
  set N := Fintype.card n + 1 with hN
  set O : Matrix n n ℝ := ∑ l ∈ Finset.range N, Tᵀ ^ (N - 1 - l) * Zᵀ * (Z * T ^ (N - 1 - l)) with hO
  obtain ⟨Y, hY⟩ := exists_ginv O
  have hOt : Oᵀ = O := by
    rw [hO, transpose_sum]
    refine Finset.sum_congr rfl fun l _ => ?_
    rw [transpose_mul, transpose_mul, transpose_mul, transpose_pow, transpose_pow, transpose_transpose, transpose_transpose]
  set ρ : Matrix n n ℝ := 1 - Yᵀ * O with hρ
  have hOρ : O * ρ = 0 := by
    have := congrArg transpose hY
    rw [transpose_mul, transpose_mul, hOt] at this
    rw [hρ, Matrix.mul_sub, Matrix.mul_one, this, sub_self]
  have hun : ∀ (v : n → ℝ), O *ᵥ v = 0 → ∀ t : ℕ, Z *ᵥ (T ^ t *ᵥ v) = 0 := by
    intro v hv
    refine unseen_forever fun i hi => ?_
    have h1 : ∑ l ∈ Finset.range N, (Z *ᵥ (T ^ (N - 1 - l) *ᵥ v)) ⬝ᵥ (Z *ᵥ (T ^ (N - 1 - l) *ᵥ v)) = 0 := by
      have h2 : v ⬝ᵥ (O *ᵥ v) = 0 := by rw [hv, dotProduct_zero]
      rw [hO, sum_mulVec, dotProduct_sum] at h2
      rw [← h2]
      refine Finset.sum_congr rfl fun l _ => ?_
      rw [← mulVec_mulVec, ← mulVec_mulVec, ← mulVec_mulVec, ← transpose_pow, dotProduct_mulVec v, vecMul_transpose, dotProduct_mulVec _ Zᵀ,
        vecMul_transpose]
    have h3 := (Finset.sum_eq_zero_iff_of_nonneg fun l _ => Finset.sum_nonneg fun i _ => mul_self_nonneg _).1 h1 (N - 1 - i)
      (Finset.mem_range.2 (by omega))
    rw [show N - 1 - (N - 1 - i) = i by omega] at h3
    exact dotProduct_self_eq_zero.1 h3
  have hcol : ∀ (v : n → ℝ) (t : ℕ), Z *ᵥ (T ^ t *ᵥ (ρ *ᵥ v)) = 0 := fun v =>
    hun _ (by rw [mulVec_mulVec, hOρ, zero_mulVec])
  have hmat : ∀ t : ℕ, Z * T ^ t * ρ = 0 := by
    intro t
    refine Matrix.ext_of_mulVec_single fun i => ?_
    rw [← mulVec_mulVec, ← mulVec_mulVec, hcol, zero_mulVec]
  have hOm : ∀ m : ℕ, O * T ^ m * ρ = 0 := by
    intro m
    rw [hO, Finset.sum_mul, Finset.sum_mul]
    refine Finset.sum_eq_zero fun l _ => ?_
    rw [Matrix.mul_assoc, Matrix.mul_assoc, ← Matrix.mul_assoc (Z * _), Matrix.mul_assoc Z, ← pow_add, hmat, Matrix.mul_zero]
  have hρm : ∀ m : ℕ, ρ * (T ^ m * ρ) = T ^ m * ρ := by
    intro m
    conv_lhs => enter [1]; rw [hρ]
    rw [Matrix.sub_mul, Matrix.one_mul, Matrix.mul_assoc, ← Matrix.mul_assoc O, hOm, Matrix.mul_zero, sub_zero]
  have hpow : ∀ q : ℕ, (T ^ N * ρ) ^ (q + 1) = T ^ (N * (q + 1)) * ρ := by
    intro q
    induction q with
    | zero => simp
    | succ q ih =>
      rw [pow_succ', ih, Matrix.mul_assoc, hρm, ← Matrix.mul_assoc, ← pow_add]
      congr 2
      ring
  have hlim : Tendsto (fun t : ℕ => T ^ t * ρ) atTop (𝓝 0) := by
    refine tendsto_pi_nhds.2 fun i => tendsto_pi_nhds.2 fun l => ?_
    have h1 := tendsto_pi_nhds.1 (hs (ρ *ᵥ Pi.single l 1) (hcol _)) i
    refine h1.congr fun t => ?_
    rw [mulVec_mulVec, mulVec_single_one]
    rfl
  have hst : Stationary.Spec.Stable (T ^ N * ρ) := by
    refine (tendsto_add_atTop_iff_nat (f := fun q : ℕ => (T ^ N * ρ) ^ q) 1).1 ?_
    have h1 : Tendsto (fun q : ℕ => N * (q + 1)) atTop atTop :=
      tendsto_atTop_mono (fun q => show q ≤ N * (q + 1) by nlinarith [Nat.zero_le (Fintype.card n * q)]) tendsto_id
    exact (hlim.comp h1).congr fun q => (hpow q).symm
  set B : ℕ → Matrix p n ℝ := fun l => Z * T ^ (N - 1 - l) * (Y * Tᵀ ^ N) with hB
  have hΦ : path T Z B N = (T ^ N * ρ)ᵀ := by
    have h1 : ∑ l ∈ Finset.range N, Tᵀ ^ (N - 1 - l) * Zᵀ * B l = O * (Y * Tᵀ ^ N) := by
      rw [hO, Finset.sum_mul]
      exact Finset.sum_congr rfl fun l _ => by rw [hB]; simp only [Matrix.mul_assoc]
    rw [path_eq, h1, transpose_mul, hρ, transpose_sub, transpose_one, transpose_mul, transpose_transpose, hOt, transpose_pow,
      Matrix.sub_mul, Matrix.one_mul, Matrix.mul_assoc]
  set S : Matrix n n ℝ := ∑ l ∈ Finset.range N, ((B l)ᵀ * B l + (path T Z B l)ᵀ * path T Z B l) with hS
  have hSp : S.PosSemidef := by
    refine posSemidef_sum _ fun l _ => ?_
    have h1 := posSemidef_conjTranspose_mul_self (B l)
    have h2 := posSemidef_conjTranspose_mul_self (path T Z B l)
    rw [conjTranspose_eq_transpose_of_trivial] at h1 h2
    exact h1.add h2
  have hX := lyapunov_solves S (stable_unit_kron hst)
  have hXp := posSemidef_of_stable hst hSp hX
  set X := lyapunov (T ^ N * ρ) S
  have hM : (1 : Matrix p p ℝ).PosDef := PosDef.one
  have hW : (1 : Matrix n n ℝ).PosSemidef := PosSemidef.one
  have hstep : ∀ (x : n → ℝ) (t : ℕ), x ⬝ᵥ (seq T 1 Z 1 0 (t + N) *ᵥ x) ≤
      ((T ^ N * ρ)ᵀ *ᵥ x) ⬝ᵥ (seq T 1 Z 1 0 t *ᵥ ((T ^ N * ρ)ᵀ *ᵥ x)) + x ⬝ᵥ (S *ᵥ x) := by
    intro x t
    have h1 := path_cost (T := T) (Z := Z) hW hM PosSemidef.zero B x N t
    rw [hΦ] at h1
    refine h1.trans_eq (congrArg _ ?_)
    rw [hS, sum_mulVec, dotProduct_sum]
    refine Finset.sum_congr rfl fun l _ => ?_
    rw [add_mulVec, dotProduct_add, gram_quad, gram_quad, one_mulVec, one_mulVec]
  have hk : ∀ (q : ℕ) (x : n → ℝ), x ⬝ᵥ (seq T 1 Z 1 0 (N * q) *ᵥ x) ≤ x ⬝ᵥ (X *ᵥ x) := by
    intro q
    induction q with
    | zero =>
      intro x
      have := hXp.dotProduct_mulVec_nonneg x
      simpa [seq] using this
    | succ q ih =>
      intro x
      have h1 := hstep x (N * q)
      have h2 := ih ((T ^ N * ρ)ᵀ *ᵥ x)
      have h3 : x ⬝ᵥ (X *ᵥ x) = ((T ^ N * ρ)ᵀ *ᵥ x) ⬝ᵥ (X *ᵥ ((T ^ N * ρ)ᵀ *ᵥ x)) + x ⬝ᵥ (S *ᵥ x) := by
        conv_lhs => rw [← hX]
        rw [add_mulVec, dotProduct_add, quad_conj]
      rw [show N * (q + 1) = N * q + N by ring]
      linarith
  have hb : ∀ t, (X - seq T 1 Z 1 0 t).PosSemidef := by
    intro t
    have hs := seq_psd (T := T) (Z := Z) hW hM PosSemidef.zero t
    refine PosSemidef.of_dotProduct_mulVec_nonneg ?_ fun x => ?_
    · rw [IsHermitian, conjTranspose_eq_transpose_of_trivial, transpose_sub, PosSemidef.transpose_eq hXp, PosSemidef.transpose_eq hs]
    · have hmono : Monotone fun t => x ⬝ᵥ (seq T 1 Z 1 0 t *ᵥ x) := monotone_nat_of_le_succ fun t => by
        have := (seq_zero_mono (T := T) (Z := Z) hW hM t).dotProduct_mulVec_nonneg x
        rw [star_trivial, sub_mulVec, dotProduct_sub] at this
        linarith
      have h1 : t ≤ N * t := by nlinarith [Nat.zero_le (Fintype.card n * t)]
      have h2 := hmono h1
      have h3 := hk t x
      rw [star_trivial, sub_mulVec, dotProduct_sub]
      simp only at h2
      linarith
  obtain ⟨L, hL⟩ := tendsto_of_mono (seq_psd hW hM PosSemidef.zero) (seq_zero_mono hW hM) hb
  have hLp := psd_of_tendsto hL (seq_psd hW hM PosSemidef.zero)
  have hfix : step T 1 Z 1 L = L :=
    tendsto_nhds_unique (step_tendsto (T := T) (W := 1) (Z := Z) hM hLp hL) (hL.comp (tendsto_add_atTop_nat 1))
  refine ⟨K Z 1 L, closed_stable ?_ hW hM hLp hfix⟩
  rintro z v hv - - ⟨h1, h2⟩
  rw [one_mulVec] at h1 h2
  exact hv (funext fun i => Complex.ext (congrFun h1 i) (congrFun h2 i))

end Ric

/-- **C217 (when a state is tracked).** A state can be tracked from the series of `s` exactly if what these series never show dies out by
itself. -/
theorem C217_tracked_iff (s : p → Prop) (T : Matrix n n ℝ) (Z : Matrix p n ℝ) : Spec.Tracked s T Z ↔ Spec.UnseenDies s T Z := by
  classical
  constructor
  · rintro ⟨K, hK, hst⟩ x hx
    have h0 : ∀ t : ℕ, K *ᵥ (Z *ᵥ (T ^ t *ᵥ x)) = 0 := by
      intro t
      ext a
      rw [mulVec, dotProduct]
      refine Finset.sum_eq_zero fun i _ => ?_
      by_cases hi : s i
      · rw [hx t i hi, mul_zero]
      · rw [hK a i hi, zero_mul]
    have hp : ∀ t : ℕ, (T * (1 - K * Z)) ^ t *ᵥ x = T ^ t *ᵥ x := by
      intro t
      induction t with
      | zero => rfl
      | succ t ih =>
        rw [pow_succ', ← mulVec_mulVec, ih, ← mulVec_mulVec, sub_mulVec, one_mulVec, ← mulVec_mulVec, h0, sub_zero, pow_succ',
          ← mulVec_mulVec]
    have hc : Continuous fun A : Matrix n n ℝ => A *ᵥ x := continuous_id.matrix_mulVec continuous_const
    have := (hc.tendsto 0).comp hst
    rw [zero_mulVec] at this
    exact this.congr hp
  · intro h
    obtain ⟨G, hG⟩ := Ric.exists_gain (T := T) (Z := Cons.keep s * Z) fun x hx => h x fun t i hi => by
      have := congrFun (hx t) i
      rwa [← mulVec_mulVec, Cons.keep, mulVec_diagonal, if_pos hi, one_mul] at this
    refine ⟨G * Cons.keep s, fun a i hi => ?_, by rwa [Matrix.mul_assoc]⟩
    rw [Cons.keep, mul_diagonal, if_neg hi, mul_zero]

end Verif.Kalman
