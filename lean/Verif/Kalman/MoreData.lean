import Verif.Kalman.UnivariateConservative

/-!
# C216: more data and smaller variances never increase the reported uncertainty of the univariate filter
-/

set_option autoImplicit false
set_option linter.unusedSectionVars false

open Matrix

namespace Verif.Kalman

open ConsU

variable {n p r : Type*} [Fintype n] [Fintype p] [Fintype r] [DecidableEq n] [DecidableEq p] [DecidableEq r] {k : ℕ}

/-! ### Specification -/

/-- `θ` has the same transition, design and selection matrices as `θ'`, and shock covariances and measurement variances at least
as large. Intercepts and the correlations of the errors are free. -/
structure Spec.Noisier (θ θ' : Params n (Fin k) r) : Prop where
  T : θ.T = θ'.T
  Z : θ.Z = θ'.Z
  R : θ.R = θ'.R
  H : ∀ i, θ'.H i i ≤ θ.H i i
  Q : (θ.Q - θ'.Q).PosSemidef

/-! ### Lemmas -/

namespace More

/-- Covariance after an update with gain `K`. Proof notion, no code behind it. -/
def joseph (K : Matrix n p ℝ) (P : Matrix n n ℝ) (Z : Matrix p n ℝ) (M : Matrix p p ℝ) : Matrix n n ℝ :=
  (1 - K * Z) * P * (1 - K * Z)ᵀ + K * M * Kᵀ

theorem joseph_gain {P : Matrix n n ℝ} (hP : P.PosSemidef) (Z : Matrix p n ℝ) {M : Matrix p p ℝ} (hM : M.PosSemidef)
    (hu : IsUnit (Spec.obsCov P Z M).det) : joseph (P * Zᵀ * (Spec.obsCov P Z M)⁻¹) P Z M = Spec.condCov P Z M := by
  have h := joseph_eq (PosSemidef.transpose_eq hP) Z (PosSemidef.transpose_eq hM) hu
  rw [quadFormSym_of_symm _ (PosSemidef.transpose_eq hP), quadFormSym_of_symm _ (PosSemidef.transpose_eq hM), gain_eq] at h
  exact h

/-- No gain does better than conditioning. -/
theorem condCov_le {P : Matrix n n ℝ} (hP : P.PosSemidef) (Z : Matrix p n ℝ) {M : Matrix p p ℝ} (hM : M.PosSemidef)
    (hu : IsUnit (Spec.obsCov P Z M).det) (K : Matrix n p ℝ) : (joseph K P Z M - Spec.condCov P Z M).PosSemidef := by
  rw [← joseph_gain hP Z hM hu]
  exact Cons.gain_optimal hP Z hM hu K

theorem joseph_mono (K : Matrix n p ℝ) {P P' : Matrix n n ℝ} (hP : (P - P').PosSemidef) (Z : Matrix p n ℝ) {M M' : Matrix p p ℝ}
    (hM : (K * M * Kᵀ - K * M' * Kᵀ).PosSemidef) : (joseph K P Z M - joseph K P' Z M').PosSemidef := by
  rw [joseph, joseph, add_sub_add_comm]
  exact (Cons.conj _ hP).add hM

theorem sub_trans {A B C : Matrix n n ℝ} (h1 : (A - B).PosSemidef) (h2 : (B - C).PosSemidef) : (A - C).PosSemidef := by
  have := h1.add h2
  rwa [sub_add_sub_cancel] at this

theorem obsCov_unit {P : Matrix n n ℝ} (hP : P.PosSemidef) (Z : Matrix p n ℝ) {M : Matrix p p ℝ} (hM : M.PosDef) :
    IsUnit (Spec.obsCov P Z M).det := by
  have h1 := hP.mul_mul_conjTranspose_same Z
  rw [conjTranspose_eq_transpose_of_trivial] at h1
  exact (Matrix.PosDef.posSemidef_add h1 hM).det_pos.ne'.isUnit

/-- Conditioning is monotone in the covariances. -/
theorem condCov_mono {P P' : Matrix n n ℝ} (hP : P.PosSemidef) (hP' : P'.PosSemidef) (hPP : (P - P').PosSemidef) (Z : Matrix p n ℝ)
    {M M' : Matrix p p ℝ} (hM : M.PosDef) (hM' : M'.PosDef) (hMM : (M - M').PosSemidef) :
    (Spec.condCov P Z M - Spec.condCov P' Z M').PosSemidef := by
  rw [← joseph_gain hP Z hM.posSemidef (obsCov_unit hP Z hM)]
  refine sub_trans (joseph_mono _ hPP Z (M' := M') ?_) (condCov_le hP' Z hM'.posSemidef (obsCov_unit hP' Z hM') _)
  rw [← Matrix.sub_mul, ← Matrix.mul_sub]
  have h1 := hMM.mul_mul_conjTranspose_same (P * Zᵀ * (Spec.obsCov P Z M)⁻¹)
  rwa [conjTranspose_eq_transpose_of_trivial] at h1

theorem mS_diag_posDef {j : ℝ} {s : Fin k → Prop} {θ : Params n (Fin k) r} (h : ∀ i, 0 < mS j s θ i) :
    (Matrix.diagonal (mS j s θ)).PosDef := PosDef.diagonal fun i => h i

/-- The update of one row is monotone: more recorded entries, smaller prior, smaller variances. -/
theorem filtU_mono {j : ℝ} {s s' : Fin k → Prop} (hs : ∀ i, s i → s' i) {P P' : Matrix n n ℝ} (hP : P.PosSemidef)
    (hP' : P'.PosSemidef) (hPP : (P - P').PosSemidef) {θ θ' : Params n (Fin k) r} (hθ : Spec.Noisier θ θ')
    (hpos : ∀ i, 0 < mS j s θ i) (hpos' : ∀ i, 0 < mS j s' θ' i) :
    (filtU j s P θ - filtU j s' P' θ').PosSemidef := by
  classical
  have hK := gainU_keep j s P θ
  have hkk : Cons.keep s * Cons.keep s' = (Cons.keep s : Matrix (Fin k) (Fin k) ℝ) := by
    rw [Cons.keep, Cons.keep, diagonal_mul_diagonal]
    congr 1; funext i
    by_cases hi : s i
    · simp [hi, hs i hi]
    · simp [hi]
  have hK' : gainU j s P θ * Cons.keep s' = gainU j s P θ := by rw [← hK, Matrix.mul_assoc, hkk]
  have h1 : filtU j s P θ = joseph (gainU j s P θ) P θ'.Z (Spec.withJitter j θ.H) := by
    rw [filtU_eq j s (PosSemidef.transpose_eq hP) θ (obsCov_unit hP _ (mS_diag_posDef hpos)), joseph, hθ.Z]
  have h2 : joseph (gainU j s P θ) P' (Cons.keep s' * θ'.Z) (Matrix.diagonal (mS j s' θ')) =
      joseph (gainU j s P θ) P' θ'.Z (Spec.withJitter j θ'.H) := by
    rw [joseph, joseph, ← Matrix.mul_assoc, hK']
    congr 2
    rw [← hK', Matrix.mul_assoc, keep_diag, ← Matrix.mul_assoc]
  have h3 := condCov_le hP' (Cons.keep s' * θ'.Z) (mS_diag_posDef hpos').posSemidef (obsCov_unit hP' _ (mS_diag_posDef hpos'))
    (gainU j s P θ)
  rw [h2] at h3
  rw [h1]
  refine sub_trans (joseph_mono _ hPP θ'.Z ?_) h3
  rw [← Matrix.sub_mul, ← Matrix.mul_sub]
  have h4 : (Spec.withJitter j θ.H - Spec.withJitter j θ'.H).PosSemidef := by
    rw [Spec.withJitter, Spec.withJitter, diagonal_sub]
    exact PosSemidef.diagonal fun i => by simpa using hθ.H i
  have h5 := h4.mul_mul_conjTranspose_same (gainU j s P θ)
  rwa [conjTranspose_eq_transpose_of_trivial] at h5

theorem quadFormSym_mono {m : Type*} [Fintype m] [DecidableEq m] (A : Matrix m n ℝ) {B C : Matrix n n ℝ} (h : (B - C).PosSemidef) :
    (quadFormSym A B - quadFormSym A C).PosSemidef := by
  have : quadFormSym A B - quadFormSym A C = quadFormSym A (B - C) := by
    simp only [quadFormSym, ← smul_sub, Matrix.mul_sub, Matrix.sub_mul, transpose_sub]
    congr 1; abel
  rw [this]
  exact quadFormSym_posSemidef _ h

/-- The whole run is monotone. -/
theorem covU_mono {j : ℝ} {o o' : ℕ → Fin k → Prop} (ho : ∀ t i, o t i → o' t i) {P0 P0' : Matrix n n ℝ}
    {θ θ' : Params n (Fin k) r} (hP : ∀ t, (covU j o θ P0 t).PosSemidef) (hP' : ∀ t, (covU j o' θ' P0' t).PosSemidef)
    (hPP : (P0 - P0').PosSemidef) (hθ : Spec.Noisier θ θ') (hpos : ∀ t i, 0 < mS j (o t) θ i) (hpos' : ∀ t i, 0 < mS j (o' t) θ' i)
    (t : ℕ) : (covU j o θ P0 t - covU j o' θ' P0' t).PosSemidef := by
  induction t with
  | zero => exact hPP
  | succ t ih =>
    have h1 := filtU_mono (ho t) (hP t) (hP' t) ih hθ (hpos t) (hpos' t)
    rw [covU, covU, add_sub_add_comm, ← hθ.T, ← hθ.R]
    exact (quadFormSym_mono _ (by rwa [add_sub_add_right_eq_sub])).add (quadFormSym_mono _ hθ.Q)

theorem rowU_of (y : ℕ → Row (Fin k)) (t : ℕ) :
    rowU (fun t i => (y t i).isSome) (fun t i (_ : Unit) => (y t i).getD 0) () t = y t := by
  funext i
  cases h : y t i <;> simp [rowU, Cons.row, h]

end More

open More

/-- **C216.** Run the univariate filter twice on constant matrices: the second time with an initial covariance, shock covariance
and measurement variances that are not larger, and with data in which everything recorded the first time is still recorded; the
numbers, the intercepts and the initial mean may differ. The jitter is the same, and positive unless nothing is missing and all
variances are positive. Then no reported variance of the second run is larger, whether of a predicted or of a filtered state or of
any combination of states. -/
theorem C216_more_data {j : ℝ} (hj : 0 ≤ j) (hk : 0 < k) {θ θ' : Params n (Fin k) r} (hθ : Spec.Noisier θ θ')
    (hH : ∀ i, 0 ≤ θ'.H i i) (hQ : θ'.Q.PosSemidef) {P0 P0' : Matrix n n ℝ} (hP' : P0'.PosSemidef) (hPP : (P0 - P0').PosSemidef)
    (a0 a0' : n → ℝ) (y y' : ℕ → Row (Fin k)) (hy : ∀ t i, (y t i).isSome → (y' t i).isSome)
    (hpos : 0 < j ∨ (∀ i, 0 < θ'.H i i) ∧ ∀ t i, (y t i).isSome) (N : ℕ) :
    ∃ out out', univGraph j a0 P0 θ ((List.range N).map y) = some out ∧
      univGraph j a0' P0' θ' ((List.range N).map y') = some out' ∧ ∀ t, t < N →
      ∃ V V' W W', out.predictedCovs[t]? = some V ∧ out'.predictedCovs[t]? = some V' ∧ out.filteredCovs[t]? = some W ∧
        out'.filteredCovs[t]? = some W' ∧ (V - V').PosSemidef ∧ (W - W').PosSemidef := by
  have hP : P0.PosSemidef := by simpa using hPP.add hP'
  have hQ1 : θ.Q.PosSemidef := by simpa using hθ.Q.add hQ
  have hH1 : ∀ i, 0 ≤ θ.H i i := fun i => (hH i).trans (hθ.H i)
  have hp := mS_pos (θ := θ) (fun t i => (y t i).isSome) hj hH1 (hpos.imp id fun h => ⟨fun i => (h.1 i).trans_le (hθ.H i), h.2⟩)
  have hp' := mS_pos (θ := θ') (fun t i => (y' t i).isSome) hj hH (hpos.imp id fun h => ⟨h.1, fun t i => hy t i (h.2 t i)⟩)
  obtain ⟨c1, r1⟩ := run_closed (θ := θ) (a0 := a0) (P0 := P0) (Y := fun t i (_ : Unit) => (y t i).getD 0) (fun t i => (y t i).isSome)
    hj hk hH1 hp hQ1 hP
  obtain ⟨c2, r2⟩ := run_closed (θ := θ') (a0 := a0') (P0 := P0') (Y := fun t i (_ : Unit) => (y' t i).getD 0)
    (fun t i => (y' t i).isSome) hj hk hH hp' hQ hP'
  obtain ⟨out, h1, h2⟩ := r1 () N
  obtain ⟨out', h1', h2'⟩ := r2 () N
  rw [funext (rowU_of y)] at h1
  rw [funext (rowU_of y')] at h1'
  refine ⟨out, out', h1, h1', fun t ht => ?_⟩
  have hm := covU_mono hy (fun t => (c1 t).1) (fun t => (c2 t).1) hPP hθ hp hp'
  refine ⟨_, _, _, _, (h2 t ht).2.1, (h2' t ht).2.1, (h2 t ht).2.2.2, (h2' t ht).2.2.2, hm t, ?_⟩
  rw [add_sub_add_right_eq_sub]
  exact filtU_mono (hy t) (c1 t).1 (c2 t).1 (hm t) hθ (hp t) (hp' t)

/-- A random walk seen through two noisy series with correlated errors, the second recorded every third date, against the same
with half the noise, recorded on every date: the hypotheses are met. -/
example (a0 : Fin 1 → ℝ) (y : ℕ → Fin 2 → ℝ) (N : ℕ) : ∃ out out' : UnivGraph (Fin 1),
    univGraph (1 / 100) a0 2 { twoSeries with H := !![2, 1; 1, 2] }
      ((List.range N).map fun t i => if i = 0 ∨ t % 3 = 0 then some (y t i) else none) = some out ∧
    univGraph (1 / 100) a0 1 twoSeries ((List.range N).map fun t i => some (y t i)) = some out' := by
  obtain ⟨out, out', h1, h2, -⟩ := C216_more_data (j := 1 / 100) (by norm_num) (by norm_num : 0 < 2)
    (θ := { twoSeries with H := !![2, 1; 1, 2] }) (θ' := twoSeries)
    ⟨rfl, rfl, rfl, fun i => by fin_cases i <;> simp [twoSeries], by simpa [twoSeries] using PosSemidef.zero⟩
    (fun i => by fin_cases i <;> simp [twoSeries]) (by simpa [twoSeries] using PosSemidef.one) (P0 := 2) (P0' := 1) PosSemidef.one
    (by have : (2 : Matrix (Fin 1) (Fin 1) ℝ) - 1 = 1 := by norm_num
        rw [this]; exact PosSemidef.one) a0 a0
    (fun t i => if i = 0 ∨ t % 3 = 0 then some (y t i) else none) (fun t i => some (y t i)) (fun _ _ _ => rfl) (Or.inl (by norm_num)) N
  exact ⟨out, out', h1, h2⟩

/-! ### The standard filter -/

namespace More

theorem filtJ_full {P : Matrix n n ℝ} (hP : P.PosSemidef) {θ : Params n p r} (hH : θ.H.PosDef) :
    Cons.filtJ 0 (fun _ => True) P θ = Spec.condCov P θ.Z θ.H := by
  rw [Cons.filtJ_eq 0 (PosSemidef.transpose_eq hP) (PosSemidef.transpose_eq hH.posSemidef) fun i _ hi _ => absurd trivial hi, zero_smul,
    add_zero, ← joseph_gain hP θ.Z hH.posSemidef (obsCov_unit hP _ hH), joseph]
  have hg : Cons.gainJ 0 (fun _ => True) P θ = P * θ.Zᵀ * (Spec.obsCov P θ.Z θ.H)⁻¹ := by
    rw [Cons.gainJ, gain_eq, innovCov, stabilize_zero, Cons.keep_all, Matrix.one_mul, Matrix.one_mul, Spec.obsCov,
      Matrix.mul_assoc θ.Z]
  rw [hg]

theorem covJ_mono {θ θ' : ℕ → Params n p r} {P0 P0' : Matrix n n ℝ} (hP' : P0'.PosSemidef) (hPP : (P0 - P0').PosSemidef)
    (hT : ∀ t, (θ t).T = (θ' t).T) (hZ : ∀ t, (θ t).Z = (θ' t).Z) (hR : ∀ t, (θ t).R = (θ' t).R)
    (hH : ∀ t, ((θ t).H - (θ' t).H).PosSemidef) (hQ : ∀ t, ((θ t).Q - (θ' t).Q).PosSemidef) (hH' : ∀ t, (θ' t).H.PosDef)
    (hQ' : ∀ t, (θ' t).Q.PosSemidef) (t : ℕ) :
    (Cons.covJ 0 (Cons.full p) θ P0 t - Cons.covJ 0 (Cons.full p) θ' P0' t).PosSemidef ∧
    (Cons.filtJ 0 (Cons.full p t) (Cons.covJ 0 (Cons.full p) θ P0 t) (θ t) -
      Cons.filtJ 0 (Cons.full p t) (Cons.covJ 0 (Cons.full p) θ' P0' t) (θ' t)).PosSemidef := by
  have hH1 : ∀ t, (θ t).H.PosDef := fun t => by simpa using Matrix.PosDef.posSemidef_add (hH t) (hH' t)
  have hQ1 : ∀ t, (θ t).Q.PosSemidef := fun t => by simpa using (hQ t).add (hQ' t)
  have hP : P0.PosSemidef := by simpa using hPP.add hP'
  have ok : Cons.Ok (Cons.full p) θ := ⟨fun t => (hH1 t).posSemidef, hQ1, fun t i k hi _ => absurd trivial hi⟩
  have ok' : Cons.Ok (Cons.full p) θ' := ⟨fun t => (hH' t).posSemidef, hQ', fun t i k hi _ => absurd trivial hi⟩
  have filt : ∀ t, (Cons.covJ 0 (Cons.full p) θ P0 t - Cons.covJ 0 (Cons.full p) θ' P0' t).PosSemidef →
      (Cons.filtJ 0 (Cons.full p t) (Cons.covJ 0 (Cons.full p) θ P0 t) (θ t) -
        Cons.filtJ 0 (Cons.full p t) (Cons.covJ 0 (Cons.full p) θ' P0' t) (θ' t)).PosSemidef := by
    intro t h
    have c1 := Cons.covJ_posSemidef le_rfl ok hP t
    have c2 := Cons.covJ_posSemidef le_rfl ok' hP' t
    rw [show Cons.full p t = fun _ => True from rfl, filtJ_full c1 (hH1 t), filtJ_full c2 (hH' t), hZ]
    exact condCov_mono c1 c2 h _ (hH1 t) (hH' t) (hH t)
  induction t with
  | zero => exact ⟨hPP, filt 0 hPP⟩
  | succ t ih =>
    have h1 : (Cons.covJ 0 (Cons.full p) θ P0 (t + 1) - Cons.covJ 0 (Cons.full p) θ' P0' (t + 1)).PosSemidef := by
      rw [Cons.covJ, Cons.covJ, add_sub_add_comm, hT, hR]
      exact (quadFormSym_mono _ ih.2).add (quadFormSym_mono _ (hQ t))
    exact ⟨h1, filt _ h1⟩

end More

/-- **C216 (standard filter without jitter).** On complete data, without jitter and with non-singular measurement error
covariances, the standard filter has the same property, for time-varying matrices too: with initial, shock and measurement
covariances that are not larger (in the matrix order), no reported variance is larger. -/
theorem C216_standard_exact {θ θ' : ℕ → Params n p r} {P0 P0' : Matrix n n ℝ} (hP' : P0'.PosSemidef) (hPP : (P0 - P0').PosSemidef)
    (hT : ∀ t, (θ t).T = (θ' t).T) (hZ : ∀ t, (θ t).Z = (θ' t).Z) (hR : ∀ t, (θ t).R = (θ' t).R)
    (hH : ∀ t, ((θ t).H - (θ' t).H).PosSemidef) (hQ : ∀ t, ((θ t).Q - (θ' t).Q).PosSemidef) (hH' : ∀ t, (θ' t).H.PosDef)
    (hQ' : ∀ t, (θ' t).Q.PosSemidef) (fill : ℝ) (a0 a0' : n → ℝ) (y y' : ℕ → p → ℝ) (hy : ∀ t i, y t i ≠ fill)
    (hy' : ∀ t i, y' t i ≠ fill) (N t : ℕ) (ht : t < N) :
    let out := buildGraph 0 fill a0 P0 ((List.range N).map fun t => ((fun i => some (y t i) : Row p), θ t))
    let out' := buildGraph 0 fill a0' P0' ((List.range N).map fun t => ((fun i => some (y' t i) : Row p), θ' t))
    (out.predictedCovs.getD t 0 - out'.predictedCovs.getD t 0).PosSemidef ∧
    (out.filteredCovs.getD t 0 - out'.filteredCovs.getD t 0).PosSemidef := by
  classical
  have hrow : ∀ (y : ℕ → p → ℝ) t, (fun i => some (y t i) : Row p) = Cons.row (Cons.full p) y t := by
    intro y t; funext i; simp [Cons.row, Cons.full]
  have h1 := More.covJ_mono hP' hPP hT hZ hR hH hQ hH' hQ' t
  intro out out'
  simp only [out, out', hrow]
  rw [(out_carried 0 fill a0 P0 (Cons.row (Cons.full p) y) θ N t ht).2.1,
    (out_carried 0 fill a0' P0' (Cons.row (Cons.full p) y') θ' N t ht).2.1,
    (out_carried 0 fill a0 P0 (Cons.row (Cons.full p) y) θ N t ht).2.2.2,
    (out_carried 0 fill a0' P0' (Cons.row (Cons.full p) y') θ' N t ht).2.2.2,
    (Cons.carried_cov (fun t i _ => hy t i) t).1, (Cons.carried_cov (fun t i _ => hy' t i) t).1]
  refine ⟨h1.1, ?_⟩
  rw [← (Cons.carried_cov (a0 := a0) (P0 := P0) (θ := θ) (j := 0) (o := Cons.full p) (fun t i _ => hy t i) t).1,
    ← (Cons.carried_cov (a0 := a0') (P0 := P0') (θ := θ') (j := 0) (o := Cons.full p) (fun t i _ => hy' t i) t).1,
    (Cons.carried_cov (fun t i _ => hy t i) t).2, (Cons.carried_cov (fun t i _ => hy' t i) t).2]
  exact h1.2

/-- Doubling the error variances and the initial variance of a random walk seen through two series meets the hypotheses. -/
example (y : ℕ → Fin 2 → ℝ) (hy : ∀ t i, y t i ≠ -9999) (N t : ℕ) (ht : t < N) :
    ((buildGraph 0 (-9999) 0 2 ((List.range N).map fun t => ((fun i => some (y t i) : Row (Fin 2)),
        ({ twoSeries with H := 2 } : Params (Fin 1) (Fin 2) (Fin 1))))).filteredCovs.getD t 0 -
      (buildGraph 0 (-9999) 0 1 ((List.range N).map fun t => ((fun i => some (y t i) : Row (Fin 2)), twoSeries))).filteredCovs.getD t 0).PosSemidef := by
  have h2 : ∀ m : ℕ, ((2 : Matrix (Fin m) (Fin m) ℝ) - 1).PosSemidef := fun m => by
    have : (2 : Matrix (Fin m) (Fin m) ℝ) - 1 = 1 := by norm_num
    rw [this]; exact PosSemidef.one
  exact (C216_standard_exact (θ := fun _ => { twoSeries with H := 2 }) (θ' := fun _ => twoSeries) PosSemidef.one (h2 1)
    (fun _ => rfl) (fun _ => rfl) (fun _ => rfl) (fun _ => h2 2) (fun _ => by simpa [twoSeries] using PosSemidef.zero)
    (fun _ => PosDef.one) (fun _ => PosSemidef.one) (-9999) 0 0 y y hy hy N t ht).2

/-- One state observed without error by one series. -/
def exactSeries : Params (Fin 1) (Fin 1) (Fin 1) := ⟨0, 0, 1, 1, 1, 0, 1⟩

/-- One state observed without error by one series, and with error variance `h` by another. -/
def exactAndNoisy (h : ℝ) : Params (Fin 1) (Fin 2) (Fin 1) := ⟨0, 0, 1, !![1; 1], 1, !![0, 0; 0, h], 1⟩

namespace More

theorem one_row {j fill : ℝ} {o : p → Prop} {y : p → ℝ} (hy : ∀ i, o i → y i ≠ fill) (a0 : n → ℝ) (P0 : Matrix n n ℝ) (θ : Params n p r) :
    (buildGraph j fill a0 P0 [(Cons.row (fun _ => o) (fun _ => y) 0, θ)]).filteredCovs = [Cons.filtJ j o P0 θ] := by
  have := (Cons.carried_cov (a0 := a0) (P0 := P0) (θ := fun _ => θ) (j := j) (o := fun _ => o) (y := fun _ => y) (fun _ => hy) 0).2
  simp only [buildGraph, postprocess, filterScan, List.map_cons, List.map_nil]
  exact congrArg (fun V => [V]) this

theorem exactSeries_filt {j : ℝ} (hj : 0 < j) {u : ℝ} (hu : 0 ≤ u) :
    Cons.filtJ j (fun _ => True) (u • 1) exactSeries 0 0 = u * j ^ 2 / (u + j) ^ 2 + j := by
  have hne : u + j ≠ 0 := by positivity
  have hg : Cons.gainJ j (fun _ => True) (u • 1) exactSeries = (u / (u + j)) • 1 := by
    have h1 : innovCov j (u • (1 : Matrix (Fin 1) (Fin 1) ℝ)) (1 : Matrix (Fin 1) (Fin 1) ℝ) 0 = (u + j) • 1 := by
      rw [innovCov, stabilize]; simp [add_smul]
    have h2 : ((u + j) • (1 : Matrix (Fin 1) (Fin 1) ℝ))⁻¹ = (u + j)⁻¹ • 1 := by
      apply inv_eq_right_inv
      rw [Matrix.smul_mul, Matrix.mul_smul, smul_smul, mul_inv_cancel₀ hne, Matrix.one_mul, one_smul]
    rw [Cons.gainJ, gain_eq, Cons.keep_all]
    simp only [exactSeries, Matrix.one_mul, h1, h2, transpose_one, Matrix.mul_one, Matrix.mul_zero]
    rw [Matrix.smul_mul, Matrix.one_mul, smul_smul, div_eq_mul_inv]
  rw [Cons.filtJ_eq j (by simp) (by simp [exactSeries]) fun i _ hi _ => absurd trivial hi, hg]
  simp [exactSeries, Matrix.mul_apply]
  field_simp
  ring

theorem exactAndNoisy_both {j : ℝ} (hj : 0 < j) :
    Cons.filtJ j (fun _ => True) ((100 * j) • 1) (exactAndNoisy j) 0 0 = 10400 / 91204 * j + j := by
  have hg : Cons.gainJ j (fun _ => True) ((100 * j) • 1) (exactAndNoisy j) = !![200 / 302, 100 / 302] := by
    have h1 : innovCov j ((100 * j) • (1 : Matrix (Fin 1) (Fin 1) ℝ)) !![1; 1] ((!![0, 0; 0, j] : Matrix (Fin 2) (Fin 2) ℝ)) =
        !![101 * j, 100 * j; 100 * j, 102 * j] := by
      ext i l; fin_cases i <;> fin_cases l <;> simp [innovCov, stabilize, Matrix.vecMul, dotProduct] <;> ring
    have h2 : (!![101 * j, 100 * j; 100 * j, 102 * j] : Matrix (Fin 2) (Fin 2) ℝ)⁻¹ =
        !![102 / (302 * j), -(100 / (302 * j)); -(100 / (302 * j)), 101 / (302 * j)] := by
      apply inv_eq_right_inv
      ext i l; fin_cases i <;> fin_cases l <;> simp [Matrix.mul_apply, Fin.sum_univ_two] <;> field_simp <;> norm_num
    rw [Cons.gainJ, gain_eq, Cons.keep_all]
    simp only [exactAndNoisy, Matrix.one_mul, h1, h2]
    ext i l; fin_cases i; fin_cases l <;> simp [Matrix.mul_apply, Fin.sum_univ_two] <;> field_simp <;> norm_num
  rw [Cons.filtJ_eq j (by simp) (by ext i l; fin_cases i <;> fin_cases l <;> simp [exactAndNoisy]) fun i _ hi _ => absurd trivial hi, hg]
  simp [exactAndNoisy, Matrix.mul_apply, Fin.sum_univ_two, Matrix.vecMul, dotProduct]
  ring

theorem exactAndNoisy_first {j : ℝ} (hj : 0 < j) :
    Cons.filtJ j (fun i => i = 0) ((100 * j) • 1) (exactAndNoisy j) 0 0 = 100 / 10201 * j + j := by
  have hk : Cons.keep (fun i : Fin 2 => i = 0) = !![1, 0; 0, 0] := by
    ext i l; fin_cases i <;> fin_cases l <;> simp [Cons.keep]
  have hg : Cons.gainJ j (fun i => i = 0) ((100 * j) • 1) (exactAndNoisy j) = !![100 / 101, 0] := by
    have h0 : (!![1, 0; 0, 0] : Matrix (Fin 2) (Fin 2) ℝ) * (!![1; 1] : Matrix (Fin 2) (Fin 1) ℝ) = !![1; 0] := by
      ext i l; fin_cases i <;> fin_cases l <;> simp [Matrix.mul_apply]
    have h0' : (!![1, 0; 0, 0] : Matrix (Fin 2) (Fin 2) ℝ) * (!![0, 0; 0, j] : Matrix (Fin 2) (Fin 2) ℝ) = 0 := by
      ext i l; fin_cases i <;> fin_cases l <;> simp [Matrix.mul_apply, Fin.sum_univ_two]
    have h1 : innovCov j ((100 * j) • (1 : Matrix (Fin 1) (Fin 1) ℝ)) !![1; 0] (0 : Matrix (Fin 2) (Fin 2) ℝ) =
        !![101 * j, 0; 0, j] := by
      ext i l; fin_cases i <;> fin_cases l <;> simp [innovCov, stabilize, Matrix.vecMul, dotProduct] <;> ring
    have h2 : (!![101 * j, 0; 0, j] : Matrix (Fin 2) (Fin 2) ℝ)⁻¹ = !![1 / (101 * j), 0; 0, 1 / j] := by
      apply inv_eq_right_inv
      ext i l; fin_cases i <;> fin_cases l <;> simp [Matrix.mul_apply, Fin.sum_univ_two] <;> field_simp
    rw [Cons.gainJ, gain_eq, hk]
    simp only [exactAndNoisy, h0, h0', h1, h2]
    ext i l; fin_cases i; fin_cases l <;> simp [Matrix.mul_apply, Fin.sum_univ_two] <;> field_simp
  have hd : ∀ i k : Fin 2, ¬ i = 0 → k = 0 → (exactAndNoisy j).H i k = 0 := by
    intro i k hi hk
    have : i ≠ k := by rintro rfl; exact hi hk
    subst hk
    fin_cases i <;> simp_all [exactAndNoisy]
  rw [Cons.filtJ_eq j (by simp) (by ext i l; fin_cases i <;> fin_cases l <;> simp [exactAndNoisy]) hd, hg]
  simp [exactAndNoisy, Matrix.mul_apply, Fin.sum_univ_two, Matrix.vecMul, dotProduct]
  ring

end More

/-- **C216 (standard filter with jitter: a vaguer start can look more certain).** With any positive jitter, a state observed
without error and a prior variance of `3·jitter` instead of `jitter`, the standard filter reports a smaller variance for the
filtered state. -/
theorem C216_standard_vaguer_start {j : ℝ} (hj : 0 < j) (fill v : ℝ) (hv : v ≠ fill) (a0 : Fin 1 → ℝ) :
    ∃ V V' : Matrix (Fin 1) (Fin 1) ℝ,
      (buildGraph j fill a0 (j • 1) [((fun _ => some v), exactSeries)]).filteredCovs = [V] ∧
      (buildGraph j fill a0 ((3 * j) • 1) [((fun _ => some v), exactSeries)]).filteredCovs = [V'] ∧ V' 0 0 < V 0 0 := by
  have hrow : (fun _ => some v : Row (Fin 1)) = Cons.row (fun _ _ => True) (fun _ _ => v) 0 := by
    funext i; simp [Cons.row]
  rw [hrow]
  refine ⟨_, _, More.one_row (fun _ _ => hv) _ _ _, More.one_row (fun _ _ => hv) _ _ _, ?_⟩
  rw [More.exactSeries_filt hj hj.le, More.exactSeries_filt hj (by positivity)]
  have h1 : 3 * j * j ^ 2 / (3 * j + j) ^ 2 = 3 / 16 * j := by field_simp; ring
  have h2 : j * j ^ 2 / (j + j) ^ 2 = 1 / 4 * j := by field_simp; ring
  rw [h1, h2]
  linarith

/-- **C216 (standard filter with jitter: more data can look like less certainty).** With any positive jitter there is a model in
which recording a second, noisy series makes the standard filter report a larger variance of the filtered state. -/
theorem C216_standard_more_data {j : ℝ} (hj : 0 < j) (fill v : ℝ) (hv : v ≠ fill) (a0 : Fin 1 → ℝ) :
    ∃ V V' : Matrix (Fin 1) (Fin 1) ℝ,
      (buildGraph j fill a0 ((100 * j) • 1) [((fun i => if i = 0 then some v else none), exactAndNoisy j)]).filteredCovs = [V] ∧
      (buildGraph j fill a0 ((100 * j) • 1) [((fun _ => some v), exactAndNoisy j)]).filteredCovs = [V'] ∧ V 0 0 < V' 0 0 := by
  have hrow : (fun _ => some v : Row (Fin 2)) = Cons.row (fun _ _ => True) (fun _ _ => v) 0 := by
    funext i; simp [Cons.row]
  have hrow' : (fun i => if i = 0 then some v else none : Row (Fin 2)) = Cons.row (fun _ i => i = 0) (fun _ _ => v) 0 := by
    funext i; simp [Cons.row]
  rw [hrow, hrow']
  refine ⟨_, _, More.one_row (fun _ _ => hv) _ _ _, More.one_row (fun _ _ => hv) _ _ _, ?_⟩
  rw [More.exactAndNoisy_first hj, More.exactAndNoisy_both hj]
  linarith

end Verif.Kalman
