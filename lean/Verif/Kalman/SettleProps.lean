import Verif.Kalman.Riccati
import Verif.Stationary.Props

/-!
# C217: the reported covariances settle, and the start is forgotten

Property theorems. `Stationary.Spec.Stable` (the powers of the transition matrix die out) is the specification of stability,
`Spec.Tracked` and `Spec.Excited` weaken it to what models with a level, a trend or a season satisfy.
-/

set_option autoImplicit false
set_option linter.unusedSectionVars false

open Matrix Filter Topology

namespace Verif.Kalman

open ConsU

variable {n p r : Type*} [Fintype n] [Fintype p] [Fintype r] [DecidableEq n] [DecidableEq p] [DecidableEq r] {k : ℕ}

namespace Spec

/-- The state can be tracked from the series of `s`: with some fixed gain, which uses these series only, the errors of the past die
out. Specification, no code behind it. -/
def Tracked (s : p → Prop) (T : Matrix n n ℝ) (Z : Matrix p n ℝ) : Prop :=
  ∃ K : Matrix n p ℝ, (∀ a i, ¬ s i → K a i = 0) ∧ Stationary.Spec.Stable (T * (1 - K * Z))

/-- The shocks (covariance `V`) reach every mode of the transition that does not die out. Specification, no code behind it. -/
def Excited (T V : Matrix n n ℝ) : Prop :=
  ∀ (z : ℂ) (v : n → ℂ), v ≠ 0 → 1 ≤ ‖z‖ → (Tᵀ.map Complex.ofReal) *ᵥ v = z • v → (V.map Complex.ofReal) *ᵥ v ≠ 0

end Spec

namespace Settle

/-- The covariance added per date. Proof notion, no code behind it. -/
def W (j : ℝ) (θ : Params n p r) : Matrix n n ℝ := θ.R * θ.Q * θ.Rᵀ + j • (θ.T * θ.Tᵀ)

theorem W_psd {j : ℝ} (hj : 0 ≤ j) {θ : Params n p r} (hQ : θ.Q.PosSemidef) : (W j θ).PosSemidef := by
  have h1 := hQ.mul_mul_conjTranspose_same θ.R
  have h2 := (PosSemidef.one (n := n) (R := ℝ)).mul_mul_conjTranspose_same θ.T
  rw [conjTranspose_eq_transpose_of_trivial] at h1 h2
  rw [Matrix.mul_one] at h2
  exact h1.add (h2.smul hj)

/-- A covariance sum annihilates a vector only if its parts do. -/
theorem sum_zero {A B : Matrix n n ℝ} (hA : A.PosSemidef) (hB : B.PosSemidef) {x : n → ℝ} (h : (A + B) *ᵥ x = 0) :
    A *ᵥ x = 0 ∧ B *ᵥ x = 0 := by
  have h1 : x ⬝ᵥ (A *ᵥ x) + x ⬝ᵥ (B *ᵥ x) = 0 := by rw [← dotProduct_add, ← add_mulVec, h, dotProduct_zero]
  have ha := hA.dotProduct_mulVec_nonneg x
  have hb := hB.dotProduct_mulVec_nonneg x
  rw [star_trivial] at ha hb
  refine ⟨(hA.dotProduct_mulVec_zero_iff x).1 ?_, (hB.dotProduct_mulVec_zero_iff x).1 ?_⟩ <;> rw [star_trivial] <;> linarith

theorem excited {j : ℝ} (hj : 0 ≤ j) {θ : Params n p r} (hQ : θ.Q.PosSemidef) (h : 0 < j ∨ Spec.Excited θ.T (θ.R * θ.Q * θ.Rᵀ)) :
    Ric.Excited θ.T (W j θ) := by
  have h1 := hQ.mul_mul_conjTranspose_same θ.R
  have h2 := (PosSemidef.one (n := n) (R := ℝ)).mul_mul_conjTranspose_same θ.T
  rw [conjTranspose_eq_transpose_of_trivial] at h1 h2
  rw [Matrix.mul_one] at h2
  rintro z v hv hz hT ⟨hx, hy⟩
  obtain ⟨x1, x2⟩ := sum_zero h1 (h2.smul hj) hx
  obtain ⟨y1, y2⟩ := sum_zero h1 (h2.smul hj) hy
  rcases h with h | h
  · have ht : ∀ x : n → ℝ, (j • (θ.T * θ.Tᵀ)) *ᵥ x = 0 → θ.Tᵀ *ᵥ x = 0 := by
      intro x hx
      rw [smul_mulVec, smul_eq_zero, or_iff_right h.ne'] at hx
      have := Ric.quad_conj θ.T 1 x
      rw [Matrix.mul_one, hx, dotProduct_zero, one_mulVec] at this
      exact dotProduct_self_eq_zero.1 this.symm
    have h3 : (θ.Tᵀ.map Complex.ofReal) *ᵥ v = (0 : ℂ) • v := by
      rw [Ric.re_im, ht _ x2, ht _ y2]
      simp
    rw [h3, zero_smul] at hT
    rcases smul_eq_zero.1 hT.symm with h0 | h0
    · rw [h0, norm_zero] at hz; linarith
    · exact hv h0
  · refine h z v hv hz hT ?_
    have h3 : ((θ.R * θ.Q * θ.Rᵀ).map Complex.ofReal) *ᵥ v = (0 : ℂ) • v := by
      rw [Ric.re_im, x1, y1]
      simp
    rw [h3, zero_smul]

theorem tracked {s : p → Prop} {T : Matrix n n ℝ} {Z : Matrix p n ℝ} (h : Spec.Tracked s T Z) :
    ∃ G : Matrix n p ℝ, Stationary.Spec.Stable (T * (1 - G * (Cons.keep s * Z))) := by
  obtain ⟨K, hK, hs⟩ := h
  refine ⟨K, ?_⟩
  have : K * Cons.keep s = K := by
    ext a i
    rw [Cons.keep, mul_diagonal]
    split_ifs with hi
    · rw [mul_one]
    · rw [hK a i hi, zero_mul]
  rwa [← Matrix.mul_assoc, this]

theorem covU_seq {j : ℝ} (hj : 0 ≤ j) {s : Fin k → Prop} {θ : Params n (Fin k) r} (hQ : θ.Q.PosSemidef) (hpos : ∀ i, 0 < mS j s θ i)
    {P0 : Matrix n n ℝ} (hP : P0.PosSemidef) (t : ℕ) :
    covU j (fun _ => s) θ P0 t = Ric.seq θ.T (W j θ) (Cons.keep s * θ.Z) (Matrix.diagonal (mS j s θ)) P0 t := by
  induction t with
  | zero => rfl
  | succ t ih =>
    have hc := Ric.seq_psd (T := θ.T) (W_psd hj hQ) (More.mS_diag_posDef hpos) hP (Z := Cons.keep s * θ.Z) t
    have hf := condCov_posSemidef hc (Cons.keep s * θ.Z) (More.mS_diag_posDef hpos).posSemidef
      (More.obsCov_unit hc _ (More.mS_diag_posDef hpos))
    rw [covU, ih, Ric.seq, Ric.step, filtU, quadFormSym_of_symm _ (PosSemidef.transpose_eq (hf.add (PosSemidef.one.smul hj))),
      quadFormSym_of_symm _ (PosSemidef.transpose_eq hQ), W]
    simp only [Matrix.mul_add, Matrix.add_mul, Matrix.mul_smul, Matrix.smul_mul, Matrix.mul_one]
    abel

theorem covJ_seq {θ : Params n p r} (hQ : θ.Q.PosSemidef) (hH : θ.H.PosDef) {P0 : Matrix n n ℝ} (hP : P0.PosSemidef) (t : ℕ) :
    Cons.covJ 0 (Cons.full p) (fun _ => θ) P0 t = Ric.seq θ.T (W 0 θ) θ.Z θ.H P0 t := by
  induction t with
  | zero => rfl
  | succ t ih =>
    have hc := Ric.seq_psd (T := θ.T) (W_psd le_rfl hQ) hH hP (Z := θ.Z) t
    have hf := condCov_posSemidef hc θ.Z hH.posSemidef (More.obsCov_unit hc _ hH)
    rw [Cons.covJ, ih, Ric.seq, Ric.step, show Cons.full p t = fun _ => True from rfl, More.filtJ_full hc hH,
      quadFormSym_of_symm _ (PosSemidef.transpose_eq hf), quadFormSym_of_symm _ (PosSemidef.transpose_eq hQ), W, zero_smul, add_zero]

theorem condCov_tendsto {Z : Matrix p n ℝ} {M : Matrix p p ℝ} (hM : M.PosDef) {V : ℕ → Matrix n n ℝ} {L : Matrix n n ℝ}
    (hL : L.PosSemidef) (h : Tendsto V atTop (𝓝 L)) :
    Tendsto (fun t => Spec.condCov (V t) Z M) atTop (𝓝 (Spec.condCov L Z M)) := by
  have := Ric.step_tendsto (T := 1) (W := 0) (Z := Z) hM hL h
  simpa [Ric.step] using this

theorem pattern {y : ℕ → Row (Fin k)} {s : Fin k → Prop} (hy : ∀ t i, (y t i).isSome ↔ s i) :
    (fun t i => ((y t i).isSome = true : Prop)) = fun (_ : ℕ) => s := by
  funext t i; exact propext (hy t i)

/-- The run on rows with a fixed pattern. -/
theorem run {j : ℝ} (hj : 0 ≤ j) (hk : 0 < k) {s : Fin k → Prop} {θ : Params n (Fin k) r} (hH : ∀ i, 0 ≤ θ.H i i)
    (hQ : θ.Q.PosSemidef) (hpos : 0 < j ∨ (∀ i, 0 < θ.H i i) ∧ ∀ i, s i) {P0 : Matrix n n ℝ} (hP : P0.PosSemidef) (a0 : n → ℝ)
    {y : ℕ → Row (Fin k)} (hy : ∀ t i, (y t i).isSome ↔ s i) (N : ℕ) :
    ∃ out, univGraph j a0 P0 θ ((List.range N).map y) = some out ∧ ∀ t, t < N →
      out.predictedStates[t]? = some (meanU (fun _ => s) j θ a0 P0 (fun t i (_ : Unit) => (y t i).getD 0) () t) ∧
      out.predictedCovs[t]? = some (Ric.seq θ.T (W j θ) (Cons.keep s * θ.Z) (Matrix.diagonal (mS j s θ)) P0 t) ∧
      out.filteredCovs[t]? = some (Spec.condCov (Ric.seq θ.T (W j θ) (Cons.keep s * θ.Z) (Matrix.diagonal (mS j s θ)) P0 t)
        (Cons.keep s * θ.Z) (Matrix.diagonal (mS j s θ)) + j • (1 : Matrix n n ℝ)) := by
  have hp := mS_pos (θ := θ) (fun _ => s) hj hH (hpos.imp id fun h => ⟨h.1, fun _ => h.2⟩)
  obtain ⟨-, r1⟩ := run_closed (θ := θ) (a0 := a0) (P0 := P0) (Y := fun t i (_ : Unit) => (y t i).getD 0) (fun _ => s) hj hk hH hp hQ hP
  obtain ⟨out, h1, h2⟩ := r1 () N
  have hr : rowU (fun _ => s) (fun t i (_ : Unit) => (y t i).getD 0) () = y := by
    have := funext (More.rowU_of y)
    rwa [pattern hy] at this
  rw [hr] at h1
  refine ⟨out, h1, fun t ht => ?_⟩
  obtain ⟨g1, g2, -, g4⟩ := h2 t ht
  rw [covU_seq hj hQ (hp 0) hP] at g2 g4
  exact ⟨g1, g2, g4⟩

end Settle

open Settle

/-- A stable transition meets both weaker conditions, whatever is recorded and whatever the shocks. -/
theorem C217_stable_tracked {T : Matrix n n ℝ} (hT : Stationary.Spec.Stable T) (s : p → Prop) (Z : Matrix p n ℝ) (V : Matrix n n ℝ) :
    Spec.Tracked s T Z ∧ Spec.Excited T V :=
  ⟨⟨0, fun _ _ _ => rfl, by simpa using hT⟩, fun z v hv hz h _ =>
    absurd ((Stationary.stable_iff _).1 (Ric.stable_transpose hT) z v hv h) (not_lt.2 hz)⟩

/-- **C217.** Let the matrices be constant, let always the same series be missing, and let the jitter be positive, or nothing missing
and all measurement variances positive. Let the state be tracked from the recorded series, and, unless the jitter is positive, let the
shocks reach every lasting mode (both hold for a stable transition). Then the univariate filter's reported predicted
and filtered covariances converge, and the limits are the same for every initial mean, every initial covariance and all data.
The limit of the predicted covariances is the only covariance that a date leaves unchanged. -/
theorem C217_settles {j : ℝ} (hj : 0 ≤ j) (hk : 0 < k) (s : Fin k → Prop) {θ : Params n (Fin k) r} (hT : Spec.Tracked s θ.T θ.Z)
    (hE : 0 < j ∨ Spec.Excited θ.T (θ.R * θ.Q * θ.Rᵀ)) (hH : ∀ i, 0 ≤ θ.H i i) (hQ : θ.Q.PosSemidef)
    (hpos : 0 < j ∨ (∀ i, 0 < θ.H i i) ∧ ∀ i, s i) :
    ∃ L F : Matrix n n ℝ, L.PosSemidef ∧ ∀ (a0 : n → ℝ) (P0 : Matrix n n ℝ), P0.PosSemidef → ∀ y : ℕ → Row (Fin k),
      (∀ t i, (y t i).isSome ↔ s i) → ∃ out : ℕ → UnivGraph n,
        (∀ N, univGraph j a0 P0 θ ((List.range N).map y) = some (out N)) ∧
        Tendsto (fun t => (out (t + 1)).predictedCovs.getD t 0) atTop (𝓝 L) ∧
        Tendsto (fun t => (out (t + 1)).filteredCovs.getD t 0) atTop (𝓝 F) ∧
        ((out 2).predictedCovs[1]? = some P0 ↔ P0 = L) := by
  have hp := mS_pos (θ := θ) (fun _ => s) hj hH (hpos.imp id fun h => ⟨h.1, fun _ => h.2⟩) 0
  have hM := More.mS_diag_posDef hp
  obtain ⟨L, hL, hfix, huniq, hall⟩ := Ric.converges (tracked hT) (excited hj hQ hE) (W_psd hj hQ) hM
  refine ⟨L, Spec.condCov L (Cons.keep s * θ.Z) (Matrix.diagonal (mS j s θ)) + j • 1, hL, fun a0 P0 hP y hy => ?_⟩
  choose out h1 h2 using run hj hk hH hQ hpos hP a0 hy
  refine ⟨out, h1, ?_, ?_, ?_⟩
  · refine (hall P0 hP).congr fun t => ?_
    rw [List.getD_eq_getElem?_getD, (h2 (t + 1) t (by omega)).2.1]
    rfl
  · refine ((condCov_tendsto (Z := Cons.keep s * θ.Z) hM hL (hall P0 hP)).add_const (j • (1 : Matrix n n ℝ))).congr fun t => ?_
    rw [List.getD_eq_getElem?_getD, (h2 (t + 1) t (by omega)).2.2]
    rfl
  · rw [(h2 2 1 (by norm_num)).2.1, Option.some.injEq]
    constructor
    · intro h
      exact huniq P0 hP h
    · rintro rfl
      exact hfix

/-- **C217 (only if tracked).** Conversely, in the situation of `C217_settles`, if the reported predicted covariances converge from
only one start on only one data set, then the state is tracked from the recorded series. -/
theorem C217_only_if_tracked {j : ℝ} (hj : 0 ≤ j) (hk : 0 < k) (s : Fin k → Prop) {θ : Params n (Fin k) r}
    (hE : 0 < j ∨ Spec.Excited θ.T (θ.R * θ.Q * θ.Rᵀ)) (hH : ∀ i, 0 ≤ θ.H i i) (hQ : θ.Q.PosSemidef)
    (hpos : 0 < j ∨ (∀ i, 0 < θ.H i i) ∧ ∀ i, s i) {a0 : n → ℝ} {P0 : Matrix n n ℝ} (hP : P0.PosSemidef) {y : ℕ → Row (Fin k)}
    (hy : ∀ t i, (y t i).isSome ↔ s i) {out : ℕ → UnivGraph n}
    (ho : ∀ N, univGraph j a0 P0 θ ((List.range N).map y) = some (out N)) {L : Matrix n n ℝ}
    (hlim : Tendsto (fun t => (out (t + 1)).predictedCovs.getD t 0) atTop (𝓝 L)) : Spec.Tracked s θ.T θ.Z := by
  have hp := mS_pos (θ := θ) (fun _ => s) hj hH (hpos.imp id fun h => ⟨h.1, fun _ => h.2⟩) 0
  have hM := More.mS_diag_posDef hp
  have hW := W_psd hj hQ
  have hl : Tendsto (Ric.seq θ.T (W j θ) (Cons.keep s * θ.Z) (Matrix.diagonal (mS j s θ)) P0) atTop (𝓝 L) := by
    refine hlim.congr fun t => ?_
    obtain ⟨o, h1, h2⟩ := run hj hk hH hQ hpos hP a0 hy (t + 1)
    rw [ho, Option.some.injEq] at h1
    rw [h1, List.getD_eq_getElem?_getD, (h2 t (by omega)).2.1]
    rfl
  have hL := Ric.psd_of_tendsto hl (Ric.seq_psd hW hM hP)
  have hfix := tendsto_nhds_unique (Ric.step_tendsto (T := θ.T) (W := W j θ) (Z := Cons.keep s * θ.Z) hM hL hl)
    (hl.comp (tendsto_add_atTop_nat 1))
  refine ⟨Ric.K (Cons.keep s * θ.Z) (Matrix.diagonal (mS j s θ)) L * Cons.keep s, fun a i hi => ?_, ?_⟩
  · rw [Cons.keep, mul_diagonal, if_neg hi, mul_zero]
  · have := Ric.closed_stable (excited hj hQ hE) hW hM hL hfix
    rwa [← Matrix.mul_assoc] at this

/-- **C217 (a known start).** Started from a known state the univariate filter never reports a smaller predicted variance than on
the date before, whether the transition is stable or not. -/
theorem C217_known_start {j : ℝ} (hj : 0 ≤ j) (hk : 0 < k) (s : Fin k → Prop) {θ : Params n (Fin k) r} (hH : ∀ i, 0 ≤ θ.H i i)
    (hQ : θ.Q.PosSemidef) (hpos : 0 < j ∨ (∀ i, 0 < θ.H i i) ∧ ∀ i, s i) (a0 : n → ℝ) (y : ℕ → Row (Fin k))
    (hy : ∀ t i, (y t i).isSome ↔ s i) (N : ℕ) :
    ∃ out, univGraph j a0 0 θ ((List.range N).map y) = some out ∧ ∀ t, t + 1 < N →
      ∃ V V', out.predictedCovs[t]? = some V ∧ out.predictedCovs[t + 1]? = some V' ∧ (V' - V).PosSemidef := by
  have hp := mS_pos (θ := θ) (fun _ => s) hj hH (hpos.imp id fun h => ⟨h.1, fun _ => h.2⟩) 0
  obtain ⟨out, h1, h2⟩ := run hj hk hH hQ hpos PosSemidef.zero a0 hy N
  exact ⟨out, h1, fun t ht => ⟨_, _, (h2 t (by omega)).2.1, (h2 (t + 1) ht).2.1,
    Ric.seq_zero_mono (W_psd hj hQ) (More.mS_diag_posDef hp) t⟩⟩

/-- **C217 (a stationary start).** Without jitter, on complete data and with positive measurement variances, started from the
stationary initialisation the univariate filter never reports a larger predicted variance than on the date before. -/
theorem C217_stationary_start (hk : 0 < k) {θ : Params n (Fin k) r} (hT : Stationary.Spec.Stable θ.T) (hH : ∀ i, 0 < θ.H i i)
    (hQ : θ.Q.PosSemidef) (y : ℕ → Fin k → ℝ) (N : ℕ) :
    let i := Stationary.stationaryInit θ.c θ.T θ.R θ.Q
    ∃ out, univGraph 0 i.1 i.2 θ ((List.range N).map fun t i => some (y t i)) = some out ∧ ∀ t, t + 1 < N →
      ∃ V V', out.predictedCovs[t]? = some V ∧ out.predictedCovs[t + 1]? = some V' ∧ (V - V').PosSemidef := by
  intro i
  obtain ⟨-, -, -, h4, h5⟩ := Stationary.C170_fixed_point θ.c hT θ.R hQ
  have hpos : (0 : ℝ) < 0 ∨ (∀ i, 0 < θ.H i i) ∧ ∀ i : Fin k, (fun _ => True) i := Or.inr ⟨hH, fun _ => trivial⟩
  have hp := mS_pos (θ := θ) (fun _ => fun _ => True) le_rfl (fun i => (hH i).le) (hpos.imp id fun h => ⟨h.1, fun _ => h.2⟩) 0
  obtain ⟨out, h1, h2⟩ := run le_rfl hk (fun i => (hH i).le) hQ hpos h5 i.1 (y := fun t i => some (y t i)) (fun _ _ => by simp) N
  refine ⟨out, h1, fun t ht => ⟨_, _, (h2 t (by omega)).2.1, (h2 (t + 1) ht).2.1,
    Ric.seq_anti (W_psd le_rfl hQ) (More.mS_diag_posDef hp) h5 ?_ t⟩⟩
  have hs := (h4 i.2).2 rfl
  have h6 := Cons.conj θ.T (Ric.condCov_le_self (Z := Cons.keep (fun _ => True) * θ.Z) (More.mS_diag_posDef hp) h5)
  rw [Ric.step, W, zero_smul, add_zero]
  have h7 : i.2 - (θ.T * Spec.condCov i.2 (Cons.keep (fun _ => True) * θ.Z) (Matrix.diagonal (mS 0 (fun _ => True) θ)) * θ.Tᵀ +
      θ.R * θ.Q * θ.Rᵀ) = θ.T * i.2 * θ.Tᵀ -
      θ.T * Spec.condCov i.2 (Cons.keep (fun _ => True) * θ.Z) (Matrix.diagonal (mS 0 (fun _ => True) θ)) * θ.Tᵀ := by
    conv_lhs => enter [1]; rw [← hs]
    abel
  exact h7 ▸ h6

/-- **C217 (standard filter).** On complete data, without jitter, with constant matrices, a tracked state, shocks that reach every lasting
mode, and a non-singular measurement error covariance, the standard filter's predicted covariances converge to one limit, whatever the
start and the data. -/
theorem C217_standard {θ : Params n p r} (hT : Spec.Tracked (fun _ => True) θ.T θ.Z) (hE : Spec.Excited θ.T (θ.R * θ.Q * θ.Rᵀ))
    (hH : θ.H.PosDef) (hQ : θ.Q.PosSemidef) (fill : ℝ) :
    ∃ L : Matrix n n ℝ, L.PosSemidef ∧ ∀ (a0 : n → ℝ) (P0 : Matrix n n ℝ), P0.PosSemidef → ∀ y : ℕ → p → ℝ, (∀ t i, y t i ≠ fill) →
      Tendsto (fun t => (buildGraph 0 fill a0 P0 ((List.range (t + 1)).map fun t =>
        ((fun i => some (y t i) : Row p), θ))).predictedCovs.getD t 0) atTop (𝓝 L) := by
  classical
  obtain ⟨L, hL, -, -, hall⟩ := Ric.converges (hT.imp fun _ h => h.2) (excited le_rfl hQ (Or.inr hE)) (W_psd le_rfl hQ) hH
  refine ⟨L, hL, fun a0 P0 hP y hy => (hall P0 hP).congr fun t => ?_⟩
  have hrow : ∀ t, (fun i => some (y t i) : Row p) = Cons.row (Cons.full p) y t := by
    intro t; funext i; simp [Cons.row, Cons.full]
  simp only [hrow]
  rw [(out_carried 0 fill a0 P0 (Cons.row (Cons.full p) y) (fun _ => θ) (t + 1) t (by omega)).2.1,
    (Cons.carried_cov (fun t i _ => hy t i) t).1, covJ_seq hQ hH hP]

end Verif.Kalman
