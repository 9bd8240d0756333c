import Verif.Kalman.SqrtProps
import Verif.Kalman.GaussianProps
import Verif.Kalman.GaussianLoglik
import Verif.Kalman.GaussianExists
import Verif.Kalman.UnivariateProps

/-!
# C200: the square-root filter reports the conditional distributions of the model whose initial covariance has the given factor

Property theorems.
-/

set_option autoImplicit false
set_option linter.unusedSectionVars false

open Matrix MeasureTheory ProbabilityTheory

namespace Verif.Kalman

open Orthogonal

variable {Ω : Type*} [MeasurableSpace Ω] {μ : Measure Ω} [IsProbabilityMeasure μ]
variable {n p r : Type*} [Fintype n] [Fintype p] [Fintype r] [DecidableEq n] [DecidableEq p] [DecidableEq r]
variable {θ : ℕ → Params n p r} {a0 : n → ℝ} {L0 : Matrix n n ℝ} {X : ℕ → n → Ω → ℝ} {Y : ℕ → p → Ω → ℝ}
  {η : ℕ → r → Ω → ℝ} {ε : ℕ → p → Ω → ℝ}

namespace SqrtGauss

/-- In one step the contract of the library can be met. -/
theorem exists_step (fill : ℝ) (y : Row p) [Nonempty p] (hobs : ∀ i, ¬ Spec.Missing fill (y i)) (a : n → ℝ)
    (L : Matrix n n ℝ) (θ : Params n p r) (hH : θ.H.PosSemidef) (hQ : θ.Q.PosSemidef)
    (hF : IsUnit (Spec.obsCov (L * Lᵀ) θ.Z θ.H).det) :
    ∃ lib : SqrtLib n p r, lib.Valid 0 fill y a L θ := by
  have hW : maskW fill y = 1 := by
    rw [maskW, ← diagonal_one]; congr 1; funext i; exact if_neg (hobs i)
  have hZ : (handleMissing fill y θ.Z θ.H).Z = θ.Z := by simp [handleMissing, hW]
  have hH' : (handleMissing fill y θ.Z θ.H).H = θ.H := by simp [handleMissing, hW]
  have hP : (L * Lᵀ).PosSemidef := by
    simpa [conjTranspose_eq_transpose_of_trivial] using posSemidef_self_mul_conjTranspose L
  obtain ⟨Hc, hHc⟩ := Gauss.factor hH
  obtain ⟨Qc, hQc⟩ := Gauss.factor hQ
  have hFp : (Spec.obsCov (L * Lᵀ) θ.Z θ.H).PosSemidef := by
    have := hP.mul_mul_conjTranspose_same θ.Z
    rw [conjTranspose_eq_transpose_of_trivial] at this
    exact this.add hH
  obtain ⟨Fc, hFc⟩ := Gauss.factor hFp
  obtain ⟨Lf, hLf⟩ := Gauss.factor (condCov_posSemidef hP θ.Z hH hF)
  have hFu : IsUnit Fc.det := by
    have := hF; rw [hFc, det_mul, det_transpose] at this
    exact isUnit_of_mul_isUnit_left this
  have hFtu : IsUnit Fcᵀ.det := by rwa [det_transpose]
  have hFi : (Spec.obsCov (L * Lᵀ) θ.Z θ.H)⁻¹ = Fcᵀ⁻¹ * Fc⁻¹ := by rw [hFc, Matrix.mul_inv_rev]
  let K := L * Lᵀ * θ.Zᵀ * Fcᵀ⁻¹
  have hKF : K * Fcᵀ = L * Lᵀ * θ.Zᵀ := by
    simp only [K]; rw [Matrix.mul_assoc, nonsing_inv_mul _ hFtu, Matrix.mul_one]
  have hKK : K * Kᵀ + Lf * Lfᵀ = L * Lᵀ := by
    rw [← hLf, Spec.condCov, hFi]
    have : K * Kᵀ = L * Lᵀ * θ.Zᵀ * (Fcᵀ⁻¹ * Fc⁻¹) * θ.Z * (L * Lᵀ) := by
      simp only [K, transpose_mul, transpose_transpose, transpose_nonsing_inv, Matrix.mul_assoc]
    rw [this]; abel
  let B : Matrix (p ⊕ n) (p ⊕ n) ℝ := fromBlocks Fc 0 K Lf
  have hB : B * Bᵀ = sqrtA Hc θ.Z L * (sqrtA Hc θ.Z L)ᵀ := by
    simp only [B, sqrtA, fromBlocks_transpose, fromBlocks_multiply, transpose_zero, Matrix.mul_zero, Matrix.zero_mul,
      add_zero, zero_add, transpose_mul]
    congr 1
    · rw [← hFc, ← hHc, Spec.obsCov]; simp only [Matrix.mul_assoc]; abel
    · have := congrArg transpose hKF
      simp only [transpose_mul, transpose_transpose] at this
      rw [this]; simp only [Matrix.mul_assoc]
    · rw [hKF]; simp only [Matrix.mul_assoc]
  let Lp := (sqrtStep 0 fill y a L θ ⟨Hc, B, Qc, 0⟩).PFilt
  obtain ⟨C, hC⟩ := Gauss.factor (A := sqrtM θ.T Lp θ.R Qc * (sqrtM θ.T Lp θ.R Qc)ᵀ) (by
    simpa [conjTranspose_eq_transpose_of_trivial] using posSemidef_self_mul_conjTranspose (sqrtM θ.T Lp θ.R Qc))
  refine ⟨⟨Hc, B, Qc, Cᵀ⟩, ?_, ?_, ?_, hQc.symm, ?_⟩
  · rw [hH']; exact hHc.symm
  · rw [hZ]; exact hB
  · simp [B]
  · show Cᵀᵀ * Cᵀ = _
    rw [transpose_transpose]; exact hC.symm

theorem obsCov_step (fill : ℝ) (y : Row p) (hobs : ∀ i, ¬ Spec.Missing fill (y i)) (a : n → ℝ) (P : Matrix n n ℝ)
    (θ : Params n p r) : (kalmanStep 0 fill y a P θ).obsCov = Spec.obsCov P θ.Z θ.H := by
  have hW : maskW fill y = 1 := by
    rw [maskW, ← diagonal_one]; congr 1; funext i; exact if_neg (hobs i)
  simp [kalmanStep, update, innovCov, handleMissing, hW, stabilize, Spec.obsCov, Matrix.mul_assoc]

theorem exists_run (fill : ℝ) [Nonempty p] (rows : List (Row p × Params n p r)) : ∀ (a : n → ℝ) (L : Matrix n n ℝ),
    (∀ x ∈ rows, (∀ i, ¬ Spec.Missing fill (x.1 i)) ∧ x.2.H.PosSemidef ∧ x.2.Q.PosSemidef) →
    (∀ o ∈ filterScan 0 fill a (L * Lᵀ) rows, IsUnit o.obsCov.det) →
    ∃ libs : List (SqrtLib n p r), libs.length = rows.length ∧ sqrtValid 0 fill a L (rows.zip libs) := by
  induction rows with
  | nil => intro a L _ _; exact ⟨[], rfl, trivial⟩
  | cons x rest ih =>
    intro a L hx hF
    obtain ⟨y, θ⟩ := x
    obtain ⟨hobs, hH, hQ⟩ := hx (y, θ) (by simp)
    have hF0 : IsUnit (Spec.obsCov (L * Lᵀ) θ.Z θ.H).det := by
      have := hF (kalmanStep 0 fill y a (L * Lᵀ) θ) (by simp [filterScan])
      rwa [obsCov_step fill y hobs] at this
    obtain ⟨lib, hlib⟩ := exists_step fill y hobs a L θ hH hQ hF0
    have hs := C07_sqrt_step fill y hobs a L θ (PosSemidef.transpose_eq hH) lib hlib hF0
    obtain ⟨libs, hl, hv⟩ := ih (sqrtStep 0 fill y a L θ lib).aHat (sqrtStep 0 fill y a L θ lib).PHat
      (fun x hx' => hx x (by simp [hx'])) (by
        rw [hs.2.2.1, hs.2.2.2.1]
        exact fun o ho => hF o (by simp only [filterScan, List.mem_cons]; exact Or.inr ho))
    exact ⟨lib :: libs, by simp [hl], hlib, hv⟩

theorem shockCov (h : Spec.Process μ θ a0 (L0 * L0ᵀ) X Y η ε) (t : ℕ) : (θ t).H.PosSemidef ∧ (θ t).Q.PosSemidef := by
  rw [← (toProc h).εε t, ← (toProc h).ηη t]
  exact ⟨covM_posSemidef _ (toProc h).sym covB_self_nonneg _, covM_posSemidef _ (toProc h).sym covB_self_nonneg _⟩

theorem rows_ok (h : Spec.Process μ θ a0 (L0 * L0ᵀ) X Y η ε) (fill : ℝ) (y : ℕ → p → ℝ) (hy : ∀ t i, y t i ≠ fill) (N : ℕ) :
    ∀ x ∈ (List.range N).map fun t => ((fun i => some (y t i) : Row p), θ t),
      (∀ i, ¬ Spec.Missing fill (x.1 i)) ∧ x.2.H.PosSemidef ∧ x.2.Q.PosSemidef := by
  intro x hx
  obtain ⟨t, -, rfl⟩ := List.mem_map.1 hx
  refine ⟨fun i hm => ?_, shockCov h t⟩
  rcases hm with h | h
  · cases h
  · exact hy t i (Option.some.inj h)

theorem unit (h : Spec.Process μ θ a0 (L0 * L0ᵀ) X Y η ε) (hY : Spec.Undetermined μ Y) (fill : ℝ) (y : ℕ → p → ℝ)
    (hy : ∀ t i, y t i ≠ fill) (N : ℕ) :
    ∀ F ∈ (buildGraph 0 fill a0 (L0 * L0ᵀ) ((List.range N).map fun t => ((fun i => some (y t i) : Row p), θ t))).observedCovs,
      IsUnit F.det := by
  intro F hF
  obtain ⟨t, ht, rfl⟩ := List.mem_iff_getElem.1 hF
  have hR := regular_of_process h hY
  have htN : t < N := by
    simpa [buildGraph, postprocess, filterScan_length] using ht
  have := (outAt (a0 := a0) hR fill y hy N t htN).2.2.2.2.2
  rw [List.getElem?_eq_getElem ht] at this
  rw [Option.some.inj this]
  exact hR.unit t

end SqrtGauss

/-- **C200 (a run exists).** Whatever normal model the data come from, with probability one all factorisations the square-root
filter asks the library for exist: the hypothesis of the next theorem can always be met. -/
theorem C200_exists [Nonempty p] (h : Spec.NormalProcess μ θ a0 (L0 * L0ᵀ) X Y η ε) (hY : Spec.Undetermined μ Y) (fill : ℝ) (N : ℕ) :
    ∀ᵐ ω ∂μ, ∃ libs : List (SqrtLib n p r), libs.length = N ∧
      sqrtValid 0 fill a0 L0 ((Spec.rows θ Y N ω).zip libs) := by
  filter_upwards [Gauss.fill_null h hY fill] with ω hω
  obtain ⟨libs, hl, hv⟩ := SqrtGauss.exists_run fill (Spec.rows θ Y N ω) a0 L0
    (SqrtGauss.rows_ok h.toProcess fill (fun t i => Y t i ω) hω N) (by
      intro o ho
      exact SqrtGauss.unit h.toProcess hY fill (fun t i => Y t i ω) hω N _ (List.mem_map_of_mem ho))
  exact ⟨libs, by simpa [Spec.rows] using hl, hv⟩

/-- **C200 (conditional laws).** Let the data come from a normal model whose initial covariance is `L0 L0ᵀ`, and let the matrix
`L0` be passed to the square-root filter. Whatever factors the library returns, the predicted, filtered and forecast outputs of every
date are the means and covariances of the conditional distributions of the state and of the observation. -/
theorem C200_laws [Nonempty p] (h : Spec.NormalProcess μ θ a0 (L0 * L0ᵀ) X Y η ε) (hY : Spec.Undetermined μ Y) (fill : ℝ)
    (N t : ℕ) (ht : t < N) :
    ∀ᵐ ω ∂μ, ∀ libs : List (SqrtLib n p r), libs.length = N → sqrtValid 0 fill a0 L0 ((Spec.rows θ Y N ω).zip libs) →
      let out := sqrtBuildGraph 0 fill a0 L0 ((Spec.rows θ Y N ω).zip libs)
      Spec.given μ (X t) Y t ω = Spec.N (out.predictedStates.getD t 0) (out.predictedCovs.getD t 0) ∧
      Spec.given μ (X t) Y (t + 1) ω = Spec.N (out.filteredStates.getD t 0) (out.filteredCovs.getD t 0) ∧
      Spec.given μ (Y t) Y t ω = Spec.N (out.observedStates.getD t 0) (out.observedCovs.getD t 0) := by
  filter_upwards [Gauss.fill_null h hY fill, C189_prediction_law h hY fill N t ht, C189_filter_law h hY fill N t ht,
    C189_forecast_law h hY fill N t ht] with ω hω h1 h2 h3 libs hl hv
  have hz : ((Spec.rows θ Y N ω).zip libs).map Prod.fst = Spec.rows θ Y N ω :=
    List.map_fst_zip (by simp [Spec.rows, hl])
  have hrun := C07_sqrt_run fill ((Spec.rows θ Y N ω).zip libs) a0 L0 hv
    (fun x hx => by
      have := SqrtGauss.rows_ok h.toProcess fill (fun t i => Y t i ω) hω N x.1 (List.of_mem_zip hx).1
      exact ⟨this.1, PosSemidef.transpose_eq this.2.1⟩)
    (by rw [hz]; exact SqrtGauss.unit h.toProcess hY fill (fun t i => Y t i ω) hω N)
  rw [hz] at hrun
  obtain ⟨e1, e2, e3, e4, e5, e6⟩ := hrun
  intro out
  simp only [out, e1, e2, e3, e4, e5, e6]
  exact ⟨h1, h2, h3⟩

/-- The log-likelihood of the square-root filter for a hypothetical sample `y` of `N` dates, with library results `libs`. -/
noncomputable def Spec.sqrtLoglik (θ : ℕ → Params n p r) (fill : ℝ) (a0 : n → ℝ) (L0 : Matrix n n ℝ) {N : ℕ} (y : p × Fin N → ℝ)
    (libs : List (SqrtLib n p r)) : ℝ :=
  (sqrtBuildGraph 0 fill a0 L0
    (((List.finRange N).map fun t : Fin N => ((fun i => some (y (i, t)) : Row p), θ t)).zip libs)).loglike.sum

/-- For a single series the per-date log-likelihoods of the two filters are the same. -/
theorem SqrtGauss.loglik_run (fill : ℝ) (rows : List ((Row (Fin 1) × Params n (Fin 1) r) × SqrtLib n (Fin 1) r)) :
    ∀ (a : n → ℝ) (L : Matrix n n ℝ), sqrtValid 0 fill a L rows →
      (∀ x ∈ rows, (∀ i, ¬ Spec.Missing fill (x.1.1 i)) ∧ x.1.2.Hᵀ = x.1.2.H) →
      (∀ o ∈ filterScan 0 fill a (L * Lᵀ) (rows.map Prod.fst), IsUnit o.obsCov.det) →
      (sqrtScan 0 fill a L rows).map StepOut.ll = (filterScan 0 fill a (L * Lᵀ) (rows.map Prod.fst)).map StepOut.ll := by
  induction rows with
  | nil => intro a L _ _ _; rfl
  | cons x rest ih =>
    intro a L hv hx hF
    obtain ⟨⟨y, θ⟩, lib⟩ := x
    obtain ⟨hobs, hH⟩ := hx ((y, θ), lib) (by simp)
    have hF0 : IsUnit (Spec.obsCov (L * Lᵀ) θ.Z θ.H).det := by
      have := hF (kalmanStep 0 fill y a (L * Lᵀ) θ) (by simp [filterScan])
      rwa [SqrtGauss.obsCov_step fill y hobs] at this
    have hs := C07_sqrt_step fill y hobs a L θ hH lib hv.1 hF0
    have h1 := C08_sqrt_loglik_single fill y (hobs 0) a L θ lib hv.1 hF0
    have h2 := C05_loglik_constant fill y hobs a (L * Lᵀ) θ
    have ih' := ih (sqrtStep 0 fill y a L θ lib).aHat (sqrtStep 0 fill y a L θ lib).PHat hv.2
      (fun x hx' => hx x (by simp [hx'])) (by
        rw [hs.2.2.1, hs.2.2.2.1]
        exact fun o ho => hF o (by simp only [filterScan, List.map_cons, List.mem_cons]; exact Or.inr ho))
    rw [hs.2.2.1, hs.2.2.2.1] at ih'
    simp only [sqrtScan, filterScan, List.map_cons, h1, h2, hs.2.2.1]
    rw [ih']
    simp

/-- **C200 (likelihood of one series).** For a single series, on every sample without the fill value and for every valid result of
the library, the total log-likelihood of the square-root filter is that of the standard filter started at `L0 L0ᵀ`. -/
theorem C200_single_series {θ : ℕ → Params n (Fin 1) r} {Y : ℕ → Fin 1 → Ω → ℝ} {ε : ℕ → Fin 1 → Ω → ℝ}
    (h : Spec.NormalProcess μ θ a0 (L0 * L0ᵀ) X Y η ε) (hY : Spec.Undetermined μ Y) (fill : ℝ) {N : ℕ} (y : Fin 1 × Fin N → ℝ)
    (hy : ∀ q, y q ≠ fill) (libs : List (SqrtLib n (Fin 1) r)) (hl : libs.length = N)
    (hv : sqrtValid 0 fill a0 L0 (((List.finRange N).map fun t : Fin N => ((fun i => some (y (i, t)) : Row (Fin 1)), θ t)).zip libs)) :
    Spec.sqrtLoglik θ fill a0 L0 y libs = Spec.loglik θ fill a0 (L0 * L0ᵀ) y := by
  let y' : ℕ → Fin 1 → ℝ := fun t i => if ht : t < N then y (i, ⟨t, ht⟩) else fill + 1
  have hy' : ∀ t i, y' t i ≠ fill := by
    intro t i
    by_cases ht : t < N
    · simp only [y', dif_pos ht]; exact hy _
    · simp [y', dif_neg ht]
  have hrow : (List.finRange N).map (fun t : Fin N => ((fun i => some (y (i, t)) : Row (Fin 1)), θ t)) =
      (List.range N).map fun t => ((fun i => some (y' t i) : Row (Fin 1)), θ t) := by
    rw [← List.map_coe_finRange_eq_range, List.map_map]
    refine List.map_congr_left fun t _ => ?_
    simp [y']
  rw [Spec.sqrtLoglik, Spec.loglik, hrow]
  rw [hrow] at hv
  have hz : (((List.range N).map fun t => ((fun i => some (y' t i) : Row (Fin 1)), θ t)).zip libs).map Prod.fst =
      (List.range N).map fun t => ((fun i => some (y' t i) : Row (Fin 1)), θ t) :=
    List.map_fst_zip (by simp [hl])
  have := SqrtGauss.loglik_run fill _ a0 L0 hv
    (fun x hx => by
      have := SqrtGauss.rows_ok h.toProcess fill y' hy' N x.1 (List.of_mem_zip hx).1
      exact ⟨this.1, PosSemidef.transpose_eq this.2.1⟩)
    (by
      rw [hz]
      intro o ho
      exact SqrtGauss.unit h.toProcess hY fill y' hy' N _ (List.mem_map_of_mem ho))
  rw [hz] at this
  simp only [sqrtBuildGraph, buildGraph, postprocess]
  rw [this]

/-- **C200 (density of one series).** For a single series the data have a Lebesgue density, and the square-root filter's total
log-likelihood is its logarithm: `libs y` are the results of the library on the sample `y`. -/
theorem C200_single_series_density {θ : ℕ → Params n (Fin 1) r} {Y : ℕ → Fin 1 → Ω → ℝ} {ε : ℕ → Fin 1 → Ω → ℝ}
    (h : Spec.NormalProcess μ θ a0 (L0 * L0ᵀ) X Y η ε) (hY : Spec.Undetermined μ Y) (fill : ℝ) (N : ℕ)
    (libs : (Fin 1 × Fin N → ℝ) → List (SqrtLib n (Fin 1) r)) (hl : ∀ y, (libs y).length = N)
    (hv : ∀ y, (∀ q, y q ≠ fill) → sqrtValid 0 fill a0 L0
      (((List.finRange N).map fun t : Fin N => ((fun i => some (y (i, t)) : Row (Fin 1)), θ t)).zip (libs y))) :
    μ.map (fun ω (q : Fin 1 × Fin N) => Y q.2 q.1 ω) = (volume : Measure (Fin 1 × Fin N → ℝ)).withDensity fun y =>
      ENNReal.ofReal (Real.exp (Spec.sqrtLoglik θ fill a0 L0 y (libs y))) := by
  rw [C190_single_series (by simp) h hY fill N]
  refine withDensity_congr_ae ?_
  filter_upwards [Gauss.fill_volume fill] with y hy
  rw [C200_single_series h hY fill y hy (libs y) (hl y) (hv y hy)]

/-- **C200 (a covariance passed as the factor).** If the covariance matrix `P0` of the initial state is passed, as the documentation
asks for all filters, the first reported prediction is the law of the initial state only if `P0 P0ᵀ = P0`. -/
theorem C200_covariance_passed {P0 : Matrix n n ℝ} (h : Spec.NormalProcess μ θ a0 P0 X Y η ε) (fill : ℝ) (N : ℕ)
    (libs : Ω → List (SqrtLib n p r)) :
    (∀ᵐ ω ∂μ, let out := sqrtBuildGraph 0 fill a0 P0 ((Spec.rows θ Y N ω).zip (libs ω))
      μ.map (Spec.vec (X 0)) = Spec.N (out.predictedStates.getD 0 0) (out.predictedCovs.getD 0 0)) ↔ P0 * P0ᵀ = P0 := by
  have hp := h.toProcess
  have hP : P0.PosSemidef := by
    rw [← (toProc hp).x0]
    exact covM_posSemidef _ (toProc hp).sym covB_self_nonneg _
  have hPP : (P0 * P0ᵀ).PosSemidef := by
    simpa [conjTranspose_eq_transpose_of_trivial] using posSemidef_self_mul_conjTranspose P0
  have hlaw : μ.map (Spec.vec (X 0)) = Spec.N a0 P0 :=
    Gauss.law (Gauss.of_affine h.normal (X 0) (Gauss.memX hp 0)) a0 P0 hp.mean_initial hp.cov_initial
  have hout : ∀ ω, let out := sqrtBuildGraph 0 fill a0 P0 ((Spec.rows θ Y N ω).zip (libs ω))
      Spec.N (out.predictedStates.getD 0 0) (out.predictedCovs.getD 0 0) = Spec.N a0 (P0 * P0ᵀ) := fun ω => rfl
  simp only [hout, hlaw, Filter.eventually_const]
  constructor
  · intro he
    ext i j
    have h1 := covariance_eval_multivariateGaussian (μ := WithLp.toLp 2 a0) hP i j
    have h2 := covariance_eval_multivariateGaussian (μ := WithLp.toLp 2 a0) hPP i j
    rw [← h1, ← h2]
    show cov[_, _; Spec.N a0 (P0 * P0ᵀ)] = cov[_, _; Spec.N a0 P0]
    rw [he]
  · intro he; rw [he]

/-- C200 applies to a local linear trend with an initial covariance that is not its own factor, at every length and date. -/
example (N t : ℕ) (ht : t < N) (fill : ℝ) : ∃ (Ω : Type) (_ : MeasurableSpace Ω) (μ : Measure Ω) (_ : IsProbabilityMeasure μ)
    (X : ℕ → Fin 2 → Ω → ℝ) (Y : ℕ → Fin 1 → Ω → ℝ), ∀ᵐ ω ∂μ, ∃ libs : List (SqrtLib (Fin 2) (Fin 1) (Fin 2)),
      let out := sqrtBuildGraph 0 fill 0 !![2, 0; 1, 3] ((Spec.rows (fun _ => trendModel) Y N ω).zip libs)
      Spec.given μ (X t) Y (t + 1) ω = Spec.N (out.filteredStates.getD t 0) (out.filteredCovs.getD t 0) := by
  obtain ⟨Ω, mΩ, μ, hμ, X, Y, η, ε, h⟩ := exists_normal_process (fun _ => trendModel) 0
    (P0 := !![2, 0; 1, 3] * (!![2, 0; 1, 3] : Matrix (Fin 2) (Fin 2) ℝ)ᵀ)
    (by simpa [conjTranspose_eq_transpose_of_trivial] using
      posSemidef_self_mul_conjTranspose (!![2, 0; 1, 3] : Matrix (Fin 2) (Fin 2) ℝ))
    (fun _ => Matrix.PosSemidef.one) (fun _ => Matrix.PosSemidef.one)
  have hU := undetermined_of_H h.toProcess fun _ => Matrix.PosDef.one
  refine ⟨Ω, mΩ, μ, hμ, X, Y, ?_⟩
  filter_upwards [C200_exists h hU fill N, C200_laws h hU fill N t ht] with ω ⟨libs, hl, hv⟩ h2
  exact ⟨libs, (h2 libs hl hv).2.1⟩

end Verif.Kalman
