import Verif.Kalman.SmootherOptimal

/-!
# C164: property theorems

The model of the smoother is run on the filter's output for the realised observations, without jitter, for a model without state
intercept (C14 shows the smoother ignores it) and with constant transition, selection and shock covariance matrices (C15 shows
the smoother misaligns varying ones).
-/

set_option autoImplicit false

open Matrix MeasureTheory ProbabilityTheory

namespace Verif.Kalman

open Orthogonal

variable {Ω : Type*} [MeasurableSpace Ω] {μ : Measure Ω} [IsProbabilityMeasure μ]
variable {n p r : Type*} [Fintype n] [Fintype p] [Fintype r] [DecidableEq n] [DecidableEq p] [DecidableEq r]
variable {θ : ℕ → Params n p r} {a0 : n → ℝ} {P0 : Matrix n n ℝ} {X : ℕ → n → Ω → ℝ} {Y : ℕ → p → Ω → ℝ}
  {η : ℕ → r → Ω → ℝ} {ε : ℕ → p → Ω → ℝ}

/-- Filter, then smooth, the first `N` realised observations: list of (smoothed state, smoothed covariance). -/
noncomputable def Spec.smoothed (θ : ℕ → Params n p r) (Θ : Smoother.Params n r) (fill : ℝ) (a0 : n → ℝ) (P0 : Matrix n n ℝ)
    (Y : ℕ → p → Ω → ℝ) (N : ℕ) (ω : Ω) : List ((n → ℝ) × Matrix n n ℝ) :=
  let o := buildGraph 0 fill a0 P0 (Spec.rows θ Y N ω)
  (Smoother.buildGraph 0 0 (o.filteredStates.zip o.filteredCovs) (List.replicate N Θ)).getD []

namespace Orthogonal

theorem smAt_eval (Y : ℕ → p → L2 μ) (ω : Ω) (M k : ℕ) :
    (fun i => (smAt (one μ) θ a0 P0 Y M k i).1 ω) = smAt (1 : ℝ) θ a0 P0 (fun t i => (Y t i).1 ω) M k := by
  induction k with
  | zero => exact filtAt_eval Y ω M
  | succ k ih =>
    have hf := filtAt_eval (θ := θ) (a0 := a0) (P0 := P0) Y ω (M - (k + 1))
    funext i
    simp only [smAt, Pi.add_apply, Submodule.coe_add, act_eval, Pi.sub_apply, Submodule.coe_sub]
    rw [act_real, act_real, ← hf, ← ih]
    rfl

/-- The smoother's list output on real data. -/
theorem smOut (hR : Regular θ P0) (hfs : ∀ t, (filtCov θ P0 t)ᵀ = filtCov θ P0 t) (Θ : Smoother.Params n r)
    (hΘ : ∀ t, (θ t).T = Θ.T ∧ (θ t).R = Θ.R ∧ (θ t).Q = Θ.Q) (fill : ℝ) (y : ℕ → p → ℝ) (hy : ∀ t i, y t i ≠ fill)
    (M : ℕ) :
    let o := buildGraph 0 fill a0 P0 ((List.range (M + 1)).map fun t => ((fun i => some (y t i) : Row p), θ t))
    ∃ out, Smoother.buildGraph 0 0 (o.filteredStates.zip o.filteredCovs) (List.replicate (M + 1) Θ) = some out ∧
      out.length = M + 1 ∧
      ∀ k, k ≤ M → out[M - k]? = some (smAt (1 : ℝ) θ a0 P0 y M k, smCov θ P0 M k) := by
  intro o
  have hfz : ∀ t, t < M + 1 → (o.filteredStates.zip o.filteredCovs)[t]? = some (filtAt (1 : ℝ) θ a0 P0 y t, filtCov θ P0 t) := by
    intro t ht
    obtain ⟨-, -, h3, h4, -, -⟩ := outAt (a0 := a0) hR fill y hy (M + 1) t ht
    exact List.getElem?_zip_eq_some.2 ⟨h3, h4⟩
  have hlen : (o.filteredStates.zip o.filteredCovs).length = M + 1 := by
    simp [o, buildGraph, postprocess, filterScan_length]
  obtain ⟨out, h1, h2, h3, h4⟩ := Smoother.C13_smoother_static 0 0 (o.filteredStates.zip o.filteredCovs) Θ M hlen
  rw [hlen] at h2
  have hQ : Θ.Qᵀ = Θ.Q := by rw [← (hΘ 0).2.2]; exact hR.qsym 0
  have hsym : ∀ k, (smCov θ P0 M k)ᵀ = smCov θ P0 M k := by
    intro k
    induction k with
    | zero => exact hfs M
    | succ k ih =>
      simp only [smCov, transpose_add, transpose_mul, transpose_sub, transpose_transpose, hfs, ih, hR.psym, Matrix.mul_assoc]
  refine ⟨out, h1, h2, fun k => ?_⟩
  induction k with
  | zero =>
    intro _
    have : out[M]? = (o.filteredStates.zip o.filteredCovs)[M]? := by
      simpa [List.getLast?_eq_getElem?, h2, hlen] using h3
    rw [Nat.sub_zero, this, hfz M (by omega)]
    rfl
  | succ k ih =>
    intro hk
    obtain ⟨t, ht⟩ : ∃ t, M - (k + 1) = t := ⟨_, rfl⟩
    have ht1 : M - k = t + 1 := by omega
    obtain ⟨f, s, e1, e2, e3⟩ := h4 t (by omega)
    rw [hfz t (by omega)] at e1
    have ih' := ih (by omega)
    rw [ht1, e2] at ih'
    obtain rfl := Option.some.inj e1
    obtain rfl := Option.some.inj ih'
    rw [ht, e3]
    have hP : (Smoother.predict 0 (filtAt (1 : ℝ) θ a0 P0 y t) (filtCov θ P0 t) Θ).2 = covAt θ P0 (t + 1) := by
      simp only [Smoother.predict, stabilize_zero, quadFormSym_of_symm _ (hfs t), quadFormSym_of_symm _ hQ, covAt,
        (hΘ t).1, (hΘ t).2.1, (hΘ t).2.2]
      rfl
    have hG : Smoother.gain (covAt θ P0 (t + 1)) (filtCov θ P0 t) Θ.T = smGain θ P0 t := by rw [smGain, (hΘ t).1]
    have hD : (smCov θ P0 M k - covAt θ P0 (t + 1))ᵀ = smCov θ P0 M k - covAt θ P0 (t + 1) := by
      rw [transpose_sub, hsym, hR.psym]
    simp only [Smoother.step, hP, hG, stabilize_zero, quadFormSym_of_symm _ hD, smAt, smCov, ht]
    simp only [Smoother.predict, act_real, (hΘ t).1]

end Orthogonal

theorem filtCov_symm (h : Spec.Process μ θ a0 P0 X Y η ε) (hY : Spec.Undetermined μ Y) (t : ℕ) :
    (filtCov θ P0 t)ᵀ = filtCov θ P0 t := by
  rw [filtCov, ← ((toProc h).allPosDef covB_self_nonneg (posDef_of_undetermined h hY) a0 t).2.2.2.cov, covM_transpose _ (toProc h).sym]

/-- At almost every realisation the smoother's output at row `t` is the replayed quantity. -/
theorem smoothed_ae (h : Spec.Process μ θ a0 P0 X Y η ε) (hY : Spec.Undetermined μ Y) (Θ : Smoother.Params n r)
    (hΘ : ∀ t, (θ t).T = Θ.T ∧ (θ t).R = Θ.R ∧ (θ t).Q = Θ.Q) (fill : ℝ) (hfill : ∀ᵐ ω ∂μ, ∀ t i, Y t i ω ≠ fill)
    (N t : ℕ) (ht : t < N) :
    ∀ᵐ ω ∂μ, (Spec.smoothed θ Θ fill a0 P0 Y N ω)[t]? =
      some (fun i => (smAt (one μ) θ a0 P0 (liftY h) (N - 1) (N - 1 - t) i).1 ω, smCov θ P0 (N - 1) (N - 1 - t)) := by
  obtain ⟨M, rfl⟩ : ∃ M, N = M + 1 := ⟨N - 1, by omega⟩
  filter_upwards [hfill] with ω hω
  obtain ⟨out, h1, -, h3⟩ := smOut (a0 := a0) (regular_of_process h hY) (filtCov_symm h hY) Θ hΘ fill (fun t i => Y t i ω) hω M
  have h3' := h3 (M - t) (by omega)
  rw [show M - (M - t) = t by omega] at h3'
  simp only [Spec.smoothed]
  rw [show Spec.rows θ Y (M + 1) ω = (List.range (M + 1)).map fun t => ((fun i => some (Y t i ω) : Row p), θ t) from rfl, h1,
    Option.getD_some, h3', smAt_eval]
  rfl

/-- **C164 (errors).** For every process that follows the model, the error of the smoothed state has mean zero, is uncorrelated
with every observation of the sample - earlier and later - and its covariance matrix is the smoothed covariance. -/
theorem C164_smoothing_errors (h : Spec.Process μ θ a0 P0 X Y η ε) (hY : Spec.Undetermined μ Y) (hc : ∀ t, (θ t).c = 0)
    (Θ : Smoother.Params n r) (hΘ : ∀ t, (θ t).T = Θ.T ∧ (θ t).R = Θ.R ∧ (θ t).Q = Θ.Q) (fill : ℝ)
    (hfill : ∀ᵐ ω ∂μ, ∀ t i, Y t i ω ≠ fill) (N t : ℕ) (ht : t < N) :
    let out := Spec.smoothed θ Θ fill a0 P0 Y N
    let e := fun (i : n) (ω : Ω) => X t i ω - ((out ω).getD t (0, 0)).1 i
    (∀ i, ∫ ω, e i ω ∂μ = 0) ∧ (∀ i s j, s < N → cov[e i, Y s j; μ] = 0) ∧
      ∀ᵐ ω ∂μ, ∀ i j, cov[e i, e j; μ] = ((out ω).getD t (0, 0)).2 i j := by
  intro out e
  have hae := smoothed_ae h hY Θ hΘ fill hfill N t ht
  have hts : N - 1 - (N - 1 - t) = t := by omega
  have hall := (toProc h).smAll (a0 := a0) covB_self_nonneg (posDef_of_undetermined h hY) hc (N - 1) (N - 1 - t) (by omega)
  have hm := (toProc h).smMean (a0 := a0) hc (mean μ) (by simp [mean_apply, Orthogonal.one]) h.mean_initial h.mean_shock
    h.mean_error (N - 1) (N - 1 - t) (by omega)
  rw [hts] at hall hm
  have he : ∀ i, e i =ᵐ[μ] ((liftX h t - smAt (one μ) θ a0 P0 (liftY h) (N - 1) (N - 1 - t)) i).1 := by
    intro i
    filter_upwards [hae] with ω hω
    simp only [e, out, List.getD_eq_getElem?_getD, hω, Option.getD_some]
    rfl
  refine ⟨fun i => ?_, fun i s j hs => ?_, ?_⟩
  · rw [integral_congr_ae (he i)]; exact hm i
  · rw [cov_congr (he i) Filter.EventuallyEq.rfl]
    exact congrFun (congrFun (hall.2 s (by omega)) i) j
  · filter_upwards [hae] with ω hω i j
    rw [cov_congr (he i) (he j)]
    simp only [out, List.getD_eq_getElem?_getD, hω, Option.getD_some]
    exact congrFun (congrFun hall.1 i) j

/-- **C164 (optimality).** The smoothed state is an affine function of the whole sample, and no affine function of the sample has
a smaller mean square error for any state; the smallest error is the reported variance. -/
theorem C164_smoother_optimal (h : Spec.Process μ θ a0 P0 X Y η ε) (hY : Spec.Undetermined μ Y) (hc : ∀ t, (θ t).c = 0)
    (Θ : Smoother.Params n r) (hΘ : ∀ t, (θ t).T = Θ.T ∧ (θ t).R = Θ.R ∧ (θ t).Q = Θ.Q) (fill : ℝ)
    (hfill : ∀ᵐ ω ∂μ, ∀ t i, Y t i ω ≠ fill) (N t : ℕ) (ht : t < N) (i : n) :
    let out := Spec.smoothed θ Θ fill a0 P0 Y N
    let affine := fun (b : ℝ) (w : ℕ → p → ℝ) (ω : Ω) => b + ∑ s ∈ Finset.range N, ∑ j, w s j * Y s j ω
    (∃ b w, ∀ᵐ ω ∂μ, ((out ω).getD t (0, 0)).1 i = affine b w ω) ∧
    (∀ᵐ ω' ∂μ, ∫ ω, (X t i ω - ((out ω).getD t (0, 0)).1 i) ^ 2 ∂μ = ((out ω').getD t (0, 0)).2 i i) ∧
    ∀ᵐ ω' ∂μ, ∀ b w, ((out ω').getD t (0, 0)).2 i i ≤ ∫ ω, (X t i ω - affine b w ω) ^ 2 ∂μ := by
  intro out affine
  have hae := smoothed_ae h hY Θ hΘ fill hfill N t ht
  have hts : N - 1 - (N - 1 - t) = t := by omega
  have hall := (toProc h).smAll (a0 := a0) covB_self_nonneg (posDef_of_undetermined h hY) hc (N - 1) (N - 1 - t) (by omega)
  have hm := (toProc h).smMean (a0 := a0) hc (mean μ) (by simp [mean_apply, Orthogonal.one]) h.mean_initial h.mean_shock
    h.mean_error (N - 1) (N - 1 - t) (by omega) i
  rw [hts] at hall hm
  have heval : ∀ (b : ℝ) (w : ℕ → p → ℝ) (ω : Ω),
      (b • Orthogonal.one μ + ∑ s ∈ Finset.range N, ∑ j, w s j • liftY h s j).1 ω = affine b w ω := by
    intro b w ω
    simp [affine, Orthogonal.one, liftY]
  obtain ⟨b0, w0, haff⟩ := affineSpan_coeffs (smAt_mem (one := Orthogonal.one μ) (θ := θ) (a0 := a0) (P0 := P0) (Y := liftY h)
    (N - 1) (N - 1 - t) i)
  rw [show N - 1 + 1 = N by omega] at haff
  set e := (liftX h t - smAt (Orthogonal.one μ) θ a0 P0 (liftY h) (N - 1) (N - 1 - t)) i with he
  have hpast : ∀ s j, s < N → covB μ e (liftY h s j) = 0 := fun s j hs =>
    congrFun (congrFun (hall.2 s (by omega)) i) j
  have hee : covB μ e e = smCov θ P0 (N - 1) (N - 1 - t) i i := congrFun (congrFun hall.1 i) i
  refine ⟨⟨b0, w0, ?_⟩, ?_, ?_⟩
  · filter_upwards [hae] with ω hω
    simp only [out, List.getD_eq_getElem?_getD, hω, Option.getD_some, haff, heval]
  · filter_upwards [hae] with ω' hω'
    simp only [out, List.getD_eq_getElem?_getD, hω', Option.getD_some]
    rw [← hee, covB_apply, covariance_self e.2.aemeasurable, variance_of_integral_eq_zero e.2.aemeasurable hm]
    refine integral_congr_ae ?_
    filter_upwards [hae] with ω hω
    simp only [hω, Option.getD_some]
    rfl
  · filter_upwards [hae] with ω' hω' b w
    simp only [out, List.getD_eq_getElem?_getD, hω', Option.getD_some]
    rw [← hee]
    have := sq_optimal h N e ((b0 - b) • Orthogonal.one μ + ∑ s ∈ Finset.range N, ∑ j, (w0 s j - w s j) • liftY h s j)
      (b0 - b) (fun s j => w0 s j - w s j) rfl hpast
    refine this.trans (le_of_eq ?_)
    congr 1
    funext ω
    congr 1
    have h1 : e.1 ω = X t i ω - affine b0 w0 ω := by rw [← heval, ← haff]; rfl
    rw [h1, heval (b0 - b) (fun s j => w0 s j - w s j)]
    simp only [affine, sub_mul, Finset.sum_sub_distrib]
    ring

end Verif.Kalman
