import Verif.Kalman.Undetermined

/-!
# C162, C163: the standard filter is the optimal filter

Property theorems.  `Spec.Process` says what a state-space process is; the filter is run, without jitter, on the realised
observations `Spec.rows θ Y N ω`.
-/

set_option autoImplicit false

open Matrix MeasureTheory ProbabilityTheory

namespace Verif.Kalman

open Orthogonal

variable {Ω : Type*} [MeasurableSpace Ω] {μ : Measure Ω} [IsProbabilityMeasure μ]
variable {n p r : Type*} [Fintype n] [Fintype p] [Fintype r] [DecidableEq n] [DecidableEq p] [DecidableEq r]
variable {θ : ℕ → Params n p r} {a0 : n → ℝ} {P0 : Matrix n n ℝ} {X : ℕ → n → Ω → ℝ} {Y : ℕ → p → Ω → ℝ}
  {η : ℕ → r → Ω → ℝ} {ε : ℕ → p → Ω → ℝ}

omit [IsProbabilityMeasure μ] in
theorem cov_congr {f f' g g' : Ω → ℝ} (hf : f =ᵐ[μ] f') (hg : g =ᵐ[μ] g') : cov[f, g; μ] = cov[f', g'; μ] := by
  unfold covariance
  rw [integral_congr_ae hf, integral_congr_ae hg]
  refine integral_congr_ae ?_
  filter_upwards [hf, hg] with ω h1 h2
  rw [h1, h2]

theorem regular_of_process (h : Spec.Process μ θ a0 P0 X Y η ε) (hY : Spec.Undetermined μ Y) : Regular θ P0 where
  psym t := PosSemidef.transpose_eq ((toProc h).allPosDef covB_self_nonneg (posDef_of_undetermined h hY) a0 t).1
  hsym t := by rw [← (toProc h).εε, covM_transpose _ (toProc h).sym]
  qsym t := by rw [← (toProc h).ηη, covM_transpose _ (toProc h).sym]
  unit t := isUnit_iff_ne_zero.2 ((toProc h).allPosDef covB_self_nonneg (posDef_of_undetermined h hY) a0 t).2.1.det_pos.ne'

/-- At almost every realisation the outputs at row `t` are the replayed quantities. -/
theorem out_ae (h : Spec.Process μ θ a0 P0 X Y η ε) (hY : Spec.Undetermined μ Y) (fill : ℝ)
    (hfill : ∀ᵐ ω ∂μ, ∀ t i, Y t i ω ≠ fill) (N t : ℕ) (ht : t < N) :
    ∀ᵐ ω ∂μ, let o := buildGraph 0 fill a0 P0 (Spec.rows θ Y N ω)
      o.predictedStates[t]? = some (fun i => (predAt (one μ) θ a0 P0 (liftY h) t i).1 ω) ∧
      o.predictedCovs[t]? = some (covAt θ P0 t) ∧
      o.filteredStates[t]? = some (fun i => (filtAt (one μ) θ a0 P0 (liftY h) t i).1 ω) ∧
      o.filteredCovs[t]? = some (Spec.condCov (covAt θ P0 t) (θ t).Z (θ t).H) ∧
      o.observedStates[t]? = some (fun i => Y t i ω - (innov (one μ) θ a0 P0 (liftY h) t i).1 ω) ∧
      o.observedCovs[t]? = some (Spec.obsCov (covAt θ P0 t) (θ t).Z (θ t).H) := by
  filter_upwards [hfill] with ω hω
  obtain ⟨h1, h2, h3, h4, h5, h6⟩ := outAt (a0 := a0) (regular_of_process h hY) fill (fun t i => Y t i ω) hω N t ht
  refine ⟨?_, h2, ?_, h4, ?_, h6⟩
  · rw [predAt_eval]; exact h1
  · rw [filtAt_eval]; exact h3
  · refine h5.trans ?_
    have e := predAt_eval (θ := θ) (a0 := a0) (P0 := P0) (liftY h) ω t
    rw [show (fun t i => (liftY h t i).1 ω) = fun t i => Y t i ω from rfl] at e
    congr 1
    funext i
    rw [← e]
    simp only [innov, Pi.sub_apply, Pi.add_apply, Submodule.coe_sub, act_eval]
    simp [const, Orthogonal.one, liftY]
    ring

/-- **C162 (predictions).** For every process that follows the model, the error of the predicted state has mean zero, is
uncorrelated with every earlier observation, and its covariance matrix is the predicted covariance the filter reports. -/
theorem C162_prediction_errors (h : Spec.Process μ θ a0 P0 X Y η ε) (hY : Spec.Undetermined μ Y) (fill : ℝ)
    (hfill : ∀ᵐ ω ∂μ, ∀ t i, Y t i ω ≠ fill) (N t : ℕ) (ht : t < N) :
    let out := fun ω => buildGraph 0 fill a0 P0 (Spec.rows θ Y N ω)
    let e := fun (i : n) (ω : Ω) => X t i ω - ((out ω).predictedStates.getD t 0) i
    (∀ i, ∫ ω, e i ω ∂μ = 0) ∧ (∀ i s j, s < t → cov[e i, Y s j; μ] = 0) ∧
      ∀ᵐ ω ∂μ, ∀ i j, cov[e i, e j; μ] = ((out ω).predictedCovs.getD t 0) i j := by
  intro out e
  have hall := (toProc h).allPosDef covB_self_nonneg (posDef_of_undetermined h hY) a0 t
  have hm := (toProc h).mean (a0 := a0) (mean μ) (by simp [mean_apply, Orthogonal.one]) h.mean_initial h.mean_shock h.mean_error t
  have hout := out_ae h hY fill hfill N t ht
  have he : ∀ i, e i =ᵐ[μ] (err (one μ) θ a0 P0 (liftX h) (liftY h) t i).1 := by
    intro i
    filter_upwards [hout] with ω hω
    simp only [e, out, List.getD_eq_getElem?_getD, hω.1, Option.getD_some]
    rfl
  refine ⟨fun i => ?_, fun i s j hs => ?_, ?_⟩
  · rw [integral_congr_ae (he i)]; exact hm.1 i
  · rw [cov_congr (he i) Filter.EventuallyEq.rfl]
    exact congrFun (congrFun (hall.2.2.1.past s hs) i) j
  · filter_upwards [hout] with ω hω i j
    rw [cov_congr (he i) (he j)]
    simp only [out, List.getD_eq_getElem?_getD, hω.2.1, Option.getD_some]
    exact congrFun (congrFun hall.2.2.1.cov i) j

/-- **C162 (filtered states).** The same for the filtered state, which also uses the observation of its own date. -/
theorem C162_filter_errors (h : Spec.Process μ θ a0 P0 X Y η ε) (hY : Spec.Undetermined μ Y) (fill : ℝ)
    (hfill : ∀ᵐ ω ∂μ, ∀ t i, Y t i ω ≠ fill) (N t : ℕ) (ht : t < N) :
    let out := fun ω => buildGraph 0 fill a0 P0 (Spec.rows θ Y N ω)
    let e := fun (i : n) (ω : Ω) => X t i ω - ((out ω).filteredStates.getD t 0) i
    (∀ i, ∫ ω, e i ω ∂μ = 0) ∧ (∀ i s j, s ≤ t → cov[e i, Y s j; μ] = 0) ∧
      ∀ᵐ ω ∂μ, ∀ i j, cov[e i, e j; μ] = ((out ω).filteredCovs.getD t 0) i j := by
  intro out e
  have hall := (toProc h).allPosDef covB_self_nonneg (posDef_of_undetermined h hY) a0 t
  have hm := (toProc h).mean (a0 := a0) (mean μ) (by simp [mean_apply, Orthogonal.one]) h.mean_initial h.mean_shock h.mean_error t
  have hout := out_ae h hY fill hfill N t ht
  have he : ∀ i, e i =ᵐ[μ] ((liftX h t - filtAt (one μ) θ a0 P0 (liftY h) t) i).1 := by
    intro i
    filter_upwards [hout] with ω hω
    simp only [e, out, List.getD_eq_getElem?_getD, hω.2.2.1, Option.getD_some]
    rfl
  refine ⟨fun i => ?_, fun i s j hs => ?_, ?_⟩
  · rw [integral_congr_ae (he i)]; exact hm.2.1 i
  · rw [cov_congr (he i) Filter.EventuallyEq.rfl]
    exact congrFun (congrFun (hall.2.2.2.past s hs) i) j
  · filter_upwards [hout] with ω hω i j
    rw [cov_congr (he i) (he j)]
    simp only [out, List.getD_eq_getElem?_getD, hω.2.2.2.1, Option.getD_some]
    exact congrFun (congrFun hall.2.2.2.cov i) j

/-- **C163 (innovations).** The one-step forecast errors of the observations have mean zero, are uncorrelated over time, and
their covariance matrix is the observation covariance the filter reports. -/
theorem C163_innovations (h : Spec.Process μ θ a0 P0 X Y η ε) (hY : Spec.Undetermined μ Y) (fill : ℝ)
    (hfill : ∀ᵐ ω ∂μ, ∀ t i, Y t i ω ≠ fill) (N : ℕ) :
    let out := fun ω => buildGraph 0 fill a0 P0 (Spec.rows θ Y N ω)
    let v := fun (t : ℕ) (i : p) (ω : Ω) => Y t i ω - ((out ω).observedStates.getD t 0) i
    (∀ t i, t < N → ∫ ω, v t i ω ∂μ = 0) ∧
      (∀ s t i j, s < t → t < N → cov[v s i, v t j; μ] = 0) ∧
      ∀ᵐ ω ∂μ, ∀ t i j, t < N → cov[v t i, v t j; μ] = ((out ω).observedCovs.getD t 0) i j := by
  intro out v
  have hv : ∀ t, t < N → ∀ i, v t i =ᵐ[μ] (innov (one μ) θ a0 P0 (liftY h) t i).1 := by
    intro t ht i
    filter_upwards [out_ae h hY fill hfill N t ht] with ω hω
    simp only [v, out, List.getD_eq_getElem?_getD, hω.2.2.2.2.1, Option.getD_some]
    ring
  refine ⟨fun t i ht => ?_, fun s t i j hs ht => ?_, ?_⟩
  · rw [integral_congr_ae (hv t ht i)]
    exact ((toProc h).mean (a0 := a0) (mean μ) (by simp [mean_apply, Orthogonal.one]) h.mean_initial h.mean_shock h.mean_error t).2.2 i
  · rw [cov_congr (hv s (by omega) i) (hv t ht j), covariance_comm]
    exact congrFun (congrFun ((toProc h).innovOrth s t hs ((toProc h).allPosDef covB_self_nonneg (posDef_of_undetermined h hY) a0 t).2.2.1) j) i
  · have hae : ∀ᵐ ω ∂μ, ∀ t, t < N → (out ω).observedCovs[t]? = some (Spec.obsCov (covAt θ P0 t) (θ t).Z (θ t).H) := by
      rw [ae_all_iff]; intro t
      by_cases ht : t < N
      · filter_upwards [out_ae h hY fill hfill N t ht] with ω hω _ using hω.2.2.2.2.2
      · exact Filter.Eventually.of_forall fun ω h' => absurd h' ht
    filter_upwards [hae] with ω hω t i j ht
    rw [cov_congr (hv t ht i) (hv t ht j)]
    simp only [List.getD_eq_getElem?_getD, hω t ht, Option.getD_some]
    exact congrFun (congrFun ((toProc h).innovCov t ((toProc h).allPosDef covB_self_nonneg (posDef_of_undetermined h hY) a0 t).2.2.1) i) j

/-- A random variable uncorrelated with all earlier observations is uncorrelated with affine functions of them; adding such a
function never lowers the mean square. -/
theorem sq_optimal (h : Spec.Process μ θ a0 P0 X Y η ε) (T : ℕ) (e d : L2 μ) (b : ℝ) (w : ℕ → p → ℝ)
    (hd : d = b • Orthogonal.one μ + ∑ s ∈ Finset.range T, ∑ j, w s j • liftY h s j)
    (he : ∀ s j, s < T → covB μ e (liftY h s j) = 0) : covB μ e e ≤ ∫ ω, (e.1 ω + d.1 ω) ^ 2 ∂μ := by
  have hed : covB μ e d = 0 := by
    rw [hd]
    simp only [map_add, map_smul, map_sum, (toProc h).one0', smul_zero, zero_add]
    refine Finset.sum_eq_zero fun s hs => Finset.sum_eq_zero fun j _ => ?_
    rw [he s j (Finset.mem_range.1 hs), smul_zero]
  have hde : covB μ d e = 0 := by rw [(toProc h).sym, hed]
  have hs : covB μ (e + d) (e + d) = covB μ e e + covB μ d d := by
    simp only [map_add, LinearMap.add_apply, hed, hde]; ring
  have hv : covB μ (e + d) (e + d) ≤ ∫ ω, (e.1 ω + d.1 ω) ^ 2 ∂μ := by
    rw [covB_apply, covariance_self (e + d).2.aemeasurable]
    exact variance_le_expectation_sq (e + d).2.aestronglyMeasurable
  have := covB_self_nonneg d
  linarith

/-- **C162 (optimality of predictions).** The predicted state is an affine function of the earlier observations, and no affine
function of them has a smaller mean square error for any state; the smallest error is the reported variance. -/
theorem C162_prediction_optimal (h : Spec.Process μ θ a0 P0 X Y η ε) (hY : Spec.Undetermined μ Y) (fill : ℝ)
    (hfill : ∀ᵐ ω ∂μ, ∀ t i, Y t i ω ≠ fill) (N t : ℕ) (ht : t < N) (i : n) :
    let out := fun ω => buildGraph 0 fill a0 P0 (Spec.rows θ Y N ω)
    let affine := fun (b : ℝ) (w : ℕ → p → ℝ) (ω : Ω) => b + ∑ s ∈ Finset.range t, ∑ j, w s j * Y s j ω
    (∃ b w, ∀ᵐ ω ∂μ, ((out ω).predictedStates.getD t 0) i = affine b w ω) ∧
    (∀ᵐ ω' ∂μ, ∫ ω, (X t i ω - ((out ω).predictedStates.getD t 0) i) ^ 2 ∂μ = ((out ω').predictedCovs.getD t 0) i i) ∧
    ∀ᵐ ω' ∂μ, ∀ b w, ((out ω').predictedCovs.getD t 0) i i ≤ ∫ ω, (X t i ω - affine b w ω) ^ 2 ∂μ := by
  intro out affine
  have hall := (toProc h).allPosDef covB_self_nonneg (posDef_of_undetermined h hY) a0 t
  have hout := out_ae h hY fill hfill N t ht
  obtain ⟨b0, w0, haff⟩ := predAt_affine (θ := θ) (a0 := a0) (P0 := P0) (Orthogonal.one μ) (liftY h) t
  have heval : ∀ (b : ℝ) (w : ℕ → p → ℝ) (ω : Ω),
      (b • Orthogonal.one μ + ∑ s ∈ Finset.range t, ∑ j, w s j • liftY h s j).1 ω = affine b w ω := by
    intro b w ω
    simp [affine, Orthogonal.one, liftY]
  have hpred : ∀ ω, (predAt (Orthogonal.one μ) θ a0 P0 (liftY h) t i).1 ω = affine (b0 i) (w0 i) ω := by
    intro ω; rw [haff i]; exact heval _ _ _
  set e := err (Orthogonal.one μ) θ a0 P0 (liftX h) (liftY h) t i with he
  have hpast : ∀ s j, s < t → covB μ e (liftY h s j) = 0 := fun s j hs =>
    congrFun (congrFun (hall.2.2.1.past s hs) i) j
  have hee : covB μ e e = covAt θ P0 t i i := congrFun (congrFun hall.2.2.1.cov i) i
  have hm : ∫ ω, e.1 ω ∂μ = 0 :=
    ((toProc h).mean (a0 := a0) (mean μ) (by simp [mean_apply, Orthogonal.one]) h.mean_initial h.mean_shock h.mean_error t).1 i
  refine ⟨⟨b0 i, w0 i, ?_⟩, ?_, ?_⟩
  · filter_upwards [hout] with ω hω
    simp only [out, List.getD_eq_getElem?_getD, hω.1, Option.getD_some, hpred]
  · filter_upwards [hout] with ω' hω'
    simp only [out, List.getD_eq_getElem?_getD, hω'.2.1, Option.getD_some]
    rw [← hee, covB_apply, covariance_self e.2.aemeasurable, variance_of_integral_eq_zero e.2.aemeasurable hm]
    refine integral_congr_ae ?_
    filter_upwards [hout] with ω hω
    simp only [hω.1, Option.getD_some]
    rfl
  · filter_upwards [hout] with ω' hω' b w
    simp only [out, List.getD_eq_getElem?_getD, hω'.2.1, Option.getD_some]
    rw [← hee]
    have := sq_optimal h t e ((b0 i - b) • Orthogonal.one μ + ∑ s ∈ Finset.range t, ∑ j, (w0 i s j - w s j) • liftY h s j)
      (b0 i - b) (fun s j => w0 i s j - w s j) rfl hpast
    refine this.trans (le_of_eq ?_)
    congr 1
    funext ω
    congr 1
    have h1 : e.1 ω = X t i ω - affine (b0 i) (w0 i) ω := by rw [← hpred]; rfl
    rw [h1, heval (b0 i - b) (fun s j => w0 i s j - w s j)]
    simp only [affine, sub_mul, Finset.sum_sub_distrib]
    ring

/-- **C162 (optimality of filtered states).** The same for the filtered state, among affine functions of the observations up to
its own date. -/
theorem C162_filter_optimal (h : Spec.Process μ θ a0 P0 X Y η ε) (hY : Spec.Undetermined μ Y) (fill : ℝ)
    (hfill : ∀ᵐ ω ∂μ, ∀ t i, Y t i ω ≠ fill) (N t : ℕ) (ht : t < N) (i : n) :
    let out := fun ω => buildGraph 0 fill a0 P0 (Spec.rows θ Y N ω)
    let affine := fun (b : ℝ) (w : ℕ → p → ℝ) (ω : Ω) => b + ∑ s ∈ Finset.range (t + 1), ∑ j, w s j * Y s j ω
    (∃ b w, ∀ᵐ ω ∂μ, ((out ω).filteredStates.getD t 0) i = affine b w ω) ∧
    (∀ᵐ ω' ∂μ, ∫ ω, (X t i ω - ((out ω).filteredStates.getD t 0) i) ^ 2 ∂μ = ((out ω').filteredCovs.getD t 0) i i) ∧
    ∀ᵐ ω' ∂μ, ∀ b w, ((out ω').filteredCovs.getD t 0) i i ≤ ∫ ω, (X t i ω - affine b w ω) ^ 2 ∂μ := by
  intro out affine
  have hall := (toProc h).allPosDef covB_self_nonneg (posDef_of_undetermined h hY) a0 t
  have hout := out_ae h hY fill hfill N t ht
  have heval : ∀ (b : ℝ) (w : ℕ → p → ℝ) (ω : Ω),
      (b • Orthogonal.one μ + ∑ s ∈ Finset.range (t + 1), ∑ j, w s j • liftY h s j).1 ω = affine b w ω := by
    intro b w ω
    simp [affine, Orthogonal.one, liftY]
  obtain ⟨b0, w0, haff⟩ : ∃ (b0 : ℝ) (w0 : ℕ → p → ℝ), filtAt (Orthogonal.one μ) θ a0 P0 (liftY h) t i =
      b0 • Orthogonal.one μ + ∑ s ∈ Finset.range (t + 1), ∑ j, w0 s j • liftY h s j := by
    -- the filtered state is the prediction of the model whose next transition is the identity
    let θ' : ℕ → Params n p r := fun s => if s = t then { θ t with T := 1, c := 0 } else θ s
    have hcov : ∀ s, s ≤ t → covAt θ' P0 s = covAt θ P0 s := by
      intro s
      induction s with
      | zero => intro _; rfl
      | succ s ih =>
        intro hs
        have hst : s ≠ t := by omega
        simp only [covAt, ih (by omega), θ', if_neg hst]
    have hgain : ∀ s, s ≤ t → gainAt θ' P0 s = gainAt θ P0 s := by
      intro s hs
      by_cases hst : s = t
      · subst hst; simp [gainAt, hcov s le_rfl, θ']
      · simp only [gainAt, hcov s hs, θ', if_neg hst]
    have hpred : ∀ s, s ≤ t → predAt (Orthogonal.one μ) θ' a0 P0 (liftY h) s = predAt (Orthogonal.one μ) θ a0 P0 (liftY h) s := by
      intro s
      induction s with
      | zero => intro _; rfl
      | succ s ih =>
        intro hs
        have hst : s ≠ t := by omega
        simp only [predAt, ih (by omega), hgain s (by omega)]
        simp only [θ', if_neg hst]
    obtain ⟨b, w, hbw⟩ := predAt_affine (θ := θ') (a0 := a0) (P0 := P0) (Orthogonal.one μ) (liftY h) (t + 1)
    refine ⟨b i, w i, ?_⟩
    rw [← hbw i]
    have h1 : ∀ x : n → L2 μ, act (1 : Matrix n n ℝ) x = x := by
      intro x; funext k; simp [act, Matrix.one_apply]
    have h2 : const (Orthogonal.one μ) (0 : n → ℝ) = 0 := by funext k; simp [const]
    simp only [predAt, hpred t le_rfl, hgain t le_rfl, filtAt]
    simp [θ', h1, h2]
  set e := (liftX h t - filtAt (Orthogonal.one μ) θ a0 P0 (liftY h) t) i with he
  have hpast : ∀ s j, s < t + 1 → covB μ e (liftY h s j) = 0 := fun s j hs =>
    congrFun (congrFun (hall.2.2.2.past s (by omega)) i) j
  have hee : covB μ e e = Spec.condCov (covAt θ P0 t) (θ t).Z (θ t).H i i := congrFun (congrFun hall.2.2.2.cov i) i
  have hm : ∫ ω, e.1 ω ∂μ = 0 :=
    ((toProc h).mean (a0 := a0) (mean μ) (by simp [mean_apply, Orthogonal.one]) h.mean_initial h.mean_shock h.mean_error t).2.1 i
  refine ⟨⟨b0, w0, ?_⟩, ?_, ?_⟩
  · filter_upwards [hout] with ω hω
    simp only [out, List.getD_eq_getElem?_getD, hω.2.2.1, Option.getD_some, haff, heval]
  · filter_upwards [hout] with ω' hω'
    simp only [out, List.getD_eq_getElem?_getD, hω'.2.2.2.1, Option.getD_some]
    rw [← hee, covB_apply, covariance_self e.2.aemeasurable, variance_of_integral_eq_zero e.2.aemeasurable hm]
    refine integral_congr_ae ?_
    filter_upwards [hout] with ω hω
    simp only [hω.2.2.1, Option.getD_some]
    rfl
  · filter_upwards [hout] with ω' hω' b w
    simp only [out, List.getD_eq_getElem?_getD, hω'.2.2.2.1, Option.getD_some]
    rw [← hee]
    have := sq_optimal h (t + 1) e
      ((b0 - b) • Orthogonal.one μ + ∑ s ∈ Finset.range (t + 1), ∑ j, (w0 s j - w s j) • liftY h s j)
      (b0 - b) (fun s j => w0 s j - w s j) rfl hpast
    refine this.trans (le_of_eq ?_)
    congr 1
    funext ω
    congr 1
    have h1 : e.1 ω = X t i ω - affine b0 w0 ω := by rw [← heval, ← haff]; rfl
    rw [h1, heval (b0 - b) (fun s j => w0 s j - w s j)]
    simp only [affine, sub_mul, Finset.sum_sub_distrib]
    ring

/-- Undetermined observations are exactly those whose joint covariance matrices are nonsingular at every length. -/
theorem C163_undetermined_iff (h : Spec.Process μ θ a0 P0 X Y η ε) :
    Spec.Undetermined μ Y ↔
      ∀ N : ℕ, (Matrix.of fun q q' : p × Fin N => cov[Y q.2 q.1, Y q'.2 q'.1; μ] : Matrix (p × Fin N) (p × Fin N) ℝ).PosDef := by
  have hquad : ∀ (N : ℕ) (x : p × Fin N → ℝ),
      x ⬝ᵥ ((Matrix.of fun q q' : p × Fin N => cov[Y q.2 q.1, Y q'.2 q'.1; μ]) *ᵥ x) =
        covB μ (∑ q, x q • liftY h q.2 q.1) (∑ q, x q • liftY h q.2 q.1) := fun N x =>
    covM_quad (covB μ) (fun q : p × Fin N => liftY h q.2 q.1) x
  have hsplit : ∀ (N : ℕ) (t : Fin N) (x : p × Fin N → ℝ) (v : ℕ → p → ℝ), (∀ s : Fin N, t < s → ∀ i, x (i, s) = 0) →
      (∀ s : Fin N, s < t → ∀ i, x (i, s) = -v s i) →
      ∑ q, x q • liftY h q.2 q.1 = ∑ i, x (i, t) • liftY h t i - ∑ s ∈ Finset.range t, ∑ j, v s j • liftY h s j := by
    intro N t x v h1 h2
    have e1 : ∑ q, x q • liftY h q.2 q.1 = ∑ s : Fin N, ∑ i, x (i, s) • liftY h s i := Fintype.sum_prod_type_right _
    have e2 : ∀ s : Fin N, ∑ i, x (i, s) • liftY h s i = (if s = t then ∑ i, x (i, t) • liftY h t i else 0) +
        (if (s : ℕ) < t then -∑ j, v s j • liftY h s j else 0) := by
      intro s
      rcases lt_trichotomy s t with hst | hst | hst
      · rw [if_neg hst.ne, if_pos (Fin.lt_def.1 hst), zero_add, ← Finset.sum_neg_distrib]
        exact Finset.sum_congr rfl fun i _ => by rw [h2 s hst]; exact neg_smul (v s i) (liftY h s i)
      · subst hst; rw [if_pos rfl, if_neg (lt_irrefl _), add_zero]
      · rw [if_neg hst.ne', if_neg (not_lt.2 (le_of_lt (Fin.lt_def.1 hst))), add_zero]
        exact Finset.sum_eq_zero fun i _ => by rw [h1 s hst, zero_smul]
    rw [e1, Finset.sum_congr rfl fun s _ => e2 s, Finset.sum_add_distrib, Finset.sum_ite_eq' Finset.univ t,
      if_pos (Finset.mem_univ _), sub_eq_add_neg, ← Finset.sum_neg_distrib]
    congr 1
    rw [Fin.sum_univ_eq_sum_range (fun s => if s < (t : ℕ) then -∑ j, v s j • liftY h s j else 0) N, ← Finset.sum_filter]
    refine Finset.sum_congr ?_ fun _ _ => rfl
    ext s
    simp only [Finset.mem_range, Finset.mem_filter]
    have := t.2
    omega
  constructor
  · intro hY N
    refine Matrix.PosDef.of_dotProduct_mulVec_pos ?_ fun x hx => ?_
    · ext q q'
      simp [covariance_comm]
    · rw [star_trivial, hquad]
      refine lt_of_le_of_ne (covB_self_nonneg _) fun h0 => ?_
      obtain ⟨⟨i0, s0⟩, hq⟩ := Function.ne_iff.1 hx
      have hne : (Finset.univ.filter fun s : Fin N => ∃ i, x (i, s) ≠ 0).Nonempty :=
        ⟨s0, Finset.mem_filter.2 ⟨Finset.mem_univ _, i0, hq⟩⟩
      obtain ⟨t, ht, hmax⟩ := Finset.exists_max_image _ id hne
      obtain ⟨i, hi⟩ := (Finset.mem_filter.1 ht).2
      have h1 : ∀ s : Fin N, t < s → ∀ i, x (i, s) = 0 := by
        intro s hs i
        by_contra hc
        exact absurd (hmax s (Finset.mem_filter.2 ⟨Finset.mem_univ _, i, hc⟩)) (not_le.2 hs)
      let v : ℕ → p → ℝ := fun s j => if hs : s < N then -x (j, ⟨s, hs⟩) else 0
      have h2 := hsplit N t x v h1 fun s _ i => by simp [v]
      rw [h2, ← var_comb h] at h0
      exact hi (congrFun (hY t (fun i => x (i, t)) v h0.symm) i)
  · intro hS t w v hv
    let x : p × Fin (t + 1) → ℝ := fun q => if (q.2 : ℕ) = t then w q.1 else -v q.2 q.1
    have h2 := hsplit (t + 1) (Fin.last t) x v (fun s hs => absurd hs (not_lt.2 (Fin.le_last s))) fun s hs i => by
      have : (s : ℕ) ≠ t := ne_of_lt hs
      simp [x, this]
    have h3 : ∑ i, x (i, Fin.last t) • liftY h (Fin.last t : ℕ) i = ∑ i, w i • liftY h t i :=
      Finset.sum_congr rfl fun i _ => by simp [x]
    rw [h3, Fin.val_last] at h2
    rw [var_comb h, ← h2, ← hquad] at hv
    by_contra hw
    obtain ⟨i, hi⟩ := Function.ne_iff.1 hw
    have hx : x ≠ 0 := Function.ne_iff.2 ⟨(i, Fin.last t), by simpa [x] using hi⟩
    have := (hS (t + 1)).dotProduct_mulVec_pos hx
    rw [star_trivial, hv] at this
    exact lt_irrefl _ this

/-- The filter itself reports positive definite observation covariances for undetermined processes, whatever the data. -/
theorem C163_reported_covariances (h : Spec.Process μ θ a0 P0 X Y η ε) (hY : Spec.Undetermined μ Y) (fill : ℝ)
    (y : ℕ → p → ℝ) (hy : ∀ t i, y t i ≠ fill) (N : ℕ) :
    ∀ F ∈ (buildGraph 0 fill a0 P0 ((List.range N).map fun t => ((fun i => some (y t i) : Row p), θ t))).observedCovs,
      F.PosDef := by
  intro F hF
  obtain ⟨t, ht⟩ := List.mem_iff_getElem?.1 hF
  have hN : t < N := by
    by_contra hc
    rw [List.getElem?_eq_none (by simp [buildGraph, postprocess, filterScan_length]; omega)] at ht
    cases ht
  have := (outAt (a0 := a0) (regular_of_process h hY) fill y hy N t hN).2.2.2.2.2
  rw [this] at ht
  rw [← Option.some.inj ht]
  exact posDef_of_undetermined h hY t

end Verif.Kalman
