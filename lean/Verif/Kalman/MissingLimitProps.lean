import Verif.Kalman.MissingLimit
import Verif.Kalman.OptimalExists

/-!
# C169: missing data, optimality as the jitter vanishes

Property theorems.
-/

set_option autoImplicit false

open Matrix MeasureTheory ProbabilityTheory Filter Topology

namespace Verif.Kalman

open Orthogonal

namespace Spec

variable {Ω : Type*} [MeasurableSpace Ω] {n p r : Type*} [Fintype p]

open Classical in
/-- The rows handed to the filter when entry `i` of date `t` is recorded exactly if `o t i`. -/
noncomputable def rowsSeen (o : ℕ → p → Prop) (θ : ℕ → Params n p r) (Y : ℕ → p → Ω → ℝ) (N : ℕ) (ω : Ω) :
    List (Row p × Params n p r) :=
  (List.range N).map fun t => (fun i => if o t i then some (Y t i ω) else none, θ t)

open Classical in
/-- An affine function of the entries recorded before date `T`. -/
noncomputable def affineSeen (o : ℕ → p → Prop) (Y : ℕ → p → Ω → ℝ) (T : ℕ) (b : ℝ) (w : ℕ → p → ℝ) (ω : Ω) : ℝ :=
  b + ∑ s ∈ Finset.range T, ∑ j, if o s j then w s j * Y s j ω else 0

/-- `A` is the best affine prediction of the random vector `x` from the entries recorded before date `T`, and `V` is the
covariance matrix of its error. -/
structure BestAffine (μ : Measure Ω) (o : ℕ → p → Prop) (Y : ℕ → p → Ω → ℝ) (T : ℕ) (x A : n → Ω → ℝ) (V : Matrix n n ℝ) :
    Prop where
  affine : ∀ i, ∃ b w, ∀ ω, A i ω = affineSeen o Y T b w ω
  unbiased : ∀ i, ∫ ω, (x i ω - A i ω) ∂μ = 0
  uncorrelated : ∀ i s j, s < T → o s j → cov[fun ω => x i ω - A i ω, Y s j; μ] = 0
  covariance : ∀ i k, cov[fun ω => x i ω - A i ω, fun ω => x k ω - A k ω; μ] = V i k
  optimal : ∀ i b w, V i i ≤ ∫ ω, (x i ω - affineSeen o Y T b w ω) ^ 2 ∂μ

end Spec

variable {Ω : Type*} [MeasurableSpace Ω] {μ : Measure Ω} [IsProbabilityMeasure μ]
variable {n p r : Type*} [Fintype n] [Fintype p] [Fintype r] [DecidableEq n] [DecidableEq p] [DecidableEq r]
variable {θ : ℕ → Params n p r} {a0 : n → ℝ} {P0 : Matrix n n ℝ} {X : ℕ → n → Ω → ℝ} {Y : ℕ → p → Ω → ℝ}
  {η : ℕ → r → Ω → ℝ} {ε : ℕ → p → Ω → ℝ}

/-- The process seen through the recorded entries follows the model without the other series. -/
theorem toProcSeen (h : Spec.Process μ θ a0 P0 X Y η ε) (o : ℕ → p → Prop) [∀ t, DecidablePred (o t)] :
    Proc (covB μ) (one μ) (fun t => Spec.deleteSeries (θ t) (o t)) P0 (liftX h) (fun t (i : {i // o t i}) => liftY h t i)
      (liftη h) (fun t (i : {i // o t i}) => liftε h t i) where
  sym := (toProc h).sym
  one0 := (toProc h).one0
  move := (toProc h).move
  obs t := by
    funext i
    exact congrFun ((toProc h).obs t) i
  x0 := (toProc h).x0
  ηη := (toProc h).ηη
  εε t := by ext i j; exact h.cov_error t i j
  ηη0 := (toProc h).ηη0
  εε0 s t hst := by ext i j; exact h.errors_uncorrelated s t i j hst
  ηε0 s t := by ext i j; exact h.shocks_errors_uncorrelated s t i j
  xη0 := (toProc h).xη0
  xε0 t := by ext i j; exact h.initial_errors_uncorrelated t i j

/-- Replayed filtered means are affine in the data up to their own date. -/
theorem filtAt_affine {W : Type*} [AddCommGroup W] [Module ℝ W] {q : ℕ → Type*} [∀ t, Fintype (q t)]
    [∀ t, DecidableEq (q t)] {θ : ∀ t, Params n (q t) r} (one : W) (Y : ∀ t, q t → W) (t : ℕ) :
    ∃ (b : n → ℝ) (w : n → ∀ s, q s → ℝ), ∀ i,
      filtAt one θ a0 P0 Y t i = b i • one + ∑ s ∈ Finset.range (t + 1), ∑ j, w i s j • Y s j := by
  obtain ⟨b, w, hbw⟩ := predAt_affine (θ := θ) (a0 := a0) (P0 := P0) one Y t
  let G := gainAt θ P0 t
  let M := 1 - G * (θ t).Z
  have hstep : filtAt one θ a0 P0 Y t = const one (-(G *ᵥ (θ t).d)) + act M (predAt one θ a0 P0 Y t) + act G (Y t) := by
    have hcs : const one (-(G *ᵥ (θ t).d)) = - const one (G *ᵥ (θ t).d) := by
      funext i; simp [const]
    have h1 : ∀ x : n → W, act (1 : Matrix n n ℝ) x = x := by intro x; funext k; simp [act, Matrix.one_apply]
    simp only [filtAt, act_sub, act_act, act_const, M, sub_act, hcs, h1]
    rw [show gainAt θ P0 t = G from rfl]
    abel
  refine ⟨fun i => -(G *ᵥ (θ t).d) i + ∑ k, M i k * b k,
    fun i s j => if hs : s = t then G i (hs ▸ j) else ∑ k, M i k * w k s j, fun i => ?_⟩
  rw [hstep, Finset.sum_range_succ]
  simp only [Pi.add_apply, Pi.neg_apply, const, act, hbw, smul_add, Finset.sum_add_distrib, add_smul, Finset.sum_smul,
    dite_true, smul_smul, Finset.smul_sum]
  have h2 : ∑ s ∈ Finset.range t, ∑ j, (if hs : s = t then G i (hs ▸ j) else ∑ k, M i k * w k s j) • Y s j =
      ∑ k, ∑ s ∈ Finset.range t, ∑ j, (M i k * w k s j) • Y s j := by
    rw [Finset.sum_comm (s := Finset.univ)]
    refine Finset.sum_congr rfl fun s hs => ?_
    rw [Finset.sum_comm (s := Finset.univ)]
    refine Finset.sum_congr rfl fun j _ => ?_
    rw [dif_neg (by have := Finset.mem_range.1 hs; omega), Finset.sum_smul]
  rw [h2]
  abel

open Classical in
theorem affineSeen_eq (h : Spec.Process μ θ a0 P0 X Y η ε) (o : ℕ → p → Prop) (T : ℕ) (b : ℝ)
    (w : ∀ s, {i // o s i} → ℝ) (ω : Ω) :
    (b • Orthogonal.one μ + ∑ s ∈ Finset.range T, ∑ j : {i // o s i}, w s j • liftY h s j).1 ω =
      Spec.affineSeen o Y T b (fun s j => if hj : o s j then w s ⟨j, hj⟩ else 0) ω := by
  have hsum : ∀ s, ∑ j : {i // o s i}, w s j * Y s j ω =
      ∑ j, if o s j then (if hj : o s j then w s ⟨j, hj⟩ else 0) * Y s j ω else 0 := by
    intro s
    rw [← Finset.sum_filter, Finset.sum_subtype (p := o s) (Finset.univ.filter fun j => o s j) (by simp)]
    refine Finset.sum_congr rfl fun j _ => ?_
    rw [dif_pos j.2]
  simp only [Spec.affineSeen, ← hsum]
  simp [Orthogonal.one, liftY]

theorem affine_sub {W : Type*} [AddCommGroup W] [Module ℝ W] {q : ℕ → Type*} [∀ t, Fintype (q t)] (one : W)
    (Y : ∀ t, q t → W) (T : ℕ) (b c : ℝ) (v w : ∀ s, q s → ℝ) :
    (b - c) • one + ∑ s ∈ Finset.range T, ∑ j, (v s j - w s j) • Y s j =
      (b • one + ∑ s ∈ Finset.range T, ∑ j, v s j • Y s j) - (c • one + ∑ s ∈ Finset.range T, ∑ j, w s j • Y s j) := by
  simp only [sub_smul, Finset.sum_sub_distrib]
  rw [add_sub_add_comm]

theorem sq_optimal_of_uncorrelated (e d : L2 μ) (hed : covB μ e d = 0) : covB μ e e ≤ ∫ ω, (e.1 ω + d.1 ω) ^ 2 ∂μ := by
  have hde : covB μ d e = 0 := by rw [covB_apply, covariance_comm]; exact hed
  have hs : covB μ (e + d) (e + d) = covB μ e e + covB μ d d := by
    simp only [map_add, LinearMap.add_apply, hed, hde]; ring
  have hv : covB μ (e + d) (e + d) ≤ ∫ ω, (e.1 ω + d.1 ω) ^ 2 ∂μ := by
    rw [covB_apply, covariance_self (e + d).2.aemeasurable]
    exact variance_le_expectation_sq (e + d).2.aestronglyMeasurable
  have := covB_self_nonneg d
  linarith

open Classical in
/-- Limits of the outputs, and what is known about the limiting errors. -/
theorem seen_limits (h : Spec.Process μ θ a0 P0 X Y η ε) (hH : ∀ t, (θ t).H.PosDef) (o : ℕ → p → Prop)
    (hd : ∀ t i k, ¬ o t i → o t k → (θ t).H i k = 0) (fill : ℝ) (hfill : ∀ᵐ ω ∂μ, ∀ t i, o t i → Y t i ω ≠ fill)
    (N t : ℕ) (ht : t < N) :
    let θd := fun t => Spec.deleteSeries (θ t) (o t)
    let Yd := fun t (i : {i // o t i}) => liftY h t i
    let out := fun (jitter : ℝ) ω => buildGraph jitter fill a0 P0 (Spec.rowsSeen o θ Y N ω)
    ((covAt θd P0 t).PosSemidef ∧ (Spec.obsCov (covAt θd P0 t) (θd t).Z (θd t).H).PosDef ∧
      Known (covB μ) Yd (liftη h) (fun t (i : {i // o t i}) => liftε h t i) (covAt θd P0 t) t
        (err (Orthogonal.one μ) θd a0 P0 (liftX h) Yd t) ∧
      KnownF (covB μ) Yd (liftη h) (fun t (i : {i // o t i}) => liftε h t i)
        (Spec.condCov (covAt θd P0 t) (θd t).Z (θd t).H) t (liftX h t - filtAt (Orthogonal.one μ) θd a0 P0 Yd t)) ∧
    ∀ᵐ ω ∂μ,
      Tendsto (fun jitter => (out jitter ω).predictedStates.getD t 0) (𝓝[>] 0)
        (𝓝 fun i => (predAt (Orthogonal.one μ) θd a0 P0 Yd t i).1 ω) ∧
      Tendsto (fun jitter => (out jitter ω).predictedCovs.getD t 0) (𝓝[>] 0) (𝓝 (covAt θd P0 t)) ∧
      Tendsto (fun jitter => (out jitter ω).filteredStates.getD t 0) (𝓝[>] 0)
        (𝓝 fun i => (filtAt (Orthogonal.one μ) θd a0 P0 Yd t i).1 ω) ∧
      Tendsto (fun jitter => (out jitter ω).filteredCovs.getD t 0) (𝓝[>] 0)
        (𝓝 (Spec.condCov (covAt θd P0 t) (θd t).Z (θd t).H)) := by
  intro θd Yd out
  have hHd : ∀ t, (θd t).H.PosDef := fun t => (hH t).submatrix Subtype.val_injective
  have hall := (toProcSeen h o).allPosDef covB_self_nonneg ((toProcSeen h o).posDef_of_H covB_self_nonneg hHd) a0
  refine ⟨hall t, ?_⟩
  have hP0 : P0.PosSemidef := by
    rw [← (toProc h).x0]; exact covM_posSemidef _ (toProc h).sym covB_self_nonneg _
  have hQ : ∀ t, (θ t).Q.PosSemidef := fun t => by
    rw [← (toProc h).ηη t]; exact covM_posSemidef _ (toProc h).sym covB_self_nonneg _
  filter_upwards [hfill] with ω hω
  let y : ℕ → Row p := fun t i => if o t i then some (Y t i ω) else none
  have ho : ∀ t i, o t i ↔ ¬ Spec.Missing fill (y t i) := by
    intro t i
    by_cases hi : o t i
    · simp only [y, if_pos hi, Spec.Missing, hi, true_iff]
      rintro (h | h)
      · cases h
      · exact hω t i hi (Option.some.inj h)
    · simp [y, hi, Spec.Missing]
  have hyd : (fun t (i : {i // o t i}) => (y t i).getD 0) = fun t (i : {i // o t i}) => (Yd t i).1 ω := by
    funext t i
    simp only [y, if_pos i.2]; rfl
  obtain ⟨c1, c2, c3⟩ := carried_tendsto fill a0 hP0 y θ o ho hH hQ hd (fun t => (hall t).1) t
  have hs := step_tendsto fill (y t) (θ t) (o t) (ho t) (hH t) (PosSemidef.transpose_eq (hQ t)) (hd t) c1 (hall t).1 c2 c3
  have hout := fun j => out_carried j fill a0 P0 y θ N t ht
  have hpe := predAt_eval (θ := θd) (a0 := a0) (P0 := P0) Yd ω t
  have hfe := filtAt_eval (θ := θd) (a0 := a0) (P0 := P0) Yd ω t
  refine ⟨?_, ?_, ?_, ?_⟩
  · rw [hpe, ← hyd]
    exact c2.congr fun j => (hout j).1.symm
  · exact c3.congr fun j => (hout j).2.1.symm
  · rw [hfe, ← hyd]
    have e : filtAt (1 : ℝ) θd a0 P0 (fun t i => (y t i).getD 0) t =
        Spec.condMean (predAt (1 : ℝ) θd a0 P0 (fun t i => (y t i).getD 0) t) (covAt θd P0 t)
          (fun i : {i // o t i} => (y t i).getD 0) (θd t).d (θd t).Z (θd t).H := by
      simp only [filtAt, act_real, const_real]
      rfl
    rw [e]
    exact hs.1.congr fun j => (hout j).2.2.1.symm
  · exact hs.2.1.congr fun j => (hout j).2.2.2.symm

open Classical in
/-- Orthogonality to the recorded entries makes a prediction best. -/
theorem bestAffine_of (h : Spec.Process μ θ a0 P0 X Y η ε) (o : ℕ → p → Prop) (T : ℕ) (x A : n → L2 μ) (V : Matrix n n ℝ)
    (haff : ∃ (b : n → ℝ) (w : n → ∀ s, {i // o s i} → ℝ), ∀ i,
      A i = b i • Orthogonal.one μ + ∑ s ∈ Finset.range T, ∑ j : {i // o s i}, w i s j • liftY h s j)
    (hmean : ∀ i, mean μ ((x - A) i) = 0) (hcov : covM (covB μ) (x - A) (x - A) = V)
    (hpast : ∀ s, s < T → covM (covB μ) (x - A) (fun j : {i // o s i} => liftY h s j) = 0) :
    Spec.BestAffine μ o Y T (fun i => (x i).1) (fun i => (A i).1) V := by
  obtain ⟨b0, w0, haff⟩ := haff
  refine ⟨fun i => ⟨b0 i, fun s j => if hj : o s j then w0 i s ⟨j, hj⟩ else 0, fun ω => ?_⟩, fun i => hmean i, fun i s j hs hj => ?_, fun i k => ?_, fun i b w => ?_⟩
  · rw [haff i]; exact affineSeen_eq h o T _ (w0 i) ω
  · exact congrFun (congrFun (hpast s hs) i) ⟨j, hj⟩
  · exact congrFun (congrFun hcov i) k
  · have hee : covB μ ((x - A) i) ((x - A) i) = V i i := congrFun (congrFun hcov i) i
    rw [← hee]
    let d : L2 μ := (b0 i - b) • Orthogonal.one μ +
      ∑ s ∈ Finset.range T, ∑ j : {i // o s i}, (w0 i s j - w s j) • liftY h s j
    have hed : covB μ ((x - A) i) d = 0 := by
      simp only [d, map_add, map_smul, map_sum, (toProc h).one0', smul_zero, zero_add]
      refine Finset.sum_eq_zero fun s hs => Finset.sum_eq_zero fun j _ => ?_
      have := congrFun (congrFun (hpast s (Finset.mem_range.1 hs)) i) j
      rw [show covB μ ((x - A) i) (liftY h s j) = 0 from this, smul_zero]
    refine (sq_optimal_of_uncorrelated _ d hed).trans (le_of_eq ?_)
    congr 1
    funext ω
    congr 1
    have h1 : ((x - A) i).1 ω = (x i).1 ω - (A i).1 ω := rfl
    have h2 : d = A i - (b • Orthogonal.one μ + ∑ s ∈ Finset.range T, ∑ j : {i // o s i}, w s j • liftY h s j) := by
      rw [haff i]
      exact affine_sub _ _ _ _ _ _ _
    have h3 : Spec.affineSeen o Y T b w ω =
        (b • Orthogonal.one μ + ∑ s ∈ Finset.range T, ∑ j : {i // o s i}, w s j • liftY h s j).1 ω := by
      rw [affineSeen_eq h o T b (fun s j => w s j) ω]
      simp only [Spec.affineSeen]
      congr 1
      refine Finset.sum_congr rfl fun s _ => Finset.sum_congr rfl fun j _ => ?_
      by_cases hj : o s j <;> simp [hj]
    rw [h1, h3, h2]
    show _ - _ + ((A i).1 ω - _) = _
    ring

/-- **C169 (predictions).** Whatever pattern of entries is recorded (measurement errors of missing and recorded series being
uncorrelated), as the jitter tends to zero the predicted states and covariances converge, for almost every realisation of the
data, to the best affine prediction of the state from the entries recorded before its date and to the covariance matrix of the
error of that prediction. -/
theorem C169_prediction_limit (h : Spec.Process μ θ a0 P0 X Y η ε) (hH : ∀ t, (θ t).H.PosDef) (o : ℕ → p → Prop)
    (hd : ∀ t i k, ¬ o t i → o t k → (θ t).H i k = 0) (fill : ℝ) (hfill : ∀ᵐ ω ∂μ, ∀ t i, o t i → Y t i ω ≠ fill)
    (N t : ℕ) (ht : t < N) :
    let out := fun (jitter : ℝ) ω => buildGraph jitter fill a0 P0 (Spec.rowsSeen o θ Y N ω)
    ∃ (A : n → Ω → ℝ) (V : Matrix n n ℝ), Spec.BestAffine μ o Y t (X t) A V ∧
      ∀ᵐ ω ∂μ, Tendsto (fun jitter => (out jitter ω).predictedStates.getD t 0) (𝓝[>] 0) (𝓝 fun i => A i ω) ∧
        Tendsto (fun jitter => (out jitter ω).predictedCovs.getD t 0) (𝓝[>] 0) (𝓝 V) := by
  classical
  intro out
  obtain ⟨hseen, hlim⟩ := seen_limits h hH o hd fill hfill N t ht
  have hm := (toProcSeen h o).mean (a0 := a0) (mean μ) (by simp [mean_apply, Orthogonal.one]) h.mean_initial h.mean_shock
    (fun t i => h.mean_error t i) t
  refine ⟨fun i => (predAt (Orthogonal.one μ) (fun t => Spec.deleteSeries (θ t) (o t)) a0 P0
    (fun t (i : {i // o t i}) => liftY h t i) t i).1, covAt (fun t => Spec.deleteSeries (θ t) (o t)) P0 t, ?_, ?_⟩
  · exact bestAffine_of h o t (liftX h t) _ _ (predAt_affine _ _ t) hm.1 hseen.2.2.1.cov hseen.2.2.1.past
  · filter_upwards [hlim] with ω hω
    exact ⟨hω.1, hω.2.1⟩

/-- **C169 (filtered states).** The same for the filtered states and covariances, which also use the entries recorded at their
own date. -/
theorem C169_filter_limit (h : Spec.Process μ θ a0 P0 X Y η ε) (hH : ∀ t, (θ t).H.PosDef) (o : ℕ → p → Prop)
    (hd : ∀ t i k, ¬ o t i → o t k → (θ t).H i k = 0) (fill : ℝ) (hfill : ∀ᵐ ω ∂μ, ∀ t i, o t i → Y t i ω ≠ fill)
    (N t : ℕ) (ht : t < N) :
    let out := fun (jitter : ℝ) ω => buildGraph jitter fill a0 P0 (Spec.rowsSeen o θ Y N ω)
    ∃ (A : n → Ω → ℝ) (V : Matrix n n ℝ), Spec.BestAffine μ o Y (t + 1) (X t) A V ∧
      ∀ᵐ ω ∂μ, Tendsto (fun jitter => (out jitter ω).filteredStates.getD t 0) (𝓝[>] 0) (𝓝 fun i => A i ω) ∧
        Tendsto (fun jitter => (out jitter ω).filteredCovs.getD t 0) (𝓝[>] 0) (𝓝 V) := by
  classical
  intro out
  obtain ⟨hseen, hlim⟩ := seen_limits h hH o hd fill hfill N t ht
  have hm := (toProcSeen h o).mean (a0 := a0) (mean μ) (by simp [mean_apply, Orthogonal.one]) h.mean_initial h.mean_shock
    (fun t i => h.mean_error t i) t
  refine ⟨fun i => (filtAt (Orthogonal.one μ) (fun t => Spec.deleteSeries (θ t) (o t)) a0 P0
    (fun t (i : {i // o t i}) => liftY h t i) t i).1, Spec.condCov (covAt (fun t => Spec.deleteSeries (θ t) (o t)) P0 t)
      (Spec.deleteSeries (θ t) (o t)).Z (Spec.deleteSeries (θ t) (o t)).H, ?_, ?_⟩
  · exact bestAffine_of h o (t + 1) (liftX h t) _ _ (filtAt_affine _ _ t) hm.2.1 hseen.2.2.2.cov
      fun s hs => hseen.2.2.2.past s (by omega)
  · filter_upwards [hlim] with ω hω
    exact ⟨hω.2.2.1, hω.2.2.2⟩

/-- One state seen through two series with independent errors. -/
def twoSeries : Params (Fin 1) (Fin 2) (Fin 1) where
  c := 0
  d := 0
  T := 1
  Z := !![1; 1]
  R := 1
  H := 1
  Q := 1

/-- C169 applies to two series of which the second is recorded only every other date. -/
example (N t : ℕ) (ht : t < N) : ∃ (Ω : Type) (_ : MeasurableSpace Ω) (μ : Measure Ω) (X : ℕ → Fin 1 → Ω → ℝ)
    (Y : ℕ → Fin 2 → Ω → ℝ) (fill : ℝ) (A : Fin 1 → Ω → ℝ) (V : Matrix (Fin 1) (Fin 1) ℝ),
      Spec.BestAffine μ (fun t i => i = 0 ∨ t % 2 = 0) Y t (X t) A V ∧
      ∀ᵐ ω ∂μ, Tendsto (fun jitter => (buildGraph jitter fill 0 1 (Spec.rowsSeen (fun t i => i = 0 ∨ t % 2 = 0)
        (fun _ => twoSeries) Y N ω)).predictedStates.getD t 0) (𝓝[>] 0) (𝓝 fun i => A i ω) := by
  obtain ⟨Ω, mΩ, μ, hμ, X, Y, η, ε, fill, h, hfill⟩ := exists_process (fun _ => twoSeries) 0
    (P0 := 1) Matrix.PosSemidef.one (fun _ => Matrix.PosSemidef.one) (fun _ => Matrix.PosSemidef.one)
  obtain ⟨A, V, h1, h2⟩ := C169_prediction_limit h (fun _ => Matrix.PosDef.one) (fun t i => i = 0 ∨ t % 2 = 0)
    (fun t i k hi hk => Matrix.one_apply_ne (by rintro rfl; exact hi hk)) fill
    (hfill.mono fun ω hω t i _ => hω t i) N t ht
  exact ⟨Ω, mΩ, μ, X, Y, fill, A, V, h1, h2.mono fun ω hω => hω.1⟩

end Verif.Kalman
