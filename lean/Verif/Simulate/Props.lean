import Verif.Simulate.Model
import Mathlib.Tactic.FieldSimp
import Mathlib.Tactic.Ring
import Mathlib.Tactic.Linarith
import Mathlib.Tactic.Abel
import Mathlib.Analysis.Real.Sqrt
import Mathlib.LinearAlgebra.Matrix.Block

/-!
C17, C18 (trajectories), C21 (impulse responses), C75–C78, C81.
-/

set_option linter.unusedSectionVars false

open Matrix

namespace Verif.Simulate

open Verif.Kalman (Params)

variable {k p r : ℕ}

theorem firstK_joinRow (a : Fin k → ℝ) (y : Fin p → ℝ) : firstK k (joinRow a y) = a := by
  funext i
  have : (List.ofFn a ++ List.ofFn y).getD i 0 = a i := by
    rw [List.getD_eq_getElem?_getD, List.getElem?_append_left (by simp)]
    simp
  simpa [firstK, joinRow] using this

/-- **C17 (split).** Splitting a combined row recovers the latent and the observed part exactly. -/
theorem C17_split_recovers (hp : p ≠ 0) (a : Fin k → ℝ) (y : Fin p → ℝ) :
    sliceToNeg p (joinRow a y) = List.ofFn a ∧ sliceFromNeg p (joinRow a y) = List.ofFn y := by
  simp [sliceToNeg, sliceFromNeg, joinRow, hp]

theorem scan_length (l : List (Params (Fin k) (Fin p) (Fin r) × Noise p r)) :
    ∀ s, (scan s l).length = l.length := by
  induction l with
  | nil => intro s; rfl
  | cons x xs ih => intro s; obtain ⟨θ, e⟩ := x; simp [scan, ih]

/-- Specification: a latent trajectory `x`, an observed trajectory `y` obeying the state-space equations with the
matrices `θ t` driving the step from `t` to `t+1`. -/
def Spec.Obeys (θ : ℕ → Params (Fin k) (Fin p) (Fin r)) (noise : ℕ → Noise p r) (x : ℕ → Fin k → ℝ)
    (y : ℕ → Fin p → ℝ) (steps : ℕ) : Prop :=
  ∀ t, t < steps →
    x (t + 1) = (θ t).c + (θ t).T *ᵥ x t + (θ t).R *ᵥ (noise t).eta ∧
    y (t + 1) = (θ t).d + (θ t).Z *ᵥ x (t + 1) + (noise t).eps

theorem scan_obeys (θs : List (Params (Fin k) (Fin p) (Fin r))) : ∀ (noise : ℕ → Noise p r) (x0 : Fin k → ℝ)
    (y0 : Fin p → ℝ) (θ : ℕ → Params (Fin k) (Fin p) (Fin r)), (∀ t, (h : t < θs.length) → θ t = θs[t]) →
    ∃ x y, x 0 = x0 ∧ y 0 = y0 ∧ Spec.Obeys θ noise x y θs.length ∧
      (joinRow x0 y0 :: scan (joinRow x0 y0) (θs.mapIdx fun i θ => (θ, noise i))) =
        (List.range (θs.length + 1)).map fun t => joinRow (x t) (y t) := by
  induction θs with
  | nil => intro noise x0 y0 θ _; exact ⟨fun _ => x0, fun _ => y0, rfl, rfl, fun t ht => by simp at ht, by simp [scan]⟩
  | cons θ0 rest ih =>
    intro noise x0 y0 θ hθ
    have h0 : θ 0 = θ0 := hθ 0 (by simp)
    let x1 := θ0.c + θ0.T *ᵥ x0 + θ0.R *ᵥ (noise 0).eta
    let y1 := θ0.d + θ0.Z *ᵥ x1 + (noise 0).eps
    obtain ⟨x, y, hx, hy, ho, he⟩ := ih (fun i => noise (i + 1)) x1 y1 (fun t => θ (t + 1))
      (fun t h => hθ (t + 1) (by simpa using h))
    refine ⟨fun t => Nat.casesOn t x0 x, fun t => Nat.casesOn t y0 y, rfl, rfl, ?_, ?_⟩
    · intro t ht
      cases t with
      | zero => simp only [h0]; exact ⟨hx, by rw [hy]; simp only [hx, y1]⟩
      | succ t => exact ho t (by simpa using ht)
    · have hs : stepFn θ0 (noise 0) (joinRow x0 y0) = joinRow x1 y1 := by
        simp only [stepFn, firstK_joinRow, x1, y1]
      rw [List.length_cons, List.range_succ_eq_map, List.map_cons, List.map_map]
      simp only [List.mapIdx_cons, scan, hs]
      congr 1

/-- **C17.** Every draw of the linear Gaussian state-space distribution follows the state-space equations at every
step, for all innovations and all (possibly time-varying) matrices; the step from `t` to `t+1`, including the observation
made at `t+1`, uses slice `t` of every time-varying matrix; the initial observation is `Z x0 + ε0`. -/
theorem C17_draw_obeys (appendX0 : Bool) (steps : ℕ) (x0 : Fin k → ℝ) (eps0 : Fin p → ℝ)
    (Zinit : Matrix (Fin p) (Fin k) ℝ) (θs : List (Params (Fin k) (Fin p) (Fin r))) (noise : ℕ → Noise p r)
    (rows : List (List ℝ)) (hr : simulate appendX0 steps x0 eps0 Zinit θs noise = some rows)
    (hp : p ≠ 0) (θ : ℕ → Params (Fin k) (Fin p) (Fin r)) (hθ : ∀ t, (h : t < θs.length) → θ t = θs[t]) :
    ∃ x y, x 0 = x0 ∧ y 0 = Zinit *ᵥ x0 + eps0 ∧ Spec.Obeys θ noise x y steps ∧
      splitRows p rows =
        (((List.range (steps + 1)).drop (if appendX0 then 0 else 1)).map fun t => List.ofFn (x t),
         ((List.range (steps + 1)).drop (if appendX0 then 0 else 1)).map fun t => List.ofFn (y t)) := by
  rw [simulate] at hr
  split at hr
  · rename_i hs
    have hlen : (θs.take steps).length = steps := by simp [hs]
    obtain ⟨x, y, hx, hy, ho, he⟩ := scan_obeys (θs.take steps) noise x0 (Zinit *ᵥ x0 + eps0) θ
      (fun t h => by rw [List.getElem_take]; exact hθ t (by rw [hlen] at h; omega))
    rw [hlen] at ho he
    refine ⟨x, y, hx, hy, ho, ?_⟩
    have hrows : rows = ((List.range (steps + 1)).drop (if appendX0 then 0 else 1)).map fun t => joinRow (x t) (y t) := by
      rw [← Option.some.inj hr]
      cases appendX0
      · simp only [Bool.false_eq_true, if_false]
        rw [List.map_drop, ← he]; rfl
      · simp only [if_true, List.drop_zero]
        exact he
    rw [hrows, splitRows, List.map_map, List.map_map]
    congr 1 <;> refine List.map_congr_left fun t _ => ?_
    · exact (C17_split_recovers hp _ _).1
    · exact (C17_split_recovers hp _ _).2
  · simp at hr

/-- **C17 (initial observation).** The first observation of every trajectory that keeps its initial row has no observation
intercept: it is what the observation equation `d + Z x + ε` gives at time 0 iff `d = 0`. -/
theorem C17_initial_obs_omits_intercept (steps : ℕ) (x0 : Fin k → ℝ) (eps0 d : Fin p → ℝ) (Z : Matrix (Fin p) (Fin k) ℝ)
    (θs : List (Params (Fin k) (Fin p) (Fin r))) (noise : ℕ → Noise p r)
    (rows : List (List ℝ)) (hr : simulate true steps x0 eps0 Z θs noise = some rows) (hp : p ≠ 0) :
    (splitRows p rows).2.head? = some (List.ofFn (d + Z *ᵥ x0 + eps0)) ↔ d = 0 := by
  obtain ⟨x, y, -, hy, -, hs⟩ := C17_draw_obeys true steps x0 eps0 Z θs noise rows hr hp
    (fun t => if h : t < θs.length then θs[t] else ⟨0, 0, 0, 0, 0, 0, 0⟩) (fun t h => dif_pos h)
  rw [hs]
  simp only [if_true, List.drop_zero, List.head?_map, List.head?_range, Nat.add_eq_zero_iff, one_ne_zero, and_false, if_false,
    Option.map_some, Option.some.injEq, List.ofFn_inj, hy]
  rw [add_assoc]
  exact ⟨fun h => by simpa using h, fun h => by simp [h]⟩

/-- **C18.** Number of rows returned. -/
theorem C18_draw_length (appendX0 : Bool) (steps : ℕ) (x0 : Fin k → ℝ) (eps0 : Fin p → ℝ)
    (Zinit : Matrix (Fin p) (Fin k) ℝ) (θs : List (Params (Fin k) (Fin p) (Fin r))) (noise : ℕ → Noise p r)
    (rows : List (List ℝ)) (hr : simulate appendX0 steps x0 eps0 Zinit θs noise = some rows) :
    rows.length = steps + (if appendX0 then 1 else 0) := by
  rw [simulate] at hr
  split at hr
  · rename_i hs
    rw [← Option.some.inj hr]
    cases appendX0 <;> simp [scan_length, hs]
  · simp at hr

/-- A draw always exists when every time-varying matrix has at least `steps` slices, and never otherwise. -/
theorem C18_draw_exists_iff (appendX0 : Bool) (steps : ℕ) (x0 : Fin k → ℝ) (eps0 : Fin p → ℝ)
    (Zinit : Matrix (Fin p) (Fin k) ℝ) (θs : List (Params (Fin k) (Fin p) (Fin r))) (noise : ℕ → Noise p r) :
    (∃ rows, simulate appendX0 steps x0 eps0 Zinit θs noise = some rows) ↔ steps ≤ θs.length := by
  rw [simulate]; split
  · rename_i h; simp [h]
  · rename_i h; simp [h]

/-- Non-vacuity: two steps of a scalar random walk. -/
example : simulate (k := 1) (p := 1) (r := 1) true 2 (fun _ => 5) (fun _ => 0) 1
    (List.replicate 2 ⟨0, 0, 1, 1, 1, 1, 1⟩) (fun i => ⟨fun _ => i + 1, fun _ => 10⟩) =
    some [[5, 5], [6, 16], [8, 18]] := by
  simp [simulate, scan, joinRow, stepFn, firstK, List.ofFn_succ, List.replicate, Matrix.one_mulVec]
  norm_num

/-- **C76.** The filter pairs the data of time `t` with slice `t` of `d`, `Z`, `H`; the simulator generates the
observation of time `t+1` with slice `t`. So with a time-varying design matrix a noise-free simulated observation is
what the observation equation prescribes at time `t+1` only if both slices agree on the state. -/
theorem C76_simulated_obs_uses_previous_slice (steps : ℕ) (x0 : Fin k → ℝ)
    (θs : List (Params (Fin k) (Fin p) (Fin r))) (rows : List (List ℝ)) (noise : ℕ → Noise p r)
    (heps : ∀ t, (noise t).eps = 0)
    (hr : simulate true steps x0 0 (θs.headD ⟨0, 0, 0, 0, 0, 0, 0⟩).Z θs noise = some rows) (hp : p ≠ 0) (t : ℕ)
    (ht : t < steps) (hlen : t + 1 < θs.length) :
    ∃ xt : Fin k → ℝ, (splitRows p rows).1[t + 1]? = some (List.ofFn xt) ∧
      (splitRows p rows).2[t + 1]? = some (List.ofFn (θs[t].d + θs[t].Z *ᵥ xt)) ∧
      ((splitRows p rows).2[t + 1]? = some (List.ofFn (θs[t + 1].d + θs[t + 1].Z *ᵥ xt)) ↔
        θs[t].d + θs[t].Z *ᵥ xt = θs[t + 1].d + θs[t + 1].Z *ᵥ xt) := by
  obtain ⟨x, y, hx, hy, ho, he⟩ := C17_draw_obeys true steps x0 0 _ θs noise rows hr hp
    (fun t => θs.getD t ⟨0, 0, 0, 0, 0, 0, 0⟩) (fun t h => by simp [h])
  have hyt := (ho t ht).2
  have hg : θs.getD t ⟨0, 0, 0, 0, 0, 0, 0⟩ = θs[t] := by
    rw [List.getD_eq_getElem?_getD, List.getElem?_eq_getElem (by omega)]; rfl
  beta_reduce at hyt
  rw [hg, heps, add_zero] at hyt
  have h1 : (splitRows p rows).1[t + 1]? = some (List.ofFn (x (t + 1))) := by
    rw [he]; simp [ht]
  have h2 : (splitRows p rows).2[t + 1]? = some (List.ofFn (y (t + 1))) := by
    rw [he]; simp [ht]
  refine ⟨x (t + 1), h1, by rw [h2, hyt], ?_⟩
  rw [h2, hyt]
  constructor
  · intro h; exact List.ofFn_injective (Option.some.inj h)
  · intro h; rw [h]

/-- **C75.** The initial state, the initial observation and the first state innovation are drawn from the same
generator state: for one state and one series, in *every* draw the standardised initial-state error, the standardised
initial measurement error and the standardised first shock are the same number. -/
theorem C75_initial_draws_share_noise {G : Type*} (R : Rng G) (g : G) (a0 sx sy sq z : ℝ) :
    let d := initDraws (k := 1) (p := 1) R g (fun _ => a0) (fun _ _ => sx) (fun _ _ => z) (fun _ _ => sy)
    let e := firstNoise (p := 1) (r := 1) R g (fun _ _ => sq) (fun _ _ => sy)
    ∃ w : ℝ, d.1 0 = a0 + sx * w ∧ d.2 0 = z * d.1 0 + sy * w ∧ e.eta 0 = sq * w := by
  refine ⟨R.normals g 0, ?_, ?_, ?_⟩ <;>
    simp [initDraws, firstNoise, mvDraw, Matrix.mulVec, dotProduct]

/-- **C75 (consequence).** So the initial measurement error is a deterministic function of the initial state whenever
the initial state is random: independence, assumed by the model, fails. -/
theorem C75_not_independent {G : Type*} (R : Rng G) (g : G) (a0 sx sy z : ℝ) (hsx : sx ≠ 0) :
    let d := initDraws (k := 1) (p := 1) R g (fun _ => a0) (fun _ _ => sx) (fun _ _ => z) (fun _ _ => sy)
    d.2 0 - z * d.1 0 = sy / sx * (d.1 0 - a0) := by
  intro d
  obtain ⟨w, h1, h2, -⟩ := C75_initial_draws_share_noise R g a0 sx sy 1 z
  have h1' : d.1 0 = a0 + sx * w := h1
  have h2' : d.2 0 = z * d.1 0 + sy * w := h2
  rw [h2', h1']; field_simp; ring

/-- **C77.** Number of simulated rows (`steps + 1`) against number of time labels in `_sample_unconditional`: they agree
except when the user asks for the data's time dimension *and* gives `steps`, where the only accepted value always leads
to one row too many. -/
theorem C77_unconditional_lengths (useData : Bool) (steps : Option ℕ) (n labels : ℕ) (s : ℤ)
    (h : unconditionalSteps useData steps n = some (labels, s)) :
    (useData = true ∧ steps.isSome → s + 1 = labels + 1) ∧
      (¬ (useData = true ∧ steps.isSome) → s + 1 = labels) := by
  cases useData <;> cases steps <;> simp [unconditionalSteps] at h ⊢
  · obtain ⟨rfl, rfl⟩ := h; omega
  · obtain ⟨rfl, rfl⟩ := h; push_cast; omega
  · obtain ⟨rfl, rfl⟩ := h; omega
  · obtain ⟨h1, rfl, rfl⟩ := h; omega

example : unconditionalSteps true (some 10) 10 = some (10, 10) ∧ unconditionalSteps true (some 9) 10 = none ∧
    unconditionalSteps false (some 9) 10 = some (10, 9) := by decide

/-- **C78.** The observation mean used when sampling conditional trajectories differs from the filter's own forecast of
the observation (`obsMu`) by exactly the observation intercept; the covariances agree when the jitter is zero. -/
theorem C78_conditional_obs_omits_intercept (j fill : ℝ) (y : Verif.Kalman.Row (Fin p))
    (a : Fin k → ℝ) (P : Matrix (Fin k) (Fin k) ℝ) (θ : Params (Fin k) (Fin p) (Fin r))
    (hobs : ∀ i, ¬ Verif.Kalman.nanMask fill y i) :
    (Verif.Kalman.kalmanStep j fill y a P θ).obsMu = θ.d + (conditionalObs θ.Z θ.H a P).1 ∧
    (Verif.Kalman.kalmanStep j fill y a P θ).obsCov = (conditionalObs θ.Z θ.H a P).2 + j • (1 : Matrix _ _ ℝ) ∧
    ((Verif.Kalman.kalmanStep j fill y a P θ).obsMu = (conditionalObs θ.Z θ.H a P).1 ↔ θ.d = 0) := by
  have hW : Verif.Kalman.maskW fill y = 1 := by
    rw [Verif.Kalman.maskW, ← Matrix.diagonal_one]; congr 1; funext i; exact if_neg (hobs i)
  have h1 : (Verif.Kalman.kalmanStep j fill y a P θ).obsMu = θ.d + (conditionalObs θ.Z θ.H a P).1 := by
    simp [Verif.Kalman.kalmanStep, Verif.Kalman.update, Verif.Kalman.handleMissing, hW, conditionalObs]
  refine ⟨h1, ?_, ?_⟩
  · simp [Verif.Kalman.kalmanStep, Verif.Kalman.update, Verif.Kalman.handleMissing, hW, conditionalObs,
      Verif.Kalman.innovCov, Verif.Kalman.stabilize, Matrix.mul_assoc, add_assoc]
  · rw [h1]; exact ⟨fun h => by simpa using h, fun h => by simp [h]⟩

/-! ### C21 impulse responses -/

/-- Index form of the scan. -/
theorem irfScan_length (c : Fin k → ℝ) (T : Matrix (Fin k) (Fin k) ℝ) (R : Matrix (Fin k) (Fin r) ℝ)
    (us : List (Fin r → ℝ)) : ∀ x, (irfScan c T R x us).length = us.length := by
  induction us with
  | nil => intro x; rfl
  | cons u us ih => intro x; simp [irfScan, ih]

theorem irfScan_getElem (c : Fin k → ℝ) (T : Matrix (Fin k) (Fin k) ℝ) (R : Matrix (Fin k) (Fin r) ℝ)
    (us : List (Fin r → ℝ)) : ∀ x t, t < us.length →
    (irfScan c T R x us)[t]? = some ((T ^ (t + 1)) *ᵥ x +
      ∑ i ∈ Finset.range (t + 1), (T ^ (t - i)) *ᵥ (c + R *ᵥ us.getD i 0)) := by
  induction us with
  | nil => intro x t h; simp at h
  | cons u us ih =>
    intro x t h
    cases t with
    | zero => simp [irfScan]; abel
    | succ t =>
      rw [irfScan, List.getElem?_cons_succ, ih _ t (by simpa using h)]
      congr 1
      rw [Finset.sum_range_succ' _ (t + 1)]
      simp only [Nat.add_sub_add_right, List.getD_cons_succ, List.getD_cons_zero, Nat.sub_zero,
        Matrix.mulVec_add, Matrix.mulVec_mulVec, ← pow_succ]
      abel

/-- **C21 (superposition).** Starting from the zero state, the response at step `t` to a shock trajectory is the sum of
the shifted responses `T^(t-i) R u_i` plus, when the state intercept is not zero, `Σ T^i c`. -/
theorem C21_irf_superposition (c : Fin k → ℝ) (T : Matrix (Fin k) (Fin k) ℝ) (R : Matrix (Fin k) (Fin r) ℝ)
    (us : List (Fin r → ℝ)) (t : ℕ) (ht : t < us.length) :
    (irfScan c T R 0 us)[t]? = some (∑ i ∈ Finset.range (t + 1), (T ^ (t - i)) *ᵥ (R *ᵥ us.getD i 0) +
      ∑ i ∈ Finset.range (t + 1), (T ^ i) *ᵥ c) := by
  rw [irfScan_getElem c T R us 0 t ht]
  congr 1
  rw [Matrix.mulVec_zero, zero_add]
  simp only [Matrix.mulVec_add, Finset.sum_add_distrib]
  rw [add_comm]
  congr 1
  rw [← Finset.sum_range_reflect]
  refine Finset.sum_congr rfl fun i hi => ?_
  congr 2; have := Finset.mem_range.1 hi; omega

/-- **C21 (single shock).** With an initial shock `u` and `n` steps, the response at step `t < n` is `T^t R u` plus the
intercept's contribution. -/
theorem C21_irf_initial_shock (c : Fin k → ℝ) (T : Matrix (Fin k) (Fin k) ℝ) (R : Matrix (Fin k) (Fin r) ℝ)
    (u : Fin r → ℝ) (n : ℕ) (us : List (Fin r → ℝ)) (hus : initialShockTrajectory n u = some us) :
    (irfScan c T R 0 us).length = n ∧ ∀ t, t < n →
      (irfScan c T R 0 us)[t]? = some ((T ^ t) *ᵥ (R *ᵥ u) + ∑ i ∈ Finset.range (t + 1), (T ^ i) *ᵥ c) := by
  cases n with
  | zero => simp [initialShockTrajectory] at hus
  | succ m =>
    simp only [initialShockTrajectory, Option.some.injEq] at hus
    subst hus
    refine ⟨by simp [irfScan_length], fun t ht => ?_⟩
    rw [C21_irf_superposition c T R _ t (by simpa using ht)]
    congr 2
    rw [Finset.sum_range_succ']
    rw [Finset.sum_eq_zero]
    · simp
    · intro i hi
      have : (List.replicate m (0 : Fin r → ℝ)).getD i 0 = 0 := by
        rw [List.getD_eq_getElem?_getD, List.getElem?_replicate]; split <;> rfl
      rw [List.getD_cons_succ, this]; simp

/-- **C21 (linearity).** With `c = 0`, responses are linear in the shock. -/
theorem C21_irf_linear (T : Matrix (Fin k) (Fin k) ℝ) (R : Matrix (Fin k) (Fin r) ℝ) (u v : Fin r → ℝ) (α β : ℝ)
    (n : ℕ) (us vs ws : List (Fin r → ℝ)) (hu : initialShockTrajectory n u = some us)
    (hv : initialShockTrajectory n v = some vs) (hw : initialShockTrajectory n (α • u + β • v) = some ws) (t : ℕ)
    (ht : t < n) (a b w : Fin k → ℝ) (ha : (irfScan 0 T R 0 us)[t]? = some a)
    (hb : (irfScan 0 T R 0 vs)[t]? = some b) (hc : (irfScan 0 T R 0 ws)[t]? = some w) : w = α • a + β • b := by
  rw [(C21_irf_initial_shock 0 T R u n us hu).2 t ht] at ha
  rw [(C21_irf_initial_shock 0 T R v n vs hv).2 t ht] at hb
  rw [(C21_irf_initial_shock 0 T R _ n ws hw).2 t ht] at hc
  simp only [Matrix.mulVec_zero, Finset.sum_const_zero, add_zero, Option.some.injEq] at ha hb hc
  subst ha hb hc
  simp only [Matrix.mulVec_add, Matrix.mulVec_smul]

/-- **C21 (options).** More than one of the three shock options is rejected; a single one switches the posterior
covariance off whatever `use_posterior_cov` says; with none and `use_posterior_cov=False` there is no shock to use. -/
theorem C21_irf_options (usePost size cov traj : Bool) :
    (shockSource usePost size cov traj = none ↔ 2 ≤ [size, cov, traj].count true) ∧
    ([size, cov, traj].count true = 0 →
      shockSource usePost size cov traj = some (if usePost then .posteriorCov else .nothing)) ∧
    ([size, cov, traj].count true = 1 → shockSource usePost size cov traj ≠ some .posteriorCov) := by
  cases usePost <;> cases size <;> cases cov <;> cases traj <;> decide

/-- **C81 (one shock).** With one shock of variance `q > 0`, the "orthogonalised" covariance used for the shock is
`1/√q`, which is the requested variance only when `q = 1`. -/
theorem C81_orthogonalized_scalar (q : ℝ) (hq : 0 < q) (L : Matrix (Fin 1) (Fin 1) ℝ) (hL : L 0 0 = Real.sqrt q) :
    orthogonalized L (fun _ _ => q) 0 0 = 1 / Real.sqrt q ∧
      (orthogonalized L (fun _ _ => q) 0 0 = q ↔ q = 1) := by
  have hs : 0 < Real.sqrt q := Real.sqrt_pos.2 hq
  have hsq : Real.sqrt q * Real.sqrt q = q := Real.mul_self_sqrt hq.le
  have h1 : orthogonalized L (fun _ _ => q) 0 0 = 1 / Real.sqrt q := by
    show L 0 0 / q = _
    rw [hL, div_eq_div_iff hq.ne' hs.ne']; linarith
  refine ⟨h1, ?_⟩
  rw [h1, div_eq_iff hs.ne']
  constructor
  · intro h
    have h3 : Real.sqrt q ^ 3 = 1 := by rw [pow_succ, pow_two, hsq, ← h]
    have : Real.sqrt q = 1 := by
      have h0 : (Real.sqrt q - 1) * (Real.sqrt q ^ 2 + Real.sqrt q + 1) = 0 := by ring_nf; rw [h3]; ring
      rcases mul_eq_zero.1 h0 with h | h
      · linarith
      · nlinarith [sq_nonneg (Real.sqrt q)]
    rw [← hsq, this]; norm_num
  · rintro rfl; simp

/-- **C81 (several shocks).** For any lower-triangular factor `L`, the matrix passed on as a covariance is symmetric
only if `L` is diagonal, i.e. only if the shocks were uncorrelated to begin with. -/
theorem C81_orthogonalized_symmetric_iff (L Q : Matrix (Fin r) (Fin r) ℝ) (hL : ∀ i j, i < j → L i j = 0)
    (hQ : ∀ i, Q i i ≠ 0) :
    (orthogonalized L Q)ᵀ = orthogonalized L Q ↔ ∀ i j, i ≠ j → L i j = 0 := by
  constructor
  · intro h i j hij
    rcases lt_or_gt_of_ne hij with hlt | hgt
    · exact hL i j hlt
    · have := congrFun (congrFun h i) j
      simp only [Matrix.transpose_apply, orthogonalized, hL j i hgt, zero_div] at this
      have := (div_eq_zero_iff.1 this.symm).resolve_right (hQ j)
      exact this
  · intro h
    funext i j
    simp only [Matrix.transpose_apply, orthogonalized]
    by_cases hij : i = j
    · rw [hij]
    · rw [h i j hij, h j i (Ne.symm hij)]; simp

end Verif.Simulate
