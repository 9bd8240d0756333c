import Verif.Kalman.SettleProps

/-!
# C217: the initial mean is forgotten
-/

set_option autoImplicit false
set_option linter.unusedSectionVars false

open Matrix Filter Topology

namespace Verif.Kalman

open ConsU Stationary

variable {n p r : Type*} [Fintype n] [Fintype p] [Fintype r] [DecidableEq n] [DecidableEq p] [DecidableEq r] {k : ℕ}

namespace Ric

variable {T W : Matrix n n ℝ} {Z : Matrix p n ℝ} {M : Matrix p p ℝ}

/-- The gain is continuous at covariance matrices. -/
theorem K_tendsto (hM : M.PosDef) {V : ℕ → Matrix n n ℝ} {L : Matrix n n ℝ} (hL : L.PosSemidef) (h : Tendsto V atTop (𝓝 L)) :
    Tendsto (fun t => K Z M (V t)) atTop (𝓝 (K Z M L)) := by
  have ho : Tendsto (fun t => Spec.obsCov (V t) Z M) atTop (𝓝 (Spec.obsCov L Z M)) := by
    have hc : Continuous fun A : Matrix n n ℝ => Spec.obsCov A Z M := by
      unfold Spec.obsCov
      exact ((continuous_const.matrix_mul continuous_id).matrix_mul continuous_const).add continuous_const
    exact (hc.tendsto L).comp h
  exact tendsto_mul (tendsto_mul h tendsto_const_nhds) ((inv_continuousAt (More.obsCov_unit hL Z hM)).tendsto.comp ho)

/-- A quadratic form is small if its entries are. -/
theorem quad_le (E : Matrix n n ℝ) (u : n → ℝ) : u ⬝ᵥ (E *ᵥ u) ≤ (∑ i, ∑ l, |E i l|) * (u ⬝ᵥ u) := by
  have hu : ∀ i, u i ^ 2 ≤ u ⬝ᵥ u := fun i => by
    rw [dotProduct, pow_two]
    exact Finset.single_le_sum (f := fun i => u i * u i) (fun i _ => mul_self_nonneg (u i)) (Finset.mem_univ i)
  rw [dotProduct, Finset.sum_mul]
  refine Finset.sum_le_sum fun i _ => ?_
  rw [mulVec, dotProduct, Finset.mul_sum, Finset.sum_mul]
  refine Finset.sum_le_sum fun l _ => ?_
  have h1 : u i * (E i l * u l) ≤ |E i l| * ((u i ^ 2 + u l ^ 2) / 2) := by
    have h2 : u i * (E i l * u l) ≤ |E i l * (u i * u l)| := by rw [show u i * (E i l * u l) = E i l * (u i * u l) by ring]; exact le_abs_self _
    refine h2.trans ?_
    rw [abs_mul]
    refine mul_le_mul_of_nonneg_left ?_ (abs_nonneg _)
    rw [abs_le]
    constructor <;> nlinarith [sq_nonneg (u i + u l), sq_nonneg (u i - u l)]
  refine h1.trans (mul_le_mul_of_nonneg_left ?_ (abs_nonneg _))
  linarith [hu i, hu l]

/-- Vectors moved by matrices that tend to a stable one die out. -/
theorem decays {A : Matrix n n ℝ} (hA : Spec.Stable A) {B : ℕ → Matrix n n ℝ} (hB : Tendsto B atTop (𝓝 A)) {δ : ℕ → n → ℝ}
    (hδ : ∀ t, δ (t + 1) = B t *ᵥ δ t) : Tendsto δ atTop (𝓝 0) := by
  have hX := lyapunov_solves (1 : Matrix n n ℝ) (stable_unit_kron (stable_transpose hA))
  have hXp := posSemidef_of_stable (stable_transpose hA) PosSemidef.one hX
  set X := lyapunov Aᵀ 1
  rw [transpose_transpose] at hX
  have hD : Tendsto (fun t => (B t)ᵀ * X * B t - (X - 1)) atTop (𝓝 0) := by
    have h1 : Tendsto (fun t => (B t)ᵀ) atTop (𝓝 Aᵀ) := (continuous_id.matrix_transpose.tendsto A).comp hB
    have h2 := (tendsto_mul (tendsto_mul h1 (tendsto_const_nhds (x := X))) hB).sub_const (X - 1)
    have h3 : Aᵀ * X * A - (X - 1) = 0 := by
      conv_lhs => enter [2, 1]; rw [← hX]
      abel
    rwa [h3] at h2
  set E : ℕ → Matrix n n ℝ := fun t => (B t)ᵀ * X * B t - (X - 1) with hE
  have hc : Tendsto (fun t => ∑ i, ∑ l, |E t i l|) atTop (𝓝 0) := by
    have hent : ∀ i l, Tendsto (fun t => |E t i l|) atTop (𝓝 0) := fun i l => by
      have := (tendsto_pi_nhds.1 (tendsto_pi_nhds.1 hD i) l).abs
      simpa using this
    have := tendsto_finsetSum Finset.univ fun i _ => tendsto_finsetSum (Finset.univ (α := n)) fun l _ => hent i l
    simpa using this
  obtain ⟨N, hN⟩ := eventually_atTop.1 (hc.eventually (ge_mem_nhds (show (0 : ℝ) < 1 / 2 by norm_num)))
  set q : ℕ → ℝ := fun t => δ t ⬝ᵥ (X *ᵥ δ t) with hq
  have hq0 : ∀ t, 0 ≤ q t := fun t => by simpa using hXp.dotProduct_mulVec_nonneg (δ t)
  have hd0 : ∀ t, 0 ≤ δ t ⬝ᵥ δ t := fun t => Finset.sum_nonneg fun i _ => mul_self_nonneg _
  have hstep : ∀ t, N ≤ t → (δ t ⬝ᵥ δ t) / 2 ≤ q t - q (t + 1) := by
    intro t ht
    have h1 : q (t + 1) = q t - δ t ⬝ᵥ δ t + δ t ⬝ᵥ (E t *ᵥ δ t) := by
      have h2 : (B t)ᵀ * X * B t = X - 1 + E t := (add_sub_cancel (X - 1) _).symm
      have h3 : q (t + 1) = δ t ⬝ᵥ (((B t)ᵀ * X * B t) *ᵥ δ t) := by
        rw [hq]
        simp only [hδ t]
        rw [← mulVec_mulVec, ← mulVec_mulVec, dotProduct_mulVec (δ t), vecMul_transpose]
      rw [h3, h2, add_mulVec, sub_mulVec, one_mulVec, dotProduct_add, dotProduct_sub]
    have h4 := quad_le (E t) (δ t)
    have h5 : (∑ i, ∑ l, |E t i l|) * (δ t ⬝ᵥ δ t) ≤ 1 / 2 * (δ t ⬝ᵥ δ t) := mul_le_mul_of_nonneg_right (hN t ht) (hd0 t)
    linarith
  have hanti : Antitone fun t => q (t + N) := antitone_nat_of_succ_le fun t => by
    have := hstep (t + N) (by omega)
    have := hd0 (t + N)
    rw [show t + 1 + N = t + N + 1 by ring]
    linarith
  have hlim : Tendsto (fun t => q (t + N)) atTop (𝓝 (⨅ t, q (t + N))) :=
    tendsto_atTop_ciInf hanti ⟨0, fun x ⟨t, h⟩ => h ▸ hq0 _⟩
  have hlim' : Tendsto q atTop (𝓝 (⨅ t, q (t + N))) := (tendsto_add_atTop_iff_nat N).1 hlim
  have hdiff : Tendsto (fun t => 2 * (q t - q (t + 1))) atTop (𝓝 0) := by
    have := (hlim'.sub ((tendsto_add_atTop_iff_nat 1).2 hlim')).const_mul 2
    simpa using this
  have hdd : Tendsto (fun t => δ t ⬝ᵥ δ t) atTop (𝓝 0) := by
    refine tendsto_of_tendsto_of_tendsto_of_le_of_le' tendsto_const_nhds hdiff (Eventually.of_forall hd0) ?_
    filter_upwards [eventually_ge_atTop N] with t ht
    linarith [hstep t ht]
  refine tendsto_pi_nhds.2 fun i => ?_
  have hsq : Tendsto (fun t => δ t i ^ 2) atTop (𝓝 0) :=
    tendsto_of_tendsto_of_tendsto_of_le_of_le tendsto_const_nhds hdd (fun t => sq_nonneg _) fun t => by
      show δ t i ^ 2 ≤ ∑ i, δ t i * δ t i
      rw [pow_two]
      exact Finset.single_le_sum (f := fun i => δ t i * δ t i) (fun i _ => mul_self_nonneg (δ t i)) (Finset.mem_univ i)
  have habs := (Real.continuous_sqrt.tendsto 0).comp hsq
  rw [Real.sqrt_zero] at habs
  exact (tendsto_zero_iff_abs_tendsto_zero _).2 (habs.congr fun t => Real.sqrt_sq_eq_abs _)

end Ric

namespace Settle

theorem meanU_sub {j : ℝ} (hj : 0 ≤ j) {s : Fin k → Prop} {θ : Params n (Fin k) r} (hQ : θ.Q.PosSemidef) (hpos : ∀ i, 0 < mS j s θ i)
    {P0 : Matrix n n ℝ} (hP : P0.PosSemidef) (a0 a0' : n → ℝ) (Y : ℕ → Fin k → Unit → ℝ) (t : ℕ) :
    meanU (fun _ => s) j θ a0 P0 Y () (t + 1) - meanU (fun _ => s) j θ a0' P0 Y () (t + 1) =
      (θ.T * (1 - Ric.K (Cons.keep s * θ.Z) (Matrix.diagonal (mS j s θ))
        (Ric.seq θ.T (W j θ) (Cons.keep s * θ.Z) (Matrix.diagonal (mS j s θ)) P0 t) * (Cons.keep s * θ.Z))) *ᵥ
        (meanU (fun _ => s) j θ a0 P0 Y () t - meanU (fun _ => s) j θ a0' P0 Y () t) := by
  rw [meanU, meanU, add_sub_add_right_eq_sub, ← mulVec_sub, ← mulVec_mulVec, covU_seq hj hQ hpos hP, Spec.condMean, Spec.condMean, Ric.K]
  congr 1
  simp only [mulVec_sub, sub_mulVec, one_mulVec, ← mulVec_mulVec]
  abel

end Settle

open Settle

/-- **C217 (the initial mean is forgotten).** In the situation of `C217_settles` run the univariate filter twice on the same data with
the same initial covariance, but with different initial means. The difference of the two predicted states tends to zero. -/
theorem C217_initial_mean {j : ℝ} (hj : 0 ≤ j) (hk : 0 < k) (s : Fin k → Prop) {θ : Params n (Fin k) r}
    (hT : Kalman.Spec.Tracked s θ.T θ.Z) (hE : 0 < j ∨ Kalman.Spec.Excited θ.T (θ.R * θ.Q * θ.Rᵀ))
    (hH : ∀ i, 0 ≤ θ.H i i) (hQ : θ.Q.PosSemidef) (hpos : 0 < j ∨ (∀ i, 0 < θ.H i i) ∧ ∀ i, s i) {P0 : Matrix n n ℝ}
    (hP : P0.PosSemidef) (a0 a0' : n → ℝ) (y : ℕ → Row (Fin k)) (hy : ∀ t i, (y t i).isSome ↔ s i) :
    ∃ out out' : ℕ → UnivGraph n, (∀ N, univGraph j a0 P0 θ ((List.range N).map y) = some (out N)) ∧
      (∀ N, univGraph j a0' P0 θ ((List.range N).map y) = some (out' N)) ∧
      Tendsto (fun t => (out (t + 1)).predictedStates.getD t 0 - (out' (t + 1)).predictedStates.getD t 0) atTop (𝓝 0) := by
  have hp := mS_pos (θ := θ) (fun _ => s) hj hH (hpos.imp id fun h => ⟨h.1, fun _ => h.2⟩) 0
  have hM := More.mS_diag_posDef hp
  choose out h1 h2 using run hj hk hH hQ hpos hP a0 hy
  choose out' h1' h2' using run hj hk hH hQ hpos hP a0' hy
  refine ⟨out, out', h1, h1', ?_⟩
  obtain ⟨L, hL, hfix, -, hall⟩ := Ric.converges (tracked hT) (excited hj hQ hE) (W_psd hj hQ) hM
  have hB := Ric.tendsto_mul (tendsto_const_nhds (x := θ.T)) ((tendsto_const_nhds (x := (1 : Matrix n n ℝ))).sub
    (Ric.tendsto_mul (Ric.K_tendsto (Z := Cons.keep s * θ.Z) hM hL (hall P0 hP)) (tendsto_const_nhds (x := Cons.keep s * θ.Z))))
  refine (Ric.decays (δ := fun t => meanU (fun _ => s) j θ a0 P0 (fun t i (_ : Unit) => (y t i).getD 0) () t -
    meanU (fun _ => s) j θ a0' P0 (fun t i (_ : Unit) => (y t i).getD 0) () t) (Ric.closed_stable (excited hj hQ hE) (W_psd hj hQ) hM hL hfix) hB
    (meanU_sub hj hQ hp hP a0 a0' fun t i _ => (y t i).getD 0)).congr fun t => ?_
  rw [List.getD_eq_getElem?_getD, List.getD_eq_getElem?_getD, (h2 (t + 1) t (by omega)).1, (h2' (t + 1) t (by omega)).1]
  rfl

/-- An AR(1) with coefficient 1/2 seen with noise meets the hypotheses of `C217_settles`, `C217_initial_mean` (with jitter 1/100 and
the series always missing, too) and, with its stationary variance, of `C217_stationary_start`. -/
example : ∃ θ : Params (Fin 1) (Fin 1) (Fin 1), Spec.Stable θ.T ∧ (∀ i, 0 < θ.H i i) ∧ θ.Q.PosSemidef ∧ θ.H.PosDef ∧
    (∀ (t : ℕ) (i : Fin 1), ((fun t _ => some (t : ℝ) : ℕ → Row (Fin 1)) t i).isSome ↔ True) ∧
    (∀ (t : ℕ) (i : Fin 1), ((fun _ _ => none : ℕ → Row (Fin 1)) t i).isSome ↔ False) := by
  refine ⟨⟨![3], ![0], !![1 / 2], !![1], !![1], 1, 1⟩, ?_, fun i => ?_, PosSemidef.one, PosDef.one, by simp, by simp⟩
  · show Spec.Stable !![(1 / 2 : ℝ)]
    rw [C170_stable_iff_eigenvalues]
    intro z v hv h
    have h0 := congrFun h 0
    have hv0 : v 0 ≠ 0 := fun h => hv (funext fun i => by rw [Subsingleton.elim i 0]; exact h)
    simp [mulVec, dotProduct, Matrix.map_apply] at h0
    have : z = 1 / 2 := by
      rcases h0 with h0 | h0
      · rw [← h0]; norm_num
      · exact absurd h0 hv0
    rw [this]; norm_num
  · fin_cases i; simp

namespace Settle

theorem mul11 (a b : ℝ) : (!![a] : Matrix (Fin 1) (Fin 1) ℝ) * !![b] = !![a * b] := by
  ext i l; fin_cases i; fin_cases l; simp

theorem add11 (a b : ℝ) : (!![a] : Matrix (Fin 1) (Fin 1) ℝ) + !![b] = !![a + b] := by
  ext i l; fin_cases i; fin_cases l; simp

theorem sub11 (a b : ℝ) : (!![a] : Matrix (Fin 1) (Fin 1) ℝ) - !![b] = !![a - b] := by
  ext i l; fin_cases i; fin_cases l; simp

theorem tr11 (a : ℝ) : (!![a] : Matrix (Fin 1) (Fin 1) ℝ)ᵀ = !![a] := by
  ext i l; fin_cases i; fin_cases l; rfl

theorem one11 : (1 : Matrix (Fin 1) (Fin 1) ℝ) = !![1] := by
  ext i l; fin_cases i; fin_cases l; rfl

theorem zero11 : (!![0] : Matrix (Fin 1) (Fin 1) ℝ) = 0 := by
  ext i l; fin_cases i; fin_cases l; rfl

/-- One state, one series. -/
theorem step_one (T W Z M P : ℝ) (h : Z * P * Z + M ≠ 0) : Ric.step !![T] !![W] !![Z] !![M] !![P] =
    !![T * (P - P * Z * (Z * P * Z + M)⁻¹ * Z * P) * T + W] := by
  have hi : (!![Z * P * Z + M] : Matrix (Fin 1) (Fin 1) ℝ)⁻¹ = !![(Z * P * Z + M)⁻¹] :=
    inv_eq_right_inv (by rw [mul11, mul_inv_cancel₀ h, one11])
  simp only [Ric.step, Spec.condCov, Spec.obsCov, tr11, mul11, add11, sub11, hi]

theorem keep_one {s : Fin 1 → Prop} (hs : ∀ i, s i) (z : ℝ) : Cons.keep s * !![z] = !![z] := by
  ext i l
  fin_cases i; fin_cases l
  simp [Cons.keep, hs]

end Settle

/-- **C217 (the shocks must reach what does not die out).** The state doubles every date, has no shocks, and is seen with noise. It can
be tracked, nothing is missing and there is no jitter. Yet the reported predicted covariances do not settle at one place:
they stay at 0 when started there, and stay at 3 when started there. -/
theorem C217_two_limits : let θ : Params (Fin 1) (Fin 1) (Fin 1) := ⟨0, 0, !![2], !![1], 1, !![1], !![0]⟩
    Kalman.Spec.Tracked (fun _ => True) θ.T θ.Z ∧ ∀ (a0 : Fin 1 → ℝ) (y : ℕ → Fin 1 → ℝ) (N : ℕ), ∀ P ∈ ({0, 3} : Set ℝ),
      ∃ out, univGraph 0 a0 !![P] θ ((List.range N).map fun t i => some (y t i)) = some out ∧
        ∀ t, t < N → out.predictedCovs[t]? = some !![P] := by
  intro θ
  refine ⟨⟨!![1], by simp, ?_⟩, fun a0 y N P hP => ?_⟩
  · have : θ.T * (1 - !![1] * θ.Z) = 0 := by
      rw [show θ.T = !![(2 : ℝ)] from rfl, show θ.Z = !![(1 : ℝ)] from rfl, one11]
      simp only [mul11, sub11]
      rw [← zero11]
      norm_num
    rw [this]
    refine tendsto_const_nhds.congr' ?_
    filter_upwards [eventually_ge_atTop 1] with t ht
    rw [zero_pow (by omega)]
  · have hp : 0 ≤ P := by rcases hP with rfl | rfl <;> norm_num
    have hPp : (!![P] : Matrix (Fin 1) (Fin 1) ℝ).PosSemidef := by
      have := (PosSemidef.one (n := Fin 1) (R := ℝ)).smul hp
      convert this using 1
      ext i l
      fin_cases i; fin_cases l
      simp
    have hQ : θ.Q.PosSemidef := by
      have : θ.Q = 0 := by
        ext i l
        fin_cases i; fin_cases l
        rfl
      rw [this]; exact PosSemidef.zero
    obtain ⟨out, h1, h2⟩ := run (s := fun _ => True) (θ := θ) le_rfl one_pos (fun i => by fin_cases i; simp [θ]) hQ
      (Or.inr ⟨fun i => by fin_cases i; simp [θ], fun _ => trivial⟩) hPp a0 (y := fun t i => some (y t i)) (by simp) N
    refine ⟨out, h1, fun t ht => ?_⟩
    rw [(h2 t ht).2.1]
    congr 1
    clear ht
    induction t with
    | zero => rfl
    | succ t ih =>
      rw [Ric.seq, ih]
      have hm : Matrix.diagonal (mS 0 (fun _ => True) θ) = !![(1 : ℝ)] := by
        ext i l
        fin_cases i; fin_cases l
        simp [mS, θ]
      have hw : W 0 θ = !![(0 : ℝ)] := by
        ext i l
        fin_cases i; fin_cases l
        simp [W, θ]
      rw [hm, hw, show θ.Z = !![(1 : ℝ)] from rfl, keep_one (fun _ => trivial), show θ.T = !![(2 : ℝ)] from rfl, step_one]
      · ext i l
        fin_cases i; fin_cases l
        rcases hP with rfl | rfl <;> norm_num
      · rcases hP with rfl | rfl <;> norm_num

/-- **C217 (a random walk seen with noise).** For every shock variance `q` and measurement variance `h` the reported predicted variance of
a random walk seen with noise tends to `(q + √(q² + 4qh)) / 2`, from every start and on all data. -/
theorem C217_local_level {q h : ℝ} (hq : 0 < q) (hh : 0 < h) (a0 : Fin 1 → ℝ) {P0 : Matrix (Fin 1) (Fin 1) ℝ} (hP : P0.PosSemidef)
    (y : ℕ → Fin 1 → ℝ) : let θ : Params (Fin 1) (Fin 1) (Fin 1) := ⟨0, 0, !![1], !![1], 1, !![h], !![q]⟩
    ∃ out : ℕ → UnivGraph (Fin 1), (∀ N, univGraph 0 a0 P0 θ ((List.range N).map fun t i => some (y t i)) = some (out N)) ∧
      Tendsto (fun t => (out (t + 1)).predictedCovs.getD t 0) atTop (𝓝 !![(q + Real.sqrt (q ^ 2 + 4 * q * h)) / 2]) := by
  intro θ
  have psd : ∀ x : ℝ, 0 ≤ x → (!![x] : Matrix (Fin 1) (Fin 1) ℝ).PosSemidef := by
    intro x hx
    have := (PosSemidef.one (n := Fin 1) (R := ℝ)).smul hx
    convert this using 1
    ext i l
    fin_cases i; fin_cases l
    simp
  have hQ : θ.Q.PosSemidef := psd q hq.le
  have hH : ∀ i, 0 < θ.H i i := fun i => by fin_cases i; exact hh
  have hpos : (0 : ℝ) < 0 ∨ (∀ i, 0 < θ.H i i) ∧ ∀ i : Fin 1, (fun _ => True) i := Or.inr ⟨hH, fun _ => trivial⟩
  have hD : Kalman.Spec.Tracked (fun _ => True) θ.T θ.Z := by
    refine ⟨!![1], by simp, ?_⟩
    have : θ.T * (1 - !![1] * θ.Z) = 0 := by
      rw [show θ.T = !![(1 : ℝ)] from rfl, show θ.Z = !![(1 : ℝ)] from rfl, one11]
      simp only [mul11, sub11]
      rw [← zero11]
      norm_num
    rw [this]
    refine tendsto_const_nhds.congr' ?_
    filter_upwards [eventually_ge_atTop 1] with t ht
    rw [zero_pow (by omega)]
  have hRQ : θ.R * θ.Q * θ.Rᵀ = !![q] := by simp [θ]
  have hE : Kalman.Spec.Excited θ.T (θ.R * θ.Q * θ.Rᵀ) := by
    intro z v hv _ _ h0
    rw [hRQ] at h0
    refine hv (funext fun i => ?_)
    have := congrFun h0 0
    simp [mulVec, dotProduct, hq.ne'] at this
    rw [Subsingleton.elim i 0, this]; rfl
  obtain ⟨L, F, hL, hall⟩ := C217_settles le_rfl one_pos (fun _ => True) hD (Or.inr hE) (fun i => (hH i).le) hQ hpos
  obtain ⟨out, h1, h2, -, -⟩ := hall a0 P0 hP (fun t i => some (y t i)) (by simp)
  refine ⟨out, h1, ?_⟩
  set s := Real.sqrt (q ^ 2 + 4 * q * h)
  have hs : s ^ 2 = q ^ 2 + 4 * q * h := Real.sq_sqrt (by positivity)
  have hs0 : 0 ≤ s := Real.sqrt_nonneg _
  have hx : 0 < (q + s) / 2 := by positivity
  obtain ⟨out', k1, -, -, k2⟩ := hall a0 !![(q + s) / 2] (psd _ hx.le) (fun t i => some (y t i)) (by simp)
  obtain ⟨o, l1, l2⟩ := run (s := fun _ => True) (θ := θ) le_rfl one_pos (fun i => (hH i).le) hQ hpos (psd _ hx.le) a0
    (y := fun t i => some (y t i)) (by simp) 2
  rw [k1 2, Option.some.injEq] at l1
  have hm : Matrix.diagonal (mS 0 (fun _ => True) θ) = !![h] := by
    ext i l
    fin_cases i; fin_cases l
    simp [mS, θ]
  have hw : W 0 θ = !![q] := by rw [W, hRQ, zero_smul, add_zero]
  have hfix : Ric.step θ.T (W 0 θ) (Cons.keep (fun _ => True) * θ.Z) (Matrix.diagonal (mS 0 (fun _ => True) θ)) !![(q + s) / 2] =
      !![(q + s) / 2] := by
    rw [hm, hw, show θ.Z = !![(1 : ℝ)] from rfl, keep_one (fun _ => trivial), show θ.T = !![(1 : ℝ)] from rfl,
      step_one _ _ _ _ _ (by positivity)]
    congr 3
    have hne : 1 * ((q + s) / 2) * 1 + h ≠ 0 := by positivity
    field_simp
    nlinarith
  have := k2.1 (by rw [l1, (l2 1 (by norm_num)).2.1]; exact congrArg some hfix)
  rw [this]
  exact h2

/-- A level and a slope, both with shocks, the level seen with noise: not stable, but it meets the hypotheses of `C217_settles`,
`C217_initial_mean` and `C217_standard`. -/
example : ∃ θ : Params (Fin 2) (Fin 1) (Fin 2), θ.T = !![1, 1; 0, 1] ∧ ¬ Spec.Stable θ.T ∧ Kalman.Spec.Tracked (fun _ => True) θ.T θ.Z ∧
    Kalman.Spec.Excited θ.T (θ.R * θ.Q * θ.Rᵀ) ∧ (∀ i, 0 < θ.H i i) ∧ θ.Q.PosSemidef ∧ θ.H.PosDef := by
  refine ⟨⟨0, 0, !![1, 1; 0, 1], !![1, 0], 1, 1, 1⟩, rfl, fun h => ?_, ⟨!![1; 1], by simp, ?_⟩, fun z v hv _ _ h => ?_, by simp,
    PosSemidef.one, PosDef.one⟩
  · rw [C170_stable_iff_eigenvalues] at h
    have := h 1 ![1, 0] (fun h => by simpa using congrFun h 0) (by ext i; fin_cases i <;> simp [mulVec, dotProduct, Fin.sum_univ_two])
    simp at this
  · have h2 : ((!![1, 1; 0, 1] : Matrix (Fin 2) (Fin 2) ℝ) * (1 - (!![1; 1] : Matrix (Fin 2) (Fin 1) ℝ) * (!![1, 0] : Matrix (Fin 1) (Fin 2) ℝ))) ^ 2 = 0 := by
      have h3 : (!![1; 1] : Matrix (Fin 2) (Fin 1) ℝ) * (!![1, 0] : Matrix (Fin 1) (Fin 2) ℝ) = !![1, 0; 1, 0] := by
        ext i l
        fin_cases i <;> fin_cases l <;> simp [Matrix.mul_apply]
      have h4 : (1 : Matrix (Fin 2) (Fin 2) ℝ) - !![1, 0; 1, 0] = !![0, 0; -1, 1] := by
        ext i l
        fin_cases i <;> fin_cases l <;> simp
      rw [h3, h4, pow_two]
      ext i l
      fin_cases i <;> fin_cases l <;> simp
    refine tendsto_const_nhds.congr' ?_
    filter_upwards [eventually_ge_atTop 2] with t ht
    obtain ⟨d, rfl⟩ := Nat.exists_eq_add_of_le ht
    rw [pow_add, h2, Matrix.zero_mul]
  · simp at h
    exact hv h

end Verif.Kalman
