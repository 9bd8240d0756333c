import Verif.Sarima.Likelihood
import Verif.Sarima.Hilbert
import Verif.Kalman.GaussianExists
import Verif.Kalman.GaussianLimit

/-!
# C193: the SARIMA likelihood is the density of the stationary solution of the ARMA equation

Specification: the difference equation with independent normal shocks, on a probability space.  Nothing in it mentions state spaces.
-/

set_option autoImplicit false

open Finset Polynomial Matrix MeasureTheory ProbabilityTheory Filter Topology

namespace Verif.Sarima

open Verif.Stationary Verif.Kalman

variable {Ω : Type*} [MeasurableSpace Ω] {μ : Measure Ω} [IsProbabilityMeasure μ]

/-! ### Specification -/

/-- A two-sided series with bounded second moments that satisfies `φ(B)Φ(B^S) y_t = θ(B)Θ(B^S) ε_t` at all dates, for independent normal
shocks of standard deviation `σ`; and measurement errors of standard deviation `τ`, independent of the shocks and of one another (zero
without measurement error). -/
structure Spec.SarmaProcess (μ : Measure Ω) (o : Order) (θ : Params) (σ : ℝ) (τ : Option ℝ) (y ε : ℤ → Ω → ℝ) (u : ℕ → Ω → ℝ) : Prop where
  indep : iIndepFun (fun q : ℤ ⊕ ℕ => q.elim ε u) μ
  shock : ∀ t, HasLaw (ε t) (gaussianReal 0 (σ ^ 2).toNNReal) μ
  noise : ∀ t, HasLaw (u t) (gaussianReal 0 ((τ.map (· ^ 2)).getD 0).toNNReal) μ
  square : ∀ t, MemLp (y t) 2 μ
  bounded : ∃ C, ∀ t, ∫ ω, y t ω ^ 2 ∂μ ≤ C
  equation : ∀ t, ∀ᵐ ω ∂μ, ((Spec.arPoly o θ * Spec.sarPoly o θ).sum fun i a => a * y (t - i) ω) =
    (Spec.maPoly o θ * Spec.smaPoly o θ).sum fun i b => b * ε (t - i) ω

/-- The log-likelihood reported for a complete sample of `N` dates, with the stationary initialisation and no jitter. -/
noncomputable def Spec.sarmaLoglik (s : Sys) (σ : ℝ) (τ : Option ℝ) (fill : ℝ) {N : ℕ} (x : Fin N → ℝ) : ℝ :=
  let M := kparams s σ τ
  let init := stationaryInit M.c M.T M.R M.Q
  (Kalman.buildGraph 0 fill init.1 init.2
    ((List.finRange N).map fun t => ((fun _ => some (x t) : Kalman.Row (Fin 1)), M))).loglike.sum

/-! ### Lemmas -/

/-- The inverse of the autoregressive polynomial has coefficients that tend to zero. -/
theorem inverse_tendsto (o : Order) (θ : Params) (hS : Spec.Proper o) (hv : verifyOrder o = true)
    (hr : Spec.RootsOutside o θ) : ∃ π : PowerSeries ℝ, ((Spec.arPoly o θ * Spec.sarPoly o θ : ℝ[X]) : PowerSeries ℝ) * π = 1 ∧
      Tendsto (fun m => PowerSeries.coeff m π) atTop (𝓝 0) := by
  let o' : Order := { o with d := 0, D := 0, q := 0, Q := 0 }
  have hS' : Spec.Proper o' := fun h => ⟨(hS h).1, rfl, rfl⟩
  have hv' : verifyOrder o' = true := (verify_iff o').2 ⟨((verify_iff o).1 hv).1, fun h => absurd h (lt_irrefl 0)⟩
  obtain ⟨ψ, hψ, -⟩ := C186_psi_unique o' θ hS'
  have hma : (Spec.maPoly o' θ * Spec.smaPoly o' θ : ℝ[X]) = 1 := by simp [Spec.maPoly, Spec.smaPoly, o']
  rw [hma] at hψ
  obtain ⟨γ, hγ, -, -⟩ := C186_exact_likelihood o' θ hS' hv' rfl rfl hr (fast o' θ) (Or.inl rfl) 1 one_ne_zero none ψ (by rw [hma]; exact hψ)
  refine ⟨PowerSeries.mk ψ, by rw [Polynomial.coe_one] at hψ; exact hψ, ?_⟩
  have h1 := (hγ 0).summable.tendsto_atTop_zero
  simp only [one_pow, one_mul, add_zero] at h1
  simp only [PowerSeries.coeff_mk]
  have h2 : Tendsto (fun m => Real.sqrt (ψ m * ψ m)) atTop (𝓝 0) := by
    have := (Real.continuous_sqrt.tendsto 0).comp h1
    simpa [Function.comp_def] using this
  simp only [Real.sqrt_mul_self_eq_abs] at h2
  exact (tendsto_zero_iff_abs_tendsto_zero _).2 h2

section

variable {o : Order} {θ : Params} {σ : ℝ} {τ : Option ℝ} {y ε : ℤ → Ω → ℝ} {u : ℕ → Ω → ℝ}

/-- The sources form a Gaussian process. -/
theorem sources_gaussian (h : Spec.SarmaProcess μ o θ σ τ y ε u) : IsGaussianProcess (fun q : ℤ ⊕ ℕ => q.elim ε u) μ := by
  have hl : ∀ q : ℤ ⊕ ℕ, HasGaussianLaw (q.elim ε u) μ := by
    rintro (t | t)
    · exact (h.shock t).hasGaussianLaw
    · exact (h.noise t).hasGaussianLaw
  exact ⟨fun I => iIndepFun.hasGaussianLaw (X := fun i : I => i.1.elim ε u) (fun i => hl i)
    (h.indep.precomp Subtype.val_injective)⟩

theorem memLp_shock (h : Spec.SarmaProcess μ o θ σ τ y ε u) (t : ℤ) : MemLp (ε t) 2 μ := (h.shock t).hasGaussianLaw.memLp_two

theorem memLp_noise (h : Spec.SarmaProcess μ o θ σ τ y ε u) (t : ℕ) : MemLp (u t) 2 μ := (h.noise t).hasGaussianLaw.memLp_two

theorem mean_shock (h : Spec.SarmaProcess μ o θ σ τ y ε u) (t : ℤ) : ∫ ω, ε t ω ∂μ = 0 := by rw [(h.shock t).integral_eq]; simp

theorem mean_noise (h : Spec.SarmaProcess μ o θ σ τ y ε u) (t : ℕ) : ∫ ω, u t ω ∂μ = 0 := by rw [(h.noise t).integral_eq]; simp

theorem noise_nonneg (τ : Option ℝ) : 0 ≤ (τ.map (· ^ 2)).getD 0 := by
  cases τ with
  | none => simp
  | some x => simpa using sq_nonneg x

theorem shock_mul (h : Spec.SarmaProcess μ o θ σ τ y ε u) (s t : ℤ) : ∫ ω, ε s ω * ε t ω ∂μ = if s = t then σ ^ 2 else 0 := by
  have hc := covariance_eq_sub (memLp_shock h s) (memLp_shock h t)
  rw [mean_shock h, zero_mul, sub_zero] at hc
  rw [show (∫ ω, ε s ω * ε t ω ∂μ) = ∫ ω, (ε s * ε t) ω ∂μ from rfl, ← hc]
  split
  · rename_i e
    rw [e, covariance_self (memLp_shock h t).aemeasurable, (h.shock t).variance_eq]
    simp [sq_nonneg]
  · rename_i e
    exact (h.indep.indepFun (i := Sum.inl s) (j := Sum.inl t) (by simpa using e)).covariance_eq_zero (memLp_shock h s) (memLp_shock h t)

theorem noise_mul (h : Spec.SarmaProcess μ o θ σ τ y ε u) (s t : ℕ) :
    ∫ ω, u s ω * u t ω ∂μ = if s = t then (τ.map (· ^ 2)).getD 0 else 0 := by
  have hc := covariance_eq_sub (memLp_noise h s) (memLp_noise h t)
  rw [mean_noise h, zero_mul, sub_zero] at hc
  rw [show (∫ ω, u s ω * u t ω ∂μ) = ∫ ω, (u s * u t) ω ∂μ from rfl, ← hc]
  split
  · rename_i e
    rw [e, covariance_self (memLp_noise h t).aemeasurable, (h.noise t).variance_eq]
    simp [noise_nonneg]
  · rename_i e
    exact (h.indep.indepFun (i := Sum.inr s) (j := Sum.inr t) (by simpa using e)).covariance_eq_zero (memLp_noise h s) (memLp_noise h t)

theorem cross_mul (h : Spec.SarmaProcess μ o θ σ τ y ε u) (s : ℤ) (t : ℕ) : ∫ ω, ε s ω * u t ω ∂μ = 0 := by
  have hc := covariance_eq_sub (memLp_shock h s) (memLp_noise h t)
  rw [mean_shock h, zero_mul, sub_zero] at hc
  rw [show (∫ ω, ε s ω * u t ω ∂μ) = ∫ ω, (ε s * u t) ω ∂μ from rfl, ← hc]
  exact (h.indep.indepFun (i := Sum.inl s) (j := Sum.inr t) (by simp)).covariance_eq_zero (memLp_shock h s) (memLp_noise h t)

/-- A lag polynomial applied to square-integrable variables. -/
theorem lag_toLp (P : ℝ[X]) {f : ℤ → Ω → ℝ} (hf : ∀ t, MemLp (f t) 2 μ) (t : ℤ) :
    ((Hilbert.op P (fun t => (hf t).toLp (f t)) t : Lp ℝ 2 μ) : Ω → ℝ) =ᵐ[μ] fun ω => P.sum fun i a => a * f (t - i) ω := by
  rw [Hilbert.op_sum]
  unfold Polynomial.sum
  have h2 : ∀ᵐ ω ∂μ, ∀ i : ℕ, (P.coeff i • (hf (t - i)).toLp (f (t - i)) : Lp ℝ 2 μ) ω = P.coeff i * f (t - i) ω := by
    rw [ae_all_iff]; intro i
    filter_upwards [Lp.coeFn_smul (P.coeff i) ((hf (t - i)).toLp (f (t - i))), (hf (t - i)).coeFn_toLp] with ω h h'
    rw [h, Pi.smul_apply, h']; rfl
  filter_upwards [Gauss.lp_sum P.support (fun i => P.coeff i • (hf (t - i)).toLp (f (t - i))), h2] with ω h1 h2
  rw [h1, Finset.sum_apply]
  exact Finset.sum_congr rfl fun i _ => h2 i

/-- The moving-average form converges to the series in mean square. -/
theorem moving_average (h : Spec.SarmaProcess μ o θ σ τ y ε u) (hS : Spec.Proper o) (hv : verifyOrder o = true)
    (hr : Spec.RootsOutside o θ) {ψ : ℕ → ℝ}
    (hψ : ((Spec.arPoly o θ * Spec.sarPoly o θ : ℝ[X]) : PowerSeries ℝ) * PowerSeries.mk ψ =
      ((Spec.maPoly o θ * Spec.smaPoly o θ : ℝ[X]) : PowerSeries ℝ)) (t : ℤ) :
    Tendsto (fun M => ∑ m ∈ range M, PowerSeries.coeff m (PowerSeries.mk ψ) • (memLp_shock h (t - m)).toLp (ε (t - m))) atTop
      (𝓝 ((h.square t).toLp (y t))) := by
  obtain ⟨π, hπ, h0⟩ := inverse_tendsto o θ hS hv hr
  obtain ⟨C, hC⟩ := h.bounded
  refine Hilbert.solution (y := fun t => (h.square t).toLp (y t)) (ε := fun t => (memLp_shock h t).toLp (ε t)) hπ hψ h0
    (C := Real.sqrt C) (D := Real.sqrt (σ ^ 2)) (fun t => ?_) (fun t => ?_) ?_ t
  · refine Real.le_sqrt_of_sq_le ?_
    rw [← real_inner_self_eq_norm_sq, Gauss.inner_toLp]
    simpa only [sq] using hC t
  · refine Real.le_sqrt_of_sq_le ?_
    rw [← real_inner_self_eq_norm_sq, Gauss.inner_toLp, shock_mul h, if_pos rfl]
  · funext t
    refine Lp.ext ?_
    refine (lag_toLp _ h.square t).trans (EventuallyEq.trans ?_ (lag_toLp _ (memLp_shock h) t).symm)
    exact h.equation t

end

/-! ### Theorems -/

/-- **C193.** Let the data be the stationary solution of the (seasonal) ARMA equation with independent normal shocks, observed exactly or
with independent normal errors.  Then for either form of the state space, every sample length and every fill value, the exponential of
the log-likelihood the filter reports is the Lebesgue density of the data. -/
theorem C193_sarma_density (o : Order) (θ : Params) (hS : Spec.Proper o) (hv : verifyOrder o = true) (hd : o.d = 0) (hD : o.D = 0)
    (hr : Spec.RootsOutside o θ) (s : Sys) (hs : s = fast o θ ∨ s = interpretable o θ) {σ : ℝ} (hσ : σ ≠ 0) {τ : Option ℝ}
    {y ε : ℤ → Ω → ℝ} {u : ℕ → Ω → ℝ} (h : Spec.SarmaProcess μ o θ σ τ y ε u) (fill : ℝ) (N : ℕ) :
    μ.map (fun ω (a : Fin N) => y a ω + u a ω) = (volume : Measure (Fin N → ℝ)).withDensity fun x =>
      ENNReal.ofReal (Real.exp (Spec.sarmaLoglik s σ τ fill x)) := by
  obtain ⟨ψ, hψ, -⟩ := C186_psi_unique o θ hS
  have hψ : ((Spec.arPoly o θ * Spec.sarPoly o θ : ℝ[X]) : PowerSeries ℝ) * PowerSeries.mk ψ =
      ((Spec.maPoly o θ * Spec.smaPoly o θ : ℝ[X]) : PowerSeries ℝ) := hψ
  obtain ⟨γ, hγ, hpd, hll⟩ := C186_exact_likelihood o θ hS hv hd hD hr s hs σ hσ τ ψ hψ
  let yL : ℤ → Lp ℝ 2 μ := fun t => (h.square t).toLp (y t)
  let eL : ℤ → Lp ℝ 2 μ := fun t => (memLp_shock h t).toLp (ε t)
  let uL : ℕ → Lp ℝ 2 μ := fun t => (memLp_noise h t).toLp (u t)
  have hMA : ∀ t, Tendsto (fun M => ∑ m ∈ range M, PowerSeries.coeff m (PowerSeries.mk ψ) • eL (t - m)) atTop (𝓝 (yL t)) :=
    fun t => moving_average h hS hv hr hψ t
  have hee : ∀ s t, inner ℝ (eL s) (eL t) = if s = t then σ ^ 2 else 0 := fun s t => by
    rw [Gauss.inner_toLp]; exact shock_mul h s t
  have hyu : ∀ (s : ℤ) (t : ℕ), inner ℝ (yL s) (uL t) = 0 := by
    intro s t
    have h1 := (hMA s).inner (𝕜 := ℝ) (tendsto_const_nhds (x := uL t))
    refine tendsto_nhds_unique h1 (tendsto_const_nhds.congr fun M => ?_)
    rw [sum_inner]
    symm
    refine sum_eq_zero fun m _ => ?_
    rw [inner_smul_left, Gauss.inner_toLp, cross_mul h, mul_zero]
  have hyy : ∀ s t : ℕ, inner ℝ (yL s) (yL t) = γ (s - t + (t - s)) := by
    have key : ∀ (s k : ℕ), inner ℝ (yL s) (yL ((s : ℤ) + k)) = γ k := fun s k =>
      Hilbert.inner_solution hee hMA s k (by simpa only [PowerSeries.coeff_mk] using hγ k)
    intro s t
    rcases le_total s t with hst | hst
    · have := key s (t - s)
      rw [show ((s : ℤ) + ((t - s : ℕ) : ℤ)) = t by omega] at this
      rw [this]; congr 1; omega
    · have := key t (s - t)
      rw [show ((t : ℤ) + ((s - t : ℕ) : ℤ)) = s by omega] at this
      rw [real_inner_comm, this]; congr 1; omega
  have hmeany : ∀ t, inner ℝ (Gauss.lpOne μ) (yL t) = 0 := by
    intro t
    have h1 := (tendsto_const_nhds (x := Gauss.lpOne μ)).inner (𝕜 := ℝ) (hMA t)
    refine tendsto_nhds_unique h1 (tendsto_const_nhds.congr fun M => ?_)
    rw [inner_sum]
    symm
    refine sum_eq_zero fun m _ => ?_
    rw [inner_smul_right, Gauss.inner_lpOne, integral_congr_ae (memLp_shock h (t - m)).coeFn_toLp, mean_shock h, mul_zero]
  have hmeanu : ∀ t, inner ℝ (Gauss.lpOne μ) (uL t) = 0 := fun t => by
    rw [Gauss.inner_lpOne, integral_congr_ae (memLp_noise h t).coeFn_toLp, mean_noise h]
  have hxL : ∀ a : Fin N, ((yL a + uL a : Lp ℝ 2 μ) : Ω → ℝ) =ᵐ[μ] fun ω => y a ω + u a ω := by
    intro a
    filter_upwards [Lp.coeFn_add (yL a) (uL a), (h.square a).coeFn_toLp, (memLp_noise h a).coeFn_toLp] with ω h1 h2 h3
    rw [h1, Pi.add_apply]
    simp only [yL, uL, h2, h3]
  have hG : IsGaussianProcess (fun (a : Fin N) ω => y a ω + u a ω) μ := by
    refine IsGaussianProcess.congr (Gauss.limit (x := fun M (a : Fin N) => ∑ m ∈ range M, PowerSeries.coeff m (PowerSeries.mk ψ) • eL (a - m) + uL a)
      (x' := fun a : Fin N => yL a + uL a) (fun a => (hMA a).add tendsto_const_nhds) fun M => ?_) hxL
    have hF : IsGaussianProcess (fun (a : Fin N) ω => ∑ m ∈ range M, ψ m * ε (a - m) ω + u a ω) μ := by
      refine Gauss.of_affine (sources_gaussian h) _ fun a => ?_
      have e : (fun ω => ∑ m ∈ range M, ψ m * ε (a - m) ω + u a ω) =
          ∑ m ∈ range M, ψ m • (Sum.inl ((a : ℤ) - m) : ℤ ⊕ ℕ).elim ε u + (Sum.inr (a : ℕ) : ℤ ⊕ ℕ).elim ε u := by
        funext ω; simp
      rw [e]
      exact Submodule.add_mem _ (Submodule.sum_mem _ fun m _ => Submodule.smul_mem _ _
        (Gauss.source_mem (fun q : ℤ ⊕ ℕ => q.elim ε u) _)) (Gauss.source_mem (fun q : ℤ ⊕ ℕ => q.elim ε u) _)
    refine hF.congr fun a => ?_
    have h2 : ∀ᵐ ω ∂μ, ∀ m : ℕ, (PowerSeries.coeff m (PowerSeries.mk ψ) • eL (a - m) : Lp ℝ 2 μ) ω = ψ m * ε (a - m) ω := by
      rw [ae_all_iff]; intro m
      filter_upwards [Lp.coeFn_smul (PowerSeries.coeff m (PowerSeries.mk ψ)) (eL (a - m)), (memLp_shock h (a - m)).coeFn_toLp] with ω h1 h2
      rw [h1, Pi.smul_apply]
      simp only [eL, h2, PowerSeries.coeff_mk, smul_eq_mul]
    filter_upwards [Gauss.lp_sum (range M) (fun m => PowerSeries.coeff m (PowerSeries.mk ψ) • eL (a - m)), h2,
      Lp.coeFn_add (∑ m ∈ range M, PowerSeries.coeff m (PowerSeries.mk ψ) • eL (a - m)) (uL a), (memLp_noise h a).coeFn_toLp] with ω h1 h2 h3 h4
    rw [h3, Pi.add_apply, h1, Finset.sum_apply]
    simp only [uL, h4, h2]
  have hmem : ∀ a : Fin N, MemLp (fun ω => y a ω + u a ω) 2 μ := fun a => (h.square a).add (memLp_noise h a)
  have hmean : ∀ a : Fin N, ∫ ω, (y a ω + u a ω) ∂μ = 0 := by
    intro a
    rw [← integral_congr_ae (hxL a), ← Gauss.inner_lpOne, inner_add_right, hmeany, hmeanu, add_zero]
  have hcov : ∀ a b : Fin N, cov[fun ω => y a ω + u a ω, fun ω => y b ω + u b ω; μ] =
      (Matrix.of fun a b : Fin N => γ ((a : ℕ) - b + (b - a)) + if a = b then (τ.map (· ^ 2)).getD 0 else 0) a b := by
    intro a b
    rw [covariance_eq_sub (hmem a) (hmem b), hmean, zero_mul, sub_zero]
    have e : ∫ ω, ((fun ω => y a ω + u a ω) * fun ω => y b ω + u b ω) ω ∂μ = inner ℝ (yL a + uL a) (yL b + uL b) := by
      rw [Gauss.inner_eq]
      refine integral_congr_ae ?_
      filter_upwards [hxL a, hxL b] with ω h1 h2
      rw [h1, h2]; rfl
    rw [e, inner_add_left, inner_add_right, inner_add_right, hyu, real_inner_comm (yL b) (uL a), hyu, hyy, Gauss.inner_toLp, noise_mul h]
    simp [Matrix.of_apply, Fin.ext_iff]
  have hlaw := Gauss.law hG 0 _ hmean hcov
  have hden := Gauss.density (0 : Fin N → ℝ) (hpd N)
  rw [← hlaw, AEMeasurable.map_map_of_aemeasurable (by fun_prop) (Gauss.vector hG).aemeasurable] at hden
  refine (show μ.map (fun ω (a : Fin N) => y a ω + u a ω) = _ from hden).trans (withDensity_congr_ae ?_)
  filter_upwards [Gauss.fill_volume fill] with x hx
  have hll' := hll fill N (fun t => if ht : t < N then x ⟨t, ht⟩ else fill + 1) (fun t => by
    show (if ht : t < N then x ⟨t, ht⟩ else fill + 1) ≠ fill
    split
    · exact hx _
    · simp)
  have hlist : ((List.range N).map fun t =>
      ((fun _ => some ((fun t => if ht : t < N then x ⟨t, ht⟩ else fill + 1) t) : Kalman.Row (Fin 1)), kparams s σ τ)) =
      (List.finRange N).map fun t => ((fun _ => some (x t) : Kalman.Row (Fin 1)), kparams s σ τ) := by
    apply List.ext_getElem
    · simp
    · intro i h1 h2
      have hi : i < N := by simpa using h1
      simp [hi]
  simp only at hll'
  rw [hlist] at hll'
  rw [Spec.sarmaLoglik, hll']
  congr 3
  funext a
  simp

/-- **C193 (such processes exist).** For every order and all parameters with autoregressive roots outside the unit circle there is a
probability space with a process as in the specification. -/
theorem C193_exists (o : Order) (θ : Params) (hS : Spec.Proper o) (hv : verifyOrder o = true) (hr : Spec.RootsOutside o θ)
    (σ : ℝ) (τ : Option ℝ) : ∃ (Ω : Type) (_ : MeasurableSpace Ω) (μ : Measure Ω) (_ : IsProbabilityMeasure μ) (y ε : ℤ → Ω → ℝ)
      (u : ℕ → Ω → ℝ), Spec.SarmaProcess μ o θ σ τ y ε u := by
  obtain ⟨Ω, mΩ, μ, Z, hm, hlaw, hind, hp⟩ := exists_iid (ℤ ⊕ ℕ) (gaussianReal 0 1)
  obtain ⟨ψ, hψ, -⟩ := C186_psi_unique o θ hS
  have hψ : ((Spec.arPoly o θ * Spec.sarPoly o θ : ℝ[X]) : PowerSeries ℝ) * PowerSeries.mk ψ =
      ((Spec.maPoly o θ * Spec.smaPoly o θ : ℝ[X]) : PowerSeries ℝ) := hψ
  let o' : Order := { o with d := 0, D := 0 }
  have hS' : Spec.Proper o' := fun h => ⟨(hS h).1, rfl, (hS h).2.2⟩
  have hv' : verifyOrder o' = true := hv
  obtain ⟨γ, hγ, -, -⟩ := C186_exact_likelihood o' θ hS' hv' rfl rfl hr (fast o' θ) (Or.inl rfl) 1 one_ne_zero none ψ hψ
  have hsum : Summable fun m => ψ m ^ 2 := by
    refine (hγ 0).summable.congr fun m => ?_
    simp [sq]
  have h0 : Tendsto (fun m => PowerSeries.coeff m (PowerSeries.mk ψ)) atTop (𝓝 0) := by
    simp only [PowerSeries.coeff_mk]
    have h2 : Tendsto (fun m => Real.sqrt (ψ m ^ 2)) atTop (𝓝 0) := by
      have := (Real.continuous_sqrt.tendsto 0).comp hsum.tendsto_atTop_zero
      simpa [Function.comp_def] using this
    simp only [Real.sqrt_sq_eq_abs] at h2
    exact (tendsto_zero_iff_abs_tendsto_zero _).2 h2
  have hmem : ∀ q, MemLp (Z q) 2 μ := fun q => (hlaw q).hasGaussianLaw.memLp_two
  have hZm : ∀ q, ∫ ω, Z q ω ∂μ = 0 := fun q => by rw [(hlaw q).integral_eq]; simp
  have hZZ : ∀ q q', ∫ ω, Z q ω * Z q' ω ∂μ = if q = q' then 1 else 0 := by
    intro q q'
    have hc := covariance_eq_sub (hmem q) (hmem q')
    rw [hZm, zero_mul, sub_zero] at hc
    rw [show (∫ ω, Z q ω * Z q' ω ∂μ) = ∫ ω, (Z q * Z q') ω ∂μ from rfl, ← hc]
    split
    · rename_i e
      rw [e, covariance_self (hmem q').aemeasurable, (hlaw q').variance_eq]; simp
    · rename_i e
      exact (hind.indepFun e).covariance_eq_zero (hmem q) (hmem q')
  let zL : ℤ → Lp ℝ 2 μ := fun t => (hmem (Sum.inl t)).toLp (Z (Sum.inl t))
  have hzz : ∀ s t, inner ℝ (zL s) (zL t) = if s = t then 1 else 0 := fun s t => by
    rw [Gauss.inner_toLp, hZZ]; simp
  let eL : ℤ → Lp ℝ 2 μ := fun t => σ • zL t
  have hee : ∀ s t, inner ℝ (eL s) (eL t) = if s = t then σ ^ 2 else 0 := fun s t => by
    rw [inner_smul_left, inner_smul_right, hzz]
    split <;> simp [sq]
  have hconv : ∀ t : ℤ, ∃ x : Lp ℝ 2 μ, Tendsto (fun M => ∑ m ∈ range M, PowerSeries.coeff m (PowerSeries.mk ψ) • eL (t - m)) atTop (𝓝 x) := by
    intro t
    have hon : Orthonormal ℝ fun m : ℕ => zL (t - m) := by
      rw [orthonormal_iff_ite]
      intro i j
      rw [hzz]
      simp
    have hs := (hon.orthogonalFamily.summable_iff_norm_sq_summable (fun m => ψ m * σ)).2 (by
      refine (hsum.mul_right (σ ^ 2)).congr fun m => ?_
      rw [Real.norm_eq_abs, sq_abs, mul_pow])
    refine ⟨_, hs.hasSum.tendsto_sum_nat.congr fun M => sum_congr rfl fun m _ => ?_⟩
    simp [eL, smul_smul, LinearIsometry.toSpanSingleton_apply]
  choose yL hy using hconv
  have hno := noise_nonneg τ
  let ε : ℤ → Ω → ℝ := fun t ω => σ * Z (Sum.inl t) ω
  let u : ℕ → Ω → ℝ := fun t ω => Real.sqrt ((τ.map (· ^ 2)).getD 0) * Z (Sum.inr t) ω
  have hε2 : ∀ t, MemLp (ε t) 2 μ := fun t => (hmem _).const_mul σ
  have heL : ∀ t, (hε2 t).toLp (ε t) = eL t := fun t => by
    refine Lp.ext ?_
    filter_upwards [(hε2 t).coeFn_toLp, Lp.coeFn_smul σ (zL t), (hmem (Sum.inl t)).coeFn_toLp] with ω h1 h2 h3
    rw [h1, h2, Pi.smul_apply]
    simp only [zL, h3, ε, smul_eq_mul]
  have hyn : ∀ t, inner ℝ (yL t) (yL t) = σ ^ 2 * γ 0 := fun t => by
    have := Hilbert.inner_solution hee hy t 0 (γ := σ ^ 2 * γ 0) (by
      simpa using (hγ 0).mul_left (σ ^ 2))
    simpa using this
  refine ⟨Ω, mΩ, μ, hp, fun t => yL t, ε, u, ?_, fun t => ?_, fun t => ?_, fun t => Lp.memLp _, ⟨σ ^ 2 * γ 0, fun t => ?_⟩, fun t => ?_⟩
  · have := hind.comp (fun q x => q.elim (fun _ => σ * x) (fun _ => Real.sqrt ((τ.map (· ^ 2)).getD 0) * x)) (fun q => by
      rcases q with q | q <;> exact measurable_const.mul measurable_id)
    convert this using 1
    funext q
    rcases q with q | q <;> rfl
  · have := gaussianReal_const_mul (hlaw (Sum.inl t)) σ
    simpa [Real.toNNReal_of_nonneg (sq_nonneg σ)] using this
  · have := gaussianReal_const_mul (hlaw (Sum.inr t)) (Real.sqrt ((τ.map (· ^ 2)).getD 0))
    simpa [Real.toNNReal_of_nonneg hno, Real.sq_sqrt hno] using this
  · rw [← hyn t, Gauss.inner_eq]
    simp [sq]
  · have hsol := Hilbert.exists_solution (y := yL) hψ h0 (D := Real.sqrt (σ ^ 2)) (fun t => by
      refine Real.le_sqrt_of_sq_le ?_
      rw [← real_inner_self_eq_norm_sq, hee, if_pos rfl]) hy
    have h1 := lag_toLp (Spec.arPoly o θ * Spec.sarPoly o θ) (fun t => Lp.memLp (yL t)) t
    have h2 := lag_toLp (Spec.maPoly o θ * Spec.smaPoly o θ) hε2 t
    simp only [Lp.toLp_coeFn, heL] at h1 h2
    rw [hsol] at h1
    exact h1.symm.trans h2

/-- AR(1) with coefficient 1/2 observed with measurement error: there is a process with `y_t = y_{t-1}/2 + ε_t`, and the density of the
data is the exponential of the reported log-likelihood for every sample length. -/
example : ∃ (Ω : Type) (_ : MeasurableSpace Ω) (μ : Measure Ω) (_ : IsProbabilityMeasure μ) (y ε : ℤ → Ω → ℝ) (u : ℕ → Ω → ℝ),
    (∀ t, ∀ᵐ ω ∂μ, y t ω = 1 / 2 * y (t - 1) ω + ε t ω) ∧ ∀ (fill : ℝ) (N : ℕ),
      μ.map (fun ω (a : Fin N) => y a ω + u a ω) = (volume : Measure (Fin N → ℝ)).withDensity fun x => ENNReal.ofReal (Real.exp
        (Spec.sarmaLoglik (fast ⟨1, 0, 0, 0, 0, 0, 0⟩ ⟨fun _ => 1 / 2, fun _ => 0, fun _ => 0, fun _ => 0⟩) 1 (some 2) fill x)) := by
  let o : Order := ⟨1, 0, 0, 0, 0, 0, 0⟩
  let θ : Params := ⟨fun _ => 1 / 2, fun _ => 0, fun _ => 0, fun _ => 0⟩
  have hroots : Spec.RootsOutside o θ := by
    intro w hw
    simp only [Spec.arPoly, Spec.sarPoly, o, θ, range_one, sum_singleton, range_zero, sum_empty, map_sub, map_one, map_mul, aeval_C,
      map_pow, aeval_X, sub_zero, one_ne_zero, or_false] at hw
    have : w = 2 := by
      have h : (1 : ℂ) - (algebraMap ℝ ℂ (1 / 2)) * w ^ (0 + 1) = 1 - w / 2 := by simp; ring
      rw [h] at hw
      linear_combination (-2 : ℂ) * hw
    rw [this]; norm_num
  have hS : Spec.Proper o := fun _ => ⟨rfl, rfl, rfl⟩
  obtain ⟨Ω, mΩ, μ, hp, y, ε, u, h⟩ := C193_exists o θ hS (by decide) hroots 1 (some 2)
  refine ⟨Ω, mΩ, μ, hp, y, ε, u, fun t => ?_, fun fill N =>
    C193_sarma_density o θ hS (by decide) rfl rfl hroots _ (Or.inl rfl) one_ne_zero h fill N⟩
  filter_upwards [h.equation t] with ω hω
  have e1 : (Spec.arPoly o θ * Spec.sarPoly o θ : ℝ[X]) = C 1 + monomial 1 (-1 / 2) := by
    simp [Spec.arPoly, Spec.sarPoly, o, θ, neg_div, sub_eq_add_neg, ← C_mul_X_eq_monomial]
  have e2 : (Spec.maPoly o θ * Spec.smaPoly o θ : ℝ[X]) = C 1 := by simp [Spec.maPoly, Spec.smaPoly, o]
  rw [e1, e2, Polynomial.sum_C_index (by simp), Polynomial.sum_add_index _ _ _ (by simp) (by intros; ring), Polynomial.sum_C_index (by simp),
    Polynomial.sum_monomial_index _ _ (by simp)] at hω
  simp at hω
  linarith

end Verif.Sarima
