import Verif.Kalman.GaussianExists
import Verif.Kalman.UnivariateOptimalProps

/-!
# C191: conditional distributions with missing data

Property theorems: for normal models the limits of C169 (standard filter) and C188 (univariate filter) are the means and covariance
matrices of the conditional distributions given the recorded entries.
-/

set_option autoImplicit false

open Matrix MeasureTheory ProbabilityTheory Filter Topology Asymptotics

namespace Verif.Kalman

open Orthogonal

namespace Spec

/-- The entries recorded in the first `t` dates, as one random vector. Specification, no code behind it. -/
def dataSeen {Ω p : Type*} (o : ℕ → p → Prop) (Y : ℕ → p → Ω → ℝ) (t : ℕ) (ω : Ω) : {q : Fin t × p // o q.1 q.2} → ℝ :=
  fun q => Y q.1.1 q.1.2 ω

/-- The conditional law of the random vector `x` given the entries recorded in the first `t` dates, at the realisation `ω`.
Specification, no code behind it. -/
noncomputable def givenSeen {Ω : Type*} [MeasurableSpace Ω] {k p : Type*} [Fintype k] (μ : Measure Ω) [IsProbabilityMeasure μ]
    (x : k → Ω → ℝ) (o : ℕ → p → Prop) (Y : ℕ → p → Ω → ℝ) (t : ℕ) (ω : Ω) : Measure (EuclideanSpace ℝ k) :=
  condDistrib (vec x) (dataSeen o Y t) μ (dataSeen o Y t ω)

end Spec

variable {Ω : Type*} [MeasurableSpace Ω] {μ : Measure Ω} [IsProbabilityMeasure μ]
variable {n p r : Type*} [Fintype n] [Fintype p] [Fintype r] [DecidableEq n] [DecidableEq p] [DecidableEq r]
variable {θ : ℕ → Params n p r} {a0 : n → ℝ} {P0 : Matrix n n ℝ} {X : ℕ → n → Ω → ℝ} {Y : ℕ → p → Ω → ℝ}
  {η : ℕ → r → Ω → ℝ} {ε : ℕ → p → Ω → ℝ}

open Classical in
/-- **C191 (linear is enough).** In a normal model, whatever is the best affine prediction of the states from the recorded entries,
with its error covariance, is the mean and covariance of the conditional distribution given those entries - which is normal. -/
theorem C191_best_affine_is_conditional (h : Spec.NormalProcess μ θ a0 P0 X Y η ε) (o : ℕ → p → Prop) (T t : ℕ)
    {A : n → Ω → ℝ} {V : Matrix n n ℝ} (hA : Spec.BestAffine μ o Y T (X t) A V) :
    ∀ᵐ ω ∂μ, Spec.givenSeen μ (X t) o Y T ω = Spec.N (fun i => A i ω) V := by
  have hp := h.toProcess
  refine Gauss.conditional h.normal (D := fun (q : {q : Fin T × p // o q.1 q.2}) ω => Y q.1.1 q.1.2 ω) (X := X t) (M := A)
    (fun q => Gauss.memY hp q.1.1 q.1.2) (Gauss.memX hp t) (fun i => ?_) V hA.unbiased hA.covariance
    (fun i q => hA.uncorrelated i q.1.1 q.1.2 q.1.1.2 q.2)
  obtain ⟨b, w, hbw⟩ := hA.affine i
  have e : A i = b • (fun _ => (1 : ℝ)) + ∑ s ∈ Finset.range T, ∑ j, (if o s j then w s j • Y s j else 0) := by
    funext ω
    rw [hbw]
    simp only [Spec.affineSeen, Pi.add_apply, Pi.smul_apply, smul_eq_mul, mul_one, Finset.sum_apply]
    congr 1
    refine Finset.sum_congr rfl fun s _ => Finset.sum_congr rfl fun j _ => ?_
    by_cases ho : o s j <;> simp [ho]
  rw [e]
  refine Submodule.add_mem _ (Submodule.smul_mem _ _ (Gauss.one_mem _)) (Submodule.sum_mem _ fun s hs =>
    Submodule.sum_mem _ fun j _ => ?_)
  by_cases ho : o s j
  · rw [if_pos ho]
    exact Submodule.smul_mem _ _ (Gauss.source_mem (fun (q : {q : Fin T × p // o q.1 q.2}) ω => Y q.1.1 q.1.2 ω)
      ⟨(⟨s, Finset.mem_range.1 hs⟩, j), ho⟩)
  · rw [if_neg ho]; exact Submodule.zero_mem _

open Classical in
/-- **C191 (standard filter).** For a normal model with positive definite `H` and any pattern of missing entries whose errors are
uncorrelated with the recorded ones, the predicted and filtered moments tend, as the jitter vanishes, to the moments of the
conditional distributions given the entries recorded before, and up to, the date. -/
theorem C191_standard_filter (h : Spec.NormalProcess μ θ a0 P0 X Y η ε) (hH : ∀ t, (θ t).H.PosDef) (o : ℕ → p → Prop)
    (hd : ∀ t i k, ¬ o t i → o t k → (θ t).H i k = 0) (fill : ℝ) (N t : ℕ) (ht : t < N) :
    let out := fun (jitter : ℝ) ω => buildGraph jitter fill a0 P0 (Spec.rowsSeen o θ Y N ω)
    ∃ (A Af : n → Ω → ℝ) (V Vf : Matrix n n ℝ),
      ∀ᵐ ω ∂μ, Spec.givenSeen μ (X t) o Y t ω = Spec.N (fun i => A i ω) V ∧
        Spec.givenSeen μ (X t) o Y (t + 1) ω = Spec.N (fun i => Af i ω) Vf ∧
        Tendsto (fun jitter => (out jitter ω).predictedStates.getD t 0) (𝓝[>] 0) (𝓝 fun i => A i ω) ∧
        Tendsto (fun jitter => (out jitter ω).predictedCovs.getD t 0) (𝓝[>] 0) (𝓝 V) ∧
        Tendsto (fun jitter => (out jitter ω).filteredStates.getD t 0) (𝓝[>] 0) (𝓝 fun i => Af i ω) ∧
        Tendsto (fun jitter => (out jitter ω).filteredCovs.getD t 0) (𝓝[>] 0) (𝓝 Vf) := by
  intro out
  have hp := h.toProcess
  have hfill : ∀ᵐ ω ∂μ, ∀ t i, o t i → Y t i ω ≠ fill := by
    filter_upwards [Gauss.fill_null h (undetermined_of_H hp hH) fill] with ω hω t i _ using hω t i
  obtain ⟨A, V, hA, h1⟩ := C169_prediction_limit hp hH o hd fill hfill N t ht
  obtain ⟨Af, Vf, hAf, h2⟩ := C169_filter_limit hp hH o hd fill hfill N t ht
  refine ⟨A, Af, V, Vf, ?_⟩
  filter_upwards [h1, h2, C191_best_affine_is_conditional h o t t hA, C191_best_affine_is_conditional h o (t + 1) t hAf]
    with ω g1 g2 g3 g4
  exact ⟨g3, g4, g1.1, g1.2, g2.1, g2.2⟩

/-- **C191 (univariate filter).** For a normal model with diagonal `H` - which may be singular - and any pattern of missing entries,
the univariate filter's moments differ from the moments of the conditional distributions by at most a multiple of the jitter. -/
theorem C191_univariate_filter {k : ℕ} {θ : Params n (Fin k) r} {Y : ℕ → Fin k → Ω → ℝ} {ε : ℕ → Fin k → Ω → ℝ}
    (h : Spec.NormalProcess μ (fun _ => θ) a0 P0 X Y η ε) (hk : 0 < k) (hH : ∀ i j, i ≠ j → θ.H i j = 0) (o : ℕ → Fin k → Prop) :
    ∃ (A Af : ℕ → n → Ω → ℝ) (V Vf : ℕ → Matrix n n ℝ),
      ∀ᵐ ω ∂μ, ∀ N t, t < N →
        Spec.givenSeen μ (X t) o Y t ω = Spec.N (fun i => A t i ω) (V t) ∧
        Spec.givenSeen μ (X t) o Y (t + 1) ω = Spec.N (fun i => Af t i ω) (Vf t) ∧
        ∃ out : ℝ → UnivGraph n,
          (∀ jitter, 0 < jitter → univGraph jitter a0 P0 θ (Spec.recorded o Y N ω) = some (out jitter)) ∧
          (∀ i, (fun jitter => (out jitter).predictedStates.getD t 0 i - A t i ω) =O[𝓝[>] 0] fun jitter => jitter) ∧
          (∀ i l, (fun jitter => (out jitter).predictedCovs.getD t 0 i l - V t i l) =O[𝓝[>] 0] fun jitter => jitter) ∧
          (∀ i, (fun jitter => (out jitter).filteredStates.getD t 0 i - Af t i ω) =O[𝓝[>] 0] fun jitter => jitter) ∧
          (∀ i l, (fun jitter => (out jitter).filteredCovs.getD t 0 i l - Vf t i l) =O[𝓝[>] 0] fun jitter => jitter) := by
  obtain ⟨A, Af, V, Vf, hbest, hout⟩ := C188_univariate_optimal h.toProcess hk hH o
  refine ⟨A, Af, V, Vf, ?_⟩
  have h1 : ∀ᵐ ω ∂μ, ∀ t, Spec.givenSeen μ (X t) o Y t ω = Spec.N (fun i => A t i ω) (V t) := by
    rw [ae_all_iff]; intro t; exact C191_best_affine_is_conditional h o t t (hbest t).1
  have h2 : ∀ᵐ ω ∂μ, ∀ t, Spec.givenSeen μ (X t) o Y (t + 1) ω = Spec.N (fun i => Af t i ω) (Vf t) := by
    rw [ae_all_iff]; intro t; exact C191_best_affine_is_conditional h o (t + 1) t (hbest t).2
  filter_upwards [h1, h2, hout] with ω g1 g2 g3 N t ht
  exact ⟨g1 t, g2 t, g3 N t ht⟩

/-- C191 applies to the degenerate model of C188, of which the second series is recorded only every third date. -/
example (N t : ℕ) (ht : t < N) : ∃ (Ω : Type) (_ : MeasurableSpace Ω) (μ : Measure Ω) (_ : IsProbabilityMeasure μ)
    (X : ℕ → Fin 2 → Ω → ℝ) (Y : ℕ → Fin 2 → Ω → ℝ) (V : Matrix (Fin 2) (Fin 2) ℝ), ∀ᵐ ω ∂μ, ∃ A,
      Spec.givenSeen μ (X t) (fun t i => i = 0 ∨ t % 3 = 0) Y t ω = Spec.N A V := by
  obtain ⟨Ω, mΩ, μ, hμ, X, Y, η, ε, h⟩ := exists_normal_process (fun _ => degenerate) 0
    (P0 := 1) Matrix.PosSemidef.one (fun _ => Matrix.PosSemidef.one) (fun _ => Matrix.PosSemidef.zero)
  obtain ⟨A, Af, V, Vf, hh⟩ := C191_univariate_filter h (by norm_num) (fun i j _ => rfl) (fun t i => i = 0 ∨ t % 3 = 0)
  exact ⟨Ω, mΩ, μ, hμ, X, Y, V t, hh.mono fun ω hω => ⟨_, (hω N t ht).1⟩⟩

/-- The standard-filter part applies to the trend model with every third date missing. -/
example (N t : ℕ) (ht : t < N) (fill : ℝ) : ∃ (Ω : Type) (_ : MeasurableSpace Ω) (μ : Measure Ω) (_ : IsProbabilityMeasure μ)
    (X : ℕ → Fin 2 → Ω → ℝ) (Y : ℕ → Fin 1 → Ω → ℝ) (V : Matrix (Fin 2) (Fin 2) ℝ), ∀ᵐ ω ∂μ, ∃ A,
      Spec.givenSeen μ (X t) (fun t _ => t % 3 ≠ 0) Y t ω = Spec.N A V ∧
      Tendsto (fun jitter => (buildGraph jitter fill 0 1 (Spec.rowsSeen (fun t _ => t % 3 ≠ 0) (fun _ => trendModel) Y N
        ω)).predictedStates.getD t 0) (𝓝[>] 0) (𝓝 A) := by
  obtain ⟨Ω, mΩ, μ, hμ, X, Y, η, ε, h⟩ := exists_normal_process (fun _ => trendModel) 0
    (P0 := 1) Matrix.PosSemidef.one (fun _ => Matrix.PosSemidef.one) (fun _ => Matrix.PosSemidef.one)
  obtain ⟨A, Af, V, Vf, hh⟩ := C191_standard_filter h (fun _ => Matrix.PosDef.one) (fun t _ => t % 3 ≠ 0)
    (fun t i k h1 h2 => absurd h2 h1) fill N t ht
  exact ⟨Ω, mΩ, μ, hμ, X, Y, V, hh.mono fun ω hω => ⟨_, hω.1, hω.2.2.1⟩⟩

end Verif.Kalman
