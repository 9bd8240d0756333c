import Verif.Kalman.Orthogonal
import Verif.Kalman.OptimalSpec

/-!
# From random variables to the algebra of `Verif.Kalman.Orthogonal`, and from there to the filter's output
-/

set_option autoImplicit false

open Matrix MeasureTheory ProbabilityTheory

namespace Verif.Kalman.Orthogonal

variable {Ω : Type*} [MeasurableSpace Ω] {μ : Measure Ω} [IsProbabilityMeasure μ]
variable {n p r : Type*} [Fintype n] [Fintype p] [Fintype r] [DecidableEq n] [DecidableEq p] [DecidableEq r]

/-- Square-integrable random variables. Proof notion, no code behind it. -/
def L2 (μ : Measure Ω) : Submodule ℝ (Ω → ℝ) where
  carrier := {f | MemLp f 2 μ}
  add_mem' := fun hf hg => hf.add hg
  zero_mem' := MemLp.zero
  smul_mem' := fun c _ hf => hf.const_smul c

/-- Covariance as a bilinear form. Proof notion, no code behind it. -/
noncomputable def covB (μ : Measure Ω) [IsProbabilityMeasure μ] : L2 μ →ₗ[ℝ] L2 μ →ₗ[ℝ] ℝ :=
  LinearMap.mk₂ ℝ (fun f g => cov[f.1, g.1; μ])
    (fun f f' g => covariance_add_left f.2 f'.2 g.2)
    (fun c f g => by simpa using covariance_smul_left (X := f.1) (Y := g.1) (μ := μ) c)
    (fun f g g' => covariance_add_right f.2 g.2 g'.2)
    (fun c f g => by simpa using covariance_smul_right (X := f.1) (Y := g.1) (μ := μ) c)

theorem covB_apply (f g : L2 μ) : covB μ f g = cov[f.1, g.1; μ] := rfl

/-- The constant one. Proof notion, no code behind it. -/
def one (μ : Measure Ω) [IsProbabilityMeasure μ] : L2 μ := ⟨fun _ => 1, memLp_const 1⟩

/-- Expectation as a linear form. Proof notion, no code behind it. -/
noncomputable def mean (μ : Measure Ω) [IsProbabilityMeasure μ] : L2 μ →ₗ[ℝ] ℝ where
  toFun f := ∫ ω, f.1 ω ∂μ
  map_add' f g := integral_add (f.2.integrable (by norm_num)) (g.2.integrable (by norm_num))
  map_smul' c f := integral_const_mul c f.1

theorem mean_apply (f : L2 μ) : mean μ f = ∫ ω, f.1 ω ∂μ := rfl

theorem covB_self_nonneg (f : L2 μ) : 0 ≤ covB μ f f := by
  rw [covB_apply, covariance_self f.2.aemeasurable]; exact variance_nonneg _ _

theorem act_eval {m k : Type*} [Fintype k] (A : Matrix m k ℝ) (X : k → L2 μ) (i : m) (ω : Ω) :
    (act A X i).1 ω = (A *ᵥ fun j => (X j).1 ω) i := by
  simp [act, mulVec, dotProduct]

variable {θ : ℕ → Params n p r} {a0 : n → ℝ} {P0 : Matrix n n ℝ} {X : ℕ → n → Ω → ℝ} {Y : ℕ → p → Ω → ℝ}
  {η : ℕ → r → Ω → ℝ} {ε : ℕ → p → Ω → ℝ}

theorem memLp_mulVec {m k : Type*} [Fintype k] (A : Matrix m k ℝ) (X : k → Ω → ℝ) (hX : ∀ j, MemLp (X j) 2 μ) (i : m) :
    MemLp (fun ω => ∑ j, A i j * X j ω) 2 μ :=
  memLp_finsetSum _ fun j _ => (hX j).const_mul (A i j)

omit [DecidableEq n] [DecidableEq p] [DecidableEq r] in
theorem memX (h : Spec.Process μ θ a0 P0 X Y η ε) (t : ℕ) : ∀ i, MemLp (X t i) 2 μ := by
  induction t with
  | zero => exact h.sqInt_initial
  | succ t ih =>
    intro i
    have := ((memLp_mulVec (θ t).T (X t) ih i).add (memLp_const ((θ t).c i))).add
      (memLp_mulVec (θ t).R (η t) (h.sqInt_shock t) i)
    refine this.ae_eq (Filter.Eventually.of_forall fun ω => ?_)
    simp [h.transition]

omit [DecidableEq n] [DecidableEq p] [DecidableEq r] in
theorem memY (h : Spec.Process μ θ a0 P0 X Y η ε) (t : ℕ) (i : p) : MemLp (Y t i) 2 μ := by
  have := ((memLp_mulVec (θ t).Z (X t) (memX h t) i).add (memLp_const ((θ t).d i))).add (h.sqInt_error t i)
  refine this.ae_eq (Filter.Eventually.of_forall fun ω => ?_)
  simp [h.observation]

/-- The states as elements of `L2`. Proof notion, no code behind it. -/
def liftX (h : Spec.Process μ θ a0 P0 X Y η ε) (t : ℕ) (i : n) : L2 μ := ⟨X t i, memX h t i⟩
/-- The observations as elements of `L2`. Proof notion, no code behind it. -/
def liftY (h : Spec.Process μ θ a0 P0 X Y η ε) (t : ℕ) (i : p) : L2 μ := ⟨Y t i, memY h t i⟩
/-- The state shocks as elements of `L2`. Proof notion, no code behind it. -/
def liftη (h : Spec.Process μ θ a0 P0 X Y η ε) (t : ℕ) (i : r) : L2 μ := ⟨η t i, h.sqInt_shock t i⟩
/-- The measurement errors as elements of `L2`. Proof notion, no code behind it. -/
def liftε (h : Spec.Process μ θ a0 P0 X Y η ε) (t : ℕ) (i : p) : L2 μ := ⟨ε t i, h.sqInt_error t i⟩

omit [DecidableEq n] [DecidableEq p] [DecidableEq r] in
theorem toProc (h : Spec.Process μ θ a0 P0 X Y η ε) :
    Proc (covB μ) (one μ) θ P0 (liftX h) (liftY h) (liftη h) (liftε h) where
  sym x y := covariance_comm _ _
  one0 w := covariance_const_left 1
  move t := by
    funext i; apply Subtype.ext; funext ω
    have : (liftX h (t + 1) i).1 ω = _ := h.transition t i ω
    rw [this]
    simp [act, const, one, liftX, liftη]
  obs t := by
    funext i; apply Subtype.ext; funext ω
    have : (liftY h t i).1 ω = _ := h.observation t i ω
    rw [this]
    simp [act, const, one, liftX, liftε]
  x0 := by ext i j; exact h.cov_initial i j
  ηη t := by ext i j; exact h.cov_shock t i j
  εε t := by ext i j; exact h.cov_error t i j
  ηη0 s t hst := by ext i j; exact h.shocks_uncorrelated s t i j hst
  εε0 s t hst := by ext i j; exact h.errors_uncorrelated s t i j hst
  ηε0 s t := by ext i j; exact h.shocks_errors_uncorrelated s t i j
  xη0 t := by ext i j; exact h.initial_shocks_uncorrelated t i j
  xε0 t := by ext i j; exact h.initial_errors_uncorrelated t i j

/-! ### The filter's list outputs -/

theorem act_real {m k : Type*} [Fintype k] (A : Matrix m k ℝ) (x : k → ℝ) : act A x = A *ᵥ x := by
  funext i; simp [act, mulVec, dotProduct]

theorem const_real {k : Type*} (c : k → ℝ) : const (1 : ℝ) c = c := by funext i; simp [const]

/-- The predicted mean at a realisation is the recursion run on the realised data. -/
theorem predAt_eval {q : ℕ → Type*} [∀ t, Fintype (q t)] [∀ t, DecidableEq (q t)] {θ : ∀ t, Params n (q t) r}
    (Y : ∀ t, q t → L2 μ) (ω : Ω) (t : ℕ) :
    (fun i => (predAt (one μ) θ a0 P0 Y t i).1 ω) = predAt (1 : ℝ) θ a0 P0 (fun t i => (Y t i).1 ω) t := by
  induction t with
  | zero => funext i; simp [predAt, const, one]
  | succ t ih =>
    funext i
    simp only [predAt, act_real, const_real, Pi.add_apply, ← ih]
    simp only [Submodule.coe_add, Pi.add_apply, act_eval]
    congr 1
    · simp [const, one]
    · congr 1
      congr 1
      funext j
      simp only [Submodule.coe_add, Pi.add_apply, act_eval]
      congr 1
      congr 1
      congr 1
      funext j'
      simp [act_eval, const, one]

theorem filtAt_eval {q : ℕ → Type*} [∀ t, Fintype (q t)] [∀ t, DecidableEq (q t)] {θ : ∀ t, Params n (q t) r}
    (Y : ∀ t, q t → L2 μ) (ω : Ω) (t : ℕ) :
    (fun i => (filtAt (one μ) θ a0 P0 Y t i).1 ω) = filtAt (1 : ℝ) θ a0 P0 (fun t i => (Y t i).1 ω) t := by
  funext i
  simp only [filtAt, act_real, const_real, Pi.add_apply, ← predAt_eval, Submodule.coe_add, act_eval]
  congr 1
  congr 1
  congr 1
  funext j'
  simp [act_eval, const, one]

/-- What the filter needs of the second moments. Specification, no code behind it. -/
structure Regular (θ : ℕ → Params n p r) (P0 : Matrix n n ℝ) : Prop where
  psym : ∀ t, (covAt θ P0 t)ᵀ = covAt θ P0 t
  hsym : ∀ t, (θ t).Hᵀ = (θ t).H
  qsym : ∀ t, (θ t).Qᵀ = (θ t).Q
  unit : ∀ t, IsUnit (Spec.obsCov (covAt θ P0 t) (θ t).Z (θ t).H).det

/-- On fully observed data the filter's step at row `t` starts from the replayed prediction and covariance. -/
theorem scanAt (hR : Regular θ P0) (fill : ℝ) (y : ℕ → p → ℝ) (hy : ∀ t i, y t i ≠ fill) (N t : ℕ) (ht : t < N) :
    (filterScan 0 fill a0 P0 ((List.range N).map fun t => ((fun i => some (y t i) : Row p), θ t)))[t]? =
      some (kalmanStep 0 fill (fun i => some (y t i)) (predAt (1 : ℝ) θ a0 P0 y t) (covAt θ P0 t) (θ t)) := by
  induction t with
  | zero =>
    obtain ⟨M, rfl⟩ : ∃ M, N = M + 1 := ⟨N - 1, by omega⟩
    simp [List.range_succ_eq_map, filterScan, predAt, const_real, covAt]
  | succ t ih =>
    have hobs : ∀ i, ¬ Spec.Missing fill ((fun i => some (y t i) : Row p) i) := by
      intro i hm
      rcases hm with h | h
      · cases h
      · exact hy t i (Option.some.inj h)
    have hstep := filterScan_getElem_succ 0 fill
      ((List.range N).map fun t => ((fun i => some (y t i) : Row p), θ t)) a0 P0 t (fun i => some (y (t + 1) i))
      (θ (t + 1)) _ (by simp [ht]) (ih (by omega))
    rw [hstep]
    obtain ⟨h1, h2, -, -, h5, h6⟩ := C02_update_is_conditional fill (fun i => some (y t i)) hobs
      (predAt (1 : ℝ) θ a0 P0 y t) (hR.psym t) (θ t) (hR.hsym t) (hR.unit t)
    congr 2
    · rw [h5, h1]
      simp [predAt, act_real, const_real, Spec.condMean, gainAt]
    · rw [h6 (hR.qsym t), h2]
      simp [covAt]

/-- The seven outputs at row `t`. -/
theorem outAt (hR : Regular θ P0) (fill : ℝ) (y : ℕ → p → ℝ) (hy : ∀ t i, y t i ≠ fill) (N t : ℕ) (ht : t < N) :
    let o := buildGraph 0 fill a0 P0 ((List.range N).map fun t => ((fun i => some (y t i) : Row p), θ t))
    o.predictedStates[t]? = some (predAt (1 : ℝ) θ a0 P0 y t) ∧ o.predictedCovs[t]? = some (covAt θ P0 t) ∧
    o.filteredStates[t]? = some (filtAt (1 : ℝ) θ a0 P0 y t) ∧
    o.filteredCovs[t]? = some (Spec.condCov (covAt θ P0 t) (θ t).Z (θ t).H) ∧
    o.observedStates[t]? = some ((θ t).d + (θ t).Z *ᵥ predAt (1 : ℝ) θ a0 P0 y t) ∧
    o.observedCovs[t]? = some (Spec.obsCov (covAt θ P0 t) (θ t).Z (θ t).H) := by
  intro o
  have hobs : ∀ t i, ¬ Spec.Missing fill ((fun i => some (y t i) : Row p) i) := by
    intro t i hm
    rcases hm with h | h
    · cases h
    · exact hy t i (Option.some.inj h)
  have hs := scanAt (a0 := a0) hR fill y hy N
  obtain ⟨h1, h2, h3, h4, -, -⟩ := C02_update_is_conditional fill (fun i => some (y t i)) (hobs t)
      (predAt (1 : ℝ) θ a0 P0 y t) (hR.psym t) (θ t) (hR.hsym t) (hR.unit t)
  have hpred : o.predictedStates[t]? = some (predAt (1 : ℝ) θ a0 P0 y t) ∧ o.predictedCovs[t]? = some (covAt θ P0 t) := by
    cases t with
    | zero => exact ⟨by simp [o, buildGraph, postprocess, predAt, const_real], by simp [o, buildGraph, postprocess, covAt]⟩
    | succ t =>
      obtain ⟨g1, g2, -, -, g5, g6⟩ := C02_update_is_conditional fill (fun i => some (y t i)) (hobs t)
        (predAt (1 : ℝ) θ a0 P0 y t) (hR.psym t) (θ t) (hR.hsym t) (hR.unit t)
      have hst := hs t (by omega)
      have hd : ∀ {α : Type _} (f : StepOut n p → α), ((filterScan 0 fill a0 P0
          ((List.range N).map fun t => ((fun i => some (y t i) : Row p), θ t))).map f).dropLast[t]? =
          some (f (kalmanStep 0 fill (fun i => some (y t i)) (predAt (1 : ℝ) θ a0 P0 y t) (covAt θ P0 t) (θ t))) := by
        intro α f
        rw [List.getElem?_dropLast, if_pos (by simp [filterScan_length]; omega), List.getElem?_map, hst]
        rfl
      refine ⟨?_, ?_⟩
      · have := hd StepOut.aHat
        simp only [o, buildGraph, postprocess, List.getElem?_cons_succ]
        rw [this, g5, g1]
        simp [predAt, act_real, const_real, Spec.condMean, gainAt]
      · have := hd StepOut.PHat
        simp only [o, buildGraph, postprocess, List.getElem?_cons_succ]
        rw [this, g6 (hR.qsym t), g2]
        simp [covAt]
  have hst := hs t ht
  refine ⟨hpred.1, hpred.2, ?_, ?_, ?_, ?_⟩
  · simp only [o, buildGraph, postprocess, List.getElem?_map, hst, Option.map_some]
    rw [h1]; simp [filtAt, act_real, const_real, Spec.condMean, gainAt]
  · simp only [o, buildGraph, postprocess, List.getElem?_map, hst, Option.map_some]
    rw [h2]
  · simp only [o, buildGraph, postprocess, List.getElem?_map, hst, Option.map_some]
    rw [h3]
  · simp only [o, buildGraph, postprocess, List.getElem?_map, hst, Option.map_some]
    rw [h4]

end Verif.Kalman.Orthogonal
