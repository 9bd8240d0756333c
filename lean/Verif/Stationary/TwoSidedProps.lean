import Verif.Stationary.TwoSidedHilbert
import Verif.Kalman.GaussianLimit
import Verif.Kalman.GaussianLoglik
import Verif.Kalman.GaussianExists

/-!
# C194: the stationary initialisation is the law of a process without beginning

Specification: a two-sided normal process with bounded second moments that satisfies the state equation at all dates, past and future.
-/

set_option autoImplicit false

open Finset Matrix MeasureTheory ProbabilityTheory Filter Topology

namespace Verif.Stationary

open Verif.Kalman Verif.Kalman.Orthogonal

variable {Ω : Type*} [MeasurableSpace Ω] {μ : Measure Ω} [IsProbabilityMeasure μ]

/-! ### Specification -/

section

variable {n p r : Type*} [Fintype n] [Fintype p] [Fintype r]

/-- States `X` at all dates, past and future, with bounded second moments, that follow the transition equation with state shocks `η`;
and observations `Y` from date 0 on with measurement errors `ε`.  Shocks and errors are jointly normal with mean zero, uncorrelated over
time and with each other, with the covariance matrices of the model. -/
structure Spec.TwoSided (μ : Measure Ω) (θ : Params n p r) (X : ℤ → n → Ω → ℝ) (Y : ℕ → p → Ω → ℝ) (η : ℤ → r → Ω → ℝ)
    (ε : ℕ → p → Ω → ℝ) : Prop where
  transition : ∀ t i, ∀ᵐ ω ∂μ, X (t + 1) i ω = ∑ j, θ.T i j * X t j ω + θ.c i + ∑ j, θ.R i j * η t j ω
  observation : ∀ t i, ∀ᵐ ω ∂μ, Y t i ω = ∑ j, θ.Z i j * X t j ω + θ.d i + ε t i ω
  square : ∀ t i, MemLp (X t i) 2 μ
  bounded : ∃ C, ∀ t i, ∫ ω, X t i ω ^ 2 ∂μ ≤ C
  normal : IsGaussianProcess (fun q : (ℤ × r) ⊕ (ℕ × p) => q.elim (fun q => η q.1 q.2) fun q => ε q.1 q.2) μ
  mean_shock : ∀ t j, ∫ ω, η t j ω ∂μ = 0
  mean_error : ∀ t j, ∫ ω, ε t j ω ∂μ = 0
  cov_shock : ∀ s t i j, cov[η s i, η t j; μ] = if s = t then θ.Q i j else 0
  cov_error : ∀ s t i j, cov[ε s i, ε t j; μ] = if s = t then θ.H i j else 0
  cov_cross : ∀ s t i j, cov[η s i, ε t j; μ] = 0

end

variable {n p r : Type*} [Fintype n] [Fintype p] [Fintype r] [DecidableEq n] [DecidableEq p] [DecidableEq r]
variable {θ : Params n p r} {X : ℤ → n → Ω → ℝ} {Y : ℕ → p → Ω → ℝ} {η : ℤ → r → Ω → ℝ} {ε : ℕ → p → Ω → ℝ}

/-! ### Lemmas -/

namespace TwoSided

theorem memShock (h : Spec.TwoSided μ θ X Y η ε) (t : ℤ) (j : r) : MemLp (η t j) 2 μ :=
  (h.normal.hasGaussianLaw_eval (.inl (t, j))).memLp_two

theorem memError (h : Spec.TwoSided μ θ X Y η ε) (t : ℕ) (j : p) : MemLp (ε t j) 2 μ :=
  (h.normal.hasGaussianLaw_eval (.inr (t, j))).memLp_two

/-- The shocks in `L²`. -/
noncomputable def eL (h : Spec.TwoSided μ θ X Y η ε) (t : ℤ) (j : r) : Lp ℝ 2 μ := (memShock h t j).toLp (η t j)

/-- The states in `L²`. -/
noncomputable def xL (h : Spec.TwoSided μ θ X Y η ε) (t : ℤ) (i : n) : Lp ℝ 2 μ := (h.square t i).toLp (X t i)

theorem inner_cov {f g : Ω → ℝ} (hf : MemLp f 2 μ) (hg : MemLp g 2 μ) (h0 : ∫ ω, g ω ∂μ = 0) :
    inner ℝ (hf.toLp f) (hg.toLp g) = cov[f, g; μ] := by
  rw [Gauss.inner_toLp, covariance_eq_sub hf hg, h0, mul_zero, sub_zero]; rfl

theorem covM_eL (h : Spec.TwoSided μ θ X Y η ε) (s t : ℤ) : covM (innerₗ (Lp ℝ 2 μ)) (eL h s) (eL h t) = if s = t then θ.Q else 0 := by
  ext i j
  simp only [covM, Matrix.of_apply, innerₗ_apply_apply, eL]
  rw [inner_cov _ _ (h.mean_shock t j), h.cov_shock]
  split <;> rfl

theorem lp_act {k m : Type*} [Fintype k] (A : Matrix m k ℝ) {f : k → Ω → ℝ} (hf : ∀ j, MemLp (f j) 2 μ) (i : m) :
    ((act A (fun j => (hf j).toLp (f j)) i : Lp ℝ 2 μ) : Ω → ℝ) =ᵐ[μ] fun ω => ∑ j, A i j * f j ω := by
  unfold act
  have h2 : ∀ᵐ ω ∂μ, ∀ j, (A i j • (hf j).toLp (f j) : Lp ℝ 2 μ) ω = A i j * f j ω := by
    rw [eventually_countable_forall]
    intro j
    filter_upwards [Lp.coeFn_smul (A i j) ((hf j).toLp (f j)), (hf j).coeFn_toLp] with ω h h'
    rw [h, Pi.smul_apply, h']; rfl
  filter_upwards [Gauss.lp_sum univ (fun j => A i j • (hf j).toLp (f j)), h2] with ω h1 h2
  rw [h1, Finset.sum_apply]
  exact Finset.sum_congr rfl fun j _ => h2 j

theorem lp_const (c : ℝ) : ((c • Gauss.lpOne μ : Lp ℝ 2 μ) : Ω → ℝ) =ᵐ[μ] fun _ => c := by
  filter_upwards [Lp.coeFn_smul c (Gauss.lpOne μ), (memLp_const (1 : ℝ) : MemLp (fun _ : Ω => (1 : ℝ)) 2 μ).coeFn_toLp] with ω h1 h2
  rw [h1, Pi.smul_apply]
  simp only [Gauss.lpOne, h2, smul_eq_mul, mul_one]

theorem recursion (h : Spec.TwoSided μ θ X Y η ε) (t : ℤ) :
    xL h (t + 1) = act θ.T (xL h t) + const (Gauss.lpOne μ) θ.c + act θ.R (eL h t) := by
  funext i
  refine Lp.ext ?_
  simp only [Pi.add_apply]
  filter_upwards [(h.square (t + 1) i).coeFn_toLp, h.transition t i, Lp.coeFn_add (act θ.T (xL h t) i + const (Gauss.lpOne μ) θ.c i) (act θ.R (eL h t) i),
    Lp.coeFn_add (act θ.T (xL h t) i) (const (Gauss.lpOne μ) θ.c i), lp_act θ.T (h.square t) i, lp_act θ.R (memShock h t) i,
    lp_const (μ := μ) (θ.c i)] with ω h1 h2 h3 h4 h5 h6 h7
  rw [h3, Pi.add_apply, h4, Pi.add_apply]
  have h5' : (act θ.T (xL h t) i : Lp ℝ 2 μ) ω = ∑ j, θ.T i j * X t j ω := h5
  have h6' : (act θ.R (eL h t) i : Lp ℝ 2 μ) ω = ∑ j, θ.R i j * η t j ω := h6
  have h7' : (const (Gauss.lpOne μ) θ.c i : Lp ℝ 2 μ) ω = θ.c i := h7
  have h1' : (xL h (t + 1) i : Lp ℝ 2 μ) ω = X (t + 1) i ω := h1
  rw [h1', h2, h5', h6', h7']

/-- Deviations from the stationary mean. -/
noncomputable def dev (h : Spec.TwoSided μ θ X Y η ε) (m : n → ℝ) (t : ℤ) : n → Lp ℝ 2 μ := xL h t - const (Gauss.lpOne μ) m

theorem dev_limit (h : Spec.TwoSided μ θ X Y η ε) (hT : Spec.Stable θ.T) {m : n → ℝ} (hm : θ.T *ᵥ m + θ.c = m) (t : ℤ) (i : n) :
    Tendsto (fun k => past θ.T θ.R (eL h) k t i) atTop (𝓝 (dev h m t i)) := by
  obtain ⟨C, hC⟩ := h.bounded
  refine limit hT (x := dev h m) (fun t => ?_) (C := Real.sqrt C + ∑ i, ‖m i • Gauss.lpOne μ‖) (fun t i => ?_) t i
  · unfold dev
    rw [recursion h t, act_sub, act_const]
    have e : const (Gauss.lpOne μ) m = const (Gauss.lpOne μ) (θ.T *ᵥ m) + const (Gauss.lpOne μ) θ.c := by
      conv_lhs => rw [← hm]
      funext i; simp [const, add_smul]
    rw [e]; abel
  · refine (norm_sub_le _ _).trans (add_le_add ?_ ?_)
    · refine Real.le_sqrt_of_sq_le ?_
      rw [← real_inner_self_eq_norm_sq, xL, Gauss.inner_toLp]
      simpa only [sq] using hC t i
    · exact Finset.single_le_sum (f := fun i => ‖m i • Gauss.lpOne μ‖) (fun _ _ => norm_nonneg _) (mem_univ i)

theorem xL_dev (h : Spec.TwoSided μ θ X Y η ε) (m : n → ℝ) (t : ℤ) (i : n) : xL h t i = dev h m t i + m i • Gauss.lpOne μ := by
  simp [dev, const]

theorem inner_one_toLp {f : Ω → ℝ} (hf : MemLp f 2 μ) : inner ℝ (Gauss.lpOne μ) (hf.toLp f) = ∫ ω, f ω ∂μ := by
  rw [Gauss.inner_lpOne, integral_congr_ae hf.coeFn_toLp]

theorem inner_one_one : inner ℝ (Gauss.lpOne μ) (Gauss.lpOne μ) = 1 := by
  unfold Gauss.lpOne
  rw [Gauss.inner_toLp]; simp

section

variable (h : Spec.TwoSided μ θ X Y η ε) (hT : Spec.Stable θ.T) {m : n → ℝ} (hm : θ.T *ᵥ m + θ.c = m)

include h hT hm

theorem dev_one (t : ℤ) (i : n) : inner ℝ (dev h m t i) (Gauss.lpOne μ) = 0 := by
  refine inner_zero (dev_limit h hT hm t i) fun s _ j => ?_
  rw [real_inner_comm, eL, inner_one_toLp, h.mean_shock]

theorem mean_state (t : ℤ) (i : n) : ∫ ω, X t i ω ∂μ = m i := by
  rw [← inner_one_toLp (h.square t i)]
  show inner ℝ _ (xL h t i) = _
  rw [xL_dev h m, inner_add_right, real_inner_comm, dev_one h hT hm, inner_smul_right, inner_one_one, mul_one, zero_add]

theorem cov_dev (t : ℤ) (i : n) {f : Ω → ℝ} (hf : MemLp f 2 μ) : cov[X t i, f; μ] = inner ℝ (dev h m t i) (hf.toLp f) := by
  rw [covariance_eq_sub (h.square t i) hf, mean_state h hT hm]
  have e := Gauss.inner_toLp (h.square t i) hf
  have e' : inner ℝ (xL h t i) (hf.toLp f) = _ := e
  rw [xL_dev h m, inner_add_left, inner_smul_left, inner_one_toLp] at e'
  rw [show (∫ ω, (X t i * f) ω ∂μ) = ∫ ω, X t i ω * f ω ∂μ from rfl, ← e']
  simp

theorem cov_state (t : ℤ) (i j : n) : cov[X t i, X t j; μ] = (stationaryInit θ.c θ.T θ.R θ.Q).2 i j := by
  rw [cov_dev h hT hm t i (h.square t j)]
  show inner ℝ _ (xL h t j) = _
  rw [xL_dev h m, inner_add_right, inner_smul_right, dev_one h hT hm, mul_zero, add_zero]
  exact congrFun (congrFun (covM_self θ.c hT (covM_eL h) t (dev_limit h hT hm t)) i) j

theorem cov_later (s t : ℤ) (hst : s ≤ t) (i : n) (j : r) : cov[X s i, η t j; μ] = 0 := by
  rw [cov_dev h hT hm s i (memShock h t j)]
  refine inner_zero (dev_limit h hT hm s i) fun u hu l => ?_
  rw [eL, inner_cov _ _ (h.mean_shock t j), h.cov_shock, if_neg (by omega)]

theorem cov_obs_error (s : ℤ) (t : ℕ) (i : n) (j : p) : cov[X s i, ε t j; μ] = 0 := by
  rw [cov_dev h hT hm s i (memError h t j)]
  refine inner_zero (dev_limit h hT hm s i) fun u _ l => ?_
  rw [eL, inner_cov _ _ (h.mean_error t j), h.cov_cross]

/-- The initial state, the later shocks and the errors are jointly normal. -/
theorem sources_normal : IsGaussianProcess (Kalman.Spec.sources (fun t : ℕ => X t) (fun t : ℕ => η t) ε) μ := by
  let src : (ℤ × r) ⊕ (ℕ × p) → Ω → ℝ := fun q => q.elim (fun q => η q.1 q.2) fun q => ε q.1 q.2
  let F : ℕ → n ⊕ (ℕ × r) ⊕ (ℕ × p) → Lp ℝ 2 μ := fun k q => match q with
    | .inl i => past θ.T θ.R (eL h) k 0 i + m i • Gauss.lpOne μ
    | .inr (.inl q) => eL h q.1 q.2
    | .inr (.inr q) => (memError h q.1 q.2).toLp (ε q.1 q.2)
  let F' : n ⊕ (ℕ × r) ⊕ (ℕ × p) → Lp ℝ 2 μ := fun q => match q with
    | .inl i => xL h 0 i
    | .inr (.inl q) => eL h q.1 q.2
    | .inr (.inr q) => (memError h q.1 q.2).toLp (ε q.1 q.2)
  have hlim : ∀ q, Tendsto (fun k => F k q) atTop (𝓝 (F' q)) := by
    rintro (i | q | q)
    · show Tendsto (fun k => past θ.T θ.R (eL h) k 0 i + m i • Gauss.lpOne μ) atTop (𝓝 (xL h 0 i))
      rw [xL_dev h m]
      exact (dev_limit h hT hm 0 i).add_const _
    · exact tendsto_const_nhds
    · exact tendsto_const_nhds
  have hG : ∀ k, IsGaussianProcess (fun q => ((F k q : Lp ℝ 2 μ) : Ω → ℝ)) μ := by
    intro k
    let G : n ⊕ (ℕ × r) ⊕ (ℕ × p) → Ω → ℝ := fun q => match q with
      | .inl i => fun ω => ∑ l ∈ range k, ∑ j, (θ.T ^ l * θ.R) i j * η (0 - 1 - l) j ω + m i
      | .inr (.inl q) => η q.1 q.2
      | .inr (.inr q) => ε q.1 q.2
    have hGG : IsGaussianProcess G μ := by
      refine Gauss.of_affine h.normal _ ?_
      rintro (i | q | q)
      · have e : G (.inl i) = ∑ l ∈ range k, ∑ j, (θ.T ^ l * θ.R) i j • src (.inl ((0 - 1 - l : ℤ), j)) + m i • fun _ => (1 : ℝ) := by
          funext ω; simp [G, src]
        rw [e]
        exact Submodule.add_mem _ (Submodule.sum_mem _ fun l _ => Submodule.sum_mem _ fun j _ => Submodule.smul_mem _ _
          (Gauss.source_mem src _)) (Submodule.smul_mem _ _ (Gauss.one_mem _))
      · exact Gauss.source_mem src (.inl ((q.1 : ℤ), q.2))
      · exact Gauss.source_mem src (.inr q)
    refine hGG.congr ?_
    rintro (i | q | q)
    · have h1 : ∀ᵐ ω ∂μ, ∀ l : ℕ, (act (θ.T ^ l * θ.R) (eL h (0 - 1 - l)) i : Lp ℝ 2 μ) ω = ∑ j, (θ.T ^ l * θ.R) i j * η (0 - 1 - l) j ω := by
        rw [ae_all_iff]; intro l
        exact lp_act _ (memShock h _) i
      have e : past θ.T θ.R (eL h) k 0 i = ∑ l ∈ range k, act (θ.T ^ l * θ.R) (eL h (0 - 1 - l)) i := by
        simp [past]
      filter_upwards [h1, Lp.coeFn_add (past θ.T θ.R (eL h) k 0 i) (m i • Gauss.lpOne μ), lp_const (μ := μ) (m i),
        Gauss.lp_sum (range k) (fun l => act (θ.T ^ l * θ.R) (eL h (0 - 1 - l)) i)] with ω h1 h2 h3 h4
      show _ = (past θ.T θ.R (eL h) k 0 i + m i • Gauss.lpOne μ : Lp ℝ 2 μ) ω
      rw [h2, Pi.add_apply, h3, e, h4, Finset.sum_apply]
      simp only [G, h1]
    · exact (memShock h _ _).coeFn_toLp.symm
    · exact (memError h _ _).coeFn_toLp.symm
  refine (Gauss.limit hlim hG).congr ?_
  rintro (i | q | q)
  · exact (h.square 0 i).coeFn_toLp
  · exact (memShock h _ _).coeFn_toLp
  · exact (memError h _ _).coeFn_toLp

end

/-- The states from date 0 on, rebuilt from the state at date 0 and the shocks. -/
noncomputable def forward (θ : Params n p r) (X : ℤ → n → Ω → ℝ) (η : ℤ → r → Ω → ℝ) : ℕ → n → Ω → ℝ
  | 0 => X 0
  | t + 1 => fun i ω => ∑ j, θ.T i j * forward θ X η t j ω + θ.c i + ∑ j, θ.R i j * η t j ω

theorem forward_eq (h : Spec.TwoSided μ θ X Y η ε) (t : ℕ) : ∀ i, forward θ X η t i =ᵐ[μ] X t i := by
  induction t with
  | zero => intro i; exact EventuallyEq.rfl
  | succ t ih =>
    intro i
    filter_upwards [eventually_countable_forall.2 ih, h.transition t i] with ω h1 h2
    show ∑ j, θ.T i j * forward θ X η t j ω + θ.c i + ∑ j, θ.R i j * η t j ω = _
    simp only [h1]
    push_cast
    exact h2.symm

end TwoSided

open TwoSided

/-! ### Theorems -/

/-- **C194 (initial state).** Let a process without beginning follow a stable model with bounded second moments.  Then, up to events of
probability zero, from date 0 on it is a normal process that follows the model and starts from the stationary initialisation: the
initial mean and covariance computed by the package are those of its state at date 0.  All theorems on such processes (C162–C164,
C189–C191) apply to it. -/
theorem C194_stationary_start (h : Spec.TwoSided μ θ X Y η ε) (hT : Spec.Stable θ.T) :
    ∃ (X' : ℕ → n → Ω → ℝ) (Y' : ℕ → p → Ω → ℝ), (∀ t i, X' t i =ᵐ[μ] X t i) ∧ (∀ t i, Y' t i =ᵐ[μ] Y t i) ∧
      Kalman.Spec.NormalProcess μ (fun _ => θ) (stationaryInit θ.c θ.T θ.R θ.Q).1 (stationaryInit θ.c θ.T θ.R θ.Q).2 X' Y'
        (fun t : ℕ => η t) ε := by
  have hQ : θ.Q.PosSemidef := by
    have := covM_posSemidef (innerₗ (Lp ℝ 2 μ)) inner_symm' (fun w => by rw [innerₗ_apply_apply]; exact real_inner_self_nonneg) (eL h 0)
    rwa [covM_eL h, if_pos rfl] at this
  obtain ⟨-, -, h3, -, -⟩ := C170_fixed_point θ.c hT θ.R hQ
  have hm := (h3 _).2 rfl
  have hf := forward_eq h
  refine ⟨forward θ X η, fun t i ω => ∑ j, θ.Z i j * forward θ X η t j ω + θ.d i + ε t i ω, hf, fun t i => ?_, ?_⟩
  · filter_upwards [eventually_countable_forall.2 (hf t), h.observation t i] with ω h1 h2
    simp only [h1]
    exact h2.symm
  · exact
    { transition := fun t i ω => rfl
      observation := fun t i ω => rfl
      sqInt_initial := fun i => h.square 0 i
      sqInt_shock := fun t i => memShock h t i
      sqInt_error := fun t i => memError h t i
      mean_initial := fun i => mean_state h hT hm 0 i
      mean_shock := fun t i => h.mean_shock t i
      mean_error := fun t i => h.mean_error t i
      cov_initial := fun i j => cov_state h hT hm 0 i j
      cov_shock := fun t i j => by rw [h.cov_shock, if_pos rfl]
      cov_error := fun t i j => by rw [h.cov_error, if_pos rfl]
      shocks_uncorrelated := fun s t i j hst => by rw [h.cov_shock, if_neg (by exact_mod_cast hst)]
      errors_uncorrelated := fun s t i j hst => by rw [h.cov_error, if_neg hst]
      shocks_errors_uncorrelated := fun s t i j => h.cov_cross s t i j
      initial_shocks_uncorrelated := fun t i j => cov_later h hT hm 0 t (by omega) i j
      initial_errors_uncorrelated := fun t i j => cov_obs_error h hT hm 0 t i j
      normal := sources_normal h hT hm }

theorem undetermined_congr {Y Y' : ℕ → p → Ω → ℝ} (h : ∀ t i, Y' t i =ᵐ[μ] Y t i) (hY : Kalman.Spec.Undetermined μ Y) :
    Kalman.Spec.Undetermined μ Y' := by
  intro t w v h0
  refine hY t w v ?_
  rw [← h0]
  refine variance_congr ?_
  have hall : ∀ᵐ ω ∂μ, ∀ t, ∀ i, Y' t i ω = Y t i ω := by
    rw [ae_all_iff]; intro t
    exact eventually_countable_forall.2 (h t)
  filter_upwards [hall] with ω hω
  simp only [hω]

/-- **C194 (density).** The data of such a process have a Lebesgue density: the exponential of the log-likelihood reported under the
stationary initialisation, up to the factor of C190 that is one for a single series. -/
theorem C194_density [Nonempty p] (h : Spec.TwoSided μ θ X Y η ε) (hT : Spec.Stable θ.T) (hY : Kalman.Spec.Undetermined μ Y) (fill : ℝ)
    (N : ℕ) :
    μ.map (fun ω (q : p × Fin N) => Y q.2 q.1 ω) = (volume : Measure (p × Fin N → ℝ)).withDensity fun y =>
      ENNReal.ofReal (Real.exp (Kalman.Spec.loglik (fun _ => θ) fill (stationaryInit θ.c θ.T θ.R θ.Q).1 (stationaryInit θ.c θ.T θ.R θ.Q).2 y -
        N * (((Fintype.card p : ℝ) - 1) / 2 * Real.log (2 * Real.pi)))) := by
  obtain ⟨X', Y', -, hY', hN⟩ := C194_stationary_start h hT
  rw [← C190_data_density hN (undetermined_congr hY' hY) fill N]
  refine Measure.map_congr ?_
  filter_upwards [eventually_countable_forall.2 fun q : p × Fin N => hY' q.2 q.1] with ω hω
  funext q
  exact (hω q).symm

/-- **C194 (such processes exist).** For every stable model with positive semidefinite covariances there is a process as in the
specification. -/
theorem C194_exists {n p r : Type} [Fintype n] [Fintype p] [Fintype r] [DecidableEq n] [DecidableEq p] [DecidableEq r]
    (θ : Params n p r) (hT : Spec.Stable θ.T) (hQ : θ.Q.PosSemidef) (hH : θ.H.PosSemidef) :
    ∃ (Ω : Type) (_ : MeasurableSpace Ω) (μ : Measure Ω) (_ : IsProbabilityMeasure μ) (X : ℤ → n → Ω → ℝ) (Y : ℕ → p → Ω → ℝ)
      (η : ℤ → r → Ω → ℝ) (ε : ℕ → p → Ω → ℝ), Spec.TwoSided μ θ X Y η ε := by
  obtain ⟨Ω, mΩ, μ, hμ, ξ, hG, hmem, hmean, hvar, hcov⟩ := exists_normals ((ℤ × r) ⊕ (ℕ × p))
  obtain ⟨LQ, hLQ⟩ := exists_factor hQ
  obtain ⟨LH, hLH⟩ := exists_factor hH
  obtain ⟨-, -, h3, -, -⟩ := C170_fixed_point θ.c hT θ.R hQ
  set m := (stationaryInit θ.c θ.T θ.R θ.Q).1 with hmdef
  have hm := (h3 m).2 rfl
  have hc : ∀ a b, cov[ξ a, ξ b; μ] = if a = b then 1 else 0 := by
    intro a b
    by_cases h : a = b
    · subst h; simp [hvar]
    · simp [h, hcov a b h]
  let η : ℤ → r → Ω → ℝ := fun t i ω => ∑ j, LQ i j * ξ (.inl (t, j)) ω
  let ε : ℕ → p → Ω → ℝ := fun t i ω => ∑ j, LH i j * ξ (.inr (t, j)) ω
  have hη : ∀ t i, MemLp (η t i) 2 μ := fun t i => memLp_finset_sum _ fun j _ => (hmem _).const_mul _
  have hε : ∀ t i, MemLp (ε t i) 2 μ := fun t i => memLp_finset_sum _ fun j _ => (hmem _).const_mul _
  have mean0 : ∀ {k : Type} [Fintype k] (w : k → ℝ) (f : k → (ℤ × r) ⊕ (ℕ × p)), ∫ ω, ∑ j, w j * ξ (f j) ω ∂μ = 0 := by
    intro k _ w f
    rw [integral_finset_sum _ fun j _ => ((hmem _).integrable (by norm_num)).const_mul _]
    exact sum_eq_zero fun j _ => by rw [integral_const_mul, hmean, mul_zero]
  have covs : ∀ {k l : Type} [Fintype k] [Fintype l] (w : k → ℝ) (v : l → ℝ) (f : k → (ℤ × r) ⊕ (ℕ × p)) (g : l → (ℤ × r) ⊕ (ℕ × p)),
      cov[fun ω => ∑ i, w i * ξ (f i) ω, fun ω => ∑ j, v j * ξ (g j) ω; μ] = ∑ i, ∑ j, w i * v j * if f i = g j then 1 else 0 := by
    intro k l _ _ w v f g
    rw [covariance_fun_sum_fun_sum (fun i => (hmem _).const_mul _) (fun i => (hmem _).const_mul _)]
    refine sum_congr rfl fun i _ => sum_congr rfl fun j _ => ?_
    rw [covariance_const_mul_left, covariance_const_mul_right, hc]; ring
  have hcη : ∀ s t i j, cov[η s i, η t j; μ] = if s = t then θ.Q i j else 0 := by
    intro s t i j
    rw [show cov[η s i, η t j; μ] = _ from covs (LQ i) (LQ j) (fun a => .inl (s, a)) (fun a => .inl (t, a))]
    by_cases hst : s = t
    · subst hst
      rw [if_pos rfl, hLQ, Matrix.mul_apply]
      simp
    · simp [hst]
  have hcε : ∀ s t i j, cov[ε s i, ε t j; μ] = if s = t then θ.H i j else 0 := by
    intro s t i j
    rw [show cov[ε s i, ε t j; μ] = _ from covs (LH i) (LH j) (fun a => .inr (s, a)) (fun a => .inr (t, a))]
    by_cases hst : s = t
    · subst hst
      rw [if_pos rfl, hLH, Matrix.mul_apply]
      simp
    · simp [hst]
  let e : ℤ → r → Lp ℝ 2 μ := fun t j => (hη t j).toLp (η t j)
  have hee : ∀ s t, covM (innerₗ (Lp ℝ 2 μ)) (e s) (e t) = if s = t then θ.Q else 0 := by
    intro s t
    ext i j
    simp only [covM, Matrix.of_apply, innerₗ_apply_apply, e]
    rw [inner_cov _ _ (mean0 _ _), hcη]
    split <;> rfl
  choose d hd using fun t i => exists_limit θ.c hT (R := θ.R) hee t i
  have hrec := solves hd
  let x : ℤ → n → Lp ℝ 2 μ := fun t i => d t i + m i • Gauss.lpOne μ
  have hxrec : ∀ t, x (t + 1) = act θ.T (x t) + const (Gauss.lpOne μ) θ.c + act θ.R (e t) := by
    intro t
    have e1 : x t = d t + const (Gauss.lpOne μ) m := rfl
    have e2 : x (t + 1) = d (t + 1) + const (Gauss.lpOne μ) m := rfl
    have e3 : const (Gauss.lpOne μ) m = const (Gauss.lpOne μ) (θ.T *ᵥ m) + const (Gauss.lpOne μ) θ.c := by
      conv_lhs => rw [← hm]
      funext i; simp [const, add_smul]
    rw [e1, e2, hrec, act_add, act_const, e3]
    abel
  refine ⟨Ω, mΩ, μ, hμ, fun t i => x t i, fun t i ω => ∑ j, θ.Z i j * x t j ω + θ.d i + ε t i ω, η, ε, ?_⟩
  refine
    { transition := fun t i => ?_
      observation := fun t i => Eventually.of_forall fun ω => rfl
      square := fun t i => Lp.memLp _
      bounded := ?_
      normal := ?_
      mean_shock := fun t i => mean0 _ _
      mean_error := fun t i => mean0 _ _
      cov_shock := hcη
      cov_error := hcε
      cov_cross := fun s t i j => ?_ }
  · have h1 := congrFun (hxrec t) i
    simp only [Pi.add_apply] at h1
    filter_upwards [Lp.coeFn_add (act θ.T (x t) i + const (Gauss.lpOne μ) θ.c i) (act θ.R (e t) i),
      Lp.coeFn_add (act θ.T (x t) i) (const (Gauss.lpOne μ) θ.c i), lp_act θ.T (f := fun j => (x t j : Ω → ℝ)) (fun j => Lp.memLp (x t j)) i,
      lp_act θ.R (hη t) i, lp_const (μ := μ) (θ.c i)] with ω h3 h4 h5 h6 h7
    rw [h1, h3, Pi.add_apply, h4, Pi.add_apply]
    simp only [Lp.toLp_coeFn] at h5
    exact congrArg₂ (· + ·) (congrArg₂ (· + ·) h5 h7) h6
  · refine ⟨∑ i, (Real.sqrt ((stationaryInit θ.c θ.T θ.R θ.Q).2 i i) + ‖m i • Gauss.lpOne μ‖) ^ 2, fun t i => ?_⟩
    have h1 : ∫ ω, x t i ω ^ 2 ∂μ = ‖x t i‖ ^ 2 := by
      rw [← real_inner_self_eq_norm_sq, Gauss.inner_eq]
      simp only [sq]
    have h2 : ‖d t i‖ ≤ Real.sqrt ((stationaryInit θ.c θ.T θ.R θ.Q).2 i i) := by
      refine Real.le_sqrt_of_sq_le ?_
      rw [← real_inner_self_eq_norm_sq]
      exact (congrFun (congrFun (covM_self θ.c hT hee t (hd t)) i) i).le
    show ∫ ω, x t i ω ^ 2 ∂μ ≤ _
    rw [h1]
    refine le_trans (pow_le_pow_left₀ (norm_nonneg _) ((norm_add_le _ _).trans (add_le_add_left h2 _)) 2) ?_
    exact Finset.single_le_sum (f := fun i => (Real.sqrt ((stationaryInit θ.c θ.T θ.R θ.Q).2 i i) + ‖m i • Gauss.lpOne μ‖) ^ 2)
      (fun _ _ => sq_nonneg _) (mem_univ i)
  · refine Gauss.of_affine hG _ ?_
    rintro (q | q)
    · have e1 : (η q.1 q.2 : Ω → ℝ) = ∑ j, LQ q.2 j • ξ (.inl (q.1, j)) := by funext ω; simp [η]
      show η q.1 q.2 ∈ _
      rw [e1]
      exact Submodule.sum_mem _ fun j _ => Submodule.smul_mem _ _ (Gauss.source_mem ξ _)
    · have e1 : (ε q.1 q.2 : Ω → ℝ) = ∑ j, LH q.2 j • ξ (.inr (q.1, j)) := by funext ω; simp [ε]
      show ε q.1 q.2 ∈ _
      rw [e1]
      exact Submodule.sum_mem _ fun j _ => Submodule.smul_mem _ _ (Gauss.source_mem ξ _)
  · rw [show cov[η s i, ε t j; μ] = _ from covs (LQ i) (LH j) (fun a => .inl (s, a)) (fun a => .inr (t, a))]
    simp

/-- The AR(1) with coefficient 1/2, constant 3, unit shock and error variances: a process as in the specification exists, its data are
never determined, and so its density is as `C194_density` says. -/
example (hT : Spec.Stable !![(1 / 2 : ℝ)]) : ∃ (θ : Params (Fin 1) (Fin 1) (Fin 1)) (Ω : Type) (_ : MeasurableSpace Ω) (μ : Measure Ω)
    (_ : IsProbabilityMeasure μ) (X : ℤ → Fin 1 → Ω → ℝ) (Y : ℕ → Fin 1 → Ω → ℝ) (η : ℤ → Fin 1 → Ω → ℝ) (ε : ℕ → Fin 1 → Ω → ℝ),
    Spec.TwoSided μ θ X Y η ε ∧ Spec.Stable θ.T ∧ Kalman.Spec.Undetermined μ Y ∧ θ.c = ![3] ∧ θ.T = !![1 / 2] := by
  let θ : Params (Fin 1) (Fin 1) (Fin 1) := ⟨![3], ![0], !![1 / 2], !![1], !![1], 1, 1⟩
  obtain ⟨Ω, m, μ, hμ, X, Y, η, ε, h⟩ := C194_exists θ hT PosSemidef.one PosSemidef.one
  obtain ⟨X', Y', -, hY', hN⟩ := C194_stationary_start h hT
  refine ⟨θ, Ω, m, μ, hμ, X, Y, η, ε, h, hT, ?_, rfl, rfl⟩
  refine undetermined_congr (fun t i => (hY' t i).symm) ?_
  exact Kalman.undetermined_of_H (θ := fun _ => θ) hN.toProcess (fun _ => PosDef.one)

end Verif.Stationary
