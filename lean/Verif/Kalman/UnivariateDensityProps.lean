import Verif.Kalman.UnivariateDensityRun
import Verif.Kalman.GaussianExists
import Mathlib.Data.Prod.Lex

/-!
# The univariate filter's likelihood is the density of the recorded data

Property theorems for C196.
-/

set_option autoImplicit false
set_option linter.unusedSectionVars false

open Matrix MeasureTheory ProbabilityTheory Filter Topology

namespace Verif.Kalman

open Orthogonal

namespace Spec

/-- The recorded entries of the first `N` dates. -/
def Entry {k : ℕ} (o : ℕ → Fin k → Prop) (N : ℕ) : Type := {q : Fin N × Fin k // o q.1 q.2}

instance {k : ℕ} (o : ℕ → Fin k → Prop) (N : ℕ) : Finite (Entry o N) := inferInstanceAs (Finite {q : Fin N × Fin k // o q.1 q.2})

noncomputable instance {k : ℕ} (o : ℕ → Fin k → Prop) (N : ℕ) : Fintype (Entry o N) := Fintype.ofFinite _

open Classical in
/-- The data set with the recorded values `y`; the other entries are NaN. -/
noncomputable def dataset {k : ℕ} (o : ℕ → Fin k → Prop) (N : ℕ) (y : Entry o N → ℝ) : List (Row (Fin k)) :=
  (List.finRange N).map fun (t : Fin N) (i : Fin k) => if h : o t i then some (y ⟨(t, i), h⟩) else none

variable {Ω : Type*} [MeasurableSpace Ω]

/-- No recorded entry of the first `N` dates is, up to a constant, a linear combination of others. -/
def UndeterminedEntries {k : ℕ} (μ : Measure Ω) (Y : ℕ → Fin k → Ω → ℝ) (o : ℕ → Fin k → Prop) (N : ℕ) : Prop :=
  ∀ w : Entry o N → ℝ, Var[fun ω => ∑ q, w q * Y q.1.1 q.1.2 ω; μ] = 0 → w = 0

end Spec

/-- The order in which the filter reads the entries. -/
noncomputable instance {k : ℕ} (o : ℕ → Fin k → Prop) (N : ℕ) : LinearOrder (Spec.Entry o N) :=
  LinearOrder.lift' (fun q : Spec.Entry o N => toLex q.1) fun _ _ h => Subtype.ext (toLex.injective h)

section prob

variable {n r : Type*} [Fintype n] [Fintype r] [DecidableEq n] [DecidableEq r] {k : ℕ}
variable {Ω : Type*} [MeasurableSpace Ω] {μ : Measure Ω} [IsProbabilityMeasure μ]
variable {θ : Params n (Fin k) r} {a0 : n → ℝ} {P0 : Matrix n n ℝ}
variable {X : ℕ → n → Ω → ℝ} {Y : ℕ → Fin k → Ω → ℝ} {η : ℕ → r → Ω → ℝ} {ε : ℕ → Fin k → Ω → ℝ}

/-- The recorded entries, none after date `N`. -/
def cut (o : ℕ → Fin k → Prop) (N : ℕ) : ℕ → Fin k → Prop := fun t i => t < N ∧ o t i

open Classical in
/-- The entries as functions of the data. -/
noncomputable def coord (o : ℕ → Fin k → Prop) (N : ℕ) (t : ℕ) (i : Fin k) : (Spec.Entry o N → ℝ) → ℝ :=
  fun y => if h : cut o N t i then y ⟨(⟨t, h.1⟩, i), h.2⟩ else 0

/-- Evaluation at a data set. -/
def evalData {D : Type*} (y : D) : (D → ℝ) →ₗ[ℝ] ℝ where
  toFun f := f y
  map_add' _ _ := rfl
  map_smul' _ _ := rfl

theorem read_lt {o : ℕ → Fin k → Prop} {N : ℕ} {q q' : Spec.Entry o N} (h : q' < q) :
    q'.1.1.1 < q.1.1.1 ∨ (q'.1.1.1 = q.1.1.1 ∧ q'.1.2.1 < q.1.2.1) := by
  have h : toLex q'.1 < toLex q.1 := h
  rcases Prod.Lex.toLex_lt_toLex.1 h with h | ⟨h1, h2⟩
  · exact Or.inl h
  · exact Or.inr ⟨congrArg Fin.val h1, h2⟩

theorem lt_of_read {o : ℕ → Fin k → Prop} {N : ℕ} {q q' : Spec.Entry o N}
    (h : q'.1.1.1 < q.1.1.1 ∨ (q'.1.1.1 = q.1.1.1 ∧ q'.1.2.1 < q.1.2.1)) : q' < q := by
  show toLex q'.1 < toLex q.1
  refine Prod.Lex.toLex_lt_toLex.2 (h.imp id fun h => ⟨Fin.ext h.1, h.2⟩)

/-- The forecasts as functions of the data. -/
noncomputable def forecast (θ : Params n (Fin k) r) (a0 : n → ℝ) (P0 : Matrix n n ℝ) (o : ℕ → Fin k → Prop) (N : ℕ)
    (q : Spec.Entry o N) : (Spec.Entry o N → ℝ) → ℝ :=
  fcast θ (cut o N) a0 P0 (coord o N) (fun _ => 1) q.1.1 q.1.2

/-- The forecast error variances. -/
noncomputable def errVar (θ : Params n (Fin k) r) (a0 : n → ℝ) (P0 : Matrix n n ℝ) (o : ℕ → Fin k → Prop) (N : ℕ)
    (q : Spec.Entry o N) : ℝ :=
  fvar θ (cut o N) a0 P0 (coord o N) (fun _ => (1 : ℝ)) q.1.1 q.1.2

theorem forecast_before (θ : Params n (Fin k) r) (a0 : n → ℝ) (P0 : Matrix n n ℝ) (o : ℕ → Fin k → Prop) (N : ℕ) (q : Spec.Entry o N) :
    forecast θ a0 P0 o N q ∈ Triangular.Before q := by
  have hle : Seen (fun _ => (1 : ℝ)) (coord o N) (cut o N) q.1.1 q.1.2 ≤ Triangular.Before q := by
    refine Submodule.span_mono ?_
    rintro w (hw | ⟨s, j, hr, rfl⟩)
    · exact Or.inl hw
    · refine Or.inr ⟨⟨(⟨s, hr.1.1⟩, j), hr.1.2⟩, lt_of_read hr.2, ?_⟩
      funext y
      simp [coord, hr.1]
  refine hle (Submodule.add_mem _ (Submodule.sum_mem _ fun l _ => Submodule.smul_mem _ _ ?_) (Submodule.smul_mem _ _ (one_seen _ _)))
  exact wRow_seen _ (fun i => wState_seen θ a0 P0 _ i) _ _ l

/-- The data of a realisation. -/
def sample (Y : ℕ → Fin k → Ω → ℝ) (o : ℕ → Fin k → Prop) (N : ℕ) (ω : Ω) : Spec.Entry o N → ℝ := fun q => Y q.1.1 q.1.2 ω

theorem sample_link (h : Spec.Process μ (fun _ => θ) a0 P0 X Y η ε) (o : ℕ → Fin k → Prop) (N : ℕ) (ω : Ω) (t : ℕ) (i : Fin k) :
    evalData (sample Y o N ω) (yAt (cut o N) (coord o N) t i) = evalAt ω (yAt (cut o N) (liftY h) t i) := by
  by_cases hc : cut o N t i
  · simp [yAt, hc, evalData, coord, sample, evalAt, liftY]
  · simp [yAt, hc]

theorem at'_link (h : Spec.Process μ (fun _ => θ) a0 P0 X Y η ε) (o : ℕ → Fin k → Prop) (N : ℕ) (ω : Ω) (t m : ℕ) :
    (∀ l, evalData (sample Y o N ω) ((at' θ (cut o N) a0 P0 (coord o N) (fun _ => (1 : ℝ)) t m).1 l) =
      evalAt ω ((at' θ (cut o N) a0 P0 (liftY h) (Orthogonal.one μ) t m).1 l)) ∧
    (at' θ (cut o N) a0 P0 (coord o N) (fun _ => (1 : ℝ)) t m).2 = (at' θ (cut o N) a0 P0 (liftY h) (Orthogonal.one μ) t m).2 := by
  have h1 := wState_link (evalData (sample Y o N ω)) (evalAt (μ := μ) ω) (one := fun _ => 1) (one' := Orthogonal.one μ) rfl rfl θ (cut o N) a0 P0
    (sample_link h o N ω) t
  have h2 := wRow_link (evalData (sample Y o N ω)) (evalAt (μ := μ) ω) (one := fun _ => 1) (one' := Orthogonal.one μ) rfl rfl
    (serAt θ (cut o N) t) (sample_link h o N ω t) h1.1 (wState (fun _ => 1) θ (cut o N) a0 P0 (coord o N) t).2 m
  rw [show wRow (Orthogonal.one μ) (serAt θ (cut o N) t) (yAt (cut o N) (liftY h) t) (wState (Orthogonal.one μ) θ (cut o N) a0 P0 (liftY h) t).1
    (wState (fun _ => 1) θ (cut o N) a0 P0 (coord o N) t).2 m = at' θ (cut o N) a0 P0 (liftY h) (Orthogonal.one μ) t m by
      rw [h1.2]; rfl] at h2
  exact h2

/-- The facts the program needs and the density of the data. -/
theorem entries_density (h : Spec.NormalProcess μ (fun _ => θ) a0 P0 X Y η ε) (hH : ∀ i j, i ≠ j → θ.H i j = 0)
    (o : ℕ → Fin k → Prop) (N : ℕ) (hY : Spec.UndeterminedEntries μ Y o N) :
    θ.Q.PosSemidef ∧ (∀ i, 0 ≤ θ.H i i) ∧ P0.PosSemidef ∧
    (∀ t m, m ≤ k → (at' θ (cut o N) a0 P0 (coord o N) (fun _ => (1 : ℝ)) t m).2.PosSemidef) ∧
    (∀ q, 0 < errVar θ a0 P0 o N q) ∧
    μ.map (fun ω (q : Spec.Entry o N) => Y q.1.1 q.1.2 ω) = (volume : Measure (Spec.Entry o N → ℝ)).withDensity fun y =>
      ENNReal.ofReal (Real.exp (∑ q, -(1 / 2) * (Real.log (2 * Real.pi) +
        (Real.log (errVar θ a0 P0 o N q) + (y q - forecast θ a0 P0 o N q y) ^ 2 / errVar θ a0 P0 o N q)))) := by
  have hp := h.toProcess
  have hΩ : Nonempty Ω := nonempty_of_isProbabilityMeasure μ
  obtain ⟨ω₀⟩ := hΩ
  have hinv := wState_inv (E := mean μ) (a0 := a0) (cut o N) (toProc hp) covB_self_nonneg hH (by simp [mean_apply, Orthogonal.one])
    hp.mean_initial hp.mean_shock hp.mean_error
  have hrow : ∀ t m, m ≤ k → Inv (covB μ) (mean μ) (Orthogonal.one μ) (liftX hp) (liftY hp) (liftη hp) (liftε hp) (cut o N) t m
      (at' θ (cut o N) a0 P0 (liftY hp) (Orthogonal.one μ) t m).1 (at' θ (cut o N) a0 P0 (liftY hp) (Orthogonal.one μ) t m).2 :=
    fun t m hm => (hinv t).1.row (toProc hp) covB_self_nonneg hH hp.mean_error m hm
  have hcut : ∀ q : Spec.Entry o N, cut o N q.1.1 q.1.2 := fun q => ⟨q.1.1.2, q.2⟩
  -- the forecast error as a random variable
  let e : Spec.Entry o N → L2 μ := fun q => liftY hp q.1.1 q.1.2 -
    (∑ l, (serAt θ (cut o N) q.1.1 q.1.2).z l • (at' θ (cut o N) a0 P0 (liftY hp) (Orthogonal.one μ) q.1.1 q.1.2).1 l) -
    (serAt θ (cut o N) q.1.1 q.1.2).d • Orthogonal.one μ
  have he : ∀ q, (fun ω => Y q.1.1 q.1.2 ω - forecast θ a0 P0 o N q (fun q' => Y q'.1.1 q'.1.2 ω)) = (e q).1 := by
    intro q
    funext ω
    have h1 : evalAt ω (e q) = evalAt ω (liftY hp q.1.1 q.1.2) -
        evalData (sample Y o N ω) (fcast θ (cut o N) a0 P0 (coord o N) (fun _ => 1) q.1.1 q.1.2) := by
      simp only [e, fcast, map_sub, map_sum, map_smul, map_add, (at'_link hp o N ω _ _).1]
      rw [show evalAt ω (Orthogonal.one μ) = 1 from rfl, show evalData (sample Y o N ω) (fun _ => 1) = 1 from rfl]
      ring
    exact h1.symm
  have hFv : ∀ q, errVar θ a0 P0 o N q = scalarF (serAt θ (cut o N) q.1.1 q.1.2)
      (at' θ (cut o N) a0 P0 (liftY hp) (Orthogonal.one μ) q.1.1 q.1.2).2 := by
    intro q
    show scalarF _ _ = _
    rw [(at'_link hp o N ω₀ _ _).2]
  have hin : ∀ q, covB μ (e q) (e q) = errVar θ a0 P0 o N q ∧ mean μ (e q) = 0 := by
    intro q
    rw [hFv]
    exact (hrow q.1.1 q.1.2 q.1.2.2.le).innov (toProc hp) hp.mean_error q.1.2.2 (hcut q)
  have horth : ∀ q q', q' < q → covB μ (e q) (e q') = 0 := by
    intro q q' hlt
    refine (hrow q.1.1 q.1.2 q.1.2.2.le).innov_past (toProc hp) hH q.1.2.2 (hcut q) (e q') ?_
    have hr := read_lt hlt
    have hmono : Seen (Orthogonal.one μ) (liftY hp) (cut o N) q'.1.1 q'.1.2 ≤ Seen (Orthogonal.one μ) (liftY hp) (cut o N) q.1.1 q.1.2 :=
      seen_mono fun s j hs => ⟨hs.1, by
        rcases hs.2 with h | ⟨h, h'⟩ <;> rcases hr with g | ⟨g, g'⟩
        · exact Or.inl (h.trans g)
        · exact Or.inl (h.trans_eq g)
        · exact Or.inl (h.trans_lt g)
        · exact Or.inr ⟨h.trans g, h'.trans g'⟩⟩
    refine Submodule.sub_mem _ (Submodule.sub_mem _ ?_ ?_) ?_
    · exact Submodule.subset_span (Or.inr ⟨_, _, ⟨hcut q', hr⟩, rfl⟩)
    · exact Submodule.sum_mem _ fun l _ => Submodule.smul_mem _ _ (hmono (wRow_seen _ (fun i => wState_seen θ a0 P0 _ i) _ _ l))
    · exact Submodule.smul_mem _ _ (one_seen _ _)
  have hpos : ∀ q, 0 < errVar θ a0 P0 o N q := by
    intro q
    refine lt_of_le_of_ne (by rw [← (hin q).1]; exact covB_self_nonneg _) fun h0 => ?_
    obtain ⟨A, b, hA, hA0⟩ := Triangular.exists_coeff (forecast_before θ a0 P0 o N q)
    have h1 : Var[fun ω => ∑ q', ((Pi.single q 1 : Spec.Entry o N → ℝ) - A) q' * Y q'.1.1 q'.1.2 ω; μ] = 0 := by
      have h2 : covB μ (e q) (e q) = 0 := (hin q).1.trans h0.symm
      rw [covB_apply, covariance_self (e q).2.aemeasurable, ← he q] at h2
      have h3 : (fun ω => ∑ q', ((Pi.single q 1 : Spec.Entry o N → ℝ) - A) q' * Y q'.1.1 q'.1.2 ω) =
          fun ω => (Y q.1.1 q.1.2 ω - forecast θ a0 P0 o N q (fun q' => Y q'.1.1 q'.1.2 ω)) + b := by
        funext ω
        rw [hA]
        simp only [Pi.sub_apply, sub_mul, Finset.sum_sub_distrib, Pi.single_apply, ite_mul, one_mul, zero_mul,
          Finset.sum_ite_eq', Finset.mem_univ, if_true]
        ring
      rw [h3, variance_add_const (by rw [he q]; exact (e q).2.aestronglyMeasurable)]
      exact h2
    have h4 := congrFun (hY _ h1) q
    simp [hA0 q le_rfl] at h4
  have hHp : θ.H.PosSemidef := by rw [← (toProc hp).εε 0]; exact covM_posSemidef _ (toProc hp).sym covB_self_nonneg _
  refine ⟨by rw [← (toProc hp).ηη 0]; exact covM_posSemidef _ (toProc hp).sym covB_self_nonneg _, fun i => hHp.diag_nonneg,
    by rw [← (toProc hp).x0]; exact covM_posSemidef _ (toProc hp).sym covB_self_nonneg _, fun t m hm => ?_, hpos, ?_⟩
  · rw [(at'_link hp o N ω₀ t m).2]
    have : covM (covB μ) (liftX hp t - (at' θ (cut o N) a0 P0 (liftY hp) (Orthogonal.one μ) t m).1)
        (liftX hp t - (at' θ (cut o N) a0 P0 (liftY hp) (Orthogonal.one μ) t m).1) =
        (at' θ (cut o N) a0 P0 (liftY hp) (Orthogonal.one μ) t m).2 := by
      ext i l; exact (hrow t m hm).cov i l
    rw [← this]; exact covM_posSemidef _ (toProc hp).sym covB_self_nonneg _
  · have hg := Gauss.of_affine h.normal (fun (q : Spec.Entry o N) ω => Y q.1.1 q.1.2 ω) fun q => Gauss.memY hp q.1.1 q.1.2
    refine Triangular.density hg (forecast_before θ a0 P0 o N) hpos (fun q => ?_) fun q q' => ?_
    · rw [he q]; exact (hin q).2
    · rw [he q, he q', ← covB_apply]
      by_cases hq : q = q'
      · subst hq; rw [if_pos rfl]; exact (hin q).1
      · rw [if_neg hq]
        rcases lt_or_gt_of_ne hq with hlt | hlt
        · rw [(toProc hp).sym]; exact horth q' q hlt
        · exact horth q q' hlt

theorem dataset_eq (o : ℕ → Fin k → Prop) (N : ℕ) (y : Spec.Entry o N → ℝ) :
    Spec.dataset o N y = (List.range N).map (rowsOf (evalData y) (cut o N) (coord o N)) := by
  rw [← List.map_coe_finRange_eq_range, List.map_map, Spec.dataset]
  refine List.map_congr_left fun t _ => ?_
  funext i
  by_cases h : o t i
  · simp [rowsOf, cut, coord, evalData, h]
  · simp [rowsOf, cut, h]

open Classical in
theorem sum_entries (o : ℕ → Fin k → Prop) (N : ℕ) (g : ℕ → Fin k → ℝ) :
    ∑ t ∈ Finset.range N, ∑ i, (if cut o N t i then g t i else 0) = ∑ q : Spec.Entry o N, g q.1.1 q.1.2 := by
  rw [Finset.sum_range, ← Finset.sum_product', Finset.univ_product_univ,
    Finset.sum_congr rfl (g := fun q : Fin N × Fin k => if o q.1 q.2 then g q.1 q.2 else 0) (by intro q _; simp [cut]),
    ← Finset.sum_filter]
  exact Finset.sum_subtype _ (p := fun q : Fin N × Fin k => o q.1 q.2) (by simp) fun q => g q.1 q.2

/-- The log-density of the recorded data, written with the forecasts. -/
noncomputable def logDens (θ : Params n (Fin k) r) (a0 : n → ℝ) (P0 : Matrix n n ℝ) (o : ℕ → Fin k → Prop) (N : ℕ)
    (y : Spec.Entry o N → ℝ) : ℝ :=
  ∑ q, -(1 / 2) * (Real.log (2 * Real.pi) +
    (Real.log (errVar θ a0 P0 o N q) + (y q - forecast θ a0 P0 o N q y) ^ 2 / errVar θ a0 P0 o N q))

theorem evalData_coord (o : ℕ → Fin k → Prop) (N : ℕ) (y : Spec.Entry o N → ℝ) (q : Spec.Entry o N) :
    evalData y (coord o N q.1.1 q.1.2) = y q := by
  have : cut o N q.1.1 q.1.2 := ⟨q.1.1.2, q.2⟩
  simp [evalData, coord, this]
  rfl

theorem term_ne (θ : Params n (Fin k) r) (a0 : n → ℝ) (P0 : Matrix n n ℝ) (o : ℕ → Fin k → Prop) (N : ℕ)
    (hpos : ∀ q, 0 < errVar θ a0 P0 o N q) : ∀ᵐ y ∂(volume : Measure (Spec.Entry o N → ℝ)),
    ∀ q, Real.log (errVar θ a0 P0 o N q) + (y q - forecast θ a0 P0 o N q y) ^ 2 / errVar θ a0 P0 o N q ≠ 0 := by
  rw [ae_all_iff]; intro q
  set c := Real.sqrt (-(Real.log (errVar θ a0 P0 o N q) * errVar θ a0 P0 o N q)) with hc
  filter_upwards [Triangular.null (forecast_before θ a0 P0 o N) q c, Triangular.null (forecast_before θ a0 P0 o N) q (-c)] with y h1 h2 h0
  have hF := hpos q
  have h3 : (y q - forecast θ a0 P0 o N q y) ^ 2 = -(Real.log (errVar θ a0 P0 o N q) * errVar θ a0 P0 o N q) := by
    field_simp at h0
    linarith
  have h4 : 0 ≤ -(Real.log (errVar θ a0 P0 o N q) * errVar θ a0 P0 o N q) := h3 ▸ sq_nonneg _
  rw [← Real.sq_sqrt h4, ← hc] at h3
  rcases sq_eq_sq_iff_eq_or_eq_neg.1 h3 with h | h
  · exact h1 h
  · exact h2 h

theorem sum_logDens (θ : Params n (Fin k) r) (a0 : n → ℝ) (P0 : Matrix n n ℝ) (o : ℕ → Fin k → Prop) (N : ℕ) (y : Spec.Entry o N → ℝ) :
    (open Classical in ∑ t ∈ Finset.range N, ∑ i, (if cut o N t i then
      -(1 / 2) * (mvnConst + term (evalData y) θ (cut o N) a0 P0 (coord o N) (fun _ => (1 : ℝ)) t i) else 0)) =
      logDens θ a0 P0 o N y := by
  rw [sum_entries]
  refine Finset.sum_congr rfl fun q _ => ?_
  rw [term, evalData_coord]
  rfl

/-- **C196 (any pattern of missing entries).** Take a normal process that follows the model (constant matrices, diagonal `H`) of which
no recorded entry is determined by the others.  The law of the recorded entries has a Lebesgue density, and for almost every data set
the univariate filter returns numbers for every positive jitter and the total log-likelihood it reports tends, as the jitter tends to
zero, to the logarithm of that density, whatever the pattern of recorded entries. -/
theorem C196_density (h : Spec.NormalProcess μ (fun _ => θ) a0 P0 X Y η ε) (hk : 0 < k) (hH : ∀ i j, i ≠ j → θ.H i j = 0)
    (o : ℕ → Fin k → Prop) (N : ℕ) (hY : Spec.UndeterminedEntries μ Y o N) :
    ∃ ℓ : (Spec.Entry o N → ℝ) → ℝ,
      μ.map (fun ω (q : Spec.Entry o N) => Y q.1.1 q.1.2 ω) =
        (volume : Measure (Spec.Entry o N → ℝ)).withDensity (fun y => ENNReal.ofReal (Real.exp (ℓ y))) ∧
      ∀ᵐ y ∂(volume : Measure (Spec.Entry o N → ℝ)), ∃ out : ℝ → UnivGraph n,
        (∀ jitter, 0 < jitter → univGraph jitter a0 P0 θ (Spec.dataset o N y) = some (out jitter)) ∧
        Tendsto (fun jitter => (out jitter).loglike.sum) (𝓝[>] 0) (𝓝 (ℓ y)) := by
  obtain ⟨hQ, hHn, hP0, hpsd, hpos, hlaw⟩ := entries_density h hH o N hY
  refine ⟨logDens θ a0 P0 o N, hlaw, ?_⟩
  filter_upwards [term_ne θ a0 P0 o N hpos] with y hy
  rw [← sum_logDens, dataset_eq]
  refine run_limit (evalData y) (one := fun _ => (1 : ℝ)) rfl θ (cut o N) a0 P0 (coord o N) hQ hHn hP0 hpsd
    (fun t i hc => hpos ⟨(⟨t, hc.1⟩, i), hc.2⟩) (fun t i hc => ?_) hk N
  let q : Spec.Entry o N := ⟨(⟨t, hc.1⟩, i), hc.2⟩
  rw [term, show evalData y (coord o N t i) = y q from evalData_coord o N y q]
  exact hy q

/-- **C196 (complete data).** If every entry is recorded no jitter is needed: with jitter zero the univariate filter's reported total
log-likelihood is exactly the logarithm of the density of the data, for almost every data set and any number of series (the
standard filter's is not, C190). -/
theorem C196_complete (h : Spec.NormalProcess μ (fun _ => θ) a0 P0 X Y η ε) (hk : 0 < k) (hH : ∀ i j, i ≠ j → θ.H i j = 0)
    (N : ℕ) (hY : Spec.UndeterminedEntries μ Y (fun _ _ => True) N) :
    ∃ out : (Spec.Entry (k := k) (fun _ _ => True) N → ℝ) → UnivGraph n,
      (∀ᵐ y ∂(volume : Measure (Spec.Entry (k := k) (fun _ _ => True) N → ℝ)),
        univGraph 0 a0 P0 θ (Spec.dataset (fun _ _ => True) N y) = some (out y)) ∧
      μ.map (fun ω (q : Spec.Entry (k := k) (fun _ _ => True) N) => Y q.1.1 q.1.2 ω) =
        (volume : Measure (Spec.Entry (k := k) (fun _ _ => True) N → ℝ)).withDensity
          fun y => ENNReal.ofReal (Real.exp (out y).loglike.sum) := by
  classical
  obtain ⟨hQ, hHn, hP0, hpsd, hpos, hlaw⟩ := entries_density h hH (fun _ _ => True) N hY
  have key : ∀ᵐ y ∂(volume : Measure (Spec.Entry (k := k) (fun _ _ => True) N → ℝ)), ∃ out,
      univGraph 0 a0 P0 θ (Spec.dataset (fun _ _ => True) N y) = some out ∧ out.loglike.sum = logDens θ a0 P0 (fun _ _ => True) N y := by
    filter_upwards [term_ne θ a0 P0 (fun _ _ => True) N hpos] with y hy
    rw [← sum_logDens, dataset_eq]
    refine run_exact (evalData y) (one := fun _ => (1 : ℝ)) rfl θ (cut (fun _ _ => True) N) a0 P0 (coord (fun _ _ => True) N) hQ hHn hP0 hpsd
      (fun t i hc => hpos ⟨(⟨t, hc.1⟩, i), hc.2⟩) (fun t i hc => ?_) hk N fun t ht i => ⟨ht, trivial⟩
    let q : Spec.Entry (k := k) (fun _ _ => True) N := ⟨(⟨t, hc.1⟩, i), hc.2⟩
    rw [term, show evalData y (coord (fun _ _ => True) N t i) = y q from evalData_coord _ N y q]
    exact hy q
  let d : UnivGraph n := ⟨[], [], [], [], []⟩
  refine ⟨fun y => (univGraph 0 a0 P0 θ (Spec.dataset (fun _ _ => True) N y)).getD d, ?_, ?_⟩
  · filter_upwards [key] with y ⟨out, h1, _⟩
    rw [h1]; rfl
  · rw [hlaw]
    refine withDensity_congr_ae ?_
    filter_upwards [key] with y ⟨out, h1, h2⟩
    rw [h1]
    show ENNReal.ofReal (Real.exp (logDens θ a0 P0 (fun _ _ => True) N y)) = _
    rw [← h2]; rfl

open Classical in
/-- The condition follows from the one of C163 and C190, for every pattern. -/
theorem undeterminedEntries_of (hY : Spec.Undetermined μ Y) (o : ℕ → Fin k → Prop) (N : ℕ) : Spec.UndeterminedEntries μ Y o N := by
  intro w hw
  let w' : ℕ → Fin k → ℝ := fun t i => if h : cut o N t i then w ⟨(⟨t, h.1⟩, i), h.2⟩ else 0
  have hsum : ∀ ω, ∑ q, w q * Y q.1.1 q.1.2 ω = ∑ t ∈ Finset.range N, ∑ i, w' t i * Y t i ω := by
    intro ω
    rw [Finset.sum_congr rfl (g := fun q : Spec.Entry o N => w' q.1.1 q.1.2 * Y q.1.1 q.1.2 ω) (by
      intro q _
      have hc : cut o N q.1.1 q.1.2 := ⟨q.1.1.2, q.2⟩
      simp only [w', dif_pos hc]
      rfl), ← sum_entries o N fun t i => w' t i * Y t i ω]
    refine Finset.sum_congr rfl fun t _ => Finset.sum_congr rfl fun i _ => ?_
    by_cases hc : cut o N t i
    · rw [if_pos hc]
    · simp [w', hc]
  simp only [hsum] at hw
  have key : ∀ M, Var[fun ω => ∑ t ∈ Finset.range M, ∑ i, w' t i * Y t i ω; μ] = 0 → ∀ t, t < M → w' t = 0 := by
    intro M
    induction M with
    | zero => intro _ t ht; omega
    | succ M ih =>
      intro hM
      have h1 : w' M = 0 := hY M (w' M) (fun s j => - w' s j) (by
        rw [← hM]
        congr 1
        funext ω
        rw [Finset.sum_range_succ]
        simp only [neg_mul, Finset.sum_neg_distrib]
        ring)
      simp only [Finset.sum_range_succ, h1, Pi.zero_apply, zero_mul, Finset.sum_const_zero, add_zero] at hM
      intro t ht
      rcases Nat.lt_succ_iff_lt_or_eq.1 ht with h | rfl
      · exact ih hM t h
      · exact h1
  funext q
  have hc : cut o N q.1.1 q.1.2 := ⟨q.1.1.2, q.2⟩
  have := congrFun (key N hw q.1.1 q.1.1.2) q.1.2
  simp only [w', dif_pos hc] at this
  exact this

/-- C196 applies to a bivariate model of which the second series is recorded every third date. -/
example (N : ℕ) : ∃ (Ω : Type) (_ : MeasurableSpace Ω) (μ : Measure Ω) (Y : ℕ → Fin 2 → Ω → ℝ)
    (ℓ : (Spec.Entry (fun t (i : Fin 2) => i = 0 ∨ t % 3 = 0) N → ℝ) → ℝ),
      μ.map (fun ω (q : Spec.Entry (fun t (i : Fin 2) => i = 0 ∨ t % 3 = 0) N) => Y q.1.1 q.1.2 ω) =
        volume.withDensity (fun y => ENNReal.ofReal (Real.exp (ℓ y))) ∧
      ∀ᵐ y ∂(volume : Measure (Spec.Entry (fun t (i : Fin 2) => i = 0 ∨ t % 3 = 0) N → ℝ)), ∃ out : ℝ → UnivGraph (Fin 2),
        (∀ jitter, 0 < jitter → univGraph jitter 0 1 pairModel (Spec.dataset (fun t (i : Fin 2) => i = 0 ∨ t % 3 = 0) N y) =
          some (out jitter)) ∧ Tendsto (fun jitter => (out jitter).loglike.sum) (𝓝[>] 0) (𝓝 (ℓ y)) := by
  obtain ⟨Ω, mΩ, μ, hμ, X, Y, η, ε, h⟩ := exists_normal_process (fun _ => pairModel) 0
    (P0 := 1) Matrix.PosSemidef.one (fun _ => Matrix.PosSemidef.one) (fun _ => Matrix.PosSemidef.one)
  obtain ⟨ℓ, h1, h2⟩ := C196_density h (by norm_num) (fun i j hij => Matrix.one_apply_ne hij) (fun t i => i = 0 ∨ t % 3 = 0) N
    (undeterminedEntries_of (undetermined_of_H h.toProcess fun _ => Matrix.PosDef.one) _ N)
  exact ⟨Ω, mΩ, μ, Y, ℓ, h1, h2⟩

/-- The univariate filter's likelihood of a bivariate model integrates to one over the samples of length `N`, without jitter. -/
example (N : ℕ) : ∃ out : (Spec.Entry (k := 2) (fun _ _ => True) N → ℝ) → UnivGraph (Fin 2),
    (∀ᵐ y ∂(volume : Measure (Spec.Entry (k := 2) (fun _ _ => True) N → ℝ)),
      univGraph 0 0 1 pairModel (Spec.dataset (fun _ _ => True) N y) = some (out y)) ∧
    ∫⁻ y, ENNReal.ofReal (Real.exp (out y).loglike.sum) = 1 := by
  obtain ⟨Ω, mΩ, μ, hμ, X, Y, η, ε, h⟩ := exists_normal_process (fun _ => pairModel) 0
    (P0 := 1) Matrix.PosSemidef.one (fun _ => Matrix.PosSemidef.one) (fun _ => Matrix.PosSemidef.one)
  obtain ⟨out, h1, h2⟩ := C196_complete h (by norm_num) (fun i j hij => Matrix.one_apply_ne hij) N
    (undeterminedEntries_of (undetermined_of_H h.toProcess fun _ => Matrix.PosDef.one) _ N)
  refine ⟨out, h1, ?_⟩
  have hg := Gauss.of_affine h.normal (fun (q : Spec.Entry (k := 2) (fun _ _ => True) N) ω => Y q.1.1 q.1.2 ω)
    fun q => Gauss.memY h.toProcess q.1.1 q.1.2
  have : IsProbabilityMeasure (μ.map (fun ω (q : Spec.Entry (k := 2) (fun _ _ => True) N) => Y q.1.1 q.1.2 ω)) :=
    Measure.isProbabilityMeasure_map (aemeasurable_pi_lambda _ hg.aemeasurable)
  have h3 := measure_univ (μ := μ.map (fun ω (q : Spec.Entry (k := 2) (fun _ _ => True) N) => Y q.1.1 q.1.2 ω))
  rw [h2, withDensity_apply _ MeasurableSet.univ, Measure.restrict_univ] at h3
  exact h3

end prob

end Verif.Kalman
