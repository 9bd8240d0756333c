import Verif.PostEstimation.Model
import Verif.Kalman.Props

/-!
# What is run again after estimation: theorems
-/

set_option autoImplicit false

open Matrix

namespace Verif.PostEstimation

open Verif.Kalman

variable {n p r : Type} [Fintype n] [Fintype p] [Fintype r] [DecidableEq n] [DecidableEq p] [DecidableEq r]

/-! ### Specification -/

/-- The filter run with a given jitter on the data: what a user would compute with the filter directly. -/
noncomputable def Spec.filter (fill jitter : ℝ) (M : System n p r) (data : List (Row p)) : FilterOut n p :=
  Kalman.buildGraph jitter fill M.a0 M.P0 (data.zip ((List.range data.length).map M.θ))

/-- The smoother run with a given jitter on the outputs of a filter run. -/
noncomputable def Spec.smoother (dflt jitter : ℝ) (M : System n p r) (data : List (Row p)) (f : FilterOut n p) :
    Option (List ((n → ℝ) × Matrix n n ℝ)) :=
  Smoother.buildGraph jitter dflt (f.filteredStates.zip f.filteredCovs)
    ((List.range data.length).map fun t => ⟨(M.θ t).T, (M.θ t).R, (M.θ t).Q⟩)

/-- The data of the last fit in a history of calls. -/
def Spec.lastData (init : Option (List (Row p))) : List (Call n p r) → Option (List (Row p))
  | [] => init
  | .fit _ _ data _ _ :: cs => Spec.lastData (some data) cs
  | .post _ _ :: cs => Spec.lastData init cs

/-- The saved variable of a given name. -/
def Spec.get (ds : List (Det n p)) (name : String) : Option (Val n p) :=
  (ds.find? fun d => d.name == name).map Det.val

/-! ### C197: the jitter is forgotten -/

theorem after_fitData (D : Defaults) (o : Obj p) (c : Call n p r) :
    (c.after D o).fitData = Spec.lastData o.fitData [c] := by
  cases c with
  | fit coords M data j save =>
    cases save <;> simp [Call.after, buildStatespaceGraph, filterGraph, smootherGraph, Spec.lastData]
  | post M given =>
    simp only [Call.after, dummyOutputs, Spec.lastData]
    split <;> simp [filterGraph, smootherGraph]

theorem foldl_fitData (D : Defaults) (cs : List (Call n p r)) : ∀ o : Obj p,
    (cs.foldl (fun o c => c.after D o) o).fitData = Spec.lastData o.fitData cs := by
  induction cs with
  | nil => intro o; rfl
  | cons c cs ih =>
    intro o
    rw [List.foldl_cons, ih, after_fitData]
    cases c <;> rfl

/-- C197. Whatever was called before — fits with any jitters, saved outputs or not, earlier samplings — the filter and smoother
outputs from which `sample_conditional_*` and `forecast` draw are those of a run with the default jitter on the data given, or else
on the data of the last fit. -/
theorem C197_post_outputs (D : Defaults) (history : List (Call n p r)) (o : Obj p) (M : System n p r)
    (given : Option (List (Row p))) (data : List (Row p))
    (hd : given.or (Spec.lastData o.fitData history) = some data) :
    (dummyOutputs D M (history.foldl (fun o c => c.after D o) o) given).2 =
      (Spec.smoother D.jitter D.jitter M data (Spec.filter D.fill D.jitter M data)).map fun s =>
        let f := Spec.filter D.fill D.jitter M data
        [(f.filteredStates, f.filteredCovs), (f.predictedStates, f.predictedCovs),
         (s.map Prod.fst, s.map Prod.snd)] := by
  rw [← foldl_fitData D] at hd
  simp only [dummyOutputs, hd]
  simp [filterGraph, smootherGraph, Spec.filter, Spec.smoother, System.rows, System.smoothParams]

/-- C197. The jitter of the fit changes nothing of it: two fits of the same data with any two jitters, saved or not, are followed by
the same outputs. -/
theorem C197_jitter_irrelevant (D : Defaults) (o o' : Obj p) (coords coords' : List String) (M M' : System n p r)
    (data : List (Row p)) (j j' : Option ℝ) (save save' : Bool) (given : Option (List (Row p))) :
    (dummyOutputs D M ((Call.fit coords M' data j save).after D o) given).2 =
      (dummyOutputs D M ((Call.fit (r := r) coords' M' data j' save').after D o') given).2 := by
  obtain ⟨d, hd⟩ : ∃ d, given.or (some data) = some d := by cases given <;> simp
  have h1 := C197_post_outputs D [Call.fit coords M' data j save] o M given d hd
  have h2 := C197_post_outputs D [Call.fit (r := r) coords' M' data j' save'] o' M given d hd
  simp only [List.foldl_cons, List.foldl_nil] at h1 h2
  rw [h1, h2]

/-- C197. The likelihood the fit maximises or samples, by contrast, is that of the filter run with the jitter given (the default when
`None` is passed), whatever was called before. -/
theorem C197_fit_uses_jitter (D : Defaults) (o : Obj p) (coords : List String) (M : System n p r) (data : List (Row p))
    (j : Option ℝ) :
    ∃ f, (buildStatespaceGraph D coords M o data j false).2 = some f ∧
      f.mus = (Spec.filter D.fill (j.getD D.jitter) M data).observedStates ∧
      f.covs = (Spec.filter D.fill (j.getD D.jitter) M data).observedCovs ∧
      f.logp = (Spec.filter D.fill (j.getD D.jitter) M data).loglike :=
  ⟨_, rfl, by simp [filterGraph, Spec.filter, System.rows], by simp [filterGraph, Spec.filter, System.rows],
    by simp [filterGraph, Spec.filter, System.rows]⟩

theorem filter_head (fill j : ℝ) (M : System n p r) (y : Row p) (rest : List (Row p)) :
    (Spec.filter fill j M (y :: rest)).filteredCovs.head? = some (kalmanStep j fill y M.a0 M.P0 (M.θ 0)).PFilt ∧
    (Spec.filter fill j M (y :: rest)).filteredStates.head? = some (kalmanStep j fill y M.a0 M.P0 (M.θ 0)).aFilt := by
  simp [Spec.filter, Kalman.buildGraph, postprocess, List.range_succ_eq_map, filterScan]

/-- C197. The two are different models: when the first date has no data, the filtered covariance of that date differs between the fit's
filter and the filter of the samplings by the difference of the jitters times the identity. -/
theorem C197_difference (D : Defaults) (hD : 0 < D.jitter) (M : System n p r) (hP : M.P0ᵀ = M.P0) (y : Row p)
    (rest : List (Row p)) (hy : ∀ i, Kalman.Spec.Missing D.fill (y i)) (j : ℝ) (hj : 0 < j) :
    ∃ A B, (Spec.filter D.fill j M (y :: rest)).filteredCovs.head? = some A ∧
      (Spec.filter D.fill D.jitter M (y :: rest)).filteredCovs.head? = some B ∧
      A - B = (j - D.jitter) • (1 : Matrix n n ℝ) := by
  refine ⟨_, _, (filter_head ..).1, (filter_head ..).1, ?_⟩
  rw [(C03_all_missing hj D.fill y hy M.a0 hP (M.θ 0)).2.1, (C03_all_missing hD D.fill y hy M.a0 hP (M.θ 0)).2.1,
    sub_smul]
  abel

/-- C197. So with at least one state, the saved and the sampled filtered covariances agree exactly when the jitter is the default. -/
theorem C197_agree_iff [Nonempty n] (D : Defaults) (hD : 0 < D.jitter) (M : System n p r) (hP : M.P0ᵀ = M.P0) (y : Row p)
    (rest : List (Row p)) (hy : ∀ i, Kalman.Spec.Missing D.fill (y i)) (j : ℝ) (hj : 0 < j) :
    (Spec.filter D.fill j M (y :: rest)).filteredCovs = (Spec.filter D.fill D.jitter M (y :: rest)).filteredCovs ↔
      j = D.jitter := by
  constructor
  · intro h
    obtain ⟨A, B, hA, hB, hAB⟩ := C197_difference D hD M hP y rest hy j hj
    rw [h, hB] at hA
    obtain rfl := Option.some.inj hA
    rw [sub_self] at hAB
    obtain ⟨i⟩ := ‹Nonempty n›
    have := congrFun (congrFun hAB i) i
    simp at this
    linarith
  · rintro rfl; rfl

/-- C197. Data do not hide it: for one state and one observed series, the filtered state of the first date is the same in the fit's
filter and in the filter of the samplings exactly when the jitters agree or the observation carries no correction
(`P0 Z (y − d − Z a0) = 0`). -/
theorem C197_first_state (D : Defaults) (M : System (Fin 1) (Fin 1) r) (x : ℝ) (hx : x ≠ D.fill) (rest : List (Row (Fin 1)))
    (j : ℝ) (a P0 d Z H : ℝ) (ha : M.a0 0 = a) (hP0 : M.P0 0 0 = P0) (hd : (M.θ 0).d 0 = d) (hZ : (M.θ 0).Z 0 0 = Z)
    (hH : (M.θ 0).H 0 0 = H) (hF : Z * P0 * Z + H + j ≠ 0) (hF' : Z * P0 * Z + H + D.jitter ≠ 0) :
    (Spec.filter D.fill j M ((fun _ => some x) :: rest)).filteredStates.head? =
        (Spec.filter D.fill D.jitter M ((fun _ => some x) :: rest)).filteredStates.head? ↔
      j = D.jitter ∨ P0 * Z * (x - d - Z * a) = 0 := by
  have key : ∀ i : ℝ, Z * P0 * Z + H + i ≠ 0 →
      (kalmanStep i D.fill (fun _ : Fin 1 => some x) M.a0 M.P0 (M.θ 0)).aFilt 0 =
        a + P0 * Z / (Z * P0 * Z + H + i) * (x - d - Z * a) := by
    intro i hi
    have hmask : ¬ nanMask D.fill (fun _ : Fin 1 => some x) 0 := by simp [nanMask, hx]
    have hinv : ∀ A : Matrix (Fin 1) (Fin 1) ℝ, A⁻¹ = diagonal fun k => (A k k)⁻¹ := by
      intro A; ext u v; fin_cases u; fin_cases v
      simp [Matrix.inv_def, Matrix.det_fin_one, Matrix.adjugate_fin_one]
    simp [kalmanStep, update, handleMissing, hmask, maskW, gain, innovCov, stabilize, hinv, Matrix.mul_apply,
      Matrix.mulVec, dotProduct, ha, hP0, hd, hZ, hH]
    field_simp
    ring
  rw [(filter_head ..).2, (filter_head ..).2, Option.some_inj]
  have hext : ∀ f g : Fin 1 → ℝ, f = g ↔ f 0 = g 0 :=
    fun f g => ⟨fun h => by rw [h], fun h => by ext k; fin_cases k; exact h⟩
  rw [hext, key j hF, key D.jitter hF', add_right_inj]
  constructor
  · intro h
    by_cases hz : P0 * Z * (x - d - Z * a) = 0
    · exact .inr hz
    · left
      have h2 : P0 * Z * (x - d - Z * a) * (Z * P0 * Z + H + D.jitter) =
          P0 * Z * (x - d - Z * a) * (Z * P0 * Z + H + j) := by
        rw [div_mul_eq_mul_div, div_mul_eq_mul_div, div_eq_div_iff hF hF'] at h
        exact h
      have := mul_left_cancel₀ hz h2
      linarith
  · rintro (rfl | h)
    · rfl
    · rw [div_mul_eq_mul_div, div_mul_eq_mul_div, h]; simp

/-! ### C198: the saved filter outputs -/

/-- C198. When filter outputs are saved (at least one date), exactly eight variables appear in the model, each once; by name they are the
filter's filtered, predicted and observation-forecast means and covariances at the fit's jitter, and the smoother's — run on the
filter's output with the *default* jitter. -/
theorem C198_saved (D : Defaults) (o : Obj p) (coords : List String) (M : System n p r) (y : Row p) (rest : List (Row p))
    (j : Option ℝ) :
    let data := y :: rest
    let f := Spec.filter D.fill (j.getD D.jitter) M data
    ∃ fit s, (buildStatespaceGraph D coords M o data j true).2 = some fit ∧
      Spec.smoother D.jitter D.jitter M data f = some s ∧
      (fit.saved.map Det.name).Perm
        ["filtered_state", "predicted_state", "smoothed_state", "predicted_observed_state",
         "filtered_covariance", "predicted_covariance", "smoothed_covariance", "predicted_observed_covariance"] ∧
      Spec.get fit.saved "filtered_state" = some (.states f.filteredStates) ∧
      Spec.get fit.saved "predicted_state" = some (.states f.predictedStates) ∧
      Spec.get fit.saved "smoothed_state" = some (.states (s.map Prod.fst)) ∧
      Spec.get fit.saved "predicted_observed_state" = some (.obs f.observedStates) ∧
      Spec.get fit.saved "filtered_covariance" = some (.stateCovs f.filteredCovs) ∧
      Spec.get fit.saved "predicted_covariance" = some (.stateCovs f.predictedCovs) ∧
      Spec.get fit.saved "smoothed_covariance" = some (.stateCovs (s.map Prod.snd)) ∧
      Spec.get fit.saved "predicted_observed_covariance" = some (.obsCovs f.observedCovs) ∧
      fit.mus = f.observedStates ∧ fit.covs = f.observedCovs ∧ fit.logp = f.loglike := by
  intro data f
  obtain ⟨s, hs⟩ : ∃ s, Spec.smoother D.jitter D.jitter M data f = some s := by
    have : f.filteredStates.zip f.filteredCovs ≠ [] := by
      simp [f, data, Spec.filter, Kalman.buildGraph, postprocess, List.range_succ_eq_map, filterScan]
    obtain ⟨l, hl⟩ := List.getLast?_isSome.2 this |> Option.isSome_iff_exists.1
    exact ⟨_, by simp only [Spec.smoother, Smoother.buildGraph, hl]; rfl⟩
  have hs' := hs
  simp only [Spec.smoother, f, Spec.filter] at hs'
  have hb : (buildStatespaceGraph D coords M o data j true).2 =
      (registerOutputs coords
        [.states f.filteredStates, .states f.predictedStates, .obs f.observedStates, .states (s.map Prod.fst),
         .stateCovs f.filteredCovs, .stateCovs f.predictedCovs, .obsCovs f.observedCovs,
         .stateCovs (s.map Prod.snd)]).map fun saved => ⟨f.observedStates, f.observedCovs, f.loglike, saved⟩ := by
    simp only [buildStatespaceGraph, filterGraph, smootherGraph, System.rows, System.smoothParams, if_true,
      Option.getD_some]
    rw [hs']
    rfl
  refine ⟨_, s, hb.trans (by simp [registerOutputs, stateNames, covNames, filterOutputDims, List.lookup]; rfl), hs, ?_⟩
  simp [Spec.get]
  decide

/-- The dims a saved variable should carry: time, then the state or observation axes of its value. -/
def Spec.dims : Val n p → List String
  | .states _ => ["time", "state"]
  | .obs _ => ["time", "observed_state"]
  | .stateCovs _ => ["time", "state", "state_aux"]
  | .obsCovs _ => ["time", "observed_state", "observed_state_aux"]

/-- C198. The dims of every saved variable are the ones of its kind of value (time, states or observed series, twice for a covariance), axis
by axis, those that are no coordinate of the user's model left unnamed. -/
theorem C198_dims (D : Defaults) (o : Obj p) (coords : List String) (M : System n p r) (data : List (Row p)) (j : Option ℝ)
    (save : Bool) (fit : Fit n p) (h : (buildStatespaceGraph D coords M o data j save).2 = some fit) :
    ∀ v ∈ fit.saved, v.dims = (Spec.dims v.val).map fun d => if d ∈ coords then some d else none := by
  cases save with
  | false =>
    simp only [buildStatespaceGraph, Bool.false_eq_true, if_false, Option.some.injEq] at h
    subst h; simp
  | true =>
    simp only [buildStatespaceGraph, if_true] at h
    generalize hs : (smootherGraph D M (filterGraph D M _ data j).1 data _ _ _).2 = s at h
    cases s with
    | none => simp at h
    | some s =>
      simp [registerOutputs, stateNames, covNames, filterOutputDims, List.lookup] at h
      subst h
      simp [Spec.dims]

/-- C198. Saving changes nothing of the likelihood. -/
theorem C198_likelihood_unchanged (D : Defaults) (o : Obj p) (coords : List String) (M : System n p r) (y : Row p)
    (rest : List (Row p)) (j : Option ℝ) :
    ∃ fit fit', (buildStatespaceGraph D coords M o (y :: rest) j true).2 = some fit ∧
      (buildStatespaceGraph D coords M o (y :: rest) j false).2 = some fit' ∧ fit'.saved = [] ∧
      fit.mus = fit'.mus ∧ fit.covs = fit'.covs ∧ fit.logp = fit'.logp := by
  obtain ⟨fit, s, h1, -, -, -, -, -, -, -, -, -, -, h2, h3, h4⟩ := C198_saved D o coords M y rest j
  obtain ⟨fit', h5, h6, h7, h8⟩ := C197_fit_uses_jitter D o coords M (y :: rest) j
  refine ⟨fit, fit', h1, h5, ?_, h2.trans h6.symm, h3.trans h7.symm, h4.trans h8.symm⟩
  simp only [buildStatespaceGraph, Bool.false_eq_true, if_false, Option.some.injEq] at h5
  rw [← h5]

/-- C198. Without a single date, saving fails although the model itself would be built. -/
theorem C198_no_data (D : Defaults) (o : Obj p) (coords : List String) (M : System n p r) (j : Option ℝ) :
    (buildStatespaceGraph D coords M o [] j true).2 = none ∧
      ((buildStatespaceGraph D coords M o [] j false).2).isSome := by
  constructor
  · simp [buildStatespaceGraph, filterGraph, smootherGraph, System.rows, Kalman.buildGraph, postprocess, filterScan,
      Smoother.buildGraph]
  · simp [buildStatespaceGraph]

section Examples

/-- A local level model with a diffuse-like start. -/
noncomputable def exM : System (Fin 1) (Fin 1) (Fin 1) :=
  ⟨fun _ => 0, !![4], fun _ => ⟨fun _ => 0, fun _ => 0, 1, 1, 1, 1, 1⟩⟩

/-- The shipped defaults. -/
noncomputable def exD : Defaults := ⟨1 / 10 ^ 8, -9999⟩

/-- The hypotheses of `C197_post_outputs` are met by a history of two fits, one of them with another jitter. -/
example : (none : Option (List (Row (Fin 1)))).or
    (Spec.lastData none [Call.fit (n := Fin 1) (r := Fin 1) ["time"] exM [fun _ => some 1] (some (1 / 2)) true,
      Call.post exM none, Call.fit ["time"] exM [fun _ => some 3, fun _ => none] (some 1) false]) =
    some [fun _ => some 3, fun _ => none] := rfl

/-- One observation, jitter 1: the state the samplings start from is not the one of the fit. -/
example : (Spec.filter exD.fill 1 exM [fun _ => some 5]).filteredStates.head? ≠
    (Spec.filter exD.fill exD.jitter exM [fun _ => some 5]).filteredStates.head? := by
  rw [Ne, C197_first_state exD exM 5 (by norm_num [exD]) [] 1 0 4 0 1 1 rfl (by simp [exM]) rfl (by simp [exM])
    (by simp [exM]) (by norm_num) (by norm_num [exD])]
  norm_num [exD]

/-- A first date without data, jitter 1. -/
example : (Spec.filter exD.fill 1 exM [fun _ => none, fun _ => some 2]).filteredCovs ≠
    (Spec.filter exD.fill exD.jitter exM [fun _ => none, fun _ => some 2]).filteredCovs := by
  rw [Ne, C197_agree_iff exD (by norm_num [exD]) exM (by ext i j; fin_cases i; fin_cases j; rfl) _ _
    (fun _ => .inl rfl) 1 one_pos]
  norm_num [exD]

end Examples

/-! ### C199: options -/

/-- C199. `forecast` works only with the three exact spellings of `filter_output`. -/
theorem C199_filter_output (s : String) (f pr sm : Group n) :
    (∃ g, forecastGroup s [f, pr, sm] = .ok g) ↔ s ∈ ["filtered", "predicted", "smoothed"] := by
  constructor
  · rintro ⟨g, hg⟩
    by_contra hs
    unfold forecastGroup at hg
    split at hg
    · cases hg
    · have : filterOutputTypes.idxOf? s = none := by
        rw [List.idxOf?_eq_none_iff]; exact hs
      simp [chooseGroup, this] at hg
  · intro h
    simp only [List.mem_cons, List.not_mem_nil, or_false] at h
    rcases h with rfl | rfl | rfl
    · exact ⟨f, by rfl⟩
    · exact ⟨pr, by rfl⟩
    · exact ⟨sm, by rfl⟩

/-- C199. With each of these the pair used is the one it names. -/
theorem C199_group (f pr sm : Group n) :
    forecastGroup "filtered" [f, pr, sm] = .ok f ∧ forecastGroup "predicted" [f, pr, sm] = .ok pr ∧
      forecastGroup "smoothed" [f, pr, sm] = .ok sm := ⟨rfl, rfl, rfl⟩

/-- C199. The validation at the start accepts every mixture of upper and lower case; those that are not entirely lower case
pass it and then raise after the whole graph has been rebuilt. -/
theorem C199_case (s : String) (f pr sm : Group n) (hl : lower s ∈ ["filtered", "predicted", "smoothed"])
    (hne : s ∉ ["filtered", "predicted", "smoothed"]) :
    validateFilterArg s = .ok () ∧ forecastGroup s [f, pr, sm] = .error .valueError := by
  have hv : validateFilterArg s = .ok () := if_pos hl
  refine ⟨hv, ?_⟩
  have : filterOutputTypes.idxOf? s = none := by rw [List.idxOf?_eq_none_iff]; exact hne
  simp [forecastGroup, hv, chooseGroup, this]

example : lower "Filtered" ∈ ["filtered", "predicted", "smoothed"] ∧
    "Filtered" ∉ ["filtered", "predicted", "smoothed"] := by decide

/-- C199. `compile_kwargs` (and `var_names`) can never be passed on: whatever the value and the other arguments, conditional and
unconditional sampling and forecasting end in a TypeError at the last step. -/
theorem C199_compile_kwargs (kwargs : List (String × KwVal)) (v : KwVal) (name : String)
    (hn : name = "compile_kwargs" ∨ name = "var_names") (h : (name, v) ∈ kwargs) :
    sampleStep kwargs = .error .typeError := by
  unfold sampleStep samplePP
  rw [if_pos]
  rw [List.any_eq_true]
  refine ⟨_, h, ?_⟩
  rcases hn with rfl | rfl <;> simp

/-- C199. Keyword arguments under other names go through. -/
theorem C199_others (kwargs : List (String × KwVal)) (fitMode : Option String)
    (h : ∀ kv ∈ kwargs, kv.1 ∉ ["trace", "var_names", "compile_kwargs", "random_seed"]) :
    sampleStep kwargs = .ok () ∧ (irfSampleStep fitMode kwargs).1 = .ok () := by
  have h1 : samplePP kwargs = .ok () := by
    unfold samplePP
    rw [if_neg]
    rw [List.any_eq_true]
    rintro ⟨kv, hkv, hc⟩
    exact h kv hkv (by simpa using hc)
  have h2 : kwargs.lookup "compile_kwargs" = none := by
    rw [List.lookup_eq_none_iff]
    intro kv hkv
    have := h kv hkv
    simp only [List.mem_cons, not_or] at this
    exact bne_iff_ne.2 fun h => this.2.2.1 h.symm
  exact ⟨h1, by simp [irfSampleStep, h2, h1]⟩

open Classical in
/-- C199. `impulse_response_function` has code to accept a compile mode that agrees with the fit's, but the call fails all the same: a
mode that is given, not `None` and not the fit's raises ValueError; every other `compile_kwargs` raises TypeError — after the
caller's own dictionary, if it has a mode, has been overwritten with the fit's mode. -/
theorem C199_irf (fitMode : Option String) (kwargs : List (String × KwVal)) (xs : List (String × Option String))
    (hk : kwargs.lookup "compile_kwargs" = some (.dict xs)) :
    (irfSampleStep fitMode kwargs).1 =
        .error (if ∃ m, xs.lookup "mode" = some (some m) ∧ some m ≠ fitMode then .valueError else .typeError) ∧
      ∀ ys, (irfSampleStep fitMode kwargs).2 = some ys →
        (irfSampleStep fitMode kwargs).1 = .error .typeError → ∀ k,
          ys.lookup k = if k = "mode" ∧ (xs.lookup "mode").isSome then some fitMode else xs.lookup k := by
  have hmem : ("compile_kwargs", KwVal.dict xs) ∈ kwargs := by
    clear * - hk
    induction kwargs with
    | nil => simp at hk
    | cons a l ih =>
      obtain ⟨k, v⟩ := a
      rw [List.lookup_cons] at hk
      split at hk
      · rename_i h; have := eq_of_beq h; subst this; cases hk; simp
      · exact List.mem_cons_of_mem _ (ih hk)
  have hT : samplePP kwargs = .error .typeError := C199_compile_kwargs kwargs _ _ (.inl rfl) hmem
  have hset : ∀ k, (setMode fitMode xs).lookup k =
      if k = "mode" ∧ (xs.lookup "mode").isSome then some fitMode else xs.lookup k := by
    intro k
    clear * -
    induction xs with
    | nil => simp [setMode]
    | cons a l ih =>
      obtain ⟨a, b⟩ := a
      simp only [setMode, List.map_cons] at ih ⊢
      by_cases ha : a = "mode"
      · subst ha
        by_cases hkm : k = "mode"
        · subst hkm; simp
        · have : (k == "mode") = false := by simpa using hkm
          simp only [if_true, List.lookup_cons, this]
          rw [ih]; simp [hkm]
      · rw [if_neg ha]
        by_cases hka : k = a
        · subst hka; simp [ha]
        · have h1 : (k == a) = false := by simpa using hka
          have h2 : ("mode" == a) = false := beq_eq_false_iff_ne.2 fun h => ha h.symm
          simp only [List.lookup_cons, h1, h2]
          exact ih
  rcases hm : xs.lookup "mode" with _ | mode
  · have : irfSampleStep fitMode kwargs = (.error .typeError, some xs) := by simp [irfSampleStep, hk, hm, hT]
    rw [this]
    refine ⟨by simp, ?_⟩
    rintro ys h - k
    cases h; simp
  · by_cases hc : mode ≠ none ∧ mode ≠ fitMode
    · have : irfSampleStep fitMode kwargs = (.error .valueError, some xs) := by
        simp only [irfSampleStep, hk, hm]; rw [if_pos hc]
      rw [this]
      obtain ⟨m, rfl⟩ := Option.ne_none_iff_exists'.1 hc.1
      refine ⟨?_, ?_⟩
      · rw [if_pos ⟨m, rfl, hc.2⟩]
      · intro ys _ h; cases h
    · have : irfSampleStep fitMode kwargs = (.error .typeError, some (setMode fitMode xs)) := by
        simp only [irfSampleStep, hk, hm]; rw [if_neg hc, hT]
      rw [this]
      refine ⟨?_, ?_⟩
      · rw [if_neg]
        rintro ⟨m, h1, h2⟩
        cases h1
        exact hc ⟨by simp, h2⟩
      · rintro ys h - k
        cases h
        rw [hset, hm]

/-- A caller's dictionary without mode is overwritten, the call fails. -/
example : irfSampleStep (some "JAX") [("compile_kwargs", .dict [("mode", none), ("on_unused_input", some "ignore")])] =
    (.error .typeError, some [("mode", some "JAX"), ("on_unused_input", some "ignore")]) := rfl

example : (irfSampleStep (some "JAX") [("compile_kwargs", .dict [("mode", some "NUMBA")])]).1 = .error .valueError := rfl

end Verif.PostEstimation
