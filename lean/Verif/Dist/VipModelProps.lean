import Verif.Dist.VipModel
import Verif.Dist.VipProps
import Mathlib.Probability.Kernel.Composition.Prod
import Mathlib.Probability.Kernel.WithDensity

/-! # C176: `vip_reparametrize` preserves the posterior of a whole model -/

set_option autoImplicit false

open MeasureTheory ProbabilityTheory
open scoped ENNReal

namespace Vip

namespace Spec

/-- The definition of a variable is made of measurable functions of the earlier ones. -/
def Regular : Node → Prop
  | .normal loc scale => Measurable loc ∧ Measurable scale
  | .exponential scale => Measurable scale
  | .other law dens => Measurable law ∧ (∀ e, IsProbabilityMeasure (law e)) ∧ Measurable (fun q : Env × ℝ => dens q.1 q.2)
  | .deterministic f => Measurable f

/-- The scale parameter, if there is one, is positive. -/
def ScalePos : Node → Env → Prop
  | .normal _ scale, e => 0 < scale e
  | .exponential scale, e => 0 < scale e
  | _, _ => True

/-- Every scale parameter is positive almost surely given the variables before it. -/
def ScalesPos : List Var → Measure Env → Prop
  | [], _ => True
  | v :: vs, μ => (∀ᵐ e ∂μ, ScalePos v.node e) ∧ ScalesPos vs (v.step μ)

end Spec

open Spec

/-! ### Measurability -/

theorem measurable_expMeasure : Measurable expMeasure := by
  have hm : Measurable (Function.uncurry fun r x : ℝ => gammaPDF 1 r x) := by
    unfold gammaPDF gammaPDFReal
    refine ENNReal.measurable_ofReal.comp ?_
    refine Measurable.ite ?_ ?_ measurable_const
    · exact measurableSet_le measurable_const measurable_snd
    · fun_prop
  have h := (Kernel.withDensity (Kernel.const ℝ (volume : Measure ℝ)) (fun r x : ℝ => gammaPDF 1 r x)).measurable
  have he : (fun r => Kernel.withDensity (Kernel.const ℝ (volume : Measure ℝ)) (fun r x : ℝ => gammaPDF 1 r x) r) = expMeasure := by
    funext r
    rw [Kernel.withDensity_apply _ hm]
    rfl
  rw [← he]
  exact h

theorem expMeasure_le_one (r : ℝ) : expMeasure r Set.univ ≤ 1 := by
  by_cases hr : 0 < r
  · have := isProbabilityMeasure_expMeasure hr
    simp
  · have : expMeasure r = 0 := by
      unfold expMeasure gammaMeasure
      have : gammaPDF 1 r = 0 := by
        funext x
        simp only [gammaPDF, gammaPDFReal, Pi.zero_apply, ENNReal.ofReal_eq_zero]
        split
        · simp only [Real.rpow_one, Real.Gamma_one, div_one, sub_self, Real.rpow_zero, mul_one]
          exact mul_nonpos_of_nonpos_of_nonneg (not_lt.mp hr) (Real.exp_pos _).le
        · exact le_refl _
      rw [this]
      exact withDensity_zero
    simp [this]

/-- Pushing a measurable family of measures through a jointly measurable function. -/
theorem measurable_map_family {α β γ : Type} [MeasurableSpace α] [MeasurableSpace β] [MeasurableSpace γ]
    {ν : α → Measure β} (hν : Measurable ν) (h1 : ∀ a, ν a Set.univ ≤ 1) {g : α → β → γ}
    (hg : Measurable fun q : α × β => g q.1 q.2) : Measurable fun a => (ν a).map (g a) := by
  let κ : Kernel α β := ⟨ν, hν⟩
  have : IsFiniteKernel κ := ⟨1, by simp, fun a => h1 a⟩
  have hm := ((Kernel.id ×ₖ κ).map fun q : α × β => g q.1 q.2).measurable
  have he : (fun a => ((Kernel.id ×ₖ κ).map fun q : α × β => g q.1 q.2) a) = fun a => (ν a).map (g a) := by
    funext a
    rw [Kernel.map_apply _ hg, Kernel.prod_apply, Kernel.id_apply, Measure.dirac_prod, Measure.map_map hg (by fun_prop)]
    rfl
  rw [← he]
  exact hm

theorem law_le_one (n : Node) (h : Regular n) (e : Env) : n.law e Set.univ ≤ 1 := by
  cases n with
  | normal loc scale => simp [Node.law]
  | exponential scale => exact expMeasure_le_one _
  | other law dens => have := h.2.1 e; simp [Node.law]
  | deterministic f => simp [Node.law]

theorem law_measurable (n : Node) (h : Regular n) : Measurable n.law := by
  cases n with
  | normal loc scale =>
    have h1 := h.1
    have h2 := h.2
    exact measurable_gaussianReal.comp (f := fun e => (loc e, Real.toNNReal (scale e ^ 2))) (by fun_prop)
  | exponential scale =>
    have h1 : Measurable scale := h
    exact measurable_expMeasure.comp (by fun_prop)
  | other law dens => exact h.1
  | deterministic f => exact Measure.measurable_dirac.comp h

theorem aux_le_one (n : Node) (lam : ℝ) (h : Regular n) (e : Env) : n.auxLaw lam e Set.univ ≤ 1 := by
  cases n with
  | normal loc scale => simp [Node.auxLaw, normalAux]
  | exponential scale => exact expMeasure_le_one _
  | other law dens => exact law_le_one _ h e
  | deterministic f => exact law_le_one _ h e

theorem aux_measurable (n : Node) (lam : ℝ) (h : Regular n) : Measurable (n.auxLaw lam) := by
  cases n with
  | normal loc scale =>
    have h1 := h.1
    have h2 := h.2
    exact measurable_gaussianReal.comp (f := fun e => (lam * loc e, Real.toNNReal ((scale e ^ lam) ^ 2))) (by fun_prop)
  | exponential scale =>
    have h1 : Measurable scale := h
    exact measurable_expMeasure.comp (f := fun e => 1 / scale e ^ lam) (by fun_prop)
  | other law dens => exact law_measurable _ h
  | deterministic f => exact law_measurable _ h

theorem rep_measurable (n : Node) (lam : ℝ) (h : Regular n) : Measurable fun q : Env × ℝ => n.rep lam q.1 q.2 := by
  cases n with
  | normal loc scale =>
    have h1 : Measurable loc := h.1
    have h2 : Measurable scale := h.2
    simp only [Node.rep, normalRep]
    fun_prop
  | exponential scale =>
    have h1 : Measurable scale := h
    simp only [Node.rep, expRep]
    fun_prop
  | other law dens => exact measurable_snd
  | deterministic f => exact measurable_snd

theorem dens_measurable (n : Node) (h : Regular n) (y : ℝ) : Measurable fun e => n.dens e y := by
  cases n with
  | normal loc scale =>
    have h1 : Measurable loc := h.1
    have h2 : Measurable scale := h.2
    simp only [Node.dens, gaussianPDF, gaussianPDFReal]
    fun_prop
  | exponential scale =>
    have h1 : Measurable scale := h
    simp only [Node.dens, exponentialPDF_eq]
    refine ENNReal.measurable_ofReal.comp ?_
    split <;> fun_prop
  | other law dens => exact h.2.2.comp (f := fun e => (e, y)) (by fun_prop)
  | deterministic f => exact measurable_const

theorem measurable_update_pair (name : String) : Measurable fun q : Env × ℝ => Function.update q.1 name q.2 := by
  refine measurable_pi_lambda _ fun n => ?_
  by_cases h : n = name
  · subst h; simp only [Function.update_self]; exact measurable_snd
  · simp only [Function.update_of_ne h]
    exact (measurable_pi_apply n).comp measurable_fst

/-- Given the variables before it, the deterministic has the law of the variable it replaces. -/
theorem rep_law (n : Node) (lam : ℝ) (e : Env) (hp : ScalePos n e) :
    (n.auxLaw lam e).map (n.rep lam e) = n.law e := by
  cases n with
  | normal loc scale => exact C59_normal _ _ hp
  | exponential scale => exact C59_exponential _ hp
  | other law dens => exact Measure.map_id
  | deterministic f => exact Measure.map_id

theorem map_bind_fst {α β γ : Type} [MeasurableSpace α] [MeasurableSpace β] [MeasurableSpace γ] (μ : Measure α)
    {κ : α → Measure β} (hκ : Measurable κ) {f : β → γ} (hf : Measurable f) :
    (μ.bind κ).map f = μ.bind fun a => (κ a).map f := by
  rw [← Measure.bind_dirac_eq_map _ hf, Measure.bind_bind hκ.aemeasurable (g := fun x => Measure.dirac (f x)) (Measure.measurable_dirac.comp hf).aemeasurable]
  congr 1
  funext a
  exact Measure.bind_dirac_eq_map _ hf

theorem bind_map_fst {α β γ : Type} [MeasurableSpace α] [MeasurableSpace β] [MeasurableSpace γ] (μ : Measure α)
    {f : α → β} (hf : Measurable f) {κ : β → Measure γ} (hκ : Measurable κ) :
    (μ.map f).bind κ = μ.bind fun a => κ (f a) := by
  rw [← Measure.bind_dirac_eq_map _ hf, Measure.bind_bind (f := fun x => Measure.dirac (f x)) (Measure.measurable_dirac.comp hf).aemeasurable hκ.aemeasurable]
  congr 1
  funext a
  exact Measure.dirac_bind hκ _

theorem withDensity_map_fst {α β : Type} [MeasurableSpace α] [MeasurableSpace β] (μ : Measure α)
    {f : α → β} (hf : Measurable f) {g : β → ℝ≥0∞} (hg : Measurable g) :
    (μ.withDensity fun a => g (f a)).map f = (μ.map f).withDensity g := by
  ext s hs
  rw [Measure.map_apply hf hs, withDensity_apply _ (hf hs), withDensity_apply _ hs, setLIntegral_map hs hg hf]

/-! ### One variable -/

theorem step_fst (lam : String → ℝ) (v : Var) (b : Bool) (μ : Measure (Env × Env)) (h : Regular v.node)
    (hb : b = true → v.obs = none) (hp : ∀ᵐ e ∂μ.map Prod.fst, ScalePos v.node e) :
    (stepNew lam (v, b) μ).map Prod.fst = v.step (μ.map Prod.fst) := by
  have hu := measurable_update_pair v.name
  have hlaw := law_measurable v.node h
  cases b with
  | true =>
    simp only [stepNew, if_true, Var.step, hb rfl]
    have hrep := rep_measurable v.node (lam v.name) h
    have haux := aux_measurable v.node (lam v.name) h
    have hg : Measurable fun q : (Env × Env) × ℝ =>
        (Function.update q.1.1 v.name (v.node.rep (lam v.name) q.1.1 q.2), Function.update q.1.2 v.name q.2) := by
      refine Measurable.prodMk ?_ ?_
      · have h1 : Measurable fun q : (Env × Env) × ℝ => v.node.rep (lam v.name) q.1.1 q.2 :=
          hrep.comp (f := fun q : (Env × Env) × ℝ => (q.1.1, q.2)) (by fun_prop)
        exact hu.comp (f := fun q : (Env × Env) × ℝ => (q.1.1, v.node.rep (lam v.name) q.1.1 q.2))
          (Measurable.prodMk (by fun_prop) h1)
      · exact hu.comp (f := fun q : (Env × Env) × ℝ => (q.1.2, q.2)) (by fun_prop)
    have hk := measurable_map_family (ν := fun p : Env × Env => v.node.auxLaw (lam v.name) p.1) (haux.comp measurable_fst)
      (fun p => aux_le_one v.node (lam v.name) h p.1) (g := fun p t =>
        (Function.update p.1 v.name (v.node.rep (lam v.name) p.1 t), Function.update p.2 v.name t)) hg
    rw [map_bind_fst μ hk measurable_fst, bind_map_fst μ measurable_fst
      (measurable_map_family hlaw (law_le_one v.node h) hu)]
    refine Measure.bind_congr_right ?_
    have hp' := ae_of_ae_map measurable_fst.aemeasurable hp
    filter_upwards [hp'] with p hpp
    have hr : Measurable (v.node.rep (lam v.name) p.1) := hrep.comp (f := fun t => (p.1, t)) (by fun_prop)
    have hu1 : Measurable fun x => Function.update p.1 v.name x := hu.comp (f := fun x => (p.1, x)) (by fun_prop)
    have hgp : Measurable fun t => (Function.update p.1 v.name (v.node.rep (lam v.name) p.1 t), Function.update p.2 v.name t) :=
      hg.comp (f := fun t => (p, t)) (by fun_prop)
    rw [Measure.map_map measurable_fst hgp, ← rep_law v.node (lam v.name) p.1 hpp,
      Measure.map_map hu1 hr]
    rfl
  | false =>
    simp only [stepNew, Bool.false_eq_true, if_false, Var.step]
    cases v.obs with
    | none =>
      simp only
      have hg : Measurable fun q : (Env × Env) × ℝ => (Function.update q.1.1 v.name q.2, q.1.2) := by
        refine Measurable.prodMk ?_ (by fun_prop)
        exact hu.comp (f := fun q : (Env × Env) × ℝ => (q.1.1, q.2)) (by fun_prop)
      have hk := measurable_map_family (ν := fun p : Env × Env => v.node.law p.1) (hlaw.comp measurable_fst)
        (fun p => law_le_one v.node h p.1) (g := fun p x => (Function.update p.1 v.name x, p.2)) hg
      rw [map_bind_fst μ hk measurable_fst, bind_map_fst μ measurable_fst
        (measurable_map_family hlaw (law_le_one v.node h) hu)]
      congr 1
      funext p
      have hgp : Measurable fun x => (Function.update p.1 v.name x, p.2) := hg.comp (f := fun t => (p, t)) (by fun_prop)
      rw [Measure.map_map measurable_fst hgp]
      rfl
    | some y =>
      simp only
      have hd := dens_measurable v.node h y
      have hg : Measurable fun e : Env => Function.update e v.name y := hu.comp (f := fun e => (e, y)) (by fun_prop)
      have hg2 : Measurable fun p : Env × Env => (Function.update p.1 v.name y, p.2) :=
        Measurable.prodMk (hg.comp measurable_fst) measurable_snd
      rw [Measure.map_map measurable_fst hg2, ← withDensity_map_fst μ measurable_fst hd, Measure.map_map hg measurable_fst]
      rfl

theorem foldl_fst (lam : String → ℝ) : ∀ (vars : List (Var × Bool)) (μ : Measure (Env × Env)),
    (∀ v ∈ vars, Regular v.1.node) → (∀ v ∈ vars, v.2 = true → v.1.obs = none) →
    ScalesPos (vars.map Prod.fst) (μ.map Prod.fst) →
    (vars.foldl (fun μ v => stepNew lam v μ) μ).map Prod.fst =
      (vars.map Prod.fst).foldl (fun μ v => v.step μ) (μ.map Prod.fst)
  | [], _, _, _, _ => rfl
  | (v, b) :: vars, μ, hr, hb, hp => by
    simp only [List.foldl_cons, List.map_cons]
    have hs := step_fst lam v b μ (hr (v, b) (by simp)) (fun h => hb (v, b) (by simp) h) hp.1
    rw [foldl_fst lam vars _ (fun w hw => hr w (by simp [hw])) (fun w hw => hb w (by simp [hw])) (by rw [hs]; exact hp.2), hs]

/-- **C176.** Whatever values the `λ`s have, the model returned by `vip_reparametrize` has the same posterior over the named
variables as the original model (the same prior, if nothing is observed), provided no observed variable was named. -/
theorem C176_posterior_preserved (vars : List Var) (names : List String) (new : List (Var × Bool)) (lam : String → ℝ)
    (h : reparametrize vars names = .ok new) (hr : ∀ v ∈ vars, Regular v.node)
    (hobs : ∀ v ∈ vars, v.name ∈ names → v.obs = none) (hp : ScalesPos vars (Measure.dirac 0)) :
    (posteriorNew lam new).map Prod.fst = posterior vars := by
  unfold reparametrize at h
  split at h
  · cases h
  · simp only [Except.ok.injEq] at h
    subst h
    have hmap : (vars.map fun v => (v, decide (v.name ∈ names))).map Prod.fst = vars := by
      rw [List.map_map]
      exact List.map_id vars
    have h0 : (Measure.dirac (0 : Env × Env)).map Prod.fst = Measure.dirac (0 : Env) := Measure.map_dirac' measurable_fst _
    unfold posteriorNew posterior
    have := foldl_fst lam (vars.map fun v => (v, decide (v.name ∈ names))) (Measure.dirac 0)
      (by simpa using hr) (by simpa using hobs) (by rw [hmap, h0]; exact hp)
    rw [this, hmap, h0]

/-- **C176.** The call succeeds exactly when every name belongs to an exponential variable or to a normal one without transform;
observed variables are accepted too. -/
theorem C176_accepts (vars : List Var) (names : List String) :
    (∃ new, reparametrize vars names = .ok new) ↔
    ∀ n ∈ names, ∃ v, vars.find? (fun v => v.name == n) = some v ∧
      ((∃ scale, v.node = .exponential scale) ∨ (∃ loc scale, v.node = .normal loc scale ∧ v.hasTransform = false)) := by
  have key : (checkNames vars names = .ok ()) ↔ ∀ n ∈ names, ∃ v, vars.find? (fun v => v.name == n) = some v ∧
      ((∃ scale, v.node = .exponential scale) ∨ (∃ loc scale, v.node = .normal loc scale ∧ v.hasTransform = false)) := by
    induction names with
    | nil => simp [checkNames]
    | cons n ns ih =>
      unfold checkNames
      cases hf : vars.find? fun v => v.name == n with
      | none => simp [hf]
      | some v =>
        simp only [List.mem_cons, forall_eq_or_imp, hf, Option.some.injEq, exists_eq_left']
        cases hn : v.node with
        | deterministic f => simp
        | other law dens => simp [Node.kind, dispatch]
        | exponential scale =>
          simp only [Node.kind, dispatch]
          rw [ih]
          simp
        | normal loc scale =>
          cases ht : v.hasTransform with
          | true => simp [Node.kind, dispatch]
          | false =>
            simp only [Node.kind, dispatch, Bool.false_eq_true, if_false]
            rw [ih]
            simp
  rw [← key]
  unfold reparametrize
  cases checkNames vars names with
  | error e => simp
  | ok u => simp

/-- The same model with other data for the named variables. -/
def withData (data : String → Option ℝ) (names : List String) (vars : List Var) : List Var :=
  vars.map fun v => if v.name ∈ names then { v with obs := data v.name } else v

/-- **C176.** An observed variable that is named loses its observation without any message: the new model is the same whatever
was observed, or whether anything was. -/
theorem C176_observation_lost (vars : List Var) (names : List String) (data : String → Option ℝ) (lam : String → ℝ)
    (new new' : List (Var × Bool)) (h : reparametrize vars names = .ok new)
    (h' : reparametrize (withData data names vars) names = .ok new') :
    posteriorNew lam new' = posteriorNew lam new := by
  unfold reparametrize at h h'
  split at h
  · cases h
  split at h'
  · cases h'
  simp only [Except.ok.injEq] at h h'
  subst h h'
  unfold posteriorNew withData
  rw [List.map_map, List.foldl_map, List.foldl_map]
  congr 1
  funext μ v
  by_cases hv : v.name ∈ names
  · simp [Function.comp, hv, stepNew]
  · simp [Function.comp, hv]

/-- **C176.** Until the helper object is used, every `λ` is one half. -/
theorem C176_initial_lambda : initialLambda = 1 / 2 := by
  simp [initialLambda]
  norm_num

/-! ### Concrete models -/

/-- A hierarchy: `tau ~ Exponential(1)`, `theta ~ Normal(0, tau)`, `y ~ Normal(theta, 1)` observed at 3. -/
noncomputable def hierarchy : List Var :=
  [⟨"tau", .exponential fun _ => 1, true, none⟩, ⟨"theta", .normal (fun _ => 0) (fun e => e "tau"), false, none⟩,
    ⟨"y", .normal (fun e => e "theta") (fun _ => 1), false, some 3⟩]

theorem exp_pos_ae {r : ℝ} : ∀ᵐ x ∂expMeasure r, 0 < x := by
  rw [ae_iff]
  unfold expMeasure gammaMeasure
  have hset : {a : ℝ | ¬0 < a} = Set.Iic 0 := by ext; simp
  rw [hset, withDensity_apply _ measurableSet_Iic, lintegral_eq_zero_iff']
  · rw [Filter.EventuallyEq, ae_restrict_iff' measurableSet_Iic]
    have : ∀ᵐ x ∂(volume : Measure ℝ), x ≠ 0 := by simp [ae_iff]
    filter_upwards [this] with x hx hx0
    have : ¬(0 ≤ x) := fun h => hx (le_antisymm hx0 h)
    simp [gammaPDF, gammaPDFReal, this]
  · have : Measurable (gammaPDF 1 r) := by
      unfold gammaPDF
      exact ENNReal.measurable_ofReal.comp (measurable_gammaPDFReal 1 r)
    exact this.aemeasurable

/-- The hypotheses of `C176_posterior_preserved` hold for the hierarchy with both latent variables reparametrised, and the scale
of `theta` is positive only almost surely. -/
example (lam : String → ℝ) : ∃ new, reparametrize hierarchy ["tau", "theta"] = .ok new ∧
    (posteriorNew lam new).map Prod.fst = posterior hierarchy := by
  refine ⟨_, rfl, C176_posterior_preserved hierarchy ["tau", "theta"] _ lam rfl ?_ ?_ ?_⟩
  · intro v hv
    simp only [hierarchy, List.mem_cons, List.not_mem_nil, or_false] at hv
    rcases hv with rfl | rfl | rfl
    · exact measurable_const
    · exact ⟨measurable_const, measurable_pi_apply _⟩
    · exact ⟨measurable_pi_apply _, measurable_const⟩
  · intro v hv hn
    simp only [hierarchy, List.mem_cons, List.not_mem_nil, or_false] at hv
    rcases hv with rfl | rfl | rfl
    · rfl
    · rfl
    · simp at hn
  · refine ⟨by simp [ScalePos], ?_, ?_, trivial⟩
    · simp only [Var.step, ScalePos, Node.law]
      have hu := measurable_update_pair "tau"
      rw [Measure.dirac_bind (measurable_map_family (ν := fun _ : Env => expMeasure (1 / 1)) measurable_const
        (fun _ => expMeasure_le_one _) hu)]
      have hu1 : Measurable fun x => Function.update (0 : Env) "tau" x := hu.comp (f := fun x => (0, x)) (by fun_prop)
      rw [ae_map_iff hu1.aemeasurable (measurableSet_lt measurable_const (measurable_pi_apply _))]
      simp only [Function.update_self]
      exact exp_pos_ae
    · simp [ScalePos]

/-- Naming the observed variable is accepted. -/
example : ∃ new, reparametrize hierarchy ["y"] = .ok new ∧ ∃ new', reparametrize (withData (fun _ => none) ["y"] hierarchy) ["y"] =
    .ok new' := ⟨_, rfl, _, rfl⟩

/-- Unknown names and deterministics are refused. -/
example : reparametrize hierarchy ["tau", "mu"] = .error .keyError ∧
    reparametrize (hierarchy ++ [⟨"d", .deterministic fun e => e "tau" ^ 2, false, none⟩]) ["d"] = .error .valueError :=
  ⟨rfl, rfl⟩

end Vip
