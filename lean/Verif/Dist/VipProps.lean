import Verif.Dist.Vip
import Mathlib.Probability.CDF
import Mathlib.MeasureTheory.Constructions.Pi

/-! # C59, C60, C109: reparametrisation and its helper object -/

set_option autoImplicit false

open MeasureTheory ProbabilityTheory

namespace Vip

/-! ### C59 -/

theorem pow_split {scale : ℝ} (h : 0 < scale) (lam : ℝ) : scale ^ (1 - lam) * scale ^ lam = scale := by
  rw [← Real.rpow_add h]
  simp

/-- **C59.** The replacement of a normal variable has the law `N(loc, scale²)`, whatever `λ` is. -/
theorem C59_normal (loc lam : ℝ) {scale : ℝ} (h : 0 < scale) :
    (normalAux loc scale lam).map (normalRep loc scale lam)
      = gaussianReal loc (Real.toNNReal (scale ^ 2)) := by
  set c := scale ^ (1 - lam) with hc
  have hcomp : normalRep loc scale lam = (fun x => x + loc) ∘ (fun x => c * x) ∘ (fun x => x + -(lam * loc)) := by
    funext x
    simp only [normalRep, Function.comp, ← hc]
    ring
  unfold normalAux
  rw [hcomp, ← Measure.map_map (by fun_prop) (by fun_prop),
    ← Measure.map_map (by fun_prop) (by fun_prop),
    gaussianReal_map_add_const, gaussianReal_map_const_mul, gaussianReal_map_add_const]
  congr 1
  · ring
  · apply NNReal.coe_injective
    rw [NNReal.coe_mul, Real.coe_toNNReal _ (sq_nonneg _), Real.coe_toNNReal _ (sq_nonneg _)]
    show c ^ 2 * _ = _
    rw [← mul_pow, hc, pow_split h]

/-- **C59.** For a vector of conditionally independent normal variables, each with its own `λ`, the
joint law is unchanged. -/
theorem C59_normal_vector {ι : Type} [Fintype ι] (loc lam : ι → ℝ) {scale : ι → ℝ}
    (h : ∀ i, 0 < scale i) :
    (Measure.pi fun i => normalAux (loc i) (scale i) (lam i)).map
        (fun x i => normalRep (loc i) (scale i) (lam i) (x i))
      = Measure.pi fun i => gaussianReal (loc i) (Real.toNNReal (scale i ^ 2)) := by
  have : ∀ i, IsProbabilityMeasure (normalAux (loc i) (scale i) (lam i)) := fun i => by
    unfold normalAux; infer_instance
  have hm : ∀ i, Measurable (normalRep (loc i) (scale i) (lam i)) := fun i => by
    unfold normalRep; fun_prop
  have : ∀ i, IsProbabilityMeasure
      ((normalAux (loc i) (scale i) (lam i)).map (normalRep (loc i) (scale i) (lam i))) :=
    fun i => Measure.isProbabilityMeasure_map (hm i).aemeasurable
  rw [Measure.pi_map_pi (fun i => (hm i).aemeasurable)]
  congr 1
  funext i
  exact C59_normal _ _ (h i)

/-- **C59.** The replacement of an exponential variable is exponential with the original scale. -/
theorem C59_exponential (lam : ℝ) {scale : ℝ} (h : 0 < scale) :
    (expAux scale lam).map (expRep scale lam) = expMeasure (1 / scale) := by
  have hl : 0 < scale ^ lam := Real.rpow_pos_of_pos h _
  have hc : 0 < scale ^ (1 - lam) := Real.rpow_pos_of_pos h _
  have h1 : 0 < 1 / scale ^ lam := by positivity
  have h2 : 0 < 1 / scale := by positivity
  have p1 : IsProbabilityMeasure (expAux scale lam) := isProbabilityMeasure_expMeasure h1
  have p2 : IsProbabilityMeasure (expMeasure (1 / scale)) := isProbabilityMeasure_expMeasure h2
  have hm : Measurable (expRep scale lam) := by unfold expRep; fun_prop
  have p3 := Measure.isProbabilityMeasure_map (μ := expAux scale lam) hm.aemeasurable
  apply Measure.eq_of_cdf
  ext x
  rw [cdf_expMeasure_eq h2, cdf_eq_real, measureReal_def, Measure.map_apply hm measurableSet_Iic]
  have hpre : expRep scale lam ⁻¹' Set.Iic x = Set.Iic (x / scale ^ (1 - lam)) := by
    ext y
    simp only [Set.mem_preimage, Set.mem_Iic, expRep]
    rw [le_div_iff₀ hc, mul_comm]
  rw [hpre, ← measureReal_def, ← cdf_eq_real]
  unfold expAux
  rw [cdf_expMeasure_eq h1]
  have hs : 0 ≤ x / scale ^ (1 - lam) ↔ 0 ≤ x := by
    rw [div_nonneg_iff]
    constructor
    · rintro (⟨a, _⟩ | ⟨_, b⟩)
      · exact a
      · exact absurd b (not_le.2 hc)
    · intro a; exact .inl ⟨a, hc.le⟩
  by_cases hx : 0 ≤ x
  · rw [if_pos (hs.2 hx), if_pos hx]
    congr 3
    rw [div_mul_div_comm, one_mul, mul_comm (scale ^ lam), pow_split h]
    ring
  · rw [if_neg (fun a => hx (hs.1 a)), if_neg hx]

/-- **C59.** `λ = 1` is the centred form (the auxiliary variable is the variable itself), `λ = 0` the
non-centred form (a standard normal, shifted and scaled). -/
theorem C59_extremes (loc : ℝ) {scale : ℝ} (eta : ℝ) :
    normalRep loc scale 1 eta = eta ∧ normalRep loc scale 0 eta = loc + scale * eta ∧
    normalAux loc scale 0 = gaussianReal 0 1 ∧
    normalAux loc scale 1 = gaussianReal loc (Real.toNNReal (scale ^ 2)) := by
  refine ⟨?_, ?_, ?_, ?_⟩
  · simp [normalRep]
  · simp [normalRep]
  · simp [normalAux]
  · simp [normalAux]

/-- **C59.** Only normal variables without a transform and exponential variables are accepted. -/
theorem C59_accepted (k : Kind) (t : Bool) :
    dispatch k t = .ok () ↔ k = .exponential ∨ (k = .normal ∧ t = false) := by
  cases k <;> cases t <;> simp [dispatch]

/-! ### C60 -/

/-- The documented rounding (autoreparam.py:67-71). -/
noncomputable def documented (eps x : ℝ) : ℝ :=
  if x ≤ eps then 0 else if x ≥ 1 - eps then 1 else x

/-- **C60.** Away from the two thresholds the documented rounding is applied. -/
theorem C60_interior {eps x : ℝ} (he : eps ≤ 1 / 2) (h1 : x ≠ eps) (h2 : x ≠ 1 - eps) :
    truncate1 eps (some x) = some (documented eps x) := by
  unfold truncate1 documented
  simp only [gt_iff_lt, ge_iff_le]
  rcases lt_or_gt_of_ne h1 with h | h
  · rw [if_neg (by linarith), if_pos h, if_pos h.le]
  · rw [if_neg (not_lt.2 h.le), if_neg (not_le.2 h)]
    rcases lt_or_gt_of_ne h2 with h' | h'
    · rw [if_neg (not_lt.2 h'.le), if_neg (not_le.2 h')]
    · rw [if_pos h', if_pos h'.le]

/-- **C60.** A `λ` on a threshold is left as it is, where the documentation rounds it. -/
theorem C60_boundary {eps : ℝ} (h0 : 0 < eps) (he : eps < 1 / 2) :
    truncate1 eps (some eps) = some eps ∧ documented eps eps = 0 ∧ eps ≠ 0 ∧
    truncate1 eps (some (1 - eps)) = some (1 - eps) ∧ documented eps (1 - eps) = 1 ∧ 1 - eps ≠ 1 := by
  unfold truncate1 documented
  simp only [gt_iff_lt, ge_iff_le, lt_self_iff_false, if_false, le_refl, if_true]
  rw [if_neg (by linarith), if_neg (by linarith), if_neg (by linarith)]
  refine ⟨rfl, trivial, by linarith, rfl, rfl, by linarith⟩

/-- **C60.** With a threshold above one half the regions overlap and 1 wins. -/
theorem C60_overlap {eps x : ℝ} (h1 : 1 - eps < x) : truncate1 eps (some x) = some 1 := by
  simp only [truncate1]
  rw [if_pos (by linarith)]

/-! ### C109: the stored values -/

/-- **C109.** Reading a stored `λ ∈ [0, 1]` gives it back, including the end points; any other number is
stored as NaN. -/
theorem C109_round_trip (x : ℝ) :
    expit (logit (some x)) = if 0 ≤ x ∧ x ≤ 1 then some x else none := by
  simp only [logit]
  by_cases h0 : x = 0
  · subst h0; simp [expit]
  by_cases h1 : x = 1
  · subst h1; simp [expit]
  rw [if_neg h0, if_neg h1]
  by_cases h : 0 < x ∧ x < 1
  · rw [if_pos h, if_pos ⟨h.1.le, h.2.le⟩]
    simp only [expit, if_neg (EReal.coe_ne_bot _), if_neg (EReal.coe_ne_top _), EReal.toReal_coe]
    have hx : 0 < 1 - x := by linarith [h.2]
    rw [← Real.log_inv, Real.exp_log (by have := h.1; positivity), inv_div]
    congr 1
    have := h.1.ne'
    field_simp
    ring
  · rw [if_neg h, if_neg]
    · rfl
    · rintro ⟨a, b⟩
      exact h ⟨lt_of_le_of_ne a (Ne.symm h0), lt_of_le_of_ne b h1⟩

/-- All values lie in `[0, 1]`. -/
def Unit01 (v : List (Option ℝ)) : Prop := ∀ o ∈ v, ∃ x, o = some x ∧ 0 ≤ x ∧ x ≤ 1

theorem expit_logit_list {v : List (Option ℝ)} (h : Unit01 v) : (v.map logit).map expit = v := by
  rw [List.map_map]
  conv_rhs => rw [← List.map_id v]
  apply List.map_congr_left
  intro o ho
  obtain ⟨x, rfl, h0, h1⟩ := h o ho
  simp only [Function.comp]
  rw [C109_round_trip, if_pos ⟨h0, h1⟩]
  rfl

theorem broadcast_length {β : Type} {v w : List β} {n : ℕ} (h : broadcastTo v n = some w) :
    w.length = n := by
  unfold broadcastTo at h
  by_cases hn : v.length = n
  · rw [if_pos hn] at h; injection h with h; rw [← h]; exact hn
  · rw [if_neg hn] at h
    split at h
    · injection h with h; rw [← h]; simp
    · exact absurd h (by simp)

/-- **C109.** `set_lambda(name=v)` then `get_lambda()`: the named variable has the values given
(repeated if a single number was given), every other variable is unchanged. -/
theorem C109_set_get {s : Store} {k : String} {old : List F} (hk : s k = some old)
    {v : List (Option ℝ)} (hv : Unit01 v) (hlen : v.length = old.length ∨ v.length = 1) :
    ∃ s', setLambda [(k, v)] s = (s', .ok ()) ∧
      (∀ q, q ≠ k → getLambda s' q = getLambda s q) ∧
      getLambda s' k = some (if v.length = old.length then v
        else (List.replicate old.length (v.headD none))) := by
  have hb : ∃ fill, broadcastTo (v.map logit) old.length = some fill ∧
      fill.map expit = if v.length = old.length then v else List.replicate old.length (v.headD none) := by
    unfold broadcastTo
    rw [List.length_map]
    by_cases h : v.length = old.length
    · rw [if_pos h, if_pos h]
      exact ⟨_, rfl, expit_logit_list hv⟩
    · rw [if_neg h, if_neg h]
      have h1 := hlen.resolve_left h
      obtain ⟨x, rfl⟩ := List.length_eq_one_iff.1 h1
      refine ⟨_, rfl, ?_⟩
      rw [List.map_replicate]
      have := expit_logit_list hv
      simp only [List.map_cons, List.map_nil, List.cons.injEq, and_true] at this
      rw [this]
      rfl
  obtain ⟨fill, hf, he⟩ := hb
  refine ⟨s.put k fill, ?_, ?_, ?_⟩
  · simp only [setLambda, hk, hf]
  · intro q hq
    simp [getLambda, Store.put, hq]
  · simp only [getLambda, Store.put, if_true, Option.map_some, he]

/-- **C109.** A value whose shape is neither that of the variable nor a single number is rejected and
nothing is changed. -/
theorem C109_wrong_shape {s : Store} {k : String} {old : List F} (hk : s k = some old)
    {v : List (Option ℝ)} (h1 : v.length ≠ old.length) (h2 : v.length ≠ 1)
    (rest : List (String × List (Option ℝ))) :
    setLambda ((k, v) :: rest) s = (s, .error .valueError) := by
  have hb : broadcastTo (v.map logit) old.length = none := by
    unfold broadcastTo
    rw [List.length_map, if_neg h1]
    match v, h2 with
    | [], _ => rfl
    | [_], h => exact absurd rfl h
    | _ :: _ :: _, _ => rfl
  simp only [setLambda, hk, hb]

/-- Two values for a variable of length three. -/
example : ∃ (s : Store) (old : List F) (v : List (Option ℝ)), s "x" = some old ∧
    v.length ≠ old.length ∧ v.length ≠ 1 :=
  ⟨fun _ => some (List.replicate 3 (logit (some 0))), _, [some 0, some 1], rfl, by simp, by simp⟩

/-- **C109.** An unknown name given to `set_lambda` is a KeyError, but the variables named before it
have already been changed. -/
theorem C109_set_not_atomic {s : Store} {k k' : String} {old : List F} (hk : s k = some old)
    (hk' : s k' = none) {v w : List (Option ℝ)} (hlen : v.length = old.length) :
    setLambda [(k, v), (k', w)] s = (s.put k (v.map logit), .error .keyError) := by
  have hne : k' ≠ k := by rintro rfl; rw [hk] at hk'; exact absurd hk' (by simp)
  have hb : broadcastTo (v.map logit) old.length = some (v.map logit) := by
    unfold broadcastTo
    rw [List.length_map, if_pos hlen]
  simp only [setLambda, hk, hb, Store.put, if_neg hne, hk']

theorem truncateUpdate_unknown {s : Store} {kw : List (String × ℝ)} {p : String × ℝ} (hp : p ∈ kw)
    (hn : s p.1 = none) : truncateUpdate s kw = .error .keyError := by
  induction kw with
  | nil => simp at hp
  | cons q kw ih =>
    obtain ⟨k, e⟩ := q
    rw [truncateUpdate]
    rcases List.mem_cons.1 hp with rfl | h
    · simp only at hn
      simp [getLambda, hn]
    · cases hg : getLambda s k with
      | none => rfl
      | some lam => simp only [ih h]

/-- **C109.** `truncate_lambda` with an unknown name is a KeyError and changes nothing. -/
theorem C109_truncate_atomic {s : Store} {kw : List (String × ℝ)} {p : String × ℝ} (hp : p ∈ kw)
    (hn : s p.1 = none) : truncateLambda kw s = (s, .error .keyError) := by
  unfold truncateLambda
  rw [truncateUpdate_unknown hp hn]

/-- Truncation of one stored value, seen by `get_lambda`. -/
theorem truncate_unit {eps : ℝ} {o : Option ℝ} (h : ∃ x, o = some x ∧ 0 ≤ x ∧ x ≤ 1) :
    ∃ y, truncate1 eps o = some y ∧ 0 ≤ y ∧ y ≤ 1 := by
  obtain ⟨x, rfl, h0, h1⟩ := h
  unfold truncate1
  by_cases a : x > 1 - eps
  · exact ⟨1, by simp only [if_pos a], by norm_num, by norm_num⟩
  · by_cases b : x < eps
    · exact ⟨0, by simp only [if_neg a, if_pos b], by norm_num, by norm_num⟩
    · exact ⟨x, by simp only [if_neg a, if_neg b], h0, h1⟩

/-- **C109.** `truncate_lambda(name=eps)` rounds every entry of the named variable and nothing else. -/
theorem C109_truncate {s : Store} {k : String} {lam : List (Option ℝ)} (eps : ℝ)
    (hk : getLambda s k = some lam) (hl : Unit01 lam) :
    ∃ s', truncateLambda [(k, eps)] s = (s', .ok ()) ∧
      (∀ q, q ≠ k → getLambda s' q = getLambda s q) ∧
      getLambda s' k = some (lam.map (truncate1 eps)) := by
  have hs : ∃ old, s k = some old ∧ old.length = lam.length := by
    unfold getLambda at hk
    cases h : s k with
    | none => rw [h] at hk; exact absurd hk (by simp)
    | some old =>
      rw [h] at hk
      injection hk with hk
      exact ⟨old, rfl, by rw [← hk, List.length_map]⟩
  obtain ⟨old, ho, hlen⟩ := hs
  have hu : Unit01 (lam.map (truncate1 eps)) := by
    intro o ho
    rw [List.mem_map] at ho
    obtain ⟨p, hp, rfl⟩ := ho
    exact truncate_unit (hl p hp)
  obtain ⟨s', h1, h2, h3⟩ := C109_set_get ho hu (.inl (by rw [List.length_map, hlen]))
  refine ⟨s', ?_, h2, ?_⟩
  · unfold truncateLambda
    simp only [truncateUpdate, hk]
    exact h1
  · rw [h3, if_pos (by rw [List.length_map, hlen])]

/-- **C109.** `set_all_lambda` sets every variable of the object. -/
theorem C109_set_all {s : Store} {x : ℝ} (h0 : 0 ≤ x) (h1 : x ≤ 1) : ∀ (names : List String)
    (_ : ∀ n ∈ names, ∃ old, s n = some old), ∃ s', setAllLambda names [some x] s = (s', .ok ()) ∧
      (∀ n ∈ names, ∃ old, s n = some old ∧
        getLambda s' n = some (List.replicate old.length (some x))) ∧
      ∀ n, n ∉ names → s' n = s n := by
  have key : ∀ (names : List String) (t : Store),
      (∀ n, (∀ old, s n = some old → ∃ u, t n = some u ∧ u.length = old.length)) →
      (∀ n ∈ names, ∃ old, s n = some old) →
      ∃ s', setAllLambda names [some x] t = (s', .ok ()) ∧
      (∀ n ∈ names, ∃ old, s n = some old ∧
        getLambda s' n = some (List.replicate old.length (some x))) ∧
      ∀ n, n ∉ names → s' n = t n := by
    intro names
    induction names with
    | nil => intro t _ _; exact ⟨t, rfl, by simp, fun _ _ => rfl⟩
    | cons n names ih =>
      intro t ht hs
      obtain ⟨old, ho⟩ := hs n (by simp)
      obtain ⟨u, hu, hul⟩ := ht n old ho
      have hb : ∃ fill, broadcastTo ([some x].map logit) u.length = some fill ∧
          fill.map expit = List.replicate u.length (some x) := by
        have e : expit (logit (some x)) = some x := by rw [C109_round_trip, if_pos ⟨h0, h1⟩]
        unfold broadcastTo
        by_cases h : ([some x].map logit).length = u.length
        · rw [if_pos h]
          refine ⟨_, rfl, ?_⟩
          rw [← h]
          simp [e]
        · rw [if_neg h]
          refine ⟨_, rfl, ?_⟩
          rw [List.map_replicate, e]
      obtain ⟨fill, hf, he⟩ := hb
      have hfl := broadcast_length hf
      obtain ⟨s', i1, i2, i3⟩ := ih (t.put n fill) (by
        intro m om hm
        by_cases hmn : m = n
        · subst hmn
          rw [ho] at hm
          injection hm with hm
          subst hm
          exact ⟨fill, by simp [Store.put], by rw [hfl, hul]⟩
        · obtain ⟨w, hw, hwl⟩ := ht m om hm
          exact ⟨w, by simp [Store.put, hmn, hw], hwl⟩) (fun m hm => hs m (by simp [hm]))
      refine ⟨s', ?_, ?_, ?_⟩
      · unfold setAllLambda at i1 ⊢
        simp only [List.map_cons, List.map_nil] at hf
        simp only [List.map_cons, setLambda, hu, List.map_nil, hf]
        exact i1
      · intro m hm
        by_cases hmem : m ∈ names
        · exact i2 m hmem
        · have : m = n := by simpa [hmem] using hm
          subst this
          refine ⟨old, ho, ?_⟩
          unfold getLambda
          rw [i3 m hmem]
          simp only [Store.put, if_true, Option.map_some, he, hul]
      · intro m hm
        rw [List.mem_cons, not_or] at hm
        rw [i3 m hm.2]
        simp [Store.put, hm.1]
  intro names hn
  exact key names s (fun n old h => ⟨old, h, rfl⟩) hn

/-- A store with two variables. -/
noncomputable example : ∃ s', truncateLambda [("theta", 1 / 10)]
    (fun k => if k = "theta" then some ([some (1 / 20), some (1 / 2), some 1].map logit)
      else if k = "tau" then some ([some (1 / 30)].map logit) else none) = (s', .ok ()) ∧
    getLambda s' "theta" = some [some 0, some (1 / 2), some 1] := by
  have hu : Unit01 [some (1 / 20 : ℝ), some (1 / 2), some 1] := by
    intro o ho
    simp only [List.mem_cons, List.not_mem_nil, or_false] at ho
    rcases ho with rfl | rfl | rfl
    · exact ⟨_, rfl, by norm_num, by norm_num⟩
    · exact ⟨_, rfl, by norm_num, by norm_num⟩
    · exact ⟨_, rfl, by norm_num, by norm_num⟩
  obtain ⟨s', h1, _, h3⟩ := C109_truncate (k := "theta") (lam := [some (1 / 20 : ℝ), some (1 / 2), some 1])
    (s := fun k => if k = "theta" then some ([some (1 / 20), some (1 / 2), some 1].map logit)
      else if k = "tau" then some ([some (1 / 30)].map logit) else none) (1 / 10)
    (by simp only [getLambda, if_true, Option.map_some]; rw [expit_logit_list hu]) hu
  refine ⟨s', h1, ?_⟩
  rw [h3]
  simp only [List.map_cons, List.map_nil, truncate1]
  norm_num

end Vip
