import Verif.Laplace.LayoutProps
import Mathlib.Data.List.GetD
import Mathlib.Tactic.Ring
import Mathlib.Tactic.Linarith

/-!
# Laplace approximation: posterior draws, labels and the functions handed to the optimiser
-/

set_option autoImplicit false

namespace Verif.Laplace

theorem slices_eq (sizes : List ℕ) (i : ℕ) (hi : i < sizes.length) :
    (slices sizes)[i]? = some ((sizes.take i).sum, (sizes.take (i + 1)).sum) := by
  simp [slices, hi]

/-- **C122** Cutting a draw by the recorded sizes returns the blocks from which it was assembled. -/
theorem C122_pieces {α : Type} (blocks : List (List α)) :
    pieces (blocks.map List.length) blocks.flatten = blocks := by
  have hlen : (pieces (blocks.map List.length) blocks.flatten).length = blocks.length := by simp [pieces, slices]
  refine List.ext_getElem hlen fun i h1 h2 => ?_
  simp only [pieces, slices, List.map_map, List.getElem_map, List.getElem_range, Function.comp, List.length_map]
  have hsum : ∀ k, ((blocks.map List.length).take k).sum = (blocks.take k).flatten.length := by
    intro k; rw [List.length_flatten, List.map_take]
  rw [hsum, hsum]
  have e1 : blocks.flatten = (blocks.take i).flatten ++ (blocks[i] ++ (blocks.drop (i + 1)).flatten) := by
    conv_lhs => rw [← List.take_append_drop i blocks, List.flatten_append, List.drop_eq_getElem_cons h2, List.flatten_cons]
  have e2 : (blocks.take (i + 1)).flatten.length = (blocks.take i).flatten.length + blocks[i].length := by
    rw [List.take_succ_eq_append_getElem h2, List.flatten_append, List.length_append]; simp
  rw [e2]
  conv_lhs => rw [e1]
  rw [List.drop_left, Nat.add_sub_cancel_left, List.take_left]

/-- **C122** For a model without discrete variables and a point produced by `find_MAP`, the posterior group gives every
free variable its own block of each draw, whatever the declaration order. -/
theorem C122_names_right {α : Type} (rvs : List RV) (det : List String) (inc : Bool) (hd : Spec.Distinct rvs det)
    (block : String → List α) :
    let order := (findMapKeys rvs det inc).filter fun k => decide (k ∈ rvs.map RV.name)
    posterior rvs det (order.map fun k => (block k).length) (order.flatMap block) =
      order.map fun k => (k, block k) := by
  intro order
  have ho : order = (rvs.filter fun v => v.transformed.isNone).map RV.name ++
      (rvs.filter fun v => !v.transformed.isNone).map RV.name := findMap_order rvs det inc hd
  have hp : pieces (order.map fun k => (block k).length) (order.flatMap block) = order.map block := by
    have := C122_pieces (order.map block)
    rwa [List.map_map, ← List.flatMap_def] at this
  have hn : posteriorNames rvs det = order ++ det := by
    rw [ho]
    simp only [posteriorNames, findMapKeys, Bool.false_or]
    congr 2
    · refine List.map_congr_left fun v hv => ?_
      have := (List.mem_filter.mp hv).2
      simp only [Option.isNone_iff_eq_none] at this
      simp [RV.valueName, this]
    · congr 2; ext v; cases v.transformed <;> rfl
  rw [posterior, hn, hp]
  have : order.map block = order.map block ++ [] := by simp
  rw [this, List.zip_append (by simp)]
  simp only [List.zip_nil_right, List.append_nil]
  rw [List.zip_map_right, ← List.map_id order]
  simp [List.zip_eq_zipWith, List.zipWith_self, List.map_map, Function.comp_def]

/-- **C122** With a discrete free variable among the names, draws are attributed to the wrong variable: the discrete
variable `k` receives the draws of `mu`, and `mu` none. -/
theorem C122_discrete_misnamed (x : ℝ) :
    posterior [⟨"k", none, true, 1⟩, ⟨"mu", none, false, 1⟩] [] [1] [x] = [("k", [x])] := by
  simp [posterior, posteriorNames, findMapKeys, pieces, slices, RV.valueName]

/-- **C123** The objective compiled by `find_MAP` cannot be called at the starting vector of a model with a (non-empty)
discrete free variable. -/
theorem C123_discrete_rejected (rvs : List RV) (value : RV → List ℝ) (v : RV) (hv : v ∈ rvs) (hd : v.discrete = true)
    (hne : value v ≠ []) : findMapFirstCall rvs value = .error .shapeError := by
  have key : ∀ (a b : List RV), (∃ w ∈ b, value w ≠ []) →
      assign ((a ++ b).map fun v => (v.valueName, (value v).length)) (a.flatMap value) = .error .shapeError := by
    intro a
    induction a with
    | nil =>
      intro b ⟨w, hw, hwne⟩
      simp only [List.nil_append, List.flatMap_nil]
      induction b with
      | nil => simp at hw
      | cons c b ih =>
        simp only [List.map_cons, assign, List.take_nil, List.length_nil]
        by_cases hc : value c = []
        · have : w ∈ b := by
            rcases List.mem_cons.mp hw with rfl | h
            · exact absurd hc hwne
            · exact h
          rw [if_pos (by simp [hc])]
          have := ih this
          simp only [List.drop_nil, this, Except.map]
        · rw [if_neg]
          intro h
          exact hc (List.length_eq_zero_iff.mp h.symm)
    | cons c a ih =>
      intro b hb
      simp only [List.cons_append, List.map_cons, List.flatMap_cons, assign, List.take_left, if_true, List.drop_left]
      rw [ih b hb]; rfl
  exact key _ _ ⟨v, List.mem_filter.mpr ⟨hv, by simp [hd]⟩, hne⟩

/-- **C123** Without discrete variables the first call assigns to every value variable its own initial value. -/
theorem C123_continuous_start (rvs : List RV) (value : RV → List ℝ) (hc : ∀ v ∈ rvs, v.discrete = false) :
    findMapFirstCall rvs value = .ok (rvs.map fun v => (v.valueName, value v)) := by
  have h1 : rvs.filter (fun v => !v.discrete) = rvs := List.filter_eq_self.mpr fun v hv => by simp [hc v hv]
  have h2 : rvs.filter (fun v => v.discrete) = [] := List.filter_eq_nil_iff.mpr fun v hv => by simp [hc v hv]
  simp only [findMapFirstCall, h1, h2, List.append_nil]
  clear h1 h2 hc
  induction rvs with
  | nil => rfl
  | cons v rvs ih =>
    simp only [List.map_cons, List.flatMap_cons, assign, List.take_left, if_true, List.drop_left, ih, Except.map]

example : findMapFirstCall [⟨"k", none, true, 1⟩, ⟨"mu", none, false, 1⟩] (fun _ => [0]) = .error .shapeError :=
  C123_discrete_rejected _ _ ⟨"k", none, true, 1⟩ (by simp) rfl (by simp)

/-! ### Shapes of the draws -/

theorem squeeze_last (chains draws d : ℕ) (hd : 2 ≤ d) : rvsShape chains draws d = squeeze [chains, draws] ++ [d] := by
  have : (d != 1) = true := by simp; omega
  simp only [rvsShape, squeeze, List.filter_cons, this]
  split <;> split <;> simp

theorem squeeze_prod (l : List ℕ) : (squeeze l).prod = l.prod := by
  induction l with
  | nil => rfl
  | cons a l ih =>
    simp only [squeeze, List.filter_cons] at ih ⊢
    by_cases h : a = 1
    · subst h; simpa using ih
    · have : (a != 1) = true := by simpa using h
      rw [if_pos this, List.prod_cons, List.prod_cons, ih]

/-- **C124** Sampling in the constrained space gets through exactly when the model has at least two scalar parameters:
with a single one, scipy drops the parameter axis and the code then slices the draws instead. -/
theorem C124_sample_shapes (chains draws : ℕ) (hc : 0 < chains) (hw : 0 < draws) (sizes : List ℕ) (hne : sizes ≠ [])
    (hpos : ∀ s ∈ sizes, 0 < s) : sampleOk chains draws sizes = true ↔ 2 ≤ sizes.sum := by
  have hsum : 0 < sizes.sum := by
    cases sizes with
    | nil => exact absurd rfl hne
    | cons a l => have := hpos a (by simp); simp; omega
  constructor
  · intro h
    by_contra hlt
    have h1 : sizes.sum = 1 := by omega
    have hs : sizes = [1] := by
      cases sizes with
      | nil => exact absurd rfl hne
      | cons a l =>
        have ha := hpos a (by simp)
        cases l with
        | nil => simp at h1; rw [h1]
        | cons b l => have hb := hpos b (by simp); simp at h1; omega
    subst hs
    simp only [sampleOk, slices, List.length_cons, List.length_nil, List.range_one, List.map_cons, List.map_nil,
      List.take_zero, List.sum_nil, List.zip_cons_cons, List.zip_nil_right, List.all_cons, List.all_nil, Bool.and_true,
      List.take_succ_cons, List.sum_cons, cutOk] at h
    by_cases hd1 : draws = 1
    · subst hd1
      by_cases hc1 : chains = 1
      · subst hc1; simp [rvsShape, squeeze] at h
      · have : (chains != 1) = true := by simpa using hc1
        simp [rvsShape, squeeze, List.filter_cons, this] at h
        omega
    · have hdd : (draws != 1) = true := by simpa using hd1
      by_cases hc1 : chains = 1
      · subst hc1
        simp [rvsShape, squeeze, List.filter_cons, hdd] at h
        omega
      · have hcc : (chains != 1) = true := by simpa using hc1
        simp [rvsShape, squeeze, List.filter_cons, hdd, hcc] at h
        omega
  · intro h
    simp only [sampleOk, List.all_eq_true]
    intro b hb
    obtain ⟨i, hi, hbi⟩ := List.mem_iff_getElem.mp hb
    simp only [List.length_zip, slices, List.length_map, List.length_range, Nat.min_self] at hi
    have hb1 : b.1 = sizes[i] := by rw [← hbi]; simp [List.getElem_zip]
    have hb2 : b.2 = ((sizes.take i).sum, (sizes.take (i + 1)).sum) := by
      rw [← hbi]; simp only [List.getElem_zip, slices, List.getElem_map, List.getElem_range]
    have htake : (sizes.take (i + 1)).sum = (sizes.take i).sum + sizes[i] := by
      rw [List.take_succ_eq_append_getElem hi, List.sum_append, List.sum_singleton]
    have hle : (sizes.take (i + 1)).sum ≤ sizes.sum := by
      conv_rhs => rw [← List.take_append_drop (i + 1) sizes, List.sum_append]
      omega
    rw [squeeze_last chains draws _ h]
    simp only [cutOk, List.getLast?_append, List.getLast?_singleton, Option.some_or, List.dropLast_concat]
    simp only [hb2]
    rw [Nat.min_eq_left hle, Nat.min_eq_left (by omega), htake, Nat.add_sub_cancel_left, List.prod_append, squeeze_prod,
      hb1]
    simp

/-- **C124** Sampling in the unconstrained space needs at least two chains, two draws and two scalar parameters. -/
theorem C124_transformed_shapes (chains draws d : ℕ) :
    sampleTransformedOk chains draws d = true ↔ chains ≠ 1 ∧ draws ≠ 1 ∧ d ≠ 1 := by
  simp only [sampleTransformedOk, rvsShape, squeeze, List.filter_cons, List.filter_nil, beq_iff_eq]
  by_cases h1 : chains = 1 <;> by_cases h2 : draws = 1 <;> by_cases h3 : d = 1 <;> simp [h1, h2, h3]

/-- The defaults (two chains, 500 draws) with a mean and a scale pass, a single mean does not. -/
example : sampleOk 2 500 [1, 1] = true ∧ sampleOk 2 500 [1] = false := by decide

/-! ### Labels of the fit group -/

theorem cartesian_length (ds : List (List String)) : (cartesian ds).length = (ds.map List.length).prod := by
  induction ds with
  | nil => rfl
  | cons d ds ih =>
    simp only [cartesian, List.length_flatMap, List.length_map, ih, List.map_cons, List.prod_cons, List.map_const']
    induction d with
    | nil => simp
    | cons a d ihd => rw [List.length_cons, List.replicate_succ, List.sum_cons, ihd]; ring

theorem unpacked_length (dims : String → Option (List (List String))) (name : String) :
    (unpackedNames dims name).length = match dims name with
      | none => 1
      | some ds => (ds.map List.length).prod := by
  unfold unpackedNames
  cases dims name with
  | none => rfl
  | some ds => simp [cartesian_length]

/-- Position of a multi-index in an array of the given shape stored row by row (the last index runs fastest). -/
def Spec.rowMajor : List ℕ → List ℕ → ℕ
  | _ :: ns, i :: is => i * ns.prod + Spec.rowMajor ns is
  | _, _ => 0

theorem flatMap_block {α β : Type} (f : α → List β) (m : ℕ) (hf : ∀ a, (f a).length = m) (d : List α) (i j : ℕ) (hj : j < m) :
    (d.flatMap f)[i * m + j]? = d[i]?.bind fun a => (f a)[j]? := by
  induction d generalizing i with
  | nil => simp
  | cons a d ih =>
    rw [List.flatMap_cons]
    rcases i with _ | i
    · rw [List.getElem?_append_left (by rw [hf]; omega)]
      simp
    · rw [List.getElem?_append_right (by rw [hf, Nat.add_mul]; omega), hf,
        show (i + 1) * m + j - m = i * m + j by rw [Nat.add_mul]; omega, ih]
      simp

theorem rowMajor_lt (ds : List (List String)) (picks : List (ℕ × String))
    (h : List.Forall₂ (fun d x => d[x.1]? = some x.2) ds picks) :
    Spec.rowMajor (ds.map List.length) (picks.map Prod.fst) < (ds.map List.length).prod := by
  induction h with
  | nil => simp [Spec.rowMajor]
  | @cons d x ds ps hx _ ih =>
    simp only [List.map_cons, Spec.rowMajor, List.prod_cons]
    obtain ⟨hlt, -⟩ := List.getElem?_eq_some_iff.mp hx
    nlinarith

theorem cartesian_get (ds : List (List String)) (picks : List (ℕ × String))
    (h : List.Forall₂ (fun d x => d[x.1]? = some x.2) ds picks) :
    (cartesian ds)[Spec.rowMajor (ds.map List.length) (picks.map Prod.fst)]? = some (picks.map Prod.snd) := by
  induction h with
  | nil => simp [Spec.rowMajor, cartesian]
  | @cons d x ds ps hx hrest ih =>
    simp only [List.map_cons, Spec.rowMajor, cartesian]
    rw [flatMap_block _ _ (fun a => by rw [List.length_map, cartesian_length]) d x.1 _ (rowMajor_lt ds ps hrest), hx]
    simp [ih]

/-- **C125** The label at the position of a multi-index (row by row, as the element itself is stored) carries the coordinates
of exactly that multi-index, in the order of the variable's dims. -/
theorem C125_label_elements (dims : String → Option (List (List String))) (name : String) (ds : List (List String))
    (hd : dims name = some ds) (picks : List (ℕ × String))
    (h : List.Forall₂ (fun d x => d[x.1]? = some x.2) ds picks) :
    (unpackedNames dims name)[Spec.rowMajor (ds.map List.length) (picks.map Prod.fst)]? =
      some (name ++ "[" ++ ",".intercalate (picks.map Prod.snd) ++ "]") := by
  simp [unpackedNames, hd, cartesian_get ds picks h]

/-- Element (1, 2) of a two by three variable is the sixth. -/
example : Spec.rowMajor [2, 3] [1, 2] = 5 ∧
    List.Forall₂ (fun (d : List String) (x : ℕ × String) => d[x.1]? = some x.2) [["a", "b"], ["u", "v", "w"]]
      [(1, "b"), (2, "w")] ∧
    (unpackedNames (fun _ => some [["a", "b"], ["u", "v", "w"]]) "beta")[5]? = some "beta[b,w]" := by
  refine ⟨rfl, .cons rfl (.cons rfl .nil), by decide⟩

/-- **C125** If every variable with dims has as many elements as its coordinates allow, the fit group can be labelled
exactly when every (non-empty) variable without dims is a scalar: a vector declared with `shape=` makes `fit_laplace` raise
after sampling. -/
theorem C125_labels (dims : String → Option (List (List String))) (info : List (String × ℕ))
    (hdim : ∀ b ∈ info, ∀ ds, dims b.1 = some ds → b.2 = (ds.map List.length).prod) (hpos : ∀ b ∈ info, 0 < b.2) :
    (∃ labels, fitLabels dims info = .ok labels) ↔ ∀ b ∈ info, dims b.1 = none → b.2 = 1 := by
  have hle : ∀ b ∈ info, (unpackedNames dims b.1).length ≤ b.2 := by
    intro b hb
    rw [unpacked_length]
    cases h : dims b.1 with
    | none => exact hpos b hb
    | some ds => exact (hdim b hb ds h).symm.le
  have hiff : ∀ b ∈ info, ((unpackedNames dims b.1).length = b.2 ↔ (dims b.1 = none → b.2 = 1)) := by
    intro b hb
    rw [unpacked_length]
    cases h : dims b.1 with
    | none => simp [eq_comm]
    | some ds => simp [hdim b hb ds h]
  have main : ∀ l : List (String × ℕ), (∀ b ∈ l, b ∈ info) →
      (l.flatMap fun b => unpackedNames dims b.1).length ≤ (l.map Prod.snd).sum ∧
      ((l.flatMap fun b => unpackedNames dims b.1).length = (l.map Prod.snd).sum ↔
        ∀ b ∈ l, (unpackedNames dims b.1).length = b.2) := by
    intro l
    induction l with
    | nil => simp
    | cons b l ih =>
      intro hl
      obtain ⟨i1, i2⟩ := ih fun c hc => hl c (by simp [hc])
      have hb := hle b (hl b (by simp))
      simp only [List.flatMap_cons, List.length_append, List.map_cons, List.sum_cons, List.forall_mem_cons]
      refine ⟨by omega, ?_⟩
      rw [← i2]
      omega
  have h := (main info fun b hb => hb).2
  constructor
  · rintro ⟨labels, hl⟩ b hb
    simp only [fitLabels] at hl
    split at hl
    · next he => exact (hiff b hb).mp (h.mp he b hb)
    · simp at hl
  · intro hall
    refine ⟨info.flatMap fun b => unpackedNames dims b.1, ?_⟩
    simp only [fitLabels]
    rw [if_pos (h.mpr fun b hb => (hiff b hb).mpr (hall b hb))]

/-- A vector of three coefficients with dims, and the same without. -/
example : (∃ l, fitLabels (fun n => if n = "beta" then some [["a", "b", "c"]] else none) [("beta", 3), ("s", 1)] = .ok l) ∧
    ¬ ∃ l, fitLabels (fun _ => none) [("beta", 3), ("s", 1)] = .ok l := by
  constructor
  · rw [C125_labels]
    · decide
    · intro b hb ds h
      simp only [List.mem_cons, List.not_mem_nil, or_false] at hb
      rcases hb with rfl | rfl <;> simp at h ⊢
      subst h; rfl
    · decide
  · rw [C125_labels]
    · simp
    · simp
    · decide

/-- **C125** `fit_laplace(return_raw=True)` always raises: the pair returned by `find_MAP` is used as a dictionary. -/
theorem C125_return_raw (vars : List String) (p : Point) :
    fitLaplaceHessianPoint true vars p = .error .attributeError ∧
    fitLaplaceHessianPoint false vars p = hessianPoint vars p := ⟨rfl, rfl⟩

/-! ### Functions handed to the optimiser -/

/-- **C126** Never both a Hessian and a Hessian-vector product; explicit choices are respected, except that a requested
Hessian is dropped when the Hessian-vector product is on, also by the method's default. -/
theorem C126_defaults (info : MethodInfo) (g h hp : Option Bool) :
    let r := optimizerDefaults info g h hp
    ¬ (r.2.1 = true ∧ r.2.2 = true) ∧ (∀ b, g = some b → r.1 = b) ∧ (∀ b, hp = some b → r.2.2 = b) ∧
    (h = some true → hp = none → info.usesHessp = true → r.2.1 = false) ∧
    (h = some true → hp = some false → r.2.1 = true) := by
  refine ⟨?_, ?_, ?_, ?_, ?_⟩
  · cases g <;> cases h <;> cases hp <;> simp [optimizerDefaults]
    all_goals intro h1 h2; simp_all
  · rintro b rfl; rfl
  · rintro b rfl; rfl
  · rintro rfl rfl hi; simp [optimizerDefaults, hi]
  · rintro rfl rfl; simp [optimizerDefaults]

/-- **C126** The compiled functions: an error exactly for a Hessian without gradient, an unknown backend, or JAX gradients
under another compilation mode; otherwise a Hessian (product) function is returned exactly when asked for, by the backend
asked for. -/
theorem C126_functions (g h hp : Bool) (backend : String) (mode : Option String) :
    ((∃ e, optimizeFuncs g h hp backend mode = .error e) ↔
      ((h = true ∨ hp = true) ∧ g = false) ∨ (backend ≠ "pytensor" ∧ backend ≠ "jax") ∨
      (backend = "jax" ∧ g = true ∧ ∃ m, mode = some m ∧ m ≠ "JAX")) ∧
    ∀ r, optimizeFuncs g h hp backend mode = .ok r →
      (r.1.2.1.isSome = h) ∧ (r.1.2.2.isSome = hp) ∧ r.1.1.isSome = true ∧
      (backend = "jax" → g = true → r.1.1 = some .jaxLossGrad ∧ r.2 = some "JAX") ∧
      (backend = "pytensor" → r.1.1 = some (if g then .pytensorLossGrad else .pytensorLoss) ∧ r.2 = mode) := by
  by_cases hj : backend = "jax"
  · subst hj
    cases mode with
    | none => cases g <;> cases h <;> cases hp <;> simp [optimizeFuncs, compileFunctions, pop0, jaxGradients]
    | some m =>
      by_cases hm : m = "JAX"
      · subst hm
        cases g <;> cases h <;> cases hp <;> simp [optimizeFuncs, compileFunctions, pop0, jaxGradients]
      · cases g <;> cases h <;> cases hp <;> simp [optimizeFuncs, compileFunctions, pop0, jaxGradients, hm]
  · by_cases hp' : backend = "pytensor"
    · subst hp'
      cases g <;> cases h <;> cases hp <;> simp [optimizeFuncs, compileFunctions, pop0, jaxGradients]
    · cases g <;> cases h <;> cases hp <;> simp [optimizeFuncs, hj, hp']

example : optimizeFuncs true true false "pytensor" none =
    .ok ((some .pytensorLossGrad, some .pytensorHess, none), none) := by decide

end Verif.Laplace
