import Verif.Builder.PriorLaw
import Verif.Builder.PriorProps
import Verif.Kalman.GaussianExists

/-! # C192: when prior_from_idata works, and the distribution it gives -/

set_option autoImplicit false

open Matrix MeasureTheory ProbabilityTheory

namespace PriorFrom

/-! ### Specification -/

namespace Spec

/-- The average of a quantity over the draws. -/
noncomputable def avg (S : ℕ) (f : ℕ → ℝ) : ℝ := (∑ s ∈ Finset.range S, f s) / S

/-- The sample variance of a quantity over the draws (with `S - 1`). -/
noncomputable def sampleVar (S : ℕ) (f : ℕ → ℝ) : ℝ := (∑ s ∈ Finset.range S, (f s - avg S f) ^ 2) / ((S : ℝ) - 1)

/-- The linear combination of the scalars of several variables: weight `w m j` on entry `j` of variable `m`. -/
def weigh : (ℕ → ℕ → ℝ) → List (List ℝ) → ℝ
  | _, [] => 0
  | w, b :: bs => ∑ j ∈ Finset.range b.length, w 0 j * b.getD j 0 + weigh (fun m => w (m + 1)) bs

/-- The values of all requested variables in draw `s`, on the scale of their transforms. -/
def drawn (cs : List (String × Cfg ℝ)) (ds : List (List (Arr ℝ))) (s : ℕ) : List (List ℝ) :=
  List.zipWith (fun p d => (fwd p.2 (d.getD s ⟨[], []⟩)).vals) cs ds

/-- Some linear combination of the scalars, not all weights zero, takes one value in all draws. -/
def Degenerate (cs : List (String × Cfg ℝ)) (ds : List (List (Arr ℝ))) (S : ℕ) : Prop :=
  ∃ w : ℕ → ℕ → ℝ, (∃ m j, j < ((drawn cs ds 0).getD m []).length ∧ w m j ≠ 0) ∧
    ∃ c, ∀ s, s < S → weigh w (drawn cs ds s) = c

end Spec

open Spec

/-! ### Lemmas: flat and block weights -/

/-- Weights on the concatenation. -/
def flatW : List ℕ → (ℕ → ℕ → ℝ) → ℕ → ℝ
  | [], _, _ => 0
  | l :: ls, w, i => if i < l then w 0 i else flatW ls (fun m => w (m + 1)) (i - l)

/-- Weights on the blocks. -/
def blockW (ls : List ℕ) (v : ℕ → ℝ) (m j : ℕ) : ℝ := v ((ls.take m).sum + j)

theorem weigh_flat : ∀ (bs : List (List ℝ)) (w : ℕ → ℕ → ℝ),
    weigh w bs = ∑ i ∈ Finset.range (bs.map List.length).sum, flatW (bs.map List.length) w i * bs.flatten.getD i 0
  | [], w => by simp [weigh]
  | b :: bs, w => by
    simp only [weigh, List.map_cons, List.sum_cons, List.flatten_cons]
    rw [Finset.sum_range_add, weigh_flat bs]
    congr 1
    · refine Finset.sum_congr rfl fun j hj => ?_
      rw [Finset.mem_range] at hj
      rw [flatW, if_pos hj, List.getD_append _ _ _ _ hj]
    · refine Finset.sum_congr rfl fun j hj => ?_
      rw [flatW, if_neg (by omega), List.getD_append_right _ _ _ _ (by omega)]
      congr 2
      · congr 1; omega
      · omega

theorem flatW_block : ∀ (ls : List ℕ) (v : ℕ → ℝ) (i : ℕ), i < ls.sum → flatW ls (blockW ls v) i = v i
  | [], v, i, h => by simp at h
  | l :: ls, v, i, h => by
    rw [flatW]
    split
    · simp [blockW]
    · rename_i hl
      have e : (fun m => blockW (l :: ls) v (m + 1)) = blockW ls (fun k => v (l + k)) := by
        funext m j
        simp only [blockW, List.take_succ_cons, List.sum_cons]
        congr 1; omega
      rw [e, flatW_block ls _ _ (by simp only [List.sum_cons] at h; omega)]
      congr 1; omega

theorem flatW_ne : ∀ (ls : List ℕ) (w : ℕ → ℕ → ℝ),
    (∃ i, i < ls.sum ∧ flatW ls w i ≠ 0) ↔ ∃ m j, j < ls.getD m 0 ∧ w m j ≠ 0
  | [], w => by simp
  | l :: ls, w => by
    have ih := flatW_ne ls (fun m => w (m + 1))
    constructor
    · rintro ⟨i, hi, h⟩
      rw [flatW] at h
      split at h
      · exact ⟨0, i, by simpa, h⟩
      · rename_i hl
        obtain ⟨m, j, h1, h2⟩ := ih.1 ⟨i - l, by simp only [List.sum_cons] at hi; omega, h⟩
        exact ⟨m + 1, j, by simpa using h1, h2⟩
    · rintro ⟨m, j, h1, h2⟩
      cases m with
      | zero =>
        simp only [List.getD_cons_zero] at h1
        exact ⟨j, by simp only [List.sum_cons]; omega, by rw [flatW, if_pos h1]; exact h2⟩
      | succ m =>
        obtain ⟨i, hi, h⟩ := ih.2 ⟨m, j, by simpa using h1, h2⟩
        refine ⟨l + i, by simp only [List.sum_cons]; omega, ?_⟩
        rw [flatW, if_neg (by omega), Nat.add_sub_cancel_left]; exact h

/-! ### Lemmas: rows -/

theorem rowOf_eq (cs : List (String × Cfg ℝ)) : ∀ (ds : List (List (Arr ℝ))) (s : ℕ), rowOf cs ds s = (drawn cs ds s).flatten := by
  induction cs with
  | nil => intro ds s; simp [rowOf, drawn]
  | cons p cs ih =>
    intro ds s
    cases ds with
    | nil => simp [rowOf, drawn]
    | cons d ds =>
      have := ih ds s
      simp only [rowOf, drawn, List.zipWith_cons_cons, List.flatten_cons] at this ⊢
      rw [this]; rfl

/-- The sizes of the requested variables. -/
def sizes (cs : List (String × Cfg ℝ)) (ds : List (List (Arr ℝ))) : List ℕ := (drawn cs ds 0).map List.length

theorem drawn_sizes {post : Posterior ℝ} {S s : ℕ} (hs : s < S) {cs : List (String × Cfg ℝ)} {ds : List (List (Arr ℝ))}
    (h : List.Forall₂ (VarData post S) cs ds) : (drawn cs ds s).map List.length = sizes cs ds := by
  induction h with
  | nil => rfl
  | @cons p d cs ds hp _ ih =>
    simp only [sizes, drawn, List.zipWith_cons_cons, List.map_cons] at ih ⊢
    rw [ih]
    congr 1
    exact (fwd_at hp hs).2.1

theorem length_row {post : Posterior ℝ} {S s : ℕ} (hs : s < S) {cs : List (String × Cfg ℝ)} {ds : List (List (Arr ℝ))}
    (h : List.Forall₂ (VarData post S) cs ds) : (rowOf cs ds s).length = (sizes cs ds).sum := by
  rw [rowOf_eq, List.length_flatten, drawn_sizes hs h]

/-- A linear combination of the flat columns. -/
noncomputable def comb (n : ℕ) (v : Fin n → ℝ) (row : ℕ → List ℝ) (s : ℕ) : ℝ := ∑ j, v j * (row s).getD j 0

theorem meanRow_getD (n S : ℕ) (row : ℕ → List ℝ) {j : ℕ} (hj : j < n) :
    (meanRow n ((List.range S).map row)).getD j 0 = avg S (fun s => (row s).getD j 0) := by
  have hl : j < (meanRow n ((List.range S).map row)).length := by simp [meanRow, hj]
  rw [List.getD_eq_getElem _ _ hl]
  simp only [meanRow, List.getElem_map, List.getElem_range, List.map_map, List.length_map, List.length_range, avg]
  congr 1

theorem sum_range_list (S : ℕ) (f : ℕ → ℝ) : ((List.range S).map f).sum = ∑ s ∈ Finset.range S, f s := rfl

theorem avg_comb (n S : ℕ) (v : Fin n → ℝ) (row : ℕ → List ℝ) :
    avg S (comb n v row) = ∑ j, v j * avg S (fun s => (row s).getD j 0) := by
  simp only [avg, comb]
  rw [Finset.sum_comm, Finset.sum_div]
  refine Finset.sum_congr rfl fun j _ => ?_
  rw [← Finset.mul_sum, mul_div_assoc]

theorem cov_apply (n S : ℕ) (row : ℕ → List ℝ) (i j : Fin n) :
    sampleCov n ((List.range S).map row) i j =
      (∑ s ∈ Finset.range S, ((row s).getD i 0 - avg S (fun s => (row s).getD i 0)) *
        ((row s).getD j 0 - avg S (fun s => (row s).getD j 0))) / ((S : ℝ) - 1) := by
  unfold sampleCov
  rw [meanRow_getD n S row i.2, meanRow_getD n S row j.2, List.map_map, List.length_map, List.length_range, ← sum_range_list]
  rfl

theorem cov_symm (n S : ℕ) (row : ℕ → List ℝ) : (sampleCov n ((List.range S).map row)).IsHermitian := by
  ext i j
  rw [conjTranspose_apply, star_trivial, cov_apply, cov_apply]
  congr 1
  exact Finset.sum_congr rfl fun s _ => mul_comm _ _

theorem cov_quad (n S : ℕ) (row : ℕ → List ℝ) (v : Fin n → ℝ) :
    v ⬝ᵥ (sampleCov n ((List.range S).map row) *ᵥ v) = sampleVar S (comb n v row) := by
  have e : ∀ s, (comb n v row s - avg S (comb n v row)) =
      ∑ j, v j * ((row s).getD j 0 - avg S (fun s => (row s).getD j 0)) := by
    intro s
    rw [avg_comb]
    simp only [comb, mul_sub, Finset.sum_sub_distrib]
  simp only [sampleVar, e, dotProduct, mulVec, cov_apply]
  generalize hc : (S : ℝ) - 1 = c
  generalize ha : (fun (s : ℕ) (j : Fin n) => (row s).getD j 0 - avg S (fun s => (row s).getD j 0)) = a
  have ha' : ∀ (s : ℕ) (j : Fin n), (row s).getD j 0 - avg S (fun s => (row s).getD j 0) = a s j := fun s j => by rw [← ha]
  simp only [ha']
  have r : ∀ s, (∑ j, v j * a s j) ^ 2 = ∑ i, ∑ j, (v i * a s i) * (v j * a s j) := fun s => by
    rw [sq, Finset.sum_mul_sum]
  simp only [r]
  rw [Finset.sum_comm, Finset.sum_div]
  refine Finset.sum_congr rfl fun i _ => ?_
  rw [Finset.sum_comm, Finset.sum_div, Finset.mul_sum]
  refine Finset.sum_congr rfl fun j _ => ?_
  rw [Finset.sum_div, Finset.sum_div, Finset.sum_mul, Finset.mul_sum]
  refine Finset.sum_congr rfl fun s _ => ?_
  ring

theorem sampleVar_nonneg {S : ℕ} (hS : 2 ≤ S) (f : ℕ → ℝ) : 0 ≤ sampleVar S f := by
  have : (2 : ℝ) ≤ S := by exact_mod_cast hS
  exact div_nonneg (Finset.sum_nonneg fun s _ => sq_nonneg _) (by linarith)

theorem sampleVar_zero {S : ℕ} (hS : 2 ≤ S) (f : ℕ → ℝ) : sampleVar S f = 0 ↔ ∃ c, ∀ s, s < S → f s = c := by
  have h2 : (2 : ℝ) ≤ S := by exact_mod_cast hS
  unfold sampleVar
  rw [div_eq_zero_iff, or_iff_left (by linarith), Finset.sum_eq_zero_iff_of_nonneg fun s _ => sq_nonneg _]
  constructor
  · intro h
    exact ⟨avg S f, fun s hs => by have := h s (Finset.mem_range.2 hs); rw [sq_eq_zero_iff] at this; linarith⟩
  · rintro ⟨c, hc⟩ s hs
    have : avg S f = c := by
      unfold avg
      rw [Finset.sum_congr rfl fun s hs => hc s (Finset.mem_range.1 hs), Finset.sum_const, Finset.card_range, nsmul_eq_mul,
        mul_comm, mul_div_assoc, div_self (by linarith), mul_one]
    rw [this, hc s (Finset.mem_range.1 hs)]; simp

theorem cov_posDef {n S : ℕ} (hS : 2 ≤ S) (row : ℕ → List ℝ) :
    (sampleCov n ((List.range S).map row)).PosDef ↔ ∀ v : Fin n → ℝ, (∃ c, ∀ s, s < S → comb n v row s = c) → v = 0 := by
  constructor
  · intro h v hv
    by_contra h0
    have := h.dotProduct_mulVec_pos h0
    rw [star_trivial, cov_quad, (sampleVar_zero hS _).2 hv] at this
    exact lt_irrefl _ this
  · intro h
    refine PosDef.of_dotProduct_mulVec_pos (cov_symm n S row) fun v hv => ?_
    rw [star_trivial, cov_quad]
    refine lt_of_le_of_ne (sampleVar_nonneg hS _) fun h0 => hv (h v ((sampleVar_zero hS _).1 h0.symm))

theorem comb_weigh {post : Posterior ℝ} {S s : ℕ} (hs : s < S) {cs : List (String × Cfg ℝ)} {ds : List (List (Arr ℝ))}
    (h : List.Forall₂ (VarData post S) cs ds) (w : ℕ → ℕ → ℝ) :
    weigh w (drawn cs ds s) = comb (sizes cs ds).sum (fun j => flatW (sizes cs ds) w j) (rowOf cs ds) s := by
  rw [weigh_flat, drawn_sizes hs h, comb, rowOf_eq, Finset.sum_range]

theorem degenerate_iff {post : Posterior ℝ} {S : ℕ} (hS : 0 < S) {cs : List (String × Cfg ℝ)} {ds : List (List (Arr ℝ))}
    (h : List.Forall₂ (VarData post S) cs ds) : Degenerate cs ds S ↔
      ∃ v : Fin (sizes cs ds).sum → ℝ, v ≠ 0 ∧ ∃ c, ∀ s, s < S → comb _ v (rowOf cs ds) s = c := by
  have hsz : ∀ m, (sizes cs ds).getD m 0 = ((drawn cs ds 0).getD m []).length := by
    intro m
    unfold sizes
    rw [List.getD_eq_getElem?_getD, List.getD_eq_getElem?_getD, List.getElem?_map]
    cases (drawn cs ds 0)[m]? <;> rfl
  constructor
  · rintro ⟨w, hw, c, hc⟩
    refine ⟨fun j => flatW (sizes cs ds) w j, fun h0 => ?_, c, fun s hs => by rw [← comb_weigh hs h]; exact hc s hs⟩
    obtain ⟨i, hi, hne⟩ := (flatW_ne (sizes cs ds) w).2 (by simpa only [hsz] using hw)
    exact hne (congrFun h0 ⟨i, hi⟩)
  · rintro ⟨v, hv, c, hc⟩
    let v' : ℕ → ℝ := fun i => if hi : i < (sizes cs ds).sum then v ⟨i, hi⟩ else 0
    have e : (fun j : Fin (sizes cs ds).sum => flatW (sizes cs ds) (blockW (sizes cs ds) v') j) = v := by
      funext j
      rw [flatW_block _ _ _ j.2]
      simp [v']
    refine ⟨blockW (sizes cs ds) v', ?_, c, fun s hs => by rw [comb_weigh hs h, e]; exact hc s hs⟩
    obtain ⟨j, hj⟩ := Function.ne_iff.1 hv
    have := (flatW_ne (sizes cs ds) (blockW (sizes cs ds) v')).1 ⟨j, j.2, by rw [congrFun e j]; exact hj⟩
    simpa only [hsz] using this

/-! ### Lemmas: registration -/

/-- The names and dims of the loop are acceptable. -/
def Accept (okDims : String → Option (List String) → Bool) (names : List String) (cfgs : List (Cfg ℝ)) : Prop :=
  (cfgs.map Cfg.name).Nodup ∧ (∀ c ∈ cfgs, c.name ∉ names) ∧ ∀ c ∈ cfgs, okDims c.name c.dims = true

theorem buildLoop_spec (okDims : String → Option (List String) → Bool) (joint : (ℕ → ℝ) → List ℝ) :
    ∀ (infos : List (Info ℝ)) (names : List String) (result : List Entry),
    (Accept okDims names (infos.map Info.cfg) →
      buildLoop okDims joint infos names result =
        (.ok (result ++ infos.map fun i => (i.cfg.name, fun z => (unflatten (joint z) i).2)),
          names ++ infos.map fun i => i.cfg.name)) ∧
    (¬ Accept okDims names (infos.map Info.cfg) →
      ∃ n names', (buildLoop okDims joint infos names result = (.error (.duplicate n), names') ∨
        buildLoop okDims joint infos names result = (.error (.badDims n), names')) ∧ names <+: names')
  | [], names, result => by
    refine ⟨fun _ => by simp [buildLoop], fun h => absurd ?_ h⟩
    simp [Accept]
  | i :: rest, names, result => by
    obtain ⟨ih1, ih2⟩ := buildLoop_spec okDims joint rest (names ++ [i.cfg.name])
      (result ++ [(i.cfg.name, fun z => (unflatten (joint z) i).2)])
    have key : Accept okDims names ((i :: rest).map Info.cfg) ↔ i.cfg.name ∉ names ∧ okDims i.cfg.name i.cfg.dims = true ∧
        Accept okDims (names ++ [i.cfg.name]) (rest.map Info.cfg) := by
      simp only [Accept, List.map_cons, List.nodup_cons, List.mem_cons, forall_eq_or_imp, List.mem_append, List.mem_singleton,
        List.not_mem_nil, or_false, not_or]
      constructor
      · rintro ⟨⟨a, b⟩, ⟨c, d⟩, e, f⟩
        refine ⟨c, e, b, fun x hx => ⟨d x hx, fun hh => a ?_⟩, f⟩
        rw [← hh]; exact List.mem_map_of_mem hx
      · rintro ⟨c, e, b, d, f⟩
        refine ⟨⟨fun hm => ?_, b⟩, ⟨c, fun x hx => (d x hx).1⟩, e, f⟩
        obtain ⟨x, hx, hxe⟩ := List.mem_map.1 hm
        exact (d x hx).2 hxe
    by_cases h1 : i.cfg.name ∈ names
    · refine ⟨fun h => absurd h1 (key.1 h).1, fun _ => ⟨i.cfg.name, names, .inl ?_, List.prefix_refl _⟩⟩
      rw [buildLoop, if_pos h1]
    by_cases h2 : okDims i.cfg.name i.cfg.dims = false
    · refine ⟨fun h => absurd (key.1 h).2.1 (by simp [h2]), fun _ => ⟨i.cfg.name, names, .inr ?_, List.prefix_refl _⟩⟩
      rw [buildLoop, if_neg h1, if_pos h2]
    rw [buildLoop, if_neg h1, if_neg h2]
    constructor
    · intro h
      rw [ih1 (key.1 h).2.2]
      simp
    · intro h
      obtain ⟨n, names', hb, hp⟩ := ih2 fun ha => h (key.2 ⟨h1, by simpa using h2, ha⟩)
      exact ⟨n, names', hb, (List.prefix_append _ _).trans hp⟩

theorem run_eq (chol : CholFn) (okDims : String → Option (List String) → Bool) {post : Posterior ℝ} {S : ℕ} (hS : 0 < S)
    (name : String) (names varNames : List String) (kwargs : List (String × Arg ℝ)) (hne : parseArgs varNames kwargs ≠ [])
    {ds : List (List (Arr ℝ))} (h : List.Forall₂ (VarData post S) (parseArgs varNames kwargs) ds) :
    priorFromIdata chol okDims post S name names varNames kwargs =
      match meanChol chol (sizes (parseArgs varNames kwargs) ds).sum ((List.range S).map (rowOf (parseArgs varNames kwargs) ds)) with
      | none => (.error .notPosDef, names)
      | some (mean, L) =>
        if name ∈ names then (.error (.duplicate name), names)
        else buildLoop okDims (fun z => interim (sizes (parseArgs varNames kwargs) ds).sum mean L z)
          (infosFrom 0 (parseArgs varNames kwargs) ds) (names ++ [name]) [] := by
  unfold priorFromIdata
  have he : (parseArgs varNames kwargs).isEmpty = false := by simpa using hne
  simp only [he, Bool.false_eq_true, if_false, flatten_eq hS h, mvnPrior]
  have hn : (((List.range S).map (rowOf (parseArgs varNames kwargs) ds)).head?.map List.length).getD 0 =
      (sizes (parseArgs varNames kwargs) ds).sum := by
    obtain ⟨S', rfl⟩ : ∃ k, S = k + 1 := ⟨S - 1, by omega⟩
    rw [List.range_succ_eq_map]
    simp only [List.map_cons, List.head?_cons, Option.map_some, Option.getD_some]
    exact length_row hS h
  rw [hn]
  cases meanChol chol (sizes (parseArgs varNames kwargs) ds).sum ((List.range S).map (rowOf (parseArgs varNames kwargs) ds)) <;> rfl

theorem meanChol_none {chol : CholFn} (hc : CholSpec chol) {post : Posterior ℝ} {S : ℕ} (hS : 2 ≤ S)
    {cs : List (String × Cfg ℝ)} {ds : List (List (Arr ℝ))} (h : List.Forall₂ (VarData post S) cs ds) :
    meanChol chol (sizes cs ds).sum ((List.range S).map (rowOf cs ds)) = none ↔ Degenerate cs ds S := by
  rw [degenerate_iff (by omega) h]
  have h1 : meanChol chol (sizes cs ds).sum ((List.range S).map (rowOf cs ds)) = none ↔
      chol (sizes cs ds).sum (sampleCov (sizes cs ds).sum ((List.range S).map (rowOf cs ds))) = none := by
    unfold meanChol
    split <;> simp_all
  rw [h1, hc.fails_iff _ _ (cov_symm _ S _), cov_posDef hS]
  push Not
  exact exists_congr fun v => and_comm

/-! ### Theorems -/

/-- **C192.** The request fails with LinAlgError iff some non-trivial linear combination of the requested scalars (on the scale of their
transforms) is the same in all draws, and then the model is left as it was. -/
theorem C192_degenerate_iff {chol : CholFn} (hc : CholSpec chol) (okDims : String → Option (List String) → Bool)
    {post : Posterior ℝ} {S : ℕ} (hS : 2 ≤ S) (name : String) (names varNames : List String) (kwargs : List (String × Arg ℝ))
    (hne : parseArgs varNames kwargs ≠ [])
    {ds : List (List (Arr ℝ))} (h : List.Forall₂ (VarData post S) (parseArgs varNames kwargs) ds) :
    ((priorFromIdata chol okDims post S name names varNames kwargs).1 = .error .notPosDef ↔
      Degenerate (parseArgs varNames kwargs) ds S) ∧
    (Degenerate (parseArgs varNames kwargs) ds S →
      priorFromIdata chol okDims post S name names varNames kwargs = (.error .notPosDef, names)) := by
  rw [run_eq chol okDims (by omega) name names varNames kwargs hne h, ← meanChol_none hc hS h]
  cases hm : meanChol chol (sizes (parseArgs varNames kwargs) ds).sum
      ((List.range S).map (rowOf (parseArgs varNames kwargs) ds)) with
  | none => simp
  | some mL =>
    obtain ⟨mean, L⟩ := mL
    simp only [reduceCtorEq, iff_false, false_imp_iff, and_true]
    split
    · simp
    · obtain ⟨b1, b2⟩ := buildLoop_spec okDims (fun z => interim (sizes (parseArgs varNames kwargs) ds).sum mean L z)
        (infosFrom 0 (parseArgs varNames kwargs) ds) (names ++ [name]) []
      by_cases ha : Accept okDims (names ++ [name]) ((infosFrom 0 (parseArgs varNames kwargs) ds).map Info.cfg)
      · rw [b1 ha]; simp
      · obtain ⟨n, names', hb | hb, _⟩ := b2 ha <;> rw [hb] <;> simp

/-- **C192.** The request succeeds iff no non-trivial linear combination of the requested scalars is constant over the draws, the base
name and the result names are new to the model and distinct, and PyMC accepts the dims.  Then the model has gained exactly these names. -/
theorem C192_succeeds_iff {chol : CholFn} (hc : CholSpec chol) (okDims : String → Option (List String) → Bool)
    {post : Posterior ℝ} {S : ℕ} (hS : 2 ≤ S) (name : String) (names varNames : List String) (kwargs : List (String × Arg ℝ))
    (hne : parseArgs varNames kwargs ≠ [])
    {ds : List (List (Arr ℝ))} (h : List.Forall₂ (VarData post S) (parseArgs varNames kwargs) ds) :
    ((∃ r names', priorFromIdata chol okDims post S name names varNames kwargs = (.ok r, names')) ↔
      ¬ Degenerate (parseArgs varNames kwargs) ds S ∧
      (name :: (parseArgs varNames kwargs).map (fun p => p.2.name)).Nodup ∧
      (∀ x ∈ name :: (parseArgs varNames kwargs).map (fun p => p.2.name), x ∉ names) ∧
      ∀ p ∈ parseArgs varNames kwargs, okDims p.2.name p.2.dims = true) ∧
    ∀ r names', priorFromIdata chol okDims post S name names varNames kwargs = (.ok r, names') →
      names' = names ++ name :: (parseArgs varNames kwargs).map (fun p => p.2.name) ∧
      r.map Prod.fst = (parseArgs varNames kwargs).map (fun p => p.2.name) := by
  rw [run_eq chol okDims (by omega) name names varNames kwargs hne h, ← meanChol_none hc hS h]
  have hcfg := infos_cfg h 0
  have hnm : (infosFrom 0 (parseArgs varNames kwargs) ds).map (fun i => i.cfg.name) =
      (parseArgs varNames kwargs).map (fun p => p.2.name) := by
    have := congrArg (List.map Cfg.name) hcfg
    simpa [List.map_map, Function.comp_def] using this
  have hacc : Accept okDims (names ++ [name]) ((infosFrom 0 (parseArgs varNames kwargs) ds).map Info.cfg) ∧ name ∉ names ↔
      (name :: (parseArgs varNames kwargs).map (fun p => p.2.name)).Nodup ∧
      (∀ x ∈ name :: (parseArgs varNames kwargs).map (fun p => p.2.name), x ∉ names) ∧
      ∀ p ∈ parseArgs varNames kwargs, okDims p.2.name p.2.dims = true := by
    rw [hcfg]
    simp only [Accept, List.map_map, Function.comp_def, List.nodup_cons, List.mem_cons, forall_eq_or_imp, List.mem_map,
      forall_exists_index, and_imp, forall_apply_eq_imp_iff₂, List.mem_append, List.not_mem_nil, or_false, not_or, not_exists]
    constructor
    · rintro ⟨⟨a, b, c⟩, d⟩
      exact ⟨⟨fun x hx => (b x hx.1).2 hx.2, a⟩, ⟨d, fun x hx => (b x hx).1⟩, c⟩
    · rintro ⟨⟨a1, a⟩, ⟨d, b⟩, c⟩
      exact ⟨⟨a, fun x hx => ⟨b x hx, fun hh => a1 x ⟨hx, hh⟩⟩, c⟩, d⟩
  rw [← hacc]
  cases hm : meanChol chol (sizes (parseArgs varNames kwargs) ds).sum
      ((List.range S).map (rowOf (parseArgs varNames kwargs) ds)) with
  | none => simp
  | some mL =>
    obtain ⟨mean, L⟩ := mL
    simp only [reduceCtorEq, not_false_eq_true, true_and]
    by_cases hn : name ∈ names
    · simp [hn]
    · simp only [hn, if_false, not_false_eq_true, and_true]
      obtain ⟨b1, b2⟩ := buildLoop_spec okDims (fun z => interim (sizes (parseArgs varNames kwargs) ds).sum mean L z)
        (infosFrom 0 (parseArgs varNames kwargs) ds) (names ++ [name]) []
      by_cases ha : Accept okDims (names ++ [name]) ((infosFrom 0 (parseArgs varNames kwargs) ds).map Info.cfg)
      · refine ⟨⟨fun _ => ha, fun _ => ⟨_, _, b1 ha⟩⟩, fun r names' hr => ?_⟩
        rw [b1 ha] at hr
        injection hr with h1 h2
        injection h1 with h1
        subst h1 h2
        rw [hnm]
        refine ⟨by simp, ?_⟩
        rw [← hnm]
        simp [Function.comp_def]
      · obtain ⟨n, names', hb, _⟩ := b2 ha
        refine ⟨⟨fun ⟨r, nm, hr⟩ => ?_, fun h' => absurd h' ha⟩, fun r nm hr => ?_⟩
        all_goals rcases hb with hb | hb <;> rw [hb] at hr <;> simp at hr

/-- **C192.** There must be more draws than scalars: with `S` draws (all chains together) of at least `S` scalars the request fails. -/
theorem C192_too_few_draws {chol : CholFn} (hc : CholSpec chol) (okDims : String → Option (List String) → Bool)
    {post : Posterior ℝ} {S : ℕ} (hS : 2 ≤ S) (name : String) (names varNames : List String) (kwargs : List (String × Arg ℝ))
    (hne : parseArgs varNames kwargs ≠ [])
    {ds : List (List (Arr ℝ))} (h : List.Forall₂ (VarData post S) (parseArgs varNames kwargs) ds)
    (hfew : S ≤ ((drawn (parseArgs varNames kwargs) ds 0).map List.length).sum) :
    priorFromIdata chol okDims post S name names varNames kwargs = (.error .notPosDef, names) := by
  refine (C192_degenerate_iff hc okDims hS name names varNames kwargs hne h).2 ?_
  rw [degenerate_iff (by omega) h]
  generalize parseArgs varNames kwargs = cs at *
  let f : (Fin (sizes cs ds).sum → ℝ) →ₗ[ℝ] (Fin (S - 1) → ℝ) :=
    { toFun := fun v s => comb _ v (rowOf cs ds) (s + 1) - comb _ v (rowOf cs ds) 0
      map_add' := fun v w => by funext s; simp [comb, add_mul, Finset.sum_add_distrib]; ring
      map_smul' := fun a v => by funext s; simp [comb, mul_assoc, ← Finset.mul_sum]; ring }
  have hker : LinearMap.ker f ≠ ⊥ := by
    refine LinearMap.ker_ne_bot_of_finrank_lt ?_
    rw [Module.finrank_fin_fun, Module.finrank_fin_fun]
    have : S ≤ (sizes cs ds).sum := hfew
    omega
  obtain ⟨v, hv, hv0⟩ := Submodule.exists_mem_ne_zero_of_ne_bot hker
  refine ⟨v, hv0, comb _ v (rowOf cs ds) 0, fun s hs => ?_⟩
  cases s with
  | zero => rfl
  | succ s =>
    have := congrFun (LinearMap.mem_ker.1 hv) ⟨s, by omega⟩
    simp only [f, LinearMap.coe_mk, AddHom.coe_mk, Pi.zero_apply] at this
    linarith

theorem weigh_single : ∀ (bs : List (List ℝ)) (m : ℕ) (b : List ℝ), bs[m]? = some b →
    weigh (fun m' _ => if m' = m then 1 else 0) bs = b.sum
  | [], m, b, hb => by simp at hb
  | c :: bs, 0, b, hb => by
    simp only [List.getElem?_cons_zero, Option.some.injEq] at hb
    subst hb
    have hz : ∀ l : List (List ℝ), weigh (fun _ _ => 0) l = 0 := by
      intro l; induction l with
      | nil => rfl
      | cons a l ih => simp [weigh, ih]
    simp only [weigh, if_true, one_mul, Nat.add_eq_zero_iff, one_ne_zero, and_false, if_false, hz, add_zero]
    rw [Finset.sum_range, ← List.sum_ofFn]
    congr 1
    apply List.ext_getElem
    · simp
    · intro i h1 h2; simp
  | c :: bs, m + 1, b, hb => by
    simp only [List.getElem?_cons_succ] at hb
    simp only [weigh, Nat.add_right_cancel_iff, weigh_single bs m b hb]
    simp

/-- **C192.** A variable whose entries add up to the same number in all draws (a probability vector, an effect constrained to sum to
zero) cannot be taken as it is: without a transform the whole request fails, whatever else is requested. -/
theorem C192_constant_sum_fails {chol : CholFn} (hc : CholSpec chol) (okDims : String → Option (List String) → Bool)
    {post : Posterior ℝ} {S : ℕ} (hS : 2 ≤ S) (name : String) (names varNames : List String) (kwargs : List (String × Arg ℝ))
    {ds : List (List (Arr ℝ))} (h : List.Forall₂ (VarData post S) (parseArgs varNames kwargs) ds)
    {m : ℕ} {p : String × Cfg ℝ} {d : List (Arr ℝ)} (hp : (parseArgs varNames kwargs)[m]? = some p) (hd : ds[m]? = some d)
    (hno : p.2.transform = none) (hpos : ∀ a ∈ d, a.vals ≠ []) {c : ℝ} (hsum : ∀ a ∈ d, a.vals.sum = c) :
    priorFromIdata chol okDims post S name names varNames kwargs = (.error .notPosDef, names) := by
  have hne : parseArgs varNames kwargs ≠ [] := by intro h0; rw [h0] at hp; simp at hp
  refine (C192_degenerate_iff hc okDims hS name names varNames kwargs hne h).2 ?_
  have hlen : d.length = S :=
    ((List.forall₂_iff_zip.1 h).2 (List.mem_of_getElem? (List.getElem?_zip_eq_some.2 ⟨hp, hd⟩))).count
  have hat : ∀ s, s < S → (drawn (parseArgs varNames kwargs) ds s)[m]? = some (d.getD s ⟨[], []⟩).vals ∧ d.getD s ⟨[], []⟩ ∈ d := by
    intro s hs
    constructor
    · unfold drawn
      rw [List.getElem?_zipWith, hp, hd]
      simp [fwd, hno]
    · rw [← hlen] at hs
      rw [List.getD_eq_getElem _ _ hs]; exact List.getElem_mem hs
  refine ⟨fun m' _ => if m' = m then 1 else 0, ⟨m, 0, ?_, by simp⟩, c, fun s hs => ?_⟩
  · obtain ⟨h1, h2⟩ := hat 0 (by omega)
    rw [List.getD_eq_getElem?_getD, h1, Option.getD_some]
    exact List.length_pos_iff.2 (hpos _ h2)
  · obtain ⟨h1, h2⟩ := hat s hs
    rw [weigh_single _ m _ h1]
    exact hsum _ h2

/-- **C192.** An empty request does nothing. -/
theorem C192_empty (chol : CholFn) (okDims : String → Option (List String) → Bool) (post : Posterior ℝ) (S : ℕ) (name : String)
    (names : List String) : priorFromIdata chol okDims post S name names [] [] = (.ok [], names) := rfl

/-- **C192.** A variable the trace does not hold is an error, before anything is registered. -/
theorem C192_unknown_variable (chol : CholFn) (okDims : String → Option (List String) → Bool) (post : Posterior ℝ) (S : ℕ)
    (name : String) (names varNames : List String) (kwargs : List (String × Arg ℝ)) {key : String}
    (hk : (kwargs.map Prod.fst).Nodup) (hkey : key ∈ varNames ∨ key ∈ kwargs.map Prod.fst) (hn : post key = none) :
    priorFromIdata chol okDims post S name names varNames kwargs = (.error .missing, names) := by
  obtain ⟨q, hq, rfl⟩ : ∃ q ∈ parseArgs varNames kwargs, q.1 = key := by
    have h2 := (C58_arguments varNames kwargs hk).2
    by_cases hin : key ∈ kwargs.map Prod.fst
    · obtain ⟨⟨k, a⟩, ha, rfl⟩ := List.mem_map.1 hin
      exact ⟨(k, argToCfg k a), (h2 _).2 (.inl ⟨a, ha, rfl⟩), rfl⟩
    · have hv := hkey.resolve_right hin
      exact ⟨(key, argToCfg key .none), (h2 _).2 (.inr ⟨hv, hin, rfl⟩), rfl⟩
  unfold priorFromIdata
  have he : (parseArgs varNames kwargs).isEmpty = false := by
    cases hc : parseArgs varNames kwargs with
    | nil => rw [hc] at hq; simp at hq
    | cons a l => rfl
  simp only [he, Bool.false_eq_true, if_false, C58_unknown_variable post S _ hq hn]

/-! ### The distribution -/

theorem slice_sizes {post : Posterior ℝ} {S : ℕ} {cs : List (String × Cfg ℝ)} {ds : List (List (Arr ℝ))}
    (h : List.Forall₂ (VarData post S) cs ds) : ∀ (a : ℕ) (v : List ℝ), a + (sizes cs ds).sum ≤ v.length →
    (infosFrom a cs ds).map (fun i => (slice i.start i.stop v).length) = sizes cs ds := by
  induction h with
  | nil => intro a v _; rfl
  | @cons p d cs ds hp _ ih =>
    intro a v hv
    have e : sizes (p :: cs) (d :: ds) = (fwd p.2 (at' d 0)).vals.length :: sizes cs ds := rfl
    rw [e] at hv ⊢
    simp only [List.sum_cons] at hv
    simp only [infosFrom, List.map_cons]
    rw [ih _ v (by omega)]
    congr 1
    simp only [slice, List.length_take, List.length_drop]
    omega

theorem unflatten_blocks {post : Posterior ℝ} {S : ℕ} {cs : List (String × Cfg ℝ)} {ds : List (List (Arr ℝ))}
    (h : List.Forall₂ (VarData post S) cs ds) (v : List ℝ) : ∀ a : ℕ,
    (infosFrom a cs ds).map (fun i => (i.cfg.name, (unflatten v i).2)) =
      List.zipWith (fun (q : (String × Cfg ℝ) × List (Arr ℝ)) b =>
          (q.1.2.name, bwd q.1.2 ⟨(fwd q.1.2 (q.2.getD 0 ⟨[], []⟩)).shape, b⟩))
        (cs.zip ds) ((infosFrom a cs ds).map fun i => slice i.start i.stop v) := by
  induction h with
  | nil => intro a; rfl
  | @cons p d cs ds hp _ ih =>
    intro a
    simp only [infosFrom, List.map_cons, List.zip_cons_cons, List.zipWith_cons_cons]
    exact congrArg₂ List.cons rfl (ih _)

/-- The joint vector has as many entries as there are scalars. -/
theorem interim_length (n : ℕ) (mean : List ℝ) (L : ℕ → ℕ → ℝ) (z : ℕ → ℝ) : (interim n mean L z).length = n := by simp [interim]

theorem normal_comb {n : ℕ} (m v : Fin n → ℝ) (L : Matrix (Fin n) (Fin n) ℝ) {Ω : Type} [MeasurableSpace Ω] {μ : Measure Ω}
    [IsProbabilityMeasure μ] {Z : Fin n → Ω → ℝ} (hind : iIndepFun Z μ) (hZ : ∀ i, HasLaw (Z i) (gaussianReal 0 1) μ) :
    HasLaw (fun ω => v ⬝ᵥ (m + L *ᵥ fun i => Z i ω)) (gaussianReal (v ⬝ᵥ m) (v ⬝ᵥ ((L * Lᵀ) *ᵥ v)).toNNReal) μ := by
  have hZm : AEMeasurable (fun ω i => Z i ω) μ := aemeasurable_pi_lambda _ fun i => (hZ i).aemeasurable
  have hcont : Continuous (fun x : Fin n → ℝ => v ⬝ᵥ (m + L *ᵥ x)) := by fun_prop
  have hcontE : Continuous (fun x : Fin n → ℝ => (WithLp.toLp 2 (m + L *ᵥ x) : EuclideanSpace ℝ (Fin n))) := by fun_prop
  refine ⟨hcont.measurable.comp_aemeasurable hZm, ?_⟩
  have e1 : μ.map (fun ω => v ⬝ᵥ (m + L *ᵥ fun i => Z i ω)) =
      (Measure.pi fun _ : Fin n => gaussianReal 0 1).map (fun x => v ⬝ᵥ (m + L *ᵥ x)) := by
    have := iIndepFun.map_fun_eq_pi_map (fun i => (hZ i).aemeasurable) hind
    simp only [(hZ _).map_eq] at this
    rw [← this, AEMeasurable.map_map_of_aemeasurable hcont.measurable.aemeasurable hZm]
    rfl
  let F : StrongDual ℝ (EuclideanSpace ℝ (Fin n)) := innerSL ℝ (WithLp.toLp 2 v)
  have e2 : (fun x : Fin n → ℝ => v ⬝ᵥ (m + L *ᵥ x)) = F ∘ fun x => (WithLp.toLp 2 (m + L *ᵥ x) : EuclideanSpace ℝ (Fin n)) := by
    funext x
    simp [F, EuclideanSpace.inner_eq_star_dotProduct, dotProduct_comm]
  have hps : (L * Lᵀ).PosSemidef := by
    have := posSemidef_self_mul_conjTranspose L
    rwa [conjTranspose_eq_transpose_of_trivial] at this
  rw [e1, e2, ← Measure.map_map F.continuous.measurable hcontE.measurable, Verif.Kalman.Gauss.pi_affine,
    IsGaussian.map_eq_gaussianReal]
  congr 1
  · have : (fun x => F x) = fun x => F (id x) := rfl
    have hint : Integrable id (multivariateGaussian (WithLp.toLp 2 m) (L * Lᵀ)) := IsGaussian.integrable_id
    rw [this, ContinuousLinearMap.integral_comp_comm F hint]
    simp [F, EuclideanSpace.inner_eq_star_dotProduct, dotProduct_comm]
  · congr 1
    have hmem : MemLp id 2 (multivariateGaussian (WithLp.toLp 2 m) (L * Lᵀ)) := IsGaussian.memLp_two_id
    have h3 := covarianceBilin_self hmem (WithLp.toLp 2 v : EuclideanSpace ℝ (Fin n))
    rw [covarianceBilin_multivariateGaussian hps] at h3
    rw [show (F : EuclideanSpace ℝ (Fin n) → ℝ) = fun u => inner ℝ (WithLp.toLp 2 v : EuclideanSpace ℝ (Fin n)) u from rfl, ← h3]

/-- **C192.** The distribution of the prior.  If the request succeeds, the new variables are, under the requested names, the transforms
back of blocks of a jointly normal vector, each block as large as its variable: every linear combination of all the entries of the blocks
is normal, and its mean and its variance are the average and the sample variance over the draws of the same linear combination of the
recorded (transformed) values. -/
theorem C192_law {chol : CholFn} (hc : CholSpec chol) (okDims : String → Option (List String) → Bool)
    {post : Posterior ℝ} {S : ℕ} (hS : 2 ≤ S) (name : String) (names varNames : List String) (kwargs : List (String × Arg ℝ))
    (hne : parseArgs varNames kwargs ≠ [])
    {ds : List (List (Arr ℝ))} (h : List.Forall₂ (VarData post S) (parseArgs varNames kwargs) ds)
    {r : List Entry} {names' : List String}
    (hr : priorFromIdata chol okDims post S name names varNames kwargs = (.ok r, names')) :
    ∃ blocks : (ℕ → ℝ) → List (List ℝ),
      (∀ z, r.map (fun e => (e.1, e.2 z)) =
        List.zipWith (fun (q : (String × Cfg ℝ) × List (Arr ℝ)) b =>
            (q.1.2.name, bwd q.1.2 ⟨(fwd q.1.2 (q.2.getD 0 ⟨[], []⟩)).shape, b⟩))
          ((parseArgs varNames kwargs).zip ds) (blocks z)) ∧
      (∀ z, (blocks z).map List.length = (drawn (parseArgs varNames kwargs) ds 0).map List.length) ∧
      ∀ {Ω : Type} [MeasurableSpace Ω] {μ : Measure Ω} [IsProbabilityMeasure μ] {Z : ℕ → Ω → ℝ}, iIndepFun Z μ →
        (∀ i, HasLaw (Z i) (gaussianReal 0 1) μ) → ∀ w : ℕ → ℕ → ℝ,
        HasLaw (fun ω => weigh w (blocks fun i => Z i ω))
          (gaussianReal (avg S fun s => weigh w (drawn (parseArgs varNames kwargs) ds s))
            (sampleVar S fun s => weigh w (drawn (parseArgs varNames kwargs) ds s)).toNNReal) μ := by
  rw [run_eq chol okDims (by omega) name names varNames kwargs hne h] at hr
  generalize parseArgs varNames kwargs = cs at *
  cases hm : meanChol chol (sizes cs ds).sum ((List.range S).map (rowOf cs ds)) with
  | none => rw [hm] at hr; simp at hr
  | some mL =>
  obtain ⟨mean, Lf⟩ := mL
  rw [hm] at hr
  simp only at hr
  split at hr
  · simp at hr
  obtain ⟨b1, b2⟩ := buildLoop_spec okDims (fun z => interim (sizes cs ds).sum mean Lf z) (infosFrom 0 cs ds) (names ++ [name]) []
  have ha : Accept okDims (names ++ [name]) ((infosFrom 0 cs ds).map Info.cfg) := by
    by_contra ha
    obtain ⟨n, nm, hb | hb, _⟩ := b2 ha <;> rw [hb] at hr <;> simp at hr
  rw [b1 ha] at hr
  injection hr with hr _
  injection hr with hr
  subst hr
  have hlen : ∀ z, (0 + (sizes cs ds).sum) ≤ (interim (sizes cs ds).sum mean Lf z).length := fun z => by rw [interim_length]; omega
  refine ⟨fun z => (infosFrom 0 cs ds).map fun i => slice i.start i.stop (interim (sizes cs ds).sum mean Lf z), ?_, ?_, ?_⟩
  · intro z
    simp only [List.nil_append, List.map_map, Function.comp_def]
    exact unflatten_blocks h _ 0
  · intro z
    rw [List.map_map]
    exact slice_sizes h 0 _ (hlen z)
  · intro Ω _ μ _ Z hind hZ w
    have hmc := hm
    unfold meanChol at hmc
    cases hL : chol (sizes cs ds).sum (sampleCov (sizes cs ds).sum ((List.range S).map (rowOf cs ds))) with
    | none => rw [hL] at hmc; simp at hmc
    | some L =>
    rw [hL] at hmc
    simp only [Option.some.injEq, Prod.mk.injEq] at hmc
    obtain ⟨hmean0, hLf⟩ := hmc
    have hfac := hc.factor _ _ _ (cov_symm _ S _) hL
    let v : Fin (sizes cs ds).sum → ℝ := fun j => flatW (sizes cs ds) w j
    let mv : Fin (sizes cs ds).sum → ℝ := fun j => avg S fun s => (rowOf cs ds s).getD j 0
    have key := normal_comb mv v L (Z := fun i : Fin (sizes cs ds).sum => Z i)
      (hind.precomp Fin.val_injective) (fun i => hZ i)
    have hcomb : ∀ s, s < S → weigh w (drawn cs ds s) = comb _ v (rowOf cs ds) s := fun s hs => comb_weigh hs h w
    have havg : avg S (fun s => weigh w (drawn cs ds s)) = avg S (comb _ v (rowOf cs ds)) := by
      unfold avg
      rw [Finset.sum_congr rfl fun s hs => hcomb s (Finset.mem_range.1 hs)]
    have hvar : sampleVar S (fun s => weigh w (drawn cs ds s)) = sampleVar S (comb _ v (rowOf cs ds)) := by
      unfold sampleVar
      rw [havg]
      congr 1
      refine Finset.sum_congr rfl fun s hs => ?_
      show (weigh w (drawn cs ds s) - _) ^ 2 = _
      rw [hcomb s (Finset.mem_range.1 hs)]
    rw [hfac, cov_quad, ← hvar] at key
    have hmean : v ⬝ᵥ mv = avg S (fun s => weigh w (drawn cs ds s)) := by rw [havg, avg_comb]; rfl
    rw [hmean] at key
    refine key.congr (Filter.Eventually.of_forall fun ω => ?_)
    show weigh w _ = _
    rw [weigh_flat]
    have hsz := slice_sizes h 0 _ (hlen fun i => Z i ω)
    have hflat := C58_blocks_cover (by omega) h (flatten_eq (by omega) h) (row := rowOf cs ds 0)
      (List.mem_map.2 ⟨0, List.mem_range.2 (by omega), rfl⟩) (interim (sizes cs ds).sum mean Lf fun i => Z i ω)
      ((interim_length _ _ _ _).trans (length_row (by omega) h).symm)
    rw [hflat, List.map_map]
    rw [show (List.map (List.length ∘ fun i => slice i.start i.stop (interim (sizes cs ds).sum mean Lf fun i => Z i ω))
      (infosFrom 0 cs ds)) = sizes cs ds from hsz]
    rw [Finset.sum_range]
    refine Finset.sum_congr rfl fun i _ => ?_
    congr 1
    rw [List.getD_eq_getElem _ _ (by rw [interim_length]; exact i.2)]
    simp only [interim, List.getElem_map, List.getElem_range]
    rw [← hmean0, ← hLf, meanRow_getD _ S _ i.2]
    simp only [Pi.add_apply, mv, mulVec, dotProduct]
    congr 1
    rw [sum_range_list, Finset.sum_range]
    refine Finset.sum_congr rfl fun j _ => ?_
    simp

/-! ### A case -/

open Classical in
/-- Exact Cholesky factorisation, by choice. -/
noncomputable def anyChol : CholFn := fun n A =>
  if h : A.PosDef then some (Verif.Kalman.Gauss.factor h.posSemidef).choose else none

theorem anyChol_spec : CholSpec anyChol where
  fails_iff n A _ := by unfold anyChol; split <;> simp_all
  factor n A L _ h := by
    unfold anyChol at h
    split at h
    · rename_i hp
      injection h with h
      rw [← h]
      exact (Verif.Kalman.Gauss.factor hp.posSemidef).choose_spec.symm
    · simp at h

/-- A trace with a scalar `a`, a probability vector `f`, in three draws. -/
noncomputable def lawPost : Posterior ℝ := fun k =>
  if k = "a" then some [⟨[], [1]⟩, ⟨[], [2]⟩, ⟨[], [4]⟩] else
  if k = "f" then some [⟨[2], [1 / 2, 1 / 2]⟩, ⟨[2], [1 / 4, 3 / 4]⟩, ⟨[2], [0, 1]⟩] else none

theorem lawPost_a : List.Forall₂ (VarData lawPost 3) (parseArgs [] [("a", Arg.rename "x")])
    [[⟨[], [1]⟩, ⟨[], [2]⟩, ⟨[], [4]⟩]] := by
  refine .cons ⟨rfl, rfl, [], ?_⟩ .nil
  intro a ha
  simp only [List.mem_cons, List.not_mem_nil, or_false] at ha
  rcases ha with rfl | rfl | rfl <;> exact ⟨rfl, rfl⟩

theorem lawPost_f : List.Forall₂ (VarData lawPost 3) (parseArgs ["f"] [])
    [[⟨[2], [1 / 2, 1 / 2]⟩, ⟨[2], [1 / 4, 3 / 4]⟩, ⟨[2], [0, 1]⟩]] := by
  refine .cons ⟨rfl, rfl, [2], ?_⟩ .nil
  intro a ha
  simp only [List.mem_cons, List.not_mem_nil, or_false] at ha
  rcases ha with rfl | rfl | rfl <;> exact ⟨rfl, rfl⟩

/-- Taking the scalar works ... -/
theorem lawPost_ok : ∃ r names', priorFromIdata anyChol (fun _ _ => true) lawPost 3 "trace_prior_" ["y"] [] [("a", Arg.rename "x")] =
    (.ok r, names') := by
  refine (C192_succeeds_iff anyChol_spec (fun _ _ => true) (by norm_num) "trace_prior_" ["y"] [] [("a", Arg.rename "x")]
    (by simp [parseArgs, dictSet]) lawPost_a).1.2 ⟨?_, by decide, by decide, by simp⟩
  rintro ⟨w, ⟨m, j, hj, hw⟩, c, hc⟩
  have h0 := hc 0 (by norm_num)
  have h1 := hc 1 (by norm_num)
  simp [drawn, parseArgs, dictSet, argToCfg, weigh, fwd] at h0 h1
  rcases m with _ | m
  · simp [drawn, parseArgs, dictSet, argToCfg, fwd] at hj
    subst hj
    exact hw (by linarith)
  · simp [drawn, parseArgs, dictSet, argToCfg, fwd] at hj

/-- ... taking the probability vector as it is does not. -/
example : priorFromIdata anyChol (fun _ _ => true) lawPost 3 "trace_prior_" ["y"] ["f"] [] = (.error .notPosDef, ["y"]) := by
  refine C192_constant_sum_fails anyChol_spec _ (by norm_num) _ _ _ _ lawPost_f (m := 0) rfl rfl rfl ?_ (c := 1) ?_
  · intro a ha
    simp only [List.mem_cons, List.not_mem_nil, or_false] at ha
    rcases ha with rfl | rfl | rfl <;> simp
  · intro a ha
    simp only [List.mem_cons, List.not_mem_nil, or_false] at ha
    rcases ha with rfl | rfl | rfl <;> norm_num

/-- Three draws are too few for three scalars. -/
example : 3 ≤ ((drawn (parseArgs ["f"] [("a", Arg.none)])
    [[⟨[2], [1 / 2, 1 / 2]⟩, ⟨[2], [1 / 4, 3 / 4]⟩, ⟨[2], [0, 1]⟩], [⟨[], [1]⟩, ⟨[], [2]⟩, ⟨[], [4]⟩]] 0).map List.length).sum := by
  simp [drawn, parseArgs, dictSet, argToCfg, fwd]

end PriorFrom
