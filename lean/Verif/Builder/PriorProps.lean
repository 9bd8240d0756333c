import Verif.Builder.Prior
import Mathlib.Algebra.Field.Rat
import Mathlib.Data.List.Forall2
import Mathlib.Tactic.Ring
import Mathlib.Tactic.IntervalCases
import Mathlib.Algebra.Module.LinearMap.Defs
import Mathlib.Algebra.Module.Pi
import Mathlib.Algebra.BigOperators.Group.List.Lemmas
import Mathlib.Algebra.BigOperators.Ring.List
import Mathlib.Data.List.GetD
import Mathlib.Data.Fin.VecNotation
import Mathlib.LinearAlgebra.Matrix.Notation

/-! # C58: prior_from_idata -/

set_option autoImplicit false

namespace PriorFrom

/-! ### Specification -/

/-- The values of one variable after its transform: `S` draws of one common shape. -/
structure VarData {α : Type} (post : Posterior α) (S : ℕ) (p : String × Cfg α)
    (draws : List (Arr α)) : Prop where
  found : post p.1 = some draws
  count : draws.length = S
  common : ∃ sh, ∀ a ∈ draws, (fwd p.2 a).shape = sh ∧ (fwd p.2 a).wf

/-- Consecutive intervals from `a` to `b`. -/
def Consecutive : ℕ → List (ℕ × ℕ) → ℕ → Prop
  | a, [], b => a = b
  | a, (x, y) :: r, b => x = a ∧ x ≤ y ∧ Consecutive y r b

/-! ### Lemmas -/

/-- Draw `s`. -/
def at' {α : Type} (d : List (Arr α)) (s : ℕ) : Arr α := d.getD s ⟨[], []⟩

/-- The widths of the variables. -/
def infosFrom {α : Type} : ℕ → List (String × Cfg α) → List (List (Arr α)) → List (Info α)
  | a, p :: cs, d :: ds =>
    let x := fwd p.2 (at' d 0)
    ⟨x.shape, a, a + x.vals.length, p.2⟩ :: infosFrom (a + x.vals.length) cs ds
  | _, _, _ => []

/-- The row of draw `s`. -/
def rowOf {α : Type} : List (String × Cfg α) → List (List (Arr α)) → ℕ → List α
  | p :: cs, d :: ds, s => (fwd p.2 (at' d s)).vals ++ rowOf cs ds s
  | _, _, _ => []

theorem eq_range_map {α : Type} (d : List (Arr α)) :
    d = (List.range d.length).map (at' d) := by
  apply List.ext_getElem
  · simp
  · intro i h1 h2
    simp [at', List.getElem?_eq_getElem h1]

theorem zip_range {α β γ : Type} (S : ℕ) (f : ℕ → α) (g : ℕ → β) (h : α → β → γ) :
    List.zipWith h ((List.range S).map f) ((List.range S).map g)
      = (List.range S).map (fun s => h (f s) (g s)) := by
  rw [List.zipWith_map, List.zipWith_self]

theorem flattenLoop_eq {α : Type} (post : Posterior α) {S : ℕ} (hS : 0 < S)
    (cs : List (String × Cfg α)) (ds : List (List (Arr α)))
    (h : List.Forall₂ (VarData post S) cs ds) : ∀ (a : ℕ) (f : ℕ → List α) (infos : List (Info α)),
    flattenLoop post cs a ((List.range S).map f) infos
      = some ((List.range S).map (fun s => f s ++ rowOf cs ds s), infos ++ infosFrom a cs ds) := by
  induction h with
  | nil => intro a f infos; simp [flattenLoop, rowOf, infosFrom]
  | @cons p d cs ds hp _ ih =>
    intro a f infos
    obtain ⟨key, cfg⟩ := p
    have hfound := hp.found
    have hd : d = (List.range S).map (at' d) := by rw [← hp.count]; exact eq_range_map d
    obtain ⟨d0, d', hd'⟩ : ∃ x r, d = x :: r := by
      cases d with
      | nil => have := hp.count; simp at this; omega
      | cons x r => exact ⟨x, r, rfl⟩
    have h0 : at' d 0 = d0 := by rw [hd']; rfl
    rw [flattenLoop]
    simp only at hfound
    rw [hfound]
    have hhead : (d.map (fwd cfg)).head? = some (fwd cfg d0) := by rw [hd']; rfl
    simp only [hhead, Option.map_some, Option.getD_some]
    have hmap : d.map (fwd cfg) = (List.range S).map (fun s => fwd cfg (at' d s)) := by
      conv_lhs => rw [hd]
      rw [List.map_map]; rfl
    rw [hmap, zip_range, ih]
    simp only [infosFrom, rowOf, h0, List.append_assoc]
    rfl

theorem fwd_at {α : Type} {post : Posterior α} {S : ℕ} {p : String × Cfg α} {d : List (Arr α)}
    (h : VarData post S p d) {s : ℕ} (hs : s < S) :
    (fwd p.2 (at' d s)).shape = (fwd p.2 (at' d 0)).shape ∧
    (fwd p.2 (at' d s)).vals.length = (fwd p.2 (at' d 0)).vals.length ∧ (fwd p.2 (at' d s)).wf := by
  obtain ⟨sh, hsh⟩ := h.common
  have mem : ∀ t, t < S → at' d t ∈ d := by
    intro t ht
    rw [← h.count] at ht
    unfold at'
    rw [List.getD_eq_getElem?_getD, List.getElem?_eq_getElem ht]
    exact List.getElem_mem ht
  have h1 := hsh _ (mem s hs)
  have h2 := hsh _ (mem 0 (by omega))
  refine ⟨by rw [h1.1, h2.1], ?_, h1.2⟩
  have e1 := h1.2
  have e2 := h2.2
  unfold Arr.wf at e1 e2
  rw [e1, e2, h1.1, h2.1]

theorem slice_mid {α : Type} (p v q : List α) : slice p.length (p.length + v.length) (p ++ (v ++ q)) = v := by
  unfold slice
  rw [List.drop_left, Nat.add_sub_cancel_left, List.take_left]

theorem slices_row {α : Type} {post : Posterior α} {S s : ℕ} (hs : s < S)
    {cs : List (String × Cfg α)} {ds : List (List (Arr α))}
    (h : List.Forall₂ (VarData post S) cs ds) : ∀ pre : List α,
    (infosFrom pre.length cs ds).map (fun i => (⟨i.shape, slice i.start i.stop (pre ++ rowOf cs ds s)⟩ : Arr α))
      = (cs.zip ds).map (fun q => fwd q.1.2 (at' q.2 s)) := by
  induction h with
  | nil => intro pre; rfl
  | @cons p d cs ds hp _ ih =>
    intro pre
    obtain ⟨e1, e2, _⟩ := fwd_at hp hs
    simp only [infosFrom, rowOf, List.map_cons, List.zip_cons_cons]
    congr 1
    · rw [← e2, slice_mid, ← e1]
    · have := ih (pre ++ (fwd p.2 (at' d s)).vals)
      rw [List.length_append, e2] at this
      simp only [List.append_assoc] at this
      exact this

theorem infos_cfg {α : Type} {post : Posterior α} {S : ℕ} {cs : List (String × Cfg α)}
    {ds : List (List (Arr α))} (h : List.Forall₂ (VarData post S) cs ds) : ∀ a : ℕ,
    (infosFrom a cs ds).map Info.cfg = cs.map Prod.snd := by
  induction h with
  | nil => intro a; rfl
  | cons hp _ ih => intro a; simp only [infosFrom, List.map_cons, ih]

theorem infos_blocks {α : Type} {post : Posterior α} {S s : ℕ} (hs : s < S)
    {cs : List (String × Cfg α)} {ds : List (List (Arr α))}
    (h : List.Forall₂ (VarData post S) cs ds) : ∀ a : ℕ,
    Consecutive a ((infosFrom a cs ds).map (fun i => (i.start, i.stop)))
      (a + (rowOf cs ds s).length) ∧ ∀ i ∈ infosFrom a cs ds, i.stop - i.start = i.shape.prod := by
  induction h with
  | nil => intro a; simp [infosFrom, rowOf, Consecutive]
  | @cons p d cs ds hp _ ih =>
    intro a
    obtain ⟨e1, e2, e3⟩ := fwd_at hp hs
    obtain ⟨i1, i2⟩ := ih (a + (fwd p.2 (at' d 0)).vals.length)
    constructor
    · simp only [infosFrom, rowOf, List.map_cons, Consecutive, List.length_append, e2]
      exact ⟨trivial, by omega, by rw [← Nat.add_assoc]; exact i1⟩
    · intro i hi
      simp only [infosFrom, List.mem_cons] at hi
      rcases hi with rfl | hi
      · have := (fwd_at hp (show 0 < S by omega)).2.2
        unfold Arr.wf at this
        simp [this]
      · exact i2 i hi

theorem flatten_eq {α : Type} {post : Posterior α} {S : ℕ} (hS : 0 < S)
    {cs : List (String × Cfg α)} {ds : List (List (Arr α))}
    (h : List.Forall₂ (VarData post S) cs ds) :
    flatten post S cs = some ((List.range S).map (rowOf cs ds), infosFrom 0 cs ds) := by
  unfold flatten
  have : (List.replicate S ([] : List α)) = (List.range S).map (fun _ => []) := by
    rw [List.map_const', List.length_range]
  rw [this, flattenLoop_eq post hS cs ds h]
  simp

/-! ### Theorems -/

/-- **C58.** Flattening succeeds; the variables get consecutive blocks, in order, from zero to the
length of every row, each as wide as the number of elements of its shape. -/
theorem C58_blocks {α : Type} {post : Posterior α} {S : ℕ} (hS : 0 < S)
    {cs : List (String × Cfg α)} {ds : List (List (Arr α))}
    (h : List.Forall₂ (VarData post S) cs ds) :
    ∃ rows infos, flatten post S cs = some (rows, infos) ∧ rows.length = S ∧
      infos.map Info.cfg = cs.map Prod.snd ∧
      (∀ i ∈ infos, i.stop - i.start = i.shape.prod) ∧
      ∀ row ∈ rows, Consecutive 0 (infos.map (fun i => (i.start, i.stop))) row.length := by
  refine ⟨_, _, flatten_eq hS h, by simp, infos_cfg h 0, (infos_blocks hS h 0).2, ?_⟩
  intro row hrow
  rw [List.mem_map] at hrow
  obtain ⟨s, hs, rfl⟩ := hrow
  have := (infos_blocks (List.mem_range.1 hs) h 0).1
  rwa [Nat.zero_add] at this

/-- **C58.** Un-flattening the row of a draw gives back, under the configured names, exactly the values
and shapes of the variables in that draw, if each transform's backward map inverts its forward map on
that draw. -/
theorem C58_unflatten {α : Type} {post : Posterior α} {S : ℕ} (hS : 0 < S)
    {cs : List (String × Cfg α)} {ds : List (List (Arr α))}
    (h : List.Forall₂ (VarData post S) cs ds)
    (hinv : ∀ p ∈ cs, ∀ t, p.2.transform = some t → ∀ a, t.backward (t.forward a) = a)
    {rows : List (List α)} {infos : List (Info α)} (hf : flatten post S cs = some (rows, infos))
    {s : ℕ} (hs : s < S) {row : List α} (hrow : rows[s]? = some row) :
    infos.map (unflatten row)
      = List.zipWith (fun p d => (p.2.name, d.getD s ⟨[], []⟩)) cs ds := by
  rw [flatten_eq hS h] at hf
  injection hf with hf
  injection hf with h1 h2
  subst h1 h2
  rw [List.getElem?_map, List.getElem?_range hs] at hrow
  injection hrow with hrow
  subst hrow
  have hcfg := infos_cfg h 0
  have hsl := slices_row hs h []
  simp only [List.length_nil, List.nil_append] at hsl
  have e : infosFrom 0 cs ds = infosFrom 0 cs ds := rfl
  generalize hI : infosFrom 0 cs ds = infos at hcfg hsl
  clear e hI
  generalize rowOf cs ds s = row at hsl ⊢
  induction h generalizing infos with
  | nil =>
    cases infos with
    | nil => rfl
    | cons i r => simp at hcfg
  | @cons p d cs ds hp _ ih =>
    cases infos with
    | nil => simp at hcfg
    | cons i r =>
      simp only [List.map_cons, List.cons.injEq] at hcfg
      simp only [List.map_cons, List.zip_cons_cons, List.cons.injEq] at hsl
      simp only [List.map_cons, List.zipWith_cons_cons, List.cons.injEq]
      refine ⟨?_, ih (fun q hq => hinv q (by simp [hq])) r hcfg.2 hsl.2⟩
      unfold unflatten
      rw [hsl.1, hcfg.1]
      congr 1
      unfold bwd fwd
      cases ht : p.2.transform with
      | none => rfl
      | some t => exact hinv p (by simp) t ht _

theorem consecutive_cover {α : Type} : ∀ (l : List (ℕ × ℕ)) (a b : ℕ) (v : List α),
    Consecutive a l b → b ≤ v.length → (l.map (fun p => slice p.1 p.2 v)).flatten = slice a b v ∧ a ≤ b
  | [], a, b, v, h, _ => by
    simp only [Consecutive] at h
    subst h
    simp [slice]
  | (x, y) :: r, a, b, v, h, hb => by
    obtain ⟨rfl, hxy, hr⟩ := h
    obtain ⟨e, hyb⟩ := consecutive_cover r y b v hr hb
    refine ⟨?_, by omega⟩
    rw [List.map_cons, List.flatten_cons, e]
    unfold slice
    have : v.drop y = (v.drop x).drop (y - x) := by rw [List.drop_drop]; congr 1; omega
    rw [this]
    have hb' : b - x = (y - x) + (b - y) := by omega
    rw [hb', List.take_add]

/-- **C58.** For any vector of the joint distribution (not only recorded draws) the blocks are
disjoint and cover it: concatenating the slices of all variables gives the vector. -/
theorem C58_blocks_cover {α : Type} {post : Posterior α} {S : ℕ} (hS : 0 < S)
    {cs : List (String × Cfg α)} {ds : List (List (Arr α))}
    (h : List.Forall₂ (VarData post S) cs ds) {rows : List (List α)} {infos : List (Info α)}
    (hf : flatten post S cs = some (rows, infos)) {row : List α} (hrow : row ∈ rows)
    (v : List α) (hv : v.length = row.length) :
    (infos.map (fun i => slice i.start i.stop v)).flatten = v := by
  obtain ⟨rows', infos', hf', _, _, _, hc⟩ := C58_blocks hS h
  rw [hf] at hf'
  injection hf' with hf'
  injection hf' with h1 h2
  subst h1 h2
  have := (consecutive_cover _ 0 row.length v (hc row hrow) (by omega)).1
  rw [List.map_map] at this
  rw [← hv] at this
  simpa [Function.comp_def, slice] using this

/-- **C58.** An unknown variable is an error. -/
theorem C58_unknown_variable {α : Type} (post : Posterior α) (S : ℕ) (cs : List (String × Cfg α))
    {p : String × Cfg α} (hp : p ∈ cs) (hn : post p.1 = none) : flatten post S cs = none := by
  unfold flatten
  generalize List.replicate S ([] : List α) = rows
  generalize ([] : List (Info α)) = infos
  generalize 0 = a
  induction cs generalizing a rows infos with
  | nil => simp at hp
  | cons q cs ih =>
    obtain ⟨k, c⟩ := q
    rw [flattenLoop]
    cases hk : post k with
    | none => rfl
    | some d =>
      rcases List.mem_cons.1 hp with rfl | h
      · simp only at hn; rw [hk] at hn; exact absurd hn (by simp)
      · exact ih h _ _ _

/-- **C58.** With the base vector zero the joint vector is the mean of the draws, so each block is the
mean of its own variable. -/
theorem C58_zero_is_mean {K : Type} [Field K] (n : ℕ) (mean : List K) (chol : ℕ → ℕ → K)
    (hn : mean.length = n) : interim n mean chol (fun _ => 0) = mean := by
  unfold interim
  apply List.ext_getElem
  · simp [hn]
  · intro i h1 h2
    simp [List.getElem?_eq_getElem h2]

/-- **C58.** Entry `j` of a block of the mean vector is the average over draws of entry `j` of the
variable's own flattened (transformed) values. -/
theorem C58_mean_block {K : Type} [Field K] {post : Posterior K} {S : ℕ} (hS : 0 < S)
    {cs : List (String × Cfg K)} {ds : List (List (Arr K))}
    (h : List.Forall₂ (VarData post S) cs ds) {rows : List (List K)} {infos : List (Info K)}
    (hf : flatten post S cs = some (rows, infos)) {m : ℕ} {info : Info K} {p : String × Cfg K}
    {d : List (Arr K)} (hi : infos[m]? = some info) (hp : cs[m]? = some p) (hd : ds[m]? = some d)
    (n : ℕ) (hn : ∀ row ∈ rows, row.length = n) {j : ℕ} (hj : info.start + j < info.stop) :
    (meanRow n rows).getD (info.start + j) 0
      = (d.map (fun a => (fwd p.2 a).vals.getD j 0)).sum / (S : K) := by
  have hf2 := hf
  rw [flatten_eq hS h] at hf2
  injection hf2 with hf2
  injection hf2 with h1 h2
  -- the slice of each row
  have hslice : ∀ s, s < S → slice info.start info.stop (rowOf cs ds s) = (fwd p.2 (at' d s)).vals := by
    intro s hs
    have hsl := slices_row hs h []
    simp only [List.length_nil, List.nil_append] at hsl
    have := congrArg (fun l => l[m]?) hsl
    simp only [List.getElem?_map] at this
    have hz : (cs.zip ds)[m]? = some (p, d) := List.getElem?_zip_eq_some.2 ⟨hp, hd⟩
    rw [h2, hi, hz] at this
    simp only [Option.map_some, Option.some.injEq] at this
    exact congrArg Arr.vals this
  have hget : ∀ s, s < S → (rowOf cs ds s).getD (info.start + j) 0
      = (fwd p.2 (at' d s)).vals.getD j 0 := by
    intro s hs
    rw [← hslice s hs]
    unfold slice
    rw [List.getD_eq_getElem?_getD, List.getD_eq_getElem?_getD, List.getElem?_take, if_pos (by omega),
      List.getElem?_drop]
  have hdl : d.length = S := by
    have hz : (cs.zip ds)[m]? = some (p, d) := List.getElem?_zip_eq_some.2 ⟨hp, hd⟩
    have hm := List.mem_of_getElem? hz
    exact ((List.forall₂_iff_zip.1 h).2 hm).count
  subst h1
  have hlt : info.start + j < n := by
    have hc := (infos_blocks hS h 0).1
    rw [h2, Nat.zero_add] at hc
    have hr := hn (rowOf cs ds 0) (by rw [List.mem_map]; exact ⟨0, List.mem_range.2 hS, rfl⟩)
    rw [hr] at hc
    have hle : ∀ (l : List (ℕ × ℕ)) (a b : ℕ), Consecutive a l b → (∀ q ∈ l, q.2 ≤ b) ∧ a ≤ b := by
      intro l
      induction l with
      | nil => intro a b h; simp only [Consecutive] at h; simp [h]
      | cons q l ih =>
        intro a b h
        obtain ⟨x, y⟩ := q
        obtain ⟨rfl, hxy, h⟩ := h
        obtain ⟨i1, i2⟩ := ih y b h
        refine ⟨?_, by omega⟩
        intro q hq
        rcases List.mem_cons.1 hq with rfl | hq
        · exact i2
        · exact i1 q hq
    have := (hle _ _ _ hc).1 (info.start, info.stop)
      (List.mem_map.2 ⟨info, List.mem_of_getElem? hi, rfl⟩)
    simp only at this
    omega
  unfold meanRow
  rw [List.getD_eq_getElem?_getD, List.getElem?_map, List.getElem?_range hlt]
  simp only [Option.map_some, Option.getD_some, List.length_map, List.length_range, List.map_map]
  congr 1
  have hd' : d = (List.range S).map (at' d) := by rw [← hdl]; exact eq_range_map d
  conv_rhs => rw [hd']
  rw [List.map_map]
  congr 1
  apply List.map_congr_left
  intro s hs
  exact hget s (List.mem_range.1 hs)

/-! ### Arguments -/

theorem dictSet_keys {β : Type} (d : List (String × β)) (k : String) (v : β) :
    (dictSet d k v).map Prod.fst = if k ∈ d.map Prod.fst then d.map Prod.fst else d.map Prod.fst ++ [k] := by
  unfold dictSet
  have hany : (d.any (fun p => p.1 == k) = true) ↔ k ∈ d.map Prod.fst := by
    rw [List.any_eq_true, List.mem_map]
    simp only [beq_iff_eq]
  by_cases h : k ∈ d.map Prod.fst
  · rw [if_pos (hany.2 h), if_pos h, List.map_map]
    apply List.map_congr_left
    intro p _
    simp only [Function.comp]
    split
    · rename_i h; exact h.symm
    · rfl
  · rw [if_neg (fun e => h (hany.1 e)), if_neg h, List.map_append]
    rfl

theorem dictSet_mem {β : Type} {d : List (String × β)} {k : String} {v : β} {q : String × β} :
    q ∈ dictSet d k v ↔ q = (k, v) ∨ (q ∈ d ∧ q.1 ≠ k) := by
  unfold dictSet
  split
  · rename_i h
    rw [List.any_eq_true] at h
    obtain ⟨p, hp, hpk⟩ := h
    rw [beq_iff_eq] at hpk
    rw [List.mem_map]
    constructor
    · rintro ⟨r, hr, rfl⟩
      by_cases hk : r.1 = k
      · left; rw [if_pos hk]
      · right; rw [if_neg hk]; exact ⟨hr, hk⟩
    · rintro (rfl | ⟨h1, h2⟩)
      · exact ⟨p, hp, by rw [if_pos hpk]⟩
      · exact ⟨q, h1, by rw [if_neg h2]⟩
  · rename_i h
    rw [List.mem_append, List.mem_singleton]
    constructor
    · rintro (h1 | rfl)
      · right
        refine ⟨h1, fun hk => h ?_⟩
        rw [List.any_eq_true]
        exact ⟨q, h1, by rw [beq_iff_eq]; exact hk⟩
      · left; rfl
    · rintro (rfl | ⟨h1, _⟩)
      · right; rfl
      · left; exact h1

/-- Adding items one after the other. -/
def addAll {β : Type} (items d : List (String × β)) : List (String × β) :=
  items.foldl (fun d p => dictSet d p.1 p.2) d

theorem addAll_mem {β : Type} : ∀ (items d : List (String × β)) (q : String × β),
    (items.map Prod.fst).Nodup →
    (q ∈ addAll items d ↔ q ∈ items ∨ (q ∈ d ∧ q.1 ∉ items.map Prod.fst))
  | [], d, q, _ => by simp [addAll]
  | p :: items, d, q, hn => by
    obtain ⟨k, v⟩ := p
    rw [List.map_cons, List.nodup_cons] at hn
    have ih := addAll_mem items (dictSet d k v) q hn.2
    unfold addAll at ih ⊢
    rw [List.foldl_cons, ih, dictSet_mem]
    simp only [List.map_cons, List.mem_cons, not_or]
    constructor
    · rintro (h | ⟨rfl | ⟨h1, h2⟩, h3⟩)
      · exact .inl (.inr h)
      · exact .inl (.inl rfl)
      · exact .inr ⟨h1, h2, h3⟩
    · rintro ((rfl | h) | ⟨h1, h2, h3⟩)
      · exact .inr ⟨.inl rfl, hn.1⟩
      · exact .inl h
      · exact .inr ⟨.inr ⟨h1, h2⟩, h3⟩

theorem addAll_keys {β : Type} : ∀ (items d : List (String × β)), (d.map Prod.fst).Nodup →
    ((addAll items d).map Prod.fst).Nodup
  | [], d, h => h
  | p :: items, d, h => by
    unfold addAll
    rw [List.foldl_cons]
    refine addAll_keys items _ ?_
    rw [dictSet_keys]
    split
    · exact h
    · rename_i hk
      rw [List.nodup_append]
      refine ⟨h, by simp, ?_⟩
      intro a ha b hb
      rw [List.mem_singleton] at hb
      subst hb
      rintro rfl
      exact hk ha

/-- Adding the same default for every name. -/
theorem addNames_mem {β : Type} (f : String → β) : ∀ (names : List String) (d : List (String × β))
    (q : String × β), (∀ p ∈ d, p.2 = f p.1) →
    (q ∈ names.foldl (fun d v => dictSet d v (f v)) d ↔ q ∈ d ∨ (q.1 ∈ names ∧ q.2 = f q.1))
  | [], d, q, _ => by simp
  | n :: names, d, q, h => by
    rw [List.foldl_cons, addNames_mem f names (dictSet d n (f n)) q, dictSet_mem, List.mem_cons]
    · constructor
      · rintro ((rfl | ⟨h1, _⟩) | ⟨h1, h2⟩)
        · exact .inr ⟨.inl rfl, rfl⟩
        · exact .inl h1
        · exact .inr ⟨.inr h1, h2⟩
      · rintro (h1 | ⟨rfl | h1, h2⟩)
        · by_cases hk : q.1 = n
          · left; left
            obtain ⟨a, b⟩ := q
            simp only at hk
            subst hk
            have := h _ h1
            simp only at this
            rw [this]
          · exact .inl (.inr ⟨h1, hk⟩)
        · left; left
          obtain ⟨a, b⟩ := q
          simp only at h2
          subst h2
          rfl
        · exact .inr ⟨h1, h2⟩
    · intro p hp
      rcases dictSet_mem.1 hp with rfl | ⟨h1, _⟩
      · rfl
      · exact h p h1

theorem addNames_keys {β : Type} (f : String → β) : ∀ (names : List String) (d : List (String × β)),
    (d.map Prod.fst).Nodup → ((names.foldl (fun d v => dictSet d v (f v)) d).map Prod.fst).Nodup
  | [], d, h => h
  | n :: names, d, h => by
    rw [List.foldl_cons]
    refine addNames_keys f names _ ?_
    have := addAll_keys [(n, f n)] d h
    exact this

/-- **C58.** Every requested variable is flattened exactly once: the keys are distinct, they are the
given names and keyword names, a keyword's configuration wins over the plain name. -/
theorem C58_arguments {α : Type} (varNames : List String) (kwargs : List (String × Arg α))
    (hk : (kwargs.map Prod.fst).Nodup) :
    ((parseArgs varNames kwargs).map Prod.fst).Nodup ∧
    ∀ q, q ∈ parseArgs varNames kwargs ↔
      (∃ a, (q.1, a) ∈ kwargs ∧ q.2 = argToCfg q.1 a) ∨
      (q.1 ∈ varNames ∧ q.1 ∉ kwargs.map Prod.fst ∧ q.2 = argToCfg q.1 .none) := by
  have e : parseArgs varNames kwargs = addAll (kwargs.map (fun p => (p.1, argToCfg p.1 p.2)))
      (varNames.foldl (fun d v => dictSet d v (argToCfg v Arg.none)) []) := by
    unfold parseArgs addAll
    rw [List.foldl_map]
  have hkeys : (kwargs.map (fun p => (p.1, argToCfg p.1 p.2))).map Prod.fst = kwargs.map Prod.fst := by
    rw [List.map_map]; rfl
  rw [e]
  refine ⟨addAll_keys _ _ (addNames_keys _ _ _ (by simp)), fun q => ?_⟩
  rw [addAll_mem _ _ _ (by rw [hkeys]; exact hk), hkeys,
    addNames_mem (fun v => argToCfg v Arg.none) _ _ _ (by simp)]
  simp only [List.mem_map, List.not_mem_nil, false_or]
  constructor
  · rintro (⟨p, hp, rfl⟩ | ⟨⟨h1, h2⟩, h3⟩)
    · exact .inl ⟨p.2, hp, rfl⟩
    · exact .inr ⟨h1, h3, h2⟩
  · rintro (⟨a, ha, hq⟩ | ⟨h1, h2, h3⟩)
    · exact .inl ⟨(q.1, a), ha, by rw [← hq]⟩
    · exact .inr ⟨⟨h1, h3⟩, h2⟩

/-- **C58.** What a keyword asks for is what its entry gets: the name in the result is the one given
(as a bare string or inside a configuration) and otherwise the variable's own; the transform and the
dims are exactly those given.  Plain names get neither. -/
theorem C58_keyword_forms {α : Type} (varNames : List String) (kwargs : List (String × Arg α))
    (hk : (kwargs.map Prod.fst).Nodup) (key : String) :
    (∀ s, (key, Arg.rename s) ∈ kwargs → (key, ⟨s, none, none⟩) ∈ parseArgs varNames kwargs) ∧
    (∀ s t d, (key, Arg.cfg (some s) t d) ∈ kwargs → (key, ⟨s, t, d⟩) ∈ parseArgs varNames kwargs) ∧
    (∀ t d, (key, Arg.cfg none t d) ∈ kwargs → (key, ⟨key, t, d⟩) ∈ parseArgs varNames kwargs) ∧
    (∀ t, (key, Arg.transform t) ∈ kwargs → (key, ⟨key, some t, none⟩) ∈ parseArgs varNames kwargs) ∧
    (∀ d, (key, Arg.dims d) ∈ kwargs → (key, ⟨key, none, some d⟩) ∈ parseArgs varNames kwargs) ∧
    ((key, Arg.none) ∈ kwargs → (key, ⟨key, none, none⟩) ∈ parseArgs varNames kwargs) ∧
    (key ∈ varNames → key ∉ kwargs.map Prod.fst → (key, ⟨key, none, none⟩) ∈ parseArgs varNames kwargs) := by
  have h := (C58_arguments varNames kwargs hk).2
  refine ⟨fun s hs => ?_, fun s t d hs => ?_, fun t d hs => ?_, fun t hs => ?_, fun d hs => ?_,
    fun hs => ?_, fun h1 h2 => ?_⟩
  all_goals first
    | exact (h _).2 (.inl ⟨_, hs, rfl⟩)
    | exact (h _).2 (.inr ⟨h1, h2, rfl⟩)

theorem linear_sum_list {K Ω : Type} [Field K] (E : (Ω → K) →ₗ[K] K) {ι : Type} (l : List ι)
    (f : ι → Ω → K) : E (fun ω => (l.map (fun j => f j ω)).sum) = (l.map (fun j => E (f j))).sum := by
  induction l with
  | nil => exact E.map_zero
  | cons a l ih =>
    simp only [List.map_cons, List.sum_cons]
    rw [← ih]
    exact E.map_add (f a) _

/-- **C58.** Second moments of the joint vector.  Let `E` be any linear expectation for which the base
vector has `E[z_j z_k] = 1` if `j = k` and `0` otherwise; then the deviations of the joint vector from the
mean have covariance `chol cholᵀ`, i.e. the covariance whose Cholesky factor `chol` is. -/
theorem C58_covariance {K Ω : Type} [Field K] (E : (Ω → K) →ₗ[K] K) (z : Ω → ℕ → K)
    (n : ℕ) (hz : ∀ j k, j < n → k < n → E (fun ω => z ω j * z ω k) = if j = k then 1 else 0)
    (mean : List K) (chol : ℕ → ℕ → K) {a b : ℕ} (ha : a < n) (hb : b < n) :
    E (fun ω => ((interim n mean chol (z ω)).getD a 0 - mean.getD a 0)
        * ((interim n mean chol (z ω)).getD b 0 - mean.getD b 0))
      = ((List.range n).map (fun j => chol a j * chol b j)).sum := by
  have e : ∀ (i : ℕ), i < n → ∀ ω, (interim n mean chol (z ω)).getD i 0 - mean.getD i 0
      = ((List.range n).map (fun j => chol i j * z ω j)).sum := by
    intro i hi ω
    have hl : i < (interim n mean chol (z ω)).length := by simp [interim, hi]
    rw [List.getD_eq_getElem _ _ hl]
    simp [interim]
  have e2 : (fun ω => ((interim n mean chol (z ω)).getD a 0 - mean.getD a 0)
        * ((interim n mean chol (z ω)).getD b 0 - mean.getD b 0))
      = fun ω => ((List.range n).map (fun j => ((List.range n).map
          (fun k => (chol a j * chol b k) * (z ω j * z ω k))).sum)).sum := by
    funext ω
    rw [e a ha, e b hb, ← List.sum_map_mul_right]
    congr 1
    refine List.map_congr_left fun j _ => ?_
    rw [← List.sum_map_mul_left]
    congr 1
    refine List.map_congr_left fun k _ => ?_
    ring
  rw [e2, linear_sum_list]
  congr 1
  refine List.map_congr_left fun j hj => ?_
  rw [linear_sum_list]
  have e3 : ∀ k ∈ List.range n, E (fun ω => (chol a j * chol b k) * (z ω j * z ω k))
      = if k = j then chol a j * chol b j else 0 := by
    intro k hkn
    have := E.map_smul (chol a j * chol b k) (fun ω => z ω j * z ω k)
    rw [hz _ _ (List.mem_range.1 hj) (List.mem_range.1 hkn)] at this
    by_cases h : k = j
    · subst h; simpa [Pi.smul_def] using this
    · rw [if_neg (fun h' => h h'.symm)] at this
      rw [if_neg h]; simpa [Pi.smul_def] using this
  rw [List.map_congr_left e3]
  rw [List.sum_map_ite_eq, List.count_eq_one_of_mem List.nodup_range hj]
  simp

/-- A base vector with identity second moments: two independent signs, averaged over the four cases. -/
example : ∃ (E : (Fin 4 → ℚ) →ₗ[ℚ] ℚ) (z : Fin 4 → ℕ → ℚ), ∀ j k, j < 2 → k < 2 →
    E (fun ω => z ω j * z ω k) = if j = k then 1 else 0 := by
  refine ⟨{ toFun := fun f => (f 0 + f 1 + f 2 + f 3) / 4, map_add' := ?_, map_smul' := ?_ },
    fun ω j => if j = 0 then (if ω.val < 2 then 1 else -1) else (if ω.val % 2 = 0 then 1 else -1), ?_⟩
  · intro f g; simp only [Pi.add_apply]; ring
  · intro c f; simp only [Pi.smul_apply, smul_eq_mul, RingHom.id_apply]; ring
  · intro j k hj hk
    interval_cases j <;> interval_cases k <;> norm_num

/-- Two variables, a scalar and a pair, two draws. -/
def demoPost : Posterior ℚ := fun k =>
  if k = "a" then some [⟨[], [1]⟩, ⟨[], [2]⟩] else
  if k = "b" then some [⟨[2], [3, 4]⟩, ⟨[2], [5, 6]⟩] else none

example : List.Forall₂ (VarData demoPost 2) (parseArgs ["b"] [("a", Arg.rename "x")])
    [[⟨[2], [3, 4]⟩, ⟨[2], [5, 6]⟩], [⟨[], [1]⟩, ⟨[], [2]⟩]] := by
  refine .cons ⟨rfl, rfl, [2], ?_⟩ (.cons ⟨rfl, rfl, [], ?_⟩ .nil)
  · intro a ha
    simp only [List.mem_cons, List.not_mem_nil, or_false] at ha
    rcases ha with rfl | rfl <;> exact ⟨rfl, rfl⟩
  · intro a ha
    simp only [List.mem_cons, List.not_mem_nil, or_false] at ha
    rcases ha with rfl | rfl <;> exact ⟨rfl, rfl⟩
example : (flatten demoPost 2 (parseArgs ["b"] [("a", Arg.rename "x")])).map
    (fun r => (r.1, r.2.map (fun i => (i.shape, i.start, i.stop, i.cfg.name))))
    = some ([[3, 4, 1], [5, 6, 2]], [([2], 0, 2, "b"), ([], 2, 3, "x")]) := rfl

end PriorFrom
