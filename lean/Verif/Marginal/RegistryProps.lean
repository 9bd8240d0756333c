import Verif.Marginal.Registry
import Mathlib.Data.List.Perm.Lattice
import Mathlib.Data.List.Nodup
import Mathlib.Data.Finset.Basic

/-! # C205: the mappings of a MarginalModel stay consistent -/

set_option autoImplicit false

namespace MargReg

variable {T I : Type}

/-! ### Specification -/

/-- The mappings describe one set of variables: free and observed variables are distinct, exactly they have a value variable
and a transform entry, exactly the free ones have an initial-value entry, value variables point back, every variable of the
model is found under its own name, and marginalised variables are in none of these mappings. -/
structure Spec.Consistent (r : Reg T I) : Prop where
  nodup : (r.free ++ r.observed).Nodup
  value : ∀ x, (∃ v, r.toValue x = some v) ↔ (x ∈ r.free ∨ x ∈ r.observed)
  back : ∀ x v, r.toValue x = some v ↔ r.toRv v = some x
  transform : ∀ x, (r.transform x).isSome ↔ (x ∈ r.free ∨ x ∈ r.observed)
  initial : ∀ x, (r.initial x).isSome ↔ x ∈ r.free
  byName : ∀ x, (x ∈ r.free ∨ x ∈ r.observed) → r.named (r.name x) = some x
  names : ∀ n x, r.named n = some x → r.name x = n
  marg : ∀ x ∈ r.marg, x ∉ r.free ∧ x ∉ r.observed
  margNodup : r.marg.Nodup
  margUnnamed : ∀ x ∈ r.marg, ∀ n, r.named n ≠ some x

/-- No variable of the model has taken the name of a marginalised variable, nor do two of those share one. -/
def Spec.NamesKept (r : Reg T I) : Prop :=
  (∀ x ∈ r.marg, r.named (r.name x) = none) ∧ (r.marg.map r.name).Nodup

/-- A new object: in no mapping yet. -/
def Spec.New (r : Reg T I) (x : ℕ) : Prop :=
  x ∉ r.free ∧ x ∉ r.observed ∧ x ∉ r.marg ∧ ∀ n, r.named n ≠ some x

/-- The variable `y` of `s` stands for `x` of `r`: same name, value variable, transform and initial value. -/
def Spec.Same (r s : Reg T I) (x y : ℕ) : Prop :=
  s.name y = r.name x ∧ s.toValue y = r.toValue x ∧ s.transform y = r.transform x ∧ s.initial y = r.initial x

/-- `s` has, at the same positions, a stand-in for each variable of `r`, and the same dimension names and the same names in
use. -/
def Spec.StandsFor (r s : Reg T I) : Prop :=
  ∃ σ : ℕ → ℕ, s.free = r.free.map σ ∧ s.observed = r.observed.map σ ∧
    (∀ x, x ∈ r.free ∨ x ∈ r.observed → Spec.Same r s x (σ x)) ∧ s.dims = r.dims ∧ s.mdims = r.mdims ∧
    ∀ n, (s.named n).isSome = (r.named n).isSome

/-- The stand-in given by a list of (old, new) pairs. -/
def Spec.newOf (pairs : List (ℕ × ℕ)) (y : ℕ) : ℕ :=
  match pairs.find? (fun p => p.1 == y) with
  | some p => p.2
  | none => y

/-- What the construction of the marginalised variables guarantees: the replaced variables are the marginalised one and
variables of the model that come after it (in a topological order, `rank`), the replacements are new objects. -/
def Spec.BuildOk (rank : ℕ → ℕ) (build : Reg T I → ℕ → Except Err (List (ℕ × ℕ))) : Prop :=
  ∀ r x pairs, build r x = .ok pairs → (pairs.map Prod.fst).Nodup ∧ (pairs.map Prod.snd).Nodup ∧
    ∀ p ∈ pairs, New r p.2 ∧ (p.1 ∈ r.basic ∨ p.1 ∈ r.marg) ∧ (p.1 = x ∨ rank x < rank p.1)

open Spec

theorem mem_basic (r : Reg T I) (x : ℕ) : x ∈ r.basic ↔ x ∈ r.free ∨ x ∈ r.observed := by
  simp [Reg.basic]

/-! ### Deleting and registering -/

theorem delete_consistent {r s : Reg T I} (c : Consistent r) {x : ℕ} (h : delete r x = .ok s) :
    Consistent s ∧ s.marg = r.marg ∧ New s x ∧ s.name = r.name ∧ s.mdims = r.mdims ∧
      (∀ n, n ≠ r.name x → s.named n = r.named n) ∧ s.named (r.name x) = none := by
  have nd := c.nodup
  rw [List.nodup_append] at nd
  obtain ⟨nf, no, dj⟩ := nd
  unfold delete at h
  by_cases hb : x ∈ r.basic
  · rw [if_neg (by simpa using hb)] at h
    rw [mem_basic] at hb
    obtain ⟨v, hv⟩ := (c.value x).2 hb
    have hm : x ∉ r.marg := fun hm => by
      rcases hb with hb | hb
      · exact (c.marg x hm).1 hb
      · exact (c.marg x hm).2 hb
    have key : ∀ y, (∃ w, upd r.toValue x none y = some w) ↔ (y ≠ x ∧ (y ∈ r.free ∨ y ∈ r.observed)) := by
      intro y
      simp only [upd]
      split
      · next e => simp [e]
      · next e => simp only [ne_eq, e, not_false_eq_true, true_and]; exact c.value y
    have backk : ∀ y w, upd r.toValue x none y = some w ↔ upd r.toRv v none w = some y := by
      intro y w
      simp only [upd]
      by_cases e : y = x
      · subst e
        by_cases ew : w = v
        · simp [ew]
        · simp only [if_true, if_neg ew]
          constructor
          · simp
          · intro hw
            have := (c.back y w).2 hw
            rw [hv] at this
            exact absurd (Option.some.inj this).symm ew
      · by_cases ew : w = v
        · subst ew
          simp only [if_neg e, if_true]
          constructor
          · intro hw
            have h1 := (c.back y w).1 hw
            have h2 := (c.back x w).1 hv
            rw [h1] at h2
            exact absurd (Option.some.inj h2) e
          · simp
        · simp only [if_neg e, if_neg ew]; exact c.back y w
    have trk : ∀ y, (upd r.transform x none y).isSome ↔ (y ≠ x ∧ (y ∈ r.free ∨ y ∈ r.observed)) := by
      intro y
      simp only [upd]
      split
      · next e => simp [e]
      · next e => simp only [ne_eq, e, not_false_eq_true, true_and]; exact c.transform y
    have nmk : ∀ y, y ≠ x → (y ∈ r.free ∨ y ∈ r.observed) → upd r.named (r.name x) none (r.name y) = some y := by
      intro y hy hb'
      have h1 := c.byName y hb'
      have h2 := c.byName x hb
      simp only [upd]
      rw [if_neg]
      · exact h1
      · intro e
        rw [e, h2] at h1
        exact hy (Option.some.inj h1).symm
    have nms : ∀ n y, upd r.named (r.name x) none n = some y → r.name y = n := by
      intro n y
      simp only [upd]
      split
      · simp
      · exact c.names n y
    have unm : ∀ y ∈ r.marg, ∀ n, upd r.named (r.name x) none n ≠ some y := by
      intro y hy n
      simp only [upd]
      split
      · simp
      · exact c.margUnnamed y hy n
    have newx : ∀ n, upd r.named (r.name x) none n ≠ some x := by
      intro n
      simp only [upd]
      split
      · simp
      · next e => intro hn; exact e (c.names n x hn).symm
    simp only [hv] at h
    by_cases hf : x ∈ r.free
    · rw [if_pos hf] at h
      cases h
      have hxo : x ∉ r.observed := fun ho => dj x hf x ho rfl
      have mem : ∀ y, (y ∈ r.free.erase x ∨ y ∈ r.observed) ↔ (y ≠ x ∧ (y ∈ r.free ∨ y ∈ r.observed)) := by
        intro y
        rw [nf.mem_erase_iff]
        constructor
        · rintro (⟨a, b⟩ | b)
          · exact ⟨a, Or.inl b⟩
          · exact ⟨fun e => hxo (e ▸ b), Or.inr b⟩
        · rintro ⟨a, b | b⟩
          · exact Or.inl ⟨a, b⟩
          · exact Or.inr b
      refine ⟨⟨?_, ?_, ?_, ?_, ?_, ?_, nms, ?_, c.margNodup, unm⟩, rfl, ⟨?_, hxo, hm, newx⟩, rfl, rfl, ?_, ?_⟩
      · exact List.nodup_append.2 ⟨nf.erase x, no, fun a ha b hb => dj a (List.mem_of_mem_erase ha) b hb⟩
      · intro y; rw [key y]; exact (mem y).symm
      · exact backk
      · intro y; rw [trk y]; exact (mem y).symm
      · intro y
        show (upd r.initial x none y).isSome ↔ y ∈ r.free.erase x
        rw [nf.mem_erase_iff]
        simp only [upd]
        split
        · next e => simp [e]
        · next e => simp only [ne_eq, e, not_false_eq_true, true_and]; exact c.initial y
      · intro y hy; have := (mem y).1 hy; exact nmk y this.1 this.2
      · intro y hy
        exact ⟨fun h => (c.marg y hy).1 (List.mem_of_mem_erase h), (c.marg y hy).2⟩
      · intro h; exact ((nf.mem_erase_iff).1 h).1 rfl
      · intro n hn; simp [upd, hn]
      · simp [upd]
    · rw [if_neg hf] at h
      cases h
      have ho : x ∈ r.observed := hb.resolve_left hf
      have mem : ∀ y, (y ∈ r.free ∨ y ∈ r.observed.erase x) ↔ (y ≠ x ∧ (y ∈ r.free ∨ y ∈ r.observed)) := by
        intro y
        rw [no.mem_erase_iff]
        constructor
        · rintro (b | ⟨a, b⟩)
          · exact ⟨fun e => hf (e ▸ b), Or.inl b⟩
          · exact ⟨a, Or.inr b⟩
        · rintro ⟨a, b | b⟩
          · exact Or.inl b
          · exact Or.inr ⟨a, b⟩
      refine ⟨⟨?_, ?_, ?_, ?_, c.initial, ?_, nms, ?_, c.margNodup, unm⟩, rfl, ⟨hf, ?_, hm, newx⟩, rfl, rfl, ?_, ?_⟩
      · exact List.nodup_append.2 ⟨nf, no.erase x, fun a ha b hb => dj a ha b (List.mem_of_mem_erase hb)⟩
      · intro y; rw [key y]; exact (mem y).symm
      · exact backk
      · intro y; rw [trk y]; exact (mem y).symm
      · intro y hy; have := (mem y).1 hy; exact nmk y this.1 this.2
      · intro y hy
        exact ⟨(c.marg y hy).1, fun h => (c.marg y hy).2 (List.mem_of_mem_erase h)⟩
      · intro h; exact ((no.mem_erase_iff).1 h).1 rfl
      · intro n hn; simp [upd, hn]
      · simp [upd]
  · rw [if_pos hb] at h; cases h

/-- Adding a variable to the mappings, in the free list if `f` and the observed list otherwise. -/
theorem add_consistent {r : Reg T I} (c : Consistent r) {x v : ℕ} {t : Option T} {i : Option I} (hn : New r x)
    (hv : r.toRv v = none) (hname : r.named (r.name x) = none) (f : Bool) (dims : String → Option (List String)) :
    Consistent { r with
      free := if f then r.free ++ [x] else r.free
      observed := if f then r.observed else r.observed ++ [x]
      toValue := upd r.toValue x (some v)
      toRv := upd r.toRv v (some x)
      transform := upd r.transform x (some t)
      named := upd r.named (r.name x) (some x)
      dims := dims
      initial := if f then upd r.initial x (some i) else r.initial } := by
  have nd := c.nodup
  rw [List.nodup_append] at nd
  obtain ⟨nf, no, dj⟩ := nd
  obtain ⟨hf, ho, hm, hnn⟩ := hn
  have mem : ∀ y, (y ∈ (if f then r.free ++ [x] else r.free) ∨ y ∈ (if f then r.observed else r.observed ++ [x])) ↔
      (y = x ∨ (y ∈ r.free ∨ y ∈ r.observed)) := by
    intro y
    cases f <;> simp <;> tauto
  refine ⟨?_, ?_, ?_, ?_, ?_, ?_, ?_, ?_, c.margNodup, ?_⟩
  · cases f
    · simp only [Bool.false_eq_true, if_false]
      rw [← List.append_assoc, List.nodup_append]
      refine ⟨c.nodup, by simp, ?_⟩
      intro a ha b hb
      simp only [List.mem_singleton] at hb
      subst hb
      intro e
      subst e
      rcases List.mem_append.1 ha with h | h
      · exact hf h
      · exact ho h
    · simp only [if_true]
      rw [List.append_assoc, List.nodup_append]
      refine ⟨nf, by simp [no, ho], ?_⟩
      intro a ha b hb
      simp only [List.singleton_append, List.mem_cons] at hb
      rcases hb with hb | hb
      · subst hb; intro e; exact hf (e ▸ ha)
      · exact dj a ha b hb
  · intro y
    rw [mem y]
    simp only [upd]
    split
    · next e => simp [e]
    · next e => simp only [e, false_or]; exact c.value y
  · intro y w
    show upd r.toValue x (some v) y = some w ↔ upd r.toRv v (some x) w = some y
    simp only [upd]
    by_cases e : y = x
    · subst e
      by_cases ew : w = v
      · simp [ew]
      · simp only [if_true, if_neg ew, Option.some.injEq]
        constructor
        · intro h; exact absurd h.symm ew
        · intro h
          have := (c.value y).1 ⟨w, (c.back y w).2 h⟩
          rcases this with h | h
          · exact absurd h hf
          · exact absurd h ho
    · by_cases ew : w = v
      · subst ew
        simp only [if_neg e, if_true, Option.some.injEq]
        constructor
        · intro h
          have := (c.back y w).1 h
          rw [hv] at this
          cases this
        · intro h; exact absurd h.symm e
      · simp only [if_neg e, if_neg ew]; exact c.back y w
  · intro y
    rw [mem y]
    show (upd r.transform x (some t) y).isSome ↔ _
    simp only [upd]
    split
    · next e => simp [e]
    · next e => simp only [e, false_or]; exact c.transform y
  · intro y
    show ((if f then upd r.initial x (some i) else r.initial) y).isSome ↔ y ∈ (if f then r.free ++ [x] else r.free)
    cases f
    · simp only [Bool.false_eq_true, if_false]; exact c.initial y
    · simp only [if_true, upd, List.mem_append, List.mem_singleton]
      split
      · next e => simp [e]
      · next e => simp only [e, or_false]; exact c.initial y
  · intro y hy
    show upd r.named (r.name x) (some x) (r.name y) = some y
    simp only [upd]
    rcases (mem y).1 hy with e | hb
    · simp [e]
    · have h1 := c.byName y hb
      rw [if_neg]
      · exact h1
      · intro e; rw [e, hname] at h1; cases h1
  · intro n y hy
    simp only [upd] at hy
    split at hy
    · next e => cases hy; exact e.symm
    · exact c.names n y hy
  · intro y hy
    have hyx : y ≠ x := fun e => hm (e ▸ hy)
    have h := c.marg y hy
    cases f <;> simp [h.1, h.2, hyx]
  · intro y hy n
    simp only [upd]
    split
    · intro e; cases e; exact hm hy
    · exact c.margUnnamed y hy n

theorem register_consistent {r : Reg T I} (c : Consistent r) {x v : ℕ} {t : Option T} {i : Option I}
    {d : Option (List String)} (hn : New r x) (hv : r.toRv v = none) (hname : r.named (r.name x) = none) :
    (register r x v t i d).2 = none ∧ Consistent (register r x v t i d).1 := by
  unfold register
  simp only [hname, Option.isSome_none, Bool.false_eq_true, if_false]
  refine ⟨trivial, ?_⟩
  cases d
  · simpa using add_consistent c (t := t) (i := i) hn hv hname true r.dims
  · next d => simpa using add_consistent c (t := t) (i := i) hn hv hname true (upd r.dims (r.name x) (some d))

theorem registerObserved_consistent {r : Reg T I} (c : Consistent r) {x v : ℕ} {t : Option T}
    {d : Option (List String)} (hn : New r x) (hv : r.toRv v = none) :
    Consistent (registerObserved r x v t d).1 := by
  unfold registerObserved
  by_cases hname : (r.named (r.name x)).isSome
  · rw [if_pos hname]; exact c
  · rw [if_neg hname]
    have hname : r.named (r.name x) = none := by simpa using hname
    cases d
    · simpa using add_consistent c (t := t) (i := none) hn hv hname false r.dims
    · next d => simpa using add_consistent c (t := t) (i := none) hn hv hname false (upd r.dims (r.name x) (some d))

/-! ### Replacing a variable -/

theorem putAt_eq {l : List ℕ} (hl : l.Nodup) {old : ℕ} (h : old ∈ l) (new : ℕ) :
    putAt l old new = l.map fun y => if y = old then new else y := by
  induction l with
  | nil => cases h
  | cons a l ih =>
    rw [List.nodup_cons] at hl
    by_cases e : a = old
    · subst e
      have : ∀ y ∈ l, (fun y => if y = a then new else y) y = y := by
        intro y hy
        simp only
        rw [if_neg]
        intro e; exact hl.1 (e ▸ hy)
      simp only [putAt, List.idxOf_cons_self, List.eraseIdx_cons_zero, List.insertIdx_zero, List.map_cons, if_true]
      rw [List.map_congr_left this]
      simp
    · have h' : old ∈ l := by
        rcases List.mem_cons.1 h with h | h
        · exact absurd h.symm e
        · exact h
      have := ih hl.2 h'
      simp only [putAt] at this
      simp only [putAt, List.idxOf_cons_ne _ e, List.eraseIdx_cons_succ, List.insertIdx_succ_cons, List.map_cons, if_neg e,
        this]

theorem map_same {l : List ℕ} {old new : ℕ} (h : old ∉ l) : l.map (fun y => if y = old then new else y) = l := by
  have : ∀ y ∈ l, (fun y => if y = old then new else y) y = y := by
    intro y hy
    simp only
    rw [if_neg]
    intro e; exact h (e ▸ hy)
  rw [List.map_congr_left this]
  simp

/-- What `_transfer_rv_mappings` does. -/
theorem transfer_spec {r : Reg T I} (c : Consistent r) {old new : ℕ} (ho : old ∈ r.free ∨ old ∈ r.observed)
    (hn : New r new) : ∃ s, transfer r old new = .ok s ∧ Consistent s ∧ s.marg = r.marg ∧
      s.free = r.free.map (fun y => if y = old then new else y) ∧
      s.observed = r.observed.map (fun y => if y = old then new else y) ∧
      (∀ x, x ∈ r.free ∨ x ∈ r.observed → Same r s x (if x = old then new else x)) ∧ s.dims = r.dims ∧ s.mdims = r.mdims ∧
      (∀ n, (s.named n).isSome = (r.named n).isSome) ∧ (∀ q, q ≠ new → s.name q = r.name q) ∧
      (∀ n q, s.named n = some q → q = new ∨ r.named n = some q) := by
  have nd := c.nodup
  rw [List.nodup_append] at nd
  obtain ⟨nf, no, dj⟩ := nd
  obtain ⟨hnf, hno, hnm, hnn⟩ := hn
  obtain ⟨v, hv⟩ := (c.value old).2 ho
  have hne : old ≠ new := by
    rintro rfl
    rcases ho with h | h
    · exact hnf h
    · exact hno h
  have hold := c.byName old ho
  -- the new mappings
  let s : Reg T I := { r with
      name := fun q => if q = new then r.name old else r.name q
      named := upd (upd r.named (r.name old) none) (r.name old) (some new)
      toValue := upd (upd r.toValue old none) new (r.toValue old)
      toRv := upd r.toRv v (some new)
      transform := upd (upd r.transform old none) new (r.transform old)
      free := r.free.map (fun y => if y = old then new else y)
      observed := r.observed.map (fun y => if y = old then new else y)
      initial := if old ∈ r.free then upd (upd r.initial old none) new (r.initial old) else r.initial }
  have mem1 : ∀ (l : List ℕ), new ∉ l → ∀ y, y ∈ l.map (fun y => if y = old then new else y) ↔
      ((y = new ∧ old ∈ l) ∨ (y ≠ old ∧ y ≠ new ∧ y ∈ l)) := by
    intro l hl y
    rw [List.mem_map]
    constructor
    · rintro ⟨a, ha, e⟩
      split at e
      · next e' => subst e'; exact Or.inl ⟨e.symm, ha⟩
      · next e' => subst e; exact Or.inr ⟨e', fun e => hl (e ▸ ha), ha⟩
    · rintro (⟨rfl, h⟩ | ⟨h1, _, h3⟩)
      · exact ⟨old, h, by simp⟩
      · exact ⟨y, h3, by simp [h1]⟩
  have memf := mem1 r.free hnf
  have memo := mem1 r.observed hno
  have mem : ∀ y, (y ∈ s.free ∨ y ∈ s.observed) ↔ (y = new ∨ (y ≠ old ∧ y ≠ new ∧ (y ∈ r.free ∨ y ∈ r.observed))) := by
    intro y
    show (y ∈ r.free.map _ ∨ y ∈ r.observed.map _) ↔ _
    rw [memf y, memo y]
    tauto
  have hs : transfer r old new = .ok s := by
    unfold transfer
    rw [if_neg (by rw [not_not, mem_basic]; exact ho), if_neg (by rw [mem_basic]; tauto)]
    simp only [hv]
    by_cases hf : old ∈ r.free
    · have hoo : old ∉ r.observed := fun h => dj old hf old h rfl
      simp only [if_pos hf, s, hv, putAt_eq nf hf, map_same hoo]
    · have hoo : old ∈ r.observed := ho.resolve_left hf
      simp only [if_neg hf, if_pos hoo, s, hv, putAt_eq no hoo, map_same hf]
  have hinit : ∀ y, y ≠ old → y ≠ new → s.initial y = r.initial y := by
    intro y h1 h2
    show (if old ∈ r.free then upd (upd r.initial old none) new (r.initial old) else r.initial) y = _
    split
    · simp [upd, h1, h2]
    · rfl
  have hinit' : s.initial new = r.initial old := by
    show (if old ∈ r.free then upd (upd r.initial old none) new (r.initial old) else r.initial) new = _
    split
    · simp [upd]
    · next hf =>
      have h1 : r.initial new = none := by
        by_contra h
        exact hnf ((c.initial new).1 (Option.isSome_iff_ne_none.2 h))
      have h2 : r.initial old = none := by
        by_contra h
        exact hf ((c.initial old).1 (Option.isSome_iff_ne_none.2 h))
      rw [h1, h2]
  have hnotnew : ∀ y, y ∈ r.free ∨ y ∈ r.observed → y ≠ new := by
    rintro y (h | h) e
    · exact hnf (e ▸ h)
    · exact hno (e ▸ h)
  have hnm2 : ∀ n, upd (upd r.named (r.name old) none) (r.name old) (some new) n =
      if n = r.name old then some new else r.named n := by
    intro n
    simp only [upd]
    split <;> simp_all
  refine ⟨s, hs, ⟨?_, ?_, ?_, ?_, ?_, ?_, ?_, ?_, c.margNodup, ?_⟩, rfl, rfl, rfl, ?_, rfl, rfl, ?_, ?_, ?_⟩
  · show (r.free.map _ ++ r.observed.map _).Nodup
    rw [← List.map_append]
    refine List.Nodup.map_on ?_ c.nodup
    intro a ha b hb e
    have hab := hnotnew a (List.mem_append.1 ha)
    have hbb := hnotnew b (List.mem_append.1 hb)
    split at e <;> split at e
    · simp_all
    · exact absurd e.symm hbb
    · exact absurd e hab
    · exact e
  · intro y
    rw [mem y]
    show (∃ w, upd (upd r.toValue old none) new (r.toValue old) y = some w) ↔ _
    simp only [upd]
    by_cases e : y = new
    · simp [e, hv]
    · by_cases e' : y = old
      · simp [e', hne]
      · simp only [e, if_false, false_or, ne_eq, e', not_false_eq_true, true_and]; exact c.value y
  · intro y w
    show upd (upd r.toValue old none) new (r.toValue old) y = some w ↔ upd r.toRv v (some new) w = some y
    simp only [upd]
    by_cases e : y = new
    · subst e
      rw [if_pos rfl, hv]
      by_cases ew : w = v
      · simp [ew]
      · rw [if_neg ew]
        constructor
        · intro h; exact absurd (Option.some.inj h).symm ew
        · intro h
          have := (c.value y).1 ⟨w, (c.back y w).2 h⟩
          rcases this with h | h
          · exact absurd h hnf
          · exact absurd h hno
    · by_cases e' : y = old
      · subst e'
        rw [if_neg e, if_pos rfl]
        constructor
        · simp
        · intro h
          split at h
          · exact absurd (Option.some.inj h).symm e
          · next ew =>
            have := (c.back y w).2 h
            rw [hv] at this
            exact absurd (Option.some.inj this).symm ew
      · rw [if_neg e, if_neg e']
        by_cases ew : w = v
        · subst ew
          rw [if_pos rfl]
          constructor
          · intro h
            have h1 := (c.back y w).1 h
            have h2 := (c.back old w).1 hv
            rw [h1] at h2
            exact absurd (Option.some.inj h2) e'
          · intro h; exact absurd (Option.some.inj h).symm e
        · rw [if_neg ew]; exact c.back y w
  · intro y
    rw [mem y]
    show (upd (upd r.transform old none) new (r.transform old) y).isSome ↔ _
    simp only [upd]
    by_cases e : y = new
    · simp only [e, if_true, true_or, iff_true]
      exact (c.transform old).2 ho
    · by_cases e' : y = old
      · simp [e', hne]
      · simp only [e, if_false, false_or, ne_eq, e', not_false_eq_true, true_and]; exact c.transform y
  · intro y
    rw [show y ∈ s.free ↔ _ from memf y]
    by_cases e : y = new
    · rw [e, hinit', c.initial old]
      simp
    · by_cases e' : y = old
      · subst e'
        simp only [e, false_and, ne_eq, not_true_eq_false, or_self, iff_false]
        show ¬ ((if y ∈ r.free then upd (upd r.initial y none) new (r.initial y) else r.initial) y).isSome
        split
        · simp [upd, e]
        · next hf => rw [c.initial y]; exact hf
      · rw [hinit y e' e, c.initial y]
        simp [e, e']
  · intro y hy
    show upd (upd r.named (r.name old) none) (r.name old) (some new) (if y = new then r.name old else r.name y) = some y
    rw [hnm2]
    rcases (mem y).1 hy with e | ⟨h1, h2, h3⟩
    · simp [e]
    · have := c.byName y h3
      rw [if_neg h2, if_neg]
      · exact this
      · intro e
        rw [e, hold] at this
        exact h1 (Option.some.inj this).symm
  · intro n y hy
    rw [show s.named n = _ from hnm2 n] at hy
    show (if y = new then r.name old else r.name y) = n
    split at hy
    · next e => cases hy; simp [e]
    · have hyn : y ≠ new := fun e => hnn n (e ▸ hy)
      rw [if_neg hyn]
      exact c.names n y hy
  · intro y hy
    have hyn : y ≠ new := fun e => hnm (e ▸ hy)
    have h := c.marg y hy
    have := mem y
    constructor
    · intro h1
      rcases this.1 (Or.inl h1) with e | ⟨_, _, h2⟩
      · exact hyn e
      · tauto
    · intro h1
      rcases this.1 (Or.inr h1) with e | ⟨_, _, h2⟩
      · exact hyn e
      · tauto
  · intro y hy n
    rw [show s.named n = _ from hnm2 n]
    split
    · intro e; cases e; exact hnm hy
    · exact c.margUnnamed y hy n
  · intro y hy
    have hyn := hnotnew y hy
    by_cases e : y = old
    · subst e
      rw [if_pos rfl]
      refine ⟨?_, ?_, ?_, hinit'⟩
      · show (if new = new then r.name y else r.name new) = _; simp
      · show upd (upd r.toValue y none) new (r.toValue y) new = _; simp [upd]
      · show upd (upd r.transform y none) new (r.transform y) new = _; simp [upd]
    · rw [if_neg e]
      refine ⟨?_, ?_, ?_, hinit y e hyn⟩
      · show (if y = new then r.name old else r.name y) = _; simp [hyn]
      · show upd (upd r.toValue old none) new (r.toValue old) y = _; simp [upd, hyn, e]
      · show upd (upd r.transform old none) new (r.transform old) y = _; simp [upd, hyn, e]
  · intro n
    rw [show s.named n = _ from hnm2 n]
    split
    · next e => rw [e, hold]; rfl
    · rfl
  · intro q hq
    show (if q = new then r.name old else r.name q) = _
    simp [hq]
  · intro n q hq
    rw [show s.named n = _ from hnm2 n] at hq
    split at hq
    · cases hq; exact Or.inl rfl
    · exact Or.inr hq

theorem Spec.StandsFor.refl (r : Reg T I) : StandsFor r r :=
  ⟨id, by simp, by simp, fun _ _ => ⟨rfl, rfl, rfl, rfl⟩, rfl, rfl, fun _ => rfl⟩

theorem Spec.StandsFor.trans {r s t : Reg T I} (h : StandsFor r s) (g : StandsFor s t) : StandsFor r t := by
  obtain ⟨σ, h1, h2, h3, h4, h5, h6⟩ := h
  obtain ⟨τ, g1, g2, g3, g4, g5, g6⟩ := g
  refine ⟨τ ∘ σ, by rw [g1, h1, List.map_map], by rw [g2, h2, List.map_map], ?_, g4.trans h4, g5.trans h5,
    fun n => (g6 n).trans (h6 n)⟩
  intro x hx
  have hs : σ x ∈ s.free ∨ σ x ∈ s.observed := by
    rw [h1, h2]
    rcases hx with hx | hx
    · exact Or.inl (List.mem_map_of_mem hx)
    · exact Or.inr (List.mem_map_of_mem hx)
  obtain ⟨a1, a2, a3, a4⟩ := h3 x hx
  obtain ⟨b1, b2, b3, b4⟩ := g3 (σ x) hs
  exact ⟨b1.trans a1, b2.trans a2, b3.trans a3, b4.trans a4⟩

theorem rename_consistent {r : Reg T I} (c : Consistent r) {x : ℕ} (hn : New r x) (n : String) :
    Consistent { r with name := fun q => if q = x then n else r.name q } := by
  obtain ⟨hf, ho, hm, hnn⟩ := hn
  refine ⟨c.nodup, c.value, c.back, c.transform, c.initial, ?_, ?_, c.marg, c.margNodup, c.margUnnamed⟩
  · intro y hy
    have : y ≠ x := by
      rintro rfl
      tauto
    simp only [if_neg this]
    exact c.byName y hy
  · intro m y hy
    have : y ≠ x := by
      rintro rfl
      exact hnn m hy
    simp only [if_neg this]
    exact c.names m y hy

/-- Lines 185-193 for one pair whose old variable is not marginalised. -/
theorem replaceOne_spec {r : Reg T I} (c : Consistent r) {old new : ℕ} (hm : old ∉ r.marg) (hn : New r new) :
    ∃ s, replaceOne r old new = .ok s ∧ Consistent s ∧ s.marg = r.marg ∧
      s.free = r.free.map (fun y => if y = old then new else y) ∧
      s.observed = r.observed.map (fun y => if y = old then new else y) ∧
      (∀ x, x ∈ r.free ∨ x ∈ r.observed → Same r s x (if x = old then new else x)) ∧ s.dims = r.dims ∧ s.mdims = r.mdims ∧
      (∀ n, (s.named n).isSome = (r.named n).isSome) ∧ (∀ q, q ≠ new → s.name q = r.name q) ∧
      (∀ n q, s.named n = some q → q = new ∨ r.named n = some q) := by
  have c1 := rename_consistent c hn (r.name old)
  have hnotnew : ∀ y, y ∈ r.free ∨ y ∈ r.observed → y ≠ new := by
    rintro y h rfl
    have := hn.1
    have := hn.2.1
    tauto
  unfold replaceOne
  simp only [if_neg hm]
  by_cases hb : old ∈ r.basic
  · have hb' := (mem_basic r old).1 hb
    obtain ⟨s, h1, h2, h3, h4, h5, h6, h7, h8, h9, h10, h11⟩ := transfer_spec c1 (old := old) (new := new) hb' hn
    rw [if_pos (by simpa [Reg.basic] using hb)]
    refine ⟨s, h1, h2, h3, h4, h5, ?_, h7, h8, h9, ?_, h11⟩
    · intro x hx
      obtain ⟨a1, a2, a3, a4⟩ := h6 x hx
      refine ⟨?_, a2, a3, a4⟩
      rw [a1]
      simp [hnotnew x hx]
    · intro q hq
      rw [h10 q hq]
      simp [hq]
  · rw [if_neg (by simpa [Reg.basic] using hb)]
    rw [mem_basic, not_or] at hb
    refine ⟨_, rfl, c1, rfl, (map_same hb.1).symm, (map_same hb.2).symm, ?_, rfl, rfl, fun _ => rfl, ?_, fun n q h => Or.inr h⟩
    · intro x hx
      have : x ≠ old := by rintro rfl; tauto
      rw [if_neg this]
      exact ⟨by simp [hnotnew x hx], rfl, rfl, rfl⟩
    · intro q hq; simp [hq]

theorem newOf_of_notMem {ps : List (ℕ × ℕ)} {y : ℕ} (h : y ∉ ps.map Prod.fst) : newOf ps y = y := by
  unfold newOf
  have : ps.find? (fun p => p.1 == y) = none := by
    rw [List.find?_eq_none]
    intro p hp e
    exact h (by rw [← (beq_iff_eq.1 e)]; exact List.mem_map_of_mem hp)
  rw [this]

theorem newOf_cons (p : ℕ × ℕ) (ps : List (ℕ × ℕ)) (y : ℕ) :
    newOf (p :: ps) y = if y = p.1 then p.2 else newOf ps y := by
  unfold newOf
  rw [List.find?_cons]
  by_cases e : y = p.1
  · subst e; simp
  · have : (p.1 == y) = false := by simpa using fun h => e h.symm
    simp [this, e]

/-- Lines 185-193 for all pairs. -/
theorem replaceAll_spec (ps : List (ℕ × ℕ)) : ∀ {r : Reg T I}, Consistent r → (∀ p ∈ ps, New r p.2) →
    (ps.map Prod.snd).Nodup → (∀ p ∈ ps, p.1 ∉ r.marg) → (∀ p ∈ ps, ∀ q ∈ ps, p.1 ≠ q.2) →
    ∃ s, replaceAll ps r = .ok s ∧ Consistent s ∧ s.marg = r.marg ∧
      s.free = r.free.map (newOf ps) ∧ s.observed = r.observed.map (newOf ps) ∧
      (∀ x, x ∈ r.free ∨ x ∈ r.observed → Same r s x (newOf ps x)) ∧ s.dims = r.dims ∧ s.mdims = r.mdims ∧
      (∀ n, (s.named n).isSome = (r.named n).isSome) := by
  induction ps with
  | nil =>
    intro r c _ _ _ _
    have : newOf [] = id := rfl
    exact ⟨r, rfl, c, rfl, by simp [this], by simp [this], fun _ _ => ⟨rfl, rfl, rfl, rfl⟩, rfl, rfl, fun _ => rfl⟩
  | cons p ps ih =>
    intro r c hn hnd hm hdj
    obtain ⟨s, h1, h2, h3, h4, h5, h6, h7, h8, h9, h10, h11⟩ :=
      replaceOne_spec c (hm p (by simp)) (hn p (by simp))
    rw [List.map_cons, List.nodup_cons] at hnd
    have hn' : ∀ q ∈ ps, New s q.2 := by
      intro q hq
      obtain ⟨a1, a2, a3, a4⟩ := hn q (by simp [hq])
      have hne : q.2 ≠ p.2 := fun e => hnd.1 (e ▸ List.mem_map_of_mem hq)
      refine ⟨?_, ?_, by rw [h3]; exact a3, ?_⟩
      · rw [h4, List.mem_map]
        rintro ⟨y, hy, e⟩
        split at e
        · exact hne e.symm
        · exact a1 (e ▸ hy)
      · rw [h5, List.mem_map]
        rintro ⟨y, hy, e⟩
        split at e
        · exact hne e.symm
        · exact a2 (e ▸ hy)
      · intro n h
        rcases h11 n _ h with e | e
        · exact hne e
        · exact a4 n e
    obtain ⟨t, g1, g2, g3, g4, g5, g6, g7, g8, g9⟩ := ih h2 hn' hnd.2
      (fun q hq => by rw [h3]; exact hm q (by simp [hq])) (fun a ha b hb => hdj a (by simp [ha]) b (by simp [hb]))
    have hσ : ∀ y, newOf ps (if y = p.1 then p.2 else y) = newOf (p :: ps) y := by
      intro y
      rw [newOf_cons]
      split
      · refine newOf_of_notMem ?_
        intro h
        obtain ⟨q, hq, e⟩ := List.mem_map.1 h
        exact hdj q (by simp [hq]) p (by simp) e
      · rfl
    refine ⟨t, by simp only [replaceAll, h1, g1], g2, g3.trans h3, ?_, ?_, ?_, g7.trans h7, g8.trans h8,
      fun n => (g9 n).trans (h9 n)⟩
    · rw [g4, h4, List.map_map]
      exact List.map_congr_left fun y _ => hσ y
    · rw [g5, h5, List.map_map]
      exact List.map_congr_left fun y _ => hσ y
    · intro x hx
      have hs : (if x = p.1 then p.2 else x) ∈ s.free ∨ (if x = p.1 then p.2 else x) ∈ s.observed := by
        rw [h4, h5]
        rcases hx with hx | hx
        · exact Or.inl (List.mem_map_of_mem (f := fun y => if y = p.1 then p.2 else y) hx)
        · exact Or.inr (List.mem_map_of_mem (f := fun y => if y = p.1 then p.2 else y) hx)
      obtain ⟨a1, a2, a3, a4⟩ := h6 x hx
      obtain ⟨b1, b2, b3, b4⟩ := g6 _ hs
      rw [hσ x] at b1 b2 b3 b4
      exact ⟨b1.trans a1, b2.trans a2, b3.trans a3, b4.trans a4⟩

/-! ### The marginalised graph -/

theorem erase_consistent {r : Reg T I} (c : Consistent r) (x : ℕ) : Consistent { r with marg := r.marg.erase x } :=
  ⟨c.nodup, c.value, c.back, c.transform, c.initial, c.byName, c.names,
    fun y hy => c.marg y (List.mem_of_mem_erase hy), c.margNodup.erase x,
    fun y hy => c.margUnnamed y (List.mem_of_mem_erase hy)⟩

/-- **C205.** One step of the marginalisation (variable `x` first in the order, the others left come before it
topologically): it can only fail where the new variables are constructed; otherwise the variables named in the construction,
and no others, are replaced by their new versions, which take over their names, positions, value variables, transforms and
initial values. -/
theorem C205_step {rank : ℕ → ℕ} {build : Reg T I → ℕ → Except Err (List (ℕ × ℕ))} (hb : BuildOk rank build)
    {r : Reg T I} (c : Consistent r) {x : ℕ} (hx : x ∈ r.marg) (hr : ∀ y ∈ r.marg, rank y ≤ rank x)
    {pairs : List (ℕ × ℕ)} (h : build r x = .ok pairs) :
    ∃ s, marginalizeGraph build [x] r = .ok s ∧ Consistent s ∧ s.marg = r.marg.erase x ∧
      s.free = r.free.map (newOf pairs) ∧ s.observed = r.observed.map (newOf pairs) ∧
      (∀ y, y ∈ r.free ∨ y ∈ r.observed → Same r s y (newOf pairs y)) ∧ s.dims = r.dims ∧ s.mdims = r.mdims ∧
      (∀ n, (s.named n).isSome = (r.named n).isSome) := by
  obtain ⟨h1, h2, h3⟩ := hb r x pairs h
  have hm : ∀ p ∈ pairs, p.1 ∉ r.marg.erase x := by
    intro p hp hmem
    rcases (h3 p hp).2.2 with e | e
    · rw [e] at hmem
      exact ((c.margNodup.mem_erase_iff).1 hmem).1 rfl
    · have := hr p.1 (List.mem_of_mem_erase hmem)
      omega
  have hdj : ∀ p ∈ pairs, ∀ q ∈ pairs, p.1 ≠ q.2 := by
    intro p hp q hq e
    obtain ⟨⟨a1, a2, a3, _⟩, _⟩ := h3 q hq
    rcases (h3 p hp).2.1 with k | k
    · rw [mem_basic, e] at k; tauto
    · rw [e] at k; exact a3 k
  obtain ⟨s, g1, g2, g3, g4, g5, g6, g7, g8, g9⟩ := replaceAll_spec pairs (erase_consistent c x)
    (fun p hp => by
      obtain ⟨⟨a1, a2, a3, a4⟩, _⟩ := h3 p hp
      exact ⟨a1, a2, fun hm => a3 (List.mem_of_mem_erase hm), a4⟩) h2 hm hdj
  refine ⟨s, ?_, g2, g3, g4, g5, g6, g7, g8, g9⟩
  simp only [marginalizeGraph, h]
  rw [if_neg (by simpa using hx)]
  simp only [g1]

theorem graph_cons {build : Reg T I → ℕ → Except Err (List (ℕ × ℕ))} {x : ℕ} {xs : List ℕ} {r s : Reg T I}
    (h : marginalizeGraph build [x] r = .ok s) : marginalizeGraph build (x :: xs) r = marginalizeGraph build xs s := by
  simp only [marginalizeGraph] at h ⊢
  cases hb : build r x with
  | error e => simp [hb] at h
  | ok pairs =>
    simp only [hb] at h ⊢
    by_cases hx : x ∈ r.marg
    · rw [if_neg (by simpa using hx)] at h ⊢
      cases hr : replaceAll pairs { r with marg := r.marg.erase x } with
      | error e => simp [hr] at h
      | ok t => simp only [hr] at h ⊢; cases h; rfl
    · rw [if_pos (by simpa using hx)] at h; cases h

/-- **C205.** Marginalising all marginalised variables, the last in topological order first, can only fail where new
variables are constructed. Otherwise no marginalised variable is left, the mappings are consistent, and every variable of the
model has a stand-in at its position with its name, value variable, transform and initial value; dimension names and the names
in use do not change. -/
theorem C205_marginalized_graph {rank : ℕ → ℕ} {build : Reg T I → ℕ → Except Err (List (ℕ × ℕ))}
    (hb : BuildOk rank build) (order : List ℕ) : ∀ {r : Reg T I}, Consistent r → order.Perm r.marg →
    order.Pairwise (fun a b => rank b ≤ rank a) →
    (∃ s, marginalizeGraph build order r = .ok s ∧ s.marg = [] ∧ Consistent s ∧ StandsFor r s) ∨
    (∃ e r' x, marginalizeGraph build order r = .error e ∧ x ∈ order ∧ build r' x = .error e) := by
  induction order with
  | nil =>
    intro r c hp _
    exact Or.inl ⟨r, rfl, hp.symm.eq_nil, c, .refl r⟩
  | cons x xs ih =>
    intro r c hp hs
    rw [List.pairwise_cons] at hs
    cases h : build r x with
    | error e => exact Or.inr ⟨e, r, x, by simp only [marginalizeGraph, h], by simp, h⟩
    | ok pairs =>
      have hx : x ∈ r.marg := hp.subset (by simp)
      have hr : ∀ y ∈ r.marg, rank y ≤ rank x := by
        intro y hy
        rcases List.mem_cons.1 (hp.symm.subset hy) with e | hy
        · rw [e]
        · exact hs.1 y hy
      obtain ⟨s, g1, g2, g3, g4, g5, g6, g7, g8, g9⟩ := C205_step hb c hx hr h
      have hst : StandsFor r s := ⟨_, g4, g5, g6, g7, g8, g9⟩
      have hp' : xs.Perm s.marg := by
        rw [g3]
        have := hp.erase x
        rwa [List.erase_cons_head] at this
      rw [graph_cons g1]
      rcases ih g2 hp' hs.2 with ⟨t, k1, k2, k3, k4⟩ | ⟨e, r', y, k1, k2, k3⟩
      · exact Or.inl ⟨t, k1, k2, k3, hst.trans k4⟩
      · exact Or.inr ⟨e, r', y, k1, by simp [k2], k3⟩

/-! ### Clones -/

/-- Every variable has its own clone, and `ψ` finds the original. -/
def Spec.Clones (φ : ℕ → ℕ) (ψ : ℕ → Option ℕ) : Prop := ∀ x q, ψ q = some x ↔ q = φ x

theorem clone_consistent {φ : ℕ → ℕ} {ψ : ℕ → Option ℕ} (hφ : Clones φ ψ) {r : Reg T I} (c : Consistent r) :
    Consistent (clone φ ψ r) := by
  have inj : Function.Injective φ := by
    intro a b e
    have h1 := (hφ a (φ a)).2 rfl
    have h2 := (hφ b (φ a)).2 e
    rw [h1] at h2
    exact Option.some.inj h2
  have hψ : ∀ x, ψ (φ x) = some x := fun x => (hφ x (φ x)).2 rfl
  have memmap : ∀ (l : List ℕ) (q : ℕ), q ∈ l.map φ ↔ ∃ x ∈ l, ψ q = some x := by
    intro l q
    rw [List.mem_map]
    constructor
    · rintro ⟨x, hx, rfl⟩; exact ⟨x, hx, hψ x⟩
    · rintro ⟨x, hx, h⟩; exact ⟨x, hx, ((hφ x q).1 h).symm⟩
  have nameφ : ∀ x, (clone φ ψ r).name (φ x) = r.name x := by intro x; simp [clone, hψ]
  refine ⟨?_, ?_, ?_, ?_, ?_, ?_, ?_, ?_, ?_, ?_⟩
  · show (r.free.map φ ++ r.observed.map φ).Nodup
    rw [← List.map_append]
    exact c.nodup.map inj
  · intro q
    show (∃ v, (ψ q).bind r.toValue = some v) ↔ (q ∈ r.free.map φ ∨ q ∈ r.observed.map φ)
    rw [memmap, memmap]
    cases hq : ψ q with
    | none => simp
    | some x => simp only [Option.bind_some, Option.some.injEq, exists_eq_right']; exact c.value x
  · intro q v
    show (ψ q).bind r.toValue = some v ↔ (r.toRv v).map φ = some q
    constructor
    · intro h
      obtain ⟨x, h1, h2⟩ := Option.bind_eq_some_iff.1 h
      rw [(c.back x v).1 h2, (hφ x q).1 h1]
      rfl
    · intro h
      obtain ⟨x, h1, h2⟩ := Option.map_eq_some_iff.1 h
      rw [← h2, hψ]
      exact (c.back x v).2 h1
  · intro q
    show ((ψ q).bind r.transform).isSome ↔ (q ∈ r.free.map φ ∨ q ∈ r.observed.map φ)
    rw [memmap, memmap]
    cases hq : ψ q with
    | none => simp
    | some x => simp only [Option.bind_some, Option.some.injEq, exists_eq_right']; exact c.transform x
  · intro q
    show ((ψ q).bind r.initial).isSome ↔ q ∈ r.free.map φ
    rw [memmap]
    cases hq : ψ q with
    | none => simp
    | some x => simp only [Option.bind_some, Option.some.injEq, exists_eq_right']; exact c.initial x
  · intro q hq
    have hq : q ∈ r.free.map φ ∨ q ∈ r.observed.map φ := hq
    have : ∃ x, (x ∈ r.free ∨ x ∈ r.observed) ∧ q = φ x := by
      rcases hq with h | h <;> obtain ⟨x, hx, e⟩ := List.mem_map.1 h
      · exact ⟨x, Or.inl hx, e.symm⟩
      · exact ⟨x, Or.inr hx, e.symm⟩
    obtain ⟨x, hx, rfl⟩ := this
    rw [nameφ]
    show (r.named (r.name x)).map φ = _
    rw [c.byName x hx]
    rfl
  · intro n q hq
    obtain ⟨x, h1, rfl⟩ := Option.map_eq_some_iff.1 hq
    rw [nameφ]
    exact c.names n x h1
  · intro q hq
    obtain ⟨x, hx, rfl⟩ := List.mem_map.1 hq
    have := c.marg x hx
    constructor
    · intro h
      obtain ⟨y, hy, e⟩ := List.mem_map.1 h
      exact this.1 (inj e ▸ hy)
    · intro h
      obtain ⟨y, hy, e⟩ := List.mem_map.1 h
      exact this.2 (inj e ▸ hy)
  · exact c.margNodup.map inj
  · intro q hq n h
    obtain ⟨x, hx, rfl⟩ := List.mem_map.1 hq
    obtain ⟨y, h1, e⟩ := Option.map_eq_some_iff.1 h
    exact c.margUnnamed x hx n (inj e ▸ h1)

theorem clone_standsFor {φ : ℕ → ℕ} {ψ : ℕ → Option ℕ} (hφ : Clones φ ψ) (r : Reg T I) : StandsFor r (clone φ ψ r) := by
  have hψ : ∀ x, ψ (φ x) = some x := fun x => (hφ x (φ x)).2 rfl
  refine ⟨φ, rfl, rfl, ?_, rfl, rfl, ?_⟩
  · intro x _
    exact ⟨by simp [clone, hψ], by simp [clone, hψ], by simp [clone, hψ], by simp [clone, hψ]⟩
  · intro n; simp [clone]

/-- **C205.** The marginalised clone that `logp` works with has the value variables of the model itself, in the same order:
marginalising does not change the inputs of the log-probability of the other variables. -/
theorem C205_logp_inputs {rank : ℕ → ℕ} {build : Reg T I → ℕ → Except Err (List (ℕ × ℕ))} (hb : BuildOk rank build)
    {φ : ℕ → ℕ} {ψ : ℕ → Option ℕ} (hφ : Clones φ ψ) {r s : Reg T I} (c : Consistent r) {order : List ℕ}
    (hp : order.Perm (r.marg.map φ)) (hs : order.Pairwise (fun a b => rank b ≤ rank a))
    (h : marginalizeGraph build order (clone φ ψ r) = .ok s) :
    s.marg = [] ∧ Consistent s ∧ StandsFor r s ∧ s.valueVars = r.valueVars := by
  rcases C205_marginalized_graph hb order (clone_consistent hφ c) hp hs with ⟨t, k1, k2, k3, k4⟩ | ⟨e, r', y, k1, _⟩
  · rw [h] at k1
    cases k1
    have hst := (clone_standsFor hφ r).trans k4
    refine ⟨k2, k3, hst, ?_⟩
    obtain ⟨σ, a1, _, a3, _⟩ := hst
    unfold Reg.valueVars
    rw [a1, List.map_map]
    exact List.map_congr_left fun x hx => (a3 x (Or.inl hx)).2.1
  · rw [h] at k1; cases k1

/-- **C205.** `logp(vars=...)` for variables of the model returns the terms of their stand-ins in the order asked for. -/
theorem C205_logp_vars {rank : ℕ → ℕ} {build : Reg T I → ℕ → Except Err (List (ℕ × ℕ))} (hb : BuildOk rank build)
    {φ : ℕ → ℕ} {ψ : ℕ → Option ℕ} (hφ : Clones φ ψ) {r s : Reg T I} (c : Consistent r) {order : List ℕ}
    (hp : order.Perm (r.marg.map φ)) (hs : order.Pairwise (fun a b => rank b ≤ rank a))
    (h : marginalizeGraph build order (clone φ ψ r) = .ok s) {vars : List ℕ}
    (hv : ∀ x ∈ vars, x ∈ r.free ∨ x ∈ r.observed) :
    ∃ σ : ℕ → ℕ, logpVars build order φ ψ r vars = .ok (vars.map σ) ∧
      ∀ x, x ∈ r.free ∨ x ∈ r.observed → (σ x ∈ s.free ∨ σ x ∈ s.observed) ∧ Same r s x (σ x) := by
  obtain ⟨_, cs, ⟨σ, a1, a2, a3, _⟩, _⟩ := C205_logp_inputs hb hφ c hp hs h
  have hmem : ∀ x, x ∈ r.free ∨ x ∈ r.observed → (σ x ∈ s.free ∨ σ x ∈ s.observed) := by
    intro x hx
    rw [a1, a2]
    rcases hx with hx | hx
    · exact Or.inl (List.mem_map_of_mem hx)
    · exact Or.inr (List.mem_map_of_mem hx)
  refine ⟨σ, ?_, fun x hx => ⟨hmem x hx, a3 x hx⟩⟩
  simp only [logpVars, h]
  clear h hp hs
  induction vars with
  | nil => rfl
  | cons x xs ih =>
    have hx := hv x (by simp)
    have : s.get (r.name x) = .ok (σ x) := by
      unfold Reg.get
      rw [← (a3 x hx).1, cs.byName _ (hmem x hx)]
    rw [List.mapM_cons, this, ih fun y hy => hv y (by simp [hy])]
    rfl

/-- **C205.** Asking for the term of a marginalised variable raises KeyError, as long as no other variable has taken its
name. -/
theorem C205_logp_marginalized {rank : ℕ → ℕ} {build : Reg T I → ℕ → Except Err (List (ℕ × ℕ))} (hb : BuildOk rank build)
    {φ : ℕ → ℕ} {ψ : ℕ → Option ℕ} (hφ : Clones φ ψ) {r s : Reg T I} (c : Consistent r) {order : List ℕ}
    (hp : order.Perm (r.marg.map φ)) (hs : order.Pairwise (fun a b => rank b ≤ rank a))
    (h : marginalizeGraph build order (clone φ ψ r) = .ok s) {x : ℕ} (hx : x ∈ r.marg) (k : NamesKept r) :
    logpVars build order φ ψ r [x] = .error .keyError := by
  obtain ⟨_, cs, ⟨σ, a1, a2, a3, _, _, a6⟩, _⟩ := C205_logp_inputs hb hφ c hp hs h
  have h1 := k.1 x hx
  have h2 : s.named (r.name x) = none := by
    have := a6 (r.name x)
    rw [h1] at this
    simpa using this
  simp only [logpVars, h, List.mapM_cons, Reg.get, h2]
  rfl

/-! ### Histories -/

/-- What a user does with the model. -/
inductive Call (T I : Type)
  | free (x v : ℕ) (n : String) (t : Option T) (i : Option I) (d : Option (List String))
  | observed (x v : ℕ) (n : String) (t : Option T) (d : Option (List String))
  | marginalize (ok : ℕ → Bool) (xs : List ℕ)
  | unmarginalize (defaultTransform : ℕ → Option T) (ps : List (ℕ × ℕ))

/-- The model after a call, whether or not the call raised an exception. -/
def Call.run (r : Reg T I) : Call T I → Reg T I
  | .free x v n t i d => (register { r with name := fun q => if q = x then n else r.name q } x v t i d).1
  | .observed x v n t d => (registerObserved { r with name := fun q => if q = x then n else r.name q } x v t d).1
  | .marginalize ok xs => (MargReg.marginalize ok xs r).1
  | .unmarginalize dt ps => (MargReg.unmarginalize dt ps r).1

/-- New variables are new objects with unused names, which are not the names of marginalised variables either; new value
variables are new. -/
def Spec.Legal (r : Reg T I) : Call T I → Prop
  | .free x v n _ _ _ => New r x ∧ r.toRv v = none ∧ r.named n = none ∧ ∀ y ∈ r.marg, r.name y ≠ n
  | .observed x v n _ _ => New r x ∧ r.toRv v = none ∧ r.named n = none ∧ ∀ y ∈ r.marg, r.name y ≠ n
  | .marginalize _ _ => True
  | .unmarginalize _ ps => (∀ p ∈ ps, r.toRv p.2 = none) ∧ (ps.map Prod.snd).Nodup

/-- The models reachable from `r`. -/
inductive Spec.Reachable (r : Reg T I) : Reg T I → Prop
  | refl : Reachable r r
  | step {s : Reg T I} {c : Call T I} : Reachable r s → Legal s c → Reachable r (c.run s)

theorem marginalizeOne_consistent {ok : ℕ → Bool} {r : Reg T I} (c : Consistent r) (k : NamesKept r) (x : ℕ) :
    Consistent (marginalizeOne ok r x).1 ∧ NamesKept (marginalizeOne ok r x).1 := by
  unfold marginalizeOne
  by_cases hx : x ∉ r.free
  · rw [if_pos hx]; exact ⟨c, k⟩
  · rw [if_neg hx]
    have hx : x ∈ r.free := by simpa using hx
    by_cases ho : ok x = false
    · rw [if_pos ho]; exact ⟨c, k⟩
    · rw [if_neg ho]
      have c1 : Consistent (keepDims r x) :=
        ⟨c.nodup, c.value, c.back, c.transform, c.initial, c.byName, c.names, c.marg, c.margNodup, c.margUnnamed⟩
      cases hd : delete (keepDims r x) x with
      | error e => exact ⟨c1, k⟩
      | ok s =>
        obtain ⟨cs, h1, h2, h3, h4, h5, h6⟩ := delete_consistent c1 hd
        have h1 : s.marg = r.marg := h1
        have h3 : s.name = r.name := h3
        have hxm : x ∉ s.marg := h2.2.2.1
        refine ⟨⟨cs.nodup, cs.value, cs.back, cs.transform, cs.initial, cs.byName, cs.names, ?_, ?_, ?_⟩, ?_, ?_⟩
        · intro y hy
          rcases List.mem_append.1 hy with hy | hy
          · exact cs.marg y hy
          · rw [List.mem_singleton.1 hy]; exact ⟨h2.1, h2.2.1⟩
        · exact List.nodup_append.2 ⟨cs.margNodup, by simp, fun a ha b hb e => by
            rw [List.mem_singleton.1 hb] at e; exact hxm (e ▸ ha)⟩
        · intro y hy
          rcases List.mem_append.1 hy with hy | hy
          · exact cs.margUnnamed y hy
          · rw [List.mem_singleton.1 hy]; exact h2.2.2.2
        · intro y hy
          show s.named (s.name y) = none
          rw [h3]
          rcases List.mem_append.1 hy with hy | hy
          · rw [h1] at hy
            by_cases e : r.name y = r.name x
            · rw [e]; exact h6
            · rw [h5 _ e]; exact k.1 y hy
          · rw [List.mem_singleton.1 hy]; exact h6
        · show ((s.marg ++ [x]).map s.name).Nodup
          rw [h3, h1, List.map_append, List.nodup_append]
          refine ⟨k.2, by simp, ?_⟩
          intro a ha b hb e
          simp only [List.map_cons, List.map_nil, List.mem_singleton] at hb
          obtain ⟨y, hy, rfl⟩ := List.mem_map.1 ha
          have := k.1 y hy
          rw [e, hb, c.byName x (Or.inl hx)] at this
          cases this

theorem marginalize_consistent {ok : ℕ → Bool} (xs : List ℕ) : ∀ {r : Reg T I}, Consistent r → NamesKept r →
    Consistent (marginalize ok xs r).1 ∧ NamesKept (marginalize ok xs r).1 := by
  induction xs with
  | nil => intro r c k; exact ⟨c, k⟩
  | cons x xs ih =>
    intro r c k
    have := marginalizeOne_consistent (ok := ok) c k x
    unfold marginalize
    cases h : marginalizeOne ok r x with
    | mk r' e =>
      rw [h] at this
      cases e with
      | some e => exact this
      | none => exact ih this.1 this.2

theorem unmarginalizeOne_consistent {dt : ℕ → Option T} {r : Reg T I} (c : Consistent r) (k : NamesKept r) (x v : ℕ)
    (hv : r.toRv v = none) :
    Consistent (unmarginalizeOne dt r x v).1 ∧ NamesKept (unmarginalizeOne dt r x v).1 ∧
      ∀ w, w ≠ v → r.toRv w = none → (unmarginalizeOne dt r x v).1.toRv w = none := by
  unfold unmarginalizeOne
  by_cases hx : x ∉ r.marg
  · rw [if_pos hx]; exact ⟨c, k, fun w _ h => h⟩
  · rw [if_neg hx]
    have hx : x ∈ r.marg := by simpa using hx
    have ce := erase_consistent c x
    have c1 : Consistent { r with marg := r.marg.erase x, mdims := upd r.mdims (r.name x) none } :=
      ⟨ce.nodup, ce.value, ce.back, ce.transform, ce.initial, ce.byName, ce.names, ce.marg, ce.margNodup, ce.margUnnamed⟩
    have hn : New { r with marg := r.marg.erase x, mdims := upd r.mdims (r.name x) none } x :=
      ⟨(c.marg x hx).1, (c.marg x hx).2, fun h => ((c.margNodup.mem_erase_iff).1 h).1 rfl, c.margUnnamed x hx⟩
    have hname := k.1 x hx
    refine ⟨(register_consistent c1 hn hv hname).2, ?_, ?_⟩
    · unfold register
      simp only [hname, Option.isSome_none, Bool.false_eq_true, if_false]
      refine ⟨?_, ?_⟩
      · intro y hy
        have hy := (c.margNodup.mem_erase_iff).1 hy
        show upd r.named (r.name x) (some x) (r.name y) = none
        have : r.name y ≠ r.name x := fun e => hy.1 (List.inj_on_of_nodup_map k.2 hy.2 hx e)
        simp only [upd, if_neg this]
        exact k.1 y hy.2
      · exact k.2.sublist (List.erase_sublist.map _)
    · intro w hw h
      unfold register
      simp only [hname, Option.isSome_none, Bool.false_eq_true, if_false]
      simp [upd, hw, h]

theorem unmarginalize_consistent {dt : ℕ → Option T} (ps : List (ℕ × ℕ)) : ∀ {r : Reg T I}, Consistent r → NamesKept r →
    (∀ p ∈ ps, r.toRv p.2 = none) → (ps.map Prod.snd).Nodup →
    Consistent (unmarginalize dt ps r).1 ∧ NamesKept (unmarginalize dt ps r).1 := by
  induction ps with
  | nil => intro r c k _ _; exact ⟨c, k⟩
  | cons p ps ih =>
    intro r c k hv hn
    rw [List.map_cons, List.nodup_cons] at hn
    have := unmarginalizeOne_consistent (dt := dt) c k p.1 p.2 (hv p (by simp))
    unfold unmarginalize
    cases h : unmarginalizeOne dt r p.1 p.2 with
    | mk r' e =>
      rw [h] at this
      cases e with
      | some e => exact ⟨this.1, this.2.1⟩
      | none =>
        refine ih this.1 this.2.1 ?_ hn.2
        intro q hq
        refine this.2.2 q.2 ?_ (hv q (by simp [hq]))
        intro e
        exact hn.1 (e ▸ List.mem_map_of_mem hq)

/-- **C205.** After any history of creating variables, `marginalize` and `unmarginalize` calls (successful or not), the
mappings are consistent and no name of a marginalised variable is in use. -/
theorem C205_histories {r s : Reg T I} (c : Consistent r) (k : NamesKept r) (h : Reachable r s) :
    Consistent s ∧ NamesKept s := by
  induction h with
  | refl => exact ⟨c, k⟩
  | @step s cl _ hl ih =>
    obtain ⟨cs, ks⟩ := ih
    cases cl with
    | marginalize ok xs => exact marginalize_consistent xs cs ks
    | unmarginalize dt ps => exact unmarginalize_consistent ps cs ks hl.1 hl.2
    | free x v n t i d =>
      obtain ⟨h1, h2, h3, h4⟩ := hl
      have c1 := rename_consistent cs h1 n
      have hname : (Reg.named { s with name := fun q => if q = x then n else s.name q })
          (Reg.name { s with name := fun q => if q = x then n else s.name q } x) = none := by simpa using h3
      have hk : ∀ y ∈ s.marg, (if y = x then n else s.name y) = s.name y := by
        intro y hy
        rw [if_neg]
        rintro rfl
        exact h1.2.2.1 hy
      refine ⟨(register_consistent c1 h1 h2 hname).2, ?_⟩
      simp only [Call.run, register, ↓reduceIte, h3, Option.isSome_none, Bool.false_eq_true]
      refine ⟨?_, ?_⟩
      · intro y hy
        have hy : y ∈ s.marg := hy
        simp only [hk y hy, upd, if_neg (h4 y hy)]
        exact ks.1 y hy
      · show (s.marg.map fun q => if q = x then n else s.name q).Nodup
        rw [List.map_congr_left hk]
        exact ks.2
    | observed x v n t d =>
      obtain ⟨h1, h2, h3, h4⟩ := hl
      have c1 := rename_consistent cs h1 n
      have hname : (Reg.named { s with name := fun q => if q = x then n else s.name q })
          (Reg.name { s with name := fun q => if q = x then n else s.name q } x) = none := by simpa using h3
      have hk : ∀ y ∈ s.marg, (if y = x then n else s.name y) = s.name y := by
        intro y hy
        rw [if_neg]
        rintro rfl
        exact h1.2.2.1 hy
      refine ⟨registerObserved_consistent c1 h1 h2, ?_⟩
      simp only [Call.run, registerObserved, ↓reduceIte, h3, Option.isSome_none, Bool.false_eq_true]
      refine ⟨?_, ?_⟩
      · intro y hy
        have hy : y ∈ s.marg := hy
        simp only [hk y hy, upd, if_neg (h4 y hy)]
        exact ks.1 y hy
      · show (s.marg.map fun q => if q = x then n else s.name q).Nodup
        rw [List.map_congr_left hk]
        exact ks.2

/-! ### A concrete model -/

/-- `p` (0), `x` (1, with initial value 5 and dimension "g") and `y` (2, observed). -/
def demo : Reg ℕ ℕ where
  name q := if q = 0 then "p" else if q = 1 then "x" else if q = 2 then "y" else ""
  named n := if n = "p" then some 0 else if n = "x" then some 1 else if n = "y" then some 2 else none
  dims n := if n = "x" then some ["g"] else none
  mdims _ := none
  toValue q := if q = 0 then some 10 else if q = 1 then some 11 else if q = 2 then some 12 else none
  toRv v := if v = 10 then some 0 else if v = 11 then some 1 else if v = 12 then some 2 else none
  transform q := if q = 0 then some (some 7) else if q = 1 then some none else if q = 2 then some none else none
  initial q := if q = 0 then some none else if q = 1 then some (some 5) else none
  free := [0, 1]
  observed := [2]
  marg := []

theorem demo_consistent : Consistent demo where
  nodup := by decide
  value := by
    intro x
    simp only [demo]
    by_cases h0 : x = 0
    · simp [h0]
    · by_cases h1 : x = 1
      · simp [h1]
      · by_cases h2 : x = 2 <;> simp [h0, h1, h2]
  back := by
    intro x v
    simp only [demo]
    constructor
    · intro h
      split at h
      · cases h; simp_all
      · split at h
        · cases h; simp_all
        · split at h
          · cases h; simp_all
          · cases h
    · intro h
      split at h
      · cases h; simp_all
      · split at h
        · cases h; simp_all
        · split at h
          · cases h; simp_all
          · cases h
  transform := by
    intro x
    simp only [demo]
    by_cases h0 : x = 0
    · simp [h0]
    · by_cases h1 : x = 1
      · simp [h1]
      · by_cases h2 : x = 2 <;> simp [h0, h1, h2]
  initial := by
    intro x
    simp only [demo]
    by_cases h0 : x = 0
    · simp [h0]
    · by_cases h1 : x = 1 <;> simp [h0, h1]
  byName := by
    intro x hx
    simp only [demo, List.mem_cons, List.not_mem_nil, or_false] at hx
    rcases hx with (rfl | rfl) | rfl <;> decide
  names := by
    intro n x h
    simp only [demo] at h
    split at h
    · next e => cases h; subst e; decide
    · split at h
      · next e => cases h; subst e; decide
      · split at h
        · next e => cases h; subst e; decide
        · cases h
  marg := by intro x hx; cases hx
  margNodup := by decide
  margUnnamed := by intro x hx; cases hx

theorem demo_namesKept : NamesKept demo := ⟨by intro x hx; simp [demo] at hx, by decide⟩

/-- Marginalising `x`: it leaves the free variables and its dimension names are kept aside. -/
example : (marginalize (fun _ => true) [1] demo).2 = none ∧ (marginalize (fun _ => true) [1] demo).1.free = [0] ∧
    (marginalize (fun _ => true) [1] demo).1.marg = [1] ∧ (marginalize (fun _ => true) [1] demo).1.mdims "x" = some ["g"] ∧
    (marginalize (fun _ => true) [1] demo).1.toRv 11 = none := by decide

/-- Marginalising `y`, which is observed, fails after `x` has been marginalised. -/
example : (marginalize (fun _ => true) [1, 2] demo).2 = some .valueError ∧
    (marginalize (fun _ => true) [1, 2] demo).1.marg = [1] := by decide

/-- The demo is reachable with `x` marginalised, unmarginalised again. -/
example : Reachable demo
    ((Call.unmarginalize (fun _ => none) [(1, 20)]).run ((Call.marginalize (fun _ => true) [1]).run demo)) :=
  .step (.step .refl trivial) ⟨by decide, by decide⟩

/-- Its initial value 5 is lost. -/
example : demo.initial 1 = some (some 5) ∧
    ((Call.unmarginalize (fun _ => none) [(1, 20)]).run ((Call.marginalize (fun _ => true) [1]).run demo)).initial 1 =
      some none ∧
    ((Call.unmarginalize (fun _ => none) [(1, 20)]).run ((Call.marginalize (fun _ => true) [1]).run demo)).dims "x" =
      some ["g"] := by decide

open Classical in
/-- A construction as in the code for `x` with dependent `y`: the clones 101 of `x` and 102 of `y` get new versions. -/
noncomputable def demoBuild (r : Reg ℕ ℕ) (x : ℕ) : Except Err (List (ℕ × ℕ)) :=
  if x = 101 ∧ 101 ∈ r.marg ∧ 102 ∈ r.basic ∧ New r 201 ∧ New r 202 then .ok [(101, 201), (102, 202)]
  else .error .notImplemented

theorem demoBuild_ok : BuildOk id demoBuild := by
  intro r x pairs h
  unfold demoBuild at h
  split at h
  · next hc =>
    obtain ⟨rfl, h1, h2, h3, h4⟩ := hc
    cases h
    refine ⟨by decide, by decide, ?_⟩
    intro p hp
    simp only [List.mem_cons, List.not_mem_nil, or_false] at hp
    rcases hp with rfl | rfl
    · exact ⟨h3, Or.inr h1, Or.inl rfl⟩
    · exact ⟨h4, Or.inl h2, Or.inr (by decide)⟩
  · cases h

/-- The clone numbered 100 higher. -/
theorem demo_clones : Clones (fun x => x + 100) (fun q => if 100 ≤ q then some (q - 100) else none) := by
  intro x q
  show (if 100 ≤ q then some (q - 100) else none) = some x ↔ q = x + 100
  split
  · simp only [Option.some.injEq]; omega
  · simp only [reduceCtorEq, false_iff]; omega

/-- On the clone of the demo with `x` marginalised, the marginalisation succeeds and `y` is replaced. -/
example : ∃ s, marginalizeGraph demoBuild [101]
      (clone (fun x => x + 100) (fun q => if 100 ≤ q then some (q - 100) else none) (marginalize (fun _ => true) [1] demo).1) =
      .ok s ∧ s.free = [100] ∧ s.observed = [202] ∧ s.marg = [] := by
  have hc := (marginalize_consistent (ok := fun _ => true) [1] demo_consistent demo_namesKept).1
  have hnew : ∀ q, 103 < q → New (clone (fun x => x + 100) (fun q => if 100 ≤ q then some (q - 100) else none)
      (marginalize (fun _ => true) [1] demo).1) q := by
    intro q hq
    refine ⟨?_, ?_, ?_, ?_⟩
    · show q ∉ [100]; simp; omega
    · show q ∉ [102]; simp; omega
    · show q ∉ [101]; simp; omega
    · intro n h
      obtain ⟨y, h1, h2⟩ := Option.map_eq_some_iff.1 h
      have : y ≤ 2 := by
        have h1 : upd demo.named "x" none n = some y := h1
        simp only [upd, demo] at h1
        split at h1
        · cases h1
        · split at h1
          · cases h1; omega
          · split at h1
            · cases h1; omega
            · cases h1
      omega
  have hb : demoBuild (clone (fun x => x + 100) (fun q => if 100 ≤ q then some (q - 100) else none)
      (marginalize (fun _ => true) [1] demo).1) 101 = .ok [(101, 201), (102, 202)] := by
    unfold demoBuild
    rw [if_pos ⟨rfl, by decide, by decide, hnew 201 (by omega), hnew 202 (by omega)⟩]
  obtain ⟨s, h1, _, h3, h4, h5, _⟩ := C205_step demoBuild_ok (clone_consistent demo_clones hc) (x := 101) (by decide)
    (by intro y hy; have : y = 101 := by simpa using (show y ∈ [101] from hy)
        rw [this]) hb
  refine ⟨s, h1, ?_, ?_, ?_⟩
  · rw [h4]; decide
  · rw [h5]; decide
  · rw [h3]; decide

/-- **C205.** `unmarginalize` gives the variable a new value variable, the default transform and no initial value, whatever
it had when it was marginalised, and makes it the last free variable. -/
theorem C205_unmarginalize_resets {dt : ℕ → Option T} {r : Reg T I} (k : NamesKept r) {x : ℕ} (hx : x ∈ r.marg) (v : ℕ) :
    ∃ s, unmarginalizeOne dt r x v = (s, none) ∧ s.toValue x = some v ∧ s.transform x = some (dt x) ∧
      s.initial x = some none ∧ s.free = r.free ++ [x] ∧ s.marg = r.marg.erase x ∧
      ∀ y, y ≠ x → s.toValue y = r.toValue y ∧ s.transform y = r.transform y ∧ s.initial y = r.initial y := by
  have hname := k.1 x hx
  unfold unmarginalizeOne
  rw [if_neg (by simpa using hx)]
  unfold register
  simp only [hname, Option.isSome_none, Bool.false_eq_true, if_false]
  refine ⟨_, rfl, by simp [upd], by simp [upd], by simp [upd], rfl, rfl, fun y hy => ?_⟩
  simp [upd, hy]

/-- **C103 (dimension names).** Marginalising a free variable and unmarginalising it gives its name back the dimension names it had, and
leaves those of all other names alone. (`hm`: nothing was kept aside under this name before, or the variable has dimension names.) -/
theorem C103_dims_return {ok : ℕ → Bool} {dt : ℕ → Option T} {r : Reg T I} {x : ℕ} (hx : x ∈ r.free)
    (hok : ok x = true) (hm : r.mdims (r.name x) = none ∨ (r.dims (r.name x)).isSome) (v : ℕ) :
    ∃ r1 s, marginalizeOne ok r x = (r1, none) ∧ unmarginalizeOne dt r1 x v = (s, none) ∧ r1.dims (r.name x) = none ∧
      s.dims (r.name x) = r.dims (r.name x) ∧ ∀ m, m ≠ r.name x → s.dims m = r.dims m ∧ s.mdims m = r.mdims m := by
  obtain ⟨r1, h1, hn, hnm, hd, hmd, hin⟩ : ∃ r1, marginalizeOne ok r x = (r1, none) ∧ r1.name = r.name ∧
      r1.named (r.name x) = none ∧ r1.dims = upd r.dims (r.name x) none ∧
      r1.mdims = (keepDims r x).mdims ∧ x ∈ r1.marg := by
    cases hd : delete (keepDims r x) x with
    | error e =>
      exfalso
      unfold delete at hd
      simp only [keepDims, Reg.basic, List.mem_append, hx, true_or, not_true_eq_false, if_false, if_true] at hd
      cases hd
    | ok r2 =>
      refine ⟨{ r2 with marg := r2.marg ++ [x] }, ?_, ?_⟩
      · simp [marginalizeOne, hx, hok, hd]
      · unfold delete at hd
        simp only [keepDims, Reg.basic, List.mem_append, hx, true_or, not_true_eq_false, if_false, if_true] at hd
        cases hd
        exact ⟨rfl, by simp [upd], rfl, rfl, by simp⟩
  have h2 : unmarginalizeOne dt r1 x v = ((unmarginalizeOne dt r1 x v).1, none) := by
    simp [unmarginalizeOne, hin, register, hn, hnm]
  refine ⟨r1, _, h1, h2, by rw [hd]; simp [upd], ?_, fun m hm => ?_⟩
  · simp only [unmarginalizeOne, hin, not_true_eq_false, if_false, register, hn, hnm, Option.isSome_none, Bool.false_eq_true, hmd, keepDims, hd]
    cases hq : r.dims (r.name x) with
    | some d => simp [upd]
    | none =>
      have : r.mdims (r.name x) = none := by simpa [hq] using hm
      simp [upd, this]
  · simp only [unmarginalizeOne, hin, not_true_eq_false, if_false, register, hn, hnm, Option.isSome_none, Bool.false_eq_true, hmd, keepDims, hd]
    cases hq : r.dims (r.name x) with
    | some d => simp [upd, hm]
    | none => cases hq' : r.mdims (r.name x) <;> simp [upd, hm, hq']

/-- The demo's `x`, with dimension `g`, meets the hypotheses. -/
example : (1 : ℕ) ∈ demo.free ∧ (demo.dims (demo.name 1)).isSome := by decide

/-- **C205.** If another variable took the name of a marginalised variable, unmarginalising the latter raises ValueError and
loses it: it is no longer marginalised, nor is it found by name. -/
theorem C205_name_taken {dt : ℕ → Option T} {r : Reg T I} (c : Consistent r) {x y : ℕ} (hx : x ∈ r.marg)
    (hy : r.named (r.name x) = some y) (v : ℕ) :
    (unmarginalizeOne dt r x v).2 = some .valueError ∧ x ∉ (unmarginalizeOne dt r x v).1.marg ∧
      (unmarginalizeOne dt r x v).1.named (r.name x) = some y ∧ y ≠ x := by
  have hyx : y ≠ x := fun e => c.margUnnamed x hx _ (e ▸ hy)
  unfold unmarginalizeOne
  rw [if_neg (by simpa using hx)]
  unfold register
  simp only [hy, Option.isSome_some, if_true]
  exact ⟨trivial, fun h => ((c.margNodup.mem_erase_iff).1 h).1 rfl, trivial, hyx⟩

end MargReg
