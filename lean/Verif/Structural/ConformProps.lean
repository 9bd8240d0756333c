import Verif.Structural.Conform

/-!
C167: adding components whose matrices vary over time.
-/

set_option autoImplicit false

namespace Verif.Structural.Conform

open Verif.Representation (Arr isVector never initShapes)

variable {V : Type}

/-- Specification: a matrix as a component stores it: a time axis whose static length is `t` (one for a matrix that does
not vary) and run-time length `l`, then the core axes, all of known length. -/
def Spec.stored (name : Option String) (t : Option ℕ) (l : ℕ) (core : List ℕ) (f : List ℕ → V) : Var V :=
  ⟨name, t :: core.map some, ⟨l :: core, f⟩⟩

/-- Specification: the static length is truthful. -/
def Spec.Truthful (t : Option ℕ) (l : ℕ) : Prop := ∀ k, t = some k → k = l

/-- Specification: what a stored matrix is at date `s`: a matrix with a time axis of static length one is the same at every
date. -/
def Spec.at (X : Var V) (s : ℕ) (core : List ℕ) : V :=
  if X.static.head? = some (some 1) then X.val.data (0 :: core) else X.val.data (s :: core)

/-- Specification: the names a stored matrix can have. -/
def Spec.Named (name : String) (n : Option String) : Prop := n = none ∨ n = some name

theorem conform_eq {name : String} (hm : isMatrixName (some name) = true) (A B : Var V)
    (hA : Spec.Named name A.name) (hB : Spec.Named name B.name) :
    conform A B = conformNamed A.name A B ∨ conform A B = conformNamed (some name) A B := by
  unfold conform
  by_cases h : A.name = B.name
  · simp [h]
  · right
    rw [if_neg h]
    rcases hA with hA | hA <;> rcases hB with hB | hB
    · exact absurd (hA.trans hB.symm) h
    · rw [hA, hB, hm]; simp [isMatrixName]
    · rw [hA, hB, hm]; simp
    · exact absurd (hA.trans hB.symm) h

theorem conformNamed_design {nm : Option String} (h : Spec.Named "design" nm) (A B : Var V) :
    conformNamed nm A B = conformNamed none A B := by
  rcases h with h | h <;> subst h <;> rfl

theorem conform_design (A B : Var V) (hA : Spec.Named "design" A.name) (hB : Spec.Named "design" B.name) :
    conform A B = conformNamed none A B := by
  rcases conform_eq (by decide) A B hA hB with h | h
  · rw [h, conformNamed_design hA]
  · rw [h]; rfl

theorem design_both [Add V] (nmA nmB : Option String) (p n m : ℕ) (f g : List ℕ → V) :
    combineOne "design" [1, p, n + m] (Spec.stored nmA (some 1) 1 [p, n] f) (Spec.stored nmB (some 1) 1 [p, m] g) =
      .ok (Spec.stored none (some 1) 1 [p, n + m] fun idx => match idx.tail with
        | [i, j] => if j < n then f [0, i, j] else g [0, i, j - n]
        | _ => f [0]) := by
  simp only [combineOne, viewRank, fetch, Spec.stored, never, List.head?_cons, List.length_cons, List.map_cons,
    List.map_nil, List.length_nil, List.tail_cons]
  simp [conform, conformNamed, isVectorName, isVector, concatLast, provide, never, specify, agrees, joinStatic, addStatic]
  rfl

theorem design_left [Add V] (nmA nmB : Option String) (hA : Spec.Named "design" nmA) (hB : Spec.Named "design" nmB)
    (tB : Option ℕ) (lB p n m : ℕ) (f g : List ℕ → V) (hB1 : tB ≠ some 1) (hlB : Spec.Truthful tB lB) :
    combineOne "design" [1, p, n + m] (Spec.stored nmA (some 1) 1 [p, n] f) (Spec.stored nmB tB lB [p, m] g) =
      .ok (Spec.stored nmA tB lB [p, n + m] fun idx => match idx with
        | [s, i, j] => if j < n then f [s / lB, i, j] else g [s, i, j - n]
        | _ => f []) := by
  have e : agrees [tB, some p, some n] [lB, p, n] = true := by
    cases tB with
    | none => simp [agrees]
    | some k => simp [agrees, hlB k rfl]
  have hB1' : ¬ (some 1 = tB) := fun h => hB1 h.symm
  simp only [combineOne, viewRank, fetch, Spec.stored, never, List.head?_cons, List.length_cons, List.map_cons,
    List.map_nil, List.length_nil, List.tail_cons]
  simp [hB1]
  rw [conform_design _ _ hA hB]
  simp [conformNamed, isVectorName, hB1', repeatFirst, runLength, specify, e, concatLast, provide, never, isVector,
    joinStatic, addStatic]
  rfl

theorem design_right [Add V] (nmA nmB : Option String) (hA : Spec.Named "design" nmA) (hB : Spec.Named "design" nmB)
    (tA : Option ℕ) (lA p n m : ℕ) (f g : List ℕ → V) (hA1 : tA ≠ some 1) (hlA : Spec.Truthful tA lA) :
    combineOne "design" [1, p, n + m] (Spec.stored nmA tA lA [p, n] f) (Spec.stored nmB (some 1) 1 [p, m] g) =
      .ok (Spec.stored nmA tA lA [p, n + m] fun idx => match idx with
        | [s, i, j] => if j < n then f [s, i, j] else g [s / lA, i, j - n]
        | _ => f []) := by
  have e : agrees [tA, some p, some m] [lA, p, m] = true := by
    cases tA with
    | none => simp [agrees]
    | some k => simp [agrees, hlA k rfl]
  simp only [combineOne, viewRank, fetch, Spec.stored, never, List.head?_cons, List.length_cons, List.map_cons,
    List.map_nil, List.length_nil, List.tail_cons]
  simp [hA1]
  rw [conform_design _ _ hA hB]
  simp [conformNamed, isVectorName, hA1, repeatFirst, runLength, specify, e, concatLast, provide, never, isVector,
    joinStatic, addStatic]
  cases tA <;> rfl

theorem design_neither [Add V] (nmA nmB : Option String) (hA : Spec.Named "design" nmA) (hB : Spec.Named "design" nmB)
    (tA tB : Option ℕ) (lA lB p n m : ℕ) (f g : List ℕ → V) (hA1 : tA ≠ some 1) (hB1 : tB ≠ some 1) :
    combineOne "design" [1, p, n + m] (Spec.stored nmA tA lA [p, n] f) (Spec.stored nmB tB lB [p, m] g) =
      if lA = lB then .ok (Spec.stored nmA (joinStatic tA tB) lA [p, n + m] fun idx => match idx with
        | [s, i, j] => if j < n then f [s, i, j] else g [s, i, j - n]
        | _ => f []) else .error .joinShape := by
  simp only [combineOne, viewRank, fetch, Spec.stored, never, List.head?_cons, List.length_cons, List.map_cons,
    List.map_nil, List.length_nil, List.tail_cons]
  simp [hA1, hB1]
  rw [conform_design _ _ hA hB]
  by_cases h : lA = lB
  · simp [conformNamed, isVectorName, hA1, hB1, concatLast, provide, never, isVector, h, addStatic, joinStatic]
    rfl
  · simp [conformNamed, isVectorName, hA1, hB1, concatLast, provide, never, isVector, h, addStatic, joinStatic]

/-- **C167**: for two components with design matrices of `n` and `m` states, each static or varying over time, the sum
succeeds exactly if one of them is static or both have the same number of dates; then at every date the design of the sum
is the two designs side by side, the static one being the same at every date. -/
theorem C167_design [Add V] (nmA nmB : Option String) (hA : Spec.Named "design" nmA) (hB : Spec.Named "design" nmB)
    (tA tB : Option ℕ) (lA lB p n m : ℕ) (f g : List ℕ → V) (hlA : Spec.Truthful tA lA) (hlB : Spec.Truthful tB lB) :
    ((∃ X, combineOne "design" [1, p, n + m] (Spec.stored nmA tA lA [p, n] f) (Spec.stored nmB tB lB [p, m] g) = .ok X) ↔
      (tA = some 1 ∨ tB = some 1 ∨ lA = lB)) ∧
    ∀ X, combineOne "design" [1, p, n + m] (Spec.stored nmA tA lA [p, n] f) (Spec.stored nmB tB lB [p, m] g) = .ok X →
      (∃ (t : Option ℕ) (h : List ℕ → V) (nm : Option String), Spec.Named "design" nm ∧
        Spec.Truthful t (if tA = some 1 then lB else lA) ∧
        X = Spec.stored nm t (if tA = some 1 then lB else lA) [p, n + m] h) ∧
      ∀ s < (if tA = some 1 then lB else lA), ∀ i j : ℕ, Spec.at X s [i, j] =
        if j < n then Spec.at (Spec.stored nmA tA lA [p, n] f) s [i, j]
        else Spec.at (Spec.stored nmB tB lB [p, m] g) s [i, j - n] := by
  by_cases hA1 : tA = some 1
  · have hlA1 : lA = 1 := (hlA 1 hA1).symm
    subst hA1 hlA1
    by_cases hB1 : tB = some 1
    · have hlB1 : lB = 1 := (hlB 1 hB1).symm
      subst hB1 hlB1
      rw [design_both]
      refine ⟨by simp, ?_⟩
      rintro X ⟨⟩
      refine ⟨⟨some 1, _, none, Or.inl rfl, by intro k hk; simpa using hk.symm, rfl⟩, ?_⟩
      intro s hs i j
      rfl
    · rw [design_left _ _ hA hB _ _ _ _ _ _ _ hB1 hlB]
      refine ⟨by simp, ?_⟩
      rintro X ⟨⟩
      refine ⟨⟨tB, _, nmA, hA, hlB, rfl⟩, ?_⟩
      intro s hs i j
      have : s / lB = 0 := Nat.div_eq_of_lt hs
      simp [Spec.at, Spec.stored, hB1, this]
  · by_cases hB1 : tB = some 1
    · have hlB1 : lB = 1 := (hlB 1 hB1).symm
      subst hB1 hlB1
      rw [design_right _ _ hA hB _ _ _ _ _ _ _ hA1 hlA]
      simp only [if_neg hA1]
      refine ⟨by simp, ?_⟩
      rintro X ⟨⟩
      refine ⟨⟨tA, _, nmA, hA, hlA, rfl⟩, ?_⟩
      intro s hs i j
      have : s / lA = 0 := Nat.div_eq_of_lt hs
      simp [Spec.at, Spec.stored, hA1, this]
    · rw [design_neither _ _ hA hB _ _ _ _ _ _ _ _ _ hA1 hB1]
      simp only [hA1, hB1, false_or]
      by_cases h : lA = lB
      · subst h
        simp only [if_true]
        refine ⟨by simp, ?_⟩
        rintro X ⟨⟩
        have hj : joinStatic tA tB ≠ some 1 := by
          cases tA with
          | none => exact hB1
          | some a => exact hA1
        refine ⟨⟨joinStatic tA tB, _, nmA, hA, ?_, rfl⟩, ?_⟩
        · cases tA with
          | none => exact hlB
          | some a => exact hlA
        · intro s hs i j
          simp [Spec.at, Spec.stored, hA1, hB1, hj]
      · simp [h]

example : (∃ X, combineOne "design" [1, 1, 2] (Spec.stored (some "design") none 3 [1, 1] fun i => i.headD 0 + 5)
    (Spec.stored none (some 1) 1 [1, 1] fun _ => (1 : ℕ)) = .ok X ∧ Spec.at X 2 [0, 0] = 7 ∧ Spec.at X 2 [0, 1] = 1) :=
  ⟨_, rfl, rfl, rfl⟩

theorem agrees_some : ∀ (l m : List ℕ), agrees (l.map some) m = true ↔ m = l
  | [], [] => by simp [agrees]
  | [], _ :: _ => by simp [agrees]
  | _ :: _, [] => by simp [agrees]
  | a :: l, b :: m => by
    simp only [List.map_cons, agrees, Bool.and_eq_true, beq_iff_eq, agrees_some l m, List.cons.injEq]
    constructor <;> rintro ⟨h1, h2⟩ <;> exact ⟨h1.symm, h2⟩

/-- **C167 (storage).** A constant matrix is stored exactly if its run-time shape, with a time axis of length one, is the recorded shape. -/
theorem C167_stored_iff {V : Type} (name : String) (rec : List ℕ) (X : Var V) (hn : never name = false)
    (hs : X.static.length = if isVector name then 1 else 2) : (∃ Y, provide name rec X = .ok Y) ↔ 1 :: X.val.shape = rec := by
  rw [← agrees_some]
  unfold provide
  rw [if_neg (by simp [hn])]
  by_cases hv : isVector name = true
  · rw [if_pos hv] at hs ⊢
    match hx : X.static, hs with
    | [_], _ => simp only [specify]; split_ifs with h <;> simp [h]
  · rw [if_neg hv] at hs ⊢
    match hx : X.static, hs with
    | [_, _], _ => simp only [specify]; split_ifs with h <;> simp [h]

/-- The transition of two states is stored as recorded, that of three is not. -/
example : (never "transition" = false) ∧ (1 :: (⟨none, [none, none], ⟨[2, 2], fun _ => (0 : ℕ)⟩⟩ : Var ℕ).val.shape = [1, 2, 2]) ∧
    (1 :: (⟨none, [none, none], ⟨[3, 3], fun _ => (0 : ℕ)⟩⟩ : Var ℕ).val.shape ≠ [1, 2, 2]) := by decide

theorem addAxis_same (p : ℕ) : addAxis (some p) (some p) p p = some (some p, p, false, false) := by
  unfold addAxis
  by_cases h : p = 1
  · simp [h]
  · simp [h, joinStatic]

theorem conformNamed_ne (nm : Option String) (A B : Var V) : conformNamed nm A B ≠ .error .notStatespace := by
  unfold conformNamed specify
  intro h
  simp only at h
  repeat' split at h
  all_goals first
    | (simp at h; done)
    | (rename_i hs; split at hs <;> simp_all)

theorem conformNamed_length (nm : Option String) (A B A' B' : Var V) (h : conformNamed nm A B = .ok (A', B')) :
    A'.static.length = A.static.length ∧ B'.static.length = B.static.length := by
  unfold conformNamed at h
  simp only at h
  generalize (if isVectorName nm = true then 2 else 3) = k at h
  split at h
  · cases h; exact ⟨rfl, rfl⟩
  · match hsA : A.static, hsB : B.static with
    | [], _ => rw [hsA] at h; simp only at h; cases h; exact ⟨by rw [hsA], by rw [hsB]⟩
    | _ :: _, [] => rw [hsA, hsB] at h; simp only at h; cases h; exact ⟨by rw [hsA], by rw [hsB]⟩
    | a :: as, b :: bs =>
      rw [hsA, hsB] at h
      simp only [specify] at h
      repeat' split at h
      all_goals first
        | (cases h; simp_all; done)
        | (rename_i hs; split at hs <;> simp_all; done)
        | (rename_i hs; split at hs
           · cases hs; cases h; simp_all
           · cases hs)

theorem conform_length (A B A' B' : Var V) (h : conform A B = .ok (A', B')) :
    A'.static.length = A.static.length ∧ B'.static.length = B.static.length := by
  unfold conform at h
  split at h
  · exact conformNamed_length _ _ _ _ _ h
  · split at h
    · cases h
    · exact conformNamed_length _ _ _ _ _ h

theorem concatFirst_length (A B X : Var V) (nm : Option String) (h : concatFirst A B nm = .ok X) :
    X.static.length = A.static.length := by
  unfold concatFirst at h
  split at h
  · split at h
    · cases h
      rename_i hs _ _ _ _ hl
      simp_all
    · cases h
  · cases h

/-- **C167**: vectors that do not vary: state intercepts are stacked, observation intercepts added. -/
theorem C167_static_vectors [Add V] (nmA nmB : Option String) (n m : ℕ) (f g : List ℕ → V) :
    (∃ X, combineOne "state_intercept" [1, n + m] (Spec.stored nmA (some 1) 1 [n] f) (Spec.stored nmB (some 1) 1 [m] g) =
        .ok X ∧ ∀ s i : ℕ, Spec.at X s [i] =
          if i < n then Spec.at (Spec.stored nmA (some 1) 1 [n] f) s [i]
          else Spec.at (Spec.stored nmB (some 1) 1 [m] g) s [i - n]) ∧
    (∃ X, combineOne "obs_intercept" [1, n] (Spec.stored nmA (some 1) 1 [n] f) (Spec.stored nmB (some 1) 1 [n] g) =
        .ok X ∧ ∀ s, ∀ i < n, Spec.at X s [i] =
          Spec.at (Spec.stored nmA (some 1) 1 [n] f) s [i] + Spec.at (Spec.stored nmB (some 1) 1 [n] g) s [i]) := by
  constructor
  · refine ⟨Spec.stored none (some 1) 1 [n + m] fun idx => match idx.tail with
        | [] => f [0]
        | i :: is => if i < n then f (0 :: i :: is) else g (0 :: (i - n) :: is), ?_, ?_⟩
    · simp only [combineOne, viewRank, fetch, Spec.stored, never, List.head?_cons, List.length_cons, List.map_cons,
        List.map_nil, List.length_nil, List.tail_cons]
      simp [conform, conformNamed, isVectorName, isVector, concatFirst, provide, never, specify, agrees, addStatic]
      rfl
    · intro s i
      rfl
  · have ha := addAxis_same n
    refine ⟨Spec.stored none (some 1) 1 [n] fun idx => f (0 :: stretch [false] idx.tail) + g (0 :: stretch [false] idx.tail),
      ?_, ?_⟩
    · simp only [combineOne, viewRank, fetch, Spec.stored, never, List.head?_cons, List.length_cons, List.map_cons,
        List.map_nil, List.length_nil, List.tail_cons]
      simp [addVar, addAxes, ha, provide, never, isVector, specify, agrees]
    · intro s i _
      rfl

/-- **C167**: initial states, which never have a time axis, are stacked, also if a component has a single state. -/
theorem C167_initial_state [Add V] (nmA nmB : Option String) (hA : Spec.Named "initial_state" nmA)
    (hB : Spec.Named "initial_state" nmB) (n m : ℕ) (f g : List ℕ → V) :
    ∃ X, combineOne "initial_state" [n + m] (⟨nmA, [some n], ⟨[n], f⟩⟩ : Var V) ⟨nmB, [some m], ⟨[m], g⟩⟩ = .ok X ∧
      X.static = [some (n + m)] ∧ X.val.shape = [n + m] ∧
      ∀ i : ℕ, X.val.data [i] = if i < n then f [i] else g [i - n] := by
  refine ⟨⟨nmA, [some (n + m)], ⟨[n + m], fun idx => match idx with
        | [] => f []
        | i :: is => if i < n then f (i :: is) else g ((i - n) :: is)⟩⟩, ?_, rfl, rfl, fun i => rfl⟩
  rcases hA with rfl | rfl <;> rcases hB with rfl | rfl <;>
  simp [combineOne, viewRank, fetch, never, conform, conformNamed, isVectorName, isVector, isMatrixName, concatFirst,
    provide, addStatic] <;> rfl

example : ∃ X, combineOne "initial_state" [3] (⟨none, [some 1], ⟨[1], fun _ => 5⟩⟩ : Var ℤ)
    ⟨some "initial_state", [some 2], ⟨[2], fun i => if i = [0] then 6 else 7⟩⟩ = .ok X ∧
    X.val.data [0] = 5 ∧ X.val.data [1] = 6 ∧ X.val.data [2] = 7 := by
  obtain ⟨X, h, -, -, hd⟩ := C167_initial_state none (some "initial_state") (Or.inl rfl) (Or.inr rfl) 1 2
    (fun _ => (5 : ℤ)) (fun i => if i = [0] then 6 else 7)
  exact ⟨X, h, by rw [hd]; rfl, by rw [hd]; rfl, by rw [hd]; rfl⟩

/-- **C167**: a state intercept or observation intercept that varies over time can never be added: not to a static one, and
not to one varying over as many dates. -/
theorem C167_varying_vectors_refused [Add V] (name : String) (hn : name = "state_intercept" ∨ name = "obs_intercept")
    (nmA nmB : Option String) (rec : List ℕ)
    (tA tB : Option ℕ) (lA lB n m : ℕ) (f g : List ℕ → V)
    (h : tA ≠ some 1 ∨ tB ≠ some 1) :
    ∃ e, combineOne name rec (Spec.stored nmA tA lA [n] f) (Spec.stored nmB tB lB [m] g) = .error e := by
  have key : combineOne name rec (Spec.stored nmA tA lA [n] f) (Spec.stored nmB tB lB [m] g) =
      if name = "obs_intercept" ∨ name = "obs_cov" then
        match addVar (Spec.stored nmA tA lA [n] f) (Spec.stored nmB tB lB [m] g) nmA with
        | .error e => .error e
        | .ok X => provide name rec X
      else
        match conform (Spec.stored nmA tA lA [n] f) (Spec.stored nmB tB lB [m] g) with
        | .error e => .error e
        | .ok (A', B') =>
          match (if name = "design" then concatLast A' B' nmA else concatFirst A' B' nmA) with
          | .error e => .error e
          | .ok X => provide name rec X := by
    have hnv : never name = false := by rcases hn with h | h <;> subst h <;> rfl
    have hmax : max (viewRank name (Spec.stored nmA tA lA [n] f)) (viewRank name (Spec.stored nmB tB lB [m] g)) = 2 := by
      simp only [viewRank, Spec.stored, hnv, List.head?_cons, List.map_cons, List.map_nil, List.length_cons,
        List.length_nil, Option.some.injEq, Bool.not_false, and_true]
      rcases h with h | h
      · rw [if_neg h]; split <;> rfl
      · rw [if_neg h]; split <;> rfl
    simp only [combineOne, hmax]
    rfl
  rw [key]
  have prov : ∀ (X : Var V), X.static.length = 2 → ∃ e, provide name rec X = .error e := by
    intro X hX
    have hnv : never name = false ∧ isVector name = true := by rcases hn with h | h <;> subst h <;> exact ⟨rfl, rfl⟩
    obtain ⟨a, b, hab⟩ : ∃ a b, X.static = [a, b] := by
      match hs : X.static with
      | [a, b] => exact ⟨a, b, rfl⟩
      | [] => simp [hs] at hX
      | [_] => simp [hs] at hX
      | _ :: _ :: _ :: _ => simp [hs] at hX
    exact ⟨.badTimeVarying, by simp [provide, hnv.1, hnv.2, hab]⟩
  rcases hn with hn | hn
  · subst hn
    simp only [String.reduceEq, or_self, if_false]
    match hc : conform (Spec.stored nmA tA lA [n] f) (Spec.stored nmB tB lB [m] g) with
    | .error e => exact ⟨e, rfl⟩
    | .ok (A', B') =>
      obtain ⟨h1, h2⟩ := conform_length _ _ _ _ hc
      simp only
      match hj : concatFirst A' B' nmA with
      | .error e => exact ⟨e, rfl⟩
      | .ok X =>
        refine prov X ?_
        rw [concatFirst_length _ _ _ _ hj, h1]
        rfl
  · subst hn
    simp only [true_or, if_true]
    match ha : addVar (Spec.stored nmA tA lA [n] f) (Spec.stored nmB tB lB [m] g) nmA with
    | .error e => exact ⟨e, rfl⟩
    | .ok X =>
      refine prov X ?_
      simp only [addVar, addAxes, Spec.stored, List.map_cons, List.map_nil] at ha
      cases h1 : addAxis tA tB lA lB with
      | none => simp [h1] at ha
      | some x =>
        cases h2 : addAxis (some n) (some m) n m with
        | none => simp [h1, h2] at ha
        | some y =>
          simp only [h1, h2, Except.ok.injEq] at ha
          subst ha
          rfl

/-- **C167**: observation covariances are added date by date; one that does not vary is the same at every date. -/
theorem C167_obs_cov [Add V] (nmA nmB : Option String) (tA tB : Option ℕ) (lA lB p : ℕ) (f g : List ℕ → V)
    (hlA : Spec.Truthful tA lA) (hlB : Spec.Truthful tB lB) :
    ((∃ X, combineOne "obs_cov" [1, p, p] (Spec.stored nmA tA lA [p, p] f) (Spec.stored nmB tB lB [p, p] g) = .ok X) ↔
      (tA = some 1 ∨ tB = some 1 ∨ lA = lB)) ∧
    ∀ X, combineOne "obs_cov" [1, p, p] (Spec.stored nmA tA lA [p, p] f) (Spec.stored nmB tB lB [p, p] g) = .ok X →
      ∀ (s i j : ℕ), i < p → j < p → Spec.at X s [i, j] =
        Spec.at (Spec.stored nmA tA lA [p, p] f) s [i, j] + Spec.at (Spec.stored nmB tB lB [p, p] g) s [i, j] := by
  have hp := addAxis_same p
  by_cases hA1 : tA = some 1
  · have hlA1 : lA = 1 := (hlA 1 hA1).symm
    subst hA1 hlA1
    by_cases hB1 : tB = some 1
    · have hlB1 : lB = 1 := (hlB 1 hB1).symm
      subst hB1 hlB1
      simp only [combineOne, viewRank, fetch, Spec.stored, never, List.head?_cons, List.length_cons, List.map_cons,
        List.map_nil, List.length_nil, List.tail_cons]
      simp [addVar, addAxes, hp, provide, never, isVector, specify, agrees, Spec.at, stretch]
    · simp only [combineOne, viewRank, fetch, Spec.stored, never, List.head?_cons, List.length_cons, List.map_cons,
        List.map_nil, List.length_nil, List.tail_cons]
      simp [addVar, addAxes, addAxis, hB1, provide, never, isVector, Spec.at, stretch]
      by_cases hp1 : p = 1
      · simp [hp1, hB1]
      · simp [hp1, hB1, joinStatic]
  · by_cases hB1 : tB = some 1
    · have hlB1 : lB = 1 := (hlB 1 hB1).symm
      subst hB1 hlB1
      simp only [combineOne, viewRank, fetch, Spec.stored, never, List.head?_cons, List.length_cons, List.map_cons,
        List.map_nil, List.length_nil, List.tail_cons]
      simp [addVar, addAxes, addAxis, hA1, provide, never, isVector, Spec.at, stretch]
      by_cases hp1 : p = 1
      · simp [hp1, hA1]
      · simp [hp1, hA1, joinStatic]
    · simp only [combineOne, viewRank, fetch, Spec.stored, never, List.head?_cons, List.length_cons, List.map_cons,
        List.map_nil, List.length_nil, List.tail_cons]
      have hj : joinStatic tA tB ≠ some 1 := by
        cases tA with
        | none => exact hB1
        | some a => exact hA1
      by_cases h : lA = lB
      · simp [addVar, addAxes, hp, provide, never, isVector, Spec.at, stretch, hA1, hB1, h]
        simp [addAxis, hA1, hB1, hj]
      · simp [addVar, addAxes, hp, provide, never, isVector, Spec.at, stretch, hA1, hB1, h]
        simp [addAxis, hA1, hB1, h]

/-- **C167**: the name check: the two tensors are refused exactly if their names differ and neither is the name of a
statespace matrix. -/
theorem C167_refused_iff (A B : Var V) :
    conform A B = .error .notStatespace ↔
      A.name ≠ B.name ∧ isMatrixName A.name = false ∧ isMatrixName B.name = false := by
  unfold conform
  by_cases h : A.name = B.name
  · simp only [h, if_true, ne_eq, not_true, false_and, iff_false]
    exact conformNamed_ne _ _ _
  · rw [if_neg h]
    by_cases h' : isMatrixName A.name = false ∧ isMatrixName B.name = false
    · simp [h, h']
    · rw [if_neg h']
      simp only [ne_eq, h, not_false_eq_true, true_and, h', iff_false]
      exact conformNamed_ne _ _ _

/-- **C167**: nothing is expanded unless both tensors have a time axis and exactly one of the static lengths is one. -/
theorem C167_unchanged (A B : Var V) (tA tB : Option ℕ) (hA : A.static.head? = some tA) (hB : B.static.head? = some tB)
    (h : A.static.length ≠ B.static.length ∨ (tA = some 1 ↔ tB = some 1))
    (hn : A.name = B.name ∨ isMatrixName A.name ∨ isMatrixName B.name) :
    conform A B = .ok (A, B) := by
  have key : ∀ nm, conformNamed nm A B = .ok (A, B) := by
    intro nm
    unfold conformNamed
    match hsA : A.static, hsB : B.static with
    | [], _ => simp [hsA] at hA
    | _ :: _, [] => simp [hsB] at hB
    | a :: as, b :: bs =>
      simp only [hsA, hsB, List.head?_cons, Option.some.injEq] at hA hB h
      subst hA hB
      simp only
      generalize (if isVectorName nm = true then 2 else 3) = k
      split
      · rfl
      · rename_i hl
        push Not at hl
        have hl' : (a :: as).length = (b :: bs).length := hl.1.trans hl.2.symm
        have h' : a = some 1 ↔ b = some 1 := h.resolve_left (fun hne => hne hl')
        split
        · rfl
        · rename_i hab
          rw [if_neg (fun ha => hab (ha.trans (h'.mp ha).symm)), if_neg (fun hb => hab ((h'.mpr hb).trans hb.symm))]
  unfold conform
  by_cases h1 : A.name = B.name
  · rw [if_pos h1]; exact key _
  · rw [if_neg h1, if_neg (by rcases hn with h | h | h <;> simp_all)]
    exact key _

example : (match conform (⟨some "beta", [some 1], ⟨[1], fun _ => (0 : ℕ)⟩⟩ : Var ℕ) ⟨some "design", [some 1], ⟨[1], fun _ => 0⟩⟩ with
    | .ok _ => true | .error _ => false) = true ∧
    (match conform (⟨some "beta", [some 1], ⟨[1], fun _ => (0 : ℕ)⟩⟩ : Var ℕ) ⟨none, [some 1], ⟨[1], fun _ => 0⟩⟩ with
    | .ok _ => true | .error _ => false) = false := by decide

example : combineOne "obs_intercept" [1, 1] (Spec.stored (some "obs_intercept") (some 3) 3 [1] fun i => i.headD 0)
    (Spec.stored none (some 1) 1 [1] fun _ => (1 : ℕ)) = .error .badTimeVarying := rfl

example : combineOne "state_intercept" [1, 2] (Spec.stored none none 3 [1] fun _ => (0 : ℕ))
    (Spec.stored none none 3 [1] fun _ => (1 : ℕ)) = .error .badTimeVarying := rfl

example : ∃ X, combineOne "obs_cov" [1, 1, 1] (Spec.stored none (some 3) 3 [1, 1] fun i => i.headD 0)
    (Spec.stored none (some 1) 1 [1, 1] fun _ => (7 : ℕ)) = .ok X ∧ Spec.at X 2 [0, 0] = 9 := ⟨_, rfl, rfl⟩

end Verif.Structural.Conform
