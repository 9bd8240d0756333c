import Verif.Printing.Model
import Mathlib.Data.List.Basic
import Mathlib.Data.List.Forall2
import Mathlib.Tactic.Common

/-!
# Lemmas about splitting, joining and the table loop
-/

set_option autoImplicit false

namespace Verif.Printing

theorem digits_ne_nil (n : ℕ) : digits n ≠ [] := by
  unfold digits
  rw [Nat.toString_eq_ofList_toDigits, String.toList_ofList]
  exact Nat.toDigits_ne_nil

theorem digits_injective (a b : ℕ) (h : digits a = digits b) : a = b := by
  unfold digits at h
  rw [Nat.toString_eq_ofList_toDigits, Nat.toString_eq_ofList_toDigits, String.toList_ofList, String.toList_ofList] at h
  have := congrArg (fun l => Nat.ofDigitChars 10 l 0) h
  simpa [Nat.ofDigitChars_toDigits] using this

/-- A separator in which the character `x` occurs exactly once, at position `k`. -/
structure Mark (sep : Str) (x : Char) (k : ℕ) : Prop where
  at_k : sep[k]? = some x
  only : ∀ j, sep[j]? = some x → j = k

theorem mark_comma : Mark comma ',' 0 := ⟨rfl, by
  intro j h
  rcases j with _ | _ | j <;> simp_all [comma]⟩

theorem mark_tilde : Mark tilde '~' 1 := ⟨rfl, by
  intro j h
  rcases j with _ | _ | _ | j <;> simp_all [tilde]⟩

theorem not_prefix {sep : Str} {x : Char} {k : ℕ} (hm : Mark sep x k) (p rest : Str) (hp : x ∉ p) (hne : p ≠ []) :
    sep.isPrefixOf (p ++ sep ++ rest) = false := by
  by_contra h
  rw [Bool.not_eq_false, List.isPrefixOf_iff_prefix] at h
  have hk : (p ++ sep ++ rest)[k]? = some x := by
    obtain ⟨t, ht⟩ := h
    rw [← ht, List.getElem?_append_left]
    · exact hm.at_k
    · exact (List.getElem?_eq_some_iff.mp hm.at_k).1
  rw [List.append_assoc] at hk
  rcases Nat.lt_or_ge k p.length with hlt | hge
  · rw [List.getElem?_append_left hlt] at hk
    exact hp (List.mem_of_getElem? hk)
  · rw [List.getElem?_append_right hge] at hk
    have hlen : k < sep.length := (List.getElem?_eq_some_iff.mp hm.at_k).1
    rw [List.getElem?_append_left (by omega)] at hk
    have := hm.only _ hk
    have : 0 < p.length := List.length_pos_iff.mpr hne
    omega

theorem not_prefix_end {sep : Str} {x : Char} {k : ℕ} (hm : Mark sep x k) (p : Str) (hp : x ∉ p) :
    sep.isPrefixOf p = false := by
  by_contra h
  rw [Bool.not_eq_false, List.isPrefixOf_iff_prefix] at h
  exact hp (h.subset (List.mem_of_getElem? hm.at_k))

theorem splitAux_skip (sep : Str) (acc : Str) (pre rest : Str) :
    splitAux sep pre.length acc (pre ++ rest) = splitAux sep 0 acc rest := by
  induction pre with
  | nil => simp
  | cons c pre ih =>
    rw [List.length_cons, List.cons_append, splitAux]
    exact ih

theorem splitAux_piece {sep : Str} {x : Char} {k : ℕ} (hm : Mark sep x k) (p rest acc : Str) (hp : x ∉ p) :
    splitAux sep 0 acc (p ++ sep ++ rest) = (acc.reverse ++ p) :: splitAux sep 0 [] rest := by
  induction p generalizing acc with
  | nil =>
    obtain ⟨c, s, hs⟩ : ∃ c s, sep = c :: s := by
      cases sep with
      | nil => have := hm.at_k; simp at this
      | cons c s => exact ⟨c, s, rfl⟩
    rw [List.nil_append]
    have hpre : sep.isPrefixOf (sep ++ rest) = true := by
      rw [List.isPrefixOf_iff_prefix]; exact List.prefix_append _ _
    rw [hs] at hpre ⊢
    rw [List.cons_append, splitAux, ← List.cons_append, if_pos hpre, List.append_nil]
    congr 1
    rw [List.length_cons, Nat.add_sub_cancel]
    exact splitAux_skip _ _ s rest
  | cons c p ih =>
    have hn := not_prefix hm (c :: p) rest hp (by simp)
    rw [List.cons_append, List.cons_append, splitAux]
    rw [List.cons_append, List.cons_append] at hn
    rw [if_neg (by rw [hn]; simp)]
    rw [ih _ (fun h => hp (by simp [h]))]
    simp

theorem splitAux_last {sep : Str} {x : Char} {k : ℕ} (hm : Mark sep x k) (p acc : Str) (hp : x ∉ p) :
    splitAux sep 0 acc p = [acc.reverse ++ p] := by
  induction p generalizing acc with
  | nil => simp [splitAux]
  | cons c p ih =>
    rw [splitAux, if_neg (by simp [not_prefix_end hm (c :: p) hp]), ih _ (fun h => hp (by simp [h]))]
    simp

/-- Splitting a joined list gives the list back when no part contains the separator's mark. -/
theorem split_join {sep : Str} {x : Char} {k : ℕ} (hm : Mark sep x k) (ps : List Str) (hne : ps ≠ [])
    (h : ∀ p ∈ ps, x ∉ p) : split sep (join sep ps) = ps := by
  unfold split
  induction ps with
  | nil => exact absurd rfl hne
  | cons p ps ih =>
    cases ps with
    | nil => rw [join, splitAux_last hm p [] (h p (by simp))]; simp
    | cons q ps =>
      rw [join, splitAux_piece hm p _ [] (h p (by simp)), ih (by simp) (fun r hr => h r (by simp [hr]))]
      simp

theorem join_length (ps : List Str) : (join comma ps).length = (ps.map fun p => p.length + 2).sum - 2 := by
  induction ps with
  | nil => rfl
  | cons p ps ih =>
    cases ps with
    | nil => simp [join]
    | cons q ps =>
      rw [join, List.length_append, List.length_append, ih]
      simp [comma]
      omega

/-- Width taken by a list of arguments in the loop of `variable_expression`. -/
def width (ps : List Str) : ℕ := (ps.map fun p => p.length + 2).sum

theorem width_take_le (ps : List Str) (i : ℕ) : width (ps.take i) ≤ width ps := by
  unfold width
  conv_rhs => rw [← List.take_append_drop i ps, List.map_append, List.sum_append]
  omega

/-- The number of shown arguments: a proper prefix, within the limit, and maximal. -/
theorem showN_spec (t : ℕ) (ps : List Str) (hne : ps ≠ []) : ∀ (i len : ℕ), len ≤ t →
    i ≤ showN t i len ps ∧ showN t i len ps < i + ps.length ∧
    len + width (ps.take (showN t i len ps - i)) ≤ t ∧
    (showN t i len ps + 1 < i + ps.length → t < len + width (ps.take (showN t i len ps - i + 1))) := by
  induction ps with
  | nil => exact absurd rfl hne
  | cons p ps ih =>
    intro i len hlen
    unfold showN
    by_cases h : len + p.length + 2 > t
    · simp only [h, ↓reduceIte, Nat.sub_self, List.take_zero, width, List.map_nil, List.sum_nil, List.length_cons]
      refine ⟨Nat.le_refl _, by omega, by omega, fun _ => ?_⟩
      simp
      omega
    · simp only [h, ↓reduceIte]
      cases ps with
      | nil => simp [width, hlen]
      | cons q ps =>
        simp only
        obtain ⟨h1, h2, h3, h4⟩ := ih (by simp) (i + 1) (len + p.length + 2) (by omega)
        generalize hs : showN t (i + 1) (len + p.length + 2) (q :: ps) = s at *
        have e1 : s - i = s - (i + 1) + 1 := by omega
        refine ⟨by omega, by rw [List.length_cons]; omega, ?_, ?_⟩
        · rw [e1, List.take_succ_cons]
          simp only [width, List.map_cons, List.sum_cons] at h3 ⊢
          omega
        · intro hlt
          rw [List.length_cons] at hlt
          have := h4 (by omega)
          rw [e1, List.take_succ_cons]
          simp only [width, List.map_cons, List.sum_cons] at this ⊢
          omega

theorem varRows_forall (m : Model) (limit : Option ℕ) (vs : List Str) (rs : List Row) :
    varRows m limit vs = .ok rs ↔ List.Forall₂ (fun v r => varRow m limit v = .ok r) vs rs := by
  induction vs generalizing rs with
  | nil => simp [varRows, eq_comm]
  | cons v vs ih =>
    unfold varRows
    cases hv : varRow m limit v with
    | error e => simp [List.forall₂_cons_left_iff, hv]
    | ok r =>
      cases hr : varRows m limit vs with
      | error e =>
        simp only [List.forall₂_cons_left_iff, hv, false_iff, reduceCtorEq]
        rintro ⟨r', l, -, hl, -⟩
        rw [← ih, hr] at hl
        simp at hl
      | ok l =>
        simp only [Except.ok.injEq, List.forall₂_cons_left_iff, hv]
        constructor
        · rintro rfl
          exact ⟨r, l, rfl, (ih l).mp hr, rfl⟩
        · rintro ⟨r', l', rfl, hl, rfl⟩
          rw [← ih, hr] at hl
          simp only [Except.ok.injEq] at hl
          rw [hl]

/-- Rows of one section: those of the variables, and possibly the parameter count; the last one ends the section. -/
def block (m : Model) (withCount : Bool) (rs : List Row) : List Row :=
  addSection (if withCount then rs ++ [countRow m] else rs)

theorem addSection_append (a b : List Row) (h : b ≠ []) : addSection (a ++ b) = a ++ addSection b := by
  unfold addSection
  rw [List.getLast?_append_of_ne_nil _ h]
  cases hb : b.getLast? with
  | none => simp_all
  | some r => simp [List.dropLast_append_of_ne_nil h]

/-- The table is the concatenation of the blocks of the non-empty groups. -/
theorem tableLoop_spec (m : Model) (s : Bool) (limit : Option ℕ) (c : Bool) (gs : List (List Str)) (rows out : List Row) :
    tableLoop m s limit c gs rows = .ok out ↔
    ∃ bs : List (List Row), List.Forall₂ (fun g rs => varRows m limit g = .ok rs) (gs.filter (· ≠ [])) bs ∧
      out = rows ++ (((gs.filter (· ≠ [])).zip bs).flatMap fun x => block m (c && (!s || x.1 == m.free)) x.2) := by
  induction gs generalizing rows with
  | nil => simp [tableLoop, eq_comm]
  | cons g gs ih =>
    unfold tableLoop
    by_cases hg : g = []
    · simp only [hg, ↓reduceIte, ne_eq, not_true_eq_false, decide_false, Bool.false_eq_true, not_false_eq_true,
        List.filter_cons_of_neg]
      exact ih rows
    · simp only [hg, ↓reduceIte, ne_eq, not_false_eq_true, decide_true, List.filter_cons_of_pos]
      cases hr : varRows m limit g with
      | error e =>
        simp only [reduceCtorEq, false_iff, not_exists, not_and]
        intro bs hbs
        rw [List.forall₂_cons_left_iff] at hbs
        obtain ⟨b, u, h, -, -⟩ := hbs
        rw [hr] at h
        simp at h
      | ok rs =>
        have hrs : rs ≠ [] := by
          intro h0
          rw [varRows_forall, h0] at hr
          cases hr
          exact hg rfl
        have hb : addSection (if (c && (!s || g == m.free)) = true then rows ++ rs ++ [countRow m] else rows ++ rs) =
            rows ++ block m (c && (!s || g == m.free)) rs := by
          unfold block
          split
          · rw [List.append_assoc, addSection_append _ _ (by simp)]
          · rw [addSection_append _ _ hrs]
        simp only
        rw [hb, ih]
        constructor
        · rintro ⟨bs, h1, h2⟩
          exact ⟨rs :: bs, .cons hr h1, by rw [h2]; simp⟩
        · rintro ⟨bs, h1, h2⟩
          rw [List.forall₂_cons_left_iff] at h1
          obtain ⟨b, u, hb', hu, rfl⟩ := h1
          rw [hr] at hb'
          simp only [Except.ok.injEq] at hb'
          subst hb'
          exact ⟨u, hu, by rw [h2]; simp⟩

end Verif.Printing
