import Verif.Sarima.Names
import Verif.Sarima.Props

/-!
# C202: the state names of a SARIMAX model
-/

set_option autoImplicit false

namespace Verif.Params.Sarimax
open Verif.Sarima Verif.Printing

/-- The text `.data`. -/
def suf : List Char := ['.', 'd', 'a', 't', 'a']

/-- The text for differencing `k` times with step `s` after cleaning. -/
def diffL (s k : ℕ) : List Char := if k = 0 then [] else 'D' :: digits s ++ pw k

/-- The text of the differences with step one before cleaning. -/
def base (i : ℕ) : List Char := 'D' :: digits (if 0 < i then 1 else 0) ++ ('^' :: digits i)

theorem digits_one : digits 1 = ['1'] := by decide

theorem clean_suf : passQ (passP suf) = suf := by decide

theorem clean_base {u : List Char} (hu : '^' ∉ u) (hq : ∀ v, passQ (u ++ v) = u ++ passQ v) (i : ℕ) (w : List Char) :
    clean (u ++ (base i ++ w)) = u ++ (diffL 1 i ++ passQ (passP w)) := by
  have h1 : '^' ∉ 'D' :: digits (if 0 < i then 1 else 0) := by
    simp only [List.mem_cons, not_or]; exact ⟨by decide, not_digit (by decide)⟩
  rw [clean_eq, passP_free hu, hq, base, List.append_assoc, passP_free h1, passP_pow]
  rcases Nat.eq_zero_or_pos i with rfl | hi
  · simp only [lt_irrefl, if_false, digits_zero, diffL, if_true, List.nil_append]
    show u ++ passQ ('D' :: '0' :: (pw 0 ++ passP w)) = _
    rw [passQ_zero, passQ_pw]
    simp [pw, digits_zero]
  · rw [if_pos hi, passQ_diff (by decide), passQ_pw, diffL, if_neg (by omega)]
    simp

theorem clean_season {S : ℕ} (hS : 0 < S) (j : ℕ) :
    passQ (passP ('D' :: digits S ++ ('^' :: digits j ++ suf))) = 'D' :: digits S ++ (pw j ++ suf) := by
  have h1 : '^' ∉ 'D' :: digits S := by
    simp only [List.mem_cons, not_or]; exact ⟨by decide, not_digit (by decide)⟩
  rw [passP_free h1, passP_pow, passQ_diff hS, passQ_pw, clean_suf]

theorem lag_pass {r : ℕ} (hr : 0 < r) : '^' ∉ 'L' :: digits r ∧ ∀ v, passQ ('L' :: digits r ++ v) = 'L' :: digits r ++ passQ v := by
  refine ⟨?_, passQ_lag hr⟩
  simp only [List.mem_cons, not_or]; exact ⟨by decide, not_digit (by decide)⟩

theorem shortPower_toList {k : ℕ} (hk : 0 < k) : (Spec.shortPower k).toList = pw k := by
  obtain ⟨c, r, h, hc⟩ := digits_head hk
  unfold Spec.shortPower pw
  change (match digits k with
    | '1' :: r => String.ofList r
    | _ => "^" ++ toString k).toList = _
  have h2 : ("^" ++ toString k).toList = '^' :: digits k := by rw [String.toList_append]; rfl
  by_cases h1 : c = '1'
  · subst h1; rw [h]; simp
  · split
    · rename_i he; rw [h] at he; cases he; exact absurd rfl h1
    · rw [h2]
      split
      · rename_i he; rw [h] at he; cases he; exact absurd rfl hc
      · rename_i he; rw [h] at he; cases he; exact absurd rfl h1
      · rfl

theorem diffText_toList (s k : ℕ) : (Spec.diffText Spec.shortPower s k).toList = diffL s k := by
  unfold Spec.diffText diffL
  split_ifs with h
  · rfl
  · rw [String.toList_append, String.toList_append, shortPower_toList (by omega)]; rfl

theorem lagText_toList {r : ℕ} (hr : 0 < r) : (Spec.lagText r).toList = 'L' :: digits r := by
  rw [Spec.lagText, if_neg (by omega), String.toList_append]; rfl

theorem label_lag {S r i j : ℕ} (hr : 0 < r) :
    (Spec.label Spec.shortPower S r i j).toList = 'L' :: digits r ++ (diffL 1 i ++ (diffL S j ++ suf)) := by
  have : ¬ (r = 0 ∧ i = 0 ∧ j = 0) := by omega
  unfold Spec.label
  rw [if_neg this]
  simp only [String.toList_append, diffText_toList, lagText_toList hr]
  rw [List.append_assoc, List.append_assoc]; rfl

theorem label_zero {S i j : ℕ} (h : i ≠ 0 ∨ j ≠ 0) :
    (Spec.label Spec.shortPower S 0 i j).toList = diffL 1 i ++ (diffL S j ++ suf) := by
  have : ¬ (0 = 0 ∧ i = 0 ∧ j = 0) := by omega
  unfold Spec.label
  rw [if_neg this]
  simp only [String.toList_append, diffText_toList]
  rw [List.append_assoc, List.append_assoc]; rfl

/-- The current text of the differences in `make_harvey_state_names`. -/
def curr (S d i : ℕ) : String :=
  if i = 0 then s!"D{if 0 < d then 1 else 0}^{d}" else s!"D{if 0 < d then 1 else 0}^{d}D{S}^{i}"

theorem curr_toList (S d i : ℕ) : (curr S d i).toList ++ suf =
    base d ++ if i = 0 then suf else 'D' :: digits S ++ ('^' :: digits i ++ suf) := by
  unfold curr base
  split_ifs with h hd hd
  all_goals
    simp only [String.toList_append, toString, List.append_assoc, List.cons_append]
    rfl

theorem clean_curr (u : List Char) (hu : '^' ∉ u) (hq : ∀ v, passQ (u ++ v) = u ++ passQ v) {S : ℕ} (d i : ℕ)
    (hS : i ≠ 0 → 0 < S) : clean (u ++ ((curr S d i).toList ++ suf)) = u ++ (diffL 1 d ++ (diffL S i ++ suf)) := by
  rw [curr_toList, clean_base hu hq]
  by_cases h : i = 0
  · simp only [h, if_true, clean_suf, diffL, List.nil_append]
  · rw [if_neg h, clean_season (hS h), diffL, diffL, if_neg h]
    simp

theorem clean_lagged {S r d i : ℕ} (hr : 0 < r) (hS : i ≠ 0 → 0 < S) :
    String.ofList (clean (s!"L{r}{curr S d i}.data").toList) = Spec.label Spec.shortPower S r d i := by
  obtain ⟨hu, hq⟩ := lag_pass hr
  rw [← String.toList_inj, String.toList_ofList, label_lag hr, ← clean_curr _ hu hq d i hS]
  congr 1
  simp only [String.toList_append, toString, List.append_assoc, List.cons_append]
  rfl

theorem clean_seasonal {S d i : ℕ} (hi : i ≠ 0) (hS : 0 < S) :
    String.ofList (clean (s!"{curr S d i}.data").toList) = Spec.label Spec.shortPower S 0 d i := by
  rw [← String.toList_inj, String.toList_ofList, label_zero (Or.inr hi)]
  have := clean_curr [] (by simp) (fun v => rfl) (S := S) d i (fun _ => hS)
  simp only [List.nil_append] at this
  rw [← this]
  congr 1
  simp only [String.toList_append, toString]
  rfl

theorem clean_diff {S d : ℕ} (hd : d ≠ 0) :
    String.ofList (clean (s!"D1^{d}.data").toList) = Spec.label Spec.shortPower S 0 d 0 := by
  rw [← String.toList_inj, String.toList_ofList, label_zero (Or.inl hd)]
  have := clean_base (u := []) (by simp) (fun v => rfl) d suf
  rw [clean_suf] at this
  simp only [List.nil_append] at this
  rw [show diffL S 0 = [] from if_pos rfl, List.nil_append, ← this]
  congr 1
  simp only [String.toList_append, toString, base, List.append_assoc, List.cons_append, if_pos (Nat.pos_of_ne_zero hd)]
  rfl

theorem clean_plain {s : String} (h1 : '^' ∉ s.toList) (h2 : 'L' ∉ s.toList) (h3 : 'D' ∉ s.toList) :
    String.ofList (clean s.toList) = s := by
  have a := passP_free h1 []
  have b := passQ_free h2 h3 []
  simp only [List.append_nil, show passP [] = [] from rfl, show passQ [] = [] from rfl] at a b
  rw [clean_eq, a, b, String.ofList_toList]

theorem clean_state (pre : String) (hp : '^' ∉ pre.toList ∧ 'L' ∉ pre.toList ∧ 'D' ∉ pre.toList) (n : ℕ) :
    String.ofList (clean (pre ++ toString n).toList) = pre ++ toString n := by
  have h : ∀ c : Char, c ∉ pre.toList → c.isDigit = false → c ∉ (pre ++ toString n).toList := by
    intro c hc hd
    rw [String.toList_append, List.mem_append, not_or]
    exact ⟨hc, not_digit hd⟩
  exact clean_plain (h _ hp.1 (by decide)) (h _ hp.2.1 (by decide)) (h _ hp.2.2 (by decide))

theorem shift_blocks {α : Type} (f : ℕ → List α) (g : ℕ → α) : ∀ E : ℕ,
    g 0 :: (List.range E).flatMap (fun i => f i ++ [g (i + 1)]) = (List.range E).flatMap (fun i => g i :: f i) ++ [g E]
  | 0 => rfl
  | E + 1 => by
    rw [List.range_succ, List.flatMap_append, List.flatMap_append, ← List.cons_append, shift_blocks f g E]
    simp

theorem shift_blocks' {α : Type} (f : ℕ → List α) (g : ℕ → α) {D : ℕ} (hD : 0 < D) :
    g 0 :: (List.range D).flatMap (fun i => f i ++ if i ≠ D - 1 then [g (i + 1)] else []) =
      (List.range D).flatMap (fun i => g i :: f i) := by
  obtain ⟨E, rfl⟩ : ∃ E, D = E + 1 := ⟨D - 1, by omega⟩
  have h : (List.range E).flatMap (fun i => f i ++ if i ≠ E + 1 - 1 then [g (i + 1)] else []) =
      (List.range E).flatMap (fun i => f i ++ [g (i + 1)]) := by
    refine List.flatMap_congr fun i hi => ?_
    have := List.mem_range.1 hi
    rw [if_pos (by omega)]
  rw [List.range_succ, List.flatMap_append, List.flatMap_append, ← List.cons_append, h, shift_blocks f g E]
  simp

theorem flat_blocks {α : Type} (h : ℕ → ℕ → α) {S : ℕ} (hS : 0 < S) : ∀ D : ℕ,
    (List.range D).flatMap (fun i => (List.range S).map (h i)) = (List.range (S * D)).map fun m => h (m / S) (m % S)
  | 0 => by simp
  | D + 1 => by
    rw [List.range_succ, List.flatMap_append, flat_blocks h hS D, Nat.mul_add, Nat.mul_one, List.range_add, List.map_append]
    congr 1
    simp only [List.flatMap_cons, List.flatMap_nil, List.append_nil, List.map_map]
    refine List.map_congr_left fun r hr => ?_
    have := List.mem_range.1 hr
    simp only [Function.comp, Nat.mul_add_div hS, Nat.mul_add_mod, Nat.div_eq_of_lt this, Nat.mod_eq_of_lt this, Nat.add_zero]

theorem range_split {α : Type} (o : Order) (f : ℕ → α) : (List.range o.kStates).map f =
    (List.range o.d).map f ++ (List.range (o.S * o.D)).map (fun m => f (o.d + m)) ++ [f (o.d + o.S * o.D)] ++
      (List.range (o.kLags - 1)).map fun i => f (o.d + o.S * o.D + (i + 1)) := by
  have hk : 1 ≤ o.kLags := by simp only [Order.kLags]; omega
  have : o.kStates = o.d + o.S * o.D + (1 + (o.kLags - 1)) := by
    simp only [Order.kStates, Order.kDiffs]; omega
  rw [this, List.range_add (n := o.d + o.S * o.D), List.range_add (n := o.d), List.range_add (n := 1)]
  simp only [List.map_append, List.map_map, List.append_assoc, Function.comp_def, List.range_one, List.map_cons,
    List.map_nil, Nat.add_zero, Nat.add_comm 1]

theorem dropLast_range' (n : ℕ) : (List.range n).dropLast = List.range (n - 1) := by
  cases n with
  | zero => rfl
  | succ n => rw [List.range_succ, List.dropLast_concat, Nat.add_sub_cancel]

theorem harvey_season (o : Order) (hD : 0 < o.D) : harveyNames o =
    ["data"] ++ (List.range o.d).map (fun i => s!"D1^{i + 1}.data") ++
      ((List.range o.D).flatMap fun i => (List.range (o.S - 1)).map (fun j => s!"L{j + 1}{curr o.S o.d i}.data") ++
        (if i ≠ o.D - 1 then [s!"{curr o.S o.d (i + 1)}.data"] else [])) ++ ["data_star"] ++
      (List.range (o.kLags - 1)).map fun i => "state_star_" ++ toString (i + 1) := by
  have h1 : o.d + (if 0 < o.D then 1 else 0) = o.d + 1 := by rw [if_pos hD]
  have h2 : 0 < o.d + o.D := by omega
  have h3 : (if 1 < o.d + 1 then 1 else 0) = if 0 < o.d then 1 else 0 := by
    by_cases h : 0 < o.d
    · rw [if_pos h, if_pos (by omega)]
    · rw [if_neg h, if_neg (by omega)]
  have h4 : ∀ i : ℕ, toString "state" ++ toString "_star" ++ toString "_" ++ toString (i + 1) = "state_star_" ++ toString (i + 1) := by
    intro i; rfl
  unfold harveyNames
  simp only [h1, h2, if_true, h3, Nat.add_sub_cancel, dropLast_range', h4]
  rfl

theorem harvey_plain (o : Order) (hD : o.D = 0) (hd : 0 < o.d) : harveyNames o =
    ["data"] ++ (List.range (o.d - 1)).map (fun i => s!"D1^{i + 1}.data") ++ ["data_star"] ++
      (List.range (o.kLags - 1)).map fun i => "state_star_" ++ toString (i + 1) := by
  have h1 : o.d + (if 0 < o.D then 1 else 0) = o.d := by rw [hD]; rfl
  have h2 : 0 < o.d + o.D := by omega
  have h4 : ∀ i : ℕ, toString "state" ++ toString "_star" ++ toString "_" ++ toString (i + 1) = "state_star_" ++ toString (i + 1) := by
    intro i; rfl
  unfold harveyNames
  simp only [h1, h2, if_true, dropLast_range', h4]
  simp only [hD, List.range_zero, List.flatMap_nil, List.append_nil]

theorem harvey_none (o : Order) (hD : o.D = 0) (hd : o.d = 0) : harveyNames o =
    ["data"] ++ (List.range (o.kLags - 1)).map fun i => "state_" ++ toString (i + 1) := by
  have h4 : ∀ i : ℕ, toString "state" ++ toString "" ++ toString "_" ++ toString (i + 1) = "state_" ++ toString (i + 1) := by
    intro i; rfl
  unfold harveyNames
  simp only [hD, hd, Nat.add_zero, lt_irrefl, if_false, List.range_zero, List.dropLast_nil, List.map_nil,
    List.flatMap_nil, List.append_nil, h4]

theorem states_star (n : ℕ) : ((List.range n).map fun i => "state_star_" ++ toString (i + 1)).map
    (fun s => String.ofList (clean s.toList)) = (List.range n).map fun i => "state_star_" ++ toString (i + 1) := by
  rw [List.map_map]
  exact List.map_congr_left fun i _ => clean_state _ (by decide) _

theorem states_plain (n : ℕ) : ((List.range n).map fun i => "state_" ++ toString (i + 1)).map
    (fun s => String.ofList (clean s.toList)) = (List.range n).map fun i => "state_" ++ toString (i + 1) := by
  rw [List.map_map]
  exact List.map_congr_left fun i _ => clean_state _ (by decide) _

theorem data_diffs (S n : ℕ) : ["data"] ++ ((List.range n).map fun i => s!"D1^{i + 1}.data").map
    (fun s => String.ofList (clean s.toList)) = (List.range (n + 1)).map fun i => Spec.label Spec.shortPower S 0 i 0 := by
  rw [List.range_succ_eq_map, List.map_cons, List.map_map, List.map_map]
  rw [List.singleton_append, show Spec.label Spec.shortPower S 0 0 0 = "data" from rfl]
  refine congrArg _ (List.map_congr_left fun i _ => ?_)
  exact clean_diff (Nat.succ_ne_zero i)

/-- **C202**: the names of the states of the fast form, for every order: which differences and which lag each label means,
except that an exponent whose decimal text starts with the digit one loses that digit. -/
theorem C202_names (c : Opts) (hf : c.fast = true) (hS : Sarima.Spec.Proper c.o) :
    c.stateNames = (List.range c.kStates).map (Spec.name Spec.shortPower c.o) := by
  rw [Opts.stateNames, Opts.kStates, if_pos hf, if_pos hf, range_split]
  generalize c.o = o at hS
  have hdata : String.ofList (clean "data".toList) = "data" := by decide
  have hstar : String.ofList (clean "data_star".toList) = "data_star" := by decide
  have hlow : (List.range o.d).map (Spec.name Spec.shortPower o) =
      (List.range o.d).map fun i => Spec.label Spec.shortPower o.S 0 i 0 :=
    List.map_congr_left fun i hi => by rw [Spec.name, if_pos (List.mem_range.1 hi)]
  have htop : Spec.name Spec.shortPower o (o.d + o.S * o.D) = if o.d + o.D = 0 then "data" else "data_star" := by
    rw [Spec.name, if_neg (by omega), if_neg (by omega), if_pos rfl]
  have hrest : ∀ i, Spec.name Spec.shortPower o (o.d + o.S * o.D + (i + 1)) =
      if o.d + o.D = 0 then "state_" ++ toString (i + 1) else "state_star_" ++ toString (i + 1) := by
    intro i
    rw [Spec.name, if_neg (by omega), if_neg (by omega), if_neg (by omega), Nat.add_sub_cancel_left]
  rw [hlow, htop]
  simp only [hrest]
  unfold cleanup
  rcases Nat.eq_zero_or_pos o.D with hD | hD
  · rcases Nat.eq_zero_or_pos o.d with hd | hd
    · rw [harvey_none o hD hd, List.map_append, states_plain, List.map_cons, List.map_nil, hdata]
      simp [hD, hd]
    · rw [harvey_plain o hD hd, List.map_append, List.map_append, List.map_append, states_star]
      have := data_diffs o.S (o.d - 1)
      rw [Nat.sub_add_cancel hd] at this
      rw [List.map_cons, List.map_nil, hdata, this, List.map_cons, List.map_nil, hstar]
      simp [hD, show o.d ≠ 0 by omega]
  · have hs : 0 < o.S := Nat.pos_of_ne_zero fun h => by have := hS h; omega
    have h0 : o.d + o.D ≠ 0 := by omega
    rw [harvey_season o hD, List.map_append, List.map_append, List.map_append, List.map_append, states_star,
      List.map_cons, List.map_nil, hdata, data_diffs o.S o.d]
    simp only [h0, if_false, List.map_cons, List.map_nil, hstar]
    congr 2
    rw [List.range_succ, List.map_append, List.append_assoc]
    congr 1
    rw [List.map_cons, List.map_nil, List.singleton_append, List.map_flatMap]
    have hb := shift_blocks' (fun i => (List.range (o.S - 1)).map fun j => Spec.label Spec.shortPower o.S (j + 1) o.d i)
      (fun i => Spec.label Spec.shortPower o.S 0 o.d i) hD
    have hc : ∀ i, Spec.label Spec.shortPower o.S 0 o.d i ::
        ((List.range (o.S - 1)).map fun j => Spec.label Spec.shortPower o.S (j + 1) o.d i) =
        (List.range o.S).map fun r => Spec.label Spec.shortPower o.S r o.d i := by
      intro i
      obtain ⟨s, hs'⟩ : ∃ s, o.S = s + 1 := ⟨o.S - 1, by omega⟩
      rw [hs', Nat.add_sub_cancel, List.range_succ_eq_map, List.map_cons, List.map_map]; rfl
    simp only [hc] at hb
    rw [flat_blocks _ hs] at hb
    have hm : (List.range (o.S * o.D)).map (fun m => Spec.name Spec.shortPower o (o.d + m)) =
        (List.range (o.S * o.D)).map fun m => Spec.label Spec.shortPower o.S (m % o.S) o.d (m / o.S) := by
      refine List.map_congr_left fun m hm => ?_
      have := List.mem_range.1 hm
      rw [Spec.name, if_neg (by omega), if_pos (by omega), Nat.add_sub_cancel_left]
    rw [hm, ← hb]
    refine congrArg _ (List.flatMap_congr fun i _ => ?_)
    rw [List.map_append, List.map_map]
    refine congrArg₂ _ ?_ ?_
    · exact List.map_congr_left fun j _ => clean_lagged (by omega) (fun _ => hs)
    · split_ifs
      · rw [List.map_cons, List.map_nil, clean_seasonal (by omega) hs]
      · rfl

theorem shortPower_eq {k : ℕ} (h : k < 10) (h0 : k ≠ 0) : Spec.shortPower k = Spec.power k := by
  interval_cases k <;> first | exact absurd rfl h0 | decide

/-- **C202**: with at most nine ordinary and ten seasonal differences the names are the documented ones. -/
theorem C202_documented (c : Opts) (hf : c.fast = true) (hS : Sarima.Spec.Proper c.o) (hd : c.o.d ≤ 9) (hD : c.o.D ≤ 10) :
    c.stateNames = (List.range c.kStates).map (Spec.name Spec.power c.o) := by
  rw [C202_names c hf hS]
  refine List.map_congr_left fun m _ => ?_
  have ht : ∀ s k, k < 10 → Spec.diffText Spec.shortPower s k = Spec.diffText Spec.power s k := by
    intro s k hk
    unfold Spec.diffText
    split_ifs with h
    · rfl
    · rw [shortPower_eq hk h]
  have hl : ∀ S r i j, i < 10 → j < 10 → Spec.label Spec.shortPower S r i j = Spec.label Spec.power S r i j := by
    intro S r i j hi hj
    unfold Spec.label
    rw [ht 1 i hi, ht S j hj]
  unfold Spec.name
  split_ifs with h1 h2
  · rw [hl _ _ _ _ (by omega) (by omega)]
  · have : (m - c.o.d) / c.o.S < c.o.D := by
      rcases Nat.eq_zero_or_pos c.o.S with h | h
      · rw [h] at h2; omega
      · exact (Nat.div_lt_iff_lt_mul h).2 (by rw [Nat.mul_comm]; omega)
    rw [hl _ _ _ _ (by omega) (by omega)]
  all_goals rfl

/-! ### The names are distinct -/

theorem span_digits {a b : ℕ} {x y : List Char} (hx : ∀ c r, x = c :: r → c.isDigit = false)
    (hy : ∀ c r, y = c :: r → c.isDigit = false) (h : digits a ++ x = digits b ++ y) : a = b ∧ x = y := by
  have key : ∀ (u v : List Char), (∀ c ∈ u, c.isDigit = true) → (∀ c ∈ v, c.isDigit = true) → u ++ x = v ++ y →
      u = v ∧ x = y := by
    intro u
    induction u with
    | nil =>
      intro v _ hv e
      cases v with
      | nil => exact ⟨rfl, e⟩
      | cons c v => have := hx c _ e; rw [hv c (by simp)] at this; cases this
    | cons c u ih =>
      intro v hu hv e
      cases v with
      | nil => have := hy c _ e.symm; rw [hu c (by simp)] at this; cases this
      | cons c' v =>
        injection e with e1 e2
        obtain ⟨h1, h2⟩ := ih v (fun z hz => hu z (by simp [hz])) (fun z hz => hv z (by simp [hz])) e2
        exact ⟨by rw [e1, h1], h2⟩
  obtain ⟨h1, h2⟩ := key _ _ (fun c hc => digits_isDigit hc) (fun c hc => digits_isDigit hc) h
  exact ⟨digits_injective _ _ h1, h2⟩

theorem season_inj {S j j' : ℕ} (h : diffL S j ++ suf = diffL S j' ++ suf) : j = j' := by
  rw [List.append_cancel_right_eq] at h
  unfold diffL at h
  split_ifs at h with h1 h2 h2
  · rw [h1, h2]
  · simp at h
  · simp at h
  · rw [List.append_cancel_left_eq] at h
    exact pw_inj (by omega) (by omega) h

theorem no_D_suf : 'D' ∉ suf := by decide

theorem no_D_pw (k : ℕ) : 'D' ∉ pw k := pw_free (by decide) (by decide) k

theorem mem_D {S j : ℕ} (h : j ≠ 0) : 'D' ∈ diffL S j := by rw [diffL, if_neg h]; simp

theorem body_inj {S d i j i' j' : ℕ} (hi : i ≤ d) (hi' : i' ≤ d) (h1 : i = d ∨ j = 0) (h2 : i' = d ∨ j' = 0)
    (h : diffL 1 i ++ (diffL S j ++ suf) = diffL 1 i' ++ (diffL S j' ++ suf)) : i = i' ∧ j = j' := by
  have hs : ∀ r : List Char, suf ≠ 'D' :: r := fun r e => by cases e
  rcases Nat.eq_zero_or_pos i with rfl | hp
  · rcases Nat.eq_zero_or_pos i' with rfl | hp'
    · exact ⟨rfl, season_inj (by rwa [List.append_cancel_left_eq] at h)⟩
    · have : j = 0 := by omega
      rw [this, diffL, if_pos rfl, diffL, if_pos rfl, diffL, if_neg (by omega)] at h
      exact absurd h (hs _)
  · rcases Nat.eq_zero_or_pos i' with rfl | hp'
    · have : j' = 0 := by omega
      rw [this, diffL, if_neg (by omega), diffL, diffL, if_pos rfl, diffL, if_pos rfl] at h
      exact absurd h.symm (hs _)
    · have e : ∀ k, 0 < k → diffL 1 k = 'D' :: digits 1 ++ pw k := fun k hk => by rw [diffL, if_neg (by omega)]
      rw [e i hp, e i' hp', List.append_assoc, List.append_assoc, List.append_cancel_left_eq] at h
      by_cases hj : j = 0 <;> by_cases hj' : j' = 0
      · rw [hj, hj', show diffL S 0 = [] from if_pos rfl, List.nil_append, List.append_cancel_right_eq] at h
        exact ⟨pw_inj hp hp' h, by omega⟩
      · exfalso
        rw [hj, show diffL S 0 = [] from if_pos rfl, List.nil_append] at h
        have : 'D' ∈ pw i ++ suf := by rw [h]; simp [mem_D hj']
        rcases List.mem_append.1 this with h | h
        · exact no_D_pw _ h
        · exact no_D_suf h
      · exfalso
        rw [hj', show diffL S 0 = [] from if_pos rfl, List.nil_append] at h
        have : 'D' ∈ pw i' ++ suf := by rw [← h]; simp [mem_D hj]
        rcases List.mem_append.1 this with h | h
        · exact no_D_pw _ h
        · exact no_D_suf h
      · have : i = i' := by omega
        subst this
        rw [List.append_cancel_left_eq] at h
        exact ⟨rfl, season_inj h⟩

theorem body_head {S i j : ℕ} : ∃ c r, diffL 1 i ++ (diffL S j ++ suf) = c :: r ∧ (c = 'D' ∨ c = '.') ∧
    (c = 'D' ↔ ¬ (i = 0 ∧ j = 0)) := by
  by_cases hi : i = 0
  · by_cases hj : j = 0
    · exact ⟨'.', ['d', 'a', 't', 'a'], by rw [hi, hj]; rfl, Or.inr rfl, by simp [hi, hj]⟩
    · exact ⟨'D', digits S ++ pw j ++ suf, by rw [hi, diffL, if_pos rfl, diffL, if_neg hj]; simp, Or.inl rfl, by simp [hj]⟩
  · exact ⟨'D', digits 1 ++ pw i ++ (diffL S j ++ suf), by rw [diffL, if_neg hi]; simp, Or.inl rfl, by simp [hi]⟩

theorem label_none (S : ℕ) : Spec.label Spec.shortPower S 0 0 0 = "data" := if_pos ⟨rfl, rfl, rfl⟩

/-- The first character of a label. -/
theorem label_head (S r i j : ℕ) : ∃ c t, (Spec.label Spec.shortPower S r i j).toList = c :: t ∧
    ((0 < r ∧ c = 'L') ∨ (r = 0 ∧ (i ≠ 0 ∨ j ≠ 0) ∧ c = 'D') ∨ (r = 0 ∧ i = 0 ∧ j = 0 ∧ c = 'd')) := by
  rcases Nat.eq_zero_or_pos r with rfl | hr
  · by_cases h : i ≠ 0 ∨ j ≠ 0
    · obtain ⟨c, t, e, _, hc⟩ := @body_head S i j
      rw [label_zero h, e]
      exact ⟨c, t, rfl, Or.inr (Or.inl ⟨rfl, h, hc.2 (by omega)⟩)⟩
    · have hi : i = 0 := by omega
      have hj : j = 0 := by omega
      subst hi hj
      exact ⟨'d', ['a', 't', 'a'], by rw [label_none]; rfl, Or.inr (Or.inr ⟨rfl, rfl, rfl, rfl⟩)⟩
  · rw [label_lag hr]
    exact ⟨'L', _, rfl, Or.inl ⟨hr, rfl⟩⟩

theorem label_inj {S d r i j r' i' j' : ℕ} (hi : i ≤ d) (hi' : i' ≤ d) (h1 : i = d ∨ j = 0) (h2 : i' = d ∨ j' = 0)
    (h : Spec.label Spec.shortPower S r i j = Spec.label Spec.shortPower S r' i' j') : r = r' ∧ i = i' ∧ j = j' := by
  have hl := congrArg String.toList h
  obtain ⟨c, t, e, hc⟩ := label_head S r i j
  obtain ⟨c', t', e', hc'⟩ := label_head S r' i' j'
  have hcc : c = c' := by
    have := hl; rw [e, e'] at this; injection this
  subst hcc
  rcases hc with ⟨hr, rfl⟩ | ⟨hr, hz, rfl⟩ | ⟨hr, hi0, hj0, rfl⟩
  · rcases hc' with ⟨hr', -⟩ | ⟨_, _, h⟩ | ⟨_, _, _, h⟩
    · rw [label_lag hr, label_lag hr', List.cons_append, List.cons_append] at hl
      injection hl with _ hl
      have nd : ∀ (i j : ℕ) c r, diffL 1 i ++ (diffL S j ++ suf) = c :: r → c.isDigit = false := by
        intro i j c r e
        obtain ⟨c', t', e', hc', _⟩ := @body_head S i j
        rw [e] at e'
        injection e' with e1 _
        rw [e1]
        rcases hc' with h | h <;> rw [h] <;> decide
      obtain ⟨hrr, hb⟩ := span_digits (nd i j) (nd i' j') hl
      exact ⟨hrr, body_inj hi hi' h1 h2 hb⟩
    · cases h
    · cases h
  · rcases hc' with ⟨_, h⟩ | ⟨hr', hz', -⟩ | ⟨_, _, _, h⟩
    · cases h
    · subst hr hr'
      rw [label_zero hz, label_zero hz'] at hl
      exact ⟨rfl, body_inj hi hi' h1 h2 hl⟩
    · cases h
  · rcases hc' with ⟨_, h⟩ | ⟨_, _, h⟩ | ⟨hr', hi0', hj0', -⟩
    · cases h
    · cases h
    · omega

theorem state_head (pre : String) (c : Char) (t : List Char) (h : pre.toList = c :: t) (n : ℕ) :
    ∃ t', (pre ++ toString n).toList = c :: t' := by
  rw [String.toList_append, h]; exact ⟨_, rfl⟩

/-- **C202**: no two states of a fast model have the same name, for any order. -/
theorem C202_distinct (c : Opts) (hf : c.fast = true) (hS : Sarima.Spec.Proper c.o) : c.stateNames.Nodup := by
  rw [C202_names c hf hS]
  generalize c.kStates = n
  refine List.Nodup.map_on ?_ List.nodup_range
  generalize c.o = o at hS
  -- the label of a low position
  have low : ∀ m, m < o.d + o.S * o.D → ∃ r i j, Spec.name Spec.shortPower o m = Spec.label Spec.shortPower o.S r i j ∧
      i ≤ o.d ∧ (i = o.d ∨ j = 0) ∧ ((i < o.d ∧ r = 0 ∧ j = 0 ∧ m = i) ∨ (i = o.d ∧ m = o.d + (o.S * j + r))) := by
    intro m hm
    by_cases h : m < o.d
    · exact ⟨0, m, 0, by rw [Spec.name, if_pos h], by omega, Or.inr rfl, Or.inl ⟨h, rfl, rfl, rfl⟩⟩
    · refine ⟨(m - o.d) % o.S, o.d, (m - o.d) / o.S, by rw [Spec.name, if_neg h, if_pos hm], le_rfl, Or.inl rfl,
        Or.inr ⟨rfl, ?_⟩⟩
      rw [Nat.div_add_mod]; omega
  have high : ∀ m, ¬ m < o.d + o.S * o.D → Spec.name Spec.shortPower o m =
      if m = o.d + o.S * o.D then (if o.d + o.D = 0 then "data" else "data_star")
      else (if o.d + o.D = 0 then "state_" else "state_star_") ++ toString (m - (o.d + o.S * o.D)) := by
    intro m hm
    rw [Spec.name, if_neg (by omega), if_neg hm]
    split_ifs <;> rfl
  have highhead : ∀ m, ¬ m < o.d + o.S * o.D → ∃ c t, (Spec.name Spec.shortPower o m).toList = c :: t ∧
      ((m = o.d + o.S * o.D ∧ c = 'd') ∨ (m ≠ o.d + o.S * o.D ∧ c = 's')) := by
    intro m hm
    rw [high m hm]
    split_ifs with h1 h2 h2
    · exact ⟨'d', _, rfl, Or.inl ⟨h1, rfl⟩⟩
    · exact ⟨'d', _, rfl, Or.inl ⟨h1, rfl⟩⟩
    · obtain ⟨t, ht⟩ := state_head "state_" 's' _ rfl (m - (o.d + o.S * o.D))
      exact ⟨'s', t, ht, Or.inr ⟨h1, rfl⟩⟩
    · obtain ⟨t, ht⟩ := state_head "state_star_" 's' _ rfl (m - (o.d + o.S * o.D))
      exact ⟨'s', t, ht, Or.inr ⟨h1, rfl⟩⟩
  have mixed : ∀ m m', m < o.d + o.S * o.D → ¬ m' < o.d + o.S * o.D →
      Spec.name Spec.shortPower o m ≠ Spec.name Spec.shortPower o m' := by
    intro m m' hm hm' e
    obtain ⟨r, i, j, hl, -⟩ := low m hm
    obtain ⟨c, t, hh, hc⟩ := highhead m' hm'
    obtain ⟨c', t', hh', hc'⟩ := label_head o.S r i j
    rw [← e, hl, hh'] at hh
    injection hh with e1 _
    rcases hc with ⟨hmm, rfl⟩ | ⟨_, rfl⟩
    · rcases hc' with ⟨_, h⟩ | ⟨_, _, h⟩ | ⟨hr, hi, hj, -⟩
      · rw [h] at e1; cases e1
      · rw [h] at e1; cases e1
      · rw [hl, hr, hi, hj, high m' hm', if_pos hmm, if_neg] at e
        · rw [label_none] at e; exact absurd e (by decide)
        · intro h0
          rw [show o.D = 0 by omega, show o.d = 0 by omega] at hm
          omega
    · rcases hc' with ⟨_, h⟩ | ⟨_, _, h⟩ | ⟨_, _, _, h⟩ <;> rw [h] at e1 <;> cases e1
  intro m _ m' _ e
  by_cases hm : m < o.d + o.S * o.D <;> by_cases hm' : m' < o.d + o.S * o.D
  · obtain ⟨r, i, j, hl, hi, h1, hp⟩ := low m hm
    obtain ⟨r', i', j', hl', hi', h1', hp'⟩ := low m' hm'
    rw [hl, hl'] at e
    obtain ⟨rfl, rfl, rfl⟩ := label_inj hi hi' h1 h1' e
    omega
  · exact absurd e (mixed m m' hm hm')
  · exact absurd e.symm (mixed m' m hm' hm)
  · obtain ⟨c, t, hh, hc⟩ := highhead m hm
    obtain ⟨c', t', hh', hc'⟩ := highhead m' hm'
    have : c = c' := by rw [← e, hh] at hh'; injection hh'
    rcases hc with ⟨h, rfl⟩ | ⟨h, rfl⟩ <;> rcases hc' with ⟨h', hc'⟩ | ⟨h', hc'⟩
    · rw [h, h']
    · rw [hc'] at this; cases this
    · rw [hc'] at this; cases this
    · rw [high m hm, high m' hm', if_neg h, if_neg h'] at e
      have e2 := congrArg String.toList e
      rw [String.toList_append, String.toList_append, List.append_cancel_left_eq] at e2
      have := digits_injective _ _ e2
      omega

theorem lagged_toList (s : String) (i : ℕ) : (s!"L{i + 1}{s}").toList = 'L' :: (digits (i + 1) ++ s.toList) := by
  simp only [String.toList_append, toString]
  rfl

theorem lagged_inj {s s' : String} {i j : ℕ} (hs : '.' :: s.toList.tail = s.toList) (hs' : '.' :: s'.toList.tail = s'.toList)
    (e : s!"L{i + 1}{s}" = s!"L{j + 1}{s'}") : i = j ∧ s = s' := by
  have e2 := congrArg String.toList e
  rw [lagged_toList, lagged_toList] at e2
  injection e2 with _ e2
  have nd : ∀ s : String, '.' :: s.toList.tail = s.toList → ∀ c r, s.toList = c :: r → c.isDigit = false := by
    intro s hs c r h; rw [← hs] at h; injection h with h _; rw [← h]; decide
  have := span_digits (nd s hs) (nd s' hs') e2
  exact ⟨by omega, String.toList_inj.1 this.2⟩

/-- **C202**: nor have two states of an interpretable model. -/
theorem C202_distinct_interpretable (c : Opts) (hf : c.fast = false) : c.stateNames.Nodup := by
  rw [Opts.stateNames, if_neg (by simp [hf])]
  generalize c.o = o
  have hd : '.' :: ".data".toList.tail = ".data".toList := by decide
  have hi : '.' :: ".innovations".toList.tail = ".innovations".toList := by decide
  have hmem : ∀ (b : Prop) [Decidable b] (n : ℕ) (s x : String),
      x ∈ (if b then (List.range n).map fun i => s!"L{i + 1}{s}" else []) → ∃ i : ℕ, x = s!"L{i + 1}{s}" := by
    intro b _ n s x hx
    split_ifs at hx
    · obtain ⟨i, _, rfl⟩ := List.mem_map.1 hx
      exact ⟨i, rfl⟩
    · cases hx
  have hnd : ∀ (b : Prop) [Decidable b] (n : ℕ) (s : String), '.' :: s.toList.tail = s.toList →
      (if b then (List.range n).map fun i => s!"L{i + 1}{s}" else []).Nodup := by
    intro b _ n s hs
    split_ifs
    · exact List.Nodup.map_on (fun i _ j _ e => (lagged_inj hs hs e).1) List.nodup_range
    · exact List.nodup_nil
  have hh : ∀ (s : String) (i : ℕ), s!"L{i + 1}{s}" ≠ "data" ∧ s!"L{i + 1}{s}" ≠ "innovations" := by
    intro s i
    constructor <;> intro e <;> have := congrArg String.toList e <;> rw [lagged_toList] at this <;>
      injection this with h _ <;> cases h
  change (["data"] ++ (if 0 < o.p then (List.range (o.pMax - 1)).map fun i => s!"L{i + 1}{".data"}" else []) ++
    ["innovations"] ++
    (if 0 < o.q then (List.range (o.qMax - 1)).map fun i => s!"L{i + 1}{".innovations"}" else [])).Nodup
  rw [List.nodup_append, List.nodup_append, List.nodup_append]
  refine ⟨⟨⟨by decide, hnd _ _ _ hd, ?_⟩, by decide, ?_⟩, hnd _ _ _ hi, ?_⟩
  · intro x hx y hy e
    obtain ⟨i, rfl⟩ := hmem _ _ _ _ hy
    rw [List.mem_singleton] at hx
    exact (hh _ i).1 (e ▸ hx)
  · intro x hx y hy e
    rw [List.mem_singleton] at hy
    rw [hy] at e
    rcases List.mem_append.1 hx with h | h
    · rw [List.mem_singleton] at h; rw [h] at e; exact absurd e (by decide)
    · obtain ⟨i, rfl⟩ := hmem _ _ _ _ h
      exact (hh _ i).2 e
  · intro x hx y hy e
    obtain ⟨i, rfl⟩ := hmem _ _ _ _ hy
    rcases List.mem_append.1 hx with h | h
    · rcases List.mem_append.1 h with h | h
      · rw [List.mem_singleton] at h; exact (hh _ i).1 (by rw [← e, h])
      · obtain ⟨j, rfl⟩ := hmem _ _ _ _ h
        exact absurd (lagged_inj hd hi e).2 (by decide)
    · rw [List.mem_singleton] at h; exact (hh _ i).2 (by rw [← e, h])

/-- **C202**, negative part: from ten ordinary differences on, the state holding the tenth difference is labelled
`D10.data` instead of `D1^10.data`; this is the label of the data differenced once with step ten. -/
theorem C202_tenth_difference (c : Opts) (hf : c.fast = true) (hS : Sarima.Spec.Proper c.o)
    (h : 11 ≤ c.o.d ∨ (c.o.d = 10 ∧ 0 < c.o.D)) :
    c.stateNames[10]? = some "D10.data" ∧ Spec.name Spec.power c.o 10 = "D1^10.data" ∧
      ∀ c' : Opts, c'.fast = true → c'.o.d = 0 → c'.o.S = 10 → 2 ≤ c'.o.D → c'.stateNames[10]? = some "D10.data" := by
  have e : ∀ pow : ℕ → String, Spec.name pow c.o 10 = Spec.label pow c.o.S 0 10 0 := by
    intro pow
    rcases h with h | ⟨h, hD⟩
    · rw [Spec.name, if_pos (by omega)]
    · have hs : 0 < c.o.S := Nat.pos_of_ne_zero fun h0 => by have := hS h0; omega
      have : 0 < c.o.S * c.o.D := Nat.mul_pos hs hD
      rw [Spec.name, if_neg (by omega), if_pos (by omega), h, Nat.sub_self, Nat.zero_mod, Nat.zero_div]
  have hlab : ∀ pow : ℕ → String, ∀ S, Spec.label pow S 0 10 0 = "" ++ ("D" ++ toString 1 ++ pow 10) ++ "" ++ ".data" :=
    fun pow S => rfl
  have hk : 10 < c.kStates := by
    rw [Opts.kStates, if_pos hf, Order.kStates, Order.kDiffs]
    have : 1 ≤ c.o.kLags := by simp only [Order.kLags]; omega
    omega
  refine ⟨?_, ?_, ?_⟩
  · rw [C202_names c hf hS, List.getElem?_map, List.getElem?_range hk]
    exact congrArg some (by rw [e, hlab]; decide)
  · rw [e, hlab]; decide
  · intro c' hf' hd' hS' hD'
    have hk' : 10 < c'.kStates := by
      rw [Opts.kStates, if_pos hf', Order.kStates, Order.kDiffs, hS']
      omega
    rw [C202_names c' hf' (fun h => by omega), List.getElem?_map, List.getElem?_range hk']
    refine congrArg some ?_
    rw [Spec.name, if_neg (by omega), hS', if_pos (by omega), hd']
    decide

/-- A model with one ordinary and two seasonal differences of length four. -/
def Example.sarima : Opts := ⟨⟨1, 1, 0, 0, 2, 0, 4⟩, true, false, false⟩

example : Example.sarima.stateNames = ["data", "D1.data", "L1D1.data", "L2D1.data", "L3D1.data", "D1D4.data", "L1D1D4.data",
    "L2D1D4.data", "L3D1D4.data", "data_star"] := by
  rw [C202_documented Example.sarima rfl (fun h => absurd h (by decide)) (by decide) (by decide)]
  decide

example : Example.sarima.stateNames.Nodup := C202_distinct _ rfl (fun h => absurd h (by decide))

example : (⟨⟨1, 11, 0, 0, 0, 0, 0⟩, true, false, false⟩ : Opts).stateNames[10]? = some "D10.data" :=
  (C202_tenth_difference _ rfl (fun _ => ⟨rfl, rfl, rfl⟩) (Or.inl (by decide))).1

end Verif.Params.Sarimax
