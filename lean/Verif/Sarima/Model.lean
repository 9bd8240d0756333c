import Mathlib.Data.Real.Basic
import Mathlib.Algebra.BigOperators.Group.Finset.Basic

/-!
# SARIMA: translation of `statespace/models/SARIMAX.py` and of the SARIMA helpers in `statespace/models/utilities.py`

Matrices are functions on index pairs (all assignments made by the code stay inside `k_states`, and every sum runs over
indices below `k_states`); numpy's index arrays are lists of pairs in the order in which numpy visits them; symbolic
placeholders are replaced by the values they will receive and real arithmetic replaces floating point.
Orders with `S = 0` are modelled only when there is no seasonal term (Python's wrap-around of the index `-1`, which such
orders would produce, is not modelled).
-/

set_option autoImplicit false

open Finset

namespace Verif.Sarima

/-- `order` and `seasonal_order`. pymc_extras/statespace/models/SARIMAX.py:185-189 -/
structure Order where
  p : ℕ
  d : ℕ
  q : ℕ
  P : ℕ
  D : ℕ
  Q : ℕ
  S : ℕ
  deriving DecidableEq

/-- The two lists compared for one of "AR"/"MA": seasonal lags and lags, and whether they overlap.
pymc_extras/statespace/models/SARIMAX.py:29-33 -/
def overlaps (a A S : ℕ) : Bool :=
  ((List.range A).map fun i => (1 + i) * S).any fun s => decide (s ∈ (List.range a).map (1 + ·))

/-- `_verify_order`: `false` stands for the `ValueError`. pymc_extras/statespace/models/SARIMAX.py:27-37 -/
def verifyOrder (o : Order) : Bool := !(overlaps o.p o.P o.S) && !(overlaps o.q o.Q o.S)

/-- `_k_diffs`. pymc_extras/statespace/models/SARIMAX.py:200; utilities.py:255 -/
def Order.kDiffs (o : Order) : ℕ := o.S * o.D + o.d

/-- `k_lags`. pymc_extras/statespace/models/SARIMAX.py:215; utilities.py:91, 256 -/
def Order.kLags (o : Order) : ℕ := max (o.p + o.P * o.S) (o.q + o.Q * o.S + 1)

/-- `k_states` of the "fast" form. pymc_extras/statespace/models/SARIMAX.py:214-217; utilities.py:257 -/
def Order.kStates (o : Order) : ℕ := o.kLags + o.kDiffs

/-- `_p_max`. pymc_extras/statespace/models/SARIMAX.py:196 -/
def Order.pMax (o : Order) : ℕ := max 1 (o.p + o.P * o.S)

/-- `_q_max`. pymc_extras/statespace/models/SARIMAX.py:197 -/
def Order.qMax (o : Order) : ℕ := max 1 (o.q + o.Q * o.S)

/-- `M[idx] = x` with an index array and a scalar value (numpy advanced assignment). Used by
pymc_extras/statespace/models/utilities.py:263, 292, 301, 303, 311 -/
def fill (M : ℕ × ℕ → ℝ) (idx : List (ℕ × ℕ)) (x : ℝ) : ℕ × ℕ → ℝ := fun a => if a ∈ idx then x else M a

/-- `M[idx] = v` with an index array of length `n` and as many values, assigned one after the other. Used by
pymc_extras/statespace/models/SARIMAX.py:420, 428, 436, 442, 450, 456, 477, 485, 491, 499, 507, 513 -/
def write {α : Type} [DecidableEq α] (M : α → ℝ) (n : ℕ) (idx : ℕ → α) (v : ℕ → ℝ) : α → ℝ :=
  (List.range n).foldl (fun M k => Function.update M (idx k) (v k)) M

/-- `np.triu_indices(d)`. pymc_extras/statespace/models/utilities.py:262 -/
def triu (d : ℕ) : List (ℕ × ℕ) := (List.range d ×ˢ List.range d).filter fun a => decide (a.1 ≤ a.2)

/-- `base_col_idx`. pymc_extras/statespace/models/utilities.py:271-273 -/
def baseCol (o : Order) : List ℕ :=
  let b := (List.range o.D).map fun m => o.d + o.S + m * o.S - 1
  if h : b = [] then b else b ++ [b.getLast h + 1]

/-- `zip(row_idx, col_idx)`. `np.tile`/`np.repeat` pair row `i` with each entry of `base_col_idx`, which is how it is
written here. pymc_extras/statespace/models/utilities.py:276-291 -/
def diffIdx (o : Order) : List (ℕ × ℕ) :=
  if o.D = 0 ∧ 0 < o.d then (List.range o.d).map fun i => (i, o.d)
  else ((List.range o.d).flatMap fun i => (baseCol o).map fun c => (i, c)) ++
    (List.range o.D).flatMap fun i => ((baseCol o).drop i).map fun c => (o.d + o.S * i, c)

/-- `zip(row_roll_idx, col_roll_idx)`. pymc_extras/statespace/models/utilities.py:296-298 -/
def rollIdx (o : Order) : List (ℕ × ℕ) := (List.range (o.S * o.D)).map fun k => (k + o.d + 1, k + o.d)

/-- `zero_idx`: every `S`-th rolling index from position `S - 1`. pymc_extras/statespace/models/utilities.py:302 -/
def zeroIdx (o : Order) : List (ℕ × ℕ) :=
  ((List.range (o.S * o.D)).filter fun k => decide (k % o.S = o.S - 1)).map fun k => (k + o.d + 1, k + o.d)

/-- `zip(star_roll_row, star_roll_col)`. pymc_extras/statespace/models/utilities.py:307-309 -/
def starIdx (o : Order) : List (ℕ × ℕ) :=
  (List.range (o.kLags - 1)).map fun k => (k + o.kDiffs, k + o.kDiffs + 1)

/-- `make_SARIMA_transition_matrix`. pymc_extras/statespace/models/utilities.py:130-313 -/
def transitionBase (o : Order) : ℕ × ℕ → ℝ :=
  let T := fill (fill (fun _ => 0) (triu o.d) 1) (diffIdx o) 1
  let T := if 0 < o.S then fill (fill T (rollIdx o) 1) (zeroIdx o) 0 else T
  fill T (starIdx o) 1

/-- The values given to the parameters. pymc_extras/statespace/models/SARIMAX.py:419, 423-425, 441, 445-447 -/
structure Params where
  ar : ℕ → ℝ
  sar : ℕ → ℝ
  ma : ℕ → ℝ
  sma : ℕ → ℝ

/-- The transition matrix of the "fast" form. The `if p > 0`, `if P > 0` guards are the case `n = 0` of `write`; index
`k` of the cross terms is `idx_rows.repeat(p)[k] = idx_rows[k / p]`, `np.tile(np.arange(p), P)[k] = k % p`.
pymc_extras/statespace/models/SARIMAX.py:405, 410-412, 415, 418-438 -/
def transition (o : Order) (θ : Params) : ℕ × ℕ → ℝ :=
  let n := o.kDiffs
  let T := transitionBase o
  let T := write T o.p (fun k => (n + k, n)) θ.ar
  let T := write T o.P (fun m => (n + (1 + m) * o.S - 1, n)) θ.sar
  write T (o.P * o.p) (fun k => (n + (1 + k / o.p) * o.S - 1 + k % o.p + 1, n))
    (fun k => -(θ.sar (k / o.p)) * θ.ar (k % o.p))

/-- The selection column of the "fast" form. pymc_extras/statespace/models/SARIMAX.py:406-408, 413, 416, 440-458 -/
def selection (o : Order) (θ : Params) : ℕ → ℝ :=
  let n := o.kDiffs
  let R : ℕ → ℝ := fun i => if i = n then 1 else 0
  let R := write R o.q (fun k => 1 + n + k) θ.ma
  let R := write R o.Q (fun m => n + (1 + m) * o.S) θ.sma
  write R (o.Q * o.q) (fun k => n + (1 + k / o.q) * o.S + k % o.q + 1) (fun k => θ.sma (k / o.q) * θ.ma (k % o.q))

/-- The design row: `np.r_[[1] * d, ([0] * (S - 1) + [1]) * D, [1], [0] * (k_lags - 1)]`.
pymc_extras/statespace/models/SARIMAX.py:398-401 -/
def designRow (o : Order) : List ℝ :=
  List.replicate o.d 1 ++ (List.replicate o.D (List.replicate (o.S - 1) 0 ++ [1])).flatten ++ [1] ++
    List.replicate (o.kStates - o.kDiffs - 1) 0

/-- A linear system with one shock and one observed series.
pymc_extras/statespace/core/representation.py:191-202 (the matrices this model writes) -/
structure Sys where
  k : ℕ
  T : ℕ × ℕ → ℝ
  R : ℕ → ℝ
  Z : ℕ → ℝ

/-- The "fast" system. pymc_extras/statespace/models/SARIMAX.py:397-458 -/
def fast (o : Order) (θ : Params) : Sys := ⟨o.kStates, transition o θ, selection o θ, fun j => (designRow o).getD j 0⟩

/-- The "interpretable" transition matrix: `np.eye(k, k=-1)`, one entry cleared, first row written.
pymc_extras/statespace/models/SARIMAX.py:461-465, 470, 473-515 -/
def transitionI (o : Order) (θ : Params) : ℕ × ℕ → ℝ :=
  let T : ℕ × ℕ → ℝ := fun a => if a.2 + 1 = a.1 then 1 else 0
  let T := Function.update T (o.pMax + o.qMax - o.qMax, o.pMax - 1) 0
  let T := write T o.p (fun k => (0, k)) θ.ar
  let T := write T o.P (fun m => (0, (1 + m) * o.S - 1)) θ.sar
  let T := write T (o.P * o.p) (fun k => (0, (1 + k / o.p) * o.S - 1 + k % o.p + 1))
    (fun k => -(θ.sar (k / o.p)) * θ.ar (k % o.p))
  let T := write T o.q (fun k => (0, o.pMax + k)) θ.ma
  let T := write T o.Q (fun m => (0, o.pMax + (1 + m) * o.S - 1)) θ.sma
  write T (o.Q * o.q) (fun k => (0, o.pMax + (1 + k / o.q) * o.S - 1 + k % o.q + 1))
    (fun k => θ.sma (k / o.q) * θ.ma (k % o.q))

/-- The "interpretable" selection column. pymc_extras/statespace/models/SARIMAX.py:467-468, 471 -/
def selectionI (o : Order) : ℕ → ℝ :=
  Function.update (fun i => if i = 0 then 1 else 0) (o.pMax + o.qMax - o.qMax) 1

/-- The "interpretable" system (no differencing: otherwise the constructor raises).
pymc_extras/statespace/models/SARIMAX.py:208-212, 218-219, 398-401, 460-515 -/
def interpretable (o : Order) (θ : Params) : Sys :=
  ⟨o.pMax + o.qMax, transitionI o θ, selectionI o, fun j => if j = 0 then 1 else 0⟩

/-- The state recursion `x_{t+1} = T x_t + R ε_t` every consumer of the matrices uses.
pymc_extras/statespace/filters/distributions.py:239-256 -/
def state (s : Sys) (x0 : ℕ → ℝ) (ε : ℕ → ℝ) : ℕ → ℕ → ℝ
  | 0 => x0
  | t + 1 => fun i => ∑ j ∈ range s.k, s.T (i, j) * state s x0 ε t j + s.R i * ε t

/-- The observation mean `Z x_t`. pymc_extras/statespace/filters/distributions.py:253 -/
def obs (s : Sys) (x0 : ℕ → ℝ) (ε : ℕ → ℝ) (t : ℕ) : ℝ := ∑ j ∈ range s.k, s.Z j * state s x0 ε t j

/-- `make_harvey_state_names` before `cleanup_states` (which maps over the list).
pymc_extras/statespace/models/utilities.py:61-127 -/
def harveyNames (o : Order) : List String :=
  let dSize := o.d + (if 0 < o.D then 1 else 0)
  let a := if 1 < dSize then 1 else 0
  let curr (i : ℕ) : String := if i = 0 then s!"D{a}^{dSize - 1}" else s!"D{a}^{dSize - 1}D{o.S}^{i}"
  let star := if 0 < o.d + o.D then ["data_star"] else []
  let suffix := if 0 < o.d + o.D then "_star" else ""
  ["data"] ++ (List.range dSize).dropLast.map (fun i => s!"D1^{i + 1}.data") ++
    ((List.range o.D).flatMap fun i => (List.range (o.S - 1)).map (fun j => s!"L{j + 1}{curr i}.data") ++
      (if i ≠ o.D - 1 then [s!"{curr (i + 1)}.data"] else [])) ++ star ++
    (List.range (o.kLags - 1)).map fun i => s!"state{suffix}_{i + 1}"

/-- `state_names` of the "interpretable" form. pymc_extras/statespace/models/SARIMAX.py:304-310 -/
def interpretableNames (o : Order) : List String :=
  ["data"] ++ (if 0 < o.p then (List.range (o.pMax - 1)).map fun i => s!"L{i + 1}.data" else []) ++ ["innovations"] ++
    (if 0 < o.q then (List.range (o.qMax - 1)).map fun i => s!"L{i + 1}.innovations" else [])

end Verif.Sarima
