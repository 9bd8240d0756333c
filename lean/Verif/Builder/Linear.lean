import Mathlib.Data.List.Basic

/-!
# `LinearModel` data handling (pymc_extras/linearmodel.py)

Inputs are known by their shapes. `pm.set_data` refuses a value whose number of axes differs from that of the container, and
otherwise replaces the container's value.
-/

set_option autoImplicit false

namespace Verif.Builder.Linear

/-- `X.squeeze()` of a data frame, series or array: axes of length one disappear. pymc_extras/linearmodel.py:99, 101 -/
def squeeze (sh : List ℕ) : List ℕ := sh.filter fun k => decide (k ≠ 1)

/-- Lengths of the containers `x` and `y_data`, both one-dimensional. pymc_extras/linearmodel.py:72-73 -/
structure St where
  x : ℕ
  y : ℕ
deriving DecidableEq

/-- `pm.set_data` into a one-dimensional container: the new length, or `ValueError`. pymc_extras/linearmodel.py:99, 101 -/
def setData1 (sh : List ℕ) : Option ℕ :=
  match sh with
  | [n] => some n
  | _ => none

/-- `_data_setter`: the state afterwards, and whether it returned normally. pymc_extras/linearmodel.py:97-101 -/
def dataSetter (s : St) (x : List ℕ) (y : Option (List ℕ)) : St × Bool :=
  match setData1 (squeeze x) with
  | none => (s, false)
  | some n =>
    let s := { s with x := n }
    match y with
    | none => (s, true)
    | some y =>
      match setData1 (squeeze y) with
      | none => (s, false)
      | some m => ({ s with y := m }, true)

/-- `build_model(X, y)`: containers of length one, then `_data_setter`. pymc_extras/linearmodel.py:48-95 -/
def buildModel (x y : List ℕ) : St × Bool := dataSetter ⟨1, 1⟩ x (some y)

end Verif.Builder.Linear
