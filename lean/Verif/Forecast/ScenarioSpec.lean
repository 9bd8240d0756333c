import Verif.Forecast.Scenario

/-! # Specification for scenario data: what the user supplied -/

set_option autoImplicit false

namespace Verif.Forecast.Obj

variable {V : Type}

namespace Spec

/-- The numbers the user supplied in one scenario value, row by row: those of a data frame, one per row for a series or a
vector, and all the numbers of a (nested) list, one per row. -/
def rowsGiven (heap : Heap V) : Val V → Option (List (List V))
  | .frame id => (heap[id]?).map fun f => f.rows
  | .series _ vals => some (vals.map fun x => [x])
  | .vector vals => some (vals.map fun x => [x])
  | .array _ rows => some rows
  | .pyList rows => some (rows.flatten.map fun x => [x])
  | .none => none
  | .other => none

/-- Every data frame the dictionary refers to exists. -/
def Valid (heap : Heap V) (d : Dict V) : Prop := ∀ (n : String) (id : ℕ), (n, Val.frame id) ∈ d → id < heap.length

/-- In pandas a frame has as many labels as rows. -/
def Rect (heap : Heap V) : Prop := ∀ f ∈ heap, f.rows.length = f.idx.labels.length

/-- The same for the series in the dictionary. -/
def RectDict (d : Dict V) : Prop := ∀ (n : String) (i : Idx) (vals : List V), (n, Val.series i vals) ∈ d → vals.length = i.labels.length

/-- Every frame that existed before exists after, with the same columns and the same numbers (its index may differ). -/
def Kept (heap heap' : Heap V) : Prop :=
  ∀ (i : ℕ) (f : Frame V), heap[i]? = some f → ∃ f', heap'[i]? = some f' ∧ f'.cols = f.cols ∧ f'.rows = f.rows

/-- The two dictionaries have the same keys in the same order and hold the same numbers under each. -/
def SameNumbers (heap heap' : Heap V) (d d' : Dict V) : Prop :=
  List.Forall₂ (fun x y => x.1 = y.1 ∧ rowsGiven heap' y.2 = rowsGiven heap x.2) d d'

end Spec

end Verif.Forecast.Obj
