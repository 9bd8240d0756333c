import Mathlib.Data.List.Basic
import Mathlib.Data.Int.Notation
import Mathlib.Data.Nat.Notation
import Mathlib.Logic.Function.Basic

/-!
# The system-matrix store: translation of `statespace/core/representation.py`

Arrays are a shape and a function on index lists (only in-range indices matter).  Every static shape is assumed known
(a symbolic value with an unknown dimension is not modelled).  PyTensor errors that would surface when the graph is
evaluated (index out of range, `specify_shape` mismatch) are reported by the operation itself.  A failing operation
returns the store as it is left behind.
-/

namespace Verif.Representation

/-- An array of any rank. pymc_extras/statespace/core/representation.py:171-219 -/
structure Arr (V : Type) where
  shape : List ℕ
  data : List ℕ → V

/-- The ways an access fails. pymc_extras/statespace/core/representation.py:221-319, 361-435 -/
inductive Err where
  | unknownName
  | badNdim
  | badTimeVarying
  | badCore
  | outOfRange
  | tooManyIndices
  | valueShape
  | specifyShape
deriving DecidableEq

/-- `VECTOR_VALUED`. pymc_extras/statespace/utils/constants.py:17 -/
def isVector (name : String) : Bool :=
  ["initial_state", "state_intercept", "obs_intercept", "a0", "c", "d"].contains name

/-- `NEVER_TIME_VARYING`. pymc_extras/statespace/utils/constants.py:16 -/
def never (name : String) : Bool := ["initial_state", "initial_state_cov", "a0", "P0"].contains name

/-- The store: recorded shapes (a dictionary) and the attribute holding each matrix.
pymc_extras/statespace/core/representation.py:191-219 -/
structure Rep (V : Type) where
  shapes : String → Option (List ℕ)
  attrs : String → Arr V

/-- `self.shapes` at construction. pymc_extras/statespace/core/representation.py:191-202 -/
def initShapes (kEndog kStates kPosdef : ℕ) (name : String) : Option (List ℕ) :=
  if name = "design" then some [1, kEndog, kStates]
  else if name = "obs_intercept" then some [1, kEndog]
  else if name = "obs_cov" then some [1, kEndog, kEndog]
  else if name = "transition" then some [1, kStates, kStates]
  else if name = "state_intercept" then some [1, kStates]
  else if name = "selection" then some [1, kStates, kPosdef]
  else if name = "state_cov" then some [1, kPosdef, kPosdef]
  else if name = "initial_state" then some [kStates]
  else if name = "initial_state_cov" then some [kStates, kStates]
  else none

variable {V : Type}

/-- `_validate_matrix_shape` for an array of shape `sh` given the recorded shape `rec`.
pymc_extras/statespace/core/representation.py:271-319 -/
def validateMatrixShape (name : String) (rec sh : List ℕ) : Except Err Unit :=
  let expected := rec.tail
  if never name then
    if isVector name then (if sh.length ≠ 1 then .error .badNdim else .ok ())
    else (if sh.length ≠ 2 then .error .badNdim else .ok ())
  else if isVector name then
    if sh.length ≠ 1 ∧ sh.length ≠ 2 then .error .badNdim
    else if sh.length = 2 ∧ sh.tail ≠ expected then .error .badTimeVarying
    else .ok ()
  else
    if sh.length ≠ 2 ∧ sh.length ≠ 3 then .error .badNdim
    else if sh.length = 3 ∧ sh.tail ≠ expected then .error .badTimeVarying
    else .ok ()

/-- `X[None, ...]`. pymc_extras/statespace/core/representation.py:350 -/
def Arr.addTime (a : Arr V) : Arr V := ⟨1 :: a.shape, fun idx => a.data idx.tail⟩

/-- `_numpy_to_pytensor` (the copy and the cast are identities here).
pymc_extras/statespace/core/representation.py:343-355 -/
def numpyToPytensor (name : String) (rec : List ℕ) (x : Arr V) : Except Err (Arr V) :=
  match validateMatrixShape name rec x.shape with
  | .error e => .error e
  | .ok _ =>
    if never name then .ok x
    else if x.shape.length = 1 ∧ isVector name then .ok x.addTime
    else if x.shape.length = 2 ∧ !isVector name then .ok x.addTime
    else .ok x

/-- `__init__`: `given name` is the array passed for `name`, if any (numpy arrays only). Arrays are converted by
`_numpy_to_pytensor`; the others are zeros. Stops at the first failing matrix, so construction fails if any fails.
pymc_extras/statespace/core/representation.py:171-219 -/
def init (zero : V) (kEndog kStates kPosdef : ℕ) (given : String → Option (Arr V)) : Except Err (Rep V) :=
  let names := ["design", "obs_intercept", "obs_cov", "transition", "state_intercept", "selection", "state_cov",
    "initial_state", "initial_state_cov"]
  let shapes := initShapes kEndog kStates kPosdef
  names.foldl (fun acc name =>
    match acc with
    | .error e => .error e
    | .ok (rep : Rep V) =>
      match shapes name with
      | none => .ok rep
      | some rec =>
        match given name with
        | none => .ok { rep with attrs := Function.update rep.attrs name ⟨rec, fun _ => zero⟩ }
        | some x =>
          match numpyToPytensor name rec x with
          | .error e => .error e
          | .ok x' => .ok { rep with attrs := Function.update rep.attrs name x' })
    (.ok ⟨shapes, fun _ => ⟨[], fun _ => zero⟩⟩)

/-- `shape[-n:]` for `n ≥ 1`. pymc_extras/statespace/core/representation.py:233 -/
def lastN (n : ℕ) (l : List ℕ) : List ℕ := l.drop (l.length - n)

/-- `all(a == b for a, b in zip(l, l'))`: stops at the shorter list.
pymc_extras/statespace/core/representation.py:233 -/
def zipAllEq : List ℕ → List ℕ → Bool
  | a :: l, b :: l' => (a == b) && zipAllEq l l'
  | _, _ => true

/-- The shape recorded by `_update_shape`, or its error. pymc_extras/statespace/core/representation.py:225-245 -/
def updateShape (name : String) (old sh : List ℕ) : Except Err (List ℕ) :=
  let ndimCore := if isVector name then 1 else 2
  if !zipAllEq (lastN ndimCore sh) (lastN ndimCore old) then .error .badCore
  else if never name then .ok sh
  else if sh.length = 2 ∧ !isVector name then .ok (1 :: sh)
  else if sh.length = 1 then .ok (1 :: sh)
  else .ok sh

/-- `__setitem__` with a string key. `symbolic` says the value is a PyTensor variable (stored as it is) rather than a
numpy array. The attribute is set *before* the shape check.
pymc_extras/statespace/core/representation.py:413-421 -/
def setWhole (rep : Rep V) (name : String) (symbolic : Bool) (x : Arr V) : Except Err Unit × Rep V :=
  match rep.shapes name with
  | none => (.error .unknownName, rep)
  | some rec =>
    match (if symbolic then .ok x else numpyToPytensor name rec x) with
    | .error e => (.error e, rep)
    | .ok x' =>
      let rep' := { rep with attrs := Function.update rep.attrs name x' }
      match updateShape name rec x'.shape with
      | .error e => (.error e, rep')
      | .ok sh => (.ok (), { rep' with shapes := Function.update rep'.shapes name (some sh) })

/-- An index item: an integer or a slice with step one. pymc_extras/statespace/core/representation.py:382-435 -/
inductive Ix where
  | int (i : ℤ)
  | slice (lo hi : Option ℤ)
deriving DecidableEq

/-- `slice(None, None, None)`. pymc_extras/statespace/core/representation.py:247-262 -/
def Ix.all : Ix := .slice none none

/-- A resolved index item: one position, or `len` positions from `lo`.
pymc_extras/statespace/core/representation.py:403, 431 -/
inductive Sel where
  | pos (k : ℕ)
  | range (lo len : ℕ)

/-- Clamp a slice bound as numpy does. pymc_extras/statespace/core/representation.py:403, 431 -/
def clamp (n : ℕ) (b : ℤ) : ℕ := (min (if b < 0 then max (b + n) 0 else b) n).toNat

/-- Resolution of one index item against a dimension of length `n`: numpy basic indexing.
pymc_extras/statespace/core/representation.py:403, 431 -/
def resolve (n : ℕ) : Ix → Option Sel
  | .int i =>
    let k := if i < 0 then i + n else i
    if 0 ≤ k ∧ k < n then some (.pos k.toNat) else none
  | .slice lo hi =>
    let l := (lo.map (clamp n)).getD 0
    let h := (hi.map (clamp n)).getD n
    some (.range l (h - l))

/-- Resolution of a whole index tuple; missing trailing items select everything.
pymc_extras/statespace/core/representation.py:403, 431 -/
def resolveAll : List ℕ → List Ix → Option (List Sel)
  | [], [] => some []
  | [], _ :: _ => none
  | n :: sh, [] => (resolveAll sh []).map (.range 0 n :: ·)
  | n :: sh, ix :: ixs =>
    match resolve n ix, resolveAll sh ixs with
    | some s, some ss => some (s :: ss)
    | _, _ => none

/-- Shape of the selection. pymc_extras/statespace/core/representation.py:403, 431 -/
def selShape : List Sel → List ℕ
  | [] => []
  | .pos _ :: ss => selShape ss
  | .range _ len :: ss => len :: selShape ss

/-- The entry of the array that a position of the selection refers to.
pymc_extras/statespace/core/representation.py:403, 431 -/
def expand : List Sel → List ℕ → List ℕ
  | .pos k :: ss, sub => k :: expand ss sub
  | .range lo _ :: ss, i :: sub => (lo + i) :: expand ss sub
  | _, _ => []

/-- The position in the selection of an entry of the array, if the entry is selected.
pymc_extras/statespace/core/representation.py:431 -/
def locate : List Sel → List ℕ → Option (List ℕ)
  | [], [] => some []
  | .pos k :: ss, i :: idx => if i = k then locate ss idx else none
  | .range lo len :: ss, i :: idx =>
    if lo ≤ i ∧ i < lo + len then (locate ss idx).map ((i - lo) :: ·) else none
  | _, _ => none

/-- `matrix[slice_]`. pymc_extras/statespace/core/representation.py:403 -/
def subtensor (a : Arr V) (ixs : List Ix) : Except Err (Arr V) :=
  match resolveAll a.shape ixs with
  | none => .error .outOfRange
  | some ss => .ok ⟨selShape ss, fun sub => a.data (expand ss sub)⟩

/-- A value written to a slice: a scalar (broadcast) or an array of exactly the selected shape (other broadcasts are not
modelled). pymc_extras/statespace/core/representation.py:424-435 -/
inductive Value (V : Type) where
  | scalar (x : V)
  | array (a : Arr V)

/-- `pt.set_subtensor(matrix[slice_], value)`. pymc_extras/statespace/core/representation.py:431 -/
def setSubtensor (a : Arr V) (ixs : List Ix) (v : Value V) : Except Err (Arr V) :=
  match resolveAll a.shape ixs with
  | none => .error .outOfRange
  | some ss =>
    match v with
    | .scalar x => .ok ⟨a.shape, fun idx => match locate ss idx with
        | none => a.data idx
        | some _ => x⟩
    | .array w =>
      if w.shape = selShape ss then
        .ok ⟨a.shape, fun idx => match locate ss idx with
          | none => a.data idx
          | some sub => w.data sub⟩
      else .error .valueShape

/-- `_add_time_dim_to_slice`; with too many indices it returns `None`, which makes the indexing fail.
pymc_extras/statespace/core/representation.py:247-262 -/
def addTimeDim (name : String) (ixs : List Ix) (ndim : ℕ) : Except Err (List Ix) :=
  if never name then .ok ixs
  else if ixs.length = ndim then .ok ixs
  else if ixs.length < ndim then .ok (.int 0 :: ixs ++ List.replicate (ndim - ixs.length - 1) .all)
  else .error .tooManyIndices

/-- `pt.specify_shape`. pymc_extras/statespace/core/representation.py:368 -/
def specifyShape (a : Arr V) (sh : List ℕ) : Except Err (Arr V) :=
  if a.shape = sh then .ok a else .error .specifyShape

/-- `matrix[(0,) + (slice(None),) * (ndim - 1)]`. pymc_extras/statespace/core/representation.py:367 -/
def Arr.dropTime (a : Arr V) : Arr V := ⟨a.shape.tail, fun idx => a.data (0 :: idx)⟩

/-- `__getitem__` with a string key. pymc_extras/statespace/core/representation.py:361-379 -/
def getWhole (rep : Rep V) (name : String) : Except Err (Arr V) :=
  match rep.shapes name with
  | none => .error .unknownName
  | some rec =>
    let m := rep.attrs name
    if m.shape.head? = some 1 ∧ !never name then specifyShape m.dropTime rec.tail
    else .ok m

/-- `__getitem__` with a tuple key. pymc_extras/statespace/core/representation.py:382-403 -/
def getSlice (rep : Rep V) (name : String) (ixs : List Ix) : Except Err (Arr V) :=
  match rep.shapes name with
  | none => .error .unknownName
  | some rec =>
    let m := rep.attrs name
    if ixs = List.replicate m.shape.length Ix.all then .ok m
    else if ixs = List.replicate (m.shape.length - 1) Ix.all then specifyShape m.dropTime rec.tail
    else
      match addTimeDim name ixs m.shape.length with
      | .error e => .error e
      | .ok ixs' => subtensor m ixs'

/-- `__setitem__` with a tuple key. pymc_extras/statespace/core/representation.py:424-435 -/
def setSlice (rep : Rep V) (name : String) (ixs : List Ix) (v : Value V) : Except Err Unit × Rep V :=
  match rep.shapes name with
  | none => (.error .unknownName, rep)
  | some rec =>
    match addTimeDim name ixs (rep.attrs name).shape.length with
    | .error e => (.error e, rep)
    | .ok ixs' =>
      match setSubtensor (rep.attrs name) ixs' v with
      | .error e => (.error e, rep)
      | .ok m =>
        match specifyShape m rec with
        | .error e => (.error e, rep)
        | .ok m => (.ok (), { rep with attrs := Function.update rep.attrs name m })

/-- An object and a shallow copy of it: attributes are separate, the dictionary of shapes is shared.
pymc_extras/statespace/core/representation.py:437-438 -/
structure Pair (V : Type) where
  shapes : String → Option (List ℕ)
  original : String → Arr V
  copied : String → Arr V

/-- `rep.copy()`. pymc_extras/statespace/core/representation.py:437-438 -/
def copy (rep : Rep V) : Pair V := ⟨rep.shapes, rep.attrs, rep.attrs⟩

/-- Assignment of a whole matrix through the copy.
pymc_extras/statespace/core/representation.py:437-438, 413-421 -/
def Pair.setWholeCopy (p : Pair V) (name : String) (symbolic : Bool) (x : Arr V) : Except Err Unit × Pair V :=
  let r := setWhole ⟨p.shapes, p.copied⟩ name symbolic x
  (r.1, ⟨r.2.shapes, p.original, r.2.attrs⟩)

/-- The original as seen after operations on the copy. pymc_extras/statespace/core/representation.py:437-438 -/
def Pair.orig (p : Pair V) : Rep V := ⟨p.shapes, p.original⟩

end Verif.Representation
