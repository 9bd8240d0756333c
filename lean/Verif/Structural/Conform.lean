import Verif.Representation.Model

/-!
# Adding components with time-varying matrices: translation of `conform_time_varying_and_time_invariant_matrices`
(`statespace/models/utilities.py`) and of its callers in `statespace/models/structural.py`

Tensors carry a static shape (`none` is an unknown length) and the value they will have.  PyTensor errors that would
surface when the graph is evaluated are reported by the operation itself.  `pt.linalg.block_diag`, used for `P0`, `T`, `R`
and `Q`, is not modelled here (whether it accepts a time axis depends on the PyTensor version).
-/

set_option autoImplicit false

namespace Verif.Structural.Conform

open Verif.Representation (Arr isVector never initShapes)

/-- The ways adding fails. pymc_extras/statespace/models/utilities.py:316-374 -/
inductive Err where
  | notStatespace
  | specifyShape
  | joinShape
  | addShape
  | badNdim
  | badTimeVarying
deriving DecidableEq

/-- A symbolic tensor: its name, its static shape and the value it will have.
pymc_extras/statespace/models/utilities.py:316-374 -/
structure Var (V : Type) where
  name : Option String
  static : List (Option ℕ)
  val : Arr V

variable {V : Type}

/-- `name in MATRIX_NAMES + LONG_MATRIX_NAMES`. pymc_extras/statespace/utils/constants.py:24-35 -/
def isMatrixName : Option String → Bool
  | none => false
  | some s => ["x0", "P0", "c", "d", "T", "Z", "R", "H", "Q", "initial_state", "initial_state_cov", "state_intercept",
      "obs_intercept", "transition", "design", "selection", "obs_cov", "state_cov"].contains s

/-- A run-time shape agrees with a static one. `pt.specify_shape`, pymc_extras/statespace/models/utilities.py:362, 369 -/
def agrees : List (Option ℕ) → List ℕ → Bool
  | [], [] => true
  | none :: ss, _ :: ns => agrees ss ns
  | some s :: ss, n :: ns => s == n && agrees ss ns
  | _, _ => false

/-- `pt.specify_shape(x, shape)`; entries `None` are not checked. The new static shape is taken to be the requested one.
pymc_extras/statespace/models/utilities.py:362, 369 -/
def specify (x : Arr V) (shape : List (Option ℕ)) (name : Option String) : Except Err (Var V) :=
  if agrees shape x.shape then .ok ⟨name, shape, x⟩ else .error .specifyShape

/-- `pt.repeat(x, n, axis=0)`: every entry of the first axis is repeated `n` times.
pymc_extras/statespace/models/utilities.py:361, 368 -/
def repeatFirst (x : Arr V) (n : ℕ) : Arr V :=
  match x.shape with
  | [] => x
  | l :: rest => ⟨(l * n) :: rest, fun idx => match idx with
      | [] => x.data []
      | i :: is => x.data (i / n :: is)⟩

/-- `name in VECTOR_VALUED` for a name that may be missing. pymc_extras/statespace/models/utilities.py:349 -/
def isVectorName : Option String → Bool
  | none => false
  | some s => isVector s

/-- `x.shape[0]`. pymc_extras/statespace/models/utilities.py:361, 368 -/
def runLength (x : Arr V) : ℕ := x.shape.headD 0

/-- The part of the function after the name is chosen. pymc_extras/statespace/models/utilities.py:349-374 -/
def conformNamed (name : Option String) (A B : Var V) : Except Err (Var V × Var V) :=
  let ndim := if isVectorName name then 2 else 3
  if ¬ (A.static.length = ndim ∧ B.static.length = ndim) then .ok (A, B)
  else
    match A.static, B.static with
    | tA :: dA, tB :: dB =>
      if tA = tB then .ok (A, B)
      else if tA = some 1 then
        match specify (repeatFirst A.val (runLength B.val)) (tB :: dA) A.name with
        | .error e => .error e
        | .ok A' => .ok (A', B)
      else if tB = some 1 then
        match specify (repeatFirst B.val (runLength A.val)) (tA :: dB) B.name with
        | .error e => .error e
        | .ok B' => .ok (A, B')
      else .ok (A, B)
    | _, _ => .ok (A, B)

/-- `conform_time_varying_and_time_invariant_matrices`. pymc_extras/statespace/models/utilities.py:316-374 -/
def conform (A B : Var V) : Except Err (Var V × Var V) :=
  if A.name = B.name then conformNamed A.name A B
  else if isMatrixName A.name = false ∧ isMatrixName B.name = false then .error .notStatespace
  else conformNamed (if isMatrixName A.name then A.name else B.name) A B

/-- A static length that either of two tensors fixes. pymc_extras/statespace/models/structural.py:523-544 -/
def joinStatic (a b : Option ℕ) : Option ℕ := a.orElse fun _ => b

/-- The sum of two static lengths, unknown if either is. pymc_extras/statespace/models/structural.py:523-544 -/
def addStatic : Option ℕ → Option ℕ → Option ℕ
  | some a, some b => some (a + b)
  | _, _ => none

/-- `pt.concatenate((A, B))`, i.e. along the first axis; PyTensor does not broadcast here.
pymc_extras/statespace/models/structural.py:523, 529 -/
def concatFirst (A B : Var V) (name : Option String) : Except Err (Var V) :=
  match A.static, B.static, A.val.shape, B.val.shape with
  | sA :: rA, sB :: rB, a :: ra, b :: rb =>
    if rA.length = rB.length ∧ ra = rb then
      .ok ⟨name, addStatic sA sB :: List.zipWith joinStatic rA rB,
        ⟨(a + b) :: ra, fun idx => match idx with
          | [] => A.val.data []
          | i :: is => if i < a then A.val.data (i :: is) else B.val.data ((i - a) :: is)⟩⟩
    else .error .joinShape
  | _, _, _, _ => .error .joinShape

/-- `pt.concatenate((A, B), axis=-1)`, written for the ranks the design can have: two and three.
pymc_extras/statespace/models/structural.py:538 -/
def concatLast (A B : Var V) (name : Option String) : Except Err (Var V) :=
  match A.static, B.static, A.val.shape, B.val.shape with
  | [pA, nA], [pB, nB], [p, n], [p', m] =>
    if p = p' then
      .ok ⟨name, [joinStatic pA pB, addStatic nA nB],
        ⟨[p, n + m], fun idx => match idx with
          | [i, j] => if j < n then A.val.data [i, j] else B.val.data [i, j - n]
          | _ => A.val.data []⟩⟩
    else .error .joinShape
  | [tA, pA, nA], [tB, pB, nB], [t, p, n], [t', p', m] =>
    if t = t' ∧ p = p' then
      .ok ⟨name, [joinStatic tA tB, joinStatic pA pB, addStatic nA nB],
        ⟨[t, p, n + m], fun idx => match idx with
          | [s, i, j] => if j < n then A.val.data [s, i, j] else B.val.data [s, i, j - n]
          | _ => A.val.data []⟩⟩
    else .error .joinShape
  | _, _, _, _ => .error .joinShape

/-- One axis of a broadcast: only lengths *statically* equal to one are stretched.  Returns the static and run-time length
and, for each operand, whether it is stretched. pymc_extras/statespace/models/structural.py:532, 544 -/
def addAxis (sA sB : Option ℕ) (a b : ℕ) : Option (Option ℕ × ℕ × Bool × Bool) :=
  if sA = some 1 ∧ sB = some 1 then some (some 1, 1, false, false)
  else if sA = some 1 then some (sB, b, true, false)
  else if sB = some 1 then some (sA, a, false, true)
  else if a = b then some (joinStatic sA sB, a, false, false)
  else none

/-- The axes of a broadcast. pymc_extras/statespace/models/structural.py:532, 544 -/
def addAxes : List (Option ℕ) → List (Option ℕ) → List ℕ → List ℕ → Option (List (Option ℕ × ℕ × Bool × Bool))
  | [], [], [], [] => some []
  | sA :: rA, sB :: rB, a :: ra, b :: rb =>
    match addAxis sA sB a b, addAxes rA rB ra rb with
    | some x, some xs => some (x :: xs)
    | _, _ => none
  | _, _, _, _ => none

/-- The index of an operand: zero along the stretched axes.
Broadcasting, pymc_extras/statespace/models/structural.py:532, 544 -/
def stretch (flags : List Bool) (idx : List ℕ) : List ℕ := List.zipWith (fun f i => if f then 0 else i) flags idx

/-- `A + B` for operands of the same rank. pymc_extras/statespace/models/structural.py:532, 544 -/
def addVar [Add V] (A B : Var V) (name : Option String) : Except Err (Var V) :=
  match addAxes A.static B.static A.val.shape B.val.shape with
  | none => .error .addShape
  | some ax => .ok ⟨name, ax.map (·.1), ⟨ax.map (·.2.1), fun idx =>
      A.val.data (stretch (ax.map (·.2.2.1)) idx) + B.val.data (stretch (ax.map (·.2.2.2)) idx)⟩⟩

/-- `self.ssm[name]` of a stored matrix, of which only the rank matters: the time axis is sliced away if its static length
is one. pymc_extras/statespace/core/representation.py:361-379, pymc_extras/statespace/models/structural.py:510-511 -/
def viewRank (name : String) (M : Var V) : ℕ :=
  if M.static.head? = some (some 1) ∧ !never name then M.static.length - 1 else M.static.length

/-- `ssm[make_slice(name, x, o_x)]`: everything, or everything but the time axis; the core shape of a stored matrix is the
recorded one, so `specify_shape` changes nothing. Other ranks cannot occur when both operands store the matrix with the
same rank. pymc_extras/statespace/core/representation.py:388-399, pymc_extras/statespace/models/structural.py:504-520 -/
def fetch (name : String) (ndim : ℕ) (M : Var V) : Var V :=
  if ndim = M.static.length then M
  else ⟨some name, M.static.tail, ⟨M.val.shape.tail, fun idx => M.val.data (0 :: idx)⟩⟩

/-- `_check_provided_tensor` with `_validate_matrix_shape` for a symbolic tensor: `X.shape[1:] != expected_shape` compares
a symbolic vector with a tuple and is therefore always true, so a time-varying vector is always refused; a time-varying
matrix must have the expected *static* core shape.  A tensor that gets its time axis here loses its name.
pymc_extras/statespace/core/representation.py:271-319, 330-341 -/
def provide (name : String) (rec : List ℕ) (X : Var V) : Except Err (Var V) :=
  if never name then
    if X.static.length = (if isVector name then 1 else 2) then .ok X else .error .badNdim
  else if isVector name then
    match X.static with
    | [_] => specify ⟨1 :: X.val.shape, fun idx => X.val.data idx.tail⟩ (rec.map some) none
    | [_, _] => .error .badTimeVarying
    | _ => .error .badNdim
  else
    match X.static with
    | [_, _] => specify ⟨1 :: X.val.shape, fun idx => X.val.data idx.tail⟩ (rec.map some) none
    | _ :: [s, s'] => if [s, s'] = rec.tail.map some then .ok X else .error .badTimeVarying
    | _ => .error .badNdim

/-- The combination of one of the matrices `x0`, `c` (concatenated along the *first* axis), `Z` (along the last axis), `d`,
`H` (added), and its storage in the new representation whose recorded shape is `rec`.
pymc_extras/statespace/models/structural.py:503-564 -/
def combineOne [Add V] (name : String) (rec : List ℕ) (M N : Var V) : Except Err (Var V) :=
  let ndim := max (viewRank name M) (viewRank name N)
  let A := fetch name ndim M
  let B := fetch name ndim N
  if name = "obs_intercept" ∨ name = "obs_cov" then
    match addVar A B A.name with
    | .error e => .error e
    | .ok X => provide name rec X
  else
    match conform A B with
    | .error e => .error e
    | .ok (A', B') =>
      match (if name = "design" then concatLast A' B' A.name else concatFirst A' B' A.name) with
      | .error e => .error e
      | .ok X => provide name rec X

end Verif.Structural.Conform
