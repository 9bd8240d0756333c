import Mathlib.Data.Nat.Notation

/-!
# `model_table` (pymc_extras/printing.py)

A PyMC model is given by its variable lists, identified by name (PyMC refuses two variables of one name), the dims and shapes
of its variables, and the texts PyMC prints for expressions and distributions.  Text is a list of characters.  The rich `Table`
is the list of its rows; a row carries the flag that `add_section` sets on the last row.
-/

set_option autoImplicit false

namespace Verif.Printing

/-- Python `str`. pymc_extras/printing.py:12-36 -/
abbrev Str := List Char

/-- What `model_table` reads from a PyMC model. `detExpr` is the text between the outer parentheses of PyMC's description of a
deterministic, `potExpr` and `distExpr` what follows `" ~ "` for potentials and random variables.
pymc_extras/printing.py:18-35, 48-59, 151-161 -/
structure Model where
  data : List Str
  free : List Str
  det : List Str
  pot : List Str
  obs : List Str
  named : List Str
  dims : Str → Option (List (Option Str))
  dimLen : Str → Option ℕ
  shape : Str → List ℕ
  detExpr : Str → Str
  potExpr : Str → Str
  distExpr : Str → Str

/-- Exceptions. pymc_extras/printing.py:22 (`ValueError`: wrong number of values to unpack), 49 (`KeyError`: a dim without
length) -/
inductive PErr where
  | valueError
  | keyError
deriving DecidableEq

/-- Scanner of `str.split(sep)`: `skip` characters of a separator already recognised are dropped.
pymc_extras/printing.py:22, 25, 33, 35 -/
def splitAux (sep : Str) : ℕ → Str → Str → List Str
  | _, acc, [] => [acc.reverse]
  | skip + 1, acc, _ :: cs => splitAux sep skip acc cs
  | 0, acc, c :: cs =>
    if sep.isPrefixOf (c :: cs) then acc.reverse :: splitAux sep (sep.length - 1) [] cs
    else splitAux sep 0 (c :: acc) cs

/-- `s.split(sep)`. pymc_extras/printing.py:22, 25, 33, 35 -/
def split (sep s : Str) : List Str := splitAux sep 0 [] s

/-- `sep.join(parts)`. pymc_extras/printing.py:31, 50, 53 -/
def join (sep : Str) : List Str → Str
  | [] => []
  | [p] => p
  | p :: q :: ps => p ++ sep ++ join sep (q :: ps)

/-- `", "`. pymc_extras/printing.py:25, 31 -/
def comma : Str := [',', ' ']

/-- `" ~ "`. pymc_extras/printing.py:22, 33, 35 -/
def tilde : Str := [' ', '~', ' ']

/-- The loop that decides how many arguments are shown; the value is `show_n` after the loop, which is the last index when the
loop is not left by `break`. `contents` is never empty. pymc_extras/printing.py:26-30 -/
def showN (limit : ℕ) : ℕ → ℕ → List Str → ℕ
  | i, _, [] => i
  | i, len, c :: cs =>
    let len := len + c.length + 2
    if len > limit then i
    else match cs with
      | [] => i
      | _ => showN limit (i + 1) len cs

/-- Truncation of a deterministic's expression. pymc_extras/printing.py:24-31 -/
def truncate (limit : Option ℕ) (e : Str) : Str :=
  match limit with
  | none => e
  | some t =>
    if e.length > t then
      let contents := split comma ((e.drop 2).dropLast)
      let n := showN t 0 0 contents
      "f(".toList ++ join comma (contents.take n) ++ ", ...)".toList
    else e

/-- `variable_expression`. PyMC describes a deterministic called `v` as `v ~ (e)`; the two other descriptions begin with
`v ~ ` too. pymc_extras/printing.py:12-36 -/
def variableExpression (m : Model) (limit : Option ℕ) (v : Str) : Except PErr Str :=
  if v ∈ m.data then .ok "Data".toList
  else if v ∈ m.det then
    match split tilde (v ++ tilde ++ "(".toList ++ m.detExpr v ++ ")".toList) with
    | [_, e] => .ok (truncate limit ((e.drop 1).dropLast))
    | _ => .error .valueError
  else if v ∈ m.pot then
    .ok ((split tilde (v ++ tilde ++ m.potExpr v)).getD 1 [])
  else .ok ((split tilde (v ++ tilde ++ m.distExpr v)).getD 1 [])

/-- Insertion into a dict keyed by dim: a repeated key keeps its first place (and its value, which is the same length).
pymc_extras/printing.py:49 -/
def dictKeys : List Str → List Str → List Str
  | seen, [] => seen
  | seen, d :: ds => if d ∈ seen then dictKeys seen ds else dictKeys (seen ++ [d]) ds

/-- Lengths of all dims, or the `KeyError` for an unknown dim or `None`. pymc_extras/printing.py:49 -/
def lookupDims (m : Model) : List (Option Str) → Except PErr (List Str)
  | [] => .ok []
  | none :: _ => .error .keyError
  | some d :: ds =>
    match m.dimLen d with
    | none => .error .keyError
    | some _ => match lookupDims m ds with
      | .error e => .error e
      | .ok l => .ok (d :: l)

/-- Decimal digits. pymc_extras/printing.py:50, 53, 178 -/
def digits (n : ℕ) : Str := (toString n).toList

/-- One entry `dim[length]`. pymc_extras/printing.py:50 -/
def dimEntry (m : Model) (d : Str) : Str := d ++ "[".toList ++ digits ((m.dimLen d).getD 0) ++ "]".toList

/-- `dims_expression`. pymc_extras/printing.py:46-53 -/
def dimsExpression (m : Model) (v : Str) : Except PErr Str :=
  match m.dims v with
  | some ds =>
    match lookupDims m ds with
    | .error e => .error e
    | .ok l => .ok (join " × ".toList ((dictKeys [] l).map (dimEntry m)))
  | none =>
    let sizes := m.shape v
    if sizes = [] then .ok []
    else .ok ("[".toList ++ join comma (sizes.map digits) ++ "]".toList)

/-- `model_parameter_count`, as it is printed: `np.sum([])` is the float `0.0`. pymc_extras/printing.py:56-59 -/
def parameterCount (m : Model) : Str :=
  match m.free with
  | [] => "0.0".toList
  | fs => digits ((fs.map fun v => (m.shape v).prod).sum)

/-- A row of the table: the three cells, without rich markup tags, and whether a section ends after it.
pymc_extras/printing.py:174, 178, 180 -/
structure Row where
  label : Str
  expr : Str
  dims : Str
  endSection : Bool
deriving DecidableEq

/-- The row of one variable. pymc_extras/printing.py:168-174 -/
def varRow (m : Model) (limit : Option ℕ) (v : Str) : Except PErr Row :=
  let sep := if v ∈ m.free ++ m.obs then " ~".toList else " =".toList
  match variableExpression m limit v with
  | .error e => .error e
  | .ok ex =>
    match dimsExpression m v with
    | .error e => .error e
    | .ok d =>
      let d := if d = "[]".toList then [] else d
      .ok ⟨v ++ sep, ex, d, false⟩

/-- The rows of a list of variables. pymc_extras/printing.py:167-174 -/
def varRows (m : Model) (limit : Option ℕ) : List Str → Except PErr (List Row)
  | [] => .ok []
  | v :: vs =>
    match varRow m limit v with
    | .error e => .error e
    | .ok r => match varRows m limit vs with
      | .error e => .error e
      | .ok rs => .ok (r :: rs)

/-- The row with the number of parameters. pymc_extras/printing.py:176-178 -/
def countRow (m : Model) : Row := ⟨[], [], "Parameter count = ".toList ++ parameterCount m, false⟩

/-- `table.add_section()` marks the last row. pymc_extras/printing.py:180 -/
def addSection (rows : List Row) : List Row :=
  match rows.getLast? with
  | none => rows
  | some r => rows.dropLast ++ [{ r with endSection := true }]

/-- The groups of variables. pymc_extras/printing.py:151-161 -/
def groups (m : Model) (splitGroups : Bool) : List (List Str) :=
  if splitGroups then [m.data, m.free, m.det, m.pot, m.obs] else [m.named]

/-- The loop over the groups. pymc_extras/printing.py:163-180 -/
def tableLoop (m : Model) (splitGroups : Bool) (limit : Option ℕ) (count : Bool) :
    List (List Str) → List Row → Except PErr (List Row)
  | [], rows => .ok rows
  | g :: gs, rows =>
    if g = [] then tableLoop m splitGroups limit count gs rows
    else
      match varRows m limit g with
      | .error e => .error e
      | .ok rs =>
        let rows := rows ++ rs
        let rows := if count && (!splitGroups || g == m.free) then rows ++ [countRow m] else rows
        tableLoop m splitGroups limit count gs (addSection rows)

/-- `model_table`. pymc_extras/printing.py:62-182 -/
def modelTable (m : Model) (splitGroups : Bool) (limit : Option ℕ) (count : Bool) : Except PErr (List Row) :=
  tableLoop m splitGroups limit count (groups m splitGroups) []

end Verif.Printing
