import Mathlib.Data.List.Basic

/-!
# Plumbing of the state-space distributions (pymc_extras/statespace/filters/distributions.py) and `compile_statespace`

Only names, orders, shapes and static shapes are modelled here; the numbers drawn are in `Verif.Simulate.Model`.
-/

set_option autoImplicit false

namespace Verif.Simulate

/-- Variable names, as characters. pymc_extras/statespace/filters/distributions.py:206-212 -/
abbrev Name := List Char

/-- Exceptions. pymc_extras/statespace/filters/distributions.py:44 (`KeyError`), 228 (`AttributeError`), 232 (`ValueError`),
371-386 (`ValueError`); pymc_extras/statespace/core/compile.py:41, 43 (`TypeError`) -/
inductive DErr where
  | keyError
  | attributeError
  | valueError
  | typeError
deriving DecidableEq

/-- The canonical order. pymc_extras/statespace/filters/distributions.py:216, 231 -/
def canonical : List Name := [['c'], ['d'], ['T'], ['Z'], ['R'], ['H'], ['Q']]

/-- What `scan` passes to the step function: a named matrix, the unnamed state, the unnamed generator.
pymc_extras/statespace/filters/distributions.py:239-241, 267-275 -/
inductive Arg (α : Type) where
  | mat (name : Name) (v : α)
  | state
  | rng

/-- `"[t]"`. pymc_extras/statespace/filters/distributions.py:226-228 -/
def timeTag : Name := ['[', 't', ']']

/-- `name.replace("[t]", "")`, for names in which the tag can only be at the end.
pymc_extras/statespace/filters/distributions.py:228 -/
def strip (n : Name) : Name := if timeTag.isSuffixOf n then n.take (n.length - 3) else n

/-- `sequences`: the slices of time-varying matrices arrive with the tag added to the name.
pymc_extras/statespace/filters/distributions.py:214-218, 226-227 -/
def sequences {α : Type} (seqNames : List Name) (env : Name → α) : List (Arg α) :=
  (canonical.filter fun n => decide (n ∈ seqNames)).map fun n => .mat (n ++ timeTag) (env n)

/-- `non_sequences`. pymc_extras/statespace/filters/distributions.py:219 -/
def nonSequences {α : Type} (seqNames : List Name) (env : Name → α) : List (Arg α) :=
  (canonical.filter fun n => decide (n ∉ seqNames)).map fun n => .mat n (env n)

/-- All arguments of the step function: sequences, previous output, non-sequences and the generator.
pymc_extras/statespace/filters/distributions.py:267-275 -/
def stepArgs {α : Type} (seqNames : List Name) (env : Name → α) : List (Arg α) :=
  sequences seqNames env ++ [.state] ++ nonSequences seqNames env ++ [.rng]

/-- `arg_names`: reading `.name.replace` of an unnamed variable fails. pymc_extras/statespace/filters/distributions.py:228 -/
def argNames {α : Type} : List (Arg α) → Except DErr (List (Name × α))
  | [] => .ok []
  | .mat n v :: l => (argNames l).map fun tl => (strip n, v) :: tl
  | _ :: _ => .error .attributeError

/-- The matrices found in canonical order; a missing name makes `list.index` fail.
pymc_extras/statespace/filters/distributions.py:230-235 -/
def pick {α : Type} (l : List (Name × α)) : List Name → Except DErr (List α)
  | [] => .ok []
  | n :: ns =>
    match l.find? fun x => x.1 == n with
    | none => .error .valueError
    | some x => (pick l ns).map fun tl => x.2 :: tl

/-- `sort_args`. pymc_extras/statespace/filters/distributions.py:223-235 -/
def sortArgs {α : Type} (args : List (Arg α)) : Except DErr (List α) :=
  match argNames args with
  | .error e => .error e
  | .ok l => pick l canonical

/-- What the step function works with: the seven matrices, and whether the state and the generator are what it took for them.
pymc_extras/statespace/filters/distributions.py:237-243 -/
def stepDecode {α : Type} (nSeq : ℕ) (args : List (Arg α)) : Except DErr (List α × Option (Arg α) × Option (Arg α)) :=
  let seqs := args.take nSeq
  let state := args[nSeq]?
  let rest := args.drop (nSeq + 1)
  let nonSeqs := rest.dropLast
  let rng := rest.getLast?
  (sortArgs (seqs ++ nonSeqs)).map fun ms => (ms, state, rng)

/-- The matrices seen by the step function of `LinearGaussianStateSpace` with the given `sequence_names`.
pymc_extras/statespace/filters/distributions.py:214-243 -/
def lgssStep {α : Type} (seqNames : List Name) (env : Name → α) : Except DErr (List α × Option (Arg α) × Option (Arg α)) :=
  stepDecode seqNames.length (stepArgs seqNames env)

/-- Symbols of a signature. pymc_extras/statespace/filters/distributions.py:25-29 -/
inductive Sym where
  | s | p | r | t
deriving DecidableEq

/-- `matrix_to_shape`. pymc_extras/statespace/filters/distributions.py:31-41 -/
def baseShapes : List (Name × List Sym) :=
  [(['x', '0'], [.s]), (['P', '0'], [.s, .s]), (['c'], [.s]), (['d'], [.p]), (['T'], [.s, .s]), (['Z'], [.p, .s]),
   (['R'], [.s, .r]), (['H'], [.p, .p]), (['Q'], [.r, .r])]

/-- One pass of the loop over `sequence_names`. pymc_extras/statespace/filters/distributions.py:43-45 -/
def addTime (m : List (Name × List Sym)) (n : Name) : Except DErr (List (Name × List Sym)) :=
  if n ∈ m.map Prod.fst then .ok (m.map fun x => if x.1 = n then (x.1, .t :: x.2) else x) else .error .keyError

/-- The loop over `sequence_names`. pymc_extras/statespace/filters/distributions.py:43-45 -/
def addTimes : List Name → List (Name × List Sym) → Except DErr (List (Name × List Sym))
  | [], m => .ok m
  | n :: ns, m =>
    match addTime m n with
    | .error e => .error e
    | .ok m' => addTimes ns m'

/-- `make_signature`: the core shapes of the nine inputs (the rendering as text is not modelled).
pymc_extras/statespace/filters/distributions.py:24-49 -/
def signature (seqNames : List Name) : Except DErr (List (List Sym)) :=
  (addTimes seqNames baseShapes).map fun m => m.map Prod.snd

/-! ### Splitting states from observations -/

/-- `x[:k]` for a known or unknown (`None`) bound. pymc_extras/statespace/filters/distributions.py:373-374 -/
def sliceTo {α : Type} (k : Option ℕ) (row : List α) : List α :=
  match k with
  | none => row
  | some k => row.take k

/-- `x[k:]`. pymc_extras/statespace/filters/distributions.py:375 -/
def sliceFrom {α : Type} (k : Option ℕ) (row : List α) : List α :=
  match k with
  | none => row
  | some k => row.drop k

/-- `LinearGaussianStateSpace.dist`: states and observations of one row, given the static shape of `T` (`None` for an unknown
length). pymc_extras/statespace/filters/distributions.py:367-378 -/
def distSplit {α : Type} (shapeT : List (Option ℕ)) (row : List α) : List α × List α :=
  let k := shapeT.headD none
  (sliceTo k row, sliceFrom k row)

/-- `LinearGaussianStateSpace(name, ...)`: `k_endog` given, or taken from the static shape of `H`; then
`[..., :-k_endog]` and `[..., -k_endog:]`. pymc_extras/statespace/filters/distributions.py:350-358, 387-393 -/
def newSplit {α : Type} (kEndog : Option ℕ) (shapeH : List (Option ℕ)) (row : List α) : Except DErr (List α × List α) :=
  let cut (k : ℕ) := if k = 0 then ([], row) else (row.take (row.length - k), row.drop (row.length - k))
  match kEndog with
  | some k => .ok (cut k)
  | none =>
    match shapeH.headD none with
    | none => .error .valueError
    | some k => .ok (cut k)

/-! ### `SequenceMvNormal` -/

/-- The check made when the log-probability of the filter distribution is asked for: the lengths of the first axes of the value,
the means and the covariances; the value itself is not used. `none` stands for `ParameterValueError`.
pymc_extras/statespace/filters/distributions.py:446-453 -/
def sequenceLogp {α : Type} (valueShape musShape covsShape : List ℕ) (logp : α) : Option α :=
  if valueShape.headD 0 = musShape.headD 0 ∧ covsShape.headD 0 = musShape.headD 0 then some logp else none

/-- `moveaxis(x, -2, 0)` on shapes of rank greater than 2: the time axis goes to the front.
pymc_extras/statespace/filters/distributions.py:412-414 -/
def musToScan (sh : List ℕ) : List ℕ :=
  if sh.length > 2 then (sh.getD (sh.length - 2) 0) :: sh.eraseIdx (sh.length - 2) else sh

/-- `moveaxis(x, -3, 0)` on shapes of rank greater than 3. pymc_extras/statespace/filters/distributions.py:415-416 -/
def covsToScan (sh : List ℕ) : List ℕ :=
  if sh.length > 3 then (sh.getD (sh.length - 3) 0) :: sh.eraseIdx (sh.length - 3) else sh

/-- `moveaxis(x, 0, -2)`. pymc_extras/statespace/filters/distributions.py:432-434 -/
def scanToOut (sh : List ℕ) : List ℕ :=
  if sh.length > 2 then (sh.tail).insertIdx (sh.length - 2) (sh.headD 0) else sh

/-- `SequenceMvNormal(..., observed=value)` with the given shapes: shape of the variable and whether its log-probability passes
the check. The op is applied to the moved means and covariances.
pymc_extras/statespace/filters/distributions.py:410-453 -/
def sequenceMvNormal {α : Type} (valueShape mus covs : List ℕ) (logp : α) : List ℕ × Option α :=
  (scanToOut (musToScan mus), sequenceLogp valueShape (musToScan mus) (covsToScan covs) logp)

/-! ### `compile_statespace` -/

/-- `np.squeeze` of a shape. pymc_extras/statespace/core/compile.py:46 -/
def squeezeShape (sh : List ℕ) : List ℕ := sh.filter fun k => k != 1

/-- Calling the compiled PyTensor function by keywords: missing and unknown inputs are errors.
pymc_extras/statespace/core/compile.py:31-33, 43 -/
def callOk (inputs params : List String) : Bool :=
  inputs.all (fun i => decide (i ∈ params)) && params.all fun p => decide (p ∈ inputs)

/-- The function returned by `compile_statespace(model, steps)`, called with `draws` and keyword arguments `params` (names; the
number given for `steps`, if any, is `stepsArg`). `inputs` are the model's own symbolic inputs; `widths` the static widths of
the two outputs. The value is the pair of shapes. pymc_extras/statespace/core/compile.py:11-48 -/
def compiled (steps : Option ℕ) (inputs : List String) (widths : List (Option ℕ)) (draws : ℕ) (params : List String)
    (stepsArg : Option ℕ) : Except DErr (List (List ℕ)) :=
  let inner := match steps with
    | some s => s
    | none => stepsArg.getD 100
  let allInputs := match steps with
    | some _ => inputs
    | none => "steps" :: inputs
  let allParams := match stepsArg with
    | some _ => "steps" :: params
    | none => params
  if widths.any Option.isNone then .error .typeError
  else if 0 < draws ∧ callOk allInputs allParams = false then .error .typeError
  else .ok (widths.map fun w => squeezeShape [draws, inner + 1, w.getD 0])

end Verif.Simulate
