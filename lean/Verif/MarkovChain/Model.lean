import Mathlib.Analysis.SpecialFunctions.Log.ENNRealLogExp

/-!
# DiscreteMarkovChain

Model of `pymc_extras/distributions/timeseries.py`: `_make_outputs_info` (34-56), the generator of
`DiscreteMarkovChain.rv_op` (196-212), `discrete_mc_moment` (235-252) and `discrete_mc_logp`
(256-278), without batch axes.  The checks on `P` at 270-278 are hypotheses of the theorems.  Random
draws are an arbitrary function of the step and the selected states.
-/

set_option autoImplicit false

namespace MarkovChain

open scoped ENNReal

/-- Python slice `l[i : -k]` for `k > 0`, and `l[i:]` for `k = 0` (timeseries.py:260 writes `None`). -/
def pySlice {α : Type} (l : List α) (i k : ℕ) : List α :=
  if k = 0 then l.drop i else (l.take (l.length - k)).drop i

/-- timeseries.py:260: `indexes`, one slice per position in the window. -/
def indexes (n : ℕ) (value : List ℕ) : List (List ℕ) :=
  (List.range (n + 1)).map (fun i => pySlice value i (n - i))

/-- `P[tuple(indexes)]` (263): entry `t` uses entry `t` of each index array; NumPy requires the arrays
to have equal lengths, which they do. timeseries.py:263 -/
def gather {β : Type} (P : List ℕ → β) (idx : List (List ℕ)) : List β :=
  (List.range ((idx.map List.length).headD 0)).map (fun t => P (idx.map (fun l => l.getD t 0)))

/-- timeseries.py:256-263 `discrete_mc_logp`.  `init i v` is the log-probability of value `v` for
entry `i` of the initial distribution (resized to `n_lags` entries, 189). -/
noncomputable def chainLogp (n : ℕ) (init : ℕ → ℕ → EReal) (P : List ℕ → ℝ≥0∞) (value : List ℕ) :
    EReal :=
  ((value.take n).mapIdx (fun i v => init i v)).sum
    + ((gather P (indexes n value)).map ENNReal.log).sum

/-- timeseries.py:34-56, 202-208: `pytensor.scan` with taps `-n, …, -1` on the initial rows (`n > 1`),
or with the single recurrent value `init[0]` (`n ≤ 1`).  `hist` holds the last `n` values, oldest
first; `step t states` is the value produced at step `t`. -/
def scanTaps (step : ℕ → List ℕ → ℕ) : ℕ → ℕ → List ℕ → List ℕ
  | 0, _, _ => []
  | k + 1, t, hist => let v := step t hist; v :: scanTaps step k (t + 1) (hist.tail ++ [v])

/-- timeseries.py:53-56 `_make_outputs_info`: the initial history. -/
def outputsInfo (n : ℕ) (init : List ℕ) : List ℕ := if n > 1 then init else [init.headD 0]

/-- timeseries.py:196-212: the generated chain. -/
def genChain (n steps : ℕ) (init : List ℕ) (draw : ℕ → List ℕ → ℕ) : List ℕ :=
  init ++ scanTaps draw steps 0 (outputsInfo n init)

/-- timeseries.py:235-252 `discrete_mc_moment`: the first entries are the support point of the initial
distribution, but the scan starts from the initial distribution itself (247), that is from a draw. -/
def supportPoint (n steps : ℕ) (initPoint initDraw : List ℕ) (argmaxRow : List ℕ → ℕ) : List ℕ :=
  initPoint ++ scanTaps (fun _ s => argmaxRow s) steps 0 (outputsInfo n initDraw)

/-- timeseries.py:140-148: argument checks of `dist`; the Booleans say which arguments are given. -/
inductive ArgErr
  | noSteps
  | noP
  | bothP
  deriving DecidableEq, Repr

/-- timeseries.py:140-145. -/
def checkArgs (steps p logitP : Bool) : Option ArgErr :=
  if !steps then some .noSteps
  else if !p && !logitP then some .noP
  else if p && logitP then some .bothP
  else none

end MarkovChain
