import Verif.MarkovChain.Model

/-!
# Batches of Markov chains, and the Gibbs sampler's list of coordinates

Model of `pymc_extras/distributions/timeseries.py`: the shapes met while a `DiscreteMarkovChain` is created (178-222) and its
support point is built (235-252), the generator with one batch axis, `discrete_mc_logp` (256-278) with one batch axis, and
`DiscreteMarkovChainGibbsMetropolis.__init__` (284-343).
-/

set_option autoImplicit false

namespace MarkovChain

open scoped ENNReal

/-- Exceptions. timeseries.py:189, 196-208, 299-336 -/
inductive Err
  | indexError | shapeError | typeError | valueError
  deriving DecidableEq, Repr

/-! ### Creating the variable -/

/-- `transition_probs[tuple(states)]`, numbers of axes: `n` index arrays with `b` axes replace the first `n` axes of `P`.
timeseries.py:198, 242 -/
def gatherNdim (pNdim n b : ℕ) : Except Err ℕ :=
  if pNdim < n then .error .indexError else .ok (b + (pNdim - n))

/-- The transition function of the scan: a categorical variable has one axis less than its probabilities, and `scan` refuses a
result whose number of axes is not that of the initial value (`b` batch axes). timeseries.py:196-208 -/
def transitionNdim (pNdim n b : ℕ) : Except Err ℕ :=
  match gatherNdim pNdim n b with
  | .error e => .error e
  | .ok 0 => .error .shapeError
  | .ok (k + 1) => if k = b then .ok k else .error .shapeError

/-- The greedy transition of the support point: `pt.argmax(p)` has no axis left. timeseries.py:240-250 -/
def greedyNdim (pNdim n b : ℕ) : Except Err ℕ :=
  match gatherNdim pNdim n b with
  | .error e => .error e
  | .ok _ => if 0 = b then .ok 0 else .error .shapeError

/-! ### Draws -/

/-- One step of the scan for a batch: every index array has one entry per chain. timeseries.py:196-200 -/
def batchStep (B : ℕ) (draw : ℕ → ℕ → List ℕ → ℕ) (t : ℕ) (hist : List (List ℕ)) : List ℕ :=
  (List.range B).map fun b => draw t b (hist.map fun row => row.getD b 0)

/-- The scan over a batch; `hist` holds the last `n` rows, oldest first. timeseries.py:202-208 -/
def scanBatch (B : ℕ) (draw : ℕ → ℕ → List ℕ → ℕ) : ℕ → ℕ → List (List ℕ) → List (List ℕ)
  | 0, _, _ => []
  | k + 1, t, hist => let v := batchStep B draw t hist; v :: scanBatch B draw k (t + 1) (hist.tail ++ [v])

/-- `_make_outputs_info` for rows. timeseries.py:53-56 -/
def outputsInfoBatch (n : ℕ) (init : List (List ℕ)) : List (List ℕ) := if n > 1 then init else [init.headD []]

/-- `pt.moveaxis(pt.concatenate([init, chain], axis=0), 0, -1)`: one list per chain. timeseries.py:212 -/
def genBatch (n steps B : ℕ) (init : List (List ℕ)) (draw : ℕ → ℕ → List ℕ → ℕ) : List (List ℕ) :=
  let rows := init ++ scanBatch B draw steps 0 (outputsInfoBatch n init)
  (List.range B).map fun b => rows.map fun row => row.getD b 0

/-! ### Log-probability -/

/-- The initial distribution: the same for all entries, or with parameters of shape `(m,)`: `lp i v` is the log-probability of
value `v` under parameter set `i`. timeseries.py:186-190, 262 -/
inductive Init
  | shared (lp : ℕ → EReal)
  | vector (m : ℕ) (lp : ℕ → ℕ → EReal)

/-- Elementwise evaluation with broadcasting along the last axis. timeseries.py:262 -/
def bcast (m : ℕ) (lp : ℕ → ℕ → EReal) (v : List ℕ) : Except Err (List EReal) :=
  if v.length = m then .ok (v.mapIdx lp)
  else match v with
    | [x] => .ok ((List.range m).map fun i => lp i x)
    | _ => if m = 1 then .ok (v.map (lp 0)) else .error .shapeError

/-- `logp(init_dist, value[..., :n_lags]).sum(axis=-1)` for one chain. timeseries.py:262 -/
noncomputable def initTerm (n : ℕ) (init : Init) (v : List ℕ) : Except Err EReal :=
  match init with
  | .shared lp => .ok ((v.take n).map lp).sum
  | .vector m lp => (bcast m lp (v.take n)).map List.sum

/-- `discrete_mc_logp` for a batch of chains with one transition matrix. timeseries.py:256-263 -/
noncomputable def batchLogp (n : ℕ) (init : Init) (P : List ℕ → ℝ≥0∞) (value : List (List ℕ)) : Except Err (List EReal) :=
  value.mapM fun v => (initTerm n init v).map fun a => a + ((gather P (indexes n v)).map ENNReal.log).sum

/-- `change_dist_size(init_dist, (n_lags, *batch))`: parameters of shape `(m,)` must fit the last axis of the new size.
timeseries.py:189 -/
def resize (n : ℕ) (batch : Option ℕ) : Init → Except Err Unit
  | .shared _ => .ok ()
  | .vector m _ => if m = 1 ∨ m = batch.getD n then .ok () else .error .shapeError

/-! ### Gibbs sampler -/

/-- A variable given to the sampler: is it a chain, its number of states, the number of its values. timeseries.py:299-321 -/
structure GVar where
  isChain : Bool
  k : ℕ
  size : ℕ

/-- The loop building `dimcats`. timeseries.py:299-321 -/
def dimcatsLoop : List (ℕ × ℕ) → List GVar → Except Err (List (ℕ × ℕ))
  | acc, [] => .ok acc
  | acc, v :: vs =>
    if v.isChain = false then .error .typeError
    else dimcatsLoop (acc ++ (List.range v.size).map fun i => (acc.length + i, v.k)) vs

/-- The `order` argument: `"random"` or a list. timeseries.py:299-336 -/
inductive Order
  | random
  | given (l : List ℕ)

/-- The part of `__init__` that decides which coordinates are updated, in which order, with how many categories.
timeseries.py:299-336 -/
def gibbsInit (vars : List GVar) (order : Order) (proposal : String) : Except Err (Bool × List (ℕ × ℕ)) :=
  match dimcatsLoop [] vars with
  | .error e => .error e
  | .ok dimcats =>
    match order with
    | .random => if proposal = "uniform" ∨ proposal = "proportional" then .ok (true, dimcats) else .error .valueError
    | .given l =>
      if l.mergeSort = List.range dimcats.length then
        (if proposal = "uniform" ∨ proposal = "proportional" then .ok (false, l.filterMap fun j => dimcats[j]?)
        else .error .valueError)
      else .error .valueError

end MarkovChain
