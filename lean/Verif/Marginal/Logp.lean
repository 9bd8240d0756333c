import Verif.Marginal.Graph
import Mathlib.Analysis.SpecialFunctions.Log.ENNRealLogExp
import Mathlib.Algebra.BigOperators.Ring.Finset

/-!
# Log-probabilities of marginalised variables

Model of `pymc_extras/model/marginal/distributions.py`: the domain of a finite discrete variable
(55-71), the reduction and alignment of dependent log-probabilities (74-126), the log-probability of
a marginalised finite discrete variable (144-204) and of a marginalised Markov chain (207-276).

Log-probabilities are extended reals: `⊥` is minus infinity.  A tensor is a function of its index, a
list with one coordinate per axis.
-/

set_option autoImplicit false

namespace Marginal

open scoped BigOperators

/-- The discrete distributions the code distinguishes (distributions.py:58-71). -/
inductive Dist
  | bernoulli
  | categorical (k : ℕ)
  | discreteUniform (lower upper : ℤ)
  | markovChain (k : ℕ)
  | other
  deriving DecidableEq, Repr

/-- distributions.py:55-71 `get_domain_of_finite_discrete_rv`; `none` is the NotImplementedError. -/
def getDomain : Dist → Option (List ℤ)
  | .bernoulli => some [0, 1]
  | .categorical k => some ((List.range k).map Int.ofNat)
  | .discreteUniform l u => some ((List.range (u + 1 - l).toNat).map (fun i => l + Int.ofNat i))
  | .markovChain k => some ((List.range k).map Int.ofNat)
  | .other => none

/-- All index lists of a tensor of the given shape. distributions.py:100-117 -/
def box : List ℕ → List (List ℕ)
  | [] => [[]]
  | k :: s => (List.range k).flatMap (fun i => (box s).map (i :: ·))

/-- `pt.logsumexp` over a list of values. distributions.py:197 -/
noncomputable def logsumexp (l : List EReal) : EReal := ENNReal.log ((l.map EReal.exp).sum)

/-- Coordinates of an index at the kept axes. distributions.py:100-117 -/
def pick : (ℕ → Bool) → List ℕ → List ℕ
  | _, [] => []
  | keep, c :: e => if keep 0 then c :: pick (fun j => keep (j + 1)) e
      else pick (fun j => keep (j + 1)) e

/-- `t.sum(axes)` for a tensor of the given shape, `keep` telling which axes are not summed. distributions.py:111-113 -/
noncomputable def sumAxes (keep : ℕ → Bool) (shape : List ℕ) (t : List ℕ → EReal)
    (i : List ℕ) : EReal :=
  (((box shape).filter (fun e => pick keep e = i)).map t).sum

/-- `t.transpose(*p)`: entry `idx` of the result is the entry of `t` whose coordinate along axis
`p[j]` is `idx[j]`. distributions.py:115, 126 -/
def transposeT {α : Type} (p : List ℕ) (t : List ℕ → α) (idx : List ℕ) : α :=
  t ((List.range p.length).map (fun a => idx.getD (p.idxOf a) 0))

/-- `t.transpose(*p)` as called at distributions.py:115 and 126: without arguments NumPy reverses
the axes. -/
def transposeArgs {α : Type} (p : List ℕ) (t : List ℕ → α) (idx : List ℕ) : α :=
  if p = [] then t idx.reverse else transposeT p t idx

/-- One dependent variable: its dims connection, the number of its support axes (which its
log-probability has already collapsed), the shape of its log-probability, and its log-probability as
a function of the marginalised variable's value. distributions.py:100-117, 157-197 -/
structure Dep where
  dims : Dims
  supp : ℕ
  shape : List ℕ
  logp : (List ℕ → ℤ) → List ℕ → EReal

/-- distributions.py:103-110: the numbers `i` of the axes `-i` to sum over; `-i` is an axis of the
dependent *variable*. -/
def suppAxes (dims : Dims) (supp : ℕ) : List ℕ :=
  ((List.range dims.length).map (· + 1)).filter
    (fun i => (dims.reverse.getD (i - 1) none).isNone && !decide (i ≤ supp))

/-- distributions.py:119: in `pt.add` a log-probability that has lost all its axes is added to every
entry. -/
def spread {α : Type} (scalar : Prop) [Decidable scalar] (t : List ℕ → α) : List ℕ → α :=
  if scalar then fun _ => t [] else t

/-- distributions.py:100-117: one dependent log-probability, summed and transposed.  `none` is the
error raised when an axis is out of range for the log-probability.  (The error NumPy raises when the
number of transposed axes is not the number of axes is not modelled: the number is right whenever the
dims connection lists every axis of the marginalised variable or none.) -/
noncomputable def reduceDep (d : Dep) (x : List ℕ → ℤ) : Option (List ℕ → EReal) :=
  let m := d.shape.length
  if m > 0 then
    let axes := suppAxes d.dims d.supp
    if axes.any (fun i => decide (m < i)) then none
    else
      let summed := sumAxes (fun j => !axes.contains (m - j)) d.shape (d.logp x)
      some (spread (d.dims.filterMap id = [] ∧ axes.length = m)
        (transposeArgs (d.dims.filterMap id) summed))
  else some (d.logp x)

/-- distributions.py:74-120 `reduce_batch_dependent_logps`. -/
noncomputable def reduceAll (deps : List Dep) (x : List ℕ → ℤ) : Option (List ℕ → EReal) := do
  let rs ← deps.mapM (fun d => reduceDep d x)
  some (fun idx => (rs.map (fun r => r idx)).sum)

/-- distributions.py:157-197: joint log-probability with the marginalised variable set to one domain
value everywhere, for each domain value, combined by logsumexp.  `m idx k` is the log-probability of
entry `idx` of the marginalised variable at value `k`. -/
noncomputable def marginalEntries (dom : List ℤ) (m : List ℕ → ℤ → EReal) (deps : List Dep) :
    Option (List ℕ → EReal) := do
  let rs ← dom.mapM (fun k => reduceAll deps (fun _ => k))
  some (fun idx => logsumexp (List.zipWith (fun k r => m idx k + r idx) dom rs))

/-- distributions.py:123-126, 200: alignment with the first dependent variable. -/
def alignLogp {α : Type} (dims : Dims) (t : List ℕ → α) : List ℕ → α :=
  transposeArgs (dims.filterMap id) t

/-- distributions.py:144-204 `finite_discrete_marginal_rv_logp`, first output.  (The further outputs
are zero, 203.) -/
noncomputable def finiteDiscreteLogp (dom : List ℤ) (m : List ℕ → ℤ → EReal) (deps : List Dep) :
    Option (List ℕ → EReal) := do
  let t ← marginalEntries dom m deps
  some (alignLogp ((deps.map Dep.dims).headD []) t)

/-! ### Hidden Markov chain -/

/-- distributions.py:251-253 `step_alpha`. -/
noncomputable def stepAlpha {K : ℕ} (emission : Fin K → EReal) (alpha : Fin K → EReal)
    (logP : Fin K → Fin K → EReal) : Fin K → EReal :=
  fun j => emission j + logsumexp ((List.finRange K).map (fun i => alpha i + logP i j))

/-- distributions.py:257-265: the scan over the emissions after the first; the result is the last
state of the scan, so there must be at least one step (`log_alpha_seq[-1]`). -/
noncomputable def scanAlpha {K : ℕ} (logP : Fin K → Fin K → EReal) :
    (Fin K → EReal) → List (Fin K → EReal) → (Fin K → EReal)
  | alpha, [] => alpha
  | alpha, e :: es => scanAlpha logP (stepAlpha e alpha logP) es

/-- distributions.py:207-276 `marginal_hmm_logp` for a chain without batch axes; `emission t k` is
the reduced log-probability of the observations at time `t` when the chain is `k` everywhere
(224-234).  A chain of length `T`; `none` when the scan has no step. -/
noncomputable def hmmLogp {K : ℕ} (init : Fin K → EReal) (logP : Fin K → Fin K → EReal)
    (T : ℕ) (emission : ℕ → Fin K → EReal) : Option EReal :=
  if T < 2 then none
  else
    let alpha0 := fun k => init k + emission 0 k
    let es := (List.range (T - 1)).map (fun t => emission (t + 1))
    some (logsumexp ((List.finRange K).map (scanAlpha logP alpha0 es)))

end Marginal
