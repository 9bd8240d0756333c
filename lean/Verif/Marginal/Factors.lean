import Verif.Marginal.Logp
import Mathlib.Data.List.Sort

/-!
# Marginalising several variables, and recovering them

Model of `pymc_extras/model/marginal/marginal_model.py`: `_marginalize` (143-206),
`replace_finite_discrete_marginal_subgraph` (551-595), and the conditional log-probabilities of
`recover_marginals` (413-491), for variables without batch axes (batch axes are the subject of
`Verif.Marginal.Logp`).  A model is the list of its random variables, each with the variables it is
computed from and its conditional log-probability as a function of the values of all variables.
-/

set_option autoImplicit false

namespace Marginal

/-- Values of all random variables. Values of the variables of the model at marginal_model.py:143-206. -/
abbrev Asg := ℕ → ℤ

/-- A random variable: its name, the random variables it depends on directly
(graph_analysis.py:36-44 `find_conditional_input_rvs`), its log-probability. -/
structure Rv where
  name : ℕ
  parents : List ℕ
  logp : Asg → EReal

/-- Change the value of one variable. `vectorize_graph`/`clone_replace` with a domain value, distributions.py:157-197. -/
def upd (σ : Asg) (x : ℕ) (k : ℤ) : Asg := fun y => if y = x then k else σ y

/-- Total log-probability of a model (what `Model.logp` sums). PyMC's `Model.logp`, called at marginal_model.py:217. -/
noncomputable def total (rvs : List Rv) (σ : Asg) : EReal := (rvs.map (fun r => r.logp σ)).sum

/-- Exceptions of marginalisation (marginal_model.py:158, 165, 554). -/
inductive MErr
  | noDependents
  | dependentDeterministic
  deriving DecidableEq, Repr

/-- graph_analysis.py:56-62 `find_conditional_dependent_rvs`: in the order of the list. -/
def dependents (rvs : List Rv) (x : ℕ) : List Rv :=
  rvs.filter (fun r => decide (r.name ≠ x) && decide (x ∈ r.parents))

/-- distributions.py:157-197 for a scalar variable: logsumexp over the domain of the joint
log-probability of the variable and its dependents. -/
noncomputable def jointOver (dom : List ℤ) (rx : Rv) (deps : List Rv) (σ : Asg) : EReal :=
  logsumexp (dom.map (fun k => rx.logp (upd σ rx.name k)
    + (deps.map (fun d => d.logp (upd σ rx.name k))).sum))

/-- marginal_model.py:556-561, 577: inputs of the new variable. -/
def newInputs (rx : Rv) (deps : List Rv) : List ℕ :=
  (rx.parents ++ deps.flatMap Rv.parents).filter
    (fun p => decide (p ≠ rx.name) && decide (p ∉ deps.map Rv.name))

/-- What happens to one variable when `rx` is marginalised with dependents `d0 :: ds`
(marginal_model.py:169-189, distributions.py:200-204): it is removed if it is `rx`; the first
dependent gets the joint log-probability; the others get zero; all dependents become outputs of one
variable whose inputs are `newInputs`. -/
noncomputable def replaceRv (dom : List ℤ) (rx d0 : Rv) (ds : List Rv) (r : Rv) : Option Rv :=
  if r.name = rx.name then none
  else if r.name = d0.name then
    some ⟨r.name, newInputs rx (d0 :: ds), jointOver dom rx (d0 :: ds)⟩
  else if r.name ∈ ds.map Rv.name then some ⟨r.name, newInputs rx (d0 :: ds), fun _ => 0⟩
  else some r

/-- marginal_model.py:153-180 for one variable.  `dets` are the inputs of each deterministic or
potential. -/
noncomputable def marginalizeOne (dom : ℕ → List ℤ) (dets : List (List ℕ)) (rvs : List Rv) (x : ℕ) :
    Except MErr (List Rv) :=
  if dets.any (fun d => d.contains x) then .error .dependentDeterministic
  else match rvs.find? (fun r => r.name = x) with
    | none => .ok rvs
    | some rx =>
      match dependents rvs x with
      | [] => .error .noDependents
      | d0 :: ds => .ok (rvs.filterMap (replaceRv (dom x) rx d0 ds))

/-- marginal_model.py:148-206: the loop over the sorted variables. -/
noncomputable def marginalizeLoop (dom : ℕ → List ℤ) (dets : List (List ℕ)) :
    List ℕ → List Rv → Except MErr (List Rv)
  | [], rvs => .ok rvs
  | x :: xs, rvs => do
      let rvs' ← marginalizeOne dom dets rvs x
      marginalizeLoop dom dets xs rvs'

/-- marginal_model.py:148-152: `sorted(..., key=toposort.index, reverse=True)`. -/
def processingOrder (topo : ℕ → ℕ) (xs : List ℕ) : List ℕ :=
  xs.mergeSort (fun a b => decide (topo b ≤ topo a))

/-- marginal_model.py:143-206 `_marginalize`. -/
noncomputable def marginalizeAll (dom : ℕ → List ℤ) (dets : List (List ℕ)) (topo : ℕ → ℕ)
    (xs : List ℕ) (rvs : List Rv) : Except MErr (List Rv) :=
  marginalizeLoop dom dets (processingOrder topo xs) rvs

/-! ### recover_marginals -/

/-- Is `r` conditionally dependent on `x`, looking through the variables in `hidden`
(graph_analysis.py:47-53 with the marginalised variables not among the blockers,
marginal_model.py:426).  `fuel` bounds the length of the paths. -/
def dependsThrough (rvs : List Rv) (hidden : List ℕ) (x : ℕ) : ℕ → Rv → Bool
  | 0, r => decide (x ∈ r.parents)
  | fuel + 1, r => decide (x ∈ r.parents) ||
      (rvs.filter (fun p => decide (p.name ∈ r.parents) && decide (p.name ∈ hidden))).any
        (fun p => dependsThrough rvs hidden x fuel p)

/-- marginal_model.py:423-426: the dependents of `x` among the variables that stay in the model when
`x` is put back and `hidden` stay marginalised. -/
def recoverDependents (rvs : List Rv) (hidden : List ℕ) (x : ℕ) : List ℕ :=
  (rvs.filter (fun r => decide (r.name ≠ x) && decide (r.name ∉ hidden) &&
    dependsThrough rvs hidden x rvs.length r)).map Rv.name

/-- marginal_model.py:427-438: unnormalised joint log-probability of `x` given everything else, in
the model `rvs'` obtained by marginalising the other variables. -/
noncomputable def recoverJoint (rvs' : List Rv) (deps : List ℕ) (x : ℕ) (σ : Asg) : EReal :=
  ((rvs'.filter (fun r => decide (r.name = x) || decide (r.name ∈ deps))).map (fun r => r.logp σ)).sum

/-- `log_softmax` (marginal_model.py:461). -/
noncomputable def logSoftmax (l : List EReal) : List EReal := l.map (fun v => v - logsumexp l)

/-- marginal_model.py:443-468: the log-probabilities returned for `x`, one per domain value. -/
noncomputable def recoverLogp (dom : List ℤ) (rvs' : List Rv) (deps : List ℕ) (x : ℕ) (σ : Asg) :
    List EReal :=
  logSoftmax (dom.map (fun k => recoverJoint rvs' deps x (upd σ x k)))

/-- marginal_model.py:463-465: the value returned for a categorical draw `c`. -/
def recoverDraw (d : Dist) (dom : List ℤ) (c : ℕ) : ℤ :=
  match d with
  | .discreteUniform _ _ => (c : ℤ) + dom.getD 0 0
  | _ => c

end Marginal
