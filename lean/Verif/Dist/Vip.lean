import Mathlib.Probability.Distributions.Gaussian.Real
import Mathlib.Probability.Distributions.Exponential
import Mathlib.Analysis.SpecialFunctions.Pow.Real
import Mathlib.Data.EReal.Basic

/-!
# Variationally informed reparametrisation

Model of `pymc_extras/model/transforms/autoreparam.py`.  Real arithmetic with infinities for the stored
`logit(λ)`; `none` is NaN.  The graph rewriting (`fgraph_from_model`, `toposort_replace`) is not
modelled: the two formulas it inserts and the operations of the helper object are.  Arrays of `λ` are
lists (one axis).
-/

set_option autoImplicit false

open MeasureTheory ProbabilityTheory

namespace Vip

/-! ### The inserted variables -/

/-- autoreparam.py:234-239: the law of the auxiliary variable of a normal variable. -/
noncomputable def normalAux (loc scale lam : ℝ) : Measure ℝ :=
  gaussianReal (lam * loc) (Real.toNNReal ((scale ^ lam) ^ 2))

/-- autoreparam.py:249: the deterministic that replaces a normal variable. -/
noncomputable def normalRep (loc scale lam eta : ℝ) : ℝ := loc + scale ^ (1 - lam) * (eta - lam * loc)

/-- autoreparam.py:267, 269-273: the law of the auxiliary variable of an exponential variable
(`scale` is the inverse of the rate). -/
noncomputable def expAux (scale lam : ℝ) : Measure ℝ := expMeasure (1 / scale ^ lam)

/-- autoreparam.py:268, 287: the deterministic that replaces an exponential variable. -/
noncomputable def expRep (scale lam eta : ℝ) : ℝ := scale ^ (1 - lam) * eta

/-- The operations known to `vip_reparametrize`. pymc_extras/model/transforms/autoreparam.py:173-180, 210-219 -/
inductive Kind
  | normal | exponential | other | notRandom
  deriving DecidableEq, Repr

/-- Errors. pymc_extras/model/transforms/autoreparam.py:81-89, 179-180 -/
inductive VErr
  | keyError | valueError | typeError | notImplemented
  deriving DecidableEq, Repr

/-- autoreparam.py:179-180, 210-219, 232-233: which variables can be reparametrised. -/
def dispatch (k : Kind) (hasTransform : Bool) : Except VErr Unit :=
  match k with
  | .notRandom => .error .typeError
  | .other => .error .notImplemented
  | .normal => if hasTransform then .error .notImplemented else .ok ()
  | .exponential => .ok ()

/-! ### The helper object -/

/-- A float: NaN is `none`. pymc_extras/model/transforms/autoreparam.py:85-89 -/
abbrev F := Option EReal

open Classical in
/-- `scipy.special.logit` (autoreparam.py:132). -/
noncomputable def logit : Option ℝ → F
  | none => none
  | some x =>
    if x = 0 then some ⊥
    else if x = 1 then some ⊤
    else if 0 < x ∧ x < 1 then some ((Real.log (x / (1 - x)) : ℝ) : EReal)
    else none

open Classical in
/-- `scipy.special.expit` (autoreparam.py:125). -/
noncomputable def expit : F → Option ℝ
  | none => none
  | some x =>
    if x = ⊥ then some 0
    else if x = ⊤ then some 1
    else some (1 / (1 + Real.exp (-x.toReal)))

/-- The shared variables: `name → logit(λ)`. pymc_extras/model/transforms/autoreparam.py:46-60 -/
abbrev Store := String → Option (List F)

/-- autoreparam.py:116-127 `get_lambda`. -/
noncomputable def getLambda (s : Store) (name : String) : Option (List (Option ℝ)) :=
  (s name).map (List.map expit)

/-- `np.broadcast_to` along one axis. pymc_extras/model/transforms/autoreparam.py:85-89 -/
def broadcastTo {β : Type} (v : List β) (n : ℕ) : Option (List β) :=
  if v.length = n then some v
  else match v with
    | [x] => some (List.replicate n x)
    | _ => none

/-- `shared.set_value` pymc_extras/model/transforms/autoreparam.py:85-89, 116-146 -/
def Store.put (s : Store) (k : String) (v : List F) : Store := fun q => if q = k then some v else s q

/-- autoreparam.py:129-138 `set_lambda`: the keys are processed in order; the result is the store and,
if a key is unknown or a value has the wrong shape, the error. -/
noncomputable def setLambda : List (String × List (Option ℝ)) → Store → Store × Except VErr Unit
  | [], s => (s, .ok ())
  | (k, v) :: rest, s =>
    match s k with
    | none => (s, .error .keyError)
    | some old =>
      match broadcastTo (v.map logit) old.length with
      | none => (s, .error .valueError)
      | some fill => setLambda rest (s.put k fill)

open Classical in
/-- autoreparam.py:85-89: `np.piecewise(lam, [lam < eps, lam > 1 - eps], [0, 1, identity])`; the second
condition is applied after the first. -/
noncomputable def truncate1 (eps : ℝ) : Option ℝ → Option ℝ
  | none => none
  | some x => if x > 1 - eps then some 1 else if x < eps then some 0 else some x

/-- autoreparam.py:81-89: the update computed by `truncate_lambda`; an unknown name is a KeyError. -/
noncomputable def truncateUpdate (s : Store) : List (String × ℝ) →
    Except VErr (List (String × List (Option ℝ)))
  | [] => .ok []
  | (k, eps) :: rest =>
    match getLambda s k with
    | none => .error .keyError
    | some lam =>
      match truncateUpdate s rest with
      | .error e => .error e
      | .ok u => .ok ((k, lam.map (truncate1 eps)) :: u)

/-- autoreparam.py:62-90 `truncate_lambda`. -/
noncomputable def truncateLambda (kw : List (String × ℝ)) (s : Store) : Store × Except VErr Unit :=
  match truncateUpdate s kw with
  | .error e => (s, .error e)
  | .ok u => setLambda u s

/-- autoreparam.py:140-146 `set_all_lambda` for the object's variables `names`. -/
noncomputable def setAllLambda (names : List String) (v : List (Option ℝ)) (s : Store) :
    Store × Except VErr Unit := setLambda (names.map (fun n => (n, v))) s

end Vip
