import Verif.Dist.Vip

/-!
# `vip_reparametrize` on a whole model

Model of `pymc_extras/model/transforms/autoreparam.py:295-434`.  A PyMC model is the list of its named variables in an order in
which every variable comes after those it depends on; each is a scalar (a vector variable is as many scalar ones) and dims are
left out.  What `fgraph_from_model`, `toposort_replace` and `model_from_fgraph` do is trusted to be what their names say: the
chosen variables are replaced by their new definitions, everything else stays.  In PyMC's function graph free and observed
variables have the same inputs and attributes (`ModelValuedVar`), so the loop at 413-425 cannot tell them apart.
-/

set_option autoImplicit false

open MeasureTheory ProbabilityTheory
open scoped ENNReal

namespace Vip

/-- Values of the named variables. pymc_extras/model/transforms/autoreparam.py:411-434 -/
abbrev Env := String → ℝ

/-- The definition of one variable, in terms of the values of earlier ones: a normal or exponential variable, another random
variable (given by its law and density), or a deterministic. -/
inductive Node where
  | normal (loc scale : Env → ℝ)
  | exponential (scale : Env → ℝ)
  | other (law : Env → Measure ℝ) (dens : Env → ℝ → ℝ≥0∞)
  | deterministic (f : Env → ℝ)

/-- The law of a variable given the earlier ones (`scale` is the inverse rate of an exponential variable).
pymc_extras/model/transforms/autoreparam.py:210-292 (the variable replaced) -/
noncomputable def Node.law : Node → Env → Measure ℝ
  | .normal loc scale, e => gaussianReal (loc e) (Real.toNNReal (scale e ^ 2))
  | .exponential scale, e => expMeasure (1 / scale e)
  | .other law _, e => law e
  | .deterministic f, e => Measure.dirac (f e)

/-- The density of an observation. pymc_extras/model/transforms/autoreparam.py:210-292 (the variable replaced) -/
noncomputable def Node.dens : Node → Env → ℝ → ℝ≥0∞
  | .normal loc scale, e, y => gaussianPDF (loc e) (Real.toNNReal (scale e ^ 2)) y
  | .exponential scale, e, y => exponentialPDF (1 / scale e) y
  | .other _ dens, e, y => dens e y
  | .deterministic _, _, _ => 1

/-- What the dispatch at autoreparam.py:179-180, 210-219 sees. -/
def Node.kind : Node → Kind
  | .normal _ _ => .normal
  | .exponential _ => .exponential
  | .other _ _ => .other
  | .deterministic _ => .notRandom

/-- A named variable: its definition, whether it has a transform, and its observed value if it is observed.
pymc_extras/model/transforms/autoreparam.py:413-425 -/
structure Var where
  name : String
  node : Node
  hasTransform : Bool
  obs : Option ℝ

/-- One variable of the original model: a free variable is drawn, an observed one multiplies the density.
PyMC's log-probability of the model given at pymc_extras/model/transforms/autoreparam.py:411 -/
noncomputable def Var.step (v : Var) (μ : Measure Env) : Measure Env :=
  match v.obs with
  | none => μ.bind fun e => (v.node.law e).map fun x => Function.update e v.name x
  | some y => (μ.withDensity fun e => v.node.dens e y).map fun e => Function.update e v.name y

/-- The (unnormalised) joint law of all variables given the observations: the posterior before division by its mass.
PyMC's log-probability of the model given at pymc_extras/model/transforms/autoreparam.py:411 -/
noncomputable def posterior (vars : List Var) : Measure Env :=
  vars.foldl (fun μ v => v.step μ) (Measure.dirac 0)

/-- autoreparam.py:413-425: the names are looked up and dispatched one by one; whether the variable is observed is not asked.
A deterministic cannot be unpacked as `rv, _, *dims` (415). -/
def checkNames (vars : List Var) : List String → Except VErr Unit
  | [] => .ok ()
  | n :: ns =>
    match vars.find? fun v => v.name == n with
    | none => .error .keyError
    | some v =>
      match v.node with
      | .deterministic _ => .error .valueError
      | _ =>
        match dispatch v.node.kind v.hasTransform with
        | .error e => .error e
        | .ok () => checkNames vars ns

/-- autoreparam.py:411-434 `vip_reparametrize`: the new model, each variable with a mark saying whether it was replaced. -/
def reparametrize (vars : List Var) (names : List String) : Except VErr (List (Var × Bool)) :=
  match checkNames vars names with
  | .error e => .error e
  | .ok () => .ok (vars.map fun v => (v, decide (v.name ∈ names)))

/-- The law of the auxiliary variable `name::tau_`. autoreparam.py:234-239, 267-273 -/
noncomputable def Node.auxLaw (lam : ℝ) : Node → Env → Measure ℝ
  | .normal loc scale, e => normalAux (loc e) (scale e) lam
  | .exponential scale, e => expAux (scale e) lam
  | n, e => n.law e

/-- The deterministic that takes the variable's name. autoreparam.py:249, 287 -/
noncomputable def Node.rep (lam : ℝ) : Node → Env → ℝ → ℝ
  | .normal loc scale, e, t => normalRep (loc e) (scale e) lam t
  | .exponential scale, e, t => expRep (scale e) lam t
  | _, _, t => t

/-- One variable of the new model; the second component of the state holds the auxiliary variables. A replaced variable is a
free auxiliary variable and a deterministic, whatever it was. autoreparam.py:241-254, 280-292, 426 -/
noncomputable def stepNew (lam : String → ℝ) (v : Var × Bool) (μ : Measure (Env × Env)) : Measure (Env × Env) :=
  if v.2 then
    μ.bind fun p => (v.1.node.auxLaw (lam v.1.name) p.1).map fun t =>
      (Function.update p.1 v.1.name (v.1.node.rep (lam v.1.name) p.1 t), Function.update p.2 v.1.name t)
  else
    match v.1.obs with
    | none => μ.bind fun p => (v.1.node.law p.1).map fun x => (Function.update p.1 v.1.name x, p.2)
    | some y => (μ.withDensity fun p => v.1.node.dens p.1 y).map fun p => (Function.update p.1 v.1.name y, p.2)

/-- The (unnormalised) posterior of the new model for given `λ`s, over named and auxiliary variables.
PyMC's log-probability of the model returned at pymc_extras/model/transforms/autoreparam.py:426-434 -/
noncomputable def posteriorNew (lam : String → ℝ) (vars : List (Var × Bool)) : Measure (Env × Env) :=
  vars.foldl (fun μ v => stepNew lam v μ) (Measure.dirac 0)

/-- autoreparam.py:189-194: `λ = sigmoid(0)` until the helper object changes it. -/
noncomputable def initialLambda : ℝ := 1 / (1 + Real.exp (-0))

end Vip
