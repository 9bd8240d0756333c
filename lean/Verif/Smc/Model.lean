import Mathlib.Data.Real.Basic
import Mathlib.Data.List.Basic

/-!
# SMC sampling with BlackJax: the Python side

pymc_extras/inference/smc/sampling.py: the tempering loop with its diagnostics, the conversion of particles from and to
PyMC, the check of the kernel arguments, the attributes and the warning.  The BlackJax kernel, the random generator, the
prior draws and the log densities are parameters.  Arrays are a shape and a row-major list of entries.

Facts about other libraries that are built in: `x.at[i].set(v)` in JAX drops a write whose index is out of range;
`lax.while_loop` repeats its body while the condition holds; comparing NaN with `<` is false; a compiled PyTensor function
rejects an argument with another number of dimensions than its input.
-/

set_option autoImplicit false

namespace Verif.Smc

open scoped Classical

/-- What a BlackJax SMC state carries that the loop looks at: the exponent (`none` is NaN), the weights, the particles and
anything else. pymc_extras/inference/smc/sampling.py:266-276, 289 -/
structure State (P X : Type) where
  lmbda : Option ℝ
  weights : List ℝ
  particles : P
  rest : X

/-- What a step reports. pymc_extras/inference/smc/sampling.py:242-243 -/
structure Info where
  logLikIncrement : ℝ
  ancestors : List ℝ

/-- `SMCDiagnostics`. pymc_extras/inference/smc/sampling.py:232-235 -/
structure Diag where
  lmbda : List (Option ℝ)
  llInc : List ℝ
  ancestors : List (List ℝ)
  weights : List (List ℝ)

/-- `SMCDiagnostics.initial_diagnosis`. pymc_extras/inference/smc/sampling.py:247-254 -/
def initialDiagnosis (m n : ℕ) : Diag where
  lmbda := List.replicate m (some 0)
  llInc := List.replicate m 0
  ancestors := List.replicate m (List.replicate n 0)
  weights := List.replicate m (List.replicate n 0)

/-- `SMCDiagnostics.update_diagnosis`; `List.set` out of range changes nothing, like `.at[i].set`.
pymc_extras/inference/smc/sampling.py:237-245 -/
def updateDiagnosis {P X : Type} (i : ℕ) (h : Diag) (info : Info) (s : State P X) : Diag where
  lmbda := h.lmbda.set i s.lmbda
  llInc := h.llInc.set i info.logLikIncrement
  ancestors := h.ancestors.set i info.ancestors
  weights := h.weights.set i s.weights

/-- The loop variables `(i, state, key, diagnosis)`. pymc_extras/inference/smc/sampling.py:271, 281-286 -/
structure Carry (P X K : Type) where
  i : ℕ
  state : State P X
  key : K
  diag : Diag

/-- `cond`: `state.lmbda < 1`, false for NaN. pymc_extras/inference/smc/sampling.py:266-268 -/
def cond {P X K : Type} (c : Carry P X K) : Prop :=
  match c.state.lmbda with
  | some l => l < 1
  | none => False

/-- `one_step`. pymc_extras/inference/smc/sampling.py:270-276 -/
def oneStep {P X K : Type} (split : K → K × K) (step : K → State P X → State P X × Info) (c : Carry P X K) :
    Carry P X K :=
  let (k, subk) := split c.key
  let (state, info) := step subk c.state
  ⟨c.i + 1, state, k, updateDiagnosis c.i c.diag info state⟩

/-- `jax.lax.while_loop` cut off after `fuel` evaluations of the condition; `none` means it has not stopped by then.
pymc_extras/inference/smc/sampling.py:278-287 -/
noncomputable def whileLoop {P X K : Type} (split : K → K × K) (step : K → State P X → State P X × Info) :
    ℕ → Carry P X K → Option (Carry P X K)
  | 0, _ => none
  | fuel + 1, c => if cond c then whileLoop split step fuel (oneStep split step c) else some c

/-- `inference_loop`: number of iterations, particles and diagnosis. pymc_extras/inference/smc/sampling.py:261-289 -/
noncomputable def inferenceLoop {P X K : Type} (split : K → K × K) (step : K → State P X → State P X × Info)
    (fuel : ℕ) (key : K) (s0 : State P X) (m n : ℕ) : Option (ℕ × P × Diag) :=
  (whileLoop split step fuel ⟨0, s0, key, initialDiagnosis m n⟩).map fun c => (c.i, c.state.particles, c.diag)

/-! ### Arguments -/

/-- Exceptions of this part. pymc_extras/inference/smc/sampling.py:132-146, 208-219 -/
inductive SErr
  | keyError (k : String)
  | valueError
  | indexError
  | typeError
  | unboundLocal
deriving DecidableEq

/-- The kernel chosen, with its parameters. pymc_extras/inference/smc/sampling.py:128-146 -/
inductive Kernel
  | hmc (stepSize integrationSteps : ℝ)
  | nuts (stepSize : ℝ)

/-- A dictionary lookup `d[k]`. pymc_extras/inference/smc/sampling.py:132-141 -/
def getKey (d : List (String × ℝ)) (k : String) : Except SErr ℝ :=
  match d.lookup k with
  | some v => .ok v
  | none => .error (.keyError k)

/-- The choice of the inner kernel; `none` for `inner_kernel_params` is replaced by an empty dictionary.
pymc_extras/inference/smc/sampling.py:105-106, 128-146 -/
def chooseKernel (kernel : String) (params : Option (List (String × ℝ))) : Except SErr Kernel :=
  let d := params.getD []
  if kernel = "HMC" then do
    let s ← getKey d "step_size"
    let n ← getKey d "integration_steps"
    .ok (.hmc s n)
  else if kernel = "NUTS" then do
    let s ← getKey d "step_size"
    .ok (.nuts s)
  else .error .valueError

/-- Whether the warning "Only the first … were included in diagnosed quantities" is logged.
pymc_extras/inference/smc/sampling.py:183-186 -/
def warns (totalIterations iterationsToDiagnose : ℕ) : Prop := totalIterations < iterationsToDiagnose

/-! ### Particles -/

/-- An array: shape and row-major entries. pymc_extras/inference/smc/sampling.py:209-212, 309-314 -/
structure Arr (α : Type) where
  shape : List ℕ
  data : List α
deriving DecidableEq

/-- `a[i]`, along the first axis; a zero-dimensional array cannot be indexed, an index must be in range.
pymc_extras/inference/smc/sampling.py:218 -/
def Arr.index {α : Type} (a : Arr α) (i : ℕ) : Except SErr (Arr α) :=
  match a.shape with
  | [] => .error .indexError
  | n :: rest => if i < n then .ok ⟨rest, (a.data.drop (i * rest.prod)).take rest.prod⟩ else .error .indexError

/-- `a.squeeze()`. pymc_extras/inference/smc/sampling.py:210 -/
def Arr.squeeze {α : Type} (a : Arr α) : Arr α := ⟨a.shape.filter (· ≠ 1), a.data⟩

/-- `a[np.newaxis, :]`: needs one axis for the colon. pymc_extras/inference/smc/sampling.py:210 -/
def Arr.newAxis {α : Type} (a : Arr α) : Except SErr (Arr α) :=
  match a.shape with
  | [] => .error .indexError
  | _ :: _ => .ok ⟨1 :: a.shape, a.data⟩

/-- `np.stack` of draws of one variable. pymc_extras/inference/smc/sampling.py:418 -/
def stack {α : Type} (shape : List ℕ) (draws : List (List α)) : Arr α := ⟨draws.length :: shape, draws.flatten⟩

/-- `_format`: a vector becomes a column. pymc_extras/inference/smc/sampling.py:309-314 -/
def format {α : Type} (a : Arr α) : Arr α :=
  match a.shape with
  | [n] => ⟨[n, 1], a.data⟩
  | _ => a

/-- `initialize_population`: names of the value variables in the order of the free variables, zipped with the draws.
Each entry of `priorValues` is the shape of a variable and its draws. pymc_extras/inference/smc/sampling.py:415-418 -/
def initializePopulation {α : Type} (names : List String) (priorValues : List (List ℕ × List (List α))) :
    List (String × Arr α) :=
  (names.zip priorValues).map fun x => (x.1, stack x.2.1 x.2.2)

/-- `blackjax_particles_from_pymc_population`. pymc_extras/inference/smc/sampling.py:292-316 -/
def particlesOf {α : Type} (valueVars : List String) (population : List (String × Arr α)) :
    Except SErr (List (Arr α)) :=
  valueVars.mapM fun v => match population.lookup v with
    | some a => .ok (format a)
    | none => .error (.keyError v)

/-- The entry of `by_varname` for one leaf (the conversion of the type is left out).
pymc_extras/inference/smc/sampling.py:209-212 -/
def byVarnameEntry {α : Type} (v : Arr α) : Except SErr (Arr α) := v.squeeze.newAxis

/-- `strace.record` of one variable: the function compiled by the backend rejects a value whose number of dimensions is
not that of the value variable. pymc_extras/inference/smc/sampling.py:218 -/
def recordValue {α : Type} (ndim : ℕ) (a : Arr α) : Except SErr (List α) :=
  if a.shape.length = ndim then .ok a.data else .error .typeError

/-- The point recorded for one particle: `by_varname[k][0][particle_index]` for every variable.
pymc_extras/inference/smc/sampling.py:217-218 -/
def recordPoint {α : Type} (vars : List (String × ℕ)) (byVarname : List (Arr α)) (i : ℕ) :
    Except SErr (List (List α)) :=
  (vars.zip byVarname).mapM fun x => do
    let chain ← x.2.index 0
    let value ← chain.index i
    recordValue x.1.2 value

/-- `arviz_from_particles`: the trace, one point per particle; `vars` are the names and numbers of dimensions of the value
variables.  Without particles the name `multitrace` is never bound. pymc_extras/inference/smc/sampling.py:191-220 -/
def arvizFromParticles {α : Type} (vars : List (String × ℕ)) (particles : List (Arr α)) :
    Except SErr (List (List (List α))) := do
  let n ← match particles with
    | [] => .error .indexError
    | p :: _ => match p.shape with
      | [] => .error .indexError
      | n :: _ => .ok n
  let byVarname ← (vars.zip particles).mapM fun x => byVarnameEntry x.2
  let trace ← (List.range n).mapM fun i => recordPoint vars byVarname i
  if n = 0 then .error .unboundLocal else .ok trace

/-! ### Attributes -/

/-- `d[k] = v`. pymc_extras/inference/smc/sampling.py:359-378 -/
def setAttr {V : Type} (d : List (String × V)) (k : String) (v : V) : List (String × V) :=
  (k, v) :: d.filter fun x => x.1 ≠ k

/-- The attributes written by `add_to_inference_data`, in this order: four diagnosed series, six parameters of the run,
the caller's kernel parameters, the running time. pymc_extras/inference/smc/sampling.py:350-378 -/
def addAttrs {V : Type} (attrs : List (String × V)) (series params kernelParams : List (String × V)) (time : V) :
    List (String × V) :=
  setAttr ((series ++ params ++ kernelParams).foldl (fun d x => setAttr d x.1 x.2) attrs) "running_time_seconds" time

/-- Names of the diagnosed series. pymc_extras/inference/smc/sampling.py:359-370 -/
def seriesNames : List String :=
  ["lambda_evolution", "log_likelihood_increments", "ancestors_evolution", "weights_evolution"]

/-- Names of the parameters of the run. pymc_extras/inference/smc/sampling.py:350-357 -/
def paramNames : List String :=
  ["particles", "target_ess", "num_mcmc_steps", "iterations", "iterations_to_diagnose", "sampler"]

/-- The recorded evolutions, one entry per step of the sampler. pymc_extras/inference/smc/sampling.py:223-272 -/
structure Diagnosis (α : Type) where
  lmbda : List α
  logLikelihoodIncrement : List α
  ancestors : List α
  weights : List α

/-- The value of an attribute: a series, a number, a text, a value of the caller's.
pymc_extras/inference/smc/sampling.py:350-378 -/
inductive AttrVal (α : Type) where
  | series (xs : List α)
  | nat (k : ℕ)
  | num (x : α)
  | text (s : String)
  deriving DecidableEq

/-- `add_to_inference_data`: the four series are cut at `iterations_to_diagnose` and written under their names, then the
parameters of the run, the caller's kernel parameters and the running time.
pymc_extras/inference/smc/sampling.py:350-378 -/
def addToInferenceData {α : Type} (attrs : List (String × AttrVal α)) (nParticles : ℕ) (targetEss : α) (nMcmc : ℕ)
    (kernel : String) (dg : Diagnosis α) (total toDiagnose : ℕ) (kernelParams : List (String × AttrVal α)) (time : α) :
    List (String × AttrVal α) :=
  addAttrs attrs
    (seriesNames.zip
      [.series (dg.lmbda.take toDiagnose), .series (dg.logLikelihoodIncrement.take toDiagnose),
       .series (dg.ancestors.take toDiagnose), .series (dg.weights.take toDiagnose)])
    (paramNames.zip
      [.nat nParticles, .num targetEss, .nat nMcmc, .nat total, .nat toDiagnose,
       .text ("Blackjax SMC with " ++ kernel ++ " kernel")])
    kernelParams (.num time)

end Verif.Smc
