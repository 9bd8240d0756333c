import Verif.Builder.Prior
import Mathlib.Data.Real.Basic
import Mathlib.LinearAlgebra.Matrix.PosDef

/-!
# prior_from_idata, from the arguments to the registered variables

The part of `pymc_extras/utils/prior.py` that follows the flattening: sample mean, sample covariance, Cholesky factor,
registration in the open PyMC model.  Arithmetic is exact.  `np.linalg.cholesky` is an argument, with the specification
`CholSpec`.  The open model is the list of the names it holds; PyMC's own check of the dims of a variable is an argument
(`okDims`).  With one draw `np.cov` divides zero by zero; in the model this is the zero matrix, and the theorems ask for two draws.
-/

set_option autoImplicit false

open Matrix

namespace PriorFrom

/-- What can go wrong. pymc_extras/utils/prior.py:84, 113, 121-130 -/
inductive Err
  /-- `posterior[key]`: KeyError -/
  | missing
  /-- `np.linalg.cholesky`: LinAlgError -/
  | notPosDef
  /-- PyMC: variable name already exists -/
  | duplicate (n : String)
  /-- PyMC: dims not accepted -/
  | badDims (n : String)
  deriving DecidableEq

/-- prior.py:111-112: `np.atleast_2d(np.cov(flat_array, rowvar=False))`: products of deviations from the column means, summed over the
draws and divided by the number of draws less one. -/
noncomputable def sampleCov (n : ℕ) (rows : List (List ℝ)) : Matrix (Fin n) (Fin n) ℝ := fun i j =>
  (rows.map (fun r => (r.getD i 0 - (meanRow n rows).getD i 0) * (r.getD j 0 - (meanRow n rows).getD j 0))).sum /
    ((rows.length : ℝ) - 1)

/-- prior.py:113: `np.linalg.cholesky`; `none` is LinAlgError. -/
abbrev CholFn := ∀ n : ℕ, Matrix (Fin n) (Fin n) ℝ → Option (Matrix (Fin n) (Fin n) ℝ)

/-- numpy's documentation of `np.linalg.cholesky` for symmetric matrices: it fails iff the matrix is not positive definite, and
otherwise returns a factor. -/
structure CholSpec (chol : CholFn) : Prop where
  fails_iff : ∀ n (A : Matrix (Fin n) (Fin n) ℝ), A.IsHermitian → (chol n A = none ↔ ¬ A.PosDef)
  factor : ∀ n (A L : Matrix (Fin n) (Fin n) ℝ), A.IsHermitian → chol n A = some L → L * Lᵀ = A

/-- prior.py:109-114 `_mean_chol`.  The factor as a function of natural indices, as `interim` takes it. -/
noncomputable def meanChol (chol : CholFn) (n : ℕ) (rows : List (List ℝ)) : Option (List ℝ × (ℕ → ℕ → ℝ)) :=
  match chol n (sampleCov n rows) with
  | none => none
  | some L => some (meanRow n rows, fun i j => if h : i < n ∧ j < n then L ⟨i, h.1⟩ ⟨j, h.2⟩ else 0)

/-- A deterministic variable of the new model, as a function of the base vector. pymc_extras/utils/prior.py:124-130 -/
abbrev Entry := String × ((ℕ → ℝ) → Arr ℝ)

/-- prior.py:121-130: the loop over the variables.  `pm.Deterministic` refuses a name the model already holds, and dims PyMC does not
accept.  Names registered before the failure stay registered. -/
def buildLoop (okDims : String → Option (List String) → Bool) (joint : (ℕ → ℝ) → List ℝ) :
    List (Info ℝ) → List String → List Entry → Except Err (List Entry) × List String
  | [], names, result => (.ok result, names)
  | i :: rest, names, result =>
    if i.cfg.name ∈ names then (.error (.duplicate i.cfg.name), names)
    else if okDims i.cfg.name i.cfg.dims = false then (.error (.badDims i.cfg.name), names)
    else buildLoop okDims joint rest (names ++ [i.cfg.name])
      (result ++ [(i.cfg.name, fun z => (unflatten (joint z) i).2)])

/-- prior.py:117-131 `_mvn_prior_from_flat_info` (117-120 here, the loop above).  `pm.Normal(name, ...)` registers the base vector. -/
noncomputable def mvnPrior (chol : CholFn) (okDims : String → Option (List String) → Bool) (name : String) (names : List String)
    (rows : List (List ℝ)) (infos : List (Info ℝ)) : Except Err (List Entry) × List String :=
  let n := (rows.head?.map List.length).getD 0
  match meanChol chol n rows with
  | none => (.error .notPosDef, names)
  | some (mean, L) =>
    if name ∈ names then (.error (.duplicate name), names)
    else buildLoop okDims (fun z => interim n mean L z) infos (names ++ [name]) []

/-- prior.py:134-200 `prior_from_idata` (the body, 195-200): the new variables and the names the model holds afterwards. -/
noncomputable def priorFromIdata (chol : CholFn) (okDims : String → Option (List String) → Bool) (post : Posterior ℝ) (S : ℕ)
    (name : String) (names : List String) (varNames : List String) (kwargs : List (String × Arg ℝ)) :
    Except Err (List Entry) × List String :=
  let cfgs := parseArgs varNames kwargs
  if cfgs.isEmpty then (.ok [], names)
  else match flatten post S cfgs with
    | none => (.error .missing, names)
    | some (rows, infos) => mvnPrior chol okDims name names rows infos

end PriorFrom
