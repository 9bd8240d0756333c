import Mathlib.LinearAlgebra.Matrix.PosDef
import Mathlib.LinearAlgebra.Matrix.NonsingularInverse
import Mathlib.LinearAlgebra.Matrix.Trace
import Mathlib.Data.Real.Basic
import Mathlib.Data.Real.StarOrdered

/-!
# Laplace approximation: the covariance matrix

Translation of `fit_mvn_to_MAP` from the Hessian on (pymc_extras/inference/laplace.py:306-328) and of `get_nearest_psd`
(pymc_extras/inference/find_map.py:43-65), over the reals.  `np.linalg.pinv` and `np.linalg.eig` are parameters; theorems
assume of them what numpy documents (`IsPinv`, `IsEig`).  The relative cut-off `rcond` of `pinv` is not modelled.
-/

set_option autoImplicit false

open Matrix
open scoped Classical

namespace Verif.Laplace

variable {n : ℕ}

/-- The exception raised by `fit_mvn_to_MAP`. pymc_extras/inference/laplace.py:318-320 -/
inductive Err
  | linAlgError
deriving DecidableEq

/-- `np.where(np.abs(H) < zero_tol, 0, -H)` with `H = -f_hess(mu.data)`.
pymc_extras/inference/laplace.py:306-307 -/
noncomputable def threshold (tol : ℝ) (fhess : Matrix (Fin n) (Fin n) ℝ) : Matrix (Fin n) (Fin n) ℝ :=
  let H := -fhess
  of fun i j => if |H i j| < tol then 0 else -(H i j)

/-- `stabilize(x, jitter) = x + np.eye(x.shape[0]) * jitter`, skipped when `diag_jitter is None`.
pymc_extras/inference/laplace.py:309-312 -/
noncomputable def stabilize (x : Matrix (Fin n) (Fin n) ℝ) (jitter : Option ℝ) : Matrix (Fin n) (Fin n) ℝ :=
  match jitter with
  | none => x
  | some j => x + j • (1 : Matrix (Fin n) (Fin n) ℝ)

/-- The matrix `np.linalg.cholesky` factorises: it reads the lower triangle only.
pymc_extras/inference/laplace.py:315 -/
def lowerMirror (x : Matrix (Fin n) (Fin n) ℝ) : Matrix (Fin n) (Fin n) ℝ :=
  of fun i j => if j ≤ i then x i j else x j i

/-- `get_nearest_psd`, with `eig C` the eigenvalues and the matrix of eigenvectors numpy returns.
pymc_extras/inference/find_map.py:61-65 -/
noncomputable def nearestPsd (eig : Matrix (Fin n) (Fin n) ℝ → (Fin n → ℝ) × Matrix (Fin n) (Fin n) ℝ)
    (A : Matrix (Fin n) (Fin n) ℝ) : Matrix (Fin n) (Fin n) ℝ :=
  let C := (1 / 2 : ℝ) • (A + Aᵀ)
  let eigval := (eig C).1
  let eigvec := (eig C).2
  let clipped := fun i => if eigval i < 0 then 0 else eigval i
  eigvec * diagonal clipped * eigvecᵀ

/-- What `fit_mvn_to_MAP` returns besides `mu`: the covariance and whether a warning was logged.
pymc_extras/inference/laplace.py:322-328 -/
structure Out (n : ℕ) where
  cov : Matrix (Fin n) (Fin n) ℝ
  warned : Bool

/-- `fit_mvn_to_MAP` from the Hessian on. `on_bad_cov` is an unchecked string.
pymc_extras/inference/laplace.py:306-328 -/
noncomputable def fitCov (pinv : Matrix (Fin n) (Fin n) ℝ → Matrix (Fin n) (Fin n) ℝ)
    (eig : Matrix (Fin n) (Fin n) ℝ → (Fin n → ℝ) × Matrix (Fin n) (Fin n) ℝ)
    (onBadCov : String) (zeroTol : ℝ) (diagJitter : Option ℝ) (fhess : Matrix (Fin n) (Fin n) ℝ) : Except Err (Out n) :=
  let hinv := stabilize (pinv (threshold zeroTol fhess)) diagJitter
  if (lowerMirror hinv).PosDef then .ok ⟨hinv, false⟩
  else if onBadCov = "error" then .error .linAlgError
  else .ok ⟨nearestPsd eig hinv, onBadCov == "warn"⟩

end Verif.Laplace
