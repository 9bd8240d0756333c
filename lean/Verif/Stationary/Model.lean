import Mathlib.LinearAlgebra.Matrix.Kronecker
import Mathlib.LinearAlgebra.Matrix.NonsingularInverse
import Mathlib.Data.Real.Basic

/-!
# Stationary initialisation: translation of `statespace/models/SARIMAX.py`, `VARMAX.py` and `ETS.py`

Real arithmetic.  `solve(A, b)` is `A⁻¹ b` (Mathlib's inverse is `0` on singular matrices, where the code raises or returns
NaN; theorems carry or establish invertibility).  PyTensor's `solve_discrete_lyapunov` is modelled by its direct method; its
bilinear method returns a solution of the same equation, which is unique whenever the direct method applies.
-/

set_option autoImplicit false

open Matrix
open scoped Kronecker

namespace Verif.Stationary

variable {n r : Type*} [Fintype n] [Fintype r] [DecidableEq n]

/-- `solve_discrete_lyapunov(A, W, method="direct")`: `(I - A ⊗ A)⁻¹ ravel(W)`, reshaped.
pymc_extras/statespace/models/SARIMAX.py:378-379 -/
noncomputable def lyapunov (A W : Matrix n n ℝ) : Matrix n n ℝ :=
  Matrix.of fun i j => ((1 - A ⊗ₖ A)⁻¹ *ᵥ fun q : n × n => W q.1 q.2) (i, j)

/-- `BayesianSARIMA._stationary_initialization` and the last branch of `BayesianVARMAX.make_symbolic_graph`: the initial mean
and covariance. pymc_extras/statespace/models/SARIMAX.py:369-381, pymc_extras/statespace/models/VARMAX.py:379-393 -/
noncomputable def stationaryInit (c : n → ℝ) (T : Matrix n n ℝ) (R : Matrix n r ℝ) (Q : Matrix r r ℝ) :
    (n → ℝ) × Matrix n n ℝ :=
  ((1 - T)⁻¹ *ᵥ c, lyapunov T (R * Q * Rᵀ))

end Verif.Stationary
