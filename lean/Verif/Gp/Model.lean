import Mathlib.LinearAlgebra.Matrix.NonsingularInverse
import Mathlib.LinearAlgebra.Matrix.PosDef
import Mathlib.Analysis.Real.Sqrt
import Mathlib.Algebra.Order.Star.Real

/-!
# Latent Gaussian process approximations

pymc_extras/gp/latent_approx.py.  Covariance matrices and mean vectors at the inputs are parameters (the covariance and mean
functions are PyMC's); a standard normal vector is an argument, so a "prior" is a function of it.  Built in about
libraries: `cholesky(A)` returns `L` with `L Lᵀ = A`, the triangular solves multiply by inverses, `stabilize(K, jitter)` adds
`jitter` to the diagonal, `eigh` returns eigenvalues in increasing order with an orthogonal matrix of eigenvectors.
`len` of a symbolic vector raises TypeError.
-/

set_option autoImplicit false

namespace Verif.Gp

open Matrix

open scoped Classical

/-- Exceptions of this part. pymc_extras/gp/latent_approx.py:80-104, 146-160 -/
inductive GErr
  | valueError
  | typeError
  | indexError
  | shapeError
deriving DecidableEq

/-! ### ProjectedProcess -/

/-- Where the inducing points come from. pymc_extras/gp/latent_approx.py:84-99 -/
inductive Inducing
  | given
  | kmeans (n : ℕ)
deriving DecidableEq

/-- The value of `n_inducing`: an integer or something else. pymc_extras/gp/latent_approx.py:90 -/
inductive NArg
  | int (k : ℤ)
  | other
deriving DecidableEq

/-- The validation in `ProjectedProcess.prior`; `lenX` is `len(X)`. pymc_extras/gp/latent_approx.py:80-104 -/
def chooseInducing (xIsArray : Bool) (lenX : ℕ) (xInducingGiven : Bool) (nInducing : Option NArg) :
    Except GErr Inducing :=
  if !xIsArray then .error .valueError
  else if xInducingGiven then .ok .given
  else match nInducing with
    | none => .error .valueError
    | some .other => .error .valueError
    | some (.int k) =>
      if k ≤ 0 then .error .valueError
      else if (lenX : ℤ) < k then .error .valueError
      else .ok (.kmeans k.toNat)

variable {n u s : Type} [Fintype n] [Fintype u] [Fintype s] [DecidableEq n] [DecidableEq u] [DecidableEq s]

/-- `stabilize(K, jitter)`. pymc_extras/gp/latent_approx.py:47, 118, 143, 176 -/
def stabilize {m : Type} [DecidableEq m] (K : Matrix m m ℝ) (jitter : ℝ) : Matrix m m ℝ := K + jitter • (1 : Matrix m m ℝ)

/-- `u = L @ v`. pymc_extras/gp/latent_approx.py:51 -/
def inducingValues (L : Matrix u u ℝ) (v : u → ℝ) : u → ℝ := L *ᵥ v

/-- `Kuuiu = solve_upper(L.T, solve_lower(L, u))`. pymc_extras/gp/latent_approx.py:54 -/
noncomputable def kuuiu (L : Matrix u u ℝ) (uu : u → ℝ) : u → ℝ := (Lᵀ)⁻¹ *ᵥ (L⁻¹ *ᵥ uu)

/-- The prior `mu + Kfu @ Kuuiu` as a function of the standard normal vector. pymc_extras/gp/latent_approx.py:44-56 -/
noncomputable def projectedPrior (mu : n → ℝ) (Kfu : Matrix n u ℝ) (L : Matrix u u ℝ) (v : u → ℝ) : n → ℝ :=
  mu + Kfu *ᵥ kuuiu L (inducingValues L v)

/-- The mean of the conditional. pymc_extras/gp/latent_approx.py:113-114 -/
noncomputable def projectedMean (muNew : s → ℝ) (Ksu : Matrix s u ℝ) (L : Matrix u u ℝ) (v : u → ℝ) : s → ℝ :=
  muNew + Ksu *ᵥ kuuiu L (inducingValues L v)

/-- The covariance whose Cholesky factor the conditional uses. pymc_extras/gp/latent_approx.py:115-118 -/
noncomputable def projectedCov (Kss : Matrix s s ℝ) (Ksu : Matrix s u ℝ) (L : Matrix u u ℝ) (jitter : ℝ) :
    Matrix s s ℝ :=
  let tmp := L⁻¹ * Ksuᵀ
  let Qss := tmpᵀ * tmp
  stabilize (Kss - Qss) jitter

/-! ### KarhunenLoeveExpansion -/

/-- `vals[::-1].cumsum() / vals.sum()`: the shares of the largest eigenvalues. pymc_extras/gp/latent_approx.py:152 -/
noncomputable def shares (vals : List ℝ) : List ℝ :=
  (List.range vals.length).map fun i : ℕ => (vals.reverse.take (i + 1)).sum / vals.sum

/-- The number of eigenvalues kept: `n_eigs` when there is no limit (`-None` raises TypeError later on), for the limit 1 the
call `len(vals)` raises TypeError, else the position of the first share above the limit, IndexError if there is none.
pymc_extras/gp/latent_approx.py:146-153 -/
noncomputable def keptCount (limit : Option ℝ) (nEigs : Option ℕ) (vals : List ℝ) : Except GErr ℕ :=
  match limit with
  | none => match nEigs with
    | none => .error .typeError
    | some k => .ok k
  | some v =>
    if v = 1 then .error .typeError
    else match (shares vals).findIdx? fun x => decide (v < x) with
      | some i => .ok i
      | none => .error .indexError

/-- The slice `vals[-n_eigs:]`: everything for 0, and never more than there is. pymc_extras/gp/latent_approx.py:153-154 -/
def lastN {α : Type} (l : List α) (k : ℕ) : List α := if k = 0 then l else l.drop (l.length - k)

/-- The eigenvalues kept, when `basis @ coefs_raw` can be formed: there must be as many as coefficients.
pymc_extras/gp/latent_approx.py:146-160 -/
noncomputable def keptValues (limit : Option ℝ) (nEigs : Option ℕ) (vals : List ℝ) : Except GErr (List ℝ) := do
  let k ← keptCount limit nEigs vals
  let s := lastN vals k
  if s.length = k then .ok s else .error .shapeError

/-- `U = vecs[:, -n_eigs:]` for `1 ≤ k ≤ N`. pymc_extras/gp/latent_approx.py:153 -/
def keptVectors {N k : ℕ} (hk : k ≤ N) (V : Matrix (Fin N) (Fin N) ℝ) : Matrix (Fin N) (Fin k) ℝ :=
  of fun i j => V i ⟨N - k + j, by omega⟩

/-- `s = vals[-n_eigs:]` for `1 ≤ k ≤ N`. pymc_extras/gp/latent_approx.py:154 -/
def keptVals {N k : ℕ} (hk : k ≤ N) (vals : Fin N → ℝ) : Fin k → ℝ := fun j => vals ⟨N - k + j, by omega⟩

/-- `basis = U * sqrt(s)`. pymc_extras/gp/latent_approx.py:155 -/
noncomputable def basis {N k : ℕ} (hk : k ≤ N) (V : Matrix (Fin N) (Fin N) ℝ) (vals : Fin N → ℝ) :
    Matrix (Fin N) (Fin k) ℝ :=
  keptVectors hk V * diagonal fun j => Real.sqrt (keptVals hk vals j)

/-- `f = basis @ coefs_raw`; the mean function is evaluated but its value is not used.
pymc_extras/gp/latent_approx.py:142, 157-161 -/
noncomputable def klePrior {N k : ℕ} (hk : k ≤ N) (V : Matrix (Fin N) (Fin N) ℝ) (vals : Fin N → ℝ)
    (_mean : Fin N → ℝ) (z : Fin k → ℝ) : Fin N → ℝ := basis hk V vals *ᵥ z

/-- `Kxxpinv = U @ diag(1 / s) @ U.T`. pymc_extras/gp/latent_approx.py:173 -/
noncomputable def kxxPinv {N k : ℕ} (hk : k ≤ N) (V : Matrix (Fin N) (Fin N) ℝ) (vals : Fin N → ℝ) :
    Matrix (Fin N) (Fin N) ℝ :=
  keptVectors hk V * diagonal (fun j => 1 / keptVals hk vals j) * (keptVectors hk V)ᵀ

/-- The conditional mean `Kxs.T @ Kxxpinv @ f`. pymc_extras/gp/latent_approx.py:174 -/
noncomputable def kleMean {N k : ℕ} (hk : k ≤ N) (V : Matrix (Fin N) (Fin N) ℝ) (vals : Fin N → ℝ)
    (Kxs : Matrix (Fin N) s ℝ) (_meanNew : s → ℝ) (f : Fin N → ℝ) : s → ℝ :=
  (Kxsᵀ * kxxPinv hk V vals) *ᵥ f

/-- The conditional covariance before its Cholesky factor is taken. pymc_extras/gp/latent_approx.py:175-176 -/
noncomputable def kleCov {N k : ℕ} (hk : k ≤ N) (V : Matrix (Fin N) (Fin N) ℝ) (vals : Fin N → ℝ)
    (Kxs : Matrix (Fin N) s ℝ) (Kss : Matrix s s ℝ) (jitter : ℝ) : Matrix s s ℝ :=
  stabilize (Kss - Kxsᵀ * kxxPinv hk V vals * Kxs) jitter

end Verif.Gp
