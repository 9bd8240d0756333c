import Verif.Kalman.Model
import Mathlib.Data.Matrix.Block
import Mathlib.Data.Matrix.ColumnRowPartitioned

/-!
The square-root ("cholesky") filter of `statespace/filters/kalman_filter.py`. The matrix called `P` in the code is a
*factor* `L` of the covariance. Results of library factorisations (`cholesky`, `qr(..., mode="r")`) are inputs of the
step, constrained by `SqrtLib.Valid`: theorems quantify over everything the library may return.
-/

open Matrix

set_option linter.unusedSectionVars false

namespace Verif.Kalman

variable {n p r : Type*} [Fintype n] [Fintype p] [Fintype r] [DecidableEq n] [DecidableEq p] [DecidableEq r]

/-- What the linear-algebra library returned during one step.
pymc_extras/statespace/filters/kalman_filter.py:642-645, 666, 679 -/
structure SqrtLib (n p r : Type*) where
  /-- `H_chol`. kalman_filter.py:666 -/
  Hc : Matrix p p ℝ
  /-- `B = qr(A_T.T, mode="r").T`. kalman_filter.py:679 -/
  B : Matrix (p ⊕ n) (p ⊕ n) ℝ
  /-- `Q_chol`. kalman_filter.py:642 -/
  Qc : Matrix r r ℝ
  /-- `R_decomp`, already of shape `n × n`. kalman_filter.py:645 -/
  Rd : Matrix n n ℝ

/-- `A_T = [[H_chol, Z L], [0, L]]`. pymc_extras/statespace/filters/kalman_filter.py:675-678 -/
def sqrtA (Hc : Matrix p p ℝ) (Z : Matrix p n ℝ) (L : Matrix n n ℝ) : Matrix (p ⊕ n) (p ⊕ n) ℝ :=
  fromBlocks Hc (Z * L) 0 L

/-- `M = horizontal_stack(T L, R Q_chol)` before the transposition.
pymc_extras/statespace/filters/kalman_filter.py:644 -/
def sqrtM (T : Matrix n n ℝ) (L : Matrix n n ℝ) (R : Matrix n r ℝ) (Qc : Matrix r r ℝ) : Matrix n (n ⊕ r) ℝ :=
  fromCols (T * L) (R * Qc)

/-- Result of the square-root update. pymc_extras/statespace/filters/kalman_filter.py:650-716 -/
structure SqrtUpd (n p : Type*) where
  a : n → ℝ
  L : Matrix n n ℝ
  yhat : p → ℝ
  Fc : Matrix p p ℝ
  ll : ℝ

open Classical in
/-- `SquareRootFilter.update`. The triangular solves are inverses of the (lower triangular) block `F_chol`. The
likelihood multiplies both constant and log-determinant by `n_endog` and applies the *same* lower solve twice.
pymc_extras/statespace/filters/kalman_filter.py:650-716 -/
noncomputable def sqrtUpdate (a : n → ℝ) (L : Matrix n n ℝ) (y d : p → ℝ) (Z : Matrix p n ℝ) (allNan : Prop)
    (B : Matrix (p ⊕ n) (p ⊕ n) ℝ) : SqrtUpd n p :=
  let yhat := Z *ᵥ a + d
  let v := y - yhat
  let Fc := B.toBlocks₁₁
  let KFc := B.toBlocks₂₁
  let Lf := B.toBlocks₂₂
  if allNan then { a := a, L := L, yhat := yhat, Fc := Fc, ll := 0 }
  else
    let inner := Fc⁻¹ *ᵥ (Fc⁻¹ *ᵥ v)
    let loss := v ⬝ᵥ inner
    let logdet := 2 * ∑ i, Real.log |Fc i i|
    { a := a + KFc *ᵥ (Fc⁻¹ *ᵥ v), L := Lf, yhat := yhat, Fc := Fc
      ll := -(1 / 2) * ((Fintype.card p : ℝ) * (mvnConst + logdet) + loss) }

/-- One step of the square-root filter: `kalman_step` with `SquareRootFilter.update` and `.predict`; the jitter is
added to the *factor*. pymc_extras/statespace/filters/kalman_filter.py:529-541, 629-648 -/
noncomputable def sqrtStep (j fill : ℝ) (y : Row p) (a : n → ℝ) (L : Matrix n n ℝ) (θ : Params n p r)
    (lib : SqrtLib n p r) : StepOut n p :=
  let m := handleMissing fill y θ.Z θ.H
  let u := sqrtUpdate a L m.y θ.d m.Z m.allNan lib.B
  let Lf := stabilize j u.L
  { aFilt := u.a, aHat := θ.T *ᵥ u.a + θ.c, obsMu := u.yhat, PFilt := Lf, PHat := lib.Rdᵀ, obsCov := u.Fc, ll := u.ll }

/-- Contract of the library calls made in one step: `cholesky(X)` returns `C` with `C Cᵀ = X`; `qr(X, mode="r")`
returns an upper triangular `R` with `Rᵀ R = Xᵀ X`, so that `B = Rᵀ` is lower triangular (in particular its
upper-right block vanishes).
Assumption about the calls at pymc_extras/statespace/filters/kalman_filter.py:642-645, 666, 679. -/
def SqrtLib.Valid (j fill : ℝ) (y : Row p) (a : n → ℝ) (L : Matrix n n ℝ) (θ : Params n p r)
    (lib : SqrtLib n p r) : Prop :=
  let m := handleMissing fill y θ.Z θ.H
  let Lf := (sqrtStep j fill y a L θ lib).PFilt
  lib.Hc * lib.Hcᵀ = m.H ∧
  lib.B * lib.Bᵀ = sqrtA lib.Hc m.Z L * (sqrtA lib.Hc m.Z L)ᵀ ∧ lib.B.toBlocks₁₂ = 0 ∧
  lib.Qc * lib.Qcᵀ = θ.Q ∧
  lib.Rdᵀ * lib.Rd = sqrtM θ.T Lf θ.R lib.Qc * (sqrtM θ.T Lf θ.R lib.Qc)ᵀ

/-- The outer scan, carrying the factor. pymc_extras/statespace/filters/kalman_filter.py:224-232 -/
noncomputable def sqrtScan (j fill : ℝ) :
    (n → ℝ) → Matrix n n ℝ → List ((Row p × Params n p r) × SqrtLib n p r) → List (StepOut n p)
  | _, _, [] => []
  | a, L, ((y, θ), lib) :: rest =>
    let o := sqrtStep j fill y a L θ lib
    o :: sqrtScan j fill o.aHat o.PHat rest

/-- All library calls of a run meet their contract.
Assumption about the calls at pymc_extras/statespace/filters/kalman_filter.py:642-645, 666, 679. -/
def sqrtValid (j fill : ℝ) : (n → ℝ) → Matrix n n ℝ → List ((Row p × Params n p r) × SqrtLib n p r) → Prop
  | _, _, [] => True
  | a, L, ((y, θ), lib) :: rest =>
    lib.Valid j fill y a L θ ∧
      sqrtValid j fill (sqrtStep j fill y a L θ lib).aHat (sqrtStep j fill y a L θ lib).PHat rest

/-- `square_sequnece`: every matrix becomes `L Lᵀ`. pymc_extras/statespace/filters/kalman_filter.py:733-740 -/
def squareAll {m : Type*} [Fintype m] (Ls : List (Matrix m m ℝ)) : List (Matrix m m ℝ) := Ls.map fun L => L * Lᵀ

/-- `SquareRootFilter` output: the base class's post-processing, then squaring. The initial `P0` given by the user is
put in front of the predicted *factors* and squared like them.
pymc_extras/statespace/filters/kalman_filter.py:718-750 -/
noncomputable def sqrtBuildGraph (j fill : ℝ) (a0 : n → ℝ) (P0 : Matrix n n ℝ)
    (rows : List ((Row p × Params n p r) × SqrtLib n p r)) : FilterOut n p :=
  let o := postprocess a0 P0 (sqrtScan j fill a0 P0 rows)
  { o with
    filteredCovs := squareAll o.filteredCovs
    predictedCovs := squareAll o.predictedCovs
    observedCovs := squareAll o.observedCovs }

end Verif.Kalman
