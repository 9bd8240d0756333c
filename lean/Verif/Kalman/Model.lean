import Mathlib.Data.Matrix.Mul
import Mathlib.Data.Matrix.Diagonal
import Mathlib.LinearAlgebra.Matrix.NonsingularInverse
import Mathlib.LinearAlgebra.Matrix.DotProduct
import Mathlib.Analysis.SpecialFunctions.Log.Basic
import Mathlib.Analysis.SpecialFunctions.Trigonometric.Basic

/-!
# Kalman filters: translation of `statespace/filters/kalman_filter.py`

Real arithmetic replaces floating point.  `n` indexes hidden states, `p` observed series, `r` shocks.
`solve(A, B)` is modelled as `A⁻¹ * B` (Mathlib's inverse is `0` on singular matrices, where the code raises
or returns NaN; theorems about values carry an invertibility hypothesis).  `assume_a="pos"` makes LAPACK read
only one triangle of the matrix; for a symmetric matrix that is the same solve.
-/

open Matrix

namespace Verif.Kalman

variable {n p r : Type*} [Fintype n] [Fintype p] [Fintype r] [DecidableEq n] [DecidableEq p] [DecidableEq r]

/-- The seven system matrices at one time step, `PARAM_NAMES`.
pymc_extras/statespace/filters/kalman_filter.py:22 -/
structure Params (n p r : Type*) where
  c : n → ℝ
  d : p → ℝ
  T : Matrix n n ℝ
  Z : Matrix p n ℝ
  R : Matrix n r ℝ
  H : Matrix p p ℝ
  Q : Matrix r r ℝ

/-- One data row. `none` is NaN, `some x` a float that is not NaN.
pymc_extras/statespace/filters/kalman_filter.py:352 (`pt.isnan(y)`) -/
abbrev Row (p : Type*) := p → Option ℝ

/-- `stabilize`. pymc_extras/statespace/filters/utilities.py:50-54 -/
def stabilize (jitter : ℝ) (A : Matrix n n ℝ) : Matrix n n ℝ := A + jitter • (1 : Matrix n n ℝ)

/-- `quad_form_sym`. pymc_extras/statespace/filters/utilities.py:57-59 -/
noncomputable def quadFormSym (A : Matrix n p ℝ) (B : Matrix p p ℝ) : Matrix n n ℝ :=
  (1 / 2 : ℝ) • (A * B * Aᵀ + (A * B * Aᵀ)ᵀ)

/-- `nan_mask = or(isnan(y), eq(y, missing_fill_value))`.
pymc_extras/statespace/filters/kalman_filter.py:352 -/
def nanMask (fill : ℝ) (y : Row p) (i : p) : Prop := y i = none ∨ y i = some fill

/-- The pieces returned by `handle_missing_values`. pymc_extras/statespace/filters/kalman_filter.py:310-360 -/
structure Masked (n p : Type*) where
  y : p → ℝ
  Z : Matrix p n ℝ
  H : Matrix p p ℝ
  allNan : Prop

open Classical in
/-- `W = diag(not nan_mask)`. pymc_extras/statespace/filters/kalman_filter.py:354 -/
noncomputable def maskW (fill : ℝ) (y : Row p) : Matrix p p ℝ :=
  Matrix.diagonal fun i => if nanMask fill y i then 0 else 1

open Classical in
/-- `BaseFilter.handle_missing_values`: `Z` and `H` are multiplied from the left by the 0/1 diagonal `W`, masked
entries of `y` are set to `0`. pymc_extras/statespace/filters/kalman_filter.py:310-360 -/
noncomputable def handleMissing (fill : ℝ) (y : Row p) (Z : Matrix p n ℝ) (H : Matrix p p ℝ) : Masked n p where
  y := fun i => if nanMask fill y i then 0 else (y i).getD 0
  Z := maskW fill y * Z
  H := maskW fill y * H
  allNan := ∀ i, nanMask fill y i

/-- `BaseFilter.predict`. pymc_extras/statespace/filters/kalman_filter.py:362-410 -/
noncomputable def predict (a : n → ℝ) (P : Matrix n n ℝ) (c : n → ℝ) (T : Matrix n n ℝ) (R : Matrix n r ℝ)
    (Q : Matrix r r ℝ) : (n → ℝ) × Matrix n n ℝ :=
  (T *ᵥ a + c, quadFormSym T P + quadFormSym R Q)

/-- Result of `update`: filtered mean and covariance, forecast mean and covariance, log-likelihood.
pymc_extras/statespace/filters/kalman_filter.py:549-617 -/
structure UpdateOut (n p : Type*) where
  a : n → ℝ
  P : Matrix n n ℝ
  yhat : p → ℝ
  F : Matrix p p ℝ
  ll : ℝ

/-- `MVN_CONST = log(2π)`. pymc_extras/statespace/filters/kalman_filter.py:21 -/
noncomputable def mvnConst : ℝ := Real.log (2 * Real.pi)

/-- `F = Z (P Zᵀ) + stabilize(H, cov_jitter)`. pymc_extras/statespace/filters/kalman_filter.py:597-598 -/
noncomputable def innovCov (jitter : ℝ) (P : Matrix n n ℝ) (Z : Matrix p n ℝ) (H : Matrix p p ℝ) : Matrix p p ℝ :=
  Z * (P * Zᵀ) + stabilize jitter H

/-- `K = solve(F.T, PZT.T).T`. pymc_extras/statespace/filters/kalman_filter.py:600 -/
noncomputable def gain (P : Matrix n n ℝ) (Z : Matrix p n ℝ) (F : Matrix p p ℝ) : Matrix n p ℝ :=
  ((Fᵀ)⁻¹ * (P * Zᵀ)ᵀ)ᵀ

open Classical in
/-- `StandardFilter.update`. pymc_extras/statespace/filters/kalman_filter.py:549-617 -/
noncomputable def update (jitter : ℝ) (a : n → ℝ) (P : Matrix n n ℝ) (y d : p → ℝ) (Z : Matrix p n ℝ)
    (H : Matrix p p ℝ) (allNan : Prop) : UpdateOut n p :=
  let yhat := d + Z *ᵥ a
  let v := y - yhat
  let F := innovCov jitter P Z H
  let K := gain P Z F
  let IKZ := 1 - K * Z
  { a := a + K *ᵥ v
    P := quadFormSym IKZ P + quadFormSym K H
    yhat := yhat
    F := F
    ll := if allNan then 0 else -(1 / 2) * (mvnConst + Real.log F.det + v ⬝ᵥ (F⁻¹ *ᵥ v)) }

/-- The seven values produced by one step, in scan order. pymc_extras/statespace/filters/kalman_filter.py:529-541 -/
structure StepOut (n p : Type*) where
  aFilt : n → ℝ
  aHat : n → ℝ
  obsMu : p → ℝ
  PFilt : Matrix n n ℝ
  PHat : Matrix n n ℝ
  obsCov : Matrix p p ℝ
  ll : ℝ

/-- `BaseFilter.kalman_step` with `StandardFilter.update` (the arguments already in standard order; the ordering is
modelled in `Verif.Kalman.Args`). pymc_extras/statespace/filters/kalman_filter.py:529-541 -/
noncomputable def kalmanStep (jitter fill : ℝ) (y : Row p) (a : n → ℝ) (P : Matrix n n ℝ) (θ : Params n p r) :
    StepOut n p :=
  let m := handleMissing fill y θ.Z θ.H
  let u := update jitter a P m.y θ.d m.Z m.H m.allNan
  let Pf := stabilize jitter u.P
  let pr := predict u.a Pf θ.c θ.T θ.R θ.Q
  { aFilt := u.a, aHat := pr.1, obsMu := u.yhat, PFilt := Pf, PHat := pr.2, obsCov := u.F, ll := u.ll }

/-- `pytensor.scan(kalman_step, sequences=[data, *sequences], outputs_info=[None, a0, None, None, P0, None, None])`:
the second and fifth outputs are carried. Static matrices are constant across the list, time-varying ones are not.
pymc_extras/statespace/filters/kalman_filter.py:224-232 -/
noncomputable def filterScan (jitter fill : ℝ) :
    (n → ℝ) → Matrix n n ℝ → List (Row p × Params n p r) → List (StepOut n p)
  | _, _, [] => []
  | a, P, (y, θ) :: rest =>
    let o := kalmanStep jitter fill y a P θ
    o :: filterScan jitter fill o.aHat o.PHat rest

/-- The seven arrays handed to the user. pymc_extras/statespace/filters/kalman_filter.py:240-308 -/
structure FilterOut (n p : Type*) where
  filteredStates : List (n → ℝ)
  predictedStates : List (n → ℝ)
  observedStates : List (p → ℝ)
  filteredCovs : List (Matrix n n ℝ)
  predictedCovs : List (Matrix n n ℝ)
  observedCovs : List (Matrix p p ℝ)
  loglike : List ℝ

/-- `BaseFilter._postprocess_scan_results`: the initial state is prepended to the predictions and the last
prediction is dropped. pymc_extras/statespace/filters/kalman_filter.py:240-308 -/
def postprocess (a0 : n → ℝ) (P0 : Matrix n n ℝ) (rs : List (StepOut n p)) : FilterOut n p where
  filteredStates := rs.map StepOut.aFilt
  predictedStates := a0 :: (rs.map StepOut.aHat).dropLast
  observedStates := rs.map StepOut.obsMu
  filteredCovs := rs.map StepOut.PFilt
  predictedCovs := P0 :: (rs.map StepOut.PHat).dropLast
  observedCovs := rs.map StepOut.obsCov
  loglike := rs.map StepOut.ll

/-- `BaseFilter.build_graph` for the standard filter, with parameters already split by time step.
pymc_extras/statespace/filters/kalman_filter.py:144-238 -/
noncomputable def buildGraph (jitter fill : ℝ) (a0 : n → ℝ) (P0 : Matrix n n ℝ)
    (rows : List (Row p × Params n p r)) : FilterOut n p :=
  postprocess a0 P0 (filterScan jitter fill a0 P0 rows)

end Verif.Kalman
