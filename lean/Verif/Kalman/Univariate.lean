import Verif.Kalman.Model
import Mathlib.Data.List.OfFn

/-!
The univariate filter of `statespace/filters/kalman_filter.py`: one series after another.
-/

open Matrix

set_option linter.unusedSectionVars false

namespace Verif.Kalman

variable {n r : Type*} [Fintype n] [Fintype r] [DecidableEq n] [DecidableEq r]

/-- One element of the five zipped inner sequences `[y_masked, Z_masked, d, diag(H_masked), nan_mask]`.
pymc_extras/statespace/filters/kalman_filter.py:801 -/
structure Series (n : Type*) where
  y : ℝ
  z : n → ℝ
  d : ℝ
  s : ℝ
  nan : Prop

/-- The five values returned by the inner step. pymc_extras/statespace/filters/kalman_filter.py:769-789 -/
structure InnerOut (n : Type*) where
  a : n → ℝ
  P : Matrix n n ℝ
  yhat : ℝ
  F : ℝ
  ll : ℝ

open Classical in
/-- `UnivariateFilter._univariate_inner_filter_step`. `F` is compared with zero before the jitter is added. The division
`PZT / F` is carried out even when the flag is set; `univStep` gives no result when it is a division by zero.
pymc_extras/statespace/filters/kalman_filter.py:769-789 -/
noncomputable def univInner (j : ℝ) (x : Series n) (a : n → ℝ) (P : Matrix n n ℝ) : InnerOut n :=
  let yhat := x.z ⬝ᵥ a + x.d
  let v := x.y - yhat
  let PZT := P *ᵥ x.z
  let F0 := x.z ⬝ᵥ PZT + x.s
  let zeroFlag : Prop := F0 = 0 ∨ x.nan
  let F := F0 + j
  let K := (if zeroFlag then (0 : ℝ) else 1) • ((1 / F) • PZT)
  { a := a + v • K
    P := P - F • vecMulVec K K
    yhat := yhat
    F := F
    ll := if zeroFlag then 0 else Real.log F + v ^ 2 / F }

/-- `pytensor.scan(self._univariate_inner_filter_step, …, outputs_info=[a, P, None, None, None])`.
pymc_extras/statespace/filters/kalman_filter.py:799-805 -/
noncomputable def univScan (j : ℝ) : (n → ℝ) → Matrix n n ℝ → List (Series n) → List (InnerOut n)
  | _, _, [] => []
  | a, P, x :: xs =>
    let o := univInner j x a P
    o :: univScan j o.a o.P xs

open Classical in
/-- The inner sequences for one row: only NaN counts as missing here, the fill value does not.
pymc_extras/statespace/filters/kalman_filter.py:792-801 -/
noncomputable def univSeries {k : ℕ} (y : Row (Fin k)) (θ : Params n (Fin k) r) : List (Series n) :=
  let W : Matrix (Fin k) (Fin k) ℝ := Matrix.diagonal fun i => if y i = none then 0 else 1
  let Zm := W * θ.Z
  let Hm := W * θ.H
  List.ofFn fun i => { y := (y i).getD 0, z := Zm i, d := θ.d i, s := Hm i i, nan := y i = none }

open Classical in
/-- What one outer step returns. `obsMu` and `obsCov` are scalars: the entries of the *last* series (`[-1]`).
pymc_extras/statespace/filters/kalman_filter.py:791-820 -/
structure UnivOut (n : Type*) where
  aFilt : n → ℝ
  aHat : n → ℝ
  obsMu : ℝ
  PFilt : Matrix n n ℝ
  PHat : Matrix n n ℝ
  obsCov : ℝ
  ll : ℝ

open Classical in
/-- `UnivariateFilter.kalman_step` (arguments in standard order). `none` is the `IndexError` of `[-1]` on zero series, or
a result full of NaN: when a jittered variance `F` is zero, `PZT / F` is NaN or infinite and its product with the zero flag is
NaN. pymc_extras/statespace/filters/kalman_filter.py:791-820 -/
noncomputable def univStep {k : ℕ} (j : ℝ) (y : Row (Fin k)) (a : n → ℝ) (P : Matrix n n ℝ)
    (θ : Params n (Fin k) r) : Option (UnivOut n) :=
  let out := univScan j a P (univSeries y θ)
  if ∃ o ∈ out, o.F = 0 then none else
  match out.getLast? with
  | none => none
  | some l =>
    let Pf := stabilize j ((1 / 2 : ℝ) • (l.P + l.Pᵀ))
    let pr := predict l.a Pf θ.c θ.T θ.R θ.Q
    some
      { aFilt := l.a, aHat := pr.1, obsMu := l.yhat, PFilt := Pf, PHat := pr.2, obsCov := l.F
        ll := -(1 / 2) * ((out.countP fun o => o.ll ≠ 0 : ℕ) * mvnConst + (out.map InnerOut.ll).sum) }

end Verif.Kalman
