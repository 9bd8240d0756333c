import Mathlib.LinearAlgebra.Matrix.NonsingularInverse
import Mathlib.LinearAlgebra.Matrix.DotProduct
import Mathlib.Analysis.SpecialFunctions.Log.Basic
import Mathlib.Analysis.SpecialFunctions.Trigonometric.Basic

/-!
Textbook formulas for one step of linear-Gaussian filtering, written without reference to the model of the code.
-/

open Matrix

namespace Verif.Kalman.Spec

variable {n p q r : Type*} [Fintype n] [Fintype p] [Fintype q] [Fintype r]
  [DecidableEq n] [DecidableEq p] [DecidableEq q] [DecidableEq r]

/-- A data entry counts as missing if it is NaN (`none`) or equals the fill value. -/
def Missing (fill : ℝ) (o : Option ℝ) : Prop := o = none ∨ o = some fill

/-- Covariance of the forecast of `y = d + Z x + ε`, `x ~ N(a, P)`, `ε ~ N(0, H)`. -/
def obsCov (P : Matrix n n ℝ) (Z : Matrix p n ℝ) (H : Matrix p p ℝ) : Matrix p p ℝ := Z * P * Zᵀ + H

/-- Mean of `x` given `y`: `a + P Zᵀ F⁻¹ (y − d − Z a)`. -/
noncomputable def condMean (a : n → ℝ) (P : Matrix n n ℝ) (y d : p → ℝ) (Z : Matrix p n ℝ) (H : Matrix p p ℝ) :
    n → ℝ :=
  a + (P * Zᵀ * (obsCov P Z H)⁻¹) *ᵥ (y - d - Z *ᵥ a)

/-- Covariance of `x` given `y`: `P − P Zᵀ F⁻¹ Z P`. -/
noncomputable def condCov (P : Matrix n n ℝ) (Z : Matrix p n ℝ) (H : Matrix p p ℝ) : Matrix n n ℝ :=
  P - P * Zᵀ * (obsCov P Z H)⁻¹ * Z * P

/-- Log-density of a `k`-dimensional normal with covariance `F` at distance `v` from its mean. -/
noncomputable def gaussLogDensity (F : Matrix p p ℝ) (v : p → ℝ) : ℝ :=
  -(1 / 2) * ((Fintype.card p : ℝ) * Real.log (2 * Real.pi) + Real.log F.det + v ⬝ᵥ (F⁻¹ *ᵥ v))

end Verif.Kalman.Spec
