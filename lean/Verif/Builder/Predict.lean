import Verif.Builder.Model
import Mathlib.Data.Real.Basic
import Mathlib.Algebra.BigOperators.Group.Finset.Basic
import Mathlib.Logic.Equiv.Fin.Basic
import Mathlib.Data.Fintype.Prod

/-!
# Point predictions and posterior predictive draws of a model builder

Model of `pymc_extras/model_builder.py`: `predict` (529-573), `sample_posterior_predictive` (627-657), `predict_proba` (688-696)
and `predict_posterior` (698-734).  What PyMC's sampler returns is a function of the data in the model and the stored inference
data: the groups it adds, and the arrays of its `posterior_predictive` group by name, with chain, draw and row axes.  `none` in
an array is NaN.  xarray's `mean` skips NaN (its default for floats), `az.extract(combined=True)` stacks chain and draw, chain
first, into a last axis `sample`; other axes and the attributes of the arrays are not modelled.
-/

set_option autoImplicit false

namespace Builder

/-- Exceptions. pymc_extras/model_builder.py:88-92, 565, 649, 730 -/
inductive PErr
  | attributeError | keyError | invalidData
  deriving DecidableEq, Repr

/-- An array with chain, draw and row axes. pymc_extras/model_builder.py:653-655 -/
abbrev Draws (C D n : ℕ) := Fin C → Fin D → Fin n → Option ℝ

/-- What `pm.sample_posterior_predictive` returns for the data `X` in the model and the stored groups.
pymc_extras/model_builder.py:648-649 -/
structure Sampler (G X : Type) (C D n : ℕ) where
  groups : X → Groups G → Groups G
  arrays : X → Groups G → String → Option (Draws C D n)

/-- `sample_posterior_predictive`, up to the extraction: the object afterwards and the arrays.
pymc_extras/model_builder.py:646-655 -/
def samplePosterior {G X : Type} {C D n : ℕ} (S : Sampler G X C D n) (o : Obj G X) (x : X) (extend : Bool) :
    Obj G X × Except PErr (String → Option (Draws C D n)) :=
  match o.data with
  | none => (o, .error .attributeError)
  | some _ =>
    let o1 : Obj G X := ⟨o.idata, some x⟩
    match o.idata with
    | none => (o1, .error .attributeError)
    | some g =>
      if (g "posterior").isNone then (o1, .error .attributeError)
      else
        (⟨some (if extend then extendRight g (S.groups x g) else g), some x⟩, .ok (S.arrays x g))

/-- `az.extract(..., combined=True)`: the axes chain and draw become the last axis. pymc_extras/model_builder.py:653-655 -/
def stack {C D n : ℕ} (a : Draws C D n) : Fin n → Fin (C * D) → Option ℝ :=
  fun i s => a (finProdFinEquiv.symm s).1 (finProdFinEquiv.symm s).2 i

open Classical in
/-- `mean` over some axes, skipping NaN; all NaN gives NaN. pymc_extras/model_builder.py:570-572 -/
noncomputable def nanmean {ι : Type} [Fintype ι] (f : ι → Option ℝ) : Option ℝ :=
  if ∀ k, f k = none then none
  else some ((∑ k, (f k).getD 0) / ((Finset.univ.filter fun k => f k ≠ none).card : ℝ))

/-- `predict`. pymc_extras/model_builder.py:561-573 -/
noncomputable def predict {G X : Type} {C D n : ℕ} (S : Sampler G X C D n) (outputVar : String) (o : Obj G X) (x : X)
    (extend : Bool) : Obj G X × Except PErr (Fin n → Option ℝ) :=
  match samplePosterior S o x extend with
  | (o1, .error e) => (o1, .error e)
  | (o1, .ok arrays) =>
    match arrays outputVar with
    | none => (o1, .error .keyError)
    | some a => (o1, .ok fun i => nanmean fun p : Fin C × Fin D => a p.1 p.2 i)

/-- What `predict_posterior` returns. pymc_extras/model_builder.py:653-655, 734 -/
inductive Predictions (C D n : ℕ)
  | separate (a : Draws C D n)
  | combined (b : Fin n → Fin (C * D) → Option ℝ)

/-- `predict_posterior`: validation first (`validate`, 88-92). pymc_extras/model_builder.py:698-734 -/
def predictPosterior {G X : Type} {C D n : ℕ} (S : Sampler G X C D n) (validate : X → Option X) (outputVar : String)
    (o : Obj G X) (x : X) (extend : Bool) (combined : Bool) : Obj G X × Except PErr (Predictions C D n) :=
  match validate x with
  | none => (o, .error .invalidData)
  | some x' =>
    match samplePosterior S o x' extend with
    | (o1, .error e) => (o1, .error e)
    | (o1, .ok arrays) =>
      match arrays outputVar with
      | none => (o1, .error .keyError)
      | some a => (o1, .ok (if combined then .combined (stack a) else .separate a))

/-- Default of `combined` in `predict_posterior`. pymc_extras/model_builder.py:702 -/
def predictPosteriorDefault : Bool := true

/-- Default of `combined` in `predict_proba`, otherwise the same function. pymc_extras/model_builder.py:688-696 -/
def predictProbaDefault : Bool := false

end Builder
