import Mathlib.Probability.Distributions.Gaussian.Real
import Mathlib.Analysis.SpecialFunctions.Pow.Real
import Mathlib.Data.Sign.Basic

/-!
# R2D2M2CP prior

Model of `pymc_extras/distributions/multivariate/r2d2m2cp.py` over the reals for one coefficient vector
(no broadcast dims).  `erfinv` is an argument.  `mask = none` is Python's `None`; otherwise
`mask i = true` says that coefficient `i` is random.
-/

set_option autoImplicit false

open MeasureTheory ProbabilityTheory

namespace R2d2

/-- `pt.sign` pymc_extras/distributions/multivariate/r2d2m2cp.py:26-46 -/
noncomputable def sign (x : ℝ) : ℝ := if 0 < x then 1 else if x < 0 then -1 else 0

/-- r2d2m2cp.py:26-46 `_psivar2musigma` for one coefficient; `mask` is the coefficient's mask entry
(`none` when there is no mask). -/
noncomputable def musigma (erfinv : ℝ → ℝ) (psi ev : ℝ) (mask : Option Bool) : ℝ × ℝ :=
  let sgn := sign (psi - 1 / 2)
  let psi' := match mask with
    | some b => if b then psi else 1 / 2
    | none => psi
  let pi := erfinv (2 * psi' - 1)
  let f := (1 / (2 * pi ^ 2 + 1)) ^ (1 / 2 : ℝ)
  let sigma := ev ^ (1 / 2 : ℝ) * f
  let mu := sigma * pi * (2 : ℝ) ^ (1 / 2 : ℝ)
  match mask with
  | some b => (if b then mu else sgn * ev ^ (1 / 2 : ℝ), if b then sigma else 0)
  | none => (mu, sigma)

/-- r2d2m2cp.py:78 -/
def explained (phi r2 outputSigma : ℝ) : ℝ := phi * (r2 * outputSigma ^ 2)

/-- r2d2m2cp.py:95: the non-centred coefficient from its raw standard normal. -/
noncomputable def betaOf (ms : ℝ × ℝ) (inputSigma raw : ℝ) : ℝ := (raw * ms.2 + ms.1) / inputSigma

/-- r2d2m2cp.py:80-95: the law of a non-centred coefficient: the raw value is standard normal where the
coefficient is random and zero where the mask says it is not. -/
noncomputable def betaNonCentred (ms : ℝ × ℝ) (inputSigma : ℝ) (mask : Option Bool) : Measure ℝ :=
  (if mask = some false then Measure.dirac 0 else gaussianReal 0 1).map (betaOf ms inputSigma)

/-- r2d2m2cp.py:96-116: the law of a centred coefficient: normal, or the deterministic mean where the
mask says so. -/
noncomputable def betaCentred (ms : ℝ × ℝ) (inputSigma : ℝ) (mask : Option Bool) : Measure ℝ :=
  if mask = some false then Measure.dirac (ms.1 / inputSigma)
  else gaussianReal (ms.1 / inputSigma) (Real.toNNReal ((ms.2 / inputSigma) ^ 2))

/-- r2d2m2cp.py:445 -/
noncomputable def residSigma (r2 outputSigma : ℝ) : ℝ := (1 - r2) ^ (1 / 2 : ℝ) * outputSigma

/-- Errors. pymc_extras/distributions/multivariate/r2d2m2cp.py:133-223 -/
inductive RErr
  | typeError | valueError
  deriving DecidableEq, Repr

/-- Where the signs' probabilities come from. pymc_extras/distributions/multivariate/r2d2m2cp.py:80-95 -/
inductive PsiSource
  /-- the given probabilities, fixed -/
  | fixed
  /-- a Beta variable for all coefficients -/
  | beta
  /-- a Beta variable for the coefficients whose mask entry is true, the given value elsewhere -/
  | mixed
  deriving DecidableEq, Repr

/-- r2d2m2cp.py:148, 190: `~((p == 1) | (p == 0))` -/
noncomputable def isInner (p : ℝ) : Bool := decide ¬ (p = 1 ∨ p = 0)

open Classical in
/-- r2d2m2cp.py:133-193 `_psi` (with `_psi_masked`) for constant probabilities: the mask and the source
of `psi`, or the error.  `std = none` is Python's `None`. -/
noncomputable def psiMask {k : ℕ} (p : Fin k → ℝ) (std : Option (Fin k → ℝ)) :
    Except RErr (Option (Fin k → Bool) × PsiSource) :=
  let mask : Fin k → Bool := fun i => isInner (p i)
  match std with
  | some s =>
    if ∃ i, mask i = false ∧ s i ≠ 0 then .error .valueError
    else if (∃ i, mask i = false) ∧ (∃ i, mask i = true) then .ok (some mask, .mixed)
    else if ∀ i, mask i = false then .ok (some mask, .fixed)
    else .ok (none, .beta)
  | none => if ∀ i, mask i = true then .ok (none, .fixed) else .ok (some mask, .fixed)

/-- The importance weights. pymc_extras/distributions/multivariate/r2d2m2cp.py:196-223 -/
inductive Phi (k : ℕ)
  | dirichlet (conc : Fin k → ℝ)
  | const (w : Fin k → ℝ)

/-- r2d2m2cp.py:196-223 `_phi`. -/
def phi {k : ℕ} (importance varianceExplained : Option (Fin k → ℝ)) (concentration : Option ℝ) :
    Except RErr (Phi k) :=
  match importance with
  | some w =>
    if varianceExplained.isSome then .error .typeError
    else if k ≤ 1 then .error .typeError
    else match concentration with
      | some c => .ok (.dirichlet (fun i => w i * c))
      | none => .ok (.dirichlet w)
  | none =>
    match varianceExplained with
    | some v =>
      if k ≤ 1 then .error .typeError
      else match concentration with
        | some c => .ok (.dirichlet (fun i => c * v i))
        | none => .ok (.const v)
    | none =>
      match concentration with
      | some c => .ok (.dirichlet (fun _ => c * 1))
      | none => .ok (.const (fun _ => 1))

end R2d2
