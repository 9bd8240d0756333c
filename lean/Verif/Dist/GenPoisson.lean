import Verif.Dist.Gev
import Mathlib.Data.Nat.Factorial.Basic

/-!
# Generalised Poisson distribution

Model of `pymc_extras/distributions/discrete.py:24-182`.  Real arithmetic with `-inf` and NaN; floating
rounding is not modelled.  `factln n` is `log n!` and `logpow` is PyMC's
`switch(x == 0, switch(m == 0, 0, -inf), m * log x)`.
The branching sampler used for `lam ≥ 0` (93-103) is in `Verif.Dist.GenPoissonBranch`.
-/

set_option autoImplicit false

open scoped Classical

/-- Addition of floats, none of which is `+inf`. pymc_extras/distributions/discrete.py:66-91 -/
noncomputable def LogP.add : LogP → LogP → LogP
  | .nan, _ => .nan
  | _, .nan => .nan
  | .negInf, _ => .negInf
  | _, .negInf => .negInf
  | .fin a, .fin b => .fin (a + b)

/-- `np.log` (with `errstate` ignoring warnings): `log 0 = -inf`, `log` of a negative number is NaN.
pymc_extras/distributions/discrete.py:66-91 -/
noncomputable def LogP.log (x : ℝ) : LogP :=
  if 0 < x then .fin (Real.log x) else if x = 0 then .negInf else .nan

/-- `np.logaddexp`. pymc_extras/distributions/discrete.py:77, 90 -/
noncomputable def LogP.logaddexp : LogP → LogP → LogP
  | .nan, _ => .nan
  | _, .nan => .nan
  | .negInf, b => b
  | a, .negInf => a
  | .fin a, .fin b => .fin (Real.log (Real.exp a + Real.exp b))

/-- `l * k` for a natural number `k`; `-inf * 0` is NaN. pymc_extras/distributions/discrete.py:73-91 -/
noncomputable def LogP.mulNat : LogP → ℕ → LogP
  | .nan, _ => .nan
  | .negInf, k => if k = 0 then .nan else .negInf
  | .fin a, k => .fin (a * k)

/-- `a < b` on floats; false if one is NaN. pymc_extras/distributions/discrete.py:75-91 -/
def LogP.lt : LogP → LogP → Prop
  | .nan, _ => False
  | _, .nan => False
  | .fin a, .fin b => a < b
  | .negInf, .fin _ => True
  | _, .negInf => False

namespace GenPoisson

/-- PyMC's `logpow` (imported at discrete.py:18); the base is never negative where the result is used. -/
noncomputable def logpow (x : ℝ) (m : ℤ) : LogP :=
  if x = 0 then (if m = 0 then .fin 0 else .negInf) else (LogP.fin (m * Real.log x))

/-- discrete.py:161-182: `logp`. -/
noncomputable def logp (value : ℤ) (mu lam : ℝ) : Except DistErr LogP :=
  let muLamValue := mu + lam * value
  let logprob := (LogP.fin (Real.log mu)).add ((logpow muLamValue (value - 1)).add
    (.fin (-muLamValue - Real.log (value.toNat.factorial))))
  let logprob := if muLamValue < 0 ∨ value < 0 then .negInf else logprob
  if 0 < mu ∧ |lam| ≤ 1 ∧ -mu / 4 ≤ lam then .ok logprob else .error .parameterValueError

/-! ### Samplers -/

/-- Which algorithm draws an element. pymc_extras/distributions/discrete.py:53-62 -/
inductive Algo | inverse | branching
  deriving DecidableEq

/-- discrete.py:53-62: the inverse method is used where `lam < 0`, the branching method elsewhere. -/
noncomputable def algo (lam : ℝ) : Algo := if lam < 0 then .inverse else .branching

/-- discrete.py:24-30, 83-87: `log1mexp(abs_log_lam - log_c)` for negative `lam`; `log_c = -inf` makes
the argument `+inf` and the result NaN. Both pieces compute `log (1 - exp y)`. -/
noncomputable def log1mRatio (lam : ℝ) : LogP → LogP
  | .fin lc =>
    let y := Real.log |lam| - lc
    if y < Real.log 0.5 then LogP.log (1 + -Real.exp y) else LogP.log (-(Real.exp y - 1))
  | .negInf => .nan
  | .nan => .nan

/-- discrete.py:79-89: one pass of the loop body for one element, `x` being the new value of the shared
counter `x_`; returns `log_p` and `log_s`. -/
noncomputable def body (theta lam : ℝ) (x : ℕ) (s : LogP × LogP) : LogP × LogP :=
  let logc := LogP.log (theta - lam + lam * x)
  let l := log1mRatio lam logc
  let logp := (logc.add (l.mulNat (x - 1))).add (s.1.add (.fin (-Real.log x - lam)))
  (logp, s.2.logaddexp logp)

/-- discrete.py:73-89: `log_p` and `log_s` of one element after `k` passes. -/
noncomputable def chain (theta lam : ℝ) : ℕ → LogP × LogP
  | 0 => (.fin (-theta), .fin (-theta))
  | k + 1 => body theta lam (k + 1) (chain theta lam k)

/-- discrete.py:77, 90: is the element still below its cut point after `k` passes? -/
def below (theta lam u : ℝ) (k : ℕ) : Prop := (chain theta lam k).2.lt (LogP.log u)

/-- discrete.py:75-91: the loop over a vector of elements with a shared counter; `x` are the counters
of the elements, `mask` the elements drawn with this method.  `none`: fuel exhausted. -/
noncomputable def loop {ι : Type} (theta lam u : ι → ℝ) (mask : ι → Prop) :
    ℕ → ℕ → (ι → ℕ) → Option (ι → ℕ)
  | 0, _, _ => none
  | fuel + 1, k, x =>
    if ∃ i, mask i ∧ below (theta i) (lam i) (u i) k then
      loop theta lam u mask fuel (k + 1)
        (fun i => if below (theta i) (lam i) (u i) k then x i + 1 else x i)
    else some x

/-- discrete.py:66-91: `_inverse_rng_fn`, given the uniform draws. -/
noncomputable def inverse {ι : Type} (fuel : ℕ) (theta lam u : ι → ℝ) (mask : ι → Prop) :
    Option (ι → ℕ) := loop theta lam u mask fuel 0 (fun _ => 0)

end GenPoisson
