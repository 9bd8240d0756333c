import Mathlib.Data.Real.Basic
import Mathlib.Algebra.BigOperators.Group.Finset.Basic
import Mathlib.Data.Fintype.BigOperators

/-!
# ETS: translation of `statespace/models/ETS.py`

`k` series; the state of series `i` is a block of `k_states // k_endog` numbers.  The block-diagonal matrices of the code
are written as functions of (series, position) pairs.  Placeholders are replaced by the values they will receive; real
arithmetic replaces floating point. `damped_trend=True` with `trend=False` (possible only when `order` is not given) makes
the code index a 2×2 matrix at column 2 and raises; it is excluded by hypothesis where the matrices are used.
-/

set_option autoImplicit false

open Finset

namespace Verif.Ets

/-- Constructor settings after `order` is resolved. pymc_extras/statespace/models/ETS.py:237-246 -/
structure Cfg where
  trend : Bool
  damped : Bool
  seasonal : Bool
  periods : ℕ
  transformed : Bool

/-- The errors of the constructor. pymc_extras/statespace/models/ETS.py:222-257 -/
inductive Err | notThreeStrings | onlyAdditiveErrors | badTrend | badSeasonal | badDampening | needPeriods
  deriving DecidableEq

/-- Resolution of `order` (a list of strings stands for the tuple) or of the three flags.
pymc_extras/statespace/models/ETS.py:221-257 -/
def resolve (order : Option (List String)) (trend damped seasonal : Bool) (periods : Option ℕ) (transformed : Bool)
    (goodDampening : Bool) : Except Err Cfg :=
  let flags : Except Err (Bool × Bool × Bool) :=
    match order with
    | none => .ok (trend, damped, seasonal)
    | some [a, b, c] =>
      if a ≠ "A" then .error .onlyAdditiveErrors
      else if ¬ (b = "A" ∨ b = "Ad" ∨ b = "N") then .error .badTrend
      else if ¬ (c = "A" ∨ c = "N") then .error .badSeasonal
      else .ok (b ≠ "N", b = "Ad", c = "A")
    | some _ => .error .notThreeStrings
  match flags with
  | .error e => .error e
  | .ok (tr, da, se) =>
    if goodDampening = false then .error .badDampening
    else if se = true ∧ periods = none then .error .needPeriods
    else .ok ⟨tr, da, se, periods.getD 0, transformed⟩

/-- `int(trend)`. pymc_extras/statespace/models/ETS.py:274, 570 -/
def Cfg.tr (c : Cfg) : ℕ := if c.trend then 1 else 0

/-- `k_states // k_endog`. pymc_extras/statespace/models/ETS.py:272-276 -/
def Cfg.kEach (c : Cfg) : ℕ := 2 + c.tr + if c.seasonal then c.periods else 0

/-- Parameters of one series. pymc_extras/statespace/models/ETS.py:471-473, 487-489, 514-527, 544-546, 561-580 -/
structure Params where
  α : ℝ
  β : ℝ
  γ : ℝ
  φ : ℝ
  level : ℝ
  slope : ℝ
  season : ℕ → ℝ

/-- The coefficient of the shock in the trend equation. pymc_extras/statespace/models/ETS.py:528-531 -/
def trendCoef (c : Cfg) (p : Params) : ℝ := if c.transformed then p.β else p.α * p.β

/-- The coefficient of the shock in the seasonal equation. pymc_extras/statespace/models/ETS.py:582 -/
def seasonCoef (c : Cfg) (p : Params) : ℝ := if c.transformed then p.γ else (1 - p.α) * p.γ

/-- The column of the selection matrix belonging to one series, written entry by entry in the order of the code.
pymc_extras/statespace/models/ETS.py:485, 499-508, 532-535, 590-601 -/
def selCol (c : Cfg) (p : Params) : ℕ → ℝ :=
  let R : ℕ → ℝ := fun _ => 0
  let R := Function.update R 1 p.α
  let R := Function.update R 0 (1 - p.α)
  let R := if c.trend then Function.update R 2 (trendCoef c p) else R
  if c.seasonal then
    let R := Function.update R (2 + c.tr) (seasonCoef c p)
    Function.update R 0 (R 0 - seasonCoef c p)
  else R

/-- The block `T_base` (2×2 without trend, 3×3 with), `δ` standing for the `dampen_dummy` placeholder.
pymc_extras/statespace/models/ETS.py:511, 540-541, 551-554 -/
def tBase (c : Cfg) (p : Params) (δ : ℝ) : ℕ → ℕ → ℝ := fun a b =>
  if c.trend then
    if c.damped ∧ 1 ≤ a ∧ b = 2 then p.φ
    else if (a = 1 ∧ b = 1) ∨ (a = 2 ∧ b = 2) then δ
    else if a = 1 ∧ b = 2 then 1 else 0
  else if a = 1 ∧ b = 1 then δ else 0

/-- The seasonal block: `eye(m, k=-1)` with the corner set. pymc_extras/statespace/models/ETS.py:605-609 -/
def tSeason (m : ℕ) (δ : ℝ) : ℕ → ℕ → ℝ := fun a b => if a = 0 ∧ b = m - 1 then δ else if a = b + 1 then 1 else 0

/-- `block_diag(T_base, T_seasonal)` of one series. pymc_extras/statespace/models/ETS.py:556-558, 612-614, 622 -/
def tBlock (c : Cfg) (p : Params) (δ : ℝ) : ℕ → ℕ → ℝ := fun a b =>
  if a < 2 + c.tr ∧ b < 2 + c.tr then tBase c p δ a b
  else if 2 + c.tr ≤ a ∧ 2 + c.tr ≤ b ∧ c.seasonal then tSeason c.periods δ (a - (2 + c.tr)) (b - (2 + c.tr)) else 0

/-- The initial state of one series. pymc_extras/statespace/models/ETS.py:475-482, 518-524, 568-576 -/
def init (c : Cfg) (p : Params) : ℕ → ℝ :=
  let x : ℕ → ℝ := Function.update (fun _ => 0) 1 p.level
  let x := if c.trend then Function.update x 2 p.slope else x
  if c.seasonal then fun a => if 2 + c.tr ≤ a then p.season (a - (2 + c.tr)) else x a else x

/-- One row of the design matrix restricted to its own series (other entries are zero).
pymc_extras/statespace/models/ETS.py:629-634 -/
def designRow (c : Cfg) : ℕ → ℝ :=
  let Z : ℕ → ℝ := fun _ => 0
  let Z := Function.update Z 0 1
  let Z := Function.update Z 1 1
  if c.seasonal then Function.update Z (2 + c.tr) 1 else Z

/-- The full transition matrix: `block_diag` over series, with `dampen_dummy` replaced by 1.
pymc_extras/statespace/models/ETS.py:622-627 -/
def transition {k : ℕ} (c : Cfg) (p : Fin k → Params) : Fin k × ℕ → Fin k × ℕ → ℝ := fun a b =>
  if a.1 = b.1 then tBlock c (p a.1) 1 a.2 b.2 else 0

/-- The full selection matrix: `block_diag(*R_list)`. pymc_extras/statespace/models/ETS.py:617 -/
def selection {k : ℕ} (c : Cfg) (p : Fin k → Params) : Fin k × ℕ → Fin k → ℝ := fun a j =>
  if a.1 = j then selCol c (p a.1) a.2 else 0

/-- The full design matrix: row `i` of `Zs[j]` is zero unless `i = j`. pymc_extras/statespace/models/ETS.py:629-638 -/
def design {k : ℕ} (c : Cfg) : Fin k → Fin k × ℕ → ℝ := fun i b => if i = b.1 then designRow c b.2 else 0

/-- `x_{t+1} = T x_t + R ε_t`. pymc_extras/statespace/filters/distributions.py:239-256 -/
def state {k : ℕ} (c : Cfg) (p : Fin k → Params) (ε : ℕ → Fin k → ℝ) : ℕ → Fin k × ℕ → ℝ
  | 0 => fun a => init c (p a.1) a.2
  | t + 1 => fun a => (∑ j : Fin k, ∑ b ∈ range c.kEach, transition c p a (j, b) * state c p ε t (j, b)) +
      ∑ j : Fin k, selection c p a j * ε t j

/-- The observation mean of series `i`, `Z x_t`. pymc_extras/statespace/filters/distributions.py:253 -/
def obs {k : ℕ} (c : Cfg) (p : Fin k → Params) (ε : ℕ → Fin k → ℝ) (t : ℕ) (i : Fin k) : ℝ :=
  ∑ j : Fin k, ∑ b ∈ range c.kEach, design c i (j, b) * state c p ε t (j, b)

/-- `state_names`. pymc_extras/statespace/models/ETS.py:383-395 -/
def stateNames (c : Cfg) (endog : List String) : List String :=
  let states := ["innovation", "level"] ++ (if c.trend then ["trend"] else []) ++
    (if c.seasonal then ["seasonality"] ++ (List.range (c.periods - 1)).map fun i => s!"L{i + 1}.season" else [])
  if 1 < endog.length then endog.flatMap fun name => states.map fun s => s!"{name}_{s}" else states

end Verif.Ets
