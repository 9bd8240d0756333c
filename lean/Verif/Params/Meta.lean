import Verif.Sarima.Model
import Verif.Varmax.Model
import Verif.Ets.Model

/-!
# What SARIMAX, VARMAX and ETS tell the user about their parameters

`param_names`, `param_info`, `param_dims` and `coords` are what a user reads before writing priors; the variables passed
to `make_and_register_variable` are what the model then expects.  Dictionaries are association lists in insertion order;
a shape of `None` is the empty shape; coordinate labels are strings.
-/

set_option autoImplicit false

namespace Verif.Params

/-- A Python dictionary in insertion order.
pymc_extras/statespace/models/SARIMAX.py:261-295 and the same properties of VARMAX.py, ETS.py -/
abbrev Dict (V : Type) := List (String × V)

/-- `d[k]`; `none` is the KeyError. pymc_extras/statespace/models/SARIMAX.py:292-295 -/
def get {V : Type} (d : Dict V) (k : String) : Option V := (d.find? (fun e => e.1 = k)).map Prod.snd

/-- `del d[k]`. pymc_extras/statespace/models/SARIMAX.py:343-353; ETS.py:427-443 -/
def del {V : Type} (k : String) (d : Dict V) : Dict V := d.filter (fun e => e.1 ≠ k)

/-- `d[k] = v`. pymc_extras/statespace/models/SARIMAX.py:355-367 -/
def put {V : Type} (k : String) (v : V) (d : Dict V) : Dict V :=
  if d.any (fun e => e.1 = k) then d.map (fun e => if e.1 = k then (k, v) else e) else d ++ [(k, v)]

/-- `if b: x = f(x)`. pymc_extras/statespace/models/SARIMAX.py:233-259, 324-367 -/
def cond {α : Type} (b : Bool) (f : α → α) (x : α) : α := if b then f x else x

/-- The dimension names of a parameter; `none` is Python's `None`. pymc_extras/statespace/models/SARIMAX.py:324-353 -/
abbrev Dims := Option (List String)

/-- What the user is told, and what the model registers. pymc_extras/statespace/models/SARIMAX.py:233-367 -/
structure Meta where
  names : List String
  info : Option (Dict (List ℕ × Dims))
  dims : Dict Dims
  coords : Dict (List String)
  registered : List (String × List ℕ)

/-- `for name in param_names: info[name]["dims"] = param_dims[name]` and the final selection; `none` is a KeyError.
pymc_extras/statespace/models/SARIMAX.py:292-295; VARMAX.py:232-235 -/
def infoStrict (shapes : Dict (List ℕ)) (dims : Dict Dims) (n : String) : Option (String × (List ℕ × Dims)) :=
  match get shapes n, get dims n with
  | some s, some d => some (n, s, d)
  | _, _ => none

/-- The same with `param_dims.get(name, None)`. pymc_extras/statespace/models/ETS.py:378-381 -/
def infoGet (shapes : Dict (List ℕ)) (dims : Dict Dims) (n : String) : Option (String × (List ℕ × Dims)) :=
  match get shapes n with
  | some s => some (n, s, (get dims n).getD none)
  | none => none

/-- `None if k == 1 else (k,)`, also `() if k == 1 else (k,)`.
pymc_extras/statespace/models/SARIMAX.py:273, 277, 520, 527; ETS.py:333-366, 472, 488, 515, 526, 545, 579, 650, 657 -/
def scalarOr (k : ℕ) : List ℕ := if k = 1 then [] else [k]

/-- `make_default_coords`. pymc_extras/statespace/models/utilities.py:17-27; utils/constants.py:3-8 -/
def defaultCoords (states observed shocks : List String) : Dict (List String) :=
  [("state", states), ("state_aux", states), ("observed_state", observed), ("observed_state_aux", observed),
   ("shock", shocks), ("shock_aux", shocks)]

/-- `list(range(1, n + 1))`. pymc_extras/statespace/models/SARIMAX.py:359-365; VARMAX.py:265-267; ETS.py:449 -/
def labels (n : ℕ) : List String := (List.range n).map (fun i => toString (i + 1))

/-- `if b: coords.update({k: v})`. pymc_extras/statespace/models/SARIMAX.py:355-367 -/
def upd (b : Bool) (k : String) (v : List String) (c : Dict (List String)) : Dict (List String) := cond b (put k v) c

/-! ### SARIMAX -/

namespace Sarimax
open Verif.Sarima

/-- The options of the constructor. pymc_extras/statespace/models/SARIMAX.py:183-194 -/
structure Opts where
  o : Order
  fast : Bool
  stationary : Bool
  measurement : Bool

/-- `state.replace(ab, "")` for a text `ab` of two characters: one pass from the left, occurrences do not overlap.
pymc_extras/statespace/models/utilities.py:53-56 -/
def del2 (a b : Char) : List Char → List Char
  | c :: d :: r => if c = a ∧ d = b then del2 a b r else c :: del2 a b (d :: r)
  | l => l

/-- The body of the loop of `cleanup_states`. pymc_extras/statespace/models/utilities.py:53-57 -/
def clean (s : List Char) : List Char := del2 'D' '0' (del2 'L' '0' (del2 '^' '0' (del2 '^' '1' s)))

/-- `cleanup_states`. pymc_extras/statespace/models/utilities.py:30-58 -/
def cleanup (states : List String) : List String := states.map fun s => String.ofList (clean s.toList)

/-- `k_states`. pymc_extras/statespace/models/SARIMAX.py:214-219 -/
def Opts.kStates (c : Opts) : ℕ := if c.fast then c.o.kStates else c.o.pMax + c.o.qMax

/-- `state_names`. pymc_extras/statespace/models/SARIMAX.py:297-314 -/
def Opts.stateNames (c : Opts) : List String :=
  if c.fast then cleanup (harveyNames c.o) else interpretableNames c.o

/-- `param_names`. pymc_extras/statespace/models/SARIMAX.py:233-259 -/
def names (c : Opts) : List String :=
  let n := ["x0", "P0", "ar_params", "ma_params", "seasonal_ar_params", "seasonal_ma_params", "sigma_state",
    "sigma_obs"]
  let n := cond c.stationary (fun n => (n.erase "P0").erase "x0") n
  let n := cond (c.o.p == 0) (·.erase "ar_params") n
  let n := cond (c.o.P == 0) (·.erase "seasonal_ar_params") n
  let n := cond (c.o.q == 0) (·.erase "ma_params") n
  let n := cond (c.o.Q == 0) (·.erase "seasonal_ma_params") n
  cond (!c.measurement) (·.erase "sigma_obs") n

/-- The shapes of `param_info` (`k_endog = k_posdef = 1`). pymc_extras/statespace/models/SARIMAX.py:263-290 -/
def shapes (c : Opts) : Dict (List ℕ) :=
  [("x0", [c.kStates]), ("P0", [c.kStates, c.kStates]), ("sigma_obs", scalarOr 1), ("sigma_state", scalarOr 1),
   ("ar_params", [c.o.p]), ("ma_params", [c.o.q]), ("seasonal_ar_params", [c.o.P]),
   ("seasonal_ma_params", [c.o.Q])]

/-- `param_dims`. pymc_extras/statespace/models/SARIMAX.py:324-353 -/
def dims (c : Opts) : Dict Dims :=
  let m : Dict Dims := [("x0", some ["state"]), ("P0", some ["state", "state_aux"]),
    ("sigma_obs", some ["observed_state"]), ("sigma_state", some ["observed_state"]), ("ar_params", some ["ar_lag"]),
    ("ma_params", some ["ma_lag"]), ("seasonal_ar_params", some ["seasonal_ar_lag"]),
    ("seasonal_ma_params", some ["seasonal_ma_lag"])]
  let m := put "sigma_obs" none (put "sigma_state" none m)
  let m := cond (!c.measurement) (del "sigma_obs") m
  let m := cond (c.o.p == 0) (del "ar_params") m
  let m := cond (c.o.q == 0) (del "ma_params") m
  let m := cond (c.o.P == 0) (del "seasonal_ar_params") m
  let m := cond (c.o.Q == 0) (del "seasonal_ma_params") m
  cond c.stationary (fun m => del "x0" (del "P0" m)) m

/-- `coords`; the observed state is the first state, the shock is "innovation".
pymc_extras/statespace/models/SARIMAX.py:316-322, 355-367 -/
def coords (c : Opts) : Dict (List String) :=
  upd (decide (0 < c.o.Q)) "seasonal_ma_lag" (labels c.o.Q)
    (upd (decide (0 < c.o.P)) "seasonal_ar_lag" (labels c.o.P)
      (upd (decide (0 < c.o.q)) "ma_lag" (labels c.o.q)
        (upd (decide (0 < c.o.p)) "ar_lag" (labels c.o.p)
          (defaultCoords c.stateNames (c.stateNames.take 1) ["innovation"]))))

/-- The calls of `make_and_register_variable`, in order (the same for both state structures).
pymc_extras/statespace/models/SARIMAX.py:388-392, 418-450, 473-504, 519-528 -/
def registered (c : Opts) : List (String × List ℕ) :=
  (if c.stationary then [] else [("x0", [c.kStates]), ("P0", [c.kStates, c.kStates])]) ++
  (if 0 < c.o.p then [("ar_params", [c.o.p])] else []) ++
  (if 0 < c.o.P then [("seasonal_ar_params", [c.o.P])] else []) ++
  (if 0 < c.o.q then [("ma_params", [c.o.q])] else []) ++
  (if 0 < c.o.Q then [("seasonal_ma_params", [c.o.Q])] else []) ++
  [("sigma_state", scalarOr 1)] ++
  (if c.measurement then [("sigma_obs", scalarOr 1)] else [])

/-- Everything together; `param_info` by 292-295. pymc_extras/statespace/models/SARIMAX.py:233-367 -/
def «meta» (c : Opts) : Meta :=
  { names := names c, info := (names c).mapM (infoStrict (shapes c) (dims c)), dims := dims c, coords := coords c,
    registered := registered c }

end Sarimax

/-! ### VARMAX -/

namespace Varmax
open Verif.Varmax

/-- The options of the constructor, with the names it settled on (`resolveNames`).
pymc_extras/statespace/models/VARMAX.py:142-168 -/
structure Opts where
  endog : List String
  p : ℕ
  q : ℕ
  stationary : Bool
  measurement : Bool

/-- `k_endog`, which is also `k_posdef`. pymc_extras/statespace/models/VARMAX.py:152-162, 168 -/
def Opts.k (c : Opts) : ℕ := c.endog.length

/-- `k_states`. pymc_extras/statespace/models/VARMAX.py:166-167 -/
def Opts.kStates (c : Opts) : ℕ := (Order.mk c.k c.p c.q).kStates

/-- `param_names`. pymc_extras/statespace/models/VARMAX.py:189-201 -/
def names (c : Opts) : List String :=
  let n := ["x0", "P0", "ar_params", "ma_params", "state_cov", "sigma_obs"]
  let n := cond c.stationary (fun n => (n.erase "P0").erase "x0") n
  let n := cond (!c.measurement) (·.erase "sigma_obs") n
  let n := cond (c.p == 0) (·.erase "ar_params") n
  cond (c.q == 0) (·.erase "ma_params") n

/-- The shapes of `param_info`. pymc_extras/statespace/models/VARMAX.py:205-230 -/
def shapes (c : Opts) : Dict (List ℕ) :=
  [("x0", [c.kStates]), ("P0", [c.kStates, c.kStates]), ("sigma_obs", [c.k, c.k]), ("state_cov", [c.k, c.k]),
   ("ar_params", [c.k, c.p, c.k]), ("ma_params", [c.k, c.q, c.k])]

/-- `param_dims`. pymc_extras/statespace/models/VARMAX.py:271-292 -/
def dims (c : Opts) : Dict Dims :=
  let m : Dict Dims := [("x0", some ["state"]), ("P0", some ["state", "state_aux"]),
    ("sigma_obs", some ["observed_state"]), ("state_cov", some ["shock", "shock_aux"]),
    ("ar_params", some ["observed_state", "ar_lag", "observed_state_aux"]),
    ("ma_params", some ["observed_state", "ma_lag", "observed_state_aux"])]
  let m := cond (!c.measurement) (del "sigma_obs") m
  let m := cond (c.p == 0) (del "ar_params") m
  let m := cond (c.q == 0) (del "ma_params") m
  cond c.stationary (fun m => del "x0" (del "P0" m)) m

/-- `coords`. pymc_extras/statespace/models/VARMAX.py:249-255, 261-269 -/
def coords (c : Opts) : Dict (List String) :=
  upd (decide (0 < c.q)) "ma_lag" (labels c.q)
    (upd (decide (0 < c.p)) "ar_lag" (labels c.p)
      (defaultCoords (stateNames c.endog c.p c.q) c.endog c.endog))

/-- The calls of `make_and_register_variable`, in order. pymc_extras/statespace/models/VARMAX.py:299-376 -/
def registered (c : Opts) : List (String × List ℕ) :=
  (if c.stationary then [] else [("x0", [c.kStates]), ("P0", [c.kStates, c.kStates])]) ++
  (if 0 < c.p then [("ar_params", [c.k, c.p, c.k])] else []) ++
  (if 0 < c.q then [("ma_params", [c.k, c.q, c.k])] else []) ++
  (if c.measurement then [("sigma_obs", [c.k])] else []) ++
  [("state_cov", [c.k, c.k])]

/-- Everything together. pymc_extras/statespace/models/VARMAX.py:189-292 -/
def «meta» (c : Opts) : Meta :=
  { names := names c, info := (names c).mapM (infoStrict (shapes c) (dims c)), dims := dims c, coords := coords c,
    registered := registered c }

end Varmax

/-! ### ETS -/

namespace Ets
open Verif.Ets

/-- The options of the constructor. pymc_extras/statespace/models/ETS.py:241-270 -/
structure Opts where
  c : Cfg
  endog : List String
  dense : Bool
  stationary : Bool
  measurement : Bool

/-- `k_endog`, which is also `k_posdef`. pymc_extras/statespace/models/ETS.py:259-265, 278 -/
def Opts.k (c : Opts) : ℕ := c.endog.length

/-- `dense_innovation_covariance` is dropped for one series. pymc_extras/statespace/models/ETS.py:267-270 -/
def Opts.isDense (c : Opts) : Bool := c.dense && !(c.k == 1)

/-- `k_states`. pymc_extras/statespace/models/ETS.py:272-276 -/
def Opts.kStates (c : Opts) : ℕ := c.c.kEach * c.k

/-- `param_names`. pymc_extras/statespace/models/ETS.py:289-323 -/
def names (c : Opts) : List String :=
  let n := ["initial_level", "initial_trend", "initial_seasonal", "P0", "alpha", "beta", "gamma", "phi",
    "sigma_state", "state_cov", "sigma_obs"]
  let n := cond (!c.c.trend) (fun n => (n.erase "initial_trend").erase "beta") n
  let n := cond (!c.c.damped) (·.erase "phi") n
  let n := cond (!c.c.seasonal) (fun n => (n.erase "initial_seasonal").erase "gamma") n
  let n := cond (!c.measurement) (·.erase "sigma_obs") n
  let n := if c.isDense then n.erase "sigma_state" else n.erase "state_cov"
  cond c.stationary (·.erase "P0") n

/-- The shapes of `param_info`. pymc_extras/statespace/models/ETS.py:327-376 -/
def shapes (c : Opts) : Dict (List ℕ) :=
  let m : Dict (List ℕ) := [("P0", [c.kStates, c.kStates]), ("initial_level", scalarOr c.k),
    ("initial_trend", scalarOr c.k), ("initial_seasonal", [c.c.periods]), ("sigma_obs", scalarOr c.k),
    ("sigma_state", scalarOr c.k), ("alpha", scalarOr c.k), ("beta", scalarOr c.k), ("gamma", scalarOr c.k),
    ("phi", scalarOr c.k)]
  cond c.isDense (fun m => put "state_cov" [c.k, c.k] (del "sigma_state" m)) m

/-- `param_dims`. pymc_extras/statespace/models/ETS.py:409-443 -/
def dims (c : Opts) : Dict Dims :=
  let m : Dict Dims := [("P0", some ["state", "state_aux"]), ("sigma_obs", some ["observed_state"]),
    ("sigma_state", some ["observed_state"]), ("initial_level", some ["observed_state"]),
    ("initial_trend", some ["observed_state"]), ("initial_seasonal", some ["seasonal_lag"]),
    ("seasonal_param", some ["seasonal_lag"])]
  let m := cond c.isDense
    (fun m => put "state_cov" (some ["observed_state", "observed_state_aux"]) (del "sigma_state" m)) m
  let m := if c.k == 1 then
      put "initial_trend" none (put "initial_level" none (put "sigma_obs" none (put "sigma_state" none m)))
    else
      put "seasonal_param" (some ["observed_state", "seasonal_lag"])
        (put "initial_seasonal" (some ["observed_state", "seasonal_lag"])
          (put "phi" (some ["observed_state"]) (put "gamma" (some ["observed_state"])
            (put "beta" (some ["observed_state"]) (put "alpha" (some ["observed_state"]) m)))))
  let m := cond (!c.measurement) (del "sigma_obs") m
  cond (!c.c.seasonal) (del "seasonal_param") m

/-- `shock_names`. pymc_extras/statespace/models/ETS.py:401-407 -/
def shockNames (c : Opts) : List String :=
  if c.k = 1 then ["innovation"] else c.endog.map (fun n => n ++ "_innovation")

/-- `coords`. pymc_extras/statespace/models/ETS.py:397-399, 445-451 -/
def coords (c : Opts) : Dict (List String) :=
  upd c.c.seasonal "seasonal_lag" (labels c.c.periods)
    (defaultCoords (stateNames c.c c.endog) c.endog (shockNames c))

/-- The calls of `make_and_register_variable`, in order. pymc_extras/statespace/models/ETS.py:471-668 -/
def registered (c : Opts) : List (String × List ℕ) :=
  [("initial_level", if 1 < c.k then [c.k] else []), ("alpha", scalarOr c.k)] ++
  (if c.c.trend then [("initial_trend", if 1 < c.k then [c.k] else []), ("beta", scalarOr c.k)] else []) ++
  (if c.c.damped then [("phi", scalarOr c.k)] else []) ++
  (if c.c.seasonal then [("initial_seasonal", if c.k = 1 then [c.c.periods] else [c.k, c.c.periods]),
    ("gamma", scalarOr c.k)] else []) ++
  (if c.isDense then [("state_cov", [c.k, c.k])] else [("sigma_state", scalarOr c.k)]) ++
  (if c.measurement then [("sigma_obs", scalarOr c.k)] else []) ++
  (if c.stationary then [] else [("P0", [c.kStates, c.kStates])])

/-- Everything together. pymc_extras/statespace/models/ETS.py:289-451 -/
def «meta» (c : Opts) : Meta :=
  { names := names c, info := (names c).mapM (infoGet (shapes c) (dims c)), dims := dims c, coords := coords c,
    registered := registered c }

end Ets

end Verif.Params
