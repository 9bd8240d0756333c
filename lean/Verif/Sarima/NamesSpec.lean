import Verif.Sarima.Model

/-!
# Specification of the state names of a SARIMAX model (C202)

Independent of the code: which text should label the state at a given position.
-/

set_option autoImplicit false

namespace Verif.Sarima

/-- The text for `r` lags: nothing for none. -/
def Spec.lagText (r : ℕ) : String := if r = 0 then "" else "L" ++ toString r

/-- The text for differencing `k` times with step `s`, given how the exponent `k` is written: nothing for no differencing. -/
def Spec.diffText (power : ℕ → String) (s k : ℕ) : String := if k = 0 then "" else "D" ++ toString s ++ power k

/-- The documented exponent: "Dk^1 is thus just Dk". -/
def Spec.power (k : ℕ) : String := if k = 1 then "" else "^" ++ toString k

/-- The exponent as it is really written: if its decimal text starts with the digit one, that digit and the `^` are gone. -/
def Spec.shortPower (k : ℕ) : String :=
  match (toString k).toList with
  | '1' :: r => String.ofList r
  | _ => "^" ++ toString k

/-- The label of the data, differenced `i` times with step one and `j` times with step `S`, `r` lags ago. -/
def Spec.label (power : ℕ → String) (S r i j : ℕ) : String :=
  if r = 0 ∧ i = 0 ∧ j = 0 then "data"
  else Spec.lagText r ++ Spec.diffText power 1 i ++ Spec.diffText power S j ++ ".data"

/-- The name of the state at position `m`: first the data and its differences of order below `d`, then for every order of
seasonal differencing the differenced data with `0, 1, ..., S - 1` lags, then the fully differenced data, then the
remaining states of its dynamics. -/
def Spec.name (power : ℕ → String) (o : Order) (m : ℕ) : String :=
  if m < o.d then Spec.label power o.S 0 m 0
  else if m < o.d + o.S * o.D then Spec.label power o.S ((m - o.d) % o.S) o.d ((m - o.d) / o.S)
  else if m = o.d + o.S * o.D then (if o.d + o.D = 0 then "data" else "data_star")
  else if o.d + o.D = 0 then "state_" ++ toString (m - (o.d + o.S * o.D))
  else "state_star_" ++ toString (m - (o.d + o.S * o.D))

end Verif.Sarima
