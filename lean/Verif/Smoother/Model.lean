import Verif.Kalman.Model

/-!
# Kalman smoother: translation of `statespace/filters/kalman_smoother.py`

`pt.linalg.pinv` is the Moore–Penrose inverse; it is modelled by choosing a matrix satisfying the four Penrose equations
(it exists for the symmetric matrices the code applies it to, see `Verif.Smoother.Lemmas`).
-/

open Matrix

namespace Verif.Smoother

open Verif.Kalman

variable {n r : Type*} [Fintype n] [Fintype r] [DecidableEq n] [DecidableEq r]

/-- The four Penrose equations: the contract of `pt.linalg.pinv`.
pymc_extras/statespace/filters/kalman_smoother.py:112 -/
structure Penrose (A B : Matrix n n ℝ) : Prop where
  aba : A * B * A = A
  bab : B * A * B = B
  abt : (A * B)ᵀ = A * B
  bat : (B * A)ᵀ = B * A

open Classical in
/-- `pt.linalg.pinv`. pymc_extras/statespace/filters/kalman_smoother.py:112 -/
noncomputable def pinv (A : Matrix n n ℝ) : Matrix n n ℝ :=
  if h : ∃ B, Penrose A B then h.choose else 0

/-- The three matrices the smoother receives at one step. kalman_smoother.py:66-67 -/
structure Params (n r : Type*) where
  T : Matrix n n ℝ
  R : Matrix n r ℝ
  Q : Matrix r r ℝ

/-- `KalmanSmoother.predict`. pymc_extras/statespace/filters/kalman_smoother.py:121-126 -/
noncomputable def predict (jitter : ℝ) (a : n → ℝ) (P : Matrix n n ℝ) (θ : Params n r) : (n → ℝ) × Matrix n n ℝ :=
  (θ.T *ᵥ a, stabilize jitter (quadFormSym θ.T P + quadFormSym θ.R θ.Q))

/-- `smoother_gain = matrix_dot(pinv(P_hat), T, P).T`.
pymc_extras/statespace/filters/kalman_smoother.py:112 -/
noncomputable def gain (PHat P : Matrix n n ℝ) (T : Matrix n n ℝ) : Matrix n n ℝ := (pinv PHat * T * P)ᵀ

/-- `KalmanSmoother.smoother_step` with arguments in standard order (`unpack_args` is modelled in `Verif.Kalman.Args`).
`jitter` is `self.cov_jitter`; `defJitter` is `JITTER_DEFAULT`, added a second time by `stabilize(P_smooth_next)`.
pymc_extras/statespace/filters/kalman_smoother.py:107-119 -/
noncomputable def step (jitter defJitter : ℝ) (a : n → ℝ) (P : Matrix n n ℝ) (aS : n → ℝ) (PS : Matrix n n ℝ)
    (θ : Params n r) : (n → ℝ) × Matrix n n ℝ :=
  let hat := predict jitter a P θ
  let G := gain hat.2 P θ.T
  (a + G *ᵥ (aS - hat.1),
   stabilize defJitter (stabilize jitter (P + quadFormSym G (PS - hat.2))))

/-- The scan: `outputs_info` are carried, one output per element of the (already reversed and truncated) sequences.
pymc_extras/statespace/filters/kalman_smoother.py:84-92 -/
noncomputable def scan (jitter defJitter : ℝ) : (n → ℝ) × Matrix n n ℝ →
    List (((n → ℝ) × Matrix n n ℝ) × Params n r) → List ((n → ℝ) × Matrix n n ℝ)
  | _, [] => []
  | s, (f, θ) :: rest =>
    let o := step jitter defJitter f.1 f.2 s.1 s.2 θ
    o :: scan jitter defJitter o rest

/-- `KalmanSmoother.build_graph`. `filtered` pairs the filtered states with their covariances; `θs` are the
time-varying matrices (a static one is the constant list). `go_backwards=True` reverses every sequence, then scan
truncates them to the shortest (`List.zip`). `filtered[-1]` of an empty array is an error (`none`).
pymc_extras/statespace/filters/kalman_smoother.py:66-105 -/
noncomputable def buildGraph (jitter defJitter : ℝ) (filtered : List ((n → ℝ) × Matrix n n ℝ))
    (θs : List (Params n r)) : Option (List ((n → ℝ) × Matrix n n ℝ)) :=
  match filtered.getLast? with
  | none => none
  | some last =>
    some ((scan jitter defJitter last (filtered.dropLast.reverse.zip θs.reverse)).reverse ++ [last])

end Verif.Smoother
