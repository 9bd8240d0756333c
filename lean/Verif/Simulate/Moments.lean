import Verif.Simulate.Props
import Verif.Kalman.OptimalLink

/-!
# Random generator of a simulated trajectory, and the moments of the draws

`_LinearGaussianStateSpace.rv_op` draws the initial state, the initial observation and all innovations from one generator. Here
the whole sequence of draws is modelled: which standard normal number of the generator's stream is used where.
-/

set_option autoImplicit false

open Matrix MeasureTheory ProbabilityTheory

namespace Verif.Simulate

open Verif.Kalman (Params)
open Verif.Kalman.Orthogonal

/-- A generator as the stream of the standard normals it will produce; its state is the number of those already used.
pymc_extras/statespace/filters/distributions.py:221 -/
def stream (z : ℕ → ℝ) : Rng ℕ := ⟨fun g i => z (g + i), fun g m => g + m⟩

/-- The generator at the start of step `t` of the scan: each step uses `r` numbers for the state innovation (`middle_rng`) and `p`
for the measurement innovation (`next_rng`), and hands `next_rng` to the following step.
pymc_extras/statespace/filters/distributions.py:247-248, 258 -/
def genAt {G : Type*} (R : Rng G) (g : G) (p r : ℕ) : ℕ → G
  | 0 => g
  | t + 1 => R.advance (R.advance (genAt R g p r t) r) p

/-- One draw of `steps` steps. `F` is the matrix factor used by the normal sampler, `θ t` slice `t` of the matrices (assumed to have
at least `steps` slices; C18 is about the other case). The initial draw and the scan both start from the generator `g`.
pymc_extras/statespace/filters/distributions.py:239-283 -/
def draw {G : Type*} {k p r : ℕ} (F : ∀ m : ℕ, Matrix (Fin m) (Fin m) ℝ → Matrix (Fin m) (Fin m) ℝ) (R : Rng G) (g : G)
    (appendX0 : Bool) (steps : ℕ) (a0 : Fin k → ℝ) (P0 : Matrix (Fin k) (Fin k) ℝ) (θ : ℕ → Params (Fin k) (Fin p) (Fin r)) :
    Option (List (List ℝ)) :=
  simulate appendX0 steps (initDraws R g a0 (F k P0) (θ 0).Z (F p (θ 0).H)).1 (mvDraw R g 0 (F p (θ 0).H)) (θ 0).Z
    ((List.range steps).map θ) fun t => firstNoise R (genAt R g p r t) (F r (θ t).Q) (F p (θ t).H)

/-- Entry `i` of the latent state in row `t` of a draw (after the split into latent and observed part).
pymc_extras/statespace/filters/distributions.py:352-358 -/
def latent (p : ℕ) (rows : Option (List (List ℝ))) (t i : ℕ) : ℝ := (((splitRows p (rows.getD [])).1.getD t []).getD i 0)

/-- Entry `i` of the observation in row `t` of a draw.
pymc_extras/statespace/filters/distributions.py:352-358 -/
def observed (p : ℕ) (rows : Option (List (List ℝ))) (t i : ℕ) : ℝ := (((splitRows p (rows.getD [])).2.getD t []).getD i 0)

/-! ### Lemmas -/

variable {k p r : ℕ} (F : ∀ m : ℕ, Matrix (Fin m) (Fin m) ℝ → Matrix (Fin m) (Fin m) ℝ)
variable (a0 : Fin k → ℝ) (P0 : Matrix (Fin k) (Fin k) ℝ) (θ : ℕ → Params (Fin k) (Fin p) (Fin r))

theorem genAt_stream (z : ℕ → ℝ) (g t : ℕ) : genAt (stream z) g p r t = g + t * (r + p) := by
  induction t with
  | zero => simp [genAt]
  | succ t ih =>
    simp only [genAt, ih]
    simp only [stream]; ring

/-- The latent path as a function of the stream. Proof notion: distributions.py:239-258 in closed form. -/
def pathX (z : ℕ → ℝ) : ℕ → Fin k → ℝ
  | 0 => a0 + F k P0 *ᵥ fun i : Fin k => z i
  | t + 1 => (θ t).c + (θ t).T *ᵥ pathX z t + (θ t).R *ᵥ (F r (θ t).Q *ᵥ fun i : Fin r => z (t * (r + p) + i))

/-- The observed path after the first row. Proof notion: distributions.py:239-258 in closed form. -/
def pathY (z : ℕ → ℝ) (t : ℕ) : Fin p → ℝ :=
  (θ t).d + (θ t).Z *ᵥ pathX F a0 P0 θ z (t + 1) + F p (θ t).H *ᵥ fun i : Fin p => z (t * (r + p) + r + i)

/-- Observation in row `t` of a draw with the initial row kept. Proof notion: distributions.py:260-283 in closed form. -/
def pathYAll (z : ℕ → ℝ) : ℕ → Fin p → ℝ
  | 0 => (θ 0).Z *ᵥ pathX F a0 P0 θ z 0 + F p (θ 0).H *ᵥ fun i : Fin p => z i
  | t + 1 => pathY F a0 P0 θ z t

theorem draw_path (z : ℕ → ℝ) (b : Bool) (steps : ℕ) (hp : p ≠ 0) :
    ∃ rows, draw F (stream z) 0 b steps a0 P0 θ = some rows ∧
      splitRows p rows =
        (((List.range (steps + 1)).drop (if b then 0 else 1)).map fun t => List.ofFn (pathX F a0 P0 θ z t),
         ((List.range (steps + 1)).drop (if b then 0 else 1)).map fun t => List.ofFn (pathYAll F a0 P0 θ z t)) := by
  obtain ⟨rows, hr⟩ := (C18_draw_exists_iff b steps (initDraws (stream z) 0 a0 (F k P0) (θ 0).Z (F p (θ 0).H)).1
    (mvDraw (stream z) 0 0 (F p (θ 0).H)) (θ 0).Z ((List.range steps).map θ)
    (fun t => firstNoise (stream z) (genAt (stream z) 0 p r t) (F r (θ t).Q) (F p (θ t).H))).mpr (by simp)
  refine ⟨rows, hr, ?_⟩
  obtain ⟨x, y, hx, hy, ho, hs⟩ := C17_draw_obeys b steps _ _ _ _ _ rows hr hp θ (fun t h => by simp)
  have hxt : ∀ t, t ≤ steps → x t = pathX F a0 P0 θ z t := by
    intro t
    induction t with
    | zero => intro _; rw [hx]; simp [initDraws, mvDraw, stream, pathX]
    | succ t ih =>
      intro ht
      rw [(ho t (by omega)).1, ih (by omega)]
      simp only [pathX, firstNoise, mvDraw, genAt_stream]
      simp [stream]
  have hyt : ∀ t, t ≤ steps → y t = pathYAll F a0 P0 θ z t := by
    intro t ht
    cases t with
    | zero =>
      rw [hy]
      have := hxt 0 (by omega)
      simp [initDraws, mvDraw, stream, pathYAll, ← this, hx]
    | succ t =>
      rw [(ho t (by omega)).2, hxt (t + 1) ht]
      simp only [pathYAll, pathY, firstNoise, mvDraw, genAt_stream]
      simp [stream]
  rw [hs]
  have hmem : ∀ t ∈ (List.range (steps + 1)).drop (if b then 0 else 1), t ≤ steps := by
    intro t ht
    have := List.mem_of_mem_drop ht
    simp at this; omega
  congr 1
  · exact List.map_congr_left fun t ht => by rw [hxt t (hmem t ht)]
  · exact List.map_congr_left fun t ht => by rw [hyt t (hmem t ht)]

theorem getD_range_map {α : Type*} (f : ℕ → α) (d : α) (n t m : ℕ) (h : t + m < n) :
    (((List.range n).drop m).map f).getD t d = f (t + m) := by
  rw [List.getD_eq_getElem?_getD, List.getElem?_map, List.getElem?_drop, List.getElem?_range (by omega)]
  simp [add_comm]

theorem getD_ofFn {m : ℕ} (f : Fin m → ℝ) (i : Fin m) : (List.ofFn f).getD i 0 = f i := by
  rw [List.getD_eq_getElem?_getD]
  simp

theorem latent_eq (z : ℕ → ℝ) (steps t : ℕ) (ht : t ≤ steps) (hp : p ≠ 0) (i : Fin k) :
    latent p (draw F (stream z) 0 true steps a0 P0 θ) t i = pathX F a0 P0 θ z t i := by
  obtain ⟨rows, h1, h2⟩ := draw_path F a0 P0 θ z true steps hp
  simp only [latent, h1, Option.getD_some, h2, if_true]
  rw [getD_range_map _ _ _ _ _ (by omega), getD_ofFn, add_zero]

theorem observed_eq (z : ℕ → ℝ) (steps t : ℕ) (ht : t ≤ steps) (hp : p ≠ 0) (i : Fin p) :
    observed p (draw F (stream z) 0 true steps a0 P0 θ) t i = pathYAll F a0 P0 θ z t i := by
  obtain ⟨rows, h1, h2⟩ := draw_path F a0 P0 θ z true steps hp
  simp only [observed, h1, Option.getD_some, h2, if_true]
  rw [getD_range_map _ _ _ _ _ (by omega), getD_ofFn, add_zero]

theorem latent_eq_forecast (z : ℕ → ℝ) (steps t : ℕ) (ht : t < steps) (hp : p ≠ 0) (i : Fin k) :
    latent p (draw F (stream z) 0 false steps a0 P0 θ) t i = pathX F a0 P0 θ z (t + 1) i := by
  obtain ⟨rows, h1, h2⟩ := draw_path F a0 P0 θ z false steps hp
  simp only [latent, h1, Option.getD_some, h2]
  rw [if_neg (by simp), getD_range_map _ _ _ _ _ (by omega), getD_ofFn]

theorem observed_eq_forecast (z : ℕ → ℝ) (steps t : ℕ) (ht : t < steps) (hp : p ≠ 0) (i : Fin p) :
    observed p (draw F (stream z) 0 false steps a0 P0 θ) t i = pathY F a0 P0 θ z t i := by
  obtain ⟨rows, h1, h2⟩ := draw_path F a0 P0 θ z false steps hp
  simp only [observed, h1, Option.getD_some, h2]
  rw [if_neg (by simp), getD_range_map _ _ _ _ _ (by omega), getD_ofFn]
  rfl

end Verif.Simulate
