import Verif.Kalman.UnivariateProps
import Verif.Kalman.MissingLimitProps
import Mathlib.LinearAlgebra.Span.Basic

/-!
# The univariate filter, replayed on random data

Model of a whole run of the univariate filter, and the algebra behind its optimality.  One scalar observation at a time; neither
the observation covariance nor the measurement noise has to be invertible.
-/

set_option autoImplicit false
set_option linter.unusedSectionVars false

open Matrix

namespace Verif.Kalman

open Orthogonal

variable {n r : Type*} [Fintype n] [Fintype r] [DecidableEq n] [DecidableEq r] {k : ℕ}

/-- `pytensor.scan(self.kalman_step, …)` for the univariate filter with constant matrices (with time-varying ones the step
receives its arguments in the wrong order, C10). `none` is the `IndexError` of a row without series.
pymc_extras/statespace/filters/kalman_filter.py:225-233, 791-820 -/
noncomputable def univRows (j : ℝ) (θ : Params n (Fin k) r) :
    (n → ℝ) → Matrix n n ℝ → List (Row (Fin k)) → Option (List (UnivOut n))
  | _, _, [] => some []
  | a, P, y :: rest => (univStep j y a P θ).bind fun o => (univRows j θ o.aHat o.PHat rest).map (o :: ·)

/-- The arrays handed to the user (the scalar observation forecasts, C74, are left out).
pymc_extras/statespace/filters/kalman_filter.py:240-308, 791-820 -/
structure UnivGraph (n : Type*) where
  filteredStates : List (n → ℝ)
  predictedStates : List (n → ℝ)
  filteredCovs : List (Matrix n n ℝ)
  predictedCovs : List (Matrix n n ℝ)
  loglike : List ℝ

/-- `BaseFilter.build_graph` and `_postprocess_scan_results` for the univariate filter; the `specify_shape` assertions are
not modelled.
pymc_extras/statespace/filters/kalman_filter.py:144-308 -/
noncomputable def univGraph (j : ℝ) (a0 : n → ℝ) (P0 : Matrix n n ℝ) (θ : Params n (Fin k) r) (ys : List (Row (Fin k))) :
    Option (UnivGraph n) :=
  (univRows j θ a0 P0 ys).map fun rs =>
    { filteredStates := rs.map UnivOut.aFilt
      predictedStates := a0 :: (rs.map UnivOut.aHat).dropLast
      filteredCovs := rs.map UnivOut.PFilt
      predictedCovs := P0 :: (rs.map UnivOut.PHat).dropLast
      loglike := rs.map UnivOut.ll }

/-- The variance of one series' forecast error. pymc_extras/statespace/filters/kalman_filter.py:769-789 -/
noncomputable def scalarF (x : Series n) (P : Matrix n n ℝ) : ℝ := x.z ⬝ᵥ (P *ᵥ x.z) + x.s

open Classical in
/-- The gain of one series, jitter zero. pymc_extras/statespace/filters/kalman_filter.py:769-789 -/
noncomputable def scalarK (x : Series n) (P : Matrix n n ℝ) : n → ℝ :=
  if scalarF x P = 0 ∨ x.nan then 0 else (1 / scalarF x P) • (P *ᵥ x.z)

open Classical in
theorem univInner_eq (x : Series n) (a : n → ℝ) (P : Matrix n n ℝ) :
    (univInner 0 x a P).a = a + (x.y - (x.z ⬝ᵥ a + x.d)) • scalarK x P ∧
      (univInner 0 x a P).P = P - scalarF x P • vecMulVec (scalarK x P) (scalarK x P) := by
  have hK : (if (x.z ⬝ᵥ (P *ᵥ x.z) + x.s = 0 ∨ x.nan) then (0 : ℝ) else 1) •
      ((1 / (x.z ⬝ᵥ (P *ᵥ x.z) + x.s + 0)) • (P *ᵥ x.z)) = scalarK x P := by
    rw [add_zero]
    by_cases hc : x.z ⬝ᵥ (P *ᵥ x.z) + x.s = 0 ∨ x.nan
    · have e : scalarK x P = 0 := if_pos hc
      rw [if_pos hc, zero_smul, e]
    · have e : scalarK x P = (1 / scalarF x P) • (P *ᵥ x.z) := if_neg hc
      rw [if_neg hc, one_smul, e, scalarF]
  constructor
  · simp only [univInner]
    rw [← hK]
  · simp only [univInner]
    rw [← hK, scalarF, add_zero]

variable {W : Type*} [AddCommGroup W] [Module ℝ W]

/-- One series of one row, on random data.
Proof notion: the code at kalman_filter.py:769-789 with random variables for data. -/
noncomputable def wInner (one : W) (x : Series n) (y : W) (a : n → W) (P : Matrix n n ℝ) : n → W :=
  fun i => a i + scalarK x P i • (y - (∑ j, x.z j • a j) - x.d • one)

/-- The covariance after one series. Proof notion: kalman_filter.py:769-789. -/
noncomputable def wCov (x : Series n) (P : Matrix n n ℝ) : Matrix n n ℝ :=
  P - scalarF x P • vecMulVec (scalarK x P) (scalarK x P)

/-- The first `m` series of one row, on random data.
Proof notion: the code at kalman_filter.py:799-805 with random variables for data. -/
noncomputable def wRow (one : W) (xs : Fin k → Series n) (y : Fin k → W) (a : n → W) (P : Matrix n n ℝ) :
    ℕ → (n → W) × Matrix n n ℝ
  | 0 => (a, P)
  | m + 1 => if h : m < k then
      (wInner one (xs ⟨m, h⟩) (y ⟨m, h⟩) (wRow one xs y a P m).1 (wRow one xs y a P m).2,
        wCov (xs ⟨m, h⟩) (wRow one xs y a P m).2)
    else wRow one xs y a P m

theorem univFinal_append (j : ℝ) (xs : List (Series n)) (x : Series n) : ∀ (a : n → ℝ) (P : Matrix n n ℝ),
    univFinal j a P (xs ++ [x]) = ((univInner j x (univFinal j a P xs).1 (univFinal j a P xs).2).a,
      (univInner j x (univFinal j a P xs).1 (univFinal j a P xs).2).P) := by
  induction xs with
  | nil => intros; rfl
  | cons x' xs ih => intro a P; simp only [List.cons_append, univFinal, ih]

/-- Evaluating the replay gives the program. -/
theorem wRow_eval (L : W →ₗ[ℝ] ℝ) (one : W) (h1 : L one = 1) (xs : Fin k → Series n) (y : Fin k → W) (a : n → W)
    (P : Matrix n n ℝ) (m : ℕ) (hm : m ≤ k) :
    (((fun i => L ((wRow one xs y a P m).1 i)), (wRow one xs y a P m).2) : (n → ℝ) × Matrix n n ℝ) =
      univFinal 0 (fun i => L (a i)) P ((List.ofFn fun i => { xs i with y := L (y i) }).take m) := by
  induction m with
  | zero => simp [wRow, univFinal]
  | succ m ih =>
    have hlt : m < k := by omega
    have ih := ih (by omega)
    have htake : (List.ofFn fun i => ({ xs i with y := L (y i) } : Series n)).take (m + 1) =
        (List.ofFn fun i => ({ xs i with y := L (y i) } : Series n)).take m ++ [{ xs ⟨m, hlt⟩ with y := L (y ⟨m, hlt⟩) }] := by
      rw [List.take_add_one]
      simp [hlt]
    rw [htake, univFinal_append, ← ih]
    obtain ⟨e1, e2⟩ := univInner_eq ({ xs ⟨m, hlt⟩ with y := L (y ⟨m, hlt⟩) } : Series n)
      (fun i => L ((wRow one xs y a P m).1 i)) (wRow one xs y a P m).2
    rw [e1, e2]
    simp only [wRow, dif_pos hlt, wInner, wCov]
    refine Prod.ext ?_ rfl
    funext i
    have hd : (∑ j, (xs ⟨m, hlt⟩).z j * L ((wRow one xs y a P m).1 j)) =
        (xs ⟨m, hlt⟩).z ⬝ᵥ fun i => L ((wRow one xs y a P m).1 i) := rfl
    simp only [map_add, map_smul, map_sub, map_sum, h1, smul_eq_mul, Pi.add_apply, Pi.smul_apply, mul_one, hd]
    rw [show scalarK ({ xs ⟨m, hlt⟩ with y := L (y ⟨m, hlt⟩) } : Series n) (wRow one xs y a P m).2 =
      scalarK (xs ⟨m, hlt⟩) (wRow one xs y a P m).2 from rfl]
    ring

/-! ### One scalar observation -/

theorem null_of_self_zero (B : W →ₗ[ℝ] W →ₗ[ℝ] ℝ) (sym : ∀ x y, B x y = B y x) (hpos : ∀ w, 0 ≤ B w w) {v : W}
    (hv : B v v = 0) (w : W) : B w v = 0 := by
  by_contra hne
  set b := B w v with hb
  have hb' : B v w = b := by rw [sym]
  have hq := hpos (w - ((B w w + 1) / b) • v)
  have e : B (w - ((B w w + 1) / b) • v) (w - ((B w w + 1) / b) • v) = B w w - 2 * (B w w + 1) := by
    simp only [map_sub, map_smul, LinearMap.sub_apply, LinearMap.smul_apply, smul_eq_mul, hv, hb', ← hb]
    field_simp
    ring
  rw [e] at hq
  have := hpos w
  linarith

section step

variable {B : W →ₗ[ℝ] W →ₗ[ℝ] ℝ} {one : W} {θ : Params n (Fin k) r} {P0 : Matrix n n ℝ} {X : ℕ → n → W}
  {Y : ℕ → Fin k → W} {η : ℕ → r → W} {ε : ℕ → Fin k → W}

/-- Entry `j` of date `s` has been read when the first `m` series of date `t` have been processed.
Proof notion, no code behind it. -/
def Read (o : ℕ → Fin k → Prop) (t m s : ℕ) (j : Fin k) : Prop := o s j ∧ (s < t ∨ s = t ∧ j.val < m)

/-- What is known after `m` series of date `t`. Proof notion, no code behind it. -/
structure Inv (B : W →ₗ[ℝ] W →ₗ[ℝ] ℝ) (E : W →ₗ[ℝ] ℝ) (one : W) (X : ℕ → n → W) (Y : ℕ → Fin k → W) (η : ℕ → r → W)
    (ε : ℕ → Fin k → W) (o : ℕ → Fin k → Prop) (t m : ℕ) (a : n → W) (P : Matrix n n ℝ) : Prop where
  cov : ∀ i l, B (X t i - a i) (X t l - a l) = P i l
  past : ∀ s j, Read o t m s j → ∀ i, B (X t i - a i) (Y s j) = 0
  noiseη : ∀ s, t ≤ s → ∀ i l, B (X t i - a i) (η s l) = 0
  noiseε : ∀ s j, (t < s ∨ s = t ∧ m ≤ j.val) → ∀ i, B (X t i - a i) (ε s j) = 0
  span : ∀ i, a i ∈ Submodule.span ℝ ({one} ∪ {w | ∃ s j, Read o t m s j ∧ w = Y s j})
  mean : ∀ i, E (X t i - a i) = 0

open Classical in
/-- The inner sequences at date `t`, without the data. Proof notion: kalman_filter.py:792-801. -/
noncomputable def serAt (θ : Params n (Fin k) r) (o : ℕ → Fin k → Prop) (t : ℕ) (i : Fin k) : Series n where
  y := 0
  z := if o t i then θ.Z i else 0
  d := θ.d i
  s := if o t i then θ.H i i else 0
  nan := ¬ o t i

theorem Inv.predOrth {E : W →ₗ[ℝ] ℝ} {o : ℕ → Fin k → Prop} {t m : ℕ} {a : n → W} {P : Matrix n n ℝ}
    (one0 : ∀ w, B w one = 0) (k : Inv B E one X Y η ε o t m a P) (u : W)
    (hu : ∀ s j, Read o t m s j → B u (Y s j) = 0) (i : n) : B u (a i) = 0 := by
  refine Submodule.span_induction (p := fun w _ => B u w = 0) ?_ (by simp) ?_ ?_ (k.span i)
  · rintro w (rfl | ⟨s, j, hr, rfl⟩)
    · exact one0 u
    · exact hu s j hr
  · intro x y _ _ hx hy; simp [hx, hy]
  · intro c x _ hx; simp [hx]

/-- Mean and variance of the forecast error of one series. -/
theorem Inv.innov {E : W →ₗ[ℝ] ℝ} {o : ℕ → Fin k → Prop} {t m : ℕ} {a : n → W} {P : Matrix n n ℝ}
    (h : Proc B one (fun _ => θ) P0 X Y η ε) (hE : ∀ t i, E (ε t i) = 0) (hm : m < k)
    (hi : Inv B E one X Y η ε o t m a P) (ho : o t ⟨m, hm⟩) :
    let x := serAt θ o t ⟨m, hm⟩
    let v : W := Y t ⟨m, hm⟩ - (∑ j, x.z j • a j) - x.d • one
    B v v = scalarF x P ∧ E v = 0 := by
  classical
  intro x v
  have hz : x.z = θ.Z ⟨m, hm⟩ := by simp [x, serAt, ho]
  have hs' : x.s = θ.H ⟨m, hm⟩ ⟨m, hm⟩ := by simp [x, serAt, ho]
  have hd' : x.d = θ.d ⟨m, hm⟩ := rfl
  set e : n → W := fun i => X t i - a i with he
  have hve : v = (∑ j, x.z j • e j) + ε t ⟨m, hm⟩ := by
    have ho := congrFun (h.obs t) ⟨m, hm⟩
    simp only [v]
    rw [ho, hz, hd']
    simp only [Pi.add_apply, act, const, he, smul_sub, Finset.sum_sub_distrib]
    abel
  have hez : ∀ i, B (e i) (ε t ⟨m, hm⟩) = 0 := fun i => hi.noiseε t ⟨m, hm⟩ (Or.inr ⟨rfl, le_rfl⟩) i
  have hev : ∀ i, B (e i) v = (P *ᵥ x.z) i := by
    intro i
    rw [hve]
    simp only [map_add, map_sum, map_smul, hez, add_zero, smul_eq_mul, mulVec, dotProduct]
    exact Finset.sum_congr rfl fun j _ => by rw [show B (e i) (e j) = P i j from hi.cov i j, mul_comm]
  refine ⟨?_, ?_⟩
  · have h1 : ∀ i, B (ε t ⟨m, hm⟩) (e i) = 0 := fun i => by rw [h.sym]; exact hez i
    have h2 : B (ε t ⟨m, hm⟩) v = θ.H ⟨m, hm⟩ ⟨m, hm⟩ := by
      rw [hve]
      simp only [map_add, map_sum, map_smul, h1, smul_zero, Finset.sum_const_zero, zero_add]
      exact congrFun (congrFun (h.εε t) ⟨m, hm⟩) ⟨m, hm⟩
    have h3 : B v v = B ((∑ j, x.z j • e j) + ε t ⟨m, hm⟩) v := by rw [← hve]
    rw [h3, map_add, LinearMap.add_apply, h2, scalarF, hs']
    congr 1
    simp only [map_sum, map_smul, LinearMap.sum_apply, LinearMap.smul_apply, smul_eq_mul, hev, dotProduct]
  · have e1 : ∀ j, E (e j) = 0 := hi.mean
    rw [hve]
    simp [e1, hE]

/-- Reading one series. -/
theorem Inv.step {E : W →ₗ[ℝ] ℝ} {o : ℕ → Fin k → Prop} {t m : ℕ} {a : n → W} {P : Matrix n n ℝ}
    (h : Proc B one (fun _ => θ) P0 X Y η ε) (hpos : ∀ w, 0 ≤ B w w) (hdiag : ∀ i j, i ≠ j → θ.H i j = 0)
    (hE : ∀ t i, E (ε t i) = 0) (hm : m < k) (hi : Inv B E one X Y η ε o t m a P) (y : W) (hy : o t ⟨m, hm⟩ → y = Y t ⟨m, hm⟩) :
    Inv B E one X Y η ε o t (m + 1) (wInner one (serAt θ o t ⟨m, hm⟩) y a P) (wCov (serAt θ o t ⟨m, hm⟩) P) := by
  classical
  have hread : ∀ s j, Read o t (m + 1) s j → Read o t m s j ∨ (s = t ∧ j = ⟨m, hm⟩ ∧ o t ⟨m, hm⟩) := by
    rintro s j ⟨h1, h2⟩
    by_cases hc : s = t ∧ j = ⟨m, hm⟩
    · obtain ⟨rfl, rfl⟩ := hc; exact Or.inr ⟨rfl, rfl, h1⟩
    · refine Or.inl ⟨h1, ?_⟩
      rcases h2 with h2 | ⟨rfl, h2⟩
      · exact Or.inl h2
      · refine Or.inr ⟨rfl, ?_⟩
        have : j.val ≠ m := fun e => hc ⟨rfl, Fin.ext e⟩
        omega
  have hmono : ∀ s j, Read o t m s j → Read o t (m + 1) s j := by
    rintro s j ⟨h1, h2⟩
    exact ⟨h1, h2.imp_right fun h => ⟨h.1, by omega⟩⟩
  have hspan : ∀ i, a i ∈ Submodule.span ℝ ({one} ∪ {w | ∃ s j, Read o t (m + 1) s j ∧ w = Y s j}) := fun i =>
    Submodule.span_mono (Set.union_subset_union_right _ (by rintro w ⟨s, j, hr, hw⟩; exact ⟨s, j, hmono s j hr, hw⟩)) (hi.span i)
  by_cases ho : o t ⟨m, hm⟩
  swap
  · -- not recorded: nothing changes
    have hK : scalarK (serAt θ o t ⟨m, hm⟩) P = 0 := by
      simp only [scalarK]; rw [if_pos (show _ ∨ (serAt θ o t ⟨m, hm⟩).nan from Or.inr ho)]
    have ha : wInner one (serAt θ o t ⟨m, hm⟩) y a P = a := by funext i; simp [wInner, hK]
    have hP : wCov (serAt θ o t ⟨m, hm⟩) P = P := by simp [wCov, hK]
    rw [ha, hP]
    refine ⟨hi.cov, fun s j hr i => ?_, hi.noiseη, fun s j hs i => hi.noiseε s j (hs.imp_right fun h => ⟨h.1, by omega⟩) i, hspan,
      hi.mean⟩
    rcases hread s j hr with hr | ⟨-, -, h⟩
    · exact hi.past s j hr i
    · exact absurd h ho
  · -- recorded
    rw [hy ho]
    set x := serAt θ o t ⟨m, hm⟩ with hx
    have hz : x.z = θ.Z ⟨m, hm⟩ := by simp [hx, serAt, ho]
    have hs' : x.s = θ.H ⟨m, hm⟩ ⟨m, hm⟩ := by simp [hx, serAt, ho]
    have hd' : x.d = θ.d ⟨m, hm⟩ := rfl
    have hnan : ¬ x.nan := by simpa [hx, serAt] using ho
    set e : n → W := fun i => X t i - a i with he
    set v : W := Y t ⟨m, hm⟩ - (∑ j, x.z j • a j) - x.d • one with hv
    have hve : v = (∑ j, x.z j • e j) + ε t ⟨m, hm⟩ := by
      have ho := congrFun (h.obs t) ⟨m, hm⟩
      rw [hv, ho, hz, hd']
      simp only [Pi.add_apply, act, const, he, smul_sub, Finset.sum_sub_distrib]
      abel
    have hez : ∀ i, B (e i) (ε t ⟨m, hm⟩) = 0 := fun i => hi.noiseε t ⟨m, hm⟩ (Or.inr ⟨rfl, le_rfl⟩) i
    have hev : ∀ i, B (e i) v = (P *ᵥ x.z) i := by
      intro i
      rw [hve]
      simp only [map_add, map_sum, map_smul, hez, add_zero, smul_eq_mul, mulVec, dotProduct]
      exact Finset.sum_congr rfl fun j _ => by rw [show B (e i) (e j) = P i j from hi.cov i j, mul_comm]
    have hvv : B v v = scalarF x P := (hi.innov h hE hm ho).1
    have hF0 : scalarF x P = 0 → ∀ w, B w v = 0 := fun h0 w => null_of_self_zero B h.sym hpos (hvv.trans h0) w
    set K := scalarK x P with hK
    have hKv : ∀ i, B (e i) v = K i * scalarF x P := by
      intro i
      by_cases h0 : scalarF x P = 0
      · rw [hF0 h0, h0, mul_zero]
      · rw [hev, hK, scalarK, if_neg (by tauto)]
        simp only [Pi.smul_apply, smul_eq_mul]
        field_simp
    have hnew : ∀ i, X t i - wInner one x (Y t ⟨m, hm⟩) a P i = e i - K i • v := by
      intro i
      simp only [wInner, he]
      rw [← hv, ← hK]
      abel
    have hev' : ∀ i, B (e i - K i • v) v = 0 := by
      intro i
      simp only [map_sub, map_smul, LinearMap.sub_apply, LinearMap.smul_apply, smul_eq_mul, hKv, hvv, sub_self]
    -- the error is uncorrelated with everything read before
    have hpastv : ∀ s j, Read o t m s j → B v (Y s j) = 0 := by
      intro s j hr
      rw [hve]
      simp only [map_add, map_sum, map_smul, LinearMap.add_apply, LinearMap.sum_apply, LinearMap.smul_apply, smul_eq_mul,
        fun i => hi.past s j hr i, mul_zero, Finset.sum_const_zero, zero_add, he]
      rw [h.sym]
      rcases hr.2 with hlt | ⟨rfl, hjm⟩
      · exact congrFun (congrFun (h.yLaterε s t hlt) j) ⟨m, hm⟩
      · have ho := congrFun (h.obs s) j
        have hne : j ≠ ⟨m, hm⟩ := by rintro rfl; simp at hjm
        have e1 : B (ε s j) (ε s ⟨m, hm⟩) = 0 := by
          have := congrFun (congrFun (h.εε s) j) ⟨m, hm⟩
          rw [show B (ε s j) (ε s ⟨m, hm⟩) = θ.H j ⟨m, hm⟩ from this, hdiag _ _ hne]
        have e2 : ∀ l, B (X s l) (ε s ⟨m, hm⟩) = 0 := fun l => congrFun (congrFun (h.xLater s s le_rfl).2 l) ⟨m, hm⟩
        rw [ho]
        simp [act, const, e1, e2, h.one0]
    have hpast' : ∀ s j, Read o t m s j → ∀ i, B (e i - K i • v) (Y s j) = 0 := by
      intro s j hr i
      simp only [map_sub, map_smul, LinearMap.sub_apply, LinearMap.smul_apply, smul_eq_mul, hpastv s j hr, mul_zero, sub_zero]
      exact hi.past s j hr i
    refine ⟨fun i l => ?_, fun s j hr i => ?_, fun s hs i l => ?_, fun s j hs i => ?_, fun i => ?_, fun i => ?_⟩
    · rw [hnew, hnew]
      have e1 : B (e i - K i • v) (e l - K l • v) = B (e i - K i • v) (e l) := by
        rw [map_sub (B (e i - K i • v)), map_smul, hev', smul_zero, sub_zero]
      rw [e1]
      have e2 : B v (e l) = K l * scalarF x P := by rw [h.sym, hKv]
      simp only [map_sub, map_smul, LinearMap.sub_apply, LinearMap.smul_apply, smul_eq_mul, e2, wCov, Matrix.sub_apply,
        Matrix.smul_apply, vecMulVec_apply, ← hK]
      rw [show B (e i) (e l) = P i l from hi.cov i l]
      ring
    · rw [hnew]
      rcases hread s j hr with hr | ⟨rfl, rfl, -⟩
      · exact hpast' s j hr i
      · have hY : Y s ⟨m, hm⟩ = v + (∑ j, x.z j • a j) + x.d • one := by rw [hv]; abel
        have ha0 : ∀ j, B (e i - K i • v) (a j) = 0 := fun j => hi.predOrth h.one0' _ (fun s' j' hr' => hpast' s' j' hr' i) j
        rw [hY]
        simp only [map_add, map_sum, map_smul, hev', ha0, h.one0', smul_zero, Finset.sum_const_zero, add_zero]
    · rw [hnew]
      have e1 : B v (η s l) = 0 := by
        rw [hve]
        have e2 : ∀ j, B (e j) (η s l) = 0 := fun j => hi.noiseη s hs j l
        have e3 : B (ε t ⟨m, hm⟩) (η s l) = 0 := congrFun (congrFun (h.εη0 t s) ⟨m, hm⟩) l
        simp [e2, e3]
      have e2 : B (e i) (η s l) = 0 := hi.noiseη s hs i l
      simp [e1, e2]
    · rw [hnew]
      have e2 : ∀ i, B (e i) (ε s j) = 0 := fun i => hi.noiseε s j (hs.imp_right fun h => ⟨h.1, by omega⟩) i
      have e3 : B (ε t ⟨m, hm⟩) (ε s j) = 0 := by
        rcases hs with hlt | ⟨rfl, hmj⟩
        · exact congrFun (congrFun (h.εε0 t s hlt.ne) ⟨m, hm⟩) j
        · have hne : (⟨m, hm⟩ : Fin k) ≠ j := by rintro rfl; simp at hmj
          have := congrFun (congrFun (h.εε s) ⟨m, hm⟩) j
          rw [show B (ε s ⟨m, hm⟩) (ε s j) = θ.H ⟨m, hm⟩ j from this, hdiag _ _ hne]
      have e1 : B v (ε s j) = 0 := by
        rw [hve]
        simp [e2, e3]
      simp [e1, e2]
    · refine Submodule.add_mem _ (hspan i) (Submodule.smul_mem _ _ (Submodule.sub_mem _ (Submodule.sub_mem _ ?_ ?_) ?_))
      · exact Submodule.subset_span (Or.inr ⟨t, ⟨m, hm⟩, ⟨ho, Or.inr ⟨rfl, Nat.lt_succ_self m⟩⟩, rfl⟩)
      · exact Submodule.sum_mem _ fun j _ => Submodule.smul_mem _ _ (hspan j)
      · exact Submodule.smul_mem _ _ (Submodule.subset_span (Or.inl rfl))
    · rw [hnew]
      have e1 : ∀ j, E (e j) = 0 := hi.mean
      rw [hve]
      simp [e1, hE]

end step

end Verif.Kalman
