import Verif.Kalman.Model
import Verif.Smoother.Model
import Verif.Smoother.Lemmas

/-!
# C207: the order of series, states and shocks does not matter

Specification: `e` names the states anew (`e i` is the old name of the new state `i`), `f` the series and `g` the shocks.
Relabelled inputs are the same numbers under the new names.
-/

set_option autoImplicit false

open Matrix

namespace Verif.Kalman

variable {n p r n' p' r' : Type*} [Fintype n] [Fintype p] [Fintype r] [DecidableEq n] [DecidableEq p] [DecidableEq r]
  [Fintype n'] [Fintype p'] [Fintype r'] [DecidableEq n'] [DecidableEq p'] [DecidableEq r']

/-! ### Specification -/

/-- The same matrices under new names. -/
def Spec.relabel (e : n' ≃ n) (f : p' ≃ p) (g : r' ≃ r) (θ : Params n p r) : Params n' p' r' where
  c i := θ.c (e i)
  d i := θ.d (f i)
  T := Matrix.of fun i j => θ.T (e i) (e j)
  Z := Matrix.of fun i j => θ.Z (f i) (e j)
  R := Matrix.of fun i j => θ.R (e i) (g j)
  H := Matrix.of fun i j => θ.H (f i) (f j)
  Q := Matrix.of fun i j => θ.Q (g i) (g j)

/-- The same filter outputs under new names. -/
def Spec.relabelOut (e : n' ≃ n) (f : p' ≃ p) (o : FilterOut n p) : FilterOut n' p' where
  filteredStates := o.filteredStates.map fun a i => a (e i)
  predictedStates := o.predictedStates.map fun a i => a (e i)
  observedStates := o.observedStates.map fun y i => y (f i)
  filteredCovs := o.filteredCovs.map fun P => Matrix.of fun i j => P (e i) (e j)
  predictedCovs := o.predictedCovs.map fun P => Matrix.of fun i j => P (e i) (e j)
  observedCovs := o.observedCovs.map fun F => Matrix.of fun i j => F (f i) (f j)
  loglike := o.loglike

/-! ### Each operation -/

/-- One step's values under new names. -/
def StepOut.relabel (e : n' ≃ n) (f : p' ≃ p) (o : StepOut n p) : StepOut n' p' where
  aFilt := o.aFilt ∘ e
  aHat := o.aHat ∘ e
  obsMu := o.obsMu ∘ f
  PFilt := o.PFilt.submatrix e e
  PHat := o.PHat.submatrix e e
  obsCov := o.obsCov.submatrix f f
  ll := o.ll

omit [Fintype n] [Fintype n'] in
theorem stabilize_sub (e : n' ≃ n) (j : ℝ) (A : Matrix n n ℝ) :
    stabilize j (A.submatrix e e) = (stabilize j A).submatrix e e := by
  simp [stabilize, submatrix_add, submatrix_smul]

omit [Fintype n] [Fintype n'] [DecidableEq n] [DecidableEq n'] in
theorem quadFormSym_sub {m m' : Type*} [Fintype m] [Fintype m'] (e : n' ≃ n) (f : m' ≃ m)
    (A : Matrix n m ℝ) (B : Matrix m m ℝ) :
    quadFormSym (A.submatrix e f) (B.submatrix f f) = (quadFormSym A B).submatrix e e := by
  simp only [quadFormSym, transpose_submatrix, submatrix_mul_equiv]
  rfl

omit [Fintype p] [Fintype p'] in
theorem maskW_sub (f : p' ≃ p) (fill : ℝ) (y : Row p) : maskW fill (y ∘ f) = (maskW fill y).submatrix f f := by
  unfold maskW
  rw [submatrix_diagonal_equiv]
  rfl

omit [DecidableEq n] [DecidableEq n'] in
theorem gain_sub (e : n' ≃ n) (f : p' ≃ p) (P : Matrix n n ℝ) (Z : Matrix p n ℝ) (F : Matrix p p ℝ) :
    gain (P.submatrix e e) (Z.submatrix f e) (F.submatrix f f) = (gain P Z F).submatrix e f := by
  simp only [gain, transpose_submatrix, submatrix_mul_equiv, inv_submatrix_equiv]

omit [DecidableEq n] [DecidableEq n'] [Fintype p] [Fintype p'] in
theorem innovCov_sub (e : n' ≃ n) (f : p' ≃ p) (j : ℝ) (P : Matrix n n ℝ) (Z : Matrix p n ℝ) (H : Matrix p p ℝ) :
    innovCov j (P.submatrix e e) (Z.submatrix f e) (H.submatrix f f) = (innovCov j P Z H).submatrix f f := by
  simp only [innovCov, transpose_submatrix, submatrix_mul_equiv, stabilize_sub]
  rfl

omit [DecidableEq n] [DecidableEq n'] [DecidableEq p] [DecidableEq p'] [Fintype p] [Fintype p'] in
theorem mulVec_relabel (f : p' ≃ p) (e : n' ≃ n) (A : Matrix p n ℝ) (a : n → ℝ) :
    A.submatrix f e *ᵥ (a ∘ e) = (A *ᵥ a) ∘ f := by
  rw [submatrix_mulVec_equiv]
  congr 2
  funext i
  simp

omit [DecidableEq r] [DecidableEq r'] in
theorem kalmanStep_sub (e : n' ≃ n) (f : p' ≃ p) (g : r' ≃ r) (j fill : ℝ) (y : Row p) (a : n → ℝ) (P : Matrix n n ℝ)
    (θ : Params n p r) :
    kalmanStep j fill (y ∘ f) (a ∘ e) (P.submatrix e e) (Spec.relabel e f g θ) = (kalmanStep j fill y a P θ).relabel e f := by
  classical
  have hZ : (Spec.relabel e f g θ).Z = θ.Z.submatrix f e := rfl
  have hH : (Spec.relabel e f g θ).H = θ.H.submatrix f f := rfl
  have hT : (Spec.relabel e f g θ).T = θ.T.submatrix e e := rfl
  have hR : (Spec.relabel e f g θ).R = θ.R.submatrix e g := rfl
  have hQ : (Spec.relabel e f g θ).Q = θ.Q.submatrix g g := rfl
  have hc : (Spec.relabel e f g θ).c = θ.c ∘ e := rfl
  have hd : (Spec.relabel e f g θ).d = θ.d ∘ f := rfl
  have hall : (∀ i, nanMask fill (y ∘ f) i) ↔ ∀ i, nanMask fill y i :=
    ⟨fun h i => by have := h (f.symm i); simpa [nanMask] using this, fun h i => h (f i)⟩
  have hy : (fun i => if nanMask fill (y ∘ f) i then (0 : ℝ) else ((y ∘ f) i).getD 0) =
      (fun i => if nanMask fill y i then (0 : ℝ) else (y i).getD 0) ∘ f := rfl
  have hone : (1 : Matrix n' n' ℝ) = (1 : Matrix n n ℝ).submatrix e e := by simp
  generalize hys : (fun i => if nanMask fill y i then (0 : ℝ) else (y i).getD 0) = ys at hy
  have hv : ∀ (u v : p → ℝ), u ∘ f - v ∘ f = (u - v) ∘ f := fun _ _ => rfl
  have hv' : ∀ (u v : p → ℝ), u ∘ f + v ∘ f = (u + v) ∘ f := fun _ _ => rfl
  have hw' : ∀ (u v : n → ℝ), u ∘ e + v ∘ e = (u + v) ∘ e := fun _ _ => rfl
  have hdot : ∀ (u v : p → ℝ), (u ∘ f) ⬝ᵥ (v ∘ f) = u ⬝ᵥ v := fun u v => by
    rw [dotProduct, dotProduct]
    exact Equiv.sum_comp f (fun i => u i * v i)
  have hsub : ∀ (A B : Matrix n n ℝ), A.submatrix e e - B.submatrix e e = (A - B).submatrix e e := fun _ _ => rfl
  have hadd : ∀ (A B : Matrix n n ℝ), A.submatrix e e + B.submatrix e e = (A + B).submatrix e e := fun _ _ => rfl
  simp only [kalmanStep, handleMissing, update, predict, StepOut.relabel, hZ, hH, hT, hR, hQ, hc, hd, maskW_sub,
    submatrix_mul_equiv, innovCov_sub, gain_sub, mulVec_relabel, hv, hv', hw', hy, hys, hone, hsub, hadd, quadFormSym_sub, stabilize_sub,
    det_submatrix_equiv_self, inv_submatrix_equiv, hdot, hall]

omit [DecidableEq r] [DecidableEq r'] in
theorem filterScan_sub (e : n' ≃ n) (f : p' ≃ p) (g : r' ≃ r) (j fill : ℝ) (rows : List (Row p × Params n p r)) :
    ∀ (a : n → ℝ) (P : Matrix n n ℝ),
    filterScan j fill (a ∘ e) (P.submatrix e e) (rows.map fun x => (x.1 ∘ f, Spec.relabel e f g x.2)) =
      (filterScan j fill a P rows).map (StepOut.relabel e f) := by
  induction rows with
  | nil => intro a P; rfl
  | cons x rest ih =>
    intro a P
    obtain ⟨y, θ⟩ := x
    simp only [List.map_cons, filterScan, kalmanStep_sub]
    rw [← ih]
    rfl

/-! ### The filter -/

/-- **C207 (filter).** Naming the hidden states, the observed series and the shocks in a different order changes nothing but
the names: with the data columns, the initial state and the seven matrices rearranged accordingly, all seven outputs are the
original ones rearranged, and the log-likelihood of every date is the same number; for every jitter, every fill value, every
pattern of missing entries, any number of rows and time-varying matrices. -/
theorem C207_filter (e : n' ≃ n) (f : p' ≃ p) (g : r' ≃ r) (j fill : ℝ) (a0 : n → ℝ) (P0 : Matrix n n ℝ)
    (rows : List (Row p × Params n p r)) :
    buildGraph j fill (fun i => a0 (e i)) (Matrix.of fun i k => P0 (e i) (e k))
        (rows.map fun x => (fun i => x.1 (f i), Spec.relabel e f g x.2)) =
      Spec.relabelOut e f (buildGraph j fill a0 P0 rows) := by
  have h := filterScan_sub e f g j fill rows a0 P0
  have h' : filterScan j fill (fun i => a0 (e i)) (Matrix.of fun i k => P0 (e i) (e k))
        (rows.map fun x => (fun i => x.1 (f i), Spec.relabel e f g x.2)) =
      (filterScan j fill a0 P0 rows).map (StepOut.relabel e f) := h
  simp only [buildGraph, h', postprocess, Spec.relabelOut, List.map_map, List.map_cons, ← List.map_dropLast]
  rfl

/-- **C207 (only the series).** In particular the order of the columns of the data is immaterial: the hidden state outputs and
the log-likelihoods are identical. -/
theorem C207_column_order (f : p' ≃ p) (j fill : ℝ) (a0 : n → ℝ) (P0 : Matrix n n ℝ) (rows : List (Row p × Params n p r)) :
    let o := buildGraph j fill a0 P0 rows
    let o' := buildGraph j fill a0 P0 (rows.map fun x => (fun i => x.1 (f i), Spec.relabel (Equiv.refl n) f (Equiv.refl r) x.2))
    o'.loglike = o.loglike ∧ o'.filteredStates = o.filteredStates ∧ o'.predictedStates = o.predictedStates ∧
      o'.filteredCovs = o.filteredCovs ∧ o'.predictedCovs = o.predictedCovs ∧
      o'.observedStates = o.observedStates.map (fun y i => y (f i)) := by
  intro o o'
  have h : o' = Spec.relabelOut (Equiv.refl n) f o := C207_filter (Equiv.refl n) f (Equiv.refl r) j fill a0 P0 rows
  rw [h]
  refine ⟨rfl, ?_, ?_, ?_, ?_, rfl⟩ <;> exact List.map_id _

/-- Two different series of one state, one of them missing at the first date: swapping them is a real rearrangement. -/
example : ∃ (θ : Params (Fin 1) (Fin 2) (Fin 1)) (y : Row (Fin 2)),
    Spec.relabel (Equiv.refl _) (Equiv.swap 0 1) (Equiv.refl _) θ ≠ θ ∧ (fun i => y (Equiv.swap 0 1 i)) ≠ y := by
  refine ⟨⟨0, ![1, 2], 1, !![1; 2], 1, 1, 1⟩, ![none, some 3], ?_, ?_⟩
  · intro h
    have := congrFun (congrArg Params.d h) 0
    simp [Spec.relabel] at this
  · intro h
    have := congrFun h 0
    simp at this

end Verif.Kalman

namespace Verif.Smoother

open Verif.Kalman

variable {n r n' r' : Type*} [Fintype n] [Fintype r] [DecidableEq n] [DecidableEq r]
  [Fintype n'] [Fintype r'] [DecidableEq n'] [DecidableEq r']

/-! ### The smoother -/

/-- The smoother's matrices under new names. -/
def Spec.relabel (e : n' ≃ n) (g : r' ≃ r) (θ : Params n r) : Params n' r' where
  T := Matrix.of fun i j => θ.T (e i) (e j)
  R := Matrix.of fun i j => θ.R (e i) (g j)
  Q := Matrix.of fun i j => θ.Q (g i) (g j)

/-- A mean and a covariance under new names. -/
def Spec.relabelState (e : n' ≃ n) (s : (n → ℝ) × Matrix n n ℝ) : (n' → ℝ) × Matrix n' n' ℝ :=
  (fun i => s.1 (e i), Matrix.of fun i j => s.2 (e i) (e j))

omit [DecidableEq n] [DecidableEq n'] in
theorem penrose_sub (e : n' ≃ n) {A B : Matrix n n ℝ} (h : Penrose A B) : Penrose (A.submatrix e e) (B.submatrix e e) where
  aba := by simp only [submatrix_mul_equiv, h.aba]
  bab := by simp only [submatrix_mul_equiv, h.bab]
  abt := by simp only [submatrix_mul_equiv, transpose_submatrix, h.abt]
  bat := by simp only [submatrix_mul_equiv, transpose_submatrix, h.bat]

theorem pinv_sub (e : n' ≃ n) (A : Matrix n n ℝ) : pinv (A.submatrix e e) = (pinv A).submatrix e e := by
  by_cases h : ∃ B, Penrose A B
  · obtain ⟨B, hB⟩ := h
    rw [pinv_eq hB, pinv_eq (penrose_sub e hB)]
  · have h' : ¬ ∃ B, Penrose (A.submatrix e e) B := by
      rintro ⟨B, hB⟩
      apply h
      have := penrose_sub e.symm hB
      rw [submatrix_submatrix] at this
      simp only [Equiv.self_comp_symm, submatrix_id_id] at this
      exact ⟨_, this⟩
    rw [pinv, pinv, dif_neg h, dif_neg h']
    rfl

theorem step_sub (e : n' ≃ n) (g : r' ≃ r) (j dj : ℝ) (a : n → ℝ) (P : Matrix n n ℝ) (s : (n → ℝ) × Matrix n n ℝ)
    (θ : Params n r) :
    step j dj (a ∘ e) (P.submatrix e e) (s.1 ∘ e) (s.2.submatrix e e) (Spec.relabel e g θ) =
      Spec.relabelState e (step j dj a P s.1 s.2 θ) := by
  have hT : (Spec.relabel e g θ).T = θ.T.submatrix e e := rfl
  have hR : (Spec.relabel e g θ).R = θ.R.submatrix e g := rfl
  have hQ : (Spec.relabel e g θ).Q = θ.Q.submatrix g g := rfl
  have hsub : ∀ (A B : Matrix n n ℝ), A.submatrix e e - B.submatrix e e = (A - B).submatrix e e := fun _ _ => rfl
  have hadd : ∀ (A B : Matrix n n ℝ), A.submatrix e e + B.submatrix e e = (A + B).submatrix e e := fun _ _ => rfl
  have hv : ∀ (u v : n → ℝ), u ∘ e - v ∘ e = (u - v) ∘ e := fun _ _ => rfl
  have hw : ∀ (u v : n → ℝ), u ∘ e + v ∘ e = (u + v) ∘ e := fun _ _ => rfl
  simp only [step, predict, gain, hT, hR, hQ, quadFormSym_sub, hadd, stabilize_sub, pinv_sub, submatrix_mul_equiv,
    transpose_submatrix, mulVec_relabel, hv, hw, hsub]
  rfl

theorem scan_sub (e : n' ≃ n) (g : r' ≃ r) (j dj : ℝ) (l : List (((n → ℝ) × Matrix n n ℝ) × Params n r)) :
    ∀ s : (n → ℝ) × Matrix n n ℝ,
    scan j dj (Spec.relabelState e s) (l.map fun x => (Spec.relabelState e x.1, Spec.relabel e g x.2)) =
      (scan j dj s l).map (Spec.relabelState e) := by
  induction l with
  | nil => intro s; rfl
  | cons x rest ih =>
    intro s
    obtain ⟨⟨a, P⟩, θ⟩ := x
    have h : step j dj (Spec.relabelState e (a, P)).1 (Spec.relabelState e (a, P)).2 (Spec.relabelState e s).1
        (Spec.relabelState e s).2 (Spec.relabel e g θ) = Spec.relabelState e (step j dj a P s.1 s.2 θ) := step_sub e g j dj a P s θ
    simp only [List.map_cons, scan, h, ih]

/-- **C207 (smoother).** The same for the smoother: rearranging the filtered means, covariances and matrices rearranges the
smoothed means and covariances, for every jitter, singular predictions included. -/
theorem C207_smoother (e : n' ≃ n) (g : r' ≃ r) (j dj : ℝ) (filtered : List ((n → ℝ) × Matrix n n ℝ)) (θs : List (Params n r)) :
    buildGraph j dj (filtered.map (Spec.relabelState e)) (θs.map (Spec.relabel e g)) =
      (buildGraph j dj filtered θs).map (List.map (Spec.relabelState e)) := by
  unfold buildGraph
  rw [List.getLast?_map]
  cases filtered.getLast? with
  | none => rfl
  | some last =>
    simp only [Option.map_some, Option.some.injEq, List.map_append, List.map_cons, List.map_nil, List.map_reverse]
    rw [← scan_sub e g, ← List.map_reverse, ← List.map_dropLast, ← List.map_reverse, List.zip_map]
    rfl

end Verif.Smoother
