import Verif.Kalman.Props

/-!
# C210: rows with nothing recorded are forecasts

Specification: the forecast recursion of the linear model, the jitter being added to the covariance once per unrecorded date.
-/

set_option autoImplicit false

open Matrix

namespace Verif.Kalman

variable {n p r : Type*} [Fintype n] [Fintype p] [Fintype r] [DecidableEq n] [DecidableEq p] [DecidableEq r]

/-! ### Specification -/

/-- The law of the next state, given mean and covariance of the current one. -/
def Spec.next (θ : Params n p r) (s : (n → ℝ) × Matrix n n ℝ) : (n → ℝ) × Matrix n n ℝ :=
  (θ.T *ᵥ s.1 + θ.c, θ.T * s.2 * θ.Tᵀ + θ.R * θ.Q * θ.Rᵀ)

/-- The same with the jitter added to the covariance. -/
def Spec.plus (j : ℝ) (s : (n → ℝ) × Matrix n n ℝ) : (n → ℝ) × Matrix n n ℝ := (s.1, s.2 + j • (1 : Matrix n n ℝ))

/-- The law of the state on successive unrecorded dates, starting from `s` on the first of them. -/
def Spec.forecasts (j : ℝ) : (n → ℝ) × Matrix n n ℝ → List (Params n p r) → List ((n → ℝ) × Matrix n n ℝ)
  | _, [] => []
  | s, θ :: rest => s :: Spec.forecasts j (Spec.next θ (Spec.plus j s)) rest

/-! ### Lemmas -/

theorem filterScan_append (j fill : ℝ) (pre : List (Row p × Params n p r)) (y : Row p) (θ : Params n p r)
    (s : List (Row p × Params n p r)) :
    ∀ (a : n → ℝ) (P : Matrix n n ℝ), ∃ (os : List (StepOut n p)) (b : n → ℝ) (V : Matrix n n ℝ),
      filterScan j fill a P (pre ++ [(y, θ)]) = os ++ [kalmanStep j fill y b V θ] ∧
      filterScan j fill a P (pre ++ (y, θ) :: s) = os ++ kalmanStep j fill y b V θ ::
        filterScan j fill (kalmanStep j fill y b V θ).aHat (kalmanStep j fill y b V θ).PHat s := by
  induction pre with
  | nil => intro a P; exact ⟨[], a, P, rfl, rfl⟩
  | cons x rest ih =>
    intro a P
    obtain ⟨y0, θ0⟩ := x
    obtain ⟨os, b, V, h1, h2⟩ := ih (kalmanStep j fill y0 a P θ0).aHat (kalmanStep j fill y0 a P θ0).PHat
    exact ⟨kalmanStep j fill y0 a P θ0 :: os, b, V, by simp only [List.cons_append, filterScan, h1],
      by simp only [List.cons_append, filterScan, h2]⟩

omit [Fintype n] [Fintype p] [Fintype r] [DecidableEq n] [DecidableEq p] [DecidableEq r] in
theorem quadFormSym_transpose {m k : Type*} [Fintype k] (A : Matrix m k ℝ) (B : Matrix k k ℝ) :
    (quadFormSym A B)ᵀ = quadFormSym A B := by
  simp only [quadFormSym, transpose_smul, transpose_add, transpose_transpose]
  rw [add_comm]

theorem PHat_symm (j fill : ℝ) (y : Row p) (a : n → ℝ) (P : Matrix n n ℝ) (θ : Params n p r) :
    (kalmanStep j fill y a P θ).PHatᵀ = (kalmanStep j fill y a P θ).PHat := by
  simp only [kalmanStep, predict, transpose_add, quadFormSym_transpose]

theorem PFilt_symm (j fill : ℝ) (y : Row p) (a : n → ℝ) (P : Matrix n n ℝ) (θ : Params n p r) :
    (kalmanStep j fill y a P θ).PFiltᵀ = (kalmanStep j fill y a P θ).PFilt := by
  simp only [kalmanStep, update, stabilize, transpose_add, transpose_smul, transpose_one, quadFormSym_transpose]

theorem hat_eq_next (j fill : ℝ) (y : Row p) (a : n → ℝ) (P : Matrix n n ℝ) (θ : Params n p r) (hQ : θ.Qᵀ = θ.Q) :
    ((kalmanStep j fill y a P θ).aHat, (kalmanStep j fill y a P θ).PHat) =
      Spec.next θ ((kalmanStep j fill y a P θ).aFilt, (kalmanStep j fill y a P θ).PFilt) := by
  have h := PFilt_symm j fill y a P θ
  rw [Spec.next, ← quadFormSym_of_symm θ.T h, ← quadFormSym_of_symm θ.R hQ]
  rfl

theorem missing_obs (j fill : ℝ) (y : Row p) (hmiss : ∀ i, Spec.Missing fill (y i)) (a : n → ℝ) (P : Matrix n n ℝ)
    (θ : Params n p r) : (kalmanStep j fill y a P θ).obsMu = θ.d ∧ (kalmanStep j fill y a P θ).obsCov = j • (1 : Matrix p p ℝ) := by
  have hW : maskW fill y = 0 := by
    rw [maskW, ← diagonal_zero]; congr 1; funext i; exact if_pos (hmiss i)
  simp only [kalmanStep, handleMissing, update, hW, Matrix.zero_mul, zero_mulVec, add_zero, innovCov, zero_add, stabilize,
    and_self]

theorem dropLast_append_cons {α : Type*} (l : List α) (x : α) (k : List α) : (l ++ x :: k).dropLast = l ++ (x :: k).dropLast :=
  List.dropLast_append_of_ne_nil (List.cons_ne_nil _ _)

/-- A run of unrecorded rows. -/
theorem gap_scan {j : ℝ} (hj : 0 < j) (fill : ℝ) (gap : List (Row p × Params n p r)) :
    ∀ (a : n → ℝ) (P : Matrix n n ℝ), Pᵀ = P → (∀ x ∈ gap, (∀ i, Spec.Missing fill (x.1 i)) ∧ x.2.Qᵀ = x.2.Q) →
    let S := filterScan j fill a P gap
    let fc := Spec.forecasts j (a, P) (gap.map Prod.snd)
    S.map StepOut.aFilt = fc.map (fun s => s.1) ∧ S.map StepOut.PFilt = fc.map (fun s => s.2 + j • (1 : Matrix n n ℝ)) ∧
    S.map StepOut.ll = List.replicate gap.length 0 ∧ S.map StepOut.obsMu = gap.map (fun x => x.2.d) ∧
    S.map StepOut.obsCov = List.replicate gap.length (j • (1 : Matrix p p ℝ)) ∧
    (a :: S.map StepOut.aHat).dropLast = fc.map (fun s => s.1) ∧ (P :: S.map StepOut.PHat).dropLast = fc.map (fun s => s.2) := by
  induction gap with
  | nil => intro a P _ _; simp [filterScan, Spec.forecasts]
  | cons x rest ih =>
    intro a P hP hx S fc
    obtain ⟨y, θ⟩ := x
    have hx0 := hx _ List.mem_cons_self
    obtain ⟨h1, h2, h3, -⟩ := C03_all_missing hj fill y hx0.1 a hP θ
    obtain ⟨h4, h5⟩ := missing_obs j fill y hx0.1 a P θ
    have hn := hat_eq_next j fill y a P θ hx0.2
    rw [h1, h2] at hn
    have e : Spec.next θ (Spec.plus j (a, P)) = ((kalmanStep j fill y a P θ).aHat, (kalmanStep j fill y a P θ).PHat) := hn.symm
    obtain ⟨i1, i2, i3, i4, i5, i6, i7⟩ := ih (kalmanStep j fill y a P θ).aHat (kalmanStep j fill y a P θ).PHat
      (PHat_symm j fill y a P θ) (fun z hz => hx z (List.mem_cons_of_mem _ hz))
    simp only [S, fc, filterScan, List.map_cons, Spec.forecasts, e, h1, h2, h3, h4, h5, i1, i2, i3, i4, i5, List.length_cons,
      List.replicate_succ, List.dropLast_cons_cons, i6, i7, and_self]

/-! ### The property -/

/-- **C210.** Appending dates on which nothing is recorded to a data set leaves every earlier output as it was and appends the
model's own forecasts: the reported states of the unrecorded dates have mean `T m + c` and covariance `T V T' + R Q R'`
iterated from the last filtered law (`V` enlarged by the jitter on each unrecorded date), the log-likelihood contributions are
zero; but the reported observation forecasts are the intercepts `d` alone, with the jitter as covariance. -/
theorem C210_gap {j : ℝ} (hj : 0 < j) (fill : ℝ) (a0 : n → ℝ) (P0 : Matrix n n ℝ) (pre : List (Row p × Params n p r)) (y : Row p)
    (θ : Params n p r) (hQ : θ.Qᵀ = θ.Q) (gap : List (Row p × Params n p r))
    (hgap : ∀ x ∈ gap, (∀ i, Spec.Missing fill (x.1 i)) ∧ x.2.Qᵀ = x.2.Q) :
    let o := buildGraph j fill a0 P0 (pre ++ [(y, θ)])
    let o' := buildGraph j fill a0 P0 (pre ++ (y, θ) :: gap)
    ∃ m V, o.filteredStates.getLast? = some m ∧ o.filteredCovs.getLast? = some V ∧
      let fc := Spec.forecasts j (Spec.next θ (m, V)) (gap.map Prod.snd)
      o'.predictedStates = o.predictedStates ++ fc.map (fun s => s.1) ∧
      o'.predictedCovs = o.predictedCovs ++ fc.map (fun s => s.2) ∧
      o'.filteredStates = o.filteredStates ++ fc.map (fun s => s.1) ∧
      o'.filteredCovs = o.filteredCovs ++ fc.map (fun s => s.2 + j • (1 : Matrix n n ℝ)) ∧
      o'.loglike = o.loglike ++ List.replicate gap.length 0 ∧
      o'.observedStates = o.observedStates ++ gap.map (fun x => x.2.d) ∧
      o'.observedCovs = o.observedCovs ++ List.replicate gap.length (j • (1 : Matrix p p ℝ)) := by
  intro o o'
  obtain ⟨os, b, V, h1, h2⟩ := filterScan_append j fill pre y θ gap a0 P0
  have hn := hat_eq_next j fill y b V θ hQ
  obtain ⟨i1, i2, i3, i4, i5, i6, i7⟩ := gap_scan hj fill gap (kalmanStep j fill y b V θ).aHat (kalmanStep j fill y b V θ).PHat
    (PHat_symm j fill y b V θ) hgap
  refine ⟨(kalmanStep j fill y b V θ).aFilt, (kalmanStep j fill y b V θ).PFilt, ?_, ?_, ?_⟩
  · simp [o, buildGraph, postprocess, h1]
  · simp [o, buildGraph, postprocess, h1]
  intro fc
  have hfc : fc = Spec.forecasts j ((kalmanStep j fill y b V θ).aHat, (kalmanStep j fill y b V θ).PHat) (gap.map Prod.snd) := by
    rw [hn]
  simp only [o, o', buildGraph, postprocess, h1, h2, List.map_append, List.map_cons, List.map_nil, dropLast_append_cons, hfc]
  simp only [i1, i2, i3, i4, i5, i6, i7, List.append_assoc, List.cons_append, List.nil_append, List.dropLast_singleton,
    List.append_nil, and_self]

/-- **C210 (constant matrices).** With constant matrices the law forecast for the `k`-th unrecorded date is
`T^k m + Σ_{i<k} T^i c` and `T^k V T'^k + Σ_{i<k} T^i (R Q R' + jitter · T T') T'^i`, for every horizon. -/
theorem C210_closed_form (j : ℝ) (θ : Params n p r) (s : (n → ℝ) × Matrix n n ℝ) (h k : ℕ) (hk : k < h) :
    (Spec.forecasts j s (List.replicate h θ))[k]? =
      some ((θ.T ^ k) *ᵥ s.1 + ∑ i ∈ Finset.range k, (θ.T ^ i) *ᵥ θ.c,
        θ.T ^ k * s.2 * (θ.T ^ k)ᵀ +
          ∑ i ∈ Finset.range k, θ.T ^ i * (θ.R * θ.Q * θ.Rᵀ + j • (θ.T * θ.Tᵀ)) * (θ.T ^ i)ᵀ) := by
  induction k generalizing s h with
  | zero =>
    obtain ⟨h, rfl⟩ : ∃ h', h = h' + 1 := ⟨h - 1, by omega⟩
    simp [List.replicate_succ, Spec.forecasts]
  | succ k ih =>
    obtain ⟨h, rfl⟩ : ∃ h', h = h' + 1 := ⟨h - 1, by omega⟩
    rw [List.replicate_succ, Spec.forecasts, List.getElem?_cons_succ, ih _ h (by omega)]
    simp only [Spec.next, Spec.plus, Option.some.injEq, Prod.mk.injEq]
    constructor
    · rw [mulVec_add, mulVec_mulVec, ← pow_succ, Finset.sum_range_succ]
      abel
    · rw [Finset.sum_range_succ]
      have e1 : θ.T ^ (k + 1) * s.2 * (θ.T ^ (k + 1))ᵀ = θ.T ^ k * (θ.T * s.2 * θ.Tᵀ) * (θ.T ^ k)ᵀ := by
        rw [pow_succ, transpose_mul]
        simp only [Matrix.mul_assoc]
      rw [e1]
      simp only [Matrix.mul_add, Matrix.add_mul, Matrix.mul_smul, Matrix.smul_mul, Matrix.mul_one]
      abel

/-- **C210 (the observation forecasts are not forecasts).** The observation forecast reported for an unrecorded date is the
model's `d + Z x̂` only if `Z x̂ = 0`. -/
theorem C210_observed_forecast (j fill : ℝ) (y : Row p) (hmiss : ∀ i, Spec.Missing fill (y i)) (a : n → ℝ) (P : Matrix n n ℝ)
    (θ : Params n p r) :
    (buildGraph j fill a P [(y, θ)]).observedStates = [θ.d + θ.Z *ᵥ a] ↔ θ.Z *ᵥ a = 0 := by
  have h : (buildGraph j fill a P [(y, θ)]).observedStates = [θ.d] := by
    simp [buildGraph, postprocess, filterScan, (missing_obs j fill y hmiss a P θ).1]
  rw [h]
  simp [eq_comm]

/-- A random walk with drift 1 observed once, then two unrecorded dates: the hypotheses are met. -/
example : ∀ x ∈ [((fun _ => none : Row (Fin 1)), (⟨fun _ => 1, 0, 1, 1, 1, 1, 1⟩ : Params (Fin 1) (Fin 1) (Fin 1))),
    ((fun _ => some (-9999) : Row (Fin 1)), ⟨fun _ => 1, 0, 1, 1, 1, 1, 1⟩)],
    (∀ i, Spec.Missing (-9999) (x.1 i)) ∧ x.2.Qᵀ = x.2.Q := by
  intro x hx
  simp only [List.mem_cons, List.not_mem_nil, or_false] at hx
  rcases hx with rfl | rfl
  · exact ⟨fun _ => Or.inl rfl, by simp⟩
  · exact ⟨fun _ => Or.inr rfl, by simp⟩

end Verif.Kalman
