import Verif.Kalman.Relabel

/-!
# C208: coordinates of the state and units of the data

Specification: `M` is an invertible change of coordinates of the hidden state, `G` of the shocks, `A` (with the shift `k`) a
change of units of the data.
-/

set_option autoImplicit false

open Matrix

namespace Verif.Kalman

variable {n p r : Type*} [Fintype n] [Fintype p] [Fintype r] [DecidableEq n] [DecidableEq p] [DecidableEq r]

/-! ### Specification -/

/-- The model for the state `M x` and the shocks `G ε`. -/
noncomputable def Spec.inCoords (M : Matrix n n ℝ) (G : Matrix r r ℝ) (θ : Params n p r) : Params n p r where
  c := M *ᵥ θ.c
  d := θ.d
  T := M * θ.T * M⁻¹
  Z := θ.Z * M⁻¹
  R := M * θ.R * G⁻¹
  H := θ.H
  Q := G * θ.Q * Gᵀ

/-- The outputs for the state `M x`. -/
noncomputable def Spec.outInCoords (M : Matrix n n ℝ) (o : FilterOut n p) : FilterOut n p where
  filteredStates := o.filteredStates.map fun a => M *ᵥ a
  predictedStates := o.predictedStates.map fun a => M *ᵥ a
  observedStates := o.observedStates
  filteredCovs := o.filteredCovs.map fun P => M * P * Mᵀ
  predictedCovs := o.predictedCovs.map fun P => M * P * Mᵀ
  observedCovs := o.observedCovs
  loglike := o.loglike

/-- The model for the data `A y + k`. -/
noncomputable def Spec.inUnits (A : Matrix p p ℝ) (k : p → ℝ) (θ : Params n p r) : Params n p r where
  c := θ.c
  d := A *ᵥ θ.d + k
  T := θ.T
  Z := A * θ.Z
  R := θ.R
  H := A * θ.H * Aᵀ
  Q := θ.Q

/-! ### Change of state coordinates -/

/-- One step's values in new coordinates. -/
noncomputable def StepOut.inCoords (M : Matrix n n ℝ) (o : StepOut n p) : StepOut n p where
  aFilt := M *ᵥ o.aFilt
  aHat := M *ᵥ o.aHat
  obsMu := o.obsMu
  PFilt := M * o.PFilt * Mᵀ
  PHat := M * o.PHat * Mᵀ
  obsCov := o.obsCov
  ll := o.ll

omit [Fintype p] [DecidableEq n] [DecidableEq p] in
theorem quadFormSym_conj {m : Type*} [Fintype m] (M : Matrix n n ℝ) (A : Matrix n m ℝ) (B : Matrix m m ℝ) :
    quadFormSym (M * A) B = M * quadFormSym A B * Mᵀ := by
  simp only [quadFormSym, transpose_mul, transpose_transpose, Matrix.mul_smul, Matrix.smul_mul, Matrix.mul_add, Matrix.add_mul,
    Matrix.mul_assoc]

omit [DecidableEq p] in
theorem quadFormSym_right (M : Matrix n n ℝ) (hM : IsUnit M.det) {m : Type*} (A : Matrix m n ℝ) (B : Matrix n n ℝ) :
    quadFormSym (A * M⁻¹) (M * B * Mᵀ) = quadFormSym A B := by
  have hMt : IsUnit (Mᵀ).det := by rwa [det_transpose]
  have h : A * M⁻¹ * (M * B * Mᵀ) * (A * M⁻¹)ᵀ = A * B * Aᵀ := by
    rw [transpose_mul, transpose_nonsing_inv]
    calc A * M⁻¹ * (M * B * Mᵀ) * ((Mᵀ)⁻¹ * Aᵀ) = A * (M⁻¹ * M) * B * (Mᵀ * (Mᵀ)⁻¹) * Aᵀ := by
          simp only [Matrix.mul_assoc]
      _ = A * B * Aᵀ := by rw [nonsing_inv_mul _ hM, mul_nonsing_inv _ hMt, Matrix.mul_one, Matrix.mul_one]
  simp only [quadFormSym, h]

theorem stabilize_conj {M : Matrix n n ℝ} {j : ℝ} (hj : j • (M * Mᵀ) = j • (1 : Matrix n n ℝ)) (B : Matrix n n ℝ) :
    stabilize j (M * B * Mᵀ) = M * stabilize j B * Mᵀ := by
  simp only [stabilize, Matrix.mul_add, Matrix.add_mul, Matrix.mul_smul, Matrix.smul_mul, Matrix.mul_one, hj]

theorem kalmanStep_coords {M : Matrix n n ℝ} (hM : IsUnit M.det) {G : Matrix r r ℝ} (hG : IsUnit G.det) {j : ℝ}
    (hj : j • (M * Mᵀ) = j • (1 : Matrix n n ℝ)) (fill : ℝ) (y : Row p) (a : n → ℝ) (P : Matrix n n ℝ) (θ : Params n p r) :
    kalmanStep j fill y (M *ᵥ a) (M * P * Mᵀ) (Spec.inCoords M G θ) = (kalmanStep j fill y a P θ).inCoords M := by
  have hMt : IsUnit (Mᵀ).det := by rwa [det_transpose]
  have hPZ : ∀ Z : Matrix p n ℝ, M * P * Mᵀ * (Z * M⁻¹)ᵀ = M * (P * Zᵀ) := fun Z => by
    rw [transpose_mul, transpose_nonsing_inv, Matrix.mul_assoc (M * P), ← Matrix.mul_assoc Mᵀ, mul_nonsing_inv _ hMt,
      Matrix.one_mul, Matrix.mul_assoc]
  have hinv : ∀ (Z : Matrix p n ℝ) (B : Matrix n p ℝ), Z * M⁻¹ * (M * B) = Z * B := fun Z B => by
    rw [Matrix.mul_assoc, ← Matrix.mul_assoc M⁻¹, nonsing_inv_mul _ hM, Matrix.one_mul]
  have hF : ∀ Z H, innovCov j (M * P * Mᵀ) (Z * M⁻¹) H = innovCov j P Z H := fun (Z : Matrix p n ℝ) H => by
    rw [innovCov, innovCov, hPZ, hinv]
  have hK : ∀ (Z : Matrix p n ℝ) F, gain (M * P * Mᵀ) (Z * M⁻¹) F = M * gain P Z F := fun Z F => by
    rw [gain, gain, hPZ, transpose_mul M, ← Matrix.mul_assoc, transpose_mul _ Mᵀ, transpose_transpose]
  have hvec : ∀ (Z : Matrix p n ℝ) (b : n → ℝ), (Z * M⁻¹) *ᵥ (M *ᵥ b) = Z *ᵥ b := fun Z b => by
    rw [mulVec_mulVec, Matrix.mul_assoc, nonsing_inv_mul _ hM, Matrix.mul_one]
  have hI : ∀ (K : Matrix n p ℝ) (Z : Matrix p n ℝ), 1 - M * K * (Z * M⁻¹) = M * (1 - K * Z) * M⁻¹ := fun K Z => by
    rw [Matrix.mul_sub, Matrix.sub_mul, Matrix.mul_one, mul_nonsing_inv _ hM]
    simp only [Matrix.mul_assoc]
  have hW : maskW fill y * (θ.Z * M⁻¹) = maskW fill y * θ.Z * M⁻¹ := (Matrix.mul_assoc _ _ _).symm
  have hv : ∀ (K : Matrix n p ℝ) (v : p → ℝ), M *ᵥ a + (M * K) *ᵥ v = M *ᵥ (a + K *ᵥ v) := fun K v => by
    rw [mulVec_add, mulVec_mulVec]
  have hvec' : ∀ (Z : Matrix n n ℝ) (b : n → ℝ), (Z * M⁻¹) *ᵥ (M *ᵥ b) = Z *ᵥ b := fun Z b => by
    rw [mulVec_mulVec, Matrix.mul_assoc, nonsing_inv_mul _ hM, Matrix.mul_one]
  have hT : ∀ b : n → ℝ, (M * θ.T * M⁻¹) *ᵥ (M *ᵥ b) + M *ᵥ θ.c = M *ᵥ (θ.T *ᵥ b + θ.c) := fun b => by
    rw [hvec', mulVec_add, mulVec_mulVec]
  have hadd : ∀ A B : Matrix n n ℝ, M * A * Mᵀ + M * B * Mᵀ = M * (A + B) * Mᵀ := fun A B => by
    rw [Matrix.mul_add, Matrix.add_mul]
  simp only [kalmanStep, handleMissing, update, predict, Spec.inCoords, StepOut.inCoords, hW, hF, hK, hI, hv, hvec, hT,
    quadFormSym_right M hM, quadFormSym_right G hG, quadFormSym_conj, hadd, stabilize_conj hj]
  rfl

theorem filterScan_coords {M : Matrix n n ℝ} (hM : IsUnit M.det) {G : Matrix r r ℝ} (hG : IsUnit G.det) {j : ℝ}
    (hj : j • (M * Mᵀ) = j • (1 : Matrix n n ℝ)) (fill : ℝ) (rows : List (Row p × Params n p r)) :
    ∀ (a : n → ℝ) (P : Matrix n n ℝ),
    filterScan j fill (M *ᵥ a) (M * P * Mᵀ) (rows.map fun x => (x.1, Spec.inCoords M G x.2)) =
      (filterScan j fill a P rows).map (StepOut.inCoords M) := by
  induction rows with
  | nil => intro a P; rfl
  | cons x rest ih =>
    intro a P
    obtain ⟨y, θ⟩ := x
    simp only [List.map_cons, filterScan, kalmanStep_coords hM hG hj]
    rw [← ih]
    rfl

/-- **C208 (coordinates of the state).** Writing the same model in other coordinates of the hidden state (`M` invertible) and of
the shocks (`G` invertible) gives the same observation forecasts, forecast covariances and log-likelihoods, and states and
covariances in the new coordinates, for any missing pattern and time-varying matrices; without jitter for every `M`, with jitter
for every `M` that leaves the jitter's identity matrix alone (rotations, sign changes, permutations). -/
theorem C208_state_coordinates {M : Matrix n n ℝ} (hM : IsUnit M.det) {G : Matrix r r ℝ} (hG : IsUnit G.det) {j : ℝ}
    (hj : j = 0 ∨ M * Mᵀ = 1) (fill : ℝ) (a0 : n → ℝ) (P0 : Matrix n n ℝ) (rows : List (Row p × Params n p r)) :
    buildGraph j fill (M *ᵥ a0) (M * P0 * Mᵀ) (rows.map fun x => (x.1, Spec.inCoords M G x.2)) =
      Spec.outInCoords M (buildGraph j fill a0 P0 rows) := by
  have hj' : j • (M * Mᵀ) = j • (1 : Matrix n n ℝ) := by
    rcases hj with h | h
    · simp [h]
    · rw [h]
  simp only [buildGraph, filterScan_coords hM hG hj', postprocess, Spec.outInCoords, List.map_map, List.map_cons,
    ← List.map_dropLast]
  rfl

/-- A shear of two states is admissible without jitter, a rotation with any jitter. -/
example : IsUnit (!![1, 1; 0, 1] : Matrix (Fin 2) (Fin 2) ℝ).det ∧
    (!![0, -1; 1, 0] : Matrix (Fin 2) (Fin 2) ℝ) * (!![0, -1; 1, 0] : Matrix (Fin 2) (Fin 2) ℝ)ᵀ = 1 := by
  constructor
  · simp
  · ext i k
    fin_cases i <;> fin_cases k <;> simp [Matrix.mul_apply, Fin.sum_univ_two]

/-! ### Change of units of the data -/

/-- A row recorded in full in either units, the fill value avoided. -/
def Spec.Recorded (fill : ℝ) (A : Matrix p p ℝ) (k : p → ℝ) (y : p → ℝ) : Prop :=
  ∀ i, y i ≠ fill ∧ (A *ᵥ y + k) i ≠ fill

/-- One step's values in new units. -/
noncomputable def StepOut.inUnits (A : Matrix p p ℝ) (k : p → ℝ) (o : StepOut n p) : StepOut n p where
  aFilt := o.aFilt
  aHat := o.aHat
  obsMu := A *ᵥ o.obsMu + k
  PFilt := o.PFilt
  PHat := o.PHat
  obsCov := A * o.obsCov * Aᵀ
  ll := o.ll - Real.log |A.det|

omit [Fintype p] in
theorem maskW_recorded (fill : ℝ) (y : p → ℝ) (h : ∀ i, y i ≠ fill) : maskW fill (fun i => some (y i)) = 1 := by
  classical
  rw [maskW, ← diagonal_one]
  congr 1
  funext i
  rw [if_neg]
  simp [nanMask, h i]

omit [DecidableEq r] in
theorem kalmanStep_units [Nonempty p] {A : Matrix p p ℝ} (hA : IsUnit A.det) (k : p → ℝ) {j : ℝ}
    (hj : j • (A * Aᵀ) = j • (1 : Matrix p p ℝ)) (fill : ℝ) (y : p → ℝ) (hy : Spec.Recorded fill A k y) (a : n → ℝ)
    (P : Matrix n n ℝ) (θ : Params n p r) (hF : (kalmanStep j fill (fun i => some (y i)) a P θ).obsCov.det ≠ 0) :
    kalmanStep j fill (fun i => some ((A *ᵥ y + k) i)) a P (Spec.inUnits A k θ) =
      (kalmanStep j fill (fun i => some (y i)) a P θ).inUnits A k := by
  classical
  have hAt : IsUnit (Aᵀ).det := by rwa [det_transpose]
  have hW := maskW_recorded fill y fun i => (hy i).1
  have hW' := maskW_recorded fill (A *ᵥ y + k) fun i => (hy i).2
  have hall : ∀ u : p → ℝ, (∀ i, u i ≠ fill) → ¬ ∀ i, nanMask fill (fun i => some (u i)) i := fun u hu h => by
    obtain ⟨i⟩ := ‹Nonempty p›
    have := h i
    simp [nanMask, hu i] at this
  have hfill : ∀ u : p → ℝ, (∀ i, u i ≠ fill) →
      (fun i => if nanMask fill (fun i => some (u i)) i then (0 : ℝ) else (some (u i)).getD 0) = u := fun u hu => by
    funext i
    rw [if_neg (by simp [nanMask, hu i])]
    rfl
  have hn := hall y fun i => (hy i).1
  have hn' := hall (A *ᵥ y + k) fun i => (hy i).2
  have hf := hfill y fun i => (hy i).1
  have hf' := hfill (A *ᵥ y + k) fun i => (hy i).2
  have hFc : innovCov j P (A * θ.Z) (A * θ.H * Aᵀ) = A * innovCov j P θ.Z θ.H * Aᵀ := by
    rw [innovCov, innovCov, stabilize_conj hj, transpose_mul, Matrix.mul_add, Matrix.add_mul]
    simp only [Matrix.mul_assoc]
  have hinvc : ∀ F : Matrix p p ℝ, (A * F * Aᵀ)⁻¹ = (Aᵀ)⁻¹ * F⁻¹ * A⁻¹ := fun F => by
    rw [Matrix.mul_inv_rev, Matrix.mul_inv_rev, Matrix.mul_assoc]
  have hK : ∀ F : Matrix p p ℝ, gain P (A * θ.Z) (A * F * Aᵀ) = gain P θ.Z F * A⁻¹ := fun F => by
    have h1 : (A * F * Aᵀ)ᵀ = A * Fᵀ * Aᵀ := by
      simp only [transpose_mul, transpose_transpose, Matrix.mul_assoc]
    have h2 : P * (A * θ.Z)ᵀ = P * θ.Zᵀ * Aᵀ := by rw [transpose_mul, Matrix.mul_assoc]
    rw [gain, gain, h1, h2, hinvc]
    rw [transpose_mul (P * θ.Zᵀ) Aᵀ, transpose_transpose, Matrix.mul_assoc ((Aᵀ)⁻¹ * (Fᵀ)⁻¹), ← Matrix.mul_assoc A⁻¹,
      nonsing_inv_mul _ hA, Matrix.one_mul, Matrix.mul_assoc, transpose_mul ((Aᵀ)⁻¹), transpose_nonsing_inv, transpose_transpose]
  have hv : A *ᵥ y + k - (A *ᵥ (θ.d + θ.Z *ᵥ a) + k) = A *ᵥ (y - (θ.d + θ.Z *ᵥ a)) := by
    rw [mulVec_sub]
    abel
  have hKv : ∀ (K : Matrix n p ℝ) (v : p → ℝ), (K * A⁻¹) *ᵥ (A *ᵥ v) = K *ᵥ v := fun K v => by
    rw [mulVec_mulVec, Matrix.mul_assoc, nonsing_inv_mul _ hA, Matrix.mul_one]
  have hKZ : ∀ K : Matrix n p ℝ, K * A⁻¹ * (A * θ.Z) = K * θ.Z := fun K => by
    rw [Matrix.mul_assoc, ← Matrix.mul_assoc A⁻¹, nonsing_inv_mul _ hA, Matrix.one_mul]
  have hmu : A *ᵥ θ.d + k + (A * θ.Z) *ᵥ a = A *ᵥ (θ.d + θ.Z *ᵥ a) + k := by
    rw [mulVec_add, mulVec_mulVec]
    abel
  have hquad : ∀ (F : Matrix p p ℝ) (v : p → ℝ), A *ᵥ v ⬝ᵥ ((Aᵀ)⁻¹ * F⁻¹ * A⁻¹) *ᵥ (A *ᵥ v) = v ⬝ᵥ F⁻¹ *ᵥ v := fun F v => by
    rw [mulVec_mulVec, Matrix.mul_assoc, nonsing_inv_mul _ hA, Matrix.mul_one, ← vecMul_transpose, ← dotProduct_mulVec,
      mulVec_mulVec, ← Matrix.mul_assoc, mul_nonsing_inv _ hAt, Matrix.one_mul]
  simp only [kalmanStep, handleMissing, update, hW, Matrix.one_mul] at hF
  have hlog : Real.log (A * innovCov j P θ.Z θ.H * Aᵀ).det = 2 * Real.log |A.det| + Real.log (innovCov j P θ.Z θ.H).det := by
    rw [det_mul, det_mul, det_transpose, mul_assoc, mul_comm _ A.det, ← mul_assoc, ← sq, Real.log_mul (pow_ne_zero 2 hA.ne_zero) hF,
      Real.log_pow, Real.log_abs]
    norm_num
  simp only [kalmanStep, handleMissing, update, predict, Spec.inUnits, StepOut.inUnits, hW, hW', Matrix.one_mul, hf, hf', hn, hn',
    if_false, hFc, hK, hv, hKv, hKZ, hinvc, hquad, hlog, quadFormSym_right A hA, hmu]
  congr 1
  ring

omit [DecidableEq r] in
theorem filterScan_units [Nonempty p] {A : Matrix p p ℝ} (hA : IsUnit A.det) (k : p → ℝ) {j : ℝ}
    (hj : j • (A * Aᵀ) = j • (1 : Matrix p p ℝ)) (fill : ℝ) (rows : List ((p → ℝ) × Params n p r)) :
    ∀ (a : n → ℝ) (P : Matrix n n ℝ), (∀ x ∈ rows, Spec.Recorded fill A k x.1) →
    (∀ o ∈ filterScan j fill a P (rows.map fun x => (fun i => some (x.1 i), x.2)), o.obsCov.det ≠ 0) →
    filterScan j fill a P (rows.map fun x => (fun i => some ((A *ᵥ x.1 + k) i), Spec.inUnits A k x.2)) =
      (filterScan j fill a P (rows.map fun x => (fun i => some (x.1 i), x.2))).map (StepOut.inUnits A k) := by
  induction rows with
  | nil => intro a P _ _; rfl
  | cons x rest ih =>
    intro a P hy hF
    obtain ⟨y, θ⟩ := x
    simp only [List.map_cons, filterScan, List.mem_cons, forall_eq_or_imp] at hF hy ⊢
    rw [kalmanStep_units hA k hj fill y hy.1 a P θ hF.1]
    congr 1
    exact ih _ _ hy.2 hF.2

/-- **C208 (units of the data).** Re-expressing fully recorded data in other units (`A y + k` with `A` invertible), with `Z`, `d`
and `H` re-expressed accordingly and no jitter (or `A` orthogonal), leaves every hidden-state output alone, re-expresses the
observation forecasts and their covariances, and lowers the log-likelihood of every date by `log |det A|`, the Jacobian of the
change of units. -/
theorem C208_data_units [Nonempty p] {A : Matrix p p ℝ} (hA : IsUnit A.det) (k : p → ℝ) {j : ℝ} (hj : j = 0 ∨ A * Aᵀ = 1)
    (fill : ℝ) (a0 : n → ℝ) (P0 : Matrix n n ℝ) (rows : List ((p → ℝ) × Params n p r))
    (hy : ∀ x ∈ rows, Spec.Recorded fill A k x.1) :
    let o := buildGraph j fill a0 P0 (rows.map fun x => (fun i => some (x.1 i), x.2))
    let o' := buildGraph j fill a0 P0 (rows.map fun x => (fun i => some ((A *ᵥ x.1 + k) i), Spec.inUnits A k x.2))
    (∀ F ∈ o.observedCovs, F.det ≠ 0) →
      o'.filteredStates = o.filteredStates ∧ o'.predictedStates = o.predictedStates ∧
      o'.filteredCovs = o.filteredCovs ∧ o'.predictedCovs = o.predictedCovs ∧
      o'.observedStates = o.observedStates.map (fun m => A *ᵥ m + k) ∧
      o'.observedCovs = o.observedCovs.map (fun F => A * F * Aᵀ) ∧
      o'.loglike = o.loglike.map (fun l => l - Real.log |A.det|) := by
  intro o o' hF
  have hj' : j • (A * Aᵀ) = j • (1 : Matrix p p ℝ) := by
    rcases hj with h | h
    · simp [h]
    · rw [h]
  have h := filterScan_units hA k hj' fill rows a0 P0 hy (fun s hs => hF _ (List.mem_map_of_mem hs))
  simp only [o, o', buildGraph, h, postprocess, List.map_map]
  exact ⟨rfl, rfl, rfl, rfl, rfl, rfl, rfl⟩

/-- The one-state, one-series model with every variance one. -/
noncomputable def Spec.unitModel : Params (Fin 1) (Fin 1) (Fin 1) := ⟨0, 0, 1, 1, 1, 1, 1⟩

/-- Centimetres for metres, one date: the hypotheses of `C208_data_units` are met. -/
example : IsUnit (!![100] : Matrix (Fin 1) (Fin 1) ℝ).det ∧
    (∀ x ∈ [((fun _ => 3 : Fin 1 → ℝ), Spec.unitModel)], Spec.Recorded (-9999) !![100] 0 x.1) ∧
    (∀ F ∈ (buildGraph 0 (-9999) 0 1 ([((fun _ => 3 : Fin 1 → ℝ), Spec.unitModel)].map
      fun x => (fun i => some (x.1 i), x.2))).observedCovs, F.det ≠ 0) := by
  refine ⟨by simp, ?_, ?_⟩
  · intro x hx
    simp only [List.mem_singleton] at hx
    subst hx
    intro i
    fin_cases i
    constructor
    · norm_num
    · norm_num
  · have hW := maskW_recorded (p := Fin 1) (-9999) (fun _ => (3 : ℝ)) (by intro i; norm_num)
    simp only [buildGraph, postprocess, filterScan, List.map_cons, List.map_nil, kalmanStep, handleMissing, update, hW, innovCov,
      stabilize, Spec.unitModel, List.mem_singleton, forall_eq, Matrix.det_fin_one, Matrix.add_apply, Matrix.mul_apply, Fin.sum_univ_one,
      Matrix.one_apply, Matrix.smul_apply, Matrix.transpose_apply, if_true]
    norm_num

/-- **C208 (jitter spoils it).** With any positive jitter the units do matter: halving the unit of the data of the model with
unit variances changes the filtered state of the first date. -/
theorem C208_jitter_depends_on_units {j : ℝ} (hj : 0 < j) :
    let rows : List ((Fin 1 → ℝ) × Params (Fin 1) (Fin 1) (Fin 1)) := [(fun _ => 1, Spec.unitModel)]
    (buildGraph j (-9999) 0 1 (rows.map fun x => (fun i => some ((!![2] *ᵥ x.1 + 0) i), Spec.inUnits !![2] 0 x.2))).filteredStates ≠
      (buildGraph j (-9999) 0 1 (rows.map fun x => (fun i => some (x.1 i), x.2))).filteredStates := by
  intro rows h
  have hW := maskW_recorded (p := Fin 1) (-9999) (fun _ => (1 : ℝ)) (by intro i; norm_num)
  have hW' := maskW_recorded (p := Fin 1) (-9999) (fun _ => (2 : ℝ)) (by intro i; norm_num)
  have e2 : (fun i => some ((!![(2 : ℝ)] *ᵥ (fun _ => (1 : ℝ)) + 0) i) : Fin 1 → Option ℝ) = fun _ => some 2 := by
    funext i
    fin_cases i
    simp
  simp only [rows, buildGraph, postprocess, filterScan, List.map_cons, List.map_nil, e2, List.cons.injEq, and_true] at h
  have h0 := congrFun h 0
  have m1 : ¬ nanMask (p := Fin 1) (-9999) (fun _ => some (1 : ℝ)) 0 := by
    rintro (h | h)
    · exact absurd h (by simp)
    · norm_num at h
  have m2 : ¬ nanMask (p := Fin 1) (-9999) (fun _ => some (2 : ℝ)) 0 := by
    rintro (h | h)
    · exact absurd h (by simp)
    · norm_num at h
  simp only [kalmanStep, handleMissing, update, hW, hW', innovCov, gain, stabilize, Spec.unitModel, Spec.inUnits, mulVec,
    dotProduct, Matrix.inv_def, Matrix.adjugate_fin_one, Matrix.mul_apply, Fin.sum_univ_one, Matrix.det_fin_one, Pi.add_apply,
    Pi.sub_apply, Matrix.transpose_apply, Matrix.add_apply, Matrix.smul_apply, m1, m2, if_false, Matrix.one_apply, Pi.zero_apply,
    Fin.isValue, Ring.inverse_eq_inv', smul_eq_mul, Matrix.of_apply, Matrix.cons_val_zero, Matrix.cons_val', if_true,
    Option.getD_some] at h0
  norm_num at h0
  field_simp at h0
  nlinarith

end Verif.Kalman
