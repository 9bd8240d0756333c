import Verif.Kalman.Sqrt
import Verif.Kalman.Props
import Mathlib.LinearAlgebra.Matrix.Block

/-!
C07, C08 (square-root filter), C71 (initial covariance), C73 (partially missing rows).
-/

open Matrix

set_option linter.unusedSectionVars false

namespace Verif.Kalman

variable {n p r : Type*} [Fintype n] [Fintype p] [Fintype r] [DecidableEq n] [DecidableEq p] [DecidableEq r]

theorem sqrt_blocks {B : Matrix (p ⊕ n) (p ⊕ n) ℝ} {Hc : Matrix p p ℝ} {Z : Matrix p n ℝ} {L : Matrix n n ℝ}
    (hB : B * Bᵀ = sqrtA Hc Z L * (sqrtA Hc Z L)ᵀ) (h12 : B.toBlocks₁₂ = 0) :
    B.toBlocks₁₁ * B.toBlocks₁₁ᵀ = Z * (L * Lᵀ) * Zᵀ + Hc * Hcᵀ ∧
    B.toBlocks₂₁ * B.toBlocks₁₁ᵀ = L * Lᵀ * Zᵀ ∧
    B.toBlocks₂₁ * B.toBlocks₂₁ᵀ + B.toBlocks₂₂ * B.toBlocks₂₂ᵀ = L * Lᵀ := by
  have hBb := (fromBlocks_toBlocks B).symm
  rw [h12] at hBb
  rw [hBb, sqrtA, fromBlocks_transpose, fromBlocks_transpose, fromBlocks_multiply, fromBlocks_multiply] at hB
  have h := fromBlocks_inj.1 hB
  simp only [transpose_zero, Matrix.mul_zero, Matrix.zero_mul, add_zero, zero_add] at h
  obtain ⟨e1, -, e3, e4⟩ := h
  refine ⟨?_, ?_, e4⟩
  · rw [e1, transpose_mul]; simp only [Matrix.mul_assoc]; abel
  · rw [e3, transpose_mul]; simp only [Matrix.mul_assoc]

/-- **C07 (one step).** Given a factor `L` of the covariance, a fully observed row, no jitter and any results the
library may return, the square-root filter returns the same mean, prediction and forecast as the standard filter
started from `L Lᵀ`, and factors of the same covariances. -/
theorem C07_sqrt_step (fill : ℝ) (y : Row p) [Nonempty p] (hobs : ∀ i, ¬ Spec.Missing fill (y i)) (a : n → ℝ) (L : Matrix n n ℝ)
    (θ : Params n p r) (hH : θ.Hᵀ = θ.H) (lib : SqrtLib n p r) (hlib : lib.Valid 0 fill y a L θ)
    (hF : IsUnit (Spec.obsCov (L * Lᵀ) θ.Z θ.H).det) :
    let s := sqrtStep 0 fill y a L θ lib
    let o := kalmanStep 0 fill y a (L * Lᵀ) θ
    s.aFilt = o.aFilt ∧ s.PFilt * s.PFiltᵀ = o.PFilt ∧ s.aHat = o.aHat ∧ s.PHat * s.PHatᵀ = o.PHat ∧
      s.obsMu = o.obsMu ∧ s.obsCov * s.obsCovᵀ = o.obsCov := by
  intro s o
  have hW : maskW fill y = 1 := by
    rw [maskW, ← diagonal_one]; congr 1; funext i; exact if_neg (hobs i)
  have hy : (handleMissing fill y θ.Z θ.H).y = fun i => (y i).getD 0 := by
    funext i; exact if_neg (hobs i)
  have hZ : (handleMissing fill y θ.Z θ.H).Z = θ.Z := by simp [handleMissing, hW]
  have hH' : (handleMissing fill y θ.Z θ.H).H = θ.H := by simp [handleMissing, hW]
  have hnall : ¬ (handleMissing fill y θ.Z θ.H).allNan := fun h => hobs (Classical.arbitrary p) (h _)
  obtain ⟨v1, v2, v3, v4, v5⟩ := hlib
  rw [hZ] at v2
  rw [hH'] at v1
  obtain ⟨b1, b2, b3⟩ := sqrt_blocks v2 v3
  rw [v1] at b1
  have hPt : (L * Lᵀ)ᵀ = L * Lᵀ := by simp
  have hQ : θ.Qᵀ = θ.Q := by rw [← v4]; simp
  obtain ⟨k1, k2, k3, k4, k5, k6⟩ := C02_update_is_conditional fill y hobs a hPt θ hH hF
  set Fc := lib.B.toBlocks₁₁ with hFc
  have hFF : Fc * Fcᵀ = Spec.obsCov (L * Lᵀ) θ.Z θ.H := b1
  have hFu : IsUnit Fc.det := by
    have := hF; rw [← hFF, det_mul, det_transpose] at this
    exact isUnit_of_mul_isUnit_left this
  have hFtu : IsUnit Fcᵀ.det := by rwa [det_transpose]
  have hFi : (Spec.obsCov (L * Lᵀ) θ.Z θ.H)⁻¹ = Fcᵀ⁻¹ * Fc⁻¹ := by rw [← hFF, Matrix.mul_inv_rev]
  have hK : lib.B.toBlocks₂₁ = L * Lᵀ * θ.Zᵀ * Fcᵀ⁻¹ := by
    rw [← b2, Matrix.mul_assoc, mul_nonsing_inv _ hFtu, Matrix.mul_one]
  have hsa : s.aFilt = o.aFilt := by
    show (sqrtUpdate a L _ θ.d _ _ lib.B).a = _
    rw [k1]
    simp only [sqrtUpdate, if_neg hnall, hZ, hy, ← hFc, hK]
    rw [Spec.condMean, hFi, mulVec_mulVec]
    congr 2
    · simp only [Matrix.mul_assoc]
    · rw [sub_sub, add_comm θ.d]
  have hsP : s.PFilt = lib.B.toBlocks₂₂ := by
    show stabilize 0 (sqrtUpdate a L _ θ.d _ _ lib.B).L = _
    rw [stabilize_zero]; simp only [sqrtUpdate, if_neg hnall]
  have hsPP : s.PFilt * s.PFiltᵀ = o.PFilt := by
    have b3' : lib.B.toBlocks₂₂ * lib.B.toBlocks₂₂ᵀ = L * Lᵀ - lib.B.toBlocks₂₁ * lib.B.toBlocks₂₁ᵀ :=
      eq_sub_of_add_eq' b3
    rw [k2, hsP, Spec.condCov, b3', hK, hFi]
    congr 1
    simp only [transpose_mul, transpose_transpose, transpose_nonsing_inv, Matrix.mul_assoc]
  refine ⟨hsa, hsPP, ?_, ?_, ?_, ?_⟩
  · show θ.T *ᵥ s.aFilt + θ.c = θ.T *ᵥ o.aFilt + θ.c
    rw [hsa]
  · rw [k6 hQ]
    show lib.Rdᵀ * lib.Rdᵀᵀ = _
    rw [transpose_transpose, v5, sqrtM, transpose_fromCols, fromCols_mul_fromRows, ← v4]
    show θ.T * s.PFilt * (θ.T * s.PFilt)ᵀ + _ = _
    have := hsPP
    rw [show (kalmanStep 0 fill y a (L * Lᵀ) θ).PFilt = o.PFilt from rfl, ← hsPP]
    simp only [transpose_mul, Matrix.mul_assoc]
  · rw [k3]
    show (sqrtUpdate a L _ θ.d _ _ lib.B).yhat = _
    simp only [sqrtUpdate, if_neg hnall, hZ, add_comm]
  · rw [k4, ← hFF]
    show (sqrtUpdate a L _ θ.d _ _ lib.B).Fc * (sqrtUpdate a L _ θ.d _ _ lib.B).Fcᵀ = _
    simp only [sqrtUpdate, if_neg hnall, hFc]

/-- A step of the square-root filter and a step of the standard filter agree. -/
def SqrtRel (s o : StepOut n p) : Prop :=
  s.aFilt = o.aFilt ∧ s.PFilt * s.PFiltᵀ = o.PFilt ∧ s.aHat = o.aHat ∧ s.PHat * s.PHatᵀ = o.PHat ∧
    s.obsMu = o.obsMu ∧ s.obsCov * s.obsCovᵀ = o.obsCov

theorem sqrtRel_map {β : Type*} {f g : StepOut n p → β} {ls os : List (StepOut n p)}
    (h : List.Forall₂ SqrtRel ls os) (hfg : ∀ s o : StepOut n p, SqrtRel s o → f s = g o) : ls.map f = os.map g := by
  induction h with
  | nil => rfl
  | cons h _ ih => simp [hfg _ _ h, ih]

/-- **C07 (whole run).** By induction over the data: on fully observed rows and without jitter the square-root filter
started at the factor `L0` returns exactly the seven output sequences (other than the likelihood) of the standard filter
started at `L0 L0ᵀ`, for every choice the linear-algebra library makes. -/
theorem C07_sqrt_run (fill : ℝ) [Nonempty p] (rows : List ((Row p × Params n p r) × SqrtLib n p r)) :
    ∀ (a : n → ℝ) (L : Matrix n n ℝ), sqrtValid 0 fill a L rows →
    (∀ x ∈ rows, (∀ i, ¬ Spec.Missing fill (x.1.1 i)) ∧ x.1.2.Hᵀ = x.1.2.H) →
    (∀ F ∈ (buildGraph 0 fill a (L * Lᵀ) (rows.map Prod.fst)).observedCovs, IsUnit F.det) →
    let s := sqrtBuildGraph 0 fill a L rows
    let o := buildGraph 0 fill a (L * Lᵀ) (rows.map Prod.fst)
    s.filteredStates = o.filteredStates ∧ s.predictedStates = o.predictedStates ∧
      s.observedStates = o.observedStates ∧ s.filteredCovs = o.filteredCovs ∧ s.predictedCovs = o.predictedCovs ∧
      s.observedCovs = o.observedCovs := by
  have key : ∀ (rows : List ((Row p × Params n p r) × SqrtLib n p r)) (a : n → ℝ) (L : Matrix n n ℝ),
      sqrtValid 0 fill a L rows →
      (∀ x ∈ rows, (∀ i, ¬ Spec.Missing fill (x.1.1 i)) ∧ x.1.2.Hᵀ = x.1.2.H) →
      (∀ o ∈ filterScan 0 fill a (L * Lᵀ) (rows.map Prod.fst), IsUnit o.obsCov.det) →
      List.Forall₂ SqrtRel
        (sqrtScan 0 fill a L rows) (filterScan 0 fill a (L * Lᵀ) (rows.map Prod.fst)) := by
    intro rows
    induction rows with
    | nil => intro a L _ _ _; exact List.Forall₂.nil
    | cons x rest ih =>
      intro a L hv hx hF
      obtain ⟨⟨y, θ⟩, lib⟩ := x
      have hx0 := hx ((y, θ), lib) (by simp)
      have hW : maskW fill y = 1 := by
        rw [maskW, ← diagonal_one]; congr 1; funext i; exact if_neg (hx0.1 i)
      have hF0 : IsUnit (Spec.obsCov (L * Lᵀ) θ.Z θ.H).det := by
        have := hF (kalmanStep 0 fill y a (L * Lᵀ) θ) (by simp [filterScan])
        have he : (kalmanStep 0 fill y a (L * Lᵀ) θ).obsCov = Spec.obsCov (L * Lᵀ) θ.Z θ.H := by
          simp [kalmanStep, update, innovCov, handleMissing, hW, stabilize, Spec.obsCov, Matrix.mul_assoc]
        rwa [he] at this
      have hs := C07_sqrt_step fill y hx0.1 a L θ hx0.2 lib hv.1 hF0
      simp only [sqrtScan, filterScan, List.map_cons]
      refine List.Forall₂.cons hs ?_
      have ih' := ih (sqrtStep 0 fill y a L θ lib).aHat (sqrtStep 0 fill y a L θ lib).PHat hv.2
        (fun x hx' => hx x (by simp [hx']))
      rw [hs.2.2.1, hs.2.2.2.1] at ih'
      rw [hs.2.2.1]
      exact ih' fun o ho => hF o (by simp only [filterScan, List.map_cons, List.mem_cons]; exact Or.inr ho)
  intro a L hv hx hF s o
  have hk := key rows a L hv hx (fun o ho => hF o.obsCov (by
    simp only [buildGraph, postprocess]; exact List.mem_map_of_mem ho))
  refine ⟨?_, ?_, ?_, ?_, ?_, ?_⟩
  · exact sqrtRel_map hk fun s o h => h.1
  · simp only [s, o, sqrtBuildGraph, buildGraph, postprocess]
    rw [sqrtRel_map hk fun s o h => h.2.2.1]
  · exact sqrtRel_map hk fun s o h => h.2.2.2.2.1
  · simp only [s, o, sqrtBuildGraph, buildGraph, postprocess, squareAll, List.map_map]
    exact sqrtRel_map hk fun s o h => h.2.1
  · simp only [s, o, sqrtBuildGraph, buildGraph, postprocess, squareAll, List.map_cons, List.map_dropLast, List.map_map]
    rw [sqrtRel_map (f := (fun L => L * Lᵀ) ∘ StepOut.PHat) (g := StepOut.PHat) hk fun s o h => h.2.2.2.1]
  · simp only [s, o, sqrtBuildGraph, buildGraph, postprocess, squareAll, List.map_map]
    exact sqrtRel_map hk fun s o h => h.2.2.2.2.2

/-- A completely missing row leaves the state and the factor alone (no jitter) and contributes no likelihood. -/
theorem C07_sqrt_all_missing (fill : ℝ) (y : Row p) (hmiss : ∀ i, Spec.Missing fill (y i)) (a : n → ℝ)
    (L : Matrix n n ℝ) (θ : Params n p r) (lib : SqrtLib n p r) :
    let s := sqrtStep 0 fill y a L θ lib
    s.aFilt = a ∧ s.PFilt = L ∧ s.ll = 0 := by
  have hall : (handleMissing fill y θ.Z θ.H).allNan := hmiss
  simp only [sqrtStep, sqrtUpdate, if_pos hall, stabilize_zero]
  exact ⟨trivial, trivial, trivial⟩

/-- The contract can be met: one state, one series, `Z = 3/4`, `H = 1`, `L = 1`, `Q = 9/25`. -/
example : ∃ (θ : Params (Fin 1) (Fin 1) (Fin 1)) (lib : SqrtLib (Fin 1) (Fin 1) (Fin 1)),
    lib.Valid 0 (-9999) (fun _ => some 2) 0 1 θ ∧ IsUnit (Spec.obsCov (1 * 1ᵀ) θ.Z θ.H).det := by
  have hy : ∀ i : Fin 1, ¬ nanMask (-9999) (fun _ => some 2) i := by
    intro i h; rcases h with h | h
    · exact absurd h (by simp)
    · norm_num at h
  refine ⟨⟨0, 0, 1, (3 / 4 : ℝ) • 1, 1, 1, (9 / 25 : ℝ) • 1⟩,
    ⟨1, fromBlocks ((5 / 4 : ℝ) • 1) 0 ((3 / 5 : ℝ) • 1) ((4 / 5 : ℝ) • 1), (3 / 5 : ℝ) • 1, 1⟩, ⟨?_, ?_, ?_, ?_, ?_⟩, ?_⟩
  · ext i k; fin_cases i; fin_cases k; simp [handleMissing, maskW, hy]
  · have hW : maskW (-9999) (fun _ : Fin 1 => some 2) = 1 := by
      rw [maskW, ← diagonal_one]; congr 1; funext i; exact if_neg (hy i)
    simp only [sqrtA, handleMissing, hW, fromBlocks_transpose, fromBlocks_multiply]
    congr 1 <;> ext i k <;> fin_cases i <;> fin_cases k <;> simp <;> norm_num
  · simp
  · ext i k; fin_cases i; fin_cases k; simp; norm_num
  · have hn : ¬ (handleMissing (-9999) (fun _ : Fin 1 => some 2) ((3 / 4 : ℝ) • (1 : Matrix (Fin 1) (Fin 1) ℝ)) 1).allNan :=
      fun h => hy 0 (h 0)
    simp only [sqrtStep, sqrtUpdate, if_neg hn, stabilize_zero, sqrtM, transpose_fromCols,
      fromCols_mul_fromRows, toBlocks_fromBlocks₂₂]
    ext i k; fin_cases i; fin_cases k; simp; norm_num
  · rw [isUnit_iff_ne_zero, det_fin_one]
    simp [Spec.obsCov]; norm_num

/-! ### C08 -/

/-- **C08 (a).** For a single series the square-root filter's log-likelihood is the Gaussian log-density. -/
theorem C08_sqrt_loglik_single (fill : ℝ) (y : Row (Fin 1)) (hobs : ¬ Spec.Missing fill (y 0)) (a : n → ℝ)
    (L : Matrix n n ℝ) (θ : Params n (Fin 1) r) (lib : SqrtLib n (Fin 1) r) (hlib : lib.Valid 0 fill y a L θ)
    (hF : IsUnit (Spec.obsCov (L * Lᵀ) θ.Z θ.H).det) :
    (sqrtStep 0 fill y a L θ lib).ll =
      Spec.gaussLogDensity (Spec.obsCov (L * Lᵀ) θ.Z θ.H) (fun i => (y i).getD 0 - (θ.d + θ.Z *ᵥ a) i) := by
  have hobs' : ∀ i, ¬ Spec.Missing fill (y i) := by intro i; fin_cases i; exact hobs
  have hW : maskW fill y = 1 := by
    rw [maskW, ← diagonal_one]; congr 1; funext i; exact if_neg (hobs' i)
  have hy : (handleMissing fill y θ.Z θ.H).y = fun i => (y i).getD 0 := by
    funext i; exact if_neg (hobs' i)
  have hZ : (handleMissing fill y θ.Z θ.H).Z = θ.Z := by simp [handleMissing, hW]
  have hH' : (handleMissing fill y θ.Z θ.H).H = θ.H := by simp [handleMissing, hW]
  have hnall : ¬ (handleMissing fill y θ.Z θ.H).allNan := fun h => hobs' 0 (h _)
  obtain ⟨v1, v2, v3, -, -⟩ := hlib
  rw [hZ] at v2
  rw [hH'] at v1
  obtain ⟨b1, -, -⟩ := sqrt_blocks v2 v3
  rw [v1] at b1
  set Fc := lib.B.toBlocks₁₁ with hFc
  set F := Spec.obsCov (L * Lᵀ) θ.Z θ.H with hFd
  have hFF : F = Fc * Fcᵀ := b1.symm
  have hf : F.det = Fc 0 0 ^ 2 := by
    rw [hFF, det_mul, det_transpose, det_fin_one]; ring
  have hf0 : Fc 0 0 ≠ 0 := by
    intro h; rw [hf, h] at hF; simp at hF
  have hFi : F⁻¹ = Matrix.of fun _ _ => (Fc 0 0 ^ 2)⁻¹ := by
    apply inv_eq_right_inv
    ext i k; fin_cases i; fin_cases k
    simp [hFF, Matrix.mul_apply, hf0, ← sq]
  have hFci : Fc⁻¹ = Matrix.of fun _ _ => (Fc 0 0)⁻¹ := by
    apply inv_eq_right_inv
    ext i k; fin_cases i; fin_cases k
    simp [Matrix.mul_apply, hf0]
  have hlog : Real.log (Fc 0 0 ^ 2) = 2 * Real.log |Fc 0 0| := by
    rw [Real.log_abs, Real.log_pow]; norm_num
  simp only [sqrtStep, sqrtUpdate, if_neg hnall, hZ, hy, ← hFc, hFci, Spec.gaussLogDensity, hf, hFi, hlog, mvnConst]
  simp [mulVec, dotProduct]
  field_simp
  ring

/-- **C08 (b).** Exactly what the square-root filter computes for `k` observed series: with `C` the triangular factor
of the forecast covariance `F = C Cᵀ` and `v` the forecast error, it differs from the Gaussian log-density by
`−(k−1)/2 · log det F` and by using `vᵀ C⁻¹ C⁻¹ v` for the quadratic term `vᵀ F⁻¹ v`. -/
theorem C08_sqrt_loglik_exact {k : ℕ} (fill : ℝ) (y : Row (Fin k)) (hk : 0 < k) (hobs : ∀ i, ¬ Spec.Missing fill (y i))
    (a : n → ℝ) (L : Matrix n n ℝ) (θ : Params n (Fin k) r) (lib : SqrtLib n (Fin k) r)
    (hlib : lib.Valid 0 fill y a L θ) (htri : ∀ i l, i < l → lib.B.toBlocks₁₁ i l = 0)
    (hF : IsUnit (Spec.obsCov (L * Lᵀ) θ.Z θ.H).det) :
    ∃ C : Matrix (Fin k) (Fin k) ℝ, (∀ i l, i < l → C i l = 0) ∧ C * Cᵀ = Spec.obsCov (L * Lᵀ) θ.Z θ.H ∧
      ∀ v : Fin k → ℝ, (v = fun i => (y i).getD 0 - (θ.d + θ.Z *ᵥ a) i) →
        (sqrtStep 0 fill y a L θ lib).ll =
          Spec.gaussLogDensity (Spec.obsCov (L * Lᵀ) θ.Z θ.H) v -
            ((k : ℝ) - 1) / 2 * Real.log (Spec.obsCov (L * Lᵀ) θ.Z θ.H).det +
            (1 / 2) * (v ⬝ᵥ ((Spec.obsCov (L * Lᵀ) θ.Z θ.H)⁻¹ *ᵥ v) - v ⬝ᵥ (C⁻¹ *ᵥ (C⁻¹ *ᵥ v))) := by
  have hW : maskW fill y = 1 := by
    rw [maskW, ← diagonal_one]; congr 1; funext i; exact if_neg (hobs i)
  have hy : (handleMissing fill y θ.Z θ.H).y = fun i => (y i).getD 0 := by
    funext i; exact if_neg (hobs i)
  have hZ : (handleMissing fill y θ.Z θ.H).Z = θ.Z := by simp [handleMissing, hW]
  have hH' : (handleMissing fill y θ.Z θ.H).H = θ.H := by simp [handleMissing, hW]
  have hnall : ¬ (handleMissing fill y θ.Z θ.H).allNan := fun h => hobs ⟨0, hk⟩ (h _)
  obtain ⟨v1, v2, v3, -, -⟩ := hlib
  rw [hZ] at v2
  rw [hH'] at v1
  obtain ⟨b1, -, -⟩ := sqrt_blocks v2 v3
  rw [v1] at b1
  refine ⟨lib.B.toBlocks₁₁, htri, b1, fun v hv => ?_⟩
  set Fc := lib.B.toBlocks₁₁ with hFc
  set F := Spec.obsCov (L * Lᵀ) θ.Z θ.H with hFd
  have hFF : F = Fc * Fcᵀ := b1.symm
  have hdetFc : Fc.det = ∏ i, Fc i i := det_of_isLowerTriangular Fc (fun i l h => htri i l h)
  have hf : F.det = (∏ i, Fc i i) ^ 2 := by
    rw [hFF, det_mul, det_transpose, hdetFc]; ring
  have hne : ∀ i, Fc i i ≠ 0 := by
    intro i h
    have h0 : ∏ i, Fc i i = 0 := Finset.prod_eq_zero (f := fun i => Fc i i) (Finset.mem_univ i) h
    rw [hf, h0] at hF; simp at hF
  have hlog : Real.log ((∏ i, Fc i i) ^ 2) = 2 * ∑ i, Real.log |Fc i i| := by
    rw [Real.log_pow, Real.log_prod (fun i _ => hne i)]
    simp [Real.log_abs]
  have hv1 : (fun i => (y i).getD 0) - (θ.Z *ᵥ a + θ.d) = v := by
    rw [hv]; funext i; simp only [Pi.sub_apply, Pi.add_apply]; ring
  simp only [sqrtStep, sqrtUpdate, if_neg hnall, hZ, hy, ← hFc, Spec.gaussLogDensity, hf, hlog, mvnConst, hv1]
  simp
  ring

/-- **C08 (c).** When the forecast hits the data exactly (`v = 0`), the square-root filter's value differs
from the Gaussian log-density by `−(k−1)/2 · log det F`: a quantity that depends on the model, not a constant. -/
theorem C08_sqrt_loglik_wrong {k : ℕ} (fill : ℝ) (y : Row (Fin k)) (hk : 0 < k) (hobs : ∀ i, ¬ Spec.Missing fill (y i))
    (a : n → ℝ) (L : Matrix n n ℝ) (θ : Params n (Fin k) r) (lib : SqrtLib n (Fin k) r)
    (hlib : lib.Valid 0 fill y a L θ) (htri : ∀ i l, i < l → lib.B.toBlocks₁₁ i l = 0)
    (hF : IsUnit (Spec.obsCov (L * Lᵀ) θ.Z θ.H).det)
    (hv : ∀ i, (y i).getD 0 = (θ.d + θ.Z *ᵥ a) i) :
    (sqrtStep 0 fill y a L θ lib).ll =
      Spec.gaussLogDensity (Spec.obsCov (L * Lᵀ) θ.Z θ.H) (fun i => (y i).getD 0 - (θ.d + θ.Z *ᵥ a) i) -
        ((k : ℝ) - 1) / 2 * Real.log (Spec.obsCov (L * Lᵀ) θ.Z θ.H).det := by
  obtain ⟨C, -, -, h⟩ := C08_sqrt_loglik_exact fill y hk hobs a L θ lib hlib htri hF
  have hv0 : (fun i => (y i).getD 0 - (θ.d + θ.Z *ᵥ a) i) = 0 := by funext i; simp [hv i]
  rw [h _ rfl, hv0]
  simp

/-- The two quadratic terms differ already for two series with a non-diagonal factor. -/
theorem C08_quadratic_terms_differ : ∃ (C : Matrix (Fin 2) (Fin 2) ℝ) (v : Fin 2 → ℝ),
    (∀ i l, i < l → C i l = 0) ∧ IsUnit (C * Cᵀ).det ∧ v ⬝ᵥ ((C * Cᵀ)⁻¹ *ᵥ v) ≠ v ⬝ᵥ (C⁻¹ *ᵥ (C⁻¹ *ᵥ v)) := by
  refine ⟨!![1, 0; 1, 1], ![1, 0], ?_, ?_, ?_⟩
  · intro i l h; fin_cases i <;> fin_cases l <;> simp_all
  · rw [det_mul, det_transpose, det_fin_two_of]; norm_num
  · have h1 : (!![1, 0; 1, 1] : Matrix (Fin 2) (Fin 2) ℝ)⁻¹ = !![1, 0; -1, 1] := by
      apply inv_eq_right_inv
      ext i l; fin_cases i <;> fin_cases l <;> simp [Matrix.mul_apply, Fin.sum_univ_two]
    rw [Matrix.mul_inv_rev, ← transpose_nonsing_inv, h1]
    simp [mulVec, dotProduct, Fin.sum_univ_two, Matrix.mul_apply]

/-! ### C71 -/

/-- **C71.** With the square-root filter the initial covariance supplied by the user is used as a *factor*: the first
predicted covariance reported is `P0 P0ᵀ`. -/
theorem C71_sqrt_initial_cov (j fill : ℝ) (a0 : n → ℝ) (P0 : Matrix n n ℝ)
    (rows : List ((Row p × Params n p r) × SqrtLib n p r)) :
    (sqrtBuildGraph j fill a0 P0 rows).predictedCovs[0]? = some (P0 * P0ᵀ) ∧
      (buildGraph j fill a0 P0 (rows.map Prod.fst)).predictedCovs[0]? = some P0 := ⟨rfl, rfl⟩

/-- So for a scalar variance `s > 0` the two filters start from the same covariance only if `s = 1`. -/
theorem C71_sqrt_initial_cov_scalar (j fill : ℝ) (a0 : n → ℝ) (s : ℝ) (hs : 0 < s) [Nonempty n]
    (rows : List ((Row p × Params n p r) × SqrtLib n p r)) :
    (sqrtBuildGraph j fill a0 (s • 1) rows).predictedCovs[0]? =
      (buildGraph j fill a0 (s • (1 : Matrix n n ℝ)) (rows.map Prod.fst)).predictedCovs[0]? ↔ s = 1 := by
  rw [(C71_sqrt_initial_cov j fill a0 (s • 1) rows).1, (C71_sqrt_initial_cov j fill a0 (s • 1) rows).2]
  constructor
  · intro h
    have i := Classical.arbitrary n
    have := congrFun (congrFun (Option.some.inj h) i) i
    simp only [transpose_smul, transpose_one, Algebra.mul_smul_comm, Matrix.smul_apply, one_apply_eq,
      smul_eq_mul, mul_one] at this
    have h2 : s * (s - 1) = 0 := by linarith
    rcases mul_eq_zero.1 h2 with h | h
    · exact absurd h hs.ne'
    · linarith
  · rintro rfl; simp

/-! ### C73 -/

/-- **C73.** In a partially missing row with a non-zero remaining `H`, the masked `H` handed to the Cholesky routine
has no Cholesky factor (with non-zero diagonal), so the square-root filter cannot process such rows. -/
theorem C73_sqrt_partial_missing_no_factor (fill : ℝ) (y : Row p) (i : p) (hi : Spec.Missing fill (y i))
    (Z : Matrix p n ℝ) (H : Matrix p p ℝ) :
    ¬ ∃ C : Matrix p p ℝ, (∀ k, 0 < C k k) ∧ C * Cᵀ = (handleMissing fill y Z H).H := by
  rintro ⟨C, hpos, hC⟩
  have hi' : nanMask fill y i := hi
  have h := congrFun (congrFun hC i) i
  have h0 : (handleMissing fill y Z H).H i i = 0 := by simp [handleMissing, maskW, diagonal_mul, hi']
  rw [h0, Matrix.mul_apply] at h
  have h1 : ∑ k, C i k * Cᵀ k i = ∑ k, C i k ^ 2 := Finset.sum_congr rfl fun k _ => by rw [transpose_apply]; ring
  rw [h1] at h
  have h2 := (Finset.sum_eq_zero_iff_of_nonneg fun k _ => sq_nonneg (C i k)).1 h i (Finset.mem_univ i)
  have h3 := hpos i
  have : C i i = 0 := by simpa using h2
  linarith

example : Spec.Missing (-9999) ((![none, some 3] : Row (Fin 2)) 0) ∧
    (handleMissing (n := Fin 1) (-9999) (![none, some 3] : Row (Fin 2)) 0 1).H ≠ 0 := by
  constructor
  · simp [Spec.Missing]
  · intro h
    have := congrFun (congrFun h 1) 1
    have hn : ¬ nanMask (-9999) (![none, some 3] : Row (Fin 2)) 1 := by
      intro h; rcases h with h | h
      · exact absurd h (by simp)
      · norm_num at h
    simp [handleMissing, maskW, hn] at this

end Verif.Kalman
