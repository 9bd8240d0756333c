import Verif.Kalman.UnivariateOptimalProps
import Verif.Kalman.Relabel

/-!
# C214: the univariate filter's jitter, and the order in which it takes the series
-/

set_option autoImplicit false

open Matrix

namespace Verif.Kalman

variable {n r : Type*} [Fintype n] [Fintype r] [DecidableEq n] [DecidableEq r] {k : ℕ}

/-! ### Specification -/

/-- `j` added to every measurement error variance; correlations of the errors dropped. -/
def Spec.withJitter (j : ℝ) (H : Matrix (Fin k) (Fin k) ℝ) : Matrix (Fin k) (Fin k) ℝ := Matrix.diagonal fun i => H i i + j

/-- The series taken in another order: `f i` is the old position of the new series `i`. -/
def Spec.reorder (f : Equiv.Perm (Fin k)) (θ : Params n (Fin k) r) : Params n (Fin k) r :=
  Spec.relabel (Equiv.refl n) f (Equiv.refl r) θ

/-! ### Proofs -/

/-- What a series with jitter amounts to. -/
noncomputable def jittered (j : ℝ) (x : Series n) : Series n := { x with s := x.s + j, nan := False }

theorem univInner_jitter {j : ℝ} {P : Matrix n n ℝ} (hP : P.PosSemidef) (x : Series n) (hs : 0 ≤ x.s) (hj : 0 < x.s + j)
    (hn : x.nan → x.z = 0) (a : n → ℝ) :
    (univInner j x a P).a = (univInner 0 (jittered j x) a P).a ∧ (univInner j x a P).P = (univInner 0 (jittered j x) a P).P := by
  have hF := scalarF_pos hP (jittered j x) hj
  have hz0 : ¬ ((jittered j x).z ⬝ᵥ (P *ᵥ (jittered j x).z) + (jittered j x).s = 0 ∨ (jittered j x).nan) := by
    rintro (h | h)
    · exact hF.ne' h
    · exact h
  by_cases hz : x.z ⬝ᵥ (P *ᵥ x.z) + x.s = 0 ∨ x.nan
  · have hPz : P *ᵥ x.z = 0 := by
      rcases hz with h | h
      · have h0 := hP.dotProduct_mulVec_nonneg x.z
        simp only [star_trivial] at h0
        refine (hP.dotProduct_mulVec_zero_iff x.z).1 ?_
        simp only [star_trivial]
        linarith
      · rw [hn h, mulVec_zero]
    have hPz' : P *ᵥ (jittered j x).z = 0 := hPz
    simp only [univInner, if_pos hz, if_neg hz0, hPz, hPz', smul_zero, vecMulVec_zero, and_self]
  · constructor <;> simp only [univInner, if_neg hz, if_neg hz0] <;> simp [jittered, add_assoc]

theorem univFinal_jitter {j : ℝ} (xs : List (Series n)) (hs : ∀ x ∈ xs, 0 ≤ x.s ∧ 0 < x.s + j ∧ (x.nan → x.z = 0)) :
    ∀ (a : n → ℝ) (P : Matrix n n ℝ), P.PosSemidef → univFinal j a P xs = univFinal 0 a P (xs.map (jittered j)) := by
  induction xs with
  | nil => intro a P _; rfl
  | cons x xs ih =>
    intro a P hP
    obtain ⟨h1, h2, h3⟩ := hs x (by simp)
    obtain ⟨e1, e2⟩ := univInner_jitter hP x h1 h2 h3 a
    have := ih (fun x hx => hs x (by simp [hx])) (univInner j x a P).a (univInner j x a P).P (univInner_posSemidef hP x h2 a)
    simp only [univFinal, List.map_cons] at this ⊢
    rw [this, e1, e2]

open Classical in
/-- The design matrix with the rows of the missing entries zeroed. -/
noncomputable def maskedZ (y : Row (Fin k)) (θ : Params n (Fin k) r) : Matrix (Fin k) n ℝ :=
  Matrix.of fun i => if y i = none then 0 else θ.Z i

open Classical in
/-- The measurement variances with jitter, those of missing entries zeroed first. -/
noncomputable def maskedS (j : ℝ) (y : Row (Fin k)) (θ : Params n (Fin k) r) : Fin k → ℝ :=
  fun i => (if y i = none then 0 else θ.H i i) + j

open Classical in
theorem univSeries_masked (y : Row (Fin k)) (θ : Params n (Fin k) r) : univSeries y θ =
    List.ofFn fun i => { y := (y i).getD 0, z := maskedZ y θ i, d := θ.d i, s := maskedS 0 y θ i, nan := y i = none } := by
  show List.ofFn _ = List.ofFn _
  congr 1
  funext i
  have h1 : ((Matrix.diagonal fun i => if y i = none then (0 : ℝ) else 1) * θ.Z) i = maskedZ y θ i := by
    funext l
    by_cases h : y i = none <;> simp [maskedZ, h]
  have h2 : ((Matrix.diagonal fun i => if y i = none then (0 : ℝ) else 1) * θ.H) i i = maskedS 0 y θ i := by
    by_cases h : y i = none <;> simp [maskedS, h]
  simp only [h1, h2]

theorem univFinal_masked {j : ℝ} (y : Row (Fin k)) (θ : Params n (Fin k) r) (hH : ∀ i, 0 ≤ θ.H i i)
    (hpos : ∀ i, 0 < maskedS j y θ i) (a : n → ℝ) {P : Matrix n n ℝ} (hP : P.PosSemidef) :
    univFinal j a P (univSeries y θ) =
        (Spec.condMean a P (fun i => (y i).getD 0) θ.d (maskedZ y θ) (Matrix.diagonal (maskedS j y θ)),
          Spec.condCov P (maskedZ y θ) (Matrix.diagonal (maskedS j y θ))) ∧
      0 < (Spec.obsCov P (maskedZ y θ) (Matrix.diagonal (maskedS j y θ))).det := by
  classical
  have hs : ∀ i, maskedS 0 y θ i + j = maskedS j y θ i := by intro i; simp [maskedS]
  rw [univSeries_masked, univFinal_jitter _ _ a P hP]
  · rw [List.map_ofFn]
    have hb := univ_eq_batch k (fun i => jittered j
      { y := (y i).getD 0, z := maskedZ y θ i, d := θ.d i, s := maskedS 0 y θ i, nan := y i = none }) a P hP
      (fun i => ⟨id, by show 0 < maskedS 0 y θ i + j; rw [hs]; exact hpos i⟩)
    simp only [jittered, hs] at hb
    have hZ : (Matrix.of fun i => maskedZ y θ i) = maskedZ y θ := rfl
    rw [hZ] at hb
    obtain ⟨b1, b2, b3, -⟩ := hb
    refine ⟨Prod.ext ?_ ?_, ?_⟩
    · simpa only [Function.comp_def, jittered, hs] using b1
    · simpa only [Function.comp_def, jittered, hs] using b2
    · simpa only using b3
  · intro x hx
    obtain ⟨i, rfl⟩ := (List.mem_ofFn' _ _).1 hx
    refine ⟨?_, by rw [hs]; exact hpos i, ?_⟩
    · by_cases h : y i = none <;> simp [maskedS, h, hH i]
    · intro h
      funext l
      have h : y i = none := h
      simp [maskedZ, h]

/-- One step, in closed form. -/
theorem univStep_masked {j : ℝ} (hk : 0 < k) (y : Row (Fin k)) (θ : Params n (Fin k) r) (hH : ∀ i, 0 ≤ θ.H i i)
    (hpos : ∀ i, 0 < maskedS j y θ i) (a : n → ℝ) {P : Matrix n n ℝ} (hP : P.PosSemidef) :
    ∃ u, univStep j y a P θ = some u ∧
      u.aFilt = Spec.condMean a P (fun i => (y i).getD 0) θ.d (maskedZ y θ) (Matrix.diagonal (maskedS j y θ)) ∧
      u.PFilt = Spec.condCov P (maskedZ y θ) (Matrix.diagonal (maskedS j y θ)) + j • (1 : Matrix n n ℝ) ∧
      u.aHat = θ.T *ᵥ u.aFilt + θ.c ∧ u.PHat = quadFormSym θ.T u.PFilt + quadFormSym θ.R θ.Q ∧
      (Spec.condCov P (maskedZ y θ) (Matrix.diagonal (maskedS j y θ))).PosSemidef := by
  classical
  obtain ⟨hb, hdet⟩ := univFinal_masked y θ hH hpos a hP
  have hne : univSeries y θ ≠ [] := by
    rw [univSeries_masked]; intro h; have := congrArg List.length h; simp at this; omega
  obtain ⟨l, hl, la, lP⟩ := univScan_getLast j (univSeries y θ) a P hne
  rw [hb] at la lP
  have hps := condCov_posSemidef hP (maskedZ y θ) (PosSemidef.diagonal fun i => (hpos i).le) hdet.ne'.isUnit
  have hPf : stabilize j ((1 / 2 : ℝ) • (l.P + l.Pᵀ)) =
      Spec.condCov P (maskedZ y θ) (Matrix.diagonal (maskedS j y θ)) + j • (1 : Matrix n n ℝ) := by
    rw [lP, PosSemidef.transpose_eq hps, ← two_smul ℝ, smul_smul]
    norm_num [stabilize]
  have hF := univScan_F_pos j (univSeries y θ) (by
    rw [univSeries_masked]; intro x hx; obtain ⟨i, rfl⟩ := (List.mem_ofFn' _ _).1 hx
    have := hpos i
    simp only [maskedS, add_zero] at this ⊢
    exact this) a P hP
  rw [univStep_eq j y a P θ (fun o ho => (hF o ho).ne') l hl]
  exact ⟨_, rfl, la, hPf, rfl, rfl, hps⟩

theorem mulVec_relabel' {m : Type*} (f : Equiv.Perm (Fin k)) (A : Matrix m (Fin k) ℝ) (v : Fin k → ℝ) :
    A.submatrix id f *ᵥ (v ∘ f) = A *ᵥ v := by
  funext i
  simp only [mulVec, dotProduct, submatrix_apply, id, Function.comp]
  exact Equiv.sum_comp f fun l => A i l * v l

theorem condMean_sub (f : Equiv.Perm (Fin k)) (a : n → ℝ) (P : Matrix n n ℝ) (y d : Fin k → ℝ) (Z : Matrix (Fin k) n ℝ)
    (H : Matrix (Fin k) (Fin k) ℝ) :
    Spec.condMean a P (y ∘ f) (d ∘ f) (Z.submatrix f id) (H.submatrix f f) = Spec.condMean a P y d Z H := by
  have hO : Spec.obsCov P (Z.submatrix f id) (H.submatrix f f) = (Spec.obsCov P Z H).submatrix f f := by
    ext i l; simp [Spec.obsCov, Matrix.mul_apply]
  have hv : y ∘ f - d ∘ f - Z.submatrix f id *ᵥ a = (y - d - Z *ᵥ a) ∘ f := rfl
  have hg : P * (Z.submatrix f id)ᵀ = (P * Zᵀ).submatrix id f := rfl
  rw [Spec.condMean, Spec.condMean, hO, inv_submatrix_equiv, hv, hg, submatrix_mul_equiv, mulVec_relabel' f]

theorem condCov_sub (f : Equiv.Perm (Fin k)) (P : Matrix n n ℝ) (Z : Matrix (Fin k) n ℝ) (H : Matrix (Fin k) (Fin k) ℝ) :
    Spec.condCov P (Z.submatrix f id) (H.submatrix f f) = Spec.condCov P Z H := by
  have hO : Spec.obsCov P (Z.submatrix f id) (H.submatrix f f) = (Spec.obsCov P Z H).submatrix f f := by
    ext i l; simp [Spec.obsCov, Matrix.mul_apply]
  have hg : P * (Z.submatrix f id)ᵀ = (P * Zᵀ).submatrix id f := rfl
  rw [Spec.condCov, Spec.condCov, hO, inv_submatrix_equiv, hg, submatrix_mul_equiv, submatrix_mul_equiv]
  rfl

/-- **C214 (jitter).** On a row without missing entries the univariate filter with jitter `j` conditions the state on the data
*exactly as if `j` had been added to the measurement error variance of every series* (and all correlations of the errors dropped),
after which `j` is added to the variances of the filtered state once more; the prediction is made from there. For every incoming mean
and positive semidefinite covariance. -/
theorem C214_jitter_is_measurement_error {j : ℝ} (hk : 0 < k) (y : Row (Fin k)) (hy : ∀ i, y i ≠ none) (θ : Params n (Fin k) r)
    (hH : ∀ i, 0 ≤ θ.H i i) (hpos : ∀ i, 0 < θ.H i i + j) (a : n → ℝ) {P : Matrix n n ℝ} (hP : P.PosSemidef) :
    ∃ u, univStep j y a P θ = some u ∧
      u.aFilt = Spec.condMean a P (fun i => (y i).getD 0) θ.d θ.Z (Spec.withJitter j θ.H) ∧
      u.PFilt = Spec.condCov P θ.Z (Spec.withJitter j θ.H) + j • (1 : Matrix n n ℝ) ∧
      u.aHat = θ.T *ᵥ u.aFilt + θ.c ∧ u.PHat = quadFormSym θ.T u.PFilt + quadFormSym θ.R θ.Q := by
  have hS : maskedS j y θ = fun i => θ.H i i + j := by funext i; simp [maskedS, hy i]
  have hZ : maskedZ y θ = θ.Z := by ext i l; simp [maskedZ, hy i]
  obtain ⟨u, h0, h1, h2, h3, h4, -⟩ := univStep_masked (j := j) hk y θ hH (by rw [hS]; exact hpos) a hP
  rw [hS, hZ] at h1 h2
  exact ⟨u, h0, h1, h2, h3, h4⟩

/-- **C214 (order of the series).** The order in which the univariate filter takes the series does not matter for its states: with a
positive jitter and non-negative measurement variances, the filtered and predicted means and covariances are the same for every
order, whatever entries are missing, at every date. -/
theorem C214_series_order {j : ℝ} (hj : 0 < j) (hk : 0 < k) (f : Equiv.Perm (Fin k)) (θ : Params n (Fin k) r) (hH : ∀ i, 0 ≤ θ.H i i)
    (hQ : θ.Q.PosSemidef) (a0 : n → ℝ) {P0 : Matrix n n ℝ} (hP0 : P0.PosSemidef) (ys : List (Row (Fin k))) :
    ∃ out out', univGraph j a0 P0 θ ys = some out ∧
      univGraph j a0 P0 (Spec.reorder f θ) (ys.map fun y i => y (f i)) = some out' ∧
      out'.filteredStates = out.filteredStates ∧ out'.predictedStates = out.predictedStates ∧
      out'.filteredCovs = out.filteredCovs ∧ out'.predictedCovs = out.predictedCovs := by
  have key : ∀ (ys : List (Row (Fin k))) (a : n → ℝ) (P : Matrix n n ℝ), P.PosSemidef →
      ∃ rs rs', univRows j θ a P ys = some rs ∧ univRows j (Spec.reorder f θ) a P (ys.map fun y i => y (f i)) = some rs' ∧
        rs'.map UnivOut.aFilt = rs.map UnivOut.aFilt ∧ rs'.map UnivOut.aHat = rs.map UnivOut.aHat ∧
        rs'.map UnivOut.PFilt = rs.map UnivOut.PFilt ∧ rs'.map UnivOut.PHat = rs.map UnivOut.PHat := by
    intro ys
    induction ys with
    | nil => intro a P _; exact ⟨[], [], rfl, rfl, rfl, rfl, rfl, rfl⟩
    | cons y ys ih =>
      intro a P hP
      have hp : ∀ i, 0 < maskedS j y θ i := by
        intro i
        by_cases h : y i = none
        · simpa [maskedS, h] using hj
        · simp only [maskedS, if_neg h]; linarith [hH i]
      have hS : maskedS j (fun i => y (f i)) (Spec.reorder f θ) = maskedS j y θ ∘ f := rfl
      have hZ : maskedZ (fun i => y (f i)) (Spec.reorder f θ) = (maskedZ y θ).submatrix f id := rfl
      have hD : Matrix.diagonal (maskedS j y θ ∘ f) = (Matrix.diagonal (maskedS j y θ)).submatrix f f := by
        rw [submatrix_diagonal_equiv]
      obtain ⟨u, u0, u1, u2, u3, u4, u5⟩ := univStep_masked hk y θ hH hp a hP
      obtain ⟨v, v0, v1, v2, v3, v4, -⟩ := univStep_masked (j := j) hk (fun i => y (f i)) (Spec.reorder f θ) (fun i => hH (f i))
        (fun i => hp (f i)) a hP
      rw [hS, hZ, hD] at v1 v2
      have w1 : v.aFilt = u.aFilt := by
        rw [v1, u1]
        exact condMean_sub f a P (fun i => (y i).getD 0) θ.d _ _
      have w2 : v.PFilt = u.PFilt := by rw [v2, u2, condCov_sub]
      have w3 : v.aHat = u.aHat := by rw [v3, u3, w1]; rfl
      have w4 : v.PHat = u.PHat := by rw [v4, u4, w2]; rfl
      have hP' : u.PHat.PosSemidef := by
        rw [u4, u2]
        exact (quadFormSym_posSemidef _ (u5.add (PosSemidef.one.smul hj.le))).add (quadFormSym_posSemidef _ hQ)
      obtain ⟨rs, rs', r0, r0', r1, r2, r3, r4⟩ := ih u.aHat u.PHat hP'
      refine ⟨u :: rs, v :: rs', ?_, ?_, ?_, ?_, ?_, ?_⟩
      · simp only [univRows, u0, Option.bind_some, r0, Option.map_some]
      · simp only [List.map_cons, univRows, v0, Option.bind_some, w3, w4, r0', Option.map_some]
      · simp only [List.map_cons, w1, r1]
      · simp only [List.map_cons, w3, r2]
      · simp only [List.map_cons, w2, r3]
      · simp only [List.map_cons, w4, r4]
  obtain ⟨rs, rs', r0, r0', r1, r2, r3, r4⟩ := key ys a0 P0 hP0
  refine ⟨_, _, by rw [univGraph, r0]; rfl, by rw [univGraph, r0']; rfl, r1, ?_, r3, ?_⟩
  · show a0 :: (rs'.map UnivOut.aHat).dropLast = a0 :: (rs.map UnivOut.aHat).dropLast
    rw [r2]
  · show P0 :: (rs'.map UnivOut.PHat).dropLast = P0 :: (rs.map UnivOut.PHat).dropLast
    rw [r4]

/-- Two series of the same scalar state, with measurement variances `1/2` and `1`. -/
noncomputable def orderDemo : Params (Fin 1) (Fin 2) (Fin 1) where
  c := 0
  d := 0
  T := 1
  Z := Matrix.of fun _ _ => 1
  R := 1
  H := Matrix.diagonal ![1 / 2, 1]
  Q := 1

/-- A row of zeros. -/
def orderRow : Row (Fin 2) := fun _ => some 0

/-- A series of zeros observing a scalar state. -/
noncomputable def zeroSeries (s : ℝ) : Series (Fin 1) := { y := 0, z := fun _ => 1, d := 0, s := s, nan := False }

/-- A scalar variance. -/
noncomputable def var1 (q : ℝ) : Matrix (Fin 1) (Fin 1) ℝ := Matrix.of fun _ _ => q

theorem zeroSeries_step {q s : ℝ} (h : q + s ≠ 0) :
    (univInner 0 (zeroSeries s) 0 (var1 q)).a = 0 ∧ (univInner 0 (zeroSeries s) 0 (var1 q)).P = var1 (q - q ^ 2 / (q + s)) ∧
      (univInner 0 (zeroSeries s) 0 (var1 q)).ll = Real.log (q + s) ∧ (univInner 0 (zeroSeries s) 0 (var1 q)).F = q + s := by
  have hq : var1 q *ᵥ (fun _ : Fin 1 => (1 : ℝ)) = fun _ => q := by funext i; simp [var1, mulVec, dotProduct]
  have hd : (fun _ : Fin 1 => (1 : ℝ)) ⬝ᵥ (fun _ => q) = q := by simp [dotProduct]
  refine ⟨?_, ?_, ?_, ?_⟩
  · funext i; simp [univInner, zeroSeries]
  · ext i l
    have hv : var1 q i l = q := rfl
    have hw : var1 (q - q ^ 2 / (q + s)) i l = q - q ^ 2 / (q + s) := rfl
    rw [hw]
    simp [univInner, zeroSeries, hq, hd, h, hv]
    field_simp
    rw [vecMulVec_apply]
    ring
  · simp [univInner, zeroSeries, hq, hd, h]
  · simp [univInner, zeroSeries, hq, hd]

theorem orderDemo_loglik (s1 s2 : ℝ) (θ : Params (Fin 1) (Fin 2) (Fin 1)) (h1 : 1 / 2 + s1 ≠ 0)
    (h2 : 1 / 2 - (1 / 2) ^ 2 / (1 / 2 + s1) + s2 ≠ 0) (hser : univSeries orderRow θ = [zeroSeries s1, zeroSeries s2]) :
    ∃ u, univStep 0 orderRow 0 (var1 (1 / 2)) θ = some u ∧
      u.ll = -(1 / 2) * ((([Real.log (1 / 2 + s1), Real.log (1 / 2 - (1 / 2) ^ 2 / (1 / 2 + s1) + s2)].countP
        fun l => l ≠ 0 : ℕ) : ℝ) * mvnConst +
          (Real.log (1 / 2 + s1) + Real.log (1 / 2 - (1 / 2) ^ 2 / (1 / 2 + s1) + s2))) := by
  classical
  obtain ⟨a1, p1, l1, f1⟩ := zeroSeries_step h1
  obtain ⟨a2, p2, l2, f2⟩ := zeroSeries_step h2
  have hscan : univScan 0 0 (var1 (1 / 2)) (univSeries orderRow θ) = [univInner 0 (zeroSeries s1) 0 (var1 (1 / 2)),
      univInner 0 (zeroSeries s2) 0 (var1 (1 / 2 - (1 / 2) ^ 2 / (1 / 2 + s1)))] := by
    rw [hser]
    show [_, univInner 0 (zeroSeries s2) (univInner 0 (zeroSeries s1) 0 (var1 (1 / 2))).a
      (univInner 0 (zeroSeries s1) 0 (var1 (1 / 2))).P] = _
    rw [a1, p1]
  refine ⟨_, univStep_eq 0 orderRow 0 (var1 (1 / 2)) θ ?_ (univInner 0 (zeroSeries s2) 0 (var1 (1 / 2 - (1 / 2) ^ 2 / (1 / 2 + s1)))) ?_, ?_⟩
  · rw [hscan]
    intro o ho
    simp only [List.mem_cons, List.not_mem_nil, or_false] at ho
    rcases ho with rfl | rfl
    · rw [f1]; exact h1
    · rw [f2]; exact h2
  · rw [hscan]; rfl
  · simp only [hscan, List.map_cons, List.map_nil, List.sum_cons, List.sum_nil, add_zero, l1, l2, List.countP_cons, List.countP_nil]

/-- **C214 (likelihood).** The reported log-likelihood does depend on the order: each series' `log 2π` is counted only if its term
`log F + v²/F` is not exactly zero, and the terms depend on the order. For a scalar state with variance `1/2` seen by two series with
error variances `1/2` and `1`, both observed at their forecasts, the log-likelihoods of the two orders differ by `½ log 2π`. -/
theorem C214_likelihood_depends_on_order : ∃ u u', univStep 0 orderRow 0 (var1 (1 / 2)) orderDemo = some u ∧
    univStep 0 (fun i => orderRow (Equiv.swap 0 1 i)) 0 (var1 (1 / 2)) (Spec.reorder (Equiv.swap 0 1) orderDemo) = some u' ∧
    u'.ll = u.ll - 1 / 2 * Real.log (2 * Real.pi) := by
  have e1 : univSeries orderRow orderDemo = [zeroSeries (1 / 2), zeroSeries 1] := by
    rw [univSeries_masked]
    simp [List.ofFn_succ, orderRow, maskedZ, maskedS, orderDemo, zeroSeries]
    constructor <;> rfl
  have e2 : univSeries orderRow (Spec.reorder (Equiv.swap 0 1) orderDemo) = [zeroSeries 1, zeroSeries (1 / 2)] := by
    rw [univSeries_masked]
    simp [List.ofFn_succ, orderRow, maskedZ, maskedS, orderDemo, zeroSeries, Spec.reorder, Spec.relabel]
    constructor <;> rfl
  obtain ⟨u, u0, u1⟩ := orderDemo_loglik (1 / 2) 1 orderDemo (by norm_num) (by norm_num) e1
  obtain ⟨v, v0, v1⟩ := orderDemo_loglik 1 (1 / 2) _ (by norm_num) (by norm_num) e2
  refine ⟨u, v, u0, v0, ?_⟩
  have l1 : Real.log (3 / 2) ≠ 0 := (Real.log_pos (by norm_num)).ne'
  have l2 : Real.log (5 / 6) ≠ 0 := (Real.log_neg (by norm_num) (by norm_num)).ne
  have l3 : Real.log (5 / 4) ≠ 0 := (Real.log_pos (by norm_num)).ne'
  have l4 : Real.log (3 / 2) + Real.log (5 / 6) = Real.log (5 / 4) := by
    rw [← Real.log_mul (by norm_num) (by norm_num)]; norm_num
  norm_num at u1 v1
  simp [List.countP_cons, l1, l2, l3] at u1 v1
  rw [u1, v1, ← l4, mvnConst]
  ring

/-- The hypotheses hold for the two series, one of them missing at the second date, in swapped order. -/
example : ∃ out out', univGraph 1 0 (var1 (1 / 2)) orderDemo [orderRow, fun i => if i = 0 then none else some 3] = some out ∧
    univGraph 1 0 (var1 (1 / 2)) (Spec.reorder (Equiv.swap 0 1) orderDemo)
      ([orderRow, fun i => if i = 0 then none else some 3].map fun y i => y (Equiv.swap 0 1 i)) = some out' ∧
    out'.filteredStates = out.filteredStates ∧ out'.predictedStates = out.predictedStates ∧
    out'.filteredCovs = out.filteredCovs ∧ out'.predictedCovs = out.predictedCovs :=
  C214_series_order one_pos two_pos _ _ (by intro i; fin_cases i <;> simp [orderDemo]) PosSemidef.one 0
    (by
      have : var1 (1 / 2) = Matrix.diagonal fun _ => 1 / 2 := by ext i l; rw [Subsingleton.elim l i, diagonal_apply_eq]; rfl
      rw [this]; exact PosSemidef.diagonal fun _ => by norm_num) _

end Verif.Kalman
