import Verif.Kalman.Univariate
import Verif.Kalman.Sequential
import Verif.Kalman.Props

/-!
C06: the univariate filter agrees with the standard filter.
-/

open Matrix

set_option linter.unusedSectionVars false

namespace Verif.Kalman

variable {n r : Type*} [Fintype n] [Fintype r] [DecidableEq n] [DecidableEq r]

/-- The carried pair after all series. -/
noncomputable def univFinal (j : ℝ) (a : n → ℝ) (P : Matrix n n ℝ) : List (Series n) → (n → ℝ) × Matrix n n ℝ
  | [] => (a, P)
  | x :: xs => univFinal j (univInner j x a P).a (univInner j x a P).P xs

theorem univScan_getLast (j : ℝ) (xs : List (Series n)) : ∀ (a : n → ℝ) (P : Matrix n n ℝ), xs ≠ [] →
    ∃ l, (univScan j a P xs).getLast? = some l ∧ l.a = (univFinal j a P xs).1 ∧ l.P = (univFinal j a P xs).2 := by
  induction xs with
  | nil => intro a P h; exact absurd rfl h
  | cons x xs ih =>
    intro a P _
    by_cases hx : xs = []
    · subst hx; exact ⟨univInner j x a P, by simp [univScan], rfl, rfl⟩
    · obtain ⟨l, h1, h2, h3⟩ := ih (univInner j x a P).a (univInner j x a P).P hx
      refine ⟨l, ?_, h2, h3⟩
      cases xs with
      | nil => exact absurd rfl hx
      | cons x' xs' => simpa [univScan, List.getLast?_cons_cons] using h1

section one

variable (x : Series n) (a : n → ℝ) (P : Matrix n n ℝ)

/-- Matrices of the one-series problem. -/
def z1 (x : Series n) : Matrix PUnit.{1} n ℝ := Matrix.of fun _ => x.z
def h1 (x : Series n) : Matrix PUnit.{1} PUnit.{1} ℝ := Matrix.of fun _ _ => x.s

theorem obsCov_one : Spec.obsCov P (z1 x) (h1 x) = Matrix.of fun _ _ => x.z ⬝ᵥ (P *ᵥ x.z) + x.s := by
  ext i k
  rw [Spec.obsCov, Matrix.mul_assoc]
  simp only [Matrix.add_apply, h1, of_apply, add_left_inj]
  rfl

theorem obsCov_one_det : (Spec.obsCov P (z1 x) (h1 x)).det = x.z ⬝ᵥ (P *ᵥ x.z) + x.s := by
  rw [obsCov_one, det_unique]; rfl

theorem obsCov_one_inv (hF : x.z ⬝ᵥ (P *ᵥ x.z) + x.s ≠ 0) :
    (Spec.obsCov P (z1 x) (h1 x))⁻¹ = Matrix.of fun _ _ => 1 / (x.z ⬝ᵥ (P *ᵥ x.z) + x.s) := by
  apply inv_eq_right_inv
  rw [obsCov_one]
  ext i k
  simp [Matrix.mul_apply, hF]

theorem gain_one (hF : x.z ⬝ᵥ (P *ᵥ x.z) + x.s ≠ 0) :
    P * (z1 x)ᵀ * (Spec.obsCov P (z1 x) (h1 x))⁻¹ =
      Matrix.of fun i _ => (1 / (x.z ⬝ᵥ (P *ᵥ x.z) + x.s)) * (P *ᵥ x.z) i := by
  rw [obsCov_one_inv x P hF]
  ext i k
  simp [Matrix.mul_apply, mulVec, dotProduct, z1, mul_comm]

theorem univInner_a (hnan : ¬ x.nan) (hF : x.z ⬝ᵥ (P *ᵥ x.z) + x.s ≠ 0) :
    (univInner 0 x a P).a = Spec.condMean a P (fun _ => x.y) (fun _ => x.d) (z1 x) (h1 x) := by
  have hz : ¬ (x.z ⬝ᵥ (P *ᵥ x.z) + x.s = 0 ∨ x.nan) := by tauto
  rw [Spec.condMean, gain_one x P hF]
  funext i
  simp only [univInner, if_neg hz, add_zero, Pi.add_apply, Pi.smul_apply, smul_eq_mul, one_mul]
  simp [mulVec, dotProduct, z1]
  ring

theorem univInner_P (hnan : ¬ x.nan) (hP : Pᵀ = P) (hF : x.z ⬝ᵥ (P *ᵥ x.z) + x.s ≠ 0) :
    (univInner 0 x a P).P = Spec.condCov P (z1 x) (h1 x) := by
  have hz : ¬ (x.z ⬝ᵥ (P *ᵥ x.z) + x.s = 0 ∨ x.nan) := by tauto
  have hs : ∀ i k, P i k = P k i := fun i k => by conv_lhs => rw [← hP, transpose_apply]
  rw [Spec.condCov, gain_one x P hF]
  ext i k
  simp only [univInner, if_neg hz, add_zero, Matrix.sub_apply, one_smul, Matrix.smul_apply, vecMulVec_apply,
    Pi.smul_apply, smul_eq_mul]
  congr 1
  have h : ((Matrix.of fun i (_ : PUnit.{1}) => (1 / (x.z ⬝ᵥ (P *ᵥ x.z) + x.s)) * (P *ᵥ x.z) i) * z1 x * P) i k =
      (1 / (x.z ⬝ᵥ (P *ᵥ x.z) + x.s)) * (P *ᵥ x.z) i * (P *ᵥ x.z) k := by
    rw [Matrix.mul_assoc, Matrix.mul_apply]
    simp only [Finset.univ_unique, Finset.sum_singleton, of_apply]
    congr 1
    simp only [Matrix.mul_apply, z1, of_apply, mulVec, dotProduct]
    exact Finset.sum_congr rfl fun l _ => by rw [hs l k]; ring
  rw [h]
  field_simp

theorem univInner_ll (hnan : ¬ x.nan) (hF : x.z ⬝ᵥ (P *ᵥ x.z) + x.s ≠ 0) :
    -(1 / 2) * (mvnConst + (univInner 0 x a P).ll) =
      Spec.gaussLogDensity (Spec.obsCov P (z1 x) (h1 x)) ((fun _ => x.y) - (fun _ => x.d) - z1 x *ᵥ a) := by
  have hz : ¬ (x.z ⬝ᵥ (P *ᵥ x.z) + x.s = 0 ∨ x.nan) := by tauto
  rw [Spec.gaussLogDensity, obsCov_one_det, obsCov_one_inv x P hF]
  simp only [univInner, if_neg hz, add_zero, mvnConst]
  simp [mulVec, dotProduct, z1]
  ring

end one

theorem condCov_posSemidef {p : Type*} [Fintype p] [DecidableEq p] {P : Matrix n n ℝ} (hP : P.PosSemidef)
    (Z : Matrix p n ℝ) {H : Matrix p p ℝ} (hH : H.PosSemidef) (hF : IsUnit (Spec.obsCov P Z H).det) :
    (Spec.condCov P Z H).PosSemidef := by
  have := joseph_eq (PosSemidef.transpose_eq hP) Z (PosSemidef.transpose_eq hH) hF
  rw [Spec.condCov, Spec.obsCov, ← this]
  exact (quadFormSym_posSemidef _ hP).add (quadFormSym_posSemidef _ hH)

/-- `PUnit ⊕ Fin k ≃ Fin (k+1)`, the first series on the left. -/
def consEquiv (k : ℕ) : PUnit.{1} ⊕ Fin k ≃ Fin (k + 1) :=
  (Equiv.sumComm _ _).trans ((Equiv.optionEquivSumPUnit _).symm.trans (finSuccEquiv k).symm)

@[simp] theorem consEquiv_inl (k : ℕ) (u : PUnit.{1}) : consEquiv k (.inl u) = 0 := by simp [consEquiv]
@[simp] theorem consEquiv_inr (k : ℕ) (i : Fin k) : consEquiv k (.inr i) = i.succ := by simp [consEquiv]

theorem scalarF_pos {P : Matrix n n ℝ} (hP : P.PosSemidef) (x : Series n) (hs : 0 < x.s) :
    0 < x.z ⬝ᵥ (P *ᵥ x.z) + x.s := by
  have := hP.dotProduct_mulVec_nonneg x.z
  simp only [star_trivial] at this
  linarith

/-- The covariance stays positive semidefinite. -/
theorem univInner_posSemidef {j : ℝ} {P : Matrix n n ℝ} (hP : P.PosSemidef) (x : Series n) (hs : 0 < x.s + j) (a : n → ℝ) :
    (univInner j x a P).P.PosSemidef := by
  by_cases hz : x.z ⬝ᵥ (P *ᵥ x.z) + x.s = 0 ∨ x.nan
  · have : (univInner j x a P).P = P := by
      simp only [univInner, if_pos hz, zero_smul]
      ext i k; simp
    rw [this]; exact hP
  · have hF := scalarF_pos hP { x with s := x.s + j } hs
    have hz0 : ¬ (x.z ⬝ᵥ (P *ᵥ x.z) + (x.s + j) = 0 ∨ x.nan) := by
      rintro (h | h)
      · exact absurd h hF.ne'
      · exact hz (Or.inr h)
    have e : (univInner j x a P).P = (univInner 0 { x with s := x.s + j } a P).P := by
      simp only [univInner, if_neg hz, if_neg hz0, add_zero, ← add_assoc]
    rw [e, univInner_P { x with s := x.s + j } a P (fun h => hz (Or.inr h)) (PosSemidef.transpose_eq hP) hF.ne']
    refine condCov_posSemidef hP _ ?_ ?_
    · have : h1 { x with s := x.s + j } = Matrix.diagonal fun _ => x.s + j := by ext i k; simp [h1]
      rw [this]; exact PosSemidef.diagonal fun _ => hs.le
    · rw [obsCov_one_det]; exact hF.ne'.isUnit

/-- All jittered variances are positive. -/
theorem univScan_F_pos (j : ℝ) (xs : List (Series n)) (hs : ∀ x ∈ xs, 0 < x.s + j) : ∀ (a : n → ℝ) (P : Matrix n n ℝ),
    P.PosSemidef → ∀ o ∈ univScan j a P xs, 0 < o.F := by
  induction xs with
  | nil => intro a P _ o ho; simp [univScan] at ho
  | cons x xs ih =>
    intro a P hP o ho
    simp only [univScan, List.mem_cons] at ho
    have hx := hs x (by simp)
    rcases ho with rfl | ho
    · have := scalarF_pos hP { x with s := x.s + j } hx
      show 0 < x.z ⬝ᵥ (P *ᵥ x.z) + x.s + j
      linarith [show x.z ⬝ᵥ (P *ᵥ x.z) + (x.s + j) > 0 from this]
    · exact ih (fun x hx => hs x (by simp [hx])) _ _ (univInner_posSemidef hP x hx a) o ho

/-- A step without division by zero. -/
theorem univStep_eq {k : ℕ} (j : ℝ) (y : Row (Fin k)) (a : n → ℝ) (P : Matrix n n ℝ) (θ : Params n (Fin k) r)
    (hF : ∀ o ∈ univScan j a P (univSeries y θ), o.F ≠ 0) (l : InnerOut n)
    (hl : (univScan j a P (univSeries y θ)).getLast? = some l) :
    univStep j y a P θ = some
      { aFilt := l.a
        aHat := (predict l.a (stabilize j ((1 / 2 : ℝ) • (l.P + l.Pᵀ))) θ.c θ.T θ.R θ.Q).1
        obsMu := l.yhat
        PFilt := stabilize j ((1 / 2 : ℝ) • (l.P + l.Pᵀ))
        PHat := (predict l.a (stabilize j ((1 / 2 : ℝ) • (l.P + l.Pᵀ))) θ.c θ.T θ.R θ.Q).2
        obsCov := l.F
        ll := -(1 / 2) * (((univScan j a P (univSeries y θ)).countP fun o => o.ll ≠ 0 : ℕ) * mvnConst +
          ((univScan j a P (univSeries y θ)).map InnerOut.ll).sum) } := by
  have h : ¬ ∃ o ∈ univScan j a P (univSeries y θ), o.F = 0 := by
    rintro ⟨o, ho, h0⟩; exact hF o ho h0
  simp only [univStep, if_neg h, hl]

theorem univ_eq_batch (k : ℕ) : ∀ (xs : Fin k → Series n) (a : n → ℝ) (P : Matrix n n ℝ), P.PosSemidef →
    (∀ i, ¬ (xs i).nan ∧ 0 < (xs i).s) →
    let Z : Matrix (Fin k) n ℝ := Matrix.of fun i => (xs i).z
    let H : Matrix (Fin k) (Fin k) ℝ := Matrix.diagonal fun i => (xs i).s
    let y := fun i => (xs i).y
    let d := fun i => (xs i).d
    (univFinal 0 a P (List.ofFn xs)).1 = Spec.condMean a P y d Z H ∧
      (univFinal 0 a P (List.ofFn xs)).2 = Spec.condCov P Z H ∧
      0 < (Spec.obsCov P Z H).det ∧
      ((univScan 0 a P (List.ofFn xs)).map fun o => -(1 / 2) * (mvnConst + o.ll)).sum =
        Spec.gaussLogDensity (Spec.obsCov P Z H) (y - d - Z *ᵥ a) := by
  induction k with
  | zero =>
    intro xs a P hP hx Z H y d
    refine ⟨?_, ?_, ?_, ?_⟩
    · simp [univFinal, Spec.condMean, Matrix.mulVec_empty]
    · simp [univFinal, Spec.condCov]
    · simp
    · simp [univScan, Spec.gaussLogDensity]
  | succ k ih =>
    intro xs a P hP hx Z H y d
    have hx0 := hx 0
    have hFpos := scalarF_pos hP (xs 0) hx0.2
    have hPt := PosSemidef.transpose_eq hP
    have hH1 : (h1 (xs 0)).PosSemidef := by
      have : h1 (xs 0) = Matrix.diagonal fun _ => (xs 0).s := by ext i k; simp [h1]
      rw [this]; exact PosSemidef.diagonal fun _ => hx0.2.le
    have hdet1 : 0 < (Spec.obsCov P (z1 (xs 0)) (h1 (xs 0))).det := by rw [obsCov_one_det]; exact hFpos
    have ea := univInner_a (xs 0) a P hx0.1 hFpos.ne'
    have eP := univInner_P (xs 0) a P hx0.1 hPt hFpos.ne'
    have el := univInner_ll (xs 0) a P hx0.1 hFpos.ne'
    have hP1 := condCov_posSemidef hP (z1 (xs 0)) hH1 hdet1.ne'.isUnit
    have hi := ih (fun i => xs i.succ) (univInner 0 (xs 0) a P).a (univInner 0 (xs 0) a P).P (by rw [eP]; exact hP1)
      (fun i => hx i.succ)
    simp only [eP, ea] at hi
    obtain ⟨i1, i2, i3, i4⟩ := hi
    have hZe : Z.submatrix (consEquiv k) id =
        fromRows (z1 (xs 0)) (Matrix.of fun i : Fin k => (xs i.succ).z) := by
      ext i l; cases i <;> simp [Z, z1]
    have hHe : H.submatrix (consEquiv k) (consEquiv k) =
        fromBlocks (h1 (xs 0)) 0 0 (Matrix.diagonal fun i : Fin k => (xs i.succ).s) := by
      ext i l; cases i <;> cases l <;> simp [H, h1, diagonal_apply, Fin.succ_ne_zero, (Fin.succ_ne_zero _).symm]
    have hye : y ∘ consEquiv k = Sum.elim (fun _ => (xs 0).y) (fun i => (xs i.succ).y) := by
      funext i; cases i <;> simp [y]
    have hde : d ∘ consEquiv k = Sum.elim (fun _ => (xs 0).d) (fun i => (xs i.succ).d) := by
      funext i; cases i <;> simp [d]
    have hdet : (Spec.obsCov P Z H).det = (Spec.obsCov P (z1 (xs 0)) (h1 (xs 0))).det *
        (Spec.obsCov (Spec.condCov P (z1 (xs 0)) (h1 (xs 0))) (Matrix.of fun i : Fin k => (xs i.succ).z)
          (Matrix.diagonal fun i : Fin k => (xs i.succ).s)).det := by
      rw [← det_submatrix_equiv_self (consEquiv k), Spec.obsCov_reindex, hZe, hHe,
        Spec.det_two _ _ _ _ _ hdet1.ne'.isUnit]
    refine ⟨?_, ?_, ?_, ?_⟩
    · rw [Spec.condMean_reindex (consEquiv k), hZe, hHe, hye, hde,
        Spec.condMean_two _ _ _ _ _ _ hdet1.ne'.isUnit i3.ne'.isUnit, ← i1]
      simp [List.ofFn_succ, univFinal, ea, eP]
    · rw [Spec.condCov_reindex (consEquiv k), hZe, hHe,
        Spec.condCov_two _ _ _ _ _ hdet1.ne'.isUnit i3.ne'.isUnit, ← i2]
      simp [List.ofFn_succ, univFinal, ea, eP]
    · rw [hdet]; exact mul_pos hdet1 i3
    · have hv : (y - d - Z *ᵥ a) ∘ consEquiv k =
          Sum.elim (fun _ => (xs 0).y) (fun i => (xs i.succ).y) - Sum.elim (fun _ => (xs 0).d) (fun i => (xs i.succ).d) -
            fromRows (z1 (xs 0)) (Matrix.of fun i : Fin k => (xs i.succ).z) *ᵥ a := by
        rw [← hye, ← hde, ← hZe]; rfl
      rw [Spec.gaussLogDensity_reindex (consEquiv k), Spec.obsCov_reindex, hZe, hHe, hv,
        Spec.gaussLogDensity_two _ _ _ _ _ _ hPt (PosSemidef.transpose_eq hH1) hdet1 i3, ← i4, ← el]
      simp only [List.ofFn_succ, univScan, List.map_cons, List.sum_cons, ea, eP]

theorem univSeries_observed {k : ℕ} (y : Row (Fin k)) (hy : ∀ i, y i ≠ none) (θ : Params n (Fin k) r) :
    univSeries y θ = List.ofFn fun i =>
      { y := (y i).getD 0, z := θ.Z i, d := θ.d i, s := θ.H i i, nan := y i = none } := by
  classical
  have hW : (Matrix.diagonal fun i => if y i = none then (0 : ℝ) else 1) = (1 : Matrix (Fin k) (Fin k) ℝ) := by
    rw [← diagonal_one]; congr 1; funext i; exact if_neg (hy i)
  simp only [univSeries]
  congr 1
  funext i
  rw [hW, Matrix.one_mul, Matrix.one_mul]

/-- **C06.** On a fully observed row, with diagonal `H` with positive entries and zero jitter, the univariate filter
returns the filtered and predicted moments of the standard filter. -/
theorem C06_univariate_eq_standard {k : ℕ} (hk : 0 < k) (fill : ℝ) (y : Row (Fin k))
    (hy : ∀ i, ¬ Spec.Missing fill (y i)) (a : n → ℝ) {P : Matrix n n ℝ} (hP : P.PosSemidef)
    (θ : Params n (Fin k) r) (s : Fin k → ℝ) (hs : ∀ i, 0 < s i) (hH : θ.H = Matrix.diagonal s) :
    ∃ u, univStep 0 y a P θ = some u ∧
      u.aFilt = (kalmanStep 0 fill y a P θ).aFilt ∧ u.PFilt = (kalmanStep 0 fill y a P θ).PFilt ∧
      u.aHat = (kalmanStep 0 fill y a P θ).aHat ∧ u.PHat = (kalmanStep 0 fill y a P θ).PHat := by
  have hy' : ∀ i, y i ≠ none := fun i h => hy i (Or.inl h)
  have hu := univSeries_observed y hy' θ
  have hb := univ_eq_batch k (fun i => { y := (y i).getD 0, z := θ.Z i, d := θ.d i, s := θ.H i i, nan := y i = none })
    a P hP (fun i => ⟨hy' i, by rw [hH, diagonal_apply_eq]; exact hs i⟩)
  rw [← hu] at hb
  simp only at hb
  have hZ : (Matrix.of fun i => θ.Z i) = θ.Z := rfl
  have hHd : (Matrix.diagonal fun i => θ.H i i) = θ.H := by
    rw [hH]; congr 1; funext i; rw [diagonal_apply_eq]
  rw [hZ, hHd] at hb
  obtain ⟨b1, b2, b3, -⟩ := hb
  have hHs : θ.Hᵀ = θ.H := by rw [hH, diagonal_transpose]
  have hPt := PosSemidef.transpose_eq hP
  have hst := C02_update_is_conditional fill y hy a hPt θ hHs b3.ne'.isUnit
  have hne : univSeries y θ ≠ [] := by
    rw [hu]; intro h; have := congrArg List.length h; simp at this; omega
  obtain ⟨l, hl, la, lP⟩ := univScan_getLast 0 (univSeries y θ) a P hne
  have hHp : θ.H.PosSemidef := by rw [hH]; exact PosSemidef.diagonal fun i => (hs i).le
  have hsym : (Spec.condCov P θ.Z θ.H)ᵀ = Spec.condCov P θ.Z θ.H :=
    PosSemidef.transpose_eq (condCov_posSemidef hP θ.Z hHp b3.ne'.isUnit)
  have hPf : stabilize 0 ((1 / 2 : ℝ) • (l.P + l.Pᵀ)) = Spec.condCov P θ.Z θ.H := by
    rw [stabilize_zero, lP, b2, hsym, ← two_smul ℝ, smul_smul]; norm_num
  have hF := univScan_F_pos 0 (univSeries y θ) (by
    rw [hu]; intro x hx; obtain ⟨i, rfl⟩ := (List.mem_ofFn' _ _).1 hx
    simp only [hH, diagonal_apply_eq, add_zero]; exact hs i) a P hP
  rw [univStep_eq 0 y a P θ (fun o ho => (hF o ho).ne') l hl]
  refine ⟨_, rfl, ?_, ?_, ?_, ?_⟩
  · rw [hst.1, ← b1]; exact la
  · rw [hst.2.1]; exact hPf
  · show θ.T *ᵥ l.a + θ.c = θ.T *ᵥ (kalmanStep 0 fill y a P θ).aFilt + θ.c
    rw [hst.1, la, b1]
  · show quadFormSym θ.T (stabilize 0 ((1 / 2 : ℝ) • (l.P + l.Pᵀ))) + quadFormSym θ.R θ.Q =
      quadFormSym θ.T (kalmanStep 0 fill y a P θ).PFilt + quadFormSym θ.R θ.Q
    rw [hst.2.1, hPf]

theorem univ_det_pos {k : ℕ} {P : Matrix n n ℝ} (hP : P.PosSemidef)
    (θ : Params n (Fin k) r) (s : Fin k → ℝ) (hs : ∀ i, 0 < s i) (hH : θ.H = Matrix.diagonal s) :
    0 < (Spec.obsCov P θ.Z θ.H).det := by
  have hb := univ_eq_batch k (fun i => { y := 0, z := θ.Z i, d := θ.d i, s := s i, nan := False })
    0 P hP (fun i => ⟨id, hs i⟩)
  rw [hH]
  exact hb.2.2.1

/-- **C06 (likelihood).** The univariate log-likelihood counts `log 2π` once per series whose inner term
`log F + v²/F` is non-zero: if no inner term vanishes, it is the multivariate Gaussian log-density of the row. In
general it differs from it by `½ log 2π` per vanishing term. -/
theorem C06_univariate_loglik {k : ℕ} (hk : 0 < k) (y : Row (Fin k))
    (hy : ∀ i, y i ≠ none) (a : n → ℝ) {P : Matrix n n ℝ} (hP : P.PosSemidef)
    (θ : Params n (Fin k) r) (s : Fin k → ℝ) (hs : ∀ i, 0 < s i) (hH : θ.H = Matrix.diagonal s) :
    ∃ u, univStep 0 y a P θ = some u ∧
      u.ll = Spec.gaussLogDensity (Spec.obsCov P θ.Z θ.H) ((fun i => (y i).getD 0) - θ.d - θ.Z *ᵥ a) +
        (((univScan 0 a P (univSeries y θ)).countP fun o => o.ll = 0 : ℕ) : ℝ) / 2 * Real.log (2 * Real.pi) := by
  have hu := univSeries_observed y hy θ
  have hb := univ_eq_batch k (fun i => { y := (y i).getD 0, z := θ.Z i, d := θ.d i, s := θ.H i i, nan := y i = none })
    a P hP (fun i => ⟨hy i, by rw [hH, diagonal_apply_eq]; exact hs i⟩)
  rw [← hu] at hb
  simp only at hb
  have hZ : (Matrix.of fun i => θ.Z i) = θ.Z := rfl
  have hHd : (Matrix.diagonal fun i => θ.H i i) = θ.H := by
    rw [hH]; congr 1; funext i; rw [diagonal_apply_eq]
  rw [hZ, hHd] at hb
  have hne : univSeries y θ ≠ [] := by
    rw [hu]; intro h; have := congrArg List.length h; simp at this; omega
  obtain ⟨l, hl, la, lP⟩ := univScan_getLast 0 (univSeries y θ) a P hne
  have hF := univScan_F_pos 0 (univSeries y θ) (by
    rw [hu]; intro x hx; obtain ⟨i, rfl⟩ := (List.mem_ofFn' _ _).1 hx
    simp only [hH, diagonal_apply_eq, add_zero]; exact hs i) a P hP
  rw [univStep_eq 0 y a P θ (fun o ho => (hF o ho).ne') l hl]
  refine ⟨_, rfl, ?_⟩
  have hb4 := hb.2.2.2
  have hcount : ∀ os : List (InnerOut n),
      -(1 / 2) * (((os.countP fun o => o.ll ≠ 0 : ℕ) : ℝ) * mvnConst + (os.map InnerOut.ll).sum) =
        (os.map fun o => -(1 / 2) * (mvnConst + o.ll)).sum +
          (((os.countP fun o => o.ll = 0 : ℕ) : ℝ) / 2 * mvnConst) := by
    intro os
    induction os with
    | nil => simp
    | cons o os ih =>
      simp only [List.countP_cons, List.map_cons, List.sum_cons]
      by_cases ho : o.ll = 0
      · simp only [ho, ne_eq, not_true_eq_false, decide_false, decide_true, if_true, Bool.false_eq_true, if_false,
          add_zero] at ih ⊢
        push_cast
        linarith
      · simp only [ho, ne_eq, not_false_eq_true, decide_false, decide_true, if_true, Bool.false_eq_true, if_false,
          add_zero] at ih ⊢
        push_cast
        linarith
  show -(1 / 2) * _ = _
  rw [hcount, hb4]
  rfl

/-- The lost constant is real: one series, `F = 1`, `v = 0` gives log-likelihood `0` instead of `−½ log 2π`. -/
example : ∃ u, univStep (k := 1) (n := Fin 1) (r := Fin 1) 0 (fun _ => some 0) 0 0 ⟨0, 0, 1, 1, 1, 1, 1⟩ = some u ∧
    u.ll = 0 := by
  simp [univStep, univSeries, univScan, univInner, List.ofFn_succ]

/-- Two series with different loadings, correlated states: hypotheses of C06 are satisfiable. -/
example : ∃ (θ : Params (Fin 2) (Fin 2) (Fin 2)) (s : Fin 2 → ℝ), (∀ i, 0 < s i) ∧ θ.H = Matrix.diagonal s ∧
    θ.Z ≠ 1 ∧ (!![1, 1; 1, 1] : Matrix (Fin 2) (Fin 2) ℝ).PosSemidef := by
  refine ⟨⟨0, 0, 1, !![1, 2; 3, 4], 1, Matrix.diagonal ![1, 2], 1⟩, ![1, 2], ?_, rfl, ?_, ?_⟩
  · intro i; fin_cases i <;> simp
  · intro h; have := congrFun (congrFun h 0) 1; simp at this
  · have : (!![1, 1; 1, 1] : Matrix (Fin 2) (Fin 2) ℝ) =
        (!![1; 1] : Matrix (Fin 2) (Fin 1) ℝ) * (!![1; 1] : Matrix (Fin 2) (Fin 1) ℝ)ᴴ := by
      ext i k; fin_cases i <;> fin_cases k <;> simp [Matrix.mul_apply]
    rw [this]; exact posSemidef_self_mul_conjTranspose _

theorem univFinal_skips_nan (j : ℝ) (xs : List (Series n)) [DecidablePred fun x : Series n => ¬ x.nan] :
    ∀ (a : n → ℝ) (P : Matrix n n ℝ), univFinal j a P xs = univFinal j a P (xs.filter fun x => ¬ x.nan) := by
  induction xs with
  | nil => intros; rfl
  | cons x xs ih =>
    intro a P
    by_cases hx : x.nan
    · have h1 : (univInner j x a P).a = a := by simp [univInner, hx]
      have h2 : (univInner j x a P).P = P := by
        simp only [univInner, hx, or_true, if_true, zero_smul]
        ext i k; simp
      rw [List.filter_cons_of_neg (by simpa using hx), ← ih]
      simp only [univFinal, h1, h2]
    · rw [List.filter_cons_of_pos (by simpa using hx)]
      simp only [univFinal]
      exact ih _ _

/-- **C06 (missing).** NaN series are skipped by the univariate filter: whenever it returns numbers, the filtered mean and
covariance are those of the run over the non-NaN series only (the incoming moments if there are none), for every jitter and
every `H`. -/
theorem C06_univariate_skips_nan {k : ℕ} (j : ℝ) (y : Row (Fin k)) (a : n → ℝ) (P : Matrix n n ℝ) (θ : Params n (Fin k) r)
    (u : UnivOut n) (hu : univStep j y a P θ = some u) [DecidablePred fun x : Series n => ¬ x.nan] :
    let seen := (univSeries y θ).filter fun x => ¬ x.nan
    (seen = [] → u.aFilt = a ∧ u.PFilt = stabilize j ((1 / 2 : ℝ) • (P + Pᵀ))) ∧
      ∀ l', (univScan j a P seen).getLast? = some l' →
        u.aFilt = l'.a ∧ u.PFilt = stabilize j ((1 / 2 : ℝ) • (l'.P + l'.Pᵀ)) := by
  intro seen
  have hxs : univSeries y θ ≠ [] := by intro h; simp [univStep, h, univScan] at hu
  have hF : ∀ o ∈ univScan j a P (univSeries y θ), o.F ≠ 0 := by
    intro o ho h0
    have h : ∃ o ∈ univScan j a P (univSeries y θ), o.F = 0 := ⟨o, ho, h0⟩
    simp only [univStep, if_pos h] at hu
    cases hu
  obtain ⟨m, hm, ma, mP⟩ := univScan_getLast j (univSeries y θ) a P hxs
  rw [univStep_eq j y a P θ hF m hm] at hu
  obtain rfl := Option.some.inj hu
  rw [univFinal_skips_nan] at ma mP
  constructor
  · intro h
    rw [show (univSeries y θ).filter (fun x => ¬ x.nan) = [] from h] at ma mP
    simp only [ma, mP, univFinal, and_self]
  · intro l' hl'
    have hne : seen ≠ [] := by intro h; rw [h] at hl'; simp [univScan] at hl'
    obtain ⟨m', hm', ma', mP'⟩ := univScan_getLast j _ a P hne
    rw [hm'] at hl'; obtain rfl := Option.some.inj hl'
    simp only [ma, mP, ma', mP', seen, and_self]

/-- **C06 (jitter zero).** With jitter zero a NaN entry is fatal: its masked variance is zero, and the update divides by it. With
a positive jitter, positive semidefinite `P` and non-negative measurement variances the step always returns numbers. -/
theorem C06_univariate_jitter {k : ℕ} (y : Row (Fin k)) (a : n → ℝ) (P : Matrix n n ℝ) (θ : Params n (Fin k) r) :
    ((∃ i, y i = none) → univStep 0 y a P θ = none) ∧
      (0 < k → P.PosSemidef → (∀ i, 0 ≤ θ.H i i) → ∀ j, 0 < j → ∃ u, univStep j y a P θ = some u) := by
  constructor
  · rintro ⟨i, hi⟩
    have hx : ∃ x ∈ univSeries y θ, x.z = 0 ∧ x.s = 0 := by
      refine ⟨_, (List.mem_ofFn' _ _).2 ⟨i, rfl⟩, ?_, ?_⟩
      · funext l; simp [hi]
      · simp [hi]
    have key : ∀ (xs : List (Series n)) (a : n → ℝ) (P : Matrix n n ℝ), (∃ x ∈ xs, x.z = 0 ∧ x.s = 0) →
        ∃ o ∈ univScan 0 a P xs, o.F = 0 := by
      intro xs
      induction xs with
      | nil => rintro a P ⟨x, hx, -⟩; simp at hx
      | cons x xs ih =>
        rintro a P ⟨x', hx', h1, h2⟩
        rcases List.mem_cons.1 hx' with rfl | hx'
        · exact ⟨_, by rw [univScan]; exact List.mem_cons_self, by simp [univInner, h1, h2]⟩
        · obtain ⟨o, ho, h⟩ := ih (univInner 0 x a P).a (univInner 0 x a P).P ⟨x', hx', h1, h2⟩
          exact ⟨o, by rw [univScan]; exact List.mem_cons_of_mem _ ho, h⟩
    have h := key _ a P hx
    simp only [univStep, if_pos h]
  · intro hk hP hH j hj
    have hne : univSeries y θ ≠ [] := by
      intro h; have := congrArg List.length h; simp [univSeries] at this; omega
    obtain ⟨l, hl, -, -⟩ := univScan_getLast j (univSeries y θ) a P hne
    have hF := univScan_F_pos j (univSeries y θ) (by
      intro x hx; obtain ⟨i, rfl⟩ := (List.mem_ofFn' _ _).1 hx
      have : 0 ≤ (if y i = none then (0 : ℝ) else 1) * θ.H i i := by split_ifs <;> simp [hH i]
      simp only [diagonal_mul]
      linarith) a P hP
    exact ⟨_, univStep_eq j y a P θ (fun o ho => (hF o ho).ne') l hl⟩

/-- **C72.** The univariate filter does not recognise the fill value: every row without NaN — even one consisting of
fill values only — is treated as data, the filtered moments being the conditional ones given those numbers. -/
theorem C72_univariate_uses_fill_as_data {k : ℕ} (hk : 0 < k) (y : Row (Fin k)) (hy : ∀ i, y i ≠ none) (a : n → ℝ)
    {P : Matrix n n ℝ} (hP : P.PosSemidef) (θ : Params n (Fin k) r) (s : Fin k → ℝ) (hs : ∀ i, 0 < s i)
    (hH : θ.H = Matrix.diagonal s) :
    ∃ u, univStep 0 y a P θ = some u ∧
      u.aFilt = Spec.condMean a P (fun i => (y i).getD 0) θ.d θ.Z θ.H ∧ u.PFilt = Spec.condCov P θ.Z θ.H := by
  -- choose a fill value that does not occur in the row and use C06
  obtain ⟨fill, hfill⟩ : ∃ fill : ℝ, ∀ i, y i ≠ some fill := by
    obtain ⟨f, hf⟩ := (Finset.finite_toSet (Finset.univ.image fun i => (y i).getD 0)).infinite_compl.nonempty
    refine ⟨f, fun i h => hf ?_⟩
    simp only [Finset.coe_image, Finset.coe_univ, Set.image_univ, Set.mem_range]
    exact ⟨i, by rw [h]; rfl⟩
  have hm : ∀ i, ¬ Spec.Missing fill (y i) := fun i h => h.elim (hy i) (hfill i)
  obtain ⟨u, hu, h1, h2, -, -⟩ := C06_univariate_eq_standard hk fill y hm a hP θ s hs hH
  have hdet := univ_det_pos hP θ s hs hH
  have hst := C02_update_is_conditional fill y hm a (PosSemidef.transpose_eq hP) θ
    (by rw [hH, diagonal_transpose]) hdet.ne'.isUnit
  exact ⟨u, hu, h1.trans hst.1, h2.trans hst.2.1⟩

/-- Consequence: on a row of fill values the standard filter leaves the mean alone (C03), the univariate filter moves
it. -/
theorem C72_univariate_fill_moves_mean :
    ∃ u, univStep (k := 1) (n := Fin 1) (r := Fin 1) 0 (fun _ => some (-9999)) 0 1 ⟨0, 0, 1, 1, 1, 1, 1⟩ = some u ∧
      u.aFilt = fun _ => -9999 / 2 := by
  obtain ⟨u, hu, h1, -⟩ := C72_univariate_uses_fill_as_data (k := 1) (n := Fin 1) (r := Fin 1) one_pos
    (fun _ => some (-9999)) (by simp) 0 (P := 1) PosSemidef.one ⟨0, 0, 1, 1, 1, 1, 1⟩ 1 (by simp)
    diagonal_one.symm
  refine ⟨u, hu, ?_⟩
  rw [h1]
  have hF : Spec.obsCov (1 : Matrix (Fin 1) (Fin 1) ℝ) (1 : Matrix (Fin 1) (Fin 1) ℝ) 1 = (2 : ℝ) • 1 := by
    rw [Spec.obsCov]; simp [two_smul]
  have hI : ((2 : ℝ) • (1 : Matrix (Fin 1) (Fin 1) ℝ))⁻¹ = (1 / 2 : ℝ) • 1 := by
    apply inv_eq_right_inv; simp
  funext i
  simp only [Spec.condMean, hF, hI]
  simp [smul_mulVec]
  norm_num

theorem univScan_append (j : ℝ) (xs : List (Series n)) (x : Series n) : ∀ (a : n → ℝ) (P : Matrix n n ℝ),
    univScan j a P (xs ++ [x]) =
      univScan j a P xs ++ [univInner j x (univFinal j a P xs).1 (univFinal j a P xs).2] := by
  induction xs with
  | nil => intros; rfl
  | cons x' xs ih => intro a P; simp only [List.cons_append, univScan, univFinal, ih]

/-- **C74.** The observation forecast reported by the univariate filter for a row of `k+1` series is a single number
pair: mean and variance of the *last* series given the other series of the same row (not the forecast of the row). -/
theorem C74_univariate_obs_is_last_series {k : ℕ} (y : Row (Fin (k + 1))) (hy : ∀ i, y i ≠ none) (a : n → ℝ)
    {P : Matrix n n ℝ} (hP : P.PosSemidef) (θ : Params n (Fin (k + 1)) r) (s : Fin (k + 1) → ℝ) (hs : ∀ i, 0 < s i)
    (hH : θ.H = Matrix.diagonal s) :
    let Z' : Matrix (Fin k) n ℝ := fun i => θ.Z i.castSucc
    let H' : Matrix (Fin k) (Fin k) ℝ := Matrix.diagonal fun i => s i.castSucc
    let a' := Spec.condMean a P (fun i : Fin k => (y i.castSucc).getD 0) (fun i => θ.d i.castSucc) Z' H'
    let P' := Spec.condCov P Z' H'
    ∃ u, univStep 0 y a P θ = some u ∧ u.obsMu = θ.Z (Fin.last k) ⬝ᵥ a' + θ.d (Fin.last k) ∧
      u.obsCov = θ.Z (Fin.last k) ⬝ᵥ (P' *ᵥ θ.Z (Fin.last k)) + s (Fin.last k) := by
  intro Z' H' a' P'
  have hu := univSeries_observed y hy θ
  set xs : Fin (k + 1) → Series n :=
    fun i => { y := (y i).getD 0, z := θ.Z i, d := θ.d i, s := θ.H i i, nan := y i = none } with hxs
  have hb := univ_eq_batch k (fun i => xs i.castSucc) a P hP
    (fun i => ⟨hy i.castSucc, by simp only [hxs]; rw [hH, diagonal_apply_eq]; exact hs i.castSucc⟩)
  simp only at hb
  have hsplit : univSeries y θ = List.ofFn (fun i : Fin k => xs i.castSucc) ++ [xs (Fin.last k)] := by
    rw [hu, List.ofFn_succ', List.concat_eq_append]
  have hH' : (Matrix.diagonal fun i : Fin k => (xs i.castSucc).s) = H' := by
    simp only [hxs, H']; congr 1; funext i; rw [hH, diagonal_apply_eq]
  rw [hH'] at hb
  have h1 : (univFinal 0 a P (List.ofFn fun i : Fin k => xs i.castSucc)).1 = a' := hb.1
  have h2 : (univFinal 0 a P (List.ofFn fun i : Fin k => xs i.castSucc)).2 = P' := hb.2.1
  have hlast : (univScan 0 a P (univSeries y θ)).getLast? = some (univInner 0 (xs (Fin.last k)) a' P') := by
    rw [hsplit, univScan_append, h1, h2, List.getLast?_append]; rfl
  have hF := univScan_F_pos 0 (univSeries y θ) (by
    rw [hu]; intro x hx; obtain ⟨i, rfl⟩ := (List.mem_ofFn' _ _).1 hx
    show 0 < θ.H i i + 0; rw [hH, diagonal_apply_eq, add_zero]; exact hs i) a P hP
  rw [univStep_eq 0 y a P θ (fun o ho => (hF o ho).ne') _ hlast]
  refine ⟨_, rfl, rfl, ?_⟩
  show θ.Z (Fin.last k) ⬝ᵥ (P' *ᵥ θ.Z (Fin.last k)) + θ.H (Fin.last k) (Fin.last k) + 0 = _
  rw [add_zero, hH, diagonal_apply_eq]

end Verif.Kalman
