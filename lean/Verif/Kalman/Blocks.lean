import Verif.Kalman.Relabel
import Verif.Kalman.Props
import Mathlib.LinearAlgebra.Matrix.SchurComplement

/-!
# C209: two unrelated models stacked into one

Specification: the stacked model has the states, series and shocks of both, every matrix block diagonal.
-/

set_option autoImplicit false

open Matrix

namespace Verif.Kalman

variable {n m p q r s : Type*} [Fintype n] [Fintype m] [Fintype p] [Fintype q] [Fintype r] [Fintype s]
  [DecidableEq n] [DecidableEq m] [DecidableEq p] [DecidableEq q]

/-! ### Specification -/

/-- Both matrices on the diagonal, zeros elsewhere. -/
def Spec.both {a b c d : Type*} (A : Matrix a b ℝ) (B : Matrix c d ℝ) : Matrix (a ⊕ c) (b ⊕ d) ℝ :=
  Matrix.of fun i k => match i, k with
    | Sum.inl i, Sum.inl k => A i k
    | Sum.inr i, Sum.inr k => B i k
    | _, _ => 0

/-- The stacked model. -/
def Spec.stack (θ : Params n p r) (η : Params m q s) : Params (n ⊕ m) (p ⊕ q) (r ⊕ s) where
  c := Sum.elim θ.c η.c
  d := Sum.elim θ.d η.d
  T := Spec.both θ.T η.T
  Z := Spec.both θ.Z η.Z
  R := Spec.both θ.R η.R
  H := Spec.both θ.H η.H
  Q := Spec.both θ.Q η.Q

/-- One date of the two models. -/
structure Spec.Date (n m p q r s : Type*) where
  y : Row p
  z : Row q
  θ : Params n p r
  η : Params m q s

/-- What the log-likelihood the stacked model reports on a date should be expected to be: the sum of the two, with
`½ log 2π` added back because the code subtracts it once per date rather than once per series; zero if nothing is recorded; and
on a date where one model records nothing, its masked series still contribute the density of their intercept under the jitter. -/
noncomputable def Spec.stackLL [Fintype p] [Fintype q] (j : ℝ) (none1 none2 : Prop) [Decidable none1] [Decidable none2]
    (d1 : p → ℝ) (d2 : q → ℝ) (l1 l2 : ℝ) : ℝ :=
  if none1 then
    if none2 then 0 else l2 - 1 / 2 * (Fintype.card p * Real.log j + (∑ i, d1 i ^ 2) / j)
  else
    if none2 then l1 - 1 / 2 * (Fintype.card q * Real.log j + (∑ i, d2 i ^ 2) / j)
    else l1 + l2 + 1 / 2 * Real.log (2 * Real.pi)

/-- No series has a recorded value (a value equal to the fill value counts as missing). -/
def Spec.NothingRecorded {p : Type*} (fill : ℝ) (y : Row p) : Prop := ∀ i, y i = none ∨ y i = some fill

/-! ### Block-diagonal algebra -/

theorem both_eq {a b c d : Type*} (A : Matrix a b ℝ) (B : Matrix c d ℝ) : Spec.both A B = fromBlocks A 0 0 B := by
  ext i k
  rcases i with i | i <;> rcases k with k | k <;> rfl

theorem both_mul {a b c d e f : Type*} [Fintype b] [Fintype d] (A : Matrix a b ℝ) (B : Matrix c d ℝ) (A' : Matrix b e ℝ)
    (B' : Matrix d f ℝ) : Spec.both A B * Spec.both A' B' = Spec.both (A * A') (B * B') := by
  simp [both_eq, fromBlocks_multiply]

theorem both_transpose {a b c d : Type*} (A : Matrix a b ℝ) (B : Matrix c d ℝ) :
    (Spec.both A B)ᵀ = Spec.both Aᵀ Bᵀ := by
  simp [both_eq, fromBlocks_transpose]

theorem both_add {a b c d : Type*} (A A' : Matrix a b ℝ) (B B' : Matrix c d ℝ) :
    Spec.both A B + Spec.both A' B' = Spec.both (A + A') (B + B') := by
  simp [both_eq, fromBlocks_add]

theorem both_sub {a b c d : Type*} (A A' : Matrix a b ℝ) (B B' : Matrix c d ℝ) :
    Spec.both A B - Spec.both A' B' = Spec.both (A - A') (B - B') := by
  ext i k
  rcases i with i | i <;> rcases k with k | k <;> simp [Spec.both]

theorem both_smul {a b c d : Type*} (t : ℝ) (A : Matrix a b ℝ) (B : Matrix c d ℝ) :
    t • Spec.both A B = Spec.both (t • A) (t • B) := by
  simp [both_eq, fromBlocks_smul]

omit [Fintype n] [Fintype m] in
theorem both_one : (1 : Matrix (n ⊕ m) (n ⊕ m) ℝ) = Spec.both 1 1 := by
  simp [both_eq]

theorem both_mulVec {a b c d : Type*} [Fintype b] [Fintype d] (A : Matrix a b ℝ) (B : Matrix c d ℝ) (x : b → ℝ) (y : d → ℝ) :
    Spec.both A B *ᵥ Sum.elim x y = Sum.elim (A *ᵥ x) (B *ᵥ y) := by
  simp [both_eq, fromBlocks_mulVec]

theorem both_inv {A : Matrix n n ℝ} {B : Matrix m m ℝ} (hA : IsUnit A.det) (hB : IsUnit B.det) :
    (Spec.both A B)⁻¹ = Spec.both A⁻¹ B⁻¹ := by
  apply inv_eq_left_inv
  rw [both_mul, nonsing_inv_mul _ hA, nonsing_inv_mul _ hB, ← both_one]

theorem both_det (A : Matrix n n ℝ) (B : Matrix m m ℝ) : (Spec.both A B).det = A.det * B.det := by
  rw [both_eq, det_fromBlocks_zero₂₁]

theorem elim_add {a b : Type*} (x x' : a → ℝ) (y y' : b → ℝ) : Sum.elim x y + Sum.elim x' y' = Sum.elim (x + x') (y + y') := by
  funext i; rcases i with i | i <;> rfl

theorem elim_sub {a b : Type*} (x x' : a → ℝ) (y y' : b → ℝ) : Sum.elim x y - Sum.elim x' y' = Sum.elim (x - x') (y - y') := by
  funext i; rcases i with i | i <;> rfl

theorem quadFormSym_both {a b c d : Type*} [Fintype b] [Fintype d] (A : Matrix a b ℝ) (B : Matrix c d ℝ) (A' : Matrix b b ℝ)
    (B' : Matrix d d ℝ) : quadFormSym (Spec.both A B) (Spec.both A' B') = Spec.both (quadFormSym A A') (quadFormSym B B') := by
  simp only [quadFormSym, both_transpose, both_mul, both_add, both_smul]

omit [Fintype n] [Fintype m] in
theorem stabilize_both (j : ℝ) (A : Matrix n n ℝ) (B : Matrix m m ℝ) :
    stabilize j (Spec.both A B) = Spec.both (stabilize j A) (stabilize j B) := by
  simp only [stabilize, both_one, both_smul, both_add]

omit [Fintype p] [Fintype q] in
theorem maskW_both (fill : ℝ) (y : Row p) (z : Row q) :
    maskW fill (Sum.elim y z) = Spec.both (maskW fill y) (maskW fill z) := by
  classical
  rw [both_eq, maskW, maskW, maskW, fromBlocks_diagonal]
  congr 1
  funext i
  rcases i with i | i <;> rfl

theorem innovCov_both (j : ℝ) (P : Matrix n n ℝ) (P' : Matrix m m ℝ) (Z : Matrix p n ℝ) (Z' : Matrix q m ℝ) (H : Matrix p p ℝ)
    (H' : Matrix q q ℝ) : innovCov j (Spec.both P P') (Spec.both Z Z') (Spec.both H H') =
      Spec.both (innovCov j P Z H) (innovCov j P' Z' H') := by
  simp only [innovCov, both_transpose, both_mul, stabilize_both, both_add]

theorem gain_both (P : Matrix n n ℝ) (P' : Matrix m m ℝ) (Z : Matrix p n ℝ) (Z' : Matrix q m ℝ) {F : Matrix p p ℝ}
    {F' : Matrix q q ℝ} (hF : IsUnit F.det) (hF' : IsUnit F'.det) :
    gain (Spec.both P P') (Spec.both Z Z') (Spec.both F F') = Spec.both (gain P Z F) (gain P' Z' F') := by
  have h : IsUnit (Fᵀ).det := by rwa [det_transpose]
  have h' : IsUnit (F'ᵀ).det := by rwa [det_transpose]
  simp only [gain, both_transpose, both_mul, both_inv h h']

theorem dot_both {a b : Type*} [Fintype a] [Fintype b] (x x' : a → ℝ) (y y' : b → ℝ) :
    Sum.elim x y ⬝ᵥ Sum.elim x' y' = x ⬝ᵥ x' + y ⬝ᵥ y' := by
  simp [dotProduct, Fintype.sum_sum_type]

/-! ### One step -/

/-- The steps of the two models side by side. -/
def StepOut.both (o : StepOut n p) (o' : StepOut m q) (ll : ℝ) : StepOut (n ⊕ m) (p ⊕ q) where
  aFilt := Sum.elim o.aFilt o'.aFilt
  aHat := Sum.elim o.aHat o'.aHat
  obsMu := Sum.elim o.obsMu o'.obsMu
  PFilt := Spec.both o.PFilt o'.PFilt
  PHat := Spec.both o.PHat o'.PHat
  obsCov := Spec.both o.obsCov o'.obsCov
  ll := ll

open Classical in
/-- The quadratic form and determinant of a date with nothing recorded. -/
theorem missing_terms (j fill : ℝ) (y : Row p) (a : n → ℝ) (P : Matrix n n ℝ) (Z : Matrix p n ℝ) (H : Matrix p p ℝ) (d : p → ℝ)
    (h : ∀ i, nanMask fill y i) :
    Real.log (innovCov j P (maskW fill y * Z) (maskW fill y * H)).det = Fintype.card p * Real.log j ∧
    ((fun i => if nanMask fill y i then (0 : ℝ) else (y i).getD 0) - (d + (maskW fill y * Z) *ᵥ a)) ⬝ᵥ
      (innovCov j P (maskW fill y * Z) (maskW fill y * H))⁻¹ *ᵥ
        ((fun i => if nanMask fill y i then (0 : ℝ) else (y i).getD 0) - (d + (maskW fill y * Z) *ᵥ a)) =
      (∑ i, d i ^ 2) / j := by
  have hW : maskW fill y = 0 := by
    rw [maskW, ← diagonal_zero]
    congr 1
    funext i
    rw [if_pos (h i)]
  have hy : (fun i => if nanMask fill y i then (0 : ℝ) else (y i).getD 0) = 0 := by
    funext i
    rw [if_pos (h i)]
    rfl
  have hF : innovCov j P (maskW fill y * Z) (maskW fill y * H) = Matrix.diagonal fun _ => j := by
    rw [hW, Matrix.zero_mul, Matrix.zero_mul, innovCov, stabilize, Matrix.zero_mul, zero_add, zero_add, smul_one_eq_diagonal]
  rw [hF, hW, hy]
  constructor
  · rw [det_diagonal, Finset.prod_const, Real.log_pow, Finset.card_univ]
  · have hinv : (Matrix.diagonal fun _ : p => j)⁻¹ = Matrix.diagonal fun _ : p => j⁻¹ := by
      by_cases hj : j = 0
      · subst hj
        have h0 : (Matrix.diagonal fun _ : p => (0 : ℝ)) = 0 := diagonal_zero
        rw [_root_.inv_zero, h0, Matrix.inv_zero]
      · apply inv_eq_left_inv
        rw [diagonal_mul_diagonal, ← diagonal_one]
        congr 1
        funext _
        exact inv_mul_cancel₀ hj
    rw [hinv, Matrix.zero_mul, zero_mulVec, add_zero, zero_sub, dotProduct, Finset.sum_div]
    refine Finset.sum_congr rfl fun i _ => ?_
    rw [mulVec_diagonal, Pi.neg_apply, div_eq_mul_inv]
    ring

omit [DecidableEq n] [DecidableEq m] [Fintype n] [Fintype m] in
/-- The log-likelihood of the stacked update. -/
theorem stack_ll (j : ℝ) (N N1 N2 : Prop) (dN : Decidable N) (e1 e1' : Decidable N1) (e2 e2' : Decidable N2) (hall : N ↔ N1 ∧ N2)
    (v1 d1 : p → ℝ) (v2 d2 : q → ℝ) (F1 : Matrix p p ℝ) (F2 : Matrix q q ℝ)
    (h1 : IsUnit F1.det) (h2 : IsUnit F2.det)
    (m1 : N1 → Real.log F1.det = Fintype.card p * Real.log j ∧ v1 ⬝ᵥ F1⁻¹ *ᵥ v1 = (∑ i, d1 i ^ 2) / j)
    (m2 : N2 → Real.log F2.det = Fintype.card q * Real.log j ∧ v2 ⬝ᵥ F2⁻¹ *ᵥ v2 = (∑ i, d2 i ^ 2) / j) :
    (@ite ℝ N dN (0 : ℝ) (
      -(1 / 2) * (mvnConst + Real.log (Spec.both F1 F2).det + Sum.elim v1 v2 ⬝ᵥ ((Spec.both F1 F2)⁻¹ *ᵥ Sum.elim v1 v2)))) =
    @Spec.stackLL p q _ _ j N1 N2 e1 e2 d1 d2
      (@ite ℝ N1 e1' 0 (-(1 / 2) * (mvnConst + Real.log F1.det + v1 ⬝ᵥ (F1⁻¹ *ᵥ v1))))
      (@ite ℝ N2 e2' 0 (-(1 / 2) * (mvnConst + Real.log F2.det + v2 ⬝ᵥ (F2⁻¹ *ᵥ v2)))) := by
  rw [both_det, both_inv h1 h2, both_mulVec, dot_both, Real.log_mul h1.ne_zero h2.ne_zero, Spec.stackLL]
  by_cases a1 : N1 <;> by_cases a2 : N2
  · rw [if_pos (hall.2 ⟨a1, a2⟩), if_pos a1, if_pos a2]
  · rw [if_neg (fun h => a2 (hall.1 h).2), if_pos a1, if_neg a2, if_neg a2, (m1 a1).1, (m1 a1).2]
    ring
  · rw [if_neg (fun h => a1 (hall.1 h).1), if_neg a1, if_pos a2, if_neg a1, (m2 a2).1, (m2 a2).2]
    ring
  · rw [if_neg (fun h => a1 (hall.1 h).1), if_neg a1, if_neg a2, if_neg a1, if_neg a2, mvnConst]
    ring

open Classical in
theorem kalmanStep_both (j fill : ℝ) (y : Row p) (z : Row q) (a : n → ℝ) (b : m → ℝ) (P : Matrix n n ℝ) (P' : Matrix m m ℝ)
    (θ : Params n p r) (η : Params m q s) (h1 : IsUnit (kalmanStep j fill y a P θ).obsCov.det)
    (h2 : IsUnit (kalmanStep j fill z b P' η).obsCov.det) :
    kalmanStep j fill (Sum.elim y z) (Sum.elim a b) (Spec.both P P') (Spec.stack θ η) =
      (kalmanStep j fill y a P θ).both (kalmanStep j fill z b P' η)
        (Spec.stackLL j (Spec.NothingRecorded fill y) (Spec.NothingRecorded fill z) θ.d η.d (kalmanStep j fill y a P θ).ll
          (kalmanStep j fill z b P' η).ll) := by
  have hy : (fun i => if nanMask fill (Sum.elim y z) i then (0 : ℝ) else ((Sum.elim y z : p ⊕ q → Option ℝ) i).getD 0) =
      Sum.elim (fun i => if nanMask fill y i then (0 : ℝ) else (y i).getD 0)
        (fun i => if nanMask fill z i then (0 : ℝ) else (z i).getD 0) := by
    funext i
    rcases i with i | i <;> rfl
  simp only [kalmanStep, handleMissing, update] at h1 h2
  have hall : (∀ i, nanMask fill (Sum.elim y z) i) ↔ (∀ i, nanMask fill y i) ∧ ∀ i, nanMask fill z i := by
    rw [Sum.forall]
    rfl
  simp only [kalmanStep, handleMissing, update, predict, StepOut.both, Spec.stack, maskW_both, both_mul, innovCov_both,
    gain_both _ _ _ _ h1 h2, hy, both_mulVec, elim_add, elim_sub, both_one, both_sub, quadFormSym_both, both_add, stabilize_both]
  rw [StepOut.mk.injEq]
  refine ⟨rfl, rfl, rfl, rfl, rfl, rfl, ?_⟩
  exact stack_ll j _ _ _ _ _ _ _ _ hall _ θ.d _ η.d _ _ h1 h2 (fun h => missing_terms j fill y a P θ.Z θ.H θ.d h)
    (fun h => missing_terms j fill z b P' η.Z η.H η.d h)

/-! ### The filter -/

/-- The data and models of one side. -/
def Spec.left (x : Spec.Date n m p q r s) : Row p × Params n p r := (x.y, x.θ)

/-- The data and models of the other side. -/
def Spec.right (x : Spec.Date n m p q r s) : Row q × Params m q s := (x.z, x.η)

/-- The data and models side by side. -/
def Spec.joined (x : Spec.Date n m p q r s) : Row (p ⊕ q) × Params (n ⊕ m) (p ⊕ q) (r ⊕ s) :=
  (Sum.elim x.y x.z, Spec.stack x.θ x.η)

open Classical in
/-- The log-likelihoods of the stacked model, date by date. -/
noncomputable def Spec.stackLLs (j fill : ℝ) (dates : List (Spec.Date n m p q r s)) (l1 l2 : List ℝ) : List ℝ :=
  List.zipWith (fun x l => Spec.stackLL j (Spec.NothingRecorded fill x.y) (Spec.NothingRecorded fill x.z) x.θ.d x.η.d l.1 l.2)
    dates (l1.zip l2)

open Classical in
theorem filterScan_both (j fill : ℝ) (dates : List (Spec.Date n m p q r s)) :
    ∀ (a : n → ℝ) (b : m → ℝ) (P : Matrix n n ℝ) (P' : Matrix m m ℝ),
    (∀ o ∈ filterScan j fill a P (dates.map Spec.left), IsUnit o.obsCov.det) →
    (∀ o ∈ filterScan j fill b P' (dates.map Spec.right), IsUnit o.obsCov.det) →
    filterScan j fill (Sum.elim a b) (Spec.both P P') (dates.map Spec.joined) =
      List.zipWith (fun x o => StepOut.both o.1 o.2
          (Spec.stackLL j (Spec.NothingRecorded fill x.y) (Spec.NothingRecorded fill x.z) x.θ.d x.η.d o.1.ll o.2.ll)) dates
        ((filterScan j fill a P (dates.map Spec.left)).zip (filterScan j fill b P' (dates.map Spec.right))) := by
  induction dates with
  | nil => intro a b P P' _ _; rfl
  | cons x rest ih =>
    intro a b P P' h1 h2
    simp only [List.map_cons, filterScan, Spec.left, Spec.right, Spec.joined, List.mem_cons, forall_eq_or_imp] at h1 h2 ⊢
    rw [kalmanStep_both j fill x.y x.z a b P P' x.θ x.η h1.1 h2.1]
    simp only [List.zip_cons_cons, List.zipWith_cons_cons]
    exact congrArg₂ List.cons rfl (ih _ _ _ _ h1.2 h2.2)

omit [Fintype n] [Fintype m] [Fintype p] [Fintype q] [Fintype r] [Fintype s] [DecidableEq n] [DecidableEq m] [DecidableEq p]
  [DecidableEq q] in
theorem map_zipWith_zip {X A B Y A' B' C : Type*} (f : Y → C) (g : X → A × B → Y) (f1 : A → A') (f2 : B → B') (h : A' → B' → C)
    (hfg : ∀ x a b, f (g x (a, b)) = h (f1 a) (f2 b)) :
    ∀ (xs : List X) (as : List A) (bs : List B), as.length = xs.length → bs.length = xs.length →
    (List.zipWith g xs (as.zip bs)).map f = List.zipWith h (as.map f1) (bs.map f2)
  | [], [], [], _, _ => rfl
  | x :: xs, a :: as, b :: bs, h1, h2 => by
    simp only [List.zip_cons_cons, List.zipWith_cons_cons, List.map_cons, hfg]
    rw [map_zipWith_zip f g f1 f2 h hfg xs as bs (by simpa using h1) (by simpa using h2)]

omit [Fintype n] [Fintype m] [Fintype p] [Fintype q] [Fintype r] [Fintype s] [DecidableEq n] [DecidableEq m] [DecidableEq p]
  [DecidableEq q] in
theorem map_zipWith_zip' {X A B Y A' B' C : Type*} (f : Y → C) (g : X → A × B → Y) (f1 : A → A') (f2 : B → B') (h : X → A' × B' → C)
    (hfg : ∀ x a b, f (g x (a, b)) = h x (f1 a, f2 b)) :
    ∀ (xs : List X) (as : List A) (bs : List B),
    (List.zipWith g xs (as.zip bs)).map f = List.zipWith h xs ((as.map f1).zip (bs.map f2))
  | [], _, _ => by simp
  | x :: xs, [], bs => by simp
  | x :: xs, a :: as, [] => by simp
  | x :: xs, a :: as, b :: bs => by
    simp only [List.zip_cons_cons, List.zipWith_cons_cons, List.map_cons, hfg]
    rw [map_zipWith_zip' f g f1 f2 h hfg xs as bs]

omit [Fintype n] [Fintype m] [Fintype p] [Fintype q] [Fintype r] [Fintype s] [DecidableEq n] [DecidableEq m] [DecidableEq p]
  [DecidableEq q] in
theorem dropLast_zipWith {A B C : Type*} (h : A → B → C) (as : List A) (bs : List B) (hab : as.length = bs.length) :
    (List.zipWith h as bs).dropLast = List.zipWith h as.dropLast bs.dropLast := by
  rw [List.dropLast_eq_take, List.dropLast_eq_take, List.dropLast_eq_take, List.take_zipWith, List.length_zipWith, hab, min_self]

/-- **C209.** Filtering two unrelated models stacked into one (all matrices block diagonal, initial covariance block diagonal)
gives exactly the outputs of filtering each alone, side by side, the two never influencing each other, whatever is missing; and
the log-likelihood of a date is the sum of the two plus `½ log 2π`, zero if nothing at all is recorded, and, where only one
model has data, that one's value *minus* a term `½(k log jitter + |d|²/jitter)` of the other's `k` masked series. -/
theorem C209_blocks (j fill : ℝ) (a : n → ℝ) (b : m → ℝ) (P : Matrix n n ℝ) (P' : Matrix m m ℝ)
    (dates : List (Spec.Date n m p q r s)) :
    let o1 := buildGraph j fill a P (dates.map fun x => (x.y, x.θ))
    let o2 := buildGraph j fill b P' (dates.map fun x => (x.z, x.η))
    let o := buildGraph j fill (Sum.elim a b) (Spec.both P P') (dates.map fun x => (Sum.elim x.y x.z, Spec.stack x.θ x.η))
    (∀ F ∈ o1.observedCovs, F.det ≠ 0) → (∀ F ∈ o2.observedCovs, F.det ≠ 0) →
      o.filteredStates = List.zipWith Sum.elim o1.filteredStates o2.filteredStates ∧
      o.predictedStates = List.zipWith Sum.elim o1.predictedStates o2.predictedStates ∧
      o.observedStates = List.zipWith Sum.elim o1.observedStates o2.observedStates ∧
      o.filteredCovs = List.zipWith Spec.both o1.filteredCovs o2.filteredCovs ∧
      o.predictedCovs = List.zipWith Spec.both o1.predictedCovs o2.predictedCovs ∧
      o.observedCovs = List.zipWith Spec.both o1.observedCovs o2.observedCovs ∧
      o.loglike = Spec.stackLLs j fill dates o1.loglike o2.loglike := by
  intro o1 o2 o h1 h2
  have hs := filterScan_both j fill dates a b P P' (fun s hs => isUnit_iff_ne_zero.2 (h1 _ (List.mem_map_of_mem hs)))
    (fun s hs => isUnit_iff_ne_zero.2 (h2 _ (List.mem_map_of_mem hs)))
  have l1 : (filterScan j fill a P (dates.map Spec.left)).length = dates.length := by
    classical rw [filterScan_length, List.length_map]
  have l2 : (filterScan j fill b P' (dates.map Spec.right)).length = dates.length := by
    classical rw [filterScan_length, List.length_map]
  have hs' : filterScan j fill (Sum.elim a b) (Spec.both P P')
      (dates.map fun x => (Sum.elim x.y x.z, Spec.stack x.θ x.η)) = _ := hs
  have e1 : (dates.map fun x => (x.y, x.θ)) = dates.map Spec.left := rfl
  have e2 : (dates.map fun x => (x.z, x.η)) = dates.map Spec.right := rfl
  simp only [o, o1, o2, buildGraph, hs', postprocess, e1, e2]
  refine ⟨?_, ?_, ?_, ?_, ?_, ?_, ?_⟩
  · exact map_zipWith_zip _ _ _ _ _ (fun _ _ _ => rfl) _ _ _ l1 l2
  · rw [map_zipWith_zip StepOut.aHat _ StepOut.aHat StepOut.aHat Sum.elim (fun _ _ _ => rfl) _ _ _ l1 l2, dropLast_zipWith _ _ _ (by rw [List.length_map, List.length_map, l1, l2])]
    rfl
  · exact map_zipWith_zip _ _ _ _ _ (fun _ _ _ => rfl) _ _ _ l1 l2
  · exact map_zipWith_zip _ _ _ _ _ (fun _ _ _ => rfl) _ _ _ l1 l2
  · rw [map_zipWith_zip StepOut.PHat _ StepOut.PHat StepOut.PHat Spec.both (fun _ _ _ => rfl) _ _ _ l1 l2, dropLast_zipWith _ _ _ (by rw [List.length_map, List.length_map, l1, l2])]
    rfl
  · exact map_zipWith_zip _ _ _ _ _ (fun _ _ _ => rfl) _ _ _ l1 l2
  · exact map_zipWith_zip' _ _ _ _ _ (fun _ _ _ => rfl) _ _ _

/-- **C209 (every date recorded).** If on every date each of the two models records at least one value, the total log-likelihood
of the stacked model is the sum of the two totals plus `½ log 2π` per date. -/
theorem C209_total (j fill : ℝ) (a : n → ℝ) (b : m → ℝ) (P : Matrix n n ℝ) (P' : Matrix m m ℝ)
    (dates : List (Spec.Date n m p q r s)) (hrec : ∀ x ∈ dates, ¬ Spec.NothingRecorded fill x.y ∧ ¬ Spec.NothingRecorded fill x.z) :
    let o1 := buildGraph j fill a P (dates.map fun x => (x.y, x.θ))
    let o2 := buildGraph j fill b P' (dates.map fun x => (x.z, x.η))
    let o := buildGraph j fill (Sum.elim a b) (Spec.both P P') (dates.map fun x => (Sum.elim x.y x.z, Spec.stack x.θ x.η))
    (∀ F ∈ o1.observedCovs, F.det ≠ 0) → (∀ F ∈ o2.observedCovs, F.det ≠ 0) →
      o.loglike.sum = o1.loglike.sum + o2.loglike.sum + dates.length * (1 / 2 * Real.log (2 * Real.pi)) := by
  classical
  intro o1 o2 o h1 h2
  have h := (C209_blocks j fill a b P P' dates h1 h2).2.2.2.2.2.2
  have l1 : o1.loglike.length = dates.length := by
    simp only [o1, buildGraph, postprocess, List.length_map, filterScan_length]
  have l2 : o2.loglike.length = dates.length := by
    simp only [o2, buildGraph, postprocess, List.length_map, filterScan_length]
  have key : ∀ (ds : List (Spec.Date n m p q r s)) (x y : List ℝ), x.length = ds.length → y.length = ds.length →
      (∀ d ∈ ds, ¬ Spec.NothingRecorded fill d.y ∧ ¬ Spec.NothingRecorded fill d.z) →
      (Spec.stackLLs j fill ds x y).sum = x.sum + y.sum + ds.length * (1 / 2 * Real.log (2 * Real.pi)) := by
    intro ds
    induction ds with
    | nil =>
      intro x y hx hy _
      rw [List.length_nil, List.length_eq_zero_iff] at hx hy
      subst hx hy
      simp [Spec.stackLLs]
    | cons d ds ih =>
      intro x y hx hy hd
      obtain ⟨u, x, rfl⟩ := List.exists_cons_of_length_pos (by rw [hx]; simp : 0 < x.length)
      obtain ⟨v, y, rfl⟩ := List.exists_cons_of_length_pos (by rw [hy]; simp : 0 < y.length)
      have := ih x y (by simpa using hx) (by simpa using hy) (fun e he => hd e (List.mem_cons_of_mem _ he))
      have hdd := hd d List.mem_cons_self
      simp only [Spec.stackLLs, List.zip_cons_cons, List.zipWith_cons_cons, List.sum_cons, List.length_cons, Spec.stackLL,
        if_neg hdd.1, if_neg hdd.2] at this ⊢
      rw [this]
      push_cast
      ring
  exact (congrArg List.sum h).trans (key dates _ _ l1 l2 hrec)

/-- Two one-state models, the second without data on the only date: the hypotheses of `C209_blocks` hold with jitter, and the
stacked log-likelihood charges the second model's intercept `3` with `9 / jitter`. -/
example : Spec.NothingRecorded (-9999) (fun _ : Fin 1 => none) ∧
    (∀ F ∈ (buildGraph (1 : ℝ) (-9999) 0 1
      [((fun _ => none : Row (Fin 1)), (⟨0, fun _ => 3, 1, 1, 1, 1, 1⟩ : Params (Fin 1) (Fin 1) (Fin 1)))]).observedCovs,
      F.det ≠ 0) := by
  classical
  refine ⟨fun _ => Or.inl rfl, ?_⟩
  have hW : maskW (-9999) (fun _ : Fin 1 => none) = 0 := by
    rw [maskW, ← diagonal_zero]
    congr 1
    funext i
    exact if_pos (Or.inl rfl)
  simp only [buildGraph, postprocess, filterScan, List.map_cons, List.map_nil, kalmanStep, handleMissing, update, hW, innovCov,
    stabilize, List.mem_singleton, forall_eq, Matrix.det_fin_one, Matrix.add_apply, Matrix.mul_apply, Fin.sum_univ_one,
    Matrix.one_apply, Matrix.smul_apply, Matrix.zero_apply, if_true]
  norm_num

end Verif.Kalman
