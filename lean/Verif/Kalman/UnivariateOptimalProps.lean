import Verif.Kalman.UnivariateLimit

/-!
# C188: the univariate filter is optimal, whatever is missing and however degenerate the model

Property theorems.
-/

set_option autoImplicit false
set_option linter.unusedSectionVars false

open Matrix MeasureTheory ProbabilityTheory Filter Topology Asymptotics

namespace Verif.Kalman

open Orthogonal

namespace Spec

open Classical in
/-- The data handed to the filter when entry `i` of date `t` is recorded exactly if `o t i`; the other entries are NaN. -/
noncomputable def recorded {Ω p : Type*} (o : ℕ → p → Prop) (Y : ℕ → p → Ω → ℝ) (N : ℕ) (ω : Ω) : List (Row p) :=
  (List.range N).map fun t i => if o t i then some (Y t i ω) else none

end Spec

variable {n r : Type*} [Fintype n] [Fintype r] [DecidableEq n] [DecidableEq r] {k : ℕ}

section algebra

variable {W : Type*} [AddCommGroup W] [Module ℝ W]
variable {B : W →ₗ[ℝ] W →ₗ[ℝ] ℝ} {one : W} {θ : Params n (Fin k) r} {P0 : Matrix n n ℝ} {a0 : n → ℝ} {X : ℕ → n → W}
  {Y : ℕ → Fin k → W} {η : ℕ → r → W} {ε : ℕ → Fin k → W}

open Classical in
/-- The data read at date `t`. -/
noncomputable def yAt (o : ℕ → Fin k → Prop) (Y : ℕ → Fin k → W) (t : ℕ) (i : Fin k) : W := if o t i then Y t i else 0

/-- The whole run on random data: prediction and covariance before date `t`. -/
noncomputable def wState (one : W) (θ : Params n (Fin k) r) (o : ℕ → Fin k → Prop) (a0 : n → ℝ) (P0 : Matrix n n ℝ)
    (Y : ℕ → Fin k → W) : ℕ → (n → W) × Matrix n n ℝ
  | 0 => (const one a0, P0)
  | t + 1 =>
    let f := wRow one (serAt θ o t) (yAt o Y t) (wState one θ o a0 P0 Y t).1 (wState one θ o a0 P0 Y t).2 k
    (act θ.T f.1 + const one θ.c, θ.T * f.2 * θ.Tᵀ + θ.R * θ.Q * θ.Rᵀ)

/-- Filtered mean and covariance at date `t`. -/
noncomputable def wFilt (one : W) (θ : Params n (Fin k) r) (o : ℕ → Fin k → Prop) (a0 : n → ℝ) (P0 : Matrix n n ℝ)
    (Y : ℕ → Fin k → W) (t : ℕ) : (n → W) × Matrix n n ℝ :=
  wRow one (serAt θ o t) (yAt o Y t) (wState one θ o a0 P0 Y t).1 (wState one θ o a0 P0 Y t).2 k

theorem Inv.row {E : W →ₗ[ℝ] ℝ} {o : ℕ → Fin k → Prop} {t : ℕ} {a : n → W} {P : Matrix n n ℝ}
    (h : Proc B one (fun _ => θ) P0 X Y η ε) (hpos : ∀ w, 0 ≤ B w w) (hdiag : ∀ i j, i ≠ j → θ.H i j = 0)
    (hE : ∀ t i, E (ε t i) = 0) (hi : Inv B E one X Y η ε o t 0 a P) (m : ℕ) (hm : m ≤ k) :
    Inv B E one X Y η ε o t m (wRow one (serAt θ o t) (yAt o Y t) a P m).1 (wRow one (serAt θ o t) (yAt o Y t) a P m).2 := by
  induction m with
  | zero => exact hi
  | succ m ih =>
    have hlt : m < k := by omega
    simp only [wRow, dif_pos hlt]
    exact (ih (by omega)).step h hpos hdiag hE hlt _ fun ho => by simp [yAt, ho]

theorem Inv.advance {E : W →ₗ[ℝ] ℝ} {o : ℕ → Fin k → Prop} {t : ℕ} {a : n → W} {P : Matrix n n ℝ}
    (h : Proc B one (fun _ => θ) P0 X Y η ε) (hE : ∀ t i, E (η t i) = 0) (hi : Inv B E one X Y η ε o t k a P) :
    Inv B E one X Y η ε o (t + 1) 0 (act θ.T a + const one θ.c) (θ.T * P * θ.Tᵀ + θ.R * θ.Q * θ.Rᵀ) := by
  have hnew : ∀ i, X (t + 1) i - (act θ.T a + const one θ.c) i = (∑ j, θ.T i j • (X t j - a j)) + ∑ l, θ.R i l • η t l := by
    intro i
    have := congrFun (h.move t) i
    rw [this]
    simp only [Pi.add_apply, act, smul_sub, Finset.sum_sub_distrib]
    abel
  have hread : ∀ s j, Read o (t + 1) 0 s j ↔ Read o t k s j := by
    intro s j
    refine and_congr_right fun _ => ⟨?_, ?_⟩
    · rintro (h | ⟨-, h⟩)
      · by_cases hs : s = t
        · exact Or.inr ⟨hs, j.2⟩
        · exact Or.inl (by omega)
      · omega
    · rintro (h | ⟨rfl, -⟩)
      · exact Or.inl (by omega)
      · exact Or.inl (by omega)
  have eη : ∀ i l, B (X t i - a i) (η t l) = 0 := fun i l => hi.noiseη t le_rfl i l
  have eη' : ∀ i l, B (η t l) (X t i - a i) = 0 := fun i l => by rw [h.sym]; exact eη i l
  refine ⟨fun i l => ?_, fun s j hr i => ?_, fun s hs i l => ?_, fun s j hs i => ?_, fun i => ?_, fun i => ?_⟩
  · rw [hnew, hnew]
    simp only [map_add, map_sum, map_smul, LinearMap.add_apply, LinearMap.sum_apply, LinearMap.smul_apply, smul_eq_mul, eη, eη',
      mul_zero, Finset.sum_const_zero, add_zero, zero_add, hi.cov, Matrix.add_apply, Matrix.mul_apply, transpose_apply,
      Finset.sum_mul, Finset.mul_sum]
    have e : ∀ u v, B (η t u) (η t v) = θ.Q u v := fun u v => congrFun (congrFun (h.ηη t) u) v
    simp only [e]
    congr 1
    · refine Finset.sum_congr rfl fun _ _ => Finset.sum_congr rfl fun _ _ => by ring
    · refine Finset.sum_congr rfl fun _ _ => Finset.sum_congr rfl fun _ _ => by ring
  · rw [hnew]
    have hr' := (hread s j).1 hr
    have e1 : ∀ i, B (X t i - a i) (Y s j) = 0 := fun i => hi.past s j hr' i
    have hst : s ≤ t := by rcases hr'.2 with h | ⟨h, -⟩ <;> omega
    have e2 : ∀ l, B (η t l) (Y s j) = 0 := fun l => by
      rw [h.sym]; exact congrFun (congrFun (h.yLater s t hst) j) l
    simp only [map_add, map_sum, map_smul, LinearMap.add_apply, LinearMap.sum_apply, LinearMap.smul_apply, e1, e2, smul_zero,
      Finset.sum_const_zero, add_zero]
  · rw [hnew]
    have e1 : ∀ i, B (X t i - a i) (η s l) = 0 := fun i => hi.noiseη s (by omega) i l
    have e2 : ∀ u, B (η t u) (η s l) = 0 := fun u => congrFun (congrFun (h.ηη0 t s (by omega)) u) l
    simp only [map_add, map_sum, map_smul, LinearMap.add_apply, LinearMap.sum_apply, LinearMap.smul_apply, e1, e2, smul_zero,
      Finset.sum_const_zero, add_zero]
  · rw [hnew]
    have e1 : ∀ i, B (X t i - a i) (ε s j) = 0 := fun i => hi.noiseε s j (Or.inl (by omega)) i
    have e2 : ∀ u, B (η t u) (ε s j) = 0 := fun u => congrFun (congrFun (h.ηε0 t s) u) j
    simp only [map_add, map_sum, map_smul, LinearMap.add_apply, LinearMap.sum_apply, LinearMap.smul_apply, e1, e2, smul_zero,
      Finset.sum_const_zero, add_zero]
  · have hset : ({w | ∃ s j, Read o (t + 1) 0 s j ∧ w = Y s j} : Set W) = {w | ∃ s j, Read o t k s j ∧ w = Y s j} := by
      simp only [hread]
    rw [hset]
    exact Submodule.add_mem _ (Submodule.sum_mem _ fun j _ => Submodule.smul_mem _ _ (hi.span j))
      (Submodule.smul_mem _ _ (Submodule.subset_span (Or.inl rfl)))
  · rw [hnew]
    simp [fun j => (map_sub E (X t j) (a j)).symm.trans (hi.mean j), hE]

theorem Inv.start {E : W →ₗ[ℝ] ℝ} (o : ℕ → Fin k → Prop) (h : Proc B one (fun _ => θ) P0 X Y η ε) (h1 : E one = 1)
    (hx : ∀ i, E (X 0 i) = a0 i) : Inv B E one X Y η ε o 0 0 (const one a0) P0 := by
  refine ⟨fun i l => ?_, fun s j hr i => ?_, fun s _ i l => ?_, fun s j _ i => ?_, fun i => ?_, fun i => ?_⟩
  · have : B (X 0 i) (X 0 l) = P0 i l := congrFun (congrFun h.x0 i) l
    simp [const, h.one0, h.one0', this]
  · rcases hr.2 with h | ⟨-, h⟩ <;> omega
  · have : B (X 0 i) (η s l) = 0 := congrFun (congrFun (h.xη0 s) i) l
    simp [const, h.one0, this]
  · have : B (X 0 i) (ε s j) = 0 := congrFun (congrFun (h.xε0 s) i) j
    simp [const, h.one0, this]
  · exact Submodule.smul_mem _ _ (Submodule.subset_span (Or.inl rfl))
  · simp [const, h1, hx]

theorem wState_inv {E : W →ₗ[ℝ] ℝ} (o : ℕ → Fin k → Prop) (h : Proc B one (fun _ => θ) P0 X Y η ε)
    (hpos : ∀ w, 0 ≤ B w w) (hdiag : ∀ i j, i ≠ j → θ.H i j = 0) (h1 : E one = 1)
    (hx : ∀ i, E (X 0 i) = a0 i) (hη : ∀ t i, E (η t i) = 0) (hε : ∀ t i, E (ε t i) = 0) (t : ℕ) :
    Inv B E one X Y η ε o t 0 (wState one θ o a0 P0 Y t).1 (wState one θ o a0 P0 Y t).2 ∧
      Inv B E one X Y η ε o t k (wFilt one θ o a0 P0 Y t).1 (wFilt one θ o a0 P0 Y t).2 := by
  have hrow : ∀ t, Inv B E one X Y η ε o t 0 (wState one θ o a0 P0 Y t).1 (wState one θ o a0 P0 Y t).2 →
      Inv B E one X Y η ε o t k (wFilt one θ o a0 P0 Y t).1 (wFilt one θ o a0 P0 Y t).2 := fun t hi =>
    hi.row h hpos hdiag hε k le_rfl
  induction t with
  | zero => exact ⟨.start o h h1 hx, hrow 0 (.start o h h1 hx)⟩
  | succ t ih =>
    have := ih.2.advance h hη
    exact ⟨this, hrow (t + 1) this⟩

end algebra

/-! ### The program -/

variable {θ : Params n (Fin k) r} {a0 : n → ℝ} {P0 : Matrix n n ℝ}

/-- One step of the program. -/
theorem univStep_of_final (j : ℝ) (hk : 0 < k) (y : Row (Fin k)) (a : n → ℝ) (P : Matrix n n ℝ)
    (hF : ∀ o ∈ univScan j a P (univSeries y θ), o.F ≠ 0)
    (af : n → ℝ) (Pf : Matrix n n ℝ) (hf : univFinal j a P (univSeries y θ) = (af, Pf)) :
    let S := stabilize j ((1 / 2 : ℝ) • (Pf + Pfᵀ))
    ∃ u, univStep j y a P θ = some u ∧ u.aFilt = af ∧ u.PFilt = S ∧ u.aHat = (predict af S θ.c θ.T θ.R θ.Q).1 ∧
      u.PHat = (predict af S θ.c θ.T θ.R θ.Q).2 := by
  intro S
  have hne : univSeries y θ ≠ [] := by
    intro h; have := congrArg List.length h; simp [univSeries] at this; omega
  obtain ⟨l, hl, la, lP⟩ := univScan_getLast j (univSeries y θ) a P hne
  rw [hf] at la lP
  simp only at la lP
  rw [univStep_eq j y a P θ hF l hl]
  exact ⟨_, rfl, la, by simp only [lP]; rfl, by simp only [la, lP]; rfl, by simp only [la, lP]; rfl⟩

/-- A run whose steps are known. -/
theorem univRows_of_steps (j : ℝ) (y : ℕ → Row (Fin k)) (A : ℕ → n → ℝ) (V : ℕ → Matrix n n ℝ) (u : ℕ → UnivOut n)
    (hu : ∀ t, univStep j (y t) (A t) (V t) θ = some (u t) ∧ (u t).aHat = A (t + 1) ∧ (u t).PHat = V (t + 1)) (N : ℕ) :
    ∀ s, univRows j θ (A s) (V s) ((List.range' s N).map y) = some ((List.range' s N).map u) := by
  induction N with
  | zero => intro s; rfl
  | succ N ih =>
    intro s
    obtain ⟨h1, h2, h3⟩ := hu s
    simp only [List.range'_succ, List.map_cons, univRows, h1, Option.bind_some, h2, h3, ih, Option.map_some]

theorem univGraph_of_steps (j : ℝ) (y : ℕ → Row (Fin k)) (A : ℕ → n → ℝ) (V : ℕ → Matrix n n ℝ) (u : ℕ → UnivOut n)
    (hu : ∀ t, univStep j (y t) (A t) (V t) θ = some (u t) ∧ (u t).aHat = A (t + 1) ∧ (u t).PHat = V (t + 1)) (N : ℕ) :
    ∃ out, univGraph j (A 0) (V 0) θ ((List.range N).map y) = some out ∧ ∀ t, t < N →
      out.predictedStates[t]? = some (A t) ∧ out.predictedCovs[t]? = some (V t) ∧
      out.filteredStates[t]? = some (u t).aFilt ∧ out.filteredCovs[t]? = some (u t).PFilt := by
  have h := univRows_of_steps (θ := θ) j y A V u hu N 0
  rw [← List.range_eq_range'] at h
  simp only [univGraph, h, Option.map_some]
  refine ⟨_, rfl, fun t ht => ⟨?_, ?_, ?_, ?_⟩⟩
  · cases t with
    | zero => simp
    | succ t =>
      rw [List.getElem?_cons_succ, List.getElem?_dropLast, if_pos (by simp; omega), List.getElem?_map, List.getElem?_map,
        List.getElem?_range (by omega)]
      simp [(hu t).2.1]
  · cases t with
    | zero => simp
    | succ t =>
      rw [List.getElem?_cons_succ, List.getElem?_dropLast, if_pos (by simp; omega), List.getElem?_map, List.getElem?_map,
        List.getElem?_range (by omega)]
      simp [(hu t).2.2]
  · simp [ht]
  · simp [ht]

/-- What the program carries into date `t`. -/
noncomputable def carriedU (j : ℝ) (θ : Params n (Fin k) r) (a0 : n → ℝ) (P0 : Matrix n n ℝ) (y : ℕ → Row (Fin k)) :
    ℕ → (n → ℝ) × Matrix n n ℝ
  | 0 => (a0, P0)
  | t + 1 =>
    let f := univFinal j (carriedU j θ a0 P0 y t).1 (carriedU j θ a0 P0 y t).2 (univSeries (y t) θ)
    predict f.1 (stabilize j ((1 / 2 : ℝ) • (f.2 + f.2ᵀ))) θ.c θ.T θ.R θ.Q

/-- The jittered run is near the ideal one, if fully determined series agree with their forecasts. -/
theorem NearPair.list {a : ℝ → n → ℝ} {P : ℝ → Matrix n n ℝ} {A : n → ℝ} {V : Matrix n n ℝ} (h : NearPair a P A V)
    (xs : Fin k → Series n) (hs : ∀ i, 0 ≤ (xs i).s)
    (hpsd : ∀ m, m ≤ k → (univFinal 0 A V ((List.ofFn xs).take m)).2.PosSemidef)
    (hv : ∀ m (hm : m < k), ¬ (xs ⟨m, hm⟩).nan → scalarF (xs ⟨m, hm⟩) (univFinal 0 A V ((List.ofFn xs).take m)).2 = 0 →
      (xs ⟨m, hm⟩).y - ((xs ⟨m, hm⟩).z ⬝ᵥ (univFinal 0 A V ((List.ofFn xs).take m)).1 + (xs ⟨m, hm⟩).d) = 0)
    (m : ℕ) (hm : m ≤ k) :
    NearPair (fun j => (univFinal j (a j) (P j) ((List.ofFn xs).take m)).1)
      (fun j => (univFinal j (a j) (P j) ((List.ofFn xs).take m)).2)
      (univFinal 0 A V ((List.ofFn xs).take m)).1 (univFinal 0 A V ((List.ofFn xs).take m)).2 := by
  induction m with
  | zero => simpa [univFinal] using h
  | succ m ih =>
    have hlt : m < k := by omega
    have htake : (List.ofFn xs).take (m + 1) = (List.ofFn xs).take m ++ [xs ⟨m, hlt⟩] := by
      rw [List.take_add_one]
      simp [hlt]
    have h1 := (ih (by omega)).inner (hpsd m (by omega)) (xs ⟨m, hlt⟩) (hs _) (hv m hlt)
    simp only [htake, univFinal_append]
    rw [(univInner_eq _ _ _).1, (univInner_eq _ _ _).2]
    exact h1

/-- **C06 (whole runs).** On fully observed data, with constant matrices, a diagonal `H` with positive entries and zero jitter, the
univariate filter returns the filtered and predicted states and covariances of the standard filter, date by date. -/
theorem C06_univariate_run (hk : 0 < k) (fill : ℝ) (hP0 : P0.PosSemidef) (hQ : θ.Q.PosSemidef) (s : Fin k → ℝ) (hs : ∀ i, 0 < s i)
    (hH : θ.H = Matrix.diagonal s) (ys : List (Row (Fin k))) (hy : ∀ y ∈ ys, ∀ i, ¬ Spec.Missing fill (y i)) :
    ∃ out, univGraph 0 a0 P0 θ ys = some out ∧
      let std := buildGraph 0 fill a0 P0 (ys.map fun y => (y, θ))
      out.filteredStates = std.filteredStates ∧ out.predictedStates = std.predictedStates ∧
        out.filteredCovs = std.filteredCovs ∧ out.predictedCovs = std.predictedCovs := by
  have hHp : θ.H.PosSemidef := by rw [hH]; exact PosSemidef.diagonal fun i => (hs i).le
  have key : ∀ (ys : List (Row (Fin k))) (a : n → ℝ) (P : Matrix n n ℝ), P.PosSemidef →
      (∀ y ∈ ys, ∀ i, ¬ Spec.Missing fill (y i)) → ∃ rs, univRows 0 θ a P ys = some rs ∧
        let st := filterScan 0 fill a P (ys.map fun y => (y, θ))
        rs.map UnivOut.aFilt = st.map StepOut.aFilt ∧ rs.map UnivOut.aHat = st.map StepOut.aHat ∧
          rs.map UnivOut.PFilt = st.map StepOut.PFilt ∧ rs.map UnivOut.PHat = st.map StepOut.PHat := by
    intro ys
    induction ys with
    | nil => intro a P _ _; exact ⟨[], rfl, rfl, rfl, rfl, rfl⟩
    | cons y ys ih =>
      intro a P hP hy
      obtain ⟨u, hu, u1, u2, u3, u4⟩ := C06_univariate_eq_standard hk fill y (hy y (by simp)) a hP θ s hs hH
      have hdet := (univ_det_pos hP θ s hs hH).ne'.isUnit
      obtain ⟨-, c2, -, -, -, c6⟩ := C02_update_is_conditional fill y (hy y (by simp)) a (PosSemidef.transpose_eq hP) θ
        (PosSemidef.transpose_eq hHp) hdet
      have hP' : (kalmanStep 0 fill y a P θ).PHat.PosSemidef := by
        rw [c6 (PosSemidef.transpose_eq hQ), c2, ← conjTranspose_eq_transpose_of_trivial θ.T,
          ← conjTranspose_eq_transpose_of_trivial θ.R]
        exact ((condCov_posSemidef hP θ.Z hHp hdet).mul_mul_conjTranspose_same θ.T).add (hQ.mul_mul_conjTranspose_same θ.R)
      obtain ⟨rs, hrs, r1, r2, r3, r4⟩ := ih (kalmanStep 0 fill y a P θ).aHat (kalmanStep 0 fill y a P θ).PHat hP'
        (fun y' hy' => hy y' (by simp [hy']))
      refine ⟨u :: rs, ?_, ?_, ?_, ?_, ?_⟩
      · simp only [univRows, hu, Option.bind_some, u3, u4, hrs, Option.map_some]
      · simp only [List.map_cons, filterScan, u1, r1]
      · simp only [List.map_cons, filterScan, u3, r2]
      · simp only [List.map_cons, filterScan, u2, r3]
      · simp only [List.map_cons, filterScan, u4, r4]
  obtain ⟨rs, hrs, r1, r2, r3, r4⟩ := key ys a0 P0 hP0 hy
  refine ⟨_, by rw [univGraph, hrs]; rfl, ?_, ?_, ?_, ?_⟩
  · exact r1
  · show a0 :: (rs.map UnivOut.aHat).dropLast = _
    rw [r2]; rfl
  · exact r3
  · show P0 :: (rs.map UnivOut.PHat).dropLast = _
    rw [r4]; rfl

/-- The hypotheses of the whole-run theorem are satisfiable. -/
example : ∃ out, univGraph (k := 2) (n := Fin 1) (r := Fin 1) 0 0 1 ⟨0, 0, 1, !![1; 2], 1, Matrix.diagonal ![1, 3], 1⟩
    [fun _ => some 1, fun _ => some 2] = some out ∧ out.filteredStates.length = 2 := by
  obtain ⟨out, h1, h2, -⟩ := C06_univariate_run (k := 2) (n := Fin 1) (r := Fin 1) (a0 := 0) (P0 := 1)
    (θ := ⟨0, 0, 1, !![1; 2], 1, Matrix.diagonal ![1, 3], 1⟩) (by norm_num) 0 PosSemidef.one PosSemidef.one ![1, 3]
    (by intro i; fin_cases i <;> simp) rfl [fun _ => some 1, fun _ => some 2] (by
      intro y hy i hm
      simp only [List.mem_cons, List.not_mem_nil, or_false] at hy
      rcases hy with rfl | rfl <;> simp [Spec.Missing] at hm)
  exact ⟨out, h1, by rw [h2]; simp [buildGraph, postprocess, filterScan_length]⟩

section process

variable {Ω : Type*} [MeasurableSpace Ω] {μ : Measure Ω} [IsProbabilityMeasure μ]
variable {X : ℕ → n → Ω → ℝ} {Y : ℕ → Fin k → Ω → ℝ} {η : ℕ → r → Ω → ℝ} {ε : ℕ → Fin k → Ω → ℝ}

/-- Evaluation at a realisation. -/
def evalAt (ω : Ω) : L2 μ →ₗ[ℝ] ℝ where
  toFun f := f.1 ω
  map_add' _ _ := rfl
  map_smul' _ _ := rfl

open Classical in
/-- A combination of what has been read is an affine function of the recorded entries. -/
theorem affine_of_span {W : Type*} [AddCommGroup W] [Module ℝ W] (o : ℕ → Fin k → Prop) (Y : ℕ → Fin k → W) (one : W) (T : ℕ)
    (w : W) (hw : w ∈ Submodule.span ℝ ({one} ∪ {w | ∃ s j, (o s j ∧ s < T) ∧ w = Y s j})) :
    ∃ (b : ℝ) (v : ∀ s, {i // o s i} → ℝ), w = b • one + ∑ s ∈ Finset.range T, ∑ j : {i // o s i}, v s j • Y s j := by
  refine Submodule.span_induction (p := fun w _ => ∃ (b : ℝ) (v : ∀ s, {i // o s i} → ℝ),
    w = b • one + ∑ s ∈ Finset.range T, ∑ j : {i // o s i}, v s j • Y s j) ?_ ⟨0, fun _ _ => 0, by simp⟩ ?_ ?_ hw
  · rintro w (rfl | ⟨s, j, ⟨hj, hs⟩, rfl⟩)
    · exact ⟨1, fun _ _ => 0, by simp⟩
    · refine ⟨0, fun s' j' => if s' = s ∧ j'.1 = j then 1 else 0, ?_⟩
      rw [zero_smul, zero_add, Finset.sum_eq_single s, Finset.sum_eq_single ⟨j, hj⟩]
      · simp
      · intro j' _ hne
        have : j'.1 ≠ j := fun e => hne (Subtype.ext e)
        simp [this]
      · intro h; exact absurd (Finset.mem_univ _) h
      · intro s' _ hne
        simp [hne]
      · intro h; exact absurd (Finset.mem_range.2 hs) h
  · rintro x y _ _ ⟨b, v, rfl⟩ ⟨b', v', rfl⟩
    refine ⟨b + b', fun s j => v s j + v' s j, ?_⟩
    simp only [add_smul, Finset.sum_add_distrib]
    abel
  · rintro c x _ ⟨b, v, rfl⟩
    refine ⟨c * b, fun s j => c * v s j, ?_⟩
    simp only [smul_add, Finset.smul_sum, mul_smul]

theorem read_zero (o : ℕ → Fin k → Prop) (t s : ℕ) (j : Fin k) : Read o t 0 s j ↔ o s j ∧ s < t := by
  simp [Read]

theorem read_last (o : ℕ → Fin k → Prop) (t s : ℕ) (j : Fin k) : Read o t k s j ↔ o s j ∧ s < t + 1 := by
  refine and_congr_right fun _ => ⟨?_, ?_⟩
  · rintro (h | ⟨rfl, -⟩) <;> omega
  · intro h
    by_cases hs : s = t
    · exact Or.inr ⟨hs, j.2⟩
    · exact Or.inl (by omega)

open Classical in
/-- What is known of the error makes the prediction best. -/
theorem bestAffine_of_inv (h : Spec.Process μ (fun _ => θ) a0 P0 X Y η ε) (o : ℕ → Fin k → Prop) (t m T : ℕ)
    (hT : ∀ s j, Read o t m s j ↔ o s j ∧ s < T) (a : n → L2 μ) (P : Matrix n n ℝ)
    (hi : Inv (covB μ) (mean μ) (Orthogonal.one μ) (liftX h) (liftY h) (liftη h) (liftε h) o t m a P) :
    Spec.BestAffine μ o Y T (X t) (fun i => (a i).1) P := by
  have haff : ∀ i, ∃ (b : ℝ) (v : ∀ s, {i // o s i} → ℝ),
      a i = b • Orthogonal.one μ + ∑ s ∈ Finset.range T, ∑ j : {i // o s i}, v s j • liftY h s j := fun i => by
    refine affine_of_span o (liftY h) _ T _ ?_
    have := hi.span i
    simpa only [hT] using this
  choose b v hbv using haff
  exact bestAffine_of h o T (liftX h t) a P ⟨b, v, hbv⟩ hi.mean (by ext i l; exact hi.cov i l)
    (fun s hs => by ext i j; exact hi.past s j ((hT s j).2 ⟨j.2, hs⟩) i)

theorem ae_zero_of_cov (f : L2 μ) (hv : covB μ f f = 0) (hm : mean μ f = 0) : ∀ᵐ ω ∂μ, f.1 ω = 0 := by
  have h0 : Var[f.1; μ] = 0 := by rw [← covariance_self f.2.aemeasurable]; exact hv
  have hev : evariance f.1 μ = 0 := by rw [← f.2.ofReal_variance_eq, h0, ENNReal.ofReal_zero]
  filter_upwards [(evariance_eq_zero_iff f.2.aemeasurable).1 hev] with ω hω
  rw [hω]; exact hm

open Classical in
/-- The inner sequences built from the recorded data. -/
theorem univSeries_recorded (h : Spec.Process μ (fun _ => θ) a0 P0 X Y η ε) (o : ℕ → Fin k → Prop) (ω : Ω) (t : ℕ) :
    univSeries (fun i => if o t i then some (Y t i ω) else none) θ =
      List.ofFn fun i => ({ serAt θ o t i with y := evalAt ω (yAt o (liftY h) t i) } : Series n) := by
  simp only [univSeries]
  congr 1
  funext i
  by_cases hi : o t i
  · have e2 : yAt o (liftY h) t i = liftY h t i := if_pos hi
    simp [e2, serAt, hi, evalAt, liftY]
    funext l
    simp [hi]
  · have e2 : yAt o (liftY h) t i = 0 := if_neg hi
    simp [e2, serAt, hi]
    funext l
    simp [hi]

/-- **C188.** Take constant matrices with a diagonal `H` (zeros allowed). Whatever entries are recorded (the others being NaN) and
however degenerate the model — no observation covariance has to be invertible —, for almost every realisation the univariate filter
returns numbers for every positive jitter, and up to an error at most proportional to the jitter its predicted and filtered states
are the best affine predictions of the state from the entries recorded before the date and up to the date, and the reported
covariance matrices are the covariances of the errors of these predictions. -/
theorem C188_univariate_optimal (h : Spec.Process μ (fun _ => θ) a0 P0 X Y η ε) (hk : 0 < k)
    (hH : ∀ i j, i ≠ j → θ.H i j = 0) (o : ℕ → Fin k → Prop) :
    ∃ (A Af : ℕ → n → Ω → ℝ) (V Vf : ℕ → Matrix n n ℝ),
      (∀ t, Spec.BestAffine μ o Y t (X t) (A t) (V t) ∧ Spec.BestAffine μ o Y (t + 1) (X t) (Af t) (Vf t)) ∧
      ∀ᵐ ω ∂μ, ∀ N t, t < N → ∃ out : ℝ → UnivGraph n,
        (∀ jitter, 0 < jitter → univGraph jitter a0 P0 θ (Spec.recorded o Y N ω) = some (out jitter)) ∧
        (∀ i, (fun jitter => (out jitter).predictedStates.getD t 0 i - A t i ω) =O[𝓝[>] 0] fun jitter => jitter) ∧
        (∀ i l, (fun jitter => (out jitter).predictedCovs.getD t 0 i l - V t i l) =O[𝓝[>] 0] fun jitter => jitter) ∧
        (∀ i, (fun jitter => (out jitter).filteredStates.getD t 0 i - Af t i ω) =O[𝓝[>] 0] fun jitter => jitter) ∧
        (∀ i l, (fun jitter => (out jitter).filteredCovs.getD t 0 i l - Vf t i l) =O[𝓝[>] 0] fun jitter => jitter) := by
  classical
  set S := wState (Orthogonal.one μ) θ o a0 P0 (liftY h) with hS
  set F := wFilt (Orthogonal.one μ) θ o a0 P0 (liftY h) with hF
  have hinv := wState_inv (E := mean μ) (a0 := a0) o (toProc h) covB_self_nonneg hH (by simp [mean_apply, Orthogonal.one])
    h.mean_initial h.mean_shock h.mean_error
  have hrow : ∀ t m, m ≤ k → Inv (covB μ) (mean μ) (Orthogonal.one μ) (liftX h) (liftY h) (liftη h) (liftε h) o t m
      (wRow (Orthogonal.one μ) (serAt θ o t) (yAt o (liftY h) t) (S t).1 (S t).2 m).1
      (wRow (Orthogonal.one μ) (serAt θ o t) (yAt o (liftY h) t) (S t).1 (S t).2 m).2 := fun t m hm =>
    (hinv t).1.row (toProc h) covB_self_nonneg hH h.mean_error m hm
  refine ⟨fun t i => (S t).1 i |>.1, fun t i => (F t).1 i |>.1, fun t => (S t).2, fun t => (F t).2, fun t =>
    ⟨bestAffine_of_inv h o t 0 t (read_zero o t) _ _ (hinv t).1, bestAffine_of_inv h o t k (t + 1) (read_last o t) _ _ (hinv t).2⟩,
      ?_⟩
  -- fully determined series agree with their forecasts
  have hnull : ∀ᵐ ω ∂μ, ∀ (t : ℕ) (m : Fin k), o t m →
      scalarF (serAt θ o t m) (wRow (Orthogonal.one μ) (serAt θ o t) (yAt o (liftY h) t) (S t).1 (S t).2 m).2 = 0 →
      (liftY h t m - (∑ j, (serAt θ o t m).z j • (wRow (Orthogonal.one μ) (serAt θ o t) (yAt o (liftY h) t) (S t).1 (S t).2 m).1 j) -
        (serAt θ o t m).d • Orthogonal.one μ).1 ω = 0 := by
    rw [ae_all_iff]; intro t
    rw [ae_all_iff]; intro m
    by_cases ho : o t m
    · by_cases hz : scalarF (serAt θ o t m) (wRow (Orthogonal.one μ) (serAt θ o t) (yAt o (liftY h) t) (S t).1 (S t).2 m).2 = 0
      · have h1 := (hrow t m m.2.le).innov (toProc h) h.mean_error m.2 ho
        filter_upwards [ae_zero_of_cov _ (h1.1.trans hz) h1.2] with ω hω _ _
        exact hω
      · exact Eventually.of_forall fun ω _ h0 => absurd h0 hz
    · exact Eventually.of_forall fun ω h0 => absurd h0 ho
  filter_upwards [hnull] with ω hω
  have hQ : θ.Q.PosSemidef := by rw [← (toProc h).ηη 0]; exact covM_posSemidef _ (toProc h).sym covB_self_nonneg _
  have hHp : θ.H.PosSemidef := by rw [← (toProc h).εε 0]; exact covM_posSemidef _ (toProc h).sym covB_self_nonneg _
  have hP0 : P0.PosSemidef := by rw [← (toProc h).x0]; exact covM_posSemidef _ (toProc h).sym covB_self_nonneg _
  have hpsd : ∀ t m, m ≤ k → (wRow (Orthogonal.one μ) (serAt θ o t) (yAt o (liftY h) t) (S t).1 (S t).2 m).2.PosSemidef := by
    intro t m hm
    have : covM (covB μ) (liftX h t - (wRow (Orthogonal.one μ) (serAt θ o t) (yAt o (liftY h) t) (S t).1 (S t).2 m).1)
        (liftX h t - (wRow (Orthogonal.one μ) (serAt θ o t) (yAt o (liftY h) t) (S t).1 (S t).2 m).1) =
        (wRow (Orthogonal.one μ) (serAt θ o t) (yAt o (liftY h) t) (S t).1 (S t).2 m).2 := by
      ext i l; exact (hrow t m hm).cov i l
    rw [← this]; exact covM_posSemidef _ (toProc h).sym covB_self_nonneg _
  let y : ℕ → Row (Fin k) := fun t i => if o t i then some (Y t i ω) else none
  let xs : ℕ → Fin k → Series n := fun t i => { serAt θ o t i with y := evalAt ω (yAt o (liftY h) t i) }
  have hser : ∀ t, univSeries (y t) θ = List.ofFn (xs t) := fun t => univSeries_recorded h o ω t
  have hxs : ∀ t i, 0 ≤ (xs t i).s := by
    intro t i
    have h1 : 0 ≤ θ.H i i := hHp.diag_nonneg
    show 0 ≤ (if o t i then θ.H i i else 0)
    split_ifs <;> simp [h1]
  have hev : ∀ t m, m ≤ k → univFinal 0 (fun i => ((S t).1 i).1 ω) (S t).2 ((List.ofFn (xs t)).take m) =
      ((fun i => ((wRow (Orthogonal.one μ) (serAt θ o t) (yAt o (liftY h) t) (S t).1 (S t).2 m).1 i).1 ω),
        (wRow (Orthogonal.one μ) (serAt θ o t) (yAt o (liftY h) t) (S t).1 (S t).2 m).2) := fun t m hm =>
    (wRow_eval (evalAt ω) (Orthogonal.one μ) (by rfl) (serAt θ o t) (yAt o (liftY h) t) (S t).1 (S t).2 m hm).symm
  have htake : ∀ t, (List.ofFn (xs t)).take k = List.ofFn (xs t) := fun t => List.take_of_length_le (by simp)
  -- one row
  have hnearRow : ∀ t, NearPair (fun j => (carriedU j θ a0 P0 y t).1) (fun j => (carriedU j θ a0 P0 y t).2)
      (fun i => ((S t).1 i).1 ω) (S t).2 →
      NearPair (fun j => (univFinal j (carriedU j θ a0 P0 y t).1 (carriedU j θ a0 P0 y t).2 (univSeries (y t) θ)).1)
        (fun j => (univFinal j (carriedU j θ a0 P0 y t).1 (carriedU j θ a0 P0 y t).2 (univSeries (y t) θ)).2)
        (fun i => ((F t).1 i).1 ω) (F t).2 := by
    intro t hn
    have h1 := hn.list (xs t) (hxs t) (fun m hm => by rw [hev t m hm]; exact hpsd t m hm) (fun m hm hnan hz => by
      rw [hev t m hm.le] at hz ⊢
      have ho : o t ⟨m, hm⟩ := not_not.1 hnan
      have h2 := hω t ⟨m, hm⟩ ho hz
      have h3 : (xs t ⟨m, hm⟩).y = (liftY h t ⟨m, hm⟩).1 ω := by
        show evalAt ω (yAt o (liftY h) t ⟨m, hm⟩) = _
        rw [show yAt o (liftY h) t ⟨m, hm⟩ = liftY h t ⟨m, hm⟩ from if_pos ho]; rfl
      have h4 := congrArg (fun z : ℝ => z) h2
      have h5 : evalAt ω (liftY h t ⟨m, hm⟩ - (∑ j, (serAt θ o t ⟨m, hm⟩).z j •
          (wRow (Orthogonal.one μ) (serAt θ o t) (yAt o (liftY h) t) (S t).1 (S t).2 m).1 j) -
          (serAt θ o t ⟨m, hm⟩).d • Orthogonal.one μ) = 0 := h2
      simp only [map_sub, map_sum, map_smul, smul_eq_mul] at h5
      rw [h3]
      have h6 : evalAt ω (Orthogonal.one μ) = 1 := rfl
      rw [h6, mul_one] at h5
      show (liftY h t ⟨m, hm⟩).1 ω - (∑ j, (serAt θ o t ⟨m, hm⟩).z j * evalAt ω _ + (serAt θ o t ⟨m, hm⟩).d) = 0
      rw [← h5]
      show _ = (liftY h t ⟨m, hm⟩).1 ω - _ - _
      ring) k le_rfl
    rw [htake, ← hser] at h1
    have h2 := hev t k le_rfl
    rw [htake, ← hser] at h2
    rw [h2] at h1
    exact h1
  have hsymF : ∀ t, (F t).2ᵀ = (F t).2 := fun t => PosSemidef.transpose_eq (hpsd t k le_rfl)
  have hnear : ∀ t, NearPair (fun j => (carriedU j θ a0 P0 y t).1) (fun j => (carriedU j θ a0 P0 y t).2)
      (fun i => ((S t).1 i).1 ω) (S t).2 := by
    intro t
    induction t with
    | zero =>
      refine ⟨fun i => ?_, fun i l => near_const _, fun j _ => hP0⟩
      have : ((S 0).1 i).1 ω = a0 i := by simp [hS, wState, const, Orthogonal.one]
      simp only [carriedU, this]
      exact near_const _
    | succ t ih =>
      have h1 := ((hnearRow t ih).predict (hsymF t) θ hQ).2
      have h2 : (fun i => ((S (t + 1)).1 i).1 ω) = θ.T *ᵥ (fun i => ((F t).1 i).1 ω) + θ.c := by
        funext i
        show (act θ.T (F t).1 i).1 ω + (const (Orthogonal.one μ) θ.c i).1 ω = _
        rw [act_eval]
        simp [const, Orthogonal.one]
      rw [h2]
      exact h1
  intro N t ht
  -- the program
  have hstep : ∀ j, 0 < j → ∀ t, ∃ u, univStep j (y t) (carriedU j θ a0 P0 y t).1 (carriedU j θ a0 P0 y t).2 θ = some u ∧
      u.aFilt = (univFinal j (carriedU j θ a0 P0 y t).1 (carriedU j θ a0 P0 y t).2 (univSeries (y t) θ)).1 ∧
      u.PFilt = stabilize j ((1 / 2 : ℝ) • ((univFinal j (carriedU j θ a0 P0 y t).1 (carriedU j θ a0 P0 y t).2
        (univSeries (y t) θ)).2 + (univFinal j (carriedU j θ a0 P0 y t).1 (carriedU j θ a0 P0 y t).2 (univSeries (y t) θ)).2ᵀ)) ∧
      u.aHat = (carriedU j θ a0 P0 y (t + 1)).1 ∧ u.PHat = (carriedU j θ a0 P0 y (t + 1)).2 := by
    intro j hj t
    have hFp := univScan_F_pos j (univSeries (y t) θ) (by
      rw [hser]; intro x hx; obtain ⟨i, rfl⟩ := (List.mem_ofFn' _ _).1 hx
      linarith [hxs t i]) (carriedU j θ a0 P0 y t).1 (carriedU j θ a0 P0 y t).2 ((hnear t).psd j hj)
    exact univStep_of_final (θ := θ) j hk (y t) _ _ (fun o ho => (hFp o ho).ne') _ _ rfl
  have hgraph : ∀ j, ∃ out : UnivGraph n, 0 < j → univGraph j a0 P0 θ (Spec.recorded o Y N ω) = some out ∧
      out.predictedStates[t]? = some (carriedU j θ a0 P0 y t).1 ∧ out.predictedCovs[t]? = some (carriedU j θ a0 P0 y t).2 ∧
      out.filteredStates[t]? = some (univFinal j (carriedU j θ a0 P0 y t).1 (carriedU j θ a0 P0 y t).2 (univSeries (y t) θ)).1 ∧
      out.filteredCovs[t]? = some (stabilize j ((1 / 2 : ℝ) • ((univFinal j (carriedU j θ a0 P0 y t).1 (carriedU j θ a0 P0 y t).2
        (univSeries (y t) θ)).2 + (univFinal j (carriedU j θ a0 P0 y t).1 (carriedU j θ a0 P0 y t).2 (univSeries (y t) θ)).2ᵀ))) := by
    intro j
    by_cases hj : 0 < j
    · choose u hu using hstep j hj
      obtain ⟨out, hout, hall⟩ := univGraph_of_steps (θ := θ) j y (fun t => (carriedU j θ a0 P0 y t).1)
        (fun t => (carriedU j θ a0 P0 y t).2) u (fun t => ⟨(hu t).1, (hu t).2.2.2.1, (hu t).2.2.2.2⟩) N
      obtain ⟨g1, g2, g3, g4⟩ := hall t ht
      rw [(hu t).2.1] at g3
      rw [(hu t).2.2.1] at g4
      exact ⟨out, fun _ => ⟨hout, g1, g2, g3, g4⟩⟩
    · exact ⟨⟨[], [], [], [], []⟩, fun h0 => absurd h0 hj⟩
  choose out hout using hgraph
  have hF' := hnearRow t (hnear t)
  have hFs := (hF'.predict (hsymF t) θ hQ).1
  refine ⟨out, fun j hj => (hout j hj).1, fun i => ?_, fun i l => ?_, fun i => ?_, fun i l => ?_⟩
  · refine ((hnear t).mean i).congr' ?_
    filter_upwards [self_mem_nhdsWithin] with j hj
    rw [List.getD_eq_getElem?_getD, (hout j hj).2.1]; rfl
  · refine ((hnear t).cov i l).congr' ?_
    filter_upwards [self_mem_nhdsWithin] with j hj
    rw [List.getD_eq_getElem?_getD, (hout j hj).2.2.1]; rfl
  · refine (hF'.mean i).congr' ?_
    filter_upwards [self_mem_nhdsWithin] with j hj
    rw [List.getD_eq_getElem?_getD, (hout j hj).2.2.2.1]; rfl
  · refine (hFs.cov i l).congr' ?_
    filter_upwards [self_mem_nhdsWithin] with j hj
    rw [List.getD_eq_getElem?_getD, (hout j hj).2.2.2.2]; rfl

/-- Two perfectly measured series that add the same random walk to a constant level: no observation covariance is invertible. -/
def degenerate : Params (Fin 2) (Fin 2) (Fin 1) where
  c := 0
  d := ![1, 0]
  T := 1
  Z := !![1, 0; 1, 0]
  R := !![1; 0]
  H := 0
  Q := 1

/-- C188 applies to a degenerate model of which the second series is recorded only every third date. -/
example (N t : ℕ) (ht : t < N) : ∃ (Ω : Type) (_ : MeasurableSpace Ω) (μ : Measure Ω) (X : ℕ → Fin 2 → Ω → ℝ)
    (Y : ℕ → Fin 2 → Ω → ℝ) (A : Fin 2 → Ω → ℝ) (V : Matrix (Fin 2) (Fin 2) ℝ),
      Spec.BestAffine μ (fun t i => i = 0 ∨ t % 3 = 0) Y (t + 1) (X t) A V ∧
      ∀ᵐ ω ∂μ, ∃ out : ℝ → UnivGraph (Fin 2), (∀ jitter, 0 < jitter → univGraph jitter 0 1 degenerate
          (Spec.recorded (fun t i => i = 0 ∨ t % 3 = 0) Y N ω) = some (out jitter)) ∧
        ∀ i, Tendsto (fun jitter => (out jitter).filteredStates.getD t 0 i) (𝓝[>] 0) (𝓝 (A i ω)) := by
  obtain ⟨Ω, mΩ, μ, hμ, X, Y, η, ε, fill, h, -⟩ := exists_process (fun _ => degenerate) 0
    (P0 := 1) Matrix.PosSemidef.one (fun _ => Matrix.PosSemidef.one) (fun _ => Matrix.PosSemidef.zero)
  obtain ⟨A, Af, V, Vf, hb, hall⟩ := C188_univariate_optimal h (by norm_num) (fun i j _ => rfl) (fun t i => i = 0 ∨ t % 3 = 0)
  refine ⟨Ω, mΩ, μ, X, Y, Af t, Vf t, (hb t).2, ?_⟩
  filter_upwards [hall] with ω hω
  obtain ⟨out, ho, -, -, hf, -⟩ := hω N t ht
  exact ⟨out, ho, fun i => Near.tendsto (hf i)⟩

end process

/-! ### Correlated measurement errors -/

/-- **C188 (correlated errors are ignored).** The univariate filter reads only the diagonal of `H`: its outputs are the same for
any two models that differ in the off-diagonal entries of `H` only, for every jitter and all data. -/
theorem C188_offdiagonal_ignored (j : ℝ) (ys : List (Row (Fin k))) (H' : Matrix (Fin k) (Fin k) ℝ)
    (hH : ∀ i, H' i i = θ.H i i) : univGraph j a0 P0 { θ with H := H' } ys = univGraph j a0 P0 θ ys := by
  have hser : ∀ y : Row (Fin k), univSeries y { θ with H := H' } = univSeries y θ := by
    intro y
    simp only [univSeries]
    congr 1
    funext i
    simp [hH]
  have hstep : ∀ (y : Row (Fin k)) a P, univStep j y a P { θ with H := H' } = univStep j y a P θ := by
    intro y a P
    simp only [univStep, hser]
  have hrows : ∀ (ys : List (Row (Fin k))) a P, univRows j { θ with H := H' } a P ys = univRows j θ a P ys := by
    intro ys
    induction ys with
    | nil => intros; rfl
    | cons y ys ih => intro a P; simp only [univRows, hstep, ih]
  simp only [univGraph, hrows]

/-- A state measured by the second series with an error that the first series reveals. -/
def correlated : Params (Fin 1) (Fin 2) (Fin 1) where
  c := 0
  d := 0
  T := 1
  Z := !![0; 1]
  R := 1
  H := !![1, 1; 1, 1]
  Q := 1

/-- **C188 (correlated errors, consequence).** The diagonal `H` of the optimality theorem is needed: in a model whose two series
have the same measurement error, the second minus the first series is the state itself, yet the univariate filter's filtered state
keeps half of the prior variance, so it is not the best affine prediction. -/
theorem C188_correlated_not_optimal {Ω : Type*} [MeasurableSpace Ω] {μ : Measure Ω} [IsProbabilityMeasure μ]
    {X : ℕ → Fin 1 → Ω → ℝ} {Y : ℕ → Fin 2 → Ω → ℝ} {η : ℕ → Fin 1 → Ω → ℝ} {ε : ℕ → Fin 2 → Ω → ℝ}
    (h : Spec.Process μ (fun _ => correlated) 0 1 X Y η ε) :
    (∀ᵐ ω ∂μ, X 0 0 ω = Y 0 1 ω - Y 0 0 ω) ∧
      ∀ ω, ∃ out, univGraph 0 0 1 correlated (Spec.recorded (fun _ _ => True) Y 1 ω) = some out ∧
        out.filteredCovs = [!![1 / 2]] ∧ ∀ A, ¬ Spec.BestAffine μ (fun _ _ => True) Y 1 (X 0) A !![1 / 2] := by
  have hε : ∀ᵐ ω ∂μ, ε 0 1 ω = ε 0 0 ω := by
    have hm : MemLp (fun ω => ε 0 1 ω - ε 0 0 ω) 2 μ := (h.sqInt_error 0 1).sub (h.sqInt_error 0 0)
    have h0 : Var[fun ω => ε 0 1 ω - ε 0 0 ω; μ] = 0 := by
      have e := variance_sub (h.sqInt_error 0 1) (h.sqInt_error 0 0)
      have e' : (fun ω => ε 0 1 ω - ε 0 0 ω) = ε 0 1 - ε 0 0 := rfl
      rw [e', e, ← covariance_self (h.sqInt_error 0 1).aemeasurable, ← covariance_self (h.sqInt_error 0 0).aemeasurable,
        h.cov_error, h.cov_error, h.cov_error]
      simp [correlated]
      norm_num
    have hz : ∫ ω, (ε 0 1 ω - ε 0 0 ω) ∂μ = 0 := by
      rw [integral_sub ((h.sqInt_error 0 1).integrable (by norm_num)) ((h.sqInt_error 0 0).integrable (by norm_num)),
        h.mean_error, h.mean_error, sub_self]
    have hev : evariance (fun ω => ε 0 1 ω - ε 0 0 ω) μ = 0 := by
      rw [← hm.ofReal_variance_eq, h0, ENNReal.ofReal_zero]
    filter_upwards [(evariance_eq_zero_iff hm.aemeasurable).1 hev] with ω hω
    rw [hz] at hω
    linarith [show ε 0 1 ω - ε 0 0 ω = 0 from hω]
  have hX : ∀ᵐ ω ∂μ, X 0 0 ω = Y 0 1 ω - Y 0 0 ω := by
    filter_upwards [hε] with ω hω
    rw [h.observation, h.observation]
    simp [correlated, hω]
  refine ⟨hX, fun ω => ?_⟩
  have hbest : ∀ A, ¬ Spec.BestAffine μ (fun _ _ => True) Y 1 (X 0) A !![1 / 2] := by
    intro A hA
    have := hA.optimal 0 0 fun _ j => if j = 1 then 1 else -1
    have hz : ∫ ω, (X 0 0 ω - Spec.affineSeen (fun _ _ => True) Y 1 0 (fun _ j => if j = 1 then 1 else -1) ω) ^ 2 ∂μ = 0 := by
      rw [integral_congr_ae (g := fun _ => (0 : ℝ)), integral_zero]
      filter_upwards [hX] with ω hω
      simp [Spec.affineSeen, hω, Fin.sum_univ_two]
      ring
    rw [hz] at this
    norm_num at this
  have hrow : univSeries (fun i => some (Y 0 i ω)) correlated =
      [⟨Y 0 0 ω, 0, 0, 1, False⟩, ⟨Y 0 1 ω, 1, 0, 1, False⟩] := by
    rw [univSeries_observed _ (by simp)]
    simp only [List.ofFn_succ, List.ofFn_zero, Fin.succ_zero_eq_one, Option.getD_some, correlated, reduceCtorEq]
    congr 2
    · funext l; simp
    · congr 1; funext l; fin_cases l; simp
  have hfin : ∃ af, univFinal 0 0 1 (univSeries (fun i => some (Y 0 i ω)) correlated) = (af, !![1 / 2]) := by
    rw [hrow]
    refine ⟨_, Prod.ext rfl ?_⟩
    simp only [univFinal]
    rw [(univInner_eq _ _ _).2, (univInner_eq _ _ _).2]
    have e1 : scalarK (⟨Y 0 0 ω, 0, 0, 1, False⟩ : Series (Fin 1)) 1 = 0 := by
      simp [scalarK]
    rw [e1]
    have e2 : scalarF (⟨Y 0 1 ω, 1, 0, 1, False⟩ : Series (Fin 1)) 1 = 2 := by
      simp [scalarF, dotProduct]; norm_num
    have e3 : scalarK (⟨Y 0 1 ω, 1, 0, 1, False⟩ : Series (Fin 1)) 1 = fun _ => 1 / 2 := by
      simp only [scalarK, e2]
      rw [if_neg (by norm_num)]
      funext l
      simp
    simp only [vecMulVec_zero, smul_zero, sub_zero, e2, e3]
    ext i l
    fin_cases i; fin_cases l
    simp [vecMulVec_apply]
    norm_num
  obtain ⟨af, hfin⟩ := hfin
  have hFp := univScan_F_pos 0 (univSeries (fun i => some (Y 0 i ω)) correlated) (by
    rw [hrow]; intro x hx; simp only [List.mem_cons, List.not_mem_nil, or_false] at hx
    rcases hx with rfl | rfl <;> simp) 0 1 PosSemidef.one
  obtain ⟨u, hu, -, hP, -, -⟩ := univStep_of_final (θ := correlated) 0 (by norm_num) (fun i => some (Y 0 i ω)) 0 1
    (fun o ho => (hFp o ho).ne') af _ hfin
  have hP' : u.PFilt = !![1 / 2] := by
    rw [hP, stabilize_zero]
    ext i l; fin_cases i; fin_cases l
    simp
    norm_num
  refine ⟨⟨[u.aFilt], [0], [u.PFilt], [1], [u.ll]⟩, ?_, by simp [hP'], hbest⟩
  simp [univGraph, Spec.recorded, univRows, hu]

end Verif.Kalman
