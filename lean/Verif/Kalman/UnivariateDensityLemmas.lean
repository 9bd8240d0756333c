import Verif.Kalman.UnivariateOptimalProps
import Verif.Kalman.Triangular

/-!
# The univariate filter as a function of the data

Lemmas for C196.
-/

set_option autoImplicit false
set_option linter.unusedSectionVars false

open Matrix MeasureTheory ProbabilityTheory Filter Topology Asymptotics

namespace Verif.Kalman

open Orthogonal

variable {n r : Type*} [Fintype n] [Fintype r] [DecidableEq n] [DecidableEq r] {k : ℕ}

/-! ### Two replays that read the same numbers agree -/

section link

variable {W W' : Type*} [AddCommGroup W] [Module ℝ W] [AddCommGroup W'] [Module ℝ W']
variable (L : W →ₗ[ℝ] ℝ) (L' : W' →ₗ[ℝ] ℝ) {one : W} {one' : W'} (h1 : L one = 1) (h1' : L' one' = 1)

include h1 h1' in
theorem wRow_link (xs : Fin k → Series n) {y : Fin k → W} {y' : Fin k → W'} (hy : ∀ i, L (y i) = L' (y' i)) {a : n → W} {a' : n → W'}
    (ha : ∀ i, L (a i) = L' (a' i)) (P : Matrix n n ℝ) (m : ℕ) :
    (∀ i, L ((wRow one xs y a P m).1 i) = L' ((wRow one' xs y' a' P m).1 i)) ∧ (wRow one xs y a P m).2 = (wRow one' xs y' a' P m).2 := by
  induction m with
  | zero => exact ⟨ha, rfl⟩
  | succ m ih =>
    by_cases hm : m < k
    · simp only [wRow, dif_pos hm]
      refine ⟨fun i => ?_, by rw [ih.2]⟩
      simp only [wInner, map_add, map_smul, map_sub, map_sum, h1, h1', hy, ih.1, ih.2]
    · simp only [wRow, dif_neg hm]
      exact ih

include h1 h1' in
theorem wState_link (θ : Params n (Fin k) r) (o : ℕ → Fin k → Prop) (a0 : n → ℝ) (P0 : Matrix n n ℝ) {Y : ℕ → Fin k → W}
    {Y' : ℕ → Fin k → W'} (hy : ∀ t i, L (yAt o Y t i) = L' (yAt o Y' t i)) (t : ℕ) :
    (∀ i, L ((wState one θ o a0 P0 Y t).1 i) = L' ((wState one' θ o a0 P0 Y' t).1 i)) ∧
      (wState one θ o a0 P0 Y t).2 = (wState one' θ o a0 P0 Y' t).2 := by
  induction t with
  | zero => exact ⟨fun i => by simp [wState, const, h1, h1'], rfl⟩
  | succ t ih =>
    have h := wRow_link L L' h1 h1' (serAt θ o t) (hy t) ih.1 (wState one θ o a0 P0 Y t).2 k
    rw [show wRow one' (serAt θ o t) (yAt o Y' t) (wState one' θ o a0 P0 Y' t).1 (wState one θ o a0 P0 Y t).2 k =
      wRow one' (serAt θ o t) (yAt o Y' t) (wState one' θ o a0 P0 Y' t).1 (wState one' θ o a0 P0 Y' t).2 k by rw [ih.2]] at h
    simp only [wState]
    refine ⟨fun i => ?_, by rw [h.2]⟩
    simp only [Pi.add_apply, act, const, map_add, map_sum, map_smul, h.1, h1, h1']

end link

/-! ### What has been read -/

section seen

variable {W : Type*} [AddCommGroup W] [Module ℝ W] {one : W} {Y : ℕ → Fin k → W} {o : ℕ → Fin k → Prop}

/-- Affine functions of what has been read. -/
def Seen (one : W) (Y : ℕ → Fin k → W) (o : ℕ → Fin k → Prop) (t m : ℕ) : Submodule ℝ W :=
  Submodule.span ℝ ({one} ∪ {w | ∃ s j, Read o t m s j ∧ w = Y s j})

theorem seen_mono {t m t' m' : ℕ} (h : ∀ s j, Read o t m s j → Read o t' m' s j) : Seen one Y o t m ≤ Seen one Y o t' m' :=
  Submodule.span_mono (Set.union_subset_union_right _ (by rintro w ⟨s, j, hr, hw⟩; exact ⟨s, j, h s j hr, hw⟩))

theorem one_seen (t m : ℕ) : one ∈ Seen one Y o t m := Submodule.subset_span (Or.inl rfl)

theorem wRow_seen (xs : Fin k → Series n) {t : ℕ} {a : n → W} (ha : ∀ i, a i ∈ Seen one Y o t 0) (P : Matrix n n ℝ) (m : ℕ) (i : n) :
    (wRow one xs (yAt o Y t) a P m).1 i ∈ Seen one Y o t m := by
  induction m generalizing i with
  | zero => exact ha i
  | succ m ih =>
    have hmono : Seen one Y o t m ≤ Seen one Y o t (m + 1) := seen_mono fun s j h =>
      ⟨h.1, h.2.imp_right fun h => ⟨h.1, by omega⟩⟩
    by_cases hm : m < k
    · simp only [wRow, dif_pos hm, wInner]
      refine Submodule.add_mem _ (hmono (ih i)) (Submodule.smul_mem _ _ (Submodule.sub_mem _ (Submodule.sub_mem _ ?_ ?_) ?_))
      · by_cases ho : o t ⟨m, hm⟩
        · rw [yAt, if_pos ho]
          exact Submodule.subset_span (Or.inr ⟨t, ⟨m, hm⟩, ⟨ho, Or.inr ⟨rfl, Nat.lt_succ_self m⟩⟩, rfl⟩)
        · rw [yAt, if_neg ho]; exact Submodule.zero_mem _
      · exact Submodule.sum_mem _ fun j _ => Submodule.smul_mem _ _ (hmono (ih j))
      · exact Submodule.smul_mem _ _ (one_seen _ _)
    · simp only [wRow, dif_neg hm]
      exact hmono (ih i)

theorem wState_seen (θ : Params n (Fin k) r) (a0 : n → ℝ) (P0 : Matrix n n ℝ) (t : ℕ) (i : n) :
    (wState one θ o a0 P0 Y t).1 i ∈ Seen one Y o t 0 := by
  induction t generalizing i with
  | zero => exact Submodule.smul_mem _ _ (one_seen _ _)
  | succ t ih =>
    have hmono : Seen one Y o t k ≤ Seen one Y o (t + 1) 0 := seen_mono fun s j h =>
      ⟨h.1, Or.inl (by rcases h.2 with h | ⟨h, -⟩ <;> omega)⟩
    simp only [wState, Pi.add_apply, act]
    exact Submodule.add_mem _ (Submodule.sum_mem _ fun j _ => Submodule.smul_mem _ _ (hmono (wRow_seen _ ih _ k j)))
      (Submodule.smul_mem _ _ (one_seen _ _))

end seen

/-! ### Forecast errors are uncorrelated with what has been read -/

section step

variable {W : Type*} [AddCommGroup W] [Module ℝ W]
variable {B : W →ₗ[ℝ] W →ₗ[ℝ] ℝ} {one : W} {θ : Params n (Fin k) r} {P0 : Matrix n n ℝ} {X : ℕ → n → W}
  {Y : ℕ → Fin k → W} {η : ℕ → r → W} {ε : ℕ → Fin k → W}

theorem Inv.innov_past {E : W →ₗ[ℝ] ℝ} {o : ℕ → Fin k → Prop} {t m : ℕ} {a : n → W} {P : Matrix n n ℝ}
    (h : Proc B one (fun _ => θ) P0 X Y η ε) (hdiag : ∀ i j, i ≠ j → θ.H i j = 0) (hm : m < k)
    (hi : Inv B E one X Y η ε o t m a P) (ho : o t ⟨m, hm⟩) (w : W) (hw : w ∈ Seen one Y o t m) :
    B (Y t ⟨m, hm⟩ - (∑ j, (serAt θ o t ⟨m, hm⟩).z j • a j) - (serAt θ o t ⟨m, hm⟩).d • one) w = 0 := by
  classical
  set x := serAt θ o t ⟨m, hm⟩ with hx
  have hz : x.z = θ.Z ⟨m, hm⟩ := by simp [hx, serAt, ho]
  have hd' : x.d = θ.d ⟨m, hm⟩ := rfl
  set e : n → W := fun i => X t i - a i with he
  set v : W := Y t ⟨m, hm⟩ - (∑ j, x.z j • a j) - x.d • one with hv
  have hve : v = (∑ j, x.z j • e j) + ε t ⟨m, hm⟩ := by
    have ho := congrFun (h.obs t) ⟨m, hm⟩
    rw [hv, ho, hz, hd']
    simp only [Pi.add_apply, act, const, he, smul_sub, Finset.sum_sub_distrib]
    abel
  have hpastv : ∀ s j, Read o t m s j → B v (Y s j) = 0 := by
    intro s j hr
    rw [hve]
    simp only [map_add, map_sum, map_smul, LinearMap.add_apply, LinearMap.sum_apply, LinearMap.smul_apply, smul_eq_mul,
      fun i => hi.past s j hr i, mul_zero, Finset.sum_const_zero, zero_add, he]
    rw [h.sym]
    rcases hr.2 with hlt | ⟨rfl, hjm⟩
    · exact congrFun (congrFun (h.yLaterε s t hlt) j) ⟨m, hm⟩
    · have ho := congrFun (h.obs s) j
      have hne : j ≠ ⟨m, hm⟩ := by rintro rfl; simp at hjm
      have e1 : B (ε s j) (ε s ⟨m, hm⟩) = 0 := by
        have := congrFun (congrFun (h.εε s) j) ⟨m, hm⟩
        rw [show B (ε s j) (ε s ⟨m, hm⟩) = θ.H j ⟨m, hm⟩ from this, hdiag _ _ hne]
      have e2 : ∀ l, B (X s l) (ε s ⟨m, hm⟩) = 0 := fun l => congrFun (congrFun (h.xLater s s le_rfl).2 l) ⟨m, hm⟩
      rw [ho]
      simp [act, const, e1, e2, h.one0]
  refine Submodule.span_induction (p := fun w _ => B v w = 0) ?_ (by simp) ?_ ?_ hw
  · rintro w (rfl | ⟨s, j, hr, rfl⟩)
    · exact h.one0' v
    · exact hpastv s j hr
  · intro x y _ _ hx hy; simp [hx, hy]
  · intro c x _ hx; simp [hx]

end step

/-! ### The inner scan, entry by entry -/

theorem univScan_getElem? (j : ℝ) (xs : List (Series n)) (m : ℕ) : ∀ (a : n → ℝ) (P : Matrix n n ℝ),
    (univScan j a P xs)[m]? = xs[m]?.map fun x => univInner j x (univFinal j a P (xs.take m)).1 (univFinal j a P (xs.take m)).2 := by
  induction xs generalizing m with
  | nil => intro a P; simp [univScan]
  | cons x xs ih =>
    intro a P
    cases m with
    | zero => simp [univScan, univFinal]
    | succ m => simp [univScan, ih, univFinal]

theorem univScan_ofFn (j : ℝ) (xs : Fin k → Series n) (a : n → ℝ) (P : Matrix n n ℝ) :
    univScan j a P (List.ofFn xs) = List.ofFn fun m : Fin k =>
      univInner j (xs m) (univFinal j a P ((List.ofFn xs).take m)).1 (univFinal j a P ((List.ofFn xs).take m)).2 := by
  refine List.ext_getElem? fun m => ?_
  rw [univScan_getElem?]
  by_cases hm : m < k
  · simp [hm]
  · simp [hm]

open Classical in
theorem ll_sum (c : ℝ) (os : List (InnerOut n)) :
    -(1 / 2) * (((os.countP fun o => o.ll ≠ 0 : ℕ) : ℝ) * c + (os.map InnerOut.ll).sum) =
      (os.map fun o => -(1 / 2) * ((if o.ll ≠ 0 then c else 0) + o.ll)).sum := by
  induction os with
  | nil => simp
  | cons o os ih =>
    rw [List.countP_cons]
    simp only [List.map_cons, List.sum_cons]
    rw [← ih]
    by_cases h : o.ll = 0 <;> simp [h] <;> ring

open Classical in
/-- The row's likelihood, series by series. -/
theorem univStep_ll (j : ℝ) (hk : 0 < k) (y : Row (Fin k)) (a : n → ℝ) (P : Matrix n n ℝ) (θ : Params n (Fin k) r) (xs : Fin k → Series n)
    (hxs : univSeries y θ = List.ofFn xs) (hF : ∀ o ∈ univScan j a P (univSeries y θ), o.F ≠ 0) :
    let f := univFinal j a P (univSeries y θ)
    ∃ u, univStep j y a P θ = some u ∧ u.aHat = (predict f.1 (stabilize j ((1 / 2 : ℝ) • (f.2 + f.2ᵀ))) θ.c θ.T θ.R θ.Q).1 ∧
      u.PHat = (predict f.1 (stabilize j ((1 / 2 : ℝ) • (f.2 + f.2ᵀ))) θ.c θ.T θ.R θ.Q).2 ∧
      u.ll = ∑ m : Fin k, -(1 / 2) *
        ((if (univInner j (xs m) (univFinal j a P ((List.ofFn xs).take m)).1 (univFinal j a P ((List.ofFn xs).take m)).2).ll ≠ 0 then mvnConst
            else 0) +
          (univInner j (xs m) (univFinal j a P ((List.ofFn xs).take m)).1 (univFinal j a P ((List.ofFn xs).take m)).2).ll) := by
  intro f
  have hne : univSeries y θ ≠ [] := by
    intro h; have := congrArg List.length h; simp [univSeries] at this; omega
  obtain ⟨l, hl, la, lP⟩ := univScan_getLast j (univSeries y θ) a P hne
  rw [univStep_eq j y a P θ hF l hl]
  refine ⟨_, rfl, by rw [la, lP], by rw [la, lP], ?_⟩
  show -(1 / 2) * _ = _
  rw [hxs, univScan_ofFn, ll_sum, List.map_ofFn, List.sum_ofFn]
  rfl

/-- A run whose first steps are known. -/
theorem univRows_prefix (j : ℝ) (θ : Params n (Fin k) r) (y : ℕ → Row (Fin k)) (A : ℕ → n → ℝ) (V : ℕ → Matrix n n ℝ) (u : ℕ → UnivOut n)
    (M : ℕ) (hu : ∀ t, t < M → univStep j (y t) (A t) (V t) θ = some (u t) ∧ (u t).aHat = A (t + 1) ∧ (u t).PHat = V (t + 1)) (N : ℕ) :
    ∀ s, s + N ≤ M → univRows j θ (A s) (V s) ((List.range' s N).map y) = some ((List.range' s N).map u) := by
  induction N with
  | zero => intro s _; rfl
  | succ N ih =>
    intro s hs
    obtain ⟨h1, h2, h3⟩ := hu s (by omega)
    simp only [List.range'_succ, List.map_cons, univRows, h1, Option.bind_some, h2, h3, ih (s + 1) (by omega), Option.map_some]

theorem List.sum_range_map (f : ℕ → ℝ) (N : ℕ) : ((List.range N).map f).sum = ∑ t ∈ Finset.range N, f t := by
  induction N with
  | zero => simp
  | succ N ih => simp [List.range_succ, Finset.sum_range_succ, ih]

theorem univGraph_loglik (j : ℝ) (θ : Params n (Fin k) r) (y : ℕ → Row (Fin k)) (A : ℕ → n → ℝ) (V : ℕ → Matrix n n ℝ) (u : ℕ → UnivOut n)
    (N : ℕ) (hu : ∀ t, t < N → univStep j (y t) (A t) (V t) θ = some (u t) ∧ (u t).aHat = A (t + 1) ∧ (u t).PHat = V (t + 1)) :
    (univGraph j (A 0) (V 0) θ ((List.range N).map y)).map (fun g => g.loglike.sum) = some (∑ t ∈ Finset.range N, (u t).ll) := by
  have h := univRows_prefix j θ y A V u N hu N 0 (by omega)
  rw [← List.range_eq_range'] at h
  simp only [univGraph, h, Option.map_some]
  rw [List.map_map, List.sum_range_map]
  rfl

end Verif.Kalman
