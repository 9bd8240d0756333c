import Verif.Kalman.UnivariateDensityLemmas

/-!
# The univariate filter's reported likelihood, for given data

Lemmas for C196.
-/

set_option autoImplicit false
set_option linter.unusedSectionVars false

open Matrix Filter Topology Asymptotics

namespace Verif.Kalman

open Orthogonal

variable {n r : Type*} [Fintype n] [Fintype r] [DecidableEq n] [DecidableEq r] {k : ℕ}
variable {W : Type*} [AddCommGroup W] [Module ℝ W] (L : W →ₗ[ℝ] ℝ) {one : W} (h1 : L one = 1)
variable (θ : Params n (Fin k) r) (o : ℕ → Fin k → Prop) (a0 : n → ℝ) (P0 : Matrix n n ℝ) (Y : ℕ → Fin k → W)

/-- The pair held before series `m` of date `t` is read. Proof notion: kalman_filter.py:799-805. -/
noncomputable def at' (one : W) (t m : ℕ) : (n → W) × Matrix n n ℝ :=
  wRow one (serAt θ o t) (yAt o Y t) (wState one θ o a0 P0 Y t).1 (wState one θ o a0 P0 Y t).2 m

/-- The forecast of series `i` of date `t`. Proof notion: kalman_filter.py:769-789. -/
noncomputable def fcast (one : W) (t : ℕ) (i : Fin k) : W :=
  (∑ l, (serAt θ o t i).z l • (at' θ o a0 P0 Y one t i).1 l) + (serAt θ o t i).d • one

/-- The variance of its error. Proof notion: kalman_filter.py:769-789. -/
noncomputable def fvar (one : W) (t : ℕ) (i : Fin k) : ℝ := scalarF (serAt θ o t i) (at' θ o a0 P0 Y one t i).2

open Classical in
/-- The rows. Proof notion: the sequences of kalman_filter.py:213-226. -/
noncomputable def rowsOf (t : ℕ) : Row (Fin k) := fun i => if o t i then some (L (Y t i)) else none

/-- The inner sequences. Proof notion: kalman_filter.py:792-801. -/
noncomputable def serOf (t : ℕ) (i : Fin k) : Series n := { serAt θ o t i with y := L (yAt o Y t i) }

theorem univSeries_rowsOf (t : ℕ) : univSeries (rowsOf L o Y t) θ = List.ofFn (serOf L θ o Y t) := by
  simp only [univSeries]
  congr 1
  funext i
  by_cases hi : o t i
  · have e2 : yAt o Y t i = Y t i := if_pos hi
    simp [e2, serAt, serOf, rowsOf, hi]
    funext l
    simp [hi]
  · have e2 : yAt o Y t i = 0 := if_neg hi
    simp [e2, serAt, serOf, rowsOf, hi]
    funext l
    simp [hi]

include h1 in
theorem at'_eval (t m : ℕ) (hm : m ≤ k) :
    univFinal 0 (fun i => L ((wState one θ o a0 P0 Y t).1 i)) (wState one θ o a0 P0 Y t).2 ((List.ofFn (serOf L θ o Y t)).take m) =
      ((fun i => L ((at' θ o a0 P0 Y one t m).1 i)), (at' θ o a0 P0 Y one t m).2) :=
  (wRow_eval L one h1 (serAt θ o t) (yAt o Y t) _ _ m hm).symm

include h1 in
theorem L_fcast (t : ℕ) (i : Fin k) :
    L (fcast θ o a0 P0 Y one t i) = (serAt θ o t i).z ⬝ᵥ (fun l => L ((at' θ o a0 P0 Y one t i).1 l)) + (serAt θ o t i).d := by
  simp [fcast, dotProduct, h1]

variable (hQ : θ.Q.PosSemidef) (hH : ∀ i, 0 ≤ θ.H i i) (hP0 : P0.PosSemidef)
  (hpsd : ∀ t m, m ≤ k → (at' θ o a0 P0 Y one t m).2.PosSemidef)
  (hF : ∀ t i, o t i → 0 < fvar θ o a0 P0 Y one t i)

open Classical in
include h1 hQ hH hP0 hpsd hF in
theorem near_run (t : ℕ) :
    NearPair (fun j => (carriedU j θ a0 P0 (rowsOf L o Y) t).1) (fun j => (carriedU j θ a0 P0 (rowsOf L o Y) t).2)
      (fun i => L ((wState one θ o a0 P0 Y t).1 i)) (wState one θ o a0 P0 Y t).2 ∧
    ∀ m, m ≤ k → NearPair
      (fun j => (univFinal j (carriedU j θ a0 P0 (rowsOf L o Y) t).1 (carriedU j θ a0 P0 (rowsOf L o Y) t).2
        ((List.ofFn (serOf L θ o Y t)).take m)).1)
      (fun j => (univFinal j (carriedU j θ a0 P0 (rowsOf L o Y) t).1 (carriedU j θ a0 P0 (rowsOf L o Y) t).2
        ((List.ofFn (serOf L θ o Y t)).take m)).2)
      (fun i => L ((at' θ o a0 P0 Y one t m).1 i)) (at' θ o a0 P0 Y one t m).2 := by
  have hrow : ∀ t, NearPair (fun j => (carriedU j θ a0 P0 (rowsOf L o Y) t).1) (fun j => (carriedU j θ a0 P0 (rowsOf L o Y) t).2)
      (fun i => L ((wState one θ o a0 P0 Y t).1 i)) (wState one θ o a0 P0 Y t).2 → ∀ m, m ≤ k → NearPair
      (fun j => (univFinal j (carriedU j θ a0 P0 (rowsOf L o Y) t).1 (carriedU j θ a0 P0 (rowsOf L o Y) t).2
        ((List.ofFn (serOf L θ o Y t)).take m)).1)
      (fun j => (univFinal j (carriedU j θ a0 P0 (rowsOf L o Y) t).1 (carriedU j θ a0 P0 (rowsOf L o Y) t).2
        ((List.ofFn (serOf L θ o Y t)).take m)).2)
      (fun i => L ((at' θ o a0 P0 Y one t m).1 i)) (at' θ o a0 P0 Y one t m).2 := by
    intro t hn m hm
    have hs : ∀ i, 0 ≤ (serOf L θ o Y t i).s := by
      intro i
      show 0 ≤ (if o t i then θ.H i i else 0)
      split_ifs <;> simp [hH i]
    have h2 := hn.list (serOf L θ o Y t) hs (fun m hm => by rw [at'_eval L h1 θ o a0 P0 Y t m hm]; exact hpsd t m hm)
      (fun m hm hnan hz => by
        rw [at'_eval L h1 θ o a0 P0 Y t m hm.le] at hz
        exact absurd hz (hF t ⟨m, hm⟩ (not_not.1 hnan)).ne') m hm
    rw [at'_eval L h1 θ o a0 P0 Y t m hm] at h2
    exact h2
  have hn : NearPair (fun j => (carriedU j θ a0 P0 (rowsOf L o Y) t).1) (fun j => (carriedU j θ a0 P0 (rowsOf L o Y) t).2)
      (fun i => L ((wState one θ o a0 P0 Y t).1 i)) (wState one θ o a0 P0 Y t).2 := by
    induction t with
    | zero =>
      refine ⟨fun i => ?_, fun i l => near_const _, fun j _ => hP0⟩
      have : L ((wState one θ o a0 P0 Y 0).1 i) = a0 i := by simp [wState, const, h1]
      simp only [carriedU, this]
      exact near_const _
    | succ t ih =>
      have h2 := hrow t ih k le_rfl
      rw [List.take_of_length_le (by simp), ← univSeries_rowsOf] at h2
      have h3 := (h2.predict (PosSemidef.transpose_eq (hpsd t k le_rfl)) θ hQ).2
      have h4 : (fun i => L ((wState one θ o a0 P0 Y (t + 1)).1 i)) = θ.T *ᵥ (fun i => L ((at' θ o a0 P0 Y one t k).1 i)) + θ.c := by
        funext i
        simp [wState, at', act, const, h1, mulVec, dotProduct]
      rw [h4]
      exact h3
  exact ⟨hn, hrow t hn⟩

/-- One entry's part of the log-density. Proof notion: kalman_filter.py:785-789. -/
noncomputable def term (one : W) (t : ℕ) (i : Fin k) : ℝ :=
  Real.log (fvar θ o a0 P0 Y one t i) + (L (Y t i) - L (fcast θ o a0 P0 Y one t i)) ^ 2 / fvar θ o a0 P0 Y one t i

variable (hne : ∀ t i, o t i → term L θ o a0 P0 Y one t i ≠ 0)

open Classical in
include h1 hQ hH hP0 hpsd hF hne in
/-- The reported log-likelihood, in the limit of a vanishing jitter. -/
theorem run_limit (hk : 0 < k) (N : ℕ) : ∃ out : ℝ → UnivGraph n,
    (∀ j, 0 < j → univGraph j a0 P0 θ ((List.range N).map (rowsOf L o Y)) = some (out j)) ∧
    Tendsto (fun j => (out j).loglike.sum) (𝓝[>] 0)
      (𝓝 (∑ t ∈ Finset.range N, ∑ i, if o t i then -(1 / 2) * (mvnConst + term L θ o a0 P0 Y one t i) else 0)) := by
  have hs : ∀ t i, 0 ≤ (serOf L θ o Y t i).s := by
    intro t i
    show 0 ≤ (if o t i then θ.H i i else 0)
    split_ifs <;> simp [hH i]
  let A : ℝ → ℕ → n → ℝ := fun j t => (carriedU j θ a0 P0 (rowsOf L o Y) t).1
  let V : ℝ → ℕ → Matrix n n ℝ := fun j t => (carriedU j θ a0 P0 (rowsOf L o Y) t).2
  let I : ℝ → ℕ → Fin k → InnerOut n := fun j t m =>
    univInner j (serOf L θ o Y t m) (univFinal j (A j t) (V j t) ((List.ofFn (serOf L θ o Y t)).take m)).1
      (univFinal j (A j t) (V j t) ((List.ofFn (serOf L θ o Y t)).take m)).2
  have hstep : ∀ j, 0 < j → ∀ t, ∃ u, univStep j (rowsOf L o Y t) (A j t) (V j t) θ = some u ∧ u.aHat = A j (t + 1) ∧
      u.PHat = V j (t + 1) ∧ u.ll = ∑ m : Fin k, -(1 / 2) * ((if (I j t m).ll ≠ 0 then mvnConst else 0) + (I j t m).ll) := by
    intro j hj t
    have hFp := univScan_F_pos j (univSeries (rowsOf L o Y t) θ) (by
      rw [univSeries_rowsOf]; intro x hx; obtain ⟨i, rfl⟩ := (List.mem_ofFn' _ _).1 hx
      linarith [hs t i]) (A j t) (V j t) ((near_run L h1 θ o a0 P0 Y hQ hH hP0 hpsd hF t).1.psd j hj)
    obtain ⟨u, e1, e2, e3, e4⟩ := univStep_ll j hk (rowsOf L o Y t) (A j t) (V j t) θ (serOf L θ o Y t)
      (univSeries_rowsOf L θ o Y t) fun o ho => (hFp o ho).ne'
    exact ⟨u, e1, e2, e3, e4⟩
  have hg : ∀ j, ∃ out : UnivGraph n, 0 < j → univGraph j a0 P0 θ ((List.range N).map (rowsOf L o Y)) = some out ∧
      out.loglike.sum = ∑ t ∈ Finset.range N, ∑ m : Fin k, -(1 / 2) * ((if (I j t m).ll ≠ 0 then mvnConst else 0) + (I j t m).ll) := by
    intro j
    by_cases hj : 0 < j
    · choose u hu using hstep j hj
      have h2 := univGraph_loglik j θ (rowsOf L o Y) (A j) (V j) u N fun t _ => ⟨(hu t).1, (hu t).2.1, (hu t).2.2.1⟩
      obtain ⟨out, ho, hl⟩ := Option.map_eq_some_iff.1 h2
      exact ⟨out, fun _ => ⟨ho, by rw [hl]; exact Finset.sum_congr rfl fun t _ => (hu t).2.2.2⟩⟩
    · exact ⟨⟨[], [], [], [], []⟩, fun h => absurd h hj⟩
  choose out hout using hg
  refine ⟨out, fun j hj => (hout j hj).1, ?_⟩
  refine Tendsto.congr' (f₁ := fun j => ∑ t ∈ Finset.range N, ∑ m : Fin k,
    -(1 / 2) * ((if (I j t m).ll ≠ 0 then mvnConst else 0) + (I j t m).ll)) ?_ ?_
  · filter_upwards [self_mem_nhdsWithin] with j hj
    exact (hout j hj).2.symm
  · refine tendsto_finsetSum _ fun t _ => tendsto_finsetSum _ fun m _ => ?_
    by_cases ho : o t m
    · rw [if_pos ho]
      have hn := (near_run L h1 θ o a0 P0 Y hQ hH hP0 hpsd hF t).2 m m.2.le
      set x := serOf L θ o Y t m with hx
      have hF0 : Near (fun j => x.z ⬝ᵥ ((univFinal j (A j t) (V j t) ((List.ofFn (serOf L θ o Y t)).take m)).2 *ᵥ x.z) + x.s)
          (fvar θ o a0 P0 Y one t m) := (near_dot (fun i => near_mulVec hn.cov x.z i) x.z).add (near_const _)
      have hF1 : Near (fun j => (I j t m).F) (fvar θ o a0 P0 Y one t m) := by
        have h3 := hF0.add near_id
        rw [add_zero] at h3
        exact h3
      have hv : Near (fun j => x.y - (x.z ⬝ᵥ (univFinal j (A j t) (V j t) ((List.ofFn (serOf L θ o Y t)).take m)).1 + x.d))
          (L (Y t m) - L (fcast θ o a0 P0 Y one t m)) := by
        rw [L_fcast L h1]
        have e : x.y = L (Y t m) := by
          show L (yAt o Y t m) = _
          rw [yAt, if_pos ho]
        rw [← e]
        exact (near_const _).sub ((near_dot hn.mean x.z).add (near_const _))
      have hpos := hF t m ho
      have hlim : Tendsto (fun j => (I j t m).ll) (𝓝[>] 0) (𝓝 (term L θ o a0 P0 Y one t m)) := by
        have h3 : Tendsto (fun j => Real.log (I j t m).F +
            (x.y - (x.z ⬝ᵥ (univFinal j (A j t) (V j t) ((List.ofFn (serOf L θ o Y t)).take m)).1 + x.d)) ^ 2 / (I j t m).F)
            (𝓝[>] 0) (𝓝 (term L θ o a0 P0 Y one t m)) :=
          (hF1.tendsto.log hpos.ne').add ((hv.tendsto.pow 2).div hF1.tendsto hpos.ne')
        refine h3.congr' ?_
        filter_upwards [hF0.tendsto.eventually_ne hpos.ne'] with j hj
        have hflag : ¬ (x.z ⬝ᵥ ((univFinal j (A j t) (V j t) ((List.ofFn (serOf L θ o Y t)).take m)).2 *ᵥ x.z) + x.s = 0 ∨ x.nan) := by
          rintro (h | h)
          · exact hj h
          · exact h ho
        show _ = (if _ then _ else _)
        rw [if_neg hflag]
        rfl
      refine ((hlim.const_add mvnConst).const_mul (-(1 / 2))).congr' ?_
      filter_upwards [hlim.eventually_ne (hne t m ho)] with j hj
      rw [if_pos hj]
    · rw [if_neg ho]
      have e : ∀ j, (I j t m).ll = 0 := fun j => if_pos (Or.inr ho)
      simp [e]

theorem quadFormSym_of_sym {m : Type*} [Fintype m] (M : Matrix n m ℝ) {S : Matrix m m ℝ} (hS : Sᵀ = S) :
    quadFormSym M S = M * S * Mᵀ := by
  have : (M * S * Mᵀ)ᵀ = M * S * Mᵀ := by simp [Matrix.transpose_mul, hS, Matrix.mul_assoc]
  rw [quadFormSym, this, ← two_smul ℝ, smul_smul]; norm_num

open Classical in
include h1 hQ hH hP0 hpsd hF hne in
/-- Complete data and no jitter. -/
theorem run_exact (hk : 0 < k) (N : ℕ) (ho : ∀ t, t < N → ∀ i, o t i) : ∃ out : UnivGraph n,
    univGraph 0 a0 P0 θ ((List.range N).map (rowsOf L o Y)) = some out ∧
    out.loglike.sum = ∑ t ∈ Finset.range N, ∑ i, if o t i then -(1 / 2) * (mvnConst + term L θ o a0 P0 Y one t i) else 0 := by
  have hcar : ∀ t, carriedU 0 θ a0 P0 (rowsOf L o Y) t =
      ((fun i => L ((wState one θ o a0 P0 Y t).1 i)), (wState one θ o a0 P0 Y t).2) := by
    intro t
    induction t with
    | zero => simp [carriedU, wState, const, h1]
    | succ t ih =>
      have h2 := at'_eval L h1 θ o a0 P0 Y t k le_rfl
      rw [List.take_of_length_le (by simp), ← univSeries_rowsOf] at h2
      simp only [carriedU, ih, h2]
      have hsym := PosSemidef.transpose_eq (hpsd t k le_rfl)
      have e1 : stabilize 0 ((1 / 2 : ℝ) • ((at' θ o a0 P0 Y one t k).2 + ((at' θ o a0 P0 Y one t k).2)ᵀ)) = (at' θ o a0 P0 Y one t k).2 := by
        rw [hsym, stabilize, zero_smul, add_zero, ← two_smul ℝ, smul_smul]; norm_num
      rw [e1]
      refine Prod.ext ?_ ?_
      · funext i
        simp [predict, wState, at', act, const, h1, mulVec, dotProduct]
      · show quadFormSym θ.T _ + quadFormSym θ.R θ.Q = θ.T * _ * θ.Tᵀ + θ.R * θ.Q * θ.Rᵀ
        rw [quadFormSym_of_sym _ hsym, quadFormSym_of_sym _ (PosSemidef.transpose_eq hQ)]
        rfl
  let A : ℕ → n → ℝ := fun t => (carriedU 0 θ a0 P0 (rowsOf L o Y) t).1
  let V : ℕ → Matrix n n ℝ := fun t => (carriedU 0 θ a0 P0 (rowsOf L o Y) t).2
  let I : ℕ → Fin k → InnerOut n := fun t m =>
    univInner 0 (serOf L θ o Y t m) (univFinal 0 (A t) (V t) ((List.ofFn (serOf L θ o Y t)).take m)).1
      (univFinal 0 (A t) (V t) ((List.ofFn (serOf L θ o Y t)).take m)).2
  have hI : ∀ t m, I t m = univInner 0 (serOf L θ o Y t m) (fun i => L ((at' θ o a0 P0 Y one t m).1 i)) (at' θ o a0 P0 Y one t m).2 := by
    intro t m
    have h2 := at'_eval L h1 θ o a0 P0 Y t m m.2.le
    simp only [I, A, V, hcar t, h2]
  have hIF : ∀ t m, (I t m).F = fvar θ o a0 P0 Y one t m := by
    intro t m
    rw [hI]
    show _ + (0 : ℝ) = _
    rw [add_zero]; rfl
  have hIll : ∀ t m, o t m → (I t m).ll = term L θ o a0 P0 Y one t m := by
    intro t m hom
    have hpos := hF t m hom
    rw [hI]
    have hflag : ¬ ((serOf L θ o Y t m).z ⬝ᵥ ((at' θ o a0 P0 Y one t m).2 *ᵥ (serOf L θ o Y t m).z) + (serOf L θ o Y t m).s = 0 ∨
        (serOf L θ o Y t m).nan) := by
      rintro (h | h)
      · exact hpos.ne' h
      · exact h hom
    show (if _ then _ else _) = _
    rw [if_neg hflag, term, L_fcast L h1]
    have e : (serOf L θ o Y t m).y = L (Y t m) := by
      show L (yAt o Y t m) = _
      rw [yAt, if_pos hom]
    rw [e, add_zero]
    rfl
  have hstep : ∀ t, ∃ u, t < N → univStep 0 (rowsOf L o Y t) (A t) (V t) θ = some u ∧ u.aHat = A (t + 1) ∧
      u.PHat = V (t + 1) ∧ u.ll = ∑ m : Fin k, -(1 / 2) * ((if (I t m).ll ≠ 0 then mvnConst else 0) + (I t m).ll) := by
    intro t
    by_cases ht : t < N
    · obtain ⟨u, e1, e2, e3, e4⟩ := univStep_ll 0 hk (rowsOf L o Y t) (A t) (V t) θ (serOf L θ o Y t)
        (univSeries_rowsOf L θ o Y t) (by
          intro i hi
          rw [univSeries_rowsOf, univScan_ofFn] at hi
          obtain ⟨m, rfl⟩ := (List.mem_ofFn' _ _).1 hi
          exact (hIF t m).trans_ne (hF t m (ho t ht m)).ne')
      exact ⟨u, fun _ => ⟨e1, e2, e3, e4⟩⟩
    · exact ⟨⟨0, 0, 0, 0, 0, 0, 0⟩, fun h => absurd h ht⟩
  choose u hu using hstep
  have h2 := univGraph_loglik 0 θ (rowsOf L o Y) A V u N fun t ht => ⟨(hu t ht).1, (hu t ht).2.1, (hu t ht).2.2.1⟩
  obtain ⟨out, hg, hl⟩ := Option.map_eq_some_iff.1 h2
  refine ⟨out, hg, ?_⟩
  rw [hl]
  refine Finset.sum_congr rfl fun t ht => ?_
  have ht := Finset.mem_range.1 ht
  rw [(hu t ht).2.2.2]
  refine Finset.sum_congr rfl fun m _ => ?_
  rw [if_pos (ho t ht m), hIll t m (ho t ht m), if_pos (hne t m (ho t ht m))]

end Verif.Kalman
