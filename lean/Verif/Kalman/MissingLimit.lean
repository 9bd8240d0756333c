import Verif.Kalman.OptimalProps
import Verif.Kalman.Missing
import Mathlib.Topology.Instances.Matrix
import Mathlib.Topology.Algebra.Field
import Mathlib.Analysis.Normed.Ring.Units
import Mathlib.Analysis.RCLike.Basic

/-!
# The filter as its jitter vanishes

With missing entries the filter needs a positive jitter (`C04`).  Here: as the jitter tends to zero from above, everything the
filter reports for the states converges to the recursions of `Verif.Kalman.Orthogonal` for the model from which the missing
series have been deleted, date by date.
-/

set_option autoImplicit false

open Matrix MeasureTheory ProbabilityTheory Filter Topology

namespace Verif.Kalman

open Orthogonal

variable {n p r : Type*} [Fintype n] [Fintype p] [Fintype r] [DecidableEq n] [DecidableEq p] [DecidableEq r]

theorem inv_continuousAt {m : Type*} [Fintype m] [DecidableEq m] {A : Matrix m m ℝ} (hA : IsUnit A.det) :
    ContinuousAt (fun B : Matrix m m ℝ => B⁻¹) A := by
  refine continuousAt_matrix_inv A ?_
  obtain ⟨u, hu⟩ := hA
  rw [← hu]
  exact NormedRing.inverse_continuousAt u

section limits

variable {α : Type*} {l : Filter α} {m k q : Type*} [Fintype m] [Fintype k] [Fintype q]

omit [Fintype m] [Fintype q] in
theorem tendsto_mul {f : α → Matrix m k ℝ} {g : α → Matrix k q ℝ} {A : Matrix m k ℝ} {B : Matrix k q ℝ}
    (hf : Tendsto f l (𝓝 A)) (hg : Tendsto g l (𝓝 B)) : Tendsto (fun x => f x * g x) l (𝓝 (A * B)) := by
  have hc : Continuous fun x : Matrix m k ℝ × Matrix k q ℝ => x.1 * x.2 := continuous_fst.matrix_mul continuous_snd
  exact (hc.tendsto (A, B)).comp (hf.prodMk_nhds hg)

omit [Fintype m] in
theorem tendsto_mulVec {f : α → Matrix m k ℝ} {g : α → k → ℝ} {A : Matrix m k ℝ} {b : k → ℝ}
    (hf : Tendsto f l (𝓝 A)) (hg : Tendsto g l (𝓝 b)) : Tendsto (fun x => f x *ᵥ g x) l (𝓝 (A *ᵥ b)) := by
  have hc : Continuous fun x : Matrix m k ℝ × (k → ℝ) => x.1 *ᵥ x.2 := continuous_fst.matrix_mulVec continuous_snd
  exact (hc.tendsto (A, b)).comp (hf.prodMk_nhds hg)

omit [Fintype m] [Fintype k] in
theorem tendsto_transpose {f : α → Matrix m k ℝ} {A : Matrix m k ℝ} (hf : Tendsto f l (𝓝 A)) :
    Tendsto (fun x => (f x)ᵀ) l (𝓝 Aᵀ) :=
  ((continuous_id.matrix_transpose : Continuous fun x : Matrix m k ℝ => xᵀ).tendsto A).comp hf

omit [Fintype m] in
theorem tendsto_quadFormSym {f : α → Matrix m k ℝ} {g : α → Matrix k k ℝ} {A : Matrix m k ℝ} {B : Matrix k k ℝ}
    (hf : Tendsto f l (𝓝 A)) (hg : Tendsto g l (𝓝 B)) : Tendsto (fun x => quadFormSym (f x) (g x)) l (𝓝 (quadFormSym A B)) := by
  have h1 := tendsto_mul (tendsto_mul hf hg) (tendsto_transpose hf)
  exact (h1.add (tendsto_transpose h1)).const_smul (1 / 2 : ℝ)

theorem tendsto_stabilize [DecidableEq m] {j : α → ℝ} {f : α → Matrix m m ℝ} {A : Matrix m m ℝ} (hj : Tendsto j l (𝓝 0))
    (hf : Tendsto f l (𝓝 A)) : Tendsto (fun x => stabilize (j x) (f x)) l (𝓝 A) := by
  have := hf.add (hj.smul (tendsto_const_nhds (x := (1 : Matrix m m ℝ))))
  simp only [zero_smul, add_zero] at this
  exact this

/-- The update converges when its inputs do and the jitter vanishes. -/
theorem update_tendsto [DecidableEq q] {j : α → ℝ} {a : α → n → ℝ}
    {P : α → Matrix n n ℝ} {a' : n → ℝ} {P' : Matrix n n ℝ} (hj : Tendsto j l (𝓝 0)) (ha : Tendsto a l (𝓝 a'))
    (hP : Tendsto P l (𝓝 P')) (y d : q → ℝ) (Z : Matrix q n ℝ) {H : Matrix q q ℝ} (hP's : P'ᵀ = P') (hH : Hᵀ = H)
    (hF : IsUnit (Spec.obsCov P' Z H).det) (f : Prop) :
    Tendsto (fun x => (update (j x) (a x) (P x) y d Z H f).a) l (𝓝 (Spec.condMean a' P' y d Z H)) ∧
    Tendsto (fun x => stabilize (j x) (update (j x) (a x) (P x) y d Z H f).P) l (𝓝 (Spec.condCov P' Z H)) := by
  have hZ : Tendsto (fun _ : α => Z) l (𝓝 Z) := tendsto_const_nhds
  have hH' : Tendsto (fun _ : α => H) l (𝓝 H) := tendsto_const_nhds
  have hG : Tendsto (fun x => (innovCov (j x) (P x) Z H)⁻¹) l (𝓝 (Spec.obsCov P' Z H)⁻¹) := by
    have h1 : Tendsto (fun x => innovCov (j x) (P x) Z H) l (𝓝 (Z * (P' * Zᵀ) + H)) :=
      (tendsto_mul hZ (tendsto_mul hP (tendsto_transpose hZ))).add (tendsto_stabilize hj hH')
    rw [← Matrix.mul_assoc] at h1
    exact (inv_continuousAt hF).tendsto.comp h1
  have hK : Tendsto (fun x => gain (P x) Z (innovCov (j x) (P x) Z H)) l (𝓝 (P' * Zᵀ * (Spec.obsCov P' Z H)⁻¹)) := by
    simp only [gain_eq]
    exact tendsto_mul (tendsto_mul hP (tendsto_transpose hZ)) hG
  constructor
  · have hv : Tendsto (fun x => y - (d + Z *ᵥ a x)) l (𝓝 (y - (d + Z *ᵥ a'))) :=
      tendsto_const_nhds.sub (tendsto_const_nhds.add (tendsto_mulVec hZ ha))
    have := ha.add (tendsto_mulVec hK hv)
    rw [← sub_sub] at this
    exact this
  · have h2 : quadFormSym (1 - (P' * Zᵀ * (Spec.obsCov P' Z H)⁻¹) * Z) P' +
          quadFormSym (P' * Zᵀ * (Spec.obsCov P' Z H)⁻¹) H = Spec.condCov P' Z H := by
      have := joseph_eq hP's Z hH hF
      rw [gain_eq] at this
      exact this
    rw [← h2]
    refine tendsto_stabilize hj ?_
    have hKZ : Tendsto (fun x => 1 - gain (P x) Z (innovCov (j x) (P x) Z H) * Z) l
        (𝓝 (1 - (P' * Zᵀ * (Spec.obsCov P' Z H)⁻¹) * Z)) := (tendsto_const_nhds).sub (tendsto_mul hK hZ)
    exact (tendsto_quadFormSym hKZ hP).add (tendsto_quadFormSym hK hH')

end limits

/-- Predicted mean and covariance carried into row `t`.
Proof notion: the pair carried by the scan of kalman_filter.py:224-232. -/
noncomputable def carried (j fill : ℝ) (a0 : n → ℝ) (P0 : Matrix n n ℝ) (y : ℕ → Row p) (θ : ℕ → Params n p r) :
    ℕ → (n → ℝ) × Matrix n n ℝ
  | 0 => (a0, P0)
  | t + 1 =>
    let s := carried j fill a0 P0 y θ t
    let o := kalmanStep j fill (y t) s.1 s.2 (θ t)
    (o.aHat, o.PHat)

theorem scan_carried (j fill : ℝ) (a0 : n → ℝ) (P0 : Matrix n n ℝ) (y : ℕ → Row p) (θ : ℕ → Params n p r) (N t : ℕ)
    (ht : t < N) : (filterScan j fill a0 P0 ((List.range N).map fun t => (y t, θ t)))[t]? =
      some (kalmanStep j fill (y t) (carried j fill a0 P0 y θ t).1 (carried j fill a0 P0 y θ t).2 (θ t)) := by
  induction t with
  | zero =>
    obtain ⟨M, rfl⟩ : ∃ M, N = M + 1 := ⟨N - 1, by omega⟩
    simp [List.range_succ_eq_map, filterScan, carried]
  | succ t ih =>
    rw [filterScan_getElem_succ j fill ((List.range N).map fun t => (y t, θ t)) a0 P0 t (y (t + 1)) (θ (t + 1)) _
      (by simp [ht]) (ih (by omega))]
    rfl

theorem out_carried (j fill : ℝ) (a0 : n → ℝ) (P0 : Matrix n n ℝ) (y : ℕ → Row p) (θ : ℕ → Params n p r) (N t : ℕ)
    (ht : t < N) :
    let o := buildGraph j fill a0 P0 ((List.range N).map fun t => (y t, θ t))
    let s := carried j fill a0 P0 y θ t
    o.predictedStates.getD t 0 = s.1 ∧ o.predictedCovs.getD t 0 = s.2 ∧
    o.filteredStates.getD t 0 = (kalmanStep j fill (y t) s.1 s.2 (θ t)).aFilt ∧
    o.filteredCovs.getD t 0 = (kalmanStep j fill (y t) s.1 s.2 (θ t)).PFilt := by
  intro o s
  have hst := scan_carried j fill a0 P0 y θ N t ht
  refine ⟨?_, ?_, ?_, ?_⟩
  · cases t with
    | zero => simp [o, s, buildGraph, postprocess, carried]
    | succ t =>
      have hs := scan_carried j fill a0 P0 y θ N t (by omega)
      simp only [o, s, buildGraph, postprocess, List.getD_eq_getElem?_getD, List.getElem?_cons_succ]
      rw [List.getElem?_dropLast, if_pos (by simp [filterScan_length]; omega), List.getElem?_map, hs]
      rfl
  · cases t with
    | zero => simp [o, s, buildGraph, postprocess, carried]
    | succ t =>
      have hs := scan_carried j fill a0 P0 y θ N t (by omega)
      simp only [o, s, buildGraph, postprocess, List.getD_eq_getElem?_getD, List.getElem?_cons_succ]
      rw [List.getElem?_dropLast, if_pos (by simp [filterScan_length]; omega), List.getElem?_map, hs]
      rfl
  · simp only [o, s, buildGraph, postprocess, List.getD_eq_getElem?_getD, List.getElem?_map, hst, Option.map_some,
      Option.getD_some]
  · simp only [o, s, buildGraph, postprocess, List.getD_eq_getElem?_getD, List.getElem?_map, hst, Option.map_some,
      Option.getD_some]

/-- One step converges to the textbook step of the model without the missing series. -/
theorem step_tendsto (fill : ℝ) (y : Row p) (θ : Params n p r) (o : p → Prop) [dp : DecidablePred o] (ho : ∀ i, o i ↔ ¬ Spec.Missing fill (y i))
    (hH : θ.H.PosDef) (hQ : θ.Qᵀ = θ.Q) (hd : ∀ i k, ¬ o i → o k → θ.H i k = 0)
    {a : ℝ → n → ℝ} {P : ℝ → Matrix n n ℝ} {a' : n → ℝ} {P' : Matrix n n ℝ}
    (hP : ∀ j, 0 < j → (P j).PosSemidef) (hP' : P'.PosSemidef)
    (ha : Tendsto a (𝓝[>] 0) (𝓝 a')) (hPt : Tendsto P (𝓝[>] 0) (𝓝 P')) :
    let θd := Spec.deleteSeries θ o
    let yd := fun i : {i // o i} => (y i).getD 0
    let m := Spec.condMean a' P' yd θd.d θd.Z θd.H
    let V := Spec.condCov P' θd.Z θd.H
    Tendsto (fun j => (kalmanStep j fill y (a j) (P j) θ).aFilt) (𝓝[>] 0) (𝓝 m) ∧
    Tendsto (fun j => (kalmanStep j fill y (a j) (P j) θ).PFilt) (𝓝[>] 0) (𝓝 V) ∧
    Tendsto (fun j => (kalmanStep j fill y (a j) (P j) θ).aHat) (𝓝[>] 0) (𝓝 (θ.T *ᵥ m + θ.c)) ∧
    Tendsto (fun j => (kalmanStep j fill y (a j) (P j) θ).PHat) (𝓝[>] 0) (𝓝 (θ.T * V * θ.Tᵀ + θ.R * θ.Q * θ.Rᵀ)) := by
  obtain rfl : o = fun i => ¬ Spec.Missing fill (y i) := by funext i; exact propext (ho i)
  obtain rfl : dp = fun i => @instDecidableNot _ (Classical.propDecidable _) := Subsingleton.elim _ _
  classical
  intro θd yd m V
  have hHd : θd.H.PosDef := hH.submatrix (Subtype.val_injective)
  have hF : (Spec.obsCov P' θd.Z θd.H).PosDef := obsCov_posDef hP' _ hHd
  have hj : Tendsto (fun j : ℝ => j) (𝓝[>] 0) (𝓝 0) := tendsto_nhdsWithin_of_tendsto_nhds tendsto_id
  have hdec : ∀ i k, Spec.Missing fill (y i) → ¬ Spec.Missing fill (y k) → θ.H i k = 0 :=
    fun i k hi hk => hd i k (not_not.2 hi) hk
  have hu := update_tendsto hj ha hPt yd θd.d θd.Z (PosSemidef.transpose_eq hP')
    (PosSemidef.transpose_eq hHd.posSemidef) (isUnit_iff_ne_zero.2 hF.det_pos.ne')
    (IsEmpty (Spec.Obs fill y))
  have hyd : (fun i : Spec.Obs fill y => (handleMissing fill y θ.Z θ.H).y i) = yd := by
    funext i
    have hi : ¬ nanMask fill y i := i.2
    simp only [handleMissing, if_neg hi]; rfl
  have heq : ∀ j, 0 < j →
      (kalmanStep j fill y (a j) (P j) θ).aFilt = (update j (a j) (P j) yd θd.d θd.Z θd.H (IsEmpty (Spec.Obs fill y))).a ∧
      (kalmanStep j fill y (a j) (P j) θ).PFilt =
        stabilize j (update j (a j) (P j) yd θd.d θd.Z θd.H (IsEmpty (Spec.Obs fill y))).P := by
    intro j hj
    obtain ⟨h1, h2, -, -⟩ := C04_missing_eq_deleted hj fill y (a j) (hP j hj) θ hH.posSemidef hdec
    rw [h1, h2, ← hyd]
    simp only [kalmanStep, handleMissing_deleted]
    exact ⟨rfl, rfl⟩
  have hev : ∀ᶠ j : ℝ in 𝓝[>] 0, 0 < j := eventually_mem_nhdsWithin
  have g1 : Tendsto (fun j => (kalmanStep j fill y (a j) (P j) θ).aFilt) (𝓝[>] 0) (𝓝 m) :=
    hu.1.congr' (hev.mono fun j hj => (heq j hj).1.symm)
  have g2 : Tendsto (fun j => (kalmanStep j fill y (a j) (P j) θ).PFilt) (𝓝[>] 0) (𝓝 V) :=
    hu.2.congr' (hev.mono fun j hj => (heq j hj).2.symm)
  refine ⟨g1, g2, ?_, ?_⟩
  · exact (tendsto_mulVec tendsto_const_nhds g1).add tendsto_const_nhds
  · have hV : Vᵀ = V := by
      have e1 := PosSemidef.transpose_eq hP'
      have e2 : (Spec.obsCov P' θd.Z θd.H)ᵀ = Spec.obsCov P' θd.Z θd.H := PosSemidef.transpose_eq hF.posSemidef
      simp only [V, Spec.condCov, transpose_sub, transpose_mul, transpose_transpose, transpose_nonsing_inv, e1, e2,
        Matrix.mul_assoc]
    rw [← quadFormSym_of_symm θ.T hV, ← quadFormSym_of_symm θ.R hQ]
    exact (tendsto_quadFormSym (tendsto_const_nhds (x := θ.T)) g2).add tendsto_const_nhds

/-- Everything carried into row `t` converges to the recursion of the model without the missing series. -/
theorem carried_tendsto (fill : ℝ) (a0 : n → ℝ) {P0 : Matrix n n ℝ} (hP0 : P0.PosSemidef) (y : ℕ → Row p)
    (θ : ℕ → Params n p r) (o : ℕ → p → Prop) [∀ t, DecidablePred (o t)] (ho : ∀ t i, o t i ↔ ¬ Spec.Missing fill (y t i))
    (hH : ∀ t, (θ t).H.PosDef) (hQ : ∀ t, (θ t).Q.PosSemidef) (hd : ∀ t i k, ¬ o t i → o t k → (θ t).H i k = 0)
    (hcov : ∀ t, (covAt (fun t => Spec.deleteSeries (θ t) (o t)) P0 t).PosSemidef) (t : ℕ) :
    (∀ j, 0 < j → (carried j fill a0 P0 y θ t).2.PosSemidef) ∧
    Tendsto (fun j => (carried j fill a0 P0 y θ t).1) (𝓝[>] 0)
      (𝓝 (predAt (1 : ℝ) (fun t => Spec.deleteSeries (θ t) (o t)) a0 P0 (fun t i => (y t i).getD 0) t)) ∧
    Tendsto (fun j => (carried j fill a0 P0 y θ t).2) (𝓝[>] 0)
      (𝓝 (covAt (fun t => Spec.deleteSeries (θ t) (o t)) P0 t)) := by
  induction t with
  | zero =>
    refine ⟨fun j _ => hP0, ?_, ?_⟩
    · simp only [carried, predAt, const_real]; exact tendsto_const_nhds
    · simp only [carried, covAt]; exact tendsto_const_nhds
  | succ t ih =>
    obtain ⟨h1, h2, h3⟩ := ih
    have hs := step_tendsto fill (y t) (θ t) (o t) (ho t) (hH t) (PosSemidef.transpose_eq (hQ t)) (hd t) h1 (hcov t) h2 h3
    refine ⟨fun j hj => ?_, ?_, ?_⟩
    · exact (kalmanStep_posSemidef hj.le (y t) _ (h1 j hj) (θ t) (hH t).posSemidef (hQ t)
        (fun i k hi hk => hd t i k (fun h => (ho t i).1 h hi) ((ho t k).2 hk))).2
    · have e : predAt (1 : ℝ) (fun t => Spec.deleteSeries (θ t) (o t)) a0 P0 (fun t i => (y t i).getD 0) (t + 1) = _ :=
        show _ = (θ t).T *ᵥ _ + (θ t).c by
          simp only [predAt, act_real, const_real]
          rw [add_comm]
          rfl
      rw [e]; exact hs.2.2.1
    · exact hs.2.2.2

end Verif.Kalman
