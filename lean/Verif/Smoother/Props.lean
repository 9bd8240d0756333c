import Verif.Smoother.Lemmas
import Verif.Kalman.Props

/-!
C13–C16: the Kalman smoother.
-/

set_option linter.unusedSectionVars false

open Matrix

namespace Verif.Smoother

open Verif.Kalman

variable {n p r : Type*} [Fintype n] [Fintype p] [Fintype r] [DecidableEq n] [DecidableEq p] [DecidableEq r]

/-- Specification (Rauch–Tung–Striebel): smoothed mean at `t` from the filtered moments at `t` and the smoothed mean at
`t+1`, for `x[t+1] = T x[t] + c + R η`, `η ~ N(0, Q)`. -/
noncomputable def Spec.rtsMean (a : n → ℝ) (P : Matrix n n ℝ) (aS c : n → ℝ) (T : Matrix n n ℝ) (N : Matrix n n ℝ) :
    n → ℝ :=
  a + (P * Tᵀ * (T * P * Tᵀ + N)⁻¹) *ᵥ (aS - (T *ᵥ a + c))

/-- Specification (Rauch–Tung–Striebel): smoothed covariance. -/
noncomputable def Spec.rtsCov (P PS T N : Matrix n n ℝ) : Matrix n n ℝ :=
  P + P * Tᵀ * (T * P * Tᵀ + N)⁻¹ * (PS - (T * P * Tᵀ + N)) * (P * Tᵀ * (T * P * Tᵀ + N)⁻¹)ᵀ

/-- Index form of the smoother run: with `N+1` filtered entries and `m ≥ N` matrices, entry `t` is the smoothing step
applied to `filtered[t]`, `smoothed[t+1]` and the matrices at position `t + (m − N)`. -/
theorem run_index (j dj : ℝ) (fs : List ((n → ℝ) × Matrix n n ℝ)) (θs : List (Params n r)) (N : ℕ)
    (hN : fs.length = N + 1) (hm : N ≤ θs.length) :
    ∃ out, buildGraph j dj fs θs = some out ∧ out.length = N + 1 ∧ out[N]? = fs[N]? ∧
      ∀ t, (ht : t < N) → ∃ f s θ, fs[t]? = some f ∧ out[t + 1]? = some s ∧ θs[t + (θs.length - N)]? = some θ ∧
        out[t]? = some (step j dj f.1 f.2 s.1 s.2 θ) := by
  have hne : fs ≠ [] := by rintro rfl; simp at hN
  have hlast : fs.getLast? = some (fs.getLast hne) := List.getLast?_eq_some_getLast hne
  set last := fs.getLast hne with hl
  set l := fs.dropLast.reverse.zip θs.reverse with hldef
  have hllen : l.length = N := by simp [hldef, hN, hm]
  have hout : buildGraph j dj fs θs = some ((last :: scan j dj last l).reverse) := by
    rw [buildGraph, hlast]; simp [hldef]
  refine ⟨_, hout, by simp [scan_length, hllen], ?_, ?_⟩
  · rw [List.getElem?_reverse (by simp [scan_length, hllen])]
    simp [scan_length, hllen, hl, List.getLast_eq_getElem, hN]
  · intro t ht
    have hi : N - 1 - t < l.length := by omega
    obtain ⟨q, h1, h2⟩ := scan_getElem j dj l last (N - 1 - t) hi
    have htf : t < fs.length := by omega
    have hθ : t + (θs.length - N) < θs.length := by omega
    refine ⟨fs[t], q, θs[t + (θs.length - N)], by simp, ?_, by simp, ?_⟩
    · rw [List.getElem?_reverse (by simp [scan_length, hllen]; omega)]
      rw [← h1]; congr 1; simp [scan_length, hllen]; omega
    · rw [List.getElem?_reverse (by simp [scan_length, hllen]; omega)]
      have e : (last :: scan j dj last l).length - 1 - t = N - 1 - t + 1 := by simp [scan_length, hllen]; omega
      rw [e, h2]
      have e1 : l[N - 1 - t] = (fs[t], θs[t + (θs.length - N)]) := by
        simp only [hldef, List.getElem_zip, List.getElem_reverse, List.getElem_dropLast, List.length_dropLast, hN]
        congr 2 <;> omega
      rw [e1]

/-- **C13.** With static matrices (one copy per observation) the smoother returns as many entries as the filter, the
last one is the last filtered one, and every other entry is the smoothing step applied to the filtered entry at the same
time and the smoothed entry at the next time. -/
theorem C13_smoother_static (j dj : ℝ) (fs : List ((n → ℝ) × Matrix n n ℝ)) (θ : Params n r) (N : ℕ)
    (hN : fs.length = N + 1) :
    ∃ out, buildGraph j dj fs (List.replicate (N + 1) θ) = some out ∧ out.length = fs.length ∧
      out.getLast? = fs.getLast? ∧
      ∀ t, t < N → ∃ f s, fs[t]? = some f ∧ out[t + 1]? = some s ∧
        out[t]? = some (step j dj f.1 f.2 s.1 s.2 θ) := by
  obtain ⟨out, h1, h2, h3, h4⟩ := run_index j dj fs (List.replicate (N + 1) θ) N hN (by simp)
  refine ⟨out, h1, by rw [h2, hN], by rw [List.getLast?_eq_getElem?, List.getLast?_eq_getElem?, h2, hN]; exact h3, fun t ht => ?_⟩
  obtain ⟨f, s, θ', e1, e2, e3, e4⟩ := h4 t ht
  have : θ' = θ := by
    have := List.mem_of_getElem? e3
    exact (List.mem_replicate.1 this).2
  exact ⟨f, s, e1, e2, by rw [e4, this]⟩

/-- An empty filtered array is an error. -/
theorem C13_smoother_empty (j dj : ℝ) (θs : List (Params n r)) : buildGraph j dj [] θs = none := rfl

/-- **C15.** With one set of matrices per observation (the length the filter demands), the smoothing step for time `t`
uses the matrices of time `t+1`; those of time `0` are never used. -/
theorem C15_smoother_uses_next_matrix (j dj : ℝ) (fs : List ((n → ℝ) × Matrix n n ℝ)) (θs : List (Params n r))
    (hθ : θs.length = fs.length) (hne : fs ≠ []) :
    ∃ out, buildGraph j dj fs θs = some out ∧ out.length = fs.length ∧
      ∀ t, t + 1 < fs.length → ∃ f s θ, fs[t]? = some f ∧ out[t + 1]? = some s ∧ θs[t + 1]? = some θ ∧
        out[t]? = some (step j dj f.1 f.2 s.1 s.2 θ) := by
  obtain ⟨N, hN⟩ : ∃ N, fs.length = N + 1 :=
    ⟨fs.length - 1, by have := List.length_pos_iff.2 hne; omega⟩
  obtain ⟨out, h1, h2, h3, h4⟩ := run_index j dj fs θs N hN (by omega)
  refine ⟨out, h1, by rw [h2, hN], fun t ht => ?_⟩
  obtain ⟨f, s, θ, e⟩ := h4 t (by omega)
  refine ⟨f, s, θ, e.1, e.2.1, ?_, e.2.2.2⟩
  rw [← e.2.2.1]; congr 1; omega

/-- **C15 (consequence).** There is a two-period model on which the code's result differs from the smoothing step with
the matrix the filter used: scalar state, transition `0` at time 0 and `1` at time 1. -/
theorem C15_smoother_misaligned :
    ∃ (fs : List ((Fin 1 → ℝ) × Matrix (Fin 1) (Fin 1) ℝ)) (θ0 θ1 : Params (Fin 1) (Fin 1))
      (out : List ((Fin 1 → ℝ) × Matrix (Fin 1) (Fin 1) ℝ)),
      buildGraph 0 0 fs [θ0, θ1] = some out ∧
      ∃ f0 f1, fs = [f0, f1] ∧ out[0]? ≠ some (step 0 0 f0.1 f0.2 f1.1 f1.2 θ0) := by
  let θ0 : Params (Fin 1) (Fin 1) := ⟨0, 0, 0⟩
  let θ1 : Params (Fin 1) (Fin 1) := ⟨1, 0, 0⟩
  let f0 : (Fin 1 → ℝ) × Matrix (Fin 1) (Fin 1) ℝ := (0, 1)
  let f1 : (Fin 1 → ℝ) × Matrix (Fin 1) (Fin 1) ℝ := (1, 1)
  obtain ⟨out, h1, -, h⟩ := C15_smoother_uses_next_matrix (r := Fin 1) 0 0 [f0, f1] [θ0, θ1] rfl (by simp)
  refine ⟨[f0, f1], θ0, θ1, out, h1, f0, f1, rfl, ?_⟩
  have hlast : out = [step 0 0 f0.1 f0.2 f1.1 f1.2 θ1, f1] := by
    have : buildGraph 0 0 [f0, f1] [θ0, θ1] = some [step 0 0 f0.1 f0.2 f1.1 f1.2 θ1, f1] := rfl
    rw [this] at h1; exact (Option.some.inj h1).symm
  rw [hlast]
  simp only [List.getElem?_cons_zero, ne_eq, Option.some.injEq]
  intro he
  have h0 := congrArg (fun x => x.1 0) he
  have q : quadFormSym (1 : Matrix (Fin 1) (Fin 1) ℝ) 1 = 1 := by
    rw [quadFormSym_of_symm _ Matrix.transpose_one]; simp
  have p1 : pinv (1 : Matrix (Fin 1) (Fin 1) ℝ) = 1 := by rw [pinv_of_isUnit (by simp)]; simp
  have q0 : quadFormSym (0 : Matrix (Fin 1) (Fin 1) ℝ) 0 = 0 := by simp [quadFormSym]
  simp [step, predict, gain, f0, f1, θ0, θ1, q, p1, q0, stabilize_zero] at h0

/-- **C14.** With zero jitter and an invertible predicted covariance, the code's smoothed mean is the
Rauch–Tung–Striebel mean plus `G c`, where `G` is the smoother gain; its covariance is the RTS covariance plus the
default jitter. -/
theorem C14_smoother_vs_rts (dj : ℝ) (a : n → ℝ) {P : Matrix n n ℝ} (hP : Pᵀ = P) (aS : n → ℝ)
    {PS : Matrix n n ℝ} (hPS : PSᵀ = PS) (θ : Params n r) (hQ : θ.Qᵀ = θ.Q) (c : n → ℝ)
    (hF : IsUnit (θ.T * P * θ.Tᵀ + θ.R * θ.Q * θ.Rᵀ).det) :
    (step 0 dj a P aS PS θ).1 = Spec.rtsMean a P aS c θ.T (θ.R * θ.Q * θ.Rᵀ)
        + (P * θ.Tᵀ * (θ.T * P * θ.Tᵀ + θ.R * θ.Q * θ.Rᵀ)⁻¹) *ᵥ c ∧
      (step 0 dj a P aS PS θ).2 = Spec.rtsCov P PS θ.T (θ.R * θ.Q * θ.Rᵀ) + dj • (1 : Matrix n n ℝ) := by
  have hH : (predict 0 a P θ).2 = θ.T * P * θ.Tᵀ + θ.R * θ.Q * θ.Rᵀ := by
    simp only [predict, stabilize_zero, quadFormSym_of_symm _ hP, quadFormSym_of_symm _ hQ]
  have hs : (θ.T * P * θ.Tᵀ + θ.R * θ.Q * θ.Rᵀ)ᵀ = θ.T * P * θ.Tᵀ + θ.R * θ.Q * θ.Rᵀ := by
    rw [← hH]; exact predict_symm 0 a P θ
  have hG : gain (predict 0 a P θ).2 P θ.T = P * θ.Tᵀ * (θ.T * P * θ.Tᵀ + θ.R * θ.Q * θ.Rᵀ)⁻¹ := by
    rw [gain, hH, pinv_of_isUnit hF]
    rw [Matrix.transpose_mul, Matrix.transpose_mul, hP, Matrix.transpose_nonsing_inv, hs,
      ← Matrix.mul_assoc P]
  constructor
  · simp only [step, hG, Spec.rtsMean]
    simp only [predict, Matrix.mulVec_sub, Matrix.mulVec_add]
    abel
  · have hD : (PS - (predict 0 a P θ).2)ᵀ = PS - (predict 0 a P θ).2 := by
      rw [Matrix.transpose_sub, hPS, predict_symm]
    simp only [step, stabilize_zero, quadFormSym_of_symm _ hD, hG, Spec.rtsCov]
    rw [hH]; rfl

/-- **C14 (iff).** So the code's mean is the RTS mean exactly when `G c = 0`; in particular when `c = 0`. -/
theorem C14_smoother_eq_rts_iff (dj : ℝ) (a : n → ℝ) {P : Matrix n n ℝ} (hP : Pᵀ = P) (aS : n → ℝ)
    {PS : Matrix n n ℝ} (hPS : PSᵀ = PS) (θ : Params n r) (hQ : θ.Qᵀ = θ.Q) (c : n → ℝ)
    (hF : IsUnit (θ.T * P * θ.Tᵀ + θ.R * θ.Q * θ.Rᵀ).det) :
    (step 0 dj a P aS PS θ).1 = Spec.rtsMean a P aS c θ.T (θ.R * θ.Q * θ.Rᵀ) ↔
      (P * θ.Tᵀ * (θ.T * P * θ.Tᵀ + θ.R * θ.Q * θ.Rᵀ)⁻¹) *ᵥ c = 0 := by
  rw [(C14_smoother_vs_rts dj a hP aS hPS θ hQ c hF).1]
  exact add_eq_left

/-- Hypotheses of C14 hold for a scalar local-level model with drift `c = 5`, where the code's mean is wrong. -/
example : let θ : Params (Fin 1) (Fin 1) := ⟨1, 1, 1⟩
    IsUnit (θ.T * (1 : Matrix (Fin 1) (Fin 1) ℝ) * θ.Tᵀ + θ.R * θ.Q * θ.Rᵀ).det ∧
    (step 0 0 (0 : Fin 1 → ℝ) 1 0 1 θ).1 ≠ Spec.rtsMean 0 1 0 (fun _ => 5) θ.T (θ.R * θ.Q * θ.Rᵀ) := by
  intro θ
  have hF : IsUnit (θ.T * (1 : Matrix (Fin 1) (Fin 1) ℝ) * θ.Tᵀ + θ.R * θ.Q * θ.Rᵀ).det := by
    simp [θ, isUnit_iff_ne_zero, Matrix.add_apply]
  refine ⟨hF, fun h => ?_⟩
  rw [C14_smoother_eq_rts_iff 0 0 Matrix.transpose_one 0 Matrix.transpose_one θ Matrix.transpose_one _ hF] at h
  have h0 := congrFun h 0
  simp [θ, Matrix.mulVec, dotProduct] at h0

theorem congr_psd {m : Type*} [Fintype m] (A : Matrix n m ℝ) {B : Matrix m m ℝ} (hB : B.PosSemidef) :
    (A * B * Aᵀ).PosSemidef := by
  simpa [Matrix.conjTranspose_eq_transpose_of_trivial] using hB.mul_mul_conjTranspose_same A

theorem smul_one_psd {x : ℝ} (hx : 0 ≤ x) : (x • (1 : Matrix n n ℝ)).PosSemidef := Matrix.PosSemidef.one.smul hx

/-- **C16 (positive semidefinite).** Whatever the (non-negative) jitters, if the filtered covariances and the shock
covariances are positive semidefinite then every smoothed covariance is. -/
theorem C16_smoothed_posSemidef {j dj : ℝ} (hj : 0 ≤ j) (hdj : 0 ≤ dj) (fs : List ((n → ℝ) × Matrix n n ℝ))
    (θs : List (Params n r)) (hfs : ∀ f ∈ fs, f.2.PosSemidef) (hQ : ∀ θ ∈ θs, θ.Q.PosSemidef)
    (hlen : fs.length ≤ θs.length + 1) (out : List ((n → ℝ) × Matrix n n ℝ))
    (ho : buildGraph j dj fs θs = some out) : ∀ s ∈ out, s.2.PosSemidef := by
  have hne : fs ≠ [] := by rintro rfl; simp [buildGraph] at ho
  obtain ⟨N, hN⟩ : ∃ N, fs.length = N + 1 :=
    ⟨fs.length - 1, by have := List.length_pos_iff.2 hne; omega⟩
  obtain ⟨out', h1, h2, h3, h4⟩ := run_index j dj fs θs N hN (by omega)
  obtain rfl : out' = out := Option.some.inj (h1 ▸ ho)
  have key : ∀ k, k ≤ N → ∀ s, out'[N - k]? = some s → s.2.PosSemidef := by
    intro k
    induction k with
    | zero => intro _ s hs; rw [Nat.sub_zero, h3] at hs; exact hfs s (List.mem_of_getElem? hs)
    | succ k ih =>
      intro hk s hs
      obtain ⟨f, q, θ, e1, e2, e3, e4⟩ := h4 (N - (k + 1)) (by omega)
      rw [e4] at hs
      obtain rfl := Option.some.inj hs
      have hq : q.2.PosSemidef := ih (by omega) q (by rw [← e2]; congr 1; omega)
      have hP := hfs f (List.mem_of_getElem? e1)
      have hQ' := hQ θ (List.mem_of_getElem? e3)
      rw [step_cov_joseph j dj f.1 (PosSemidef.transpose_eq hP) q.1 (PosSemidef.transpose_eq hq) θ
        (PosSemidef.transpose_eq hQ') _ rfl]
      refine Matrix.PosSemidef.add (Matrix.PosSemidef.add (Matrix.PosSemidef.add ?_ ?_) ?_) ?_
      · exact congr_psd _ hP
      · exact congr_psd _ ((congr_psd _ hQ').add (smul_one_psd hj))
      · exact congr_psd _ hq
      · exact smul_one_psd (add_nonneg hj hdj)
  intro s hs
  obtain ⟨i, hi⟩ := List.mem_iff_getElem?.1 hs
  have : i < N + 1 := by
    rw [← h2]; exact (List.getElem?_eq_some_iff.1 hi).1
  exact key (N - i) (by omega) s (by rw [← hi]; congr 1; omega)

/-- **C16 (one step).** If the next smoothed covariance is below the predicted one, then the smoothed covariance is below
the filtered covariance plus the two jitters the step adds. -/
theorem C16_smoothed_le_step (j dj : ℝ) (a : n → ℝ) (P : Matrix n n ℝ) (aS : n → ℝ)
    {PS : Matrix n n ℝ} (θ : Params n r)
    (hle : ((predict j a P θ).2 - PS).PosSemidef) :
    (P + (j + dj) • (1 : Matrix n n ℝ) - (step j dj a P aS PS θ).2).PosSemidef := by
  have hD : (PS - (predict j a P θ).2)ᵀ = PS - (predict j a P θ).2 := by
    have := PosSemidef.transpose_eq hle
    rw [← neg_sub, Matrix.transpose_neg, this]
  set G := gain (predict j a P θ).2 P θ.T with hG
  have e : P + (j + dj) • (1 : Matrix n n ℝ) - (step j dj a P aS PS θ).2 =
      G * ((predict j a P θ).2 - PS) * Gᵀ := by
    simp only [step, stabilize, quadFormSym_of_symm _ hD, ← hG, add_smul, Matrix.mul_sub, Matrix.sub_mul]
    abel
  rw [e]
  simpa [Matrix.conjTranspose_eq_transpose_of_trivial] using hle.mul_mul_conjTranspose_same G

/-- **C16 (whole run).** Static matrices, no jitter: if each filtered covariance is below the prediction made from the
previous one (what the filter guarantees, next theorem), every smoothed covariance is below the filtered one. -/
theorem C16_smoothed_le_filtered (fs : List ((n → ℝ) × Matrix n n ℝ)) (θ : Params n r) (N : ℕ)
    (hN : fs.length = N + 1) (hfs : ∀ f ∈ fs, f.2.PosSemidef) (hQ : θ.Q.PosSemidef)
    (hpred : ∀ (t : ℕ) (f g : (n → ℝ) × Matrix n n ℝ), fs[t]? = some f → fs[t + 1]? = some g →
      (θ.T * f.2 * θ.Tᵀ + θ.R * θ.Q * θ.Rᵀ - g.2).PosSemidef) :
    ∃ out : List ((n → ℝ) × Matrix n n ℝ),
      buildGraph 0 0 fs (List.replicate (N + 1) θ) = some out ∧ out.length = fs.length ∧
      ∀ (t : ℕ) (f s : (n → ℝ) × Matrix n n ℝ), fs[t]? = some f → out[t]? = some s → (f.2 - s.2).PosSemidef := by
  obtain ⟨out, h1, h2, h3, h4⟩ := C13_smoother_static (r := r) 0 0 fs θ N hN
  have h3' : out[N]? = fs[N]? := by
    simpa [List.getLast?_eq_getElem?, h2, hN] using h3
  refine ⟨out, h1, h2, ?_⟩
  have key : ∀ k, k ≤ N → ∀ f s : (n → ℝ) × Matrix n n ℝ, fs[N - k]? = some f → out[N - k]? = some s → (f.2 - s.2).PosSemidef := by
    intro k
    induction k with
    | zero =>
      intro _ f s hf hs
      rw [Nat.sub_zero] at hf hs
      rw [h3', hf] at hs
      obtain rfl := Option.some.inj hs
      rw [sub_self]; exact Matrix.PosSemidef.zero
    | succ k ih =>
      intro hk f s hf hs
      obtain ⟨f', q, e1, e2, e4⟩ := h4 (N - (k + 1)) (by omega)
      rw [hf] at e1; obtain rfl := Option.some.inj e1
      rw [e4] at hs; obtain rfl := Option.some.inj hs
      have hsucc : N - (k + 1) + 1 = N - k := by omega
      rw [hsucc] at e2
      have hgl : N - k < fs.length := by omega
      have hg : fs[N - k]? = some fs[N - k] := by simp
      have i1 := ih (by omega) _ q hg e2
      have i2 := hpred (N - (k + 1)) f fs[N - k] hf (by rw [hsucc]; exact hg)
      have hP := hfs f (List.mem_of_getElem? hf)
      have hle : ((predict 0 f.1 f.2 θ).2 - q.2).PosSemidef := by
        have hH : (predict 0 f.1 f.2 θ).2 = θ.T * f.2 * θ.Tᵀ + θ.R * θ.Q * θ.Rᵀ := by
          simp only [predict, stabilize_zero, quadFormSym_of_symm _ (PosSemidef.transpose_eq hP),
            quadFormSym_of_symm _ (PosSemidef.transpose_eq hQ)]
        have := i2.add i1
        rw [hH]
        rwa [sub_add_sub_cancel] at this
      simpa using C16_smoothed_le_step 0 0 f.1 f.2 q.1 θ hle
  intro t f s hf hs
  have ht : t < N + 1 := by rw [← hN]; exact (List.getElem?_eq_some_iff.1 hf).1
  have e : N - (N - t) = t := by omega
  exact key (N - t) (by omega) f s (by rw [e]; exact hf) (by rw [e]; exact hs)

/-- The filter's guarantee used above: with no jitter, filtering a fully observed row never increases the covariance. -/
theorem C16_filtered_le_predicted (fill : ℝ) (y : Row p) (a : n → ℝ) {P : Matrix n n ℝ} (hP : P.PosSemidef)
    (θ : Kalman.Params n p r) (hy : ∀ i, ¬ Kalman.Spec.Missing fill (y i)) (hH : θ.H.PosSemidef)
    (hF : IsUnit (Kalman.Spec.obsCov P θ.Z θ.H).det) :
    (P - (kalmanStep 0 fill y a P θ).PFilt).PosSemidef := by
  have hHs := PosSemidef.transpose_eq hH
  have hPs := PosSemidef.transpose_eq hP
  rw [(C02_update_is_conditional fill y hy a hPs θ hHs hF).2.1, Kalman.Spec.condCov, sub_sub_cancel]
  have hFp : (Kalman.Spec.obsCov P θ.Z θ.H).PosSemidef := by
    refine Matrix.PosSemidef.add ?_ hH
    simpa [Matrix.conjTranspose_eq_transpose_of_trivial] using hP.mul_mul_conjTranspose_same θ.Z
  have := hFp.inv.mul_mul_conjTranspose_same (P * θ.Zᵀ)
  simpa [Matrix.conjTranspose_eq_transpose_of_trivial, Matrix.transpose_mul, hPs, Matrix.mul_assoc] using this

/-- **C16 (end to end).** Filter then smooth: static matrices, no jitter, fully observed data of any length, positive
definite measurement covariance: every smoothed covariance is at most the filtered covariance at the same time. -/
theorem C16_filter_then_smooth (fill : ℝ) (a0 : n → ℝ) {P0 : Matrix n n ℝ} (hP0 : P0.PosSemidef)
    (θ : Kalman.Params n p r) (hH : θ.H.PosDef) (hQ : θ.Q.PosSemidef) (ys : List (Row p)) (hne : ys ≠ [])
    (hy : ∀ y ∈ ys, ∀ i, ¬ Kalman.Spec.Missing fill (y i)) :
    let o := Kalman.buildGraph 0 fill a0 P0 (ys.map fun y => (y, θ))
    ∃ out : List ((n → ℝ) × Matrix n n ℝ), buildGraph 0 0 (o.filteredStates.zip o.filteredCovs)
        (List.replicate ys.length ⟨θ.T, θ.R, θ.Q⟩) = some out ∧ out.length = ys.length ∧
      ∀ (t : ℕ) (P : Matrix n n ℝ) (s : (n → ℝ) × Matrix n n ℝ), o.filteredCovs[t]? = some P → out[t]? = some s → (P - s.2).PosSemidef := by
  intro o
  obtain ⟨N, hN⟩ : ∃ N, ys.length = N + 1 :=
    ⟨ys.length - 1, by have := List.length_pos_iff.2 hne; omega⟩
  set os := filterScan 0 fill a0 P0 (ys.map fun y => (y, θ)) with hos
  have hzip : o.filteredStates.zip o.filteredCovs = os.map fun x => (x.aFilt, x.PFilt) := by
    show (os.map StepOut.aFilt).zip (os.map StepOut.PFilt) = _
    rw [List.zip_map']
  have hrows : ∀ x ∈ ys.map (fun y => (y, θ)), x.2.H.PosSemidef ∧ x.2.Q.PosSemidef ∧ Decoupled fill x.1 x.2.H := by
    intro x hx
    obtain ⟨y, hy', rfl⟩ := List.mem_map.1 hx
    exact ⟨hH.posSemidef, hQ, fun i k hi _ => absurd hi (hy y hy' i)⟩
  have hpsd := filterScan_posSemidef (fill := fill) le_rfl _ a0 P0 hP0 hrows
  have hlen : os.length = N + 1 := by rw [hos, filterScan_length]; simp [hN]
  obtain ⟨out, h1, h2, h3⟩ := C16_smoothed_le_filtered (os.map fun x => (x.aFilt, x.PFilt))
    (⟨θ.T, θ.R, θ.Q⟩ : Params n r) N (by simp [hlen])
    (by
      intro f hf
      obtain ⟨x, hx, rfl⟩ := List.mem_map.1 hf
      exact (hpsd x hx).1) hQ
    (by
      intro t f g hf hg
      simp only [List.getElem?_map, Option.map_eq_some_iff] at hf hg
      obtain ⟨x, hx, rfl⟩ := hf
      obtain ⟨z, hz, rfl⟩ := hg
      have hxm : x ∈ os := List.mem_of_getElem? hx
      have ht : t + 1 < ys.length := by
        have := (List.getElem?_eq_some_iff.1 hz).1
        rw [hlen] at this; omega
      have hrow : (ys.map fun y => (y, θ))[t + 1]? = some (ys[t + 1], θ) := by simp
      have hstep := filterScan_getElem_succ 0 fill (ys.map fun y => (y, θ)) a0 P0 t ys[t + 1] θ x hrow hx
      rw [← hos, hz] at hstep
      have hz' := Option.some.inj hstep
      have hPx := (hpsd x hxm)
      have hF : IsUnit (Kalman.Spec.obsCov x.PHat θ.Z θ.H).det := by
        have : (Kalman.Spec.obsCov x.PHat θ.Z θ.H).PosDef := by
          refine Matrix.PosDef.posSemidef_add ?_ hH
          simpa [Matrix.conjTranspose_eq_transpose_of_trivial] using hPx.2.mul_mul_conjTranspose_same θ.Z
        exact isUnit_iff_ne_zero.2 this.det_pos.ne'
      have hle := C16_filtered_le_predicted fill ys[t + 1] x.aHat hPx.2 θ
        (hy _ (List.getElem_mem _)) hH.posSemidef hF
      rw [← hz'] at hle
      have hPH : x.PHat = θ.T * x.PFilt * θ.Tᵀ + θ.R * θ.Q * θ.Rᵀ := by
        obtain ⟨y0, a', P', hx'⟩ : ∃ y0 a' P', x = kalmanStep 0 fill y0 a' P' θ := by
          clear hpsd hlen hz hstep hzip o
          rw [hos] at hxm
          clear hos hx
          generalize a0 = a at hxm
          clear hP0
          generalize P0 = P at hxm
          clear hPx hF hle hz' hrow ht hrows hy hne hN
          clear z
          induction ys generalizing a P with
          | nil => simp [filterScan] at hxm
          | cons y ys ih =>
            simp only [List.map_cons, filterScan, List.mem_cons] at hxm
            rcases hxm with h | h
            · exact ⟨y, a, P, h⟩
            · exact ih _ _ h
        rw [hx']
        have hs : ((kalmanStep 0 fill y0 a' P' θ).PFilt)ᵀ = (kalmanStep 0 fill y0 a' P' θ).PFilt := by
          rw [← hx']; exact PosSemidef.transpose_eq hPx.1
        show quadFormSym θ.T _ + quadFormSym θ.R θ.Q = _
        rw [quadFormSym_of_symm _ (PosSemidef.transpose_eq hQ)]
        congr 1
        exact quadFormSym_of_symm _ hs
      rwa [hPH] at hle)
  refine ⟨out, by rw [hzip, hN]; exact h1, by rw [h2]; simp [hlen, hN], fun t P s hP hs => ?_⟩
  have hP' : (os.map StepOut.PFilt)[t]? = some P := hP
  simp only [List.getElem?_map, Option.map_eq_some_iff] at hP'
  obtain ⟨x, hx, rfl⟩ := hP'
  exact h3 t (x.aFilt, x.PFilt) s (by simp [hx]) hs

/-- Non-vacuity of `C16_filter_then_smooth`: a random walk observed with noise at two times. -/
example : ∃ out, buildGraph 0 0
    ((Kalman.buildGraph 0 (-9999) (0 : Fin 1 → ℝ) 1 ([fun _ : Fin 1 => some 3, fun _ => some 4].map fun y =>
      (y, (⟨0, 0, 1, 1, 1, 1, 1⟩ : Kalman.Params (Fin 1) (Fin 1) (Fin 1))))).filteredStates.zip
     (Kalman.buildGraph 0 (-9999) (0 : Fin 1 → ℝ) 1 ([fun _ : Fin 1 => some 3, fun _ => some 4].map fun y =>
      (y, (⟨0, 0, 1, 1, 1, 1, 1⟩ : Kalman.Params (Fin 1) (Fin 1) (Fin 1))))).filteredCovs)
    (List.replicate 2 (⟨1, 1, 1⟩ : Params (Fin 1) (Fin 1))) = some out ∧ out.length = 2 := by
  obtain ⟨out, h1, h2, -⟩ := C16_filter_then_smooth (-9999) (0 : Fin 1 → ℝ) Matrix.PosSemidef.one
    (⟨0, 0, 1, 1, 1, 1, 1⟩ : Kalman.Params (Fin 1) (Fin 1) (Fin 1)) Matrix.PosDef.one Matrix.PosSemidef.one
    [fun _ : Fin 1 => some 3, fun _ => some 4] (by simp)
    (by
      intro y hy i
      simp only [List.mem_cons, List.not_mem_nil, or_false] at hy
      rcases hy with rfl | rfl <;> simp [Kalman.Spec.Missing] <;> norm_num)
  exact ⟨out, h1, h2⟩

end Verif.Smoother
