import Verif.Numerics.Cg
import Mathlib.LinearAlgebra.Matrix.PosDef
import Mathlib.LinearAlgebra.Dimension.Constructions
import Mathlib.LinearAlgebra.FiniteDimensional.Lemmas

/-! Lemmas about the conjugate gradient model. -/

set_option autoImplicit false

open Matrix
open scoped Classical

namespace Verif.Numerics.Cg

variable {n : Type} [Fintype n]

/-- The loop variables after `k` passes through the loop body, ignoring the break test. -/
noncomputable def run (A : Matrix n n ℝ) (c : Cfg) (z : Prop) (s : St n) (k : ℕ) : St n := (step A c z)^[k] s

theorem run_zero (A : Matrix n n ℝ) (c : Cfg) (z : Prop) (s : St n) : run A c z s 0 = s := rfl

theorem run_succ (A : Matrix n n ℝ) (c : Cfg) (z : Prop) (s : St n) (k : ℕ) :
    run A c z s (k + 1) = step A c z (run A c z s k) := by
  simp [run, Function.iterate_succ_apply']

theorem run_step (A : Matrix n n ℝ) (c : Cfg) (z : Prop) (s : St n) (k : ℕ) :
    run A c z (step A c z s) k = run A c z s (k + 1) := by
  simp [run, Function.iterate_succ_apply]

/-- Tridiagonal bookkeeping after the iterations `k, …, k + j - 1`. -/
noncomputable def triRun (A : Matrix n n ℝ) (c : Cfg) (z : Prop) (N : ℕ) (s : St n) (k : ℕ) (T : Tri) : ℕ → Tri
  | 0 => T
  | j + 1 => (triRun A c z N s k T j).update c N (k + j) (run A c z s (j + 1)).alpha (run A c z s (j + 1)).beta

theorem triRun_shift (A : Matrix n n ℝ) (c : Cfg) (z : Prop) (N : ℕ) (s : St n) (k : ℕ) (T : Tri) (j : ℕ) :
    triRun A c z N (step A c z s) (k + 1) (T.update c N k (step A c z s).alpha (step A c z s).beta) j =
      triRun A c z N s k T (j + 1) := by
  induction j with
  | zero => simp [triRun, run_succ, run_zero]
  | succ j ih =>
    rw [triRun, ih, run_step, show k + 1 + j = k + (j + 1) by omega]
    rfl

/-- The loop either runs out of iterations without a break or stops at the first break. -/
theorem loop_spec (A : Matrix n n ℝ) (c : Cfg) (z : Prop) (N : ℕ) (left : ℕ) : ∀ (k : ℕ) (s : St n) (T : Tri),
    (loop A c z N k left s T = (false, run A c z s left, triRun A c z N s k T left) ∧
      ∀ j < left, ¬ breaks c N (k + j) (run A c z s (j + 1)).norm) ∨
    ∃ K < left, loop A c z N k left s T = (true, run A c z s (K + 1), triRun A c z N s k T K) ∧
      breaks c N (k + K) (run A c z s (K + 1)).norm ∧
      ∀ j < K, ¬ breaks c N (k + j) (run A c z s (j + 1)).norm := by
  induction left with
  | zero => intro k s T; left; exact ⟨rfl, by simp⟩
  | succ left ih =>
    intro k s T
    by_cases hb : breaks c N k (step A c z s).norm
    · right
      refine ⟨0, by omega, ?_, ?_, by simp⟩
      · simp [loop, hb, run_succ, run_zero, triRun]
      · simpa [run_succ, run_zero] using hb
    · have hl : loop A c z N k (left + 1) s T = loop A c z N (k + 1) left (step A c z s)
          (T.update c N k (step A c z s).alpha (step A c z s).beta) := by
        simp [loop, hb]
      have hb0 : ¬ breaks c N (k + 0) (run A c z s (0 + 1)).norm := by simpa [run_succ, run_zero] using hb
      rcases ih (k + 1) (step A c z s) (T.update c N k (step A c z s).alpha (step A c z s).beta) with ⟨h1, h2⟩ | ⟨K, hK, h1, h2, h3⟩
      · left
        refine ⟨by rw [hl, h1, run_step, triRun_shift], ?_⟩
        intro j hj
        rcases j with _ | j
        · exact hb0
        · have := h2 j (by omega)
          rw [run_step] at this
          rwa [show k + 1 + j = k + (j + 1) by omega] at this
      · right
        refine ⟨K + 1, by omega, by rw [hl, h1, run_step, triRun_shift], ?_, ?_⟩
        · rw [run_step] at h2
          rwa [show k + 1 + K = k + (K + 1) by omega] at h2
        · intro j hj
          rcases j with _ | j
          · exact hb0
          · have := h3 j (by omega)
            rw [run_step] at this
            rwa [show k + 1 + j = k + (j + 1) by omega] at this

theorem norm2_nonneg (v : n → ℝ) : 0 ≤ norm2 v := Real.sqrt_nonneg _

theorem dot_self_nonneg (v : n → ℝ) : 0 ≤ v ⬝ᵥ v := by
  rw [dotProduct]; exact Finset.sum_nonneg fun i _ => mul_self_nonneg _

theorem norm2_smul (a : ℝ) (v : n → ℝ) : norm2 (a • v) = |a| * norm2 v := by
  unfold norm2
  rw [smul_dotProduct, dotProduct_smul, smul_eq_mul, smul_eq_mul, ← mul_assoc, Real.sqrt_mul (mul_self_nonneg a),
    Real.sqrt_mul_self_eq_abs]

theorem norm2_sq (v : n → ℝ) : norm2 v ^ 2 = v ⬝ᵥ v := Real.sq_sqrt (dot_self_nonneg v)

theorem step_x (A : Matrix n n ℝ) (c : Cfg) (z : Prop) (s : St n) :
    (step A c z s).x = s.x + (step A c z s).alpha • s.p := rfl

theorem step_r (A : Matrix n n ℝ) (c : Cfg) (z : Prop) (s : St n) :
    (step A c z s).r = s.r - (step A c z s).alpha • (A *ᵥ s.p) := rfl

theorem step_rz (A : Matrix n n ℝ) (c : Cfg) (z : Prop) (s : St n) :
    (step A c z s).rz = (step A c z s).r ⬝ᵥ (step A c z s).r := rfl

theorem step_p (A : Matrix n n ℝ) (c : Cfg) (z : Prop) (s : St n) :
    (step A c z s).p = (step A c z s).beta • s.p + (step A c z s).r := rfl

theorem step_beta (A : Matrix n n ℝ) (c : Cfg) (z : Prop) (s : St n) :
    (step A c z s).beta = safeDiv c.eps (step A c z s).rz s.rz := rfl

theorem step_alpha (A : Matrix n n ℝ) (c : Cfg) (z : Prop) (s : St n) :
    (step A c z s).alpha = if s.norm < c.stop then 0 else safeDiv c.eps s.rz (s.p ⬝ᵥ (A *ᵥ s.p)) := rfl

theorem step_norm (A : Matrix n n ℝ) (c : Cfg) (z : Prop) (s : St n) :
    (step A c z s).norm = if z then 0 else norm2 (step A c z s).r := rfl

/-- The residual invariant, for any start. -/
theorem run_residual (A : Matrix n n ℝ) (c : Cfg) (z : Prop) (s : St n) (b : n → ℝ) (h : s.r = b - A *ᵥ s.x) (k : ℕ) :
    (run A c z s k).r = b - A *ᵥ (run A c z s k).x := by
  induction k with
  | zero => exact h
  | succ k ih =>
    rw [run_succ, step_r, step_x, ih, mulVec_add, mulVec_smul]
    abel

/-- Abstract conjugate gradient recursion: `r (j+1) = r j - a j A (p j)`, `p (j+1) = β j p j + r (j+1)`. -/
structure Rec (A : Matrix n n ℝ) (K : ℕ) (r p : ℕ → n → ℝ) (al be : ℕ → ℝ) : Prop where
  sym : Aᵀ = A
  p0 : p 0 = r 0
  hr : ∀ j < K, r (j + 1) = r j - al j • (A *ᵥ p j)
  hp : ∀ j < K, p (j + 1) = be j • p j + r (j + 1)
  hal : ∀ j < K, al j = (r j ⬝ᵥ r j) / (p j ⬝ᵥ (A *ᵥ p j))
  hbe : ∀ j < K, be j = (r (j + 1) ⬝ᵥ r (j + 1)) / (r j ⬝ᵥ r j)
  pos : ∀ j < K, 0 < p j ⬝ᵥ (A *ᵥ p j)
  rpos : ∀ j < K, 0 < r j ⬝ᵥ r j

theorem symm_dot {A : Matrix n n ℝ} (h : Aᵀ = A) (u v : n → ℝ) : u ⬝ᵥ (A *ᵥ v) = v ⬝ᵥ (A *ᵥ u) := by
  rw [dotProduct_mulVec, ← mulVec_transpose, h, dotProduct_comm]

theorem Rec.main {A : Matrix n n ℝ} {K : ℕ} {r p : ℕ → n → ℝ} {al be : ℕ → ℝ} (h : Rec A K r p al be) :
    ∀ k ≤ K, (∀ i < k, r k ⬝ᵥ r i = 0) ∧ (∀ i < k, p k ⬝ᵥ (A *ᵥ p i) = 0) ∧ (∀ i < k, r k ⬝ᵥ p i = 0) ∧
      r k ⬝ᵥ p k = r k ⬝ᵥ r k := by
  intro k
  induction k using Nat.strong_induction_on with
  | _ k ih =>
    intro hk
    rcases k with _ | k
    · refine ⟨by simp, by simp, by simp, by rw [h.p0]⟩
    obtain ⟨i1, i2, i3, i4⟩ := ih k (by omega) (by omega)
    have hkK : k < K := by omega
    have hpos := h.pos k hkK
    have hrpos := h.rpos k hkK
    have hal := h.hal k hkK
    have h3 : ∀ i < k + 1, r (k + 1) ⬝ᵥ p i = 0 := by
      intro i hi
      rw [h.hr k hkK, sub_dotProduct, smul_dotProduct, smul_eq_mul, dotProduct_comm (A *ᵥ p k)]
      rcases Nat.lt_succ_iff_lt_or_eq.mp hi with hi | rfl
      · rw [i3 i hi, symm_dot h.sym, i2 i hi]; simp
      · rw [i4, hal]; field_simp; ring
    have h1 : ∀ i < k + 1, r (k + 1) ⬝ᵥ r i = 0 := by
      intro i hi
      rcases i with _ | i
      · rw [← h.p0]; exact h3 0 hi
      · have e : r (i + 1) = p (i + 1) - be i • p i := by rw [h.hp i (by omega)]; abel
        rw [e, dotProduct_sub, dotProduct_smul, h3 _ hi, h3 i (by omega)]; simp
    have alpos : ∀ j < K, al j ≠ 0 := fun j hj => by
      rw [h.hal j hj]; exact (div_pos (h.rpos j hj) (h.pos j hj)).ne'
    have hAp : ∀ i < K, A *ᵥ p i = (al i)⁻¹ • (r i - r (i + 1)) := by
      intro i hi
      rw [h.hr i hi, sub_sub_cancel, smul_smul, inv_mul_cancel₀ (alpos i hi), one_smul]
    refine ⟨h1, ?_, h3, ?_⟩
    · intro i hi
      rw [h.hp k hkK, add_dotProduct, smul_dotProduct, smul_eq_mul]
      rcases Nat.lt_succ_iff_lt_or_eq.mp hi with hi' | rfl
      · rw [i2 i hi', hAp i (by omega), dotProduct_smul, dotProduct_sub, h1 i (by omega), h1 (i + 1) (by omega)]; simp
      · rw [hAp i hkK, dotProduct_smul, dotProduct_smul, dotProduct_sub, dotProduct_sub, h1 i (by omega)]
        have hpr : p i ⬝ᵥ r i = r i ⬝ᵥ r i := by rw [dotProduct_comm, i4]
        have hpr' : p i ⬝ᵥ r (i + 1) = 0 := by rw [dotProduct_comm, h3 i (by omega)]
        rw [hpr, hpr', h.hbe i hkK]
        simp only [smul_eq_mul]; field_simp; ring
    · rw [h.hp k hkK, dotProduct_add, dotProduct_smul, h3 k (by omega)]; simp

theorem Rec.al_ne {A : Matrix n n ℝ} {K : ℕ} {r p : ℕ → n → ℝ} {al be : ℕ → ℝ} (h : Rec A K r p al be) (j : ℕ)
    (hj : j < K) : al j ≠ 0 := by
  rw [h.hal j hj]; exact (div_pos (h.rpos j hj) (h.pos j hj)).ne'

theorem Rec.Ap {A : Matrix n n ℝ} {K : ℕ} {r p : ℕ → n → ℝ} {al be : ℕ → ℝ} (h : Rec A K r p al be) (j : ℕ)
    (hj : j < K) : A *ᵥ p j = (al j)⁻¹ • (r j - r (j + 1)) := by
  rw [h.hr j hj, sub_sub_cancel, smul_smul, inv_mul_cancel₀ (h.al_ne j hj), one_smul]

/-- `A^i r₀` for `i < K` lies in the span of the first `i + 1` directions. -/
theorem Rec.krylov_mem {A : Matrix n n ℝ} {K : ℕ} {r p : ℕ → n → ℝ} {al be : ℕ → ℝ} (h : Rec A K r p al be) :
    ∀ i < K, ((fun v => A *ᵥ v)^[i] (r 0)) ∈ Submodule.span ℝ (p '' Set.Iic i) := by
  intro i
  induction i with
  | zero =>
    intro _
    refine Submodule.subset_span ⟨0, by simp, by simp [h.p0]⟩
  | succ i ih =>
    intro hi
    rw [Function.iterate_succ_apply']
    have hmem := ih (by omega)
    refine Submodule.span_induction (p := fun v _ => A *ᵥ v ∈ Submodule.span ℝ (p '' Set.Iic (i + 1))) ?_ ?_ ?_ ?_ hmem
    · rintro _ ⟨j, hj, rfl⟩
      have hj' : j ≤ i := hj
      have e : r (j + 1) = p (j + 1) - be j • p j := by rw [h.hp j (by omega)]; abel
      have hmem' : ∀ m ≤ i + 1, p m ∈ Submodule.span ℝ (p '' Set.Iic (i + 1)) := fun m hm =>
        Submodule.subset_span ⟨m, hm, rfl⟩
      have hrj : r j ∈ Submodule.span ℝ (p '' Set.Iic (i + 1)) := by
        rcases j with _ | j
        · rw [← h.p0]; exact hmem' 0 (by omega)
        · have e : r (j + 1) = p (j + 1) - be j • p j := by rw [h.hp j (by omega)]; abel
          rw [e]
          exact Submodule.sub_mem _ (hmem' _ (by omega)) (Submodule.smul_mem _ _ (hmem' _ (by omega)))
      rw [h.Ap j (by omega), e]
      exact Submodule.smul_mem _ _ (Submodule.sub_mem _ hrj
        (Submodule.sub_mem _ (hmem' _ (by omega)) (Submodule.smul_mem _ _ (hmem' _ (by omega)))))
    · simp
    · intro u v _ _ hu hv
      rw [mulVec_add]; exact Submodule.add_mem _ hu hv
    · intro a v _ hv
      rw [mulVec_smul]; exact Submodule.smul_mem _ _ hv

/-- `p i` and `r i` are combinations of `r₀, …, A^i r₀`. -/
theorem Rec.mem_krylov {A : Matrix n n ℝ} {K : ℕ} {r p : ℕ → n → ℝ} {al be : ℕ → ℝ} (h : Rec A K r p al be) :
    ∀ i ≤ K, (∃ a : ℕ → ℝ, p i = ∑ m ∈ Finset.range (i + 1), a m • ((fun v => A *ᵥ v)^[m] (r 0))) ∧
      ∃ a : ℕ → ℝ, r i = ∑ m ∈ Finset.range (i + 1), a m • ((fun v => A *ᵥ v)^[m] (r 0)) := by
  intro i
  induction i with
  | zero =>
    intro _
    exact ⟨⟨fun _ => 1, by simp [h.p0]⟩, ⟨fun _ => 1, by simp⟩⟩
  | succ i ih =>
    intro hi
    obtain ⟨⟨a, ha⟩, ⟨b, hb⟩⟩ := ih (by omega)
    have key : ∃ d : ℕ → ℝ, r (i + 1) = ∑ m ∈ Finset.range (i + 1 + 1), d m • ((fun v => A *ᵥ v)^[m] (r 0)) := by
      refine ⟨fun m => (if m < i + 1 then b m else 0) - al i * (if m = 0 then 0 else a (m - 1)), ?_⟩
      simp only [sub_smul, Finset.sum_sub_distrib]
      rw [h.hr i (by omega)]
      congr 1
      · rw [hb, Finset.sum_range_succ _ (i + 1)]
        simp only [lt_irrefl, if_false, zero_smul, add_zero]
        refine Finset.sum_congr rfl fun m hm => ?_
        rw [if_pos (Finset.mem_range.mp hm)]
      · rw [ha, mulVec_sum, Finset.smul_sum, Finset.sum_range_succ' _ (i + 1)]
        simp only [mulVec_smul, smul_smul]
        simp [Function.iterate_succ_apply']
    refine ⟨?_, key⟩
    obtain ⟨d, hd⟩ := key
    refine ⟨fun m => be i * (if m < i + 1 then a m else 0) + d m, ?_⟩
    simp only [add_smul, Finset.sum_add_distrib]
    rw [h.hp i (by omega), ← hd, Finset.sum_range_succ _ (i + 1), ha, Finset.smul_sum]
    simp only [lt_irrefl, if_false, mul_zero, zero_smul, add_zero, smul_smul]
    congr 1
    refine Finset.sum_congr rfl fun m hm => ?_
    rw [if_pos (Finset.mem_range.mp hm)]

end Verif.Numerics.Cg
