import Verif.Numerics.CgProps
import Mathlib.Tactic.IntervalCases

/-!
# `linear_cg`: convergence, Lanczos matrix, limits (C64, C116, C117, C118)
-/

set_option autoImplicit false

open Matrix
open scoped Classical

namespace Verif.Numerics.Cg

variable {n : Type} [Fintype n]

theorem iterate_norm_nonneg (c : Cfg) (A : Matrix n n ℝ) (rhs guess : n → ℝ) (k : ℕ) :
    0 ≤ (iterate c A rhs guess k).norm := by
  rcases k with _ | k
  · exact norm2_nonneg _
  · rw [iterate_succ, step_norm]; split
    · exact le_rfl
    · exact norm2_nonneg _

/-- **C64** Once the residual norm is below `stop_updating_after`, the result never changes again. -/
theorem C64_frozen (c : Cfg) (A : Matrix n n ℝ) (rhs guess : n → ℝ) (j : ℕ)
    (hj : (iterate c A rhs guess j).norm < c.stop) (k : ℕ) (hk : j ≤ k) :
    (iterate c A rhs guess k).x = (iterate c A rhs guess j).x ∧
    (iterate c A rhs guess k).r = (iterate c A rhs guess j).r ∧ (iterate c A rhs guess k).norm < c.stop := by
  have hstop : 0 < c.stop := lt_of_le_of_lt (iterate_norm_nonneg c A rhs guess j) hj
  have hle : ∀ i, (iterate c A rhs guess i).norm ≤ norm2 (iterate c A rhs guess i).r := by
    intro i
    rcases i with _ | i
    · exact le_rfl
    · rw [iterate_succ, step_norm]; split
      · exact norm2_nonneg _
      · exact le_rfl
  induction k with
  | zero =>
    have : j = 0 := by omega
    subst this; exact ⟨rfl, rfl, hj⟩
  | succ k ih =>
    rcases Nat.lt_or_eq_of_le hk with h | rfl
    · obtain ⟨h1, h2, h3⟩ := ih (by omega)
      have ha : (iterate c A rhs guess (k + 1)).alpha = 0 := by
        rw [iterate_succ, step_alpha, if_pos h3]
      have hx : (iterate c A rhs guess (k + 1)).x = (iterate c A rhs guess k).x := by
        rw [iterate_succ] at ha ⊢; rw [step_x, ha]; simp
      have hr : (iterate c A rhs guess (k + 1)).r = (iterate c A rhs guess k).r := by
        rw [iterate_succ] at ha ⊢; rw [step_r, ha]; simp
      refine ⟨hx.trans h1, hr.trans h2, ?_⟩
      rw [iterate_succ, step_norm]
      split
      · exact hstop
      · rename_i hz
        rw [← iterate_succ, hr, ← iterate_norm c A rhs guess hz]; exact h3
    · exact ⟨rfl, rfl, hj⟩

/-- **C64** Convergence in exact arithmetic.  For a symmetric matrix with smallest eigenvalue at least `lam > 0`, if
the safe-division threshold is small enough compared with `stop_updating_after` and at least `n` iterations are allowed,
`linear_cg` returns for every right-hand side and every guess. -/
theorem C64_spd_converges (c : Cfg) (A : Matrix n n ℝ) (rhs : n → ℝ) (g : Option (n → ℝ)) (lam : ℝ) (hA : Aᵀ = A)
    (hlam : 0 < lam) (hpd : ∀ v : n → ℝ, lam * (v ⬝ᵥ v) ≤ v ⬝ᵥ (A *ᵥ v)) (heps : 0 < c.eps)
    (he1 : c.eps ≤ c.stop ^ 2) (he2 : c.eps ≤ lam * c.stop ^ 2) (hstop : 0 < c.stop) (htol : c.stop ≤ c.tol)
    (hsize : c.bySize = false) (hn : Fintype.card n ≤ c.maxIter) (hT : c.maxTri ≤ c.maxIter) :
    ∃ o, linearCg c A rhs g = .ok o := by
  by_contra hno
  have herr : ∃ e, linearCg c A rhs g = .error e := by
    cases h : linearCg c A rhs g with
    | error e => exact ⟨e, rfl⟩
    | ok o => exact absurd ⟨o, h⟩ hno
  rcases (C64_raises_iff c A rhs g).mp herr with h | ⟨hm, hall⟩
  · omega
  set s := iterate c A rhs (g.getD 0) with hs
  have hmI : nIter c (Fintype.card n) (start A c rhs (g.getD 0)).norm = c.maxIter := by
    by_cases h : (start A c rhs (g.getD 0)).norm < c.stop ∧ c.nTri = false
    · simp [nIter, h] at hm
    · simp only [nIter, if_neg h, hsize]; rfl
  rw [hmI] at hm hall
  have hlast := hall (c.maxIter - 1) (by omega)
  have hidx : c.maxIter - 1 + 1 = c.maxIter := by omega
  rw [hidx] at hlast
  have hbig : ¬ (s c.maxIter).norm < c.tol := by
    intro hlt
    apply hlast
    refine ⟨?_, hlt, ?_⟩
    · have : ((c.maxIter - 1 : ℕ) : ℤ) = (c.maxIter : ℤ) - 1 := by omega
      rw [this]; exact min_le_right _ _
    · rintro ⟨-, h⟩
      have : ((c.maxIter - 1 : ℕ) : ℤ) = (c.maxIter : ℤ) - 1 := by omega
      rw [this] at h
      exact absurd h (not_lt.mpr (min_le_right _ _))
  by_cases hz : norm2 rhs < c.eps
  · apply hbig
    have : (s c.maxIter).norm = 0 := by
      rw [← hidx, hs, iterate_succ, step_norm, if_pos hz]
    rw [this]; linarith
  · -- every earlier state is exact
    have hns : ∀ j ≤ c.maxIter, ¬ (s j).norm < c.stop := fun j hj hlt =>
      hbig (lt_of_lt_of_le (C64_frozen c A rhs (g.getD 0) j hlt c.maxIter hj).2.2 htol)
    have hex : ∀ j ≤ c.maxIter, Spec.Exact c A (s j) := by
      intro j
      induction j using Nat.strong_induction_on with
      | _ j ih =>
        intro hj
        have hnorm : c.stop ≤ norm2 (s j).r := by
          rw [← iterate_norm c A rhs (g.getD 0) hz]; exact not_lt.mp (hns j hj)
        have hrr : c.stop ^ 2 ≤ (s j).r ⬝ᵥ (s j).r := by
          rw [← norm2_sq]; exact pow_le_pow_left₀ hstop.le hnorm 2
        have hrec := (iterate_rec c A rhs (g.getD 0) heps hA j (fun i hi => ih i hi (by omega))).main j le_rfl
        have hpr : (s j).r ⬝ᵥ (s j).p = (s j).r ⬝ᵥ (s j).r := hrec.2.2.2
        have hpp : (s j).r ⬝ᵥ (s j).r ≤ (s j).p ⬝ᵥ (s j).p := by
          have h0 := dot_self_nonneg ((s j).p - (s j).r)
          rw [sub_dotProduct, dotProduct_sub, dotProduct_sub, dotProduct_comm (s j).p (s j).r, hpr] at h0
          linarith
        refine ⟨hns j hj, ?_, he1.trans hrr⟩
        calc c.eps ≤ lam * c.stop ^ 2 := he2
          _ ≤ lam * ((s j).p ⬝ᵥ (s j).p) := mul_le_mul_of_nonneg_left (hrr.trans hpp) hlam.le
          _ ≤ _ := hpd _
    have hfin := C115_finite_termination c A rhs (g.getD 0) heps hA (fun j hj => hex j (by omega))
    have hr0 : (s (Fintype.card n)).r = 0 := by
      rw [hs, C64_residual, hfin, sub_self]
    have := (hex _ hn).2.2
    rw [hr0] at this
    simp at this
    linarith

/-- A non-trivial configuration and system that meet the hypotheses of the theorem above. -/
example : ∃ o, linearCg (n := Fin 2) ⟨false, 1 / 100, 1 / 10000000000, 1 / 1000, 1000, 20, false⟩
    !![2, 1; 1, 2] ![1, 0] none = .ok o := by
  refine C64_spd_converges _ _ _ _ 1 (by ext i j; fin_cases i <;> fin_cases j <;> rfl) one_pos ?_ ?_ ?_ ?_ ?_ ?_ rfl ?_ ?_
  · intro v
    simp [dotProduct, mulVec, Fin.sum_univ_two]
    nlinarith [sq_nonneg (v 0 + v 1)]
  all_goals norm_num

/-! ### The tridiagonal matrix -/

/-- Lanczos vectors: normalised residuals with alternating signs. -/
noncomputable def Spec.lanczos (c : Cfg) (A : Matrix n n ℝ) (rhs guess : n → ℝ) (i : ℕ) : n → ℝ :=
  ((-1) ^ i / norm2 (iterate c A rhs guess i).r) • (iterate c A rhs guess i).r

theorem Rec.rAr {A : Matrix n n ℝ} {K : ℕ} {r p : ℕ → n → ℝ} {al be : ℕ → ℝ} (h : Rec A K r p al be) :
    (∀ k < K, k = 0 → r k ⬝ᵥ (A *ᵥ r k) = (r k ⬝ᵥ r k) * (al k)⁻¹) ∧
    (∀ k, k + 1 < K → r (k + 1) ⬝ᵥ (A *ᵥ r (k + 1)) =
      (r (k + 1) ⬝ᵥ r (k + 1)) * ((al (k + 1))⁻¹ + be k * (al k)⁻¹)) ∧
    (∀ k, k + 1 < K → r (k + 1) ⬝ᵥ (A *ᵥ r k) = -((r (k + 1) ⬝ᵥ r (k + 1)) * (al k)⁻¹)) ∧
    ∀ k < K, ∀ i, i + 1 < k → r k ⬝ᵥ (A *ᵥ r i) = 0 := by
  have hpAp : ∀ k < K, p k ⬝ᵥ (A *ᵥ p k) = (r k ⬝ᵥ r k) * (al k)⁻¹ := by
    intro k hk
    rw [h.hal k hk, inv_div, mul_div_assoc', mul_comm, mul_div_assoc, div_self (h.rpos k hk).ne', mul_one]
  have hrs : ∀ k < K, r (k + 1) = p (k + 1) - be k • p k := fun k hk => by rw [h.hp k hk]; abel
  refine ⟨?_, ?_, ?_, ?_⟩
  · rintro k hk rfl
    rw [← h.p0]
    have := hpAp 0 hk
    rw [← h.p0] at this; exact this
  · intro k hk
    have c1 := (h.main (k + 1) (by omega)).2.1 k (by omega)
    have c2 : p k ⬝ᵥ (A *ᵥ p (k + 1)) = 0 := by rw [symm_dot h.sym]; exact c1
    have e := hpAp (k + 1) hk
    have e' := hpAp k (by omega)
    have expand : r (k + 1) ⬝ᵥ (A *ᵥ r (k + 1)) =
        p (k + 1) ⬝ᵥ (A *ᵥ p (k + 1)) + be k ^ 2 * (p k ⬝ᵥ (A *ᵥ p k)) := by
      rw [hrs k (by omega), mulVec_sub, mulVec_smul, sub_dotProduct, dotProduct_sub, dotProduct_sub, smul_dotProduct,
        smul_dotProduct, dotProduct_smul, dotProduct_smul, c1, c2]
      simp only [smul_eq_mul]; ring
    rw [expand, e, e']
    have hb := h.hbe k (by omega)
    have hrp := (h.rpos k (by omega)).ne'
    have : be k * (r k ⬝ᵥ r k) = r (k + 1) ⬝ᵥ r (k + 1) := by rw [hb]; field_simp
    calc (r (k + 1) ⬝ᵥ r (k + 1)) * (al (k + 1))⁻¹ + be k ^ 2 * ((r k ⬝ᵥ r k) * (al k)⁻¹)
        = (r (k + 1) ⬝ᵥ r (k + 1)) * (al (k + 1))⁻¹ + be k * (be k * (r k ⬝ᵥ r k)) * (al k)⁻¹ := by ring
      _ = _ := by rw [this]; ring
  · intro k hk
    -- r_{k+1} · A r_k, using A p_k = (r_k - r_{k+1}) / a_k and r_k = p_k - b p_{k-1}
    have o := (h.main (k + 1) (by omega)).1
    have hAp := h.Ap k (by omega)
    have e1 : r (k + 1) ⬝ᵥ (A *ᵥ p k) = -((r (k + 1) ⬝ᵥ r (k + 1)) * (al k)⁻¹) := by
      rw [hAp, dotProduct_smul, dotProduct_sub, o k (by omega), smul_eq_mul]; ring
    rcases k with _ | k
    · rw [← h.p0]; exact e1
    · have e2 : r (k + 1 + 1) ⬝ᵥ (A *ᵥ p k) = 0 := by
        rw [h.Ap k (by omega), dotProduct_smul, dotProduct_sub, o k (by omega), o (k + 1) (by omega)]; simp
      rw [hrs k (by omega), mulVec_sub, mulVec_smul, dotProduct_sub, dotProduct_smul, e2, smul_zero, sub_zero]
      exact e1
  · intro k hk i hi
    have o := (h.main k (by omega)).1
    have e1 : ∀ m, m + 1 < k → r k ⬝ᵥ (A *ᵥ p m) = 0 := by
      intro m hm
      rw [h.Ap m (by omega), dotProduct_smul, dotProduct_sub, o m (by omega), o (m + 1) (by omega)]; simp
    rcases i with _ | i
    · rw [← h.p0]; exact e1 0 hi
    · rw [hrs i (by omega), mulVec_sub, mulVec_smul, dotProduct_sub, dotProduct_smul, e1 _ hi, e1 i (by omega)]; simp

/-- What the bookkeeping contains after `j` updates that all took place. -/
theorem triRun_spec (A : Matrix n n ℝ) (c : Cfg) (z : Prop) (N : ℕ) (s : St n) (j : ℕ) :
    let T := triRun A c z N s 0 Tri.init j
    let a := fun k => 1 / (if (run A c z s (k + 1)).alpha = 0 then 1 else (run A c z s (k + 1)).alpha)
    let b := fun k => (run A c z s (k + 1)).beta
    (j = 0 → T = Tri.init) ∧ (1 ≤ j → c.nTri = true → 1 ≤ N →
    T.last < j ∧ (∀ i k, T.last < i ∨ T.last < k → T.t i k = 0) ∧
    T.t 0 0 = a 0 ∧ (∀ k, k + 1 ≤ T.last → T.t (k + 1) (k + 1) = a (k + 1) + b k * a k ∧
      T.t (k + 1) k = Real.sqrt (b k) * a k ∧ T.t k (k + 1) = Real.sqrt (b k) * a k) ∧
    (∀ i k, i + 1 < k ∨ k + 1 < i → T.t i k = 0) ∧
    (T.upd = true → j ≤ N → T.last = j - 1) ∧ (T.last = j - 1 → T.pa = a (j - 1) ∧ T.pb = b (j - 1)) ∧
    (T.upd = true → N < j → T.last = N - 1)) := by
  intro T a b
  refine ⟨fun h => by subst h; rfl, ?_⟩
  intro hj hn hN
  revert T
  induction j with
  | zero => omega
  | succ j ih =>
    intro T
    rcases Nat.eq_zero_or_pos j with rfl | hj0
    · have hT : T = { t := setAt (fun _ _ => 0) 0 0 (a 0), last := 0, upd := true, pa := a 0, pb := b 0 } := by
        change Tri.update c N (0 + 0) (run A c z s (0 + 1)).alpha (run A c z s (0 + 1)).beta Tri.init = _
        unfold Tri.update
        rw [if_pos ⟨hn, by omega, rfl⟩, if_pos rfl]
        rfl
      rw [hT]
      refine ⟨by simp, ?_, by simp [setAt], ?_, ?_, by simp, by simp, ?_⟩
      · rintro i k h
        have : ¬ (i = 0 ∧ k = 0) := by simp only at h; omega
        simp [setAt, this]
      · intro k hk; simp at hk
      · intro i k h
        have : ¬ (i = 0 ∧ k = 0) := by omega
        simp [setAt, this]
      · intro _ h; omega
    · obtain ⟨q1, q2, q3, q4, q5, q6, q7, q8⟩ := ih (by omega)
      set T' := triRun A c z N s 0 Tri.init j with hT'
      have hT : T = T'.update c N (0 + j) (run A c z s (j + 1)).alpha (run A c z s (j + 1)).beta := rfl
      by_cases hu : j < N ∧ T'.upd = true
      · have hl : T'.last = j - 1 := q6 hu.2 hu.1.le
        obtain ⟨qa, qb⟩ := q7 hl
        have hj1 : j - 1 + 1 = j := by omega
        have hu' : T = Tri.mk (setAt (setAt (setAt T'.t j j (T'.t j j + (a j + b (j - 1) * a (j - 1)))) j (j - 1)
              (Real.sqrt (b (j - 1)) * a (j - 1))) (j - 1) j (Real.sqrt (b (j - 1)) * a (j - 1)))
            j (if Real.sqrt (b (j - 1)) * a (j - 1) < 1 / 1000000 then false else true) (a j) (b j) := by
          rw [hT]
          unfold Tri.update
          have hjne : ¬ (0 + j = 0) := by omega
          rw [if_pos ⟨hn, by omega, hu.2⟩, if_neg hjne]
          simp only [Nat.zero_add, qa, qb]
          have e : ∀ (M : ℕ → ℕ → ℝ) (v : ℝ), setAt M j (j - 1) v j (j - 1) = v := fun M v => by simp [setAt]
          rw [e]
          have e' : ∀ (M : ℕ → ℕ → ℝ) (v : ℝ), setAt M (j - 1) j v (j - 1) j = v := fun M v => by simp [setAt]
          rw [e']
        have hz : T'.t j j = 0 := q2 j j (by omega)
        rw [hu']
        refine ⟨by simp, ?_, ?_, ?_, ?_, ?_, ?_, ?_⟩
        · intro i k h
          simp only at h
          have h1 : ¬ (i = j ∧ k = j) := by omega
          have h2 : ¬ (i = j ∧ k = j - 1) := by omega
          have h3 : ¬ (i = j - 1 ∧ k = j) := by omega
          simp only [setAt, h1, h2, h3, if_false]
          exact q2 i k (by omega)
        · have h1 : ¬ (0 = j ∧ 0 = j) := by omega
          have h2 : ¬ (0 = j ∧ 0 = j - 1) := by omega
          have h3 : ¬ (0 = j - 1 ∧ 0 = j) := by omega
          simp only [setAt, h1, h2, h3, if_false]
          exact q3
        · intro k hk
          simp only at hk
          rcases Nat.lt_or_eq_of_le hk with hk' | hk'
          · have := q4 k (by omega)
            refine ⟨?_, ?_, ?_⟩
            · have h1 : ¬ (k + 1 = j ∧ k + 1 = j) := by omega
              have h2 : ¬ (k + 1 = j ∧ k + 1 = j - 1) := by omega
              have h3 : ¬ (k + 1 = j - 1 ∧ k + 1 = j) := by omega
              simp only [setAt, h1, h2, h3, if_false]; exact this.1
            · have h1 : ¬ (k + 1 = j ∧ k = j) := by omega
              have h2 : ¬ (k + 1 = j ∧ k = j - 1) := by omega
              have h3 : ¬ (k + 1 = j - 1 ∧ k = j) := by omega
              simp only [setAt, h1, h2, h3, if_false]; exact this.2.1
            · have h1 : ¬ (k = j ∧ k + 1 = j) := by omega
              have h2 : ¬ (k = j ∧ k + 1 = j - 1) := by omega
              have h3 : ¬ (k = j - 1 ∧ k + 1 = j) := by omega
              simp only [setAt, h1, h2, h3, if_false]; exact this.2.2
          · subst hk'
            simp only [Nat.add_sub_cancel]
            refine ⟨?_, ?_, ?_⟩
            · have h2 : ¬ (k + 1 = k + 1 ∧ k + 1 = k) := by omega
              have h3 : ¬ (k + 1 = k ∧ k + 1 = k + 1) := by omega
              simp only [setAt, h2, h3, if_false]
              rw [hz]; simp
            · have h3 : ¬ (k + 1 = k ∧ k = k + 1) := by omega
              simp [setAt]
            · simp [setAt]
        · intro i k h
          have h1 : ¬ (i = j ∧ k = j) := by omega
          have h2 : ¬ (i = j ∧ k = j - 1) := by omega
          have h3 : ¬ (i = j - 1 ∧ k = j) := by omega
          simp only [setAt, h1, h2, h3, if_false]
          exact q5 i k h
        · intro _ _; simp
        · intro _; simp
        · intro _ h; simp only; omega
      · have hu' : T = T' := by
          rw [hT]; unfold Tri.update
          rw [if_neg]
          rintro ⟨-, h1, h2⟩; exact hu ⟨by omega, h2⟩
        rw [hu']
        refine ⟨by omega, q2, q3, q4, q5, ?_, ?_, ?_⟩
        · intro h1 h2
          exact absurd ⟨by omega, h1⟩ hu
        · intro h; omega
        · intro h1 h2
          rcases Nat.lt_or_ge N j with h | h
          · exact q8 h1 h
          · have := q6 h1 h; omega

/-- **C116** The tridiagonal matrix returned with `n_tridiag` is the Lanczos matrix of the system: as long as no
safeguard acted in the recorded steps, its entries are `q_i · A q_j` for the orthonormal vectors `q_i` obtained by
normalising the residuals with alternating signs. -/
theorem C116_lanczos (c : Cfg) (A : Matrix n n ℝ) (rhs : n → ℝ) (g : Option (n → ℝ)) (o : Out n) (heps : 0 < c.eps)
    (hA : Aᵀ = A) (hn : c.nTri = true) (hT : 1 ≤ c.maxTri) (hI : 2 ≤ c.maxIter) [Nonempty n]
    (hok : linearCg c A rhs g = .ok o)
    (hex : ∀ j < o.size, Spec.Exact c A (iterate c A rhs (g.getD 0) j)) (i j : ℕ) (hi : i < o.size) (hj : j < o.size) :
    o.t i j = Spec.lanczos c A rhs (g.getD 0) i ⬝ᵥ (A *ᵥ Spec.lanczos c A rhs (g.getD 0) j) ∧
    Spec.lanczos c A rhs (g.getD 0) i ⬝ᵥ Spec.lanczos c A rhs (g.getD 0) j = if i = j then 1 else 0 := by
  have hcard : 1 ≤ Fintype.card n := Fintype.card_pos
  have hTI : c.maxTri ≤ c.maxIter := by
    by_contra h
    have : c.maxTri > c.maxIter := by omega
    simp [linearCg, this] at hok
  have hrec := iterate_rec c A rhs (g.getD 0) heps hA o.size hex
  set r := fun j => (iterate c A rhs (g.getD 0) j).r with hr
  set al := fun j => (iterate c A rhs (g.getD 0) (j + 1)).alpha with hal
  set be := fun j => (iterate c A rhs (g.getD 0) (j + 1)).beta with hbe
  have hnp : ∀ k < o.size, 0 < norm2 (r k) := fun k hk => Real.sqrt_pos.mpr (hrec.rpos k hk)
  have hq : ∀ a b, Spec.lanczos c A rhs (g.getD 0) a ⬝ᵥ (A *ᵥ Spec.lanczos c A rhs (g.getD 0) b) =
      ((-1) ^ a / norm2 (r a)) * ((-1) ^ b / norm2 (r b)) * (r a ⬝ᵥ (A *ᵥ r b)) := by
    intro a b
    simp only [Spec.lanczos, mulVec_smul, smul_dotProduct, dotProduct_smul, smul_eq_mul, hr]; ring
  have hq' : ∀ a b, Spec.lanczos c A rhs (g.getD 0) a ⬝ᵥ Spec.lanczos c A rhs (g.getD 0) b =
      ((-1) ^ a / norm2 (r a)) * ((-1) ^ b / norm2 (r b)) * (r a ⬝ᵥ r b) := by
    intro a b
    simp only [Spec.lanczos, smul_dotProduct, dotProduct_smul, smul_eq_mul, hr]; ring
  have hsq : ∀ a : ℕ, ((-1 : ℝ) ^ a) * ((-1) ^ a) = 1 := fun a => by rw [← pow_add, Even.neg_one_pow ⟨a, rfl⟩]
  have hdiag : ∀ a < o.size, ∀ y : ℝ, ((-1) ^ a / norm2 (r a)) * ((-1) ^ a / norm2 (r a)) * ((r a ⬝ᵥ r a) * y) = y := by
    intro a ha y
    rw [div_mul_div_comm, hsq, ← norm2_sq, ← pow_two]
    have := (hnp a ha).ne'
    field_simp
  refine ⟨?_, ?_⟩
  swap
  · rw [hq']
    split
    · rename_i h; subst h
      have := hdiag i hi 1
      rwa [mul_one] at this
    · rename_i h
      have : r i ⬝ᵥ r j = 0 := by
        rcases lt_or_gt_of_ne h with h | h
        · rw [dotProduct_comm]; exact (hrec.main j hj.le).1 i h
        · exact (hrec.main i hi.le).1 j h
      rw [this, mul_zero]
  rcases linearCg_cases c A rhs g hTI with ⟨h1, -, -⟩ | ⟨hm, -, -, -⟩ | ⟨K, hK, hb, -, h1⟩
  · rw [h1] at hok; simp at hok
  · exfalso
    unfold nIter at hm
    rw [hn] at hm
    simp at hm
    split at hm <;> omega
  · have hK1 : 1 ≤ K := by
      rcases Nat.eq_zero_or_pos K with rfl | h
      · exfalso
        have := hb.1
        rcases min_le_iff.mp this with h | h <;> omega
      · exact h
    rw [h1] at hok
    have ho : o = _ := (Except.ok.inj hok).symm
    obtain ⟨p1, p2, p3, p4, p5, -, -, -⟩ := (triRun_spec A c (norm2 rhs < c.eps) (min c.maxTri (Fintype.card n))
      (start A c rhs (g.getD 0)) K).2 hK1 hn (by omega)
    have hos : o.size = (triRun A c (norm2 rhs < c.eps) (min c.maxTri (Fintype.card n)) (start A c rhs (g.getD 0)) 0
      Tri.init K).last + 1 := by rw [ho]
    have hot : o.t = (triRun A c (norm2 rhs < c.eps) (min c.maxTri (Fintype.card n)) (start A c rhs (g.getD 0)) 0
      Tri.init K).t := by rw [ho]
    rw [← hot] at p3 p4 p5
    beta_reduce at p3 p4
    have ha : ∀ k < o.size, 1 / (if (run A c (norm2 rhs < c.eps) (start A c rhs (g.getD 0)) (k + 1)).alpha = 0 then 1
        else (run A c (norm2 rhs < c.eps) (start A c rhs (g.getD 0)) (k + 1)).alpha) = (al k)⁻¹ := by
      intro k hk
      have : (run A c (norm2 rhs < c.eps) (start A c rhs (g.getD 0)) (k + 1)).alpha = al k := rfl
      rw [this, if_neg (hrec.al_ne k hk), one_div]
    obtain ⟨e1, e2, e3, e4⟩ := hrec.rAr
    have hoff : ∀ k, k + 1 < o.size → ((-1) ^ (k + 1) / norm2 (r (k + 1))) * ((-1) ^ k / norm2 (r k)) *
        (r (k + 1) ⬝ᵥ (A *ᵥ r k)) = Real.sqrt (be k) * (al k)⁻¹ := by
      intro k hk
      have hbk : be k = (r (k + 1) ⬝ᵥ r (k + 1)) / (r k ⬝ᵥ r k) := hrec.hbe k (by omega)
      have hs : Real.sqrt (be k) = norm2 (r (k + 1)) / norm2 (r k) := by
        rw [hbk, Real.sqrt_div (dot_self_nonneg _)]; rfl
      rw [e3 k hk, hs, ← norm2_sq, pow_succ]
      have n1 := (hnp k (by omega)).ne'
      have n2 := (hnp (k + 1) hk).ne'
      have e : ((-1 : ℝ) ^ k * -1 / norm2 (r (k + 1))) * ((-1) ^ k / norm2 (r k)) *
          -(norm2 (r (k + 1)) ^ 2 * (al k)⁻¹) =
          ((-1) ^ k * (-1) ^ k) * (norm2 (r (k + 1)) / norm2 (r k) * (al k)⁻¹) := by
        generalize (al k)⁻¹ = y
        generalize ((-1 : ℝ) ^ k) = u
        field_simp
      rw [e, hsq, one_mul]
    rw [hq]
    rcases lt_trichotomy i j with h | rfl | h
    · rcases Nat.lt_or_eq_of_le (Nat.succ_le_of_lt h) with h' | h'
      · rw [p5 i j (.inl h'), symm_dot hA, e4 j hj i h', mul_zero]
      · obtain rfl : i + 1 = j := h'
        have := (p4 i (by omega)).2.2
        rw [this, ha i hi, symm_dot hA, mul_comm (_ / _) (_ / _), hoff i hj]
        rfl
    · rcases i with _ | i
      · rw [p3, ha 0 hi, e1 0 hi rfl, hdiag 0 hi]
      · have := (p4 i (by omega)).1
        rw [this, ha (i + 1) hi, ha i (by omega), e2 i hi, hdiag (i + 1) hi]
        rfl
    · rcases Nat.lt_or_eq_of_le (Nat.succ_le_of_lt h) with h' | h'
      · rw [p5 i j (.inr h'), e4 i hi j h', mul_zero]
      · obtain rfl : j + 1 = i := h'
        have := (p4 j (by omega)).2.1
        rw [this, ha j hj, hoff j hi]
        rfl

/-! ### Limits -/

/-- **C118** With `terminate_cg_by_size` and at most ten rows (and a larger iteration limit) every call raises, unless
the guess already solves the normalised system: the convergence test is only made from the eleventh iteration on. -/
theorem C118_small_systems_raise (c : Cfg) (A : Matrix n n ℝ) (rhs : n → ℝ) (g : Option (n → ℝ)) (hs : c.bySize = true)
    (hn : c.nTri = false) (hcard : Fintype.card n ≤ 10) (hI : Fintype.card n < c.maxIter) (hT : c.maxTri ≤ c.maxIter)
    (hne : 0 < Fintype.card n) (hstart : c.stop ≤ norm2 (Spec.scaled c rhs - A *ᵥ g.getD 0)) :
    linearCg c A rhs g = .error (.notConverged (Fintype.card n)) := by
  have hm : nIter c (Fintype.card n) (start A c rhs (g.getD 0)).norm = Fintype.card n := by
    have : ¬ ((start A c rhs (g.getD 0)).norm < c.stop ∧ c.nTri = false) := fun h => absurd h.1 (not_lt.mpr hstart)
    simp only [nIter, if_neg this, hs]
    simp; omega
  rcases linearCg_cases c A rhs g hT with ⟨h1, -, -⟩ | ⟨h0, -⟩ | ⟨K, hK, hb, -⟩
  · rw [hm] at h1; exact h1
  · omega
  · exfalso
    rw [hm] at hK
    rcases min_le_iff.mp hb.1 with h | h <;> omega

/-- The hypotheses above hold for the identity system with the default tolerances. -/
example : linearCg (n := Fin 2) ⟨false, 1, 1 / 10000000000, 1 / 10000000000, 1000, 20, true⟩ 1 ![1, 0] none =
    .error (.notConverged 2) := by
  have h := C118_small_systems_raise (n := Fin 2) ⟨false, 1, 1 / 10000000000, 1 / 10000000000, 1000, 20, true⟩ 1
    ![1, 0] none rfl rfl (by simp) (by simp) (by simp) (by simp) ?_
  · simpa using h
  · have h1 : norm2 (![1, 0] : Fin 2 → ℝ) = 1 := by simp [norm2, dotProduct, Fin.sum_univ_two]
    simp only [Spec.scaled, rhsNorm, h1]
    norm_num
    rw [h1]; norm_num

/-- **C118** The default `max_tridiag_iter = 20` makes every call with `max_iter < 20` raise, even when no
tridiagonalisation is requested. -/
theorem C118_low_iteration_limit (c : Cfg) (A : Matrix n n ℝ) (rhs : n → ℝ) (g : Option (n → ℝ))
    (hT : c.maxTri = 20) (hI : c.maxIter < 20) : linearCg c A rhs g = .error .tridiagTooLarge := by
  have : c.maxTri > c.maxIter := by omega
  simp [linearCg, this]

/-- **C117** The guess is a guess for the *normalised* system: the exact solution of the system passed as a guess is
taken for a guess with residual norm `|1 - ‖rhs‖|`. -/
theorem C117_exact_guess (c : Cfg) (A : Matrix n n ℝ) (rhs g : n → ℝ) (heps : 0 < c.eps) (hz : c.eps ≤ norm2 rhs)
    (hg : A *ᵥ g = rhs) : (iterate c A rhs g 0).norm = |1 - norm2 rhs| := by
  have hpos : 0 < norm2 rhs := lt_of_lt_of_le heps hz
  have hN : rhsNorm c.eps rhs = norm2 rhs := by unfold rhsNorm; rw [if_neg (not_lt.mpr hz)]
  change norm2 ((rhsNorm c.eps rhs)⁻¹ • rhs - A *ᵥ g) = _
  rw [hg, hN]
  have e : (norm2 rhs)⁻¹ • rhs - rhs = ((norm2 rhs)⁻¹ - 1) • rhs := by rw [sub_smul, one_smul]
  rw [e, norm2_smul, ← abs_of_pos hpos, ← abs_mul, abs_of_pos hpos]
  congr 1
  field_simp

/-- **C117** For a (numerically) zero right-hand side the result is frozen after one step, and a call with a positive
tolerance never reports missing convergence, whatever the remaining residual. -/
theorem C117_zero_rhs (c : Cfg) (A : Matrix n n ℝ) (rhs : n → ℝ) (g : Option (n → ℝ)) (hz : norm2 rhs < c.eps)
    (hstop : 0 < c.stop) (htol : 0 < c.tol) (hs : c.bySize = false) (hT : c.maxTri ≤ c.maxIter) (hI : 0 < c.maxIter)
    (hg : c.stop ≤ norm2 (rhs - A *ᵥ g.getD 0)) :
    ∃ o, linearCg c A rhs g = .ok o ∧ o.result = (iterate c A rhs (g.getD 0) 1).x := by
  have hN : rhsNorm c.eps rhs = 1 := by unfold rhsNorm; rw [if_pos hz]
  have hnorm : ∀ k, (iterate c A rhs (g.getD 0) (k + 1)).norm = 0 := fun k => by
    rw [iterate_succ, step_norm, if_pos hz]
  have hfr : ∀ k, (iterate c A rhs (g.getD 0) (k + 1)).x = (iterate c A rhs (g.getD 0) 1).x := fun k =>
    (C64_frozen c A rhs (g.getD 0) 1 (by rw [hnorm 0]; exact hstop) (k + 1) (by omega)).1
  have hm : nIter c (Fintype.card n) (start A c rhs (g.getD 0)).norm = c.maxIter := by
    have : ¬ ((start A c rhs (g.getD 0)).norm < c.stop ∧ c.nTri = false) := by
      rintro ⟨h, -⟩
      change norm2 ((rhsNorm c.eps rhs)⁻¹ • rhs - A *ᵥ g.getD 0) < _ at h
      rw [hN, inv_one, one_smul] at h
      linarith
    simp only [nIter, if_neg this, hs]; rfl
  rcases linearCg_cases c A rhs g hT with ⟨-, h0, h1⟩ | ⟨h0, -⟩ | ⟨K, hK, hb, -, h1⟩
  · exfalso
    rw [hm] at h0 h1
    refine h1 (c.maxIter - 1) (by omega) ⟨?_, by rw [hnorm]; exact htol, ?_⟩
    · have : ((c.maxIter - 1 : ℕ) : ℤ) = (c.maxIter : ℤ) - 1 := by omega
      rw [this]; exact min_le_right _ _
    · rintro ⟨-, h⟩
      have : ((c.maxIter - 1 : ℕ) : ℤ) = (c.maxIter : ℤ) - 1 := by omega
      rw [this] at h
      exact absurd h (not_lt.mpr (min_le_right _ _))
  · omega
  · refine ⟨_, h1, ?_⟩
    rw [hN, one_smul, hfr]

/-- **C117** A concrete wrong answer: the system `diag(1, 2) x = 0` with guess `(1, 1)` returns `(4/9, -1/9)` although
the tolerance is `1/100`. -/
theorem C117_zero_rhs_wrong : ∃ o, linearCg (n := Fin 2)
    ⟨false, 1 / 100, 1 / 10000000000, 1 / 10000000000, 1000, 20, false⟩ !![1, 0; 0, 2] 0 (some ![1, 1]) = .ok o ∧
    o.result = ![4 / 9, -1 / 9] ∧ 1 / 3 < norm2 (0 - !![1, 0; 0, 2] *ᵥ o.result) := by
  have h0 : norm2 (0 : Fin 2 → ℝ) = 0 := by simp [norm2]
  have hr0 : norm2 ((0 : Fin 2 → ℝ) - !![1, 0; 0, 2] *ᵥ ![1, 1]) = Real.sqrt 5 := by
    simp [norm2, dotProduct, mulVec, Fin.sum_univ_two]; norm_num
  have h5 : (1 : ℝ) ≤ Real.sqrt 5 := Real.one_le_sqrt.mpr (by norm_num)
  obtain ⟨o, h1, h2⟩ := C117_zero_rhs (n := Fin 2) ⟨false, 1 / 100, 1 / 10000000000, 1 / 10000000000, 1000, 20, false⟩
    !![1, 0; 0, 2] 0 (some ![1, 1]) (by rw [h0]; norm_num) (by norm_num) (by norm_num) rfl (by norm_num) (by norm_num)
    (by simp only [Option.getD_some]; rw [hr0]; norm_num; linarith)
  refine ⟨o, h1, ?_⟩
  have hx : (iterate (n := Fin 2) ⟨false, 1 / 100, 1 / 10000000000, 1 / 10000000000, 1000, 20, false⟩
      !![1, 0; 0, 2] 0 (Option.getD (some ![1, 1]) 0) 1).x = ![4 / 9, -1 / 9] := by
    rw [iterate_succ, step_x, step_alpha]
    have e0 : (iterate (n := Fin 2) ⟨false, 1 / 100, 1 / 10000000000, 1 / 10000000000, 1000, 20, false⟩
      !![1, 0; 0, 2] 0 (Option.getD (some ![1, 1]) 0) 0) = ⟨![1, 1], ![-1, -2], ![-1, -2], 5, Real.sqrt 5, 0, 0⟩ := by
      have er : (rhsNorm (1 / 10000000000 : ℝ) (0 : Fin 2 → ℝ))⁻¹ • (0 : Fin 2 → ℝ) - !![1, 0; 0, 2] *ᵥ ![1, 1] =
          ![-1, -2] := by
        ext i; fin_cases i <;> simp [mulVec, dotProduct, Fin.sum_univ_two]
      simp only [iterate, run_zero, start, Option.getD_some]
      rw [er]
      simp only [St.mk.injEq, true_and, and_true]
      refine ⟨?_, ?_⟩
      · simp [dotProduct, Fin.sum_univ_two]; norm_num
      · simp [norm2, dotProduct, Fin.sum_univ_two]; norm_num
    rw [e0]
    have h9 : (![-1, -2] : Fin 2 → ℝ) ⬝ᵥ (!![1, 0; 0, 2] *ᵥ ![-1, -2]) = 9 := by
      simp [dotProduct, mulVec, Fin.sum_univ_two]; norm_num
    rw [if_neg (by simp only; linarith [h5]), h9]
    have hsd : safeDiv (1 / 10000000000) 5 9 = 5 / 9 := by simp only [safeDiv]; norm_num
    rw [hsd]
    ext i; fin_cases i <;> simp <;> norm_num
  rw [hx] at h2
  refine ⟨h2, ?_⟩
  rw [h2]
  have : norm2 ((0 : Fin 2 → ℝ) - !![1, 0; 0, 2] *ᵥ ![4 / 9, -1 / 9]) = Real.sqrt (20 / 81) := by
    simp [norm2, dotProduct, mulVec, Fin.sum_univ_two]; norm_num
  rw [this]
  exact Real.lt_sqrt_of_sq_lt (by norm_num)

/-- The system used to show that the hypotheses of C115 and C116 can be met. -/
noncomputable def Spec.exCfg (nTri : Bool) : Cfg := ⟨nTri, 1 / 100, 1 / 10000000000, 1 / 1000, 3, 2, false⟩

theorem ex_norm : norm2 (![1, 0] : Fin 2 → ℝ) = 1 := by simp [norm2, dotProduct, Fin.sum_univ_two]

theorem ex_exact (nTri : Bool) : ∀ j < 2, Spec.Exact (Spec.exCfg nTri) !![2, 1; 1, 2]
    (iterate (n := Fin 2) (Spec.exCfg nTri) !![2, 1; 1, 2] ![1, 0] 0 j) := by
  have hz : ¬ norm2 (![1, 0] : Fin 2 → ℝ) < (Spec.exCfg nTri).eps := by rw [ex_norm]; norm_num [Spec.exCfg]
  have hN : rhsNorm (Spec.exCfg nTri).eps (![1, 0] : Fin 2 → ℝ) = 1 := by unfold rhsNorm; rw [if_neg hz, ex_norm]
  have e0 : iterate (n := Fin 2) (Spec.exCfg nTri) !![2, 1; 1, 2] ![1, 0] 0 0 =
      ⟨0, ![1, 0], ![1, 0], 1, 1, 0, 0⟩ := by
    simp only [iterate, run_zero, start, hN]
    simp [ex_norm, dotProduct, Fin.sum_univ_two]
  have x0 : Spec.Exact (Spec.exCfg nTri) !![2, 1; 1, 2]
      (iterate (n := Fin 2) (Spec.exCfg nTri) !![2, 1; 1, 2] ![1, 0] 0 0) := by
    rw [e0]
    refine ⟨by norm_num [Spec.exCfg], ?_, ?_⟩ <;> simp [Spec.exCfg, dotProduct, mulVec, Fin.sum_univ_two] <;> norm_num
  have ha : (iterate (n := Fin 2) (Spec.exCfg nTri) !![2, 1; 1, 2] ![1, 0] 0 1).alpha = 1 / 2 := by
    rw [iterate_succ, step_alpha, if_neg x0.1, e0]
    have : (![1, 0] : Fin 2 → ℝ) ⬝ᵥ (!![2, 1; 1, 2] *ᵥ ![1, 0]) = 2 := by
      simp [dotProduct, mulVec, Fin.sum_univ_two]
    simp only [this, safeDiv, Spec.exCfg]; norm_num
  have hr : (iterate (n := Fin 2) (Spec.exCfg nTri) !![2, 1; 1, 2] ![1, 0] 0 1).r = ![0, -1 / 2] := by
    rw [iterate_succ] at ha ⊢
    rw [step_r, ha, e0]
    ext i; fin_cases i <;> simp [mulVec, dotProduct, Fin.sum_univ_two]; norm_num
  have hrz : (iterate (n := Fin 2) (Spec.exCfg nTri) !![2, 1; 1, 2] ![1, 0] 0 1).rz = 1 / 4 := by
    rw [iterate_rz, hr]; simp [dotProduct, Fin.sum_univ_two]; norm_num
  have hb : (iterate (n := Fin 2) (Spec.exCfg nTri) !![2, 1; 1, 2] ![1, 0] 0 1).beta = 1 / 4 := by
    rw [iterate_succ] at hrz ⊢
    rw [step_beta, hrz, e0]; simp only [safeDiv, Spec.exCfg]; norm_num
  have hp : (iterate (n := Fin 2) (Spec.exCfg nTri) !![2, 1; 1, 2] ![1, 0] 0 1).p = ![1 / 4, -1 / 2] := by
    rw [iterate_succ] at hb hr ⊢
    rw [step_p, hb, hr, e0]
    ext i; fin_cases i <;> simp
  intro j hj
  interval_cases j
  · exact x0
  · refine ⟨?_, ?_, ?_⟩
    · rw [iterate_norm _ _ _ _ hz, hr, not_lt]
      refine Real.le_sqrt_of_sq_le ?_
      simp [Spec.exCfg, dotProduct, Fin.sum_univ_two]; norm_num
    · rw [hp]; simp [Spec.exCfg, dotProduct, mulVec, Fin.sum_univ_two]; norm_num
    · rw [hr]; simp [Spec.exCfg, dotProduct, Fin.sum_univ_two]; norm_num

/-- C115: two exact steps are taken on a coupled system, so its second iterate is the exact solution. -/
example : !![2, 1; 1, 2] *ᵥ (iterate (n := Fin 2) (Spec.exCfg false) !![2, 1; 1, 2] ![1, 0] 0 2).x =
    Spec.scaled (Spec.exCfg false) ![1, 0] :=
  C115_finite_termination (n := Fin 2) (Spec.exCfg false) _ _ _ (by norm_num [Spec.exCfg])
    (by ext i j; fin_cases i <;> fin_cases j <;> rfl) (by simpa using ex_exact false)

/-- C116: a call with `n_tridiag` set returns a `2 × 2` or smaller matrix recorded in exact steps only. -/
example : ∃ o, linearCg (n := Fin 2) (Spec.exCfg true) !![2, 1; 1, 2] ![1, 0] none = .ok o ∧
    ∀ j < o.size, Spec.Exact (Spec.exCfg true) !![2, 1; 1, 2]
      (iterate (n := Fin 2) (Spec.exCfg true) !![2, 1; 1, 2] ![1, 0] 0 j) := by
  obtain ⟨o, ho⟩ := C64_spd_converges (n := Fin 2) (Spec.exCfg true) !![2, 1; 1, 2] ![1, 0] none 1
    (by ext i j; fin_cases i <;> fin_cases j <;> rfl) one_pos
    (by
      intro v
      simp [dotProduct, mulVec, Fin.sum_univ_two]
      nlinarith [sq_nonneg (v 0 + v 1)])
    (by norm_num [Spec.exCfg]) (by norm_num [Spec.exCfg]) (by norm_num [Spec.exCfg]) (by norm_num [Spec.exCfg])
    (by norm_num [Spec.exCfg]) rfl (by simp [Spec.exCfg]) (by simp [Spec.exCfg])
  refine ⟨o, ho, ?_⟩
  rcases linearCg_cases (n := Fin 2) (Spec.exCfg true) !![2, 1; 1, 2] ![1, 0] none (by simp [Spec.exCfg]) with
    ⟨h1, -⟩ | ⟨hm, -⟩ | ⟨K, hK, -, -, h1⟩
  · rw [h1] at ho; simp at ho
  · simp [nIter, Spec.exCfg] at hm
  · have hK3 : K < 3 := by simpa [nIter, Spec.exCfg] using hK
    rw [h1] at ho
    have hs : o.size ≤ 2 := by
      rw [← Except.ok.inj ho]
      change _ + 1 ≤ 2
      rcases Nat.eq_zero_or_pos K with rfl | h
      · simp [triRun, Tri.init]
      · have := ((triRun_spec (n := Fin 2) !![2, 1; 1, 2] (Spec.exCfg true)
          (norm2 (![1, 0] : Fin 2 → ℝ) < (Spec.exCfg true).eps)
          (min (Spec.exCfg true).maxTri (Fintype.card (Fin 2)))
          (start !![2, 1; 1, 2] (Spec.exCfg true) ![1, 0] ((none : Option (Fin 2 → ℝ)).getD 0)) K).2 h rfl
          (by simp [Spec.exCfg])).1
        omega
    intro j hj
    exact ex_exact true j (by omega)

end Verif.Numerics.Cg
