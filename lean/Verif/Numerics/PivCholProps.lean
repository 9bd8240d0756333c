import Verif.Numerics.PivChol
import Mathlib.LinearAlgebra.Matrix.Trace
import Mathlib.Tactic.FinCases
import Mathlib.Algebra.BigOperators.Field

/-!
# Properties of `pivoted_cholesky` (C65, C120)
-/

set_option autoImplicit false

open Matrix
open scoped Classical

namespace Verif.Numerics.PivChol

variable {n : ℕ}

/-- What is left of the matrix after subtracting the product of the first `m` rows of the factor. -/
noncomputable def Spec.remainder (A : Matrix (Fin n) (Fin n) ℝ) (L : ℕ → Fin n → ℝ) (m : ℕ) : Matrix (Fin n) (Fin n) ℝ :=
  of fun i j => A i j - ∑ k ∈ Finset.range m, L k i * L k j

theorem argmax_ge (f : Fin n → ℝ) (m : Fin n) : m ≤ argmaxFrom f m ∧ ∀ k, m ≤ k → f k ≤ f (argmaxFrom f m) := by
  have hmem : m ∈ (List.finRange n).filter fun k => m ≤ k := by simp
  unfold argmaxFrom
  cases h : ((List.finRange n).filter fun k => m ≤ k).argmax f with
  | none =>
    rw [List.argmax_eq_none] at h
    rw [h] at hmem; simp at hmem
  | some i =>
    have hi : i ∈ ((List.finRange n).filter fun k => m ≤ k).argmax f := by rw [h]; simp
    refine ⟨?_, ?_⟩
    · have := List.argmax_mem hi
      simpa using this
    · intro k hk
      exact List.le_of_mem_argmax (by simpa using hk) hi

/-- One elimination step on a positive semidefinite matrix with a positive pivot. -/
theorem schur_psd (S : Matrix (Fin n) (Fin n) ℝ) (hS : S.PosSemidef) (p : Fin n) (hp : 0 < S p p) :
    (of fun i j => S i j - (S p i / Real.sqrt (S p p)) * (S p j / Real.sqrt (S p p)) : Matrix (Fin n) (Fin n) ℝ).PosSemidef := by
  have hsym : ∀ i j, S i j = S j i := fun i j => by
    have := congrFun (congrFun hS.isHermitian i) j
    simpa [conjTranspose_apply] using this.symm
  have hsq : Real.sqrt (S p p) * Real.sqrt (S p p) = S p p := Real.mul_self_sqrt hp.le
  have hent : ∀ i j, (S p i / Real.sqrt (S p p)) * (S p j / Real.sqrt (S p p)) = S p i * S p j / S p p := fun i j => by
    rw [div_mul_div_comm, hsq]
  refine PosSemidef.of_dotProduct_mulVec_nonneg ?_ ?_
  · ext i j
    simp only [conjTranspose_apply, of_apply, star_trivial]
    rw [hsym j i]; ring
  · intro v
    simp only [star_trivial]
    -- compare with the quadratic form at `v - t e_p`
    have h0 := hS.dotProduct_mulVec_nonneg (v - ((S *ᵥ v) p / S p p) • Pi.single p 1)
    simp only [star_trivial] at h0
    have hSe : S *ᵥ (Pi.single p 1 : Fin n → ℝ) = fun i => S i p := by
      ext i; simp [mulVec, dotProduct, Pi.single_apply]
    have hed : ∀ w : Fin n → ℝ, (Pi.single p 1 : Fin n → ℝ) ⬝ᵥ w = w p := fun w => by
      simp [dotProduct, Pi.single_apply]
    have hvp : v ⬝ᵥ (fun i => S i p) = (S *ᵥ v) p := by
      simp only [mulVec, dotProduct]
      exact Finset.sum_congr rfl fun i _ => by rw [hsym i p, mul_comm]
    rw [mulVec_sub, mulVec_smul, hSe, sub_dotProduct, dotProduct_sub, dotProduct_sub, smul_dotProduct, smul_dotProduct,
      dotProduct_smul, dotProduct_smul, hed, hed, hvp] at h0
    simp only [smul_eq_mul] at h0
    have hnew : (of fun i j => S i j - (S p i / Real.sqrt (S p p)) * (S p j / Real.sqrt (S p p)) :
        Matrix (Fin n) (Fin n) ℝ) *ᵥ v = S *ᵥ v - ((S *ᵥ v) p / S p p) • (fun i => S i p) := by
      ext i
      simp only [mulVec, dotProduct, of_apply, hent, Pi.sub_apply, Pi.smul_apply, smul_eq_mul, sub_mul,
        Finset.sum_sub_distrib, Finset.sum_div, Finset.sum_mul]
      congr 1
      exact Finset.sum_congr rfl fun j _ => by rw [hsym i p]; ring
    rw [hnew, dotProduct_sub, dotProduct_smul, hvp, smul_eq_mul]
    have e : (S *ᵥ v) p / S p p * ((S *ᵥ v) p / S p p * S p p) = (S *ᵥ v) p / S p p * (S *ᵥ v) p := by
      field_simp
    linarith

/-- The loop invariant after `m` steps. -/
structure Inv (A : Matrix (Fin n) (Fin n) ℝ) (orig : ℝ) (m : ℕ) (s : St n) : Prop where
  inj : Function.Injective s.pi
  psd : (Spec.remainder A s.L m).PosSemidef
  zero : ∀ k : Fin n, k.val < m → ∀ j, Spec.remainder A s.L m (s.pi k) j = 0
  diag : ∀ k : Fin n, m ≤ k.val → s.d (s.pi k) = Spec.remainder A s.L m (s.pi k) (s.pi k)
  rest : ∀ k, m ≤ k → ∀ j, s.L k j = 0
  tri : ∀ k : Fin n, k.val < m → 0 < s.L k (s.pi k) ∧ ∀ l < k, s.L k (s.pi l) = 0
  err : m < n → s.err = (Spec.remainder A s.L m).trace / orig
  bound : m ≤ n

theorem trace_split (S : Matrix (Fin n) (Fin n) ℝ) (pi : Fin n → Fin n) (hpi : Function.Injective pi) (m : ℕ)
    (hz : ∀ k : Fin n, k.val < m → S (pi k) (pi k) = 0) :
    S.trace = ∑ k ∈ Finset.univ.filter (fun k : Fin n => m ≤ k.val), S (pi k) (pi k) := by
  have hb : Function.Bijective pi := Finite.injective_iff_bijective.mp hpi
  rw [trace, ← hb.sum_comp (fun i => S.diag i), Finset.sum_filter]
  refine Finset.sum_congr rfl fun k _ => ?_
  split
  · rfl
  · rename_i h; exact hz k (by omega)

theorem start_inv (A : Matrix (Fin n) (Fin n) ℝ) (hA : A.PosSemidef) : Inv A (origError A) 0 (start A) where
  inj := Function.injective_id
  psd := by
    have : Spec.remainder A (start A).L 0 = A := by ext i j; simp [Spec.remainder]
    rw [this]; exact hA
  zero := by simp
  diag := by intro k _; simp [start, Spec.remainder]
  rest := by simp [start]
  tri := by simp
  err := by
    intro _
    have : Spec.remainder A (start A).L 0 = A := by ext i j; simp [Spec.remainder]
    rw [this]
    simp only [start, trace, diag]
    congr 1
    exact Finset.sum_congr rfl fun i _ => abs_of_nonneg hA.diag_nonneg
  bound := Nat.zero_le _

theorem step_inv (A : Matrix (Fin n) (Fin n) ℝ) (orig tol : ℝ) (htol : 0 ≤ tol) (m : Fin n) (s : St n)
    (h : Inv A orig m.val s) (herr : s.err > tol) : Inv A orig (m.val + 1) (step A orig m s) := by
  set S := Spec.remainder A s.L m.val with hSdef
  have hdn : ∀ k : Fin n, m ≤ k → 0 ≤ s.d (s.pi k) := fun k hk => by
    rw [h.diag k hk]; exact h.psd.diag_nonneg
  -- the pivot is positive
  set i := argmaxFrom (fun k => s.d (s.pi k)) m with hi
  obtain ⟨hmi, hmax⟩ := argmax_ge (fun k => s.d (s.pi k)) m
  rw [← hi] at hmi hmax
  have hpiv : 0 < s.d (s.pi i) := by
    by_contra hneg
    have hall : ∀ k, m ≤ k → s.d (s.pi k) = 0 := fun k hk =>
      le_antisymm ((hmax k hk).trans (not_lt.mp hneg)) (hdn k hk)
    have htr : S.trace = 0 := by
      rw [trace_split S s.pi h.inj m.val (fun k hk => h.zero k hk _)]
      refine Finset.sum_eq_zero fun k hk => ?_
      have hk' : m ≤ k := by simpa using hk
      have e := h.diag k hk'
      rw [hall k hk'] at e
      exact e.symm
    have := h.err m.isLt
    rw [← hSdef, htr, zero_div] at this
    linarith
  set pi := fun k => s.pi (Equiv.swap m i k) with hpi
  have hpim : pi m = s.pi i := by simp [hpi]
  have hinj : Function.Injective pi := h.inj.comp (Equiv.swap m i).injective
  have hbij : Function.Bijective pi := Finite.injective_iff_bijective.mp hinj
  have hlt : ∀ k : Fin n, k < m → pi k = s.pi k := fun k hk => by
    have h1 : k ≠ m := ne_of_lt hk
    have h2 : k ≠ i := ne_of_lt (lt_of_lt_of_le hk hmi)
    simp [hpi, Equiv.swap_apply_of_ne_of_ne h1 h2]
  have hge : ∀ k : Fin n, m ≤ k → ∃ k', m ≤ k' ∧ pi k = s.pi k' := fun k hk => by
    by_cases h1 : k = m
    · exact ⟨i, hmi, by rw [h1, hpim]⟩
    · by_cases h2 : k = i
      · exact ⟨m, le_rfl, by rw [h2]; simp [hpi]⟩
      · exact ⟨k, hk, by simp [hpi, Equiv.swap_apply_of_ne_of_ne h1 h2]⟩
  set p := s.pi i with hp
  have hSpp : S p p = s.d p := (h.diag i hmi).symm
  have hSpos : 0 < S p p := by rw [hSpp]; exact hpiv
  have hsym : ∀ a b, S a b = S b a := fun a b => by
    have := congrFun (congrFun h.psd.isHermitian a) b
    simpa [conjTranspose_apply] using this.symm
  set ell : Fin n → ℝ := fun j => S p j / Real.sqrt (S p p) with hell
  have hellp : ell p = Real.sqrt (S p p) := by
    rw [hell]; simp only; rw [div_eq_iff (Real.sqrt_pos.mpr hSpos).ne', Real.mul_self_sqrt hSpos.le]
  have hellz : ∀ k : Fin n, k < m → ell (s.pi k) = 0 := fun k hk => by
    have : S (s.pi k) p = 0 := h.zero k hk p
    rw [hell]; simp only; rw [hsym, this, zero_div]
  have hdiag' : ∀ k : Fin n, m ≤ k → s.d (pi k) = S (pi k) (pi k) := fun k hk => by
    obtain ⟨k', hk', e⟩ := hge k hk
    rw [e]; exact h.diag k' hk'
  have hlater : ∀ j, (∃ k, m < k ∧ pi k = j) → j ≠ p := by
    rintro _ ⟨k, hk, rfl⟩ e
    rw [← hpim] at e
    exact (ne_of_gt hk) (hinj e)
  -- the three fields of the result
  have key : (step A orig m s).pi = pi ∧ (∀ k, k ≠ m.val → (step A orig m s).L k = s.L k) ∧
      (step A orig m s).L m.val = ell ∧ (∀ k, m < k → (step A orig m s).d (pi k) = S (pi k) (pi k) - ell (pi k) ^ 2) ∧
      (m.val + 1 < n → (step A orig m s).err =
        (∑ k ∈ Finset.univ.filter (fun k => m < k), |(step A orig m s).d (pi k)|) / orig) := by
    have hL0 : ∀ j, s.L m.val j = 0 := h.rest m.val le_rfl
    have hsum : ∀ (r : Fin n → ℝ) (j : Fin n), ∑ k ∈ Finset.range m.val,
        (Function.update s.L m.val r) k p * (Function.update s.L m.val r) k j =
        ∑ k ∈ Finset.range m.val, s.L k p * s.L k j := by
      intro r j
      refine Finset.sum_congr rfl fun k hk => ?_
      have : k ≠ m.val := by have := Finset.mem_range.mp hk; omega
      simp [Function.update_of_ne this]
    have hnew : ∀ j, (A p j - ∑ k ∈ Finset.range m.val, s.L k p * s.L k j) / Real.sqrt (s.d p) = ell j := by
      intro j; rw [hell, ← hSpp]; rfl
    have hrow : ∀ j, ¬ (∃ k, m < k ∧ pi k = j) →
        Function.update (s.L m.val) p (Real.sqrt (s.d p)) j = ell j := by
      intro j hj
      obtain ⟨k, rfl⟩ := hbij.2 j
      rcases lt_trichotomy k m with hk | rfl | hk
      · rw [hlt k hk]
        have hne : s.pi k ≠ p := by
          intro e; exact (ne_of_lt (lt_of_lt_of_le hk hmi)) (h.inj e)
        rw [Function.update_of_ne hne, hL0, hellz k hk]
      · rw [hpim, Function.update_self, hellp, hSpp]
      · exact absurd ⟨k, hk, rfl⟩ hj
    unfold step
    simp only [← hi, ← hpi, Equiv.swap_apply_left, ← hp]
    by_cases hmn : m.val + 1 < n
    · simp only [hmn, if_true, Function.update_self, forall_true_left, true_and]
      refine ⟨?_, ?_, ?_, ?_⟩
      · intro k hk; rw [Function.update_of_ne hk, Function.update_of_ne hk]
      · ext j
        split
        · rw [hsum, hnew]
        · rename_i hj; exact hrow j hj
      · intro k hk
        rw [if_pos ⟨k, hk, rfl⟩, hsum, hnew, hdiag' k hk.le]
      · rfl
    · simp only [hmn, if_false, Function.update_self, false_implies, and_true, true_and]
      refine ⟨?_, ?_, ?_⟩
      · intro k hk; rw [Function.update_of_ne hk]
      · ext j
        refine hrow j ?_
        rintro ⟨k, hk, -⟩
        have := k.isLt; have : m.val < k.val := hk; omega
      · intro k hk
        have := k.isLt; have : m.val < k.val := hk; omega
  obtain ⟨k1, k2, k3, k4, k5⟩ := key
  have hrem : Spec.remainder A (step A orig m s).L (m.val + 1) = of fun a b => S a b - ell a * ell b := by
    ext a b
    simp only [Spec.remainder, of_apply, Finset.sum_range_succ, k3, hSdef]
    rw [Finset.sum_congr rfl fun k hk => by rw [k2 k (by have := Finset.mem_range.mp hk; omega)]]
    ring
  have hz' : ∀ k : Fin n, k.val < m.val + 1 → ∀ j, Spec.remainder A (step A orig m s).L (m.val + 1) (pi k) j = 0 := by
    intro k hk j
    rw [hrem, of_apply]
    rcases Nat.lt_succ_iff_lt_or_eq.mp hk with hk' | hk'
    · have hk'' : k < m := hk'
      have e : S (s.pi k) j = 0 := h.zero k hk' j
      rw [hlt k hk'', hellz k hk'', e]; simp
    · have : k = m := Fin.ext hk'
      subst this
      rw [hpim, hellp, hell]
      simp only
      rw [mul_div_assoc', mul_comm, mul_div_assoc, div_self (Real.sqrt_pos.mpr hSpos).ne', mul_one, sub_self]
  have hpsd' : (Spec.remainder A (step A orig m s).L (m.val + 1)).PosSemidef := by
    rw [hrem]; exact schur_psd S h.psd p hSpos
  have hd' : ∀ k : Fin n, m < k → (step A orig m s).d (pi k) =
      Spec.remainder A (step A orig m s).L (m.val + 1) (pi k) (pi k) := by
    intro k hk
    rw [k4 k hk, hrem, of_apply, pow_two]
  refine ⟨by rw [k1]; exact hinj, hpsd', by rw [k1]; exact hz', ?_, ?_, ?_, ?_, m.isLt⟩
  · intro k hk; rw [k1]; exact hd' k (by change m.val < k.val; omega)
  · intro k hk j; rw [k2 k (by omega)]; exact h.rest k (by omega) j
  · intro k hk
    rw [k1]
    rcases Nat.lt_succ_iff_lt_or_eq.mp hk with hk' | hk'
    · have hk'' : k < m := hk'
      rw [k2 k (by omega), hlt k hk'']
      refine ⟨(h.tri k hk').1, fun l hl => ?_⟩
      rw [hlt l (hl.trans hk'')]; exact (h.tri k hk').2 l hl
    · have : k = m := Fin.ext hk'
      subst this
      rw [k3, hpim, hellp]
      refine ⟨Real.sqrt_pos.mpr hSpos, fun l hl => ?_⟩
      rw [hlt l hl]; exact hellz l hl
  · intro hmn
    rw [k5 hmn, trace_split _ pi hinj (m.val + 1) (fun k hk => hz' k hk _)]
    congr 1
    have hf : Finset.univ.filter (fun k : Fin n => m < k) = Finset.univ.filter (fun k : Fin n => m.val + 1 ≤ k.val) := by
      ext k
      simp only [Finset.mem_filter, Finset.mem_univ, true_and]
      exact Nat.lt_iff_add_one_le
    rw [hf]
    refine Finset.sum_congr rfl fun k hk => ?_
    have hk' : m < k := by
      have : m.val + 1 ≤ k.val := by simpa using hk
      change m.val < k.val; omega
    rw [hd' k hk', abs_of_nonneg hpsd'.diag_nonneg]

theorem loop_inv (A : Matrix (Fin n) (Fin n) ℝ) (orig tol : ℝ) (htol : 0 ≤ tol) (left : ℕ) : ∀ (m : ℕ) (s : St n),
    Inv A orig m s → m + left ≤ n → Inv A orig (loop A orig tol m left s).1 (loop A orig tol m left s).2 ∧
      (loop A orig tol m left s).1 ≤ m + left ∧
      ((loop A orig tol m left s).1 < m + left → (loop A orig tol m left s).2.err ≤ tol) := by
  induction left with
  | zero => intro m s h _; exact ⟨h, le_rfl, fun h => absurd h (lt_irrefl _)⟩
  | succ left ih =>
    intro m s h hle
    have hm : m < n := by omega
    by_cases he : s.err > tol
    · have e : loop A orig tol m (left + 1) s = loop A orig tol (m + 1) left (step A orig ⟨m, hm⟩ s) := by
        simp [loop, hm, he]
      rw [e]
      obtain ⟨h1, h2, h3⟩ := ih (m + 1) _ (step_inv A orig tol htol ⟨m, hm⟩ s h he) (by omega)
      exact ⟨h1, by omega, fun h => h3 (by omega)⟩
    · have e : loop A orig tol m (left + 1) s = (m, s) := by simp [loop, hm, he]
      rw [e]
      exact ⟨h, by omega, fun _ => not_lt.mp he⟩

theorem pivoted_inv (A : Matrix (Fin n) (Fin n) ℝ) (hA : A.PosSemidef) (tol : ℝ) (htol : 0 ≤ tol) (k : ℕ) (o : Out n)
    (ho : pivotedCholesky A tol (some k) = .ok o) :
    o.rows = min k n ∧ o.steps ≤ min k n ∧ ∃ s, Inv A (origError A) o.steps s ∧ s.L = o.L ∧ s.pi = o.pi ∧
      (o.steps < min k n → s.err ≤ tol) := by
  unfold pivotedCholesky at ho
  simp only at ho
  split at ho
  · simp at ho
  · have := loop_inv A (origError A) tol htol (min k n) 0 (start A) (start_inv A hA) (by omega)
    rw [← Except.ok.inj ho]
    refine ⟨rfl, by simpa using this.2.1, _, this.1, rfl, rfl, fun h => this.2.2 (by simpa using h)⟩

theorem remainder_rows (A : Matrix (Fin n) (Fin n) ℝ) (L : ℕ → Fin n → ℝ) (m r : ℕ) (hmr : m ≤ r)
    (hz : ∀ k, m ≤ k → ∀ j, L k j = 0) : Spec.remainder A L r = Spec.remainder A L m := by
  ext i j
  simp only [Spec.remainder, of_apply]
  congr 1
  symm
  refine Finset.sum_subset (fun k hk => Finset.mem_range.mpr (lt_of_lt_of_le (Finset.mem_range.mp hk) hmr)) ?_
  intro k _ hk
  rw [hz k (by simpa using hk) i, zero_mul]

/-- **C65** For every positive semidefinite matrix, nonnegative tolerance and rank limit, the returned rows `L` leave a
positive semidefinite remainder `A - LᵀL` which vanishes on the pivoted rows and columns; the returned index array is a
permutation, and in permuted order the factor is triangular with positive pivots. -/
theorem C65_factor (A : Matrix (Fin n) (Fin n) ℝ) (hA : A.PosSemidef) (tol : ℝ) (htol : 0 ≤ tol) (k : ℕ) (o : Out n)
    (ho : pivotedCholesky A tol (some k) = .ok o) :
    Function.Bijective o.pi ∧ o.rows = min k n ∧ o.steps ≤ o.rows ∧
    (Spec.remainder A o.L o.rows).PosSemidef ∧
    (∀ a : Fin n, a.val < o.steps → ∀ j, Spec.remainder A o.L o.rows (o.pi a) j = 0 ∧
      Spec.remainder A o.L o.rows j (o.pi a) = 0) ∧
    (∀ a : Fin n, a.val < o.steps → 0 < o.L a (o.pi a) ∧ ∀ b < a, o.L a (o.pi b) = 0) ∧
    ∀ a, o.steps ≤ a → ∀ j, o.L a j = 0 := by
  obtain ⟨h1, h2, s, hI, hL, hp, -⟩ := pivoted_inv A hA tol htol k o ho
  have hr : Spec.remainder A o.L o.rows = Spec.remainder A o.L o.steps :=
    remainder_rows A o.L o.steps o.rows (by omega) (by rw [← hL]; exact hI.rest)
  rw [hr, ← hL, ← hp]
  refine ⟨Finite.injective_iff_bijective.mp hI.inj, h1, by omega, hI.psd, ?_, hI.tri, hI.rest⟩
  intro a ha j
  refine ⟨hI.zero a ha j, ?_⟩
  have := congrFun (congrFun hI.psd.isHermitian (s.pi a)) j
  simp only [conjTranspose_apply, star_trivial] at this
  rw [this]; exact hI.zero a ha j

/-- Entries of a positive semidefinite matrix are bounded by its trace. -/
theorem entry_le_trace (S : Matrix (Fin n) (Fin n) ℝ) (hS : S.PosSemidef) (i j : Fin n) : |S i j| ≤ S.trace := by
  have hd : ∀ a, S a a ≤ S.trace := fun a => by
    rw [trace]; exact Finset.single_le_sum (f := fun b => S.diag b) (fun b _ => hS.diag_nonneg) (Finset.mem_univ a)
  have hsym : S j i = S i j := by
    have := congrFun (congrFun hS.isHermitian i) j
    simpa [conjTranspose_apply] using this
  have quad : ∀ t : ℝ, t * t = 1 → 0 ≤ S i i + S j j + 2 * t * S i j := by
    intro t ht
    have h := hS.dotProduct_mulVec_nonneg (Pi.single i 1 + t • Pi.single j 1)
    simp only [star_trivial, mulVec_add, mulVec_smul, add_dotProduct, dotProduct_add, smul_dotProduct,
      dotProduct_smul, smul_eq_mul] at h
    have e : ∀ a b : Fin n, (Pi.single a 1 : Fin n → ℝ) ⬝ᵥ (S *ᵥ Pi.single b 1) = S a b := fun a b => by
      simp [mulVec, dotProduct, Pi.single_apply]
    rw [e, e, e, e, hsym] at h
    have : t * (t * S j j) = S j j := by rw [← mul_assoc, ht, one_mul]
    linarith
  have h1 := quad 1 (by norm_num)
  have h2 := quad (-1) (by norm_num)
  rw [abs_le]
  constructor <;> linarith [hd i, hd j]

/-- **C65** If fewer steps than allowed were made, every entry of `A - LᵀL` (and its trace) is at most `error_tol` times
the largest diagonal entry of `A`. -/
theorem C65_error (A : Matrix (Fin n) (Fin n) ℝ) (hA : A.PosSemidef) (tol : ℝ) (htol : 0 ≤ tol) (k : ℕ) (o : Out n)
    (ho : pivotedCholesky A tol (some k) = .ok o) (hlt : o.steps < o.rows) (i j : Fin n) :
    |Spec.remainder A o.L o.rows i j| ≤ tol * ⨆ a, A a a ∧
    (Spec.remainder A o.L o.rows).trace ≤ tol * ⨆ a, A a a := by
  obtain ⟨h1, h2, s, hI, hL, hp, he⟩ := pivoted_inv A hA tol htol k o ho
  have hr : Spec.remainder A o.L o.rows = Spec.remainder A o.L o.steps :=
    remainder_rows A o.L o.steps o.rows (by omega) (by rw [← hL]; exact hI.rest)
  have he' := he (by omega)
  rw [hI.err (by omega)] at he'
  rw [hr, ← hL]
  have ho0 : 0 ≤ origError A := Real.iSup_nonneg fun a => hA.diag_nonneg
  have htr : (Spec.remainder A s.L o.steps).trace ≤ tol * origError A := by
    rcases ho0.lt_or_eq with hpos | h0
    · rwa [div_le_iff₀ hpos] at he'
    · -- all diagonal entries vanish, so the matrix and its remainder have trace zero
      have hz : ∀ a, A a a = 0 := fun a => le_antisymm
        (by
          have : A a a ≤ origError A := le_ciSup (f := fun a => A a a) (Set.finite_range _).bddAbove a
          rwa [← h0] at this) hA.diag_nonneg
      have : (Spec.remainder A s.L o.steps).trace ≤ 0 := by
        rw [trace]
        refine Finset.sum_nonpos fun a _ => ?_
        simp only [diag, Spec.remainder, of_apply, hz a, zero_sub]
        exact neg_nonpos.mpr (Finset.sum_nonneg fun b _ => mul_self_nonneg _)
      rw [← h0, mul_zero]; exact this
  exact ⟨(entry_le_trace _ hI.psd i j).trans htr, htr⟩

/-- **C65** After `n` steps the factorisation is exact. -/
theorem C65_full_rank (A : Matrix (Fin n) (Fin n) ℝ) (hA : A.PosSemidef) (tol : ℝ) (htol : 0 ≤ tol) (k : ℕ) (o : Out n)
    (ho : pivotedCholesky A tol (some k) = .ok o) (hfull : o.steps = n) (i j : Fin n) :
    A i j = ∑ a ∈ Finset.range n, o.L a i * o.L a j := by
  obtain ⟨hb, h1, h2, -, h3, -, -⟩ := C65_factor A hA tol htol k o ho
  obtain ⟨a, rfl⟩ := hb.2 i
  have := (h3 a (by rw [hfull]; exact a.isLt) j).1
  have hrn : o.rows = n := by
    have : min k n ≤ n := min_le_right _ _
    omega
  rw [hrn] at this
  simp only [Spec.remainder, of_apply] at this
  linarith

/-- **C120** Called with its default rank limit (`np.inf`), `pivoted_cholesky` always raises: infinity cannot be
converted to an integer. -/
theorem C120_default_raises (A : Matrix (Fin n) (Fin n) ℝ) (tol : ℝ) :
    pivotedCholesky A tol none = .error .overflow := rfl

/-- **C120** With a finite limit it succeeds for every nonempty matrix. -/
theorem C120_finite_limit (A : Matrix (Fin n) (Fin n) ℝ) (tol : ℝ) (k : ℕ) (hn : 0 < n) :
    ∃ o, pivotedCholesky A tol (some k) = .ok o := by
  simp only [pivotedCholesky]
  rw [if_neg (by omega)]
  exact ⟨_, rfl⟩

/-- A singular, coupled matrix to which the theorems apply. -/
example : ∃ o, pivotedCholesky (n := 2) !![4, 2; 2, 1] (1 / 1000) (some 2) = .ok o ∧
    (!![4, 2; 2, 1] : Matrix (Fin 2) (Fin 2) ℝ).PosSemidef := by
  obtain ⟨o, ho⟩ := C120_finite_limit (n := 2) !![4, 2; 2, 1] (1 / 1000) 2 (by norm_num)
  refine ⟨o, ho, PosSemidef.of_dotProduct_mulVec_nonneg ?_ ?_⟩
  · ext i j; fin_cases i <;> fin_cases j <;> simp [conjTranspose_apply]
  · intro v
    simp [dotProduct, mulVec, Fin.sum_univ_two]
    nlinarith [sq_nonneg (2 * v 0 + v 1)]

end Verif.Numerics.PivChol
