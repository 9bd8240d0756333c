import Verif.Numerics.CgLemmas
import Mathlib.Tactic.FinCases
import Mathlib.LinearAlgebra.Matrix.Notation

/-!
# Properties of `linear_cg` with an `n × 1` right-hand side (C64, C115, C118)
-/

set_option autoImplicit false

open Matrix
open scoped Classical

namespace Verif.Numerics.Cg

variable {n : Type} [Fintype n]

/-- The loop variables after `k` passes through the loop body when `linear_cg` is called with these arguments. -/
noncomputable def iterate (c : Cfg) (A : Matrix n n ℝ) (rhs guess : n → ℝ) (k : ℕ) : St n :=
  run A c (norm2 rhs < c.eps) (start A c rhs guess) k

/-- The right-hand side after normalisation. -/
noncomputable def Spec.scaled (c : Cfg) (rhs : n → ℝ) : n → ℝ := (rhsNorm c.eps rhs)⁻¹ • rhs

/-- At this state none of the safeguards (convergence freeze, safe divisions) acts. -/
def Spec.Exact (c : Cfg) (A : Matrix n n ℝ) (s : St n) : Prop :=
  ¬ s.norm < c.stop ∧ c.eps ≤ s.p ⬝ᵥ (A *ᵥ s.p) ∧ c.eps ≤ s.r ⬝ᵥ s.r

/-- Squared energy norm of the error of `x` as a solution of `A x = b` whose exact solution is `xs`. -/
noncomputable def Spec.energy (A : Matrix n n ℝ) (xs x : n → ℝ) : ℝ := (x - xs) ⬝ᵥ (A *ᵥ (x - xs))

/-- **C64** The maintained residual is the true residual of the normalised system at every iteration — for every matrix,
right-hand side, guess and tolerance, whether or not the safe divisions act. -/
theorem C64_residual (c : Cfg) (A : Matrix n n ℝ) (rhs guess : n → ℝ) (k : ℕ) :
    (iterate c A rhs guess k).r = Spec.scaled c rhs - A *ᵥ (iterate c A rhs guess k).x :=
  run_residual A c _ _ _ rfl k

/-- **C64** Safeguards: when the curvature along the search direction is below `eps`, or the residual is already below the
updating threshold, the next iterate is the same point; and when the previous residual is below `eps` in square the new search
direction is the bare residual. -/
theorem C64_safeguards (c : Cfg) (A : Matrix n n ℝ) (rhs guess : n → ℝ) (k : ℕ) :
    ((iterate c A rhs guess k).p ⬝ᵥ (A *ᵥ (iterate c A rhs guess k).p) < c.eps ∨ (iterate c A rhs guess k).norm < c.stop →
      (iterate c A rhs guess (k + 1)).x = (iterate c A rhs guess k).x ∧
      (iterate c A rhs guess (k + 1)).r = (iterate c A rhs guess k).r) ∧
    ((iterate c A rhs guess k).rz < c.eps →
      (iterate c A rhs guess (k + 1)).p = (iterate c A rhs guess (k + 1)).r) := by
  unfold iterate
  rw [run_succ]
  refine ⟨fun h => ?_, fun h => ?_⟩
  · have ha : (step A c (norm2 rhs < c.eps) (run A c (norm2 rhs < c.eps) (start A c rhs guess) k)).alpha = 0 := by
      rw [step_alpha]
      split
      · rfl
      · rename_i hn
        rcases h with h | h
        · simp [safeDiv, h]
        · exact absurd h hn
    rw [step_x, step_r, ha]
    simp
  · have hb : (step A c (norm2 rhs < c.eps) (run A c (norm2 rhs < c.eps) (start A c rhs guess) k)).beta = 0 := by
      rw [step_beta]
      simp [safeDiv, h]
    rw [step_p, hb]
    simp

/-- A zero right-hand side and guess: the curvature is zero, so the hypotheses are met for every positive `eps`. -/
example (c : Cfg) (A : Matrix (Fin 2) (Fin 2) ℝ) (h : 0 < c.eps) :
    (iterate c A 0 0 0).p ⬝ᵥ (A *ᵥ (iterate c A 0 0 0).p) < c.eps ∧ (iterate c A 0 0 0).rz < c.eps := by
  simp [iterate, run_zero, start, h]

/-- **C64** The tolerance when the caller gives none is 1, and 0.01 in evaluation mode; a given tolerance is used as it is. -/
theorem C64_default_tolerance (t : ℝ) (b : Bool) :
    tolOf (some t) b = t ∧ tolOf none false = 1 ∧ tolOf none true = 1 / 100 := by
  simp [tolOf]

theorem rhsNorm_pos (eps : ℝ) (heps : 0 < eps) (rhs : n → ℝ) : 0 < rhsNorm eps rhs := by
  unfold rhsNorm
  split
  · exact one_pos
  · rename_i h; linarith [not_lt.mp h]

theorem iterate_norm (c : Cfg) (A : Matrix n n ℝ) (rhs guess : n → ℝ) (hz : ¬ norm2 rhs < c.eps) (k : ℕ) :
    (iterate c A rhs guess k).norm = norm2 (iterate c A rhs guess k).r := by
  rcases k with _ | k
  · rfl
  · unfold iterate; rw [run_succ, step_norm, if_neg hz]

/-- What a call does: either it raises because no iteration met the break condition, or it returns the scaled iterate
of the first iteration that met it (or the guess, when no iteration was to be run). -/
theorem linearCg_cases (c : Cfg) (A : Matrix n n ℝ) (rhs : n → ℝ) (g : Option (n → ℝ)) (hT : c.maxTri ≤ c.maxIter) :
    let m := nIter c (Fintype.card n) (start A c rhs (g.getD 0)).norm
    let N := min c.maxTri (Fintype.card n)
    (linearCg c A rhs g = .error (.notConverged m) ∧ 0 < m ∧
      ∀ k < m, ¬ breaks c N k (iterate c A rhs (g.getD 0) (k + 1)).norm) ∨
    (m = 0 ∧ ∃ o, linearCg c A rhs g = .ok o ∧ o.result = rhsNorm c.eps rhs • g.getD 0) ∨
    ∃ K < m, breaks c N K (iterate c A rhs (g.getD 0) (K + 1)).norm ∧
      (∀ k < K, ¬ breaks c N k (iterate c A rhs (g.getD 0) (k + 1)).norm) ∧
      linearCg c A rhs g = .ok ⟨rhsNorm c.eps rhs • (iterate c A rhs (g.getD 0) (K + 1)).x,
        (triRun A c (norm2 rhs < c.eps) N (start A c rhs (g.getD 0)) 0 Tri.init K).last + 1,
        (triRun A c (norm2 rhs < c.eps) N (start A c rhs (g.getD 0)) 0 Tri.init K).t⟩ := by
  intro m N
  have hl := loop_spec A c (norm2 rhs < c.eps) N m 0 (start A c rhs (g.getD 0)) Tri.init
  have hnt : ¬ c.maxTri > c.maxIter := by omega
  rcases hl with ⟨h1, h2⟩ | ⟨K, hK, h1, h2, h3⟩
  · rcases Nat.eq_zero_or_pos m with hm | hm
    · right; left
      refine ⟨hm, ?_⟩
      refine ⟨⟨rhsNorm c.eps rhs • (loop A c (norm2 rhs < c.eps) N 0 m (start A c rhs (g.getD 0)) Tri.init).2.1.x,
        (loop A c (norm2 rhs < c.eps) N 0 m (start A c rhs (g.getD 0)) Tri.init).2.2.last + 1,
        (loop A c (norm2 rhs < c.eps) N 0 m (start A c rhs (g.getD 0)) Tri.init).2.2.t⟩, ?_, ?_⟩
      · simp only [linearCg]
        rw [if_neg hnt, if_neg (by intro h; exact absurd h.2 (by change ¬ 0 < m; omega))]
      · change rhsNorm c.eps rhs • (loop A c (norm2 rhs < c.eps) N 0 m (start A c rhs (g.getD 0)) Tri.init).2.1.x = _
        rw [h1, hm]
        rfl
    · left
      refine ⟨?_, hm, fun k hk => by simpa [iterate] using h2 k hk⟩
      simp only [linearCg]
      rw [if_neg hnt, if_pos]
      refine ⟨?_, hm⟩
      change (loop A c (norm2 rhs < c.eps) N 0 m (start A c rhs (g.getD 0)) Tri.init).1 = false
      rw [h1]
  · right; right
    refine ⟨K, hK, by simpa [iterate] using h2, fun k hk => by simpa [iterate] using h3 k hk, ?_⟩
    simp only [linearCg]
    change (if c.maxTri > c.maxIter then _ else
      if (loop A c (norm2 rhs < c.eps) N 0 m (start A c rhs (g.getD 0)) Tri.init).1 = false ∧ 0 < m then _
      else Except.ok (Out.mk (rhsNorm c.eps rhs •
        (loop A c (norm2 rhs < c.eps) N 0 m (start A c rhs (g.getD 0)) Tri.init).2.1.x)
        ((loop A c (norm2 rhs < c.eps) N 0 m (start A c rhs (g.getD 0)) Tri.init).2.2.last + 1)
        (loop A c (norm2 rhs < c.eps) N 0 m (start A c rhs (g.getD 0)) Tri.init).2.2.t)) = _
    rw [if_neg hnt, h1, if_neg (by simp)]
    rfl

/-- **C64** Whenever `linear_cg` returns (with at least one permitted iteration and a right-hand side that is not
numerically zero), the returned vector solves the original system up to the larger of the two relative tolerances. -/
theorem C64_accuracy (c : Cfg) (A : Matrix n n ℝ) (rhs : n → ℝ) (g : Option (n → ℝ)) (o : Out n) (heps : 0 < c.eps)
    (hz : c.eps ≤ norm2 rhs) (hit : 0 < c.maxIter) (hok : linearCg c A rhs g = .ok o) :
    norm2 (rhs - A *ᵥ o.result) < max c.tol c.stop * norm2 rhs := by
  have hz' : ¬ norm2 rhs < c.eps := not_lt.mpr hz
  have hpos : 0 < norm2 rhs := lt_of_lt_of_le heps hz
  have hN : rhsNorm c.eps rhs = norm2 rhs := by unfold rhsNorm; rw [if_neg hz']
  have hT : c.maxTri ≤ c.maxIter := by
    by_contra h
    have : c.maxTri > c.maxIter := by omega
    simp [linearCg, this] at hok
  have hres : ∀ k, rhs - A *ᵥ (rhsNorm c.eps rhs • (iterate c A rhs (g.getD 0) k).x) =
      norm2 rhs • (iterate c A rhs (g.getD 0) k).r := by
    intro k
    rw [C64_residual, hN, Spec.scaled, hN, mulVec_smul, smul_sub, smul_smul, mul_inv_cancel₀ hpos.ne', one_smul]
  have fin : ∀ k (t : ℝ), (iterate c A rhs (g.getD 0) k).norm < t → t ≤ max c.tol c.stop →
      norm2 (rhs - A *ᵥ (rhsNorm c.eps rhs • (iterate c A rhs (g.getD 0) k).x)) < max c.tol c.stop * norm2 rhs := by
    intro k t hlt ht
    rw [hres, norm2_smul, abs_of_pos hpos, mul_comm]
    rw [iterate_norm c A rhs _ hz'] at hlt
    exact mul_lt_mul_of_pos_right (lt_of_lt_of_le hlt ht) hpos
  have hcard : 0 < Fintype.card n := by
    rw [Fintype.card_pos_iff]
    by_contra hne
    have : IsEmpty n := not_nonempty_iff.mp hne
    have : norm2 rhs = 0 := by simp [norm2, dotProduct]
    linarith
  rcases linearCg_cases c A rhs g hT with ⟨h1, -, -⟩ | ⟨hm, o', h1, h2⟩ | ⟨K, hK, hb, -, h1⟩
  · rw [h1] at hok; simp at hok
  · rw [h1] at hok
    cases hok
    rw [h2]
    refine fin 0 c.stop ?_ (le_max_right _ _)
    by_contra hns
    have hns' : ¬ ((start A c rhs (g.getD 0)).norm < c.stop ∧ c.nTri = false) := fun h => hns h.1
    unfold nIter at hm
    rw [if_neg hns'] at hm
    split at hm <;> omega
  · rw [h1] at hok
    cases hok
    exact fin (K + 1) c.tol hb.2.1 (le_max_left _ _)

/-- **C64** Exactly when a call raises: the tridiagonalisation is requested larger than the iteration limit, or
iterations were to be run and none of them met the break condition. -/
theorem C64_raises_iff (c : Cfg) (A : Matrix n n ℝ) (rhs : n → ℝ) (g : Option (n → ℝ)) :
    (∃ e, linearCg c A rhs g = .error e) ↔ c.maxIter < c.maxTri ∨
      (0 < nIter c (Fintype.card n) (start A c rhs (g.getD 0)).norm ∧
        ∀ k < nIter c (Fintype.card n) (start A c rhs (g.getD 0)).norm,
          ¬ breaks c (min c.maxTri (Fintype.card n)) k (iterate c A rhs (g.getD 0) (k + 1)).norm) := by
  by_cases hT : c.maxTri ≤ c.maxIter
  · rcases linearCg_cases c A rhs g hT with ⟨h1, h2, h3⟩ | ⟨hm, o', h1, h2⟩ | ⟨K, hK, hb, -, h1⟩
    · exact ⟨fun _ => .inr ⟨h2, h3⟩, fun _ => ⟨_, h1⟩⟩
    · refine ⟨fun ⟨e, he⟩ => by simp [h1] at he, ?_⟩
      rintro (h | ⟨h, -⟩) <;> omega
    · refine ⟨fun ⟨e, he⟩ => by simp [h1] at he, ?_⟩
      rintro (h | ⟨h, h'⟩)
      · omega
      · exact absurd hb (h' K hK)
  · have h : c.maxIter < c.maxTri := by omega
    exact ⟨fun _ => .inl h, fun _ => ⟨.tridiagTooLarge, by simp [linearCg, h]⟩⟩

theorem iterate_rz (c : Cfg) (A : Matrix n n ℝ) (rhs guess : n → ℝ) (k : ℕ) :
    (iterate c A rhs guess k).rz = (iterate c A rhs guess k).r ⬝ᵥ (iterate c A rhs guess k).r := by
  rcases k with _ | k
  · rfl
  · unfold iterate; rw [run_succ, step_rz]

theorem iterate_succ (c : Cfg) (A : Matrix n n ℝ) (rhs guess : n → ℝ) (k : ℕ) :
    iterate c A rhs guess (k + 1) = step A c (norm2 rhs < c.eps) (iterate c A rhs guess k) := by
  unfold iterate; rw [run_succ]

theorem iterate_rec (c : Cfg) (A : Matrix n n ℝ) (rhs guess : n → ℝ) (heps : 0 < c.eps) (hA : Aᵀ = A) (K : ℕ)
    (hex : ∀ j < K, Spec.Exact c A (iterate c A rhs guess j)) :
    Rec A K (fun j => (iterate c A rhs guess j).r) (fun j => (iterate c A rhs guess j).p)
      (fun j => (iterate c A rhs guess (j + 1)).alpha) (fun j => (iterate c A rhs guess (j + 1)).beta) where
  sym := hA
  p0 := rfl
  hr := fun j _ => by
    change (iterate c A rhs guess (j + 1)).r = _
    rw [iterate_succ, step_r]
  hp := fun j _ => by
    change (iterate c A rhs guess (j + 1)).p = _
    rw [iterate_succ, step_p]
  hal := fun j hj => by
    obtain ⟨h1, h2, h3⟩ := hex j hj
    change (iterate c A rhs guess (j + 1)).alpha = _
    rw [iterate_succ, step_alpha, if_neg h1, iterate_rz]
    simp [safeDiv, not_lt.mpr h2]
  hbe := fun j hj => by
    obtain ⟨h1, h2, h3⟩ := hex j hj
    change (iterate c A rhs guess (j + 1)).beta = _
    rw [iterate_succ, step_beta, step_rz, iterate_rz]
    simp [safeDiv, not_lt.mpr h3]
  pos := fun j hj => lt_of_lt_of_le heps (hex j hj).2.1
  rpos := fun j hj => lt_of_lt_of_le heps (hex j hj).2.2

/-- **C115** As long as no safeguard has acted, residuals are mutually orthogonal and directions are conjugate. -/
theorem C115_orthogonal (c : Cfg) (A : Matrix n n ℝ) (rhs guess : n → ℝ) (heps : 0 < c.eps) (hA : Aᵀ = A) (k : ℕ)
    (hex : ∀ j < k, Spec.Exact c A (iterate c A rhs guess j)) (i j : ℕ) (hij : i < j) (hj : j ≤ k) :
    (iterate c A rhs guess j).r ⬝ᵥ (iterate c A rhs guess i).r = 0 ∧
    (iterate c A rhs guess j).p ⬝ᵥ (A *ᵥ (iterate c A rhs guess i).p) = 0 := by
  have h := (iterate_rec c A rhs guess heps hA k hex).main j hj
  exact ⟨h.1 i hij, h.2.1 i hij⟩

theorem iterate_x_mem (c : Cfg) (A : Matrix n n ℝ) (rhs guess : n → ℝ) (k : ℕ) :
    (iterate c A rhs guess k).x - guess ∈ Submodule.span ℝ ((fun j => (iterate c A rhs guess j).p) '' Set.Iio k) := by
  induction k with
  | zero =>
    have : (iterate c A rhs guess 0).x - guess = 0 := by simp [iterate, run_zero, start]
    rw [this]; exact Submodule.zero_mem _
  | succ k ih =>
    rw [iterate_succ, step_x, add_sub_right_comm]
    refine Submodule.add_mem _ (Submodule.span_mono (Set.image_mono ?_) ih)
      (Submodule.smul_mem _ _ (Submodule.subset_span ⟨k, ?_, rfl⟩))
    · intro j hj; have : j < k := hj; change j < k + 1; omega
    · change k < k + 1; omega

/-- The energy of the error grows when moving away from `x` in a direction orthogonal to the residual at `x`. -/
theorem energy_le (A : Matrix n n ℝ) (hA : Aᵀ = A) (hpsd : ∀ v : n → ℝ, 0 ≤ v ⬝ᵥ (A *ᵥ v)) (xs x w b : n → ℝ)
    (hb : A *ᵥ xs = b) (hw : (b - A *ᵥ x) ⬝ᵥ w = 0) : Spec.energy A xs x ≤ Spec.energy A xs (x + w) := by
  have e : x + w - xs = (x - xs) + w := by abel
  have hw' : w ⬝ᵥ (A *ᵥ (x - xs)) = 0 := by
    rw [mulVec_sub, hb, dotProduct_comm, ← neg_sub, neg_dotProduct, hw, neg_zero]
  unfold Spec.energy
  rw [e, mulVec_add, add_dotProduct, dotProduct_add, dotProduct_add, symm_dot hA (x - xs) w, hw']
  linarith [hpsd w]

/-- **C115** Conjugate gradient optimality.  For a symmetric positive semidefinite matrix, as long as no safeguard has
acted, the iterate after `k` steps differs from the guess by a combination of `r₀, A r₀, …, A^(k-1) r₀`, and no other
such combination has a smaller error in the energy norm. -/
theorem C115_optimal (c : Cfg) (A : Matrix n n ℝ) (rhs guess xs : n → ℝ) (heps : 0 < c.eps) (hA : Aᵀ = A)
    (hpsd : ∀ v : n → ℝ, 0 ≤ v ⬝ᵥ (A *ᵥ v)) (hxs : A *ᵥ xs = Spec.scaled c rhs) (k : ℕ)
    (hex : ∀ j < k, Spec.Exact c A (iterate c A rhs guess j)) :
    let r0 := Spec.scaled c rhs - A *ᵥ guess
    (∃ a : ℕ → ℝ, (iterate c A rhs guess k).x =
      guess + ∑ i ∈ Finset.range k, a i • ((fun v => A *ᵥ v)^[i] r0)) ∧
    ∀ a : ℕ → ℝ, Spec.energy A xs (iterate c A rhs guess k).x ≤
      Spec.energy A xs (guess + ∑ i ∈ Finset.range k, a i • ((fun v => A *ᵥ v)^[i] r0)) := by
  intro r0
  have hrec := iterate_rec c A rhs guess heps hA k hex
  constructor
  · -- membership, by induction
    have : ∀ j ≤ k, ∃ a : ℕ → ℝ, (iterate c A rhs guess j).x =
        guess + ∑ i ∈ Finset.range j, a i • ((fun v => A *ᵥ v)^[i] r0) := by
      intro j
      induction j with
      | zero => intro _; exact ⟨fun _ => 0, by simp [iterate, run_zero, start]⟩
      | succ j ih =>
        intro hj
        obtain ⟨a, ha⟩ := ih (by omega)
        obtain ⟨⟨b, hb⟩, -⟩ := hrec.mem_krylov j (by omega)
        refine ⟨fun i => (if i < j then a i else 0) + (iterate c A rhs guess (j + 1)).alpha * b i, ?_⟩
        simp only [add_smul, Finset.sum_add_distrib]
        rw [Finset.sum_range_succ (fun i => (if i < j then a i else 0) • _) j]
        have e1 : ∑ i ∈ Finset.range j, (if i < j then a i else 0) • ((fun v => A *ᵥ v)^[i] r0) =
            ∑ i ∈ Finset.range j, a i • ((fun v => A *ᵥ v)^[i] r0) :=
          Finset.sum_congr rfl fun m hm => by rw [if_pos (Finset.mem_range.mp hm)]
        rw [e1]
        simp only [lt_irrefl, if_false, zero_smul, add_zero, ← smul_smul, ← Finset.smul_sum]
        change (iterate c A rhs guess (j + 1)).x = _
        have hb' : (iterate c A rhs guess j).p = ∑ m ∈ Finset.range (j + 1), b m • ((fun v => A *ᵥ v)^[m] r0) := hb
        rw [← hb']
        conv_lhs => rw [iterate_succ, step_x, ha]
        rw [iterate_succ]; abel
    exact this k le_rfl
  · intro a
    set y := guess + ∑ i ∈ Finset.range k, a i • ((fun v => A *ᵥ v)^[i] r0) with hy
    have hw : y - (iterate c A rhs guess k).x ∈
        Submodule.span ℝ ((fun j => (iterate c A rhs guess j).p) '' Set.Iio k) := by
      have e : y - (iterate c A rhs guess k).x = (∑ i ∈ Finset.range k, a i • ((fun v => A *ᵥ v)^[i] r0)) -
          ((iterate c A rhs guess k).x - guess) := by rw [hy]; abel
      rw [e]
      refine Submodule.sub_mem _ (Submodule.sum_mem _ fun i hi => Submodule.smul_mem _ _ ?_) (iterate_x_mem _ _ _ _ _)
      have hi' := Finset.mem_range.mp hi
      refine Submodule.span_mono (Set.image_mono ?_) (hrec.krylov_mem i hi')
      intro m hm; have : m ≤ i := hm; change m < k; omega
    have hzero : (Spec.scaled c rhs - A *ᵥ (iterate c A rhs guess k).x) ⬝ᵥ (y - (iterate c A rhs guess k).x) = 0 := by
      rw [← C64_residual]
      refine Submodule.span_induction (p := fun v _ => (iterate c A rhs guess k).r ⬝ᵥ v = 0) ?_ ?_ ?_ ?_ hw
      · rintro _ ⟨j, hj, rfl⟩
        exact (hrec.main k le_rfl).2.2.1 j hj
      · simp
      · intro u v _ _ hu hv; rw [dotProduct_add, hu, hv, add_zero]
      · intro t v _ hv; rw [dotProduct_smul, hv, smul_zero]
    have := energy_le A hA hpsd xs (iterate c A rhs guess k).x (y - (iterate c A rhs guess k).x) _ hxs hzero
    rwa [add_sub_cancel] at this

/-- A family of `card n` nonzero mutually orthogonal vectors has only the zero vector in its orthogonal complement. -/
theorem orth_zero (v : ℕ → n → ℝ) (hne : ∀ i < Fintype.card n, v i ⬝ᵥ v i ≠ 0)
    (ho : ∀ j ≤ Fintype.card n, ∀ i < j, v j ⬝ᵥ v i = 0) : v (Fintype.card n) = 0 := by
  by_contra hv
  have hvv : ∀ i ≤ Fintype.card n, v i ⬝ᵥ v i ≠ 0 := by
    intro i hi
    rcases Nat.lt_or_eq_of_le hi with h | rfl
    · exact hne i h
    · intro h; exact hv (dotProduct_self_eq_zero.mp h)
  have ho' : ∀ i j : Fin (Fintype.card n + 1), i ≠ j → v i ⬝ᵥ v j = 0 := by
    intro i j hij
    rcases lt_or_gt_of_ne hij with h | h
    · rw [dotProduct_comm]; exact ho j (by omega) i h
    · exact ho i (by omega) j h
  have hli : LinearIndependent ℝ (fun i : Fin (Fintype.card n + 1) => v i) := by
    rw [Fintype.linearIndependent_iff]
    intro a ha i
    have h1 : (∑ j : Fin (Fintype.card n + 1), a j • v j) ⬝ᵥ v i = 0 := by rw [ha]; simp
    rw [sum_dotProduct, Finset.sum_eq_single i] at h1
    · rw [smul_dotProduct, smul_eq_mul] at h1
      rcases mul_eq_zero.mp h1 with h | h
      · exact h
      · exact absurd h (hvv i (by omega))
    · intro j _ hj; rw [smul_dotProduct, ho' j i hj, smul_zero]
    · simp
  have := hli.fintype_card_le_finrank
  simp at this

/-- **C115** Finite termination: if no safeguard acts in the first `n` steps, the `n`-th iterate solves the normalised
system exactly. -/
theorem C115_finite_termination (c : Cfg) (A : Matrix n n ℝ) (rhs guess : n → ℝ) (heps : 0 < c.eps) (hA : Aᵀ = A)
    (hex : ∀ j < Fintype.card n, Spec.Exact c A (iterate c A rhs guess j)) :
    A *ᵥ (iterate c A rhs guess (Fintype.card n)).x = Spec.scaled c rhs := by
  have h := (iterate_rec c A rhs guess heps hA _ hex)
  have h0 := orth_zero (fun j => (iterate c A rhs guess j).r) (fun i hi => (h.rpos i hi).ne')
    (fun j hj i hi => (h.main j hj).1 i hi)
  have h1 := C64_residual c A rhs guess (Fintype.card n)
  have h0' : (iterate c A rhs guess (Fintype.card n)).r = 0 := h0
  rw [h0'] at h1
  exact (sub_eq_zero.mp h1.symm).symm

end Verif.Numerics.Cg
