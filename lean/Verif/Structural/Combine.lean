import Verif.Structural.Model

/-!
C26 and C27: adding components.
-/

set_option autoImplicit false
set_option linter.unusedSectionVars false

open Matrix

namespace Verif.Structural

variable {n r n' r' n'' r'' p : Type} [Fintype n] [Fintype r] [Fintype n'] [Fintype r'] [Fintype n''] [Fintype r'']
  [Fintype p]

/-- **C26**: for all shocks, at every time the state of `a + b` is the states of `a` and `b` side by side, each evolving
under its own shocks, and its observation is the sum of the two observations. -/
theorem C26_superposition (a : Sys n r p) (b : Sys n' r' p) (η : ℕ → r → ℝ) (η' : ℕ → r' → ℝ) (t : ℕ) :
    state (combine a b) (fun t => Sum.elim (η t) (η' t)) t = Sum.elim (state a η t) (state b η' t) ∧
    obs (combine a b) (fun t => Sum.elim (η t) (η' t)) t = obs a η t + obs b η' t := by
  have h : state (combine a b) (fun t => Sum.elim (η t) (η' t)) t = Sum.elim (state a η t) (state b η' t) := by
    induction t with
    | zero => rfl
    | succ t ih =>
      simp only [state, ih]
      simp only [combine, fromBlocks_mulVec, Sum.elim_comp_inl, Sum.elim_comp_inr, zero_mulVec, add_zero, zero_add]
      funext i; rcases i with i | i <;> simp
  refine ⟨h, ?_⟩
  simp only [obs, h]
  simp only [combine, fromCols_mulVec, Sum.elim_comp_inl, Sum.elim_comp_inr]
  abel

/-- **C26**, second moments: the state covariance of `a + b` is block diagonal, each block being the component's own, and
the observation covariance is the sum of the two. -/
theorem C26_superposition_cov (a : Sys n r p) (b : Sys n' r' p) (t : ℕ) :
    stateCov (combine a b) t = fromBlocks (stateCov a t) 0 0 (stateCov b t) ∧
    obsCov (combine a b) t = obsCov a t + obsCov b t := by
  have h : stateCov (combine a b) t = fromBlocks (stateCov a t) 0 0 (stateCov b t) := by
    induction t with
    | zero => rfl
    | succ t ih =>
      simp only [stateCov, ih]
      simp only [combine, fromBlocks_transpose, fromBlocks_multiply, transpose_zero, fromBlocks_add]
      simp
  refine ⟨h, ?_⟩
  simp only [obsCov, h]
  simp only [combine, fromCols_mul_fromBlocks, transpose_fromCols, fromCols_mul_fromRows]
  simp only [Matrix.mul_zero, add_zero, zero_add]
  abel

example : ∃ (a : Sys (Fin 2) {i // (fun _ => true : Fin 2 → Bool) i = true} (Fin 1)) (b : Sys (Fin 3) (Fin 1) (Fin 1)),
    a.x0 0 ≠ 0 ∧ b.x0 1 ≠ 0 :=
  ⟨levelTrend 2 (fun _ => true) (fun _ => 1) (fun _ => 1), timeSeasonality 3 (fun _ => 2) 1, by simp [levelTrend],
    by simp [timeSeasonality]⟩

/-- Specification: relabelling the states and shocks of a system. -/
def Spec.relabel {m q : Type} (s : Sys n r p) (e : m ≃ n) (f : q ≃ r) : Sys m q p where
  x0 := s.x0 ∘ e
  P0 := s.P0.submatrix e e
  c := s.c ∘ e
  d := s.d
  T := s.T.submatrix e e
  Z := fun t => (s.Z t).submatrix id e
  R := s.R.submatrix e f
  H := s.H
  Q := s.Q.submatrix f f

/-- **C27**: `(a + b) + c` and `a + (b + c)` are the same system up to moving the parentheses in the names of states and
shocks: same order of blocks, same entries. -/
theorem C27_combine_assoc (a : Sys n r p) (b : Sys n' r' p) (c : Sys n'' r'' p) :
    combine (combine a b) c =
      Spec.relabel (combine a (combine b c)) (Equiv.sumAssoc n n' n'') (Equiv.sumAssoc r r' r'') := by
  simp only [combine, Spec.relabel, Sys.mk.injEq]
  refine ⟨?_, ?_, ?_, ?_, ?_, ?_, ?_, ?_, ?_⟩
  · funext i; rcases i with (i | i) | i <;> rfl
  · ext i j; rcases i with (i | i) | i <;> rcases j with (j | j) | j <;> rfl
  · funext i; rcases i with (i | i) | i <;> rfl
  · abel
  · ext i j; rcases i with (i | i) | i <;> rcases j with (j | j) | j <;> rfl
  · funext t; ext i j; rcases j with (j | j) | j <;> rfl
  · ext i j; rcases i with (i | i) | i <;> rcases j with (j | j) | j <;> rfl
  · abel
  · ext i j; rcases i with (i | i) | i <;> rcases j with (j | j) | j <;> rfl

end Verif.Structural
