import Verif.Numerics.CgLimits

/-!
# `linear_cg` with a 1-d right-hand side (C117) and with a preconditioner (C119)
-/

set_option autoImplicit false

open Matrix
open scoped Classical
open scoped Matrix.Norms.L2Operator

namespace Verif.Numerics.Cg

variable {n : Type} [Fintype n] [DecidableEq n]

/-- `n` copies of a column side by side. -/
def Spec.copies (v : n → ℝ) : Matrix n n ℝ := of fun i _ => v i

theorem copies_norm [Nonempty n] (v : n → ℝ) :
    ‖Spec.copies v‖ = norm2 v * Real.sqrt (Fintype.card n) := by
  set J : Matrix n n ℝ := of fun _ _ => 1 with hJ
  have hN : (0 : ℝ) < Fintype.card n := by exact_mod_cast Fintype.card_pos
  have hJJ : Jᴴ * J = (Fintype.card n : ℝ) • J := by
    ext i j; simp [hJ, Matrix.mul_apply, conjTranspose_apply]
  have hJ0 : J ≠ 0 := by
    intro h
    obtain ⟨i⟩ := (inferInstance : Nonempty n)
    have := congrFun (congrFun h i) i
    simp [hJ] at this
  have hJn : ‖J‖ = Fintype.card n := by
    have h := l2_opNorm_conjTranspose_mul_self J
    rw [hJJ, norm_smul, Real.norm_of_nonneg hN.le] at h
    have hp : ‖J‖ ≠ 0 := norm_ne_zero_iff.mpr hJ0
    exact (mul_right_cancel₀ hp h).symm
  have hMM : (Spec.copies v)ᴴ * Spec.copies v = (v ⬝ᵥ v) • J := by
    ext i j; simp [Spec.copies, hJ, Matrix.mul_apply, conjTranspose_apply, dotProduct]
  have h := l2_opNorm_conjTranspose_mul_self (Spec.copies v)
  rw [hMM, norm_smul, Real.norm_of_nonneg (dot_self_nonneg v), hJn] at h
  have h2 : ‖Spec.copies v‖ = Real.sqrt ((v ⬝ᵥ v) * Fintype.card n) := by
    rw [h, Real.sqrt_mul_self (norm_nonneg _)]
  rw [h2, Real.sqrt_mul (dot_self_nonneg v)]
  rfl

/-- The configuration the column algorithm would need to behave like the 1-d call: both tolerances divided by `√n`. -/
noncomputable def Spec.tightened (n : Type) [Fintype n] (c : Cfg) : Cfg :=
  { c with tol := c.tol / Real.sqrt (Fintype.card n), stop := c.stop / Real.sqrt (Fintype.card n) }

/-- `n` copies of the loop variables of the column algorithm. Proof notion, no code behind it. -/
noncomputable def rep (s : St n) : StV n :=
  ⟨Spec.copies s.x, Spec.copies s.r, Spec.copies s.p, of fun _ _ => s.rz, s.norm * Real.sqrt (Fintype.card n)⟩

theorem stepV_rep [Nonempty n] (A : Matrix n n ℝ) (c : Cfg) (z : Prop) (s : St n) :
    stepV A c z (rep s) = rep (step A (Spec.tightened n c) z s) := by
  have hN : (0 : ℝ) < Real.sqrt (Fintype.card n) := Real.sqrt_pos.mpr (by exact_mod_cast Fintype.card_pos)
  have hconv : (s.norm * Real.sqrt (Fintype.card n) < c.stop) = (s.norm < (Spec.tightened n c).stop) := by
    simp only [Spec.tightened, lt_div_iff₀ hN]
  have hmv : A * Spec.copies s.p = Spec.copies (A *ᵥ s.p) := by
    ext i j; simp [Spec.copies, Matrix.mul_apply, mulVec, dotProduct]
  have hdot : ∀ u v : n → ℝ, (Spec.copies u)ᵀ * Spec.copies v = of fun _ _ => u ⬝ᵥ v := by
    intro u v; ext i j; simp [Spec.copies, Matrix.mul_apply, dotProduct]
  have halpha : (if (rep s).norm < c.stop then (0 : Matrix n n ℝ) else
      safeDivM c.eps (rep s).rz ((rep s).pᵀ * (A * (rep s).p))) =
      of fun _ _ => (step A (Spec.tightened n c) z s).alpha := by
    have e : (rep s).pᵀ * (A * (rep s).p) = of fun _ _ => s.p ⬝ᵥ (A *ᵥ s.p) := by
      change (Spec.copies s.p)ᵀ * (A * Spec.copies s.p) = _
      rw [hmv, hdot]
    rw [step_alpha, e]
    by_cases h : s.norm < (Spec.tightened n c).stop
    · rw [if_pos h, if_pos (by change s.norm * _ < _; rw [hconv]; exact h)]; ext i j; rfl
    · rw [if_neg h, if_neg (by change ¬ s.norm * _ < _; rw [hconv]; exact h)]; ext i j; rfl
  have hres : (Spec.copies s.r - (of fun _ _ => (step A (Spec.tightened n c) z s).alpha) ⊙ (A * Spec.copies s.p)) =
      Spec.copies (step A (Spec.tightened n c) z s).r := by
    rw [step_r, hmv]; ext i j; simp [Spec.copies]
  have hbeta : safeDivM c.eps (of fun _ _ => (step A (Spec.tightened n c) z s).rz) (of fun _ _ => s.rz) =
      (of fun _ _ => (step A (Spec.tightened n c) z s).beta : Matrix n n ℝ) := by
    rw [step_beta]; rfl
  simp only [stepV]
  rw [halpha]
  have hres' : (rep s).r - (of fun _ _ => (step A (Spec.tightened n c) z s).alpha) ⊙ (A * (rep s).p) =
      Spec.copies (step A (Spec.tightened n c) z s).r := hres
  have hbeta' : safeDivM c.eps (of fun _ _ => (step A (Spec.tightened n c) z s).rz) (rep s).rz =
      (of fun _ _ => (step A (Spec.tightened n c) z s).beta : Matrix n n ℝ) := hbeta
  rw [hres', hdot, ← step_rz, hbeta']
  simp only [rep]
  simp only [StV.mk.injEq, true_and]
  refine ⟨?_, ?_, ?_⟩
  · rw [step_x]; ext i j; simp [Spec.copies]
  · rw [step_p]; ext i j; simp [Spec.copies]
  · rw [step_norm]
    split
    · simp
    · rw [copies_norm]

omit [DecidableEq n] in
theorem breaks_tightened [Nonempty n] (c : Cfg) (N k : ℕ) (x : ℝ) :
    breaks c N k (x * Real.sqrt (Fintype.card n)) ↔ breaks (Spec.tightened n c) N k x := by
  have hN : (0 : ℝ) < Real.sqrt (Fintype.card n) := Real.sqrt_pos.mpr (by exact_mod_cast Fintype.card_pos)
  unfold breaks
  simp only [Spec.tightened, lt_div_iff₀ hN]

theorem loopV_rep [Nonempty n] (A : Matrix n n ℝ) (c : Cfg) (z : Prop) (N left : ℕ) : ∀ (k : ℕ) (s : St n) (T : Tri),
    loopV A c z N k left (rep s) = ((loop A (Spec.tightened n c) z N k left s T).1,
      rep (loop A (Spec.tightened n c) z N k left s T).2.1) := by
  induction left with
  | zero => intro k s T; rfl
  | succ left ih =>
    intro k s T
    simp only [loopV, loop, stepV_rep]
    have hb : breaks c N k (rep (step A (Spec.tightened n c) z s)).norm ↔
        breaks (Spec.tightened n c) N k (step A (Spec.tightened n c) z s).norm := breaks_tightened c N k _
    by_cases h : breaks (Spec.tightened n c) N k (step A (Spec.tightened n c) z s).norm
    · rw [if_pos (hb.mpr h), if_pos h]
    · rw [if_neg (fun h' => h (hb.mp h')), if_neg h]
      exact ih _ _ _

/-- **C117** A 1-d right-hand side without a guess is solved `n` times side by side: the call raises exactly when the
column call with both tolerances divided by `√n` raises, and otherwise returns the `n × n` array whose columns all equal
the column solution (or, when no iteration is needed, a 1-d array of zeros) — never the vector of length `n` that solves
the system. -/
theorem C117_vector_rhs [Nonempty n] (c : Cfg) (A : Matrix n n ℝ) (rhs : n → ℝ) (_hn : c.nTri = false) :
    (∀ e, linearCgVector c A rhs none = .error e ↔ linearCg (Spec.tightened n c) A rhs none = .error e) ∧
    (∀ o, linearCgVector c A rhs none = .ok o → ∃ o', linearCg (Spec.tightened n c) A rhs none = .ok o' ∧
      (o = .vector 0 ∧ o'.result = 0 ∨ o = .matrix (of fun i _ => o'.result i))) := by
  have hN : (0 : ℝ) < Real.sqrt (Fintype.card n) := Real.sqrt_pos.mpr (by exact_mod_cast Fintype.card_pos)
  have hstart : startV A c rhs 0 = rep (start A (Spec.tightened n c) rhs 0) := by
    have hr : (of fun i j => ((rhsNorm c.eps rhs)⁻¹ • rhs) i - (A *ᵥ (0 : n → ℝ)) j : Matrix n n ℝ) =
        Spec.copies ((rhsNorm c.eps rhs)⁻¹ • rhs - A *ᵥ 0) := by
      ext i j; simp [Spec.copies]
    simp only [startV, rep, start]
    rw [hr, copies_norm]
    simp only [StV.mk.injEq, true_and, and_true, Spec.tightened]
    refine ⟨?_, ?_⟩
    · ext i j; simp [Spec.copies]
    · ext i j; simp [Spec.copies, Matrix.mul_apply, dotProduct]
  have hm : nIter c (Fintype.card n) (startV A c rhs 0).norm =
      nIter (Spec.tightened n c) (Fintype.card n) (start A (Spec.tightened n c) rhs 0).norm := by
    rw [hstart]
    have : ((rep (start A (Spec.tightened n c) rhs 0)).norm < c.stop) =
        ((start A (Spec.tightened n c) rhs 0).norm < (Spec.tightened n c).stop) := by
      simp only [rep, Spec.tightened, lt_div_iff₀ hN]
    unfold nIter
    simp only [this]
    rfl
  simp only [linearCgVector, linearCg, Option.getD_none]
  rw [hm, hstart]
  set m := nIter (Spec.tightened n c) (Fintype.card n) (start A (Spec.tightened n c) rhs 0).norm with hmdef
  have hl := loopV_rep A c (norm2 rhs < c.eps) (min c.maxTri (Fintype.card n)) m 0 (start A (Spec.tightened n c) rhs 0)
    Tri.init
  rw [hl]
  have t1 : (Spec.tightened n c).maxTri = c.maxTri := rfl
  have t2 : (Spec.tightened n c).maxIter = c.maxIter := rfl
  have t3 : (Spec.tightened n c).eps = c.eps := rfl
  rw [t1, t2, t3]
  set L := loop A (Spec.tightened n c) (norm2 rhs < c.eps) (min c.maxTri (Fintype.card n)) 0 m
    (start A (Spec.tightened n c) rhs 0) Tri.init with hL
  by_cases hT : c.maxTri > c.maxIter
  · simp [hT]
  · simp only [hT, if_false]
    by_cases hf : L.1 = false ∧ 0 < m
    · simp [hf]
    · simp only [hf, if_false]
      constructor
      · intro e; split <;> simp
      · intro o ho
        refine ⟨_, rfl, ?_⟩
        by_cases h0 : m = 0
        · left
          rw [if_pos h0] at ho
          have : L.2.1.x = 0 := by rw [hL, h0]; rfl
          constructor
          · rw [← Except.ok.inj ho]; simp
          · simp [this]
        · right
          rw [if_neg h0] at ho
          rw [← Except.ok.inj ho]
          congr 1

/-- **C117** A 1-d guess corrupts the computation: for the identity system with unit right-hand side `e₀` and the exact
solution `e₀` as guess, the column call recognises the solution, while the 1-d call starts from a nonzero residual. -/
theorem C117_vector_guess (c : Cfg) (h1 : c.eps ≤ 1) :
    (start (1 : Matrix (Fin 2) (Fin 2) ℝ) c ![1, 0] ![1, 0]).r = 0 ∧
    (startV (1 : Matrix (Fin 2) (Fin 2) ℝ) c ![1, 0] ![1, 0]).r = !![0, 1; -1, 0] := by
  have hn : norm2 (![1, 0] : Fin 2 → ℝ) = 1 := by simp [norm2, dotProduct, Fin.sum_univ_two]
  have hN : rhsNorm c.eps (![1, 0] : Fin 2 → ℝ) = 1 := by
    unfold rhsNorm; rw [hn, if_neg (by linarith)]
  constructor
  · simp only [start, hN]; simp
  · simp only [startV, hN]
    ext i j; fin_cases i <;> fin_cases j <;> simp

/-! ### Preconditioner -/

/-- Shape of `a @ b` for 2-d arrays, `none` when numpy raises (used by pymc_extras/utils/linear_cg.py:155-157). -/
def matmulShape (a b : ℕ × ℕ) : Option (ℕ × ℕ) := if a.2 = b.1 then some (a.1, b.2) else none

/-- Shape of `alpha` in the first iteration with a preconditioner: `curr_conjugate_vec @ (mat @ curr_conjugate_vec)`
for an `n × n` matrix and an `n × cols` direction array (pymc_extras/utils/linear_cg.py:155-157; the branch without
preconditioner transposes the first factor, line 195). -/
def precondAlphaShape (rows cols : ℕ) : Option (ℕ × ℕ) :=
  (matmulShape (rows, rows) (rows, cols)).bind fun mvms => matmulShape (rows, cols) mvms

/-- Shape of `alpha` without preconditioner (pymc_extras/utils/linear_cg.py:155, 195). -/
def plainAlphaShape (rows cols : ℕ) : Option (ℕ × ℕ) :=
  (matmulShape (rows, rows) (rows, cols)).bind fun mvms => matmulShape (cols, rows) mvms

/-- **C119** With a preconditioner and an `n × 1` right-hand side the first iteration raises a shape error unless
`n = 1`; without preconditioner the inner product is a `1 × 1` array for every `n`. -/
theorem C119_preconditioner_shape (rows : ℕ) :
    (precondAlphaShape rows 1 = none ↔ rows ≠ 1) ∧ plainAlphaShape rows 1 = some (1, 1) := by
  refine ⟨?_, by simp [plainAlphaShape, matmulShape]⟩
  simp [precondAlphaShape, matmulShape]
  omega

end Verif.Numerics.Cg
