import Verif.Structural.Combine
import Verif.Kalman.Relabel

/-!
# C211: the order in which structural components are added does not matter
-/

set_option autoImplicit false

open Matrix

namespace Verif.Structural

open Verif.Kalman

variable {p : Type} [Fintype p] [DecidableEq p]

/-- Filtering a built structural model: `x0` from the components, the initial covariance the parameter `P0` that `build` adds,
the design matrix of date `t`, all other matrices constant.
pymc_extras/statespace/models/structural.py:118-146, pymc_extras/statespace/core/statespace.py:868-873. (A model without shocks gets a 1×1
zero `Q` and a zero `R`; `R Q R'` is zero either way.) -/
noncomputable def filterSys {n r : Type} [Fintype n] [Fintype r] [DecidableEq n] (j fill : ℝ) (s : Sys n r p) (P0 : Matrix n n ℝ)
    (ys : List (Row p)) : FilterOut n p :=
  buildGraph j fill s.x0 P0 (ys.zipIdx.map fun y => (y.1, ⟨s.c, s.d, s.T, s.Z y.2, s.R, s.H, s.Q⟩))

/-- A component of any size. -/
structure Comp (p : Type) where
  n : Type
  r : Type
  [fn : Fintype n]
  [dn : DecidableEq n]
  [fr : Fintype r]
  sys : Sys n r p

attribute [instance] Comp.fn Comp.dn Comp.fr

/-- `a + b`. Components with different numbers of series are refused by `_get_combined_shapes`; here `p` is the same by type.
pymc_extras/statespace/models/structural.py:492-501, 596-648 -/
def Comp.add (a b : Comp p) : Comp p where
  n := a.n ⊕ b.n
  r := a.r ⊕ b.r
  sys := combine a.sys b.sys

/-- `a + b + c + ...`, from the left as Python evaluates it. pymc_extras/statespace/models/structural.py:596-648 -/
def Comp.sum (a : Comp p) (l : List (Comp p)) : Comp p := l.foldl Comp.add a

/-! ### Specification -/

/-- `b` is `a` with states and shocks listed in another order. -/
def Spec.Same (a b : Comp p) : Prop := ∃ (e : b.n ≃ a.n) (f : b.r ≃ a.r), b.sys = Spec.relabel a.sys e f

theorem Spec.Same.refl (a : Comp p) : Spec.Same a a :=
  ⟨Equiv.refl _, Equiv.refl _, rfl⟩

theorem Spec.Same.trans {a b c : Comp p} (h : Spec.Same a b) (h' : Spec.Same b c) : Spec.Same a c := by
  obtain ⟨e, f, h⟩ := h
  obtain ⟨e', f', h'⟩ := h'
  refine ⟨e'.trans e, f'.trans f, ?_⟩
  rw [h', h]
  rfl

theorem Spec.Same.symm {a b : Comp p} (h : Spec.Same a b) : Spec.Same b a := by
  obtain ⟨e, f, h⟩ := h
  refine ⟨e.symm, f.symm, ?_⟩
  rw [h]
  simp only [Spec.relabel, submatrix_submatrix, Equiv.self_comp_symm, submatrix_id_id, Function.comp_assoc, Function.comp_id]

theorem add_comm_same (a b : Comp p) : Spec.Same (a.add b) (b.add a) := by
  refine ⟨Equiv.sumComm _ _, Equiv.sumComm _ _, ?_⟩
  simp only [Comp.add, combine, Spec.relabel, Sys.mk.injEq]
  refine ⟨?_, ?_, ?_, add_comm _ _, ?_, ?_, ?_, add_comm _ _, ?_⟩
  · funext i; rcases i with i | i <;> rfl
  · ext i j; rcases i with i | i <;> rcases j with j | j <;> rfl
  · funext i; rcases i with i | i <;> rfl
  · ext i j; rcases i with i | i <;> rcases j with j | j <;> rfl
  · funext t; ext i j; rcases j with j | j <;> rfl
  · ext i j; rcases i with i | i <;> rcases j with j | j <;> rfl
  · ext i j; rcases i with i | i <;> rcases j with j | j <;> rfl

theorem add_assoc_same (a b c : Comp p) : Spec.Same (a.add (b.add c)) ((a.add b).add c) :=
  ⟨Equiv.sumAssoc _ _ _, Equiv.sumAssoc _ _ _, C27_combine_assoc a.sys b.sys c.sys⟩

theorem add_same {a a' : Comp p} (h : Spec.Same a a') (b : Comp p) : Spec.Same (a.add b) (a'.add b) := by
  obtain ⟨e, f, h⟩ := h
  refine ⟨Equiv.sumCongr e (Equiv.refl _), Equiv.sumCongr f (Equiv.refl _), ?_⟩
  simp only [Comp.add, combine, Spec.relabel, Sys.mk.injEq, h]
  refine ⟨?_, ?_, ?_, trivial, ?_, ?_, ?_, trivial, ?_⟩
  · funext i; rcases i with i | i <;> rfl
  · ext i j; rcases i with i | i <;> rcases j with j | j <;> rfl
  · funext i; rcases i with i | i <;> rfl
  · ext i j; rcases i with i | i <;> rcases j with j | j <;> rfl
  · funext t; ext i j; rcases j with j | j <;> rfl
  · ext i j; rcases i with i | i <;> rcases j with j | j <;> rfl
  · ext i j; rcases i with i | i <;> rcases j with j | j <;> rfl

theorem sum_same {a a' : Comp p} (h : Spec.Same a a') (l : List (Comp p)) : Spec.Same (a.sum l) (a'.sum l) := by
  induction l generalizing a a' with
  | nil => exact h
  | cons b l ih => exact ih (add_same h b)

theorem swap_same (a b c : Comp p) : Spec.Same ((a.add b).add c) ((a.add c).add b) :=
  ((add_assoc_same a b c).symm.trans (add_comm_same a (b.add c))).trans
    ((add_same (add_comm_same b c) a).trans
      ((add_comm_same a (c.add b)).symm.trans (add_assoc_same a c b)))

theorem perm_same {l l' : List (Comp p)} (h : l.Perm l') : ∀ a : Comp p, Spec.Same (a.sum l) (a.sum l') := by
  induction h with
  | nil => intro a; exact Spec.Same.refl _
  | cons x _ ih => intro a; exact ih (a.add x)
  | swap x y l => intro a; exact sum_same (swap_same a y x) l
  | trans _ _ ih1 ih2 => intro a; exact (ih1 a).trans (ih2 a)

theorem perm_cons_same {k k' : List (Comp p)} (h : k.Perm k') :
    ∀ (a b : Comp p) (l l' : List (Comp p)), k = a :: l → k' = b :: l' → Spec.Same (a.sum l) (b.sum l') := by
  induction h with
  | nil => intro a b l l' h; simp at h
  | cons x hp _ =>
    intro a b l l' h h'
    obtain ⟨rfl, rfl⟩ := List.cons.inj h
    obtain ⟨rfl, rfl⟩ := List.cons.inj h'
    exact perm_same hp _
  | swap x y t =>
    intro a b l l' h h'
    obtain ⟨rfl, rfl⟩ := List.cons.inj h
    obtain ⟨rfl, rfl⟩ := List.cons.inj h'
    exact sum_same (add_comm_same y x) t
  | @trans k1 k2 k3 h1 _ ih1 ih2 =>
    intro a b l l' h h'
    obtain ⟨c, t, rfl⟩ : ∃ c t, k2 = c :: t := by
      cases k2 with
      | nil => subst h; simpa using h1.length_eq
      | cons c t => exact ⟨c, t, rfl⟩
    exact (ih1 a c l t h rfl).trans (ih2 c b t l' rfl h')

/-! ### The property -/

/-- **C211 (two components).** `b + a` is `a + b` with the two blocks of states and shocks exchanged. -/
theorem C211_commutes {n r n' r' : Type} (a : Sys n r p) (b : Sys n' r' p) :
    combine b a = Spec.relabel (combine a b) (Equiv.sumComm n' n) (Equiv.sumComm r' r) := by
  simp only [combine, Spec.relabel, Sys.mk.injEq]
  refine ⟨?_, ?_, ?_, add_comm _ _, ?_, ?_, ?_, add_comm _ _, ?_⟩
  · funext i; rcases i with i | i <;> rfl
  · ext i j; rcases i with i | i <;> rcases j with j | j <;> rfl
  · funext i; rcases i with i | i <;> rfl
  · ext i j; rcases i with i | i <;> rcases j with j | j <;> rfl
  · funext t; ext i j; rcases j with j | j <;> rfl
  · ext i j; rcases i with i | i <;> rcases j with j | j <;> rfl
  · ext i j; rcases i with i | i <;> rcases j with j | j <;> rfl

theorem filterSys_relabel {n r n' r' : Type} [Fintype n] [Fintype r] [DecidableEq n] [Fintype n'] [Fintype r'] [DecidableEq n']
    (s : Sys n r p) (e : n' ≃ n) (f : r' ≃ r) (j fill : ℝ) (P0 : Matrix n n ℝ) (ys : List (Row p)) :
    filterSys j fill (Spec.relabel s e f) (Matrix.of fun i k => P0 (e i) (e k)) ys =
      Kalman.Spec.relabelOut e (Equiv.refl p) (filterSys j fill s P0 ys) := by
  classical
  rw [filterSys, filterSys, ← C207_filter e (Equiv.refl p) f, List.map_map]
  rfl

/-- **C211 (any order).** Adding the same structural components in any other order gives the same model up to the order of its
states and shocks: there is one rearrangement of the states such that, for every initial covariance (rearranged accordingly),
every data set, missing pattern, jitter and fill value, the log-likelihoods, the observation forecasts and their covariances are
identical and the state outputs are the same numbers rearranged. -/
theorem C211_any_order (a b : Comp p) (l l' : List (Comp p)) (h : (a :: l).Perm (b :: l')) :
    ∃ e : (b.sum l').n ≃ (a.sum l).n, ∀ (j fill : ℝ) (P0 : Matrix (a.sum l).n (a.sum l).n ℝ) (ys : List (Row p)),
      let o := filterSys j fill (a.sum l).sys P0 ys
      let o' := filterSys j fill (b.sum l').sys (Matrix.of fun i k => P0 (e i) (e k)) ys
      o'.loglike = o.loglike ∧ o'.observedStates = o.observedStates ∧ o'.observedCovs = o.observedCovs ∧
      o'.filteredStates = o.filteredStates.map (fun x i => x (e i)) ∧
      o'.predictedStates = o.predictedStates.map (fun x i => x (e i)) ∧
      o'.filteredCovs = o.filteredCovs.map (fun V => Matrix.of fun i k => V (e i) (e k)) ∧
      o'.predictedCovs = o.predictedCovs.map (fun V => Matrix.of fun i k => V (e i) (e k)) := by
  obtain ⟨e, f, hs⟩ := perm_cons_same h a b l l' rfl rfl
  refine ⟨e, fun j fill P0 ys => ?_⟩
  intro o o'
  have ho : o' = Kalman.Spec.relabelOut e (Equiv.refl p) o := by
    simp only [o', o, hs]
    exact filterSys_relabel (a.sum l).sys e f j fill P0 ys
  rw [ho]
  refine ⟨rfl, ?_, ?_, rfl, rfl, rfl, rfl⟩ <;> exact List.map_id _

/-- Level + season + autoregression against autoregression + level + season: three different components, a real rearrangement. -/
example (x y z : Comp p) : (x :: [y, z]).Perm (z :: [x, y]) :=
  (List.Perm.cons x (List.Perm.swap z y [])).trans (List.Perm.swap z x [y])

end Verif.Structural
