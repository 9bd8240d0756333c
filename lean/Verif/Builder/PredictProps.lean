import Verif.Builder.Predict
import Mathlib.Algebra.BigOperators.Field
import Mathlib.Algebra.Order.BigOperators.Group.Finset
import Mathlib.Data.Fintype.BigOperators
import Mathlib.Algebra.BigOperators.Fin
import Mathlib.Tactic.Ring
import Mathlib.Tactic.Linarith
import Mathlib.Tactic.FieldSimp
import Mathlib.Tactic.Positivity
import Mathlib.Tactic.NormNum

/-! # C206: what predict and predict_posterior return -/

set_option autoImplicit false

namespace Builder

variable {G X : Type} {C D n : ℕ}

/-! ### Specification -/

/-- The arrays that the sampler returns for these data, and that are found in the model. -/
def Spec.ReadyFor (o : Obj G X) (g : Groups G) : Prop :=
  o.data.isSome ∧ o.idata = some g ∧ (g "posterior").isSome

/-- The object after a prediction at `x`: new data in the model, the sampler's groups added if asked for. -/
def Spec.after (S : Sampler G X C D n) (g : Groups G) (x : X) (extend : Bool) : Obj G X :=
  ⟨some (if extend then fun k => (S.groups x g k).or (g k) else g), some x⟩

open Spec

theorem samplePosterior_ready (S : Sampler G X C D n) {o : Obj G X} {g : Groups G} (h : ReadyFor o g) (x : X) (e : Bool) :
    samplePosterior S o x e = (after S g x e, .ok (S.arrays x g)) := by
  obtain ⟨h1, h2, h3⟩ := h
  unfold samplePosterior
  obtain ⟨d, hd⟩ := Option.isSome_iff_exists.1 h1
  obtain ⟨p, hp⟩ := Option.isSome_iff_exists.1 h3
  simp only [hd, h2, hp, Option.isNone_some, Bool.false_eq_true, if_false]
  rfl

theorem nanmean_some {ι : Type} [Fintype ι] [Nonempty ι] (f : ι → ℝ) :
    nanmean (fun k => some (f k)) = some ((∑ k, f k) / (Fintype.card ι : ℝ)) := by
  unfold nanmean
  rw [if_neg (by simp)]
  simp [Finset.card_univ]

/-- **C206.** `predict` returns for every row the plain average, over all chains and draws, of the output variable's draws that
`predict_posterior` returns for the same data (given that these are numbers). -/
theorem C206_predict_is_average (S : Sampler G X C D n) {o : Obj G X} {g : Groups G} (h : ReadyFor o g) (x : X) (e : Bool)
    (v : String) (a : Fin C → Fin D → Fin n → ℝ) (ha : S.arrays x g v = some fun c d i => some (a c d i)) (hC : 0 < C)
    (hD : 0 < D) :
    predict S v o x e = (after S g x e, .ok fun i => some ((∑ c, ∑ d, a c d i) / ((C : ℝ) * D))) ∧
      predictPosterior S some v o x e false = (after S g x e, .ok (.separate fun c d i => some (a c d i))) := by
  have : Nonempty (Fin C) := ⟨⟨0, hC⟩⟩
  have : Nonempty (Fin D) := ⟨⟨0, hD⟩⟩
  constructor
  · unfold predict
    rw [samplePosterior_ready S h]
    simp only [ha]
    refine congrArg₂ Prod.mk rfl (congrArg Except.ok (funext fun i => ?_))
    rw [nanmean_some (fun p : Fin C × Fin D => a p.1 p.2 i), Fintype.sum_prod_type]
    simp
  · unfold predictPosterior
    simp only [samplePosterior_ready S h]
    simp [ha]

/-- **C206.** With `combined=True`, entry `c·D + d` of the sample axis is draw `d` of chain `c`: every draw appears exactly
once. -/
theorem C206_combined_order (S : Sampler G X C D n) {o : Obj G X} {g : Groups G} (h : ReadyFor o g) (x : X) (e : Bool)
    (v : String) (a : Draws C D n) (ha : S.arrays x g v = some a) :
    ∃ b, predictPosterior S some v o x e true = (after S g x e, .ok (.combined b)) ∧
      (∀ i (s : Fin (C * D)) (c : Fin C) (d : Fin D), s.val = c.val * D + d.val → b i s = a c d i) ∧
      ∀ s : Fin (C * D), ∃! p : Fin C × Fin D, s.val = p.1.val * D + p.2.val := by
  refine ⟨stack a, ?_, ?_, ?_⟩
  · unfold predictPosterior
    simp only [samplePosterior_ready S h]
    simp [ha]
  · intro i s c d hs
    have : s = finProdFinEquiv (c, d) := by
      apply Fin.ext
      simp only [finProdFinEquiv_apply_val]
      rw [hs, Nat.mul_comm]; omega
    unfold stack
    rw [this, Equiv.symm_apply_apply]
  · intro s
    refine ⟨finProdFinEquiv.symm s, ?_, ?_⟩
    · have := congrArg Fin.val (Equiv.apply_symm_apply finProdFinEquiv s)
      rw [finProdFinEquiv_apply_val] at this
      simp only
      rw [← this, Nat.mul_comm D]
      simp; omega
    · rintro ⟨c, d⟩ hs
      rw [Equiv.eq_symm_apply]
      apply Fin.ext
      simp only at hs
      simp only [finProdFinEquiv_apply_val]
      rw [hs, Nat.mul_comm]; omega

/-- **C206.** NaN draws are silently left out of the point prediction: it times the number of other draws is the sum of the
others, and it is NaN only if every draw of that row is. -/
theorem C206_nan_draws_skipped (S : Sampler G X C D n) {o : Obj G X} {g : Groups G} (h : ReadyFor o g) (x : X) (e : Bool)
    (v : String) (a : Draws C D n) (ha : S.arrays x g v = some a) :
    ∃ m, predict S v o x e = (after S g x e, .ok m) ∧
      ∀ i, (m i = none ↔ ∀ c d, a c d i = none) ∧
        ∀ y, m i = some y → y * ((Finset.univ.filter fun p : Fin C × Fin D => (a p.1 p.2 i).isSome).card : ℝ) =
          ∑ c, ∑ d, (a c d i).getD 0 := by
  classical
  refine ⟨fun i => nanmean fun p : Fin C × Fin D => a p.1 p.2 i, ?_, ?_⟩
  · unfold predict
    rw [samplePosterior_ready S h]
    simp only [ha]
  · intro i
    constructor
    · simp only [nanmean]
      split
      · next hn => simp only [true_iff]; exact fun c d => hn (c, d)
      · next hn =>
        simp only [reduceCtorEq, false_iff]
        intro hall
        exact hn fun p => hall p.1 p.2
    · intro y hy
      simp only [nanmean] at hy
      split at hy
      · cases hy
      · next hn =>
        have hy := (Option.some.inj hy).symm
        rw [hy, ← Fintype.sum_prod_type (fun p : Fin C × Fin D => (a p.1 p.2 i).getD 0)]
        have he : (Finset.univ.filter fun p : Fin C × Fin D => (a p.1 p.2 i).isSome) =
            Finset.univ.filter fun p : Fin C × Fin D => a p.1 p.2 i ≠ none := by
          ext p
          simp [Option.isSome_iff_ne_none]
        rw [he]
        refine div_mul_cancel₀ _ ?_
        rw [Nat.cast_ne_zero, Finset.card_ne_zero]
        push Not at hn
        obtain ⟨p, hp⟩ := hn
        exact ⟨p, by simpa using hp⟩

/-- **C206.** A point prediction lies between the smallest and the largest draw of its row. -/
theorem C206_within_draws (S : Sampler G X C D n) {o : Obj G X} {g : Groups G} (h : ReadyFor o g) (x : X) (e : Bool)
    (v : String) (a : Fin C → Fin D → Fin n → ℝ) (ha : S.arrays x g v = some fun c d i => some (a c d i)) (hC : 0 < C)
    (hD : 0 < D) (lo hi : Fin n → ℝ) (hb : ∀ c d i, lo i ≤ a c d i ∧ a c d i ≤ hi i) :
    ∃ m : Fin n → ℝ, (predict S v o x e).2 = .ok (fun i => some (m i)) ∧ ∀ i, lo i ≤ m i ∧ m i ≤ hi i := by
  refine ⟨_, congrArg Prod.snd (C206_predict_is_average S h x e v a ha hC hD).1, fun i => ?_⟩
  have hC' : (0 : ℝ) < C := by exact_mod_cast hC
  have hD' : (0 : ℝ) < D := by exact_mod_cast hD
  constructor
  · rw [le_div_iff₀ (mul_pos hC' hD')]
    calc lo i * (C * D) = ∑ _c : Fin C, ∑ _d : Fin D, lo i := by simp; ring
      _ ≤ _ := Finset.sum_le_sum fun c _ => Finset.sum_le_sum fun d _ => (hb c d i).1
  · rw [div_le_iff₀ (mul_pos hC' hD')]
    calc _ ≤ ∑ _c : Fin C, ∑ _d : Fin D, hi i := Finset.sum_le_sum fun c _ => Finset.sum_le_sum fun d _ => (hb c d i).2
      _ = hi i * (C * D) := by simp; ring

/-- **C206.** For a linear model whose draws are `intercept + slope·x + noise`, the point prediction is the average intercept
plus the average slope times `x` plus the average of the noise that was drawn: it is itself random, not the posterior mean of
the regression line. -/
theorem C206_linear_model (S : Sampler G X C D n) {o : Obj G X} {g : Groups G} (h : ReadyFor o g) (x : X) (e : Bool)
    (v : String) (α β : Fin C → Fin D → ℝ) (ε : Fin C → Fin D → Fin n → ℝ) (row : Fin n → ℝ)
    (ha : S.arrays x g v = some fun c d i => some (α c d + β c d * row i + ε c d i)) (hC : 0 < C) (hD : 0 < D) :
    (predict S v o x e).2 = .ok fun i => some ((∑ c, ∑ d, α c d) / ((C : ℝ) * D) + (∑ c, ∑ d, β c d) / ((C : ℝ) * D) * row i +
      (∑ c, ∑ d, ε c d i) / ((C : ℝ) * D)) := by
  rw [congrArg Prod.snd (C206_predict_is_average S h x e v _ ha hC hD).1]
  refine congrArg Except.ok (funext fun i => congrArg some ?_)
  simp only [Finset.sum_add_distrib, ← Finset.sum_mul]
  ring

/-- **C206.** If the output variable is not among the sampled arrays both methods raise KeyError, but only after the model's
data were replaced and, if asked for, the inference data extended: the object is the one a successful call leaves. -/
theorem C206_missing_output (S : Sampler G X C D n) {o : Obj G X} {g : Groups G} (h : ReadyFor o g) (x : X) (e b : Bool)
    (v : String) (ha : S.arrays x g v = none) :
    predict S v o x e = (after S g x e, .error .keyError) ∧
      predictPosterior S some v o x e b = (after S g x e, .error .keyError) := by
  constructor
  · unfold predict
    rw [samplePosterior_ready S h]
    simp only [ha]
  · unfold predictPosterior
    simp only [samplePosterior_ready S h]
    simp only [ha]

/-- **C206.** Data that scikit-learn's validation refuses are refused by `predict_posterior` before anything changes; `predict`
does not validate and gives the sampler whatever it was given. -/
theorem C206_validation (S : Sampler G X C D n) (validate : X → Option X) {o : Obj G X} {g : Groups G} (h : ReadyFor o g)
    (x : X) (e b : Bool) (v : String) (hx : validate x = none) :
    predictPosterior S validate v o x e b = (o, .error .invalidData) ∧ (predict S v o x e).1 = after S g x e := by
  constructor
  · simp only [predictPosterior, hx]
  · unfold predict
    rw [samplePosterior_ready S h]
    simp only
    split <;> rfl

/-- **C206.** Before `fit` (no model, no inference data, or no posterior) both methods raise; if the model exists its data are
replaced all the same. -/
theorem C206_before_fit (S : Sampler G X C D n) (o : Obj G X) (x : X) (e b : Bool) (v : String)
    (h : ∀ g, o.idata = some g → g "posterior" = none) :
    (predict S v o x e).2 = .error .attributeError ∧ (predictPosterior S some v o x e b).2 = .error .attributeError ∧
      (predict S v o x e).1 = ⟨o.idata, o.data.map fun _ => x⟩ := by
  have hs : samplePosterior S o x e = (⟨o.idata, o.data.map fun _ => x⟩, .error .attributeError) := by
    obtain ⟨idata, data⟩ := o
    unfold samplePosterior
    cases data with
    | none => rfl
    | some y =>
      cases idata with
      | none => rfl
      | some g => simp [h g rfl]
  refine ⟨?_, ?_, ?_⟩
  · unfold predict; rw [hs]
  · unfold predictPosterior; simp only [hs]
  · unfold predict; rw [hs]

/-- **C206.** The alias `predict_proba` is the same function with another default: without `combined` it returns separate
chain and draw axes where `predict_posterior` returns one sample axis. -/
theorem C206_proba_default (S : Sampler G X C D n) {o : Obj G X} {g : Groups G} (h : ReadyFor o g) (x : X) (e : Bool)
    (v : String) (a : Draws C D n) (ha : S.arrays x g v = some a) :
    (predictPosterior S some v o x e predictProbaDefault).2 = .ok (.separate a) ∧
      ∃ b, (predictPosterior S some v o x e predictPosteriorDefault).2 = .ok (.combined b) := by
  constructor
  · unfold predictPosterior
    simp only [samplePosterior_ready S h]
    simp [ha, predictProbaDefault]
  · obtain ⟨b, hb, _⟩ := C206_combined_order S h x e v a ha
    exact ⟨b, congrArg Prod.snd hb⟩

/-! ### A concrete sampler -/

/-- Two chains of two draws for one row: 1, 2, 3, 6. -/
def demoSampler : Sampler ℕ ℕ 2 2 1 where
  groups _ _ := fun k => if k = "posterior_predictive" then some 9 else none
  arrays _ _ := fun k => if k = "y" then some fun c d _ => some (if c = 0 then (if d = 0 then 1 else 2) else if d = 0 then 3 else 6)
    else none

/-- A fitted object. -/
def demoObj : Obj ℕ ℕ := ⟨some fun k => if k = "posterior" then some 1 else none, some 5⟩

theorem demoObj_ready : ReadyFor demoObj fun k => if k = "posterior" then some 1 else none := ⟨rfl, rfl, rfl⟩

/-- The point prediction is 3. -/
example : (predict demoSampler "y" demoObj 8 true).2 = .ok fun _ => some 3 := by
  have := (C206_predict_is_average demoSampler demoObj_ready 8 true "y"
    (fun c d _ => if c = 0 then (if d = 0 then 1 else 2) else if d = 0 then 3 else 6) rfl (by decide) (by decide)).1
  rw [this]
  refine congrArg Except.ok (funext fun i => congrArg some ?_)
  simp [Fin.sum_univ_two]
  norm_num

/-- The wrong name raises KeyError. -/
example : (predict demoSampler "z" demoObj 8 true).2 = .error .keyError :=
  congrArg Prod.snd (C206_missing_output demoSampler demoObj_ready 8 true true "z" rfl).1

end Builder
