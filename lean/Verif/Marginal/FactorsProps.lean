import Verif.Marginal.Factors
import Verif.Marginal.LogpLemmas

/-! # C42, C47, C101: several marginalised variables, and their recovery -/

set_option autoImplicit false

namespace Marginal

open scoped BigOperators ENNReal

/-! ### Specification -/

/-- All ways of replacing the values of the variables `xs` by values of their domains. -/
def assigns (dom : ℕ → List ℤ) : List ℕ → Asg → List Asg
  | [], σ => [σ]
  | x :: xs, σ => (dom x).flatMap (fun k => assigns dom xs (upd σ x k))

/-- The dependency lists are right with respect to `w`: a log-probability can only involve the value
of `w` if it is `w`'s own or `w` is listed among the variable's inputs. -/
def SoundFor (rvs : List Rv) (w : ℕ) : Prop :=
  ∀ r ∈ rvs, r.name ≠ w → w ∉ r.parents → ∀ σ k, r.logp (upd σ w k) = r.logp σ

/-! ### Lemmas -/

theorem upd_comm {x w : ℕ} (h : x ≠ w) (σ : Asg) (k k' : ℤ) :
    upd (upd σ w k) x k' = upd (upd σ x k') w k := by
  funext y
  unfold upd
  by_cases h1 : y = x
  · subst h1
    rw [if_pos rfl, if_neg h, if_pos rfl]
  · rw [if_neg h1]
    by_cases h2 : y = w
    · rw [if_pos h2, if_pos h2]
    · rw [if_neg h2, if_neg h2, if_neg h1]

theorem sum_split {α M : Type} [AddCommMonoid M] (l : List α) (p : α → Bool) (f : α → M) :
    (l.map f).sum = ((l.filter p).map f).sum + ((l.filter (fun a => !p a)).map f).sum := by
  induction l with
  | nil => simp
  | cons a l ih =>
    by_cases h : p a = true
    · simp [h, ih, add_assoc]
    · have h' : p a = false := by simpa using h
      simp [h', ih, add_left_comm]

theorem sum_zero_of {α M : Type} [AddCommMonoid M] (l : List α) (f : α → M)
    (h : ∀ a ∈ l, f a = 0) : (l.map f).sum = 0 := by
  induction l with
  | nil => rfl
  | cons a l ih => simp [h a (by simp), ih (fun b hb => h b (by simp [hb]))]

theorem filterMap_sum {α β M : Type} [AddCommMonoid M] (l : List α) (g : α → Option β) (f : β → M) :
    ((l.filterMap g).map f).sum = (l.map (fun a => (g a).elim 0 f)).sum := by
  induction l with
  | nil => rfl
  | cons a l ih =>
    cases h : g a with
    | none => simp [List.filterMap_cons, h, ih]
    | some b => simp [List.filterMap_cons, h, ih]

theorem sum_map_flatMap {α β M : Type} [AddCommMonoid M] (l : List α) (g : α → List β) (f : β → M) :
    ((l.flatMap g).map f).sum = (l.map (fun a => ((g a).map f).sum)).sum := by
  induction l with
  | nil => rfl
  | cons a l ih => simp [List.flatMap_cons, ih]

theorem name_inj {rvs : List Rv} (hnd : (rvs.map Rv.name).Nodup) {r r' : Rv} (hr : r ∈ rvs)
    (hr' : r' ∈ rvs) (h : r.name = r'.name) : r = r' :=
  List.inj_on_of_nodup_map hnd hr hr' h

theorem filter_name_eq {rvs : List Rv} (hnd : (rvs.map Rv.name).Nodup) {rx : Rv} (hx : rx ∈ rvs) :
    rvs.filter (fun r => decide (r.name = rx.name)) = [rx] := by
  classical
  have hrn : rvs.Nodup := List.Nodup.of_map _ hnd
  have : rvs.filter (fun r => decide (r.name = rx.name)) = rvs.filter (fun r => decide (r = rx)) := by
    apply List.filter_congr
    intro r hr
    apply decide_eq_decide.2
    exact ⟨fun h => name_inj hnd hr hx h, fun h => by rw [h]⟩
  rw [this, List.filter_eq, List.count_eq_one_of_mem hrn hx]
  rfl

/-- Total log-probability split into the variable, its dependents and the others. -/
theorem total_split {rvs : List Rv} (hnd : (rvs.map Rv.name).Nodup) {rx : Rv} (hx : rx ∈ rvs)
    (f : Rv → EReal) :
    (rvs.map f).sum = f rx + ((dependents rvs rx.name).map f).sum
      + ((rvs.filter (fun r => decide (r.name ≠ rx.name) && !decide (rx.name ∈ r.parents))).map f).sum := by
  rw [sum_split rvs (fun r => decide (r.name = rx.name)), filter_name_eq hnd hx,
    sum_split (rvs.filter _) (fun r => decide (rx.name ∈ r.parents)), List.filter_filter,
    List.filter_filter]
  simp only [List.map_cons, List.map_nil, List.sum_cons, List.sum_nil, add_zero]
  rw [add_assoc]
  congr 2
  · congr 2
    unfold dependents
    apply List.filter_congr
    intro r _
    simp [Bool.and_comm]
  · congr 2
    apply List.filter_congr
    intro r _
    simp [Bool.and_comm]

/-- One marginalisation sums the joint over the variable. -/
theorem marginalizeOne_total {dom : ℕ → List ℤ} {dets : List (List ℕ)} {rvs rvs' : List Rv} {x : ℕ}
    (hnd : (rvs.map Rv.name).Nodup) (hx : x ∈ rvs.map Rv.name) (hs : SoundFor rvs x)
    (h : marginalizeOne dom dets rvs x = .ok rvs') (σ : Asg) :
    EReal.exp (total rvs' σ) = ((dom x).map (fun k => EReal.exp (total rvs (upd σ x k)))).sum := by
  unfold marginalizeOne at h
  by_cases hd : dets.any (fun d => d.contains x) = true
  · rw [if_pos hd] at h; exact absurd h (by simp)
  rw [if_neg hd] at h
  obtain ⟨rx0, hrx0, hrx0n⟩ := List.mem_map.1 hx
  cases hf : rvs.find? (fun r => r.name = x) with
  | none =>
    rw [List.find?_eq_none] at hf
    exact absurd hrx0n (by simpa using hf rx0 hrx0)
  | some rx =>
    have hrx : rx ∈ rvs := List.mem_of_find?_eq_some hf
    have hrxn : rx.name = x := by simpa using List.find?_some hf
    subst hrxn
    rw [hf] at h
    cases hdep : dependents rvs rx.name with
    | nil => rw [hdep] at h; exact absurd h (by simp)
    | cons d0 ds =>
      rw [hdep] at h
      injection h with h
      subst h
      have hdmem : ∀ d ∈ d0 :: ds, d ∈ rvs ∧ d.name ≠ rx.name ∧ rx.name ∈ d.parents := by
        intro d hd'
        rw [← hdep] at hd'
        unfold dependents at hd'
        rw [List.mem_filter, Bool.and_eq_true] at hd'
        exact ⟨hd'.1, by simpa using hd'.2.1, by simpa using hd'.2.2⟩
      have hdnd : (((d0 :: ds)).map Rv.name).Nodup := by
        rw [← hdep]
        unfold dependents
        exact hnd.sublist (List.Sublist.map _ List.filter_sublist)
      set others := rvs.filter (fun r => decide (r.name ≠ rx.name) && !decide (rx.name ∈ r.parents))
        with hothers
      have htotal' : total (rvs.filterMap (replaceRv (dom rx.name) rx d0 ds)) σ
          = jointOver (dom rx.name) rx (d0 :: ds) σ + (others.map (fun r => r.logp σ)).sum := by
        unfold total
        rw [filterMap_sum, total_split hnd hrx, hdep]
        have e0 : (replaceRv (dom rx.name) rx d0 ds rx).elim 0 (fun b => b.logp σ) = 0 := by
          simp [replaceRv]
        rw [e0, zero_add]
        congr 1
        · rw [List.map_cons, List.sum_cons]
          have e1 : (replaceRv (dom rx.name) rx d0 ds d0).elim 0 (fun b => b.logp σ)
              = jointOver (dom rx.name) rx (d0 :: ds) σ := by
            simp [replaceRv, (hdmem d0 (by simp)).2.1]
          rw [e1, sum_zero_of, add_zero]
          intro d hd'
          have hne : d.name ≠ d0.name := by
            simp only [List.map_cons, List.nodup_cons] at hdnd
            rintro heq
            exact hdnd.1 (heq ▸ List.mem_map_of_mem hd')
          have hin : ∃ a ∈ ds, a.name = d.name := ⟨d, hd', rfl⟩
          simp [replaceRv, (hdmem d (by simp [hd'])).2.1, hne, hin]
        · congr 1
          apply List.map_congr_left
          intro r hr
          rw [List.mem_filter, Bool.and_eq_true] at hr
          have h1 : r.name ≠ rx.name := by simpa using hr.2.1
          have h2 : rx.name ∉ r.parents := by simpa using hr.2.2
          have h3 : ∀ d ∈ d0 :: ds, r.name ≠ d.name := by
            intro d hd' heq
            have := name_inj hnd hr.1 (hdmem d hd').1 heq
            subst this
            exact h2 (hdmem _ hd').2.2
          have h4 : ¬ ∃ a ∈ ds, a.name = r.name := by
            rintro ⟨a, ha, hae⟩
            exact h3 a (by simp [ha]) hae.symm
          simp [replaceRv, h1, h3 d0 (by simp), h4]
      rw [htotal', EReal.exp_add, jointOver, exp_logsumexp, List.map_map, ← List.sum_map_mul_right]
      congr 1
      apply List.map_congr_left
      intro k _
      have hind : (others.map (fun r => r.logp σ)).sum
          = (others.map (fun r => r.logp (upd σ rx.name k))).sum := by
        congr 1
        apply List.map_congr_left
        intro r hr
        rw [hothers, List.mem_filter, Bool.and_eq_true] at hr
        rw [hs r hr.1 (by simpa using hr.2.1) (by simpa using hr.2.2)]
      rw [hind]
      unfold total
      rw [total_split hnd hrx (fun r => r.logp (upd σ rx.name k)), hdep]
      simp only [Function.comp, EReal.exp_add]
      rfl

/-- What a marginalisation does to names, dependency lists and soundness. -/
theorem marginalizeOne_inv {dom : ℕ → List ℤ} {dets : List (List ℕ)} {rvs rvs' : List Rv} {x : ℕ}
    (topo : ℕ → ℕ) (left : List ℕ)
    (hnd : (rvs.map Rv.name).Nodup) (hx : x ∈ rvs.map Rv.name)
    (hleft : ∀ w ∈ left, topo w < topo x)
    (htopo : ∀ r ∈ rvs, r.name ∈ left → ∀ p ∈ r.parents, topo p < topo r.name)
    (hin : ∀ w ∈ left, w ∈ rvs.map Rv.name)
    (hs : ∀ w ∈ left, SoundFor rvs w)
    (h : marginalizeOne dom dets rvs x = .ok rvs') :
    (rvs'.map Rv.name).Nodup ∧ (∀ w ∈ left, w ∈ rvs'.map Rv.name) ∧
    (∀ r ∈ rvs', r.name ∈ left → ∀ p ∈ r.parents, topo p < topo r.name) ∧
    (∀ w ∈ left, SoundFor rvs' w) := by
  unfold marginalizeOne at h
  by_cases hd : dets.any (fun d => d.contains x) = true
  · rw [if_pos hd] at h; exact absurd h (by simp)
  rw [if_neg hd] at h
  obtain ⟨rx0, hrx0, hrx0n⟩ := List.mem_map.1 hx
  cases hf : rvs.find? (fun r => r.name = x) with
  | none =>
    rw [List.find?_eq_none] at hf
    exact absurd hrx0n (by simpa using hf rx0 hrx0)
  | some rx =>
    have hrx : rx ∈ rvs := List.mem_of_find?_eq_some hf
    have hrxn : rx.name = x := by simpa using List.find?_some hf
    subst hrxn
    rw [hf] at h
    cases hdep : dependents rvs rx.name with
    | nil => rw [hdep] at h; exact absurd h (by simp)
    | cons d0 ds =>
      rw [hdep] at h
      injection h with h
      subst h
      have hdmem : ∀ d ∈ d0 :: ds, d ∈ rvs ∧ d.name ≠ rx.name ∧ rx.name ∈ d.parents := by
        intro d hd'
        rw [← hdep] at hd'
        unfold dependents at hd'
        rw [List.mem_filter, Bool.and_eq_true] at hd'
        exact ⟨hd'.1, by simpa using hd'.2.1, by simpa using hd'.2.2⟩
      have hdleft : ∀ d ∈ d0 :: ds, d.name ∉ left := by
        intro d hd' hl
        have h1 := hleft _ hl
        have h2 := htopo d (hdmem d hd').1 hl _ (hdmem d hd').2.2
        omega
      have hxleft : rx.name ∉ left := fun hl => absurd (hleft _ hl) (lt_irrefl _)
      -- description of the new variables
      have hdesc : ∀ r' ∈ rvs.filterMap (replaceRv (dom rx.name) rx d0 ds),
          (∃ d ∈ d0 :: ds, r'.name = d.name ∧ r'.parents = newInputs rx (d0 :: ds) ∧
            (r'.logp = jointOver (dom rx.name) rx (d0 :: ds) ∨ r'.logp = fun _ => 0)) ∨
          r' ∈ rvs := by
        intro r' hr'
        rw [List.mem_filterMap] at hr'
        obtain ⟨r, hr, hrr⟩ := hr'
        unfold replaceRv at hrr
        by_cases h1 : r.name = rx.name
        · rw [if_pos h1] at hrr; simp at hrr
        · rw [if_neg h1] at hrr
          by_cases h2 : r.name = d0.name
          · rw [if_pos h2] at hrr
            injection hrr with hrr
            left
            exact ⟨d0, by simp, by rw [← hrr]; exact h2, by rw [← hrr], Or.inl (by rw [← hrr])⟩
          · rw [if_neg h2] at hrr
            by_cases h3 : r.name ∈ ds.map Rv.name
            · rw [if_pos h3] at hrr
              injection hrr with hrr
              left
              obtain ⟨d, hd', hdn⟩ := List.mem_map.1 h3
              exact ⟨d, by simp [hd'], by rw [← hrr]; exact hdn.symm, by rw [← hrr],
                Or.inr (by rw [← hrr])⟩
            · rw [if_neg h3] at hrr
              injection hrr with hrr
              right
              rw [← hrr]; exact hr
      have hnames : (rvs.filterMap (replaceRv (dom rx.name) rx d0 ds)).map Rv.name
          = (rvs.map Rv.name).filter (fun a => decide (a ≠ rx.name)) := by
        have hgen : ∀ l : List Rv, (l.filterMap (replaceRv (dom rx.name) rx d0 ds)).map Rv.name
            = (l.map Rv.name).filter (fun a => decide (a ≠ rx.name)) := by
          intro l
          induction l with
          | nil => rfl
          | cons r l ih =>
            rw [List.filterMap_cons, List.map_cons, List.filter_cons]
            by_cases h1 : r.name = rx.name
            · simp [replaceRv, h1] at ih ⊢
              exact ih
            · have hsome : ∃ r', replaceRv (dom rx.name) rx d0 ds r = some r' ∧ r'.name = r.name := by
                unfold replaceRv
                rw [if_neg h1]
                split
                · exact ⟨_, rfl, rfl⟩
                · split
                  · exact ⟨_, rfl, rfl⟩
                  · exact ⟨_, rfl, rfl⟩
              obtain ⟨r', hr', hn'⟩ := hsome
              simp only [hr', List.map_cons, hn']
              rw [if_pos (by simpa using h1), ih]
        exact hgen rvs
      refine ⟨?_, ?_, ?_, ?_⟩
      · rw [hnames]; exact hnd.filter _
      · intro w hw
        rw [hnames, List.mem_filter]
        refine ⟨hin w hw, ?_⟩
        simp only [decide_eq_true_eq]
        rintro rfl
        exact hxleft hw
      · intro r' hr' hl p hp
        rcases hdesc r' hr' with ⟨d, hd', hn, _⟩ | hmem
        · exact absurd (hn ▸ hl) (hdleft d hd')
        · exact htopo r' hmem hl p hp
      · intro w hw r' hr' hne hpar σ k
        have hwx : rx.name ≠ w := by rintro rfl; exact hxleft hw
        rcases hdesc r' hr' with ⟨d, hd', hn, hp, hl | hl⟩ | hmem
        · rw [hl]
          unfold jointOver
          congr 1
          apply List.map_congr_left
          intro k' _
          rw [hp] at hpar
          have hnotin : w ∉ rx.parents ∧ ∀ e ∈ d0 :: ds, w ∉ e.parents := by
            have hwd : w ∉ (d0 :: ds).map Rv.name := by
              intro hm
              obtain ⟨e, he, hen⟩ := List.mem_map.1 hm
              exact hdleft e he (hen ▸ hw)
            unfold newInputs at hpar
            rw [List.mem_filter] at hpar
            have hcond : (decide (w ≠ rx.name) && decide (w ∉ (d0 :: ds).map Rv.name)) = true := by
              rw [Bool.and_eq_true]
              exact ⟨by simpa using fun hh => hwx hh.symm, by simpa using hwd⟩
            refine ⟨fun hm => hpar ⟨List.mem_append_left _ hm, hcond⟩, fun e he hm => hpar
              ⟨List.mem_append_right _ (List.mem_flatMap.2 ⟨e, he, hm⟩), hcond⟩⟩
          rw [upd_comm hwx, hs w hw rx hrx hwx hnotin.1]
          congr 2
          apply List.map_congr_left
          intro e he
          have hew : e.name ≠ w := by rintro rfl; exact hdleft e he hw
          rw [hs w hw e (hdmem e he).1 hew (hnotin.2 e he)]
        · rw [hl]
        · exact hs w hw r' hmem hne hpar σ k

/-- The loop sums the joint over all assignments. -/
theorem marginalizeLoop_total (dom : ℕ → List ℤ) (dets : List (List ℕ)) (topo : ℕ → ℕ) :
    ∀ (xs : List ℕ) (rvs rvs' : List Rv),
    (rvs.map Rv.name).Nodup → (∀ x ∈ xs, x ∈ rvs.map Rv.name) →
    xs.Pairwise (fun a b => topo b < topo a) →
    (∀ r ∈ rvs, r.name ∈ xs → ∀ p ∈ r.parents, topo p < topo r.name) →
    (∀ w ∈ xs, SoundFor rvs w) →
    marginalizeLoop dom dets xs rvs = .ok rvs' →
    ∀ σ, EReal.exp (total rvs' σ)
      = ((assigns dom xs.reverse σ).map (fun τ => EReal.exp (total rvs τ))).sum := by
  intro xs
  induction xs with
  | nil =>
    intro rvs rvs' _ _ _ _ _ h σ
    injection h with h
    subst h
    simp [assigns]
  | cons x xs ih =>
    intro rvs rvs' hnd hin hpw htopo hs h σ
    rw [marginalizeLoop] at h
    cases h1 : marginalizeOne dom dets rvs x with
    | error e => rw [h1] at h; exact absurd h (by simp [bind, Except.bind])
    | ok rvs1 =>
      rw [h1] at h
      change marginalizeLoop dom dets xs rvs1 = .ok rvs' at h
      rw [List.pairwise_cons] at hpw
      obtain ⟨i1, i2, i3, i4⟩ := marginalizeOne_inv topo xs hnd (hin x (by simp)) hpw.1
        (fun r hr hl => htopo r hr (by simp [hl])) (fun w hw => hin w (by simp [hw]))
        (fun w hw => hs w (by simp [hw])) h1
      rw [ih rvs1 rvs' i1 i2 hpw.2 i3 i4 h σ]
      have hone : ∀ τ, EReal.exp (total rvs1 τ)
          = ((dom x).map (fun k => EReal.exp (total rvs (upd τ x k)))).sum := fun τ =>
        marginalizeOne_total hnd (hin x (by simp)) (hs x (by simp)) h1 τ
      simp only [hone]
      -- assignments of a list with one more variable at the end
      have hsnoc : ∀ (ys : List ℕ) (σ : Asg), assigns dom (ys ++ [x]) σ
          = (assigns dom ys σ).flatMap (fun τ => (dom x).map (fun k => upd τ x k)) := by
        intro ys
        induction ys with
        | nil =>
          intro σ
          simp only [List.nil_append, assigns, List.flatMap_cons, List.flatMap_nil, List.append_nil]
          induction dom x with
          | nil => rfl
          | cons a l ihl => simp only [List.flatMap_cons, List.map_cons, ihl]; rfl
        | cons y ys ihy =>
          intro σ
          rw [List.cons_append, assigns, assigns, List.flatMap_assoc]
          congr 1
          funext k
          exact ihy _
      rw [List.reverse_cons, hsnoc, sum_map_flatMap]
      congr 1
      apply List.map_congr_left
      intro τ _
      rw [List.map_map]
      rfl

theorem sum_map_comm {α β M : Type} [AddCommMonoid M] (l : List α) (m : List β) (f : α → β → M) :
    (l.map (fun a => (m.map (fun b => f a b)).sum)).sum
      = (m.map (fun b => (l.map (fun a => f a b)).sum)).sum := by
  induction l with
  | nil => simp
  | cons a l ih => simp [ih, List.sum_map_add]

/-- The sum over assignments does not depend on the order in which the variables are listed. -/
theorem assigns_perm (dom : ℕ → List ℤ) {M : Type} [AddCommMonoid M] (f : Asg → M) {xs ys : List ℕ}
    (h : xs.Perm ys) : ∀ σ, ((assigns dom xs σ).map f).sum = ((assigns dom ys σ).map f).sum := by
  induction h with
  | nil => intro σ; rfl
  | cons x _ ih =>
    intro σ
    simp only [assigns, sum_map_flatMap]
    congr 1
    apply List.map_congr_left
    intro k _
    exact ih _
  | swap x y l =>
    intro σ
    simp only [assigns, sum_map_flatMap]
    by_cases hxy : x = y
    · subst hxy; rfl
    · rw [sum_map_comm]
      congr 1
      apply List.map_congr_left
      intro k _
      congr 1
      apply List.map_congr_left
      intro k' _
      rw [upd_comm hxy]
  | trans _ _ ih1 ih2 => intro σ; rw [ih1, ih2]

theorem processingOrder_perm (topo : ℕ → ℕ) (xs : List ℕ) : (processingOrder topo xs).Perm xs :=
  List.mergeSort_perm _ _

theorem processingOrder_pairwise (topo : ℕ → ℕ) (xs : List ℕ) :
    (processingOrder topo xs).Pairwise (fun a b => topo b ≤ topo a) := by
  have := List.pairwise_mergeSort (le := fun a b => decide (topo b ≤ topo a))
    (by intro a b c h1 h2; simp only [decide_eq_true_eq] at *; omega)
    (by intro a b; simp only [Bool.or_eq_true, decide_eq_true_eq]; omega) xs
  unfold processingOrder
  exact this.imp (fun h => by simpa using h)

theorem processingOrder_strict {topo : ℕ → ℕ} {xs : List ℕ} (hnd : xs.Nodup)
    (hinj : ∀ a ∈ xs, ∀ b ∈ xs, topo a = topo b → a = b) :
    (processingOrder topo xs).Pairwise (fun a b => topo b < topo a) := by
  have h1 := processingOrder_pairwise topo xs
  have h2 : (processingOrder topo xs).Nodup := (processingOrder_perm topo xs).nodup_iff.2 hnd
  have h3 := h1.and h2
  refine h3.imp_of_mem (fun {a b} ha hb h => ?_)
  have ha' := (processingOrder_perm topo xs).mem_iff.1 ha
  have hb' := (processingOrder_perm topo xs).mem_iff.1 hb
  rcases Nat.lt_or_ge (topo b) (topo a) with hlt | hge
  · exact hlt
  · exact absurd (hinj a ha' b hb' (le_antisymm hge h.1)) h.2

/-! ### C42 -/

/-- **C42.** Whatever the order in which the user lists the variables, a successful marginalisation
yields a model whose density, at any values of the variables, is the sum of the original joint density
over all joint assignments of the marginalised variables to values of their domains.  Hypotheses:
distinct names; the variables to marginalise are distinct and in the model; `topo` is a topological
order (parents of a variable to marginalise come before it); dependency lists are right. -/
theorem C42_sum_over_joint_assignments {dom : ℕ → List ℤ} {dets : List (List ℕ)} {topo : ℕ → ℕ}
    {xs : List ℕ} {rvs rvs' : List Rv}
    (hnames : (rvs.map Rv.name).Nodup) (hxs : xs.Nodup) (hin : ∀ x ∈ xs, x ∈ rvs.map Rv.name)
    (hinj : ∀ a ∈ xs, ∀ b ∈ xs, topo a = topo b → a = b)
    (htopo : ∀ r ∈ rvs, r.name ∈ xs → ∀ p ∈ r.parents, topo p < topo r.name)
    (hsound : ∀ x ∈ xs, SoundFor rvs x)
    (h : marginalizeAll dom dets topo xs rvs = .ok rvs') (σ : Asg) :
    EReal.exp (total rvs' σ)
      = ((assigns dom xs σ).map (fun τ => EReal.exp (total rvs τ))).sum := by
  have hp := processingOrder_perm topo xs
  rw [marginalizeLoop_total dom dets topo (processingOrder topo xs) rvs rvs' hnames
    (fun x hx => hin x (hp.mem_iff.1 hx)) (processingOrder_strict hxs hinj)
    (fun r hr hx => htopo r hr (hp.mem_iff.1 hx)) (fun w hw => hsound w (hp.mem_iff.1 hw)) h σ]
  exact assigns_perm dom _ ((List.reverse_perm _).trans hp) σ

/-- **C42.** The order of the user's list does not matter at all: outcome, error and resulting model
are identical. -/
theorem C42_order_independent (dom : ℕ → List ℤ) (dets : List (List ℕ)) {topo : ℕ → ℕ}
    {xs ys : List ℕ} (rvs : List Rv) (hp : xs.Perm ys) (hxs : xs.Nodup)
    (hinj : ∀ a ∈ xs, ∀ b ∈ xs, topo a = topo b → a = b) :
    marginalizeAll dom dets topo xs rvs = marginalizeAll dom dets topo ys rvs := by
  unfold marginalizeAll
  have hperm : (processingOrder topo xs).Perm (processingOrder topo ys) :=
    (processingOrder_perm topo xs).trans (hp.trans (processingOrder_perm topo ys).symm)
  have h1 := processingOrder_strict hxs hinj
  have h2 := processingOrder_strict (topo := topo) (hp.nodup_iff.1 hxs)
    (fun a ha b hb => hinj a (hp.mem_iff.2 ha) b (hp.mem_iff.2 hb))
  rw [List.Perm.eq_of_pairwise (fun a b _ _ hab hba => absurd (lt_trans hab hba) (lt_irrefl _))
    h1 h2 hperm]

end Marginal
