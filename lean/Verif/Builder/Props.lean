import Verif.Builder.Model

/-! # C52, C53: saving and loading -/

set_option autoImplicit false

namespace Builder

/-! ### Specification -/

mutual
/-- No tuple and no array anywhere: the values JSON can represent. -/
def native : Val → Bool
  | .list l => nativeList l
  | .tuple _ => false
  | .arr _ _ => false
  | .dict l => nativePairs l
  | _ => true
/-- Elementwise. -/
def nativeList : List Val → Bool
  | [] => true
  | v :: l => native v && nativeList l
/-- On items. -/
def nativePairs : List (String × Val) → Bool
  | [] => true
  | (_, v) :: l => native v && nativePairs l
end

/-- Is a list. -/
def isList : Val → Bool
  | .list _ => true
  | _ => false

/-- Is a dictionary. -/
def isDict : Val → Bool
  | .dict _ => true
  | _ => false

/-- An allowed entry of a sub-dictionary: a JSON value that is not a list, an array of the default
dtype under a key other than `dims`, or a tuple under `dims`. -/
inductive SubOk (dtypeOf : List Val → String) : String → Val → Prop
  | plain (k v) : native v = true → isList v = false → SubOk dtypeOf k v
  | array (k l) : k ≠ "dims" → nativeList l = true → SubOk dtypeOf k (.arr (dtypeOf l) l)
  | dims (l) : nativeList l = true → SubOk dtypeOf "dims" (.tuple l)

/-- An allowed top-level value: a JSON value that is not a dictionary, or a dictionary of allowed
entries. -/
inductive TopOk (dtypeOf : List Val → String) : Val → Prop
  | plain (v) : native v = true → isDict v = false → TopOk dtypeOf v
  | dict (l) : (∀ p ∈ l, SubOk dtypeOf p.1 p.2) → TopOk dtypeOf (.dict l)

/-- Arrays replaced by nested lists (`ndarray.tolist`): what a subclass's serialisable configuration
is expected to contain. -/
def tolist : Val → Val
  | .arr _ l => .list l
  | v => v

/-- The serialisable form of a configuration: arrays at top level and in sub-dictionaries are
converted. -/
def serialised (c : Config) : Config :=
  c.map (fun p => (p.1, match p.2 with
    | .dict l => .dict (l.map (fun q => (q.1, tolist q.2)))
    | v => tolist v))

/-! ### JSON lemmas -/

mutual
theorem jsonTrip_native : ∀ v : Val, native v = true → jsonTrip v = .ok v
  | .none, _ => rfl
  | .bool _, _ => rfl
  | .int _, _ => rfl
  | .float _, _ => rfl
  | .str _, _ => rfl
  | .list l, h => by
      rw [native] at h
      rw [jsonTrip, jsonTripList_native l h]; rfl
  | .tuple l, h => by simp [native] at h
  | .arr _ _, h => by simp [native] at h
  | .dict l, h => by
      rw [native] at h
      rw [jsonTrip, jsonTripPairs_native l h]; rfl
theorem jsonTripList_native : ∀ l : List Val, nativeList l = true → jsonTripList l = .ok l
  | [], _ => rfl
  | v :: l, h => by
      rw [nativeList, Bool.and_eq_true] at h
      rw [jsonTripList, jsonTrip_native v h.1, jsonTripList_native l h.2]; rfl
theorem jsonTripPairs_native : ∀ l : List (String × Val), nativePairs l = true →
    jsonTripPairs l = .ok l
  | [], _ => rfl
  | (k, v) :: l, h => by
      rw [nativePairs, Bool.and_eq_true] at h
      rw [jsonTripPairs, jsonTrip_native v h.1, jsonTripPairs_native l h.2]; rfl
end

/-- Items after the trip, given the trip of each value. -/
theorem jsonTripPairs_map (l : List (String × Val)) (f : String → Val → Val)
    (g : String → Val → Val) (h : ∀ p ∈ l, jsonTrip (f p.1 p.2) = .ok (g p.1 p.2)) :
    jsonTripPairs (l.map (fun p => (p.1, f p.1 p.2))) = .ok (l.map (fun p => (p.1, g p.1 p.2))) := by
  induction l with
  | nil => rfl
  | cons p l ih =>
    rw [List.map_cons, jsonTripPairs, h p (by simp), ih (fun q hq => h q (by simp [hq]))]
    rfl

/-- What a value of a sub-dictionary is in the file. -/
def stored : Val → Val
  | .arr _ l => .list l
  | .tuple l => .list l
  | v => v

theorem sub_trip {dtypeOf : List Val → String} {k : String} {v : Val} (h : SubOk dtypeOf k v) :
    jsonTrip (tolist v) = .ok (stored v) ∧ formatSub dtypeOf k (stored v) = v := by
  cases h with
  | plain _ _ h1 h2 =>
    cases v with
    | list l => simp [isList] at h2
    | tuple l => simp [native] at h1
    | arr d l => simp [native] at h1
    | dict l => exact ⟨jsonTrip_native _ h1, rfl⟩
    | none => exact ⟨rfl, rfl⟩
    | bool b => exact ⟨rfl, rfl⟩
    | int b => exact ⟨rfl, rfl⟩
    | float b => exact ⟨rfl, rfl⟩
    | str b => exact ⟨rfl, rfl⟩
  | array _ l h1 h2 =>
    refine ⟨?_, ?_⟩
    · show jsonTrip (.list l) = _
      rw [jsonTrip, jsonTripList_native l h2]; rfl
    · show formatSub dtypeOf k (.list l) = _
      rw [formatSub, if_neg h1]
  | dims l h1 =>
    refine ⟨?_, ?_⟩
    · show jsonTrip (.tuple l) = _
      rw [jsonTrip, jsonTripList_native l h1]; rfl
    · rfl

/-- What a top-level value is in the file. -/
def storedTop : Val → Val
  | .dict l => .dict (l.map (fun p => (p.1, stored p.2)))
  | v => v

/-- The serialisable form of a top-level value. -/
def tolistTop : Val → Val
  | .dict l => .dict (l.map (fun q => (q.1, tolist q.2)))
  | v => tolist v

theorem serialised_eq (c : Config) : serialised c = c.map (fun p => (p.1, tolistTop p.2)) := by
  unfold serialised
  apply List.map_congr_left
  intro p _
  obtain ⟨k, v⟩ := p
  cases v <;> rfl

theorem top_trip {dtypeOf : List Val → String} {v : Val} (h : TopOk dtypeOf v) :
    jsonTrip (tolistTop v) = .ok (storedTop v) ∧ formatTop dtypeOf (storedTop v) = v := by
  cases h with
  | plain _ h1 h2 =>
    cases v with
    | dict l => simp [isDict] at h2
    | tuple l => simp [native] at h1
    | arr d l => simp [native] at h1
    | list l => exact ⟨jsonTrip_native _ h1, rfl⟩
    | none => exact ⟨rfl, rfl⟩
    | bool b => exact ⟨rfl, rfl⟩
    | int b => exact ⟨rfl, rfl⟩
    | float b => exact ⟨rfl, rfl⟩
    | str b => exact ⟨rfl, rfl⟩
  | dict l hl =>
    refine ⟨?_, ?_⟩
    · show jsonTrip (.dict (l.map (fun q => (q.1, tolist q.2)))) = _
      rw [jsonTrip, jsonTripPairs_map l (fun _ v => tolist v) (fun _ v => stored v)
        (fun p hp => (sub_trip (hl p hp)).1)]
      rfl
    · show Val.dict ((l.map (fun p => (p.1, stored p.2))).map _) = _
      rw [List.map_map]
      congr 1
      conv_rhs => rw [← List.map_id l]
      apply List.map_congr_left
      intro p hp
      simp only [Function.comp, (sub_trip (hl p hp)).2]
      rfl

theorem formatting_stored {dtypeOf : List Val → String} {mc : Config}
    (h : ∀ p ∈ mc, TopOk dtypeOf p.2) :
    formatting dtypeOf (mc.map (fun p => (p.1, storedTop p.2))) = mc := by
  unfold formatting
  rw [List.map_map]
  conv_rhs => rw [← List.map_id mc]
  apply List.map_congr_left
  intro p hp
  simp only [Function.comp, (top_trip (h p hp)).2]
  rfl

/-! ### C52 -/

/-- **C52.** A model whose configuration consists of allowed values, saved and loaded by the same
class, comes back with the same model and sampler configurations, whatever the hash function. -/
theorem C52_load_save (sha : String → String) (dtypeOf : List Val → String) (c : Cls)
    {mc sc : Config} (hmc : ∀ p ∈ mc, TopOk dtypeOf p.2) (hsc : nativePairs sc = true)
    (hser : c.ser mc = serialised mc) :
    ∃ f, save sha c mc sc = .ok f ∧ load sha dtypeOf c f = .ok (mc, sc) := by
  refine ⟨⟨modelId sha mc c.version c.modelType, mc.map (fun p => (p.1, storedTop p.2)), sc⟩, ?_, ?_⟩
  · unfold save
    rw [jsonTripPairs_native sc hsc, hser, serialised_eq,
      jsonTripPairs_map mc (fun _ v => tolistTop v) (fun _ v => storedTop v)
        (fun p hp => (top_trip (hmc p hp)).1)]
    rfl
  · unfold load
    simp only [formatting_stored hmc]
    rw [if_neg (by simp)]

/-- **C52.** Loading the file under a class whose id for the same configuration is different raises
ValueError. -/
theorem C52_other_class_rejected (sha : String → String) (dtypeOf : List Val → String) (c c' : Cls)
    {mc sc : Config} (hmc : ∀ p ∈ mc, TopOk dtypeOf p.2) (hsc : nativePairs sc = true)
    (hser : c.ser mc = serialised mc)
    (hid : modelId sha mc c'.version c'.modelType ≠ modelId sha mc c.version c.modelType) :
    ∃ f, save sha c mc sc = .ok f ∧ load sha dtypeOf c' f = .error .valueError := by
  refine ⟨⟨modelId sha mc c.version c.modelType, mc.map (fun p => (p.1, storedTop p.2)), sc⟩, ?_, ?_⟩
  · unfold save
    rw [jsonTripPairs_native sc hsc, hser, serialised_eq,
      jsonTripPairs_map mc (fun _ v => tolistTop v) (fun _ v => storedTop v)
        (fun p hp => (top_trip (hmc p hp)).1)]
    rfl
  · unfold load
    simp only [formatting_stored hmc]
    rw [if_pos hid]

/-- **C52.** A configuration with an array that the subclass does not convert cannot be saved. -/
theorem C52_array_not_serialisable (sha : String → String) (c : Cls) {mc sc : Config} {k : String}
    {d : String} {l : List Val} (hk : (k, Val.arr d l) ∈ c.ser mc)
    (hsc : nativePairs sc = true) : ∃ e, save sha c mc sc = .error e := by
  unfold save
  rw [jsonTripPairs_native sc hsc]
  have : ∃ e, jsonTripPairs (c.ser mc) = .error e := by
    generalize c.ser mc = items at hk
    induction items with
    | nil => simp at hk
    | cons p items ih =>
      obtain ⟨k', v⟩ := p
      rw [jsonTripPairs]
      rcases List.mem_cons.1 hk with h | h
      · injection h with h1 h2
        subst h2
        exact ⟨_, rfl⟩
      · cases jsonTrip v with
        | error e => exact ⟨e, rfl⟩
        | ok w =>
          obtain ⟨e, he⟩ := ih h
          rw [he]
          exact ⟨e, rfl⟩
  obtain ⟨e, he⟩ := this
  rw [he]
  exact ⟨e, rfl⟩

/-- The documented kind of configuration satisfies the hypotheses. -/
example (dtypeOf : List Val → String) : ∀ p ∈ ([
    ("alpha", Val.dict [("loc", .float "0.5"), ("scale", .int 2), ("dims", .tuple [.str "group"])]),
    ("beta", Val.dict [("coeffs", .arr (dtypeOf [.int 1, .int 2]) [.int 1, .int 2])]),
    ("obs_error", Val.int 2), ("names", Val.list [.str "a"])] : Config), TopOk dtypeOf p.2 := by
  intro p hp
  simp only [List.mem_cons, List.not_mem_nil, or_false] at hp
  rcases hp with rfl | rfl | rfl | rfl
  · apply TopOk.dict
    intro q hq
    simp only [List.mem_cons, List.not_mem_nil, or_false] at hq
    rcases hq with rfl | rfl | rfl
    · exact SubOk.plain _ _ rfl rfl
    · exact SubOk.plain _ _ rfl rfl
    · exact SubOk.dims _ rfl
  · apply TopOk.dict
    intro q hq
    simp only [List.mem_cons, List.not_mem_nil, or_false] at hq
    subst hq
    exact SubOk.array _ _ (show "coeffs" ≠ "dims" by decide) rfl
  · exact TopOk.plain _ rfl rfl
  · exact TopOk.plain _ rfl rfl

/-! ### C53 -/

theorem append_cancel (a b c : String) : a ++ b = a ++ c ↔ b = c := by
  constructor
  · intro h
    have : (a ++ b).toList = (a ++ c).toList := by rw [h]
    rw [String.toList_append, String.toList_append, List.append_cancel_left_eq] at this
    exact String.ext this
  · rintro rfl; rfl

theorem join_prefix (sep : String) : ∀ pre : List String, ∃ P, ∀ (x : String) (rest : List String),
    ∃ S, joinWith sep (pre ++ x :: rest) = P ++ (x ++ S) := by
  intro pre
  induction pre with
  | nil =>
    refine ⟨"", fun x rest => ?_⟩
    cases rest with
    | nil => exact ⟨"", by simp [joinWith]⟩
    | cons b r => exact ⟨sep ++ joinWith sep (b :: r), by simp [joinWith, String.append_assoc]⟩
  | cons a pre ih =>
    obtain ⟨P, hP⟩ := ih
    refine ⟨a ++ sep ++ P, fun x rest => ?_⟩
    obtain ⟨S, hS⟩ := hP x rest
    refine ⟨S, ?_⟩
    have : joinWith sep (a :: pre ++ x :: rest) = a ++ sep ++ joinWith sep (pre ++ x :: rest) := by
      cases pre <;> rfl
    rw [this, hS]
    simp [String.append_assoc]

/-- Two texts that begin with different characters. -/
def DiffHead (a b : String) : Prop :=
  ∃ c d r s, a.toList = c :: r ∧ b.toList = d :: s ∧ c ≠ d

theorem diff_of_head {a b : String} (h : DiffHead a b) (S S' : String) : a ++ S ≠ b ++ S' := by
  obtain ⟨c, d, r, s, ha, hb, hne⟩ := h
  intro heq
  have : (a ++ S).toList = (b ++ S').toList := by rw [heq]
  rw [String.toList_append, String.toList_append, ha, hb] at this
  injection this with h1 _
  exact hne h1

/-- The two texts differ at some value where the earlier ones agree. -/
theorem idText_ne {pre post post' : Config} {k : String} {v v' : Val} (ver mt : String)
    (h : ∀ S S', repr v ++ S ≠ repr v' ++ S') :
    idText (pre ++ (k, v) :: post) ver mt ≠ idText (pre ++ (k, v') :: post') ver mt := by
  intro heq
  unfold idText at heq
  simp only [List.map_append, List.map_cons] at heq
  obtain ⟨P, hP⟩ := join_prefix ", " (pre.map (fun p => repr p.2))
  obtain ⟨S, hS⟩ := hP (repr v) (post.map (fun p => repr p.2))
  obtain ⟨S', hS'⟩ := hP (repr v') (post'.map (fun p => repr p.2))
  rw [hS, hS'] at heq
  simp only [String.append_assoc] at heq
  rw [append_cancel, append_cancel] at heq
  exact h _ _ heq

theorem str_int_diff (s : String) (n : ℤ) : DiffHead (repr (.str s)) (repr (.int n)) := by
  have hd : ∀ m : ℕ, ∃ d r, (toString m).toList = d :: r ∧ d.isDigit = true := by
    intro m
    rw [Nat.toString_eq_ofList_toDigits, String.toList_ofList]
    cases h : Nat.toDigits 10 m with
    | nil => exact absurd h Nat.toDigits_ne_nil
    | cons d r =>
      exact ⟨d, r, rfl, Nat.isDigit_of_mem_toDigits (b := 10) (n := m) (by decide) (by decide) (by rw [h]; simp)⟩
  have h1 : (repr (.str s)).toList = '\'' :: (s.toList ++ ['\'']) := by
    rw [repr, String.toList_append, String.toList_append]; rfl
  rw [repr]
  cases n with
  | ofNat m =>
    obtain ⟨d, r, h, hg⟩ := hd m
    refine ⟨'\'', d, _, r, h1, h, ?_⟩
    rintro rfl; exact absurd hg (by decide)
  | negSucc m =>
    refine ⟨'\'', '-', _, (toString (m+1)).toList, h1, ?_, by decide⟩
    show (("-" : String) ++ toString (m+1)).toList = _
    rw [String.toList_append]; rfl

/-- **C54.** What is hashed does distinguish a text from a number printed the same: replacing a text by an integer (and
anything after it) changes the text the id is computed from. -/
theorem C54_text_is_not_number (pre post post' : Config) (k s : String) (n : ℤ) (ver mt : String) :
    idText (pre ++ (k, .str s) :: post) ver mt ≠ idText (pre ++ (k, .int n) :: post') ver mt :=
  idText_ne ver mt (diff_of_head (str_int_diff s n))
example : idText [("a", .str "5")] "1" "M" ≠ idText [("a", .int 5)] "1" "M" :=
  C54_text_is_not_number [] [] [] "a" "5" 5 "1" "M"

/-- The id of a text: the first 16 characters of its hash (model_builder.py:756-759). -/
def id16 (sha : String → String) (t : String) : String := String.ofList ((sha t).toList.take 16)

/-- Specification of C53: the configuration `mc`, saved as `f`, is read back with another printed form,
so that loading compares the ids of two different texts: it succeeds if these two texts happen to have
the same truncated hash, and raises `ValueError` otherwise.  The two texts do not depend on the hash
function. -/
def NeedsCollision (sha : String → String) (dtypeOf : List Val → String) (c : Cls) (mc : Config)
    (f : File) : Prop :=
  idText (formatting dtypeOf f.modelConfig) c.version c.modelType ≠ idText mc c.version c.modelType ∧
  ((∃ r, load sha dtypeOf c f = .ok r) ↔
    id16 sha (idText (formatting dtypeOf f.modelConfig) c.version c.modelType)
      = id16 sha (idText mc c.version c.modelType)) ∧
  ((¬ ∃ r, load sha dtypeOf c f = .ok r) → load sha dtypeOf c f = .error .valueError)

theorem load_collision {sha : String → String} {dtypeOf : List Val → String} {c : Cls}
    {mc : Config} {f : File}
    (hid : f.id = modelId sha mc c.version c.modelType)
    (hne : idText (formatting dtypeOf f.modelConfig) c.version c.modelType
      ≠ idText mc c.version c.modelType) : NeedsCollision sha dtypeOf c mc f := by
  have hl : load sha dtypeOf c f =
      if modelId sha (formatting dtypeOf f.modelConfig) c.version c.modelType ≠ f.id
      then .error .valueError else .ok (formatting dtypeOf f.modelConfig, f.samplerConfig) := rfl
  have hm : modelId sha (formatting dtypeOf f.modelConfig) c.version c.modelType
      = id16 sha (idText (formatting dtypeOf f.modelConfig) c.version c.modelType) := rfl
  have hm' : modelId sha mc c.version c.modelType = id16 sha (idText mc c.version c.modelType) := rfl
  rw [hm, hid, hm'] at hl
  refine ⟨hne, ?_, ?_⟩
  · constructor
    · rintro ⟨r, hr⟩
      by_contra h
      rw [hl, if_pos h] at hr
      exact absurd hr (by simp)
    · intro h
      rw [hl, if_neg (by simpa using h)]
      exact ⟨_, rfl⟩
  · intro h
    by_cases h' : id16 sha (idText (formatting dtypeOf f.modelConfig) c.version c.modelType)
      = id16 sha (idText mc c.version c.modelType)
    · rw [hl, if_neg (by simpa using h')] at h
      exact absurd ⟨_, rfl⟩ h
    · rw [hl, if_pos h']

theorem jsonTripPairs_split {pre post : List (String × Val)} {k : String} {v w : Val}
    (hp : ∀ p ∈ pre, True) (hv : jsonTrip v = .ok w) {pre' : List (String × Val)}
    (hpre : jsonTripPairs pre = .ok pre') {r : List (String × Val)}
    (h : jsonTripPairs (pre ++ (k, v) :: post) = .ok r) :
    ∃ post', r = pre' ++ (k, w) :: post' := by
  induction pre generalizing pre' r with
  | nil =>
    injection hpre with hpre
    subst hpre
    rw [List.nil_append, jsonTripPairs, hv] at h
    cases hpost : jsonTripPairs post with
    | error e => rw [hpost] at h; exact absurd h (by simp [bind, Except.bind])
    | ok post' =>
      rw [hpost] at h
      injection h with h
      exact ⟨post', h.symm⟩
  | cons p pre ih =>
    obtain ⟨kp, vp⟩ := p
    rw [jsonTripPairs] at hpre
    rw [List.cons_append, jsonTripPairs] at h
    cases h1 : jsonTrip vp with
    | error e => rw [h1] at hpre; exact absurd hpre (by simp [bind, Except.bind])
    | ok vp' =>
      rw [h1] at hpre h
      cases h2 : jsonTripPairs pre with
      | error e => rw [h2] at hpre; exact absurd hpre (by simp [bind, Except.bind])
      | ok pre1 =>
        rw [h2] at hpre
        injection hpre with hpre
        cases h3 : jsonTripPairs (pre ++ (k, v) :: post) with
        | error e => rw [h3] at h; exact absurd h (by simp [bind, Except.bind])
        | ok r1 =>
          rw [h3] at h
          injection h with h
          obtain ⟨post', hr⟩ := ih (fun _ _ => trivial) h2 h3
          exact ⟨post', by rw [← h, ← hpre, hr]; rfl⟩

/-- General form: a top-level value that comes back with another printed form, all earlier ones being
allowed, makes loading fail (up to a hash collision). -/
theorem bad_value_fails {sha : String → String} {dtypeOf : List Val → String} {c : Cls}
    {pre post sc : Config} {k : String} {v w : Val} {f : File}
    (hpre : ∀ p ∈ pre, TopOk dtypeOf p.2)
    (hser : c.ser (pre ++ (k, v) :: post) = serialised (pre ++ (k, v) :: post))
    (hw : jsonTrip (tolistTop v) = .ok w)
    (hne : ∀ S S', repr (formatTop dtypeOf w) ++ S ≠ repr v ++ S')
    (hs : save sha c (pre ++ (k, v) :: post) sc = .ok f) :
    NeedsCollision sha dtypeOf c (pre ++ (k, v) :: post) f := by
  unfold save at hs
  cases h1 : jsonTripPairs sc with
  | error e => rw [h1] at hs; exact absurd hs (by simp [bind, Except.bind])
  | ok sc' =>
    rw [h1, hser, serialised_eq] at hs
    simp only [List.map_append, List.map_cons] at hs
    have hpre' := jsonTripPairs_map pre (fun _ v => tolistTop v) (fun _ v => storedTop v)
      (fun p hp => (top_trip (hpre p hp)).1)
    cases h2 : jsonTripPairs (pre.map (fun p => (p.1, tolistTop p.2)) ++
        (k, tolistTop v) :: post.map (fun p => (p.1, tolistTop p.2))) with
    | error e => rw [h2] at hs; exact absurd hs (by simp [bind, Except.bind])
    | ok mc' =>
      rw [h2] at hs
      injection hs with hs
      obtain ⟨post', hmc'⟩ := jsonTripPairs_split (fun _ _ => trivial) hw hpre' h2
      subst hs
      refine load_collision rfl ?_
      show idText (formatting dtypeOf mc') _ _ ≠ _
      rw [hmc']
      unfold formatting
      rw [List.map_append, List.map_cons]
      have := formatting_stored hpre
      unfold formatting at this
      rw [this]
      exact idText_ne _ _ hne

/-- **C53.** A tuple at top level is saved but comes back as a list: loading compares the ids of two
different texts and raises unless these two have the same truncated hash. -/
theorem C53_top_level_tuple {sha : String → String} {dtypeOf : List Val → String} {c : Cls}
    {pre post sc : Config} {k : String} {l : List Val} {f : File}
    (hl' : nativeList l = true) (hpre : ∀ p ∈ pre, TopOk dtypeOf p.2)
    (hser : c.ser (pre ++ (k, .tuple l) :: post) = serialised (pre ++ (k, .tuple l) :: post))
    (hs : save sha c (pre ++ (k, .tuple l) :: post) sc = .ok f) :
    NeedsCollision sha dtypeOf c (pre ++ (k, .tuple l) :: post) f := by
  refine bad_value_fails (w := .list l) hpre hser ?_ ?_ hs
  · show jsonTrip (.tuple l) = _
    rw [jsonTrip, jsonTripList_native l hl']; rfl
  · intro S S'
    show repr (.list l) ++ S ≠ repr (.tuple l) ++ S'
    apply diff_of_head
    rw [repr, repr]
    split
    · exact ⟨'[', '(', _, _, by rw [String.append_assoc, String.toList_append]; rfl,
        by rw [String.append_assoc, String.toList_append]; rfl, by decide⟩
    · exact ⟨'[', '(', _, _, by rw [String.append_assoc, String.toList_append]; rfl,
        by rw [String.append_assoc, String.toList_append]; rfl, by decide⟩

/-- **C53.** The same for an array at top level. -/
theorem C53_top_level_array {sha : String → String} {dtypeOf : List Val → String} {c : Cls}
    {pre post sc : Config} {k d : String} {l : List Val} {f : File}
    (hl' : nativeList l = true) (hpre : ∀ p ∈ pre, TopOk dtypeOf p.2)
    (hser : c.ser (pre ++ (k, .arr d l) :: post) = serialised (pre ++ (k, .arr d l) :: post))
    (hs : save sha c (pre ++ (k, .arr d l) :: post) sc = .ok f) :
    NeedsCollision sha dtypeOf c (pre ++ (k, .arr d l) :: post) f := by
  refine bad_value_fails (w := .list l) hpre hser ?_ ?_ hs
  · show jsonTrip (.list l) = _
    rw [jsonTrip, jsonTripList_native l hl']; rfl
  · intro S S'
    show repr (.list l) ++ S ≠ repr (.arr d l) ++ S'
    apply diff_of_head
    rw [repr, repr]
    exact ⟨'[', 'a', _, _, by rw [String.append_assoc, String.toList_append]; rfl,
        by simp only [String.append_assoc]; rw [String.toList_append]; rfl, by decide⟩

theorem reprPairs_eq (l : List (String × Val)) :
    reprPairs l = l.map (fun p => "'" ++ p.1 ++ "': " ++ repr p.2) := by
  induction l with
  | nil => rfl
  | cons p l ih => obtain ⟨k, v⟩ := p; rw [reprPairs, ih]; rfl

/-- **C53.** A plain list in a sub-dictionary comes back as an array, or as a tuple under `dims`. -/
theorem C53_list_in_sub_dictionary {sha : String → String} {dtypeOf : List Val → String} {c : Cls}
    {pre post sc : Config} {sub sub' : List (String × Val)} {k k' : String} {l : List Val} {f : File}
    (hl' : nativeList l = true) (hpre : ∀ p ∈ pre, TopOk dtypeOf p.2)
    (hsub : ∀ p ∈ sub, SubOk dtypeOf p.1 p.2) (hsub' : ∀ p ∈ sub', SubOk dtypeOf p.1 p.2)
    (hser : c.ser (pre ++ (k, .dict (sub ++ (k', .list l) :: sub')) :: post)
      = serialised (pre ++ (k, .dict (sub ++ (k', .list l) :: sub')) :: post))
    (hs : save sha c (pre ++ (k, .dict (sub ++ (k', .list l) :: sub')) :: post) sc = .ok f) :
    NeedsCollision sha dtypeOf c (pre ++ (k, .dict (sub ++ (k', .list l) :: sub')) :: post) f := by
  have htrip : ∀ p ∈ sub ++ (k', .list l) :: sub', jsonTrip (tolist p.2) = .ok (stored p.2) := by
    intro p hp
    rw [List.mem_append, List.mem_cons] at hp
    rcases hp with hp | rfl | hp
    · exact (sub_trip (hsub p hp)).1
    · show jsonTrip (.list l) = .ok (.list l)
      rw [jsonTrip, jsonTripList_native l hl']; rfl
    · exact (sub_trip (hsub' p hp)).1
  refine bad_value_fails
    (w := .dict ((sub ++ (k', .list l) :: sub').map (fun p => (p.1, stored p.2)))) hpre hser ?_ ?_ hs
  · show jsonTrip (.dict ((sub ++ (k', .list l) :: sub').map (fun q => (q.1, tolist q.2)))) = _
    rw [jsonTrip, jsonTripPairs_map _ (fun _ v => tolist v) (fun _ v => stored v) htrip]
    rfl
  · intro S S'
    have hback : (sub.map (fun p => (p.1, stored p.2))).map
        (fun p => (p.1, formatSub dtypeOf p.1 p.2)) = sub := by
      rw [List.map_map]
      conv_rhs => rw [← List.map_id sub]
      apply List.map_congr_left
      intro p hp
      simp only [Function.comp, (sub_trip (hsub p hp)).2]
      rfl
    have hform : formatTop dtypeOf (.dict ((sub ++ (k', .list l) :: sub').map
        (fun p => (p.1, stored p.2))))
        = .dict (sub ++ (k', formatSub dtypeOf k' (.list l)) ::
            (sub'.map (fun p => (p.1, stored p.2))).map (fun p => (p.1, formatSub dtypeOf p.1 p.2))) := by
      unfold formatTop
      simp only [List.map_append, List.map_cons, hback]
      rfl
    rw [hform, repr, repr, reprPairs_eq, reprPairs_eq]
    simp only [List.map_append, List.map_cons]
    obtain ⟨P, hP⟩ := join_prefix ", " (sub.map (fun p => "'" ++ p.1 ++ "': " ++ repr p.2))
    intro heq
    obtain ⟨S1, hS1⟩ := hP ("'" ++ k' ++ "': " ++ repr (formatSub dtypeOf k' (.list l)))
      (((sub'.map (fun p => (p.1, stored p.2))).map (fun p => (p.1, formatSub dtypeOf p.1 p.2))).map
        (fun p => "'" ++ p.1 ++ "': " ++ repr p.2))
    obtain ⟨S2, hS2⟩ := hP ("'" ++ k' ++ "': " ++ repr (.list l))
      (sub'.map (fun p => "'" ++ p.1 ++ "': " ++ repr p.2))
    rw [hS1, hS2] at heq
    simp only [String.append_assoc, append_cancel] at heq
    revert heq
    apply diff_of_head
    unfold formatSub
    by_cases hk : k' = "dims"
    · simp only [if_pos hk]
      rw [repr, repr]
      split
      · exact ⟨'(', '[', _, _, by rw [String.append_assoc, String.toList_append]; rfl,
          by rw [String.append_assoc, String.toList_append]; rfl, by decide⟩
      · exact ⟨'(', '[', _, _, by rw [String.append_assoc, String.toList_append]; rfl,
          by rw [String.append_assoc, String.toList_append]; rfl, by decide⟩
    · simp only [if_neg hk]
      rw [repr, repr]
      exact ⟨'a', '[', _, _, by simp only [String.append_assoc]; rw [String.toList_append]; rfl,
        by rw [String.append_assoc, String.toList_append]; rfl, by decide⟩

/-- Non-vacuity of C53: `{"a": 1, "b": (2, 3)}` is saved without complaint; with the identity in place of
the hash function (no collisions on the whole text) `load` raises.  (The text up to the first 16 characters,
`dict_values([1, ` is shared, hence the hash that drops it.) -/
example (dtypeOf : List Val → String) : ∃ f,
    save (fun t => String.ofList (t.toList.drop 16)) ⟨"T", "1", serialised⟩
      [("a", .int 1), ("b", .tuple [.int 2, .int 3])] [] = .ok f ∧
    load (fun t => String.ofList (t.toList.drop 16)) dtypeOf ⟨"T", "1", serialised⟩ f
      = .error .valueError := by
  refine ⟨⟨modelId (fun t => String.ofList (t.toList.drop 16))
      [("a", .int 1), ("b", .tuple [.int 2, .int 3])] "1" "T",
      [("a", .int 1), ("b", .list [.int 2, .int 3])], []⟩, rfl, ?_⟩
  have h := C53_top_level_tuple (sha := fun t => String.ofList (t.toList.drop 16)) (dtypeOf := dtypeOf)
    (c := ⟨"T", "1", serialised⟩) (pre := [("a", .int 1)]) (post := []) (sc := []) (k := "b")
    (l := [.int 2, .int 3]) (f := ⟨modelId (fun t => String.ofList (t.toList.drop 16))
      [("a", .int 1), ("b", .tuple [.int 2, .int 3])] "1" "T",
      [("a", .int 1), ("b", .list [.int 2, .int 3])], []⟩) rfl
    (by intro p hp; rw [List.mem_singleton] at hp; subst hp; exact .plain _ rfl rfl) rfl rfl
  refine h.2.2 (fun hr => absurd (h.2.1.mp hr) ?_)
  show id16 _ (idText [("a", .int 1), ("b", .list [.int 2, .int 3])] "1" "T")
    ≠ id16 _ (idText [("a", .int 1), ("b", .tuple [.int 2, .int 3])] "1" "T")
  decide +kernel

end Builder
