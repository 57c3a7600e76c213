import Verif.Props.Programs
/-
C83: programs over `bit_vector`s do not depend on the word type, and where they do.

`Call.Same c c'` says that a call on vectors of `w`-bit words and a call on vectors of `v`-bit words are the same line of source, the word
type being a template argument. Two calls are missing from the relation, because their effect does depend on the word type: the shifts (the
values they leave in the vacated elements) and `debug_string` (its separators). A shift directly followed by a `fill` of the vacated
elements is a step of `SameProg`.
-/
namespace BitLib
variable {w v : Nat}

/-- The same member function with the same arguments; for the constructor from words, words holding the same bits. -/
inductive Op.Same : Op w → Op v → Prop
  | newEmpty : Same .newEmpty .newEmpty
  | newCount (n) : Same (.newCount n) (.newCount n)
  | newCountVal (n x) : Same (.newCountVal n x) (.newCountVal n x)
  | newString (s) : Same (.newString s) (.newString s)
  | newBoolRange (l) : Same (.newBoolRange l) (.newBoolRange l)
  | newBoolList (l) : Same (.newBoolList l) (.newBoolList l)
  | newWords (l l') (h : bitsOfWords l = bitsOfWords l') : Same (.newWords l) (.newWords l')
  | newBits (j a b) : Same (.newBits j a b) (.newBits j a b)
  | newCopy (j) : Same (.newCopy j) (.newCopy j)
  | push (i x) : Same (.push i x) (.push i x)
  | pop (i) : Same (.pop i) (.pop i)
  | insert (i d x) : Same (.insert i d x) (.insert i d x)
  | insertN (i d n x) : Same (.insertN i d n x) (.insertN i d n x)
  | insertRange (i d j a b) : Same (.insertRange i d j a b) (.insertRange i d j a b)
  | erase (i d) : Same (.erase i d) (.erase i d)
  | eraseRange (i a b) : Same (.eraseRange i a b) (.eraseRange i a b)
  | clear (i) : Same (.clear i) (.clear i)
  | set (i k x) : Same (.set i k x) (.set i k x)
  | copyAssign (i j) : Same (.copyAssign i j) (.copyAssign i j)
  | moveAssign (i j) : Same (.moveAssign i j) (.moveAssign i j)
  | reserve (i n) : Same (.reserve i n) (.reserve i n)
  | shrinkToFit (i) : Same (.shrinkToFit i) (.shrinkToFit i)
  | shrink (i n) : Same (.shrink i n) (.shrink i n)
  | destroy (i) : Same (.destroy i) (.destroy i)

/-- The same call with the same arguments; for `transform`, word operations that are the same function on every bit. -/
inductive Call.Same : Call w → Call v → Prop
  | vec {o : Op w} {o' : Op v} (h : o.Same o') : Same (.vec o) (.vec o')
  | copy (j a b i d) : Same (.copy j a b i d) (.copy j a b i d)
  | move (j a b i d) : Same (.move j a b i d) (.move j a b i d)
  | copyBackward (j a b i d) : Same (.copyBackward j a b i d) (.copyBackward j a b i d)
  | fill (i a b x) : Same (.fill i a b x) (.fill i a b x)
  | reverse (i a b) : Same (.reverse i a b) (.reverse i a b)
  | rotate (i a k b) : Same (.rotate i a k b) (.rotate i a k b)
  | swapRanges (i a b j k) : Same (.swapRanges i a b j k) (.swapRanges i a b j k)
  | transform (op op' f j a b i d) : Same (.transform op f j a b i d) (.transform op' f j a b i d)
  | transform2 (op op' f j a b j2 c i d) : Same (.transform2 op f j a b j2 c i d) (.transform2 op' f j a b j2 c i d)
  | find (i a b x) : Same (.find i a b x) (.find i a b x)
  | count (i a b x) : Same (.count i a b x) (.count i a b x)
  | equal (i a b j c) : Same (.equal i a b j c) (.equal i a b j c)
  | size (i) : Same (.size i) (.size i)
  | get (i k) : Same (.get i k) (.get i k)

/-- The same program for two word types. -/
inductive SameProg : List (Call w) → List (Call v) → Prop
  | nil : SameProg [] []
  | cons {c : Call w} {c' : Call v} {cs : List (Call w)} {cs' : List (Call v)} : c.Same c' → SameProg cs cs' → SameProg (c :: cs) (c' :: cs')
  /-- shift `[a, b)` to the left by `n` and assign `x` to the vacated elements -/
  | shiftLeft (i a b n : Nat) (x : Bool) {cs : List (Call w)} {cs' : List (Call v)} : SameProg cs cs' →
    SameProg (.shiftLeft i a b n :: .fill i (b - n) b x :: cs) (.shiftLeft i a b n :: .fill i (b - n) b x :: cs')
  /-- shift `[a, b)` to the right by `n` and assign `x` to the vacated elements -/
  | shiftRight (i a b n : Nat) (x : Bool) {cs : List (Call w)} {cs' : List (Call v)} : SameProg cs cs' →
    SameProg (.shiftRight i a b n :: .fill i a (a + n) x :: cs) (.shiftRight i a b n :: .fill i a (a + n) x :: cs')

theorem Op.Same.apply {o : Op w} {o' : Op v} (h : o.Same o') (ls : List (List Bool)) : o.apply ls = o'.apply ls := by
  cases h <;> first | rfl | skip
  rename_i l l' h
  exact congrArg (fun x => ls ++ [x]) h

theorem Call.Same.spec {c : Call w} {c' : Call v} (h : c.Same c') {ls ls' : List (List Bool)} {a : Ans} :
    c.Spec ls ls' a ↔ c'.Spec ls ls' a := by
  cases h <;> first | exact Iff.rfl | skip
  rename_i h
  show _ ∧ _ ↔ _ ∧ _
  rw [h.apply]

theorem at'_set_self {ls : List (List Bool)} {i : Nat} {l : List Bool} (hi : i < ls.length) : Op.at' (ls.set i l) i = l := by
  unfold Op.at'
  rw [List.getElem?_set_self hi]
  rfl

/-- Writing into the end of what was just written. -/
theorem splice_splice_end (l x y z : List Bool) (a : Nat) (h : y.length = z.length) (hl : a + x.length + y.length ≤ l.length) :
    splice (splice l a (x ++ y)) (a + x.length) z = splice l a (x ++ z) := by
  have h1 : (l.take a).length = a := by simp; omega
  unfold splice
  rw [show l.take a ++ (x ++ y) ++ l.drop (a + (x ++ y).length) = (l.take a ++ x) ++ (y ++ l.drop (a + (x ++ y).length)) by simp,
    List.take_left' (by simp; omega)]
  rw [← List.append_assoc (l.take a ++ x) y, List.drop_left' (by simp; omega)]
  simp [h]

theorem splice_splice_start (l x y z : List Bool) (a : Nat) (h : x.length = z.length) (hl : a + x.length + y.length ≤ l.length) :
    splice (splice l a (x ++ y)) a z = splice l a (z ++ y) := by
  have h1 : (l.take a).length = a := by simp; omega
  unfold splice
  rw [List.append_assoc (l.take a), List.take_left' h1]
  rw [show l.take a ++ (x ++ y ++ l.drop (a + (x ++ y).length)) = (l.take a ++ x) ++ (y ++ l.drop (a + (x ++ y).length)) by simp,
    List.drop_left' (by simp; omega)]
  simp [h]

/-- The shift of `[a, b)` to the left by `n` followed by the assignment to the vacated elements, on plain lists. -/
theorem shiftLeft_fill_spec {i a b n : Nat} {x : Bool} {ls l1 l2 : List (List Bool)} {a1 a2 : Ans} (hp : Call.Part ls i a b)
    (h1 : (Call.shiftLeft i a b n : Call w).Spec ls l1 a1) (h2 : (Call.fill i (b - n) b x : Call w).Spec l1 l2 a2) :
    ∃ l1', (Call.shiftLeft i a b n : Call v).Spec ls l1' a1 ∧ (Call.fill i (b - n) b x : Call v).Spec l1' l2 a2 := by
  obtain ⟨hi, hab, hb⟩ := hp
  by_cases hc : 0 < n ∧ a + n < b
  · simp only [Call.Spec, if_pos hc] at h1 ⊢
    obtain ⟨rfl, rfl⟩ := h1
    refine ⟨_, ⟨rfl, rfl⟩, ?_⟩
    obtain ⟨rfl, rfl⟩ := h2
    refine ⟨?_, rfl⟩
    have hs : (slice (Op.at' ls i) (a + n) b).length = b - (a + n) := slice_length _ hb
    have e : ∀ u : List Bool, u.length = n →
        (ls.set i (splice (Op.at' ls i) a (slice (Op.at' ls i) (a + n) b ++ u))).set i
          (splice (Op.at' (ls.set i (splice (Op.at' ls i) a (slice (Op.at' ls i) (a + n) b ++ u))) i) (b - n) (List.replicate (b - (b - n)) x)) =
        ls.set i (splice (Op.at' ls i) a (slice (Op.at' ls i) (a + n) b ++ List.replicate n x)) := by
      intro u hu
      rw [at'_set_self hi, List.set_set, show b - n = a + (slice (Op.at' ls i) (a + n) b).length by omega,
        splice_splice_end _ _ _ _ _ (by rw [hu, List.length_replicate]; omega) (by omega)]
      congr 4
      omega
    rw [e _ (vacatedL_length _ (by omega) hb), e _ (vacatedL_length _ (by omega) hb)]
  · simp only [Call.Spec, if_neg hc] at h1 ⊢
    exact ⟨l1, h1, h2⟩

/-- The same to the right. -/
theorem shiftRight_fill_spec (hw : 0 < w) (hv : 0 < v) {i a b n : Nat} {x : Bool} {ls l1 l2 : List (List Bool)} {a1 a2 : Ans}
    (hp : Call.Part ls i a b)
    (h1 : (Call.shiftRight i a b n : Call w).Spec ls l1 a1) (h2 : (Call.fill i a (a + n) x : Call w).Spec l1 l2 a2) :
    ∃ l1', (Call.shiftRight i a b n : Call v).Spec ls l1' a1 ∧ (Call.fill i a (a + n) x : Call v).Spec l1' l2 a2 := by
  obtain ⟨hi, hab, hb⟩ := hp
  by_cases hc : 0 < n ∧ a + n < b
  · simp only [Call.Spec, if_pos hc] at h1 ⊢
    obtain ⟨rfl, rfl⟩ := h1
    refine ⟨_, ⟨rfl, rfl⟩, ?_⟩
    obtain ⟨rfl, rfl⟩ := h2
    refine ⟨?_, rfl⟩
    have hs : (slice (Op.at' ls i) a (b - n)).length = b - n - a := slice_length _ (by omega)
    have e : ∀ u : List Bool, u.length = n →
        (ls.set i (splice (Op.at' ls i) a (u ++ slice (Op.at' ls i) a (b - n)))).set i
          (splice (Op.at' (ls.set i (splice (Op.at' ls i) a (u ++ slice (Op.at' ls i) a (b - n)))) i) a (List.replicate (a + n - a) x)) =
        ls.set i (splice (Op.at' ls i) a (List.replicate n x ++ slice (Op.at' ls i) a (b - n))) := by
      intro u hu
      rw [at'_set_self hi, List.set_set, Nat.add_sub_cancel_left,
        splice_splice_start _ _ _ _ _ (by rw [hu, List.length_replicate]) (by omega)]
    rw [e _ (vacatedR_length hw _ hc.1 (by omega)), e _ (vacatedR_length hv _ hc.1 (by omega))]
  · simp only [Call.Spec, if_neg hc] at h1 ⊢
    exact ⟨l1, h1, h2⟩

/-- The two programs have the same runs on plain lists. -/
theorem SameProg.spec (hw : 0 < w) (hv : 0 < v) {cs : List (Call w)} {cs' : List (Call v)} (h : SameProg cs cs') {ls ls' : List (List Bool)}
    {as : List Ans} (hp : AlongC (fun ls c => c.Pre ls) cs ls) (r : SpecRun ls cs ls' as) : SpecRun ls cs' ls' as := by
  induction h generalizing ls as with
  | nil => cases r; exact .nil _
  | cons hc _ ih =>
    cases r with
    | cons s r => exact .cons (hc.spec.mp s) (ih (hp.2 _ _ s) r)
  | shiftLeft i a b n x _ ih =>
    rcases r with _ | ⟨s1, _ | ⟨s2, r⟩⟩
    have hr := ih ((hp.2 _ _ s1).2 _ _ s2) r
    obtain ⟨l1, t1, t2⟩ := shiftLeft_fill_spec (v := v) hp.1 s1 s2
    exact .cons t1 (.cons t2 hr)
  | shiftRight i a b n x _ ih =>
    rcases r with _ | ⟨s1, _ | ⟨s2, r⟩⟩
    have hr := ih ((hp.2 _ _ s1).2 _ _ s2) r
    obtain ⟨l1, t1, t2⟩ := shiftRight_fill_spec hw hv hp.1 s1 s2
    exact .cons t1 (.cons t2 hr)

theorem AlongC.imp {R R' : List (List Bool) → Call w → Prop} (hR : ∀ ls c, R ls c → R' ls c) :
    ∀ (cs : List (Call w)) (ls : List (List Bool)), AlongC R cs ls → AlongC R' cs ls
  | [], _, _ => trivial
  | _ :: cs, _, h => ⟨hR _ _ h.1, fun ls' a s => AlongC.imp hR cs ls' (h.2 ls' a s)⟩

/-- C83: the same program on vectors of `w`-bit and on vectors of `v`-bit words, started on vectors with the same elements and within the
limits for both word types: both runs are defined, all answers are equal, and the vectors have the same elements at the end. -/
theorem C83_word_type_partial (hw : 0 < w) (hv : 0 < v) (S : ShiftSem w) (S2 : ShiftSem v) (P P2 : Policy) (h : Heap w) (h2 : Heap v)
    (vs vs2 : List BV) (ls : List (List Bool)) (cs : List (Call w)) (cs2 : List (Call v)) (hs : SameProg cs cs2) (e : EnvOk h vs ls)
    (e2 : EnvOk h2 vs2 ls) (hl : AlongC (fun ls c => c.Pre ls ∧ c.Lim S ls) cs ls) (hl2 : AlongC (fun ls c => c.Pre ls ∧ c.Lim S2 ls) cs2 ls) :
    ∃ vs' h' vs2' h2' as ls', runCalls S P vs cs h = .ok ((vs', as), h') ∧ runCalls S2 P2 vs2 cs2 h2 = .ok ((vs2', as), h2') ∧
      EnvOk h' vs' ls' ∧ EnvOk h2' vs2' ls' := by
  obtain ⟨vs', as, h', ls', r1, s1, k1⟩ := C65_program_partial hw S P h vs ls cs e hl
  obtain ⟨vs2', as2, h2', ls2', r2, s2, k2⟩ := C65_program_partial hv S2 P2 h2 vs2 ls cs2 e2 hl2
  obtain ⟨rfl, rfl⟩ := (hs.spec hw hv (AlongC.imp (fun _ _ x => x.1) _ _ hl) s1).unique s2
  exact ⟨vs', h', vs2', h2', as, ls', r1, r2, k1, k2⟩

/-- A program of every kind of step: both word types are within the limits, and the shift leaves different values before the `fill`. -/
def genericProg (w : Nat) : List (Call w) :=
  [.vec (.newCountVal 10 true), .shiftLeft 0 4 10 3, .fill 0 (10 - 3) 10 false, .vec (.insert 0 2 false), .transform (fun x => ~~~x) not 0 1 9 0 1,
    .count 0 0 11 true, .get 0 3]

theorem genericProg_same : SameProg (genericProg w) (genericProg v) :=
  .cons (.vec (.newCountVal _ _)) (.shiftLeft _ _ _ _ _ (.cons (.vec (.insert _ _ _)) (.cons (.transform _ _ _ _ _ _ _ _) (.cons (.count _ _ _ _)
    (.cons (.get _ _) .nil)))))

theorem genericProg_valid8 (S : ShiftSem 8) : AlongC (fun ls c => c.Pre ls ∧ c.Lim S ls) (genericProg 8) [] := by
  refine ⟨⟨trivial, by show _ < _; decide, .inl trivial⟩, ?_⟩
  rintro _ _ ⟨rfl, rfl⟩
  refine ⟨⟨⟨by decide, by decide, by decide⟩, .inl (by decide)⟩, ?_⟩
  rintro _ _ ⟨rfl, rfl⟩
  refine ⟨⟨⟨by decide, by decide, by decide⟩, trivial⟩, ?_⟩
  rintro _ _ ⟨rfl, rfl⟩
  refine ⟨⟨⟨by decide, by decide⟩, trivial, .inl (by show ¬ _; decide)⟩, ?_⟩
  rintro _ _ ⟨rfl, rfl⟩
  refine ⟨⟨⟨fun x i hi => by simp [hi], ⟨by decide, by decide, by decide⟩, ⟨by decide, by decide, by decide⟩, by decide⟩, trivial⟩, ?_⟩
  rintro _ _ ⟨rfl, rfl⟩
  refine ⟨⟨⟨by decide, by decide, by decide⟩, .inl (by decide)⟩, ?_⟩
  rintro _ _ ⟨rfl, rfl⟩
  exact ⟨⟨⟨by decide, by decide⟩, trivial⟩, fun _ _ _ => trivial⟩

theorem genericProg_valid64 (S : ShiftSem 64) : AlongC (fun ls c => c.Pre ls ∧ c.Lim S ls) (genericProg 64) [] := by
  refine ⟨⟨trivial, by show _ < _; decide, .inl trivial⟩, ?_⟩
  rintro _ _ ⟨rfl, rfl⟩
  refine ⟨⟨⟨by decide, by decide, by decide⟩, .inl (by decide)⟩, ?_⟩
  rintro _ _ ⟨rfl, rfl⟩
  refine ⟨⟨⟨by decide, by decide, by decide⟩, trivial⟩, ?_⟩
  rintro _ _ ⟨rfl, rfl⟩
  refine ⟨⟨⟨by decide, by decide⟩, trivial, .inl (by show ¬ _; decide)⟩, ?_⟩
  rintro _ _ ⟨rfl, rfl⟩
  refine ⟨⟨⟨fun x i hi => by simp [hi], ⟨by decide, by decide, by decide⟩, ⟨by decide, by decide, by decide⟩, by decide⟩, trivial⟩, ?_⟩
  rintro _ _ ⟨rfl, rfl⟩
  refine ⟨⟨⟨by decide, by decide, by decide⟩, .inl (by decide)⟩, ?_⟩
  rintro _ _ ⟨rfl, rfl⟩
  exact ⟨⟨⟨by decide, by decide⟩, trivial⟩, fun _ _ _ => trivial⟩

example (S : ShiftSem 8) (S2 : ShiftSem 64) : SameProg (genericProg 8) (genericProg 64) ∧
    AlongC (fun ls c => c.Pre ls ∧ c.Lim S ls) (genericProg 8) [] ∧ AlongC (fun ls c => c.Pre ls ∧ c.Lim S2 ls) (genericProg 64) [] ∧
    EnvOk (emptyHeap : Heap 8) [] [] ∧ EnvOk (emptyHeap : Heap 64) [] [] :=
  ⟨genericProg_same, genericProg_valid8 S, genericProg_valid64 S2, EnvOk.nil emptyHeap_wf, EnvOk.nil emptyHeap_wf⟩

/-! ### Where the word type shows -/

/-- C83: the elements vacated by a shift depend on the word type. Ten elements `true`, the last six shifted by three: the last element is
still `true` with 8-bit words and `false` with 16-bit words. -/
theorem C83_shift_differs (S : ShiftSem 8) (S2 : ShiftSem 16) (P P2 : Policy) :
    (∃ vs h, runCalls S P [] [.vec (.newCountVal 10 true), .shiftLeft 0 4 10 3, .get 0 9] emptyHeap = .ok ((vs, [.unit, .pos 7, .bool true]), h)) ∧
    (∃ vs h, runCalls S2 P2 [] [.vec (.newCountVal 10 true), .shiftLeft 0 4 10 3, .get 0 9] emptyHeap =
      .ok ((vs, [.unit, .pos 7, .bool false]), h)) := by
  constructor
  · obtain ⟨vs', as, h', ls', e, s, _⟩ := C65_program_partial (by decide) S P emptyHeap [] []
      [.vec (.newCountVal 10 true), .shiftLeft 0 4 10 3, .get 0 9] (EnvOk.nil emptyHeap_wf) (by
        refine ⟨⟨trivial, by show _ < _; decide, .inl trivial⟩, ?_⟩
        rintro _ _ ⟨rfl, rfl⟩
        refine ⟨⟨⟨by decide, by decide, by decide⟩, .inl (by decide)⟩, ?_⟩
        rintro _ _ ⟨rfl, rfl⟩
        exact ⟨⟨⟨by decide, by decide⟩, trivial⟩, fun _ _ _ => trivial⟩)
    refine ⟨vs', h', ?_⟩
    rw [e]
    rcases s with _ | ⟨⟨rfl, rfl⟩, _ | ⟨⟨rfl, rfl⟩, _ | ⟨⟨rfl, rfl⟩, _ | _⟩⟩⟩
    congr 4
  · obtain ⟨vs', as, h', ls', e, s, _⟩ := C65_program_partial (by decide) S2 P2 emptyHeap [] []
      [.vec (.newCountVal 10 true), .shiftLeft 0 4 10 3, .get 0 9] (EnvOk.nil emptyHeap_wf) (by
        refine ⟨⟨trivial, by show _ < _; decide, .inl trivial⟩, ?_⟩
        rintro _ _ ⟨rfl, rfl⟩
        refine ⟨⟨⟨by decide, by decide, by decide⟩, .inl (by decide)⟩, ?_⟩
        rintro _ _ ⟨rfl, rfl⟩
        exact ⟨⟨⟨by decide, by decide⟩, trivial⟩, fun _ _ _ => trivial⟩)
    refine ⟨vs', h', ?_⟩
    rw [e]
    rcases s with _ | ⟨⟨rfl, rfl⟩, _ | ⟨⟨rfl, rfl⟩, _ | ⟨⟨rfl, rfl⟩, _ | _⟩⟩⟩
    congr 4

/-- C83: the separators of `debug_string` depend on the word type. -/
theorem C83_debug_differs (S : ShiftSem 8) (S2 : ShiftSem 16) (P P2 : Policy) :
    (∃ vs h, runCalls S P [] [.vec (.newCountVal 9 true), .debugString 0] emptyHeap = .ok ((vs, [.unit, .text "11111111 1".toList]), h)) ∧
    (∃ vs h, runCalls S2 P2 [] [.vec (.newCountVal 9 true), .debugString 0] emptyHeap = .ok ((vs, [.unit, .text "11111111.1".toList]), h)) := by
  constructor
  · obtain ⟨vs', as, h', ls', e, s, _⟩ := C65_program_partial (by decide) S P emptyHeap [] []
      [.vec (.newCountVal 9 true), .debugString 0] (EnvOk.nil emptyHeap_wf) (by
        refine ⟨⟨trivial, by show _ < _; decide, .inl trivial⟩, ?_⟩
        rintro _ _ ⟨rfl, rfl⟩
        exact ⟨⟨by show _ < _; decide, by show _ < _; decide⟩, fun _ _ _ => trivial⟩)
    refine ⟨vs', h', ?_⟩
    rw [e]
    rcases s with _ | ⟨⟨rfl, rfl⟩, _ | ⟨⟨rfl, rfl⟩, _ | _⟩⟩
    congr 4
  · obtain ⟨vs', as, h', ls', e, s, _⟩ := C65_program_partial (by decide) S2 P2 emptyHeap [] []
      [.vec (.newCountVal 9 true), .debugString 0] (EnvOk.nil emptyHeap_wf) (by
        refine ⟨⟨trivial, by show _ < _; decide, .inl trivial⟩, ?_⟩
        rintro _ _ ⟨rfl, rfl⟩
        exact ⟨⟨by show _ < _; decide, by show _ < _; decide⟩, fun _ _ _ => trivial⟩)
    refine ⟨vs', h', ?_⟩
    rw [e]
    rcases s with _ | ⟨⟨rfl, rfl⟩, _ | ⟨⟨rfl, rfl⟩, _ | _⟩⟩
    congr 4

theorem runCalls_cons_ok {S : ShiftSem w} {P : Policy} {vs vs1 : List BV} {c : Call w} {cs : List (Call w)} {h h1 : Heap w} {a : Ans}
    (e : c.exec S P vs h = .ok ((vs1, a), h1)) :
    runCalls S P vs (c :: cs) h = (runCalls S P vs1 cs >>= fun q => pure (q.1, a :: q.2)) h1 := by
  show (Except.bind (c.exec S P vs h) fun p => (runCalls S P p.1.1 cs >>= fun q => pure (q.1, p.1.2 :: q.2)) p.2) = _
  rw [e]
  rfl

theorem runCalls_cons_error {S : ShiftSem w} {P : Policy} {vs : List BV} {c : Call w} {cs : List (Call w)} {h : Heap w} {x : Stop}
    (e : c.exec S P vs h = .error x) : runCalls S P vs (c :: cs) h = .error x := by
  show (Except.bind (c.exec S P vs h) fun p => (runCalls S P p.1.1 cs >>= fun q => pure (q.1, p.1.2 :: q.2)) p.2) = _
  rw [e]
  rfl

/-- C83: whether a program is defined depends on the word type. Erasing the first of `w` elements shifts by the width of a word and is
undefined with unpromoted `w`-bit words; with every other word type the same program runs. -/
theorem C83_limits_differ (hw : 1 < w) (hw' : w < 2 ^ 32) (hv : 0 < v) (hne : v ≠ w) (S : ShiftSem v) (P P2 : Policy) :
    runCalls (Unpromoted w) P [] [.vec (.newCount w), .vec (.erase 0 0), .size 0] emptyHeap = .error (.ub .overshift) ∧
    ∃ vs h, runCalls S P2 [] [.vec (.newCount w), .vec (.erase 0 0), .size 0] emptyHeap = .ok ((vs, [.unit, .unit, .num (w - 1)]), h) := by
  constructor
  · obtain ⟨vs1, a, h1, ls1, e1, ⟨rfl, rfl⟩, ok1⟩ := C65_step_partial (by omega) (Unpromoted w) P emptyHeap [] [] (.vec (.newCount w))
      (EnvOk.nil emptyHeap_wf) trivial ⟨hw', .inl trivial⟩
    rw [runCalls_cons_ok e1]
    have hlen := ok1.len
    obtain ⟨v1, rfl⟩ : ∃ v1, vs1 = [v1] := List.length_eq_one_iff.mp (by rw [hlen]; rfl)
    have hr : Rep h1 v1 (List.replicate w false) := ok1.rep 0 _ _ rfl rfl
    have e2 := (C29_exact (by omega) h1 v1 _ (v1.begin.add ((0 : Nat) : Int)) 0 ok1.wf hr (IsPos.begin_add (by omega) v1 0)
      (by simp; omega)).mpr ⟨by simp, by simp, hw⟩
    have e3 : (Call.vec (.erase 0 0)).exec (Unpromoted w) P [v1] h1 = .error (.ub .overshift) := by
      show (((Prod.fst <$> v1.erase (Unpromoted w) (v1.begin.add ((0 : Nat) : Int))) >>= fun v' => pure ([v1].set 0 v')) >>=
        fun vs' => pure (vs', Ans.unit)) h1 = _
      simp only [bind, StateT.bind, Functor.map, StateT.map, e2, Except.bind]
    show Except.bind (runCalls (Unpromoted w) P [v1] _ h1) (fun q => .ok ((q.1.1, Ans.unit :: q.1.2), q.2)) = _
    rw [runCalls_cons_error e3]
    rfl
  · obtain ⟨vs', as, h', ls', e, s, _⟩ := C65_program_partial hv S P2 emptyHeap [] []
      [.vec (.newCount w), .vec (.erase 0 0), .size 0] (EnvOk.nil emptyHeap_wf) (by
        refine ⟨⟨trivial, hw', .inl trivial⟩, ?_⟩
        rintro _ _ ⟨rfl, rfl⟩
        refine ⟨⟨⟨by simp [Op.apply], by simp [Op.apply, Op.at']; omega⟩, trivial, .inl ?_⟩, ?_⟩
        · simp [Op.NoFullWord, Op.apply, Op.at']
          omega
        rintro _ _ ⟨rfl, rfl⟩
        exact ⟨⟨by simp [Call.Pre, Op.apply], trivial⟩, fun _ _ _ => trivial⟩)
    refine ⟨vs', h', ?_⟩
    rw [e]
    rcases s with _ | ⟨⟨rfl, rfl⟩, _ | ⟨⟨rfl, rfl⟩, _ | ⟨⟨rfl, rfl⟩, _ | _⟩⟩⟩
    simp [Op.apply, Op.at']
    omega

example : (1 < 32 ∧ 32 < 2 ^ 32) ∧ 0 < 64 ∧ 64 ≠ 32 := by decide

end BitLib
