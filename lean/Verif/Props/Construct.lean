import Verif.Lemmas.ConstructRun
/-
C100: what an initialisation of a `bit_vector<W>` builds. `content` reads it off the shape of the arguments (SpecConstruct.lean); `compile` selects the
constructor by the rules of the language for the declarations in the header, and `run` calls it.
-/
namespace BitLib.Construct
variable {w : Nat}

theorem agrees (hw : 0 < w) (S : ShiftSem w) (P : Policy) {L : Lang} (hL : L.Ok) (f : Form) (args : List (Arg w)) :
    Agrees S P args (content L f args) (compile L f args) := by
  cases f with
  | paren =>
    have h := agrees_paren (S := S) (P := P) hw L args
    have e : compile L .paren args = (resolve L allCtors (args.map Arg.ty)).bind fun c => finish L .paren args (.ctor c) := by
      rw [compile_eq]; show ((resolve L allCtors (args.map Arg.ty)).map Sel.ctor).bind _ = _
      cases resolve L allCtors (args.map Arg.ty) <;> rfl
    rw [e]; exact h
  | brace => exact agrees_brace hw hL false args
  | eqBrace => exact agrees_brace hw hL true args
  | eq => exact agrees_eq hw L args

/-- C100: an initialisation is rejected if and only if the table says so, and for the reason it says. -/
theorem C100_rejected (hw : 0 < w) {L : Lang} (hL : L.Ok) (f : Form) (args : List (Arg w)) (e : Err) :
    compile L f args = .error e ↔ content L f args = .error e := by
  have h := agrees hw ⟨w, Nat.le_refl w, fun _ _ => .ok 0#w, fun _ _ => .ok 0#w⟩ 
    ⟨fun _ n => n, fun _ _ => Nat.le_refl _, id, fun _ => Nat.le_refl _, fun _ _ => true⟩ hL f args
  cases hc : content L f args with
  | error e' =>
    rw [hc] at h
    have h : compile L f args = .error e' := h
    rw [h]; simp
  | ok c =>
    rw [hc] at h
    obtain ⟨s, hs⟩ : ∃ s, compile L f args = .ok s := by
      cases c with
      | none => obtain ⟨s, hs, _⟩ := h; exact ⟨s, hs⟩
      | some c => obtain ⟨s, hs, _⟩ := h; exact ⟨s, hs⟩
    simp [hs]

/-- C100: what is not rejected builds a new vector with the content in the table, whatever the heap, and changes nothing else. -/
theorem C100_builds (hw : 0 < w) (S : ShiftSem w) (P : Policy) {L : Lang} (hL : L.Ok) (f : Form) (args : List (Arg w)) (c : Content w)
    (hc : content L f args = .ok (some c)) :
    ∃ s, compile L f args = .ok s ∧ ∀ h l, h.WF → c.Is h l →
      ∃ v h', run S P s args h = .ok (v, h') ∧ VStep h Vec.empty h' v.vec ∧ Rep h' v l := by
  have h := agrees hw S P hL f args
  rw [hc] at h
  exact h

/-- C100: the one other outcome is a range that is not valid. -/
theorem C100_invalid_range (hw : 0 < w) (S : ShiftSem w) (P : Policy) {L : Lang} (hL : L.Ok) (f : Form) (args : List (Arg w))
    (hc : content L f args = .ok none) :
    ∃ s, compile L f args = .ok s ∧ ∀ h, run S P s args h = .error (.ub .badRange) := by
  have h := agrees hw S P hL f args
  rw [hc] at h
  exact h

/-! ### Lists of bits -/

/-- C100, refuted for lists of bits: no list of one or more bits in braces compiles, although there is a constructor for it. -/
theorem C100_bit_list_refuted (hw : 0 < w) {L : Lang} (hL : L.Ok) (f : Form) (hf : f = .brace ∨ f = .eqBrace) (args : List (Arg w)) (hne : args ≠ [])
    (hb : ∀ a ∈ args, a.bit?.isSome = true) : compile L f args = .error .body := by
  rw [C100_rejected hw hL]
  have h1 : (args.all fun a => a.bit?.isSome) = true := List.all_eq_true.mpr hb
  rcases hf with rfl | rfl <;> simp [content, braceContent, hne, h1]

/-- C100: more exactly, the constructor from `initializer_list<bit_value>` and the one from a vector and an allocator that copies are never called. -/
theorem C100_never_called (L : Lang) (f : Form) (args : List (Arg w)) (s : Sel) (h : compile L f args = .ok s) :
    s ≠ .list .bit ∧ s ≠ .ctor .bitList ∧ s ≠ .ctor .copyAlloc := by
  rw [compile_eq] at h
  cases hs : select L f args with
  | error e => rw [hs] at h; cases h
  | ok t =>
    rw [hs] at h
    have h : finish L f args t = .ok s := h
    unfold finish at h
    split at h
    · cases h
    split at h
    · cases h
    split at h
    · cases h
    · rename_i hb
      cases h
      refine ⟨?_, ?_, ?_⟩ <;> (rintro rfl; simp [Sel.bodyErr] at hb)

/-! ### Numbers in braces -/

/-- C100: a list of numbers in braces compiles if and only if all are of type `bool`, or all are words (or promoted to words). In the second case the
content is the bits of the words. In particular `{1, 0, 1}` compiles for no `W`. -/
theorem C100_number_list (hw : 0 < w) {L : Lang} (hL : L.Ok) (f : Form) (hf : f = .brace ∨ f = .eqBrace) (args : List (Arg w)) (hne : args ≠ [])
    (hn : ∀ a ∈ args, a.number?.isSome = true) :
    ((∃ s, compile L f args = .ok s) ↔ (∀ a ∈ args, a.isBool = true) ∨ ∀ a ∈ args, a.isWord L = true) ∧
    ((∀ a ∈ args, a.isBool = true) → content L f args = .ok (some (.bits (args.map Arg.asBool)))) ∧
    ((∀ a ∈ args, a.isWord L = true) → content L f args = .ok (some (.bits (bitsOfWords (args.map Arg.asWord))))) := by
  obtain ⟨a0, h0⟩ := List.exists_mem_of_ne_nil args hne
  have h1 : (args.all fun a => a.bit?.isSome) = false := by
    rw [List.all_eq_false]
    exact ⟨a0, h0, by have := hn a0 h0; cases a0 <;> simp_all [Arg.number?, Arg.bit?]⟩
  have h2 : args.all Arg.scalar = true := by
    rw [List.all_eq_true]
    intro a ha; have := hn a ha; cases a <;> simp_all [Arg.number?, Arg.scalar]
  have h3 : args.any Arg.isPtr = false := by
    rw [List.any_eq_false]
    intro a ha; have := hn a ha; cases a <;> simp_all [Arg.number?, Arg.isPtr]
  have hcont : content L f args = if args.all Arg.isBool then
      if args.any (Arg.narrowsBool L) then .error .narrowing else .ok (some (.bits (args.map Arg.asBool)))
      else if args.all (Arg.isWord L) then .ok (some (.bits (bitsOfWords (args.map Arg.asWord)))) else .error .ambiguous := by
    rcases hf with rfl | rfl <;> simp [content, braceContent, hne, h1, h2, h3]
  have hex : (∃ s, compile L f args = .ok s) ↔ ∀ e, content L f args ≠ .error e := by
    constructor
    · rintro ⟨s, hs⟩ e he
      rw [← C100_rejected hw hL, hs] at he; cases he
    · intro h
      cases hs : compile L f args with
      | ok s => exact ⟨s, rfl⟩
      | error e => exact absurd ((C100_rejected hw hL f args e).mp hs) (h e)
  have hnn : args.all Arg.isBool = true → args.any (Arg.narrowsBool L) = false := by
    intro hb
    rw [List.any_eq_false]
    intro a ha
    have := List.all_eq_true.mp hb a ha
    cases a <;> simp_all [Arg.isBool, Arg.narrowsBool]
  refine ⟨?_, fun h => ?_, fun h => ?_⟩
  rotate_left
  · have hb := List.all_eq_true.mpr h
    rw [hcont, if_pos hb, hnn hb]; rfl
  · have hb : ¬ args.all Arg.isBool = true := fun hb => by
      have e1 := h a0 h0
      have e2 := List.all_eq_true.mp hb a0 h0
      cases a0 <;> simp_all [Arg.isBool, Arg.isWord]
    rw [hcont, if_neg hb, if_pos (List.all_eq_true.mpr h)]
  rw [hex, hcont]
  by_cases hb : args.all Arg.isBool = true
  · rw [if_pos hb, hnn hb]
    exact ⟨fun _ => .inl (List.all_eq_true.mp hb), fun _ e => by simp⟩
  · rw [if_neg hb]
    have hb' : ¬ ∀ a ∈ args, a.isBool = true := fun h => hb (List.all_eq_true.mpr h)
    by_cases hwd : args.all (Arg.isWord L) = true
    · rw [if_pos hwd]
      exact ⟨fun _ => .inr (List.all_eq_true.mp hwd), fun _ e => by simp⟩
    · rw [if_neg hwd]
      have hw' : ¬ ∀ a ∈ args, a.isWord L = true := fun h => hwd (List.all_eq_true.mpr h)
      constructor
      · intro h; exact absurd rfl (h .ambiguous)
      · rintro (h | h)
        · exact absurd h hb'
        · exact absurd h hw'

/-! ### Pointers in braces -/

/-- C100: two pointers in braces are not a range, and a string literal in braces is not a string: where a conversion of a pointer to `bool` does not count as
narrowing, the vector holds a one for every pointer; elsewhere nothing compiles. -/
theorem C100_pointers (hw : 0 < w) {L : Lang} (hL : L.Ok) (f : Form) (hf : f = .brace ∨ f = .eqBrace) (args : List (Arg w)) (hne : args ≠ [])
    (hp : ∀ a ∈ args, a.isPtr = true) :
    if L.ptrNarrows then compile L f args = .error .narrowing
    else content L f args = .ok (some (.bits (List.replicate args.length true))) := by
  obtain ⟨a0, h0⟩ := List.exists_mem_of_ne_nil args hne
  have h1 : (args.all fun a => a.bit?.isSome) = false := by
    rw [List.all_eq_false]
    exact ⟨a0, h0, by have := hp a0 h0; cases a0 <;> simp_all [Arg.isPtr, Arg.bit?]⟩
  have h2 : args.all Arg.scalar = true := by
    rw [List.all_eq_true]
    intro a ha; have := hp a ha; cases a <;> simp_all [Arg.isPtr, Arg.scalar]
  have h3 : args.any Arg.isPtr = true := List.any_eq_true.mpr ⟨a0, h0, hp a0 h0⟩
  have h4 : args.map Arg.asBool = List.replicate args.length true := by
    rw [List.eq_replicate_iff]
    refine ⟨by simp, fun b hb => ?_⟩
    obtain ⟨a, ha, rfl⟩ := List.mem_map.mp hb
    have := hp a ha; cases a <;> simp_all [Arg.isPtr, Arg.asBool]
  cases hnar : L.ptrNarrows with
  | true =>
    have h5 : args.any (Arg.narrowsBool L) = true := List.any_eq_true.mpr ⟨a0, h0, by
      have := hp a0 h0; cases a0 <;> simp_all [Arg.isPtr, Arg.narrowsBool]⟩
    simp only [if_true]
    rw [C100_rejected hw hL]
    rcases hf with rfl | rfl <;> simp [content, braceContent, hne, h1, h2, h3, h5]
  | false =>
    have h5 : args.any (Arg.narrowsBool L) = false := by
      rw [List.any_eq_false]
      intro a ha; have := hp a ha; cases a <;> simp_all [Arg.isPtr, Arg.narrowsBool]
    rcases hf with rfl | rfl <;> simp [content, braceContent, hne, h1, h2, h3, h5, h4]

/-! ### `std::vector<bool>` -/

theorem std_between (s t : Src w) (c c' : Content w) (h : between? s t = .ok (some c)) (h' : stdBetween? s t = some (some c')) :
    c = c' ∨ ∃ ws : List (BitVec w), c = .bits (bitsOfWords ws) ∧ c' = .bits (ws.map (· != 0#w)) := by
  cases s <;> cases t <;> simp only [between?, stdBetween?, reduceCtorEq, Except.ok.injEq, Option.some.injEq] at h h'
  · left; rw [h] at h'; simpa using h'
  · right
    unfold slice? at h h'
    split at h
    · rename_i hb
      rw [if_pos hb] at h'
      simp only [Option.some.injEq] at h h'
      exact ⟨_, h.symm, h'.symm⟩
    · cases h

theorem std_pair (a b : Arg w) (al : Bool) (c c' : Content w) (h : pairContent a b al = .ok (some c)) (h' : stdPair a b al = some (some c')) :
    c = c' ∨ ∃ ws : List (BitVec w), c = .bits (bitsOfWords ws) ∧ c' = .bits (ws.map (· != 0#w)) := by
  by_cases he : a.ty.decay = b.ty.decay
  · simp only [pairContent, if_pos he] at h
    cases a <;> cases b <;> simp only [Arg.ty, Ty.decay, reduceCtorEq] at he <;> simp only [reduceCtorEq] at h <;>
      simp only [stdPair, Arg.number?] at h'
    · split at h'
      · exact std_between _ _ c c' h h'
      · cases h'
    · split at h'
      · exact std_between _ _ c c' h h'
      · cases h'
    · cases h'
  · simp only [pairContent, if_neg he] at h
    cases b with
    | alloc =>
      cases al <;> cases a <;> simp [stdPair, Arg.number?, Arg.bit?] at h h' <;> (left; rw [← h, ← h'])
    | bitValue x => cases a <;> simp [stdPair, Arg.number?, Arg.scalar] at h'
    | bitRef k x => cases a <;> simp [stdPair, Arg.number?, Arg.scalar] at h'
    | _ => cases a <;> simp [Arg.number?, Arg.bit?] at h

theorem std_paren (args : List (Arg w)) (c c' : Content w) (h : parenContent args = .ok (some c)) (h' : stdParen args = some (some c')) :
    c = c' ∨ ∃ ws : List (BitVec w), c = .bits (bitsOfWords ws) ∧ c' = .bits (ws.map (· != 0#w)) := by
  match args with
  | [] => left; simp [parenContent, stdParen] at h h'; rw [← h, ← h']
  | [a] => cases a <;> simp [parenContent, stdParen] at h h' <;> (left; rw [← h, ← h'])
  | [a, b] => exact std_pair a b false c c' h (by unfold stdParen at h'; cases a <;> exact h')
  | [a, b, d] =>
    cases d with
    | alloc => exact std_pair a b true c c' h (by unfold stdParen at h'; cases a <;> exact h')
    | _ => cases h
  | a :: b :: d :: e :: as => simp [parenContent] at h

/-- C100: where an initialisation compiles for `bit_vector<W>` and for `std::vector<bool>` both hold the same elements, except that `bit_vector` takes all bits of
given words where `std::vector<bool>` takes one element for each. -/
theorem C100_as_std (hw : 0 < w) (L : Lang) (f : Form) (args : List (Arg w)) (c c' : Content w) (h : content L f args = .ok (some c))
    (h' : stdContent L f args = some (some c')) :
    c = c' ∨ ∃ ws : List (BitVec w), c = .bits (bitsOfWords ws) ∧ c' = .bits (ws.map (· != 0#w)) := by
  have hbr : ∀ eq, braceContent L eq args = .ok (some c) → stdBrace L eq args = some (some c') →
      c = c' ∨ ∃ ws : List (BitVec w), c = .bits (bitsOfWords ws) ∧ c' = .bits (ws.map (· != 0#w)) := by
    intro eq h h'
    unfold braceContent at h
    unfold stdBrace at h'
    split at h
    · rename_i h0
      rw [if_pos h0] at h'
      simp only [Except.ok.injEq, Option.some.injEq] at h h'
      left; rw [← h, ← h']
    · rename_i h0
      rw [if_neg h0] at h'
      split at h
      · cases h
      · split at h
        · rename_i hs
          rw [if_pos hs] at h'
          split at h'
          · cases h'
          · rename_i hn
            simp only [Option.some.injEq] at h'
            split at h
            · simp only [Except.ok.injEq, Option.some.injEq] at h
              left; rw [← h, ← h']
            · split at h
              · rename_i hwd
                simp only [Except.ok.injEq, Option.some.injEq] at h
                right
                refine ⟨args.map Arg.asWord, h.symm, ?_⟩
                rw [← h', List.map_map]
                congr 1
                refine List.map_congr_left fun a ha => ?_
                have ha1 := List.all_eq_true.mp hwd a ha
                have ha2 : ¬ a.narrowsBool L = true := fun hx => hn (List.any_eq_true.mpr ⟨a, ha, hx⟩)
                cases a <;> simp [Arg.isWord] at ha1
                rename_i t n k
                simp only [Arg.narrowsBool, Bool.not_eq_true, Bool.not_eq_false', Bool.and_eq_true, Bool.or_eq_true, beq_iff_eq] at ha2
                rcases ha2.2 with rfl | rfl
                · simp [Arg.asBool, Arg.asWord]
                · have : (1#w) ≠ 0#w := by
                    intro e
                    have := congrArg (fun x => x.getLsbD 0) e
                    simp [hw] at this
                  simp [Arg.asBool, Arg.asWord, this]
              · cases h
        · rename_i hs
          rw [if_neg hs] at h'
          have done := std_paren args c c'
          match args with
          | [] => exact absurd rfl h0
          | [a] =>
            dsimp only at h h'
            split at h <;> [cases h; skip]
            split at h' <;> [cases h'; skip]
            exact done h h'
          | [a, b] =>
            dsimp only at h h'
            split at h <;> [cases h; skip]
            split at h <;> [cases h; skip]
            split at h' <;> [cases h'; skip]
            split at h' <;> [cases h'; skip]
            exact done h h'
          | [a, b, d] =>
            dsimp only at h h'
            split at h <;> [cases h; skip]
            split at h' <;> [cases h'; skip]
            exact done h h'
          | a :: b :: d :: e :: as => simp at h'
  cases f with
  | paren => exact std_paren args c c' h h'
  | brace => exact hbr false h h'
  | eqBrace => exact hbr true h h'
  | eq =>
    simp only [content, stdContent] at h h'
    split at h'
    · simp only [eqContent, Except.ok.injEq, Option.some.injEq] at h h'
      left; rw [← h, ← h']
    · cases h'

/-- C100: the two differ whenever there is a word at all. -/
theorem C100_words_differ (hw : 2 ≤ w) (ws : List (BitVec w)) (hne : ws ≠ []) : bitsOfWords ws ≠ ws.map (· != 0#w) := by
  intro h
  have h := congrArg List.length h
  rw [bitsOfWords_length, List.length_map] at h
  have : 0 < ws.length := List.length_pos_iff.mpr hne
  have : ws.length * 2 ≤ ws.length * w := Nat.mul_le_mul_left _ hw
  omega

/-- C100, refuted as a promise that the constructors of `std::vector<bool>` are there: a count with a `bool`, or with a number for it, does not compile. -/
theorem C100_count_bool_refuted (hw : 0 < w) {L : Lang} (hL : L.Ok) (t : IntTy) (n : Int) (k : Bool) :
    (∀ b, stdContent (w := w) L .paren [.int t n k, .bool b] = some (some (.count (n % 2 ^ 64).toNat b)) ∧
      compile (w := w) L .paren [.int t n k, .bool b] = .error .noMatch) ∧
    (∀ m, stdContent (w := w) L .paren [.int t n k, .int t m k] = some (some (.count (n % 2 ^ 64).toNat (m != 0))) ∧
      compile (w := w) L .paren [.int t n k, .int t m k] = .error .body) := by
  refine ⟨fun b => ⟨rfl, ?_⟩, fun m => ⟨rfl, ?_⟩⟩
  · rw [C100_rejected hw hL]; rfl
  · rw [C100_rejected hw hL]; simp [content, parenContent, pairContent, Arg.ty]

/-! ### Examples: 8-bit words on a usual platform -/

def u8 : IntTy := ⟨false, 8, 0⟩
def int32 : IntTy := ⟨true, 32, 0⟩
def u64 : IntTy := ⟨false, 64, 0⟩
/-- `W` is `unsigned char`; integer types of fewer than 32 bits are promoted to `int`. -/
def lang8 : Lang := ⟨u8, u64, int32, fun t u => decide (t.bits < 32) && decide (u = int32), true⟩
def lang64 : Lang := ⟨u64, u64, int32, fun t u => decide (t.bits < 32) && decide (u = int32), true⟩

theorem lang8_ok : lang8.Ok := by
  refine ⟨rfl, rfl, fun t u h => ?_⟩
  simp only [lang8, Bool.and_eq_true, decide_eq_true_eq] at h
  obtain ⟨h1, rfl⟩ := h
  obtain ⟨s, b, i⟩ := t
  dsimp only at h1
  cases s
  · exact decide_eq_true h1
  · exact decide_eq_true (Nat.le_of_lt h1)

theorem lang64_ok : lang64.Ok := ⟨rfl, rfl, lang8_ok.promotes⟩

-- bit_vector<unsigned char> v(10, bit1); v{10, bit1}; v("1 01"); v{true, false}; v{(unsigned char)3}
example : compile (w := 8) lang8 .paren [.int int32 10 true, .bitValue true] = .ok (.ctor .countVal) := by rfl
example : content (w := 8) lang8 .brace [.int int32 10 true, .bitValue true] = .ok (some (.count 10 true)) := by rfl
example : content (w := 8) lang8 .paren [.charPtr "1 01".toList] = .ok (some (.bits [true, false, true])) := by rfl
example : compile (w := 8) lang8 .brace [.bool true, .bool false] = .ok (.list .bool) := by decide
example : content (w := 8) lang8 .brace [.int u8 3 true] = .ok (some (.bits [true, true, false, false, false, false, false, false])) := by rfl
-- v{n, bit1} with a variable n of type int; v{"101"}; v{1, 0, 1}; v(3, true); v(3, 0); v = "101"
example : compile (w := 8) lang8 .brace [.int int32 10 false, .bitValue true] = .error .narrowing := by rfl
example : compile (w := 8) lang8 .brace [.charPtr "101".toList] = .error .narrowing := by rfl
example : content (w := 8) { lang8 with ptrNarrows := false } .brace [.charPtr "101".toList] = .ok (some (.bits [true])) := by rfl
example : compile (w := 8) lang8 .brace [.int int32 1 true, .int int32 0 true, .int int32 1 true] = .error .ambiguous := by rfl
example : compile (w := 8) lang8 .paren [.int int32 3 true, .bool true] = .error .noMatch := by rfl
example : compile (w := 8) lang8 .paren [.int int32 3 true, .int int32 0 true] = .error .body := by rfl
example : compile (w := 8) lang8 .eq [.charPtr "101".toList] = .error .noMatch := by rfl
-- bit_vector<uint64_t> v(n) holds n zeros, v{n} the bits of n
example : content (w := 64) lang64 .paren [.int u64 5 false] = .ok (some (.count 5 false)) := by rfl
example : compile (w := 64) lang64 .brace [.int u64 5 false] = .ok (.list .word) := by rfl
-- v(o.begin(), o.end()) and v(o.cbegin(), o.cend())
example : content (w := 8) lang8 .paren [.bitIter vecIt ⟨4, 1⟩, .bitIter vecIt ⟨5, 0⟩] = .ok (some (.range ⟨4, 1⟩ ⟨5, 0⟩)) := by rfl
example : compile (w := 8) lang8 .paren [.bitIter vecConstIt ⟨4, 1⟩, .bitIter vecConstIt ⟨5, 0⟩] = .error .body := by rfl
-- hypotheses of the theorems on lists
example : ∀ a ∈ [(.bitValue true : Arg 8), .bitRef 0 false], a.bit?.isSome = true := by decide
example : ∀ a ∈ [(.bool true : Arg 8), .int int32 1 true], a.number?.isSome = true := by decide
example : ∀ a ∈ [(.charPtr [] : Arg 8), .ptr (.bools [true] 0) 0], a.isPtr = true := by decide
-- both compile and differ: a range of words
example : content (w := 8) lang8 .paren [.ptr (.words [2#8] 0) 0, .ptr (.words [2#8] 1) 0] =
    .ok (some (.bits [false, true, false, false, false, false, false, false])) := by rfl
example : stdContent (w := 8) lang8 .paren [.ptr (.words [2#8] 0) 0, .ptr (.words [2#8] 1) 0] = some (some (.bits [true])) := by rfl
-- not a valid range
example : content (w := 8) lang8 .paren [.iter (.bools [true] 1) 0, .iter (.bools [true] 0) 0] = .ok none := by rfl

end BitLib.Construct
