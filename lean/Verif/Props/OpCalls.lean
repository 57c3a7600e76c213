import Verif.Lemmas.OpPure
import Verif.Props.Run
/-
C104: `transform` with an arbitrary operation. How often, in which order and with which words the operation is called, what is written, and
what is left behind when it throws. The ranges may overlap in any way.
-/
namespace BitLib.OpCalls
open BitLib
variable {w : Nat} {γ τ σ ε : Type}

/-- C104: unary `transform` does not run into undefined behaviour whatever the operation does, and does with it what is expected. -/
theorem C104_transform (S : ShiftSem w) (op : Op w (BitVec w) τ σ ε) (m : Mem w) (first last d : BitIter w) (t : τ) (s : σ)
    (hr : Range m first last) (hd : Dest m d (len first last)) :
    let o := expected op (arg1 w first.addr d.addr) (block1 w first.addr d.addr (len first last).toNat) d.addr (len first last).toNat t s (bitAt m)
    ∃ r m', (transform S op first last d).run (t, s) m = .ok ((r, t, o.shared), m') ∧ bitAt m' = o.bits ∧
      match o.thrown with
      | some e => r = .error e
      | none => ∃ it, r = .ok it ∧ it.Valid ∧ it.addr = d.addr + len first last := by
  intro o
  obtain ⟨r, s', m', h1, ⟨h2, h3, h4⟩, h5⟩ := owp_transform S (op := op) (t := t) (s := s) hr hd
  have h3 : s' = (t, o.shared) := h3
  subst h3
  refine ⟨r, m', h1, h4, ?_⟩
  have h2 : _ = o.thrown := h2
  cases r with
  | error e => rw [← h2]
  | ok it => rw [← h2]; exact ⟨it, rfl, h5 it rfl⟩

/-- C104: binary `transform`. -/
theorem C104_transform2 (S : ShiftSem w) (op : Op w (BitVec w × BitVec w) τ σ ε) (m : Mem w) (first last second d : BitIter w) (t : τ) (s : σ)
    (hr : Range m first last) (hs : Dest m second (len first last)) (hd : Dest m d (len first last)) :
    let o := expected op (arg2 w first.addr second.addr d.addr) (block2 w first.addr second.addr d.addr (len first last).toNat) d.addr
      (len first last).toNat t s (bitAt m)
    ∃ r m', (transform2 S op first last second d).run (t, s) m = .ok ((r, t, o.shared), m') ∧ bitAt m' = o.bits ∧
      match o.thrown with
      | some e => r = .error e
      | none => ∃ it, r = .ok it ∧ it.Valid ∧ it.addr = d.addr + len first last := by
  intro o
  obtain ⟨r, s', m', h1, ⟨h2, h3, h4⟩, h5⟩ := owp_transform2 S (op := op) (t := t) (s := s) hr hs hd
  have h3 : s' = (t, o.shared) := h3
  subst h3
  refine ⟨r, m', h1, h4, ?_⟩
  have h2 : _ = o.thrown := h2
  cases r with
  | error e => rw [← h2]
  | ok it => rw [← h2]; exact ⟨it, rfl, h5 it rfl⟩

/-- C104: for an object whose own data the calls do not change (a lambda without `mutable`, a function, an object of the standard library) all
pieces are alike: one call for each word the destination touches, in order. -/
theorem C104_plain (op : Op w γ τ σ ε) (hop : ∀ x s, (op x s).2.1 = s.1) (arg : (Int → Option Bool) → Int → Nat → γ) (block : Bool) (d : Int)
    (n : Nat) (t : τ) (s : σ) (b : Int → Option Bool) :
    expected op arg block d n t s b = runPieces op arg d (pieces w d n) 0 t s b := expected_own hop

/-- C104: a word operation as such is the model of C23, also where that runs into undefined behaviour. -/
theorem C104_pure (S : ShiftSem w) (g : BitVec w → BitVec w) (first last d : BitIter w) :
    (transform S (fun x s => (.ok (g x), s)) first last d : CallM w τ σ ε _) = words (BitLib.transform S g first last d) :=
  transform_pure S g first last d

/-- C104: and of C24. -/
theorem C104_pure2 (S : ShiftSem w) (g : BitVec w → BitVec w → BitVec w) (first last second d : BitIter w) :
    (transform2 S (fun x s => (.ok (g x.1 x.2), s)) first last second d : CallM w τ σ ε _) =
      words (BitLib.transform2 S g first last second d) :=
  transform_pure2 S g first last second d

/-- C104: `transform` with any word operation and any overlap of the ranges: each piece of the destination is computed from what the previous
pieces have left. (C23 is about operations that act bit by bit and ranges where that makes no difference.) -/
theorem C104_overlap (S : ShiftSem w) (g : BitVec w → BitVec w) (m : Mem w) (first last d : BitIter w)
    (hr : Range m first last) (hd : Dest m d (len first last)) :
    ∃ r m', BitLib.transform S g first last d m = .ok (r, m') ∧ r.Valid ∧ r.addr = d.addr + len first last ∧
      bitAt m' = (runPieces (τ := Unit) (σ := Unit) (ε := Empty) (fun x s => (.ok (g x), s)) (arg1 w first.addr d.addr) d.addr
        (pieces w d.addr (len first last).toNat) 0 () () (bitAt m)).bits := by
  obtain ⟨r, m', h1, h2, h3⟩ := C104_transform (τ := Unit) (σ := Unit) (ε := Empty) S (fun x s => (.ok (g x), s)) m first last d () () hr hd
  rw [C104_pure] at h1
  rw [C104_plain _ (fun _ _ => rfl)] at h2 h3
  rw [words_run] at h1
  rcases hx : BitLib.transform S g first last d m with u | ⟨a, m1⟩
  · rw [hx] at h1; cases h1
  · rw [hx] at h1
    cases h1
    refine ⟨a, m', rfl, ?_⟩
    split at h3
    · rename_i e _; exact e.elim
    · obtain ⟨it, e, hv, ha⟩ := h3
      cases e
      exact ⟨hv, ha, h2⟩

/-- C104: nothing outside of the destination changes, whether or not a call throws and whatever the results. -/
theorem C104_frame (S : ShiftSem w) (op : Op w (BitVec w) τ σ ε) (m : Mem w) (first last d : BitIter w) (t : τ) (s : σ)
    (hr : Range m first last) (hd : Dest m d (len first last)) :
    ∃ x m', (transform S op first last d).run (t, s) m = .ok (x, m') ∧
      ∀ i, (i < d.addr ∨ d.addr + len first last ≤ i) → bitAt m' i = bitAt m i := by
  obtain ⟨r, m', h1, h2, _⟩ := C104_transform S op m first last d t s hr hd
  refine ⟨_, m', h1, fun i hi => ?_⟩
  rw [h2]
  apply expected_frame
  have : 0 ≤ len first last := by have := hr.3; unfold len; omega
  omega

/-- C104: the same of binary `transform`. -/
theorem C104_frame2 (S : ShiftSem w) (op : Op w (BitVec w × BitVec w) τ σ ε) (m : Mem w) (first last second d : BitIter w) (t : τ) (s : σ)
    (hr : Range m first last) (hs : Dest m second (len first last)) (hd : Dest m d (len first last)) :
    ∃ x m', (transform2 S op first last second d).run (t, s) m = .ok (x, m') ∧
      ∀ i, (i < d.addr ∨ d.addr + len first last ≤ i) → bitAt m' i = bitAt m i := by
  obtain ⟨r, m', h1, h2, _⟩ := C104_transform2 S op m first last second d t s hr hs hd
  refine ⟨_, m', h1, fun i hi => ?_⟩
  rw [h2]
  apply expected_frame
  have : 0 ≤ len first last := by have := hr.3; unfold len; omega
  omega

/-- C104: the operation is called as many times as there are words with bits of the destination; at most that many times, and at least once, if
a call throws. `std::transform` over the bits would call it once for each bit. -/
theorem C104_calls (S : ShiftSem w) (op : Op w (BitVec w) τ σ ε) (m : Mem w) (first last d : BitIter w) (t : τ) (s : σ)
    (hr : Range m first last) (hd : Dest m d (len first last)) :
    ∃ r s' k m', (transform S (fun x s => let o := op x (s.1, s.2.1); (o.1, o.2.1, o.2.2, s.2.2 + 1)) first last d).run (t, s, 0) m =
        .ok ((r, t, s', k), m') ∧
      match r with
      | .ok _ => k = wordsOf w d.addr (len first last).toNat
      | .error _ => 0 < k ∧ k ≤ wordsOf w d.addr (len first last).toNat := by
  have hw : 0 < w := Nat.lt_of_le_of_lt (Nat.zero_le _) hr.1
  have h := C104_transform S (counted op) m first last d t (s, 0) hr hd
  have hc := expected_count (op := op) (arg := arg1 w first.addr d.addr) (block := block1 w first.addr d.addr (len first last).toNat)
    (d := d.addr) (n := (len first last).toNat) (t := t) (s := (s, 0)) (b := bitAt m)
  rw [pieces_length hw] at hc
  generalize expected (counted op) _ _ _ _ _ _ _ = o at h hc
  obtain ⟨r, m', h1, h2, h3⟩ := h
  refine ⟨r, _, _, m', h1, ?_⟩
  split at h3
  · rename_i e he
    rw [h3]
    have := hc.2 (by rw [he]; simp)
    simpa using this
  · rename_i he
    obtain ⟨it, e, _⟩ := h3
    rw [e]
    have := hc.1 he
    simpa using this

/-- C104: and binary `transform`. -/
theorem C104_calls2 (S : ShiftSem w) (op : Op w (BitVec w × BitVec w) τ σ ε) (m : Mem w) (first last second d : BitIter w) (t : τ) (s : σ)
    (hr : Range m first last) (hs : Dest m second (len first last)) (hd : Dest m d (len first last)) :
    ∃ r s' k m', (transform2 S (fun x s => let o := op x (s.1, s.2.1); (o.1, o.2.1, o.2.2, s.2.2 + 1)) first last second d).run (t, s, 0) m =
        .ok ((r, t, s', k), m') ∧
      match r with
      | .ok _ => k = wordsOf w d.addr (len first last).toNat
      | .error _ => 0 < k ∧ k ≤ wordsOf w d.addr (len first last).toNat := by
  have hw : 0 < w := Nat.lt_of_le_of_lt (Nat.zero_le _) hr.1
  have h := C104_transform2 S (counted op) m first last second d t (s, 0) hr hs hd
  have hc := expected_count (op := op) (arg := arg2 w first.addr second.addr d.addr)
    (block := block2 w first.addr second.addr d.addr (len first last).toNat)
    (d := d.addr) (n := (len first last).toNat) (t := t) (s := (s, 0)) (b := bitAt m)
  rw [pieces_length hw] at hc
  generalize expected (counted op) _ _ _ _ _ _ _ = o at h hc
  obtain ⟨r, m', h1, h2, h3⟩ := h
  refine ⟨r, _, _, m', h1, ?_⟩
  split at h3
  · rename_i e he
    rw [h3]
    have := hc.2 (by rw [he]; simp)
    simpa using this
  · rename_i he
    obtain ⟨it, e, _⟩ := h3
    rw [e]
    have := hc.1 he
    simpa using this

/-- C104: the bits of the word a call is given. -/
theorem C104_seen (b : Int → Option Bool) (f d : Int) (l i : Nat) (hi : i < w) :
    (seen w b f d l).getLsbD i =
      if (i : Int) < d % w then false
      else if (i : Int) < d % w + l ∨ (i : Int) < d % w + (w - f % w) then (b (f + (i - d % w))).getD false
      else false := by
  have h1 : 0 ≤ d % (w : Int) := Int.emod_nonneg _ (by omega)
  have h2 : 0 ≤ f % (w : Int) := Int.emod_nonneg _ (by omega)
  have h3 : f % (w : Int) < w := Int.emod_lt_of_pos _ (by omega)
  unfold seen
  rw [wordOf_get _ _ _ hi]
  dsimp only
  by_cases ha : (i : Int) < d % w
  · rw [if_pos ha]; simp [show ¬ (d % (w : Int)).toNat ≤ i by omega]
  · rw [if_neg ha]
    have hle : (d % (w : Int)).toNat ≤ i := by omega
    have e : ((i - (d % (w : Int)).toNat : Nat) : Int) = i - d % w := by omega
    rw [e]
    by_cases hb : (i : Int) < d % w + l ∨ (i : Int) < d % w + (w - f % w)
    · rw [if_pos hb]; simp [hle, show i - (d % (w : Int)).toNat < max l (w - (f % (w : Int)).toNat) by omega]
    · rw [if_neg hb]; simp [show ¬ i - (d % (w : Int)).toNat < max l (w - (f % (w : Int)).toNat) by omega]

/-! ### cases -/

/-- Run in a memory of some words. -/
def runOp {α : Type} (x : CallM w τ σ ε α) (s : τ × σ) (ws : List (BitVec w)) : Except UB ((Except ε α × τ × σ) × List (Option (BitVec w))) :=
  match x.run s (memOf ws) with
  | .ok (r, m) => .ok (r, (List.range ws.length).map fun (i : Nat) => m i)
  | .error u => .error u

/-- The hypotheses hold for 13 bits from bit 5 of a word to bit 3 of the word before, which overlap. -/
example : Range (memOf [0xa5#8, 0x3c#8, 0x99#8, 0x0f#8]) ⟨1, 5⟩ ⟨3, 2⟩ ∧
    Dest (memOf [0xa5#8, 0x3c#8, 0x99#8, 0x0f#8]) ⟨0, 3⟩ (len (⟨1, 5⟩ : BitIter 8) ⟨3, 2⟩) ∧
    Dest (memOf [0xa5#8, 0x3c#8, 0x99#8, 0x0f#8]) ⟨1, 1⟩ (len (⟨1, 5⟩ : BitIter 8) ⟨3, 2⟩) :=
  ⟨range_memOf (by decide) (by decide) (by decide) (by decide) (by decide), dest_memOf (by decide) (by decide) (by decide),
    dest_memOf (by decide) (by decide) (by decide)⟩

/-- An operation that writes down the words it is given, and throws when it is called for the `k`-th time. -/
def noting (k : Nat) : Op 8 (BitVec 8) Unit (List (BitVec 8)) String := fun x s =>
  (if s.2.length + 1 = k then .error "stop" else .ok (~~~x), s.1, s.2 ++ [x])

/-- Numbers of words. -/
example : wordsOf 8 3 13 = 2 ∧ wordsOf 8 3 14 = 3 ∧ wordsOf 8 0 17 = 3 ∧ wordsOf 8 5 0 = 0 := by decide

/-- It keeps nothing in the object. -/
example (k : Nat) : ∀ x s, (noting k x s).2.1 = s.1 := fun _ _ => rfl

/-- Two calls, the first with three zeros below the five bits, the second with what is beyond. -/
example : runOp (transform S8 (noting 0) ⟨1, 5⟩ ⟨3, 2⟩ ⟨0, 3⟩) ((), []) [0xa5#8, 0x3c#8, 0x99#8, 0x0f#8] =
    .ok ((.ok ⟨2, 0⟩, (), [0x48#8, 0xe6#8]), [some 0xb5#8, some 0x19#8, some 0x99#8, some 0x0f#8]) := by rfl

/-- The second call throws: what the first has written stays. -/
example : runOp (transform S8 (noting 2) ⟨1, 5⟩ ⟨3, 2⟩ ⟨0, 3⟩) ((), []) [0xa5#8, 0x3c#8, 0x99#8, 0x0f#8] =
    .ok ((.error "stop", (), [0x48#8, 0xe6#8]), [some 0xb5#8, some 0x3c#8, some 0x99#8, some 0x0f#8]) := by rfl

/-- C104, witness: the operation is given bits that are not in the range, and the result may depend on them. The three bits at the beginning of the
first word are the same twice; the operation answers 7 to a 7. -/
theorem C104_outside :
    runOp (transform S8 (fun x s => (.ok (if x = 7#8 then 7#8 else 0#8), s)) ⟨0, 0⟩ ⟨0, 3⟩ ⟨1, 0⟩ : CallM 8 Unit Unit Empty _) ((), ())
        [0x07#8, 0x00#8] = .ok ((.ok ⟨1, 3⟩, (), ()), [some 0x07#8, some 0x07#8]) ∧
      runOp (transform S8 (fun x s => (.ok (if x = 7#8 then 7#8 else 0#8), s)) ⟨0, 0⟩ ⟨0, 3⟩ ⟨1, 0⟩ : CallM 8 Unit Unit Empty _) ((), ())
        [0x0f#8, 0x00#8] = .ok ((.ok ⟨1, 3⟩, (), ()), [some 0x0f#8, some 0x00#8]) := by
  constructor <;> rfl

/-- An object that numbers its calls with a member. -/
def numbering : Op 8 (BitVec 8) Nat Unit Empty := fun _ s => (.ok (BitVec.ofNat 8 s.1), s.1 + 1, s.2)

/-- C104, witness: with an object that keeps data of its own the result depends on where the source begins in a word. From the beginning of a word two
words are left to `std::transform` and a copy of the object; the last piece then has number 0 again. From the second bit on, it has number 2. -/
theorem C104_own :
    runOp (transform S8 numbering ⟨0, 0⟩ ⟨2, 4⟩ ⟨4, 0⟩) (0, ()) [0#8, 0#8, 0#8, 0#8, 9#8, 9#8, 9#8] =
        .ok ((.ok ⟨6, 4⟩, 0, ()), [some 0#8, some 0#8, some 0#8, some 0#8, some 0#8, some 1#8, some 0#8]) ∧
      runOp (transform S8 numbering ⟨0, 1⟩ ⟨2, 5⟩ ⟨4, 0⟩) (0, ()) [0#8, 0#8, 0#8, 0#8, 9#8, 9#8, 9#8] =
        .ok ((.ok ⟨6, 4⟩, 0, ()), [some 0#8, some 0#8, some 0#8, some 0#8, some 0#8, some 1#8, some 2#8]) := by
  constructor <;> rfl

/-- Two sources. -/
example : runOp (transform2 S8 (fun x s => (.ok (x.1 ^^^ x.2), s.1, s.2 ++ [x])) ⟨0, 0⟩ ⟨1, 2⟩ ⟨1, 4⟩ ⟨2, 6⟩ :
      CallM 8 Unit (List (BitVec 8 × BitVec 8)) Empty _) ((), []) [0xa5#8, 0x3c#8, 0x99#8, 0x0f#8, 0x55#8] =
    .ok ((.ok ⟨4, 0⟩, (), [(0x40#8, 0xc0#8), (0x29#8, 0x64#8)]), [some 0xa5#8, some 0x3c#8, some 0x99#8, some 0x4d#8, some 0x55#8]) := by
  rfl

end BitLib.OpCalls
