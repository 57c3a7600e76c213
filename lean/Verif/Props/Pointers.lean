import Verif.Lemmas.PointersRotate
/-
C98: which word iterators the algorithms form. `Ptr.f` is the text of `f` with a check wherever the code moves a word iterator
(`Model/Pointers`); the check fails if the result is neither a word of the array nor its end.
-/
namespace BitLib
variable {w : Nat}

/-! ### The checks change nothing else -/

/-- C98: from every memory, for all arguments and arrays, the checked algorithm stops at a forbidden word iterator or does what the model does. -/
theorem C98_text (S : ShiftSem w) (A A' B : Arr) (a b c d : BitIter w) (n : Int) (v : Bool) (f : BitVec w → BitVec w) (g : BitVec w → BitVec w → BitVec w)
    (m : Mem w) :
    (Bad (Ptr.copy A B S a b c m) ∨ Same (Ptr.copy A B S a b c m) (copy S a b c m)) ∧
    (Bad (Ptr.move A B S a b c m) ∨ Same (Ptr.move A B S a b c m) (move S a b c m)) ∧
    (Bad (Ptr.copyBackward A B S a b c m) ∨ Same (Ptr.copyBackward A B S a b c m) (copyBackward S a b c m)) ∧
    (Bad (Ptr.transform A B S f a b c m) ∨ Same (Ptr.transform A B S f a b c m) (transform S f a b c m)) ∧
    (Bad (Ptr.transform2 A A' B S g a b c d m) ∨ Same (Ptr.transform2 A A' B S g a b c d m) (transform2 S g a b c d m)) ∧
    (Bad (Ptr.swapRanges A B S a b c m) ∨ Same (Ptr.swapRanges A B S a b c m) (swapRanges S a b c m)) ∧
    (Bad (Ptr.fill A S a b v m) ∨ Same (Ptr.fill A S a b v m) (fill S a b v m)) ∧
    (Bad (Ptr.find A S a b v m) ∨ Same (Ptr.find A S a b v m) (find S a b v m)) ∧
    (Bad (Ptr.equal A B S a b c m) ∨ Same (Ptr.equal A B S a b c m) (equal S a b c m)) ∧
    (Bad (Ptr.count A S a b v m) ∨ Same (Ptr.count A S a b v m) (count S a b v m)) ∧
    (Bad (Ptr.shiftLeft A S a b n m) ∨ Same (Ptr.shiftLeft A S a b n m) (shiftLeft S a b n m)) ∧
    (Bad (Ptr.shiftRight A S a b n m) ∨ Same (Ptr.shiftRight A S a b n m) (shiftRight S a b n m)) ∧
    (Bad (Ptr.reverse A S a b m) ∨ Same (Ptr.reverse A S a b m) (reverse S a b m)) ∧
    (Bad (Ptr.rotate A S a b c m) ∨ Same (Ptr.rotate A S a b c m) (rotate S a b c m)) :=
  ⟨Ptr.u_copy m, Ptr.u_move m, Ptr.u_copyBackward m, Ptr.u_transform m, Ptr.u_transform2 m, Ptr.u_swapRanges m, Ptr.u_fill m, Ptr.u_find m,
    Ptr.u_equal m, Ptr.u_count m, Ptr.u_shiftLeft m, Ptr.u_shiftRight m, Ptr.u_reverse m, Ptr.u_rotate m⟩

/- Both happen: the range ends outside of its array, or not. -/
example : Bad (Ptr.fill ⟨0, 1⟩ S8 ⟨0, 3⟩ ⟨3, 2⟩ true (memOf [0#8, 0#8, 0#8, 0#8])) := ⟨_, _, rfl⟩
example : ∃ r, Ptr.fill ⟨0, 4⟩ S8 ⟨0, 3⟩ ⟨3, 2⟩ true (memOf [0#8, 0#8, 0#8, 0#8]) = .ok r ∧ r.2 1 = some 0xFF#8 := ⟨_, rfl, by decide⟩

/-! ### Algorithms that stay in their arrays -/

/-- C98: `copy`, `move` and `transform` of a range of an array into an array that is large enough form word iterators of the two arrays only. -/
theorem C98_copy (S : ShiftSem w) (A B : Arr) (first last dFirst : BitIter w) (f : BitVec w → BitVec w) (h : A.Has first) (hl : A.Has last)
    (hd : B.Has dFirst) (hb : dFirst.addr + (last.addr - first.addr) ≤ B.hi * w) (m : Mem w) :
    Same (Ptr.copy A B S first last dFirst m) (copy S first last dFirst m) ∧
    Same (Ptr.move A B S first last dFirst m) (move S first last dFirst m) ∧
    Same (Ptr.transform A B S f first last dFirst m) (transform S f first last dFirst m) :=
  ⟨(Ptr.f_copy h hl hd hb).same m, (Ptr.f_move h hl hd hb).same m, (Ptr.f_transform h hl hd hb).same m⟩

/-- Example: two words at 0 and two at 2. -/
def exArr : Arr := ⟨0, 2⟩
def exArr' : Arr := ⟨2, 4⟩

/- Twelve bits go to the end of the second array, and are written. -/
example : exArr.Has (⟨0, 3⟩ : BitIter 8) ∧ exArr.Has (⟨1, 7⟩ : BitIter 8) ∧ exArr'.Has (⟨2, 4⟩ : BitIter 8) ∧
    (⟨2, 4⟩ : BitIter 8).addr + ((⟨1, 7⟩ : BitIter 8).addr - (⟨0, 3⟩ : BitIter 8).addr) ≤ exArr'.hi * (8 : Nat) ∧
    ∃ r, copy S8 ⟨0, 3⟩ ⟨1, 7⟩ ⟨2, 4⟩ (memOf [0xFF#8, 0xFF#8, 0#8, 0#8]) = .ok r ∧ r.1 = ⟨4, 0⟩ ∧ r.2 3 = some 0xFF#8 :=
  ⟨by decide, by decide, by decide, by decide, _, rfl, by decide, by decide⟩
/- With a word more the second array is left. -/
example : Bad (Ptr.copy ⟨0, 3⟩ ⟨3, 5⟩ S8 ⟨0, 3⟩ ⟨2, 7⟩ ⟨3, 4⟩ (memOf [0xFF#8, 0xFF#8, 0xFF#8, 0#8, 0#8, 0#8, 0#8])) := ⟨_, _, rfl⟩

/-- C98: the same for `transform` of two ranges. -/
theorem C98_transform2 (S : ShiftSem w) (A A' B : Arr) (first1 last1 first2 dFirst : BitIter w) (g : BitVec w → BitVec w → BitVec w)
    (h : A.Has first1) (hl : A.Has last1) (h' : A'.Has first2) (hd : B.Has dFirst) (hb' : first2.addr + (last1.addr - first1.addr) ≤ A'.hi * w)
    (hb : dFirst.addr + (last1.addr - first1.addr) ≤ B.hi * w) (m : Mem w) :
    Same (Ptr.transform2 A A' B S g first1 last1 first2 dFirst m) (transform2 S g first1 last1 first2 dFirst m) :=
  (Ptr.f_transform2 h hl h' hd hb' hb).same m

example : exArr.Has (⟨0, 3⟩ : BitIter 8) ∧ exArr.Has (⟨1, 7⟩ : BitIter 8) ∧ exArr.Has (⟨0, 1⟩ : BitIter 8) ∧ exArr'.Has (⟨2, 4⟩ : BitIter 8) ∧
    (⟨0, 1⟩ : BitIter 8).addr + ((⟨1, 7⟩ : BitIter 8).addr - (⟨0, 3⟩ : BitIter 8).addr) ≤ exArr.hi * (8 : Nat) ∧
    (⟨2, 4⟩ : BitIter 8).addr + ((⟨1, 7⟩ : BitIter 8).addr - (⟨0, 3⟩ : BitIter 8).addr) ≤ exArr'.hi * (8 : Nat) ∧
    ∃ r, transform2 S8 (· ^^^ ·) ⟨0, 3⟩ ⟨1, 7⟩ ⟨0, 1⟩ ⟨2, 4⟩ (memOf [0x0F#8, 0x35#8, 0#8, 0#8]) = .ok r :=
  ⟨by decide, by decide, by decide, by decide, by decide, by decide, _, rfl⟩

/-- C98: `equal` of a range and the range of the same length at `dFirst`, and `swap_ranges`. -/
theorem C98_equal (S : ShiftSem w) (A B : Arr) (first last dFirst : BitIter w) (h : A.Has first) (hl : A.Has last) (hd : B.Has dFirst)
    (hb : dFirst.addr + (last.addr - first.addr) ≤ B.hi * w) (m : Mem w) :
    Same (Ptr.equal A B S first last dFirst m) (equal S first last dFirst m) ∧
    Same (Ptr.swapRanges A B S first last dFirst m) (swapRanges S first last dFirst m) :=
  ⟨(Ptr.f_equal h hl hd hb).same m, (Ptr.f_swapRanges h hl hd hb).same m⟩

example : exArr.Has (⟨0, 3⟩ : BitIter 8) ∧ exArr.Has (⟨1, 7⟩ : BitIter 8) ∧ exArr'.Has (⟨2, 4⟩ : BitIter 8) ∧
    (⟨2, 4⟩ : BitIter 8).addr + ((⟨1, 7⟩ : BitIter 8).addr - (⟨0, 3⟩ : BitIter 8).addr) ≤ exArr'.hi * (8 : Nat) ∧
    ∃ r, swapRanges S8 ⟨0, 3⟩ ⟨1, 7⟩ ⟨2, 4⟩ (memOf [0xFF#8, 0xFF#8, 0#8, 0#8]) = .ok r ∧ r.2 1 = some 0x80#8 :=
  ⟨by decide, by decide, by decide, by decide, _, rfl, by decide⟩

/-- C98: `fill` and `find` stay in the array of their range. -/
theorem C98_fill (S : ShiftSem w) (A : Arr) (first last : BitIter w) (v : Bool) (h : A.Has first) (hl : A.Has last) (m : Mem w) :
    Same (Ptr.fill A S first last v m) (fill S first last v m) ∧ Same (Ptr.find A S first last v m) (find S first last v m) :=
  ⟨(Ptr.f_fill h hl).same m, (Ptr.f_find h hl).same m⟩

example : exArr.Has (⟨0, 3⟩ : BitIter 8) ∧ exArr.Has (⟨2, 0⟩ : BitIter 8) ∧
    ∃ r, fill S8 ⟨0, 3⟩ ⟨2, 0⟩ true (memOf [0#8, 0#8]) = .ok r ∧ r.2 0 = some 0xF8#8 := ⟨by decide, by decide, _, rfl, by decide⟩

/-! ### Algorithms that do not always

Each of the following says for which ranges, and only for which, a word iterator outside of the array is formed. -/

/-- C98: `count` reads the word at `&*it` when `it` is the end of the array, in the one case `CountAtEnd`. -/
theorem C98_count (S : ShiftSem w) (A : Arr) (first last : BitIter w) (v : Bool) (h : A.Has first) (hl : A.Has last) (m : Mem w) :
    (¬ CountAtEnd A first last → Same (Ptr.count A S first last v m) (count S first last v m)) ∧
    (CountAtEnd A first last → ∀ r, count S first last v m = .ok r → Bad (Ptr.count A S first last v m)) :=
  ⟨fun hg => (Ptr.f_count h hl hg).same m, fun hg _ e => (Ptr.s_count h hg).bad Ptr.u_count m e⟩

/- The last five bits of an array of one word: the model counts them. -/
example : (⟨0, 1⟩ : Arr).Has (⟨0, 3⟩ : BitIter 8) ∧ (⟨0, 1⟩ : Arr).Has (⟨1, 0⟩ : BitIter 8) ∧ CountAtEnd ⟨0, 1⟩ (⟨0, 3⟩ : BitIter 8) ⟨1, 0⟩ ∧
    ∃ r, count S8 ⟨0, 3⟩ ⟨1, 0⟩ true (memOf [0xF0#8]) = .ok r ∧ r.1 = 4 := ⟨by decide, by decide, by decide, _, rfl, by decide⟩
/- The same bits in an array of two words. -/
example : ¬ CountAtEnd exArr (⟨0, 3⟩ : BitIter 8) ⟨1, 0⟩ := by decide

/-- C98: `copy_backward` decrements the destination below the first word of its array exactly in the case `BackAtStart`. -/
theorem C98_copy_backward (S : ShiftSem w) (A B : Arr) (first last dLast : BitIter w) (h : A.Has first) (hl : A.Has last) (hd : B.Has dLast)
    (hb : B.lo * w ≤ dLast.addr - (last.addr - first.addr)) (m : Mem w) :
    (¬ BackAtStart B first last dLast → Same (Ptr.copyBackward A B S first last dLast m) (copyBackward S first last dLast m)) ∧
    (BackAtStart B first last dLast → ∀ r, copyBackward S first last dLast m = .ok r → Bad (Ptr.copyBackward A B S first last dLast m)) :=
  ⟨fun hg => (Ptr.f_copyBackward h hl hd hb hg).same m, fun hg _ e => (Ptr.s_copyBackward h hl hd hg).bad Ptr.u_copyBackward m e⟩

/- A word is copied to the first word of an array. -/
example : exArr.Has (⟨0, 0⟩ : BitIter 8) ∧ exArr.Has (⟨1, 0⟩ : BitIter 8) ∧ exArr'.Has (⟨3, 0⟩ : BitIter 8) ∧
    exArr'.lo * (8 : Nat) ≤ (⟨3, 0⟩ : BitIter 8).addr - ((⟨1, 0⟩ : BitIter 8).addr - (⟨0, 0⟩ : BitIter 8).addr) ∧
    BackAtStart exArr' (⟨0, 0⟩ : BitIter 8) ⟨1, 0⟩ ⟨3, 0⟩ ∧ ∃ r, copyBackward S8 ⟨0, 0⟩ ⟨1, 0⟩ ⟨3, 0⟩ (memOf [0xA5#8, 0#8, 0#8, 0#8]) = .ok r ∧ r.2 2 = some 0xA5#8 :=
  ⟨by decide, by decide, by decide, by decide, by decide, _, rfl, by decide⟩
/- One word further the call is good. -/
example : ¬ BackAtStart exArr' (⟨0, 0⟩ : BitIter 8) ⟨1, 0⟩ ⟨4, 0⟩ ∧ exArr'.Has (⟨4, 0⟩ : BitIter 8) := by decide

/-- C98: `shift_left` forms `first + n` before it compares `n` with the length, and leaves the array exactly if that does. -/
theorem C98_shift_left (S : ShiftSem w) (A : Arr) (first last : BitIter w) (n : Int) (h : A.Has first) (hl : A.Has last) (m : Mem w) :
    (¬ OffArray A (first.add n) → Same (Ptr.shiftLeft A S first last n m) (shiftLeft S first last n m)) ∧
    (OffArray A (first.add n) → ∀ r, shiftLeft S first last n m = .ok r → Bad (Ptr.shiftLeft A S first last n m)) := by
  unfold OffArray
  exact ⟨fun hg => (Ptr.f_shiftLeft h hl (by omega)).same m, fun hg _ e => (Ptr.s_shiftLeft (by omega)).bad Ptr.u_shiftLeft m e⟩

/- A shift by more than the array, which the model returns from at once, and one inside. -/
example : exArr.Has (⟨0, 3⟩ : BitIter 8) ∧ exArr.Has (⟨2, 0⟩ : BitIter 8) ∧ OffArray exArr ((⟨0, 3⟩ : BitIter 8).add 30) ∧
    (∃ r, shiftLeft S8 ⟨0, 3⟩ ⟨2, 0⟩ 30 (memOf [0xA5#8, 0xA5#8]) = .ok r) ∧ ¬ OffArray exArr ((⟨0, 3⟩ : BitIter 8).add 13) :=
  ⟨by decide, by decide, by decide, ⟨_, rfl⟩, by decide⟩

/-- C98: `shift_right` forms `last - n` first, and decrements the word iterators once more after the first word has been read: it leaves the array
exactly if `last - n` does or in the case `RightAtStart`. -/
theorem C98_shift_right (S : ShiftSem w) (A : Arr) (first last : BitIter w) (n : Int) (h : A.Has first) (hl : A.Has last) (m : Mem w) :
    (¬ (OffArray A (last.sub n) ∨ RightAtStart A first last n) → Same (Ptr.shiftRight A S first last n m) (shiftRight S first last n m)) ∧
    (OffArray A (last.sub n) ∨ RightAtStart A first last n → ∀ r, shiftRight S first last n m = .ok r → Bad (Ptr.shiftRight A S first last n m)) := by
  unfold OffArray
  refine ⟨fun hg => (Ptr.f_shiftRight h hl (by omega) fun hr => hg (.inr hr)).same m, fun hg _ e => (Ptr.s_shiftRight h hl ?_).bad Ptr.u_shiftRight m e⟩
  rcases hg with hg | hg
  · exact .inl (by omega)
  · exact .inr hg

/- Two words are shifted by one bit: the model does so. -/
example : exArr.Has (⟨0, 0⟩ : BitIter 8) ∧ exArr.Has (⟨2, 0⟩ : BitIter 8) ∧ ¬ OffArray exArr ((⟨2, 0⟩ : BitIter 8).sub 1) ∧
    RightAtStart exArr (⟨0, 0⟩ : BitIter 8) ⟨2, 0⟩ 1 := by decide
example : ∃ r, shiftRight S8 ⟨0, 0⟩ ⟨2, 0⟩ 1 (memOf [0x81#8, 0x00#8]) = .ok r ∧ r.2 1 = some 0x01#8 := ⟨_, rfl, by decide⟩
/- The same two words behind another one. -/
example : ¬ (OffArray ⟨-1, 2⟩ ((⟨2, 0⟩ : BitIter 8).sub 1) ∨ RightAtStart ⟨-1, 2⟩ (⟨0, 0⟩ : BitIter 8) ⟨2, 0⟩ 1) := by decide

/-- C98: `reverse` leaves the array exactly in the case `ReverseAtStart`, in its call of `shift_right`. -/
theorem C98_reverse (S : ShiftSem w) (A : Arr) (first last : BitIter w) (h : A.Has first) (hl : A.Has last) (m : Mem w) :
    (¬ ReverseAtStart A first last → Same (Ptr.reverse A S first last m) (reverse S first last m)) ∧
    (ReverseAtStart A first last → ∀ r, reverse S first last m = .ok r → Bad (Ptr.reverse A S first last m)) :=
  ⟨fun hg => (Ptr.f_reverse h hl hg).same m, fun hg _ e => (Ptr.s_reverse h hl hg).bad Ptr.u_reverse m e⟩

/- All bits of two words but the first: the model reverses them. -/
example : exArr.Has (⟨0, 1⟩ : BitIter 8) ∧ exArr.Has (⟨2, 0⟩ : BitIter 8) ∧ ReverseAtStart exArr (⟨0, 1⟩ : BitIter 8) ⟨2, 0⟩ ∧
    ∃ r, reverse S8 ⟨0, 1⟩ ⟨2, 0⟩ (memOf [0x02#8, 0x00#8]) = .ok r ∧ r.2 1 = some 0x80#8 := ⟨by decide, by decide, by decide, _, rfl, by decide⟩
/- All bits but the last. -/
example : ¬ ReverseAtStart exArr (⟨0, 0⟩ : BitIter 8) ⟨1, 7⟩ := by decide

/-- C98: `rotate` leaves the array exactly in the case `RotateBad`, in the `shift_right` it ends with. -/
theorem C98_rotate (S : ShiftSem w) (A : Arr) (first nFirst last : BitIter w) (h : A.Has first) (hn : A.Has nFirst) (hl : A.Has last) (m : Mem w) :
    (¬ RotateBad A first nFirst last → Same (Ptr.rotate A S first nFirst last m) (rotate S first nFirst last m)) ∧
    (RotateBad A first nFirst last → ∀ r, rotate S first nFirst last m = .ok r → Bad (Ptr.rotate A S first nFirst last m)) :=
  ⟨fun hg => (Ptr.f_rotate h hn hl hg).same m, fun hg _ e => (Ptr.s_rotate h hn hl hg).bad Ptr.u_rotate m e⟩

/- The last bit of two words goes to the front. -/
example : exArr.Has (⟨0, 0⟩ : BitIter 8) ∧ exArr.Has (⟨1, 7⟩ : BitIter 8) ∧ exArr.Has (⟨2, 0⟩ : BitIter 8) := by decide
example : RotateBad exArr (⟨0, 0⟩ : BitIter 8) ⟨1, 7⟩ ⟨2, 0⟩ :=
  ⟨by decide, by decide, .right _ _ (by decide) (by decide) (by decide)⟩
example : ∃ r, rotate S8 ⟨0, 0⟩ ⟨1, 7⟩ ⟨2, 0⟩ (memOf [0x00#8, 0x81#8]) = .ok r ∧ r.2 0 = some 0x01#8 := ⟨_, rfl, by decide⟩
/- 31 bits, of which 22 go to the back: blocks of 9 bits are swapped, then 4 of 9 bits go to the back, which is done by `shift_left`. -/
example : ¬ RotateBad ⟨0, 4⟩ (⟨0, 0⟩ : BitIter 8) ⟨2, 6⟩ ⟨3, 7⟩ := by
  rintro ⟨_, _, h⟩
  cases h with
  | right _ _ h1 h2 => exact absurd h2 (by decide)
  | swaps _ _ h1 h2 h3 h4 =>
    cases h4 with
    | right _ _ h5 h6 h7 => exact absurd h5 (by decide)
    | swaps _ _ h5 => exact absurd h5 (by decide)
/- 50 bits, of which 33 go to the back: blocks of 17 bits are swapped, then 16 of 17 bits go to the back, which is done by `shift_right`. -/
example : RotateBad ⟨0, 7⟩ (⟨0, 0⟩ : BitIter 8) ⟨4, 1⟩ ⟨6, 2⟩ :=
  ⟨by decide, by decide, .swaps _ _ (by decide) (by decide) (by decide) (.right _ _ (by decide) (by decide) (by decide))⟩

end BitLib
