import Verif.SpecThreads
import Verif.Model.Copy
import Verif.Model.Query
import Verif.Model.Shift
import Verif.Model.Client
/-
The algorithms once more, as sequences of memory accesses: the same program texts as in `Model/Std`, `Model/Iter`, `Model/Word`,
`Model/Details`, `Model/Copy`, `Model/Query`, `Model/Shift`, and the accesses to single bits of `Model/Ref`, written for any monad that has the
operations of a memory instead of `M`. In `M` they are the programs of those files (`C93_text`); in `Code` (`SpecThreads.lean`) they are the accesses that a call makes,
one by one, as the source text demands them (a compiler may keep words in registers and make fewer).
-/
namespace BitLib

/-- The operations that a program is made of. -/
class MemOps (w : outParam Nat) (m : Type → Type) where
  load : Int → m (BitVec w)
  store : Int → BitVec w → m Unit
  ub : {α : Type} → UB → m α
  lift : {α : Type} → Except UB α → m α
  /-- `assert(c)` -/
  check : (c : Prop) → [Decidable c] → m Unit

instance (w : Nat) : MemOps w (M w) where
  load := BitLib.load
  store := BitLib.store
  ub := BitLib.ub
  lift := BitLib.lift
  check c := BitLib.assertM c

namespace Code
variable {w : Nat} {α β : Type}

/-- One piece of code after the other. -/
def bind : Code w α → (α → Code w β) → Code w β
  | ret a, f => f a
  | stop e, _ => stop e
  | load a k, f => load a fun x => (k x).bind f
  | store a x k, f => store a x (k.bind f)

/-- A pure computation that may be undefined. -/
def lift : Except UB α → Code w α
  | .ok a => ret a
  | .error e => stop e

end Code

instance (w : Nat) : Monad (Code w) where
  pure := Code.ret
  bind := Code.bind

instance (w : Nat) : MemOps w (Code w) where
  load a := .load a .ret
  store a x := .store a x (.ret ())
  ub := .stop
  lift := Code.lift
  check c := if c then .ret () else .stop .assertFail

namespace Gen
variable {w : Nat} {m : Type → Type} [Monad m] [MemOps w m]
export MemOps (load store ub lift)

/-- `assert(c)`. -/
def assertM (c : Prop) [Decidable c] : m Unit := MemOps.check c

/-- As code: the program stops unless `c`. -/
theorem assertM_code (c : Prop) [Decidable c] : (assertM c : Code w Unit) = if c then pure () else ub .assertFail := rfl

/-! ### Model/Std.lean -/

/-- Number of words of `[first, last)`; calling an algorithm with `last` before `first` is undefined. -/
def wordDist (first last : Int) : m Nat :=
  if first ≤ last then pure (last - first).toNat else ub .badRange

/-- `std::copy` / `std::move(first, last, d)`; returns the end of the destination. -/
def stdCopyN : Nat → Int → Int → m Int
  | 0, _, d => pure d
  | n+1, s, d => do
    let x ← load s
    store d x
    stdCopyN n (s + 1) (d + 1)

/-- `std::copy(first, last, d)`. -/
def stdCopy (first last d : Int) : m Int := do
  let n ← wordDist first last
  stdCopyN n first d

/-- `std::copy_backward` / `std::move_backward`: `l`, `dl` are the ends; returns the beginning of the destination. -/
def stdCopyBackwardN : Nat → Int → Int → m Int
  | 0, _, dl => pure dl
  | n+1, l, dl => do
    let x ← load (l - 1)
    store (dl - 1) x
    stdCopyBackwardN n (l - 1) (dl - 1)

/-- `std::copy_backward(first, last, dl)`. -/
def stdCopyBackward (first last dl : Int) : m Int := do
  let n ← wordDist first last
  stdCopyBackwardN n last dl

def stdFillN (x : BitVec w) : Nat → Int → m Unit
  | 0, _ => pure ()
  | n+1, d => do
    store d x
    stdFillN x n (d + 1)

/-- `std::fill(first, last, x)`. -/
def stdFill (first last : Int) (x : BitVec w) : m Unit := do
  let n ← wordDist first last
  stdFillN x n first

def stdFindIfN (p : BitVec w → Bool) : Nat → Int → m Int
  | 0, a => pure a
  | n+1, a => do
    let x ← load a
    if p x then pure a else stdFindIfN p n (a + 1)

/-- `std::find_if(first, last, p)`. -/
def stdFindIf (first last : Int) (p : BitVec w → Bool) : m Int := do
  let n ← wordDist first last
  stdFindIfN p n first

def stdEqualN : Nat → Int → Int → m Bool
  | 0, _, _ => pure true
  | n+1, a, b => do
    let x ← load a
    let y ← load b
    if x = y then stdEqualN n (a + 1) (b + 1) else pure false

/-- `std::equal(first, last, d)`. -/
def stdEqual (first last d : Int) : m Bool := do
  let n ← wordDist first last
  stdEqualN n first d

/-- `std::reverse` for random access iterators: `n` words left between `a` and `b` (exclusive end);
swaps `*a` and `*(b-1)` and moves inwards. -/
def stdReverseN : Nat → Int → Int → m Unit
  | 0, _, _ => pure ()
  | 1, _, _ => pure ()
  | n+2, a, b => do
    let x ← load a
    let y ← load (b - 1)
    store a y
    store (b - 1) x
    stdReverseN n (a + 1) (b - 1)

/-- `std::reverse(first, last)`. -/
def stdReverse (first last : Int) : m Unit := do
  let n ← wordDist first last
  stdReverseN n first last

def stdTransformN (f : BitVec w → BitVec w) : Nat → Int → Int → m Int
  | 0, _, d => pure d
  | n+1, s, d => do
    let x ← load s
    store d (f x)
    stdTransformN f n (s + 1) (d + 1)

/-- `std::transform(first, last, d, f)`. -/
def stdTransform (first last d : Int) (f : BitVec w → BitVec w) : m Int := do
  let n ← wordDist first last
  stdTransformN f n first d

def stdTransform2N (f : BitVec w → BitVec w → BitVec w) : Nat → Int → Int → Int → m Int
  | 0, _, _, d => pure d
  | n+1, s, t, d => do
    let x ← load s
    let y ← load t
    store d (f x y)
    stdTransform2N f n (s + 1) (t + 1) (d + 1)

/-- `std::transform(first1, last1, first2, d, f)`. -/
def stdTransform2 (first1 last1 first2 d : Int) (f : BitVec w → BitVec w → BitVec w) : m Int := do
  let n ← wordDist first1 last1
  stdTransform2N f n first1 first2 d

def stdSwapRangesN : Nat → Int → Int → m Int
  | 0, _, b => pure b
  | n+1, a, b => do
    let x ← load a
    let y ← load b
    store a y
    store b x
    stdSwapRangesN n (a + 1) (b + 1)

/-- `std::swap_ranges(first1, last1, first2)`; returns the end of the second range. -/
def stdSwapRanges (first1 last1 first2 : Int) : m Int := do
  let n ← wordDist first1 last1
  stdSwapRangesN n first1 first2

/-! ### Model/Iter.lean -/

/-- bit_iterator.hpp:171-180, constructor with position; `assert(pos < digits)`. -/
def BitIter.mk? (a : Int) (pos : Nat) : m (BitIter w) := do
  assertM (pos < w)
  pure ⟨a, pos⟩

/-- bit_details.hpp:377-387, `_assert_range_viability`: `assert(last - first >= 0)`
(`std::distance` of two random access bit iterators is their difference). -/
def assertViable (first last : BitIter w) : m Unit :=
  assertM (0 ≤ last.diff first)

/-- bit_algorithm_details.hpp:29-41, `bit::distance`: asserts viability, then
`(last.base - first.base) * digits + (last.position - first.position)`. -/
def distance (first last : BitIter w) : m Int := do
  assertViable first last
  pure ((last.base - first.base) * (w : Int) + ((last.pos : Int) - (first.pos : Int)))

/-! ### Model/Word.lean -/

/-- bit_details.hpp:768-775, `_bitexch(T& src0, T& src1, T msk)`. -/
def bitexch3 (a0 a1 : Int) (msk : BitVec w) : m Unit := do
  let x ← load a0
  let y ← load a1
  store a0 (x ^^^ (y &&& msk))
  let y ← load a1
  let x ← load a0
  store a1 (y ^^^ (x &&& msk))
  let x ← load a0
  let y ← load a1
  store a0 (x ^^^ (y &&& msk))

/-- bit_details.hpp:777-790, `_bitexch(T& src0, T& src1, S start, S len)`. -/
def bitexch4 (S : ShiftSem w) (a0 a1 : Int) (start len : Nat) : m Unit := do
  let msk ← lift (if len < w then do
      let a ← S.shl 1#w len
      S.shl (a - 1#w) start
    else pure (BitVec.allOnes w))
  bitexch3 a0 a1 msk

/-- One assignment of the five-argument `_bitexch`: `dst = dst ^ (T(src << n) & T(msk << start))`. -/
def exchStepL (S : ShiftSem w) (dst src : Int) (n : Nat) (msk : BitVec w) (start : Nat) : m Unit := do
  let x ← load dst
  let y ← load src
  let t ← lift (S.shl y n)
  let k ← lift (S.shl msk start)
  store dst (x ^^^ (t &&& k))

/-- One assignment of the five-argument `_bitexch`: `dst = dst ^ (T(src >> n) & T(msk << start))`. -/
def exchStepR (S : ShiftSem w) (dst src : Int) (n : Nat) (msk : BitVec w) (start : Nat) : m Unit := do
  let x ← load dst
  let y ← load src
  let t ← lift (S.shr y n)
  let k ← lift (S.shl msk start)
  store dst (x ^^^ (t &&& k))

/-- bit_details.hpp:792-837, `_bitexch(T& src0, T& src1, S start0, S start1, S len)`. -/
def bitexch5 (S : ShiftSem w) (a0 a1 : Int) (start0 start1 len : Nat) : m Unit := do
  let msk ← lift (exchMask S len)
  if start0 ≥ start1 then do
    exchStepL S a0 a1 (start0 - start1) msk start0
    exchStepR S a1 a0 (start0 - start1) msk start1
    exchStepL S a0 a1 (start0 - start1) msk start0
  else do
    exchStepR S a0 a1 (start1 - start0) msk start0
    exchStepL S a1 a0 (start1 - start0) msk start1
    exchStepR S a0 a1 (start1 - start0) msk start0

/-! ### Model/Details.lean -/

/-- The statement `*it = _bitblend<word_type>(*it, src, start, len)` that occurs throughout the library. -/
def blendAt (S : ShiftSem w) (it : Int) (src : BitVec w) (start len : Nat) : m Unit := do
  let x ← load it
  let r ← lift (bitblend4 S x src start len)
  store it r

/-- The statement `*it = _bitblend(*it, src, static_cast<word_type>((static_cast<word_type>(1) << n) - 1))`
(copy.hpp:87-93 and the same lines of move.hpp and transform.hpp). -/
def blendLowAt (S : ShiftSem w) (it : Int) (src : BitVec w) (n : Nat) : m Unit := do
  let x ← load it
  let msk ← lift (lowMask S n)
  store it (bitblend3 x src msk)

/-- bit_algorithm_details.hpp:104-142, `get_word<T>(first, len)` for `T` = the native word type (the only instantiation
in the library). The inner `while (len > digits)` loop cannot be entered: `len <= digits` is asserted and `offset >= 1`. -/
def getWord (S : ShiftSem w) (first : BitIter w) (len : Nat) : m (BitVec w) := do
  assertM (w ≥ len)
  let offset := w - first.pos
  let x ← load first.base
  let ret ← lift (S.shr x first.pos)
  if len ≤ offset then pure ret
  else do
    let y ← load (first.base + 1)
    let t ← lift (S.shl y offset)
    lift (bitblend4 S ret t offset (len - offset))

/-- bit_algorithm_details.hpp:209-243, `write_word(src, dst_bit_it, len)`, the branch for equal word types. -/
def writeWord (S : ShiftSem w) (src : BitVec w) (dst : BitIter w) (len : Nat) : m Unit := do
  if dst.pos = 0 ∧ len = w then store dst.base src
  else do
    let t ← lift (S.shl src dst.pos)
    blendAt S dst.base t dst.pos (min (w - dst.pos) len)
    if len > w - dst.pos then do
      let t ← lift (S.shr src (w - dst.pos))
      blendAt S (dst.base + 1) t 0 (len - (w - dst.pos))
    else pure ()

/-- bit_algorithm_details.hpp:277-291, `word_shift_left` (the C++17 stand-in for `std::shift_left`). -/
def wordShiftLeft (first last n : Int) : m Int :=
  if n ≤ 0 then pure last
  else if n ≥ last - first then pure first
  else stdCopy (first + n) last first

/-- bit_algorithm_details.hpp:294-307, `word_shift_right`. -/
def wordShiftRight (first last n : Int) : m Int :=
  if n ≤ 0 then pure first
  else if n ≥ last - first then pure last
  else do
    let _ ← stdCopyBackward first (last - n) last
    pure (first + n)

/-! ### Model/Copy.lean -/

/-- copy.hpp:56-74: the partial word that aligns the destination. Returns `(remaining, first, it)`. -/
def copyHead (S : ShiftSem w) (first dFirst : BitIter w) (total : Nat) :
    m (Nat × BitIter w × Int) :=
  if dFirst.pos ≠ 0 then do
    let part := min total (w - dFirst.pos)
    let x ← getWord S first part
    let t ← lift (S.shl x dFirst.pos)
    blendAt S dFirst.base t dFirst.pos part
    pure (total - part, first.add part, dFirst.base + 1)
  else pure (total, first, dFirst.base)

/-- copy.hpp:94-101: the final partial word. -/
def copyTail (S : ShiftSem w) (remaining : Nat) (first : BitIter w) (it : Int) : m Unit :=
  if remaining > 0 then do
    let x ← getWord S first remaining
    blendLowAt S it x remaining
  else pure ()

/-- copy.hpp:87-92: `while (remaining >= digits)`, followed by the tail. -/
def copyLoop (S : ShiftSem w) : Nat → Nat → BitIter w → Int → m Unit
  | 0, _, _, _ => ub .outOfFuel
  | fuel+1, remaining, first, it =>
    if remaining ≥ w then do
      let x ← getWord S first w
      store it x
      copyLoop S fuel (remaining - w) (first.add w) (it + 1)
    else copyTail S remaining first it

/-- copy.hpp:30-104, `bit::copy`. -/
def copy (S : ShiftSem w) (first last dFirst : BitIter w) : m (BitIter w) := do
  assertViable first last
  if first.beq last then pure dFirst
  else do
    let d ← distance first last
    let total := d.toNat
    let (remaining, first, it) ← copyHead S first dFirst total
    if remaining > 0 then
      if first.pos = 0 ∧ remaining > w then do
        let N ← wordDist first.base last.base
        let it ← stdCopy first.base last.base it
        copyTail S (subSize remaining (w * N)) (first.add ((w : Int) * N)) it
        pure (dFirst.add total)
      else do
        copyLoop S (remaining + 1) remaining first it
        pure (dFirst.add total)
    else pure (dFirst.add total)

/-! ### move: move.hpp:25-99 repeats the code of copy.hpp with `std::move` for `std::copy`
(the same word assignments). -/

/-- move.hpp:51-69. -/
def moveHead (S : ShiftSem w) (first dFirst : BitIter w) (total : Nat) :
    m (Nat × BitIter w × Int) :=
  if dFirst.pos ≠ 0 then do
    let part := min total (w - dFirst.pos)
    let x ← getWord S first part
    let t ← lift (S.shl x dFirst.pos)
    blendAt S dFirst.base t dFirst.pos part
    pure (total - part, first.add part, dFirst.base + 1)
  else pure (total, first, dFirst.base)

/-- move.hpp:89-96. -/
def moveTail (S : ShiftSem w) (remaining : Nat) (first : BitIter w) (it : Int) : m Unit :=
  if remaining > 0 then do
    let x ← getWord S first remaining
    blendLowAt S it x remaining
  else pure ()

/-- move.hpp:82-87. -/
def moveLoop (S : ShiftSem w) : Nat → Nat → BitIter w → Int → m Unit
  | 0, _, _, _ => ub .outOfFuel
  | fuel+1, remaining, first, it =>
    if remaining ≥ w then do
      let x ← getWord S first w
      store it x
      moveLoop S fuel (remaining - w) (first.add w) (it + 1)
    else moveTail S remaining first it

/-- move.hpp:25-99, `bit::move`. -/
def move (S : ShiftSem w) (first last dFirst : BitIter w) : m (BitIter w) := do
  assertViable first last
  if first.beq last then pure dFirst
  else do
    let d ← distance first last
    let total := d.toNat
    let (remaining, first, it) ← moveHead S first dFirst total
    if remaining > 0 then
      if first.pos = 0 ∧ remaining > w then do
        let N ← wordDist first.base last.base
        let it ← stdCopy first.base last.base it
        moveTail S (subSize remaining (w * N)) (first.add ((w : Int) * N)) it
        pure (dFirst.add total)
      else do
        moveLoop S (remaining + 1) remaining first it
        pure (dFirst.add total)
    else pure (dFirst.add total)

/-! ### copy_backward -/

/-- copy_backward.hpp:52-68: the partial word that aligns the destination end. Returns `(remaining, last)`. -/
def copyBackwardHead (S : ShiftSem w) (last dLast : BitIter w) (total : Nat) : m (Nat × BitIter w) :=
  if dLast.pos ≠ 0 then do
    let part := min total dLast.pos
    let x ← getWord S (last.sub part) part
    let t ← lift (S.shl x (dLast.pos - part))
    blendAt S dLast.base t (dLast.pos - part) part
    pure (total - part, last.add (-(part : Int)))
  else pure (total, last)

/-- copy_backward.hpp:89-98: the final partial word, written at the top of the word `it`. -/
def copyBackwardTail (S : ShiftSem w) (remaining : Nat) (last : BitIter w) (it : Int) : m Unit :=
  if remaining > 0 then do
    let x ← getWord S (last.sub remaining) remaining
    let t ← lift (S.shl x (w - remaining))
    blendAt S it t (w - remaining) remaining
  else pure ()

/-- copy_backward.hpp:82-87: `while (remaining >= digits)`, the decrement `it--` after it and the tail.
When the loop leaves nothing to do, `it--` may step before the first word without being dereferenced. -/
def copyBackwardLoop (S : ShiftSem w) : Nat → Nat → BitIter w → Int → m Unit
  | 0, _, _, _ => ub .outOfFuel
  | fuel+1, remaining, last, it =>
    if remaining ≥ w then do
      let x ← getWord S (last.sub w) w
      store (it - 1) x
      copyBackwardLoop S fuel (remaining - w) (last.add (-(w : Int))) (it - 1)
    else copyBackwardTail S remaining last (it - 1)

/-- copy_backward.hpp:27-101, `bit::copy_backward`. -/
def copyBackward (S : ShiftSem w) (first last dLast : BitIter w) : m (BitIter w) := do
  assertViable first last
  if first.beq last then pure dLast
  else do
    let d ← distance first last
    let total := d.toNat
    let (remaining, last) ← copyBackwardHead S last dLast total
    if remaining > 0 then
      if last.pos = 0 ∧ remaining > w then do
        let N := (last.base - first.base - 1).toNat
        let it ← stdCopyBackward (first.base + 1) last.base dLast.base
        copyBackwardTail S (subSize remaining (w * N)) (last.sub ((w : Int) * N)) (it - 1)
        pure (dLast.sub total)
      else do
        copyBackwardLoop S (remaining + 1) remaining last dLast.base
        pure (dLast.sub total)
    else pure (dLast.sub total)

/-! ### unary transform -/

/-- transform.hpp:55-74. -/
def transformHead (S : ShiftSem w) (op : BitVec w → BitVec w) (first dFirst : BitIter w) (total : Nat) :
    m (Nat × BitIter w × Int) :=
  if dFirst.pos ≠ 0 then do
    let part := min total (w - dFirst.pos)
    let x ← getWord S first part
    let t ← lift (S.shl x dFirst.pos)
    blendAt S dFirst.base (op t) dFirst.pos part
    pure (total - part, first.add part, dFirst.base + 1)
  else pure (total, first, dFirst.base)

/-- transform.hpp:118-125. -/
def transformTail (S : ShiftSem w) (op : BitVec w → BitVec w) (remaining : Nat) (first : BitIter w) (it : Int) :
    m Unit :=
  if remaining > 0 then do
    let x ← getWord S first remaining
    blendLowAt S it (op x) remaining
  else pure ()

/-- transform.hpp:111-116. -/
def transformLoop (S : ShiftSem w) (op : BitVec w → BitVec w) : Nat → Nat → BitIter w → Int → m Unit
  | 0, _, _, _ => ub .outOfFuel
  | fuel+1, remaining, first, it =>
    if remaining ≥ w then do
      let x ← getWord S first w
      store it (op x)
      transformLoop S op fuel (remaining - w) (first.add w) (it + 1)
    else transformTail S op remaining first it

/-- transform.hpp:34-128, unary `bit::transform` (scalar path). `first = bit_iterator(firstIt)` after the block of words
is `last.base()` with position 0. -/
def transform (S : ShiftSem w) (op : BitVec w → BitVec w) (first last dFirst : BitIter w) :
    m (BitIter w) := do
  assertViable first last
  if first.beq last then pure dFirst
  else do
    let d ← distance first last
    let total := d.toNat
    let (remaining, first, it) ← transformHead S op first dFirst total
    if remaining > 0 then
      if first.pos = 0 ∧ remaining > w then do
        let N ← wordDist first.base last.base
        let it ← stdTransform first.base last.base it op
        transformTail S op (subSize remaining (w * N)) ⟨first.base + N, 0⟩ it
        pure (dFirst.add total)
      else do
        transformLoop S op (remaining + 1) remaining first it
        pure (dFirst.add total)
    else pure (dFirst.add total)

/-! ### binary transform -/

/-- transform.hpp:152-176. -/
def transform2Head (S : ShiftSem w) (op : BitVec w → BitVec w → BitVec w) (first1 first2 dFirst : BitIter w)
    (total : Nat) : m (Nat × BitIter w × BitIter w × Int) :=
  if dFirst.pos ≠ 0 then do
    let part := min total (w - dFirst.pos)
    let x ← getWord S first1 part
    let x ← lift (S.shl x dFirst.pos)
    let y ← getWord S first2 part
    let y ← lift (S.shl y dFirst.pos)
    blendAt S dFirst.base (op x y) dFirst.pos part
    pure (total - part, first1.add part, first2.add part, dFirst.base + 1)
  else pure (total, first1, first2, dFirst.base)

/-- transform.hpp:199-209. -/
def transform2Tail (S : ShiftSem w) (op : BitVec w → BitVec w → BitVec w) (remaining : Nat)
    (first1 first2 : BitIter w) (it : Int) : m Unit :=
  if remaining > 0 then do
    let x ← getWord S first1 remaining
    let y ← getWord S first2 remaining
    blendLowAt S it (op x y) remaining
  else pure ()

/-- transform.hpp:189-197. -/
def transform2Loop (S : ShiftSem w) (op : BitVec w → BitVec w → BitVec w) :
    Nat → Nat → BitIter w → BitIter w → Int → m Unit
  | 0, _, _, _, _ => ub .outOfFuel
  | fuel+1, remaining, first1, first2, it =>
    if remaining ≥ w then do
      let x ← getWord S first1 w
      let y ← getWord S first2 w
      store it (op x y)
      transform2Loop S op fuel (remaining - w) (first1.add w) (first2.add w) (it + 1)
    else transform2Tail S op remaining first1 first2 it

/-- transform.hpp:130-212, binary `bit::transform`. -/
def transform2 (S : ShiftSem w) (op : BitVec w → BitVec w → BitVec w)
    (first1 last1 first2 dFirst : BitIter w) : m (BitIter w) := do
  assertViable first1 last1
  if first1.beq last1 then pure dFirst
  else do
    let d ← distance first1 last1
    let total := d.toNat
    let (remaining, first1, first2, it) ← transform2Head S op first1 first2 dFirst total
    if remaining > 0 then
      if first1.pos = 0 ∧ first2.pos = 0 ∧ remaining > w then do
        let N ← wordDist first1.base last1.base
        let it ← stdTransform2 first1.base last1.base first2.base it op
        transform2Tail S op (subSize remaining (w * N)) (first1.add ((w : Int) * N))
          (first2.add ((w : Int) * N)) it
        pure (dFirst.add total)
      else do
        transform2Loop S op (remaining + 1) remaining first1 first2 it
        pure (dFirst.add total)
    else pure (dFirst.add total)

/-! ### Model/Query.lean -/

/-- fill.hpp:38-82, `bit::fill`. -/
def fill (S : ShiftSem w) (first last : BitIter w) (v : Bool) : m Unit := do
  assertViable first last
  let d ← distance first last
  if d = 0 then pure ()
  else if isWithin w first last then writeWord S (fillWord v) first d.toNat
  else do
    if first.pos ≠ 0 then do
      writeWord S (fillWord v) first (w - first.pos)
      stdFill (first.base + 1) last.base (fillWord v)
    else stdFill first.base last.base (fillWord v)
    if last.pos ≠ 0 then writeWord S (fillWord v) (BitIter.aligned last.base) last.pos
    else pure ()

/-- find.hpp:102-122: the word search and the last partial word. -/
def findWords (it : Int) (last : BitIter w) (v : Bool) : m (BitIter w) := do
  let it ← stdFindIf it last.base
    (fun a => if v then decide (a ≠ 0#w) else decide (a ≠ BitVec.allOnes w))
  if it ≠ last.base then do
    let x ← load it
    BitIter.mk? it (tzFor v x)
  else if last.pos ≠ 0 then do
    let x ← load it
    BitIter.mk? it (min (tzFor v x) last.pos)
  else pure last

/-- find.hpp:33-123, `bit::find` (scalar path). `std::next(first.base(), is_last_aligned)` adds the bool. -/
def find (S : ShiftSem w) (first last : BitIter w) (v : Bool) : m (BitIter w) := do
  if first.pos ≠ 0 then do
    let x ← load first.base
    let sh ← lift (S.shr x first.pos)
    let num := tzFor v sh
    if first.base + (if last.pos = 0 then 1 else 0) = last.base then do
      let d ← distance first last
      pure (first.add (min num d.toNat : Nat))
    else if num + first.pos < w then pure (first.add num)
    else findWords (first.add ((w - first.pos : Nat) : Int)).base last v
  else findWords first.base last v

/-- equal.hpp:90-96: the final partial word. -/
def equalTail (S : ShiftSem w) (remaining : Nat) (first : BitIter w) (it : Int) : m Bool :=
  if remaining > 0 then do
    let mask ← lift (lowMask S remaining)
    let comp ← getWord S first remaining
    let x ← load it
    pure (decide (mask &&& x = mask &&& comp))
  else pure true

/-- equal.hpp:83-88. -/
def equalLoop (S : ShiftSem w) : Nat → Nat → BitIter w → Int → m Bool
  | 0, _, _, _ => ub .outOfFuel
  | fuel+1, remaining, first, it =>
    if remaining ≥ w then do
      let x ← load it
      let y ← getWord S first w
      if x = y then equalLoop S fuel (remaining - w) (first.add w) (it + 1)
      else pure false
    else equalTail S remaining first it

/-- equal.hpp:71-98: the part after the destination has been aligned. -/
def equalBody (S : ShiftSem w) (remaining : Nat) (first last : BitIter w) (it : Int) : m Bool :=
  if remaining > 0 then
    if first.pos = 0 ∧ remaining ≥ w then do
      let N ← wordDist first.base last.base
      let e ← stdEqual first.base last.base it
      if e then equalTail S (subSize remaining (w * N)) (first.add ((w : Int) * N)) (it + N)
      else pure false
    else equalLoop S (remaining + 1) remaining first it
  else pure true

/-- equal.hpp:29-99, `bit::equal`. -/
def equal (S : ShiftSem w) (first last dFirst : BitIter w) : m Bool := do
  assertViable first last
  if first.beq last then pure true
  else do
    let d ← distance first last
    let total := d.toNat
    if dFirst.pos ≠ 0 then do
      let part := min total (w - dFirst.pos)
      let mask ← lift (lowMask S part)
      let mask ← lift (S.shl mask dFirst.pos)
      let x ← getWord S first part
      let comp ← lift (S.shl x dFirst.pos)
      let y ← load dFirst.base
      if mask &&& y = mask &&& comp then
        equalBody S (total - part) (first.add part) last (dFirst.base + 1)
      else pure false
    else equalBody S total first last dFirst.base

/-- libpopcnt.h `popcnt(&*it, bytes)` on the bytes of `n` words: the number of set bits of the words
(count.hpp:96). The byte level algorithm is modelled in `Model/Popcnt.lean`. -/
def popcntWords : Nat → Int → m Nat
  | 0, _ => pure 0
  | n+1, a => do
    let x ← load a
    let r ← popcntWords n (a + 1)
    pure (popcnt x + r)

/-- count.hpp:34-117, `bit::count`. The result is `difference_type`. -/
def count (S : ShiftSem w) (first last : BitIter w) (v : Bool) : m Int := do
  assertViable first last
  let ones ←
    if first.base ≠ last.base then do
      let (r0, it) ←
        if first.pos ≠ 0 then do
          let x ← load first.base
          let x ← lift (S.shr x first.pos)
          pure (popcnt x, first.base + 1)
        else pure (0, first.base)
      let n ← wordDist it last.base
      let r1 ← popcntWords n it
      if last.pos ≠ 0 then do
        let x ← load last.base
        let x ← lift (S.shl x (w - last.pos))
        pure (r0 + r1 + popcnt x)
      else pure (r0 + r1)
    else do
      let x ← load first.base
      let y ← lift (bextr S x first.pos (subSize last.pos first.pos))
      pure (popcnt y)
  pure (if v then (ones : Int) else last.diff first - (ones : Int))

/-! ### Model/Shift.lean -/

/-! ### shift_left -/

/-- shift.hpp:104-136: align `first` (it is not aligned). Returns the new `(first, middle)`. -/
def shiftLeftAlign (S : ShiftSem w) (first middle : BitIter w) (d n : Int) : m (BitIter w × BitIter w) := do
  if first.pos ≥ middle.pos then do
    let x ← load middle.base
    let t ← lift (S.shl x (first.pos - middle.pos))
    blendAt S first.base t first.pos (w - first.pos)
  else do
    let n1 := w - middle.pos
    let n2 := w - first.pos - n1
    let x ← load middle.base
    let t ← lift (S.shr x (middle.pos - first.pos))
    blendAt S first.base t first.pos n1
    let y ← load (middle.base + 1)
    let t ← lift (S.shl y (w - n2))
    blendAt S first.base t (first.pos + n1) n2
  let shifted : Int := min (d - n) ((w - first.pos : Nat) : Int)
  pure (first.add shifted, middle.add shifted)

/-- shift.hpp:207-211: `while (std::next(middle_base) < last.base())`. -/
def shiftLeftLoop (S : ShiftSem w) (offset : Nat) (lastBase : Int) : Nat → Int → Int → m (Int × Int)
  | 0, _, _ => ub .outOfFuel
  | fuel+1, firstBase, middleBase =>
    if middleBase + 1 < lastBase then do
      let x ← load middleBase
      let y ← load (middleBase + 1)
      let z ← lift (shrd S x y offset)
      store firstBase z
      shiftLeftLoop S offset lastBase fuel (firstBase + 1) (middleBase + 1)
    else pure (firstBase, middleBase)

/-- shift.hpp:137-238: `first` is aligned. -/
def shiftLeftMain (S : ShiftSem w) (first middle last : BitIter w) (n : Int) : m (BitIter w) :=
  if middle.base = last.base then do
    let bitsLeft : Int := (last.pos : Int) - (middle.pos : Int)
    if bitsLeft > 0 then do
      let x ← load middle.base
      let t ← lift (S.shr x middle.pos)
      blendAt S first.base t 0 bitsLeft.toNat
      pure (first.add bitsLeft)
    else pure first
  else do
    let _ ← distance first last
    let wordShifts : Int := Int.tdiv n w
    let offset := middle.pos
    if offset = 0 then do
      let fb ← wordShiftLeft first.base last.base wordShifts
      let first : BitIter w := ⟨fb, 0⟩
      if last.pos ≠ 0 then do
        let x ← load last.base
        writeWord S x first last.pos
        pure (first.add last.pos)
      else pure first
    else do
      let (fb, mb) ← shiftLeftLoop S offset last.base ((last.base - middle.base).toNat + 1)
        first.base middle.base
      let first : BitIter w := ⟨fb, 0⟩
      let middle : BitIter w := ⟨mb, middle.pos⟩
      let (first, middle) ←
        if middle.base + 1 = last.base then do
          let x ← load middle.base
          let t ← lift (S.shr x offset)
          blendAt S first.base t 0 (w - offset)
          pure (first.add ((w - offset : Nat) : Int), middle.add ((w - offset : Nat) : Int))
        else pure (first, middle)
      if last.pos ≠ 0 then do
        let bitsLeft : Int := (last.pos : Int) - (middle.pos : Int)
        let x ← getWord S middle (toSize bitsLeft)
        writeWord S x first (toSize bitsLeft)
        pure (first.add bitsLeft)
      else pure first

/-- shift.hpp:46-238, `bit::shift_left`. -/
def shiftLeft (S : ShiftSem w) (first last : BitIter w) (n : Int) : m (BitIter w) := do
  assertViable first last
  let d ← distance first last
  let middle := first.add n
  if n ≤ 0 then pure last
  else if n ≥ d then pure first
  else if first.base + (if last.pos = 0 then 1 else 0) = last.base then do
    let lp := if last.pos = 0 then w else last.pos
    let msk ← lift (S.shr (BitVec.allOnes w) (w - lp))
    let x ← load first.base
    let t ← lift (S.shr (x &&& msk) n.toNat)
    blendAt S first.base t first.pos (lp - first.pos)
    pure ((first.add d).sub n)
  else if d - n ≤ w then do
    let x ← getWord S middle (d - n).toNat
    writeWord S x first (d - n).toNat
    pure ((first.add d).sub n)
  else do
    let _ ← load first.base
    if last.pos ≠ 0 then do
      let _ ← load last.base
      pure ()
    else pure ()
    if first.pos ≠ 0 then do
      let (first, middle) ← shiftLeftAlign S first middle d n
      shiftLeftMain S first middle last n
    else shiftLeftMain S first middle last n

/-! ### shift_right -/

/-- shift.hpp:347-351: `while (middle_base_prev > first.base())`. Returns `(last_base_prev, middle_base_prev)`. -/
def shiftRightLoop (S : ShiftSem w) (offset : Nat) (firstBase : Int) : Nat → Int → Int → m (Int × Int)
  | 0, _, _ => ub .outOfFuel
  | fuel+1, lbp, mbp =>
    if mbp > firstBase then do
      let x ← load mbp
      let y ← load (mbp + 1)
      let z ← lift (shrd S x y offset)
      store lbp z
      shiftRightLoop S offset firstBase fuel (lbp - 1) (mbp - 1)
    else pure (lbp, mbp)

/-- shift.hpp:318-362: whole words. Returns the new `(last, middle)`. -/
def shiftRightWords (S : ShiftSem w) (first middle last : BitIter w) (offset : Nat) :
    m (BitIter w × BitIter w) := do
  let (lbp, mbp) ← shiftRightLoop S offset first.base ((middle.base - first.base).toNat + 1)
    (last.base - 1) (middle.base - 1)
  let (lbp, mbp) ←
    if first.pos ≤ middle.pos then do
      let x ← load mbp
      let y ← load (mbp + 1)
      let z ← lift (shrd S x y offset)
      store lbp z
      pure (lbp - 1, mbp - 1)
    else pure (lbp, mbp)
  pure (⟨lbp + 1, last.pos⟩, ⟨mbp + 1, middle.pos⟩)

/-- shift.hpp:364-376: the first partial word. -/
def shiftRightTail (S : ShiftSem w) (first middle last : BitIter w) (n : Int) : m (BitIter w) :=
  if first.pos ≠ middle.pos then do
    let b ← distance first middle
    let x ← getWord S first b.toNat
    writeWord S x (last.sub b) b.toNat
    pure (first.add n)
  else pure (first.add n)

/-- shift.hpp:297-376: `last` is aligned. -/
def shiftRightMain (S : ShiftSem w) (first middle last : BitIter w) (n : Int) : m (BitIter w) := do
  let wordShifts : Int := Int.tdiv n w
  let offset := middle.pos
  if offset = 0 then do
    let _ ← wordShiftRight first.base last.base wordShifts
    pure (first.add n)
  else do
    let dm ← distance first middle
    if dm ≥ w then do
      let (last, middle) ← shiftRightWords S first middle last offset
      shiftRightTail S first middle last n
    else shiftRightTail S first middle last n

/-- shift.hpp:240-377, `bit::shift_right`. -/
def shiftRight (S : ShiftSem w) (first last : BitIter w) (n : Int) : m (BitIter w) := do
  let d ← distance first last
  let middle := last.sub n
  if n ≤ 0 then pure first
  else if n ≥ d then pure last
  else if first.base + (if last.pos = 0 then 1 else 0) = last.base then do
    let lp := if last.pos = 0 then w else last.pos
    let msk ← lift (S.shl (BitVec.allOnes w) first.pos)
    let x ← load first.base
    let t ← lift (S.shl (x &&& msk) n.toNat)
    blendAt S first.base t first.pos (lp - first.pos)
    pure (first.add n)
  else if last.pos ≠ 0 then do
    let dm ← distance first middle
    let b := min last.pos dm.toNat
    let x ← getWord S (middle.sub b) b
    writeWord S x (last.sub b) b
    let middle := middle.sub b
    let last := last.sub b
    if middle.beq first then pure (first.add n)
    else shiftRightMain S first middle last n
  else shiftRightMain S first middle last n

/-! ### reverse -/

/-- reverse.hpp:65-81: after the words have been reversed, shift them left or right by the difference of the two gaps.
`fb`, `lb` are `first.base()`, `last.base()`; `wend` is `std::next(last.base(), !is_last_aligned)`. -/
def reverseShift (S : ShiftSem w) (fb lb wend : Int) (fp gap : Nat) : m Unit :=
  if fp < gap then do
    let _ ← shiftLeft S (BitIter.aligned fb) (BitIter.aligned (lb + 1)) ((gap - fp : Nat) : Int)
    pure ()
  else if fp > gap then do
    let _ ← shiftRight S (BitIter.aligned fb) (BitIter.aligned wend) ((fp - gap : Nat) : Int)
    pure ()
  else pure ()

/-- reverse.hpp:83-90: restore the bits of the first word that precede the range. -/
def reverseFirst (S : ShiftSem w) (fb : Int) (fp : Nat) (firstValue : BitVec w) : m Unit :=
  if fp ≠ 0 then do
    let x ← load fb
    let r ← lift (bitblend4 S firstValue x fp (w - fp))
    store fb r
  else pure ()

/-- reverse.hpp:91-99: restore the bits of the last word that follow the range. -/
def reverseLast (S : ShiftSem w) (lb : Int) (lp : Nat) (lastValue : BitVec w) : m Unit :=
  if lp ≠ 0 then do
    let x ← load lb
    let r ← lift (bitblend4 S x lastValue lp (w - lp))
    store lb r
  else pure ()

/-- reverse.hpp:27-111, `bit::reverse`. -/
def reverse (S : ShiftSem w) (first last : BitIter w) : m Unit := do
  assertViable first last
  let gap := if last.pos = 0 then 0 else w - last.pos
  if first.pos = 0 ∧ last.pos = 0 then do
    stdReverse first.base last.base
    let _ ← stdTransform first.base last.base first.base bitswap
    pure ()
  else if first.base ≠ last.base then do
    let firstValue ← load first.base
    let lastValue ← load (last.base - (if last.pos = 0 then 1 else 0))
    let wend := last.base + (if last.pos = 0 then 0 else 1)
    stdReverse first.base wend
    let _ ← stdTransform first.base wend first.base bitswap
    reverseShift S first.base last.base wend first.pos gap
    reverseFirst S first.base first.pos firstValue
    reverseLast S last.base last.pos lastValue
  else do
    let x ← load first.base
    let t ← lift (S.shr x first.pos)
    let t ← lift (S.shr (bitswap t) gap)
    blendAt S first.base t first.pos (subSize last.pos first.pos)

/-! ### swap_ranges -/

/-- swap_ranges.hpp:143-158: `while (it1 != last1.base())`; `pos2` is `first2.position()`. Returns `(it1, it2)`. -/
def swapLoop (S : ShiftSem w) (lastBase : Int) (pos2 : Nat) : Nat → Int → Int → m (Int × Int)
  | 0, _, _ => ub .outOfFuel
  | fuel+1, it1, it2 =>
    if it1 ≠ lastBase then do
      bitexch5 S it1 it2 0 pos2 (w - pos2)
      bitexch5 S it1 (it2 + 1) (w - pos2) 0 (w - (w - pos2))
      swapLoop S lastBase pos2 fuel (it1 + 1) (it2 + 1)
    else pure (it1, it2)

/-- swap_ranges.hpp:52-84: the first range lies in one word. -/
def swapSingle (S : ShiftSem w) (first1 last1 first2 : BitIter w) : m (BitIter w) := do
  let d ← distance first1 last1
  let n := d.toNat
  if first1.pos ≥ first2.pos then do
    bitexch5 S first1.base first2.base first1.pos first2.pos n
    pure (first2.add n)
  else do
    let part := min n (w - first2.pos)
    bitexch5 S first1.base first2.base first1.pos first2.pos part
    if n > part then do
      bitexch5 S first1.base (first2.base + 1) (first1.pos + part) 0 (n - part)
      pure (first2.add n)
    else pure (first2.add n)

/-- swap_ranges.hpp:88-109: several words, same alignment. -/
def swapAligned (S : ShiftSem w) (first1 last1 first2 : BitIter w) : m (BitIter w) := do
  bitexch4 S first1.base first2.base first1.pos (w - first1.pos)
  let it2 ← stdSwapRanges (first1.base + 1) last1.base (first2.base + 1)
  if last1.pos ≠ 0 then do
    bitexch4 S last1.base it2 0 last1.pos
    BitIter.mk? it2 last1.pos
  else BitIter.mk? it2 last1.pos

/-- swap_ranges.hpp:113-139: first step of the misaligned case. Returns `(it1, it2)`. -/
def swapMisHead (S : ShiftSem w) (first1 first2 : BitIter w) : m (Int × Int) := do
  let n := w - first1.pos
  if first1.pos > first2.pos then do
    bitexch5 S first1.base first2.base first1.pos first2.pos n
    pure (first1.base + 1, first2.base)
  else do
    let part := w - first2.pos
    bitexch5 S first1.base first2.base first1.pos first2.pos part
    bitexch5 S first1.base (first2.base + 1) (first1.pos + part) 0 (n - part)
    pure (first1.base + 1, first2.base + 1)

/-- swap_ranges.hpp:112-190: several words, different alignment. -/
def swapMisaligned (S : ShiftSem w) (first1 last1 first2 : BitIter w) : m (BitIter w) := do
  let (it1, it2) ← swapMisHead S first1 first2
  let first2 := first2.add ((w - first1.pos : Nat) : Int)
  let (it1, it2) ← swapLoop S last1.base first2.pos ((last1.base - it1).toNat + 1) it1 it2
  if last1.pos ≠ 0 then do
    let part := w - first2.pos
    if last1.pos ≤ part then do
      bitexch5 S it1 it2 0 first2.pos last1.pos
      let r ← BitIter.mk? it2 first2.pos
      pure (r.add last1.pos)
    else do
      bitexch5 S it1 it2 0 first2.pos part
      bitexch5 S it1 (it2 + 1) part 0 (last1.pos - part)
      BitIter.mk? (it2 + 1) (last1.pos - part)
  else BitIter.mk? it2 first2.pos

/-- swap_ranges.hpp:23-192, `bit::swap_ranges`. -/
def swapRanges (S : ShiftSem w) (first1 last1 first2 : BitIter w) : m (BitIter w) := do
  assertViable first1 last1
  if first1.beq last1 then pure first2
  else if first1.base + (if last1.pos = 0 then 1 else 0) = last1.base then swapSingle S first1 last1 first2
  else if first1.pos = first2.pos then swapAligned S first1 last1 first2
  else swapMisaligned S first1 last1 first2

/-! ### rotate -/

/-- rotate.hpp:140-145: `full_swaps` forward block swaps. Returns `(p, q)`. -/
def rotFwdSwaps (S : ShiftSem w) (k : Int) : Nat → BitIter w → BitIter w → m (BitIter w × BitIter w)
  | 0, p, q => pure (p, q)
  | s+1, p, q => do
    let _ ← swapRanges S p q q
    rotFwdSwaps S k s (p.add k) (q.add k)

/-- rotate.hpp:166-171: `full_swaps` backward block swaps. Returns `(p, q)`. -/
def rotBwdSwaps (S : ShiftSem w) (k : Int) : Nat → BitIter w → BitIter w → m (BitIter w × BitIter w)
  | 0, p, q => pure (p, q)
  | s+1, p, q => do
    let p := p.sub k
    let q := q.sub k
    let _ ← swapRanges S p q q
    rotBwdSwaps S k s p q

/-- rotate.hpp:127-180: the `for(;;)` loop. `unsigned int full_swaps` keeps the quotient modulo `2^32`.
`n %= k` with `k = 0` would be undefined; the fuel outcome stands for it (it cannot occur). -/
def rotLoop (S : ShiftSem w) : Nat → BitIter w → Int → Int → m Unit
  | 0, _, _, _ => ub .outOfFuel
  | fuel+1, p, k, n =>
    if k < n - k then
      if k ≤ w then do
        let x ← getWord S p k.toNat
        let t ← shiftLeft S p (p.add n) k
        writeWord S x t k.toNat
      else do
        let q := p.add k
        let fullSwaps : Int := (Int.tdiv (n - k) k) % 2 ^ 32
        let remainder : Int := (n - k) - fullSwaps * k
        let (p, q) ← rotFwdSwaps S k fullSwaps.toNat p q
        let _ ← swapRanges S p (p.add remainder) q
        let p := p.add remainder
        let n := Int.tmod n k
        if n = 0 then pure ()
        else rotLoop S fuel p (k - n) k
    else do
      let k := n - k
      if k ≤ w then do
        let x ← getWord S ((p.add n).sub k) k.toNat
        let _ ← shiftRight S p (p.add n) k
        writeWord S x p k.toNat
      else do
        let q := p.add n
        let p := q.sub k
        let fullSwaps : Int := (Int.tdiv (n - k) k) % 2 ^ 32
        let remainder : Int := (n - k) - fullSwaps * k
        let (p, q) ← rotBwdSwaps S k fullSwaps.toNat p q
        let p := p.sub remainder
        let q := q.sub remainder
        let _ ← swapRanges S p (p.add remainder) q
        let n := Int.tmod n k
        if n = 0 then pure ()
        else rotLoop S fuel p n k

/-- rotate.hpp:102-181, `_rotate_via_raw` for random access iterators. -/
def rotateViaRaw (S : ShiftSem w) (first nFirst last : BitIter w) : m (BitIter w) := do
  let k := nFirst.diff first
  let n := last.diff first
  if k = n - k then do
    let _ ← swapRanges S first nFirst nFirst
    pure nFirst
  else do
    let ret := first.add (last.diff nFirst)
    rotLoop S (n.toNat + 1) first k n
    pure ret

/-- rotate.hpp:208-236: the whole range lies in one word.
`1ULL << d` is evaluated in 64 bits; here `d < w <= 64`, so it agrees with the shift at width `w`. -/
def rotateSingle (S : ShiftSem w) (first nFirst last : BitIter w) : m (BitIter w) :=
  if first.pos = 0 ∧ last.pos = 0 then do
    let x ← load first.base
    let a ← lift (S.shr x nFirst.pos)
    let b ← lift (S.shl x (w - nFirst.pos))
    store first.base (a ||| b)
    pure (first.add ((w - nFirst.pos : Nat) : Int))
  else do
    let lastPos := if last.pos = 0 then w else last.pos
    let k := subSize nFirst.pos first.pos
    let p := subSize lastPos nFirst.pos
    let d := subSize lastPos first.pos
    let one ← lift (S.shl 1#w d)
    let mask ← lift (S.shl (one - 1#w) first.pos)
    let x ← load first.base
    let rotated := x &&& mask
    let a ← lift (S.shr rotated k)
    let b ← lift (S.shl rotated p)
    blendAt S first.base (a ||| b) first.pos d
    pure (first.add p)

/-- rotate.hpp:184-258, `bit::rotate`. -/
def rotate (S : ShiftSem w) (first nFirst last : BitIter w) : m (BitIter w) := do
  assertViable first nFirst
  assertViable nFirst last
  assertViable first last
  if first.beq nFirst then pure last
  else if first.base + (if last.pos = 0 then 1 else 0) = last.base then rotateSingle S first nFirst last
  else if isWithin w first nFirst then do
    let k ← distance first nFirst
    let x ← getWord S first k.toNat
    let newLast ← shiftLeft S first last k
    writeWord S x newLast k.toNat
    pure newLast
  else if isWithin w nFirst last then do
    let p ← distance nFirst last
    let x ← getWord S nFirst p.toNat
    let newLast ← shiftRight S first last p
    writeWord S x first p.toNat
    pure newLast
  else rotateViaRaw S first nFirst last

/-! ### Model/Ref.lean -/

/-- bit_reference.hpp:275-281, `operator bool`: `*_ptr & _mask`. -/
def refToBool (r : BitRef w) : m Bool := do
  let x ← load r.ptr
  pure (decide (x &&& r.mask ≠ 0#w))

/-- bit_reference.hpp:338-345, `set()`: `*_ptr |= _mask`. -/
def refSet (r : BitRef w) : m Unit := do
  let x ← load r.ptr
  store r.ptr (x ||| r.mask)

/-- bit_reference.hpp:347-354, `reset()`: `*_ptr &= ~_mask`. -/
def refReset (r : BitRef w) : m Unit := do
  let x ← load r.ptr
  store r.ptr (x &&& ~~~ r.mask)

/-- bit_reference.hpp:356-363, `flip()`: `*_ptr ^= _mask`. -/
def refFlip (r : BitRef w) : m Unit := do
  let x ← load r.ptr
  store r.ptr (x ^^^ r.mask)

/-- bit_reference.hpp:328-336, `set(bool b)`: `b ? set() : reset()`. -/
def refSetTo (r : BitRef w) (b : Bool) : m Unit := if b then refSet r else refReset r

/-- bit_reference.hpp:184-203, `operator=(const bit_reference&)` and its template version: `other ? set() : reset()`. -/
def refAssignRef (r other : BitRef w) : m Unit := do
  let b ← refToBool other
  if b then refSet r else refReset r

/-- bit_reference.hpp:206-213, `operator=(bit_value)`. -/
def refAssignVal (r : BitRef w) (v : BitVal) : m Unit := if v.toBool then refSet r else refReset r

/-- bit_reference.hpp:242-249, `operator&=`. -/
def refAndAssign (r : BitRef w) (o : BitVal) : m Unit := do
  let x ← load r.ptr
  store r.ptr (x &&& ~~~ (r.mask * boolWord (!o.value)))

/-- bit_reference.hpp:252-259, `operator|=`. -/
def refOrAssign (r : BitRef w) (o : BitVal) : m Unit := do
  let x ← load r.ptr
  store r.ptr (x ||| (r.mask * boolWord o.value))

/-- bit_reference.hpp:262-269, `operator^=`. -/
def refXorAssign (r : BitRef w) (o : BitVal) : m Unit := do
  let x ← load r.ptr
  store r.ptr (x ^^^ (r.mask * boolWord o.value))

/-- bit_value.hpp:155-162, the conversion `bit_value(bit_reference)`. -/
def refToVal (r : BitRef w) : m BitVal := do
  let b ← refToBool r
  pure ⟨b⟩

/-- bit_reference.hpp:299-310 `swap(bit_reference other)` and 401-412, the free `swap(lhs, rhs)`. -/
def refSwap (l r : BitRef w) : m Unit := do
  let a ← refToVal l
  let b ← refToVal r
  if a.ne b then do
    refFlip l
    refFlip r
  else pure ()

/-- bit_reference.hpp:312-322 `swap(bit_value&)`. -/
def refSwapVal (l : BitRef w) (v : BitVal) : m BitVal := do
  let a ← refToVal l
  if v.ne a then do
    refFlip l
    pure v.flip
  else pure v

/-! ### Model/Client.lean -/

/-- The updates of `bit_reference` (bit_reference.hpp:206-269, 328-363). -/
def refUpd (r : BitRef w) : Upd → m Unit
  | .set => refSet r
  | .reset => refReset r
  | .flip => refFlip r
  | .setTo b => refSetTo r b
  | .assign b => refAssignVal r ⟨b⟩
  | .and b => refAndAssign r ⟨b⟩
  | .or b => refOrAssign r ⟨b⟩
  | .xor b => refXorAssign r ⟨b⟩

/-- The operations of iterators, references and pointers. -/
def codeIface (S : ShiftSem w) (bi : Bool) : Iface m (BitIter w) (BitRef w) (BitPtr w) where
  itAdd it n := pure (it.add n)
  itSub it n := pure (it.sub n)
  itInc it := pure it.inc
  itDec it := pure it.dec
  itPostInc it := pure it.postInc
  itPostDec it := pure it.postDec
  itAddAssign it n := pure (it.addAssign n)
  itSubAssign it n := pure (it.subAssign n)
  itDiff a b := pure (a.diff b)
  itCmp c a b := pure (a.cmp b c)
  itDistance a b := distance a b
  itDeref it := lift (it.deref S)
  itIndex it n := lift (it.index S n)
  itArrow it := lift (BitPtr.ofIter S it)
  refRead r := refToBool r
  refUpd u r := refUpd r u
  refAssign r s := refAssignRef r s
  refSwap r s := refSwap r s
  refSwapVal r b := do
    let v ← refSwapVal r ⟨b⟩
    pure v.value
  refAddr r := lift (BitPtr.ofRef S bi r)
  ptrAdd p n := lift (p.add S bi n)
  ptrSub p n := lift (p.sub S bi n)
  ptrInc p := lift (p.inc S bi)
  ptrDec p := lift (p.dec S bi)
  ptrPostInc p := lift (p.postInc S bi)
  ptrPostDec p := lift (p.postDec S bi)
  ptrDiff p q := lift (BitPtr.diff bi p q)
  ptrCmp c p q := lift (BitPtr.cmp bi p q c)
  ptrDeref p := pure p.deref
  ptrIndex p n := lift (p.index S bi n)

/-- Code that uses iterators, references and pointers only, such as the algorithms of the standard library (`Model/StdAlg`). -/
def client {α : Type} (S : ShiftSem w) (bi : Bool) (c : Client α) (s : Slots (BitIter w) (BitRef w) (BitPtr w)) :
    m (α × Slots (BitIter w) (BitRef w) (BitPtr w)) := c.run (ub .badRange) (codeIface S bi) s

end Gen
end BitLib
