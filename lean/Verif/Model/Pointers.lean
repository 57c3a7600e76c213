import Verif.SpecPointers
import Verif.Model.Copy
import Verif.Model.Query
import Verif.Model.Shift
/-
The algorithms once more with the word iterators that they form. In the files `Model/Copy`, `Model/Query` and `Model/Shift` a word iterator is a number and
stepping outside the array is harmless as long as nothing is read or written there. Here every function is also given the array that each of its
iterators belongs to, and each `std::next`, `std::prev`, `it++`, `it--`, `it + n`, `it += n` and each sum of a `bit_iterator` and a number (which is a
`std::next(_current, diff)`, bit_iterator.hpp:290-320) is checked with `form`: the result has to be an element of the array or its end. `deref` checks the
operand of `&*it`, which has to be an element. Words are read and written by the operations of `Model/Basic`.

The algorithms of the standard library take and return iterators in the ranges they are given; of a range that is given by its beginning only,
the other end is checked. The differences of iterators are numbers, as in the files named above (see `Model/Wrap` for their overflow).
-/
namespace BitLib
namespace Ptr
variable {w : Nat}

/-- A program of `M` inside a program that checks word iterators. -/
def up {α : Type} (x : M w α) : P w α := fun m =>
  match x m with
  | .ok r => .ok r
  | .error e => .error (.ub e)

/-- A word iterator of the array `A` is moved to `a`. -/
def form (A : Arr) (a : Int) : P w Unit := fun m =>
  if A.lo ≤ a ∧ a ≤ A.hi then .ok ((), m) else .error (.pointer A a)

/-- `*a` without a read or a write, for a word iterator of the array `A`. -/
def deref (A : Arr) (a : Int) : P w Unit := fun m =>
  if A.lo ≤ a ∧ a < A.hi then .ok ((), m) else .error (.pointer A a)

/-- bit_iterator.hpp:290-304, 322-331 and bit_algorithm_details.hpp:43-56 (`advance`, `next`): `it + n`. -/
def add (A : Arr) (it : BitIter w) (n : Int) : P w (BitIter w) := do
  form A (it.add n).base
  pure (it.add n)

/-- bit_iterator.hpp:306-320, 333-342: `it - n`. -/
def sub (A : Arr) (it : BitIter w) (n : Int) : P w (BitIter w) := do
  form A (it.sub n).base
  pure (it.sub n)

/-! ### Algorithms of the standard library -/

/-- `std::copy`, `std::move`: the destination has as many words as `[first, last)`. -/
def stdCopy (B : Arr) (first last d : Int) : P w Int := do
  form B (d + (last - first))
  up (BitLib.stdCopy first last d)

/-- `std::copy_backward`, `std::move_backward`. -/
def stdCopyBackward (B : Arr) (first last dl : Int) : P w Int := do
  form B (dl - (last - first))
  up (BitLib.stdCopyBackward first last dl)

/-- `std::equal`. -/
def stdEqual (B : Arr) (first last d : Int) : P w Bool := do
  form B (d + (last - first))
  up (BitLib.stdEqual first last d)

/-- Unary `std::transform`. -/
def stdTransform (B : Arr) (first last d : Int) (f : BitVec w → BitVec w) : P w Int := do
  form B (d + (last - first))
  up (BitLib.stdTransform first last d f)

/-- Binary `std::transform`. -/
def stdTransform2 (A2 B : Arr) (first1 last1 first2 d : Int) (f : BitVec w → BitVec w → BitVec w) : P w Int := do
  form A2 (first2 + (last1 - first1))
  form B (d + (last1 - first1))
  up (BitLib.stdTransform2 first1 last1 first2 d f)

/-- `std::swap_ranges`. -/
def stdSwapRanges (B : Arr) (first1 last1 first2 : Int) : P w Int := do
  form B (first2 + (last1 - first1))
  up (BitLib.stdSwapRanges first1 last1 first2)

/-! ### bit_algorithm_details.hpp -/

/-- bit_algorithm_details.hpp:78-102, `is_within<N>(first, last)`. The operands of `||` and `&&` are evaluated from left to right. -/
def isWithinAux (A : Arr) (rem : Nat) : Nat → BitIter w → BitIter w → P w Bool
  | 0, first, last =>
    if first.base = last.base ∧ first.pos + rem ≥ last.pos then pure true
    else do
      form A (first.base + 1)
      pure (decide (first.base + 1 = last.base)
        && decide (((first.pos : Int) + (rem : Int) - (w : Int)) ≥ (last.pos : Int)))
  | k+1, first, last =>
    if first.base = last.base then pure true
    else do
      form A (first.base + 1)
      if first.base + 1 = last.base ∧ first.pos ≥ last.pos then pure true
      else do
        let first ← add A first (w : Int)
        isWithinAux A rem k first last

/-- `is_within<N>`. -/
def isWithin (A : Arr) (N : Nat) (first last : BitIter w) : P w Bool :=
  isWithinAux A (N % w) (N / w) first last

/-- bit_algorithm_details.hpp:104-142, `get_word<T>(first, len)`. -/
def getWord (A : Arr) (S : ShiftSem w) (first : BitIter w) (len : Nat) : P w (BitVec w) := do
  up (assertM (w ≥ len))
  let offset := w - first.pos
  let x ← up (load first.base)
  let ret ← up (lift (S.shr x first.pos))
  if len ≤ offset then pure ret
  else do
    form A (first.base + 1)
    let y ← up (load (first.base + 1))
    let t ← up (lift (S.shl y offset))
    up (lift (bitblend4 S ret t offset (len - offset)))

/-- bit_algorithm_details.hpp:209-243, `write_word(src, dst_bit_it, len)`. -/
def writeWord (A : Arr) (S : ShiftSem w) (src : BitVec w) (dst : BitIter w) (len : Nat) : P w Unit :=
  if dst.pos = 0 ∧ len = w then up (store dst.base src)
  else do
    let t ← up (lift (S.shl src dst.pos))
    up (blendAt S dst.base t dst.pos (min (w - dst.pos) len))
    if len > w - dst.pos then do
      form A (dst.base + 1)
      let t ← up (lift (S.shr src (w - dst.pos)))
      up (blendAt S (dst.base + 1) t 0 (len - (w - dst.pos)))
    else pure ()

/-- bit_algorithm_details.hpp:277-291, `word_shift_left`. -/
def wordShiftLeft (A : Arr) (first last n : Int) : P w Int :=
  if n ≤ 0 then pure last
  else if n ≥ last - first then pure first
  else do
    form A (first + n)
    stdCopy A (first + n) last first

/-- bit_algorithm_details.hpp:294-307, `word_shift_right`. -/
def wordShiftRight (A : Arr) (first last n : Int) : P w Int :=
  if n ≤ 0 then pure first
  else if n ≥ last - first then pure last
  else do
    form A (last - n)
    let _ ← stdCopyBackward A first (last - n) last
    form A (first + n)
    pure (first + n)

/-! ### copy: `A` is the array of the source, `B` that of the destination -/

/-- copy.hpp:56-74: `get_word(first, …)`, `advance(first, …)`, `it++`. -/
def copyHead (A B : Arr) (S : ShiftSem w) (first dFirst : BitIter w) (total : Nat) :
    P w (Nat × BitIter w × Int) :=
  if dFirst.pos ≠ 0 then do
    let part := min total (w - dFirst.pos)
    let x ← getWord A S first part
    let t ← up (lift (S.shl x dFirst.pos))
    up (blendAt S dFirst.base t dFirst.pos part)
    let first ← add A first part
    form B (dFirst.base + 1)
    pure (total - part, first, dFirst.base + 1)
  else pure (total, first, dFirst.base)

/-- copy.hpp:94-101. -/
def copyTail (A : Arr) (S : ShiftSem w) (remaining : Nat) (first : BitIter w) (it : Int) : P w Unit :=
  if remaining > 0 then do
    let x ← getWord A S first remaining
    up (blendLowAt S it x remaining)
  else pure ()

/-- copy.hpp:87-92: `it++`, `advance(first, digits)`. -/
def copyLoop (A B : Arr) (S : ShiftSem w) : Nat → Nat → BitIter w → Int → P w Unit
  | 0, _, _, _ => up (ub .outOfFuel)
  | fuel+1, remaining, first, it =>
    if remaining ≥ w then do
      let x ← getWord A S first w
      up (store it x)
      form B (it + 1)
      let first ← add A first w
      copyLoop A B S fuel (remaining - w) first (it + 1)
    else copyTail A S remaining first it

/-- copy.hpp:30-104, `bit::copy`; `first += digits * N` after the block of words, `d_first + total` at the end. -/
def copy (A B : Arr) (S : ShiftSem w) (first last dFirst : BitIter w) : P w (BitIter w) := do
  up (assertViable first last)
  if first.beq last then pure dFirst
  else do
    let d ← up (distance first last)
    let total := d.toNat
    let (remaining, first, it) ← copyHead A B S first dFirst total
    if remaining > 0 then
      if first.pos = 0 ∧ remaining > w then do
        let N ← up (wordDist first.base last.base)
        let it ← stdCopy B first.base last.base it
        let first ← add A first ((w : Int) * N)
        copyTail A S (subSize remaining (w * N)) first it
        add B dFirst total
      else do
        copyLoop A B S (remaining + 1) remaining first it
        add B dFirst total
    else add B dFirst total

/-! ### move -/

/-- move.hpp:51-69. -/
def moveHead (A B : Arr) (S : ShiftSem w) (first dFirst : BitIter w) (total : Nat) :
    P w (Nat × BitIter w × Int) :=
  if dFirst.pos ≠ 0 then do
    let part := min total (w - dFirst.pos)
    let x ← getWord A S first part
    let t ← up (lift (S.shl x dFirst.pos))
    up (blendAt S dFirst.base t dFirst.pos part)
    let first ← add A first part
    form B (dFirst.base + 1)
    pure (total - part, first, dFirst.base + 1)
  else pure (total, first, dFirst.base)

/-- move.hpp:89-96. -/
def moveTail (A : Arr) (S : ShiftSem w) (remaining : Nat) (first : BitIter w) (it : Int) : P w Unit :=
  if remaining > 0 then do
    let x ← getWord A S first remaining
    up (blendLowAt S it x remaining)
  else pure ()

/-- move.hpp:82-87. -/
def moveLoop (A B : Arr) (S : ShiftSem w) : Nat → Nat → BitIter w → Int → P w Unit
  | 0, _, _, _ => up (ub .outOfFuel)
  | fuel+1, remaining, first, it =>
    if remaining ≥ w then do
      let x ← getWord A S first w
      up (store it x)
      form B (it + 1)
      let first ← add A first w
      moveLoop A B S fuel (remaining - w) first (it + 1)
    else moveTail A S remaining first it

/-- move.hpp:25-99, `bit::move`. -/
def move (A B : Arr) (S : ShiftSem w) (first last dFirst : BitIter w) : P w (BitIter w) := do
  up (assertViable first last)
  if first.beq last then pure dFirst
  else do
    let d ← up (distance first last)
    let total := d.toNat
    let (remaining, first, it) ← moveHead A B S first dFirst total
    if remaining > 0 then
      if first.pos = 0 ∧ remaining > w then do
        let N ← up (wordDist first.base last.base)
        let it ← stdCopy B first.base last.base it
        let first ← add A first ((w : Int) * N)
        moveTail A S (subSize remaining (w * N)) first it
        add B dFirst total
      else do
        moveLoop A B S (remaining + 1) remaining first it
        add B dFirst total
    else add B dFirst total

/-! ### copy_backward -/

/-- copy_backward.hpp:52-68: `last - partial`, `advance(last, -partial)`. -/
def copyBackwardHead (A : Arr) (S : ShiftSem w) (last dLast : BitIter w) (total : Nat) : P w (Nat × BitIter w) :=
  if dLast.pos ≠ 0 then do
    let part := min total dLast.pos
    let s ← sub A last part
    let x ← getWord A S s part
    let t ← up (lift (S.shl x (dLast.pos - part)))
    up (blendAt S dLast.base t (dLast.pos - part) part)
    let last ← add A last (-(part : Int))
    pure (total - part, last)
  else pure (total, last)

/-- copy_backward.hpp:89-98: `last - remaining`. -/
def copyBackwardTail (A : Arr) (S : ShiftSem w) (remaining : Nat) (last : BitIter w) (it : Int) : P w Unit :=
  if remaining > 0 then do
    let s ← sub A last remaining
    let x ← getWord A S s remaining
    let t ← up (lift (S.shl x (w - remaining)))
    up (blendAt S it t (w - remaining) remaining)
  else pure ()

/-- copy_backward.hpp:82-87: `--it`, `last - digits`, `advance(last, -digits)`, and the `it--` after the loop. -/
def copyBackwardLoop (A B : Arr) (S : ShiftSem w) : Nat → Nat → BitIter w → Int → P w Unit
  | 0, _, _, _ => up (ub .outOfFuel)
  | fuel+1, remaining, last, it =>
    if remaining ≥ w then do
      form B (it - 1)
      let s ← sub A last w
      let x ← getWord A S s w
      up (store (it - 1) x)
      let last ← add A last (-(w : Int))
      copyBackwardLoop A B S fuel (remaining - w) last (it - 1)
    else do
      form B (it - 1)
      copyBackwardTail A S remaining last (it - 1)

/-- copy_backward.hpp:27-101, `bit::copy_backward`: `first.base() + 1`, `last -= digits * N`, `it--` after the block of words. -/
def copyBackward (A B : Arr) (S : ShiftSem w) (first last dLast : BitIter w) : P w (BitIter w) := do
  up (assertViable first last)
  if first.beq last then pure dLast
  else do
    let d ← up (distance first last)
    let total := d.toNat
    let (remaining, last) ← copyBackwardHead A S last dLast total
    if remaining > 0 then
      if last.pos = 0 ∧ remaining > w then do
        let N := (last.base - first.base - 1).toNat
        form A (first.base + 1)
        let it ← stdCopyBackward B (first.base + 1) last.base dLast.base
        let last ← sub A last ((w : Int) * N)
        form B (it - 1)
        copyBackwardTail A S (subSize remaining (w * N)) last (it - 1)
        sub B dLast total
      else do
        copyBackwardLoop A B S (remaining + 1) remaining last dLast.base
        sub B dLast total
    else sub B dLast total

/-! ### unary transform -/

/-- transform.hpp:55-74. -/
def transformHead (A B : Arr) (S : ShiftSem w) (op : BitVec w → BitVec w) (first dFirst : BitIter w) (total : Nat) :
    P w (Nat × BitIter w × Int) :=
  if dFirst.pos ≠ 0 then do
    let part := min total (w - dFirst.pos)
    let x ← getWord A S first part
    let t ← up (lift (S.shl x dFirst.pos))
    up (blendAt S dFirst.base (op t) dFirst.pos part)
    let first ← add A first part
    form B (dFirst.base + 1)
    pure (total - part, first, dFirst.base + 1)
  else pure (total, first, dFirst.base)

/-- transform.hpp:118-125. -/
def transformTail (A : Arr) (S : ShiftSem w) (op : BitVec w → BitVec w) (remaining : Nat) (first : BitIter w) (it : Int) :
    P w Unit :=
  if remaining > 0 then do
    let x ← getWord A S first remaining
    up (blendLowAt S it (op x) remaining)
  else pure ()

/-- transform.hpp:111-116. -/
def transformLoop (A B : Arr) (S : ShiftSem w) (op : BitVec w → BitVec w) : Nat → Nat → BitIter w → Int → P w Unit
  | 0, _, _, _ => up (ub .outOfFuel)
  | fuel+1, remaining, first, it =>
    if remaining ≥ w then do
      let x ← getWord A S first w
      up (store it (op x))
      form B (it + 1)
      let first ← add A first w
      transformLoop A B S op fuel (remaining - w) first (it + 1)
    else transformTail A S op remaining first it

/-- transform.hpp:34-128, unary `bit::transform` (scalar path): `firstIt += std_dist` after the block of words. -/
def transform (A B : Arr) (S : ShiftSem w) (op : BitVec w → BitVec w) (first last dFirst : BitIter w) :
    P w (BitIter w) := do
  up (assertViable first last)
  if first.beq last then pure dFirst
  else do
    let d ← up (distance first last)
    let total := d.toNat
    let (remaining, first, it) ← transformHead A B S op first dFirst total
    if remaining > 0 then
      if first.pos = 0 ∧ remaining > w then do
        let N ← up (wordDist first.base last.base)
        let it ← stdTransform B first.base last.base it op
        form A (first.base + N)
        transformTail A S op (subSize remaining (w * N)) ⟨first.base + N, 0⟩ it
        add B dFirst total
      else do
        transformLoop A B S op (remaining + 1) remaining first it
        add B dFirst total
    else add B dFirst total

/-! ### binary transform: `A1` and `A2` are the arrays of the sources -/

/-- transform.hpp:152-176. -/
def transform2Head (A1 A2 B : Arr) (S : ShiftSem w) (op : BitVec w → BitVec w → BitVec w) (first1 first2 dFirst : BitIter w)
    (total : Nat) : P w (Nat × BitIter w × BitIter w × Int) :=
  if dFirst.pos ≠ 0 then do
    let part := min total (w - dFirst.pos)
    let x ← getWord A1 S first1 part
    let x ← up (lift (S.shl x dFirst.pos))
    let y ← getWord A2 S first2 part
    let y ← up (lift (S.shl y dFirst.pos))
    up (blendAt S dFirst.base (op x y) dFirst.pos part)
    let first1 ← add A1 first1 part
    let first2 ← add A2 first2 part
    form B (dFirst.base + 1)
    pure (total - part, first1, first2, dFirst.base + 1)
  else pure (total, first1, first2, dFirst.base)

/-- transform.hpp:199-209. -/
def transform2Tail (A1 A2 : Arr) (S : ShiftSem w) (op : BitVec w → BitVec w → BitVec w) (remaining : Nat)
    (first1 first2 : BitIter w) (it : Int) : P w Unit :=
  if remaining > 0 then do
    let x ← getWord A1 S first1 remaining
    let y ← getWord A2 S first2 remaining
    up (blendLowAt S it (op x y) remaining)
  else pure ()

/-- transform.hpp:189-197. -/
def transform2Loop (A1 A2 B : Arr) (S : ShiftSem w) (op : BitVec w → BitVec w → BitVec w) :
    Nat → Nat → BitIter w → BitIter w → Int → P w Unit
  | 0, _, _, _, _ => up (ub .outOfFuel)
  | fuel+1, remaining, first1, first2, it =>
    if remaining ≥ w then do
      let x ← getWord A1 S first1 w
      let y ← getWord A2 S first2 w
      up (store it (op x y))
      form B (it + 1)
      let first1 ← add A1 first1 w
      let first2 ← add A2 first2 w
      transform2Loop A1 A2 B S op fuel (remaining - w) first1 first2 (it + 1)
    else transform2Tail A1 A2 S op remaining first1 first2 it

/-- transform.hpp:130-212, binary `bit::transform`. -/
def transform2 (A1 A2 B : Arr) (S : ShiftSem w) (op : BitVec w → BitVec w → BitVec w)
    (first1 last1 first2 dFirst : BitIter w) : P w (BitIter w) := do
  up (assertViable first1 last1)
  if first1.beq last1 then pure dFirst
  else do
    let d ← up (distance first1 last1)
    let total := d.toNat
    let (remaining, first1, first2, it) ← transform2Head A1 A2 B S op first1 first2 dFirst total
    if remaining > 0 then
      if first1.pos = 0 ∧ first2.pos = 0 ∧ remaining > w then do
        let N ← up (wordDist first1.base last1.base)
        let it ← stdTransform2 A2 B first1.base last1.base first2.base it op
        let first1 ← add A1 first1 ((w : Int) * N)
        let first2 ← add A2 first2 ((w : Int) * N)
        transform2Tail A1 A2 S op (subSize remaining (w * N)) first1 first2 it
        add B dFirst total
      else do
        transform2Loop A1 A2 B S op (remaining + 1) remaining first1 first2 it
        add B dFirst total
    else add B dFirst total

/-! ### fill, find, equal, count -/

/-- fill.hpp:38-82, `bit::fill`: `is_within`, `++it`, `&(*it)` for the last partial word. -/
def fill (A : Arr) (S : ShiftSem w) (first last : BitIter w) (v : Bool) : P w Unit := do
  up (assertViable first last)
  let d ← up (distance first last)
  if d = 0 then pure ()
  else do
    let b ← isWithin A w first last
    if b then writeWord A S (fillWord v) first d.toNat
    else do
      if first.pos ≠ 0 then do
        writeWord A S (fillWord v) first (w - first.pos)
        form A (first.base + 1)
        up (stdFill (first.base + 1) last.base (fillWord v))
      else up (stdFill first.base last.base (fillWord v))
      if last.pos ≠ 0 then do
        deref A last.base
        writeWord A S (fillWord v) (BitIter.aligned last.base) last.pos
      else pure ()

/-- find.hpp:33-123, `bit::find` (scalar path): `std::next(first.base(), is_last_aligned)`, `first + n`, `first += digits - position`. -/
def find (A : Arr) (S : ShiftSem w) (first last : BitIter w) (v : Bool) : P w (BitIter w) :=
  if first.pos ≠ 0 then do
    let x ← up (load first.base)
    let sh ← up (lift (S.shr x first.pos))
    let num := tzFor v sh
    form A (first.base + (if last.pos = 0 then 1 else 0))
    if first.base + (if last.pos = 0 then 1 else 0) = last.base then do
      let d ← up (distance first last)
      add A first (min num d.toNat : Nat)
    else if num + first.pos < w then add A first num
    else do
      let first ← add A first ((w - first.pos : Nat) : Int)
      up (findWords first.base last v)
  else up (findWords first.base last v)

/-- equal.hpp:90-96. -/
def equalTail (A : Arr) (S : ShiftSem w) (remaining : Nat) (first : BitIter w) (it : Int) : P w Bool :=
  if remaining > 0 then do
    let mask ← up (lift (lowMask S remaining))
    let comp ← getWord A S first remaining
    let x ← up (load it)
    pure (decide (mask &&& x = mask &&& comp))
  else pure true

/-- equal.hpp:83-88. -/
def equalLoop (A B : Arr) (S : ShiftSem w) : Nat → Nat → BitIter w → Int → P w Bool
  | 0, _, _, _ => up (ub .outOfFuel)
  | fuel+1, remaining, first, it =>
    if remaining ≥ w then do
      let x ← up (load it)
      let y ← getWord A S first w
      if x = y then do
        form B (it + 1)
        let first ← add A first w
        equalLoop A B S fuel (remaining - w) first (it + 1)
      else pure false
    else equalTail A S remaining first it

/-- equal.hpp:71-98: `it += N`, `first += digits * N`. -/
def equalBody (A B : Arr) (S : ShiftSem w) (remaining : Nat) (first last : BitIter w) (it : Int) : P w Bool :=
  if remaining > 0 then
    if first.pos = 0 ∧ remaining ≥ w then do
      let N ← up (wordDist first.base last.base)
      let e ← stdEqual B first.base last.base it
      if e then do
        form B (it + N)
        let first ← add A first ((w : Int) * N)
        equalTail A S (subSize remaining (w * N)) first (it + N)
      else pure false
    else equalLoop A B S (remaining + 1) remaining first it
  else pure true

/-- equal.hpp:29-99, `bit::equal`. -/
def equal (A B : Arr) (S : ShiftSem w) (first last dFirst : BitIter w) : P w Bool := do
  up (assertViable first last)
  if first.beq last then pure true
  else do
    let d ← up (distance first last)
    let total := d.toNat
    if dFirst.pos ≠ 0 then do
      let part := min total (w - dFirst.pos)
      let mask ← up (lift (lowMask S part))
      let mask ← up (lift (S.shl mask dFirst.pos))
      let x ← getWord A S first part
      let comp ← up (lift (S.shl x dFirst.pos))
      let y ← up (load dFirst.base)
      if mask &&& y = mask &&& comp then do
        let first ← add A first part
        form B (dFirst.base + 1)
        equalBody A B S (total - part) first last (dFirst.base + 1)
      else pure false
    else equalBody A B S total first last dFirst.base

/-- count.hpp:34-117, `bit::count`: `++it`, `&*it` in the argument of `popcnt`. -/
def count (A : Arr) (S : ShiftSem w) (first last : BitIter w) (v : Bool) : P w Int := do
  up (assertViable first last)
  let ones ←
    if first.base ≠ last.base then do
      let (r0, it) ←
        if first.pos ≠ 0 then do
          let x ← up (load first.base)
          let x ← up (lift (S.shr x first.pos))
          form A (first.base + 1)
          pure (popcnt x, first.base + 1)
        else pure (0, first.base)
      let n ← up (wordDist it last.base)
      deref A it
      let r1 ← up (popcntWords n it)
      if last.pos ≠ 0 then do
        let x ← up (load last.base)
        let x ← up (lift (S.shl x (w - last.pos)))
        pure (r0 + r1 + popcnt x)
      else pure (r0 + r1)
    else do
      let x ← up (load first.base)
      let y ← up (lift (bextr S x first.pos (subSize last.pos first.pos)))
      pure (popcnt y)
  pure (if v then (ones : Int) else last.diff first - (ones : Int))

/-! ### shift_left -/

/-- shift.hpp:104-136: `std::next(middle.base())`, `first += shifted`, `middle += shifted`. -/
def shiftLeftAlign (A : Arr) (S : ShiftSem w) (first middle : BitIter w) (d n : Int) : P w (BitIter w × BitIter w) := do
  if first.pos ≥ middle.pos then do
    let x ← up (load middle.base)
    let t ← up (lift (S.shl x (first.pos - middle.pos)))
    up (blendAt S first.base t first.pos (w - first.pos))
  else do
    let n1 := w - middle.pos
    let n2 := w - first.pos - n1
    let x ← up (load middle.base)
    let t ← up (lift (S.shr x (middle.pos - first.pos)))
    up (blendAt S first.base t first.pos n1)
    form A (middle.base + 1)
    let y ← up (load (middle.base + 1))
    let t ← up (lift (S.shl y (w - n2)))
    up (blendAt S first.base t (first.pos + n1) n2)
  let shifted : Int := min (d - n) ((w - first.pos : Nat) : Int)
  let first ← add A first shifted
  let middle ← add A middle shifted
  pure (first, middle)

/-- shift.hpp:207-211: `std::next(middle_base)` in the condition, `first_base++`, `middle_base++`. -/
def shiftLeftLoop (A : Arr) (S : ShiftSem w) (offset : Nat) (lastBase : Int) : Nat → Int → Int → P w (Int × Int)
  | 0, _, _ => up (ub .outOfFuel)
  | fuel+1, firstBase, middleBase => do
    form A (middleBase + 1)
    if middleBase + 1 < lastBase then do
      let x ← up (load middleBase)
      let y ← up (load (middleBase + 1))
      let z ← up (lift (shrd S x y offset))
      up (store firstBase z)
      form A (firstBase + 1)
      shiftLeftLoop A S offset lastBase fuel (firstBase + 1) (middleBase + 1)
    else pure (firstBase, middleBase)

/-- shift.hpp:137-238. -/
def shiftLeftMain (A : Arr) (S : ShiftSem w) (first middle last : BitIter w) (n : Int) : P w (BitIter w) :=
  if middle.base = last.base then do
    let bitsLeft : Int := (last.pos : Int) - (middle.pos : Int)
    if bitsLeft > 0 then do
      let x ← up (load middle.base)
      let t ← up (lift (S.shr x middle.pos))
      up (blendAt S first.base t 0 bitsLeft.toNat)
      add A first bitsLeft
    else pure first
  else do
    let _ ← up (distance first last)
    let wordShifts : Int := Int.tdiv n w
    let offset := middle.pos
    if offset = 0 then do
      let fb ← wordShiftLeft A first.base last.base wordShifts
      let first : BitIter w := ⟨fb, 0⟩
      if last.pos ≠ 0 then do
        let x ← up (load last.base)
        writeWord A S x first last.pos
        add A first last.pos
      else pure first
    else do
      let (fb, mb) ← shiftLeftLoop A S offset last.base ((last.base - middle.base).toNat + 1)
        first.base middle.base
      let first : BitIter w := ⟨fb, 0⟩
      let middle : BitIter w := ⟨mb, middle.pos⟩
      form A (middle.base + 1)
      let (first, middle) ←
        if middle.base + 1 = last.base then do
          let x ← up (load middle.base)
          let t ← up (lift (S.shr x offset))
          up (blendAt S first.base t 0 (w - offset))
          let first ← add A first ((w - offset : Nat) : Int)
          let middle ← add A middle ((w - offset : Nat) : Int)
          pure (first, middle)
        else pure (first, middle)
      if last.pos ≠ 0 then do
        let bitsLeft : Int := (last.pos : Int) - (middle.pos : Int)
        let x ← getWord A S middle (toSize bitsLeft)
        writeWord A S x first (toSize bitsLeft)
        add A first bitsLeft
      else pure first

/-- shift.hpp:46-238, `bit::shift_left`. `first + n` is formed before `n` is compared with the length. -/
def shiftLeft (A : Arr) (S : ShiftSem w) (first last : BitIter w) (n : Int) : P w (BitIter w) := do
  up (assertViable first last)
  let d ← up (distance first last)
  let middle ← add A first n
  if n ≤ 0 then pure last
  else if n ≥ d then pure first
  else do
    form A (first.base + (if last.pos = 0 then 1 else 0))
    if first.base + (if last.pos = 0 then 1 else 0) = last.base then do
      let lp := if last.pos = 0 then w else last.pos
      let msk ← up (lift (S.shr (BitVec.allOnes w) (w - lp)))
      let x ← up (load first.base)
      let t ← up (lift (S.shr (x &&& msk) n.toNat))
      up (blendAt S first.base t first.pos (lp - first.pos))
      let r ← add A first d
      sub A r n
    else if d - n ≤ w then do
      let x ← getWord A S middle (d - n).toNat
      writeWord A S x first (d - n).toNat
      let r ← add A first d
      sub A r n
    else do
      let _ ← up (load first.base)
      if last.pos ≠ 0 then do
        let _ ← up (load last.base)
        pure ()
      else pure ()
      if first.pos ≠ 0 then do
        let (first, middle) ← shiftLeftAlign A S first middle d n
        shiftLeftMain A S first middle last n
      else shiftLeftMain A S first middle last n

/-! ### shift_right -/

/-- shift.hpp:347-351: `std::next(middle_base_prev)`, `last_base_prev--`, `middle_base_prev--`. -/
def shiftRightLoop (A : Arr) (S : ShiftSem w) (offset : Nat) (firstBase : Int) : Nat → Int → Int → P w (Int × Int)
  | 0, _, _ => up (ub .outOfFuel)
  | fuel+1, lbp, mbp =>
    if mbp > firstBase then do
      let x ← up (load mbp)
      form A (mbp + 1)
      let y ← up (load (mbp + 1))
      let z ← up (lift (shrd S x y offset))
      up (store lbp z)
      form A (lbp - 1)
      form A (mbp - 1)
      shiftRightLoop A S offset firstBase fuel (lbp - 1) (mbp - 1)
    else pure (lbp, mbp)

/-- shift.hpp:318-362: `std::prev(last.base())`, `std::prev(middle.base())`; when `first.position() <= middle.position()` both are
decremented once more after the word `first.base()` has been read; `std::next` of both at the end. -/
def shiftRightWords (A : Arr) (S : ShiftSem w) (first middle last : BitIter w) (offset : Nat) :
    P w (BitIter w × BitIter w) := do
  form A (last.base - 1)
  form A (middle.base - 1)
  let (lbp, mbp) ← shiftRightLoop A S offset first.base ((middle.base - first.base).toNat + 1)
    (last.base - 1) (middle.base - 1)
  let (lbp, mbp) ←
    if first.pos ≤ middle.pos then do
      let x ← up (load mbp)
      form A (mbp + 1)
      let y ← up (load (mbp + 1))
      let z ← up (lift (shrd S x y offset))
      up (store lbp z)
      form A (lbp - 1)
      form A (mbp - 1)
      pure (lbp - 1, mbp - 1)
    else pure (lbp, mbp)
  form A (lbp + 1)
  form A (mbp + 1)
  pure (⟨lbp + 1, last.pos⟩, ⟨mbp + 1, middle.pos⟩)

/-- shift.hpp:364-376: `last - bits_to_align`, `first + n`. -/
def shiftRightTail (A : Arr) (S : ShiftSem w) (first middle last : BitIter w) (n : Int) : P w (BitIter w) :=
  if first.pos ≠ middle.pos then do
    let b ← up (distance first middle)
    let x ← getWord A S first b.toNat
    let d ← sub A last b
    writeWord A S x d b.toNat
    add A first n
  else add A first n

/-- shift.hpp:297-376. -/
def shiftRightMain (A : Arr) (S : ShiftSem w) (first middle last : BitIter w) (n : Int) : P w (BitIter w) := do
  let wordShifts : Int := Int.tdiv n w
  let offset := middle.pos
  if offset = 0 then do
    let _ ← wordShiftRight A first.base last.base wordShifts
    add A first n
  else do
    let dm ← up (distance first middle)
    if dm ≥ w then do
      let (last, middle) ← shiftRightWords A S first middle last offset
      shiftRightTail A S first middle last n
    else shiftRightTail A S first middle last n

/-- shift.hpp:240-377, `bit::shift_right`. `last - n` is formed before `n` is compared with the length. -/
def shiftRight (A : Arr) (S : ShiftSem w) (first last : BitIter w) (n : Int) : P w (BitIter w) := do
  let d ← up (distance first last)
  let middle ← sub A last n
  if n ≤ 0 then pure first
  else if n ≥ d then pure last
  else do
    form A (first.base + (if last.pos = 0 then 1 else 0))
    if first.base + (if last.pos = 0 then 1 else 0) = last.base then do
      let lp := if last.pos = 0 then w else last.pos
      let msk ← up (lift (S.shl (BitVec.allOnes w) first.pos))
      let x ← up (load first.base)
      let t ← up (lift (S.shl (x &&& msk) n.toNat))
      up (blendAt S first.base t first.pos (lp - first.pos))
      add A first n
    else if last.pos ≠ 0 then do
      let dm ← up (distance first middle)
      let b := min last.pos dm.toNat
      let s ← sub A middle b
      let x ← getWord A S s b
      let t ← sub A last b
      writeWord A S x t b
      let middle ← sub A middle b
      let last ← sub A last b
      if middle.beq first then add A first n
      else shiftRightMain A S first middle last n
    else shiftRightMain A S first middle last n

/-! ### reverse -/

/-- reverse.hpp:65-81. -/
def reverseShift (A : Arr) (S : ShiftSem w) (fb lb wend : Int) (fp gap : Nat) : P w Unit :=
  if fp < gap then do
    form A (lb + 1)
    let _ ← shiftLeft A S (BitIter.aligned fb) (BitIter.aligned (lb + 1)) ((gap - fp : Nat) : Int)
    pure ()
  else if fp > gap then do
    form A wend
    let _ ← shiftRight A S (BitIter.aligned fb) (BitIter.aligned wend) ((fp - gap : Nat) : Int)
    pure ()
  else pure ()

/-- reverse.hpp:27-111, `bit::reverse`: `std::prev(last.base(), is_last_aligned)`, `std::next(last.base(), !is_last_aligned)`. -/
def reverse (A : Arr) (S : ShiftSem w) (first last : BitIter w) : P w Unit := do
  up (assertViable first last)
  let gap := if last.pos = 0 then 0 else w - last.pos
  if first.pos = 0 ∧ last.pos = 0 then do
    up (stdReverse first.base last.base)
    let _ ← stdTransform A first.base last.base first.base bitswap
    pure ()
  else if first.base ≠ last.base then do
    let firstValue ← up (load first.base)
    form A (last.base - (if last.pos = 0 then 1 else 0))
    let lastValue ← up (load (last.base - (if last.pos = 0 then 1 else 0)))
    let wend := last.base + (if last.pos = 0 then 0 else 1)
    form A wend
    up (stdReverse first.base wend)
    let _ ← stdTransform A first.base wend first.base bitswap
    reverseShift A S first.base last.base wend first.pos gap
    up (reverseFirst S first.base first.pos firstValue)
    up (reverseLast S last.base last.pos lastValue)
  else do
    let x ← up (load first.base)
    let t ← up (lift (S.shr x first.pos))
    let t ← up (lift (S.shr (bitswap t) gap))
    up (blendAt S first.base t first.pos (subSize last.pos first.pos))

/-! ### swap_ranges: `A` is the array of the first range, `B` that of the second -/

/-- swap_ranges.hpp:143-158: `it2++`, `it1++`. -/
def swapLoop (A B : Arr) (S : ShiftSem w) (lastBase : Int) (pos2 : Nat) : Nat → Int → Int → P w (Int × Int)
  | 0, _, _ => up (ub .outOfFuel)
  | fuel+1, it1, it2 =>
    if it1 ≠ lastBase then do
      form B (it2 + 1)
      up (bitexch5 S it1 it2 0 pos2 (w - pos2))
      form A (it1 + 1)
      up (bitexch5 S it1 (it2 + 1) (w - pos2) 0 (w - (w - pos2)))
      swapLoop A B S lastBase pos2 fuel (it1 + 1) (it2 + 1)
    else pure (it1, it2)

/-- swap_ranges.hpp:52-84: `++it2`. -/
def swapSingle (B : Arr) (S : ShiftSem w) (first1 last1 first2 : BitIter w) : P w (BitIter w) := do
  let d ← up (distance first1 last1)
  let n := d.toNat
  if first1.pos ≥ first2.pos then do
    up (bitexch5 S first1.base first2.base first1.pos first2.pos n)
    add B first2 n
  else do
    let part := min n (w - first2.pos)
    up (bitexch5 S first1.base first2.base first1.pos first2.pos part)
    if n > part then do
      form B (first2.base + 1)
      up (bitexch5 S first1.base (first2.base + 1) (first1.pos + part) 0 (n - part))
      add B first2 n
    else add B first2 n

/-- swap_ranges.hpp:88-109: `it1++`, `it2++`. -/
def swapAligned (A B : Arr) (S : ShiftSem w) (first1 last1 first2 : BitIter w) : P w (BitIter w) := do
  form A (first1.base + 1)
  form B (first2.base + 1)
  up (bitexch4 S first1.base first2.base first1.pos (w - first1.pos))
  let it2 ← stdSwapRanges B (first1.base + 1) last1.base (first2.base + 1)
  if last1.pos ≠ 0 then do
    up (bitexch4 S last1.base it2 0 last1.pos)
    up (BitIter.mk? it2 last1.pos)
  else up (BitIter.mk? it2 last1.pos)

/-- swap_ranges.hpp:113-139: `it1++`, `it2++`. -/
def swapMisHead (A B : Arr) (S : ShiftSem w) (first1 first2 : BitIter w) : P w (Int × Int) := do
  let n := w - first1.pos
  if first1.pos > first2.pos then do
    form A (first1.base + 1)
    up (bitexch5 S first1.base first2.base first1.pos first2.pos n)
    pure (first1.base + 1, first2.base)
  else do
    let part := w - first2.pos
    form B (first2.base + 1)
    up (bitexch5 S first1.base first2.base first1.pos first2.pos part)
    form A (first1.base + 1)
    up (bitexch5 S first1.base (first2.base + 1) (first1.pos + part) 0 (n - part))
    pure (first1.base + 1, first2.base + 1)

/-- swap_ranges.hpp:112-190: `advance(first2, …)`, `it2++`, `bit_iterator(…) + last1.position()`. -/
def swapMisaligned (A B : Arr) (S : ShiftSem w) (first1 last1 first2 : BitIter w) : P w (BitIter w) := do
  let (it1, it2) ← swapMisHead A B S first1 first2
  let first2 ← add B first2 ((w - first1.pos : Nat) : Int)
  let (it1, it2) ← swapLoop A B S last1.base first2.pos ((last1.base - it1).toNat + 1) it1 it2
  if last1.pos ≠ 0 then do
    let part := w - first2.pos
    if last1.pos ≤ part then do
      up (bitexch5 S it1 it2 0 first2.pos last1.pos)
      let r ← up (BitIter.mk? it2 first2.pos)
      add B r last1.pos
    else do
      form B (it2 + 1)
      up (bitexch5 S it1 it2 0 first2.pos part)
      up (bitexch5 S it1 (it2 + 1) part 0 (last1.pos - part))
      up (BitIter.mk? (it2 + 1) (last1.pos - part))
  else up (BitIter.mk? it2 first2.pos)

/-- swap_ranges.hpp:23-192, `bit::swap_ranges`: `std::next(it1, is_last1_aligned)`. -/
def swapRanges (A B : Arr) (S : ShiftSem w) (first1 last1 first2 : BitIter w) : P w (BitIter w) := do
  up (assertViable first1 last1)
  if first1.beq last1 then pure first2
  else do
    form A (first1.base + (if last1.pos = 0 then 1 else 0))
    if first1.base + (if last1.pos = 0 then 1 else 0) = last1.base then swapSingle B S first1 last1 first2
    else if first1.pos = first2.pos then swapAligned A B S first1 last1 first2
    else swapMisaligned A B S first1 last1 first2

/-! ### rotate -/

/-- rotate.hpp:140-145: `p += k`, `q += k`. -/
def rotFwdSwaps (A : Arr) (S : ShiftSem w) (k : Int) : Nat → BitIter w → BitIter w → P w (BitIter w × BitIter w)
  | 0, p, q => pure (p, q)
  | s+1, p, q => do
    let _ ← swapRanges A A S p q q
    let p ← add A p k
    let q ← add A q k
    rotFwdSwaps A S k s p q

/-- rotate.hpp:166-171: `p -= k`, `q -= k`. -/
def rotBwdSwaps (A : Arr) (S : ShiftSem w) (k : Int) : Nat → BitIter w → BitIter w → P w (BitIter w × BitIter w)
  | 0, p, q => pure (p, q)
  | s+1, p, q => do
    let p ← sub A p k
    let q ← sub A q k
    let _ ← swapRanges A A S p q q
    rotBwdSwaps A S k s p q

/-- rotate.hpp:127-180. -/
def rotLoop (A : Arr) (S : ShiftSem w) : Nat → BitIter w → Int → Int → P w Unit
  | 0, _, _, _ => up (ub .outOfFuel)
  | fuel+1, p, k, n =>
    if k < n - k then
      if k ≤ w then do
        let x ← getWord A S p k.toNat
        let e ← add A p n
        let t ← shiftLeft A S p e k
        writeWord A S x t k.toNat
      else do
        let q ← add A p k
        let fullSwaps : Int := (Int.tdiv (n - k) k) % 2 ^ 32
        let remainder : Int := (n - k) - fullSwaps * k
        let (p, q) ← rotFwdSwaps A S k fullSwaps.toNat p q
        let e ← add A p remainder
        let _ ← swapRanges A A S p e q
        let p ← add A p remainder
        let _ ← add A q remainder
        let n := Int.tmod n k
        if n = 0 then pure ()
        else rotLoop A S fuel p (k - n) k
    else do
      let k := n - k
      if k ≤ w then do
        let e ← add A p n
        let s ← sub A e k
        let x ← getWord A S s k.toNat
        let e ← add A p n
        let _ ← shiftRight A S p e k
        writeWord A S x p k.toNat
      else do
        let q ← add A p n
        let p ← sub A q k
        let fullSwaps : Int := (Int.tdiv (n - k) k) % 2 ^ 32
        let remainder : Int := (n - k) - fullSwaps * k
        let (p, q) ← rotBwdSwaps A S k fullSwaps.toNat p q
        let p ← sub A p remainder
        let q ← sub A q remainder
        let e ← add A p remainder
        let _ ← swapRanges A A S p e q
        let n := Int.tmod n k
        if n = 0 then pure ()
        else rotLoop A S fuel p n k

/-- rotate.hpp:102-181, `_rotate_via_raw`. -/
def rotateViaRaw (A : Arr) (S : ShiftSem w) (first nFirst last : BitIter w) : P w (BitIter w) := do
  let k := nFirst.diff first
  let n := last.diff first
  if k = n - k then do
    let _ ← swapRanges A A S first nFirst nFirst
    pure nFirst
  else do
    let ret ← add A first (last.diff nFirst)
    rotLoop A S (n.toNat + 1) first k n
    pure ret

/-- rotate.hpp:208-236: `std::next(first, …)` is the standard function and uses `operator+=`. -/
def rotateSingle (A : Arr) (S : ShiftSem w) (first nFirst last : BitIter w) : P w (BitIter w) :=
  if first.pos = 0 ∧ last.pos = 0 then do
    let x ← up (load first.base)
    let a ← up (lift (S.shr x nFirst.pos))
    let b ← up (lift (S.shl x (w - nFirst.pos)))
    up (store first.base (a ||| b))
    add A first ((w - nFirst.pos : Nat) : Int)
  else do
    let lastPos := if last.pos = 0 then w else last.pos
    let k := subSize nFirst.pos first.pos
    let p := subSize lastPos nFirst.pos
    let d := subSize lastPos first.pos
    let one ← up (lift (S.shl 1#w d))
    let mask ← up (lift (S.shl (one - 1#w) first.pos))
    let x ← up (load first.base)
    let rotated := x &&& mask
    let a ← up (lift (S.shr rotated k))
    let b ← up (lift (S.shl rotated p))
    up (blendAt S first.base (a ||| b) first.pos d)
    add A first p

/-- rotate.hpp:184-258, `bit::rotate`: `std::next(first.base(), is_last_aligned)`. -/
def rotate (A : Arr) (S : ShiftSem w) (first nFirst last : BitIter w) : P w (BitIter w) := do
  up (assertViable first nFirst)
  up (assertViable nFirst last)
  up (assertViable first last)
  if first.beq nFirst then pure last
  else do
    form A (first.base + (if last.pos = 0 then 1 else 0))
    if first.base + (if last.pos = 0 then 1 else 0) = last.base then rotateSingle A S first nFirst last
    else do
      let b ← isWithin A w first nFirst
      if b then do
        let k ← up (distance first nFirst)
        let x ← getWord A S first k.toNat
        let newLast ← shiftLeft A S first last k
        writeWord A S x newLast k.toNat
        pure newLast
      else do
        let b ← isWithin A w nFirst last
        if b then do
          let p ← up (distance nFirst last)
          let x ← getWord A S nFirst p.toNat
          let newLast ← shiftRight A S first last p
          writeWord A S x first p.toNat
          pure newLast
        else rotateViaRaw A S first nFirst last

end Ptr
end BitLib
