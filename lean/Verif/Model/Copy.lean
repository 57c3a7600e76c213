import Verif.Model.Details
/-
copy.hpp, move.hpp, copy_backward.hpp, transform.hpp (scalar paths) of include/bitlib/bit-algorithms.
-/
namespace BitLib
variable {w : Nat}

/-! ### copy -/

/-- copy.hpp:56-74: the partial word that aligns the destination. Returns `(remaining, first, it)`. -/
def copyHead (S : ShiftSem w) (first dFirst : BitIter w) (total : Nat) :
    M w (Nat × BitIter w × Int) :=
  if dFirst.pos ≠ 0 then do
    let part := min total (w - dFirst.pos)
    let x ← getWord S first part
    let t ← lift (S.shl x dFirst.pos)
    blendAt S dFirst.base t dFirst.pos part
    pure (total - part, first.add part, dFirst.base + 1)
  else pure (total, first, dFirst.base)

/-- copy.hpp:94-101: the final partial word. -/
def copyTail (S : ShiftSem w) (remaining : Nat) (first : BitIter w) (it : Int) : M w Unit :=
  if remaining > 0 then do
    let x ← getWord S first remaining
    blendLowAt S it x remaining
  else pure ()

/-- copy.hpp:87-92: `while (remaining >= digits)`, followed by the tail. -/
def copyLoop (S : ShiftSem w) : Nat → Nat → BitIter w → Int → M w Unit
  | 0, _, _, _ => ub .outOfFuel
  | fuel+1, remaining, first, it =>
    if remaining ≥ w then do
      let x ← getWord S first w
      store it x
      copyLoop S fuel (remaining - w) (first.add w) (it + 1)
    else copyTail S remaining first it

/-- copy.hpp:30-104, `bit::copy`. -/
def copy (S : ShiftSem w) (first last dFirst : BitIter w) : M w (BitIter w) := do
  assertViable first last
  if first.beq last then pure dFirst
  else do
    let d ← distance first last
    let total := d.toNat
    let (remaining, first, it) ← copyHead S first dFirst total
    if remaining > 0 then
      if first.pos = 0 ∧ remaining > w then do
        let N ← wordDist first.base last.base
        let it ← stdCopy first.base last.base it
        copyTail S (subSize remaining (w * N)) (first.add ((w : Int) * N)) it
        pure (dFirst.add total)
      else do
        copyLoop S (remaining + 1) remaining first it
        pure (dFirst.add total)
    else pure (dFirst.add total)

/-! ### move: move.hpp:25-99 repeats the code of copy.hpp with `std::move` for `std::copy`
(the same word assignments). -/

/-- move.hpp:51-69. -/
def moveHead (S : ShiftSem w) (first dFirst : BitIter w) (total : Nat) :
    M w (Nat × BitIter w × Int) :=
  if dFirst.pos ≠ 0 then do
    let part := min total (w - dFirst.pos)
    let x ← getWord S first part
    let t ← lift (S.shl x dFirst.pos)
    blendAt S dFirst.base t dFirst.pos part
    pure (total - part, first.add part, dFirst.base + 1)
  else pure (total, first, dFirst.base)

/-- move.hpp:89-96. -/
def moveTail (S : ShiftSem w) (remaining : Nat) (first : BitIter w) (it : Int) : M w Unit :=
  if remaining > 0 then do
    let x ← getWord S first remaining
    blendLowAt S it x remaining
  else pure ()

/-- move.hpp:82-87. -/
def moveLoop (S : ShiftSem w) : Nat → Nat → BitIter w → Int → M w Unit
  | 0, _, _, _ => ub .outOfFuel
  | fuel+1, remaining, first, it =>
    if remaining ≥ w then do
      let x ← getWord S first w
      store it x
      moveLoop S fuel (remaining - w) (first.add w) (it + 1)
    else moveTail S remaining first it

/-- move.hpp:25-99, `bit::move`. -/
def move (S : ShiftSem w) (first last dFirst : BitIter w) : M w (BitIter w) := do
  assertViable first last
  if first.beq last then pure dFirst
  else do
    let d ← distance first last
    let total := d.toNat
    let (remaining, first, it) ← moveHead S first dFirst total
    if remaining > 0 then
      if first.pos = 0 ∧ remaining > w then do
        let N ← wordDist first.base last.base
        let it ← stdCopy first.base last.base it
        moveTail S (subSize remaining (w * N)) (first.add ((w : Int) * N)) it
        pure (dFirst.add total)
      else do
        moveLoop S (remaining + 1) remaining first it
        pure (dFirst.add total)
    else pure (dFirst.add total)

/-! ### copy_backward -/

/-- copy_backward.hpp:52-68: the partial word that aligns the destination end. Returns `(remaining, last)`. -/
def copyBackwardHead (S : ShiftSem w) (last dLast : BitIter w) (total : Nat) : M w (Nat × BitIter w) :=
  if dLast.pos ≠ 0 then do
    let part := min total dLast.pos
    let x ← getWord S (last.sub part) part
    let t ← lift (S.shl x (dLast.pos - part))
    blendAt S dLast.base t (dLast.pos - part) part
    pure (total - part, last.add (-(part : Int)))
  else pure (total, last)

/-- copy_backward.hpp:89-98: the final partial word, written at the top of the word `it`. -/
def copyBackwardTail (S : ShiftSem w) (remaining : Nat) (last : BitIter w) (it : Int) : M w Unit :=
  if remaining > 0 then do
    let x ← getWord S (last.sub remaining) remaining
    let t ← lift (S.shl x (w - remaining))
    blendAt S it t (w - remaining) remaining
  else pure ()

/-- copy_backward.hpp:82-87: `while (remaining >= digits)`, the decrement `it--` after it and the tail.
When the loop leaves nothing to do, `it--` may step before the first word without being dereferenced. -/
def copyBackwardLoop (S : ShiftSem w) : Nat → Nat → BitIter w → Int → M w Unit
  | 0, _, _, _ => ub .outOfFuel
  | fuel+1, remaining, last, it =>
    if remaining ≥ w then do
      let x ← getWord S (last.sub w) w
      store (it - 1) x
      copyBackwardLoop S fuel (remaining - w) (last.add (-(w : Int))) (it - 1)
    else copyBackwardTail S remaining last (it - 1)

/-- copy_backward.hpp:27-101, `bit::copy_backward`. -/
def copyBackward (S : ShiftSem w) (first last dLast : BitIter w) : M w (BitIter w) := do
  assertViable first last
  if first.beq last then pure dLast
  else do
    let d ← distance first last
    let total := d.toNat
    let (remaining, last) ← copyBackwardHead S last dLast total
    if remaining > 0 then
      if last.pos = 0 ∧ remaining > w then do
        let N := (last.base - first.base - 1).toNat
        let it ← stdCopyBackward (first.base + 1) last.base dLast.base
        copyBackwardTail S (subSize remaining (w * N)) (last.sub ((w : Int) * N)) (it - 1)
        pure (dLast.sub total)
      else do
        copyBackwardLoop S (remaining + 1) remaining last dLast.base
        pure (dLast.sub total)
    else pure (dLast.sub total)

/-! ### unary transform -/

/-- transform.hpp:55-74. -/
def transformHead (S : ShiftSem w) (op : BitVec w → BitVec w) (first dFirst : BitIter w) (total : Nat) :
    M w (Nat × BitIter w × Int) :=
  if dFirst.pos ≠ 0 then do
    let part := min total (w - dFirst.pos)
    let x ← getWord S first part
    let t ← lift (S.shl x dFirst.pos)
    blendAt S dFirst.base (op t) dFirst.pos part
    pure (total - part, first.add part, dFirst.base + 1)
  else pure (total, first, dFirst.base)

/-- transform.hpp:118-125. -/
def transformTail (S : ShiftSem w) (op : BitVec w → BitVec w) (remaining : Nat) (first : BitIter w) (it : Int) :
    M w Unit :=
  if remaining > 0 then do
    let x ← getWord S first remaining
    blendLowAt S it (op x) remaining
  else pure ()

/-- transform.hpp:111-116. -/
def transformLoop (S : ShiftSem w) (op : BitVec w → BitVec w) : Nat → Nat → BitIter w → Int → M w Unit
  | 0, _, _, _ => ub .outOfFuel
  | fuel+1, remaining, first, it =>
    if remaining ≥ w then do
      let x ← getWord S first w
      store it (op x)
      transformLoop S op fuel (remaining - w) (first.add w) (it + 1)
    else transformTail S op remaining first it

/-- transform.hpp:34-128, unary `bit::transform` (scalar path). `first = bit_iterator(firstIt)` after the block of words
is `last.base()` with position 0. -/
def transform (S : ShiftSem w) (op : BitVec w → BitVec w) (first last dFirst : BitIter w) :
    M w (BitIter w) := do
  assertViable first last
  if first.beq last then pure dFirst
  else do
    let d ← distance first last
    let total := d.toNat
    let (remaining, first, it) ← transformHead S op first dFirst total
    if remaining > 0 then
      if first.pos = 0 ∧ remaining > w then do
        let N ← wordDist first.base last.base
        let it ← stdTransform first.base last.base it op
        transformTail S op (subSize remaining (w * N)) ⟨first.base + N, 0⟩ it
        pure (dFirst.add total)
      else do
        transformLoop S op (remaining + 1) remaining first it
        pure (dFirst.add total)
    else pure (dFirst.add total)

/-! ### binary transform -/

/-- transform.hpp:152-176. -/
def transform2Head (S : ShiftSem w) (op : BitVec w → BitVec w → BitVec w) (first1 first2 dFirst : BitIter w)
    (total : Nat) : M w (Nat × BitIter w × BitIter w × Int) :=
  if dFirst.pos ≠ 0 then do
    let part := min total (w - dFirst.pos)
    let x ← getWord S first1 part
    let x ← lift (S.shl x dFirst.pos)
    let y ← getWord S first2 part
    let y ← lift (S.shl y dFirst.pos)
    blendAt S dFirst.base (op x y) dFirst.pos part
    pure (total - part, first1.add part, first2.add part, dFirst.base + 1)
  else pure (total, first1, first2, dFirst.base)

/-- transform.hpp:199-209. -/
def transform2Tail (S : ShiftSem w) (op : BitVec w → BitVec w → BitVec w) (remaining : Nat)
    (first1 first2 : BitIter w) (it : Int) : M w Unit :=
  if remaining > 0 then do
    let x ← getWord S first1 remaining
    let y ← getWord S first2 remaining
    blendLowAt S it (op x y) remaining
  else pure ()

/-- transform.hpp:189-197. -/
def transform2Loop (S : ShiftSem w) (op : BitVec w → BitVec w → BitVec w) :
    Nat → Nat → BitIter w → BitIter w → Int → M w Unit
  | 0, _, _, _, _ => ub .outOfFuel
  | fuel+1, remaining, first1, first2, it =>
    if remaining ≥ w then do
      let x ← getWord S first1 w
      let y ← getWord S first2 w
      store it (op x y)
      transform2Loop S op fuel (remaining - w) (first1.add w) (first2.add w) (it + 1)
    else transform2Tail S op remaining first1 first2 it

/-- transform.hpp:130-212, binary `bit::transform`. -/
def transform2 (S : ShiftSem w) (op : BitVec w → BitVec w → BitVec w)
    (first1 last1 first2 dFirst : BitIter w) : M w (BitIter w) := do
  assertViable first1 last1
  if first1.beq last1 then pure dFirst
  else do
    let d ← distance first1 last1
    let total := d.toNat
    let (remaining, first1, first2, it) ← transform2Head S op first1 first2 dFirst total
    if remaining > 0 then
      if first1.pos = 0 ∧ first2.pos = 0 ∧ remaining > w then do
        let N ← wordDist first1.base last1.base
        let it ← stdTransform2 first1.base last1.base first2.base it op
        transform2Tail S op (subSize remaining (w * N)) (first1.add ((w : Int) * N))
          (first2.add ((w : Int) * N)) it
        pure (dFirst.add total)
      else do
        transform2Loop S op (remaining + 1) remaining first1 first2 it
        pure (dFirst.add total)
    else pure (dFirst.add total)

end BitLib
