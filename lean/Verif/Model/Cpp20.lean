import Verif.Model.Shift
import Verif.Props.VectorHistory
/-
The C++20 build: with `__cplusplus >= 202002L`, shift.hpp:27-29 makes `STD_SHIFT_LEFT` and `STD_SHIFT_RIGHT` the standard
`std::shift_left` and `std::shift_right` instead of `word_shift_left` and `word_shift_right`. They are called with word pointers in one
place of each algorithm: shift.hpp:165-169 and shift.hpp:303-309.

The standard says of the elements that are in the original range but not in the new one that they are left in a valid but unspecified state.
Model: an adversary `Vacated` chooses the words left there, looking at everything; no assumption is made about it. What libraries
do today (a move of words leaves the source word as it is) is the adversary `Vacated.keep`.
-/
namespace BitLib
variable {w : Nat}

/-- What a library leaves in the vacated words: given the range, the distance and the memory after the moves, the word at an address. -/
structure Vacated (w : Nat) where
  left : (first last n : Int) → Mem w → Int → BitVec w
  right : (first last n : Int) → Mem w → Int → BitVec w

/-- The library leaves the words as they are. -/
def Vacated.keep : Vacated w where
  left _ _ _ m i := (m i).getD 0
  right _ _ _ m i := (m i).getD 0

/-- Overwrite the words `[a, b)`. -/
def scribble (a b : Int) (f : Mem w → Int → BitVec w) : M w Unit := fun m =>
  .ok ((), fun i => if a ≤ i ∧ i < b then (m i).map fun _ => f m i else m i)

/-- `std::shift_left(first, last, n)` on words ([alg.shift] of the C++20 standard): `n >= 0` is required; nothing happens when `n = 0` or
`n >= last - first`; otherwise the words move and the last `n` words are unspecified. -/
def stdShiftLeft (J : Vacated w) (first last n : Int) : M w Int :=
  if n < 0 then ub .badRange
  else if n = 0 then pure last
  else if n ≥ last - first then pure first
  else do
    let r ← stdCopy (first + n) last first
    scribble (last - n) last (J.left first last n)
    pure r

/-- `std::shift_right(first, last, n)` on words: the first `n` words are unspecified. -/
def stdShiftRight (J : Vacated w) (first last n : Int) : M w Int :=
  if n < 0 then ub .badRange
  else if n = 0 then pure first
  else if n ≥ last - first then pure last
  else do
    let _ ← stdCopyBackward first (last - n) last
    scribble first (first + n) (J.right first last n)
    pure (first + n)

/-- shift.hpp:137-238 with `std::shift_left`. -/
def shiftLeftMain20 (J : Vacated w) (S : ShiftSem w) (first middle last : BitIter w) (n : Int) : M w (BitIter w) :=
  if middle.base = last.base then do
    let bitsLeft : Int := (last.pos : Int) - (middle.pos : Int)
    if bitsLeft > 0 then do
      let x ← load middle.base
      let t ← lift (S.shr x middle.pos)
      blendAt S first.base t 0 bitsLeft.toNat
      pure (first.add bitsLeft)
    else pure first
  else do
    let _ ← distance first last
    let wordShifts : Int := Int.tdiv n w
    let offset := middle.pos
    if offset = 0 then do
      let fb ← stdShiftLeft J first.base last.base wordShifts
      let first : BitIter w := ⟨fb, 0⟩
      if last.pos ≠ 0 then do
        let x ← load last.base
        writeWord S x first last.pos
        pure (first.add last.pos)
      else pure first
    else do
      let (fb, mb) ← shiftLeftLoop S offset last.base ((last.base - middle.base).toNat + 1)
        first.base middle.base
      let first : BitIter w := ⟨fb, 0⟩
      let middle : BitIter w := ⟨mb, middle.pos⟩
      let (first, middle) ←
        if middle.base + 1 = last.base then do
          let x ← load middle.base
          let t ← lift (S.shr x offset)
          blendAt S first.base t 0 (w - offset)
          pure (first.add ((w - offset : Nat) : Int), middle.add ((w - offset : Nat) : Int))
        else pure (first, middle)
      if last.pos ≠ 0 then do
        let bitsLeft : Int := (last.pos : Int) - (middle.pos : Int)
        let x ← getWord S middle (toSize bitsLeft)
        writeWord S x first (toSize bitsLeft)
        pure (first.add bitsLeft)
      else pure first

/-- shift.hpp:46-238, `bit::shift_left`, in a C++20 build. -/
def shiftLeft20 (J : Vacated w) (S : ShiftSem w) (first last : BitIter w) (n : Int) : M w (BitIter w) := do
  assertViable first last
  let d ← distance first last
  let middle := first.add n
  if n ≤ 0 then pure last
  else if n ≥ d then pure first
  else if first.base + (if last.pos = 0 then 1 else 0) = last.base then do
    let lp := if last.pos = 0 then w else last.pos
    let msk ← lift (S.shr (BitVec.allOnes w) (w - lp))
    let x ← load first.base
    let t ← lift (S.shr (x &&& msk) n.toNat)
    blendAt S first.base t first.pos (lp - first.pos)
    pure ((first.add d).sub n)
  else if d - n ≤ w then do
    let x ← getWord S middle (d - n).toNat
    writeWord S x first (d - n).toNat
    pure ((first.add d).sub n)
  else do
    let _ ← load first.base
    if last.pos ≠ 0 then do
      let _ ← load last.base
      pure ()
    else pure ()
    if first.pos ≠ 0 then do
      let (first, middle) ← shiftLeftAlign S first middle d n
      shiftLeftMain20 J S first middle last n
    else shiftLeftMain20 J S first middle last n

/-- shift.hpp:297-376 with `std::shift_right`. -/
def shiftRightMain20 (J : Vacated w) (S : ShiftSem w) (first middle last : BitIter w) (n : Int) : M w (BitIter w) := do
  let wordShifts : Int := Int.tdiv n w
  let offset := middle.pos
  if offset = 0 then do
    let _ ← stdShiftRight J first.base last.base wordShifts
    pure (first.add n)
  else do
    let dm ← distance first middle
    if dm ≥ w then do
      let (last, middle) ← shiftRightWords S first middle last offset
      shiftRightTail S first middle last n
    else shiftRightTail S first middle last n

/-- shift.hpp:240-377, `bit::shift_right`, in a C++20 build. -/
def shiftRight20 (J : Vacated w) (S : ShiftSem w) (first last : BitIter w) (n : Int) : M w (BitIter w) := do
  let d ← distance first last
  let middle := last.sub n
  if n ≤ 0 then pure first
  else if n ≥ d then pure last
  else if first.base + (if last.pos = 0 then 1 else 0) = last.base then do
    let lp := if last.pos = 0 then w else last.pos
    let msk ← lift (S.shl (BitVec.allOnes w) first.pos)
    let x ← load first.base
    let t ← lift (S.shl (x &&& msk) n.toNat)
    blendAt S first.base t first.pos (lp - first.pos)
    pure (first.add n)
  else if last.pos ≠ 0 then do
    let dm ← distance first middle
    let b := min last.pos dm.toNat
    let x ← getWord S (middle.sub b) b
    writeWord S x (last.sub b) b
    let middle := middle.sub b
    let last := last.sub b
    if middle.beq first then pure (first.add n)
    else shiftRightMain20 J S first middle last n
  else shiftRightMain20 J S first middle last n

/-! ### `reverse`, `rotate` and the members of `bit_vector` that shift -/

/-- reverse.hpp:65-81 in a C++20 build. -/
def reverseShift20 (J : Vacated w) (S : ShiftSem w) (fb lb wend : Int) (fp gap : Nat) : M w Unit :=
  if fp < gap then do
    let _ ← shiftLeft20 J S (BitIter.aligned fb) (BitIter.aligned (lb + 1)) ((gap - fp : Nat) : Int)
    pure ()
  else if fp > gap then do
    let _ ← shiftRight20 J S (BitIter.aligned fb) (BitIter.aligned wend) ((fp - gap : Nat) : Int)
    pure ()
  else pure ()

/-- reverse.hpp:27-111, `bit::reverse`, in a C++20 build. -/
def reverse20 (J : Vacated w) (S : ShiftSem w) (first last : BitIter w) : M w Unit := do
  assertViable first last
  let gap := if last.pos = 0 then 0 else w - last.pos
  if first.pos = 0 ∧ last.pos = 0 then do
    stdReverse first.base last.base
    let _ ← stdTransform first.base last.base first.base bitswap
    pure ()
  else if first.base ≠ last.base then do
    let firstValue ← load first.base
    let lastValue ← load (last.base - (if last.pos = 0 then 1 else 0))
    let wend := last.base + (if last.pos = 0 then 0 else 1)
    stdReverse first.base wend
    let _ ← stdTransform first.base wend first.base bitswap
    reverseShift20 J S first.base last.base wend first.pos gap
    reverseFirst S first.base first.pos firstValue
    reverseLast S last.base last.pos lastValue
  else do
    let x ← load first.base
    let t ← lift (S.shr x first.pos)
    let t ← lift (S.shr (bitswap t) gap)
    blendAt S first.base t first.pos (subSize last.pos first.pos)

/-- rotate.hpp:127-180: the `for(;;)` loop, in a C++20 build. -/
def rotLoop20 (J : Vacated w) (S : ShiftSem w) : Nat → BitIter w → Int → Int → M w Unit
  | 0, _, _, _ => ub .outOfFuel
  | fuel+1, p, k, n =>
    if k < n - k then
      if k ≤ w then do
        let x ← getWord S p k.toNat
        let t ← shiftLeft20 J S p (p.add n) k
        writeWord S x t k.toNat
      else do
        let q := p.add k
        let fullSwaps : Int := (Int.tdiv (n - k) k) % 2 ^ 32
        let remainder : Int := (n - k) - fullSwaps * k
        let (p, q) ← rotFwdSwaps S k fullSwaps.toNat p q
        let _ ← swapRanges S p (p.add remainder) q
        let p := p.add remainder
        let n := Int.tmod n k
        if n = 0 then pure ()
        else rotLoop20 J S fuel p (k - n) k
    else do
      let k := n - k
      if k ≤ w then do
        let x ← getWord S ((p.add n).sub k) k.toNat
        let _ ← shiftRight20 J S p (p.add n) k
        writeWord S x p k.toNat
      else do
        let q := p.add n
        let p := q.sub k
        let fullSwaps : Int := (Int.tdiv (n - k) k) % 2 ^ 32
        let remainder : Int := (n - k) - fullSwaps * k
        let (p, q) ← rotBwdSwaps S k fullSwaps.toNat p q
        let p := p.sub remainder
        let q := q.sub remainder
        let _ ← swapRanges S p (p.add remainder) q
        let n := Int.tmod n k
        if n = 0 then pure ()
        else rotLoop20 J S fuel p n k

/-- rotate.hpp:102-181, `_rotate_via_raw`, in a C++20 build. -/
def rotateViaRaw20 (J : Vacated w) (S : ShiftSem w) (first nFirst last : BitIter w) : M w (BitIter w) := do
  let k := nFirst.diff first
  let n := last.diff first
  if k = n - k then do
    let _ ← swapRanges S first nFirst nFirst
    pure nFirst
  else do
    let ret := first.add (last.diff nFirst)
    rotLoop20 J S (n.toNat + 1) first k n
    pure ret

/-- rotate.hpp:184-258, `bit::rotate`, in a C++20 build. -/
def rotate20 (J : Vacated w) (S : ShiftSem w) (first nFirst last : BitIter w) : M w (BitIter w) := do
  assertViable first nFirst
  assertViable nFirst last
  assertViable first last
  if first.beq nFirst then pure last
  else if first.base + (if last.pos = 0 then 1 else 0) = last.base then rotateSingle S first nFirst last
  else if isWithin w first nFirst then do
    let k ← distance first nFirst
    let x ← getWord S first k.toNat
    let newLast ← shiftLeft20 J S first last k
    writeWord S x newLast k.toNat
    pure newLast
  else if isWithin w nFirst last then do
    let p ← distance nFirst last
    let x ← getWord S nFirst p.toNat
    let newLast ← shiftRight20 J S first last p
    writeWord S x first p.toNat
    pure newLast
  else rotateViaRaw20 J S first nFirst last

namespace BV

/-- bit_vector.hpp:506-520, `insert(pos, value)`, in a C++20 build. -/
def insert20 (J : Vacated w) (S : ShiftSem w) (P : Policy) (v : BV) (pos : BitIter w) (b : Bool) : V w (BV × BitIter w) := do
  let d ← onMem (distance v.begin pos)
  let vec ← v.room P
  let v : BV := ⟨vec, v.length + 1⟩
  let _ ← onMem (shiftRight20 J S (v.begin.add d) (v.begin.add (v.length : Int)) 1)
  let r ← onMem (lift (v.begin.index S d))
  onMem (r.assignVal ⟨b⟩)
  pure (v, v.begin.add d)

/-- bit_vector.hpp:522-542, `insert(pos, count, value)`, in a C++20 build. -/
def insertN20 (J : Vacated w) (S : ShiftSem w) (P : Policy) (v : BV) (pos : BitIter w) (count : Nat) (b : Bool) :
    V w (BV × BitIter w) := do
  let d ← onMem (distance v.begin pos)
  if count = 0 then pure (v, v.begin.add d)
  else do
    let vec ← growFor P v count
    let v : BV := ⟨vec, v.length + count⟩
    let _ ← onMem (shiftRight20 J S (v.begin.add d) (v.begin.add (v.length : Int)) (count : Int))
    onMem (fill S (v.begin.add d) ((v.begin.add d).add (count : Int)) b)
    pure (v, v.begin.add d)

/-- bit_vector.hpp:544-565, `insert(pos, first, last)`, in a C++20 build. -/
def insertRange20 (J : Vacated w) (S : ShiftSem w) (P : Policy) (v : BV) (pos first last : BitIter w) : V w (BV × BitIter w) := do
  let d ← onMem (distance v.begin pos)
  let c ← onMem (distance first last)
  let count := toSize c
  if count = 0 then pure (v, v.begin.add d)
  else do
    let vec ← growFor P v count
    let v : BV := ⟨vec, v.length + count⟩
    let _ ← onMem (shiftRight20 J S (v.begin.add d) (v.begin.add (v.length : Int)) (count : Int))
    let _ ← onMem (copy S first last (v.begin.add d))
    pure (v, v.begin.add d)

/-- bit_vector.hpp:567-576, `erase(pos)`, in a C++20 build. -/
def erase20 (J : Vacated w) (S : ShiftSem w) (v : BV) (pos : BitIter w) : V w (BV × BitIter w) := do
  let _ ← onMem (shiftLeft20 J S pos (v.begin.add (v.length : Int)) 1)
  let length := subSize v.length 1
  let vec ← dropWord v.vec length
  pure (⟨vec, length⟩, pos)

/-- bit_vector.hpp:578-590, `erase(first, last)`, in a C++20 build. -/
def eraseRange20 (J : Vacated w) (S : ShiftSem w) (P : Policy) (v : BV) (first last : BitIter w) : V w (BV × BitIter w) := do
  let d ← onMem (distance v.begin first)
  let count ← onMem (distance first last)
  if count = 0 then pure (v, last)
  else do
    let _ ← onMem (shiftLeft20 J S first v.end count)
    let length := toSize ((v.length : Int) - count)
    let vec ← v.vec.resize P (wordCount w length)
    let v : BV := ⟨vec, length⟩
    pure (v, v.begin.add d)

end BV

/-- A call in a C++20 build: the calls that shift use `std::shift_left` and `std::shift_right`; the others are the same code. -/
def Op.exec20 (J : Vacated w) (S : ShiftSem w) (P : Policy) (vs : List BV) : Op w → V w (List BV)
  | .insert i d x => onVec vs i fun v => Prod.fst <$> v.insert20 J S P (v.begin.add (d : Int)) x
  | .insertN i d n x => onVec vs i fun v => Prod.fst <$> v.insertN20 J S P (v.begin.add (d : Int)) n x
  | .insertRange i d j a b => onVec2 vs i j fun v o =>
      Prod.fst <$> v.insertRange20 J S P (v.begin.add (d : Int)) (o.begin.add (a : Int)) (o.begin.add (b : Int))
  | .erase i d => onVec vs i fun v => Prod.fst <$> v.erase20 J S (v.begin.add (d : Int))
  | .eraseRange i a b => onVec vs i fun v => Prod.fst <$> v.eraseRange20 J S P (v.begin.add (a : Int)) (v.begin.add (b : Int))
  | op => op.exec S P vs

/-- Running a history in a C++20 build; `Js` says what the library leaves behind in each call. -/
def runHist20 (S : ShiftSem w) (P : Policy) : List (Vacated w × Op w) → List BV → V w (List BV)
  | [], vs => pure vs
  | (J, op) :: ops, vs => do
    let vs' ← op.exec20 J S P vs
    runHist20 S P ops vs'

end BitLib
