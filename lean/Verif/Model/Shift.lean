import Verif.Model.Details
/-
shift.hpp, reverse.hpp, swap_ranges.hpp, rotate.hpp (scalar paths, C++17 macros) of include/bitlib/bit-algorithms.
-/
namespace BitLib
variable {w : Nat}

/-! ### shift_left -/

/-- shift.hpp:104-136: align `first` (it is not aligned). Returns the new `(first, middle)`. -/
def shiftLeftAlign (S : ShiftSem w) (first middle : BitIter w) (d n : Int) : M w (BitIter w × BitIter w) := do
  if first.pos ≥ middle.pos then do
    let x ← load middle.base
    let t ← lift (S.shl x (first.pos - middle.pos))
    blendAt S first.base t first.pos (w - first.pos)
  else do
    let n1 := w - middle.pos
    let n2 := w - first.pos - n1
    let x ← load middle.base
    let t ← lift (S.shr x (middle.pos - first.pos))
    blendAt S first.base t first.pos n1
    let y ← load (middle.base + 1)
    let t ← lift (S.shl y (w - n2))
    blendAt S first.base t (first.pos + n1) n2
  let shifted : Int := min (d - n) ((w - first.pos : Nat) : Int)
  pure (first.add shifted, middle.add shifted)

/-- shift.hpp:207-211: `while (std::next(middle_base) < last.base())`. -/
def shiftLeftLoop (S : ShiftSem w) (offset : Nat) (lastBase : Int) : Nat → Int → Int → M w (Int × Int)
  | 0, _, _ => ub .outOfFuel
  | fuel+1, firstBase, middleBase =>
    if middleBase + 1 < lastBase then do
      let x ← load middleBase
      let y ← load (middleBase + 1)
      let z ← lift (shrd S x y offset)
      store firstBase z
      shiftLeftLoop S offset lastBase fuel (firstBase + 1) (middleBase + 1)
    else pure (firstBase, middleBase)

/-- shift.hpp:137-238: `first` is aligned. -/
def shiftLeftMain (S : ShiftSem w) (first middle last : BitIter w) (n : Int) : M w (BitIter w) :=
  if middle.base = last.base then do
    let bitsLeft : Int := (last.pos : Int) - (middle.pos : Int)
    if bitsLeft > 0 then do
      let x ← load middle.base
      let t ← lift (S.shr x middle.pos)
      blendAt S first.base t 0 bitsLeft.toNat
      pure (first.add bitsLeft)
    else pure first
  else do
    let _ ← distance first last
    let wordShifts : Int := Int.tdiv n w
    let offset := middle.pos
    if offset = 0 then do
      let fb ← wordShiftLeft first.base last.base wordShifts
      let first : BitIter w := ⟨fb, 0⟩
      if last.pos ≠ 0 then do
        let x ← load last.base
        writeWord S x first last.pos
        pure (first.add last.pos)
      else pure first
    else do
      let (fb, mb) ← shiftLeftLoop S offset last.base ((last.base - middle.base).toNat + 1)
        first.base middle.base
      let first : BitIter w := ⟨fb, 0⟩
      let middle : BitIter w := ⟨mb, middle.pos⟩
      let (first, middle) ←
        if middle.base + 1 = last.base then do
          let x ← load middle.base
          let t ← lift (S.shr x offset)
          blendAt S first.base t 0 (w - offset)
          pure (first.add ((w - offset : Nat) : Int), middle.add ((w - offset : Nat) : Int))
        else pure (first, middle)
      if last.pos ≠ 0 then do
        let bitsLeft : Int := (last.pos : Int) - (middle.pos : Int)
        let x ← getWord S middle (toSize bitsLeft)
        writeWord S x first (toSize bitsLeft)
        pure (first.add bitsLeft)
      else pure first

/-- shift.hpp:46-238, `bit::shift_left`. -/
def shiftLeft (S : ShiftSem w) (first last : BitIter w) (n : Int) : M w (BitIter w) := do
  assertViable first last
  let d ← distance first last
  let middle := first.add n
  if n ≤ 0 then pure last
  else if n ≥ d then pure first
  else if first.base + (if last.pos = 0 then 1 else 0) = last.base then do
    let lp := if last.pos = 0 then w else last.pos
    let msk ← lift (S.shr (BitVec.allOnes w) (w - lp))
    let x ← load first.base
    let t ← lift (S.shr (x &&& msk) n.toNat)
    blendAt S first.base t first.pos (lp - first.pos)
    pure ((first.add d).sub n)
  else if d - n ≤ w then do
    let x ← getWord S middle (d - n).toNat
    writeWord S x first (d - n).toNat
    pure ((first.add d).sub n)
  else do
    let _ ← load first.base
    if last.pos ≠ 0 then do
      let _ ← load last.base
      pure ()
    else pure ()
    if first.pos ≠ 0 then do
      let (first, middle) ← shiftLeftAlign S first middle d n
      shiftLeftMain S first middle last n
    else shiftLeftMain S first middle last n

/-! ### shift_right -/

/-- shift.hpp:347-351: `while (middle_base_prev > first.base())`. Returns `(last_base_prev, middle_base_prev)`. -/
def shiftRightLoop (S : ShiftSem w) (offset : Nat) (firstBase : Int) : Nat → Int → Int → M w (Int × Int)
  | 0, _, _ => ub .outOfFuel
  | fuel+1, lbp, mbp =>
    if mbp > firstBase then do
      let x ← load mbp
      let y ← load (mbp + 1)
      let z ← lift (shrd S x y offset)
      store lbp z
      shiftRightLoop S offset firstBase fuel (lbp - 1) (mbp - 1)
    else pure (lbp, mbp)

/-- shift.hpp:318-362: whole words. Returns the new `(last, middle)`. -/
def shiftRightWords (S : ShiftSem w) (first middle last : BitIter w) (offset : Nat) :
    M w (BitIter w × BitIter w) := do
  let (lbp, mbp) ← shiftRightLoop S offset first.base ((middle.base - first.base).toNat + 1)
    (last.base - 1) (middle.base - 1)
  let (lbp, mbp) ←
    if first.pos ≤ middle.pos then do
      let x ← load mbp
      let y ← load (mbp + 1)
      let z ← lift (shrd S x y offset)
      store lbp z
      pure (lbp - 1, mbp - 1)
    else pure (lbp, mbp)
  pure (⟨lbp + 1, last.pos⟩, ⟨mbp + 1, middle.pos⟩)

/-- shift.hpp:364-376: the first partial word. -/
def shiftRightTail (S : ShiftSem w) (first middle last : BitIter w) (n : Int) : M w (BitIter w) :=
  if first.pos ≠ middle.pos then do
    let b ← distance first middle
    let x ← getWord S first b.toNat
    writeWord S x (last.sub b) b.toNat
    pure (first.add n)
  else pure (first.add n)

/-- shift.hpp:297-376: `last` is aligned. -/
def shiftRightMain (S : ShiftSem w) (first middle last : BitIter w) (n : Int) : M w (BitIter w) := do
  let wordShifts : Int := Int.tdiv n w
  let offset := middle.pos
  if offset = 0 then do
    let _ ← wordShiftRight first.base last.base wordShifts
    pure (first.add n)
  else do
    let dm ← distance first middle
    if dm ≥ w then do
      let (last, middle) ← shiftRightWords S first middle last offset
      shiftRightTail S first middle last n
    else shiftRightTail S first middle last n

/-- shift.hpp:240-377, `bit::shift_right`. -/
def shiftRight (S : ShiftSem w) (first last : BitIter w) (n : Int) : M w (BitIter w) := do
  let d ← distance first last
  let middle := last.sub n
  if n ≤ 0 then pure first
  else if n ≥ d then pure last
  else if first.base + (if last.pos = 0 then 1 else 0) = last.base then do
    let lp := if last.pos = 0 then w else last.pos
    let msk ← lift (S.shl (BitVec.allOnes w) first.pos)
    let x ← load first.base
    let t ← lift (S.shl (x &&& msk) n.toNat)
    blendAt S first.base t first.pos (lp - first.pos)
    pure (first.add n)
  else if last.pos ≠ 0 then do
    let dm ← distance first middle
    let b := min last.pos dm.toNat
    let x ← getWord S (middle.sub b) b
    writeWord S x (last.sub b) b
    let middle := middle.sub b
    let last := last.sub b
    if middle.beq first then pure (first.add n)
    else shiftRightMain S first middle last n
  else shiftRightMain S first middle last n

/-! ### reverse -/

/-- reverse.hpp:65-81: after the words have been reversed, shift them left or right by the difference of the two gaps.
`fb`, `lb` are `first.base()`, `last.base()`; `wend` is `std::next(last.base(), !is_last_aligned)`. -/
def reverseShift (S : ShiftSem w) (fb lb wend : Int) (fp gap : Nat) : M w Unit :=
  if fp < gap then do
    let _ ← shiftLeft S (BitIter.aligned fb) (BitIter.aligned (lb + 1)) ((gap - fp : Nat) : Int)
    pure ()
  else if fp > gap then do
    let _ ← shiftRight S (BitIter.aligned fb) (BitIter.aligned wend) ((fp - gap : Nat) : Int)
    pure ()
  else pure ()

/-- reverse.hpp:83-90: restore the bits of the first word that precede the range. -/
def reverseFirst (S : ShiftSem w) (fb : Int) (fp : Nat) (firstValue : BitVec w) : M w Unit :=
  if fp ≠ 0 then do
    let x ← load fb
    let r ← lift (bitblend4 S firstValue x fp (w - fp))
    store fb r
  else pure ()

/-- reverse.hpp:91-99: restore the bits of the last word that follow the range. -/
def reverseLast (S : ShiftSem w) (lb : Int) (lp : Nat) (lastValue : BitVec w) : M w Unit :=
  if lp ≠ 0 then do
    let x ← load lb
    let r ← lift (bitblend4 S x lastValue lp (w - lp))
    store lb r
  else pure ()

/-- reverse.hpp:27-111, `bit::reverse`. -/
def reverse (S : ShiftSem w) (first last : BitIter w) : M w Unit := do
  assertViable first last
  let gap := if last.pos = 0 then 0 else w - last.pos
  if first.pos = 0 ∧ last.pos = 0 then do
    stdReverse first.base last.base
    let _ ← stdTransform first.base last.base first.base bitswap
    pure ()
  else if first.base ≠ last.base then do
    let firstValue ← load first.base
    let lastValue ← load (last.base - (if last.pos = 0 then 1 else 0))
    let wend := last.base + (if last.pos = 0 then 0 else 1)
    stdReverse first.base wend
    let _ ← stdTransform first.base wend first.base bitswap
    reverseShift S first.base last.base wend first.pos gap
    reverseFirst S first.base first.pos firstValue
    reverseLast S last.base last.pos lastValue
  else do
    let x ← load first.base
    let t ← lift (S.shr x first.pos)
    let t ← lift (S.shr (bitswap t) gap)
    blendAt S first.base t first.pos (subSize last.pos first.pos)

/-! ### swap_ranges -/

/-- swap_ranges.hpp:143-158: `while (it1 != last1.base())`; `pos2` is `first2.position()`. Returns `(it1, it2)`. -/
def swapLoop (S : ShiftSem w) (lastBase : Int) (pos2 : Nat) : Nat → Int → Int → M w (Int × Int)
  | 0, _, _ => ub .outOfFuel
  | fuel+1, it1, it2 =>
    if it1 ≠ lastBase then do
      bitexch5 S it1 it2 0 pos2 (w - pos2)
      bitexch5 S it1 (it2 + 1) (w - pos2) 0 (w - (w - pos2))
      swapLoop S lastBase pos2 fuel (it1 + 1) (it2 + 1)
    else pure (it1, it2)

/-- swap_ranges.hpp:52-84: the first range lies in one word. -/
def swapSingle (S : ShiftSem w) (first1 last1 first2 : BitIter w) : M w (BitIter w) := do
  let d ← distance first1 last1
  let n := d.toNat
  if first1.pos ≥ first2.pos then do
    bitexch5 S first1.base first2.base first1.pos first2.pos n
    pure (first2.add n)
  else do
    let part := min n (w - first2.pos)
    bitexch5 S first1.base first2.base first1.pos first2.pos part
    if n > part then do
      bitexch5 S first1.base (first2.base + 1) (first1.pos + part) 0 (n - part)
      pure (first2.add n)
    else pure (first2.add n)

/-- swap_ranges.hpp:88-109: several words, same alignment. -/
def swapAligned (S : ShiftSem w) (first1 last1 first2 : BitIter w) : M w (BitIter w) := do
  bitexch4 S first1.base first2.base first1.pos (w - first1.pos)
  let it2 ← stdSwapRanges (first1.base + 1) last1.base (first2.base + 1)
  if last1.pos ≠ 0 then do
    bitexch4 S last1.base it2 0 last1.pos
    BitIter.mk? it2 last1.pos
  else BitIter.mk? it2 last1.pos

/-- swap_ranges.hpp:113-139: first step of the misaligned case. Returns `(it1, it2)`. -/
def swapMisHead (S : ShiftSem w) (first1 first2 : BitIter w) : M w (Int × Int) := do
  let n := w - first1.pos
  if first1.pos > first2.pos then do
    bitexch5 S first1.base first2.base first1.pos first2.pos n
    pure (first1.base + 1, first2.base)
  else do
    let part := w - first2.pos
    bitexch5 S first1.base first2.base first1.pos first2.pos part
    bitexch5 S first1.base (first2.base + 1) (first1.pos + part) 0 (n - part)
    pure (first1.base + 1, first2.base + 1)

/-- swap_ranges.hpp:112-190: several words, different alignment. -/
def swapMisaligned (S : ShiftSem w) (first1 last1 first2 : BitIter w) : M w (BitIter w) := do
  let (it1, it2) ← swapMisHead S first1 first2
  let first2 := first2.add ((w - first1.pos : Nat) : Int)
  let (it1, it2) ← swapLoop S last1.base first2.pos ((last1.base - it1).toNat + 1) it1 it2
  if last1.pos ≠ 0 then do
    let part := w - first2.pos
    if last1.pos ≤ part then do
      bitexch5 S it1 it2 0 first2.pos last1.pos
      let r ← BitIter.mk? it2 first2.pos
      pure (r.add last1.pos)
    else do
      bitexch5 S it1 it2 0 first2.pos part
      bitexch5 S it1 (it2 + 1) part 0 (last1.pos - part)
      BitIter.mk? (it2 + 1) (last1.pos - part)
  else BitIter.mk? it2 first2.pos

/-- swap_ranges.hpp:23-192, `bit::swap_ranges`. -/
def swapRanges (S : ShiftSem w) (first1 last1 first2 : BitIter w) : M w (BitIter w) := do
  assertViable first1 last1
  if first1.beq last1 then pure first2
  else if first1.base + (if last1.pos = 0 then 1 else 0) = last1.base then swapSingle S first1 last1 first2
  else if first1.pos = first2.pos then swapAligned S first1 last1 first2
  else swapMisaligned S first1 last1 first2

/-! ### rotate -/

/-- rotate.hpp:140-145: `full_swaps` forward block swaps. Returns `(p, q)`. -/
def rotFwdSwaps (S : ShiftSem w) (k : Int) : Nat → BitIter w → BitIter w → M w (BitIter w × BitIter w)
  | 0, p, q => pure (p, q)
  | s+1, p, q => do
    let _ ← swapRanges S p q q
    rotFwdSwaps S k s (p.add k) (q.add k)

/-- rotate.hpp:166-171: `full_swaps` backward block swaps. Returns `(p, q)`. -/
def rotBwdSwaps (S : ShiftSem w) (k : Int) : Nat → BitIter w → BitIter w → M w (BitIter w × BitIter w)
  | 0, p, q => pure (p, q)
  | s+1, p, q => do
    let p := p.sub k
    let q := q.sub k
    let _ ← swapRanges S p q q
    rotBwdSwaps S k s p q

/-- rotate.hpp:127-180: the `for(;;)` loop. `unsigned int full_swaps` keeps the quotient modulo `2^32`.
`n %= k` with `k = 0` would be undefined; the fuel outcome stands for it (it cannot occur). -/
def rotLoop (S : ShiftSem w) : Nat → BitIter w → Int → Int → M w Unit
  | 0, _, _, _ => ub .outOfFuel
  | fuel+1, p, k, n =>
    if k < n - k then
      if k ≤ w then do
        let x ← getWord S p k.toNat
        let t ← shiftLeft S p (p.add n) k
        writeWord S x t k.toNat
      else do
        let q := p.add k
        let fullSwaps : Int := (Int.tdiv (n - k) k) % 2 ^ 32
        let remainder : Int := (n - k) - fullSwaps * k
        let (p, q) ← rotFwdSwaps S k fullSwaps.toNat p q
        let _ ← swapRanges S p (p.add remainder) q
        let p := p.add remainder
        let n := Int.tmod n k
        if n = 0 then pure ()
        else rotLoop S fuel p (k - n) k
    else do
      let k := n - k
      if k ≤ w then do
        let x ← getWord S ((p.add n).sub k) k.toNat
        let _ ← shiftRight S p (p.add n) k
        writeWord S x p k.toNat
      else do
        let q := p.add n
        let p := q.sub k
        let fullSwaps : Int := (Int.tdiv (n - k) k) % 2 ^ 32
        let remainder : Int := (n - k) - fullSwaps * k
        let (p, q) ← rotBwdSwaps S k fullSwaps.toNat p q
        let p := p.sub remainder
        let q := q.sub remainder
        let _ ← swapRanges S p (p.add remainder) q
        let n := Int.tmod n k
        if n = 0 then pure ()
        else rotLoop S fuel p n k

/-- rotate.hpp:102-181, `_rotate_via_raw` for random access iterators. -/
def rotateViaRaw (S : ShiftSem w) (first nFirst last : BitIter w) : M w (BitIter w) := do
  let k := nFirst.diff first
  let n := last.diff first
  if k = n - k then do
    let _ ← swapRanges S first nFirst nFirst
    pure nFirst
  else do
    let ret := first.add (last.diff nFirst)
    rotLoop S (n.toNat + 1) first k n
    pure ret

/-- rotate.hpp:208-236: the whole range lies in one word.
`1ULL << d` is evaluated in 64 bits; here `d < w <= 64`, so it agrees with the shift at width `w`. -/
def rotateSingle (S : ShiftSem w) (first nFirst last : BitIter w) : M w (BitIter w) :=
  if first.pos = 0 ∧ last.pos = 0 then do
    let x ← load first.base
    let a ← lift (S.shr x nFirst.pos)
    let b ← lift (S.shl x (w - nFirst.pos))
    store first.base (a ||| b)
    pure (first.add ((w - nFirst.pos : Nat) : Int))
  else do
    let lastPos := if last.pos = 0 then w else last.pos
    let k := subSize nFirst.pos first.pos
    let p := subSize lastPos nFirst.pos
    let d := subSize lastPos first.pos
    let one ← lift (S.shl 1#w d)
    let mask ← lift (S.shl (one - 1#w) first.pos)
    let x ← load first.base
    let rotated := x &&& mask
    let a ← lift (S.shr rotated k)
    let b ← lift (S.shl rotated p)
    blendAt S first.base (a ||| b) first.pos d
    pure (first.add p)

/-- rotate.hpp:184-258, `bit::rotate`. -/
def rotate (S : ShiftSem w) (first nFirst last : BitIter w) : M w (BitIter w) := do
  assertViable first nFirst
  assertViable nFirst last
  assertViable first last
  if first.beq nFirst then pure last
  else if first.base + (if last.pos = 0 then 1 else 0) = last.base then rotateSingle S first nFirst last
  else if isWithin w first nFirst then do
    let k ← distance first nFirst
    let x ← getWord S first k.toNat
    let newLast ← shiftLeft S first last k
    writeWord S x newLast k.toNat
    pure newLast
  else if isWithin w nFirst last then do
    let p ← distance nFirst last
    let x ← getWord S nFirst p.toNat
    let newLast ← shiftRight S first last p
    writeWord S x first p.toNat
    pure newLast
  else rotateViaRaw S first nFirst last

end BitLib
