import Verif.Model.Iter
import Verif.Model.Word
import Verif.Model.Std
/-
`get_word`, `write_word`, `word_shift_left`, `word_shift_right` of
include/bitlib/bit-algorithms/bit_algorithm_details.hpp.
-/
namespace BitLib
variable {w : Nat}

/-- The statement `*it = _bitblend<word_type>(*it, src, start, len)` that occurs throughout the library. -/
def blendAt (S : ShiftSem w) (it : Int) (src : BitVec w) (start len : Nat) : M w Unit := do
  let x ← load it
  let r ← lift (bitblend4 S x src start len)
  store it r

/-- The statement `*it = _bitblend(*it, src, static_cast<word_type>((static_cast<word_type>(1) << n) - 1))`
(copy.hpp:87-93 and the same lines of move.hpp and transform.hpp). -/
def blendLowAt (S : ShiftSem w) (it : Int) (src : BitVec w) (n : Nat) : M w Unit := do
  let x ← load it
  let msk ← lift (lowMask S n)
  store it (bitblend3 x src msk)

/-- bit_algorithm_details.hpp:104-142, `get_word<T>(first, len)` for `T` = the native word type (the only instantiation
in the library). The inner `while (len > digits)` loop cannot be entered: `len <= digits` is asserted and `offset >= 1`. -/
def getWord (S : ShiftSem w) (first : BitIter w) (len : Nat) : M w (BitVec w) := do
  assertM (w ≥ len)
  let offset := w - first.pos
  let x ← load first.base
  let ret ← lift (S.shr x first.pos)
  if len ≤ offset then pure ret
  else do
    let y ← load (first.base + 1)
    let t ← lift (S.shl y offset)
    lift (bitblend4 S ret t offset (len - offset))

/-- bit_algorithm_details.hpp:209-243, `write_word(src, dst_bit_it, len)`, the branch for equal word types. -/
def writeWord (S : ShiftSem w) (src : BitVec w) (dst : BitIter w) (len : Nat) : M w Unit := do
  if dst.pos = 0 ∧ len = w then store dst.base src
  else do
    let t ← lift (S.shl src dst.pos)
    blendAt S dst.base t dst.pos (min (w - dst.pos) len)
    if len > w - dst.pos then do
      let t ← lift (S.shr src (w - dst.pos))
      blendAt S (dst.base + 1) t 0 (len - (w - dst.pos))
    else pure ()

/-- bit_algorithm_details.hpp:277-291, `word_shift_left` (the C++17 stand-in for `std::shift_left`). -/
def wordShiftLeft (first last n : Int) : M w Int :=
  if n ≤ 0 then pure last
  else if n ≥ last - first then pure first
  else stdCopy (first + n) last first

/-- bit_algorithm_details.hpp:294-307, `word_shift_right`. -/
def wordShiftRight (first last n : Int) : M w Int :=
  if n ≤ 0 then pure first
  else if n ≥ last - first then pure last
  else do
    let _ ← stdCopyBackward first (last - n) last
    pure (first + n)

end BitLib
