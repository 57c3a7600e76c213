import Verif.Model.Shift
import Verif.Model.Copy
/-
Helper templates of the library that its own algorithms do not instantiate in this form:
`_padded_read`, `get_word`/`write_word` between different word types (bit_algorithm_details.hpp), and
`_rotate_via_copy_begin`/`_rotate_via_copy_end` (rotate.hpp).
-/
namespace BitLib
variable {w : Nat}

/-- bit_algorithm_details.hpp:310-312, `_all_ones()` (`int` -1) converted to the word type as in `_padded_read`. -/
def allOnesWord : BitVec w := BitVec.ofInt w (-1)

/-- bit_algorithm_details.hpp:367-416, `_padded_read(first, last, bv)`; `bv` is `true` for `bit1`. -/
def paddedRead (S : ShiftSem w) (first last : BitIter w) (bv : Bool) : M w (BitVec w) := do
  let read ← load first.base
  if first.pos = 0 then
    if first.base = last.base then
      if bv = false then do
        let mask ← lift (S.shr allOnesWord (w - last.pos))
        pure (read &&& mask)
      else do
        let mask ← lift (S.shl allOnesWord last.pos)
        pure (read ||| mask)
    else pure read
  else
    if first.base ≠ last.base then
      if bv = false then do
        let mask ← lift (S.shl allOnesWord first.pos)
        pure (read &&& mask)
      else do
        let mask ← lift (S.shr allOnesWord (w - first.pos))
        pure (read ||| mask)
    else
      if bv = false then do
        let mask ← lift (S.shl allOnesWord first.pos)
        let mask2 ← lift (S.shr allOnesWord (w - last.pos))
        pure (read &&& (mask &&& mask2))
      else do
        let mask ← lift (S.shr allOnesWord (w - first.pos))
        let mask2 ← lift (S.shl allOnesWord last.pos)
        pure (read ||| (mask ||| mask2))

/-- bit_algorithm_details.hpp:104-142, `get_word<T>(first, len)` for a return type `T` of `t` bits that may differ from the
native word type of `w` bits. `*first.base() >> position` is evaluated in the (promoted) native type and converted to `T`,
the other operations are in `T`. The loop `while (len > digits)` cannot be entered: `len <= digits` is asserted and
at least one bit has been taken from the first word. -/
def getWordT {t : Nat} (Sw : ShiftSem w) (St : ShiftSem t) (first : BitIter w) (len : Nat) : M w (BitVec t) := do
  assertM (w ≥ len)
  let offset := w - first.pos
  let x ← load first.base
  let y ← lift (Sw.shr x first.pos)
  if len ≤ offset then pure (y.setWidth t)
  else do
    let z ← load (first.base + 1)
    let u ← lift (St.shl (z.setWidth t) offset)
    lift (bitblend4 St (y.setWidth t) u offset (len - offset))

/-- bit_algorithm_details.hpp:218-243, `write_word(src, dst, len)` for a source type of `s` bits, not wider than the destination's
`w` bits. `_bitblend<src_type>` takes the destination word as a `src_type`, so it is truncated to `s` bits, and its result is
converted back to `w` bits. (The branch for a narrower destination does not compile: `_bitblend` deduces two different types.) -/
def writeWordT {s : Nat} (Ss : ShiftSem s) (src : BitVec s) (dst : BitIter w) (len : Nat) : M w Unit := do
  if dst.pos = 0 ∧ len = w then store dst.base (src.setWidth w)
  else do
    let u ← lift (Ss.shl src dst.pos)
    let x ← load dst.base
    let r ← lift (bitblend4 Ss (x.setWidth s) u dst.pos (min (w - dst.pos) len))
    store dst.base (r.setWidth w)
    if len > w - dst.pos then do
      let u ← lift (Ss.shr src (w - dst.pos))
      let x ← load (dst.base + 1)
      let r ← lift (bitblend4 Ss (x.setWidth s) u 0 (len - (w - dst.pos)))
      store (dst.base + 1) (r.setWidth w)
    else pure ()

/-- Conversion to `short int` (16 bits, two's complement). -/
def toShort (x : Int) : Int := (x + 2 ^ 15) % 2 ^ 16 - 2 ^ 15

/-- rotate.hpp:45-48 and 83-86: `while (bits_left_to_copy > 0) { copy_arr[pos++] = *it++; bits_left_to_copy -= digits; }`.
`dst` is the address of `copy_arr[pos]`. `pos` is an `unsigned short` that would wrap after 65535 words: `bits_left_to_copy`
is a `short`, so there are at most 32767 iterations. -/
def bufLoop (w : Nat) : Nat → Int → Int → Int → M w Unit
  | 0, _, _, _ => ub .outOfFuel
  | fuel+1, bits, it, dst =>
    if bits > 0 then do
      let x ← load it
      store dst x
      bufLoop w fuel (toShort (bits - w)) (it + 1) (dst + 1)
    else pure ()

/-- rotate.hpp:27-62, `_rotate_via_copy_begin<ForwardIt, B>`. `buf` is the address of the array `copy_arr` of `B` words; its words
belong to the memory of the run, all other words of the stack do not. `BufferSize*digits` is computed in `size_t` and does not
wrap. `++first.base()` increments a temporary and leaves `first` as it is. -/
def rotateViaCopyBegin (S : ShiftSem w) (B : Nat) (buf : Int) (first nFirst last : BitIter w) : M w (BitIter w) := do
  let k ← distance first nFirst
  assertM (k ≤ B * w)
  let x ← load first.base
  store buf x
  bufLoop w (2 ^ 15 + 1) (toShort (k - ((w : Int) - first.pos))) (first.base + 1) (buf + 1)
  let ret ← shiftLeft S first last k
  let _ ← copy S ⟨buf, first.pos⟩ (BitIter.add ⟨buf, first.pos⟩ k) ret
  pure ret

/-- rotate.hpp:65-98, `_rotate_via_copy_end<ForwardIt, B>`. -/
def rotateViaCopyEnd (S : ShiftSem w) (B : Nat) (buf : Int) (first nFirst last : BitIter w) : M w (BitIter w) := do
  let k ← distance nFirst last
  assertM (k ≤ B * w)
  let x ← load nFirst.base
  store buf x
  bufLoop w (2 ^ 15 + 1) (toShort (k - ((w : Int) - nFirst.pos))) (nFirst.base + 1) (buf + 1)
  let ret ← shiftRight S first last k
  let _ ← copy S ⟨buf, nFirst.pos⟩ (BitIter.add ⟨buf, nFirst.pos⟩ k) first
  pure ret

end BitLib
