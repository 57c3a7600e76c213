import Verif.Model.Basic
/-
Word level primitives of include/bitlib/bit-iterator/bit_details.hpp used by the algorithms.

All values have the word's own width. For 8 and 16 bit words C++ evaluates these expressions in 32-bit `int` and truncates
on assignment; truncation commutes with `<<`, `*`, `-`, `^`, `&`, `|` and the right shifts are applied to
non-negative values (`Verif/Props/Promotion.lean` proves the agreement). The promoted width matters only
for the definedness of a shift, which `ShiftSem` tracks.
-/
namespace BitLib
variable {w : Nat}

/-- C++ `bool` used as an arithmetic factor. -/
def boolWord (b : Bool) : BitVec w := if b then 1#w else 0#w

/-- bit_details.hpp:744-750, `_bitblend(src0, src1, msk)`. -/
def bitblend3 (src0 src1 msk : BitVec w) : BitVec w := src0 ^^^ ((src0 ^^^ src1) &&& msk)

/-- bit_details.hpp:752-761, `_bitblend(src0, src1, start, len)`. -/
def bitblend4 (S : ShiftSem w) (src0 src1 : BitVec w) (start len : Nat) : Except UB (BitVec w) := do
  let a ← S.shl 1#w len
  let msk ← S.shl (a * boolWord (decide (len < w)) - 1#w) start
  pure (src0 ^^^ ((src0 ^^^ src1) &&& (msk * boolWord (decide (start < w)))))

/-- bit_details.hpp:534-543, `_bextr(src, start, len)` without intrinsics. The overload with intrinsics
calls a two-argument builtin with three arguments and is removed by SFINAE. -/
def bextr (S : ShiftSem w) (src : BitVec w) (start len : Nat) : Except UB (BitVec w) := do
  let a ← S.shl 1#w len
  let msk := a * boolWord (decide (len < w)) - 1#w
  let b ← S.shr src start
  pure (b &&& (msk * boolWord (decide (start < w))))

/-- bit_details.hpp:872-885, `_shrd`. The type of `cnt < digits + digits` is `int` for narrow words; `cnt` is a word. -/
def shrd (S : ShiftSem w) (dst src : BitVec w) (cnt : Nat) : Except UB (BitVec w) :=
  if cnt < w then do
    let a ← S.shr dst cnt
    let b ← S.shl src (w - cnt)
    pure (a ||| b)
  else do
    let a ← S.shr src (cnt - w)
    pure (a * boolWord (decide (cnt < w + w)))

/-- bit_details.hpp:854-867, `_shld`. -/
def shld (S : ShiftSem w) (dst src : BitVec w) (cnt : Nat) : Except UB (BitVec w) :=
  if cnt < w then do
    let a ← S.shl dst cnt
    let b ← S.shr src (w - cnt)
    pure (a ||| b)
  else do
    let a ← S.shl src (cnt - w)
    pure (a * boolWord (decide (cnt < w + w)))

/-- `static_cast<word_type>((static_cast<word_type>(1) << n) - 1)`, the mask expression of copy.hpp:90-92 and others. -/
def lowMask (S : ShiftSem w) (n : Nat) : Except UB (BitVec w) := do
  let a ← S.shl 1#w n
  pure (a - 1#w)

/-- `_tzcnt` as used by `find`: with the compiler builtin, `src ? ctz(src) : digits` (bit_details.hpp:477-495).
`ctz` is the index of the lowest set bit; the search is bounded by the width. -/
def tzcntAux (src : BitVec w) : Nat → Nat → Nat
  | 0, i => i
  | k+1, i => if src.getLsbD i then i else tzcntAux src k (i + 1)

/-- bit_details.hpp:477-495, `_tzcnt`. -/
def tzcnt (src : BitVec w) : Nat := tzcntAux src w 0

/-- `__builtin_popcount*` (bit_details.hpp:392-409, `_popcnt`): number of set bits among the lowest `k`. -/
def popcntBits (src : BitVec w) : Nat → Nat
  | 0 => 0
  | k+1 => popcntBits src k + (if src.getLsbD k then 1 else 0)

/-- bit_details.hpp:392-409, `_popcnt` with the compiler builtin. -/
def popcnt (src : BitVec w) : Nat := popcntBits src w

/-! ### `_bitexch`: both operands are references to words in memory -/

/-- The mask of the `_bitexch` overloads: `(len < digits) ? ((one << len) - one) : -1`. -/
def exchMask (S : ShiftSem w) (len : Nat) : Except UB (BitVec w) :=
  if len < w then do
    let a ← S.shl 1#w len
    pure (a - 1#w)
  else pure (BitVec.allOnes w)

/-- bit_details.hpp:768-775, `_bitexch(T& src0, T& src1, T msk)`. -/
def bitexch3 (a0 a1 : Int) (msk : BitVec w) : M w Unit := do
  let x ← load a0
  let y ← load a1
  store a0 (x ^^^ (y &&& msk))
  let y ← load a1
  let x ← load a0
  store a1 (y ^^^ (x &&& msk))
  let x ← load a0
  let y ← load a1
  store a0 (x ^^^ (y &&& msk))

/-- bit_details.hpp:777-790, `_bitexch(T& src0, T& src1, S start, S len)`. -/
def bitexch4 (S : ShiftSem w) (a0 a1 : Int) (start len : Nat) : M w Unit := do
  let msk ← lift (if len < w then do
      let a ← S.shl 1#w len
      S.shl (a - 1#w) start
    else pure (BitVec.allOnes w))
  bitexch3 a0 a1 msk

/-- One assignment of the five-argument `_bitexch`: `dst = dst ^ (T(src << n) & T(msk << start))`. -/
def exchStepL (S : ShiftSem w) (dst src : Int) (n : Nat) (msk : BitVec w) (start : Nat) : M w Unit := do
  let x ← load dst
  let y ← load src
  let t ← lift (S.shl y n)
  let k ← lift (S.shl msk start)
  store dst (x ^^^ (t &&& k))

/-- One assignment of the five-argument `_bitexch`: `dst = dst ^ (T(src >> n) & T(msk << start))`. -/
def exchStepR (S : ShiftSem w) (dst src : Int) (n : Nat) (msk : BitVec w) (start : Nat) : M w Unit := do
  let x ← load dst
  let y ← load src
  let t ← lift (S.shr y n)
  let k ← lift (S.shl msk start)
  store dst (x ^^^ (t &&& k))

/-- bit_details.hpp:792-837, `_bitexch(T& src0, T& src1, S start0, S start1, S len)`. -/
def bitexch5 (S : ShiftSem w) (a0 a1 : Int) (start0 start1 len : Nat) : M w Unit := do
  let msk ← lift (exchMask S len)
  if start0 ≥ start1 then do
    exchStepL S a0 a1 (start0 - start1) msk start0
    exchStepR S a1 a0 (start0 - start1) msk start1
    exchStepL S a0 a1 (start0 - start1) msk start0
  else do
    exchStepR S a0 a1 (start1 - start0) msk start0
    exchStepL S a1 a0 (start1 - start0) msk start1
    exchStepR S a0 a1 (start1 - start0) msk start0

/-! ### `_bitswap` -/

/-- bit_details.hpp:725-738, mask of the recursive `_bitswap`: starting from `cnt = digits`, `msk = ~0`, halve `cnt` and do
`msk ^= msk << cnt` until `cnt == N`. The list is the sequence of values of `cnt`. -/
def bitswapMaskAux (N : Nat) : Nat → Nat → BitVec w → BitVec w
  | 0, _, msk => msk
  | fuel+1, cnt, msk =>
    if cnt = N then msk
    else bitswapMaskAux N fuel (cnt / 2) (msk ^^^ (msk <<< (cnt / 2)))

/-- bit_details.hpp:725-738. `w` steps of fuel are more than `log2 w`. -/
def bitswapMask (N : Nat) : BitVec w := bitswapMaskAux N w w (BitVec.allOnes w)

/-- bit_details.hpp:714-723, recursive `_bitswap<T, N>(src)`. -/
def bitswapRec : Nat → Nat → BitVec w → BitVec w
  | 0, _, src => src
  | fuel+1, N, src =>
    let cnt := N / 2
    let msk : BitVec w := bitswapMask cnt
    let src := ((src >>> cnt) &&& msk) ||| ((src <<< cnt) &&& ~~~msk)
    if cnt > 1 then bitswapRec fuel cnt src else src

/-- bit_details.hpp:699-700, the multiplication trick for bytes, evaluated in `unsigned long long`. -/
def bitswapByte (src : BitVec 8) : BitVec 8 :=
  let s : BitVec 64 := src.setWidth 64
  (((((s * 0x80200802#64) &&& 0x0884422110#64) * 0x0101010101#64) >>> 32)).setWidth 8

/-- bit_details.hpp:703-709, the loop for widths that are not powers of two. -/
def bitswapLoop : Nat → BitVec w → BitVec w → Nat → BitVec w
  | 0, _, dst, i => dst <<< i
  | fuel+1, src, dst, i =>
    if src = 0#w then dst <<< i
    else bitswapLoop fuel (src >>> 1) ((dst <<< 1) ||| (src &&& 1#w)) (i - 1)

/-- bit_details.hpp:681-712, `_bitswap(src)`. -/
def bitswap (src : BitVec w) : BitVec w :=
  if h : w = 8 then
    (bitswapByte (src.cast h)).cast h.symm
  else if 2 ^ Nat.log2 w = w then bitswapRec w w src
  else bitswapLoop w (src >>> 1) src (w - 1)

end BitLib
