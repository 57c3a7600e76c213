import Verif.Model.Word
/-
Remaining word instructions of include/bitlib/bit-iterator/bit_details.hpp.

"Portable" is the overload without compiler intrinsics, "builtin" the overload that calls a compiler builtin. A builtin is
modelled by its documented meaning, including the inputs for which it is undefined.
Loops take fuel; running out of it is the outcome `outOfFuel`.
All shift counts below are smaller than the word width, except where `ShiftSem` is used.
-/
namespace BitLib
variable {w : Nat}

/-! ### `_popcnt` -/

/-- bit_details.hpp:417-419, the loop `for (dst = T(); src; src >>= 1) dst += src & 1;`. -/
def popcntLoop : Nat → BitVec w → BitVec w → Except UB (BitVec w)
  | 0, _, _ => .error .outOfFuel
  | fuel+1, src, dst =>
    if src = 0#w then .ok dst else popcntLoop fuel (src >>> 1) (dst + (src &&& 1#w))

/-- bit_details.hpp:412-421, portable `_popcnt`. -/
def popcntPort (src : BitVec w) : Except UB (BitVec w) := popcntLoop (w + 1) src 0#w

/-- bit_details.hpp:394-409, `_popcnt` with builtins. The argument is widened to `unsigned int` (32), `unsigned long`
or `unsigned long long` (64); wider words use the portable loop. `popcnt` is the meaning of `__builtin_popcount*`. -/
def popcntBuiltin (src : BitVec w) : Except UB (BitVec w) :=
  if w ≤ 32 then .ok (BitVec.ofNat w (popcnt (src.setWidth 32)))
  else if w ≤ 64 then .ok (BitVec.ofNat w (popcnt (src.setWidth 64)))
  else popcntPort src

/-! ### `_lzcnt` -/

/-- bit_details.hpp:468-470, the loop `while (src >>= 1) ++dst;`. -/
def lzcntLoop : Nat → BitVec w → BitVec w → Except UB (BitVec w)
  | 0, _, _ => .error .outOfFuel
  | fuel+1, src, dst =>
    if src >>> 1 = 0#w then .ok dst else lzcntLoop fuel (src >>> 1) (dst + 1#w)

/-- bit_details.hpp:462-472, portable `_lzcnt`. -/
def lzcntPort (src : BitVec w) : Except UB (BitVec w) := do
  let dst ← lzcntLoop (w + 1) src (boolWord (decide (src ≠ 0#w)))
  pure (BitVec.ofNat w w - dst)

/-- `__builtin_clz*`: number of zero bits above the highest set bit; undefined for 0. `clzAux x k` inspects bits `k-1 .. 0`. -/
def clzAux (src : BitVec w) : Nat → Nat
  | 0 => 0
  | k+1 => if src.getLsbD k then 0 else clzAux src k + 1

def builtinClz (src : BitVec w) : Except UB Nat :=
  if src = 0#w then .error .undefinedBuiltin else .ok (clzAux src w)

/-- bit_details.hpp:428-459, `_lzcnt` with builtins (`unsigned int` 32 bits, `unsigned long` 64 bits). -/
def lzcntBuiltin (src : BitVec w) : Except UB (BitVec w) :=
  if w < 32 then
    if src ≠ 0#w then do
      let c ← builtinClz (src.setWidth 32)
      pure (BitVec.ofNat w (c - (32 - w)))
    else .ok (BitVec.ofNat w w)
  else if w = 32 then
    if src ≠ 0#w then do
      let c ← builtinClz (src.setWidth 32)
      pure (BitVec.ofNat w c)
    else .ok (BitVec.ofNat w w)
  else if w < 64 then
    if src ≠ 0#w then do
      let c ← builtinClz (src.setWidth 64)
      pure (BitVec.ofNat w (c - (64 - w)))
    else .ok (BitVec.ofNat w w)
  else if w = 64 then
    if src ≠ 0#w then do
      let c ← builtinClz (src.setWidth 64)
      pure (BitVec.ofNat w c)
    else .ok (BitVec.ofNat w w)
  else lzcntPort src

/-! ### `_tzcnt` -/

/-- bit_details.hpp:506-508, the loop `for (dst = T(); src; dst++) src >>= 1;`. -/
def tzcntLoop : Nat → BitVec w → BitVec w → Except UB (BitVec w)
  | 0, _, _ => .error .outOfFuel
  | fuel+1, src, dst => if src = 0#w then .ok dst else tzcntLoop fuel (src >>> 1) (dst + 1#w)

/-- bit_details.hpp:498-512, portable `_tzcnt`. -/
def tzcntPort (src : BitVec w) : Except UB (BitVec w) :=
  if src ≠ 0#w then tzcntLoop (w + 1) ((src ^^^ (src - 1#w)) >>> 1) 0#w
  else .ok (BitVec.ofNat w w)

/-- `__builtin_ctz*`: index of the lowest set bit; undefined for 0. -/
def builtinCtz (src : BitVec w) : Except UB Nat :=
  if src = 0#w then .error .undefinedBuiltin else .ok (tzcntAux src w 0)

/-- bit_details.hpp:479-495, `_tzcnt` with builtins. -/
def tzcntBuiltin (src : BitVec w) : Except UB (BitVec w) :=
  if w ≤ 32 then
    if src ≠ 0#w then do
      let c ← builtinCtz (src.setWidth 32)
      pure (BitVec.ofNat w c)
    else .ok (BitVec.ofNat w w)
  else if w ≤ 64 then
    if src ≠ 0#w then do
      let c ← builtinCtz (src.setWidth 64)
      pure (BitVec.ofNat w c)
    else .ok (BitVec.ofNat w w)
  else tzcntPort src

/-! ### `_pdep`, `_pext` -/

/-- bit_details.hpp:574-582, the loop of `_pdep`. Returns `(dst, cnt)`. -/
def pdepLoop : Nat → BitVec w → BitVec w → BitVec w → BitVec w → Except UB (BitVec w × BitVec w)
  | 0, _, _, _, _ => .error .outOfFuel
  | fuel+1, src, msk, dst, cnt =>
    if msk = 0#w then .ok (dst, cnt)
    else
      let dst := dst >>> 1
      if msk &&& 1#w ≠ 0#w then
        pdepLoop fuel (src >>> 1) (msk >>> 1) (dst ||| (src <<< (w - 1))) (cnt + 1#w)
      else pdepLoop fuel src (msk >>> 1) dst (cnt + 1#w)

/-- bit_details.hpp:567-585, portable `_pdep`; `dst >>= (digits - cnt) * (cnt > 0)`. -/
def pdep (src msk : BitVec w) : Except UB (BitVec w) := do
  let (dst, cnt) ← pdepLoop (w + 1) src msk 0#w 0#w
  pure (dst >>> ((w - cnt.toNat) * (if cnt.toNat > 0 then 1 else 0)))

/-- bit_details.hpp:616-624, the loop of `_pext`. Returns `(dst, cnt)`. -/
def pextLoop : Nat → BitVec w → BitVec w → BitVec w → BitVec w → Except UB (BitVec w × BitVec w)
  | 0, _, _, _, _ => .error .outOfFuel
  | fuel+1, src, msk, dst, cnt =>
    if msk = 0#w then .ok (dst, cnt)
    else if msk &&& 1#w ≠ 0#w then
      pextLoop fuel (src >>> 1) (msk >>> 1) ((dst >>> 1) ||| (src <<< (w - 1))) (cnt + 1#w)
    else pextLoop fuel (src >>> 1) (msk >>> 1) dst cnt

/-- bit_details.hpp:609-627, portable `_pext`. -/
def pext (src msk : BitVec w) : Except UB (BitVec w) := do
  let (dst, cnt) ← pextLoop (w + 1) src msk 0#w 0#w
  pure (dst >>> ((w - cnt.toNat) * (if cnt.toNat > 0 then 1 else 0)))

/-! ### `_byteswap` -/

/-- `bytes[i]` of an object of `w` bits seen as an array of bytes. The code reverses the array, so the byte order of the machine
does not matter; the model numbers the bytes from the least significant one. -/
def getByte (x : BitVec w) (i : Nat) : BitVec 8 := (x >>> (8 * i)).setWidth 8

/-- `bytes[i] = b`. -/
def setByte (x : BitVec w) (i : Nat) (b : BitVec 8) : BitVec w :=
  (x &&& ~~~((BitVec.setWidth w 0xff#8) <<< (8 * i))) ||| (b.setWidth w <<< (8 * i))

/-- bit_details.hpp:669-673, `for (i = 0; i < half; ++i)`; `k` iterations are left, `end` is `sizeof(T) - 1`. -/
def byteswapLoop (end_ : Nat) : Nat → Nat → BitVec w → BitVec w
  | 0, _, src => src
  | k+1, i, src =>
    let byte := getByte src i
    let src := setByte src i (getByte src (end_ - i))
    byteswapLoop end_ k (i + 1) (setByte src (end_ - i) byte)

/-- bit_details.hpp:660-675, portable `_byteswap`; `sizeof(T)` is `w / 8`. -/
def byteswap (src : BitVec w) : BitVec w := byteswapLoop (w / 8 - 1) (w / 8 / 2) 0 src

/-- bit_details.hpp:642-646, `_byteswap` of a 128-bit word: the two halves are byte swapped (`__builtin_bswap64`) and exchanged. -/
def byteswap128 (src : BitVec 128) : BitVec 128 :=
  let lo : BitVec 64 := src.setWidth 64
  let hi : BitVec 64 := (src >>> 64).setWidth 64
  ((byteswap lo).setWidth 128 <<< 64) ||| (byteswap hi).setWidth 128

/-! ### `_bitcmp` -/

/-- bit_details.hpp:843-849, `_bitcmp`. The comment in the source says "returns 0 if equal". -/
def bitcmp (S : ShiftSem w) (src0 src1 : BitVec w) (start0 start1 len : Nat) : Except UB (BitVec w) := do
  let a ← bextr S src0 start0 len
  let b ← bextr S src1 start1 len
  pure (boolWord (decide (a = b)))

/-! ### `_addcarry`, `_subborrow` -/

/-- bit_details.hpp:919-925, portable `_addcarry`. Returns `(*dst, carry out)`. -/
def addcarry (carry : Bool) (src0 src1 : BitVec w) : BitVec w × Bool :=
  let dst := src0 + src1 + boolWord carry
  (dst, if carry then decide (dst ≤ src0) || decide (dst ≤ src1) else decide (dst < src0) || decide (dst < src1))

/-- bit_details.hpp:987-993, portable `_subborrow`. Returns `(*dst, borrow out)`. -/
def subborrow (borrow : Bool) (src0 src1 : BitVec w) : BitVec w × Bool :=
  (src0 - (src1 + boolWord borrow), if borrow then decide (src1 ≥ src0) else decide (src1 > src0))

/-- bit_details.hpp:907-911, the branch of `_addcarry` that computes in a wider type. -/
def addcarryWide (ww : Nat) (carry : Bool) (src0 src1 : BitVec w) : BitVec w × Bool :=
  let tmp : BitVec ww := src0.setWidth ww + src1.setWidth ww
  let tmp : BitVec ww := tmp + boolWord carry
  (tmp.setWidth w, decide (tmp >>> w ≠ 0#ww))

/-- bit_details.hpp:947-951, the branch of `_subborrow` that computes in a wider type. -/
def subborrowWide (ww : Nat) (borrow : Bool) (src0 src1 : BitVec w) : BitVec w × Bool :=
  let tmp : BitVec ww := src1.setWidth ww
  let tmp : BitVec ww := tmp + boolWord borrow
  ((src0.setWidth ww - tmp).setWidth w, decide (tmp > src0.setWidth ww))

/-! ### `_mulx` -/

/-- bit_details.hpp:1024-1045, portable `_mulx`. Returns `(lo, *hi)`. -/
def mulx (src0 src1 : BitVec w) : BitVec w × BitVec w :=
  let offset := w / 2
  let ones := BitVec.allOnes w
  let lsbs0 := src0 &&& (ones >>> (w - offset))
  let msbs0 := src0 >>> offset
  let lsbs1 := src1 &&& (ones >>> (w - offset))
  let msbs1 := src1 >>> offset
  let llsbs := lsbs0 * lsbs1
  let mlsbs := msbs0 * lsbs1
  let lmsbs := lsbs0 * msbs1
  let mi := mlsbs + lmsbs
  let lo := llsbs + (mi <<< offset)
  let lcarry : BitVec w := boolWord (decide (lo < llsbs) || decide (lo < mi <<< offset))
  let mcarry : BitVec w := boolWord (decide (mi < mlsbs) || decide (mi < lmsbs)) <<< offset
  let hi := (mi >>> offset) + msbs0 * msbs1 + mcarry + lcarry
  (lo, hi)

/-- bit_details.hpp:1009-1012 and 1013-1016, the branches of `_mulx` that compute in a type of twice the width. -/
def mulxWide (ww : Nat) (src0 src1 : BitVec w) : BitVec w × BitVec w :=
  let tmp : BitVec ww := src0.setWidth ww * src1.setWidth ww
  (tmp.setWidth w, (tmp >>> w).setWidth w)

/-! ### `_narrower_type`, `_wider_type`: selection of a type by its number of bits -/

/-- Number of bits of the types of the tuple in `_narrower_type` (LP64). -/
def narrowerTuple : List Nat := [64, 64, 32, 16, 8]

/-- Number of bits of the types of the tuple in `_wider_type` (LP64). -/
def widerTuple : List Nat := [8, 16, 32, 64, 64]

/-- bit_details.hpp:183-215, `_narrower_type<T, I>`: the number of bits of the type selected, from the rest of the tuple starting at `I`. -/
def narrowerFrom (w : Nat) : List Nat → Nat
  | [] => w
  | [b] => b
  | b :: b' :: rest => if w > b then b else narrowerFrom w (b' :: rest)

/-- bit_details.hpp:221-253, `_wider_type<T, 0>`. If the first element is not wider, the definition continues with
`_narrower_type<T, 1>`. -/
def widerType (w : Nat) : Nat :=
  match widerTuple with
  | [] => w
  | b :: _ => if w < b then b else narrowerFrom w (narrowerTuple.drop 1)

end BitLib
