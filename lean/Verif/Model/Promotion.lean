import Verif.Model.Word
/-
The word primitives of include/bitlib/bit-iterator/bit_details.hpp as C++ evaluates them for 8- and 16-bit words: both
operands of an arithmetic operator are first converted to 32-bit `int`, the result is an `int`, and only the assignment
to (or `return` as) the word type truncates.

An `int` is a 32-bit vector read in two's complement. Signed overflow and undefined shifts are outcomes.
-/
namespace BitLib
variable {w : Nat}

/-- The two rules for `<<` on `int`. The project is built as C++17 (CMakeLists.txt:13). -/
inductive Dialect where
  /-- C++14/17: a negative left operand is undefined, and so is a value that does not fit `unsigned int`; a value that fits
  `unsigned int` only is converted (implementation-defined; every supported compiler wraps). -/
  | cxx17
  /-- C++20 (and what GCC and Clang document for all versions): the bits are shifted, whatever the sign. -/
  | cxx20
  deriving DecidableEq, Repr

/-- Range of a 32-bit `int`. -/
def FitsS32 (x : Int) : Prop := -2 ^ 31 ≤ x ∧ x < 2 ^ 31

instance (x : Int) : Decidable (FitsS32 x) := by unfold FitsS32; infer_instance

/-- Integral promotion of an unsigned narrow word. -/
def promote (x : BitVec w) : BitVec 32 := x.setWidth 32

/-- Conversion of an `int` to the word type. -/
def narrow (w : Nat) (x : BitVec 32) : BitVec w := x.setWidth w

/-- A `bool` operand promoted to `int`. -/
def promoteBool (b : Bool) : BitVec 32 := if b then 1#32 else 0#32

/-- `a - b` on `int`. -/
def isub (a b : BitVec 32) : Except UB (BitVec 32) :=
  if FitsS32 (a.toInt - b.toInt) then .ok (a - b) else .error .signedOverflow

/-- `a * b` on `int`. -/
def imul (a b : BitVec 32) : Except UB (BitVec 32) :=
  if FitsS32 (a.toInt * b.toInt) then .ok (a * b) else .error .signedOverflow

/-- `a << n` on `int`. -/
def ishl (d : Dialect) (a : BitVec 32) (n : Nat) : Except UB (BitVec 32) :=
  if 32 ≤ n then .error .overshift
  else match d with
    | .cxx20 => .ok (a <<< n)
    | .cxx17 => if 0 ≤ a.toInt ∧ a.toInt * 2 ^ n < 2 ^ 32 then .ok (a <<< n) else .error .signedOverflow

/-- `a >> n` on `int` (arithmetic for a negative operand, as all compilers do; here the operand is never negative). -/
def ishr (a : BitVec 32) (n : Nat) : Except UB (BitVec 32) :=
  if 32 ≤ n then .error .overshift else .ok (a.sshiftRight n)

/-- bit_details.hpp:744-750, `_bitblend(src0, src1, msk)`. -/
def bitblend3P (src0 src1 msk : BitVec w) : BitVec w :=
  narrow w (promote src0 ^^^ ((promote src0 ^^^ promote src1) &&& promote msk))

/-- bit_details.hpp:752-761, `_bitblend(src0, src1, start, len)`. -/
def bitblend4P (d : Dialect) (src0 src1 : BitVec w) (start len : Nat) : Except UB (BitVec w) := do
  let one : BitVec w := 1#w
  let a ← ishl d (promote one) len
  let b ← imul a (promoteBool (decide (len < w)))
  let c ← isub b (promote one)
  let e ← ishl d c start
  let msk : BitVec w := narrow w e
  let k ← imul (promote msk) (promoteBool (decide (start < w)))
  pure (narrow w (promote src0 ^^^ ((promote src0 ^^^ promote src1) &&& k)))

/-- bit_details.hpp:534-543, `_bextr(src, start, len)`. -/
def bextrP (d : Dialect) (src : BitVec w) (start len : Nat) : Except UB (BitVec w) := do
  let one : BitVec w := 1#w
  let a ← ishl d (promote one) len
  let b ← imul a (promoteBool (decide (len < w)))
  let c ← isub b (promote one)
  let msk : BitVec w := narrow w c
  let s ← ishr (promote src) start
  let k ← imul (promote msk) (promoteBool (decide (start < w)))
  pure (narrow w (s &&& k))

/-- bit_details.hpp:872-885, `_shrd`. -/
def shrdP (d : Dialect) (dst src : BitVec w) (cnt : Nat) : Except UB (BitVec w) :=
  if cnt < w then do
    let a ← ishr (promote dst) cnt
    let b ← ishl d (promote src) (w - cnt)
    pure (narrow w (a ||| b))
  else do
    let a ← ishr (promote src) (cnt - w)
    let b ← imul a (promoteBool (decide (cnt < w + w)))
    pure (narrow w b)

/-- bit_details.hpp:854-867, `_shld`. -/
def shldP (d : Dialect) (dst src : BitVec w) (cnt : Nat) : Except UB (BitVec w) :=
  if cnt < w then do
    let a ← ishl d (promote dst) cnt
    let b ← ishr (promote src) (w - cnt)
    pure (narrow w (a ||| b))
  else do
    let a ← ishl d (promote src) (cnt - w)
    let b ← imul a (promoteBool (decide (cnt < w + w)))
    pure (narrow w b)

/-- `-1` converted to the word type, the value of the mask in the `_bitexch` overloads for `len >= digits`. -/
def minusOneP (w : Nat) : BitVec w := narrow w (BitVec.ofInt 32 (-1))

/-- bit_details.hpp:768-775, `_bitexch(T& src0, T& src1, T msk)`. -/
def bitexch3P (a0 a1 : Int) (msk : BitVec w) : M w Unit := do
  let x ← load a0
  let y ← load a1
  store a0 (narrow w (promote x ^^^ promote (narrow w (promote y &&& promote msk))))
  let y ← load a1
  let x ← load a0
  store a1 (narrow w (promote y ^^^ promote (narrow w (promote x &&& promote msk))))
  let x ← load a0
  let y ← load a1
  store a0 (narrow w (promote x ^^^ promote (narrow w (promote y &&& promote msk))))

/-- bit_details.hpp:777-790, `_bitexch(T& src0, T& src1, S start, S len)`. -/
def bitexch4P (d : Dialect) (a0 a1 : Int) (start len : Nat) : M w Unit := do
  let msk ← lift (if len < w then do
      let one : BitVec w := 1#w
      let a ← ishl d (promote one) len
      let b ← isub a (promote one)
      let c ← ishl d b start
      pure (narrow w c)
    else pure (minusOneP w))
  bitexch3P a0 a1 msk

/-- The mask of bit_details.hpp:801-802. -/
def exchMaskP (d : Dialect) (len : Nat) : Except UB (BitVec w) :=
  if len < w then do
    let one : BitVec w := 1#w
    let a ← ishl d (promote one) len
    let b ← isub a (promote one)
    pure (narrow w b)
  else pure (minusOneP w)

/-- `dst = dst ^ (static_cast<T>(src << n) & static_cast<T>(msk << start))`. -/
def exchStepLP (d : Dialect) (dst src : Int) (n : Nat) (msk : BitVec w) (start : Nat) : M w Unit := do
  let x ← load dst
  let y ← load src
  let t ← lift (ishl d (promote y) n)
  let k ← lift (ishl d (promote msk) start)
  store dst (narrow w (promote x ^^^ (promote (narrow w t) &&& promote (narrow w k))))

/-- `dst = dst ^ (static_cast<T>(src >> n) & static_cast<T>(msk << start))`. -/
def exchStepRP (d : Dialect) (dst src : Int) (n : Nat) (msk : BitVec w) (start : Nat) : M w Unit := do
  let x ← load dst
  let y ← load src
  let t ← lift (ishr (promote y) n)
  let k ← lift (ishl d (promote msk) start)
  store dst (narrow w (promote x ^^^ (promote (narrow w t) &&& promote (narrow w k))))

/-- bit_details.hpp:792-837, `_bitexch(T& src0, T& src1, S start0, S start1, S len)`. -/
def bitexch5P (d : Dialect) (a0 a1 : Int) (start0 start1 len : Nat) : M w Unit := do
  let msk ← lift (exchMaskP d len)
  if start0 ≥ start1 then do
    exchStepLP d a0 a1 (start0 - start1) msk start0
    exchStepRP d a1 a0 (start0 - start1) msk start1
    exchStepLP d a0 a1 (start0 - start1) msk start0
  else do
    exchStepRP d a0 a1 (start1 - start0) msk start0
    exchStepLP d a1 a0 (start1 - start0) msk start1
    exchStepRP d a0 a1 (start1 - start0) msk start0

end BitLib
