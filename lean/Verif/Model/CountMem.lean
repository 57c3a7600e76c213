import Verif.Model.Query
import Verif.Model.Bytes
import Verif.Model.Popcnt
/-
count.hpp on real memory: the words are read as words, but the middle of the range is handed to libpopcnt.h as bytes.

`Model/Query` takes libpopcnt to count the set bits of words; here `count` is composed with the versions of `popcnt` of `Model/Popcnt`, and the
result is computed in 64 bits as in the code.
Simplified: `std::distance(it, last.base()) * (digits / 8)` is a natural number (no range has `2^63` bytes).
-/
namespace BitLib
variable {w u : Nat}

/-- count.hpp:34-117, `bit::count`, with `ld j` for `*it` of the base iterator `j` and `pc j n` for `popcnt(&*it, digits / 8 * n)`. `result` is a
64-bit `difference_type`. -/
def countBy (S : ShiftSem w) (ld : Int → M u (BitVec w)) (pc : Int → Nat → M u (BitVec 64)) (first last : BitIter w) (v : Bool) : M u Int := do
  assertM (0 ≤ last.diff first)
  let ones ←
    (if first.base ≠ last.base then do
      let (r0, it) ←
        (if first.pos ≠ 0 then do
          let x ← ld first.base
          let x ← lift (S.shr x first.pos)
          pure (BitVec.ofNat 64 (popcnt x), first.base + 1)
        else pure (0#64, first.base) : M u (BitVec 64 × Int))
      let n ← wordDist it last.base
      let r1 ← pc it n
      if last.pos ≠ 0 then do
        let x ← ld last.base
        let x ← lift (S.shl x (w - last.pos))
        pure (r0 + r1 + BitVec.ofNat 64 (popcnt x))
      else pure (r0 + r1)
    else do
      let x ← ld first.base
      let y ← lift (bextr S x first.pos (subSize last.pos first.pos))
      pure (BitVec.ofNat 64 (popcnt y)) : M u (BitVec 64))
  pure (if v then ones.toInt else (BitVec.ofInt 64 (last.diff first) - ones).toInt)

/-- Which version of libpopcnt.h is compiled: libpopcnt.h:559 (x86), 677 (NEON, with or without unaligned access), 767 (other CPUs). -/
inductive Cpu where
  | x86 (c : X86)
  | neon (unaligned : Bool) (v : Popcnt64)
  | other (v : Popcnt64)

/-- libpopcnt.h, `popcnt(data, size)`. -/
def Cpu.popcnt : Cpu → Int → Nat → M 8 (BitVec 64)
  | .x86 c => popcntX86 c
  | .neon un v => popcntNeon un v
  | .other v => popcntOther v

/-- `bit::count` on an array of `k`-byte words at byte address `base`. -/
def countMem (C : Cpu) (e : Endian) (k : Nat) (base : Int) (S : ShiftSem (8 * k)) (first last : BitIter (8 * k)) (v : Bool) : M 8 Int :=
  countBy S (fun j => loadWord e k (base + (k : Int) * j)) (fun j n => C.popcnt (base + (k : Int) * j) (k * n)) first last v

/-- `bit::count` on a sequence of words that is not an array, for example a `std::deque`: word `j` is at address `addr j`, but libpopcnt reads on
from `&*it`. -/
def countPieces (addr : Int → Int) (S : ShiftSem w) (first last : BitIter w) (v : Bool) : M w Int :=
  countBy S (fun j => load (addr j)) (fun j n => do let r ← popcntWords n (addr j); pure (BitVec.ofNat 64 r)) first last v

end BitLib
