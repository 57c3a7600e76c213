import Verif.Spec
import Verif.Model.CountMem
/- What may be read and what is read by libpopcnt.h and by `count`, said without the algorithms. -/
namespace BitLib

/-- The `n` bytes at `p` may be read. -/
def Readable (m : Mem 8) (p : Int) (n : Nat) : Prop := ∀ a : Int, p ≤ a → a < p + n → (m a).isSome

/-- Number of bytes from `p` to the next multiple of 8. -/
def toAligned (p : Int) : Nat := ((-p) % 8).toNat

/-- The number of bytes that `popcnt(data, size)` of libpopcnt.h reads and counts after the end of the buffer, by the version compiled. -/
def Cpu.beyond (C : Cpu) (p : Int) (size : Nat) : Nat :=
  match C with
  | .x86 _ => 0
  | .neon true _ => 0
  | .neon false _ => if 8 ≤ size % 64 then toAligned p - size % 8 else 0
  | .other _ => if 8 ≤ size then toAligned p - size % 8 else 0

/-- The first word of which all bits from `first` on belong to the range. -/
def wholeFrom {w : Nat} (first : BitIter w) : Int := if first.pos = 0 then first.base else first.base + 1

/-- The address of the whole words of `[first, last)` in an array of `k`-byte words at `base`. -/
def wholeAddr {k : Nat} (base : Int) (first : BitIter (8 * k)) : Int := base + (k : Int) * wholeFrom first

/-- The number of bytes of the whole words of `[first, last)`. -/
def wholeSize {k : Nat} (first last : BitIter (8 * k)) : Nat := k * (last.base - wholeFrom first).toNat

/-- The number of bytes of memory after the whole words of `[first, last)` that `count` reads and counts as well. A range within one word has no
whole words. -/
def Cpu.extra (C : Cpu) {k : Nat} (base : Int) (first last : BitIter (8 * k)) : Nat :=
  if first.base = last.base then 0 else C.beyond (wholeAddr base first) (wholeSize first last)

end BitLib
