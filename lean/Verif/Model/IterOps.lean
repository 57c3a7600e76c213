import Verif.Model.Vector
/- The remaining operators of `bit_iterator` and `bit_pointer`, `advance`, `next`, `is_within(first, last, n)`, the small predicates of
bit_algorithm_details.hpp, and loops that walk over a range. Member functions that modify `*this` return the new value of `*this`. -/
namespace BitLib
variable {w : Nat}

namespace BitIter

/-- bit_iterator.hpp:149-157 and 187-196, conversion and assignment from another iterator type: both members are copied. -/
def assign (_it other : BitIter w) : BitIter w := ⟨other.base, other.pos⟩

/-- bit_iterator.hpp:270-278, `operator++(int)`: (returned value, `*this`). -/
def postInc (it : BitIter w) : BitIter w × BitIter w := (it, it.inc)

/-- bit_iterator.hpp:280-288, `operator--(int)`. -/
def postDec (it : BitIter w) : BitIter w × BitIter w := (it, it.dec)

/-- bit_iterator.hpp:322-330, `operator+=`: `*this = *this + n`. -/
def addAssign (it : BitIter w) (n : Int) : BitIter w := it.assign (it.add n)

/-- bit_iterator.hpp:332-340, `operator-=`. -/
def subAssign (it : BitIter w) (n : Int) : BitIter w := it.assign (it.sub n)

/-- bit_iterator.hpp:376-385, `n + it`. -/
def addLeft (n : Int) (it : BitIter w) : BitIter w := it.add n

end BitIter

/-- bit_algorithm_details.hpp:43-48, `advance(first, n)`: the new value of `first`. -/
def advance (first : BitIter w) (n : Int) : BitIter w := first.addAssign n

/-- bit_algorithm_details.hpp:50-56, `next(it, n)`. -/
def next (it : BitIter w) (n : Int := 1) : BitIter w := it.add n

/-- bit_algorithm_details.hpp:64-76, `is_within(first, last, n)`. -/
def isWithinDist (first last : BitIter w) (n : Int) : M w Bool := do
  let d ← distance first last
  pure (decide (d ≤ n))

/-- bit_algorithm_details.hpp:319-323, `_is_aligned_lsb`. -/
def isAlignedLsb (it : BitIter w) : Bool := decide (it.pos = 0)

/-- bit_algorithm_details.hpp:325-330, `_is_one_past_last_bit(maybe_end, base)`. -/
def isOnePastLastBit (it : BitIter w) (base : Int) : Bool := decide (it.pos = 0 ∧ base + 1 = it.base)

/-- bit_algorithm_details.hpp:332-336, `_in_same_word`. -/
def inSameWord (l r : BitIter w) : Bool := decide (l.base = r.base)

/-- bit_algorithm_details.hpp:338-342, `_shift_towards_lsb`. -/
def shiftTowardsLsb (S : ShiftSem w) (x : BitVec w) (n : Nat) : Except UB (BitVec w) := S.shr x n

/-- bit_algorithm_details.hpp:344-348, `_shift_towards_msb`. -/
def shiftTowardsMsb (S : ShiftSem w) (x : BitVec w) (n : Nat) : Except UB (BitVec w) := S.shl x n

namespace BitPtr

/-- bit_pointer.hpp:309-318, `operator++(int)`: (returned value, `*this`). -/
def postInc (S : ShiftSem w) (bi : Bool) (p : BitPtr w) : Except UB (BitPtr w × BitPtr w) := do
  let q ← p.inc S bi
  pure (p, q)

/-- bit_pointer.hpp:320-329, `operator--(int)`. -/
def postDec (S : ShiftSem w) (bi : Bool) (p : BitPtr w) : Except UB (BitPtr w × BitPtr w) := do
  let q ← p.dec S bi
  pure (p, q)

end BitPtr

/-- The loop `for (; first != last; ++first) out.push_back(*first)`: what a range-based `for` over a `bit_vector` observes. -/
def readAll (S : ShiftSem w) : Nat → BitIter w → BitIter w → M w (List Bool)
  | 0, _, _ => ub .outOfFuel
  | fuel + 1, first, last =>
    if first.bne last then do
      let r ← lift (first.deref S)
      let b ← r.toBool
      let rest ← readAll S fuel first.inc last
      pure (b :: rest)
    else pure []

/-- The loop `while (last != first) out.push_back(*--last)`: what walking backwards (or through `std::reverse_iterator`) observes. -/
def readAllBack (S : ShiftSem w) : Nat → BitIter w → BitIter w → M w (List Bool)
  | 0, _, _ => ub .outOfFuel
  | fuel + 1, first, last =>
    if last.bne first then do
      let r ← lift (last.dec.deref S)
      let b ← r.toBool
      let rest ← readAllBack S fuel first last.dec
      pure (b :: rest)
    else pure []

/-- The loop `for (bit_reference b : range) b = f()`: each bit is assigned in turn. -/
def writeAll (S : ShiftSem w) : Nat → BitIter w → BitIter w → List Bool → M w Unit
  | 0, _, _, _ => ub .outOfFuel
  | fuel + 1, first, last, l =>
    if first.bne last then
      match l with
      | [] => ub .badRange
      | b :: rest => do
        let r ← lift (first.deref S)
        r.assignVal ⟨b⟩
        writeAll S fuel first.inc last rest
    else pure ()

/-- A range-based `for` over a `bit_vector`: `begin()` and `end()` are evaluated once. -/
def BV.readAll (S : ShiftSem w) (v : BV) : V w (List Bool) :=
  onMem (BitLib.readAll S (v.length + 1) v.begin v.end)

/-- bit_vector.hpp:343-350, move assignment of a vector to itself. The standard leaves the value of a `std::vector` moved to itself
unspecified: `keep` says whether the implementation keeps the words or releases them. `length_` becomes 0 either way, by the last assignment
`other.length_ = 0`. -/
def BV.moveAssignSelf (keep : Bool) (v : BV) : V w BV := do
  let vec ← if keep then pure v.vec else do
    v.vec.release
    pure Vec.empty
  pure ⟨vec, 0⟩

end BitLib
