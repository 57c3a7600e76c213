import Verif.Model.Basic
/-
`bit_iterator` (include/bitlib/bit-iterator/bit_iterator.hpp) and the iterator utilities of
include/bitlib/bit-algorithms/bit_algorithm_details.hpp.
-/
namespace BitLib

/-- bit_iterator.hpp: members `_current` (a word address) and `_position`, LSB first. -/
structure BitIter (w : Nat) where
  base : Int
  pos : Nat
  deriving DecidableEq, Repr

namespace BitIter
variable {w : Nat}

/-- bit_iterator.hpp:160-168, aligned constructor. -/
def aligned (a : Int) : BitIter w := ⟨a, 0⟩

/-- bit_iterator.hpp:171-180, constructor with position; `assert(pos < digits)`. -/
def mk? (a : Int) (pos : Nat) : M w (BitIter w) := do
  assertM (pos < w)
  pure ⟨a, pos⟩

/-- bit_iterator.hpp:290-304, `operator+(difference_type n)`. `sum / digits` truncates toward zero.
The sum is taken in `Int`; the wrap-around of `size_t + ptrdiff_t` is treated in `Model/Wrap.lean`.
The constructor's assertion always holds here (`Lemmas/Iter.lean`, `add_pos_lt`). -/
def add (it : BitIter w) (n : Int) : BitIter w :=
  let digits : Int := w
  let sum : Int := it.pos + n
  let diff : Int := Int.tdiv sum digits
  let diff : Int := if sum < 0 ∧ diff * digits ≠ sum then diff - 1 else diff
  ⟨it.base + diff, (sum - diff * digits).toNat⟩

/-- bit_iterator.hpp:306-320, `operator-(difference_type n)`. -/
def sub (it : BitIter w) (n : Int) : BitIter w :=
  let digits : Int := w
  let sum : Int := it.pos - n
  let diff : Int := Int.tdiv sum digits
  let diff : Int := if sum < 0 ∧ diff * digits ≠ sum then diff - 1 else diff
  ⟨it.base + diff, (sum - diff * digits).toNat⟩

/-- bit_iterator.hpp:240-253, `operator++`. -/
def inc (it : BitIter w) : BitIter w :=
  if it.pos + 1 < w then ⟨it.base, it.pos + 1⟩ else ⟨it.base + 1, 0⟩

/-- bit_iterator.hpp:255-268, `operator--`. -/
def dec (it : BitIter w) : BitIter w :=
  if it.pos ≠ 0 then ⟨it.base, it.pos - 1⟩ else ⟨it.base - 1, w - 1⟩

/-- bit_iterator.hpp:387-409, `operator-(lhs, rhs)`. -/
def diff (lhs rhs : BitIter w) : Int :=
  (lhs.base - rhs.base) * (w : Int) + ((lhs.pos : Int) - (rhs.pos : Int))

/-- bit_iterator.hpp:416-423. -/
def beq (a b : BitIter w) : Bool := decide (a.base = b.base ∧ a.pos = b.pos)
/-- bit_iterator.hpp:426-433. -/
def bne (a b : BitIter w) : Bool := decide (a.base ≠ b.base ∨ a.pos ≠ b.pos)
/-- bit_iterator.hpp:436-444. -/
def blt (a b : BitIter w) : Bool := decide (a.base < b.base ∨ (a.base = b.base ∧ a.pos < b.pos))
/-- bit_iterator.hpp:447-455. -/
def ble (a b : BitIter w) : Bool := decide (a.base < b.base ∨ (a.base = b.base ∧ a.pos ≤ b.pos))
/-- bit_iterator.hpp:458-466. -/
def bgt (a b : BitIter w) : Bool := decide (a.base > b.base ∨ (a.base = b.base ∧ a.pos > b.pos))
/-- bit_iterator.hpp:469-477. -/
def bge (a b : BitIter w) : Bool := decide (a.base > b.base ∨ (a.base = b.base ∧ a.pos ≥ b.pos))

end BitIter

/-- bit_details.hpp:377-387, `_assert_range_viability`: `assert(last - first >= 0)`
(`std::distance` of two random access bit iterators is their difference). -/
def assertViable {w : Nat} (first last : BitIter w) : M w Unit :=
  assertM (0 ≤ last.diff first)

/-- bit_algorithm_details.hpp:29-41, `bit::distance`: asserts viability, then
`(last.base - first.base) * digits + (last.position - first.position)`. -/
def distance {w : Nat} (first last : BitIter w) : M w Int := do
  assertViable first last
  pure ((last.base - first.base) * (w : Int) + ((last.pos : Int) - (first.pos : Int)))

/-- bit_algorithm_details.hpp:78-102, `is_within<N>(first, last)`; the template recursion over `N / digits` is the
recursion over `fullWords`, with `rem = N % digits`. -/
def isWithinAux {w : Nat} (rem : Nat) : Nat → BitIter w → BitIter w → Bool
  | 0, first, last =>
    (decide (first.base = last.base) && decide (first.pos + rem ≥ last.pos))
    || (decide (first.base + 1 = last.base)
        && decide (((first.pos : Int) + (rem : Int) - (w : Int)) ≥ (last.pos : Int)))
  | k+1, first, last =>
    decide (first.base = last.base)
    || (decide (first.base + 1 = last.base) && decide (first.pos ≥ last.pos))
    || isWithinAux rem k (first.add (w : Int)) last

/-- `is_within<N>`. -/
def isWithin {w : Nat} (N : Nat) (first last : BitIter w) : Bool :=
  isWithinAux (N % w) (N / w) first last

end BitLib
