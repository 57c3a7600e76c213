import Verif.Model.Iter
/-
The iterator arithmetic of bit_iterator.hpp and `bit::distance` again, this time in 64-bit machine integers:
`size_t` is `BitVec 64` (wraps around), `ptrdiff_t` is an `Int` whose every arithmetic result is checked
(signed overflow is undefined), conversions between them are modulo `2^64`.
Word addresses stay unbounded integers; a pointer difference must fit `ptrdiff_t`.
-/
namespace BitLib
variable {w : Nat}

/-- A value of type `ptrdiff_t`. -/
def FitsS64 (x : Int) : Prop := -2 ^ 63 ≤ x ∧ x < 2 ^ 63

instance (x : Int) : Decidable (FitsS64 x) := inferInstanceAs (Decidable (_ ∧ _))

/-- The result of a signed operation. -/
def signed (x : Int) : Except UB Int := if FitsS64 x then .ok x else .error .signedOverflow

/-- `ptrdiff_t` to `size_t`. -/
def toU (x : Int) : BitVec 64 := BitVec.ofInt 64 x

/-- `size_t` to `ptrdiff_t` (modulo `2^64`). -/
def toS (x : BitVec 64) : Int := x.toInt

namespace BitIter

/-- bit_iterator.hpp:388-409: `main * digits` is a signed product, `lhs._position - rhs._position` a `size_t` difference
that wraps, their sum is taken in `size_t` and converted back. -/
def diff64 (lhs rhs : BitIter w) : Except UB Int := do
  let main ← signed (lhs.base - rhs.base)
  let prod ← signed (main * (w : Int))
  pure (toS (toU prod + (BitVec.ofNat 64 lhs.pos - BitVec.ofNat 64 rhs.pos)))

/-- The division of lines 300-304 and 315-319, common to `operator+`, `operator-` and `operator[]`:
`diff = sum / digits; if (sum < 0 && diff * digits != sum) --diff;`, then `bit_iterator(next(_current, diff), sum - diff * digits)`
where the position is converted to `size_t`. -/
def step64 (it : BitIter w) (sum : Int) : Except UB (BitIter w) := do
  let digits : Int := w
  let diff ← signed (Int.tdiv sum digits)
  let prod ← signed (diff * digits)
  let diff ← (if sum < 0 ∧ prod ≠ sum then signed (diff - 1) else pure diff)
  let prod ← signed (diff * digits)
  let pos ← signed (sum - prod)
  let pos := (toU pos).toNat
  if pos < w then pure ⟨it.base + diff, pos⟩ else .error .assertFail

/-- bit_iterator.hpp:292-305, `operator+`: `_position + n` is taken in `size_t` and converted to `ptrdiff_t`. -/
def add64 (it : BitIter w) (n : Int) : Except UB (BitIter w) := it.step64 (toS (BitVec.ofNat 64 it.pos + toU n))

/-- bit_iterator.hpp:307-320, `operator-`. -/
def sub64 (it : BitIter w) (n : Int) : Except UB (BitIter w) := it.step64 (toS (BitVec.ofNat 64 it.pos - toU n))

end BitIter

/-- bit_algorithm_details.hpp:29-41, `bit::distance`: the assertion evaluates `last - first` (`operator-` above);
the result is computed with `size_type digits`, entirely in `size_t`. -/
def distance64 (first last : BitIter w) : Except UB Int := do
  let d ← last.diff64 first
  if 0 ≤ d then do
    let main ← signed (last.base - first.base)
    pure (toS (toU main * BitVec.ofNat 64 w + (BitVec.ofNat 64 last.pos - BitVec.ofNat 64 first.pos)))
  else .error .assertFail

end BitLib
