import Verif.Model.Ref
/-
The null `bit_pointer` (include/bitlib/bit-iterator/bit_pointer.hpp, bit_reference.hpp).
The null word pointer is the address `nullAddr`; a word that exists has another address.
Addition to a null word pointer is undefined unless 0 is added ([expr.add]).
-/
namespace BitLib
variable {w : Nat}

/-- `nullptr` as a word pointer. -/
def nullAddr : Int := -1

/-- bit_reference.hpp:511-518, the private constructor `bit_reference(std::nullptr_t)`: null pointer, mask 0. -/
def BitRef.null : BitRef w := ⟨nullAddr, 0#w⟩

namespace BitPtr

/-- bit_pointer.hpp:136-142, the default constructor. -/
def default : BitPtr w := ⟨BitRef.null⟩

/-- bit_pointer.hpp:154-161, the constructor from `std::nullptr_t`. -/
def ofNull : BitPtr w := ⟨BitRef.null⟩

/-- bit_pointer.hpp:186-194, `operator=(std::nullptr_t)`. -/
def assignNull (_p : BitPtr w) : BitPtr w := ⟨⟨nullAddr, 0#w⟩⟩

/-- bit_pointer.hpp:196-217, `operator=(const bit_pointer&)` and its template version. -/
def assign (_p other : BitPtr w) : BitPtr w := ⟨⟨other.ref.ptr, other.ref.mask⟩⟩

/-- bit_pointer.hpp:224-230, `operator bool`: `return _ref._ptr;`. -/
def toBool (p : BitPtr w) : Bool := decide (p.ref.ptr ≠ nullAddr)

/-- `_ref._ptr + diff` on a word pointer that may be null. -/
def nextWord (a diff : Int) : Except UB Int :=
  if a = nullAddr ∧ diff ≠ 0 then .error .outOfBounds else .ok (a + diff)

/-- bit_pointer.hpp:331-344, `operator+(n)`, on a pointer that may be null (`BitPtr.add` is the same on the others). -/
def addN (S : ShiftSem w) (bi : Bool) (p : BitPtr w) (n : Int) : Except UB (BitPtr w) := do
  let pos ← p.ref.position bi
  let digits : Int := w
  let sum : Int := pos + n
  let diff : Int := Int.tdiv sum digits
  let diff : Int := if sum < 0 ∧ diff * digits ≠ sum then diff - 1 else diff
  let a ← nextWord p.ref.ptr diff
  make S a (sum - diff * digits).toNat

end BitPtr
end BitLib
