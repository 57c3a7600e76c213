import Verif.Model.Iter
import Verif.Model.Instr
import Verif.Model.Word
/-
`bit_value`, `bit_reference`, `bit_pointer` and the access operators of `bit_iterator`
(include/bitlib/bit-iterator/{bit_value,bit_reference,bit_pointer,bit_iterator}.hpp).
Only unsigned word types are modelled. References to words of different types (`bit_reference<T>` and `bit_reference<U>`)
are modelled at one width.
-/
namespace BitLib
variable {w : Nat}

/-! ### `bit_value` -/

/-- bit_value.hpp:27-128: the single data member `bool _value`. -/
structure BitVal where
  value : Bool
  deriving DecidableEq, Repr

namespace BitVal

/-- bit_value.hpp:148-153, default constructor. -/
def default : BitVal := ⟨false⟩
/-- bit_value.hpp:164-170, `explicit bit_value(bool)`. -/
def ofBool (b : Bool) : BitVal := ⟨b⟩
/-- bit_value.hpp:172-180, `explicit bit_value(WordType val)`: `_value(val & 1)`, an integer converted to `bool`. -/
def ofWord (val : BitVec w) : BitVal := ⟨decide (val &&& 1#w ≠ 0#w)⟩
/-- bit_value.hpp:182-191, `bit_value(WordType val, size_type pos)`: asserts `pos < digits`, then `val >> pos & 1`. -/
def ofWordPos (S : ShiftSem w) (val : BitVec w) (pos : Nat) : Except UB BitVal :=
  if pos < w then do
    let x ← S.shr val pos
    pure ⟨decide (x &&& 1#w ≠ 0#w)⟩
  else .error .assertFail
/-- bit_value.hpp:207-215, `assign(val)`. -/
def assign (_b : BitVal) (val : BitVec w) : BitVal := ⟨decide (val &&& 1#w ≠ 0#w)⟩
/-- bit_value.hpp:218-228, `assign(val, pos)`. -/
def assignPos (S : ShiftSem w) (_b : BitVal) (val : BitVec w) (pos : Nat) : Except UB BitVal :=
  if pos < w then do
    let x ← S.shr val pos
    pure ⟨decide (x &&& 1#w ≠ 0#w)⟩
  else .error .assertFail
/-- A `bool` as the `int` it is promoted to. -/
def toInt (b : Bool) : Nat := if b then 1 else 0
/-- bit_value.hpp:235-241, `operator&=`: `_value &= other._value` (evaluated in `int`, converted back to `bool`). -/
def andAssign (b o : BitVal) : BitVal := ⟨decide (toInt b.value &&& toInt o.value ≠ 0)⟩
/-- bit_value.hpp:244-250, `operator|=`. -/
def orAssign (b o : BitVal) : BitVal := ⟨decide (toInt b.value ||| toInt o.value ≠ 0)⟩
/-- bit_value.hpp:253-259, `operator^=`. -/
def xorAssign (b o : BitVal) : BitVal := ⟨decide (toInt b.value ^^^ toInt o.value ≠ 0)⟩
/-- bit_value.hpp:266-270, `explicit operator bool`. -/
def toBool (b : BitVal) : Bool := b.value
/-- bit_value.hpp:277-282, `swap(bit_value&)`: `std::swap`. Returns both values after the call. -/
def swap (b o : BitVal) : BitVal × BitVal :=
  let tmp := b
  let b := o
  let o := tmp
  (b, o)
/-- bit_value.hpp:301-307, `set(bool)`. -/
def setTo (_b : BitVal) (x : Bool) : BitVal := ⟨x⟩
/-- bit_value.hpp:310-315, `set()`. -/
def set (_b : BitVal) : BitVal := ⟨true⟩
/-- bit_value.hpp:318-323, `reset()`. -/
def reset (_b : BitVal) : BitVal := ⟨false⟩
/-- bit_value.hpp:326-331, `flip()`. -/
def flip (b : BitVal) : BitVal := ⟨!b.value⟩
/-- bit_value.hpp:338-344, `operator~`: via `bit_value(unsigned int)`. -/
def not (b : BitVal) : BitVal := ofWord (BitVec.ofNat 32 (toInt !b.value))
/-- bit_value.hpp:347-354, `operator&`. -/
def and (a b : BitVal) : BitVal := ofWord (BitVec.ofNat 32 (toInt a.value &&& toInt b.value))
/-- bit_value.hpp:357-364, `operator|`. -/
def or (a b : BitVal) : BitVal := ofWord (BitVec.ofNat 32 (toInt a.value ||| toInt b.value))
/-- bit_value.hpp:367-374, `operator^`. -/
def xor (a b : BitVal) : BitVal := ofWord (BitVec.ofNat 32 (toInt a.value ^^^ toInt b.value))
/-- bit_value.hpp:381-387, `operator==` (both `bool` promoted to `int`). -/
def eq (a b : BitVal) : Bool := decide (toInt a.value = toInt b.value)
/-- bit_value.hpp:390-396, `operator!=`. -/
def ne (a b : BitVal) : Bool := decide (toInt a.value ≠ toInt b.value)
/-- bit_value.hpp:399-405, `operator<`. -/
def lt (a b : BitVal) : Bool := decide (toInt a.value < toInt b.value)
/-- bit_value.hpp:408-414, `operator<=`. -/
def le (a b : BitVal) : Bool := decide (toInt a.value ≤ toInt b.value)
/-- bit_value.hpp:417-423, `operator>`. -/
def gt (a b : BitVal) : Bool := decide (toInt a.value > toInt b.value)
/-- bit_value.hpp:426-432, `operator>=`. -/
def ge (a b : BitVal) : Bool := decide (toInt a.value ≥ toInt b.value)

end BitVal

/-! ### `bit_reference` -/

/-- bit_reference.hpp:100-103: a word address and a mask. -/
structure BitRef (w : Nat) where
  ptr : Int
  mask : BitVec w
  deriving DecidableEq, Repr

/-- `_tzcnt`, compiled with (`true`) or without (`false`) compiler builtins. -/
def tzcntSel (builtins : Bool) (x : BitVec w) : Except UB (BitVec w) := if builtins then tzcntBuiltin x else tzcntPort x

namespace BitRef

/-- bit_reference.hpp:159-167, aligned constructor from a word: mask 1. -/
def aligned (a : Int) : BitRef w := ⟨a, 1#w⟩

/-- bit_reference.hpp:169-178 and 532-541, constructor from a word (pointer) and a position:
`assert(pos < digits)`, mask `static_cast<word_type>(1) << pos`. -/
def make (S : ShiftSem w) (a : Int) (pos : Nat) : Except UB (BitRef w) :=
  if pos < w then do
    let mask ← S.shl 1#w pos
    pure ⟨a, mask⟩
  else .error .assertFail

/-- bit_reference.hpp:275-281, `operator bool`: `*_ptr & _mask`. -/
def toBool (r : BitRef w) : M w Bool := do
  let x ← load r.ptr
  pure (decide (x &&& r.mask ≠ 0#w))

/-- bit_reference.hpp:338-345, `set()`: `*_ptr |= _mask`. -/
def set (r : BitRef w) : M w Unit := do
  let x ← load r.ptr
  store r.ptr (x ||| r.mask)

/-- bit_reference.hpp:347-354, `reset()`: `*_ptr &= ~_mask`. -/
def reset (r : BitRef w) : M w Unit := do
  let x ← load r.ptr
  store r.ptr (x &&& ~~~ r.mask)

/-- bit_reference.hpp:356-363, `flip()`: `*_ptr ^= _mask`. -/
def flip (r : BitRef w) : M w Unit := do
  let x ← load r.ptr
  store r.ptr (x ^^^ r.mask)

/-- bit_reference.hpp:328-336, `set(bool b)`: `b ? set() : reset()`. -/
def setTo (r : BitRef w) (b : Bool) : M w Unit := if b then r.set else r.reset

/-- bit_reference.hpp:184-203, `operator=(const bit_reference&)` and its template version: `other ? set() : reset()`. -/
def assignRef (r other : BitRef w) : M w Unit := do
  let b ← other.toBool
  if b then r.set else r.reset

/-- bit_reference.hpp:206-213, `operator=(bit_value)`. -/
def assignVal (r : BitRef w) (v : BitVal) : M w Unit := if v.toBool then r.set else r.reset

/-- bit_reference.hpp:216-223, `assign(word)`: `val & 1 ? set() : reset()`. -/
def assignWord (r : BitRef w) (val : BitVec w) : M w Unit :=
  if val &&& 1#w ≠ 0#w then r.set else r.reset

/-- bit_reference.hpp:226-235, `assign(word, pos)`: asserts, then `val >> pos & 1 ? set() : reset()`. -/
def assignWordPos (S : ShiftSem w) (r : BitRef w) (val : BitVec w) (pos : Nat) : M w Unit := do
  assertM (pos < w)
  let x ← lift (S.shr val pos)
  if x &&& 1#w ≠ 0#w then r.set else r.reset

/-- bit_reference.hpp:242-249, `operator&=`: `*_ptr &= ~(_mask * static_cast<word_type>(!other._value))`. -/
def andAssign (r : BitRef w) (o : BitVal) : M w Unit := do
  let x ← load r.ptr
  store r.ptr (x &&& ~~~ (r.mask * boolWord (!o.value)))

/-- bit_reference.hpp:252-259, `operator|=`: `*_ptr |= _mask * static_cast<word_type>(other._value)`. -/
def orAssign (r : BitRef w) (o : BitVal) : M w Unit := do
  let x ← load r.ptr
  store r.ptr (x ||| (r.mask * boolWord o.value))

/-- bit_reference.hpp:262-269, `operator^=`. -/
def xorAssign (r : BitRef w) (o : BitVal) : M w Unit := do
  let x ← load r.ptr
  store r.ptr (x ^^^ (r.mask * boolWord o.value))

/-- bit_value.hpp:155-162, the conversion `bit_value(bit_reference)`. -/
def toVal (r : BitRef w) : M w BitVal := do
  let b ← r.toBool
  pure ⟨b⟩

/-- bit_reference.hpp:299-310 `swap(bit_reference other)` and 401-412, the free `swap(lhs, rhs)`:
`if (lhs != rhs) { lhs.flip(); rhs.flip(); }` where `!=` is that of `bit_value`. -/
def swap (l r : BitRef w) : M w Unit := do
  let a ← l.toVal
  let b ← r.toVal
  if a.ne b then do
    l.flip
    r.flip
  else pure ()

/-- bit_reference.hpp:312-322 `swap(bit_value&)` and 414-425, 427-438, the two free overloads.
Returns the `bit_value` after the call. -/
def swapVal (l : BitRef w) (v : BitVal) : M w BitVal := do
  let a ← l.toVal
  if v.ne a then do
    l.flip
    pure v.flip
  else pure v

/-- bit_reference.hpp:378-385, `position()`: `_tzcnt(_mask)`. -/
def position (bi : Bool) (r : BitRef w) : Except UB Nat := do
  let p ← tzcntSel bi r.mask
  pure p.toNat

end BitRef

/-! ### `bit_iterator` access -/

/-- bit_iterator.hpp:202-209, `operator*`: `reference(*_current, _position)`. -/
def BitIter.deref (S : ShiftSem w) (it : BitIter w) : Except UB (BitRef w) := BitRef.make S it.base it.pos

/-- bit_iterator.hpp:220-234, `operator[]`: `reference(*std::next(_current, diff), sum - diff * digits)`. -/
def BitIter.index (S : ShiftSem w) (it : BitIter w) (n : Int) : Except UB (BitRef w) :=
  let digits : Int := w
  let sum : Int := it.pos + n
  let diff : Int := Int.tdiv sum digits
  let diff : Int := if sum < 0 ∧ diff * digits ≠ sum then diff - 1 else diff
  BitRef.make S (it.base + diff) (sum - diff * digits).toNat

/-- bit_iterator.hpp:364-372, `mask()`. -/
def BitIter.mask (S : ShiftSem w) (it : BitIter w) : Except UB (BitVec w) := S.shl 1#w it.pos

/-! ### `bit_pointer` -/

/-- bit_pointer.hpp:84-86: the single data member `bit_reference _ref`. The null pointer (`_ptr == nullptr`, mask 0) is in
`Model/Null`. -/
structure BitPtr (w : Nat) where
  ref : BitRef w
  deriving DecidableEq, Repr

namespace BitPtr

/-- bit_pointer.hpp:163-170, aligned constructor. -/
def aligned (a : Int) : BitPtr w := ⟨BitRef.aligned a⟩

/-- bit_pointer.hpp:172-180, constructor with position. -/
def make (S : ShiftSem w) (a : Int) (pos : Nat) : Except UB (BitPtr w) := do
  let r ← BitRef.make S a pos
  pure ⟨r⟩

/-- bit_reference.hpp:287-293, `bit_reference::operator&`. -/
def ofRef (S : ShiftSem w) (bi : Bool) (r : BitRef w) : Except UB (BitPtr w) := do
  let p ← r.position bi
  make S r.ptr p

/-- bit_iterator.hpp:211-218, `bit_iterator::operator->`: `pointer(&*_current, _position)`. -/
def ofIter (S : ShiftSem w) (it : BitIter w) : Except UB (BitPtr w) := make S it.base it.pos

/-- bit_pointer.hpp:236-242, `operator*`. -/
def deref (p : BitPtr w) : BitRef w := p.ref

/-- bit_pointer.hpp:252-265, `operator[]`. -/
def index (S : ShiftSem w) (bi : Bool) (p : BitPtr w) (n : Int) : Except UB (BitRef w) := do
  let pos ← p.ref.position bi
  let digits : Int := w
  let sum : Int := pos + n
  let diff : Int := Int.tdiv sum digits
  let diff : Int := if sum < 0 ∧ diff * digits ≠ sum then diff - 1 else diff
  BitRef.make S (p.ref.ptr + diff) (sum - diff * digits).toNat

/-- bit_pointer.hpp:271-288, `operator++`: shifts the mask, or moves to the next word with mask 1. -/
def inc (S : ShiftSem w) (bi : Bool) (p : BitPtr w) : Except UB (BitPtr w) := do
  let pos ← p.ref.position bi
  if pos + 1 < w then do
    let k ← S.shl p.ref.mask 1
    pure ⟨⟨p.ref.ptr, k⟩⟩
  else pure ⟨⟨p.ref.ptr + 1, 1#w⟩⟩

/-- bit_pointer.hpp:290-307, `operator--`: shifts the mask, or moves to the last bit of the previous word. -/
def dec (S : ShiftSem w) (bi : Bool) (p : BitPtr w) : Except UB (BitPtr w) := do
  let pos ← p.ref.position bi
  if pos ≠ 0 then do
    let k ← S.shr p.ref.mask 1
    pure ⟨⟨p.ref.ptr, k⟩⟩
  else do
    let k ← S.shl 1#w (w - 1)
    pure ⟨⟨p.ref.ptr - 1, k⟩⟩

/-- bit_pointer.hpp:331-344, `operator+(n)` (and 385-393, `n + p`; 361-369 `+=`). -/
def add (S : ShiftSem w) (bi : Bool) (p : BitPtr w) (n : Int) : Except UB (BitPtr w) := do
  let pos ← p.ref.position bi
  let digits : Int := w
  let sum : Int := pos + n
  let diff : Int := Int.tdiv sum digits
  let diff : Int := if sum < 0 ∧ diff * digits ≠ sum then diff - 1 else diff
  make S (p.ref.ptr + diff) (sum - diff * digits).toNat

/-- bit_pointer.hpp:346-359, `operator-(n)` (and `-=`). -/
def sub (S : ShiftSem w) (bi : Bool) (p : BitPtr w) (n : Int) : Except UB (BitPtr w) := do
  let pos ← p.ref.position bi
  let digits : Int := w
  let sum : Int := pos - n
  let diff : Int := Int.tdiv sum digits
  let diff : Int := if sum < 0 ∧ diff * digits ≠ sum then diff - 1 else diff
  make S (p.ref.ptr + diff) (sum - diff * digits).toNat

/-- bit_pointer.hpp:395-414, `lhs - rhs`. -/
def diff (bi : Bool) (l r : BitPtr w) : Except UB Int := do
  let lp ← l.ref.position bi
  let rp ← r.ref.position bi
  pure ((l.ref.ptr - r.ref.ptr) * (w : Int) + ((lp : Int) - (rp : Int)))

/-- bit_pointer.hpp:420-429, `==`. -/
def eq (bi : Bool) (l r : BitPtr w) : Except UB Bool := do
  let lp ← l.ref.position bi
  let rp ← r.ref.position bi
  pure (decide (l.ref.ptr = r.ref.ptr ∧ lp = rp))
/-- bit_pointer.hpp:431-440, `!=`. -/
def ne (bi : Bool) (l r : BitPtr w) : Except UB Bool := do
  let lp ← l.ref.position bi
  let rp ← r.ref.position bi
  pure (decide (l.ref.ptr ≠ r.ref.ptr ∨ lp ≠ rp))
/-- bit_pointer.hpp:442-452, `<`. -/
def lt (bi : Bool) (l r : BitPtr w) : Except UB Bool := do
  let lp ← l.ref.position bi
  let rp ← r.ref.position bi
  pure (decide (l.ref.ptr < r.ref.ptr ∨ (l.ref.ptr = r.ref.ptr ∧ lp < rp)))
/-- bit_pointer.hpp:454-464, `<=`. -/
def le (bi : Bool) (l r : BitPtr w) : Except UB Bool := do
  let lp ← l.ref.position bi
  let rp ← r.ref.position bi
  pure (decide (l.ref.ptr < r.ref.ptr ∨ (l.ref.ptr = r.ref.ptr ∧ lp ≤ rp)))
/-- bit_pointer.hpp:466-476, `>`. -/
def gt (bi : Bool) (l r : BitPtr w) : Except UB Bool := do
  let lp ← l.ref.position bi
  let rp ← r.ref.position bi
  pure (decide (l.ref.ptr > r.ref.ptr ∨ (l.ref.ptr = r.ref.ptr ∧ lp > rp)))
/-- bit_pointer.hpp:478-488, `>=`. -/
def ge (bi : Bool) (l r : BitPtr w) : Except UB Bool := do
  let lp ← l.ref.position bi
  let rp ← r.ref.position bi
  pure (decide (l.ref.ptr > r.ref.ptr ∨ (l.ref.ptr = r.ref.ptr ∧ lp ≥ rp)))

end BitPtr
end BitLib
