import Verif.Model.Const
/-
Which calls compile: the algorithms with iterators to `const` and to modifiable words, the members of a `const` `bit_vector`, `binary_digits` and the
traits of type_traits.hpp. As in `Model/Const` a rule lists what the body demands of the types; demands that every valid iterator type meets are
left out. SIMD code (`BITLIB_HWY`) is left out.
-/
namespace BitLib

/-- bit_algorithm_details.hpp:43-48, `advance`: `first += n`. -/
def advanceOk (t : ItTy) : Bool := !t.top

/-- bit_algorithm_details.hpp:104-142, `get_word<T>(first, len)`: the variables `ret_word` and `offset` of type `T` are assigned to, and
`InputIt it` is incremented. `c`: `T` is `const`. -/
def getWordOk (c : Bool) (t : ItTy) : Bool := !c && !t.top

/-- bit_algorithm_details.hpp:210-274, `write_word<src_type>(src, dst_bit_it, len)` for words of the same width: `*dst_bit_it.base() = `,
`*overflow_dst = `. -/
def writeWordOk (t : ItTy) : Bool := !t.const

/-- shift.hpp:27-33, `STD_SHIFT_LEFT` and `STD_SHIFT_RIGHT` on iterators over words: before C++20 `word_shift_left` and `word_shift_right`, whose
last parameter has type `typename RandomAccessIt::difference_type` (bit_algorithm_details.hpp:279-307), which a pointer has not. Both store. -/
def stdShiftOk (cpp20 : Bool) (i : WordIt) : Bool := !i.const && (cpp20 || !i.isPtr)

/-- The algorithms on one type of iterator. -/
inductive Alg1 where
  | count | find | fill | reverse | shiftLeft | shiftRight | rotate | transformUnary | transformBinary
  deriving DecidableEq, Repr

/-- The algorithms on two types of iterators. -/
inductive Alg2 where
  | copy | copyBackward | move | equal | swapRanges
  deriving DecidableEq, Repr

/-- `shift_left`, shift.hpp:46-238: `*first.base() = `, `first += shifted`, `first = `, and the functions called. -/
def shiftLeftOk (cpp20 : Bool) (t : ItTy) : Bool :=
  !t.const && !t.top && getWordOk t.const t && writeWordOk t && stdShiftOk cpp20 t.it

/-- `shift_right`, shift.hpp:240-377: `*first.base() = `, `middle -= bits_to_align`, `last = `, and the functions called. -/
def shiftRightOk (cpp20 : Bool) (t : ItTy) : Bool :=
  !t.const && !t.top && getWordOk t.const t && writeWordOk t && stdShiftOk cpp20 t.it

/-- `swap_ranges`, swap_ranges.hpp:23-192: `*it1++`, `*it2++` for `RandomAccessIt1 it1` and `RandomAccessIt2 it2`; `_bitexch<word_type1>` takes
`*it1` and `*it2` as `word_type1&` and assigns to both (bit_details.hpp:768-850); `advance(first2, ...)`; and line 109 returns a
`bit_iterator<RandomAccessIt1>` made from `it2` as a `bit_iterator<RandomAccessIt2>`. -/
def swapRangesOk (t u : ItTy) : Bool :=
  !t.top && !u.top && !t.const && !u.const && advanceOk u && u.it.converts t.it && t.it.converts u.it

/-- The call compiles with iterators of type `t`. -/
def Alg1.compiles (cpp20 : Bool) (t : ItTy) : Alg1 → Bool
  -- count.hpp:34-117: `RandomAccessIt it = first.base()`, `++it`
  | count => !t.top
  -- find.hpp:33-123: `first += digits - first.position()`
  | find => !t.top
  -- fill.hpp:38-82: `write_word`, `std::fill`; `it` is declared with `auto`, which drops `const`
  | fill => writeWordOk t && writeWordOk ⟨.ptr t.const, false⟩
  -- reverse.hpp:27-111: `std::reverse(first.base(), ...)`, `first_value = `; the shifts are called on `bit_iterator(first.base())`, which drops `const`
  | reverse => !t.const && shiftLeftOk cpp20 ⟨t.it, false⟩ && shiftRightOk cpp20 ⟨t.it, false⟩
  | shiftLeft => shiftLeftOk cpp20 t
  | shiftRight => shiftRightOk cpp20 t
  -- rotate.hpp:102-258: `*first.base() = `, `std::next(first, ...)` on bit iterators, `p += k`, and the functions called
  | rotate => !t.const && !t.top && shiftLeftOk cpp20 t && shiftRightOk cpp20 t && getWordOk t.const t && writeWordOk t && swapRangesOk t t
  -- transform.hpp:34-128: `*it = `, `first = bit_iterator<RandomAccessIt>(firstIt)`
  | transformUnary => !t.const && getWordOk t.const t && advanceOk t
  -- transform.hpp:130-212
  | transformBinary => !t.const && getWordOk t.const t && advanceOk t

/-- The call compiles with the range given by iterators of type `t` and the other range by an iterator of type `u`. -/
def Alg2.compiles (t u : ItTy) : Alg2 → Bool
  -- copy.hpp:30-104: `std::is_same<dst_word_type, src_word_type>`, `*it = `, `get_word<word_type>(first, ...)`, `advance(first, ...)`
  | copy => (t.const == u.const) && !u.const && getWordOk u.const t && advanceOk t
  -- copy_backward.hpp:27-101: the same with `last`
  | copyBackward => (t.const == u.const) && !u.const && getWordOk u.const t && advanceOk t
  -- move.hpp:25-99
  | move => (t.const == u.const) && !u.const && getWordOk u.const t && advanceOk t
  -- equal.hpp:29-99: stores nothing, but calls `get_word<word_type>` with the word type of the second range
  | equal => (t.const == u.const) && getWordOk u.const t && advanceOk t
  | swapRanges => swapRangesOk t u

/-- The algorithm stores to its first range, its other range. -/
def Alg2.stores : Alg2 → Bool × Bool
  | copy | copyBackward | move => (false, true)
  | equal => (false, false)
  | swapRanges => (true, true)

/-! ### Members of a `const` vector (`bit_vector<W>`) -/

inductive ConstMember where
  | index | at | front | back | begin | end | cbegin | cend
  deriving DecidableEq, Repr

/-- bit_vector.hpp:360-458: the iterators are built from `word_vector.begin()`; the accesses convert `begin()[pos]`, a reference to a
`const` word, to `reference` or `const_reference`, which are both `bit_reference<W>`. -/
def ConstMember.compiles : ConstMember → Bool
  | .index | .at | .front | .back => ((TOp.convRef 1 0 ⟨false, false⟩).check ⟨fun _ => none, fun _ => some ⟨false, vecConstIt.const⟩, fun _ => none⟩).isSome
  | .begin | .end | .cbegin | .cend => WordIt.cvec.converts vecConstIt.it

/-- What the body of `for (auto x : v)` does to the iterators: `begin != end`, `++begin`, `*begin`. -/
def rangeForOps : List TOp := [.op (.cmpIt .ne 0 1), .op (.incIt 0), .op (.derefIt 0 0)]

/-- bit_vector.hpp:219-228: `bit_vector(first, last)` for bit iterators of type `t` copies the range to `begin()`. -/
def rangeConstructorOk (t : ItTy) : Bool := Alg2.copy.compiles t vecIt

/-! ### `binary_digits` and the traits -/

/-- Types, without qualifiers. `uint n`: an unsigned integer type of `n` bits other than `bool` and `char`; `cls k`: a class. -/
inductive CTy where
  | void
  | bool
  | char
  | uint (n : Nat)
  | sint (n : Nat)
  | floating
  | ptr (c v : Bool) (t : CTy)
  | lref (c v : Bool) (t : CTy)
  | cls (k : Nat)
  | bit
  | bitValue
  | bitRef (c v : Bool) (t : CTy)
  | bitIter (c v : Bool) (t : CTy)
  deriving DecidableEq, Repr

/-- A type, possibly `const` or `volatile`. -/
structure QTy where
  c : Bool
  v : Bool
  t : CTy
  deriving DecidableEq, Repr

/-- `std::is_integral`. -/
def QTy.isIntegral (q : QTy) : Bool :=
  match q.t with
  | .bool | .char | .uint _ | .sint _ => true
  | _ => false

/-- `std::is_unsigned`; `cu`: `char` is unsigned, as the implementation chooses. -/
def QTy.isUnsigned (cu : Bool) (q : QTy) : Bool :=
  match q.t with
  | .bool | .uint _ => true
  | .char => cu
  | _ => false

/-- `std::numeric_limits<T>::digits`: 0 for types it is not specialised for. For floating types some number (here 24). -/
def CTy.digits (cu : Bool) : CTy → Nat
  | .bool => 1
  | .char => if cu then 8 else 7
  | .uint n => n
  | .sint n => n - 1
  | .floating => 24
  | _ => 0

/-- bit_details.hpp:49-53, the assertions of `binary_digits<UIntType>`. -/
def QTy.digitsAsserts (cu : Bool) (q : QTy) : Bool :=
  q.isIntegral && q.isUnsigned cu && !(q == ⟨false, false, .bool⟩) && !(q == ⟨false, false, .char⟩)

/-- bit_details.hpp:38-54, `binary_digits<UIntType>::value`; `none` if it does not compile. The base class is chosen by the qualifiers; it is
instantiated, so its assertions are checked, too. -/
def binaryDigits (cu : Bool) (q : QTy) : Option Nat :=
  if q.c || q.v then
    if QTy.digitsAsserts cu ⟨false, false, q.t⟩ && q.digitsAsserts cu then some (q.t.digits cu) else none
  else if q.digitsAsserts cu then some (q.t.digits cu) else none

/-- The iterator tags of the standard library. -/
inductive Tag where
  | input | output | forward | bidirectional | randomAccess
  deriving DecidableEq, Repr

/-- The tag a tag is derived from. -/
def Tag.parent : Tag → Option Tag
  | .forward => some .input
  | .bidirectional => some .forward
  | .randomAccess => some .bidirectional
  | .input | .output => none

/-- `std::is_base_of_v<a, b>`: `b` is `a` or derived from it; there are at most three steps. -/
def Tag.isBaseOf (a b : Tag) : Bool :=
  b == a || b.parent == some a || (b.parent.bind Tag.parent) == some a || ((b.parent.bind Tag.parent).bind Tag.parent) == some a

/-- `std::iterator_traits<T>::iterator_category`, `none` if there is no such type. `tags` says which classes are iterators. A `const` or `volatile`
class has the member types of the class, a `const` pointer is not matched by the specialisation for pointers; the category of a `bit_iterator` is that
of its iterator (bit_details.hpp:91, bit_iterator.hpp:40). -/
def category (tags : Nat → Option Tag) : CTy → Bool → Option Tag
  | .ptr _ _ _, qualified => if qualified then none else some .randomAccess
  | .cls k, _ => tags k
  | .bitIter c v t, _ => category tags t (c || v)
  | _, _ => none

def QTy.category (tags : Nat → Option Tag) (q : QTy) : Option Tag := BitLib.category tags q.t (q.c || q.v)

/-- type_traits.hpp:34-66, `is_bit`: specialised for three kinds of types, without qualifiers. -/
def isBit (q : QTy) : Bool :=
  match q with
  | ⟨false, false, .bit⟩ | ⟨false, false, .bitValue⟩ | ⟨false, false, .bitRef _ _ _⟩ => true
  | _ => false

/-- type_traits.hpp:70-82, `is_iterator`: `value_type` exists; it does when the category does. -/
def isIterator (tags : Nat → Option Tag) (q : QTy) : Bool := (q.category tags).isSome

/-- type_traits.hpp:86-190, `is_forward_iterator`, `is_bidirectional_iterator`, `is_random_access_iterator`, `is_input_iterator` and
`is_output_iterator`: `std::is_base_of_v<tag, category>`. -/
def isIteratorOf (tags : Nat → Option Tag) (tag : Tag) (q : QTy) : Bool :=
  match q.category tags with
  | some c => tag.isBaseOf c
  | none => false

end BitLib
