import Verif.Model.Shift
import Verif.Model.Query
import Verif.Model.Copy
import Verif.Model.Ref
/-
`bit_vector` (include/bitlib/bit-containers/bit_vector.hpp) over a model of `std::vector`.

The heap maps word addresses to constructed words. A `std::vector` owns the addresses `[ptr, ptr + cap)`, of which exactly the first
`size` hold constructed words: reading or writing any other address is the outcome `outOfBounds`. Fresh storage is taken from
addresses that were never used before, so a pointer into released storage is never valid again.

Simplifications: allocation succeeds here (`Model/Throw` has the members with an allocator that can refuse); sizes are natural numbers (no `size_t` wrap-around in
`size() * digits` or `length_ + count`; buffers of `2^61` words do not exist), except where the code itself narrows to
`unsigned int`, `float` or `int`. `const_iterator` is the same type as `iterator`.
-/
namespace BitLib
variable {w : Nat}

/-- The heap: constructed words, and the first address never handed out. -/
structure Heap (w : Nat) where
  mem : Mem w
  next : Int

/-- The exceptions thrown by the modelled functions. -/
inductive Exn where
  | outOfRange
  /-- thrown by `std::vector` for more than `max_size()` elements -/
  | lengthError
  /-- thrown by the allocator -/
  | badAlloc
  deriving DecidableEq, Repr

/-- How a run can stop early. -/
inductive Stop where
  | ub (e : UB)
  | throw (e : Exn)
  deriving DecidableEq, Repr

/-- Programs working on the heap. -/
abbrev V (w : Nat) := StateT (Heap w) (Except Stop)

/-- A program on memory, run on the heap. -/
def onMem {α : Type} (p : M w α) : V w α := fun h =>
  match p h.mem with
  | .ok (a, m) => .ok (a, { h with mem := m })
  | .error e => .error (.ub e)

def ubV {α : Type} (e : UB) : V w α := fun _ => .error (.ub e)
def throwV {α : Type} (e : Exn) : V w α := fun _ => .error (.throw e)

/-! ### `std::vector` -/

/-- What the standard leaves to the implementation of `std::vector`. -/
structure Policy where
  /-- capacity chosen when a vector of capacity `cap` must hold `need` elements -/
  grow : Nat → Nat → Nat
  grow_ok : ∀ cap need, need ≤ grow cap need
  /-- capacity chosen for a new vector, or by `reserve` -/
  alloc : Nat → Nat
  alloc_ok : ∀ n, n ≤ alloc n
  /-- is `shrink_to_fit` honoured, given size and capacity -/
  shrink : Nat → Nat → Bool

/-- A `std::vector<WordType>`. -/
structure Vec where
  ptr : Int
  size : Nat
  cap : Nat
  deriving DecidableEq, Repr

/-- The words of `[a, a + n)` become `f 0, f 1, ...` (`none`: destroyed). -/
def Mem.place (m : Mem w) (a : Int) (n : Nat) (f : Nat → Option (BitVec w)) : Mem w := fun b =>
  if a ≤ b ∧ b < a + (n : Int) then f (b - a).toNat else m b

namespace Vec

/-- `std::vector()`; also the state left behind by a move. The null pointer is the address -1, which is never handed out. -/
def empty : Vec := ⟨-1, 0, 0⟩

/-- A new vector holding the words `f 0, ..., f (n - 1)`. -/
def fresh (P : Policy) (n : Nat) (f : Nat → Option (BitVec w)) : V w Vec := fun h =>
  .ok (⟨h.next, n, P.alloc n⟩, ⟨h.mem.place h.next n f, h.next + (P.alloc n : Int) + 1⟩)

/-- The destructor: destroys the words and releases the storage. -/
def release (v : Vec) : V w Unit := fun h => .ok ((), { h with mem := h.mem.place v.ptr v.cap fun _ => none })

/-- Move the words to new storage of the given capacity. -/
def realloc (v : Vec) (cap : Nat) : V w Vec := fun h =>
  .ok (⟨h.next, v.size, cap⟩,
    ⟨(h.mem.place v.ptr v.cap fun _ => none).place h.next v.size fun i => h.mem (v.ptr + (i : Int)), h.next + (cap : Int) + 1⟩)

/-- Make room for `n` words. -/
def ensure (P : Policy) (v : Vec) (n : Nat) : V w Vec := if n ≤ v.cap then pure v else v.realloc (P.grow v.cap n)

/-- `resize(n)`: new words are value-initialised. -/
def resize (P : Policy) (v : Vec) (n : Nat) : V w Vec :=
  if n ≤ v.size then fun h =>
    .ok ({ v with size := n }, { h with mem := h.mem.place (v.ptr + (n : Int)) (v.size - n) fun _ => none })
  else do
    let v ← v.ensure P n
    fun h => .ok ({ v with size := n }, { h with mem := h.mem.place (v.ptr + (v.size : Int)) (n - v.size) fun _ => some 0#w })

/-- `push_back(x)`. -/
def pushBack (P : Policy) (v : Vec) (x : BitVec w) : V w Vec := do
  let v ← v.ensure P (v.size + 1)
  fun h => .ok ({ v with size := v.size + 1 }, { h with mem := h.mem.place (v.ptr + (v.size : Int)) 1 fun _ => some x })

/-- `pop_back()`: undefined on an empty vector. -/
def popBack (v : Vec) : V w Vec :=
  if v.size = 0 then ubV .outOfBounds
  else fun h => .ok ({ v with size := v.size - 1 }, { h with mem := h.mem.place (v.ptr + ((v.size - 1 : Nat) : Int)) 1 fun _ => none })

/-- `reserve(n)`. -/
def reserve (P : Policy) (v : Vec) (n : Nat) : V w Vec := if n ≤ v.cap then pure v else v.realloc (P.alloc n)

/-- `shrink_to_fit()`: a request that need not be honoured. -/
def shrinkToFit (P : Policy) (v : Vec) : V w Vec := if P.shrink v.size v.cap then v.realloc v.size else pure v

/-- `clear()`: the capacity stays. -/
def clear (v : Vec) : V w Vec := fun h =>
  .ok ({ v with size := 0 }, { h with mem := h.mem.place v.ptr v.size fun _ => none })

/-- The copy constructor. -/
def copyOf (P : Policy) (o : Vec) : V w Vec := fun h => fresh P o.size (fun i => h.mem (o.ptr + (i : Int))) h

/-- Copy assignment: the storage is reused if it is large enough. -/
def copyAssign (P : Policy) (v o : Vec) : V w Vec :=
  if o.size ≤ v.cap then fun h =>
    .ok ({ v with size := o.size },
      { h with mem := (h.mem.place v.ptr v.cap fun _ => none).place v.ptr o.size fun i => h.mem (o.ptr + (i : Int)) })
  else do
    let n ← copyOf P o
    v.release
    pure n

/-- Move assignment: the storage changes hands. Returns the target and the source after the call. -/
def moveAssign (v o : Vec) : V w (Vec × Vec) := do
  v.release
  pure (o, empty)

end Vec

/-! ### `bit_vector` -/

/-- bit_vector.hpp:37-40: the words and the number of bits. -/
structure BV where
  vec : Vec
  length : Nat
  deriving DecidableEq, Repr

/-- bit_vector.hpp:44-46, `word_count(unsigned int num_bits)`: the argument is converted to 32 bits. -/
def wordCount (w n : Nat) : Nat := (n % 2 ^ 32 + w - 1) / w

/-- Conversion of an unsigned integer to `float`: 24 significant bits, round to nearest, ties to even. -/
def f32 (n : Nat) : Nat :=
  if n < 2 ^ 24 then n
  else
    let e := n.log2 - 23
    let q := n / 2 ^ e
    let r := n % 2 ^ e
    let q := if 2 * r > 2 ^ e ∨ (2 * r = 2 ^ e ∧ q % 2 = 1) then q + 1 else q
    q * 2 ^ e

/-- Conversion of a non-negative integral `float` to `unsigned int`. -/
def floatToU32 (x : Nat) : Except UB Nat := if x < 2 ^ 32 then .ok x else .error .badConversion

namespace BV

/-- bit_vector.hpp:424-429, `begin()`. -/
def begin (v : BV) : BitIter w := ⟨v.vec.ptr, 0⟩
/-- bit_vector.hpp:431-435, `end()`. -/
def «end» (v : BV) : BitIter w := BitIter.add v.begin (v.length : Int)
/-- bit_vector.hpp:470-474, `size()`. -/
def size (v : BV) : Nat := v.length
/-- bit_vector.hpp:464-468, `empty()`. -/
def isEmpty (v : BV) : Bool := decide (v.length = 0)
/-- bit_vector.hpp:487-491, `capacity()`. -/
def capacity (w : Nat) (v : BV) : Nat := v.vec.cap * w

/-- bit_vector.hpp:476-479, `max_size()`, given `max_size()` of the word vector; the product is taken in `size_t`. -/
def maxSize (w vecMax : Nat) : Nat := (vecMax * w) % 2 ^ 64
/-- bit_vector.hpp:408-412, `data()` (`none`: null). `word_vector[0]` must exist. -/
def data (v : BV) : Except UB (Option Int) :=
  if v.length ≠ 0 then if 0 < v.vec.size then .ok (some v.vec.ptr) else .error .outOfBounds else .ok none
/-- bit_vector.hpp:414-418, `data() const`. -/
def dataConst (v : BV) : Option Int := if v.vec.size ≠ 0 then some v.vec.ptr else none

/-- bit_vector.hpp:204, default constructor. -/
def default : BV := ⟨Vec.empty, 0⟩

/-- bit_vector.hpp:209-213, `bit_vector(count, bit_val)`. -/
def ofCountVal (P : Policy) (count : Nat) (b : Bool) : V w BV := do
  let vec ← Vec.fresh P (wordCount w count) fun _ => some (if b then BitVec.allOnes w else 0#w)
  pure ⟨vec, count⟩

/-- bit_vector.hpp:215-217, `bit_vector(count)`. -/
def ofCount (P : Policy) (count : Nat) : V w BV := do
  let vec ← Vec.fresh P (wordCount w count) fun _ => some 0#w
  pure ⟨vec, count⟩

/-- bit_vector.hpp:220-228, from a range of bit iterators: one word per bit is allocated. -/
def ofBits (S : ShiftSem w) (P : Policy) (first last : BitIter w) : V w BV := do
  let d ← onMem (distance first last)
  let vec ← Vec.fresh P (toSize d) fun _ => some 0#w
  let d ← onMem (distance first last)
  let v : BV := ⟨vec, toSize d⟩
  let _ ← onMem (copy S first last v.begin)
  pure v

/-- bit_vector.hpp:268-272 (list of words) and 314-328 (range of words). -/
def ofWords (P : Policy) (l : List (BitVec w)) : V w BV := do
  let vec ← Vec.fresh P l.length fun i => l[i]?
  pure ⟨vec, vec.size * w⟩

/-- bit_vector.hpp:511-513 and 594-596: append a word if all words are in use. -/
def room (P : Policy) (v : BV) : V w Vec := if v.vec.size * w = v.length then v.vec.pushBack P 0#w else pure v.vec

/-- bit_vector.hpp:571-573 and 605-607: drop the last word if the new length is a multiple of `digits`. -/
def dropWord (vec : Vec) (length : Nat) : V w Vec := if length % w = 0 then vec.popBack else pure vec

/-- bit_vector.hpp:593-601, `push_back`. -/
def pushBack (S : ShiftSem w) (P : Policy) (v : BV) (b : Bool) : V w BV := do
  let vec ← v.room P
  let v : BV := ⟨vec, v.length⟩
  let r ← onMem (lift (v.begin.index S (v.length : Int)))
  onMem (r.assignVal ⟨b⟩)
  pure ⟨vec, v.length + 1⟩

/-- bit_vector.hpp:260-266, from a list of `bool`. -/
def ofBoolList (S : ShiftSem w) (P : Policy) (l : List Bool) : V w BV :=
  l.foldlM (fun v b => v.pushBack S P b) default

/-- `std::transform(first, last, d, [](bool b) {return static_cast<bit_value>(b);})` on a sequence of `bool`. -/
def writeBools (S : ShiftSem w) : List Bool → BitIter w → M w Unit
  | [], _ => pure ()
  | b :: l, d => do
    let r ← lift (d.deref S)
    r.assignVal ⟨b⟩
    writeBools S l d.inc

/-- bit_vector.hpp:291-312, from a range of `bool`: one word per bit is allocated. -/
def ofBoolRange (S : ShiftSem w) (P : Policy) (l : List Bool) : V w BV := do
  let vec ← Vec.fresh P l.length fun _ => some 0#w
  let v : BV := ⟨vec, l.length⟩
  onMem (writeBools S l v.begin)
  pure v

/-- bit_vector.hpp:279-287, the loop over the characters. -/
def writeChars (S : ShiftSem w) (it : BitIter w) : List Char → Nat → M w Unit
  | [], _ => pure ()
  | c :: l, i =>
    if c = '0' then do
      let r ← lift (it.index S (i : Int))
      r.assignVal ⟨false⟩
      writeChars S it l (i + 1)
    else if c = '1' then do
      let r ← lift (it.index S (i : Int))
      r.assignVal ⟨true⟩
      writeChars S it l (i + 1)
    else writeChars S it l i

/-- bit_vector.hpp:275-288, from a string: one word per digit is allocated. -/
def ofString (S : ShiftSem w) (P : Policy) (s : List Char) : V w BV := do
  let n := s.count '0' + s.count '1'
  let vec ← Vec.fresh P n fun _ => some 0#w
  let v : BV := ⟨vec, n⟩
  onMem (writeChars S v.begin s 0)
  pure v

/-- bit_vector.hpp:113, the copy constructor (`= default`); also 244-250: the constructors from `const bit_vector&&` move from a
`const` vector, which copies it. -/
def copyOf (P : Policy) (o : BV) : V w BV := do
  let vec ← Vec.copyOf P o.vec
  pure ⟨vec, o.length⟩

/-- bit_vector.hpp:331-337, the destructor. -/
def destroy (v : BV) : V w Unit := v.vec.release

/-- bit_vector.hpp:132, copy assignment (`= default`). -/
def copyAssign (P : Policy) (v o : BV) : V w BV := do
  let vec ← Vec.copyAssign P v.vec o.vec
  pure ⟨vec, o.length⟩

/-- bit_vector.hpp:343-350, move assignment from another object. Returns the target and the source after the call. -/
def moveAssign (v o : BV) : V w (BV × BV) := do
  let (a, b) ← Vec.moveAssign v.vec o.vec
  pure (⟨a, o.length⟩, ⟨b, 0⟩)

/-- bit_vector.hpp:356-362, `operator[]`. -/
def index (S : ShiftSem w) (v : BV) (pos : Nat) : V w (BitRef w) := onMem (lift (v.begin.index S (pos : Int)))

/-- bit_vector.hpp:364-382, `at`. -/
def at_ (S : ShiftSem w) (v : BV) (pos : Nat) : V w (BitRef w) :=
  if pos < v.length then onMem (lift (v.begin.index S (pos : Int))) else throwV .outOfRange

/-- bit_vector.hpp:384-394, `front`. -/
def front (S : ShiftSem w) (v : BV) : V w (BitRef w) := onMem (lift (v.begin.index S 0))

/-- bit_vector.hpp:396-406, `back`: `begin()[length_ - 1]`; `length_ - 1` is taken in `size_t` and converted to the signed
`difference_type`, so that it is -1 for an empty vector. -/
def back (S : ShiftSem w) (v : BV) : V w (BitRef w) := onMem (lift (v.begin.index S ((v.length : Int) - 1)))

/-- Reading an element: `static_cast<bool>(v[pos])`. -/
def get (S : ShiftSem w) (v : BV) (pos : Nat) : V w Bool := do
  let r ← v.index S pos
  onMem r.toBool

/-- Assigning an element: `v[pos] = b`. -/
def set (S : ShiftSem w) (v : BV) (pos : Nat) (b : Bool) : V w BV := do
  let r ← v.index S pos
  onMem (r.assignVal ⟨b⟩)
  pure v

/-- bit_vector.hpp:481-484, `reserve`. -/
def reserve (P : Policy) (v : BV) (n : Nat) : V w BV := do
  let vec ← v.vec.reserve P (wordCount w n)
  pure ⟨vec, v.length⟩

/-- bit_vector.hpp:493-496, `shrink_to_fit`. -/
def shrinkToFit (P : Policy) (v : BV) : V w BV := do
  let vec ← v.vec.shrinkToFit P
  pure ⟨vec, v.length⟩

/-- bit_vector.hpp:501-504, `clear`. -/
def clear (v : BV) : V w BV := do
  let vec ← v.vec.clear
  pure ⟨vec, 0⟩

/-- bit_vector.hpp:506-520, `insert(pos, value)`. Returns the vector and the iterator. -/
def insert (S : ShiftSem w) (P : Policy) (v : BV) (pos : BitIter w) (b : Bool) : V w (BV × BitIter w) := do
  let d ← onMem (distance v.begin pos)
  let vec ← v.room P
  let v : BV := ⟨vec, v.length + 1⟩
  let _ ← onMem (shiftRight S (v.begin.add d) (v.begin.add (v.length : Int)) 1)
  let r ← onMem (lift (v.begin.index S d))
  onMem (r.assignVal ⟨b⟩)
  pure (v, v.begin.add d)

/-- bit_vector.hpp:531-537 and 554-560: grow the word vector for `count` more bits, computing in single precision.
`length_ + count > bits_available` compares two `float`s; the difference is a `float` converted to `unsigned int`. -/
def growFor (P : Policy) (v : BV) (count : Nat) : V w Vec := do
  let avail := f32 (v.vec.size * w)
  if f32 (v.length + count) > avail then do
    let x ← onMem (lift (floatToU32 (f32 (f32 (v.length + count) - avail))))
    v.vec.resize P (v.vec.size + wordCount w x)
  else pure v.vec

/-- bit_vector.hpp:522-542, `insert(pos, count, value)`. -/
def insertN (S : ShiftSem w) (P : Policy) (v : BV) (pos : BitIter w) (count : Nat) (b : Bool) : V w (BV × BitIter w) := do
  let d ← onMem (distance v.begin pos)
  if count = 0 then pure (v, v.begin.add d)
  else do
    let vec ← growFor P v count
    let v : BV := ⟨vec, v.length + count⟩
    let _ ← onMem (shiftRight S (v.begin.add d) (v.begin.add (v.length : Int)) (count : Int))
    onMem (fill S (v.begin.add d) ((v.begin.add d).add (count : Int)) b)
    pure (v, v.begin.add d)

/-- bit_vector.hpp:544-565, `insert(pos, first, last)`. -/
def insertRange (S : ShiftSem w) (P : Policy) (v : BV) (pos first last : BitIter w) : V w (BV × BitIter w) := do
  let d ← onMem (distance v.begin pos)
  let c ← onMem (distance first last)
  let count := toSize c
  if count = 0 then pure (v, v.begin.add d)
  else do
    let vec ← growFor P v count
    let v : BV := ⟨vec, v.length + count⟩
    let _ ← onMem (shiftRight S (v.begin.add d) (v.begin.add (v.length : Int)) (count : Int))
    let _ ← onMem (copy S first last (v.begin.add d))
    pure (v, v.begin.add d)

/-- bit_vector.hpp:567-576, `erase(pos)`. -/
def erase (S : ShiftSem w) (v : BV) (pos : BitIter w) : V w (BV × BitIter w) := do
  let _ ← onMem (shiftLeft S pos (v.begin.add (v.length : Int)) 1)
  let length := subSize v.length 1
  let vec ← dropWord v.vec length
  pure (⟨vec, length⟩, pos)

/-- bit_vector.hpp:578-590, `erase(first, last)`. -/
def eraseRange (S : ShiftSem w) (P : Policy) (v : BV) (first last : BitIter w) : V w (BV × BitIter w) := do
  let d ← onMem (distance v.begin first)
  let count ← onMem (distance first last)
  if count = 0 then pure (v, last)
  else do
    let _ ← onMem (shiftLeft S first v.end count)
    let length := toSize ((v.length : Int) - count)
    let vec ← v.vec.resize P (wordCount w length)
    let v : BV := ⟨vec, length⟩
    pure (v, v.begin.add d)

/-- bit_vector.hpp:602-609, `pop_back`. -/
def popBack (v : BV) : V w BV := do
  let length := subSize v.length 1
  let vec ← dropWord v.vec length
  pure ⟨vec, length⟩

/-- bit_vector.hpp:611-616, `resize(count)`. -/
def resize (P : Policy) (v : BV) (count : Nat) : V w BV := do
  let vec ← v.vec.resize P (wordCount w count)
  pure ⟨vec, count⟩

/-- bit_vector.hpp:618-627, `resize(count, value)`: the range filled is `[begin() + length_, end())` with the new `length_`. -/
def resizeVal (S : ShiftSem w) (P : Policy) (v : BV) (count : Nat) (b : Bool) : V w BV := do
  let old := v.length
  let vec ← v.vec.resize P (wordCount w count)
  let v : BV := ⟨vec, count⟩
  if v.length > old then do
    onMem (fill S (v.begin.add (v.length : Int)) v.end b)
    pure v
  else pure v

/-- bit_vector.hpp:657-668, the loop of `debug_string`; `position` is an `int`. -/
def debugLoop (S : ShiftSem w) : Nat → BitIter w → BitIter w → Nat → List Char → M w (List Char)
  | 0, _, _, _, _ => ub .outOfFuel
  | fuel+1, it, last, position, ret =>
    if it.bne last then do
      let ret := if position % w = 0 ∧ position ≠ 0 then ret ++ [' ']
        else if position % 8 = 0 ∧ position ≠ 0 then ret ++ ['.'] else ret
      let r ← lift (it.deref S)
      let b ← r.toBool
      let ret := ret ++ [if b then '1' else '0']
      if position + 1 < 2 ^ 31 then debugLoop S fuel it.inc last (position + 1) ret
      else ub .signedOverflow
    else pure ret

/-- bit_vector.hpp:651-670, `debug_string()`. -/
def debugString (S : ShiftSem w) (v : BV) : V w (List Char) :=
  onMem (debugLoop S (v.length + 1) v.begin v.end 0 [])

end BV
end BitLib
