import Verif.Model.Vector
/-
The members of `bit_vector` again (include/bitlib/bit-containers/bit_vector.hpp), with an allocator that can refuse.

A member function is a program on the heap and on the object: `length_` and `word_vector` change at the statement that changes them, and an
exception leaves heap and object as they are at that point. `Model/Vector` is the case in which every request is granted.

`std::vector`: a call that needs more storage asks for it first and does nothing else if the request fails (the guarantee of the standard for
`push_back`, `resize`, `reserve` of trivially copyable elements; for copy assignment, which the standard leaves open, as in libstdc++).
`shrink_to_fit` may or may not report a failed request. The object is default constructed before the body of a constructor runs; if
the body throws, the destructor of `word_vector` runs.
-/
namespace BitLib
variable {w : Nat}

/-- The allocator: `max_size()` of the word vector, and whether a request for a number of words is granted (the first unused address
stands for the history of the allocator). -/
structure Alloc where
  maxWords : Nat
  grants : Int → Nat → Bool
  /-- does `shrink_to_fit` pass on a failed request -/
  shrinkThrows : Bool

/-- How a run can end without returning or throwing. -/
inductive Halt where
  | ub (e : UB)
  /-- `std::terminate`: an exception leaves a `noexcept` function -/
  | terminate
  deriving DecidableEq, Repr

/-- Programs on the heap and one object, in which an exception keeps the state. -/
abbrev T (w : Nat) := ExceptT Exn (StateT (Heap w × BV) (Except Halt))

namespace Obj

/-- The object, `*this`. -/
def this : T w BV := fun s => .ok (.ok s.2, s)
/-- `length_ = n`. -/
def setLength (n : Nat) : T w Unit := fun s => .ok (.ok (), (s.1, ⟨s.2.vec, n⟩))
/-- An algorithm on memory. -/
def onMemory {α : Type} (p : M w α) : T w α := fun s =>
  match p s.1.mem with
  | .ok (a, m) => .ok (.ok a, ({ s.1 with mem := m }, s.2))
  | .error e => .error (.ub e)
/-- A member function of `word_vector` once its storage is granted. -/
def words (p : Vec → V w Vec) : T w Unit := fun s =>
  match p s.2.vec s.1 with
  | .ok (u, h) => .ok (.ok (), (h, ⟨u, s.2.length⟩))
  | .error (.ub e) => .error (.ub e)
  | .error (.throw e) => .ok (.error e, s)
/-- An `if` without `else`. -/
def onlyIf (c : Prop) [Decidable c] (p : T w Unit) : T w Unit := if c then p else pure ()
/-- Ask for storage of `cap` words, `n` of which are needed. -/
def request (A : Alloc) (n cap : Nat) : T w Unit := fun s =>
  if A.maxWords < n then .ok (.error .lengthError, s)
  else if A.grants s.1.next cap then .ok (.ok (), s) else .ok (.error .badAlloc, s)

/-- `word_vector.push_back(x)`. -/
def wordsPushBack (A : Alloc) (P : Policy) (x : BitVec w) : T w Unit := do
  let v ← this
  onlyIf (v.vec.cap < v.vec.size + 1) (request A (v.vec.size + 1) (P.grow v.vec.cap (v.vec.size + 1)))
  words fun u => u.pushBack P x

/-- `word_vector.resize(n)`. -/
def wordsResize (A : Alloc) (P : Policy) (n : Nat) : T w Unit := do
  let v ← this
  onlyIf (v.vec.size < n ∧ v.vec.cap < n) (request A n (P.grow v.vec.cap n))
  words fun u => u.resize P n

/-- `word_vector.reserve(n)`. -/
def wordsReserve (A : Alloc) (P : Policy) (n : Nat) : T w Unit := do
  let v ← this
  onlyIf (v.vec.cap < n) (request A n (P.alloc n))
  words fun u => u.reserve P n

/-- `word_vector.shrink_to_fit()`: nothing happens if the request is refused. -/
def wordsShrink (A : Alloc) (P : Policy) : T w Unit := fun s =>
  if P.shrink s.2.vec.size s.2.vec.cap && !A.grants s.1.next s.2.vec.size then
    if A.shrinkThrows then .ok (.error .badAlloc, s) else .ok (.ok (), s)
  else words (fun u => u.shrinkToFit P) s

/-- `word_vector = std::vector(n)` and the like: construction with `n` words; no storage is requested for no words. -/
def wordsInit (A : Alloc) (P : Policy) (n : Nat) (f : Nat → Option (BitVec w)) : T w Unit := do
  onlyIf (0 < n) (request A n (P.alloc n))
  words fun _ => Vec.fresh P n f

/-- bit_vector.hpp:593-601, `push_back`. -/
def pushBack (S : ShiftSem w) (A : Alloc) (P : Policy) (b : Bool) : T w Unit := do
  let v ← this
  onlyIf (v.vec.size * w = v.length) (wordsPushBack A P 0#w)
  let v ← this
  let r ← onMemory (lift (v.begin.index S (v.length : Int)))
  onMemory (r.assignVal ⟨b⟩)
  setLength (v.length + 1)

/-- bit_vector.hpp:602-609, `pop_back`. -/
def popBack : T w Unit := do
  let v ← this
  setLength (subSize v.length 1)
  let v ← this
  onlyIf (v.length % w = 0) (words fun u => u.popBack)

/-- bit_vector.hpp:506-520, `insert(pos, value)`. -/
def insert (S : ShiftSem w) (A : Alloc) (P : Policy) (pos : BitIter w) (b : Bool) : T w (BitIter w) := do
  let v ← this
  let d ← onMemory (distance v.begin pos)
  onlyIf (v.vec.size * w = v.length) (wordsPushBack A P 0#w)
  let v ← this
  setLength (v.length + 1)
  let v ← this
  let _ ← onMemory (shiftRight S (v.begin.add d) (v.begin.add (v.length : Int)) 1)
  let r ← onMemory (lift (v.begin.index S d))
  onMemory (r.assignVal ⟨b⟩)
  pure (v.begin.add d)

/-- bit_vector.hpp:531-537 and 554-560: grow the word vector for `count` more bits, computing in single precision. -/
def growFor (A : Alloc) (P : Policy) (count : Nat) : T w Unit := do
  let v ← this
  let avail := f32 (v.vec.size * w)
  onlyIf (f32 (v.length + count) > avail) do
    let x ← onMemory (lift (floatToU32 (f32 (f32 (v.length + count) - avail))))
    wordsResize A P (v.vec.size + wordCount w x)

/-- bit_vector.hpp:522-542, `insert(pos, count, value)`. -/
def insertN (S : ShiftSem w) (A : Alloc) (P : Policy) (pos : BitIter w) (count : Nat) (b : Bool) : T w (BitIter w) := do
  let v ← this
  let d ← onMemory (distance v.begin pos)
  if count = 0 then pure (v.begin.add d)
  else do
    growFor A P count
    let v ← this
    setLength (v.length + count)
    let v ← this
    let _ ← onMemory (shiftRight S (v.begin.add d) (v.begin.add (v.length : Int)) (count : Int))
    onMemory (fill S (v.begin.add d) ((v.begin.add d).add (count : Int)) b)
    pure (v.begin.add d)

/-- bit_vector.hpp:544-565, `insert(pos, first, last)`. -/
def insertRange (S : ShiftSem w) (A : Alloc) (P : Policy) (pos first last : BitIter w) : T w (BitIter w) := do
  let v ← this
  let d ← onMemory (distance v.begin pos)
  let c ← onMemory (distance first last)
  let count := toSize c
  if count = 0 then pure (v.begin.add d)
  else do
    growFor A P count
    let v ← this
    setLength (v.length + count)
    let v ← this
    let _ ← onMemory (shiftRight S (v.begin.add d) (v.begin.add (v.length : Int)) (count : Int))
    let _ ← onMemory (copy S first last (v.begin.add d))
    pure (v.begin.add d)

/-- bit_vector.hpp:567-576, `erase(pos)`. -/
def erase (S : ShiftSem w) (pos : BitIter w) : T w (BitIter w) := do
  let v ← this
  let _ ← onMemory (shiftLeft S pos (v.begin.add (v.length : Int)) 1)
  setLength (subSize v.length 1)
  let v ← this
  onlyIf (v.length % w = 0) (words fun u => u.popBack)
  pure pos

/-- bit_vector.hpp:578-590, `erase(first, last)`. -/
def eraseRange (S : ShiftSem w) (A : Alloc) (P : Policy) (first last : BitIter w) : T w (BitIter w) := do
  let v ← this
  let d ← onMemory (distance v.begin first)
  let count ← onMemory (distance first last)
  if count = 0 then pure last
  else do
    let _ ← onMemory (shiftLeft S first v.end count)
    setLength (toSize ((v.length : Int) - count))
    let v ← this
    wordsResize A P (wordCount w v.length)
    let v ← this
    pure (v.begin.add d)

/-- bit_vector.hpp:611-616, `resize(count)`. -/
def resize (A : Alloc) (P : Policy) (count : Nat) : T w Unit := do
  wordsResize A P (wordCount w count)
  setLength count

/-- bit_vector.hpp:618-627, `resize(count, value)`. -/
def resizeVal (S : ShiftSem w) (A : Alloc) (P : Policy) (count : Nat) (b : Bool) : T w Unit := do
  let v ← this
  let old := v.length
  wordsResize A P (wordCount w count)
  setLength count
  let v ← this
  onlyIf (v.length > old) (onMemory (fill S (v.begin.add (v.length : Int)) v.end b))

/-- bit_vector.hpp:481-484, `reserve`. -/
def reserve (A : Alloc) (P : Policy) (n : Nat) : T w Unit := wordsReserve A P (wordCount w n)

/-- bit_vector.hpp:493-496, `shrink_to_fit`. -/
def shrinkToFit (A : Alloc) (P : Policy) : T w Unit := wordsShrink A P

/-- bit_vector.hpp:501-504, `clear`. -/
def clear : T w Unit := do
  words fun u => u.clear
  setLength 0

/-- bit_vector.hpp:133, copy assignment (`= default`): the words, then `length_`. -/
def copyAssign (A : Alloc) (P : Policy) (o : BV) : T w Unit := do
  let v ← this
  onlyIf (v.vec.cap < o.vec.size) (request A o.vec.size (P.alloc o.vec.size))
  words fun u => u.copyAssign P o.vec
  setLength o.length

/-- Assigning an element: `v[pos] = b`. -/
def set (S : ShiftSem w) (pos : Nat) (b : Bool) : T w Unit := do
  let v ← this
  let r ← onMemory (lift (v.begin.index S (pos : Int)))
  onMemory (r.assignVal ⟨b⟩)

/-- bit_vector.hpp:364-382, `at`. -/
def at_ (S : ShiftSem w) (pos : Nat) : T w (BitRef w) := do
  let v ← this
  if pos < v.length then onMemory (lift (v.begin.index S (pos : Int)))
  else fun s => .ok (.error .outOfRange, s)

/-! ### Constructors: programs started on a default constructed object -/

/-- bit_vector.hpp:209-213, `bit_vector(count, bit_val)`. -/
def ofCountVal (A : Alloc) (P : Policy) (count : Nat) (b : Bool) : T w Unit := do
  wordsInit A P (wordCount w count) fun _ => some (if b then BitVec.allOnes w else 0#w)
  setLength count

/-- bit_vector.hpp:215-217, `bit_vector(count)`. -/
def ofCount (A : Alloc) (P : Policy) (count : Nat) : T w Unit := do
  wordsInit A P (wordCount w count) fun _ => some 0#w
  setLength count

/-- bit_vector.hpp:220-228, from a range of bit iterators: one word per bit is allocated. -/
def ofBits (S : ShiftSem w) (A : Alloc) (P : Policy) (first last : BitIter w) : T w Unit := do
  let d ← onMemory (distance first last)
  wordsInit A P (toSize d) fun _ => some 0#w
  let d ← onMemory (distance first last)
  setLength (toSize d)
  let v ← this
  let _ ← onMemory (copy S first last v.begin)

/-- bit_vector.hpp:268-272 (list of words) and 314-328 (range of words). -/
def ofWords (A : Alloc) (P : Policy) (l : List (BitVec w)) : T w Unit := do
  wordsInit A P l.length fun i => l[i]?
  let v ← this
  setLength (v.vec.size * w)

/-- bit_vector.hpp:260-266, from a list of `bool`. -/
def ofBoolList (S : ShiftSem w) (A : Alloc) (P : Policy) : List Bool → T w Unit
  | [] => pure ()
  | b :: l => do
    pushBack S A P b
    ofBoolList S A P l

/-- bit_vector.hpp:291-312, from a range of `bool`: one word per bit is allocated. -/
def ofBoolRange (S : ShiftSem w) (A : Alloc) (P : Policy) (l : List Bool) : T w Unit := do
  wordsInit A P l.length fun _ => some 0#w
  setLength l.length
  let v ← this
  onMemory (BV.writeBools S l v.begin)

/-- bit_vector.hpp:275-288, from a string: one word per digit is allocated. `length_` is set first. -/
def ofString (S : ShiftSem w) (A : Alloc) (P : Policy) (s : List Char) : T w Unit := do
  setLength (s.count '0' + s.count '1')
  let v ← this
  wordsInit A P v.length fun _ => some 0#w
  let v ← this
  onMemory (BV.writeChars S v.begin s 0)

/-- bit_vector.hpp:111, the copy constructor (`= default`). -/
def copyOf (A : Alloc) (P : Policy) (o : BV) : T w Unit := do
  onlyIf (0 < o.vec.size) (request A o.vec.size (P.alloc o.vec.size))
  words fun _ => Vec.copyOf P o.vec
  setLength o.length

/-- What a constructor call leaves behind: the new object, or the exception; the heap. A throwing constructor destroys the words it has. -/
def construct (p : T w Unit) (h : Heap w) : Except Halt (Except Exn BV × Heap w) :=
  match p (h, BV.default) with
  | .error e => .error e
  | .ok (.ok (), (h', v)) => .ok (.ok v, h')
  | .ok (.error e, (h', v)) => .ok (.error e, { h' with mem := h'.mem.place v.vec.ptr v.vec.cap fun _ => none })

/-- bit_vector.hpp:244-246, the constructor from `const bit_vector&&`. It is `noexcept` and its argument is `const`, so `std::move` of
the words copies them. -/
def moveConstruct (A : Alloc) (P : Policy) (o : BV) (h : Heap w) : Except Halt (BV × Heap w) :=
  match construct (copyOf A P o) h with
  | .error e => .error e
  | .ok (.ok v, h') => .ok (v, h')
  | .ok (.error _, _) => .error .terminate

end Obj

end BitLib
