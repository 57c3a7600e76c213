import Verif.SpecPointersVec
import Verif.Model.Pointers
/-
The members of `bit_vector` that move word iterators, with the checks of `Model/Pointers`. The array is that of the words of the vector at the time.
-/
namespace BitLib
namespace Ptr
variable {w : Nat}

/-- A program of `V` inside a program that checks word iterators. -/
def upV {α : Type} (p : V w α) : PV w α := fun h =>
  match p h with
  | .ok r => .ok r
  | .error e => .error (.stop e)

/-- A checked program on memory, run on the heap. -/
def onP {α : Type} (p : P w α) : PV w α := fun h =>
  match p h.mem with
  | .ok (a, m) => .ok (a, { h with mem := m })
  | .error (.ub e) => .error (.stop (.ub e))
  | .error (.pointer A a) => .error (.pointer A a)

/-- bit_vector.hpp:431-435, 443-447 and 455-459, `end()` and `cend()`: `begin() + length_`. -/
def vEnd (v : BV) : PV w (BitIter w) := onP (add v.vec.arr v.begin (v.length : Int))

/-- bit_iterator.hpp:220-234, `it[n]`: `*std::next(_current, diff)` with the `diff` of `it + n`, so that the word of `it + n` has to be in the array. -/
def iIndex (A : Arr) (S : ShiftSem w) (it : BitIter w) (n : Int) : P w (BitRef w) := do
  deref A (it.add n).base
  up (lift (it.index S n))

/-- `begin()[n]`. -/
def vIndex (S : ShiftSem w) (v : BV) (n : Int) : PV w (BitRef w) := onP (iIndex v.vec.arr S v.begin n)

/-- bit_vector.hpp:364-382, `at`. -/
def vAt (S : ShiftSem w) (v : BV) (pos : Nat) : PV w (BitRef w) :=
  if pos < v.length then vIndex S v (pos : Int) else upV (throwV .outOfRange)

/-- bit_vector.hpp:384-394, `front`. -/
def vFront (S : ShiftSem w) (v : BV) : PV w (BitRef w) := vIndex S v 0

/-- bit_vector.hpp:396-406, `back`. -/
def vBack (S : ShiftSem w) (v : BV) : PV w (BitRef w) := vIndex S v ((v.length : Int) - 1)

/-- bit_vector.hpp:220-228, from a range of bit iterators of the array `A`. -/
def vOfBits (A : Arr) (S : ShiftSem w) (Q : Policy) (first last : BitIter w) : PV w BV := do
  let d ← upV (onMem (distance first last))
  let vec ← upV (Vec.fresh Q (toSize d) fun _ => some 0#w)
  let d ← upV (onMem (distance first last))
  let v : BV := ⟨vec, toSize d⟩
  let _ ← onP (copy A vec.arr S first last v.begin)
  pure v

/-- bit_vector.hpp:593-601, `push_back`. -/
def vPushBack (S : ShiftSem w) (Q : Policy) (v : BV) (b : Bool) : PV w BV := do
  let vec ← upV (v.room Q)
  let v : BV := ⟨vec, v.length⟩
  let r ← vIndex S v (v.length : Int)
  upV (onMem (r.assignVal ⟨b⟩))
  pure ⟨vec, v.length + 1⟩

/-- bit_vector.hpp:260-266, from a list of `bool`. -/
def vOfBoolList (S : ShiftSem w) (Q : Policy) (l : List Bool) : PV w BV :=
  l.foldlM (fun v b => vPushBack S Q v b) BV.default

/-- bit_vector.hpp:306-311, the `std::transform` of a range of `bool`: `*d = …; ++d` for each (`*d` is `*_current`, bit_iterator.hpp:202-209). -/
def writeBools (A : Arr) (S : ShiftSem w) : List Bool → BitIter w → P w Unit
  | [], _ => pure ()
  | b :: l, d => do
    deref A d.base
    let r ← up (lift (d.deref S))
    up (r.assignVal ⟨b⟩)
    form A d.inc.base
    writeBools A S l d.inc

/-- bit_vector.hpp:291-312, from a range of `bool`. -/
def vOfBoolRange (S : ShiftSem w) (Q : Policy) (l : List Bool) : PV w BV := do
  let vec ← upV (Vec.fresh Q l.length fun _ => some 0#w)
  let v : BV := ⟨vec, l.length⟩
  onP (writeBools vec.arr S l v.begin)
  pure v

/-- bit_vector.hpp:279-287, the loop over the characters. -/
def writeChars (A : Arr) (S : ShiftSem w) (it : BitIter w) : List Char → Nat → P w Unit
  | [], _ => pure ()
  | c :: l, i =>
    if c = '0' then do
      let r ← iIndex A S it (i : Int)
      up (r.assignVal ⟨false⟩)
      writeChars A S it l (i + 1)
    else if c = '1' then do
      let r ← iIndex A S it (i : Int)
      up (r.assignVal ⟨true⟩)
      writeChars A S it l (i + 1)
    else writeChars A S it l i

/-- bit_vector.hpp:275-288, from a string. -/
def vOfString (S : ShiftSem w) (Q : Policy) (s : List Char) : PV w BV := do
  let n := s.count '0' + s.count '1'
  let vec ← upV (Vec.fresh Q n fun _ => some 0#w)
  let v : BV := ⟨vec, n⟩
  onP (writeChars vec.arr S v.begin s 0)
  pure v

/-- bit_vector.hpp:506-520, `insert(pos, value)`. -/
def vInsert (S : ShiftSem w) (Q : Policy) (v : BV) (pos : BitIter w) (b : Bool) : PV w (BV × BitIter w) := do
  let d ← upV (onMem (distance v.begin pos))
  let vec ← upV (v.room Q)
  let v : BV := ⟨vec, v.length + 1⟩
  let p ← onP (add vec.arr v.begin d)
  let e ← onP (add vec.arr v.begin (v.length : Int))
  let _ ← onP (shiftRight vec.arr S p e 1)
  let r ← vIndex S v d
  upV (onMem (r.assignVal ⟨b⟩))
  let p ← onP (add vec.arr v.begin d)
  pure (v, p)

/-- bit_vector.hpp:522-542, `insert(pos, count, value)`. -/
def vInsertN (S : ShiftSem w) (Q : Policy) (v : BV) (pos : BitIter w) (count : Nat) (b : Bool) : PV w (BV × BitIter w) := do
  let d ← upV (onMem (distance v.begin pos))
  if count = 0 then do
    let p ← onP (add v.vec.arr v.begin d)
    pure (v, p)
  else do
    let vec ← upV (BV.growFor Q v count)
    let v : BV := ⟨vec, v.length + count⟩
    let p ← onP (add vec.arr v.begin d)
    let e ← onP (add vec.arr v.begin (v.length : Int))
    let _ ← onP (shiftRight vec.arr S p e (count : Int))
    let p ← onP (add vec.arr v.begin d)
    let p' ← onP (add vec.arr v.begin d)
    let e' ← onP (add vec.arr p' (count : Int))
    onP (fill vec.arr S p e' b)
    let p ← onP (add vec.arr v.begin d)
    pure (v, p)

/-- bit_vector.hpp:544-565, `insert(pos, first, last)`; `first` and `last` are iterators of the array `A`. -/
def vInsertRange (A : Arr) (S : ShiftSem w) (Q : Policy) (v : BV) (pos first last : BitIter w) : PV w (BV × BitIter w) := do
  let d ← upV (onMem (distance v.begin pos))
  let c ← upV (onMem (distance first last))
  let count := toSize c
  if count = 0 then do
    let p ← onP (add v.vec.arr v.begin d)
    pure (v, p)
  else do
    let vec ← upV (BV.growFor Q v count)
    let v : BV := ⟨vec, v.length + count⟩
    let p ← onP (add vec.arr v.begin d)
    let e ← onP (add vec.arr v.begin (v.length : Int))
    let _ ← onP (shiftRight vec.arr S p e (count : Int))
    let p ← onP (add vec.arr v.begin d)
    let _ ← onP (copy A vec.arr S first last p)
    let p ← onP (add vec.arr v.begin d)
    pure (v, p)

/-- bit_vector.hpp:567-576, `erase(pos)`. -/
def vErase (S : ShiftSem w) (v : BV) (pos : BitIter w) : PV w (BV × BitIter w) := do
  let e ← onP (add v.vec.arr v.begin (v.length : Int))
  let _ ← onP (shiftLeft v.vec.arr S pos e 1)
  let length := subSize v.length 1
  let vec ← upV (BV.dropWord v.vec length)
  pure (⟨vec, length⟩, pos)

/-- bit_vector.hpp:578-590, `erase(first, last)`. -/
def vEraseRange (S : ShiftSem w) (Q : Policy) (v : BV) (first last : BitIter w) : PV w (BV × BitIter w) := do
  let d ← upV (onMem (distance v.begin first))
  let count ← upV (onMem (distance first last))
  if count = 0 then pure (v, last)
  else do
    let e ← vEnd v
    let _ ← onP (shiftLeft v.vec.arr S first e count)
    let length := toSize ((v.length : Int) - count)
    let vec ← upV (v.vec.resize Q (wordCount w length))
    let v : BV := ⟨vec, length⟩
    let p ← onP (add vec.arr v.begin d)
    pure (v, p)

/-- bit_vector.hpp:618-627, `resize(count, value)`. -/
def vResizeVal (S : ShiftSem w) (Q : Policy) (v : BV) (count : Nat) (b : Bool) : PV w BV := do
  let old := v.length
  let vec ← upV (v.vec.resize Q (wordCount w count))
  let v : BV := ⟨vec, count⟩
  if v.length > old then do
    let p ← onP (add vec.arr v.begin (v.length : Int))
    let e ← vEnd v
    onP (fill vec.arr S p e b)
    pure v
  else pure v

/-- bit_vector.hpp:657-668, the loop of `debug_string`. -/
def debugLoop (A : Arr) (S : ShiftSem w) : Nat → BitIter w → BitIter w → Nat → List Char → P w (List Char)
  | 0, _, _, _, _ => up (ub .outOfFuel)
  | fuel+1, it, last, position, ret =>
    if it.bne last then do
      let ret := if position % w = 0 ∧ position ≠ 0 then ret ++ [' ']
        else if position % 8 = 0 ∧ position ≠ 0 then ret ++ ['.'] else ret
      deref A it.base
      let r ← up (lift (it.deref S))
      let b ← up r.toBool
      let ret := ret ++ [if b then '1' else '0']
      if position + 1 < 2 ^ 31 then do
        form A it.inc.base
        debugLoop A S fuel it.inc last (position + 1) ret
      else up (ub .signedOverflow)
    else pure ret

/-- bit_vector.hpp:651-670, `debug_string()`. -/
def vDebugString (S : ShiftSem w) (v : BV) : PV w (List Char) := do
  let last ← vEnd v
  onP (debugLoop v.vec.arr S (v.length + 1) v.begin last 0 [])

end Ptr
end BitLib
