import Verif.Model.Pointers
import Verif.Model.Client
/-
Constant evaluation of the algorithms that are declared `constexpr`, as in `constexpr auto n = count(first, last, bit1);` or in a `static_assert`. The compiler
runs the text of the function and gives up at the first step that is undefined, moves a word iterator out of its array, or calls a function that is not
declared `constexpr` (C++17 [expr.const]). The first two are the checks of `Model/Pointers`; the third is added here. What follows a call that always ends the
evaluation is left out.

The words are those of an array that the evaluation may read and write. The functions of `bit_details.hpp` that are called are all `constexpr`
(bit_details.hpp:264-370), and the compiler builtins in them are evaluated by the compilers that have them. Builds with Highway are not modelled.
-/
namespace BitLib

/-- The functions called by the algorithms that are not `constexpr`, or not in every standard. -/
inductive Fn
  | distance | advance | getWord | popcnt | shiftLeft | shiftRight | swap
  | stdFindIf | stdReverse | stdTransform | stdSwapRanges
  deriving DecidableEq, Repr

/-- bit_algorithm_details.hpp:29-48, 104-142, bit_reference.hpp:77-78, 108-121, shift.hpp:26-60, 237-253, libpopcnt.h:559, 677, 767: without `constexpr`.
The algorithms of the standard library have been `constexpr` since C++20; `std::distance`, `std::next`, `std::prev` and `std::min` in C++17. -/
def Fn.isConstexpr (cpp20 : Bool) : Fn → Bool
  | .distance | .advance | .getWord | .popcnt | .shiftLeft | .shiftRight | .swap => false
  | .stdFindIf | .stdReverse | .stdTransform | .stdSwapRanges => cpp20

/-- Why the evaluation ends without a constant: a step that `Model/Pointers` stops at, or a call. -/
inductive KStop
  | step (s : PStop)
  | call (f : Fn)
  deriving DecidableEq, Repr

/-- Constant evaluation. -/
abbrev CM (w : Nat) := StateT (Mem w) (Except KStop)

namespace CE
variable {w : Nat}

/-- Steps that need no check beyond those of `Model/Pointers`. -/
def within {α : Type} (x : P w α) : CM w α := fun m =>
  match x m with
  | .ok r => .ok r
  | .error e => .error (.step e)

/-- A function is called. -/
def enter (cpp20 : Bool) (f : Fn) : CM w Unit := fun m =>
  if f.isConstexpr cpp20 then .ok ((), m) else .error (.call f)

/-- A function is called that is not `constexpr` in any standard. -/
def stop {α : Type} (f : Fn) : CM w α := fun _ => .error (.call f)

/-- `*it` is read, which has to be a word of the array even if there are others behind it. -/
def load (A : Arr) (a : Int) : CM w (BitVec w) := within (do
  Ptr.deref A a
  Ptr.up (BitLib.load a))

/-- copy.hpp:31-51. -/
def copy (first last dFirst : BitIter w) : CM w (BitIter w) := do
  within (Ptr.up (assertViable first last))
  if first.beq last then pure dFirst else stop .distance

/-- move.hpp:26-46. -/
def move (first last dFirst : BitIter w) : CM w (BitIter w) := do
  within (Ptr.up (assertViable first last))
  if first.beq last then pure dFirst else stop .distance

/-- copy_backward.hpp:28-48. -/
def copyBackward (first last dLast : BitIter w) : CM w (BitIter w) := do
  within (Ptr.up (assertViable first last))
  if first.beq last then pure dLast else stop .distance

/-- transform.hpp:35-51, one range. -/
def transform (first last dFirst : BitIter w) : CM w (BitIter w) := do
  within (Ptr.up (assertViable first last))
  if first.beq last then pure dFirst else stop .distance

/-- transform.hpp:131-148, two ranges. -/
def transform2 (first1 last1 dFirst : BitIter w) : CM w (BitIter w) := do
  within (Ptr.up (assertViable first1 last1))
  if first1.beq last1 then pure dFirst else stop .distance

/-- equal.hpp:30-50. -/
def equal (first last : BitIter w) : CM w Bool := do
  within (Ptr.up (assertViable first last))
  if first.beq last then pure true else stop .distance

/-- find.hpp:103-124, which calls `std::find_if` first. -/
def findWords (cpp20 : Bool) (it : Int) (last : BitIter w) (v : Bool) : CM w (BitIter w) := do
  enter cpp20 .stdFindIf
  within (Ptr.up (BitLib.findWords it last v))

/-- find.hpp:34-124; `distance` is called if the bits before `last` are in the word of `first`. -/
def find (cpp20 : Bool) (A : Arr) (S : ShiftSem w) (first last : BitIter w) (v : Bool) : CM w (BitIter w) :=
  if first.pos ≠ 0 then do
    let x ← load A first.base
    let sh ← within (Ptr.up (lift (S.shr x first.pos)))
    let num := tzFor v sh
    within (Ptr.form A (first.base + (if last.pos = 0 then 1 else 0)))
    if first.base + (if last.pos = 0 then 1 else 0) = last.base then stop .distance
    else if num + first.pos < w then within (Ptr.add A first num)
    else do
      let first ← within (Ptr.add A first ((w - first.pos : Nat) : Int))
      findWords cpp20 first.base last v
  else findWords cpp20 first.base last v

/-- count.hpp:35-112; `popcnt` of libpopcnt is called if the iterators point to different words. -/
def count (A : Arr) (S : ShiftSem w) (first last : BitIter w) (v : Bool) : CM w Int := do
  within (Ptr.up (assertViable first last))
  if first.base ≠ last.base then do
    if first.pos ≠ 0 then do
      let x ← load A first.base
      let _ ← within (Ptr.up (lift (S.shr x first.pos)))
      within (Ptr.form A (first.base + 1))
      stop .popcnt
    else stop .popcnt
  else do
    let x ← load A first.base
    let y ← within (Ptr.up (lift (bextr S x first.pos (subSize last.pos first.pos))))
    pure (if v then (BitLib.popcnt y : Int) else last.diff first - (BitLib.popcnt y : Int))

/-- reverse.hpp:67-85. -/
def reverseShift (A : Arr) (lb wend : Int) (fp gap : Nat) : CM w Unit :=
  if fp < gap then do
    within (Ptr.form A (lb + 1))
    stop .shiftLeft
  else if fp > gap then do
    within (Ptr.form A wend)
    stop .shiftRight
  else pure ()

/-- reverse.hpp:28-115. -/
def reverse (cpp20 : Bool) (A : Arr) (S : ShiftSem w) (first last : BitIter w) : CM w Unit := do
  within (Ptr.up (assertViable first last))
  let gap := if last.pos = 0 then 0 else w - last.pos
  if first.pos = 0 ∧ last.pos = 0 then do
    enter cpp20 .stdReverse
    within (Ptr.up (stdReverse first.base last.base))
    enter cpp20 .stdTransform
    let _ ← within (Ptr.stdTransform A first.base last.base first.base bitswap)
    pure ()
  else if first.base ≠ last.base then do
    let firstValue ← load A first.base
    within (Ptr.form A (last.base - (if last.pos = 0 then 1 else 0)))
    let lastValue ← load A (last.base - (if last.pos = 0 then 1 else 0))
    let wend := last.base + (if last.pos = 0 then 0 else 1)
    within (Ptr.form A wend)
    enter cpp20 .stdReverse
    within (Ptr.up (stdReverse first.base wend))
    enter cpp20 .stdTransform
    let _ ← within (Ptr.stdTransform A first.base wend first.base bitswap)
    reverseShift A last.base wend first.pos gap
    within (Ptr.up (reverseFirst S first.base first.pos firstValue))
    within (Ptr.up (reverseLast S last.base last.pos lastValue))
  else do
    let x ← load A first.base
    let t ← within (Ptr.up (lift (S.shr x first.pos)))
    let t ← within (Ptr.up (lift (S.shr (bitswap t) gap)))
    within (Ptr.up (blendAt S first.base t first.pos (subSize last.pos first.pos)))

/-- swap_ranges.hpp:88-110, both ranges at the same position in their words. -/
def swapAligned (cpp20 : Bool) (A B : Arr) (S : ShiftSem w) (first1 last1 first2 : BitIter w) : CM w (BitIter w) := do
  within (Ptr.form A (first1.base + 1))
  within (Ptr.form B (first2.base + 1))
  within (Ptr.up (bitexch4 S first1.base first2.base first1.pos (w - first1.pos)))
  enter cpp20 .stdSwapRanges
  let it2 ← within (Ptr.stdSwapRanges B (first1.base + 1) last1.base (first2.base + 1))
  if last1.pos ≠ 0 then do
    within (Ptr.up (bitexch4 S last1.base it2 0 last1.pos))
    within (Ptr.up (BitIter.mk? it2 last1.pos))
  else within (Ptr.up (BitIter.mk? it2 last1.pos))

/-- swap_ranges.hpp:113-140, up to the call of `advance`. -/
def swapMisaligned {α : Type} (A B : Arr) (S : ShiftSem w) (first1 first2 : BitIter w) : CM w α := do
  let _ ← within (Ptr.swapMisHead A B S first1 first2)
  stop .advance

/-- swap_ranges.hpp:24-180; `distance` is called if the first range is in one word. -/
def swapRanges (cpp20 : Bool) (A B : Arr) (S : ShiftSem w) (first1 last1 first2 : BitIter w) : CM w (BitIter w) := do
  within (Ptr.up (assertViable first1 last1))
  if first1.beq last1 then pure first2
  else do
    within (Ptr.form A (first1.base + (if last1.pos = 0 then 1 else 0)))
    if first1.base + (if last1.pos = 0 then 1 else 0) = last1.base then stop .distance
    else if first1.pos = first2.pos then swapAligned cpp20 A B S first1 last1 first2
    else swapMisaligned A B S first1 first2

/-- bit_algorithm_details.hpp:78-102, `is_within<N>(first, last)`. -/
def isWithin (A : Arr) (N : Nat) (first last : BitIter w) : CM w Bool := within (Ptr.isWithin A N first last)

/-! ### Iterators, references and pointers

All members of `bit_iterator` and `bit_pointer` are `constexpr`, and those of `bit_reference` except `swap`. The iterators and pointers are all of one array. -/

/-- A word iterator is moved (bit_iterator.hpp:240-340, bit_pointer.hpp:240-375). -/
def place (A : Arr) (it : BitIter w) : CM w Unit := within (Ptr.form A it.base)

/-- A word is referred to: `*_current` (bit_iterator.hpp:202-235). -/
def elem (A : Arr) (a : Int) : CM w Unit := within (Ptr.deref A a)

/-- With the contents of a variable; the operation itself tells if there are none. -/
def use {α : Type} (x : Option α) (k : α → CM w Unit) : CM w Unit :=
  match x with
  | some a => k a
  | none => pure ()

/-- A pointer as a word and a position, or nothing if the operation fails. -/
def ptrTo (A : Arr) (x : Except UB (BitPtr w)) : CM w Unit :=
  match x with
  | .ok p => within (Ptr.form A p.ref.ptr)
  | .error _ => pure ()

/-- What is checked before an operation. -/
def check (A : Arr) (S : ShiftSem w) (bi : Bool) (s : Slots (BitIter w) (BitRef w) (BitPtr w)) : IOp → CM w Unit
  | .addIt _ i n | .addAssignIt i n => use (s.it i) fun a => place A (a.add n)
  | .subIt _ i n | .subAssignIt i n => use (s.it i) fun a => place A (a.sub n)
  | .incIt i | .postIncIt _ i => use (s.it i) fun a => place A a.inc
  | .decIt i | .postDecIt _ i => use (s.it i) fun a => place A a.dec
  | .distance _ _ => stop .distance
  | .derefIt _ i | .arrowIt _ i => use (s.it i) fun a => elem A a.base
  | .indexIt _ i n => use (s.it i) fun a => elem A (a.add n).base
  | .read r | .upd _ r => use (s.ref r) fun a => elem A a.ptr
  | .assign r q => do
    use (s.ref q) fun a => elem A a.ptr
    use (s.ref r) fun a => elem A a.ptr
  | .swap _ _ | .swapVal _ _ => stop .swap
  | .addPtr _ p n => use (s.ptr p) fun a => ptrTo A (a.add S bi n)
  | .subPtr _ p n => use (s.ptr p) fun a => ptrTo A (a.sub S bi n)
  | .incPtr p | .postIncPtr _ p => use (s.ptr p) fun a => ptrTo A (a.inc S bi)
  | .decPtr p | .postDecPtr _ p => use (s.ptr p) fun a => ptrTo A (a.dec S bi)
  | .indexPtr _ p n => use (s.ptr p) fun a => ptrTo A (a.add S bi n)
  | .copyIt _ _ | .diffIt _ _ | .cmpIt _ _ _ | .copyRef _ _ | .addressOf _ _ | .copyPtr _ _ | .diffPtr _ _ | .cmpPtr _ _ _ | .derefPtr _ _ => pure ()

/-- A program that uses iterators, references and pointers. -/
def client {α : Type} (A : Arr) (S : ShiftSem w) (bi : Bool) : Client α → Slots (BitIter w) (BitRef w) (BitPtr w) → CM w (α × Slots (BitIter w) (BitRef w) (BitPtr w))
  | .done x, s => pure (x, s)
  | .call op next, s => do
    check A S bi s op
    let r ← within (Ptr.up (op.run (ub .badRange) (codeIface S bi) s))
    client A S bi (next r.2) r.1

end CE
end BitLib
