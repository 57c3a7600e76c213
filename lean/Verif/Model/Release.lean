import Verif.Lemmas.Generic
import Verif.Lemmas.Code
/-
The algorithms as compiled with `NDEBUG` (C105).

The text of the algorithms is that of `Model/Generic.lean`: the same text is read here with `assert` expanding to nothing.

Simplification: where an assertion would have failed, that text is not faithful. A negative distance becomes 0 in it (`Int.toNat`), while the
conversion to `size_type` wraps around (find.hpp:54, copy.hpp:51, equal.hpp:50). Such calls are excluded from all theorems except `C105_distance`, in
which nothing is converted.
-/
namespace BitLib

/-- Programs of a build with `NDEBUG`: they act on the memory like those of `M w`. -/
def Rel (w : Nat) (α : Type) : Type := M w α

instance (w : Nat) : Monad (Rel w) := inferInstanceAs (Monad (M w))

/-- `<cassert>` with `NDEBUG` defined: `assert(c)` is `((void)0)`, so that `c` is not even evaluated. The other operations are those of the
build with assertions. -/
instance (w : Nat) : MemOps w (Rel w) where
  load := BitLib.load
  store := BitLib.store
  ub := BitLib.ub
  lift := BitLib.lift
  check _ := pure ()

/-- From every memory: either an assertion of the first program fails, or the second one does exactly what the first one does (the same
result and the same memory, or the same undefined behaviour). -/
def UnlessAssert {w : Nat} {α : Type} (x : M w α) (y : Rel w α) : Prop := ∀ m, x m = .error .assertFail ∨ y m = x m

/-- A call of an algorithm on ranges, of `bit::distance`, or of `get_word` and `write_word`. -/
inductive AlgCall (w : Nat) where
  | distance (first last : BitIter w)
  | getWord (first : BitIter w) (len : Nat)
  | writeWord (x : BitVec w) (d : BitIter w) (len : Nat)
  | copy (first last d : BitIter w)
  | move (first last d : BitIter w)
  | copyBackward (first last d : BitIter w)
  | fill (first last : BitIter w) (v : Bool)
  | transform (op : BitVec w → BitVec w) (first last d : BitIter w)
  | transform2 (op : BitVec w → BitVec w → BitVec w) (first last first2 d : BitIter w)
  | reverse (first last : BitIter w)
  | rotate (first nFirst last : BitIter w)
  | shiftLeft (first last : BitIter w) (n : Int)
  | shiftRight (first last : BitIter w) (n : Int)
  | swapRanges (first last first2 : BitIter w)
  | find (first last : BitIter w) (v : Bool)
  | count (first last : BitIter w) (v : Bool)
  | equal (first last d : BitIter w)

/-- What a call returns. -/
inductive Out (w : Nat) where
  | unit
  | it (i : BitIter w)
  | num (n : Int)
  | bool (b : Bool)
  | word (x : BitVec w)
  deriving DecidableEq

namespace AlgCall
variable {w : Nat}

/-- The build with assertions: the modelled functions (`Model/Iter`, `Model/Details`, `Model/Copy`, `Model/Shift`). -/
def debug (S : ShiftSem w) : AlgCall w → M w (Out w)
  | distance f l => do let n ← BitLib.distance f l; pure (.num n)
  | getWord f n => do let x ← BitLib.getWord S f n; pure (.word x)
  | writeWord x d n => do BitLib.writeWord S x d n; pure .unit
  | copy f l d => do let i ← BitLib.copy S f l d; pure (.it i)
  | move f l d => do let i ← BitLib.move S f l d; pure (.it i)
  | copyBackward f l d => do let i ← BitLib.copyBackward S f l d; pure (.it i)
  | fill f l v => do BitLib.fill S f l v; pure .unit
  | transform op f l d => do let i ← BitLib.transform S op f l d; pure (.it i)
  | transform2 op f l f2 d => do let i ← BitLib.transform2 S op f l f2 d; pure (.it i)
  | reverse f l => do BitLib.reverse S f l; pure .unit
  | rotate f n l => do let i ← BitLib.rotate S f n l; pure (.it i)
  | shiftLeft f l n => do let i ← BitLib.shiftLeft S f l n; pure (.it i)
  | shiftRight f l n => do let i ← BitLib.shiftRight S f l n; pure (.it i)
  | swapRanges f l f2 => do let i ← BitLib.swapRanges S f l f2; pure (.it i)
  | find f l v => do let i ← BitLib.find S f l v; pure (.it i)
  | count f l v => do let n ← BitLib.count S f l v; pure (.num n)
  | equal f l d => do let b ← BitLib.equal S f l d; pure (.bool b)

/-- The build with `NDEBUG`: the same text without assertions. -/
def release (S : ShiftSem w) : AlgCall w → Rel w (Out w)
  | distance f l => do let n ← Gen.distance f l; pure (.num n)
  | getWord f n => do let x ← Gen.getWord S f n; pure (.word x)
  | writeWord x d n => do Gen.writeWord S x d n; pure .unit
  | copy f l d => do let i ← Gen.copy S f l d; pure (.it i)
  | move f l d => do let i ← Gen.move S f l d; pure (.it i)
  | copyBackward f l d => do let i ← Gen.copyBackward S f l d; pure (.it i)
  | fill f l v => do Gen.fill S f l v; pure .unit
  | transform op f l d => do let i ← Gen.transform S op f l d; pure (.it i)
  | transform2 op f l f2 d => do let i ← Gen.transform2 S op f l f2 d; pure (.it i)
  | reverse f l => do Gen.reverse S f l; pure .unit
  | rotate f n l => do let i ← Gen.rotate S f n l; pure (.it i)
  | shiftLeft f l n => do let i ← Gen.shiftLeft S f l n; pure (.it i)
  | shiftRight f l n => do let i ← Gen.shiftRight S f l n; pure (.it i)
  | swapRanges f l f2 => do let i ← Gen.swapRanges S f l f2; pure (.it i)
  | find f l v => do let i ← Gen.find S f l v; pure (.it i)
  | count f l v => do let n ← Gen.count S f l v; pure (.num n)
  | equal f l d => do let b ← Gen.equal S f l d; pure (.bool b)

end AlgCall

/-- A program that makes calls and goes on depending on what they return. -/
inductive AlgProg (w : Nat) (α : Type) where
  | done (a : α)
  | call (c : AlgCall w) (next : Out w → AlgProg w α)

namespace AlgProg
variable {w : Nat} {α : Type}

/-- The program in the build with assertions. -/
def debug (S : ShiftSem w) : AlgProg w α → M w α
  | done a => pure a
  | call c next => do let r ← c.debug S; (next r).debug S

/-- The program in the build with `NDEBUG`. -/
def release (S : ShiftSem w) : AlgProg w α → Rel w α
  | done a => pure a
  | call c next => do let r ← c.release S; (next r).release S

end AlgProg
end BitLib
